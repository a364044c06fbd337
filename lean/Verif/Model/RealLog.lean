import Verif.Model.Entropy
import Mathlib.Analysis.SpecialFunctions.Log.Base

/-!
# Exact real arithmetic with logarithms
-/

namespace KML

/-- Real numbers with the base-2 logarithm. Not code: the arithmetic in which the entropy theorems are stated. -/
noncomputable def realL : LArith ℝ where
  toArith := exact ℝ
  log2 := Real.logb 2
  neg x := -x
  ceilNat x := ⌈x⌉₊

end KML
