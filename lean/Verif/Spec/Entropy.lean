import Mathlib.Analysis.SpecialFunctions.Log.Base
import Mathlib.Data.List.Dedup

/-!
# Shannon entropy of a list of observations
-/

namespace KML.Spec

/-- Base-2 Shannon entropy of the empirical distribution of `xs`: minus the sum, over the different values `v`, of
`p v * log2 (p v)`, where `p v` is the fraction of the observations equal to `v`. -/
noncomputable def entropy (xs : List ℝ) : ℝ :=
  -(xs.dedup.map fun v => (xs.count v : ℝ) / xs.length * Real.logb 2 ((xs.count v : ℝ) / xs.length)).sum

end KML.Spec
