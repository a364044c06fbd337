import Verif.Spec.Queue
import Mathlib.Algebra.Order.Field.Basic
import Mathlib.Algebra.BigOperators.Group.List.Basic

/-!
# Specification: textbook statistics of a finite sample

Direct definitions on lists, independent of the streaming algorithms.
-/

namespace KML.Spec

variable {K : Type} [Field K] [LinearOrder K]

/-- Arithmetic mean; `0` for an empty sample. -/
def mean (l : List K) : K := l.sum / l.length

/-- Population variance: mean squared deviation from the mean; `0` for an empty sample. -/
def variance (l : List K) : K := mean (l.map fun x => (x - mean l) ^ 2)

/-- Sum of the magnitudes. -/
def absSum (l : List K) : K := (l.map fun x => |x|).sum

/-- The observations a window of size `W` has already dropped. -/
def evicted (W : ℕ) (l : List K) : List K := if W = 0 then [] else l.take (l.length - W)

/-- `lo ≤ every observation ≤ hi`. -/
def InRange (lo hi : K) (l : List K) : Prop := ∀ x ∈ l, lo ≤ x ∧ x ≤ hi

end KML.Spec
