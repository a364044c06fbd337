import Mathlib.Order.Lattice
import Mathlib.Algebra.Order.Field.Basic
import Mathlib.Data.List.Dedup

/-!
# What a histogram should be

Small definitions used to state the histogram properties.
-/

namespace KML.Spec

variable {K : Type} [LinearOrder K]

/-- `t` lists the values of `xs` in increasing order, each with its multiplicity. -/
def IsFreqTable (t : List (K × ℕ)) (xs : List K) : Prop :=
  (t.map Prod.fst).Pairwise (· < ·) ∧ ∀ v c, (v, c) ∈ t ↔ v ∈ xs ∧ c = xs.count v

/-- Number of different values in a list. -/
def distinct (xs : List K) : ℕ := xs.dedup.length

/-- Number of elements below `v`. -/
def below (xs : List K) (v : K) : ℕ := (xs.filter (· < v)).length

/-- Different values of `xs` differ by more than the relative tolerance `e`. -/
def Separated [Field K] (e : K) (xs : List K) : Prop :=
  ∀ a ∈ xs, ∀ b ∈ xs, a < b → e * max |a| |b| < b - a

/-- Running sums. -/
def IsRunningSum [Field K] (ps cs : List K) : Prop :=
  cs.length = ps.length ∧ ∀ i, ∀ c, cs[i]? = some c → c = (ps.take (i + 1)).sum

/-- `t` lists disjoint intervals from left to right, each with the number of elements of `xs` in it; the ends are
elements of `xs`, and every element of `xs` is in one of the intervals. -/
def IsHistogram (t : List ((K × K) × ℕ)) (xs : List K) : Prop :=
  t.Pairwise (fun e f => e.1.2 < f.1.1) ∧
  (∀ e ∈ t, e.1.1 ≤ e.1.2 ∧ e.1.1 ∈ xs ∧ e.1.2 ∈ xs ∧
    e.2 = (xs.filter fun x => e.1.1 ≤ x ∧ x ≤ e.1.2).length) ∧
  ∀ x ∈ xs, ∃ e ∈ t, e.1.1 ≤ x ∧ x ≤ e.1.2

instance (t : List ((K × K) × ℕ)) (xs : List K) : Decidable (IsHistogram t xs) := by
  unfold IsHistogram; infer_instance

end KML.Spec
