import Verif.Model.Quantile
import Mathlib.Order.Basic

/-!
# Specification: order statistics, and histories of calls on a quantile estimator
-/

namespace KML

namespace Spec

/-- `v` is the element of rank `k` (counting from 0) of the sample `l`: at most `k` elements are smaller
and more than `k` are not larger. -/
def IsRank {K : Type} [LinearOrder K] (l : List K) (k : ℕ) (v : K) : Prop :=
  v ∈ l ∧ (l.filter (· < v)).length ≤ k ∧ k < (l.filter (· ≤ v)).length

/-- `v` is the smallest element. -/
def IsMin {K : Type} [LinearOrder K] (l : List K) (v : K) : Prop := v ∈ l ∧ ∀ x ∈ l, v ≤ x

/-- `v` is the largest element. -/
def IsMax {K : Type} [LinearOrder K] (l : List K) (v : K) : Prop := v ∈ l ∧ ∀ x ∈ l, x ≤ v

end Spec

/-- A public call on a `StreamingP2Quantile`. -/
inductive QOp (F : Type)
  | update (x : F)
  | evaluate
  | clear
  deriving DecidableEq, Repr

namespace P2

variable {F : Type} (A : Arith F)

/-- One call: the returned values (none or one) and the object afterwards. -/
def step (p : P2 F) : QOp F → Res (List F × P2 F)
  | .update x => do
    let p ← p.update A x
    .ok ([], p)
  | .evaluate => do
    let (v, p) ← p.evaluate A
    .ok ([v], p)
  | .clear => .ok ([], p.clear)

/-- A history of calls: the values returned by its `evaluate` calls and the final object. -/
def run (p : P2 F) : List (QOp F) → Res (List F × P2 F)
  | [] => .ok ([], p)
  | o :: os => do
    let (v, p) ← p.step A o
    let (vs, p) ← run p os
    .ok (v ++ vs, p)

end P2

/-- The observations given by a history. -/
def QOp.observations {F : Type} : List (QOp F) → List F
  | [] => []
  | .update x :: os => x :: observations os
  | _ :: os => observations os

end KML

namespace KML

/-- A public call on a streaming statistic without `clear`. -/
inductive SOp (F : Type)
  | update (x : F)
  | evaluate
  deriving DecidableEq, Repr

/-- A history of calls on an object with the given `update` and `evaluate`: the values returned by the
`evaluate` calls, and the final object. -/
def SOp.run {σ F : Type} (update : σ → F → Res σ) (evaluate : σ → Res (F × σ)) (s : σ) :
    List (SOp F) → Res (List F × σ)
  | [] => .ok ([], s)
  | .update x :: os => do
    let s ← update s x
    SOp.run update evaluate s os
  | .evaluate :: os => do
    let (v, s) ← evaluate s
    let (vs, s) ← SOp.run update evaluate s os
    .ok (v :: vs, s)

/-- The observations given by a history. -/
def SOp.observations {F : Type} : List (SOp F) → List F
  | [] => []
  | .update x :: os => x :: observations os
  | .evaluate :: os => observations os

end KML
