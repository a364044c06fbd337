import Verif.Model.Quantile
import Verif.Spec.Quantile

/-!
# The precondition of `std::sort` in StreamingP2Quantile

The functions of `Model/Quantile.lean` sort with any comparison. Here the two calls of `std::sort` are undefined unless
`operator<` is a strict weak ordering of the five heights, as the C++ standard demands ([alg.sorting]). On numbers it always
is; with a NaN among different numbers it is not. The classes built on `StreamingP2Quantile` are repeated on top.
(If all numbers are equal, NaN counts as equal to them and the order of the result is unspecified; the model takes one.)
-/

namespace KML

variable {F : Type} (A : Arith F)

/-- Neither is less than the other. -/
def Arith.incomp (a b : F) : Bool := !A.lt a b && !A.lt b a

/-- `operator<` is a strict weak ordering of the elements. -/
def sortable (l : List F) : Bool :=
  l.all fun a => !A.lt a a && l.all fun b => l.all fun c =>
    (!(A.lt a b && A.lt b c) || A.lt a c) && (!(A.incomp a b && A.incomp b c) || A.incomp a c)

namespace P2

/-- `update`. /repo/tools/cpp/KML/src/statistics/summary/StreamingP2Quantile.cc:33-75, the sort in line 42. -/
def updateStrict (p : P2 F) (x : F) : Res (P2 F) :=
  if p.historyCount = 4 && !sortable A (p.heights.toList.set 4 x) then .ub .badSort else p.update A x

/-- `evaluate`. /repo/tools/cpp/KML/src/statistics/summary/StreamingP2Quantile.cc:77-89, the sort in line 82. -/
def evaluateStrict (p : P2 F) : Res (F × P2 F) :=
  if decide (p.historyCount ≤ 5) && !sortable A p.heights.toList then .ub .badSort else p.evaluate A

/-- One call. -/
def stepStrict (p : P2 F) : QOp F → Res (List F × P2 F)
  | .update x => do
    let p ← p.updateStrict A x
    .ok ([], p)
  | .evaluate => do
    let (v, p) ← p.evaluateStrict A
    .ok ([v], p)
  | .clear => .ok ([], p.clear)

/-- A history of calls. -/
def runStrict (p : P2 F) : List (QOp F) → Res (List F × P2 F)
  | [] => .ok ([], p)
  | o :: os => do
    let (v, p) ← p.stepStrict A o
    let (vs, p) ← runStrict p os
    .ok (v ++ vs, p)

end P2

namespace WP2

/-- `update`. /repo/tools/cpp/KML/src/statistics/summary/WindowedP2Quantile.cc:22-34. -/
def updateStrict (w : WP2 F) (x : F) : Res (WP2 F) := do
  let n := w.historyCount + 1
  let p2 ← w.p2.updateStrict A x
  if w.windowSize > 0 then
    if n % (w.windowSize + 1) = 0 then do
      let (v, p2) ← p2.evaluateStrict A
      .ok { w with historyCount := n, previous := v, p2 := p2.clear }
    else .ok { w with historyCount := n, p2 := p2 }
  else .ok { w with historyCount := n, p2 := p2 }

/-- `evaluate`. /repo/tools/cpp/KML/src/statistics/summary/WindowedP2Quantile.cc:36-46. -/
def evaluateStrict (w : WP2 F) : Res (F × WP2 F) := do
  if w.historyCount < w.windowSize then do
    let (v, p2) ← w.p2.evaluateStrict A
    .ok (v, { w with p2 := p2 })
  else if w.windowSize = 0 then .ub .divZero
  else do
    let w2 := A.ofNat (w.historyCount % w.windowSize + 1)
    let w1 := A.sub (A.lit 1) w2
    let (v, p2) ← w.p2.evaluateStrict A
    .ok (A.add (A.mul w1 w.previous) (A.mul w2 v), { w with p2 := p2 })

end WP2

namespace IQR

/-- `update`. /repo/tools/cpp/KML/src/statistics/summary/StreamingIQR.cc:30-35. -/
def updateStrict (q : IQR F) (x : F) : Res (IQR F) := do
  let l ← q.low.updateStrict A x
  let h ← q.high.updateStrict A x
  .ok { low := l, high := h, historyCount := q.historyCount + 1 }

/-- `evaluate`. /repo/tools/cpp/KML/src/statistics/summary/StreamingIQR.cc:37. -/
def evaluateStrict (q : IQR F) : Res (F × IQR F) := do
  let (h, high) ← q.high.evaluateStrict A
  let (l, low) ← q.low.evaluateStrict A
  .ok (A.sub h l, { q with low := low, high := high })

end IQR

end KML
