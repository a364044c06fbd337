import Verif.Spec.Quantile
import Verif.Model.Stats
import Verif.Model.Entropy

/-!
# Assigning the number of observations

`m_historyCount` is a public data member of `IStreaming`, not constant, so that `q.m_historyCount = n;` is part of the
interface of every statistic.
-/

namespace KML

/-- A call on a quantile estimator, or an assignment to its number of observations. -/
inductive HOp (F : Type) where
  | call (o : QOp F)
  | assign (n : ℕ)
  deriving DecidableEq, Repr

/-- The observations of a history. -/
def HOp.observations {F : Type} : List (HOp F) → List F
  | [] => []
  | .call (.update x) :: os => x :: observations os
  | _ :: os => observations os

/-- `m_historyCount = n`. /repo/tools/cpp/KML/include/IStreaming.h:23, 91-94 (public). -/
def P2.assign {F : Type} (p : P2 F) (n : ℕ) : P2 F := { p with historyCount := n }

/-- A history: the values of the `evaluate` calls and the final object.
/repo/tools/cpp/KML/src/statistics/summary/StreamingP2Quantile.cc:33-89, 173. -/
def P2.hrun {F : Type} (A : Arith F) : P2 F → List (HOp F) → Res (List F × P2 F)
  | p, [] => .ok ([], p)
  | p, .assign n :: os => P2.hrun A (p.assign n) os
  | p, .call o :: os => do
    let (vs, p) ← p.step A o
    let (ws, p) ← P2.hrun A p os
    .ok (vs ++ ws, p)

/-- A call on a statistic, or an assignment to its number of observations. The count is unbounded here; in the code an update
at 2^64 - 1 leaves it at 0, which is the history in which 0 is assigned after that update (and, for WindowedP2Quantile, which
takes the new count modulo `W + 1`, in which `W` is assigned before it). -/
inductive AOp (F : Type) where
  | call (o : SOp F)
  | assign (n : ℕ)
  deriving DecidableEq, Repr

/-- A history of calls and assignments: the values of the `evaluate` calls and the final object.
/repo/tools/cpp/KML/include/IStreaming.h:23, 50-94. -/
def AOp.run {σ F : Type} (update : σ → F → Res σ) (evaluate : σ → Res (F × σ)) (assign : σ → ℕ → σ) :
    σ → List (AOp F) → Res (List F × σ)
  | s, [] => .ok ([], s)
  | s, .assign n :: os => AOp.run update evaluate assign (assign s n) os
  | s, .call (.update x) :: os => do
    let s ← update s x
    AOp.run update evaluate assign s os
  | s, .call .evaluate :: os => do
    let (v, s) ← evaluate s
    let (vs, s) ← AOp.run update evaluate assign s os
    .ok (v :: vs, s)

/-- `m_historyCount = n`. /repo/tools/cpp/KML/include/IStreaming.h:23, 91-94 (public). -/
def Mean.assign {F : Type} (m : Mean F) (n : ℕ) : Mean F := { m with historyCount := n }

/-- `m_historyCount = n`. /repo/tools/cpp/KML/include/IStreaming.h:23, 91-94 (public). -/
def Variance.assign {F : Type} (v : Variance F) (n : ℕ) : Variance F := { v with historyCount := n }

/-- `m_historyCount = n`. /repo/tools/cpp/KML/include/IStreaming.h:23, 91-94 (public). -/
def Mad.assign {F : Type} (m : Mad F) (n : ℕ) : Mad F := { m with historyCount := n }

/-- `m_historyCount = n`. /repo/tools/cpp/KML/include/IStreaming.h:23, 91-94 (public). -/
def IQR.assign {F : Type} (q : IQR F) (n : ℕ) : IQR F := { q with historyCount := n }

/-- `m_historyCount = n`. /repo/tools/cpp/KML/include/IStreaming.h:23, 91-94 (public). -/
def Fame.assign {F : Type} (f : Fame F) (n : ℕ) : Fame F := { f with historyCount := n }

/-- `m_historyCount = n`, of the outer object. /repo/tools/cpp/KML/include/IStreaming.h:23, 91-94 (public). -/
def WP2.assign {F : Type} (w : WP2 F) (n : ℕ) : WP2 F := { w with historyCount := n }

/-- `m_historyCount = n`. /repo/tools/cpp/KML/include/IStreaming.h:23, 91-94 (public). -/
def Entropy.assign {F : Type} (e : Entropy F) (n : ℕ) : Entropy F := { e with historyCount := n }

end KML
