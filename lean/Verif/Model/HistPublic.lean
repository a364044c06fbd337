import Verif.Model.Histogram

/-!
# The public functions of a histogram that change it

Besides `update` and `reset` the class offers `add` and `decayCounts`, the two halves of an `update` without the merge
(/repo/tools/cpp/KML/include/data_structures/histograms/IStreamingHistogram.h:124-128, 147-150).
-/

namespace KML

/-- A call from outside. -/
inductive HCall (F : Type) where
  | update (x : F)
  | add (x : F)
  | decay
  deriving DecidableEq, Repr

/-- Such a call. /repo/tools/cpp/KML/include/data_structures/histograms/IStreamingHistogram.h:124-128, 147-150,
/repo/tools/cpp/KML/include/data_structures/histograms/StreamingHistogram.h:54-58. -/
def Hist.call {F : Type} (A : Arith F) (h : Hist F) : HCall F → Res (Hist F)
  | .update x => h.update A x
  | .add x => h.add A x
  | .decay => h.decayCounts

/-- A call from outside, or an assignment to the window size, a public data member that is not constant. -/
inductive HWOp (F : Type) where
  | call (c : HCall F)
  | assign (n : ℕ)
  deriving DecidableEq, Repr

/-- Such a call, or `m_windowSize = n`. /repo/tools/cpp/KML/include/data_structures/IDataStructure.h:23, 64-67 (public). The deque
of indices keeps the length it got from the constructor. -/
def Hist.wcall {F : Type} (A : Arith F) (h : Hist F) : HWOp F → Res (Hist F)
  | .call c => h.call A c
  | .assign n => .ok { h with windowSize := n }

/-- An observation, or a write through the pointer that `getBin` hands out. -/
inductive HEOp (F : Type) where
  | update (x : F)
  | setEdges (i : ℕ) (l r : F)
  | setCount (i n : ℕ)
  deriving DecidableEq, Repr

/-- `update(x)`; `auto b = getBin(i); b->m_left = l; b->m_right = r`; `getBin(i)->m_count = n`. The pointer is not to a constant bin
and the three members are public. /repo/tools/cpp/KML/include/data_structures/histograms/IStreamingHistogram.tcc:364-374,
/repo/tools/cpp/KML/include/data_structures/histograms/IBin.h:84-101. Counts are natural numbers here: a written count so large that a later
sum of counts passes `2^64` is outside the model. -/
def Hist.edit {F : Type} (A : Arith F) (h : Hist F) : HEOp F → Res (Hist F)
  | .update x => h.update A x
  | .setEdges i l r => do
    let b ← h.getBin i
    .ok { h with bins := h.bins.set i { b with left := l, right := r } }
  | .setCount i n => do
    let b ← h.getBin i
    .ok { h with bins := h.bins.set i { b with count := n } }

/-- An observation, or any change to the deque of indices by a derived class, which gets it from the protected `getWindow`. -/
inductive HDOp (F : Type) where
  | update (x : F)
  | setWindow (w : List ℕ)
  deriving DecidableEq, Repr

/-- `update(x)`; `*getWindow() = w` in a derived class, which stands for every change of the deque.
/repo/tools/cpp/KML/include/data_structures/histograms/IStreamingHistogram.h:163-167,
/repo/tools/cpp/KML/include/data_structures/histograms/IStreamingHistogram.tcc:352-356. -/
def Hist.redeque {F : Type} (A : Arith F) (h : Hist F) : HDOp F → Res (Hist F)
  | .update x => h.update A x
  | .setWindow w => .ok { h with window := w }

end KML
