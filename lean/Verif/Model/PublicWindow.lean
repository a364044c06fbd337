import Verif.Model.Containers

/-!
# Assigning the window size

`m_windowSize` is a public data member of `IDataStructure`, not constant, so that `b.m_windowSize = n;` is part of the
interface of both containers.
-/

namespace KML

/-- A call on a container, or an assignment to its window size. -/
inductive WOp (α : Type) where
  | call (o : COp α)
  | assign (n : ℕ)
  deriving DecidableEq, Repr

/-- `m_windowSize = n`. /repo/tools/cpp/KML/include/data_structures/IDataStructure.h:23, 64-67 (public). The buffer of a
RingBuffer keeps the length it got from the constructor: RingBuffer.tcc:11-17. -/
def RingBuffer.wstep {α : Type} (dflt : α) (b : RingBuffer α) : WOp α → Res (COut α × RingBuffer α)
  | .call o => b.step dflt o
  | .assign n => .ok (.unit, { b with windowSize := n })

/-- `m_windowSize = n`. /repo/tools/cpp/KML/include/data_structures/IDataStructure.h:23, 64-67 (public). -/
def LinkedList.wstep {α : Type} (dflt : α) (l : LinkedList α) : WOp α → Res (COut α × LinkedList α)
  | .call o => l.step dflt o
  | .assign n => .ok (.unit, { l with windowSize := n })

end KML
