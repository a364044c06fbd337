import Verif.Model.Stats

/-!
# Editing the window of a statistic

`m_window` is a public member of `IStreaming`, and `getWindow()` returns it as a pointer to a deque that may be changed:
`mean.getWindow()->clear();`, `mean.getWindow()->push_back(x);`.
-/

namespace KML

/-- An update, or an edit of the window through `getWindow()`. -/
inductive EOp (F : Type) where
  | update (x : F)
  | edit (f : List F → List F)

/-- `*m.getWindow() = f(*m.getWindow())`; without a window (a null pointer) the caller cannot edit anything.
/repo/tools/cpp/KML/include/IStreaming.tcc:32-36, IStreaming.h:23, 76-84 (public). -/
def Mean.edit {F : Type} (m : Mean F) (f : List F → List F) : Mean F := { m with window := m.window.map f }

/-- One step. /repo/tools/cpp/KML/src/statistics/summary/StreamingMean.cc:16-30. -/
def Mean.estep {F : Type} (A : Arith F) (m : Mean F) : EOp F → Res (Mean F)
  | .update x => m.update A x
  | .edit f => .ok (m.edit f)

end KML
