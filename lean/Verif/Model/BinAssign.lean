import Verif.Model.Utils

/-!
# Assignment of bins

`operator=` of `IBin` returns a reference to the object, `operator+=` returns a copy. A chain such as `(a += b) += c` shows the
difference. Objects are numbered; the variables of the caller come first, temporaries are added at the end.
-/

namespace KML

/-- Left-nested assignments whose sources are variables: `((a += b) = c) += a`. -/
inductive BChain where
  | var (i : ℕ)
  | copy (c : BChain) (j : ℕ)
  | move (c : BChain) (j : ℕ)
  | plus (c : BChain) (j : ℕ)
  deriving DecidableEq, Repr

variable {F : Type} (A : Arith F)

/-- The object with number `i`; a number without object does not occur. -/
def Bin.at (m : List (Bin F)) (i : ℕ) : Res (Bin F) :=
  match m[i]? with
  | some b => .ok b
  | none => .ub .oob

/-- `operator=(const IBin&)`. /repo/tools/cpp/KML/include/data_structures/histograms/IBin.tcc:31-42. -/
def Bin.copyAssign (m : List (Bin F)) (this rhs : ℕ) : Res (List (Bin F)) :=
  if this ≠ rhs then do
    let b ← Bin.at m rhs
    .ok (m.set this { left := b.left, right := b.right, count := b.count })
  else .ok m

/-- `operator=(IBin&&)`: the source keeps its value.
/repo/tools/cpp/KML/include/data_structures/histograms/IBin.tcc:52-63. -/
def Bin.moveAssign (m : List (Bin F)) (this rhs : ℕ) : Res (List (Bin F)) :=
  if this ≠ rhs then do
    let b ← Bin.at m rhs
    .ok (m.set this { left := b.left, right := b.right, count := b.count })
  else .ok m

/-- The memory after a chain, and the object it denotes. For `+=`: the sum (a temporary, gone at once) is assigned to the object,
then the copy constructor makes the returned object.
/repo/tools/cpp/KML/include/data_structures/histograms/IBin.tcc:23-29, 65-87. -/
def BChain.eval (m : List (Bin F)) : BChain → Res (List (Bin F) × ℕ)
  | .var i => do
    let _ ← Bin.at m i
    .ok (m, i)
  | .copy c j => do
    let (m, this) ← eval m c
    let m ← Bin.copyAssign m this j
    .ok (m, this)
  | .move c j => do
    let (m, this) ← eval m c
    let m ← Bin.moveAssign m this j
    .ok (m, this)
  | .plus c j => do
    let (m, this) ← eval m c
    let x ← Bin.at m this
    let y ← Bin.at m j
    let r := Bin.addAssign A x y
    .ok (m.set this r.1 ++ [r.2], m.length)

end KML
