import Verif.Model.Base

/-!
# Utils and IBin
-/

namespace KML

variable {F : Type} (A : Arith F)

namespace Utils

/-- `fabs(a) < fabs(b) ? fabs(b) : fabs(a)`. /repo/tools/cpp/KML/src/utils/Utils.cc:20, 31, 36. -/
def larger (a b : F) : F := if A.lt (A.abs a) (A.abs b) then A.abs b else A.abs a

/-- `fabs(a) > fabs(b) ? fabs(b) : fabs(a)`. /repo/tools/cpp/KML/src/utils/Utils.cc:26. -/
def smaller (a b : F) : F := if A.lt (A.abs b) (A.abs a) then A.abs b else A.abs a

/-- `approximatelyEqual`. /repo/tools/cpp/KML/src/utils/Utils.cc:17-21. -/
def approximatelyEqual (a b eps : F) : Bool :=
  A.le (A.abs (A.sub a b)) (A.mul (larger A a b) eps)

/-- `essentiallyEqual`. /repo/tools/cpp/KML/src/utils/Utils.cc:23-27. -/
def essentiallyEqual (a b eps : F) : Bool :=
  A.le (A.abs (A.sub a b)) (A.mul (smaller A a b) eps)

/-- `definitelyGreaterThan`. /repo/tools/cpp/KML/src/utils/Utils.cc:29-32. -/
def definitelyGreaterThan (a b eps : F) : Bool :=
  A.lt (A.mul (larger A a b) eps) (A.sub a b)

/-- `definitelyLessThan`. /repo/tools/cpp/KML/src/utils/Utils.cc:34-37. -/
def definitelyLessThan (a b eps : F) : Bool :=
  A.lt (A.mul (larger A a b) eps) (A.sub b a)

/-- The default `epsilon = 0.0001`. /repo/tools/cpp/KML/include/utils/Utils.h:13-29. -/
def defaultEps : F := A.lit (1 / 10000)

/-- The tolerance `0.000001` of `IBin::operator+`.
/repo/tools/cpp/KML/include/data_structures/histograms/IBin.tcc:69, 73. -/
def plusEps : F := A.lit (1 / 1000000)

end Utils

/-- `IBin<T>`. /repo/tools/cpp/KML/include/data_structures/histograms/IBin.h:19-100; constructors, getters and setters
IBin.tcc:11-62. -/
structure Bin (F : Type) where
  left : F
  right : F
  count : ℕ
  deriving DecidableEq, Repr

namespace Bin

open Utils

/-- `operator+`. /repo/tools/cpp/KML/include/data_structures/histograms/IBin.tcc:65-80. -/
def add (x y : Bin F) : Bin F where
  left := if definitelyLessThan A y.left x.left (plusEps A) then y.left else x.left
  right := if definitelyGreaterThan A y.right x.right (plusEps A) then y.right else x.right
  count := x.count + y.count

/-- `operator+=`: the stored value and the returned copy are the same bin.
/repo/tools/cpp/KML/include/data_structures/histograms/IBin.tcc:82-87. -/
def addAssign (x y : Bin F) : Bin F × Bin F :=
  let this := add A x y
  (this, this)

/-- `operator<`. /repo/tools/cpp/KML/include/data_structures/histograms/IBin.tcc:89-93. -/
def lt (x y : Bin F) : Bool := definitelyLessThan A x.left y.left (defaultEps A)

/-- `operator==`. /repo/tools/cpp/KML/include/data_structures/histograms/IBin.tcc:95-100. -/
def eq (x y : Bin F) : Bool :=
  essentiallyEqual A x.left y.left (defaultEps A) && essentiallyEqual A x.right y.right (defaultEps A)

end Bin

end KML
