import Verif.Model.Histogram

/-!
# StreamingEntropy and Utils::xlogx
-/

namespace KML

/-- Arithmetic with `std::log2` of positive numbers, unary minus and, for the constructor, `std::ceil` of a
non-negative number converted to `size_t`. -/
structure LArith (F : Type) extends Arith F where
  log2 : F → F
  neg : F → F
  ceilNat : F → ℕ

variable {F : Type} (L : LArith F)

/-- `xlogx`. /repo/tools/cpp/KML/src/utils/Utils.cc:39-52. (It also prints a negative input.) -/
def Utils.xlogx (x : F) : Res F :=
  if L.lt x (L.lit 0) then .throw "Input item must be >= 0!"
  else if L.eq (L.lit 0) x then .ok (L.lit 0)
  else .ok (L.mul x (L.log2 x))

/-- Members of `StreamingEntropy`.
/repo/tools/cpp/KML/include/statistics/summary/StreamingEntropy.h:59-68, IStreaming.h:81-94. The window is a
`std::deque<double>` of bin indices; an index converts to `double` and back unchanged (below 2^53).
`window = none` is a null `m_window`. -/
structure Entropy (F : Type) where
  windowSize : ℕ
  window : Option (List ℕ)
  historyCount : ℕ
  hist : Hist F
  entropy : F
  deriving DecidableEq, Repr

namespace Entropy

/-- Constructor. /repo/tools/cpp/KML/src/statistics/summary/StreamingEntropy.cc:22-33. `std::log2(0)` is minus
infinity, whose conversion to `size_t` is undefined. -/
def new (windowSize numBins : ℕ) : Res (Entropy F) := do
  let bins ← if numBins = 0 then
      if windowSize = 0 then .ub .badConv
      else .ok (Nat.max numBins (L.ceilNat (L.log2 (L.ofNat windowSize)) + 1))
    else .ok numBins
  .ok { windowSize := windowSize
        window := if windowSize > 0 then some [] else none
        historyCount := 0
        hist := Hist.new bins windowSize
        entropy := L.lit 0 }

/-- `increment`. /repo/tools/cpp/KML/src/statistics/summary/StreamingEntropy.cc:51-67. -/
def increment (e : Entropy F) (index : ℕ) : Res (Entropy F) := do
  let n := L.ofNat e.hist.getTotalCount
  let bin ← e.hist.getBin index
  let count := L.ofNat bin.count
  let x1 ← Utils.xlogx L (L.div count n)
  let x2 ← Utils.xlogx L (L.div (L.max (L.lit 0) (L.sub count (L.lit 1))) n)
  let rhs := L.add (L.neg x1) x2
  if L.eq (L.lit 1) n then .ok { e with entropy := rhs }
  else
    let r := L.div (L.sub n (L.lit 1)) n
    let lhs := L.mul r (L.sub e.entropy (L.log2 r))
    .ok { e with entropy := L.add lhs rhs }

/-- `decrement`. /repo/tools/cpp/KML/src/statistics/summary/StreamingEntropy.cc:69-79. -/
def decrement (e : Entropy F) (index : ℕ) : Res (Entropy F) := do
  let one := L.lit 1
  let n := L.sub (L.ofNat e.hist.getTotalCount) one
  let bin ← e.hist.getBin index
  let count := L.max (L.lit 0) (L.sub (L.ofNat bin.count) one)
  let x1 ← Utils.xlogx L (L.div (L.add count one) (L.add n one))
  let x2 ← Utils.xlogx L (L.div count (L.add n one))
  let entropy := L.add (L.mul (L.div (L.add n one) n) (L.sub (L.add e.entropy x1) x2))
    (L.log2 (L.div n (L.add n one)))
  .ok { e with entropy := entropy }

/-- `update`. /repo/tools/cpp/KML/src/statistics/summary/StreamingEntropy.cc:35-49. -/
def update (e : Entropy F) (x : F) : Res (Entropy F) := do
  let index ← e.hist.binSearch L.toArith x
  match e.window with
  | none => .ub .nullDeref
  | some w => do
    let w := w ++ [index]
    let e ← match w with
      | front :: rest =>
        if w.length > e.windowSize then do
          let e ← e.decrement L front
          .ok { e with window := some rest }
        else .ok { e with window := some w }
      | [] => .ub .oob
    let hist ← e.hist.update L.toArith x
    let e ← ({ e with hist := hist } : Entropy F).increment L index
    .ok { e with historyCount := e.historyCount + 1 }

/-- `evaluate`. /repo/tools/cpp/KML/src/statistics/summary/StreamingEntropy.cc:81. -/
def evaluate (e : Entropy F) : F := e.entropy

end Entropy

end KML
