import Verif.Model.Containers
import Verif.Model.Utils

/-!
# StreamingMean, StreamingVariance, WindowedFAME, StreamingMAD
-/

namespace KML

variable {F : Type} (A : Arith F)

/-! ## StreamingMean -/

/-- Members of `StreamingMean`. /repo/tools/cpp/KML/include/statistics/summary/StreamingMean.h:44-48,
/repo/tools/cpp/KML/include/IStreaming.h:84-94. `window = none` is `m_window == nullptr`. -/
structure Mean (F : Type) where
  windowSize : ℕ
  window : Option (List F)
  historyCount : ℕ
  sum : F
  deriving DecidableEq, Repr

namespace Mean

/-- Constructor. /repo/tools/cpp/KML/src/statistics/summary/StreamingMean.cc:11-14,
/repo/tools/cpp/KML/include/IStreaming.tcc:7-15. -/
def new (windowSize : ℕ) : Mean F where
  windowSize := windowSize
  window := if windowSize > 0 then some [] else none
  historyCount := 0
  sum := A.lit 0

/-- `update`. /repo/tools/cpp/KML/src/statistics/summary/StreamingMean.cc:16-30.
`front()`/`pop_front()` of an empty deque is undefined. -/
def update (m : Mean F) (x : F) : Res (Mean F) := do
  let m ← match m.window with
    | some w =>
      if w.length + 1 > m.windowSize then
        match w with
        | [] => .ub .oob
        | front :: rest => .ok { m with sum := A.sub m.sum front, window := some (rest ++ [x]) }
      else .ok { m with window := some (w ++ [x]) }
    | none => .ok m
  .ok { m with historyCount := m.historyCount + 1, sum := A.add m.sum x }

/-- `evaluate`. /repo/tools/cpp/KML/src/statistics/summary/StreamingMean.cc:32-43. -/
def evaluate (m : Mean F) : F :=
  if m.historyCount = 0 then A.lit 0
  else match m.window with
    | some w => A.div m.sum (A.ofNat w.length)
    | none => A.div m.sum (A.ofNat m.historyCount)

end Mean

/-! ## StreamingVariance -/

/-- Members of `StreamingVariance`. /repo/tools/cpp/KML/include/statistics/summary/StreamingVariance.h:70-79
and the inherited `m_window`, `m_historyCount`. -/
structure Variance (F : Type) where
  window : Option (List F)
  historyCount : ℕ
  mean : Mean F
  sumSquared : Mean F
  deriving DecidableEq, Repr

namespace Variance

/-- Constructor. /repo/tools/cpp/KML/src/statistics/summary/StreamingVariance.cc:11-16. -/
def new (windowSize : ℕ) : Variance F where
  window := if windowSize > 0 then some [] else none
  historyCount := 0
  mean := Mean.new A windowSize
  sumSquared := Mean.new A windowSize

/-- `update`. /repo/tools/cpp/KML/src/statistics/summary/StreamingVariance.cc:24-28. The inherited
`m_window` and `m_historyCount` are not touched. -/
def update (v : Variance F) (x : F) : Res (Variance F) := do
  let mean ← v.mean.update A x
  let sumSquared ← v.sumSquared.update A (A.mul x x)
  .ok { v with mean := mean, sumSquared := sumSquared }

/-- `evaluate`. /repo/tools/cpp/KML/src/statistics/summary/StreamingVariance.cc:30-34. -/
def evaluate (v : Variance F) : F :=
  let mean := v.mean.evaluate A
  A.sub (v.sumSquared.evaluate A) (A.mul mean mean)

end Variance

/-! ## WindowedFAME -/

/-- Members of `WindowedFAME`. /repo/tools/cpp/KML/include/statistics/summary/WindowedFAME.h:42-56. -/
structure Fame (F : Type) where
  median : F
  stepSize : F
  epsilon : F
  historyCount : ℕ
  deriving DecidableEq, Repr

namespace Fame

/-- Constructor. /repo/tools/cpp/KML/src/statistics/summary/WindowedFAME.cc:14-22. -/
def new (stepSize epsilon : F) : Res (Fame F) :=
  if A.lt epsilon (A.lit 0) || A.le (A.lit 1) epsilon then
    .throw "Epsilon must be in half closed interval [0, 1)"
  else .ok { median := A.lit 0, stepSize := stepSize, epsilon := epsilon, historyCount := 0 }

/-- `update`. /repo/tools/cpp/KML/src/statistics/summary/WindowedFAME.cc:24-49. -/
def update (f : Fame F) (x : F) : Fame F :=
  let f := if f.historyCount = 0 then
      { f with median := x, stepSize := A.max (A.div (A.abs x) (A.lit 2)) f.stepSize }
    else f
  let f := if A.lt x f.median then { f with median := A.sub f.median f.stepSize }
    else if A.lt f.median x then { f with median := A.add f.median f.stepSize }
    else f
  let f := if f.historyCount ≠ 0 && A.lt (A.abs (A.sub x f.median)) f.stepSize then
      { f with stepSize := A.div f.stepSize (A.lit 2) }
    else f
  { f with stepSize := A.mul f.stepSize (A.add (A.lit 1) f.epsilon),
           historyCount := f.historyCount + 1 }

/-- `evaluate`. /repo/tools/cpp/KML/src/statistics/summary/WindowedFAME.cc:51. -/
def evaluate (f : Fame F) : F := f.median

end Fame

/-! ## StreamingMAD -/

/-- Members of `StreamingMAD`. /repo/tools/cpp/KML/include/metrics/StreamingMAD.h:65-74. -/
structure Mad (F : Type) where
  scoreMedian : Fame F
  errorMedian : Fame F
  historyCount : ℕ
  deriving DecidableEq, Repr

namespace Mad

/-- Constructor: two default `WindowedFAME(0.1, 0.0)`.
/repo/tools/cpp/KML/src/metrics/StreamingMAD.cc:13-17,
/repo/tools/cpp/KML/include/statistics/summary/WindowedFAME.h:28. -/
def new : Res (Mad F) := do
  let s ← Fame.new A (A.lit (1 / 10)) (A.lit 0)
  let e ← Fame.new A (A.lit (1 / 10)) (A.lit 0)
  .ok { scoreMedian := s, errorMedian := e, historyCount := 0 }

/-- `update`. /repo/tools/cpp/KML/src/metrics/StreamingMAD.cc:25-30. -/
def update (m : Mad F) (x : F) : Mad F :=
  let s := m.scoreMedian.update A x
  { scoreMedian := s
    errorMedian := m.errorMedian.update A (A.abs (A.sub x s.evaluate))
    historyCount := m.historyCount + 1 }

/-- `evaluate`. /repo/tools/cpp/KML/src/metrics/StreamingMAD.cc:32. -/
def evaluate (m : Mad F) : F := m.errorMedian.evaluate

end Mad

end KML
