import Verif.Model.Base

/-!
# StreamingP2Quantile, WindowedP2Quantile, StreamingIQR
-/

namespace KML

/-- A `std::vector` of exactly five elements.
/repo/tools/cpp/KML/src/statistics/summary/StreamingP2Quantile.cc:28-30 gives all three vectors length 5
and nothing ever resizes them. -/
structure Five (α : Type) where
  x0 : α
  x1 : α
  x2 : α
  x3 : α
  x4 : α
  deriving DecidableEq, Repr

namespace Five

variable {α : Type}

/-- The elements in order. -/
def toList (v : Five α) : List α := [v.x0, v.x1, v.x2, v.x3, v.x4]

/-- back from a list of length 5 (other lengths do not occur; `v` is returned unchanged) -/
def ofList (v : Five α) : List α → Five α
  | [a, b, c, d, e] => ⟨a, b, c, d, e⟩
  | _ => v

end Five

variable {F : Type} (A : Arith F)

/-- Insertion step of a sort by `operator<`. -/
def insertSorted (x : F) : List F → List F
  | [] => [x]
  | y :: ys => if A.lt y x then y :: insertSorted x ys else x :: y :: ys

/-- `std::sort`. /repo/tools/cpp/KML/src/statistics/summary/StreamingP2Quantile.cc:42, 82. The
implementation's algorithm is irrelevant: on a total order the sorted sequence is unique (equal
doubles are interchangeable). Sorting numbers and NaN together is undefined in C++: see `Model/QuantileStrict.lean`. -/
def sortList : List F → List F
  | [] => []
  | x :: xs => insertSorted A x (sortList xs)

/-- Sort the five heights. -/
def Five.sort (v : Five F) : Five F := v.ofList (sortList A v.toList)

/-- Members of `StreamingP2Quantile`.
/repo/tools/cpp/KML/include/statistics/summary/StreamingP2Quantile.h:83-101. -/
structure P2 (F : Type) where
  quantile : F
  desired : Five F
  pos : Five ℤ
  heights : Five F
  historyCount : ℕ
  deriving DecidableEq, Repr

namespace P2

/-- Constructor. /repo/tools/cpp/KML/src/statistics/summary/StreamingP2Quantile.cc:18-31. -/
def new (q : F) : Res (P2 F) :=
  if A.le q (A.lit 0) || A.le (A.lit 1) q then
    .throw "Quantile must be in closed interval (0, 1)"
  else .ok
    { quantile := q
      desired := ⟨A.lit 0, A.lit 0, A.lit 0, A.lit 0, A.lit 0⟩
      pos := ⟨0, 1, 2, 3, 4⟩
      heights := ⟨A.lit 0, A.lit 0, A.lit 0, A.lit 0, A.lit 0⟩
      historyCount := 0 }

/-- `findK`: the cell of the observation, and the heights with minimum/maximum updated.
/repo/tools/cpp/KML/src/statistics/summary/StreamingP2Quantile.cc:91-125. -/
def findK (h : Five F) (x : F) : ℕ × Five F :=
  if A.lt x h.x0 then (0, { h with x0 := x })
  else if A.lt x h.x1 then (0, h)
  else if A.lt x h.x2 then (1, h)
  else if A.lt x h.x3 then (2, h)
  else if A.lt x h.x4 then (3, h)
  else (3, { h with x4 := x })

/-- `copysign`. /repo/tools/cpp/KML/src/statistics/summary/StreamingP2Quantile.cc:149-154. -/
def copysign (number : F) : ℤ :=
  if A.lt (A.lit 0) number then 1
  else if A.lt number (A.lit 0) then -1
  else 0

/-- `parabolic(i, d)`, with the neighbouring heights and positions spelt out: `hm hi hp` are
`m_heights[i-1], [i], [i+1]` and `nm ni np` the marker positions.
/repo/tools/cpp/KML/src/statistics/summary/StreamingP2Quantile.cc:156-165. Operators associate and mix
`int` with `double` exactly as in the source: position differences are `int` and are converted when
they meet a `double`. -/
def parabolic (hm hi hp : F) (nm ni np : ℤ) (d : F) : F :=
  A.add hi
    (A.mul (A.div d (A.ofInt (np - nm)))
      (A.add
        (A.div (A.mul (A.add (A.ofInt (ni - nm)) d) (A.sub hp hi)) (A.ofInt (np - ni)))
        (A.div (A.mul (A.sub (A.ofInt (np - ni)) d) (A.sub hi hm)) (A.ofInt (ni - nm)))))

/-- `linear(i, d)`: `hd`, `nd` are `m_heights[i + d]`, `m_markerPosition[i + d]`.
/repo/tools/cpp/KML/src/statistics/summary/StreamingP2Quantile.cc:167-171. -/
def linear (hi hd : F) (ni nd : ℤ) (d : F) : F :=
  A.add hi (A.div (A.mul d (A.sub hd hi)) (A.ofInt (nd - ni)))

/-- The largest `int`. -/
def intMax : ℤ := 2 ^ 31 - 1

/-- `adjustHeights(i)` for an inner marker, given its left and right neighbours' heights and
positions; returns the new height and position of marker `i`.
/repo/tools/cpp/KML/src/statistics/summary/StreamingP2Quantile.cc:127-147. `d` is `copysign(d_pos)`
converted to `double`; `m_markerPosition[i] += d` adds it back as an integer (d is -1, 0 or 1). -/
def adjust (des hm hi hp : F) (nm ni np : ℤ) : F × ℤ :=
  let dPos := A.sub des (A.ofInt ni)
  if (A.le (A.lit 1) dPos && decide (np - ni > 1)) || (A.le dPos (A.lit (-1)) && decide (nm - ni < -1)) then
    let s := copysign A dPos
    let d := A.ofInt s
    let p2 := parabolic A hm hi hp nm ni np d
    let hi' := if A.lt hm p2 && A.lt p2 hp then p2
      else if s = 1 then linear A hi hp ni np d
      else if s = -1 then linear A hi hm ni nm d
      else linear A hi hi ni ni d
    (hi', ni + s)
  else (hi, ni)

/-- `adjustHeights(i)`, `i = 1, 2, 3`.
/repo/tools/cpp/KML/src/statistics/summary/StreamingP2Quantile.cc:127-147. -/
def adjustHeights (p : P2 F) : ℕ → P2 F
  | 1 => let r := adjust A p.desired.x1 p.heights.x0 p.heights.x1 p.heights.x2 p.pos.x0 p.pos.x1 p.pos.x2
         { p with heights := { p.heights with x1 := r.1 }, pos := { p.pos with x1 := r.2 } }
  | 2 => let r := adjust A p.desired.x2 p.heights.x1 p.heights.x2 p.heights.x3 p.pos.x1 p.pos.x2 p.pos.x3
         { p with heights := { p.heights with x2 := r.1 }, pos := { p.pos with x2 := r.2 } }
  | 3 => let r := adjust A p.desired.x3 p.heights.x2 p.heights.x3 p.heights.x4 p.pos.x2 p.pos.x3 p.pos.x4
         { p with heights := { p.heights with x3 := r.1 }, pos := { p.pos with x3 := r.2 } }
  | _ => p

/-- `for (int i = l_k + 1; i < 5; i++) m_markerPosition[i]++;` without the overflow check.
/repo/tools/cpp/KML/src/statistics/summary/StreamingP2Quantile.cc:56. -/
def bump (pos : Five ℤ) (k : ℕ) : Five ℤ where
  x0 := pos.x0
  x1 := if k < 1 then pos.x1 + 1 else pos.x1
  x2 := if k < 2 then pos.x2 + 1 else pos.x2
  x3 := if k < 3 then pos.x3 + 1 else pos.x3
  x4 := if k < 4 then pos.x4 + 1 else pos.x4

/-- Whether some increment of `bump` overflows `int`.
/repo/tools/cpp/KML/src/statistics/summary/StreamingP2Quantile.cc:56,
/repo/tools/cpp/KML/include/statistics/summary/StreamingP2Quantile.h:86 (`std::vector<int>`). -/
def bumpOverflows (pos : Five ℤ) (k : ℕ) : Bool :=
  (k < 1 && pos.x1 ≥ intMax) || (k < 2 && pos.x2 ≥ intMax) || (k < 3 && pos.x3 ≥ intMax) ||
    (k < 4 && pos.x4 ≥ intMax)

/-- The part of `update` for the first five observations.
/repo/tools/cpp/KML/src/statistics/summary/StreamingP2Quantile.cc:35-52. -/
def updateFirst (p : P2 F) (x : F) : P2 F :=
  let heights := p.heights.ofList (p.heights.toList.set p.historyCount x)
  let n := p.historyCount + 1
  if n = 5 then
    { p with
      heights := heights.sort A
      historyCount := n
      desired := ⟨A.lit 0, A.mul (A.lit 2) p.quantile, A.mul (A.lit 4) p.quantile,
                  A.add (A.lit 2) (A.mul (A.lit 2) p.quantile), A.lit 4⟩ }
  else { p with heights := heights, historyCount := n }

/-- The desired positions set by `update` after `n` observations (before the new one).
/repo/tools/cpp/KML/src/statistics/summary/StreamingP2Quantile.cc:57-61. -/
def desiredAt (d0 : F) (q : F) (n : ℕ) : Five F :=
  let c := A.ofNat n
  ⟨d0, A.div (A.mul c q) (A.lit 2), A.mul c q,
   A.div (A.mul c (A.add (A.lit 1) q)) (A.lit 2), c⟩

/-- The part of `update` after the first five observations.
/repo/tools/cpp/KML/src/statistics/summary/StreamingP2Quantile.cc:54-74. -/
def updateLater (p : P2 F) (x : F) : P2 F :=
  let r := findK A p.heights x
  let p := { p with heights := r.2, pos := bump p.pos r.1,
                    desired := desiredAt A p.desired.x0 p.quantile p.historyCount }
  let p := if A.le (A.lit (1 / 2)) p.quantile then
      adjustHeights A (adjustHeights A (adjustHeights A p 1) 2) 3
    else adjustHeights A (adjustHeights A (adjustHeights A p 3) 2) 1
  { p with historyCount := p.historyCount + 1 }

/-- `update`. /repo/tools/cpp/KML/src/statistics/summary/StreamingP2Quantile.cc:33-75.
Incrementing a marker position of `INT_MAX` is undefined. -/
def update (p : P2 F) (x : F) : Res (P2 F) :=
  if p.historyCount < 5 then .ok (updateFirst A p x)
  else if bumpOverflows p.pos (findK A p.heights x).1 then .ub .intOverflow
  else .ok (updateLater A p x)

/-- `static_cast<int>(std::round(std::abs(static_cast<double>(m_historyCount) - 1) * m_quantile))`.
/repo/tools/cpp/KML/src/statistics/summary/StreamingP2Quantile.cc:83-84. -/
def evalIndex (p : P2 F) : ℤ :=
  A.round (A.mul (A.abs (A.sub (A.ofNat p.historyCount) (A.lit 1))) p.quantile)

/-- `evaluate`: the value and the object afterwards (`m_heights` is `mutable` and gets sorted).
/repo/tools/cpp/KML/src/statistics/summary/StreamingP2Quantile.cc:77-89. -/
def evaluate (p : P2 F) : Res (F × P2 F) :=
  if p.historyCount ≤ 5 then
    let p' := { p with heights := p.heights.sort A }
    let i := evalIndex A p
    if i < 0 then .ub .oob
    else match p'.heights.toList[i.toNat]? with
      | some v => .ok (v, p')
      | none => .ub .oob
  else .ok (p.heights.x2, p)

/-- `clear`. /repo/tools/cpp/KML/src/statistics/summary/StreamingP2Quantile.cc:173. -/
def clear (p : P2 F) : P2 F := { p with historyCount := 0 }

end P2

/-! ## WindowedP2Quantile -/

/-- Members of `WindowedP2Quantile`.
/repo/tools/cpp/KML/include/statistics/summary/WindowedP2Quantile.h:70-79. `m_window` is only ever
compared with null, i.e. `windowSize > 0` (/repo/tools/cpp/KML/include/IStreaming.tcc:9-14). -/
structure WP2 (F : Type) where
  windowSize : ℕ
  historyCount : ℕ
  p2 : P2 F
  previous : F
  deriving DecidableEq, Repr

namespace WP2

/-- Constructor. /repo/tools/cpp/KML/src/statistics/summary/WindowedP2Quantile.cc:14-18. -/
def new (q : F) (windowSize : ℕ) : Res (WP2 F) := do
  let p2 ← P2.new A q
  .ok { windowSize := windowSize, historyCount := 0, p2 := p2, previous := A.lit 0 }

/-- `update`. /repo/tools/cpp/KML/src/statistics/summary/WindowedP2Quantile.cc:22-34. -/
def update (w : WP2 F) (x : F) : Res (WP2 F) := do
  let n := w.historyCount + 1
  let p2 ← w.p2.update A x
  if w.windowSize > 0 then
    if n % (w.windowSize + 1) = 0 then do
      let (v, p2) ← p2.evaluate A
      .ok { w with historyCount := n, previous := v, p2 := p2.clear }
    else .ok { w with historyCount := n, p2 := p2 }
  else .ok { w with historyCount := n, p2 := p2 }

/-- `evaluate`. /repo/tools/cpp/KML/src/statistics/summary/WindowedP2Quantile.cc:36-46.
`size_t % 0` is undefined. -/
def evaluate (w : WP2 F) : Res (F × WP2 F) := do
  if w.historyCount < w.windowSize then do
    let (v, p2) ← w.p2.evaluate A
    .ok (v, { w with p2 := p2 })
  else if w.windowSize = 0 then .ub .divZero
  else do
    let w2 := A.ofNat (w.historyCount % w.windowSize + 1)
    let w1 := A.sub (A.lit 1) w2
    let (v, p2) ← w.p2.evaluate A
    .ok (A.add (A.mul w1 w.previous) (A.mul w2 v), { w with p2 := p2 })

end WP2

/-! ## StreamingIQR -/

/-- Members of `StreamingIQR`. /repo/tools/cpp/KML/include/statistics/summary/StreamingIQR.h:79-88. -/
structure IQR (F : Type) where
  low : WP2 F
  high : WP2 F
  historyCount : ℕ
  deriving DecidableEq, Repr

namespace IQR

/-- Constructor with explicit quantiles.
/repo/tools/cpp/KML/src/statistics/summary/StreamingIQR.cc:17-22. -/
def new (low high : F) (windowSize : ℕ) : Res (IQR F) := do
  let l ← WP2.new A low windowSize
  let h ← WP2.new A high windowSize
  .ok { low := l, high := h, historyCount := 0 }

/-- Constructor with the default quartiles.
/repo/tools/cpp/KML/src/statistics/summary/StreamingIQR.cc:11-15. -/
def newDefault (windowSize : ℕ) : Res (IQR F) := do
  let l ← WP2.new A (A.lit (1 / 4)) windowSize
  let h ← WP2.new A (A.lit (3 / 4)) windowSize
  .ok { low := l, high := h, historyCount := 0 }

/-- `update`. /repo/tools/cpp/KML/src/statistics/summary/StreamingIQR.cc:30-35. -/
def update (q : IQR F) (x : F) : Res (IQR F) := do
  let l ← q.low.update A x
  let h ← q.high.update A x
  .ok { low := l, high := h, historyCount := q.historyCount + 1 }

/-- `evaluate`. /repo/tools/cpp/KML/src/statistics/summary/StreamingIQR.cc:37. (The order in which the
two operands are evaluated is unspecified in C++; they are independent objects.) -/
def evaluate (q : IQR F) : Res (F × IQR F) := do
  let (h, high) ← q.high.evaluate A
  let (l, low) ← q.low.evaluate A
  .ok (A.sub h l, { q with low := low, high := high })

end IQR

end KML
