import Verif.Model.Containers
import Verif.Model.Entropy
import Verif.Model.Float
import Verif.Model.HistPublic
import Verif.Model.Quantile
import Verif.Model.Stats

/-!
# The classes with 64-bit sizes

In the rest of the model a `size_t` is a natural number and an index kept in a `double` is that index. Here every result of
`size_t` arithmetic is taken modulo 2^64 (a `size_t` of 64 bits), and an index stored in a `double` is rounded.
Where the counter that is increased is not read again before the end of the call, the value is wrapped at the end.
Only the functions that compute with sizes are repeated; the others are those of the other files.
-/

namespace KML

/-- The value a `size_t` takes. -/
def w64 (n : ℕ) : ℕ := n % 2 ^ 64

/-- A `size_t` after conversion to `double` and back. -/
def viaDouble (n : ℕ) : ℕ := (rnd64 n).floor.toNat

variable {F : Type} (A : Arith F)

/-- `StreamingMean::update`. /repo/tools/cpp/KML/src/statistics/summary/StreamingMean.cc:16-30. -/
def Mean.update64 (m : Mean F) (x : F) : Res (Mean F) := do
  let m ← match m.window with
    | some w =>
      if w64 (w.length + 1) > m.windowSize then
        match w with
        | [] => .ub .oob
        | front :: rest => .ok { m with sum := A.sub m.sum front, window := some (rest ++ [x]) }
      else .ok { m with window := some (w ++ [x]) }
    | none => .ok m
  .ok { m with historyCount := w64 (m.historyCount + 1), sum := A.add m.sum x }

/-- `StreamingVariance::update`. /repo/tools/cpp/KML/src/statistics/summary/StreamingVariance.cc:24-28. -/
def Variance.update64 (v : Variance F) (x : F) : Res (Variance F) := do
  let mean ← v.mean.update64 A x
  let sumSquared ← v.sumSquared.update64 A (A.mul x x)
  .ok { v with mean := mean, sumSquared := sumSquared }

/-- `WindowedFAME::update`: the counter is increased last. /repo/tools/cpp/KML/src/statistics/summary/WindowedFAME.cc:24-49. -/
def Fame.update64 (f : Fame F) (x : F) : Fame F :=
  let f := f.update A x
  { f with historyCount := w64 f.historyCount }

/-- `StreamingMAD::update`. /repo/tools/cpp/KML/src/metrics/StreamingMAD.cc:25-30. -/
def Mad.update64 (m : Mad F) (x : F) : Mad F :=
  let s := m.scoreMedian.update64 A x
  { scoreMedian := s
    errorMedian := m.errorMedian.update64 A (A.abs (A.sub x s.evaluate))
    historyCount := w64 (m.historyCount + 1) }

/-- `StreamingP2Quantile::update`: up to five the counter cannot wrap, then it is increased last.
/repo/tools/cpp/KML/src/statistics/summary/StreamingP2Quantile.cc:33-75. -/
def P2.update64 (p : P2 F) (x : F) : Res (P2 F) := do
  let p ← p.update A x
  .ok { p with historyCount := w64 p.historyCount }

namespace WP2

/-- `update`: `m_historyCount % (m_windowSize + 1)`. /repo/tools/cpp/KML/src/statistics/summary/WindowedP2Quantile.cc:22-34. -/
def update64 (w : WP2 F) (x : F) : Res (WP2 F) := do
  let n := w64 (w.historyCount + 1)
  let p2 ← w.p2.update64 A x
  if w.windowSize > 0 then
    let m := w64 (w.windowSize + 1)
    if m = 0 then .ub .divZero
    else if n % m = 0 then do
      let (v, p2) ← p2.evaluate A
      .ok { w with historyCount := n, previous := v, p2 := p2.clear }
    else .ok { w with historyCount := n, p2 := p2 }
  else .ok { w with historyCount := n, p2 := p2 }

/-- `evaluate`. /repo/tools/cpp/KML/src/statistics/summary/WindowedP2Quantile.cc:36-46. -/
def evaluate64 (w : WP2 F) : Res (F × WP2 F) := do
  if w.historyCount < w.windowSize then do
    let (v, p2) ← w.p2.evaluate A
    .ok (v, { w with p2 := p2 })
  else if w.windowSize = 0 then .ub .divZero
  else do
    let w2 := A.ofNat (w64 (w.historyCount % w.windowSize + 1))
    let w1 := A.sub (A.lit 1) w2
    let (v, p2) ← w.p2.evaluate A
    .ok (A.add (A.mul w1 w.previous) (A.mul w2 v), { w with p2 := p2 })

end WP2

namespace IQR

/-- `update`. /repo/tools/cpp/KML/src/statistics/summary/StreamingIQR.cc:30-35. -/
def update64 (q : IQR F) (x : F) : Res (IQR F) := do
  let l ← q.low.update64 A x
  let h ← q.high.update64 A x
  .ok { low := l, high := h, historyCount := w64 (q.historyCount + 1) }

/-- `evaluate`. /repo/tools/cpp/KML/src/statistics/summary/StreamingIQR.cc:37. -/
def evaluate64 (q : IQR F) : Res (F × IQR F) := do
  let (h, high) ← q.high.evaluate64 A
  let (l, low) ← q.low.evaluate64 A
  .ok (A.sub h l, { q with low := low, high := high })

end IQR

namespace RingBuffer

variable {α : Type}

/-- `(i + 1) % windowSize`. /repo/tools/cpp/KML/include/data_structures/RingBuffer.tcc:28, 31, 92. -/
def next64 (windowSize i : ℕ) : Res ℕ :=
  if windowSize = 0 then .ub .divZero else .ok (w64 (i + 1) % windowSize)

/-- `update`. /repo/tools/cpp/KML/include/data_structures/RingBuffer.tcc:19-37. -/
def update64 (b : RingBuffer α) (item : α) : Res (RingBuffer α) := do
  let buf ← store b.buf b.head item
  let tail ← if b.full then next64 b.windowSize b.tail else .ok b.tail
  let head ← next64 b.windowSize b.head
  .ok { b with buf := buf, tail := tail, head := head, full := head == tail,
               historyCount := w64 (b.historyCount + 1) }

/-- `pop`. /repo/tools/cpp/KML/include/data_structures/RingBuffer.tcc:77-95. -/
def pop64 (dflt : α) (b : RingBuffer α) : Res (α × RingBuffer α) :=
  if b.isEmpty then .ok (dflt, b)
  else do
    let item ← load b.buf b.tail
    let tail ← next64 b.windowSize b.tail
    .ok (item, { b with full := false, tail := tail })

/-- One call. /repo/tools/cpp/KML/include/data_structures/RingBuffer.tcc:19-95. -/
def step64 (dflt : α) (b : RingBuffer α) : COp α → Res (COut α × RingBuffer α)
  | .update x => do let b' ← b.update64 x; .ok (.unit, b')
  | .pop => do let (v, b') ← b.pop64 dflt; .ok (.val v, b')
  | .reset => .ok (.unit, b.reset)
  | .size => .ok (.num (sizeBV (.ofNat 64 b.windowSize) (.ofNat 64 b.head) (.ofNat 64 b.tail) b.full).toNat, b)
  | .empty => .ok (.bool b.isEmpty, b)
  | .full => .ok (.bool b.isFull, b)

end RingBuffer

/-- One call on a `LinkedList`: `update` increases the two counters last, and `pop` decreases modulo 2^64 as it is.
/repo/tools/cpp/KML/include/data_structures/LinkedList.tcc:31-117. -/
def LinkedList.step64 {α : Type} (dflt : α) (l : LinkedList α) : COp α → Res (COut α × LinkedList α)
  | .update x => do
    let l ← l.update dflt x
    .ok (.unit, { l with size := w64 l.size, historyCount := w64 l.historyCount })
  | o => l.step dflt o

namespace Hist

open Utils

/-- The loop of `binSearch`. /repo/tools/cpp/KML/include/data_structures/histograms/IStreamingHistogram.tcc:177-184. -/
def searchLoop64 (bins : List (Bin F)) (bin : Bin F) : (fuel low high index : ℕ) → Res ℕ
  | 0, low, high, index => if low < high then .ub .diverge else .ok index
  | fuel + 1, low, high, index =>
    if low < high then
      match bins[index]? with
      | none => .ub .oob
      | some b =>
        if Bin.lt A b bin then
          searchLoop64 bins bin fuel (w64 (index + 1)) high (w64 (w64 (index + 1) + high) / 2)
        else searchLoop64 bins bin fuel low index (w64 (low + index) / 2)
    else .ok index

/-- `binSearch`. /repo/tools/cpp/KML/include/data_structures/histograms/IStreamingHistogram.tcc:169-193. -/
def binSearch64 (h : Hist F) (item : F) : Res ℕ :=
  searchLoop64 A h.bins ⟨item, item, 1⟩ h.bins.length 0 h.bins.length (w64 (0 + h.bins.length) / 2)

/-- `decayCounts`. /repo/tools/cpp/KML/include/data_structures/histograms/IStreamingHistogram.tcc:104-130. -/
def decayCounts64 (h : Hist F) : Res (Hist F) :=
  if h.total > h.windowSize then
    match h.window with
    | [] => .ub .oob
    | del :: rest =>
      match h.bins[del]? with
      | none => .ub .oob
      | some b =>
        let b' := if b.count > 0 then { b with count := LinkedList.decr b.count } else b
        let bins := h.bins.set del b'
        let bins := if bins.length > h.numBins then
            if b'.count = 0 then bins.eraseIdx del else bins
          else bins
        .ok { h with bins := bins, window := rest, total := LinkedList.decr h.total }
  else .ok h

/-- The part of `add` that places the item.
/repo/tools/cpp/KML/include/data_structures/histograms/IStreamingHistogram.tcc:249-279. -/
def place64 (h : Hist F) (item : F) (index : ℕ) : Res (Hist F) :=
  let bin : Bin F := ⟨item, item, 1⟩
  if h.total = 0 then .ok { h with bins := h.bins ++ [bin], live := h.live + 1 }
  else if index = h.bins.length then .ok { h with bins := h.bins ++ [bin], live := h.live + 1 }
  else match h.bins[index]? with
    | none => .ub .oob
    | some b =>
      if A.le b.left item then .ok { h with bins := h.bins.set index { b with count := w64 (b.count + 1) } }
      else .ok { h with bins := h.bins.insertIdx index bin, live := h.live + 1 }

/-- `add`. /repo/tools/cpp/KML/include/data_structures/histograms/IStreamingHistogram.tcc:246-286. -/
def add64 (h : Hist F) (item : F) : Res (Hist F) := do
  let index ← h.binSearch64 A item
  let h ← h.place64 A item index
  decayCounts64 { h with historyCount := w64 (h.historyCount + 1), total := w64 (h.total + 1),
                         window := h.window ++ [index] }

/-- The loop of `merge`: `l_minIndex` is a `double`.
/repo/tools/cpp/KML/include/data_structures/histograms/StreamingHistogram.tcc:65-75. -/
def mergeLoop64 : List (Bin F) → (i : ℕ) → (minDiff : F) → (minIndex : ℕ) → ℕ
  | a :: b :: rest, i, minDiff, minIndex =>
    let diff := A.sub b.right a.right
    if definitelyLessThan A diff minDiff (defaultEps A) then mergeLoop64 (b :: rest) (w64 (i + 1)) diff (viaDouble i)
    else mergeLoop64 (b :: rest) (w64 (i + 1)) minDiff minIndex
  | _, _, _, minIndex => minIndex

/-- The index chosen by `merge`. /repo/tools/cpp/KML/include/data_structures/histograms/StreamingHistogram.tcc:59-75. -/
def mergeIndex64 (bins : List (Bin F)) : ℕ := mergeLoop64 A bins 0 (A.lit dblMax) (viaDouble bins.length)

/-- `mergeBins`. /repo/tools/cpp/KML/include/data_structures/histograms/IStreamingHistogram.tcc:376-383, IBin.tcc:65-87. -/
def mergeBins64 (bins : List (Bin F)) (lhs rhs : ℕ) : Res (List (Bin F)) :=
  match bins[rhs]? with
  | none => .ub .oob
  | some r =>
    let bins := bins.eraseIdx rhs
    match bins[lhs]? with
    | none => .ub .oob
    | some l =>
      let b := Bin.add A l r
      .ok (bins.set lhs { b with count := w64 b.count })

/-- `update`: `l_minIndex + 1` is computed in `double`, `l_mergedIndex + 1` in `size_t`.
/repo/tools/cpp/KML/include/data_structures/histograms/StreamingHistogram.tcc:32-54, 78. -/
def update64 (h : Hist F) (item : F) : Res (Hist F) := do
  let h ← h.add64 A item
  if h.bins.length > h.numBins then do
    let i := mergeIndex64 A h.bins
    let bins ← mergeBins64 A h.bins i (viaDouble (i + 1))
    .ok { h with bins := bins, window := h.window.map fun w => if w = w64 (i + 1) then i else w }
  else .ok h

/-- `binCounts`. /repo/tools/cpp/KML/include/data_structures/histograms/IStreamingHistogram.tcc:288-306. -/
def binCounts64 (h : Hist F) : Res (List ℕ) :=
  let counts := h.bins.map Bin.count
  if w64 counts.sum ≠ h.total then .throw "Counts are somehow out of sync!" else .ok counts

/-- A call from outside. -/
def call64 (h : Hist F) : HCall F → Res (Hist F)
  | .update x => h.update64 A x
  | .add x => h.add64 A x
  | .decay => h.decayCounts64

end Hist

/-- `StreamingEntropy::update`: the window is a `std::deque<double>` of indices.
/repo/tools/cpp/KML/src/statistics/summary/StreamingEntropy.cc:35-49. -/
def Entropy.update64 (L : LArith F) (e : Entropy F) (x : F) : Res (Entropy F) := do
  let index ← e.hist.binSearch64 L.toArith x
  match e.window with
  | none => .ub .nullDeref
  | some w => do
    let w := w ++ [viaDouble index]
    let e ← match w with
      | front :: rest =>
        if w.length > e.windowSize then do
          let e ← e.decrement L front
          .ok { e with window := some rest }
        else .ok { e with window := some w }
      | [] => .ub .oob
    let hist ← e.hist.update64 L.toArith x
    let e ← ({ e with hist := hist } : Entropy F).increment L index
    .ok { e with historyCount := w64 (e.historyCount + 1) }

end KML
