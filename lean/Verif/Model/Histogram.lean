import Verif.Model.Utils

/-!
# StreamingHistogram (IStreamingHistogram + StreamingHistogram)
-/

namespace KML

open Utils

variable {F : Type} (A : Arith F)

/-- `std::numeric_limits<double>::max()` = (2 - 2^-52) * 2^1023.
/repo/tools/cpp/KML/include/data_structures/histograms/StreamingHistogram.tcc:59. -/
def dblMax : ℚ := (2 ^ 53 - 1) * 2 ^ 971

/-- Members of `IStreamingHistogram<T>`.
/repo/tools/cpp/KML/include/data_structures/histograms/IStreamingHistogram.h:192-216,
/repo/tools/cpp/KML/include/data_structures/IDataStructure.h:67-72.
`m_bins` holds pointers; the bins are kept by value here, since every pointer in the vector is
owned by it alone (proved as C107). `live` is ghost state: bins allocated with `new` and not deleted. The decay
type is `WINDOW`, the only enumerator (IStreamingHistogram.h:22-25), so `m_window` is never null after construction; other
values are in Model/HistDecay.lean. -/
structure Hist (F : Type) where
  numBins : ℕ
  windowSize : ℕ
  bins : List (Bin F)
  window : List ℕ
  total : ℕ
  historyCount : ℕ
  live : ℕ
  deriving DecidableEq, Repr

namespace Hist

/-- Constructor. `new std::deque<size_t>(m_windowSize)` is a deque of `windowSize` zeros.
/repo/tools/cpp/KML/include/data_structures/histograms/IStreamingHistogram.tcc:20-29,
StreamingHistogram.tcc:18-24. -/
def new (numBins windowSize : ℕ) : Hist F where
  numBins := numBins
  windowSize := windowSize
  bins := []
  window := List.replicate windowSize 0
  total := 0
  historyCount := 0
  live := 0

/-- The loop of `binSearch(const IBin&)`. `fuel` bounds the iterations.
/repo/tools/cpp/KML/include/data_structures/histograms/IStreamingHistogram.tcc:177-184. -/
def searchLoop (bins : List (Bin F)) (bin : Bin F) : (fuel low high index : ℕ) → Res ℕ
  | 0, low, high, index => if low < high then .ub .diverge else .ok index
  | fuel + 1, low, high, index =>
    if low < high then
      match bins[index]? with
      | none => .ub .oob
      | some b =>
        if Bin.lt A b bin then
          searchLoop bins bin fuel (index + 1) high ((index + 1 + high) / 2)
        else searchLoop bins bin fuel low index ((low + index) / 2)
    else .ok index

/-- `binSearch(const IBin&)`.
/repo/tools/cpp/KML/include/data_structures/histograms/IStreamingHistogram.tcc:169-187. The interval at least
halves, so `bins.length` iterations are enough. -/
def binSearchBin (h : Hist F) (bin : Bin F) : Res ℕ :=
  searchLoop A h.bins bin h.bins.length 0 h.bins.length ((0 + h.bins.length) / 2)

/-- `binSearch(const T&)`.
/repo/tools/cpp/KML/include/data_structures/histograms/IStreamingHistogram.tcc:189-193. -/
def binSearch (h : Hist F) (item : F) : Res ℕ := h.binSearchBin A ⟨item, item, 1⟩

/-- `decayCounts`. /repo/tools/cpp/KML/include/data_structures/histograms/IStreamingHistogram.tcc:104-130.
The erased bin is not deleted. -/
def decayCounts (h : Hist F) : Res (Hist F) :=
  if h.total > h.windowSize then
    match h.window with
    | [] => .ub .oob
    | del :: rest =>
      match h.bins[del]? with
      | none => .ub .oob
      | some b =>
        let b' := if b.count > 0 then { b with count := b.count - 1 } else b
        let bins := h.bins.set del b'
        let bins := if bins.length > h.numBins then
            if b'.count = 0 then bins.eraseIdx del else bins
          else bins
        .ok { h with bins := bins, window := rest, total := h.total - 1 }
  else .ok h

/-- The part of `add` that places the item.
/repo/tools/cpp/KML/include/data_structures/histograms/IStreamingHistogram.tcc:249-279. -/
def place (h : Hist F) (item : F) (index : ℕ) : Res (Hist F) :=
  let bin : Bin F := ⟨item, item, 1⟩
  if h.total = 0 then .ok { h with bins := h.bins ++ [bin], live := h.live + 1 }
  else if index = h.bins.length then .ok { h with bins := h.bins ++ [bin], live := h.live + 1 }
  else match h.bins[index]? with
    | none => .ub .oob
    | some b =>
      if A.le b.left item then .ok { h with bins := h.bins.set index { b with count := b.count + 1 } }
      else .ok { h with bins := h.bins.insertIdx index bin, live := h.live + 1 }

/-- `add`. /repo/tools/cpp/KML/include/data_structures/histograms/IStreamingHistogram.tcc:246-286. -/
def add (h : Hist F) (item : F) : Res (Hist F) := do
  let index ← h.binSearch A item
  let h ← h.place A item index
  decayCounts { h with historyCount := h.historyCount + 1, total := h.total + 1,
                       window := h.window ++ [index] }

/-- The loop of `merge`: `i`, `minDiff` and `minIndex` are the loop state; recursion is on the bins from
`i` on. /repo/tools/cpp/KML/include/data_structures/histograms/StreamingHistogram.tcc:65-75. -/
def mergeLoop : List (Bin F) → (i : ℕ) → (minDiff : F) → (minIndex : ℕ) → ℕ
  | a :: b :: rest, i, minDiff, minIndex =>
    let diff := A.sub b.right a.right
    if definitelyLessThan A diff minDiff (defaultEps A) then mergeLoop (b :: rest) (i + 1) diff i
    else mergeLoop (b :: rest) (i + 1) minDiff minIndex
  | _, _, _, minIndex => minIndex

/-- Index chosen by `merge` (`l_minIndex` is a `double` holding an integer).
/repo/tools/cpp/KML/include/data_structures/histograms/StreamingHistogram.tcc:59-75. -/
def mergeIndex (bins : List (Bin F)) : ℕ := mergeLoop A bins 0 (A.lit dblMax) bins.length

/-- `mergeBins`. /repo/tools/cpp/KML/include/data_structures/histograms/IStreamingHistogram.tcc:376-383.
The erased bin is not deleted. -/
def mergeBins (bins : List (Bin F)) (lhs rhs : ℕ) : Res (List (Bin F)) :=
  match bins[rhs]? with
  | none => .ub .oob
  | some r =>
    let bins := bins.eraseIdx rhs
    match bins[lhs]? with
    | none => .ub .oob
    | some l => .ok (bins.set lhs (Bin.add A l r))

/-- `update`. /repo/tools/cpp/KML/include/data_structures/histograms/StreamingHistogram.tcc:32-54. -/
def update (h : Hist F) (item : F) : Res (Hist F) := do
  let h ← h.add A item
  if h.bins.length > h.numBins then do
    let i := mergeIndex A h.bins
    let bins ← mergeBins A h.bins i (i + 1)
    .ok { h with bins := bins, window := h.window.map fun w => if w = i + 1 then i else w }
  else .ok h

/-- `pdf`. /repo/tools/cpp/KML/include/data_structures/histograms/IStreamingHistogram.tcc:132-157. -/
def pdf (h : Hist F) (normalize density : Bool) : List F :=
  let normalizer := A.ofNat h.total
  if density then
    h.bins.map fun b =>
      let width := A.sub b.right b.left
      let width := if A.le width (A.lit 0) then A.lit 1 else width
      A.div (A.ofNat b.count) (A.mul normalizer width)
  else
    let normalizer := if !normalize then A.lit 1 else normalizer
    h.bins.map fun b => A.div (A.ofNat b.count) normalizer

/-- `std::partial_sum`, continuing from `acc`. -/
def partialSumFrom (acc : F) : List F → List F
  | [] => []
  | x :: xs => A.add acc x :: partialSumFrom (A.add acc x) xs

/-- `std::partial_sum`.
/repo/tools/cpp/KML/include/data_structures/histograms/IStreamingHistogram.tcc:164. -/
def partialSum : List F → List F
  | [] => []
  | x :: xs => x :: partialSumFrom A x xs

/-- `cdf`. /repo/tools/cpp/KML/include/data_structures/histograms/IStreamingHistogram.tcc:159-167. -/
def cdf (h : Hist F) (normalize : Bool) : List F := partialSum A (h.pdf A normalize false)

/-- `std::lower_bound`: number of leading elements `< q`. (The range is sorted, so this is the
result of the binary search.) -/
def lowerBound (xs : List F) (q : F) : ℕ := (xs.takeWhile fun x => A.lt x q).length

/-- The iterator arithmetic of `quantile`: the index into the cdf.
/repo/tools/cpp/KML/include/data_structures/histograms/IStreamingHistogram.tcc:206-215. On an empty cdf
`(rbegin() + 1).base()` steps before `begin()`, which is undefined. -/
def quantileIndex (cdf : List F) (q : F) : Res ℕ :=
  let it := lowerBound A cdf q
  match cdf[it]? with
  | none => if cdf.length = 0 then .ub .oob else .ok (cdf.length - 1)
  | some v => if it ≠ 0 && A.lt q v then .ok (it - 1) else .ok it

/-- `quantile`. /repo/tools/cpp/KML/include/data_structures/histograms/IStreamingHistogram.tcc:195-244. The
branch `l_index >= l_cdf.size()` (226-230) is unreachable, `l_cdf[l_index]` having been read. -/
def quantile (h : Hist F) (q : F) : Res F :=
  if A.lt q (A.lit 0) || A.lt (A.lit 1) q then .throw "Percentile must be in closed range [0, 1]!"
  else do
    let cdf := h.cdf A true
    let index ← quantileIndex A cdf q
    match cdf[index]?, h.bins[index]? with
    | some c, some b =>
      if essentiallyEqual A q c (defaultEps A) then .ok b.left
      else match cdf[index + 1]? with
        | none => .ub .oob
        | some c' =>
          let p := A.sub c' c
          let width := A.sub b.right b.left
          let width := if A.eq width (A.lit 0) then A.div (A.lit 1) (A.ofNat h.numBins) else width
          .ok (A.add b.left (A.div (A.mul (A.mul width p) (A.ofNat h.total)) (A.ofNat b.count)))
    | _, _ => .ub .oob

/-- `binCounts`. /repo/tools/cpp/KML/include/data_structures/histograms/IStreamingHistogram.tcc:288-306. -/
def binCounts (h : Hist F) : Res (List ℕ) :=
  let counts := h.bins.map Bin.count
  if counts.sum ≠ h.total then .throw "Counts are somehow out of sync!" else .ok counts

/-- `operator<` of `std::pair<double, double>`. -/
def pairLt (x y : F × F) : Bool := A.lt x.1 y.1 || (!A.lt y.1 x.1 && A.lt x.2 y.2)

/-- `map[key] = v` of a `std::map` kept as its sorted list of entries. -/
def mapAssign (key : F × F) (v : ℕ) : List ((F × F) × ℕ) → List ((F × F) × ℕ)
  | [] => [(key, v)]
  | e :: es => if pairLt A e.1 key then e :: mapAssign key v es
    else if pairLt A key e.1 then (key, v) :: e :: es
    else (e.1, v) :: es

/-- `report`. /repo/tools/cpp/KML/include/data_structures/histograms/IStreamingHistogram.tcc:308-318. -/
def report (h : Hist F) : List ((F × F) × ℕ) :=
  h.bins.foldl (fun m b => mapAssign A (b.left, b.right) b.count m) []

/-- `reset`. /repo/tools/cpp/KML/include/data_structures/histograms/IStreamingHistogram.tcc:320-326. The bins
are not deleted and `m_totalCount` is not reset. -/
def reset (h : Hist F) : Hist F := { h with bins := [], historyCount := 0, window := [] }

/-- Bins still allocated after destruction: `~StreamingHistogram` calls `reset()` and then the base
destructor deletes whatever is left in `m_bins`. StreamingHistogram.tcc:26-30,
/repo/tools/cpp/KML/include/data_structures/histograms/IStreamingHistogram.tcc:81-89. -/
def destroy (h : Hist F) : ℕ := let h := h.reset; h.live - h.bins.length

/-- `empty`. /repo/tools/cpp/KML/include/data_structures/histograms/IStreamingHistogram.tcc:328-332. -/
def isEmpty (h : Hist F) : Bool := h.bins.length == 0

/-- `full`. /repo/tools/cpp/KML/include/data_structures/histograms/IStreamingHistogram.tcc:334-338. -/
def isFull (h : Hist F) : Bool := !h.isEmpty

/-- `size` and `getCurrentNumBins`.
/repo/tools/cpp/KML/include/data_structures/histograms/IStreamingHistogram.tcc:340-344, 358-362. -/
def size (h : Hist F) : ℕ := h.bins.length

/-- `getTotalCount`. /repo/tools/cpp/KML/include/data_structures/histograms/IStreamingHistogram.tcc:346-350. -/
def getTotalCount (h : Hist F) : ℕ := h.total

/-- `getBin` followed by a dereference of the result.
/repo/tools/cpp/KML/include/data_structures/histograms/IStreamingHistogram.tcc:364-374. -/
def getBin (h : Hist F) (index : ℕ) : Res (Bin F) :=
  if index > h.bins.length then .throw "Can't get bin outside of histogram!"
  else match h.bins[index]? with
    | none => .ub .oob
    | some b => .ok b

end Hist

end KML
