import Mathlib.Data.Set.Card
import Verif.Model.Histogram

/-!
# StreamingHistogram with its pointers

`Model/Histogram.lean` keeps the bins by value. Here `m_bins` is what it is in the source: a vector of pointers to bins on
the heap, so that sharing, dangling pointers and deletions can be talked about. C107 relates the two.
-/

namespace KML

open Utils

/-- The heap, as far as bins are concerned: the bin at every address, `none` where no bin is allocated. -/
abbrev BinHeap (F : Type) := ℕ → Option (Bin F)

/-- Where `new` places an object, given the heap. -/
abbrev Allocator (F : Type) := BinHeap F → ℕ

/-- All that is known of `new`: it finds a free address as long as finitely many are taken (for
`std::bad_alloc` see Model/OutOfMemory.lean). -/
def Allocator.Sound {F : Type} (al : Allocator F) : Prop := ∀ c : BinHeap F, {p | c p ≠ none}.Finite → c (al c) = none

/-- Members of `IStreamingHistogram<T>` and the heap. `m_bins` is a `std::vector<IBin<T>*>`.
/repo/tools/cpp/KML/include/data_structures/histograms/IStreamingHistogram.h:192-216,
/repo/tools/cpp/KML/include/data_structures/IDataStructure.h:67-72. -/
structure HHist (F : Type) where
  numBins : ℕ
  windowSize : ℕ
  heap : BinHeap F
  bins : List ℕ
  window : List ℕ
  total : ℕ
  historyCount : ℕ

namespace HHist

variable {F : Type} (A : Arith F) (al : Allocator F)

/-- Reading the object behind a pointer. -/
def deref (c : BinHeap F) (p : ℕ) : Res (Bin F) :=
  match c p with
  | none => .ub .useAfterFree
  | some b => .ok b

/-- Writing the object behind a pointer. -/
def store (c : BinHeap F) (p : ℕ) (b : Bin F) : Res (BinHeap F) :=
  match c p with
  | none => .ub .useAfterFree
  | some _ => .ok (Function.update c p (some b))

/-- `delete p`. -/
def free (c : BinHeap F) (p : ℕ) : Res (BinHeap F) :=
  match c p with
  | none => .ub .useAfterFree
  | some _ => .ok (Function.update c p none)

/-- `m_bins[i]`: the pointer. -/
def at' (ps : List ℕ) (i : ℕ) : Res ℕ :=
  match ps[i]? with
  | none => .ub .oob
  | some p => .ok p

/-- Constructor. /repo/tools/cpp/KML/include/data_structures/histograms/IStreamingHistogram.tcc:20-29,
StreamingHistogram.tcc:18-24. `heap` is what other objects have allocated. -/
def new (heap : BinHeap F) (numBins windowSize : ℕ) : HHist F :=
  ⟨numBins, windowSize, heap, [], List.replicate windowSize 0, 0, 0⟩

/-- The loop of `binSearch(const IBin&)`; `q` is the address of the bin searched for.
/repo/tools/cpp/KML/include/data_structures/histograms/IStreamingHistogram.tcc:177-184. -/
def searchLoop (c : BinHeap F) (ps : List ℕ) (q : ℕ) : (fuel low high index : ℕ) → Res ℕ
  | 0, low, high, index => if low < high then .ub .diverge else .ok index
  | fuel + 1, low, high, index =>
    if low < high then do
      let p ← at' ps index
      let b ← deref c p
      let bin ← deref c q
      if Bin.lt A b bin then searchLoop c ps q fuel (index + 1) high ((index + 1 + high) / 2)
      else searchLoop c ps q fuel low index ((low + index) / 2)
    else .ok index

/-- `binSearch(const IBin&)`.
/repo/tools/cpp/KML/include/data_structures/histograms/IStreamingHistogram.tcc:169-187. -/
def binSearchBin (c : BinHeap F) (ps : List ℕ) (q : ℕ) : Res ℕ :=
  searchLoop A c ps q ps.length 0 ps.length ((0 + ps.length) / 2)

/-- `if (m_bins[l_delete]->m_count > 0) m_bins[l_delete]->m_count--`.
/repo/tools/cpp/KML/include/data_structures/histograms/IStreamingHistogram.tcc:113-116. -/
def lower (c : BinHeap F) (ps : List ℕ) (del : ℕ) : Res (BinHeap F) := do
  let p ← at' ps del
  let b ← deref c p
  if b.count > 0 then store c p { b with count := b.count - 1 } else .ok c

/-- The removal of an empty bin (its pointer is erased, the bin not deleted).
/repo/tools/cpp/KML/include/data_structures/histograms/IStreamingHistogram.tcc:119-125. -/
def dropEmpty (c : BinHeap F) (numBins : ℕ) (ps : List ℕ) (del : ℕ) : Res (List ℕ) :=
  if ps.length > numBins then do
    let p ← at' ps del
    let b ← deref c p
    if b.count = 0 then .ok (ps.eraseIdx del) else .ok ps
  else .ok ps

/-- `decayCounts`. /repo/tools/cpp/KML/include/data_structures/histograms/IStreamingHistogram.tcc:104-130. -/
def decayCounts (h : HHist F) : Res (HHist F) :=
  if h.total > h.windowSize then
    match h.window with
    | [] => .ub .oob
    | del :: rest => do
      let c ← lower h.heap h.bins del
      let bins ← dropEmpty c h.numBins h.bins del
      .ok { h with heap := c, bins := bins, window := rest, total := h.total - 1 }
  else .ok h

/-- The part of `add` that places the new bin `q`.
/repo/tools/cpp/KML/include/data_structures/histograms/IStreamingHistogram.tcc:253-279. -/
def place (c : BinHeap F) (ps : List ℕ) (total : ℕ) (item : F) (q index : ℕ) : Res (BinHeap F × List ℕ) :=
  if total = 0 then .ok (c, ps ++ [q])
  else if index = ps.length then .ok (c, ps ++ [q])
  else do
    let p ← at' ps index
    let b ← deref c p
    if A.le b.left item then do
      let c ← store c p { b with count := b.count + 1 }
      let c ← free c q
      .ok (c, ps)
    else .ok (c, ps.insertIdx index q)

/-- `add`. /repo/tools/cpp/KML/include/data_structures/histograms/IStreamingHistogram.tcc:246-286. -/
def add (h : HHist F) (item : F) : Res (HHist F) := do
  let q := al h.heap
  let c := Function.update h.heap q (some ⟨item, item, 1⟩)
  let index ← binSearchBin A c h.bins q
  let (c, bins) ← place A c h.bins h.total item q index
  decayCounts { h with heap := c, bins := bins, historyCount := h.historyCount + 1, total := h.total + 1,
                       window := h.window ++ [index] }

/-- The loop of `merge`. `getBin` does not throw here, the index being in range.
/repo/tools/cpp/KML/include/data_structures/histograms/StreamingHistogram.tcc:65-75. -/
def mergeLoop (c : BinHeap F) : List ℕ → (i : ℕ) → (minDiff : F) → (minIndex : ℕ) → Res ℕ
  | p :: q :: rest, i, minDiff, minIndex => do
    let b ← deref c q
    let a ← deref c p
    let diff := A.sub b.right a.right
    if definitelyLessThan A diff minDiff (defaultEps A) then mergeLoop c (q :: rest) (i + 1) diff i
    else mergeLoop c (q :: rest) (i + 1) minDiff minIndex
  | _, _, _, minIndex => .ok minIndex

/-- `mergeBins`: a copy of the right bin, its pointer erased (the bin stays allocated), the sum written to the left bin.
/repo/tools/cpp/KML/include/data_structures/histograms/IStreamingHistogram.tcc:376-383. -/
def mergeBins (c : BinHeap F) (ps : List ℕ) (lhs rhs : ℕ) : Res (BinHeap F × List ℕ) := do
  let p ← at' ps rhs
  let r ← deref c p
  let ps := ps.eraseIdx rhs
  let p ← at' ps lhs
  let l ← deref c p
  let c ← store c p (Bin.add A l r)
  .ok (c, ps)

/-- `update`. /repo/tools/cpp/KML/include/data_structures/histograms/StreamingHistogram.tcc:32-54. -/
def update (h : HHist F) (item : F) : Res (HHist F) := do
  let h ← h.add A al item
  if h.bins.length > h.numBins then do
    let i ← mergeLoop A h.heap h.bins 0 (A.lit dblMax) h.bins.length
    let (c, bins) ← mergeBins A h.heap h.bins i (i + 1)
    .ok { h with heap := c, bins := bins, window := h.window.map fun w => if w = i + 1 then i else w }
  else .ok h

/-- `reset`. /repo/tools/cpp/KML/include/data_structures/histograms/IStreamingHistogram.tcc:320-326. -/
def reset (h : HHist F) : HHist F := { h with bins := [], historyCount := 0, window := [] }

/-- `delete *it` for every pointer in `m_bins`. -/
def freeAll : BinHeap F → List ℕ → Res (BinHeap F)
  | c, [] => .ok c
  | c, p :: ps => do
    let c ← free c p
    freeAll c ps

/-- `~StreamingHistogram` and then `~IStreamingHistogram`: the heap that is left.
/repo/tools/cpp/KML/include/data_structures/histograms/StreamingHistogram.tcc:26-30, IStreamingHistogram.tcc:81-89. -/
def destroy (h : HHist F) : Res (BinHeap F) := let h := h.reset; freeAll h.heap h.bins

/-- Alternative: only `~IStreamingHistogram` (for a derived class that does not call `reset`).
/repo/tools/cpp/KML/include/data_structures/histograms/IStreamingHistogram.tcc:81-89. -/
def destroyBase (h : HHist F) : Res (BinHeap F) := freeAll h.heap h.bins

end HHist

end KML
