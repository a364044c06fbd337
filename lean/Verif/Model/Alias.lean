import Verif.Model.HistHeap
import Verif.Model.Stats

/-!
# Arguments passed by reference

`update` takes its observation by `const` reference. Elsewhere in the model the argument is a value, which is right as long as
the object does not change what the reference is bound to while it still reads it. The objects hand out places that the caller
can bind such a reference to: `IStreaming::getWindow()` (/repo/tools/cpp/KML/include/IStreaming.tcc:32-36, used by
StreamingMean) and `IStreamingHistogram::getBin()` (/repo/tools/cpp/KML/include/data_structures/histograms/IStreamingHistogram.tcc:364-374).
Here the argument is read from memory each time the source reads it.
-/

namespace KML

/-- What a `const double&` is bound to: an object of the caller with value `x`, or the element of the window at an address. -/
inductive Ref (F : Type) where
  | value (x : F)
  | cell (a : ℕ)
  deriving DecidableEq, Repr

/-- `StreamingMean` with an address for every element of its deque. A deque does not move its elements: `push_back` and
`pop_front` leave references to the other elements valid ([deque.modifiers]).
/repo/tools/cpp/KML/include/statistics/summary/StreamingMean.h:44-48, /repo/tools/cpp/KML/include/IStreaming.h:84-94.
Simplification: an address is not used again. -/
structure AMean (F : Type) where
  windowSize : ℕ
  window : Option (List (ℕ × F))
  next : ℕ
  historyCount : ℕ
  sum : F
  deriving DecidableEq, Repr

namespace AMean

variable {F : Type} (A : Arith F)

/-- Constructor. /repo/tools/cpp/KML/src/statistics/summary/StreamingMean.cc:11-14,
/repo/tools/cpp/KML/include/IStreaming.tcc:7-15. -/
def new (windowSize : ℕ) : AMean F where
  windowSize := windowSize
  window := if windowSize > 0 then some [] else none
  next := 0
  historyCount := 0
  sum := A.lit 0

/-- Reading through the reference while the window is `w`. -/
def read (w : Option (List (ℕ × F))) : Ref F → Res F
  | .value x => .ok x
  | .cell a =>
    match (w.getD []).find? (·.1 = a) with
    | some c => .ok c.2
    | none => .ub .useAfterFree

/-- `update`: the reference is read by `push_back` and again by `m_sum += observation`.
/repo/tools/cpp/KML/src/statistics/summary/StreamingMean.cc:16-30. -/
def update (m : AMean F) (r : Ref F) : Res (AMean F) := do
  let m ← match m.window with
    | some w =>
      if w.length + 1 > m.windowSize then
        match w with
        | [] => .ub .oob
        | front :: rest => do
          let x ← read (some rest) r
          .ok { m with sum := A.sub m.sum front.2, window := some (rest ++ [(m.next, x)]), next := m.next + 1 }
      else do
        let x ← read (some w) r
        .ok { m with window := some (w ++ [(m.next, x)]), next := m.next + 1 }
    | none => .ok m
  let x ← read m.window r
  .ok { m with historyCount := m.historyCount + 1, sum := A.add m.sum x }

/-- The object without the addresses (modelling device). -/
def forget (m : AMean F) : Mean F := ⟨m.windowSize, m.window.map (·.map Prod.snd), m.historyCount, m.sum⟩

/-- An argument: a value, or the element at an index of the window, `(*mean.getWindow())[i]`. -/
inductive Arg (F : Type) where
  | value (x : F)
  | own (i : ℕ)

/-- The reference for an argument. An index that is out of range, or no window, is undefined in the caller already. -/
def bindTo (m : AMean F) : Arg F → Res (Ref F)
  | .value x => .ok (.value x)
  | .own i =>
    match m.window with
    | none => .ub .nullDeref
    | some w =>
      match w[i]? with
      | some c => .ok (.cell c.1)
      | none => .ub .oob

/-- `mean.update(arg)`. -/
def call (m : AMean F) (arg : Arg F) : Res (AMean F) := do
  let r ← m.bindTo arg
  m.update A r

end AMean

namespace HHist

variable {F : Type} (A : Arith F) (al : Allocator F)

/-- `m_left` or `m_right` of the bin at address `p`. -/
def edge (c : BinHeap F) (p : ℕ) (right : Bool) : Res F := do
  let b ← deref c p
  .ok (if right then b.right else b.left)

/-- `HHist.place` with `item` read when it is compared.
/repo/tools/cpp/KML/include/data_structures/histograms/IStreamingHistogram.tcc:253-279. -/
def placeRef (c : BinHeap F) (ps : List ℕ) (total : ℕ) (a : ℕ) (right : Bool) (q index : ℕ) : Res (BinHeap F × List ℕ) :=
  if total = 0 then .ok (c, ps ++ [q])
  else if index = ps.length then .ok (c, ps ++ [q])
  else do
    let item ← edge c a right
    let p ← at' ps index
    let b ← deref c p
    if A.le b.left item then do
      let c ← store c p { b with count := b.count + 1 }
      let c ← free c q
      .ok (c, ps)
    else .ok (c, ps.insertIdx index q)

/-- `HHist.add` with a reference to an edge of the bin at address `a`: read once for each edge of the new bin and once by
`placeRef`. /repo/tools/cpp/KML/include/data_structures/histograms/IStreamingHistogram.tcc:246-286. -/
def addRef (h : HHist F) (a : ℕ) (right : Bool) : Res (HHist F) := do
  let q := al h.heap
  let l ← edge h.heap a right
  let r ← edge h.heap a right
  let c := Function.update h.heap q (some ⟨l, r, 1⟩)
  let index ← binSearchBin A c h.bins q
  let (c, bins) ← placeRef A c h.bins h.total a right q index
  decayCounts { h with heap := c, bins := bins, historyCount := h.historyCount + 1, total := h.total + 1,
                       window := h.window ++ [index] }

/-- `HHist.update` with such a reference; what follows `add` does not read it.
/repo/tools/cpp/KML/include/data_structures/histograms/StreamingHistogram.tcc:32-54. -/
def updateRef (h : HHist F) (a : ℕ) (right : Bool) : Res (HHist F) := do
  let h ← h.addRef A al a right
  if h.bins.length > h.numBins then do
    let i ← mergeLoop A h.heap h.bins 0 (A.lit dblMax) h.bins.length
    let (c, bins) ← mergeBins A h.heap h.bins i (i + 1)
    .ok { h with heap := c, bins := bins, window := h.window.map fun w => if w = i + 1 then i else w }
  else .ok h

end HHist

end KML
