import Verif.Model.Entropy
import Verif.Model.Stats

/-!
# Running out of memory

Everywhere else in the model allocations succeed. Here every allocation inside an `update` may throw `std::bad_alloc`
instead, and the object is kept in the state the exception leaves it in. `std::deque::push_back`,
`std::vector::push_back` and `std::vector::insert` of a pointer have no effect if they throw ([container.requirements]).
`RingBuffer`, `WindowedFAME`, `StreamingMAD` and the quantiles allocate nothing after construction.
-/

namespace KML

/-- How a call ends that is defined and throws nothing but `std::bad_alloc` (modelling device). -/
inductive Done
  | returned
  | badAlloc
  deriving DecidableEq, Repr

/-- A caller that catches every `std::bad_alloc` and goes on with the next call (modelling device). -/
def tryAll {σ ι : Type} (call : σ → ι → Res (Done × σ)) : σ → List ι → Res σ
  | s, [] => .ok s
  | s, i :: is => do
    let (_, s') ← call s i
    tryAll call s' is

variable {F : Type}

/-! ## StreamingMean and StreamingVariance -/

namespace Mean

variable (A : Arith F)

/-- The front is removed if the window `w` is full.
/repo/tools/cpp/KML/src/statistics/summary/StreamingMean.cc:20-24. -/
def makeRoom (m : Mean F) (w : List F) : Res (Mean F × List F) :=
  if w.length + 1 > m.windowSize then
    match w with
    | [] => .ub .oob
    | front :: rest => .ok ({ m with sum := A.sub m.sum front, window := some rest }, rest)
  else .ok (m, w)

/-- `update`; `fails` says that `push_back` throws.
/repo/tools/cpp/KML/src/statistics/summary/StreamingMean.cc:16-30. -/
def updateMem (m : Mean F) (call : F × Bool) : Res (Done × Mean F) :=
  match m.window with
  | none => .ok (.returned, { m with historyCount := m.historyCount + 1, sum := A.add m.sum call.1 })
  | some w => do
    let (m, w) ← m.makeRoom A w
    if call.2 then .ok (.badAlloc, m)
    else .ok (.returned, { m with window := some (w ++ [call.1]), historyCount := m.historyCount + 1,
                                  sum := A.add m.sum call.1 })

end Mean

namespace Variance

variable (A : Arith F)

/-- `update`; the two flags say that `push_back` throws in the first and in the second mean.
/repo/tools/cpp/KML/src/statistics/summary/StreamingVariance.cc:24-28. -/
def updateMem (v : Variance F) (call : F × Bool × Bool) : Res (Done × Variance F) := do
  let (d, mean) ← v.mean.updateMem A (call.1, call.2.1)
  match d with
  | .badAlloc => .ok (.badAlloc, { v with mean := mean })
  | .returned => do
    let (d, sumSquared) ← v.sumSquared.updateMem A (A.mul call.1 call.1, call.2.2)
    .ok (d, { v with mean := mean, sumSquared := sumSquared })

end Variance

/-! ## LinkedList -/

namespace LinkedList

/-- `update`; the flag says that `new Node` throws.
/repo/tools/cpp/KML/include/data_structures/LinkedList.tcc:31-54. -/
def updateMem {α : Type} (dflt : α) (l : LinkedList α) (call : α × Bool) : Res (Done × LinkedList α) :=
  if call.2 then .ok (.badAlloc, l)
  else do
    let l ← l.update dflt call.1
    .ok (.returned, l)

end LinkedList

/-! ## StreamingHistogram -/

/-- The allocations of a histogram update: `new IBin` (line 249), `push_back` or `insert` of `m_bins` (256, 263, 276),
`push_back` of `m_window` (284).
/repo/tools/cpp/KML/include/data_structures/histograms/IStreamingHistogram.tcc:246-286. -/
inductive Spot
  | bin
  | bins
  | window
  deriving DecidableEq, Repr

namespace Hist

variable (A : Arith F)

/-- `add`; `fails` says which allocation throws, if it is made.
/repo/tools/cpp/KML/include/data_structures/histograms/IStreamingHistogram.tcc:246-286. `m_bins` only grows if a bin is
added. The new bin is not deleted if that throws. -/
def addMem (fails : Spot → Bool) (h : Hist F) (item : F) : Res (Done × Hist F) :=
  if fails .bin then .ok (.badAlloc, h)
  else do
    let index ← h.binSearch A item
    let p ← h.place A item index
    if decide (p.bins.length ≠ h.bins.length) && fails .bins then .ok (.badAlloc, { h with live := h.live + 1 })
    else
      let p := { p with historyCount := p.historyCount + 1, total := p.total + 1 }
      if fails .window then .ok (.badAlloc, p)
      else do
        let h ← decayCounts { p with window := p.window ++ [index] }
        .ok (.returned, h)

/-- `update`. /repo/tools/cpp/KML/include/data_structures/histograms/StreamingHistogram.tcc:32-54. -/
def updateMem (h : Hist F) (call : F × (Spot → Bool)) : Res (Done × Hist F) := do
  let (d, h) ← h.addMem A call.2 call.1
  match d with
  | .badAlloc => .ok (.badAlloc, h)
  | .returned =>
    if h.bins.length > h.numBins then do
      let i := mergeIndex A h.bins
      let bins ← mergeBins A h.bins i (i + 1)
      .ok (.returned, { h with bins := bins, window := h.window.map fun w => if w = i + 1 then i else w })
    else .ok (.returned, h)

end Hist

/-! ## StreamingEntropy -/

namespace Entropy

variable (L : LArith F)

/-- The window of the entropy after `push_back`, and the decrement if it is too long.
/repo/tools/cpp/KML/src/statistics/summary/StreamingEntropy.cc:38-44. -/
def enter (e : Entropy F) (w : List ℕ) : Res (Entropy F) :=
  match w with
  | front :: rest =>
    if w.length > e.windowSize then do
      let e ← e.decrement L front
      .ok { e with window := some rest }
    else .ok { e with window := some w }
  | [] => .ub .oob

/-- The end of `update`, once the histogram has returned or thrown.
/repo/tools/cpp/KML/src/statistics/summary/StreamingEntropy.cc:46-48. -/
def leave (e : Entropy F) (index : ℕ) (d : Done) : Res (Done × Entropy F) :=
  match d with
  | .badAlloc => .ok (.badAlloc, e)
  | .returned => do
    let e ← e.increment L index
    .ok (.returned, { e with historyCount := e.historyCount + 1 })

/-- `update`; the first flag says that `push_back` of the window of the entropy itself throws, the second is for the
histogram. /repo/tools/cpp/KML/src/statistics/summary/StreamingEntropy.cc:35-49. -/
def updateMem (e : Entropy F) (call : F × Bool × (Spot → Bool)) : Res (Done × Entropy F) := do
  let index ← e.hist.binSearch L.toArith call.1
  match e.window with
  | none => .ub .nullDeref
  | some w =>
    if call.2.1 then .ok (.badAlloc, e)
    else do
      let e ← e.enter L (w ++ [index])
      let (d, hist) ← e.hist.updateMem L.toArith (call.1, call.2.2)
      leave L { e with hist := hist } index d

end Entropy

end KML
