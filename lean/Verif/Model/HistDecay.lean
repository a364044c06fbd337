import Verif.Model.Python

/-!
# StreamingHistogram with its decay type

`Model/Histogram.lean` is the histogram with decay type `WINDOW`. The constructor takes any `DecayType`; here it is a parameter.
-/

namespace KML

/-- The values an object of type `enum DecayType { WINDOW = 1 }` can have: 1, and 0 (C++ gives an enumeration without a fixed
underlying type all values that fit into the bits of its enumerators).
/repo/tools/cpp/KML/include/data_structures/histograms/IStreamingHistogram.h:22-25. -/
inductive DecayType where
  | zero
  | window
  deriving DecidableEq, Repr

/-- Members of `IStreamingHistogram<T>` with `m_decay` and a pointer `m_window` that may be null (`none`).
/repo/tools/cpp/KML/include/data_structures/histograms/IStreamingHistogram.h:192-216. -/
structure DHist (F : Type) where
  decay : DecayType
  numBins : ℕ
  windowSize : ℕ
  bins : List (Bin F)
  window : Option (List ℕ)
  total : ℕ
  historyCount : ℕ
  deriving DecidableEq, Repr

namespace DHist

variable {F : Type} (A : Arith F)

/-- Constructor. /repo/tools/cpp/KML/include/data_structures/histograms/IStreamingHistogram.tcc:20-29,
StreamingHistogram.tcc:18-24. -/
def new (numBins windowSize : ℕ) (decay : DecayType) : DHist F where
  decay := decay
  numBins := numBins
  windowSize := windowSize
  bins := []
  window := if decay = .window then some (List.replicate windowSize 0) else none
  total := 0
  historyCount := 0

/-- The members that `binSearch` and the queries look at (none of them uses `m_decay` or `m_window`).
/repo/tools/cpp/KML/include/data_structures/histograms/IStreamingHistogram.tcc:132-244, 288-318, 328-374. -/
def view (h : DHist F) : Hist F := ⟨h.numBins, h.windowSize, h.bins, h.window.getD [], h.total, h.historyCount, 0⟩

/-- `decayCounts`. /repo/tools/cpp/KML/include/data_structures/histograms/IStreamingHistogram.tcc:104-130. -/
def decayCounts (h : DHist F) : Res (DHist F) :=
  if h.decay = .window then
    if h.total > h.windowSize then
      match h.window with
      | none => .ub .nullDeref
      | some [] => .ub .oob
      | some (del :: rest) =>
        match h.bins[del]? with
        | none => .ub .oob
        | some b =>
          let b' := if b.count > 0 then { b with count := b.count - 1 } else b
          let bins := h.bins.set del b'
          let bins := if bins.length > h.numBins then
              if b'.count = 0 then bins.eraseIdx del else bins
            else bins
          .ok { h with bins := bins, window := some rest, total := h.total - 1 }
    else .ok h
  else .ok h

/-- The part of `add` that places the item.
/repo/tools/cpp/KML/include/data_structures/histograms/IStreamingHistogram.tcc:249-279. -/
def place (h : DHist F) (item : F) (index : ℕ) : Res (DHist F) :=
  let bin : Bin F := ⟨item, item, 1⟩
  if h.total = 0 then .ok { h with bins := h.bins ++ [bin] }
  else if index = h.bins.length then .ok { h with bins := h.bins ++ [bin] }
  else match h.bins[index]? with
    | none => .ub .oob
    | some b =>
      if A.le b.left item then .ok { h with bins := h.bins.set index { b with count := b.count + 1 } }
      else .ok { h with bins := h.bins.insertIdx index bin }

/-- `add`. /repo/tools/cpp/KML/include/data_structures/histograms/IStreamingHistogram.tcc:246-286: `m_window->push_back` is done
whatever the decay type. -/
def add (h : DHist F) (item : F) : Res (DHist F) := do
  let index ← h.view.binSearch A item
  let h ← h.place A item index
  match h.window with
  | none => .ub .nullDeref
  | some w => decayCounts { h with historyCount := h.historyCount + 1, total := h.total + 1, window := some (w ++ [index]) }

/-- `update`. /repo/tools/cpp/KML/include/data_structures/histograms/StreamingHistogram.tcc:32-54. -/
def update (h : DHist F) (item : F) : Res (DHist F) := do
  let h ← h.add A item
  if h.bins.length > h.numBins then do
    let i := Hist.mergeIndex A h.bins
    let bins ← Hist.mergeBins A h.bins i (i + 1)
    if h.decay = .window then
      match h.window with
      | none => .ub .nullDeref
      | some w => .ok { h with bins := bins, window := some (w.map fun w => if w = i + 1 then i else w) }
    else .ok { h with bins := bins }
  else .ok h

/-- `reset`. /repo/tools/cpp/KML/include/data_structures/histograms/IStreamingHistogram.tcc:320-326 (with its null check). -/
def reset (h : DHist F) : DHist F := { h with bins := [], historyCount := 0, window := h.window.map fun _ => [] }

end DHist

/-- Conversion of a Python object to `DecayType` (Cython converts integers; no source in /repo). An integer that is no value of the
enumeration is undefined behaviour. -/
def PyVal.asDecayType [Cython] (v : PyVal) : Res DecayType := do
  let n ← v.asInt
  if n = 1 then .ok .window else if n = 0 then .ok .zero
    else if n < 0 ∨ 2 ^ 32 ≤ n then .throw "OverflowError" else .ub .badConv

/-- `PyStreamingHistogram(num_bins, window_size, decay_type)`.
/repo/tools/cython/kml/data_structures/histograms/StreamingHistogram.pyx:51-53, .pxd:14-18. -/
def Py.histogramDecay [Cython] (numBins window decay : PyVal) : Res (DHist Dbl) := do
  let n ← numBins.asUInt64
  let W ← window.asUInt64
  let d ← decay.asDecayType
  .ok (DHist.new n W d)

end KML
