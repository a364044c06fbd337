import Verif.Model.Containers
import Verif.Model.Entropy
import Verif.Model.Float
import Verif.Model.Histogram
import Verif.Model.Quantile
import Verif.Model.Stats

/-!
# The Python wrappers

The Cython classes convert their arguments, call the C++ object and convert the result. Conversion errors are Python
exceptions. Objects with their own `__float__` or `__int__` are not modelled, nor is `MemoryError`.
-/

namespace KML

/-- What depends on the version of Cython, which /repo/pyproject.toml:4 leaves open (`Cython>=0.29.22`): whether parameters
annotated `int` and `Optional[float]` refuse objects of another type. Without the check, C code generated by Cython (seen in
the output of Cython 3.0.11, `__Pyx_PyNumber_IntOrLong`) converts a `float` to an integer with `__int__`. Everything about
the wrappers is proved for every choice. -/
class Cython where
  checkInt : Bool
  checkFloat : Bool

/-- Python values that can be passed in. `list` stands for every iterable that is not a string. -/
inductive PyVal where
  | none
  | int (n : ℤ)
  | float (d : Dbl)
  | str (s : String)
  | list (items : List PyVal)

namespace PyVal

/-- Conversion to `double` (`PyFloat_AsDouble`; no source in /repo, used wherever a `.pyx` file passes an argument for a
C++ `double`). -/
def asDouble : PyVal → Res Dbl
  | float d => .ok d
  | int n =>
    match Dbl.ofRat n with
    | .fin q => .ok (.fin q)
    | _ => .throw "OverflowError"
  | _ => .throw "TypeError"

/-- An argument annotated `Optional[float]`, converted to `double` (None is no number).
/repo/tools/cython/kml/statistics/summary/StreamingP2Quantile.pyx:39, StreamingIQR.pyx:45, WindowedFAME.pyx:45-46. -/
def asDoubleArg [Cython] : PyVal → Res Dbl
  | int n => if Cython.checkFloat then .throw "TypeError" else (int n).asDouble
  | v => v.asDouble

/-- An argument annotated `int` or `Optional[int]` as an integer: a `float` is either refused or truncated toward zero
(`float.__int__`; no source in /repo). -/
def asInt [Cython] : PyVal → Res ℤ
  | int n => .ok n
  | float d =>
    if Cython.checkInt then .throw "TypeError"
    else
      match d with
      | .nan => .throw "ValueError"
      | .inf _ => .throw "OverflowError"
      | .fin q => .ok (if 0 ≤ q then q.floor else -(-q).floor)
  | _ => .throw "TypeError"

/-- Conversion to `uint64_t` (Cython's `__Pyx_PyInt_As_uint64_t`; no source in /repo). -/
def asUInt64 [Cython] (v : PyVal) : Res ℕ := do
  let n ← v.asInt
  if 0 ≤ n ∧ n < 2 ^ 64 then .ok n.toNat else .throw "OverflowError"

/-- `isinstance(item, Iterable)` and the items; a string iterates over its characters. -/
def elements : PyVal → Option (List PyVal)
  | list items => some items
  | str s => some (s.toList.map fun c => str (String.singleton c))
  | _ => Option.none

end PyVal

/-- Nearest number with 24 significant bits and exponent at least -149: `double` to `float` without overflow. -/
def rnd32 (x : ℚ) : ℚ := if x = 0 then 0 else rndAt (max (expo x - 23) (-149)) x

/-- The largest `float`. -/
def fltMax : ℚ := (2 ^ 24 - 1) * 2 ^ 104

/-- Conversion of a `double` to `float` and back (IEEE 754; overflow to infinity). -/
def Dbl.narrow : Dbl → Dbl
  | .fin q =>
    let r := rnd32 q
    if fltMax < |r| then .inf (decide (r < 0)) else .fin r
  | d => d

/-- Conversion to `float`. -/
def PyVal.asFloat (v : PyVal) : Res Dbl := do
  let d ← v.asDouble
  .ok d.narrow

section

variable {σ β : Type}

/-- The loop `for i in item: self.c.update(i)`: its outcome, and the object afterwards. Items before one that fails have
been added. (The object after a failing C++ `update` is taken to be the one before it.)
/repo/tools/cython/kml/data_structures/RingBuffer.pyx:55-59, LinkedList.pyx:55-59, and the same lines of every wrapper. -/
def PyVal.feed (conv : PyVal → Res β) (upd : σ → β → Res σ) : σ → List PyVal → Res Unit × σ
  | s, [] => (.ok (), s)
  | s, v :: vs =>
    match conv v with
    | .throw m => (.throw m, s)
    | .ub u => (.ub u, s)
    | .ok b =>
      match upd s b with
      | .throw m => (.throw m, s)
      | .ub u => (.ub u, s)
      | .ok s' => PyVal.feed conv upd s' vs

/-- `update`. /repo/tools/cython/kml/data_structures/RingBuffer.pyx:45-59, LinkedList.pyx:45-59, and the `update` of every other
wrapper (lines at `gstep`). -/
def PyVal.update (conv : PyVal → Res β) (upd : σ → β → Res σ) (s : σ) (v : PyVal) : Res Unit × σ :=
  match v.elements with
  | some vs => PyVal.feed conv upd s vs
  | .none => PyVal.feed conv upd s [v]

end

/-! ## Constructors -/

namespace Py

section

variable [Cython]

/-- `PyRingBuffer(window_size)`. /repo/tools/cython/kml/data_structures/RingBuffer.pyx:42-43. -/
def ringBuffer (window : PyVal) : Res (RingBuffer Dbl) := do
  let W ← window.asUInt64
  .ok (RingBuffer.new W)

/-- `PyLinkedList(window_size)`. /repo/tools/cython/kml/data_structures/LinkedList.pyx:42-43. -/
def linkedList (window : PyVal) : Res (LinkedList Dbl) := do
  let W ← window.asUInt64
  .ok (LinkedList.new W)

/-- `PyStreamingMean(window_size)`. /repo/tools/cython/kml/statistics/summary/StreamingMean.pyx:40-41. -/
def mean (window : PyVal) : Res (Mean Dbl) := do
  let W ← window.asUInt64
  .ok (Mean.new Dbl.arith W)

/-- `PyStreamingVariance(window_size)`. /repo/tools/cython/kml/statistics/summary/StreamingVariance.pyx:40-41. -/
def variance (window : PyVal) : Res (Variance Dbl) := do
  let W ← window.asUInt64
  .ok (Variance.new Dbl.arith W)

/-- `PyStreamingP2Quantile(quantile)`. /repo/tools/cython/kml/statistics/summary/StreamingP2Quantile.pyx:39-40. -/
def quantile (quantile : PyVal) : Res (P2 Dbl) := do
  let q ← quantile.asDoubleArg
  P2.new Dbl.arith q

/-- `PyWindowedP2Quantile(quantile, window_size)`.
/repo/tools/cython/kml/statistics/summary/WindowedP2Quantile.pyx:38-39. -/
def windowedQuantile (quantile window : PyVal) : Res (WP2 Dbl) := do
  let q ← quantile.asDouble
  let W ← window.asUInt64
  WP2.new Dbl.arith q W

/-- `PyStreamingIQR(low, high, window_size)`. /repo/tools/cython/kml/statistics/summary/StreamingIQR.pyx:44-50. -/
def iqr (low high window : PyVal) : Res (IQR Dbl) :=
  match low, high with
  | .none, _ => do
    let W ← window.asUInt64
    IQR.newDefault Dbl.arith W
  | _, .none => do
    let W ← window.asUInt64
    IQR.newDefault Dbl.arith W
  | low, high => do
    let l ← low.asDoubleArg
    let h ← high.asDoubleArg
    let W ← window.asUInt64
    IQR.new Dbl.arith l h W

/-- `PyWindowedFAME(step_size, epsilon)`. /repo/tools/cython/kml/statistics/summary/WindowedFAME.pyx:45-47. -/
def fame (step epsilon : PyVal) : Res (Fame Dbl) := do
  let s ← step.asDoubleArg
  let e ← epsilon.asDoubleArg
  Fame.new Dbl.arith s e

/-- `PyStreamingEntropy(window_size, num_bins)`; `L` is `double` arithmetic with `std::log2`.
/repo/tools/cython/kml/statistics/summary/StreamingEntropy.pyx:45-47. -/
def entropy (L : LArith Dbl) (window numBins : PyVal) : Res (Entropy Dbl) := do
  let W ← window.asUInt64
  let n ← numBins.asUInt64
  Entropy.new L W n

/-- `PyStreamingHistogram(num_bins, window_size)`.
/repo/tools/cython/kml/data_structures/histograms/StreamingHistogram.pyx:51-53. -/
def histogram (numBins window : PyVal) : Res (Hist Dbl) := do
  let n ← numBins.asUInt64
  let W ← window.asUInt64
  .ok (Hist.new n W)

/-- `PyStreamingMAD()`. /repo/tools/cython/kml/metrics/StreamingMAD.pyx:37-38. -/
def mad : Res (Mad Dbl) := Mad.new Dbl.arith

end

/-! ## The two containers -/

/-- A call on a container. -/
inductive Op where
  | update (v : PyVal)
  | pop
  | reset
  | size
  | empty
  | full

/-- What a call does: it returns a value or raises an exception. -/
inductive Out where
  | value (r : COut Dbl)
  | raised (e : String)
  deriving DecidableEq

/-- One call on a wrapper whose C++ object does `step`; `T` is `float` in C++.
/repo/tools/cython/kml/data_structures/RingBuffer.pyx:45-108, LinkedList.pyx:45-111. -/
def step {σ : Type} (cstep : σ → COp Dbl → Res (COut Dbl × σ)) (s : σ) : Op → Res (Out × σ)
  | .update v =>
    match PyVal.update PyVal.asFloat (fun s x => do let (_, s') ← cstep s (.update x); .ok s') s v with
    | (.ok _, s') => .ok (.value .unit, s')
    | (.throw m, s') => .ok (.raised m, s')
    | (.ub u, _) => .ub u
  | .pop => do let (r, s') ← cstep s .pop; .ok (.value r, s')
  | .reset => do let (r, s') ← cstep s .reset; .ok (.value r, s')
  | .size => do let (r, s') ← cstep s .size; .ok (.value r, s')
  | .empty => do let (r, s') ← cstep s .empty; .ok (.value r, s')
  | .full => do let (r, s') ← cstep s .full; .ok (.value r, s')

/-- Calls on a `PyRingBuffer`. -/
def ringRun (b : RingBuffer Dbl) (ops : List Op) : Res (List Out × RingBuffer Dbl) :=
  runCalls (step (RingBuffer.step (.fin 0))) b ops

/-- Calls on a `PyLinkedList`. -/
def listRun (l : LinkedList Dbl) (ops : List Op) : Res (List Out × LinkedList Dbl) :=
  runCalls (step (LinkedList.step (.fin 0))) l ops

/-! ## The statistics and the histogram -/

section

variable {σ κ ρ : Type}

/-- A call on a statistic or a histogram: `update`, or another method, whose C++ arguments `c` are the converted Python
arguments. -/
inductive GOp (κ : Type) where
  | update (v : PyVal)
  | call (c : Res κ)

/-- What such a call does. -/
inductive GOut (ρ : Type) where
  | done
  | value (r : ρ)
  | raised (e : String)
  deriving DecidableEq

/-- One call on a wrapper whose C++ object does `upd` and `meth`; `except +` turns C++ exceptions into Python ones.
/repo/tools/cython/kml/statistics/summary/StreamingMean.pyx:43-67 and .pxd:5-12, StreamingVariance.pyx:43-67 and .pxd:5-15,
StreamingP2Quantile.pyx:42-65 and .pxd:6-13, WindowedP2Quantile.pyx:41-64 and .pxd:6-16, StreamingIQR.pyx:52-76 and .pxd:6-20,
WindowedFAME.pyx:49-71 and .pxd:5-12, StreamingEntropy.pyx:49-73 and .pxd:5-15,
/repo/tools/cython/kml/metrics/StreamingMAD.pyx:39-62 and .pxd:3-13,
/repo/tools/cython/kml/data_structures/histograms/StreamingHistogram.pyx:55-173 and .pxd:9-28. -/
def gstep (upd : σ → Dbl → Res σ) (meth : σ → κ → Res (ρ × σ)) (s : σ) : GOp κ → Res (GOut ρ × σ)
  | .update v =>
    match PyVal.update PyVal.asDouble upd s v with
    | (.ok _, s') => .ok (.done, s')
    | (.throw m, s') => .ok (.raised m, s')
    | (.ub u, _) => .ub u
  | .call (.ok c) =>
    match meth s c with
    | .ok (r, s') => .ok (.value r, s')
    | .throw m => .ok (.raised m, s)
    | .ub u => .ub u
  | .call (.throw m) => .ok (.raised m, s)
  | .call (.ub u) => .ub u

end

/-- Calls on `PyStreamingMean`; the only other method is `evaluate()`. -/
def meanRun : Mean Dbl → List (GOp Unit) → Res (List (GOut Dbl) × Mean Dbl) :=
  runCalls (gstep (Mean.update Dbl.arith) fun m _ => .ok (m.evaluate Dbl.arith, m))

/-- Calls on `PyStreamingVariance`. -/
def varianceRun : Variance Dbl → List (GOp Unit) → Res (List (GOut Dbl) × Variance Dbl) :=
  runCalls (gstep (Variance.update Dbl.arith) fun v _ => .ok (v.evaluate Dbl.arith, v))

/-- Calls on `PyWindowedFAME`. -/
def fameRun : Fame Dbl → List (GOp Unit) → Res (List (GOut Dbl) × Fame Dbl) :=
  runCalls (gstep (fun f x => .ok (f.update Dbl.arith x)) fun f _ => .ok (f.evaluate, f))

/-- Calls on `PyStreamingMAD`. -/
def madRun : Mad Dbl → List (GOp Unit) → Res (List (GOut Dbl) × Mad Dbl) :=
  runCalls (gstep (fun m x => .ok (m.update Dbl.arith x)) fun m _ => .ok (m.evaluate, m))

/-- Calls on `PyStreamingP2Quantile`. -/
def quantileRun : P2 Dbl → List (GOp Unit) → Res (List (GOut Dbl) × P2 Dbl) :=
  runCalls (gstep (P2.update Dbl.arith) fun p _ => p.evaluate Dbl.arith)

/-- Calls on `PyWindowedP2Quantile`. -/
def windowedQuantileRun : WP2 Dbl → List (GOp Unit) → Res (List (GOut Dbl) × WP2 Dbl) :=
  runCalls (gstep (WP2.update Dbl.arith) fun p _ => p.evaluate Dbl.arith)

/-- Calls on `PyStreamingIQR`. -/
def iqrRun : IQR Dbl → List (GOp Unit) → Res (List (GOut Dbl) × IQR Dbl) :=
  runCalls (gstep (IQR.update Dbl.arith) fun p _ => p.evaluate Dbl.arith)

/-- Calls on `PyStreamingEntropy`; `L` is `double` arithmetic with `std::log2`. -/
def entropyRun (L : LArith Dbl) : Entropy Dbl → List (GOp Unit) → Res (List (GOut Dbl) × Entropy Dbl) :=
  runCalls (gstep (Entropy.update L) fun e _ => .ok (e.evaluate, e))

/-- The other methods of `PyStreamingHistogram`.
/repo/tools/cython/kml/data_structures/histograms/StreamingHistogram.pyx:69-173. -/
inductive HCall where
  | pdf (normalize density : Bool)
  | cdf (normalize : Bool)
  | quantile (q : Dbl)
  | binCounts
  | report
  | reset
  | empty
  | full
  | size

/-- What they return. -/
inductive HOut where
  | none
  | doubles (xs : List Dbl)
  | double (x : Dbl)
  | counts (ns : List ℕ)
  | map (m : List ((Dbl × Dbl) × ℕ))
  | bool (b : Bool)
  | num (n : ℕ)
  deriving DecidableEq

/-- The C++ call. -/
def histCall (h : Hist Dbl) : HCall → Res (HOut × Hist Dbl)
  | .pdf n d => .ok (.doubles (h.pdf Dbl.arith n d), h)
  | .cdf n => .ok (.doubles (h.cdf Dbl.arith n), h)
  | .quantile q => do let x ← h.quantile Dbl.arith q; .ok (.double x, h)
  | .binCounts => do let ns ← h.binCounts; .ok (.counts ns, h)
  | .report => .ok (.map (h.report Dbl.arith), h)
  | .reset => .ok (.none, h.reset)
  | .empty => .ok (.bool h.isEmpty, h)
  | .full => .ok (.bool h.isFull, h)
  | .size => .ok (.num h.size, h)

/-- Calls on `PyStreamingHistogram`. -/
def histRun : Hist Dbl → List (GOp HCall) → Res (List (GOut HOut) × Hist Dbl) :=
  runCalls (gstep (Hist.update Dbl.arith) histCall)

end Py

end KML
