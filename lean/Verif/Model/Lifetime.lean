import Verif.Model.Entropy
import Verif.Model.Quantile
import Verif.Model.Stats

/-!
# Construction and destruction

Which blocks of memory the objects of the library allocate and release when they are made and destroyed. The bins of a
histogram are left out: C74 is about them; so is what a `std::vector` or `std::deque` allocates or releases later on, while
it is used. Any allocation may be refused.
-/

namespace KML

/-- The heap: the number of the next allocation, the allocated blocks, and the allocations that will be refused (modelling
device). -/
structure Blocks where
  next : ℕ
  live : List ℕ
  refuse : List ℕ := []
  deriving DecidableEq, Repr

/-- Code that may allocate, release, throw or be undefined. After an exception the heap is what it was when it was thrown
(modelling device). -/
def Life (α : Type) := Blocks → Res α × Blocks

namespace Life

variable {α β : Type}

instance : Monad Life where
  pure a := fun h => (.ok a, h)
  bind x f := fun h =>
    match x h with
    | (.ok a, h') => f a h'
    | (.throw m, h') => (.throw m, h')
    | (.ub u, h') => (.ub u, h')

/-- Code that does not touch the heap. -/
def lift (x : Res α) : Life α := fun h => (x, h)

/-- A block of memory. -/
def alloc : Life ℕ := fun h =>
  if h.next ∈ h.refuse then (.throw "std::bad_alloc", { h with next := h.next + 1 })
  else (.ok h.next, { h with next := h.next + 1, live := h.next :: h.live })

/-- Release a block. -/
def free (a : ℕ) : Life Unit := fun h =>
  if a ∈ h.live then (.ok (), { h with live := h.live.erase a }) else (.ub .useAfterFree, h)

/-- If `x` throws, do `cleanup` and go on throwing ([except.ctor]). -/
def onThrow (x : Life α) (cleanup : Life Unit) : Life α := fun h =>
  match x h with
  | (.throw m, h') =>
    match cleanup h' with
    | (.ok _, h'') => (.throw m, h'')
    | (.throw _, h'') => (.throw m, h'')
    | (.ub u, h'') => (.ub u, h'')
  | r => r

/-- What a destructor does. An object is represented by its destructor. -/
abbrev Dtor := Life Unit

/-- `new T(...)`: memory for the object, then its constructor; the memory is released if the constructor throws
([expr.new]). The result is what `delete` of the pointer does. -/
def new (ctor : Life Dtor) : Life Dtor := do
  let a ← alloc
  let d ← onThrow ctor (free a)
  pure do
    d
    free a

/-- An object with a base class: the base is constructed first and destroyed last, and also destroyed if the body of the
constructor throws; the destructor of the class itself is not run then ([except.ctor]). -/
def derived (base body : Life Dtor) : Life Dtor := do
  let b ← base
  let d ← onThrow body b
  pure do
    d
    b

end Life

/-- What the standard library does in the constructors of `std::deque` with some elements and of `std::vector` with five.
Nothing is assumed about it here; see `Library.Sound`. -/
structure Library where
  deque : ℕ → Life Life.Dtor
  vector : Life Life.Dtor

namespace Lifetime

open Life

variable {F : Type} (S : Library)

/-- `IStreaming`. /repo/tools/cpp/KML/include/IStreaming.tcc:7-21. -/
def streaming (W : ℕ) : Life Dtor := if W > 0 then new (S.deque 0) else pure (pure ())

/-- `StreamingMean`. /repo/tools/cpp/KML/src/statistics/summary/StreamingMean.cc:11-14. -/
def mean (W : ℕ) : Life Dtor := derived (streaming S W) (pure (pure ()))

/-- `StreamingVariance`. /repo/tools/cpp/KML/src/statistics/summary/StreamingVariance.cc:11-22. -/
def variance (W : ℕ) : Life Dtor := derived (streaming S W) do
  let s ← new (mean S W)
  let m ← new (mean S W)
  pure do
    s
    m

/-- `StreamingP2Quantile`. /repo/tools/cpp/KML/src/statistics/summary/StreamingP2Quantile.cc:18-31. The three vectors are
members: they are destroyed if making a later one throws. -/
def p2 (A : Arith F) (q : F) : Life Dtor := derived (streaming S 0) do
  let _ ← lift (P2.new A q)
  derived S.vector (derived S.vector S.vector)

/-- `WindowedP2Quantile`. /repo/tools/cpp/KML/src/statistics/summary/WindowedP2Quantile.cc:14-20. -/
def windowedP2 (A : Arith F) (q : F) (W : ℕ) : Life Dtor := derived (streaming S W) (new (p2 S A q))

/-- `StreamingIQR` with explicit quantiles. /repo/tools/cpp/KML/src/statistics/summary/StreamingIQR.cc:17-28. -/
def iqr (A : Arith F) (low high : F) (W : ℕ) : Life Dtor := derived (streaming S 0) do
  let l ← new (windowedP2 S A low W)
  let h ← new (windowedP2 S A high W)
  pure do
    l
    h

/-- `StreamingIQR` with the default quartiles. /repo/tools/cpp/KML/src/statistics/summary/StreamingIQR.cc:11-15, 24-28. -/
def iqrDefault (A : Arith F) (W : ℕ) : Life Dtor := iqr S A (A.lit (1 / 4)) (A.lit (3 / 4)) W

/-- `WindowedFAME`. /repo/tools/cpp/KML/src/statistics/summary/WindowedFAME.cc:14-22. -/
def fame (A : Arith F) (step epsilon : F) : Life Dtor := derived (streaming S 0) do
  let _ ← lift (Fame.new A step epsilon)
  pure (pure ())

/-- `StreamingMAD`. /repo/tools/cpp/KML/src/metrics/StreamingMAD.cc:13-23. -/
def mad (A : Arith F) : Life Dtor := derived (streaming S 0) do
  let s ← new (fame S A (A.lit (1 / 10)) (A.lit 0))
  let e ← new (fame S A (A.lit (1 / 10)) (A.lit 0))
  pure do
    s
    e

/-- `RingBuffer`. /repo/tools/cpp/KML/include/data_structures/RingBuffer.tcc:11-17, RingBuffer.h:27. -/
def ringBuffer : Life Dtor := do
  let a ← alloc
  pure (free a)

/-- `StreamingHistogram` (without bins): the deque gets a windowful of zeros.
/repo/tools/cpp/KML/include/data_structures/histograms/IStreamingHistogram.tcc:19-29, 81-89. -/
def histogram (W : ℕ) : Life Dtor := new (S.deque W)

/-- `StreamingEntropy`. It has no destructor, so the histogram is not deleted.
/repo/tools/cpp/KML/src/statistics/summary/StreamingEntropy.cc:19-33,
/repo/tools/cpp/KML/include/statistics/summary/StreamingEntropy.h:24-69. -/
def entropy (L : LArith F) (W numBins : ℕ) : Life Dtor := derived (streaming S W) do
  let _ ← lift (Entropy.new L W numBins)
  let _ ← new (histogram S W)
  pure (pure ())

/-- A Python object of a class with `__dealloc__`: `new` in `__cinit__`, `del` in `__dealloc__`.
/repo/tools/cython/kml/statistics/summary/StreamingMean.pyx:40-41, 69-70 and the other statistics and StreamingMAD. -/
def wrapper (ctor : Life Dtor) : Life Dtor := new ctor

/-- A Python object of a class without `__dealloc__`.
/repo/tools/cython/kml/data_structures/RingBuffer.pyx:42-43, LinkedList.pyx:42-43,
histograms/StreamingHistogram.pyx:51-53. -/
def bareWrapper (ctor : Life Dtor) : Life Dtor := do
  let _ ← new ctor
  pure (pure ())

end Lifetime

end KML
