import Verif.Model.Python
import Verif.Lemmas.EntropySkel
import Verif.Props.EntropyWindow

/-! # C93: the library's own unit tests

Every test of /repo/tools/cpp/tests and /repo/tools/python/tests as a statement about the model, on doubles with overflow.
Pointers returned by `new` and destructors are not part of the tests. -/

namespace KML

/-! ### Comparisons used by the tests -/

/-- Position of a finite `float` among the floats: neighbours differ by 1. -/
def floatOrd (x : ℚ) : ℤ :=
  let k := max (expo x - 23) (-149)
  if x = 0 then 0 else (if x < 0 then -1 else 1) * ((k + 149) * 2 ^ 23 + ⌊|x| / pow2 k⌋)

/-- `EXPECT_FLOAT_EQ`: both arguments are converted to `float` and at most 4 units in the last place apart. -/
def floatEq (a b : Dbl) : Bool :=
  match a.narrow, b.narrow with
  | .fin x, .fin y => decide (|floatOrd x - floatOrd y| ≤ 4)
  | .inf s, .inf t => s == t
  | _, _ => false

/-- `EXPECT_EQ` and `assertEqual` of doubles. -/
def dblEq (a b : Dbl) : Bool := Dbl.arith.eq a b

/-- `assertAlmostEqual`: the difference rounds to 0 at seven places. -/
def almostEq (a b : Dbl) : Bool :=
  match Dbl.arith.sub a b with
  | .fin d => decide (|d| < 1 / 20000000)
  | _ => false

/-- The test passes: no undefined behaviour, no exception, and the assertion holds. -/
def passes (x : Res Bool) : Bool :=
  match x with
  | .ok b => b
  | _ => false

/-- Neighbouring floats are one apart, across a power of two as well. -/
example : floatOrd (1 + pow2 (-23)) = floatOrd 1 + 1 ∧ floatOrd (1 - pow2 (-24)) = floatOrd 1 - 1 ∧
    floatOrd (pow2 (-149)) = 1 ∧ floatOrd (pow2 (-126)) - 1 = floatOrd (pow2 (-126) - pow2 (-149)) ∧
    floatEq (.fin (1 / 3)) (.fin (1 / 3 + pow2 (-24))) = true ∧ floatEq (.fin (1 / 3)) (.fin (1 / 3 + pow2 (-22))) = false := by
  decide +kernel

namespace Tests

def dbls (xs : List ℚ) : List Dbl := xs.map Dbl.ofRat

def lit (x : ℚ) : Dbl := Dbl.ofRat x

def upTo10 : List Dbl := dbls [1, 2, 3, 4, 5, 6, 7, 8, 9, 10]

/-! ### /repo/tools/cpp/tests/data_structures -/

/-- /repo/tools/cpp/tests/data_structures/test_RingBuffer.cc:21-39. -/
def ringBuffer : List (Res Bool) :=
  [do let (v, _) ← (RingBuffer.new 2 : RingBuffer Dbl).pop (.fin 0)
      .ok (floatEq (.fin 0) v),
   do let b ← updateAll RingBuffer.update (RingBuffer.new 2) (dbls [1, 2, 3, 4])
      .ok (b.size == 2),
   do let b ← updateAll RingBuffer.update (RingBuffer.new 2) (dbls [1, 2, 3, 4])
      let (v, _) ← b.pop (.fin 0)
      .ok (dblEq (.fin 3) v)]

/-- /repo/tools/cpp/tests/data_structures/test_LinkedList.cc:22-51. -/
def linkedList : List (Res Bool) :=
  [do let (v, _) ← (LinkedList.new 2 : LinkedList Dbl).pop (.fin 0)
      .ok (floatEq (.fin 0) v),
   do let l ← updateAll (LinkedList.update (.fin 0)) (LinkedList.new 2) (dbls [1, 2, 3, 4])
      .ok (l.size == 2),
   do let l ← updateAll (LinkedList.update (.fin 0)) (LinkedList.new 2) (dbls [1, 2, 3, 4])
      let (v, l) ← l.pop (.fin 0)
      .ok (dblEq (.fin 3) v && l.size == 1),
   do let l ← updateAll (LinkedList.update (.fin 0)) (LinkedList.new 2) (dbls [1, 2, 3, 4])
      let l ← l.reset
      .ok (l.size == 0)]

/-- /repo/tools/cpp/tests/data_structures/histograms/test_IBin.cc:18-60. -/
def bin : List (Res Bool) :=
  let b (x y : ℚ) : Bin Dbl := ⟨.fin x, .fin y, 1⟩
  [.ok (Bin.eq Dbl.arith (b 0 1) (b 0 1)),
   let s := Bin.add Dbl.arith (b 0 1) (b 0 2)
   .ok (s.count == 2 && dblEq s.left (.fin 0) && dblEq s.right (.fin 2)),
   let s := Bin.add Dbl.arith (b 1 2) (b 0 1)
   .ok (s.count == 2 && dblEq s.left (.fin 0) && dblEq s.right (.fin 2)),
   .ok (Bin.lt Dbl.arith (b 0 1) (b 1 2) && !Bin.lt Dbl.arith (b 1 2) (b 0 1))]

def hist (numBins W : ℕ) (xs : List Dbl) : Res (Hist Dbl) := updateAll (Hist.update Dbl.arith) (Hist.new numBins W) xs

/-- The loops compare as many entries as there are. -/
def allFloatEq (xs ys : List Dbl) : Bool := decide (xs.length ≤ ys.length) && (xs.zip ys).all fun p => floatEq p.1 p.2

def allEq (xs ys : List ℕ) : Bool := decide (xs.length ≤ ys.length) && (xs.zip ys).all fun p => p.1 == p.2

/-- /repo/tools/cpp/tests/data_structures/histograms/test_StreamingHistogram.cc:25-193. -/
def histogram : List (Res Bool) :=
  [do let h ← hist 5 10 upTo10
      .ok (h.size == 5),
   do let h ← hist 5 10 (dbls [1, 2, 3, 4])
      .ok (h.reset.size == 0),
   do let h ← hist 5 10 upTo10
      .ok (allFloatEq (h.pdf Dbl.arith true true) (dbls [12 / 100, 1 / 10, 1 / 10, 1 / 10, 1 / 10])),
   do let h ← hist 5 10 upTo10
      .ok (allFloatEq (h.pdf Dbl.arith true false) (dbls [6 / 10, 1 / 10, 1 / 10, 1 / 10, 1 / 10])),
   do let h ← hist 5 10 upTo10
      .ok (allFloatEq (h.cdf Dbl.arith true) (dbls [6 / 10, 7 / 10, 8 / 10, 9 / 10, 1])),
   do let h ← hist 5 10 upTo10
      let v ← h.quantile Dbl.arith (Dbl.arith.div (lit (92 / 10)) (lit 10))
      .ok (floatEq v (lit (92 / 10))),
   do let h ← hist 5 5 upTo10
      let v ← h.quantile Dbl.arith (lit (8 / 10))
      .ok (floatEq v (lit 9)),
   do let h ← hist 5 10 upTo10
      let ns ← h.binCounts
      .ok (allEq ns [6, 1, 1, 1, 1]),
   do let h ← hist 5 5 upTo10
      let ns ← h.binCounts
      .ok (ns.all (· == 1)),
   do let h ← hist 9 9 (dbls [-4, -3, -2, -1, 0, 1, 2, 3, 4])
      let ns ← h.binCounts
      .ok (ns.all (· == 1)),
   do let h ← hist 5 10 (dbls [1, 1, 2, 2, 3, 3, 4, 4, 5, 5])
      let ns ← h.binCounts
      .ok (ns.all (· == 2)),
   do let h ← hist 5 10 (dbls [1 / 10, 1 / 10, 2 / 10, 2 / 10, 3 / 10, 3 / 10, 4 / 10, 4 / 10, 5 / 10, 5 / 10])
      let ns ← h.binCounts
      .ok (ns.all (· == 2)),
   do let h ← hist 5 10 (dbls [1, 2, 2, 3, 3, 3, 4, 4, 5])
      let ns ← h.binCounts
      .ok (allEq ns [1, 2, 3, 2, 1]),
   do let h ← hist 5 10 upTo10
      .ok (allEq ((h.report Dbl.arith).map Prod.snd) [6, 1, 1, 1, 1])]

/-! ### /repo/tools/cpp/tests/metrics and statistics -/

/-- /repo/tools/cpp/tests/metrics/test_StreamingMAD.cc:20-37. -/
def mad : List (Res Bool) :=
  let run (xs : List ℚ) : Res Bool := do
    let m ← Mad.new Dbl.arith
    .ok (floatEq (.fin 0) (((dbls xs).foldl (Mad.update Dbl.arith) m).evaluate))
  [run [], run [10, 10], run [2, 1, 1]]

/-- /repo/tools/cpp/tests/statistics/summary/test_StreamingMean.cc:21-40. -/
def mean : List (Res Bool) :=
  let run (xs : List ℚ) (v : ℚ) : Res Bool := do
    let m ← updateAll (Mean.update Dbl.arith) (Mean.new Dbl.arith 2) (dbls xs)
    .ok (floatEq (lit v) (m.evaluate Dbl.arith))
  [run [] 0, run [10, 10] 10, run [2, 1, 1] 1]

/-- /repo/tools/cpp/tests/statistics/summary/test_StreamingVariance.cc:21-46. -/
def variance : List (Res Bool) :=
  let run (xs : List ℚ) : Res Dbl := do
    let v ← updateAll (Variance.update Dbl.arith) (Variance.new Dbl.arith 0) (dbls xs)
    .ok (v.evaluate Dbl.arith)
  [do let v ← run []; .ok (dblEq (.fin 0) v),
   .ok ((Variance.new Dbl.arith 0).window == none),
   do let v ← run [1, 1, 1, 1, 1]; .ok (dblEq (.fin 0) v),
   do let v ← run [1, 1, 1, 2, 2]; .ok (floatEq (lit (24 / 100)) v)]

/-- /repo/tools/cpp/tests/statistics/summary/test_WindowedFame.cc:20-30. -/
def fame : List (Res Bool) :=
  let run (xs : List ℚ) (v : ℚ) : Res Bool := do
    let f ← Fame.new Dbl.arith (lit (1 / 10)) (lit (3 / 10))
    .ok (floatEq (lit v) (((dbls xs).foldl (Fame.update Dbl.arith) f).evaluate))
  [run [] 0, run [10, 10, 10] 10]

/-- /repo/tools/cpp/tests/statistics/summary/test_StreamingP2Quantile.cc:22-79. (The inherited window, which
TestEmptyWindowSize compares with null, is not a member of the model.) -/
def quantile : List (Res Bool) :=
  let run (q : ℚ) (xs : List ℚ) : Res Dbl := do
    let p ← P2.new Dbl.arith (lit q)
    let p ← updateAll (P2.update Dbl.arith) p (dbls xs)
    let (v, _) ← p.evaluate Dbl.arith
    .ok v
  [do let v ← run (1 / 2) []; .ok (dblEq (.fin 0) v),
   do let v ← run (1 / 2) [10, 10, 10, 10, 10]; .ok (floatEq (lit 10) v),
   do let v ← run (1 / 2) [1, 2, 3, 4, 5, 6, 7, 8, 9, 10]; .ok (floatEq (lit 5) v),
   do let v ← run (1 / 4) [1, 2, 3, 4, 5, 6, 7, 8, 9, 10]; .ok (floatEq (lit 3) v),
   do let v ← run (3 / 4) [1, 2, 3, 4, 5, 6, 7, 8, 9, 10]; .ok (floatEq (lit 7) v),
   do let v ← run (1 / 2) [53 / 10, 38099 / 100, 723 / 10, 0, -5, -207 / 10, 500]; .ok (floatEq (lit (53 / 10)) v),
   do let v ← run (1 / 2) [-207 / 10, -5, 0, 53 / 10, 725 / 10, 38099 / 100, 500]; .ok (floatEq (lit 0) v)]

/-- /repo/tools/cpp/tests/statistics/summary/test_WindowedP2Quantile.cc:20-70. -/
def windowedQuantile : List (Res Bool) :=
  let run (q : ℚ) (W : ℕ) (xs : List ℚ) : Res Dbl := do
    let p ← WP2.new Dbl.arith (lit q) W
    let p ← updateAll (WP2.update Dbl.arith) p (dbls xs)
    let (v, _) ← p.evaluate Dbl.arith
    .ok v
  [do let v ← run (1 / 2) 3 []; .ok (dblEq (.fin 0) v),
   do let v ← run (1 / 2) 3 [10, 10, 10, 10, 10]; .ok (floatEq (lit 10) v),
   do let v ← run (1 / 2) 3 [1, 1, 1, 2, 2]; .ok (floatEq (lit 1) v),
   do let v ← run (1 / 2) 10 [1, 2, 3, 4, 5, 6, 7, 8, 9, 10]; .ok (floatEq (lit 5) v),
   do let v ← run (1 / 4) 10 [1, 2, 3, 4, 5, 6, 7, 8, 9, 10]; .ok (floatEq (lit 3) v),
   do let v ← run (3 / 4) 10 [1, 2, 3, 4, 5, 6, 7, 8, 9, 10]; .ok (floatEq (lit 7) v),
   do let v ← run (1 / 2) 5 [1, 2, 3, 4, 5, 6, 7, 8, 9, 10]; .ok (floatEq (lit 8) v)]

/-! ### /repo/tools/python/tests -/

namespace Python

open KML.Py

variable [Cython]

def ints (ns : List ℤ) : PyVal := .list (ns.map .int)

def floats (xs : List ℚ) : PyVal := .list (xs.map fun x => .float (lit x))

def oneTo (n : ℕ) : PyVal := ints ((List.range n).map fun i => (i : ℤ) + 1)

/-- The values a container returned, if no call raised. -/
def outs (os : List Py.Out) : Option (List (COut Dbl)) := os.mapM fun
  | .value r => some r
  | .raised _ => none

def gouts {ρ : Type} (os : List (Py.GOut ρ)) : Option (List ρ) :=
  if os.any (fun | .raised _ => true | _ => false) then none
  else some (os.filterMap fun | .value r => some r | _ => none)

/-- /repo/tools/python/tests/data_structures/test_RingBuffer.py:17-36. -/
def ringBuffer : List (Res Bool) :=
  let run (ops : List Py.Op) (r : List (COut Dbl)) : Res Bool := do
    let b ← Py.ringBuffer (.int 5)
    let (os, _) ← ringRun b ops
    .ok (outs os == some r)
  [run [.update (oneTo 5)] [.unit],
   run [.empty] [.bool true],
   run [.update (oneTo 5), .full] [.unit, .bool true],
   run [.update (oneTo 5), .size] [.unit, .num 5],
   run [.update (oneTo 5), .reset, .empty] [.unit, .unit, .bool true]]

/-- /repo/tools/python/tests/data_structures/test_LinkedList.py:18-43. -/
def linkedList : List (Res Bool) :=
  let run (ops : List Py.Op) (r : List (COut Dbl)) : Res Bool := do
    let b ← Py.linkedList (.int 5)
    let (os, _) ← listRun b ops
    .ok (outs os == some r)
  [run [.update (oneTo 5)] [.unit],
   run [.empty] [.bool true],
   run [.update (oneTo 5), .full] [.unit, .bool true],
   run [.update (oneTo 5), .size] [.unit, .num 5],
   run [.update (oneTo 5), .pop, .pop, .pop, .pop, .pop]
     [.unit, .val (.fin 1), .val (.fin 2), .val (.fin 3), .val (.fin 4), .val (.fin 5)],
   run [.update (oneTo 5), .reset, .empty] [.unit, .unit, .bool true]]

/-- /repo/tools/python/tests/data_structures/histograms/test_StreamingHistogram.py:20-65. -/
def histogram : List (Res Bool) :=
  let run (ops : List (GOp HCall)) (test : List HOut → Bool) : Res Bool := do
    let h ← Py.histogram (.int 5) (.int 5)
    let (os, _) ← histRun h ops
    .ok (match gouts os with | some rs => test rs | none => false)
  let w := Dbl.arith.div (lit 1) (lit 5)
  [run [.update (oneTo 10)] (· == []),
   run [.update (oneTo 10), .call (.ok .binCounts)] fun | [.counts ns] => ns.all (· == 1) | _ => false,
   run [.update (oneTo 10), .call (.ok (.pdf true true))] fun | [.doubles xs] => xs.all (dblEq w) | _ => false,
   run [.update (oneTo 10), .call (.ok (.cdf true))] fun
     | [.doubles xs] => (xs.zip (List.range xs.length)).all fun p => dblEq p.1 (Dbl.arith.mul (lit (p.2 + 1)) w)
     | _ => false,
   run [.update (oneTo 10), .call (.ok (.quantile (lit (8 / 10))))] fun | [.double x] => dblEq x (.fin 9) | _ => false,
   run [.call (.ok .empty)] (· == [.bool true]),
   run [.update (oneTo 10), .call (.ok .full)] (· == [.bool true]),
   run [.update (oneTo 10), .call (.ok .size)] (· == [.num 5]),
   run [.update (oneTo 10), .call (.ok .reset), .call (.ok .empty)] (· == [.none, .bool true])]

/-- `update` if there is data, then `evaluate()`. -/
def evalCalls (data : Option PyVal) : List (GOp Unit) :=
  (match data with | some v => [.update v] | none => []) ++ [.call (.ok ())]

def check (os : List (GOut Dbl)) (test : Dbl → Bool) : Bool :=
  match gouts os with
  | some [v] => test v
  | _ => false

/-- /repo/tools/python/tests/metrics/test_StreamingMAD.py:18-22. -/
def mad : List (Res Bool) :=
  [do let m ← Py.mad
      let (os, _) ← madRun m [.update (oneTo 10)]
      .ok (gouts os == some []),
   do let m ← Py.mad
      let (os, _) ← madRun m (evalCalls none)
      .ok (check os (dblEq (.fin 0)))]

/-- /repo/tools/python/tests/statistics/summary/test_StreamingMean.py:18-28. -/
def mean : List (Res Bool) :=
  let run (v : PyVal) (r : ℚ) : Res Bool := do
    let m ← Py.mean (.int 5)
    let (os, _) ← meanRun m (evalCalls (some v))
    .ok (check os (dblEq (.fin r)))
  [run (floats [10, 10, 10, 10, 10]) 10, run (ints [10, 10, 10, 10, 10, 5, 5, 5, 5, 5]) 5]

/-- /repo/tools/python/tests/statistics/summary/test_StreamingVariance.py:18-23. -/
def variance : List (Res Bool) :=
  [do let m ← Py.variance (.int 5)
      let (os, _) ← varianceRun m (evalCalls (some (floats [10, 10, 10, 10, 10])))
      .ok (check os (dblEq (.fin 0)))]

/-- /repo/tools/python/tests/statistics/summary/test_WindowedFame.py:18-23. -/
def fame : List (Res Bool) :=
  [do let m ← Py.fame (.float (lit (1 / 10))) (.float (lit 0))
      let (os, _) ← fameRun m (evalCalls (some (floats [10, 10, 10, 10, 10])))
      .ok (check os (dblEq (.fin 10)))]

/-- /repo/tools/python/tests/statistics/summary/test_StreamingP2Quantile.py:17-32. -/
def quantile : List (Res Bool) :=
  let run (q : ℚ) (v : Option PyVal) (test : Dbl → Bool) : Res Bool := do
    let m ← Py.quantile (.float (lit q))
    let (os, _) ← quantileRun m (evalCalls v)
    .ok (check os test)
  [run (1 / 2) none (dblEq (.fin 0)), run (1 / 2) (some (oneTo 10)) (almostEq · (.fin 5)),
   run (1 / 4) (some (oneTo 10)) (almostEq · (.fin 3)), run (3 / 4) (some (oneTo 10)) (almostEq · (.fin 7))]

/-- /repo/tools/python/tests/statistics/summary/test_WindowedP2Quantile.py:18-23. -/
def windowedQuantile : List (Res Bool) :=
  let run (v : Option PyVal) (r : ℚ) : Res Bool := do
    let m ← Py.windowedQuantile (.float (lit (1 / 2))) (.int 10)
    let (os, _) ← windowedQuantileRun m (evalCalls v)
    .ok (check os (dblEq (.fin r)))
  [run none 0, run (some (floats [10, 10, 10, 10, 10, 10, 10, 10, 10, 10])) 10]

/-- /repo/tools/python/tests/statistics/summary/test_StreamingIQR.py:18-26. -/
def iqr : List (Res Bool) :=
  let run (v : Option PyVal) (r : ℚ) : Res Bool := do
    let m ← Py.iqr .none .none (.int 10)
    let (os, _) ← iqrRun m (evalCalls v)
    .ok (check os (dblEq (.fin r)))
  [run none 0, run (some (oneTo 10)) 4]

end Python

/-! ### StreamingEntropy -/

/-- /repo/tools/cpp/tests/statistics/summary/test_StreamingEntropy.cc:23-50 and
/repo/tools/python/tests/statistics/summary/test_StreamingEntropy.py:19-35: constructor arguments, data, and
the number whose logarithm is expected. `L` supplies the logarithm. -/
def entropyTest (L : LArith Dbl) (W numBins : ℕ) (xs : List ℚ) (close : Dbl → Dbl → Bool) (expected : Dbl) : Res Bool := do
  let e ← Entropy.new L W numBins
  let e ← updateAll (Entropy.update L) e (dbls xs)
  .ok (close expected e.evaluate)

def elevenValues : List ℚ := [1, 2, 3, 4, 5, 6, 7, 8, 9, 10, 11]

def entropy (L : LArith Dbl) : List (Res Bool) :=
  [entropyTest L 10 10 [] floatEq (lit 0), entropyTest L 10 10 elevenValues floatEq (L.log2 (lit 10)),
   entropyTest L 10 5 [1, 2, 3, 4, 5] floatEq (L.log2 (lit 5)),
   entropyTest L 10 10 [1, 1, 2, 2, 3, 3, 4, 4, 5, 5] floatEq (L.log2 (lit 5))]

/-- All tests except those of StreamingEntropy. -/
def cpp : List (Res Bool) :=
  ringBuffer ++ linkedList ++ bin ++ histogram ++ mad ++ mean ++ variance ++ fame ++ quantile ++ windowedQuantile

def python [Cython] : List (Res Bool) :=
  Python.ringBuffer ++ Python.linkedList ++ Python.histogram ++ Python.mad ++ Python.mean ++ Python.variance ++
    Python.fame ++ Python.quantile ++ Python.windowedQuantile ++ Python.iqr

end Tests

/-- C93: no test of the library relies on undefined behaviour, whatever the library's logarithm. -/
def C93_full : Prop :=
  ∀ [Cython], ∀ L : LArith Dbl, L.toArith = Dbl.arith → ∀ t ∈ Tests.cpp ++ Tests.python ++ Tests.entropy L, ¬ t.IsUB

/-- A stand-in for the logarithm. -/
def L0 : LArith Dbl where
  toArith := Dbl.arith
  log2 x := x
  neg x := x
  ceilNat _ := 0

/-- `TestUniformEntropyWithDecrement` (and its Python twin) reads past the end of the vector of bins,
whatever the logarithm: the eleventh value empties and erases a bin, and the position found before is then one
past the last bin. -/
theorem C93_entropy_test (L : LArith Dbl) (hL : L.toArith = Dbl.arith) (close : Dbl → Dbl → Bool) (expected : Dbl) :
    Tests.entropyTest L 10 10 Tests.elevenValues close expected = .ub .oob := by
  obtain ⟨e0, he0⟩ : ∃ e, Entropy.new L0 10 10 = .ok e := ⟨_, rfl⟩
  obtain ⟨e, he⟩ : ∃ e, Entropy.new L 10 10 = .ok e := ⟨_, rfl⟩
  have hs : e.skel = e0.skel := by
    cases he0; cases he
    rw [Entropy.skel_eq]
    simp
  have h := Entropy.run_skel L L0 hL (Tests.dbls Tests.elevenValues) e e0 hs
  have h0 : Tests.entropyTest L0 10 10 Tests.elevenValues (fun _ _ => true) (.fin 0) = .ub .oob := by decide +kernel
  simp only [Tests.entropyTest, he0, he, Res.ok_bind] at h0 ⊢
  cases hr : updateAll (Entropy.update L0) e0 (Tests.dbls Tests.elevenValues) with
  | ok r => rw [hr] at h0; cases h0
  | throw m => rw [hr] at h0; cases h0
  | ub u =>
    rw [hr] at h0 h
    cases hr' : updateAll (Entropy.update L) e (Tests.dbls Tests.elevenValues) with
    | ok r => rw [hr'] at h; cases h
    | throw m => rw [hr'] at h; cases h
    | ub u' =>
      rw [hr'] at h
      cases h
      exact h0

/-- C93 as stated is false. -/
theorem C93_violated : ¬ C93_full := fun h =>
  @h ⟨false, false⟩ L0 rfl (Tests.entropyTest L0 10 10 Tests.elevenValues floatEq (L0.log2 (Tests.lit 10)))
    (by simp [Tests.entropy]) ⟨_, C93_entropy_test L0 rfl _ _⟩

/-- C93, C++ tests other than entropy: all pass. -/
theorem C93_cpp_partial : ∀ t ∈ Tests.cpp, t = .ok true := by
  have h : Tests.cpp.all passes = true := by decide +kernel
  intro t ht
  have := List.all_eq_true.1 h t ht
  cases t with
  | ok b => exact congrArg Res.ok this
  | throw m => cases this
  | ub u => cases this

/-- C93, Python tests other than entropy: all pass. -/
theorem C93_python_partial [C : Cython] : ∀ t ∈ Tests.python, t = .ok true := by
  have h : Tests.python.all passes = true := by
    rcases C with ⟨_ | _, _ | _⟩ <;> decide +kernel
  intro t ht
  have := List.all_eq_true.1 h t ht
  cases t with
  | ok b => exact congrArg Res.ok this
  | throw m => cases this
  | ub u => cases this

/-- How many tests these are. -/
example [Cython] : Tests.cpp.length = 51 ∧ Tests.python.length = 34 := ⟨by decide +kernel, rfl⟩

/-- C93, the empty entropy test: passes. -/
theorem C93_entropy_empty_partial (L : LArith Dbl) (hL : L.toArith = Dbl.arith) :
    Tests.entropyTest L 10 10 [] floatEq (Tests.lit 0) = .ok true := by
  have h : ∃ e, Entropy.new L 10 10 = .ok e ∧ e.entropy = L.lit 0 := ⟨_, rfl, rfl⟩
  obtain ⟨e, he, h0⟩ := h
  simp only [Tests.entropyTest, Tests.dbls, List.map_nil, updateAll, he, Res.ok_bind, Entropy.evaluate, h0, hL]
  decide +kernel

/-- C93, the other two entropy tests, in exact arithmetic: the value is the expected one. -/
theorem C93_entropy_exact_partial (W numBins : ℕ) (xs : List ℝ)
    (h : (W, numBins, xs) = (10, 5, [1, 2, 3, 4, 5]) ∨ (W, numBins, xs) = (10, 10, [1, 1, 2, 2, 3, 3, 4, 4, 5, 5])) :
    ∃ e0 e, Entropy.new realL W numBins = .ok e0 ∧ updateAll (Entropy.update realL) e0 xs = .ok e ∧
      e.evaluate = Real.logb 2 5 := by
  have key : ∀ (W numBins : ℕ) (xs : List ℝ) (ys : List ℚ), xs = ys.map (fun y : ℚ => (y : ℝ)) → numBins ≠ 0 → ys ≠ [] →
      ys.length ≤ W → ys.dedup.length = 5 → 5 ≤ numBins →
      (∀ a ∈ ys, ∀ b ∈ ys, a < b → 1 / 10000 * max |a| |b| < b - a) →
      (∀ v ∈ ys, ∀ w ∈ ys, ys.count v = ys.count w) →
      ∃ e0 e, Entropy.new realL W numBins = .ok e0 ∧ updateAll (Entropy.update realL) e0 xs = .ok e ∧
        e.evaluate = Real.logb 2 5 := by
    intro W numBins xs ys hxs hnb hne hW hd h5 hsep hcnt
    have hinj : Function.Injective (fun y : ℚ => (y : ℝ)) := Rat.cast_injective
    obtain ⟨e0, he0, hb⟩ : ∃ e0, Entropy.new realL W numBins = .ok e0 ∧ e0.hist.numBins = numBins := by
      refine ⟨_, by rw [Entropy.new, if_neg hnb]; rfl, rfl⟩
    have hdist : Spec.distinct xs = 5 := by
      unfold Spec.distinct
      rw [hxs, List.dedup_map_of_injective hinj, List.length_map, hd]
    obtain ⟨e, he, -, -, -, hu⟩ := C65_bounds W numBins e0 xs (by rw [hxs, Ne, List.map_eq_nil_iff]; exact hne) (by rw [hxs, List.length_map]; exact hW) he0
      (by rw [hdist, hb]; exact h5) (by
        rw [hxs]
        intro a ha b hb hab
        obtain ⟨a', ha', rfl⟩ := (List.mem_map (f := fun y : ℚ => (y : ℝ))).1 ha
        obtain ⟨b', hb', rfl⟩ := (List.mem_map (f := fun y : ℚ => (y : ℝ))).1 hb
        have := hsep a' ha' b' hb' (by exact_mod_cast hab)
        have h2 : ((1 / 10000 * max |a'| |b'| : ℚ) : ℝ) < ((b' - a' : ℚ) : ℝ) := by exact_mod_cast this
        push_cast at h2
        exact h2)
    refine ⟨e0, e, he0, he, ?_⟩
    rw [hu, hdist]
    · norm_num
    · rw [hxs]
      intro v hv w hw
      obtain ⟨v', hv', rfl⟩ := List.mem_map.1 hv
      obtain ⟨w', hw', rfl⟩ := List.mem_map.1 hw
      rw [List.count_map_of_injective _ _ hinj, List.count_map_of_injective _ _ hinj]
      exact hcnt v' hv' w' hw'
  rcases h with h | h <;> obtain ⟨rfl, rfl, rfl⟩ : _ ∧ _ ∧ _ := by simpa only [Prod.mk.injEq] using h
  · exact key 10 5 _ [1, 2, 3, 4, 5] (by simp) (by decide) (by decide) (by decide) (by decide +kernel) (by decide)
      (by decide +kernel) (by decide +kernel)
  · exact key 10 10 _ [1, 1, 2, 2, 3, 3, 4, 4, 5, 5] (by simp) (by decide) (by decide) (by decide) (by decide +kernel)
      (by decide) (by decide +kernel) (by decide +kernel)

end KML
