import Verif.Props.Windowed
import Verif.Props.HistScale
import Verif.Props.Fame
import Verif.Props.DoubleMean
import Verif.Props.DoubleHist
import Verif.Props.HistTally

/-! # C104: rescaling by a power of two is exact in floating point -/

set_option linter.unusedSectionVars false

namespace KML

open Spec Utils

/-- Value of StreamingMean after feeding `xs`. -/
def Mean.valueAfter {F : Type} (A : Arith F) (W : ℕ) (xs : List F) : Res F :=
  (updateAll (Mean.update A) (Mean.new A W) xs).mapOk (Mean.evaluate A)

/-- Value of StreamingVariance after feeding `xs`. -/
def Variance.valueAfter {F : Type} (A : Arith F) (W : ℕ) (xs : List F) : Res F :=
  (updateAll (Variance.update A) (Variance.new A W) xs).mapOk (Variance.evaluate A)

/-- **C104**, full statement, in binary64 without overflow: multiplying all observations (and the step of WindowedFAME) by a
power of two such that they remain doubles multiplies every estimate of location and spread by it, and the variance by its
square. -/
def C104_full : Prop := ∀ (k : ℤ) (xs : List ℚ), (∀ x ∈ xs, rnd64 x = x ∧ rnd64 (pow2 k * x) = pow2 k * x) →
  (∀ W, Mean.valueAfter b64 W (xs.map (pow2 k * ·)) = (Mean.valueAfter b64 W xs).mapOk (pow2 k * ·)) ∧
  (∀ W, Variance.valueAfter b64 W (xs.map (pow2 k * ·)) = (Variance.valueAfter b64 W xs).mapOk (pow2 k ^ 2 * ·)) ∧
  (∀ s e f f', Fame.new b64 s e = .ok f → Fame.new b64 (pow2 k * s) e = .ok f' →
    ((xs.map (pow2 k * ·)).foldl (Fame.update b64) f').evaluate = pow2 k * (xs.foldl (Fame.update b64) f).evaluate) ∧
  (∀ q p, P2.new b64 q = .ok p →
    P2.valueAfter b64 p (xs.map (pow2 k * ·)) = (P2.valueAfter b64 p xs).mapOk (pow2 k * ·)) ∧
  (∀ q W w, WP2.new b64 q W = .ok w →
    WP2.valueAfter b64 w (xs.map (pow2 k * ·)) = (WP2.valueAfter b64 w xs).mapOk (pow2 k * ·)) ∧
  ∀ l h W q, IQR.new b64 l h W = .ok q →
    IQR.valueAfter b64 q (xs.map (pow2 k * ·)) = (IQR.valueAfter b64 q xs).mapOk (pow2 k * ·)

/-- **C104** is violated among the subnormal numbers: the mean of 1 and 2 units in the last place is rounded to 2 units, that
of 2 and 4 units is 3 units. -/
theorem C104_violated : ¬ C104_full := by
  intro h
  have := (h 1 [pow2 (-1074), pow2 (-1073)] (by decide +kernel)).1 0
  revert this
  decide +kernel

/-- Runs commute with a map of the observations if the steps do. -/
theorem updateAll_comm {S X : Type} {f : S → X → Res S} {g : S → S} {φ : X → X}
    (h : ∀ s x, f (g s) (φ x) = (f s x).mapOk g) (s : S) (xs : List X) :
    updateAll f (g s) (xs.map φ) = (updateAll f s xs).mapOk g := by
  induction xs generalizing s with
  | nil => rfl
  | cons x xs ih =>
    simp only [List.map_cons, updateAll, h]
    rcases f s x with s' | m | u
    · simp only [Res.mapOk, Res.ok_bind]; exact ih s'
    · rfl
    · rfl

section

variable {K : Type} [Field K] [LinearOrder K] [IsStrictOrderedRing K] [FloorRing K]

/-- A factor that commutes with rounding. -/
structure Rounding.Scales (R : Rounding K) (a : K) : Prop where
  pos : 0 < a
  rnd : ∀ x, R.rnd (a * x) = a * R.rnd x

variable {R : Rounding K} {a : K}

theorem Rounding.Scales.sq (h : R.Scales a) : R.Scales (a ^ 2) :=
  ⟨by have := h.pos; positivity, fun x => by rw [pow_two, mul_assoc, h.rnd, h.rnd, mul_assoc]⟩

namespace Rounding.Scales

theorem add (h : R.Scales a) (x y : K) : R.arith.add (a * x) (a * y) = a * R.arith.add x y := by
  show R.rnd (a * x + a * y) = a * R.rnd (x + y)
  rw [← mul_add, h.rnd]

theorem sub (h : R.Scales a) (x y : K) : R.arith.sub (a * x) (a * y) = a * R.arith.sub x y := by
  show R.rnd (a * x - a * y) = a * R.rnd (x - y)
  rw [← mul_sub, h.rnd]

theorem div (h : R.Scales a) (x y : K) : R.arith.div (a * x) y = a * R.arith.div x y := by
  show R.rnd (a * x / y) = a * R.rnd (x / y)
  rw [mul_div_assoc, h.rnd]

theorem mul (h : R.Scales a) (x y : K) : R.arith.mul (a * x) y = a * R.arith.mul x y := by
  show R.rnd (a * x * y) = a * R.rnd (x * y)
  rw [mul_assoc, h.rnd]

theorem mul' (h : R.Scales a) (x y : K) : R.arith.mul y (a * x) = a * R.arith.mul y x := by
  show R.rnd (y * (a * x)) = a * R.rnd (y * x)
  rw [mul_left_comm, h.rnd]

theorem abs (h : R.Scales a) (x : K) : R.arith.abs (a * x) = a * R.arith.abs x := by
  show |a * x| = a * |x|
  rw [abs_mul, abs_of_pos h.pos]

theorem lt (h : R.Scales a) (x y : K) : R.arith.lt (a * x) (a * y) = R.arith.lt x y :=
  decide_eq_decide.2 (mul_lt_mul_iff_right₀ h.pos)

theorem le (h : R.Scales a) (x y : K) : R.arith.le (a * x) (a * y) = R.arith.le x y :=
  decide_eq_decide.2 (mul_le_mul_iff_right₀ h.pos)

theorem max (h : R.Scales a) (x y : K) : R.arith.max (a * x) (a * y) = a * R.arith.max x y := by
  unfold Arith.max
  rw [h.lt]
  split <;> rfl

theorem zero (_ : R.Scales a) : a * R.arith.lit 0 = R.arith.lit 0 := by
  show a * R.rnd ((0 : ℚ) : K) = R.rnd ((0 : ℚ) : K)
  rw [Rat.cast_zero, R.rnd_zero, mul_zero]

end Rounding.Scales

/-! ## StreamingMean and StreamingVariance -/

/-- The object after rescaling. -/
def Mean.scale (a : K) (m : Mean K) : Mean K :=
  ⟨m.windowSize, m.window.map (List.map (a * ·)), m.historyCount, a * m.sum⟩

theorem Mean.update_scale (h : R.Scales a) (m : Mean K) (x : K) :
    (m.scale a).update R.arith (a * x) = (m.update R.arith x).mapOk (Mean.scale a) := by
  obtain ⟨W, w, n, s⟩ := m
  rcases w with _ | w
  · simp [Mean.update, Mean.scale, Res.mapOk, h.add]
  · simp only [Mean.update, Mean.scale, Option.map_some, List.length_map]
    split
    · rcases w with _ | ⟨y, w⟩
      · rfl
      · simp [Res.mapOk, h.add, h.sub, Mean.scale]
    · simp [Res.mapOk, h.add, Mean.scale]

theorem Mean.new_scale (h : R.Scales a) (W : ℕ) : (Mean.new R.arith W).scale a = Mean.new R.arith W := by
  unfold Mean.new Mean.scale
  simp only [h.zero]
  split <;> rfl

theorem Mean.evaluate_scale (h : R.Scales a) (m : Mean K) : (m.scale a).evaluate R.arith = a * m.evaluate R.arith := by
  obtain ⟨W, w, n, s⟩ := m
  unfold Mean.evaluate Mean.scale
  dsimp only
  split
  · exact h.zero.symm
  · rcases w with _ | w <;> simp [h.div]

/-- **C104**, StreamingMean. -/
theorem C104_mean_partial (h : R.Scales a) (W : ℕ) (xs : List K) :
    Mean.valueAfter R.arith W (xs.map (a * ·)) = (Mean.valueAfter R.arith W xs).mapOk (a * ·) := by
  unfold Mean.valueAfter
  conv_lhs => rw [← Mean.new_scale h, updateAll_comm (Mean.update_scale h)]
  rcases updateAll (Mean.update R.arith) (Mean.new R.arith W) xs with m | e | u
  · simp only [Res.mapOk, Mean.evaluate_scale h]
  · rfl
  · rfl

/-- The object after rescaling. -/
def Variance.scale (a : K) (v : Variance K) : Variance K :=
  ⟨v.window, v.historyCount, v.mean.scale a, v.sumSquared.scale (a ^ 2)⟩

theorem Variance.update_scale (h : R.Scales a) (v : Variance K) (x : K) :
    (v.scale a).update R.arith (a * x) = (v.update R.arith x).mapOk (Variance.scale a) := by
  unfold Variance.update
  have e : R.arith.mul (a * x) (a * x) = a ^ 2 * R.arith.mul x x := by rw [h.mul, h.mul', ← mul_assoc, pow_two]
  simp only [Variance.scale, Mean.update_scale h, e, Mean.update_scale h.sq]
  rcases v.mean.update R.arith x with m | s | u
  · rcases v.sumSquared.update R.arith (R.arith.mul x x) with m' | s | u <;> rfl
  · rfl
  · rfl

/-- **C104**, StreamingVariance. -/
theorem C104_variance_partial (h : R.Scales a) (W : ℕ) (xs : List K) :
    Variance.valueAfter R.arith W (xs.map (a * ·)) = (Variance.valueAfter R.arith W xs).mapOk (a ^ 2 * ·) := by
  unfold Variance.valueAfter
  have e : (Variance.new R.arith W).scale a = Variance.new R.arith W := by
    simp only [Variance.new, Variance.scale, Mean.new_scale h, Mean.new_scale h.sq]
  conv_lhs => rw [← e, updateAll_comm (Variance.update_scale h)]
  rcases updateAll (Variance.update R.arith) (Variance.new R.arith W) xs with v | e | u
  · simp only [Res.mapOk, Variance.evaluate, Variance.scale, Mean.evaluate_scale h, Mean.evaluate_scale h.sq]
    rw [h.mul, h.mul', ← mul_assoc, ← pow_two, h.sq.sub]
  · rfl
  · rfl

/-! ## WindowedFAME -/

/-- The object after rescaling. -/
def Fame.scale (a : K) (f : Fame K) : Fame K := ⟨a * f.median, a * f.stepSize, f.epsilon, f.historyCount⟩

theorem Fame.update_scale (h : R.Scales a) (f : Fame K) (x : K) :
    (f.scale a).update R.arith (a * x) = (f.update R.arith x).scale a := by
  obtain ⟨m, s, e, n⟩ := f
  have key : ∀ g : Fame K, (if R.arith.lt (a * x) (g.scale a).median then
        { g.scale a with median := R.arith.sub (g.scale a).median (g.scale a).stepSize }
      else if R.arith.lt (g.scale a).median (a * x) then
        { g.scale a with median := R.arith.add (g.scale a).median (g.scale a).stepSize } else g.scale a) =
      Fame.scale a (if R.arith.lt x g.median then { g with median := R.arith.sub g.median g.stepSize }
      else if R.arith.lt g.median x then { g with median := R.arith.add g.median g.stepSize } else g) := by
    intro g
    simp only [Fame.scale, h.lt, h.sub, h.add]
    split
    · rfl
    · split <;> rfl
  have key2 : ∀ g : Fame K, (if ((g.scale a).historyCount ≠ 0 && R.arith.lt (R.arith.abs (R.arith.sub (a * x) (g.scale a).median))
        (g.scale a).stepSize) = true then { g.scale a with stepSize := R.arith.div (g.scale a).stepSize (R.arith.lit 2) } else g.scale a) =
      Fame.scale a (if (g.historyCount ≠ 0 && R.arith.lt (R.arith.abs (R.arith.sub x g.median)) g.stepSize) = true then
        { g with stepSize := R.arith.div g.stepSize (R.arith.lit 2) } else g) := by
    intro g
    have e : R.arith.lt (R.arith.abs (R.arith.sub (a * x) (g.scale a).median)) (g.scale a).stepSize =
        R.arith.lt (R.arith.abs (R.arith.sub x g.median)) g.stepSize := by
      simp only [Fame.scale, h.lt, h.sub, h.abs]
    by_cases hc : (g.historyCount ≠ 0 && R.arith.lt (R.arith.abs (R.arith.sub x g.median)) g.stepSize) = true
    · rw [if_pos hc, e, if_pos (by exact hc)]
      simp only [Fame.scale, h.div]
    · rw [if_neg hc, e, if_neg (by exact hc)]
  have key0 : ∀ g : Fame K, (if (g.scale a).historyCount = 0 then
        { g.scale a with median := a * x, stepSize := R.arith.max (R.arith.div (R.arith.abs (a * x)) (R.arith.lit 2)) (g.scale a).stepSize }
      else g.scale a) = Fame.scale a (if g.historyCount = 0 then
        { g with median := x, stepSize := R.arith.max (R.arith.div (R.arith.abs x) (R.arith.lit 2)) g.stepSize } else g) := by
    intro g
    simp only [Fame.scale, h.abs, h.div, h.max]
    split <;> rfl
  unfold Fame.update
  dsimp only
  rw [key0, key, key2]
  simp only [Fame.scale, h.mul]

/-- **C104**, WindowedFAME, with its step in the same unit. -/
theorem C104_fame_partial (h : R.Scales a) (s e : K) (f : Fame K) (hf : Fame.new R.arith s e = .ok f) (xs : List K) :
    ∃ f', Fame.new R.arith (a * s) e = .ok f' ∧
      ((xs.map (a * ·)).foldl (Fame.update R.arith) f').evaluate = a * (xs.foldl (Fame.update R.arith) f).evaluate := by
  have run : ∀ (g : Fame K) (xs : List K), (xs.map (a * ·)).foldl (Fame.update R.arith) (g.scale a) =
      (xs.foldl (Fame.update R.arith) g).scale a := by
    intro g xs
    induction xs generalizing g with
    | nil => rfl
    | cons x xs ih => rw [List.map_cons, List.foldl_cons, List.foldl_cons, Fame.update_scale h, ih]
  refine ⟨f.scale a, ?_, by rw [run]; rfl⟩
  unfold Fame.new at hf ⊢
  split at hf
  · cases hf
  · injection hf with hf
    subst hf
    rw [if_neg ‹_›]
    simp only [Fame.scale, h.zero]

/-! ## StreamingP2Quantile, WindowedP2Quantile, StreamingIQR -/

namespace P2

theorem equivariant_scale (h : R.Scales a) : Equivariant R.arith (a * ·) := by
  refine ⟨h.lt, ?_, ?_⟩
  · intro hm hi hp nm ni np d
    simp only [P2.parabolic, h.sub, h.mul', h.div, h.add]
  · intro hi hd ni nd d
    simp only [P2.linear, h.sub, h.mul', h.div, h.add]

theorem update_scale (h : R.Scales a) (p : P2 K) (x : K) :
    update R.arith (p.mapHeights (a * ·)) (a * x) = (update R.arith p x).mapOk (mapHeights (a * ·)) := by
  rcases Nat.lt_or_ge p.historyCount 5 with hn | hn
  · unfold update
    rw [if_pos hn, if_pos (show (p.mapHeights (a * ·)).historyCount < 5 from hn)]
    show Res.ok _ = Res.ok _
    congr 1
    have e : (p.heights.map (a * ·)).ofList ((p.heights.map (a * ·)).toList.set p.historyCount (a * x)) =
        (p.heights.ofList (p.heights.toList.set p.historyCount x)).map (a * ·) := by
      rw [Five.map_toList, ← List.map_set, Five.map_ofList]
    unfold updateFirst
    simp only [mapHeights, e]
    split
    · rw [Five.sort_map R.arith R.arith (a * ·) h.lt]
    · rfl
  · exact update_equi (equivariant_scale h) p hn x

theorem new_scale (h : R.Scales a) {q : K} {p : P2 K} (hp : P2.new R.arith q = .ok p) : p.mapHeights (a * ·) = p := by
  rw [P2.new_eq_ok hp]
  simp only [mapHeights, Five.map, h.zero]

end P2

/-- **C104**, StreamingP2Quantile after any number of observations. -/
theorem C104_quantile_partial (h : R.Scales a) (q : K) (p : P2 K) (hp : P2.new R.arith q = .ok p) (xs : List K) :
    P2.valueAfter R.arith p (xs.map (a * ·)) = (P2.valueAfter R.arith p xs).mapOk (a * ·) := by
  unfold P2.valueAfter
  conv_lhs => rw [← P2.new_scale h hp, updateAll_comm (P2.update_scale h)]
  rcases updateAll (P2.update R.arith) p xs with r | e | u
  · simp only [Res.mapOk, Res.ok_bind, P2.evaluate_equi (P2.equivariant_scale h)]
    rcases r.evaluate R.arith with ⟨v, r'⟩ | e | u <;> rfl
  · rfl
  · rfl

namespace WP2

/-- The object after rescaling. -/
def scale (a : K) (w : WP2 K) : WP2 K := ⟨w.windowSize, w.historyCount, w.p2.mapHeights (a * ·), a * w.previous⟩

theorem update_scale (h : R.Scales a) (w : WP2 K) (x : K) :
    (w.scale a).update R.arith (a * x) = (w.update R.arith x).mapOk (scale a) := by
  obtain ⟨W, n, p, v⟩ := w
  show update R.arith ⟨W, n, p.mapHeights (a * ·), a * v⟩ (a * x) = _
  unfold update
  simp only [P2.update_scale h]
  rcases p.update R.arith x with p | e | u
  · simp only [Res.mapOk, Res.ok_bind]
    by_cases c1 : W > 0
    · simp only [if_pos c1]
      by_cases c2 : (n + 1) % (W + 1) = 0
      · simp only [if_pos c2]
        rw [P2.evaluate_equi (P2.equivariant_scale h)]
        rcases p.evaluate R.arith with ⟨v, r'⟩ | e | u <;> rfl
      · simp only [if_neg c2]
        rfl
    · simp only [if_neg c1]
      rfl
  · rfl
  · rfl

theorem evaluate_scale (h : R.Scales a) (w : WP2 K) :
    (w.scale a).evaluate R.arith = (w.evaluate R.arith).mapOk fun r => (a * r.1, r.2.scale a) := by
  unfold evaluate
  simp only [scale, P2.evaluate_equi (P2.equivariant_scale h)]
  split
  · rcases w.p2.evaluate R.arith with ⟨v, r'⟩ | e | u <;> rfl
  · split
    · rfl
    · rcases w.p2.evaluate R.arith with ⟨v, r'⟩ | e | u
      · simp only [Res.mapOk, Res.ok_bind, h.mul', h.add]
      · rfl
      · rfl

theorem new_scale (h : R.Scales a) {q : K} {W : ℕ} {w : WP2 K} (hw : WP2.new R.arith q W = .ok w) : w.scale a = w := by
  obtain ⟨p, hp, rfl⟩ := WP2.new_eq_ok hw
  simp only [scale, P2.new_scale h hp, h.zero]

end WP2

/-- **C104**, WindowedP2Quantile with any window. -/
theorem C104_windowed_partial (h : R.Scales a) (q : K) (W : ℕ) (w : WP2 K) (hw : WP2.new R.arith q W = .ok w) (xs : List K) :
    WP2.valueAfter R.arith w (xs.map (a * ·)) = (WP2.valueAfter R.arith w xs).mapOk (a * ·) := by
  unfold WP2.valueAfter
  conv_lhs => rw [← WP2.new_scale h hw, updateAll_comm (WP2.update_scale h)]
  rcases updateAll (WP2.update R.arith) w xs with r | e | u
  · simp only [Res.mapOk, Res.ok_bind, WP2.evaluate_scale h]
    rcases r.evaluate R.arith with ⟨v, r'⟩ | e | u <;> rfl
  · rfl
  · rfl

/-- The object after rescaling. -/
def IQR.scale (a : K) (q : IQR K) : IQR K := ⟨q.low.scale a, q.high.scale a, q.historyCount⟩

/-- **C104**, StreamingIQR with any window and quantiles. -/
theorem C104_iqr_partial (h : R.Scales a) (l u : K) (W : ℕ) (q : IQR K) (hq : IQR.new R.arith l u W = .ok q) (xs : List K) :
    IQR.valueAfter R.arith q (xs.map (a * ·)) = (IQR.valueAfter R.arith q xs).mapOk (a * ·) := by
  have hs : q.scale a = q := by
    unfold IQR.new at hq
    obtain ⟨w1, h1, hq⟩ := Res.bind_eq_ok.1 hq
    obtain ⟨w2, h2, hq⟩ := Res.bind_eq_ok.1 hq
    injection hq with hq
    subst hq
    simp only [IQR.scale, WP2.new_scale h h1, WP2.new_scale h h2]
  have hu : ∀ (q : IQR K) (x : K), (q.scale a).update R.arith (a * x) = (q.update R.arith x).mapOk (IQR.scale a) := by
    intro q x
    unfold IQR.update
    simp only [IQR.scale, WP2.update_scale h]
    rcases q.low.update R.arith x with m | s | u
    · rcases q.high.update R.arith x with m' | s | u <;> rfl
    · rfl
    · rfl
  unfold IQR.valueAfter
  conv_lhs => rw [← hs, updateAll_comm hu]
  rcases updateAll (IQR.update R.arith) q xs with r | e | u
  · simp only [Res.mapOk, Res.ok_bind, IQR.evaluate, IQR.scale, WP2.evaluate_scale h]
    rcases r.high.evaluate R.arith with ⟨v, r'⟩ | e | u
    · rcases r.low.evaluate R.arith with ⟨v, r'⟩ | e | u
      · simp only [Res.ok_bind, h.sub]
      · rfl
      · rfl
    · rfl
    · rfl
  · rfl
  · rfl

/-! ## StreamingHistogram -/

theorem Utils.larger_scales (h : R.Scales a) (x y : K) : larger R.arith (a * x) (a * y) = a * larger R.arith x y := by
  unfold larger
  rw [h.abs, h.abs, h.lt]
  split <;> rfl

theorem Utils.less_scales (h : R.Scales a) (x y e : K) :
    definitelyLessThan R.arith (a * x) (a * y) e = definitelyLessThan R.arith x y e := by
  unfold definitelyLessThan
  rw [larger_scales h, h.mul, h.sub, h.lt]

theorem Utils.greater_scales (h : R.Scales a) (x y e : K) :
    definitelyGreaterThan R.arith (a * x) (a * y) e = definitelyGreaterThan R.arith x y e := by
  unfold definitelyGreaterThan
  rw [larger_scales h, h.mul, h.sub, h.lt]

/-- **C104**, StreamingHistogram: the same counts between scaled edges, whatever the window and the number of bins. -/
theorem C104_histogram_partial (h : R.Scales a) (hB : Hist.Big R) (numBins W : ℕ) (xs : List K)
    (hx : ∀ x ∈ xs, |x| ≤ (dblMax : K) / 4 ∧ |a * x| ≤ (dblMax : K) / 4) :
    updateAll (Hist.update R.arith) (Hist.new numBins W) (xs.map (a * ·)) =
      Hist.map (a * ·) <$> updateAll (Hist.update R.arith) (Hist.new numBins W) xs := by
  have s : Hist.Sim R.arith R.arith (a * ·) (fun x => |x| ≤ (dblMax : K) / 4 ∧ |a * x| ≤ (dblMax : K) / 4) := by
    refine ⟨?_, ?_, ?_, ?_, ?_, ?_⟩
    · intro x y _ _; exact less_scales h x y _
    · intro x y _ _; exact less_scales h x y _
    · intro x y _ _; exact greater_scales h x y _
    · intro x y _ _; exact h.le x y
    · intro x y z w _ _ _ _
      simp only [h.sub]
      exact less_scales h _ _ _
    · intro x y hx hy
      first
        | exact (hB.diff hx.2 hy.2).trans (hB.diff hx.1 hy.1).symm
        | exact (hB.diff hy.2 hx.2).trans (hB.diff hy.1 hx.1).symm
  exact s.run xs hx (Hist.new numBins W) (by intro b hb; simp [Hist.new] at hb)

end

/-! ## Binary floating point -/

/-- Powers of two commute with rounding to 53 bits. -/
theorem R53_scales (k : ℤ) : R53.Scales (pow2 k) :=
  ⟨pow2_pos k, fun x => by
    have := rnd53_scale x k
    rw [mul_comm (pow2 k) x, mul_comm (pow2 k)]; exact this⟩

/-- Away from the subnormal numbers binary64 rounds to 53 bits. -/
theorem rnd64_eq_rnd53 {x : ℚ} (h : x = 0 ∨ pow2 (-1022) ≤ |x|) : rnd64 x = rnd53 x := by
  rcases h with rfl | h
  · rfl
  · have hx : x ≠ 0 := by rintro rfl; rw [abs_zero] at h; exact absurd (pow2_pos (-1022)) (not_lt.2 h)
    exact rnd64_normal (le_expo_of_le hx h)

/-- The sum of two doubles is never rounded as a subnormal. -/
theorem rnd64_add_doubles {x y : ℚ} (hx : rnd64 x = x) (hy : rnd64 y = y) : rnd64 (x + y) = rnd53 (x + y) := by
  by_cases h0 : x + y = 0
  · rw [h0]; rfl
  rcases lt_or_ge (expo (x + y)) (-1022) with h | h
  · obtain ⟨m, hm⟩ := rnd64_grid hx
    obtain ⟨n, hn⟩ := rnd64_grid hy
    have e : x + y = ((m + n : ℤ) : ℚ) * pow2 (-1074) := by rw [hm, hn]; push_cast; ring
    have hb : |m + n| ≤ 2 ^ 53 := by
      have h1 := (expo_spec h0).2
      have h2 : pow2 (expo (x + y) + 1) ≤ pow2 (-1022) := pow2_le.2 (by omega)
      have h3 : pow2 (-1022) = (2 ^ 52 : ℚ) * pow2 (-1074) := by
        rw [show (-1022 : ℤ) = 52 + -1074 by norm_num, pow2_add]; congr 1
      rw [h3] at h2
      have h4 := h1.trans_le h2
      rw [e, abs_mul, abs_of_pos (pow2_pos _)] at h4
      have h5 := lt_of_mul_lt_mul_right h4 (pow2_pos _).le
      have h6 : |m + n| < 2 ^ 52 := by exact_mod_cast h5
      exact h6.le.trans (by norm_num)
    rw [e, rnd53_repr _ _ hb, rnd64_repr _ _ hb le_rfl]
  · exact rnd64_normal h

theorem rnd64_sub_doubles {x y : ℚ} (hx : rnd64 x = x) (hy : rnd64 y = y) : rnd64 (x - y) = rnd53 (x - y) := by
  rw [sub_eq_add_neg]
  exact rnd64_add_doubles hx (by rw [rnd64_neg, hy])

/-- Sum and window of a mean are doubles. -/
def Mean.Doubles (m : Mean ℚ) : Prop := rnd64 m.sum = m.sum ∧ ∀ w, m.window = some w → ∀ x ∈ w, rnd64 x = x

theorem Mean.update_b53 {m : Mean ℚ} (hm : m.Doubles) {x : ℚ} (hx : rnd64 x = x) : m.update b64 x = m.update b53 x ∧
    ∀ m', m.update b64 x = .ok m' → m'.Doubles := by
  obtain ⟨W, w, n, s⟩ := m
  obtain ⟨hs, hw⟩ := hm
  simp only at hs hw
  rcases w with _ | w
  · refine ⟨?_, ?_⟩
    · show Res.ok _ = Res.ok _
      congr 2
      exact rnd64_add_doubles hs hx
    · intro m' h
      injection h with h
      subst h
      exact ⟨rnd64_idem _, fun w h => by cases h⟩
  · have hw := hw w rfl
    by_cases hc : w.length + 1 > W
    · rcases w with _ | ⟨y, w⟩
      · simp only [Mean.update, if_pos hc]
        exact ⟨rfl, fun m' h => by cases h⟩
      · have hy := hw y (by simp)
        simp only [Mean.update, if_pos hc, Res.ok_bind]
        have e : b64.sub s y = b53.sub s y := rnd64_sub_doubles hs hy
        have hd : rnd64 (b64.sub s y) = b64.sub s y := rnd64_idem _
        refine ⟨?_, ?_⟩
        · rw [← e]
          congr 2
          exact rnd64_add_doubles hd hx
        · intro m' h
          injection h with h
          subst h
          refine ⟨rnd64_idem _, fun v h => ?_⟩
          injection h with h
          subst h
          intro z hz
          rcases List.mem_append.1 hz with hz | hz
          · exact hw z (List.mem_cons_of_mem _ hz)
          · rw [List.mem_singleton.1 hz]; exact hx
    · simp only [Mean.update, if_neg hc, Res.ok_bind]
      refine ⟨?_, ?_⟩
      · congr 2
        exact rnd64_add_doubles hs hx
      · intro m' h
        injection h with h
        subst h
        refine ⟨rnd64_idem _, fun v h => ?_⟩
        injection h with h
        subst h
        intro z hz
        rcases List.mem_append.1 hz with hz | hz
        · exact hw z hz
        · rw [List.mem_singleton.1 hz]; exact hx

theorem Mean.run_b53 {m : Mean ℚ} (hm : m.Doubles) {xs : List ℚ} (hx : ∀ x ∈ xs, rnd64 x = x) :
    updateAll (Mean.update b64) m xs = updateAll (Mean.update b53) m xs := by
  induction xs generalizing m with
  | nil => rfl
  | cons x xs ih =>
    obtain ⟨h1, h2⟩ := Mean.update_b53 hm (hx x List.mem_cons_self)
    simp only [updateAll]
    rw [← h1]
    rcases hu : m.update b64 x with m' | e | u
    · exact ih (h2 m' hu) fun x h => hx x (List.mem_cons_of_mem _ h)
    · rfl
    · rfl

/-- **C104**, StreamingMean of doubles, any window and length: the running sum is multiplied by the power of two; so is the
mean, unless it is subnormal in one of the units. -/
theorem C104_mean_double_partial (k : ℤ) (W : ℕ) (xs : List ℚ)
    (hx : ∀ x ∈ xs, rnd64 x = x ∧ rnd64 (pow2 k * x) = pow2 k * x) :
    ∃ m m', updateAll (Mean.update b64) (Mean.new b64 W) xs = .ok m ∧
      updateAll (Mean.update b64) (Mean.new b64 W) (xs.map (pow2 k * ·)) = .ok m' ∧ m' = m.scale (pow2 k) ∧
      (pow2 (-1022) < |m.evaluate b64| → pow2 (-1022) < |pow2 k * m.evaluate b64| →
        m'.evaluate b64 = pow2 k * m.evaluate b64) := by
  have h0 : Mean.new b64 W = Mean.new b53 W := rfl
  have hd : (Mean.new b64 W).Doubles := by
    refine ⟨rfl, fun w hw => ?_⟩
    unfold Mean.new at hw
    split at hw
    · injection hw with hw; subst hw; simp
    · cases hw
  obtain ⟨m, hm, -⟩ := Mean.run_inv b64 W xs
  have hm53 : updateAll (Mean.update b53) (Mean.new b53 W) xs = .ok m := by
    rw [← h0, ← Mean.run_b53 hd fun x h => (hx x h).1, hm]
  have hm' : updateAll (Mean.update b64) (Mean.new b64 W) (xs.map (pow2 k * ·)) = .ok (m.scale (pow2 k)) := by
    rw [Mean.run_b53 hd (by
      intro y hy
      obtain ⟨x, hx', rfl⟩ := List.mem_map.1 hy
      exact (hx x hx').2), h0]
    have e := Mean.new_scale (R53_scales k) W
    rw [← b53_eq] at e
    conv_lhs => rw [← e, b53_eq, updateAll_comm (Mean.update_scale (R53_scales k)), ← b53_eq, hm53]
    rfl
  refine ⟨m, _, hm, hm', rfl, fun h1 h2 => ?_⟩
  have key : ∀ z : ℚ, pow2 (-1022) < |rnd64 z| → pow2 (-1022) < |pow2 k * rnd64 z| →
      rnd64 (pow2 k * z) = pow2 k * rnd64 z := by
    intro z h1 h2
    have big : ∀ z : ℚ, pow2 (-1022) < |rnd64 z| → pow2 (-1022) ≤ |z| := by
      intro z h
      by_contra hc
      exact absurd (rnd64_abs_le (by norm_num) (not_le.1 hc).le) (not_le.2 h)
    have e1 := rnd64_eq_rnd53 (Or.inr (big z h1))
    rw [e1] at h2 ⊢
    have e2 : pow2 k * rnd53 z = rnd53 (pow2 k * z) := ((R53_scales k).rnd z).symm
    rw [e2] at h2 ⊢
    refine rnd64_eq_rnd53 (Or.inr ?_)
    by_contra hc
    rw [not_le] at hc
    have h3 : |rnd53 (pow2 k * z)| ≤ pow2 (-1022) := by
      have r : rnd53 (pow2 (-1022)) = pow2 (-1022) := by
        have := rnd53_repr 1 (-1022) (by norm_num); simpa using this
      rw [abs_le, ← r, ← rnd53_neg]
      rw [abs_lt] at hc
      exact ⟨rnd53_mono hc.1.le, rnd53_mono hc.2.le⟩
    exact absurd h3 (not_le.2 h2)
  obtain ⟨W, w, n, s⟩ := m
  unfold Mean.evaluate Mean.scale at *
  dsimp only at *
  split
  · show rnd64 0 = pow2 k * rnd64 0
    rw [rnd64_zero, mul_zero]
  · rw [if_neg ‹_›] at h1 h2
    rcases w with _ | w
    · have := key (s / rnd64 ((n : ℤ) : ℚ)) h1 h2
      rw [← mul_div_assoc] at this
      exact this
    · have := key (s / rnd64 ((w.length : ℤ) : ℚ)) h1 h2
      rw [← mul_div_assoc] at this
      simp only [Option.map_some, List.length_map]
      exact this

/-! ## The histogram of doubles -/

/-- Zero, or not very small. -/
def Coarse (k : ℤ) (x : ℚ) : Prop := x = 0 ∨ pow2 k ≤ |x|

theorem Coarse.grid {x : ℚ} {k : ℤ} (hx : rnd64 x = x) (h : Coarse k x) : ∃ m : ℤ, x = m * pow2 (k - 52) := by
  rcases h with rfl | h
  · exact ⟨0, by simp⟩
  have h0 : x ≠ 0 := by rintro rfl; rw [abs_zero] at h; exact absurd (pow2_pos k) (not_lt.2 h)
  have he := le_expo_of_le h0 h
  have hr : ∃ j : ℕ, ∃ n : ℤ, x = n * pow2 (k - 52 + j) := by
    unfold rnd64 at hx
    rw [if_neg h0] at hx
    unfold rndAt at hx
    exact ⟨(max (expo x - 52) (-1074) - (k - 52)).toNat, rne (x / pow2 (max (expo x - 52) (-1074))), by
      rw [Int.toNat_of_nonneg (by have := le_max_left (expo x - 52) (-1074); omega)]
      rw [show k - 52 + (max (expo x - 52) (-1074) - (k - 52)) = max (expo x - 52) (-1074) by ring]
      exact hx.symm⟩
  obtain ⟨j, n, hn⟩ := hr
  refine ⟨n * 2 ^ j, ?_⟩
  have : pow2 (j : ℤ) = 2 ^ j := by rw [pow2_eq]; simp
  rw [hn, pow2_add, this]; push_cast; ring

theorem Coarse.sub {x y : ℚ} {k : ℤ} (hk : -1022 ≤ k - 52) (hx : rnd64 x = x) (hy : rnd64 y = y) (h : Coarse k x)
    (h' : Coarse k y) : Coarse (k - 52) (b64.sub x y) ∧ b64.sub x y = b53.sub x y := by
  obtain ⟨m, hm⟩ := h.grid hx
  obtain ⟨n, hn⟩ := h'.grid hy
  have e : x - y = ((m - n : ℤ) : ℚ) * pow2 (k - 52) := by rw [hm, hn]; push_cast; ring
  have e2 : b64.sub x y = b53.sub x y := rnd64_sub_doubles hx hy
  refine ⟨?_, e2⟩
  by_cases h0 : m - n = 0
  · left
    show rnd64 (x - y) = 0
    rw [e, h0]; simp [rnd64_zero]
  · right
    have h1 : pow2 (k - 52) ≤ |x - y| := by
      rw [e, abs_mul, abs_of_pos (pow2_pos _)]
      have : (1 : ℚ) ≤ |((m - n : ℤ) : ℚ)| := by
        have := Int.one_le_abs h0
        exact_mod_cast this
      nlinarith [pow2_pos (k - 52)]
    have r : rnd64 (pow2 (k - 52)) = pow2 (k - 52) := by
      have := rnd64_repr 1 (k - 52) (by norm_num) (by omega); simpa using this
    show pow2 (k - 52) ≤ |rnd64 (x - y)|
    rcases le_abs'.1 h1 with h2 | h2
    · have := rnd64_mono h2
      rw [rnd64_neg, r] at this
      exact le_abs'.2 (Or.inl this)
    · have := rnd64_mono h2
      rw [r] at this
      exact le_abs'.2 (Or.inr this)

/-- Comparisons of doubles that are not very small are the same in 53-bit arithmetic. -/
theorem less_b53 {x y e : ℚ} {k : ℤ} (hk : -1002 ≤ k) (hx : rnd64 x = x) (hy : rnd64 y = y) (h : Coarse k x)
    (h' : Coarse k y) (he : pow2 (-20) ≤ e) : definitelyLessThan b64 x y e = definitelyLessThan b53 x y e := by
  unfold definitelyLessThan
  have e1 : b64.sub y x = b53.sub y x := rnd64_sub_doubles hy hx
  have hl : larger b64 x y = larger b53 x y := rfl
  have hc : Coarse k (larger b53 x y) := by
    have : larger b53 x y = |x| ∨ larger b53 x y = |y| := by
      unfold larger
      split
      · exact Or.inr rfl
      · exact Or.inl rfl
    unfold Coarse at *
    rcases this with h1 | h1 <;> rw [h1, abs_abs, abs_eq_zero]
    · exact h
    · exact h'
  have e2 : b64.mul (larger b53 x y) e = b53.mul (larger b53 x y) e := by
    refine rnd64_eq_rnd53 ?_
    rcases hc with hc | hc
    · left; rw [hc, zero_mul]
    · right
      have h1 : pow2 (-1022) ≤ pow2 k * pow2 (-20) := by rw [← pow2_add]; exact pow2_le.2 (by omega)
      rw [abs_mul]
      refine h1.trans (mul_le_mul hc (he.trans (le_abs_self e)) (pow2_pos _).le (abs_nonneg _))
  rw [hl, e1, e2]
  rfl

theorem greater_eq_less (x y e : ℚ) (hxy : larger b53 x y = larger b53 y x) :
    definitelyGreaterThan b53 x y e = definitelyLessThan b53 y x e := by
  unfold definitelyGreaterThan definitelyLessThan
  rw [hxy]

theorem larger_comm (A : Arith ℚ) (habs : ∀ x, A.abs x = |x|) (hlt : ∀ x y, A.lt x y = decide (x < y)) (x y : ℚ) :
    larger A x y = larger A y x := by
  unfold larger
  simp only [habs, hlt, decide_eq_true_eq]
  rcases lt_trichotomy |x| |y| with h | h | h
  · rw [if_pos h, if_neg (not_lt.2 h.le)]
  · rw [h]
  · rw [if_neg (not_lt.2 h.le), if_pos h]

theorem greater_b53 {x y e : ℚ} {k : ℤ} (hk : -1002 ≤ k) (hx : rnd64 x = x) (hy : rnd64 y = y) (h : Coarse k x)
    (h' : Coarse k y) (he : pow2 (-20) ≤ e) : definitelyGreaterThan b64 x y e = definitelyGreaterThan b53 x y e := by
  have e1 : definitelyGreaterThan b64 x y e = definitelyLessThan b64 y x e := by
    unfold definitelyGreaterThan definitelyLessThan
    rw [larger_comm b64 (fun _ => rfl) (fun _ _ => rfl)]
  rw [e1, less_b53 hk hy hx h' h he, greater_eq_less x y e (larger_comm b53 (fun _ => rfl) (fun _ _ => rfl) x y)]

/-- A double within the range where the histogram does not notice underflow or overflow. -/
def Tame (x : ℚ) : Prop := rnd64 x = x ∧ Coarse (-900) x ∧ |x| ≤ dblMax / 4

/-- **C104**, StreamingHistogram of doubles: a power of two that keeps the data within range scales the edges and keeps the
counts, whatever the window, the number of bins and the length of the stream. -/
theorem C104_histogram_double_partial (k : ℤ) (numBins W : ℕ) (xs : List ℚ)
    (hx : ∀ x ∈ xs, Tame x ∧ Tame (pow2 k * x)) :
    updateAll (Hist.update Dbl.arith) (Hist.new numBins W) (xs.map fun x => .fin (pow2 k * x)) =
      Hist.map (fun x => .fin (pow2 k * x)) <$> updateAll (Hist.update b64) (Hist.new numBins W) xs ∧
    updateAll (Hist.update Dbl.arith) (Hist.new numBins W) (xs.map .fin) =
      Hist.map .fin <$> updateAll (Hist.update b64) (Hist.new numBins W) xs := by
  have h := R53_scales k
  have d1 : defaultEps b64 = defaultEps b53 := by decide +kernel
  have d2 : plusEps b64 = plusEps b53 := by decide +kernel
  have p1 : pow2 (-20) ≤ defaultEps b53 := by decide +kernel
  have p2 : pow2 (-20) ≤ plusEps b53 := by decide +kernel
  have s : Hist.Sim b64 b64 (pow2 k * ·) (fun x => Tame x ∧ Tame (pow2 k * x)) := by
    refine ⟨?_, ?_, ?_, ?_, ?_, ?_⟩
    · rintro x y ⟨⟨x1, x2, -⟩, x3, x4, -⟩ ⟨⟨y1, y2, -⟩, y3, y4, -⟩
      rw [d1, less_b53 (by norm_num) x3 y3 x4 y4 p1, less_b53 (by norm_num) x1 y1 x2 y2 p1]
      exact less_scales h x y _
    · rintro x y ⟨⟨x1, x2, -⟩, x3, x4, -⟩ ⟨⟨y1, y2, -⟩, y3, y4, -⟩
      rw [d2, less_b53 (by norm_num) x3 y3 x4 y4 p2, less_b53 (by norm_num) x1 y1 x2 y2 p2]
      exact less_scales h x y _
    · rintro x y ⟨⟨x1, x2, -⟩, x3, x4, -⟩ ⟨⟨y1, y2, -⟩, y3, y4, -⟩
      rw [d2, greater_b53 (by norm_num) x3 y3 x4 y4 p2, greater_b53 (by norm_num) x1 y1 x2 y2 p2]
      exact greater_scales h x y _
    · intro x y _ _
      exact h.le x y
    · rintro x y z w ⟨⟨x1, x2, -⟩, x3, x4, -⟩ ⟨⟨y1, y2, -⟩, y3, y4, -⟩ ⟨⟨z1, z2, -⟩, z3, z4, -⟩ ⟨⟨w1, w2, -⟩, w3, w4, -⟩
      obtain ⟨a1, a2⟩ := Coarse.sub (by norm_num) x1 y1 x2 y2
      obtain ⟨b1, b2⟩ := Coarse.sub (by norm_num) z1 w1 z2 w2
      obtain ⟨c1, c2⟩ := Coarse.sub (by norm_num) x3 y3 x4 y4
      obtain ⟨e1, e2⟩ := Coarse.sub (by norm_num) z3 w3 z4 w4
      have i : ∀ u v : ℚ, rnd64 (b64.sub u v) = b64.sub u v := fun u v => rnd64_idem _
      rw [d1, less_b53 (by norm_num) (i _ _) (i _ _) c1 e1 p1, less_b53 (by norm_num) (i _ _) (i _ _) a1 b1 p1, a2, b2, c2, e2]
      have s1 : b53.sub (pow2 k * x) (pow2 k * y) = pow2 k * b53.sub x y := h.sub x y
      have s2 : b53.sub (pow2 k * z) (pow2 k * w) = pow2 k * b53.sub z w := h.sub z w
      rw [s1, s2]
      exact less_scales h _ _ _
    · rintro x y ⟨⟨-, -, x1⟩, -, -, x2⟩ ⟨⟨-, -, y1⟩, -, -, y2⟩
      have hB := Hist.big_R64
      have c : ∀ {u v : ℚ}, |u| ≤ dblMax / 4 → |v| ≤ dblMax / 4 →
          definitelyLessThan b64 (b64.sub u v) (b64.lit dblMax) (defaultEps b64) = true := fun hu hv =>
        hB.diff (by exact_mod_cast hv) (by exact_mod_cast hu)
      exact (c x2 y2).trans (c x1 y1).symm
  have e := s.run xs hx (Hist.new numBins W) (by intro b hb; simp [Hist.new] at hb)
  have hp := dblMax_pos
  have f1 := C88_no_overflow_partial numBins W xs fun x h => (hx x h).1.2.2.trans (by linarith)
  have f2 := C88_no_overflow_partial numBins W (xs.map (pow2 k * ·)) (by
    intro y hy
    obtain ⟨x, hx', rfl⟩ := List.mem_map.1 hy
    exact (hx x hx').2.2.2.trans (by linarith))
  refine ⟨?_, f1⟩
  rw [List.map_map] at f2
  rw [show (xs.map fun x => Dbl.fin (pow2 k * x)) = xs.map (Dbl.fin ∘ (pow2 k * ·)) from rfl, f2]
  have e' : updateAll (Hist.update b64) (Hist.new numBins W) (xs.map (pow2 k * ·)) =
    Hist.map (pow2 k * ·) <$> updateAll (Hist.update b64) (Hist.new numBins W) xs := e
  rw [e']
  rcases updateAll (Hist.update b64) (Hist.new numBins W) xs with g | m | u
  · simp [Res.map_ok, Hist.map, Bin.map, Function.comp_def]
  · rfl
  · rfl

/-- Scaling by 8 in binary64: a windowed mean with rounding in the sums, and a histogram that merges. -/
example : (∃ m m', updateAll (Mean.update b64) (Mean.new b64 2) [2 ^ 53, 1, 1, 3] = .ok m ∧
      updateAll (Mean.update b64) (Mean.new b64 2) ([2 ^ 53, 1, 1, 3].map (pow2 3 * ·)) = .ok m' ∧ m' = m.scale (pow2 3) ∧
      (pow2 (-1022) < |m.evaluate b64| → pow2 (-1022) < |pow2 3 * m.evaluate b64| →
        m'.evaluate b64 = pow2 3 * m.evaluate b64)) ∧
    updateAll (Hist.update Dbl.arith) (Hist.new 2 4) ([1, 5, 2, 0, 7].map fun x => .fin (pow2 3 * x)) =
      Hist.map (fun x => .fin (pow2 3 * x)) <$> updateAll (Hist.update b64) (Hist.new 2 4) [1, 5, 2, 0, 7] := by
  refine ⟨C104_mean_double_partial 3 2 _ (by decide +kernel), (C104_histogram_double_partial 3 2 4 _ ?_).1⟩
  unfold Tame Coarse
  decide +kernel

/-- Scaling by `2 ^ (-30)` in 53-bit arithmetic. -/
example (xs : List ℚ) (w : WP2 ℚ) (hw : WP2.new b53 (1 / 3) 7 = .ok w) (q : IQR ℚ) (hq : IQR.new b53 (1 / 4) (3 / 4) 7 = .ok q) :
    Variance.valueAfter b53 3 (xs.map (pow2 (-30) * ·)) = (Variance.valueAfter b53 3 xs).mapOk (pow2 (-30) ^ 2 * ·) ∧
    WP2.valueAfter b53 w (xs.map (pow2 (-30) * ·)) = (WP2.valueAfter b53 w xs).mapOk (pow2 (-30) * ·) ∧
    IQR.valueAfter b53 q (xs.map (pow2 (-30) * ·)) = (IQR.valueAfter b53 q xs).mapOk (pow2 (-30) * ·) :=
  ⟨C104_variance_partial (R53_scales (-30)) 3 xs, C104_windowed_partial (R53_scales (-30)) _ 7 w hw xs,
    C104_iqr_partial (R53_scales (-30)) _ _ 7 q hq xs⟩

/-- 53-bit arithmetic meets the hypotheses on the histogram. -/
example : Hist.Big R53 := ⟨by decide +kernel, by decide +kernel, by decide +kernel, by decide +kernel, by decide +kernel⟩

end KML
