import Verif.Props.DoubleFame
import Verif.Props.FameBound
import Verif.Props.DoubleHist

/-!
# C137, C86: the step of WindowedFAME on doubles

In exact arithmetic (C85) the step is bounded by the data. On doubles a step that passes its observation by almost
nothing counts as not having passed it, and the step grows. With the default `epsilon = 0`, which `StreamingMAD` uses,
the step never grows, and the estimate of a stream of any length stays within one step of the data.
-/

namespace KML

/-- **C137**, the full claim: the step on doubles is at most the larger of the step after the first observation and 5/2
of the width of the data. -/
def C137_full : Prop :=
  ∀ (s e lo hi x : ℚ) (xs : List ℚ) (f : Fame Dbl), IsDouble s → 0 < s → IsDouble e →
    Fame.new Dbl.arith (.fin s) (.fin e) = .ok f → (∀ y ∈ x :: xs, IsDouble y ∧ lo ≤ y ∧ y ≤ hi) →
    ∀ s1 t : ℚ, (f.update Dbl.arith (.fin x)).stepSize = .fin s1 →
      (((x :: xs).map .fin).foldl (Fame.update Dbl.arith) f).stepSize = .fin t → t ≤ max s1 (5 / 2 * (hi - lo))

/-- **C137** is violated: with epsilon 1/2 and step 1 the data `0, 2 ^ -200`, which lie in a range of width `2 ^ -200`,
raise the step from 3/2 to 9/4. -/
theorem C137_violated : ¬ C137_full := by
  intro h
  have := h 1 (1 / 2) 0 (pow2 (-200)) 0 [pow2 (-200)] ⟨.fin 0, .fin 1, .fin (1 / 2), 0⟩ (by unfold IsDouble; decide +kernel)
    (by norm_num) (by unfold IsDouble; decide +kernel) (by decide +kernel)
    (by unfold IsDouble; decide +kernel) (3 / 2) (9 / 4) (by decide +kernel) (by decide +kernel)
  exact absurd this (by decide +kernel)

namespace Fame

theorem dbl_grow_zero : Dbl.arith.add (Dbl.arith.lit 1) (.fin 0) = .fin 1 := by decide +kernel

theorem dbl_mul_one {s : ℚ} (h : IsDouble s) : Dbl.arith.mul (.fin s) (.fin 1) = .fin s := by
  show Dbl.ofRat (s * 1) = _
  rw [mul_one, Dbl.ofRat_fin h.2, h.1]

theorem isDouble_half {s : ℚ} (h : IsDouble s) (h0 : 0 ≤ s) : IsDouble (rnd64 (s / 2)) ∧ 0 ≤ rnd64 (s / 2) ∧ rnd64 (s / 2) ≤ s := by
  have a : rnd64 (s / 2) ≤ s := by
    conv_rhs => rw [← h.1]
    exact rnd64_mono (by linarith)
  have b : 0 ≤ rnd64 (s / 2) := rnd64_nonneg (by linarith)
  have c := abs_le.1 h.2
  exact ⟨⟨rnd64_idem _, by rw [abs_of_nonneg b]; linarith⟩, b, a⟩

theorem dbl_half {s : ℚ} (h : IsDouble s) : Dbl.arith.div (.fin s) (Dbl.arith.lit 2) = .fin (rnd64 (s / 2)) := by
  have l2 : Dbl.arith.lit 2 = .fin 2 := by simpa using P2.lit_fin 2 (by norm_num)
  rw [l2]
  show Dbl.div (.fin s) (.fin 2) = _
  rw [Dbl.div, if_neg (by norm_num), Dbl.ofRat_fin]
  have := h.2
  rw [abs_div, abs_of_pos (by norm_num : (0 : ℚ) < 2)]
  linarith [abs_nonneg s]

/-- With `epsilon = 0` an update keeps or halves the step. -/
theorem dbl_step (f : Fame Dbl) (h0 : f.historyCount ≠ 0) (he : f.epsilon = .fin 0) {s : ℚ} (hs : f.stepSize = .fin s)
    (hd : IsDouble s) (hs0 : 0 ≤ s) (x : Dbl) :
    (f.update Dbl.arith x).epsilon = .fin 0 ∧ (f.update Dbl.arith x).historyCount ≠ 0 ∧
    ((f.update Dbl.arith x).stepSize = .fin s ∨ (f.update Dbl.arith x).stepSize = .fin (rnd64 (s / 2))) := by
  have k1 : Dbl.arith.mul (.fin s) (Dbl.arith.add (Dbl.arith.lit 1) (.fin 0)) = .fin s := by
    rw [dbl_grow_zero, dbl_mul_one hd]
  have k2 : Dbl.arith.mul (Dbl.arith.div (.fin s) (Dbl.arith.lit 2)) (Dbl.arith.add (Dbl.arith.lit 1) (.fin 0)) =
      .fin (rnd64 (s / 2)) := by rw [dbl_grow_zero, dbl_half hd, dbl_mul_one (isDouble_half hd hs0).1]
  unfold Fame.update
  simp only [h0, if_false]
  refine ⟨?_, ?_, ?_⟩
  · split <;> split <;> (try split) <;> exact he
  · split <;> split <;> (try split) <;> simp
  · split <;> split <;> (try split) <;> simp only [he, hs, k1, k2, true_or, or_true]

end Fame

/-- **C137**, `epsilon = 0` (the default): on doubles, after the first observation the step never grows, whatever is
observed, infinities and NaN included. Missing: other epsilons. -/
theorem C137_default_partial (f : Fame Dbl) (h0 : f.historyCount ≠ 0) (he : f.epsilon = .fin 0) (s : ℚ)
    (hs : f.stepSize = .fin s) (hd : IsDouble s) (hs0 : 0 ≤ s) (xs : List Dbl) :
    ∃ t : ℚ, (xs.foldl (Fame.update Dbl.arith) f).stepSize = .fin t ∧ IsDouble t ∧ 0 ≤ t ∧ t ≤ s := by
  induction xs generalizing f s with
  | nil => exact ⟨s, hs, hd, hs0, le_rfl⟩
  | cons x xs ih =>
    obtain ⟨e, c, h⟩ := Fame.dbl_step f h0 he hs hd hs0 x
    rw [List.foldl_cons]
    rcases h with h | h
    · exact ih _ c e s h hd hs0
    · obtain ⟨d1, d2, d3⟩ := Fame.isDouble_half hd hs0
      obtain ⟨t, t1, t2, t3, t4⟩ := ih _ c e _ h d1 d2
      exact ⟨t, t1, t2, t3, t4.trans d3⟩

/-- Step 1 after a first observation; then infinities and NaN. -/
example : ∃ t : ℚ, (([.inf true, .nan, .fin 2] : List Dbl).foldl (Fame.update Dbl.arith)
    (Fame.update Dbl.arith ⟨.fin 0, .fin 1, .fin 0, 0⟩ (.fin 1))).stepSize = .fin t ∧ IsDouble t ∧ 0 ≤ t ∧ t ≤ 1 :=
  C137_default_partial _ (by decide +kernel) (by decide +kernel) 1 (by decide +kernel) (by unfold IsDouble; decide +kernel)
    (by norm_num) _

namespace Fame

/-- `WindowedFAME` with `epsilon = 0` after at least one observation from `[lo, hi]`, the first step having been `T`. -/
structure Plain (lo hi T : ℚ) (f : Fame ℚ) : Prop where
  count : f.historyCount ≠ 0
  eps : f.epsilon = 0
  step : rnd64 f.stepSize = f.stepSize ∧ 0 ≤ f.stepSize ∧ f.stepSize ≤ T
  median : rnd64 f.median = f.median ∧ rnd64 (lo - T) ≤ f.median ∧ f.median ≤ rnd64 (hi + T)

/-- The two ways the estimate moves. -/
theorem Plain.move {lo hi T : ℚ} {f : Fame ℚ} (h : Plain lo hi T f) {x : ℚ} (hx : lo ≤ x ∧ x ≤ hi) :
    (x < f.median → rnd64 (lo - T) ≤ rnd64 (f.median - f.stepSize) ∧ rnd64 (f.median - f.stepSize) ≤ rnd64 (hi + T)) ∧
    (f.median < x → rnd64 (lo - T) ≤ rnd64 (f.median + f.stepSize) ∧ rnd64 (f.median + f.stepSize) ≤ rnd64 (hi + T)) := by
  obtain ⟨_, _, ⟨_, s1, s2⟩, m0, m1, m2⟩ := h
  constructor
  · intro hm
    refine ⟨rnd64_mono (by linarith), (rnd64_mono (by linarith : _ ≤ f.median)).trans (m0.le.trans m2)⟩
  · intro hm
    refine ⟨(m1.trans m0.ge).trans (rnd64_mono (by linarith)), rnd64_mono (by linarith)⟩

theorem rnd64_one : rnd64 1 = 1 := b64_lit_one

theorem plain_step {s : ℚ} (s0 : rnd64 s = s) (s1 : 0 ≤ s) (c : Prop) [Decidable c] :
    0 ≤ rnd64 ((if c then rnd64 (s / 2) else s) * rnd64 (1 + 0)) ∧ rnd64 ((if c then rnd64 (s / 2) else s) * rnd64 (1 + 0)) ≤ s := by
  rw [add_zero, rnd64_one, mul_one]
  have h : rnd64 (s / 2) ≤ rnd64 s := rnd64_mono (by linarith)
  split
  · rw [rnd64_idem]; exact ⟨rnd64_nonneg (by linarith), h.trans s0.le⟩
  · rw [s0]; exact ⟨s1, le_rfl⟩

theorem Plain.update {lo hi T : ℚ} {f : Fame ℚ} (h : Plain lo hi T f) {x : ℚ} (hx : lo ≤ x ∧ x ≤ hi) :
    Plain lo hi T (f.update b64 x) := by
  have hm := h.move hx
  obtain ⟨h0, he, ⟨s0, s1, s2⟩, m0, m1, m2⟩ := h
  rw [b64_update_later f x h0, he]
  dsimp only
  set m := if x < f.median then rnd64 (f.median - f.stepSize)
        else if f.median < x then rnd64 (f.median + f.stepSize) else f.median with hmdef
  have hs := plain_step s0 s1 (|rnd64 (x - m)| < f.stepSize)
  refine ⟨Nat.succ_ne_zero _, rfl, ⟨rnd64_idem _, hs.1, hs.2.trans s2⟩, ?_⟩
  show rnd64 m = m ∧ rnd64 (lo - T) ≤ m ∧ m ≤ rnd64 (hi + T)
  rw [hmdef]
  rcases lt_trichotomy x f.median with c | c | c
  · rw [if_pos c]; exact ⟨rnd64_idem _, hm.1 c⟩
  · rw [if_neg (by linarith), if_neg (by linarith)]; exact ⟨m0, m1, m2⟩
  · rw [if_neg (by linarith), if_pos c]; exact ⟨rnd64_idem _, hm.2 c⟩

theorem abs_ofRat_lt {s q : ℚ} (hs : s ≤ dblMax) : Dbl.arith.lt (Dbl.arith.abs (Dbl.ofRat q)) (.fin s) = b64.lt |rnd64 q| s := by
  show Dbl.lt (Dbl.abs (Dbl.ofRat q)) (.fin s) = decide (|rnd64 q| < s)
  unfold Dbl.ofRat
  dsimp only
  split
  · rename_i hb
    have : s ≤ |rnd64 q| := hs.trans hb.le
    rw [decide_eq_false (not_lt.2 this)]
    rfl
  · rfl

theorem isDouble_between {a b m : ℚ} (ha : -dblMax ≤ a) (hb : b ≤ dblMax) (h0 : rnd64 m = m) (h1 : a ≤ m) (h2 : m ≤ b) :
    IsDouble m := ⟨h0, abs_le.2 ⟨by linarith, by linarith⟩⟩

/-- A sum whose rounding is within range is that rounding. -/
theorem ofRat_of_rnd {q : ℚ} (h : |rnd64 q| ≤ dblMax) : Dbl.ofRat q = .fin (rnd64 q) := by
  unfold Dbl.ofRat
  exact if_neg (not_lt.2 h)

theorem Plain.update_dbl {lo hi T : ℚ} (hL : -dblMax ≤ rnd64 (lo - T)) (hH : rnd64 (hi + T) ≤ dblMax) (hT : T ≤ dblMax)
    {f : Fame ℚ} (h : Plain lo hi T f) {x : ℚ} (hx : lo ≤ x ∧ x ≤ hi) :
    (f.map Dbl.fin).update Dbl.arith (.fin x) = (f.update b64 x).map .fin := by
  obtain ⟨mv1, mv2⟩ := h.move hx
  obtain ⟨h0, he, ⟨s0, s1, s2⟩, m0, m1, m2⟩ := h
  have ds : IsDouble f.stepSize := ⟨s0, by rw [abs_of_nonneg s1]; linarith⟩
  have dm : IsDouble f.median := isDouble_between hL hH m0 m1 m2
  obtain ⟨g1, g2, g3⟩ := isDouble_half ds s1
  have k1 : Dbl.arith.mul (.fin f.stepSize) (Dbl.arith.add (Dbl.arith.lit 1) (.fin f.epsilon)) =
      .fin (rnd64 (f.stepSize * rnd64 (1 + f.epsilon))) := by
    rw [he, dbl_grow_zero, dbl_mul_one ds, add_zero, rnd64_one, mul_one, s0]
  have k2 : Dbl.arith.mul (Dbl.arith.div (.fin f.stepSize) (Dbl.arith.lit 2)) (Dbl.arith.add (Dbl.arith.lit 1) (.fin f.epsilon)) =
      .fin (rnd64 (rnd64 (f.stepSize / 2) * rnd64 (1 + f.epsilon))) := by
    rw [he, dbl_grow_zero, dbl_half ds, dbl_mul_one g1, add_zero, rnd64_one, mul_one, rnd64_idem]
  have hdist : ∀ m' : ℚ, Dbl.arith.lt (Dbl.arith.abs (Dbl.arith.sub (.fin x) (.fin m'))) (.fin f.stepSize) =
      decide (|rnd64 (x - m')| < f.stepSize) := fun m' => by
    rw [sub_eq_add_neg]
    exact abs_ofRat_lt (ds.2 |> fun h => (abs_le.1 h).2)
  rw [b64_update_later f x h0]
  unfold Fame.update
  simp only [Fame.map, h0, if_false, ne_eq]
  rcases lt_trichotomy x f.median with c | c | c
  · have e1 : Dbl.arith.lt (.fin x) (.fin f.median) = true := decide_eq_true c
    have e2 : Dbl.arith.sub (.fin f.median) (.fin f.stepSize) = .fin (rnd64 (f.median - f.stepSize)) := by
      rw [sub_eq_add_neg]
      refine ofRat_of_rnd ?_
      rw [← sub_eq_add_neg]
      exact abs_le.2 ⟨by linarith [(mv1 c).1], by linarith [(mv1 c).2]⟩
    simp only [e1, if_true, e2, hdist, c]
    by_cases d : |rnd64 (x - rnd64 (f.median - f.stepSize))| < f.stepSize
    · simp [h0, d, k2]
    · simp [h0, d, k1]
  · have e1 : Dbl.arith.lt (.fin x) (.fin f.median) = false := decide_eq_false (by linarith)
    have e2 : Dbl.arith.lt (.fin f.median) (.fin x) = false := decide_eq_false (by linarith)
    have c1 : ¬ x < f.median := by linarith
    have c2 : ¬ f.median < x := by linarith
    simp only [e1, e2, Bool.false_eq_true, if_false, hdist, c1, c2]
    by_cases d : |rnd64 (x - f.median)| < f.stepSize
    · simp [h0, d, k2]
    · simp [h0, d, k1]
  · have e0 : Dbl.arith.lt (.fin x) (.fin f.median) = false := decide_eq_false (by linarith)
    have e1 : Dbl.arith.lt (.fin f.median) (.fin x) = true := decide_eq_true c
    have c1 : ¬ x < f.median := by linarith
    have e2 : Dbl.arith.add (.fin f.median) (.fin f.stepSize) = .fin (rnd64 (f.median + f.stepSize)) := by
      refine ofRat_of_rnd ?_
      exact abs_le.2 ⟨by linarith [(mv2 c).1], by linarith [(mv2 c).2]⟩
    simp only [e0, e1, Bool.false_eq_true, if_false, if_true, e2, hdist, c, c1]
    by_cases d : |rnd64 (x - rnd64 (f.median + f.stepSize))| < f.stepSize
    · simp [h0, d, k2]
    · simp [h0, d, k1]

theorem Plain.run {lo hi T : ℚ} (hL : -dblMax ≤ rnd64 (lo - T)) (hH : rnd64 (hi + T) ≤ dblMax) (hT : T ≤ dblMax)
    (xs : List ℚ) : ∀ f : Fame ℚ, Plain lo hi T f → (∀ x ∈ xs, lo ≤ x ∧ x ≤ hi) →
    (xs.map Dbl.fin).foldl (Fame.update Dbl.arith) (f.map .fin) = (xs.foldl (Fame.update b64) f).map .fin ∧
    Plain lo hi T (xs.foldl (Fame.update b64) f) := by
  induction xs with
  | nil => exact fun f h _ => ⟨rfl, h⟩
  | cons x xs ih =>
    intro f h hx
    have hx0 := hx x (by simp)
    simp only [List.map_cons, List.foldl_cons]
    rw [h.update_dbl hL hH hT hx0]
    exact ih _ (h.update hx0) fun y hy => hx y (by simp [hy])

/-- The first observation, `epsilon = 0`. -/
theorem Plain.first {s x : ℚ} (hs : IsDouble s) (hx : IsDouble x) {lo hi : ℚ} (h : lo ≤ x ∧ x ≤ hi) :
    Fame.update Dbl.arith ⟨.fin 0, .fin s, .fin 0, 0⟩ (.fin x) = (Fame.update b64 ⟨0, s, 0, 0⟩ x).map .fin ∧
    (Fame.update b64 ⟨0, s, 0, 0⟩ x).stepSize = max (rnd64 (|x| / 2)) s ∧ max (rnd64 (|x| / 2)) s ≤ dblMax ∧
    Plain lo hi (max (rnd64 (|x| / 2)) s) (Fame.update b64 ⟨0, s, 0, 0⟩ x) := by
  have dax : IsDouble |x| := by
    refine ⟨?_, by rw [abs_abs]; exact hx.2⟩
    rcases abs_cases x with ⟨e, _⟩ | ⟨e, _⟩ <;> rw [e]
    · exact hx.1
    · rw [rnd64_neg, hx.1]
  obtain ⟨g1, g2, g3⟩ := isDouble_half dax (abs_nonneg x)
  set T := max (rnd64 (|x| / 2)) s with hTdef
  have dT : IsDouble T := by
    rcases max_cases (rnd64 (|x| / 2)) s with ⟨e, _⟩ | ⟨e, _⟩ <;> rw [hTdef, e]
    · exact g1
    · exact hs
  have hT0 : 0 ≤ T := g2.trans (le_max_left _ _)
  have eb : Fame.update b64 ⟨0, s, 0, 0⟩ x = ⟨x, T, 0, 1⟩ := by
    rw [b64_update_first _ _ rfl]
    simp only [add_zero, rnd64_one, mul_one, ← hTdef, dT.1]
  have emax : Dbl.arith.max (Dbl.arith.div (Dbl.arith.abs (.fin x)) (Dbl.arith.lit 2)) (.fin s) = .fin T := by
    have : Dbl.arith.abs (.fin x) = .fin |x| := rfl
    rw [this, dbl_half dax]
    unfold Arith.max
    rw [Dbl.lt_fin]
    simp only [b64, decide_eq_true_eq]
    split
    · rw [hTdef, max_eq_right (le_of_lt ‹_›)]
    · rw [hTdef, max_eq_left (not_lt.1 ‹_›)]
  have irr : Dbl.arith.lt (.fin x) (.fin x) = false := decide_eq_false (lt_irrefl x)
  rw [eb]
  refine ⟨?_, rfl, (abs_le.1 dT.2).2, one_ne_zero, rfl, ⟨dT.1, hT0, le_rfl⟩, hx.1, ?_, ?_⟩
  · unfold Fame.update
    simp only [if_true, emax, irr, Bool.false_eq_true, if_false, ne_eq, not_true_eq_false, decide_false, Bool.false_and,
      dbl_grow_zero, dbl_mul_one dT, Fame.map]
  · conv_rhs => rw [← hx.1]
    exact rnd64_mono (by linarith [h.1])
  · conv_lhs => rw [← hx.1]
    exact rnd64_mono (by linarith [h.2])

theorem new_default (s : ℚ) : Fame.new Dbl.arith (.fin s) (.fin 0) = .ok ⟨.fin 0, .fin s, .fin 0, 0⟩ := by
  have l0 : Dbl.arith.lit 0 = .fin 0 := dbl_lit_zero
  have l1 : Dbl.arith.lit 1 = .fin 1 := dbl_lit_one
  unfold Fame.new
  rw [l0, l1]
  rfl

end Fame

/-- **C86**, `epsilon = 0` (the default), streams of any length: let `T` be the larger of the step and half the first
observation. Unless `hi + T` or `lo - T` overflows, the estimate of observations from `[lo, hi]` is finite, equals that of
rounded arithmetic without overflow, and lies within `T`, rounded, of `[lo, hi]`. Missing: other epsilons. -/
theorem C86_default_partial (s x lo hi : ℚ) (xs : List ℚ) (f : Fame Dbl) (hs : IsDouble s) (hx : IsDouble x)
    (hf : Fame.new Dbl.arith (.fin s) (.fin 0) = .ok f) (hxs : ∀ y ∈ x :: xs, lo ≤ y ∧ y ≤ hi)
    (hL : -dblMax ≤ rnd64 (lo - max (rnd64 (|x| / 2)) s)) (hH : rnd64 (hi + max (rnd64 (|x| / 2)) s) ≤ dblMax) :
    ∃ v, (((x :: xs).map .fin).foldl (Fame.update Dbl.arith) f).evaluate = .fin v ∧
      v = ((x :: xs).foldl (Fame.update b64) ⟨0, s, 0, 0⟩).evaluate ∧
      rnd64 (lo - max (rnd64 (|x| / 2)) s) ≤ v ∧ v ≤ rnd64 (hi + max (rnd64 (|x| / 2)) s) := by
  rw [Fame.new_default] at hf
  injection hf with hf
  subst hf
  obtain ⟨h1, _, hT, h2⟩ := Fame.Plain.first hs hx (hxs x (by simp))
  obtain ⟨h3, h4⟩ := h2.run hL hH hT xs _ fun y hy => hxs y (by simp [hy])
  rw [List.map_cons, List.foldl_cons, h1, h3]
  exact ⟨_, rfl, rfl, h4.median.2⟩

/-- Observations up to half the largest double. -/
example (f : Fame Dbl) (hf : Fame.new Dbl.arith (.fin 1) (.fin 0) = .ok f) :
    ∃ v, ((([2 ^ 1023, -(2 ^ 1022), 2 ^ 1023, 5] : List ℚ).map .fin).foldl (Fame.update Dbl.arith) f).evaluate = .fin v := by
  obtain ⟨v, h, _⟩ := C86_default_partial 1 (2 ^ 1023) (-(2 ^ 1022)) (2 ^ 1023) [-(2 ^ 1022), 2 ^ 1023, 5] f
    (by unfold IsDouble; decide +kernel) (by unfold IsDouble; decide +kernel) hf (by decide +kernel)
    (by decide +kernel) (by decide +kernel)
  exact ⟨v, h⟩

/-- **C86**, `epsilon = 0`: observations of magnitude up to `2 ^ 1023`, half the range of the doubles, and a step up to
`2 ^ 1022` keep the estimate finite, however long the stream. (`C86_violated` has an observation of `1.5 · 2 ^ 1023`.)
Missing: other epsilons. -/
theorem C86_default_range_partial (s : ℚ) (xs : List ℚ) (f : Fame Dbl) (hs : IsDouble s) (hs1 : s ≤ pow2 1022)
    (hf : Fame.new Dbl.arith (.fin s) (.fin 0) = .ok f) (hxs : ∀ y ∈ xs, IsDouble y ∧ |y| ≤ pow2 1023) :
    ∃ v, ((xs.map .fin).foldl (Fame.update Dbl.arith) f).evaluate = .fin v := by
  cases xs with
  | nil =>
    rw [Fame.new_default] at hf
    injection hf with hf
    exact ⟨0, by rw [← hf]; rfl⟩
  | cons x xs =>
    have p : pow2 1023 = 2 * pow2 1022 := pow2_succ 1022
    have hT : max (rnd64 (|x| / 2)) s ≤ pow2 1022 := by
      refine max_le ?_ hs1
      have := (hxs x (by simp)).2
      refine (le_abs_self _).trans (rnd64_abs_le (by norm_num) ?_)
      rw [abs_of_nonneg (by positivity)]
      linarith
    have e : rnd64 (3 * pow2 1022) = 3 * pow2 1022 := by
      have := rnd64_repr 3 1022 (by norm_num) (by norm_num)
      exact_mod_cast this
    have hB : 3 * pow2 1022 ≤ dblMax := by decide +kernel
    obtain ⟨v, hv, _⟩ := C86_default_partial s x (-pow2 1023) (pow2 1023) xs f hs (hxs x (by simp)).1 hf
      (fun y hy => abs_le.1 (hxs y hy).2)
      (by
        have := rnd64_mono (show -(3 * pow2 1022) ≤ -pow2 1023 - max (rnd64 (|x| / 2)) s by linarith)
        rw [rnd64_neg, e] at this
        linarith)
      (by
        have := rnd64_mono (show pow2 1023 + max (rnd64 (|x| / 2)) s ≤ 3 * pow2 1022 by linarith)
        rw [e] at this
        linarith)
    exact ⟨v, hv⟩

/-- Two extremes in turn. -/
example (f : Fame Dbl) (hf : Fame.new Dbl.arith (.fin 1) (.fin 0) = .ok f) :
    ∃ v, ((([2 ^ 1023, -(2 ^ 1023), 2 ^ 1023, -(2 ^ 1023)] : List ℚ).map .fin).foldl (Fame.update Dbl.arith) f).evaluate =
      .fin v :=
  C86_default_range_partial 1 _ f (by unfold IsDouble; decide +kernel) (by decide +kernel) hf
    (by unfold IsDouble; decide +kernel)

end KML
