import Verif.Props.DoubleFame
import Verif.Props.DoubleHist

/-! # C95: WindowedFAME and StreamingMAD on doubles stop following the stream

Every observation equal to the estimate halves the step. On doubles the step soon falls below half the spacing of the
doubles around the estimate; with the default `epsilon = 0` it never grows again. -/

namespace KML

instance (q : ℚ) : Decidable (IsDouble q) := inferInstanceAs (Decidable (_ ∧ _))

/-! ### Rounding next to a double -/

theorem rndAt_near {k m : ℤ} {x : ℚ} (h : |x - m * pow2 k| < pow2 k / 2) : rndAt k x = m * pow2 k := by
  have hk := pow2_pos k
  have h1 := rndAt_err k x
  have h2 : |rndAt k x - m * pow2 k| < pow2 k := by
    have : rndAt k x - m * pow2 k = (rndAt k x - x) + (x - m * pow2 k) := by ring
    rw [this]
    exact (abs_add_le _ _).trans_lt (by linarith)
  unfold rndAt at h2 ⊢
  rw [← sub_mul, abs_mul, abs_of_pos hk] at h2
  have h3 : |((rne (x / pow2 k) : ℤ) : ℚ) - m| < 1 := by
    by_contra hc
    have := mul_le_mul_of_nonneg_right (not_lt.1 hc) hk.le
    linarith
  have h4 : |rne (x / pow2 k) - m| < 1 := by exact_mod_cast h3
  rw [Int.abs_lt_one_iff, sub_eq_zero] at h4
  rw [h4]

/-- A double plus or minus less than a quarter of its spacing rounds back to it. -/
theorem rnd64_near {c s : ℚ} (hc : rnd64 c = c) (h0 : c ≠ 0) (he : -1000 ≤ expo c) (hs : |s| ≤ pow2 (expo c - 55)) :
    rnd64 (c + s) = c := by
  obtain ⟨e1, e2⟩ := expo_spec h0
  set e := expo c
  have p1 : pow2 (e - 52) = 8 * pow2 (e - 55) := by
    have : pow2 (e - 52) = pow2 3 * pow2 (e - 55) := by rw [← pow2_add]; congr 1; ring
    rw [this]; congr 1
  have p2 : pow2 (e - 53) = 4 * pow2 (e - 55) := by
    have : pow2 (e - 53) = pow2 2 * pow2 (e - 55) := by rw [← pow2_add]; congr 1; ring
    rw [this]; congr 1
  have p3 : pow2 e = 2 * pow2 (e - 1) := by rw [← pow2_succ]; congr 1; ring
  have pp := pow2_pos (e - 55)
  have p4 : pow2 (e - 55) ≤ pow2 (e - 1) := pow2_le.2 (by omega)
  -- c is an integer multiple of its spacing, and below the next power of two by at least the spacing
  obtain ⟨m, hm⟩ : ∃ m : ℤ, c = m * pow2 (e - 52) := by
    have : rnd64 c = rndAt (e - 52) c := by
      rw [rnd64, if_neg h0, max_eq_left (by omega)]
    rw [hc] at this
    exact ⟨_, this⟩
  have hm1 : |c| + pow2 (e - 52) ≤ pow2 (e + 1) := by
    rw [pow2_53] at e2 ⊢
    have hpos := pow2_pos (e - 52)
    rw [hm, abs_mul, abs_of_pos hpos] at e2 ⊢
    have h1 : |(m : ℚ)| < (2 ^ 53 : ℤ) := lt_of_mul_lt_mul_right e2 hpos.le
    have h2 : |m| < 2 ^ 53 := by exact_mod_cast h1
    have h3 : |(m : ℚ)| + 1 ≤ (2 ^ 53 : ℤ) := by exact_mod_cast h2
    have := mul_le_mul_of_nonneg_right h3 hpos.le
    linarith
  have y1 : |c + s| < pow2 (e + 1) := (abs_add_le _ _).trans_lt (by linarith)
  have y2 : pow2 (e - 1) ≤ |c + s| := by
    have : |c| ≤ |c + s| + |s| := by
      have := abs_sub (c + s) s
      rwa [add_sub_cancel_right] at this
    linarith
  have y0 : c + s ≠ 0 := by
    intro h
    rw [h, abs_zero] at y2
    have := pow2_pos (e - 1)
    linarith
  have k1 : expo (c + s) ≤ e := expo_le_of_lt y0 y1
  have k2 : e - 1 ≤ expo (c + s) := le_expo_of_le y0 y2
  rw [rnd64, if_neg y0, max_eq_left (by omega)]
  obtain h | h : expo (c + s) = e ∨ expo (c + s) = e - 1 := by omega
  · rw [h]
    conv_rhs => rw [hm]
    refine rndAt_near ?_
    rw [← hm, add_sub_cancel_left]
    linarith
  · rw [h]
    have hm' : c = ((2 * m : ℤ) : ℚ) * pow2 (e - 1 - 52) := by
      have : pow2 (e - 52) = 2 * pow2 (e - 1 - 52) := by rw [← pow2_succ]; congr 1; ring
      rw [hm, this]; push_cast; ring
    conv_rhs => rw [hm']
    refine rndAt_near ?_
    rw [← hm', add_sub_cancel_left, show e - 1 - 52 = e - 53 by ring]
    linarith

/-! ### Frozen estimators -/

namespace Fame

/-- The estimate is `c`, and the step is too small to move it and cannot grow. -/
structure Frozen (c : ℚ) (f : Fame Dbl) : Prop where
  count : f.historyCount ≠ 0
  median : f.median = .fin c
  range : |c| ≤ dblMax
  step : ∃ s e : ℚ, f.stepSize = .fin s ∧ f.epsilon = .fin e ∧ 0 ≤ s ∧ s ≤ dblMax ∧ rnd64 s = s ∧ rnd64 (c + s) = c ∧
    rnd64 (c - s) = c ∧ 0 ≤ e ∧ e < 1 ∧ (e = 0 ∨ s = 0)

theorem dbl_lit_two : Dbl.arith.lit 2 = .fin 2 := by simpa using P2.lit_fin 2 (by norm_num)

theorem dbl_lit_one' : Dbl.arith.lit 1 = .fin 1 := by simpa using P2.lit_fin 1 (by norm_num)

theorem grow_fin {s e : ℚ} (h0 : 0 ≤ s) (h1 : s ≤ dblMax) (hs : rnd64 s = s) (he : 0 ≤ e) (he1 : e < 1) (h : e = 0 ∨ s = 0) :
    Dbl.arith.mul (.fin s) (Dbl.arith.add (Dbl.arith.lit 1) (.fin e)) = .fin s := by
  have hd : (2 : ℚ) ≤ dblMax := by decide +kernel
  have e1 : Dbl.arith.add (.fin 1) (.fin e) = .fin (rnd64 (1 + e)) :=
    Dbl.ofRat_fin (by rw [abs_of_nonneg (by linarith)]; linarith)
  rw [dbl_lit_one', e1]
  have e2 : s * rnd64 (1 + e) = s := by
    rcases h with h | h
    · rw [h, add_zero]
      have : rnd64 1 = 1 := by simpa using rnd64_int 1 (by norm_num)
      rw [this, mul_one]
    · rw [h, zero_mul]
  show Dbl.ofRat (s * rnd64 (1 + e)) = _
  rw [e2, Dbl.ofRat_fin (by rwa [abs_of_nonneg h0]), hs]

theorem half_step_fin {s : ℚ} (h0 : 0 ≤ s) (h1 : s ≤ dblMax) (hs : rnd64 s = s) :
    Dbl.arith.div (.fin s) (Dbl.arith.lit 2) = .fin (rnd64 (s / 2)) ∧ 0 ≤ rnd64 (s / 2) ∧ rnd64 (s / 2) ≤ s := by
  rw [dbl_lit_two]
  refine ⟨?_, rnd64_nonneg (by linarith), ?_⟩
  · show Dbl.div (.fin s) (.fin 2) = _
    unfold Dbl.div
    simp only [show (2 : ℚ) ≠ 0 by norm_num, if_false]
    rw [Dbl.ofRat_fin (by rw [abs_of_nonneg (by linarith)]; linarith)]
  · have := rnd64_mono (show s / 2 ≤ s by linarith)
    rwa [hs] at this

/-- Whatever is observed, the estimate stays. -/
theorem Frozen.update {c : ℚ} {f : Fame Dbl} (h : Frozen c f) (x : Dbl) : Frozen c (f.update Dbl.arith x) := by
  obtain ⟨h0, hm, hr, s, e, hs, he, s0, s1, s2, s3, s4, e0, e1, e2⟩ := h
  have up : Dbl.arith.add (.fin c) (.fin s) = .fin c := by
    show Dbl.ofRat (c + s) = _
    unfold Dbl.ofRat
    simp only [s3]
    exact if_neg (not_lt.2 hr)
  have down : Dbl.arith.sub (.fin c) (.fin s) = .fin c := by
    show Dbl.ofRat (c + -s) = _
    unfold Dbl.ofRat
    simp only [← sub_eq_add_neg, s4]
    exact if_neg (not_lt.2 hr)
  obtain ⟨t1, t2, t3⟩ := half_step_fin s0 s1 s2
  have hc : rnd64 c = c := by rw [← s3]; exact rnd64_idem _
  have small : ∀ t, 0 ≤ t → t ≤ s → rnd64 (c + t) = c ∧ rnd64 (c - t) = c := by
    intro t ht hts
    refine ⟨le_antisymm ?_ ?_, le_antisymm ?_ ?_⟩
    · exact (rnd64_mono (by linarith : c + t ≤ c + s)).trans s3.le
    · conv_lhs => rw [← hc]
      exact rnd64_mono (by linarith)
    · conv_rhs => rw [← hc]
      exact rnd64_mono (by linarith)
    · conv_lhs => rw [← s4]
      exact rnd64_mono (by linarith)
  have e2' : e = 0 ∨ rnd64 (s / 2) = 0 := by
    rcases e2 with h | h
    · exact .inl h
    · right; rw [h]; simp [rnd64_zero]
  have key : f.update Dbl.arith x = ⟨.fin c, .fin s, .fin e, f.historyCount + 1⟩ ∨
      f.update Dbl.arith x = ⟨.fin c, .fin (rnd64 (s / 2)), .fin e, f.historyCount + 1⟩ := by
    obtain ⟨m, st, ep, hcount⟩ := f
    simp only at hm hs he h0
    subst hm hs he
    have md : (if Dbl.arith.lt x (.fin c) then (⟨Dbl.arith.sub (.fin c) (.fin s), .fin s, .fin e, hcount⟩ : Fame Dbl)
        else if Dbl.arith.lt (.fin c) x then ⟨Dbl.arith.add (.fin c) (.fin s), .fin s, .fin e, hcount⟩
        else ⟨.fin c, .fin s, .fin e, hcount⟩) = ⟨.fin c, .fin s, .fin e, hcount⟩ := by
      rw [up, down]
      split
      · rfl
      · split <;> rfl
    unfold Fame.update
    simp only [h0, if_false, md]
    split
    · right
      simp only [t1]
      rw [grow_fin t2 (t3.trans s1) (rnd64_idem _) e0 e1 e2']
    · left
      rw [grow_fin s0 s1 s2 e0 e1 e2]
  rcases key with k | k
  · rw [k]
    exact ⟨by simp, rfl, hr, s, e, rfl, rfl, s0, s1, s2, s3, s4, e0, e1, e2⟩
  · rw [k]
    obtain ⟨a1, a2⟩ := small _ t2 t3
    exact ⟨by simp, rfl, hr, _, e, rfl, rfl, t2, t3.trans s1, rnd64_idem _, a1, a2, e0, e1, e2'⟩

theorem Frozen.run {c : ℚ} {f : Fame Dbl} (h : Frozen c f) (xs : List Dbl) :
    Frozen c (xs.foldl (Fame.update Dbl.arith) f) := by
  induction xs generalizing f with
  | nil => exact h
  | cons x xs ih => exact ih (h.update x)

/-- Halve and round. -/
def halve (s : ℚ) : ℚ := rnd64 (s / 2)

theorem halve_le {s : ℚ} {k : ℤ} (h0 : 0 ≤ s) (h1 : s ≤ pow2 (k + 1)) (hk : -1074 ≤ k) : 0 ≤ halve s ∧ halve s ≤ pow2 k := by
  refine ⟨rnd64_nonneg (by linarith), ?_⟩
  rw [pow2_succ] at h1
  exact (le_abs_self _).trans (rnd64_abs_le hk (by rw [abs_of_nonneg (by linarith)]; linarith))

theorem halves_le (n : ℕ) {s : ℚ} {k : ℤ} (h0 : 0 ≤ s) (h1 : s ≤ pow2 (k + n)) (hk : -1074 ≤ k) :
    0 ≤ halve^[n] s ∧ halve^[n] s ≤ pow2 k := by
  induction n generalizing s with
  | zero => exact ⟨h0, by simpa using h1⟩
  | succ n ih =>
    rw [Function.iterate_succ_apply]
    obtain ⟨a, b⟩ := halve_le (k := k + n) h0 (by push_cast at h1; rwa [← add_assoc] at h1) (by omega)
    exact ih a b

/-- After 2099 halvings nothing is left of any double. -/
theorem halves_zero {s : ℚ} (h0 : 0 ≤ s) (h1 : s ≤ dblMax) : halve^[2099] s = 0 := by
  have hd : dblMax ≤ pow2 (-1074 + (2098 : ℕ)) := by decide +kernel
  obtain ⟨a, b⟩ := halves_le 2098 h0 (h1.trans hd) le_rfl
  rw [show (2099 : ℕ) = 2098 + 1 from rfl, Function.iterate_succ_apply']
  have e : rnd64 (pow2 (-1074) / 2) = 0 := by decide +kernel
  refine le_antisymm ?_ (rnd64_nonneg (by linarith))
  rw [← e]
  exact rnd64_mono (by linarith)

theorem iter_idem (n : ℕ) {s : ℚ} (hs : rnd64 s = s) : rnd64 (halve^[n] s) = halve^[n] s := by
  cases n with
  | zero => exact hs
  | succ n => rw [Function.iterate_succ_apply']; exact rnd64_idem _

theorem iter_range (n : ℕ) {s : ℚ} (h0 : 0 ≤ s) (h1 : s ≤ dblMax) (hs : rnd64 s = s) :
    0 ≤ halve^[n] s ∧ halve^[n] s ≤ dblMax := by
  induction n with
  | zero => exact ⟨h0, h1⟩
  | succ n ih =>
    rw [Function.iterate_succ_apply']
    obtain ⟨-, a, b⟩ := half_step_fin ih.1 ih.2 (iter_idem n hs)
    exact ⟨a, b.trans ih.2⟩

/-- A constant stream from the start, `epsilon = 0`: every observation after the first halves the step. -/
theorem const_run {c s : ℚ} (hc : IsDouble c) (hs : IsDouble s) (hs0 : 0 ≤ s) (n : ℕ) :
    (List.replicate (n + 1) (Dbl.fin c)).foldl (Fame.update Dbl.arith) ⟨.fin 0, .fin s, .fin 0, 0⟩ =
      ⟨.fin c, .fin (halve^[n] (max (rnd64 (|c| / 2)) s)), .fin 0, n + 1⟩ := by
  have g0 : 0 ≤ max (rnd64 (|c| / 2)) s := le_max_of_le_right hs0
  have gr : |(|c| / 2)| ≤ dblMax := by
    rw [abs_of_nonneg (by positivity)]
    have := hc.2
    have := abs_nonneg c
    linarith
  have g1 : max (rnd64 (|c| / 2)) s ≤ dblMax :=
    max_le ((le_abs_self _).trans (rnd64_le_dblMax gr)) ((le_abs_self _).trans hs.2)
  have g2 : rnd64 (max (rnd64 (|c| / 2)) s) = max (rnd64 (|c| / 2)) s := by
    rcases max_choice (rnd64 (|c| / 2)) s with h | h <;> rw [h]
    · exact rnd64_idem _
    · exact hs.1
  induction n with
  | zero =>
    have e1 : Dbl.arith.div (Dbl.arith.abs (.fin c)) (Dbl.arith.lit 2) = .fin (rnd64 (|c| / 2)) := by
      rw [dbl_lit_two]
      show Dbl.div (.fin |c|) (.fin 2) = _
      unfold Dbl.div
      simp only [show (2 : ℚ) ≠ 0 by norm_num, if_false]
      rw [Dbl.ofRat_fin gr]
    have e2 : Dbl.arith.max (.fin (rnd64 (|c| / 2))) (.fin s) = .fin (max (rnd64 (|c| / 2)) s) := by
      unfold Arith.max
      have : Dbl.arith.lt (.fin (rnd64 (|c| / 2))) (.fin s) = decide (rnd64 (|c| / 2) < s) := rfl
      rw [this]
      by_cases h : rnd64 (|c| / 2) < s
      · rw [decide_eq_true h, if_pos rfl, max_eq_right h.le]
      · rw [decide_eq_false h, max_eq_left (not_lt.1 h)]; rfl
    have e3 : Dbl.arith.lt (.fin c) (.fin c) = false := decide_eq_false (lt_irrefl c)
    simp only [zero_add, List.replicate_one, List.foldl_cons, List.foldl_nil, Fame.update, e1, e2, e3, if_true, Bool.false_eq_true,
      if_false, ne_eq, not_true_eq_false, decide_false, Bool.false_and, Function.iterate_zero, id_eq]
    rw [grow_fin g0 g1 g2 le_rfl one_pos (.inl rfl)]
  | succ n ih =>
    rw [List.replicate_succ', List.foldl_append, ih, List.foldl_cons, List.foldl_nil, Function.iterate_succ_apply']
    obtain ⟨r0, r1⟩ := iter_range n g0 g1 g2
    have r2 := iter_idem n g2
    generalize halve^[n] (max (rnd64 (|c| / 2)) s) = t at *
    have e3 : Dbl.arith.lt (.fin c) (.fin c) = false := decide_eq_false (lt_irrefl c)
    have e4 : Dbl.arith.abs (Dbl.arith.sub (.fin c) (.fin c)) = .fin 0 := by
      show Dbl.abs (Dbl.ofRat (c + -c)) = _
      rw [add_neg_cancel]
      decide +kernel
    have e5 : Dbl.arith.lt (.fin 0) (.fin t) = decide (0 < t) := rfl
    obtain ⟨t1, t2, t3⟩ := half_step_fin r0 r1 r2
    simp only [Fame.update, e3, e4, e5, if_false, Bool.false_eq_true, Nat.add_eq_zero_iff, one_ne_zero, and_false, ne_eq,
      not_false_eq_true, decide_true, Bool.true_and]
    by_cases h : 0 < t
    · simp only [decide_eq_true h, if_true, t1]
      rw [grow_fin t2 (t3.trans r1) (rnd64_idem _) le_rfl one_pos (.inl rfl)]
      rfl
    · have h0 : t = 0 := le_antisymm (not_lt.1 h) r0
      simp only [decide_eq_false h, Bool.false_eq_true, if_false]
      rw [grow_fin r0 r1 r2 le_rfl one_pos (.inl rfl), h0]
      simp [halve, rnd64_zero]

/-- The constructor. -/
theorem new_fin {s e : ℚ} {f : Fame Dbl} (h : Fame.new Dbl.arith (.fin s) (.fin e) = .ok f) : f = ⟨.fin 0, .fin s, .fin e, 0⟩ := by
  unfold Fame.new at h
  rw [dbl_lit_zero, dbl_lit_one'] at h
  split at h
  · cases h
  · injection h with h
    exact h.symm

/-- Enough equal observations from the start freeze the estimator. -/
theorem frozen_const {c s : ℚ} (hc : IsDouble c) (hs : IsDouble s) (hs0 : 0 ≤ s) (n : ℕ)
    (h1 : rnd64 (c + halve^[n] (max (rnd64 (|c| / 2)) s)) = c) (h2 : rnd64 (c - halve^[n] (max (rnd64 (|c| / 2)) s)) = c) :
    Frozen c ((List.replicate (n + 1) (Dbl.fin c)).foldl (Fame.update Dbl.arith) ⟨.fin 0, .fin s, .fin 0, 0⟩) := by
  rw [const_run hc hs hs0 n]
  have g0 : 0 ≤ max (rnd64 (|c| / 2)) s := le_max_of_le_right hs0
  have gr : |(|c| / 2)| ≤ dblMax := by
    rw [abs_of_nonneg (by positivity)]
    have := hc.2
    have := abs_nonneg c
    linarith
  have g1 : max (rnd64 (|c| / 2)) s ≤ dblMax :=
    max_le ((le_abs_self _).trans (rnd64_le_dblMax gr)) ((le_abs_self _).trans hs.2)
  have g2 : rnd64 (max (rnd64 (|c| / 2)) s) = max (rnd64 (|c| / 2)) s := by
    rcases max_choice (rnd64 (|c| / 2)) s with h | h <;> rw [h]
    · exact rnd64_idem _
    · exact hs.1
  obtain ⟨r0, r1⟩ := iter_range n g0 g1 g2
  exact ⟨by simp, rfl, hc.2, _, 0, rfl, rfl, r0, r1, iter_idem n g2, h1, h2, le_rfl, one_pos, .inl rfl⟩

end Fame

/-- 56 equal observations are enough unless they are tiny or smaller than twice the first step. -/
theorem Fame.frozen_56 {c s : ℚ} (hc : IsDouble c) (hs : IsDouble s) (hs0 : 0 ≤ s) (hcs : 2 * s ≤ |c|)
    (hc1 : pow2 (-1000) ≤ |c|) :
    Frozen c ((List.replicate 56 (Dbl.fin c)).foldl (Fame.update Dbl.arith) ⟨.fin 0, .fin s, .fin 0, 0⟩) := by
  have h0 : c ≠ 0 := by
    rintro rfl
    rw [abs_zero] at hc1
    exact absurd (pow2_pos (-1000)) (not_lt.2 hc1)
  have he : -1000 ≤ expo c := le_expo_of_le h0 hc1
  obtain ⟨-, e2⟩ := expo_spec h0
  rw [pow2_succ] at e2
  have a1 : rnd64 (|c| / 2) ≤ pow2 (expo c) :=
    (le_abs_self _).trans (rnd64_abs_le (by omega) (by rw [abs_of_nonneg (by positivity)]; linarith))
  have a2 : max (rnd64 (|c| / 2)) s ≤ pow2 (expo c - 55 + (55 : ℕ)) := by
    rw [show expo c - 55 + ((55 : ℕ) : ℤ) = expo c by push_cast; ring]
    exact max_le a1 (by linarith)
  obtain ⟨b1, b2⟩ := halves_le 55 (le_max_of_le_right hs0) a2 (by omega)
  refine frozen_const hc hs hs0 55 (rnd64_near hc.1 h0 he (by rwa [abs_of_nonneg b1])) ?_
  rw [sub_eq_add_neg]
  exact rnd64_near hc.1 h0 he (by rwa [abs_neg, abs_of_nonneg b1])

/-! ### C95 -/

/-- **C95**, the full claim (C24 for doubles): once the observations settle at a double `c` the estimate ends up within
`1 + |c| / 2` of it, whatever came before. Magnitudes are limited so that nothing overflows. -/
def C95_full : Prop :=
  ∀ (s e : ℚ) (f : Fame Dbl) (xs : List ℚ) (c : ℚ), IsDouble s → 0 < s → s ≤ 1 → IsDouble e →
    Fame.new Dbl.arith (.fin s) (.fin e) = .ok f → (∀ x ∈ xs, IsDouble x ∧ |x| ≤ pow2 900) → IsDouble c → |c| ≤ pow2 900 →
    ∃ N, ∀ n, N ≤ n → ∃ v : ℚ,
      ((xs.map Dbl.fin ++ List.replicate n (Dbl.fin c)).foldl (Fame.update Dbl.arith) f).evaluate = .fin v ∧ |c - v| ≤ 1 + |c| / 2

/-- **C95**: on doubles, with `epsilon = 0` (the default), 56 equal observations `c` at the start stop WindowedFAME for ever:
its result stays `c` whatever is observed afterwards. The first step may be anything up to `|c| / 2`. -/
theorem C95_freezes_partial (c s : ℚ) (hc : IsDouble c) (hs : IsDouble s) (hs0 : 0 ≤ s) (hcs : 2 * s ≤ |c|)
    (hc1 : pow2 (-1000) ≤ |c|) (f : Fame Dbl) (hf : Fame.new Dbl.arith (.fin s) (.fin 0) = .ok f) (ys : List Dbl) :
    ((List.replicate 56 (Dbl.fin c) ++ ys).foldl (Fame.update Dbl.arith) f).evaluate = .fin c := by
  rw [Fame.new_fin hf, List.foldl_append]
  exact ((Fame.frozen_56 hc hs hs0 hcs hc1).run ys).median

/-- The default step 0.1 as a double. -/
theorem isDouble_tenth : IsDouble (b64.lit (1 / 10)) := by decide +kernel

/-- **C95** is violated with the default parameters: 56 observations of 10, then 1000 for ever. -/
theorem C95_violated : ¬ C95_full := by
  intro h
  have d10 : IsDouble 10 := by decide +kernel
  have d1000 : IsDouble 1000 := by decide +kernel
  have hf : ∃ f, Fame.new Dbl.arith (.fin (b64.lit (1 / 10))) (.fin 0) = .ok f :=
    ⟨⟨.fin 0, .fin (b64.lit (1 / 10)), .fin 0, 0⟩, by decide +kernel⟩
  obtain ⟨f, hf⟩ := hf
  obtain ⟨N, hN⟩ := h (b64.lit (1 / 10)) 0 f (List.replicate 56 10) 1000 isDouble_tenth (by decide +kernel) (by decide +kernel)
    (by decide +kernel) hf (fun x hx => by
      rw [List.eq_of_mem_replicate hx]
      exact ⟨d10, by decide +kernel⟩) d1000 (by decide +kernel)
  obtain ⟨v, h1, h2⟩ := hN N le_rfl
  rw [List.map_replicate, C95_freezes_partial 10 _ d10 isDouble_tenth (by decide +kernel) (by decide +kernel)
    (by decide +kernel) f hf] at h1
  injection h1 with h1
  subst h1
  norm_num [abs_of_pos] at h2

/-- **C95**: whatever the first step and the observed double, 2100 equal observations at the start are enough. -/
theorem C95_freezes_all_partial (c s : ℚ) (hc : IsDouble c) (hs : IsDouble s) (hs0 : 0 ≤ s) (f : Fame Dbl)
    (hf : Fame.new Dbl.arith (.fin s) (.fin 0) = .ok f) (ys : List Dbl) :
    ((List.replicate 2100 (Dbl.fin c) ++ ys).foldl (Fame.update Dbl.arith) f).evaluate = .fin c := by
  rw [Fame.new_fin hf, List.foldl_append]
  have gr : |(|c| / 2)| ≤ dblMax := by
    rw [abs_of_nonneg (by positivity)]
    have := hc.2
    have := abs_nonneg c
    linarith
  have z : Fame.halve^[2099] (max (rnd64 (|c| / 2)) s) = 0 := Fame.halves_zero (le_max_of_le_right hs0)
    (max_le ((le_abs_self _).trans (rnd64_le_dblMax gr)) ((le_abs_self _).trans hs.2))
  exact ((Fame.frozen_const hc hs hs0 2099 (by rw [z, add_zero]; exact hc.1) (by rw [z, sub_zero]; exact hc.1)).run ys).median

/-- **C95**: any `epsilon`, once the step has underflowed to 0 the estimate never changes again. -/
theorem C95_dead_partial (f : Fame Dbl) (m e : ℚ) (h0 : f.historyCount ≠ 0) (hm : f.median = .fin m) (hmd : IsDouble m)
    (hs : f.stepSize = .fin 0) (he : f.epsilon = .fin e) (he0 : 0 ≤ e) (he1 : e < 1) (ys : List Dbl) :
    (ys.foldl (Fame.update Dbl.arith) f).evaluate = .fin m ∧ (ys.foldl (Fame.update Dbl.arith) f).stepSize = .fin 0 := by
  have hz : rnd64 m = m := hmd.1
  have fr : Fame.Frozen m f := ⟨h0, hm, hmd.2, 0, e, hs, he, le_rfl, by decide +kernel, rnd64_zero, by rwa [add_zero],
    by rwa [sub_zero], he0, he1, .inr rfl⟩
  refine ⟨(fr.run ys).median, ?_⟩
  clear fr
  induction ys using List.reverseRecOn with
  | nil => exact hs
  | append_singleton ys y ih =>
    rw [List.foldl_append, List.foldl_cons, List.foldl_nil]
    have fr : Fame.Frozen m f := ⟨h0, hm, hmd.2, 0, e, hs, he, le_rfl, by decide +kernel, rnd64_zero, by rwa [add_zero],
      by rwa [sub_zero], he0, he1, .inr rfl⟩
    obtain ⟨k0, -, -, s', e', t1, t2, -, -, -, -, -, u1, u2, -⟩ := fr.run ys
    generalize ys.foldl (Fame.update Dbl.arith) f = g at *
    rw [ih] at t1
    have g1 := Fame.grow_fin (e := e') le_rfl (by decide +kernel) rnd64_zero u1 u2 (.inr rfl)
    have g2 : Dbl.arith.div (.fin 0) (Dbl.arith.lit 2) = .fin 0 := by decide +kernel
    unfold Fame.update
    simp only [k0, if_false]
    split_ifs <;> simp_all

/-- Halve, grow by 9/8, rounding twice. -/
def Fame.shrink (s : ℚ) : ℚ := rnd64 (rnd64 (s / 2) * (9 / 8))

theorem Fame.shrink_mono : Monotone Fame.shrink := fun s t h =>
  rnd64_mono (by have := rnd64_mono (show s / 2 ≤ t / 2 by linarith); linarith)

/-- Two steps at least halve anything that is not subnormal. -/
theorem Fame.shrink_two {s : ℚ} {k : ℤ} (h0 : 0 ≤ s) (h1 : s ≤ pow2 (k + 1)) (hk : -1070 ≤ k) :
    0 ≤ Fame.shrink (Fame.shrink s) ∧ Fame.shrink (Fame.shrink s) ≤ pow2 k := by
  have p3 : pow2 k = 8 * pow2 (k - 3) := by
    have : pow2 k = pow2 3 * pow2 (k - 3) := by rw [← pow2_add]; congr 1; ring
    rw [this]; congr 1
  have p4 : pow2 (k - 3) = 2 * pow2 (k - 4) := by rw [← pow2_succ]; congr 1; ring
  have hp := pow2_pos (k - 4)
  have a1 : 0 ≤ rnd64 (s / 2) := rnd64_nonneg (by linarith)
  have a2 : rnd64 (s / 2) ≤ pow2 k := by
    rw [pow2_succ] at h1
    exact (le_abs_self _).trans (rnd64_abs_le (by omega) (by rw [abs_of_nonneg (by linarith)]; linarith))
  have b1 : 0 ≤ Fame.shrink s := rnd64_nonneg (by positivity)
  have b2 : Fame.shrink s ≤ (9 : ℕ) * pow2 (k - 3) :=
    (le_abs_self _).trans (rnd64_abs_le_mul (by norm_num) (by omega) (by
      rw [abs_of_nonneg (by positivity)]; push_cast; linarith))
  push_cast at b2
  have c1 : 0 ≤ rnd64 (Fame.shrink s / 2) := rnd64_nonneg (by linarith)
  have c2 : rnd64 (Fame.shrink s / 2) ≤ (9 : ℕ) * pow2 (k - 4) :=
    (le_abs_self _).trans (rnd64_abs_le_mul (by norm_num) (by omega) (by
      rw [abs_of_nonneg (by linarith)]; push_cast; linarith))
  push_cast at c2
  refine ⟨rnd64_nonneg (by positivity), (le_abs_self _).trans (rnd64_abs_le (by omega) ?_)⟩
  rw [abs_of_nonneg (by positivity)]
  linarith

theorem Fame.shrink_many (n : ℕ) {s : ℚ} (h0 : 0 ≤ s) (h1 : s ≤ pow2 (-1070 + n)) :
    0 ≤ Fame.shrink^[2 * n] s ∧ Fame.shrink^[2 * n] s ≤ pow2 (-1070) := by
  induction n generalizing s with
  | zero => exact ⟨h0, by simpa using h1⟩
  | succ n ih =>
    rw [show 2 * (n + 1) = 2 * n + 1 + 1 by ring, Function.iterate_succ_apply, Function.iterate_succ_apply]
    obtain ⟨a, b⟩ := Fame.shrink_two (k := -1070 + n) h0 (by push_cast at h1; rwa [← add_assoc] at h1) (by omega)
    exact ih a b

/-- Down to 0. -/
theorem Fame.shrink_zero {s : ℚ} (h0 : 0 ≤ s) (h1 : s ≤ pow2 901) : Fame.shrink^[3947] s ≤ 0 := by
  obtain ⟨a, b⟩ := Fame.shrink_many 1971 h0 (by simpa using h1)
  rw [show (3947 : ℕ) = 5 + 2 * 1971 from rfl, Function.iterate_add_apply]
  generalize Fame.shrink^[2 * 1971] s = t at a b
  have e : Fame.shrink^[5] (pow2 (-1070)) = 0 := by decide +kernel
  rw [← e]
  exact Fame.shrink_mono.iterate 5 b

/-- One more observation equal to the estimate. -/
theorem Fame.update_equal {c t e : ℚ} {n : ℕ} (hn : n ≠ 0) (h0 : 0 ≤ t) (h1 : t ≤ pow2 901) (he0 : 0 ≤ e) (he1 : e ≤ 1 / 8) :
    ∃ t' : ℚ, Fame.update Dbl.arith ⟨.fin c, .fin t, .fin e, n⟩ (.fin c) = ⟨.fin c, .fin t', .fin e, n + 1⟩ ∧ 0 ≤ t' ∧
      t' ≤ Fame.shrink t := by
  have hd : pow2 902 ≤ dblMax := by decide +kernel
  have hd2 : pow2 902 = 2 * pow2 901 := by rw [← pow2_succ]; rfl
  have h2 : (2 : ℚ) ≤ dblMax := by decide +kernel
  have g : Dbl.arith.add (Dbl.arith.lit 1) (.fin e) = .fin (rnd64 (1 + e)) := by
    rw [Fame.dbl_lit_one']
    exact Dbl.ofRat_fin (by rw [abs_of_nonneg (by linarith)]; linarith)
  have g0 : 0 ≤ rnd64 (1 + e) := rnd64_nonneg (by linarith)
  have g1 : rnd64 (1 + e) ≤ 9 / 8 := by
    have e98 : rnd64 (9 / 8) = 9 / 8 := by decide +kernel
    rw [← e98]
    exact rnd64_mono (by linarith)
  have e3 : Dbl.arith.lt (.fin c) (.fin c) = false := decide_eq_false (lt_irrefl c)
  have e4 : Dbl.arith.abs (Dbl.arith.sub (.fin c) (.fin c)) = .fin 0 := by
    show Dbl.abs (Dbl.ofRat (c + -c)) = _
    rw [add_neg_cancel]
    decide +kernel
  have e5 : Dbl.arith.lt (.fin 0) (.fin t) = decide (0 < t) := rfl
  have t1 : Dbl.arith.div (.fin t) (Dbl.arith.lit 2) = .fin (rnd64 (t / 2)) := by
    rw [Fame.dbl_lit_two]
    show Dbl.div (.fin t) (.fin 2) = _
    unfold Dbl.div
    simp only [show (2 : ℚ) ≠ 0 by norm_num, if_false]
    rw [Dbl.ofRat_fin (by rw [abs_of_nonneg (by linarith)]; linarith)]
  have r0 : 0 ≤ rnd64 (t / 2) := rnd64_nonneg (by linarith)
  have r1 : rnd64 (t / 2) ≤ pow2 901 :=
    (le_abs_self _).trans (rnd64_abs_le (by norm_num) (by rw [abs_of_nonneg (by linarith)]; linarith))
  have m0 : rnd64 (t / 2) * rnd64 (1 + e) ≤ rnd64 (t / 2) * (9 / 8) := mul_le_mul_of_nonneg_left g1 r0
  simp only [Fame.update, e3, e4, e5, hn, if_false, Bool.false_eq_true, ne_eq, not_false_eq_true, decide_true, Bool.true_and]
  by_cases h : 0 < t
  · simp only [decide_eq_true h, if_true, t1]
    refine ⟨rnd64 (rnd64 (t / 2) * rnd64 (1 + e)), ?_, rnd64_nonneg (by positivity), rnd64_mono m0⟩
    have : Dbl.arith.mul (.fin (rnd64 (t / 2))) (.fin (rnd64 (1 + e))) = .fin (rnd64 (rnd64 (t / 2) * rnd64 (1 + e))) :=
      Dbl.ofRat_fin (by rw [abs_of_nonneg (by positivity)]; linarith)
    rw [g, this]
  · have ht : t = 0 := le_antisymm (not_lt.1 h) h0
    subst ht
    refine ⟨0, ?_, le_rfl, by decide +kernel⟩
    have : Dbl.arith.mul (.fin 0) (.fin (rnd64 (1 + e))) = .fin 0 := by
      show Dbl.ofRat (0 * rnd64 (1 + e)) = _
      rw [zero_mul]
      decide +kernel
    simp [g, this]

theorem Fame.shrink_le {t : ℚ} (h0 : 0 ≤ t) (h1 : t ≤ pow2 901) : Fame.shrink t ≤ pow2 901 := by
  have hp := pow2_pos 900
  have e : pow2 901 = 2 * pow2 900 := by rw [← pow2_succ]; rfl
  have r0 : 0 ≤ rnd64 (t / 2) := rnd64_nonneg (by linarith)
  have r1 : rnd64 (t / 2) ≤ pow2 900 :=
    (le_abs_self _).trans (rnd64_abs_le (by norm_num) (by rw [abs_of_nonneg (by linarith)]; linarith))
  exact (le_abs_self _).trans (rnd64_abs_le (by norm_num) (by rw [abs_of_nonneg (by positivity)]; linarith))

theorem Fame.run_equal {c e : ℚ} (he0 : 0 ≤ e) (he1 : e ≤ 1 / 8) (n : ℕ) : ∀ {t : ℚ} {k : ℕ}, k ≠ 0 → 0 ≤ t → t ≤ pow2 901 →
    ∃ t' : ℚ, (List.replicate n (Dbl.fin c)).foldl (Fame.update Dbl.arith) ⟨.fin c, .fin t, .fin e, k⟩ =
      ⟨.fin c, .fin t', .fin e, k + n⟩ ∧ 0 ≤ t' ∧ t' ≤ Fame.shrink^[n] t := by
  induction n with
  | zero => exact fun {t k} _ h0 _ => ⟨t, rfl, h0, le_rfl⟩
  | succ n ih =>
    intro t k hk h0 h1
    obtain ⟨u, u1, u2, u3⟩ := Fame.update_equal (c := c) hk h0 h1 he0 he1
    obtain ⟨v, v1, v2, v3⟩ := ih (t := u) (k := k + 1) (by omega) u2 (u3.trans (Fame.shrink_le h0 h1))
    refine ⟨v, ?_, v2, v3.trans ?_⟩
    · clear h1 u3 v3
      rw [List.replicate_succ, List.foldl_cons, u1, v1, Nat.add_assoc, Nat.add_comm 1 n]
    · rw [Function.iterate_succ_apply]
      exact Fame.shrink_mono.iterate n u3

/-- **C95**: a positive `epsilon` does not help: up to 1/8, 3948 equal observations at the start stop the estimator for ever
(the step reaches exactly 0). -/
theorem C95_freezes_epsilon_partial (c s e : ℚ) (hc : IsDouble c) (hs0 : 0 ≤ s) (hc1 : |c| ≤ pow2 900)
    (hs1 : s ≤ pow2 900) (he0 : 0 ≤ e) (he1 : e ≤ 1 / 8) (f : Fame Dbl)
    (hf : Fame.new Dbl.arith (.fin s) (.fin e) = .ok f) (ys : List Dbl) :
    ((List.replicate 3948 (Dbl.fin c) ++ ys).foldl (Fame.update Dbl.arith) f).evaluate = .fin c := by
  have hf' := Fame.new_fin hf
  have first : ∃ t : ℚ, Fame.update Dbl.arith f (.fin c) = ⟨.fin c, .fin t, .fin e, 1⟩ ∧ 0 ≤ t ∧ t ≤ pow2 901 := by
    have p1 : pow2 901 = 2 * pow2 900 := by rw [← pow2_succ]; rfl
    have hd : pow2 901 ≤ dblMax := by decide +kernel
    have hp := pow2_pos 900
    have h2 : (2 : ℚ) ≤ dblMax := by decide +kernel
    have hca := abs_nonneg c
    have e1 : Dbl.arith.div (Dbl.arith.abs (.fin c)) (Dbl.arith.lit 2) = .fin (rnd64 (|c| / 2)) := by
      rw [Fame.dbl_lit_two]
      show Dbl.div (.fin |c|) (.fin 2) = _
      unfold Dbl.div
      simp only [show (2 : ℚ) ≠ 0 by norm_num, if_false]
      rw [Dbl.ofRat_fin (by rw [abs_of_nonneg (by linarith)]; linarith)]
    obtain ⟨w, e2, w0, w1⟩ : ∃ w : ℚ, Dbl.arith.max (.fin (rnd64 (|c| / 2))) (.fin s) = .fin w ∧ 0 ≤ w ∧ w ≤ pow2 900 := by
      unfold Arith.max
      split
      · exact ⟨s, rfl, hs0, hs1⟩
      · exact ⟨_, rfl, rnd64_nonneg (by linarith), (le_abs_self _).trans
          (rnd64_abs_le (by norm_num) (by rw [abs_of_nonneg (by linarith)]; linarith))⟩
    have e3 : Dbl.arith.lt (.fin c) (.fin c) = false := decide_eq_false (lt_irrefl c)
    have g : Dbl.arith.add (Dbl.arith.lit 1) (.fin e) = .fin (rnd64 (1 + e)) := by
      rw [Fame.dbl_lit_one']
      exact Dbl.ofRat_fin (by rw [abs_of_nonneg (by linarith)]; linarith)
    have g0 : 0 ≤ rnd64 (1 + e) := rnd64_nonneg (by linarith)
    have g1 : rnd64 (1 + e) ≤ 9 / 8 := by
      have e98 : rnd64 (9 / 8) = 9 / 8 := by decide +kernel
      rw [← e98]
      exact rnd64_mono (by linarith)
    have m0 : w * rnd64 (1 + e) ≤ w * (9 / 8) := mul_le_mul_of_nonneg_left g1 w0
    have m1 : |w * rnd64 (1 + e)| ≤ pow2 901 := by
      rw [abs_of_nonneg (by positivity)]; linarith
    refine ⟨rnd64 (w * rnd64 (1 + e)), ?_, rnd64_nonneg (by positivity), (le_abs_self _).trans (rnd64_abs_le (by norm_num) m1)⟩
    have : Dbl.arith.mul (.fin w) (.fin (rnd64 (1 + e))) = .fin (rnd64 (w * rnd64 (1 + e))) := Dbl.ofRat_fin (m1.trans hd)
    rw [hf']
    simp only [Fame.update, e1, e2, e3, g, this, if_true, Bool.false_eq_true, if_false, ne_eq, not_true_eq_false, decide_false,
      Bool.false_and]
  obtain ⟨t, t1, t2, t3⟩ := first
  obtain ⟨v, v1, v2, v3⟩ := Fame.run_equal (c := c) he0 he1 3947 one_ne_zero t2 t3
  have v0 : v = 0 := le_antisymm (v3.trans (Fame.shrink_zero t2 t3)) v2
  rw [List.foldl_append, List.replicate_succ, List.foldl_cons, t1, v1]
  exact (C95_dead_partial _ c e (by simp) rfl hc (by rw [v0]) rfl he0 (by linarith) ys).1

/-- **C95**: `epsilon = 0`: the estimate is stuck at `m` whatever is observed exactly when the step is too small to move it. -/
theorem C95_stuck_iff_partial (f : Fame Dbl) (m s : ℚ) (h0 : f.historyCount ≠ 0) (hm : f.median = .fin m) (hmd : IsDouble m)
    (hs : f.stepSize = .fin s) (hsd : IsDouble s) (hs0 : 0 ≤ s) (he : f.epsilon = .fin 0) :
    (∀ ys : List Dbl, (ys.foldl (Fame.update Dbl.arith) f).evaluate = .fin m) ↔ rnd64 (m + s) = m ∧ rnd64 (m - s) = m := by
  constructor
  · intro h
    have up := h [.inf false]
    have down := h [.inf true]
    rw [List.foldl_cons, List.foldl_nil] at up down
    have l1 : Dbl.arith.lt (.inf false) (.fin m) = false := rfl
    have l2 : Dbl.arith.lt (.fin m) (.inf false) = true := rfl
    have l3 : Dbl.arith.lt (.inf true) (.fin m) = true := rfl
    have u : (Fame.update Dbl.arith f (.inf false)).evaluate = Dbl.ofRat (m + s) := by
      unfold Fame.update
      simp only [h0, if_false, hm, hs, l1, l2, Bool.false_eq_true, if_true]
      split_ifs <;> rfl
    have d : (Fame.update Dbl.arith f (.inf true)).evaluate = Dbl.ofRat (m + -s) := by
      unfold Fame.update
      simp only [h0, if_false, hm, hs, l3, if_true]
      split_ifs <;> rfl
    rw [u] at up
    rw [d] at down
    have key : ∀ x, Dbl.ofRat x = .fin m → rnd64 x = m := fun x hx => by
      unfold Dbl.ofRat at hx
      dsimp only at hx
      split at hx
      · cases hx
      · injection hx
    exact ⟨key _ up, by rw [sub_eq_add_neg]; exact key _ down⟩
  · rintro ⟨h1, h2⟩ ys
    have fr : Fame.Frozen m f := ⟨h0, hm, hmd.2, s, 0, hs, he, hs0, (le_abs_self _).trans hsd.2, hsd.1, h1, h2, le_rfl,
      one_pos, .inl rfl⟩
    exact (fr.run ys).median

/-! ### StreamingMAD -/

theorem Mad.const_run {c s : ℚ} (hc : IsDouble c) (hs : IsDouble s) (hs0 : 0 ≤ s) (n : ℕ) :
    (List.replicate n (Dbl.fin c)).foldl (Mad.update Dbl.arith) ⟨⟨.fin 0, .fin s, .fin 0, 0⟩, ⟨.fin 0, .fin s, .fin 0, 0⟩, 0⟩ =
      ⟨(List.replicate n (Dbl.fin c)).foldl (Fame.update Dbl.arith) ⟨.fin 0, .fin s, .fin 0, 0⟩,
       (List.replicate n (Dbl.fin 0)).foldl (Fame.update Dbl.arith) ⟨.fin 0, .fin s, .fin 0, 0⟩, n⟩ := by
  induction n with
  | zero => rfl
  | succ n ih =>
    have e4 : Dbl.arith.abs (Dbl.arith.sub (.fin c) (.fin c)) = .fin 0 := by
      show Dbl.abs (Dbl.ofRat (c + -c)) = _
      rw [add_neg_cancel]
      decide +kernel
    have k := Fame.const_run hc hs hs0 n
    rw [List.replicate_succ', List.foldl_append, List.foldl_cons, List.foldl_nil] at k
    rw [List.replicate_succ', List.replicate_succ', List.foldl_append, List.foldl_append, List.foldl_append, ih]
    simp only [List.foldl_cons, List.foldl_nil, Mad.update, k, Fame.evaluate, e4]

/-- A StreamingMAD whose error median is stuck at 0 is stuck at 0. -/
theorem Mad.frozen_run (ys : List Dbl) : ∀ m : Mad Dbl, Fame.Frozen 0 m.errorMedian →
    (ys.foldl (Mad.update Dbl.arith) m).evaluate = .fin 0 := by
  induction ys with
  | nil => exact fun m h => h.median
  | cons y ys ih => exact fun m h => ih _ (h.update _)

/-- **C95**, StreamingMAD: after 1073 equal observations at the start the result is 0 for ever, whatever is observed. -/
theorem C95_mad_partial (c : ℚ) (hc : IsDouble c) (d : Mad Dbl) (hd : Mad.new Dbl.arith = .ok d) (ys : List Dbl) :
    ((List.replicate 1073 (Dbl.fin c) ++ ys).foldl (Mad.update Dbl.arith) d).evaluate = .fin 0 := by
  have e : d = ⟨⟨.fin 0, .fin (b64.lit (1 / 10)), .fin 0, 0⟩, ⟨.fin 0, .fin (b64.lit (1 / 10)), .fin 0, 0⟩, 0⟩ := by
    have : Mad.new Dbl.arith =
      .ok ⟨⟨.fin 0, .fin (b64.lit (1 / 10)), .fin 0, 0⟩, ⟨.fin 0, .fin (b64.lit (1 / 10)), .fin 0, 0⟩, 0⟩ := by decide +kernel
    rw [this] at hd
    injection hd with hd
    exact hd.symm
  have hs0 : 0 ≤ b64.lit (1 / 10) := by decide +kernel
  have z0 : IsDouble 0 := by decide +kernel
  have m0 : max (rnd64 (|(0 : ℚ)| / 2)) (b64.lit (1 / 10)) = b64.lit (1 / 10) := by decide +kernel
  have hb : b64.lit (1 / 10) ≤ pow2 (-1074 + (1071 : ℕ)) := by decide +kernel
  have z : Fame.halve^[1072] (b64.lit (1 / 10)) = 0 := by
    obtain ⟨a, b⟩ := Fame.halves_le 1071 hs0 hb le_rfl
    rw [show (1072 : ℕ) = 1071 + 1 from rfl, Function.iterate_succ_apply']
    have e : rnd64 (pow2 (-1074) / 2) = 0 := by decide +kernel
    refine le_antisymm ?_ (rnd64_nonneg (by linarith))
    rw [← e]
    exact rnd64_mono (by linarith)
  have fr := Fame.frozen_const z0 isDouble_tenth hs0 1072 (by rw [m0, z, add_zero]; exact rnd64_zero)
    (by rw [m0, z, sub_zero]; exact rnd64_zero)
  rw [List.foldl_append, e, Mad.const_run hc isDouble_tenth hs0]
  rw [show (1072 + 1 : ℕ) = 1073 from rfl] at fr
  generalize (List.replicate 1073 (Dbl.fin 0)).foldl (Fame.update Dbl.arith) _ = g at fr ⊢
  exact Mad.frozen_run ys _ fr

/-! ### Where doubles do follow: the step is not too small for the magnitudes involved -/

namespace Fame

/-- One observation of `c` with `epsilon = 0` on estimate and step, rounding every operation. -/
def fstep (c : ℚ) (ms : ℚ × ℚ) : ℚ × ℚ :=
  let m' := if c < ms.1 then rnd64 (ms.1 - ms.2) else if ms.1 < c then rnd64 (ms.1 + ms.2) else ms.1
  (m', if rnd64 |c - m'| < ms.2 then rnd64 (ms.2 / 2) else ms.2)

/-- Doubles of magnitudes for which nothing rounds by more than `pow2 (K - 51)`. -/
structure Inv (c : ℚ) (K : ℤ) (ms : ℚ × ℚ) : Prop where
  m : rnd64 ms.1 = ms.1
  s : rnd64 ms.2 = ms.2
  s0 : 0 ≤ ms.2
  s1 : ms.2 ≤ pow2 K
  d : |c - ms.1| ≤ 2 * pow2 K

theorem rnd64_half {s : ℚ} (hs : rnd64 s = s) (h1 : pow2 (-1021) ≤ s) : rnd64 (s / 2) = s / 2 := by
  have h0 : s ≠ 0 := by
    rintro rfl
    exact absurd (pow2_pos (-1021)) (not_lt.2 h1)
  have hp : 0 < s := (pow2_pos _).trans_le h1
  have he : -1021 ≤ expo s := le_expo_of_le h0 (by rwa [abs_of_pos hp])
  obtain ⟨-, e2⟩ := expo_spec h0
  rw [pow2_53] at e2
  have e : s = (rne (s / pow2 (expo s - 52)) : ℤ) * pow2 (expo s - 52) := by
    conv_lhs => rw [← hs, rnd64, if_neg h0, max_eq_left (by omega)]
    rfl
  generalize rne (s / pow2 (expo s - 52)) = n at e
  have hpp := pow2_pos (expo s - 52)
  have hn : |n| ≤ 2 ^ 53 := by
    rw [e, abs_mul] at e2
    have hx : expo ((n : ℚ) * pow2 (expo s - 52)) = expo s := by rw [← e]
    rw [hx, abs_of_pos hpp] at e2
    have h1 : |(n : ℚ)| < (2 ^ 53 : ℤ) := lt_of_mul_lt_mul_right e2 hpp.le
    have h2 : |n| < 2 ^ 53 := by exact_mod_cast h1
    exact h2.le
  have e' : s / 2 = (n : ℤ) * pow2 (expo s - 53) := by
    have : pow2 (expo s - 52) = 2 * pow2 (expo s - 53) := by rw [← pow2_succ]; congr 1; ring
    rw [this] at e
    linarith
  rw [e']
  exact rnd64_repr n _ hn (by omega)

section follow

variable {c : ℚ} {K : ℤ} {ms : ℚ × ℚ}

/-- The error of one rounding. -/
theorem Inv.err (hK : -1000 ≤ K) {y : ℚ} (hy : |y| ≤ 4 * pow2 K) : |rnd64 y - y| ≤ pow2 (K - 51) := by
  have e : pow2 (K + 2) = 4 * pow2 K := by
    rw [show K + 2 = K + 1 + 1 by ring, pow2_succ, pow2_succ]; ring
  have := rnd64_err (x := y) (k := K + 2) (by omega) (by rwa [e])
  rwa [show K + 2 - 53 = K - 51 by ring] at this

/-- The distance after the move. -/
theorem Inv.move (hK : -1000 ≤ K) (hc1 : |c| ≤ pow2 K) (h : Inv c K ms) :
    |c - (fstep c ms).1| ≤ max |c - ms.1| (ms.2 + pow2 (K - 51)) ∧
      (ms.1 ≠ c → |c - (fstep c ms).1| ≤ |(|c - ms.1| - ms.2)| + pow2 (K - 51)) ∧ (ms.1 = c → (fstep c ms).1 = c) := by
  obtain ⟨m, s⟩ := ms
  obtain ⟨h1, h2, h3, h4, h5⟩ := h
  simp only at h1 h2 h3 h4 h5
  have hm : |m| ≤ 3 * pow2 K := by
    have : m = c - (c - m) := by ring
    rw [this]
    exact (abs_sub _ _).trans (by linarith)
  have ub : |m + s| ≤ 4 * pow2 K := (abs_add_le _ _).trans (by rw [abs_of_nonneg h3]; linarith)
  have lb : |m - s| ≤ 4 * pow2 K := (abs_sub _ _).trans (by rw [abs_of_nonneg h3]; linarith)
  have ue := abs_le.1 (Inv.err hK ub)
  have le := abs_le.1 (Inv.err hK lb)
  have hη := pow2_pos (K - 51)
  rcases lt_trichotomy c m with g | g | g
  · -- above: move down
    have e : (fstep c (m, s)).1 = rnd64 (m - s) := by simp [fstep, g]
    rw [e]
    have mono1 : rnd64 (m - s) ≤ m := by
      have := rnd64_mono (show m - s ≤ m by linarith)
      rwa [h1] at this
    have ea : |c - m| = m - c := by rw [abs_sub_comm, abs_of_pos (by linarith)]
    refine ⟨?_, fun _ => ?_, fun h => absurd h g.ne'⟩
    · rw [ea, abs_le]
      constructor
      · have := le_max_left (m - c) (s + pow2 (K - 51)); linarith
      · have := le_max_right (m - c) (s + pow2 (K - 51)); linarith
    · rw [ea]
      have : c - rnd64 (m - s) = -((m - c) - s) - (rnd64 (m - s) - (m - s)) := by ring
      rw [this]
      refine (abs_sub _ _).trans ?_
      rw [abs_neg]
      have := Inv.err hK lb
      linarith
  · subst g
    have e : (fstep c (c, s)).1 = c := by simp [fstep]
    rw [e, sub_self, abs_zero]
    exact ⟨le_max_left _ _, fun h => absurd rfl h, fun _ => rfl⟩
  · have e : (fstep c (m, s)).1 = rnd64 (m + s) := by simp [fstep, g, not_lt.2 g.le]
    rw [e]
    have mono1 : m ≤ rnd64 (m + s) := by
      have := rnd64_mono (show m ≤ m + s by linarith)
      rwa [h1] at this
    have ea : |c - m| = c - m := abs_of_pos (by linarith)
    refine ⟨?_, fun _ => ?_, fun h => absurd h g.ne⟩
    · rw [ea, abs_le]
      constructor
      · have := le_max_right (c - m) (s + pow2 (K - 51)); linarith
      · have := le_max_left (c - m) (s + pow2 (K - 51)); linarith
    · rw [ea]
      have : c - rnd64 (m + s) = ((c - m) - s) - (rnd64 (m + s) - (m + s)) := by ring
      rw [this]
      refine (abs_sub _ _).trans ?_
      have := Inv.err hK ub
      linarith

theorem fstep_snd_le (hs : rnd64 ms.2 = ms.2) (h0 : 0 ≤ ms.2) :
    rnd64 (fstep c ms).2 = (fstep c ms).2 ∧ 0 ≤ (fstep c ms).2 ∧ (fstep c ms).2 ≤ ms.2 := by
  simp only [fstep]
  have hm := rnd64_mono (show ms.2 / 2 ≤ ms.2 by linarith)
  rw [hs] at hm
  by_cases h : rnd64 |c - if c < ms.1 then rnd64 (ms.1 - ms.2) else if ms.1 < c then rnd64 (ms.1 + ms.2) else ms.1| < ms.2
  · rw [if_pos h]
    exact ⟨rnd64_idem _, rnd64_nonneg (by linarith), hm⟩
  · rw [if_neg h]
    exact ⟨hs, h0, le_rfl⟩

theorem Inv.next (hK : -1000 ≤ K) (hc1 : |c| ≤ pow2 K) (h : Inv c K ms) : Inv c K (fstep c ms) := by
  have mv := (h.move hK hc1).1
  obtain ⟨a1, a2, a3⟩ := fstep_snd_le (c := c) h.s h.s0
  refine ⟨?_, a1, a2, a3.trans h.s1, mv.trans (max_le h.d ?_)⟩
  · simp only [fstep]
    split
    · exact rnd64_idem _
    · split
      · exact rnd64_idem _
      · exact h.m
  · have : pow2 (K - 51) ≤ pow2 K := pow2_le.2 (by omega)
    have := h.s1
    linarith

theorem Inv.iter (hK : -1000 ≤ K) (hc1 : |c| ≤ pow2 K) (h : Inv c K ms) (n : ℕ) : Inv c K ((fstep c)^[n] ms) := by
  induction n with
  | zero => exact h
  | succ n ih => rw [Function.iterate_succ_apply']; exact ih.next hK hc1

/-- What a step that is not halved tells about the distance. -/
theorem Inv.step_cases (hK : -900 ≤ K) (hc1 : |c| ≤ pow2 K) (h : Inv c K ms) (hs : 4 * pow2 (K - 51) ≤ ms.2) :
    ((fstep c ms).2 = ms.2 / 2 ∧ |c - (fstep c ms).1| < ms.2) ∨
      ((fstep c ms).2 = ms.2 ∧ ms.2 - pow2 (K - 51) ≤ |c - (fstep c ms).1|) := by
  have nx := h.next (by omega) hc1
  have e : (fstep c ms).2 = if rnd64 |c - (fstep c ms).1| < ms.2 then rnd64 (ms.2 / 2) else ms.2 := rfl
  rw [e]
  split
  · rename_i g
    left
    have hp : pow2 (-1021) ≤ ms.2 := by
      have h1 : pow2 (-1021) ≤ pow2 (K - 51) := pow2_le.2 (by omega)
      have h2 := pow2_pos (K - 51)
      linarith
    refine ⟨rnd64_half h.s hp, ?_⟩
    by_contra hcon
    have := rnd64_mono (not_lt.1 hcon)
    rw [h.s] at this
    linarith
  · rename_i g
    right
    have b : |(|c - (fstep c ms).1|)| ≤ 4 * pow2 K := by
      rw [abs_abs]
      have := nx.d
      have := pow2_pos K
      linarith
    have := abs_le.1 (Inv.err (by omega) b)
    exact ⟨rfl, by linarith⟩

/-- The step is halved sooner or later, and then the distance is below the old step. -/
theorem Inv.halved (hK : -900 ≤ K) (hc1 : |c| ≤ pow2 K) (j : ℕ) : ∀ {ms : ℚ × ℚ}, Inv c K ms → 4 * pow2 (K - 51) ≤ ms.2 →
    |c - ms.1| ≤ ms.2 + pow2 (K - 51) + j * (3 / 4 * ms.2) →
    ∃ n, ((fstep c)^[n] ms).2 = ms.2 / 2 ∧ |c - ((fstep c)^[n] ms).1| < ms.2 := by
  have hη := pow2_pos (K - 51)
  induction j with
  | zero =>
    intro ms h hs hd
    rw [Nat.cast_zero, zero_mul, add_zero] at hd
    rcases h.step_cases hK hc1 hs with g | ⟨g1, g2⟩
    · exact ⟨1, g⟩
    obtain ⟨-, m2, m3⟩ := h.move (by omega) hc1
    have hne : ms.1 ≠ c := fun e => by
      rw [m3 e, sub_self, abs_zero] at g2
      linarith
    have m2 := m2 hne
    have hlt : |c - ms.1| < ms.2 := by
      by_contra hc
      rw [abs_of_nonneg (show 0 ≤ |c - ms.1| - ms.2 by linarith [not_lt.1 hc])] at m2
      linarith [not_lt.1 hc]
    have d1 : |c - (fstep c ms).1| ≤ ms.2 + pow2 (K - 51) := by
      rw [abs_of_neg (show |c - ms.1| - ms.2 < 0 by linarith)] at m2
      have := abs_nonneg (c - ms.1)
      linarith
    have nx := h.next (by omega) hc1
    rcases nx.step_cases hK hc1 (by rw [g1]; exact hs) with g | ⟨k1, k2⟩
    · rw [g1] at g
      exact ⟨2, g⟩
    · exfalso
      obtain ⟨-, n2, n3⟩ := nx.move (by omega) hc1
      rw [g1] at k2 n2
      have hne : (fstep c ms).1 ≠ c := fun e => by
        rw [n3 e, sub_self, abs_zero] at k2
        linarith
      have n2 := n2 hne
      have : |(|c - (fstep c ms).1| - ms.2)| ≤ pow2 (K - 51) := abs_le.2 ⟨by linarith, by linarith⟩
      linarith
  | succ j ih =>
    intro ms h hs hd
    rcases h.step_cases hK hc1 hs with g | ⟨g1, g2⟩
    · exact ⟨1, g⟩
    obtain ⟨-, m2, m3⟩ := h.move (by omega) hc1
    have hne : ms.1 ≠ c := fun e => by
      rw [m3 e, sub_self, abs_zero] at g2
      linarith
    have m2 := m2 hne
    have nx := h.next (by omega) hc1
    have hj : (0 : ℚ) ≤ j * (3 / 4 * ms.2) := by
      have := h.s0
      positivity
    obtain ⟨n, n1, n2⟩ := ih nx (by rw [g1]; exact hs) (by
      rw [g1]
      push_cast at hd
      rcases le_total ms.2 |c - ms.1| with hle | hle
      · rw [abs_of_nonneg (show 0 ≤ |c - ms.1| - ms.2 by linarith)] at m2
        linarith
      · rw [abs_of_nonpos (show |c - ms.1| - ms.2 ≤ 0 by linarith)] at m2
        have := abs_nonneg (c - ms.1)
        linarith)
    rw [g1] at n1 n2
    exact ⟨n + 1, by rw [Function.iterate_succ_apply]; exact ⟨n1, n2⟩⟩

/-- The step drains to a few roundings, with the estimate close. -/
theorem Inv.drains (hK : -900 ≤ K) (hc1 : |c| ≤ pow2 K) (i : ℕ) : ∀ {ms : ℚ × ℚ}, Inv c K ms → 4 * pow2 (K - 51) ≤ ms.2 →
    ms.2 < 4 * pow2 (K - 51) * 2 ^ (i + 1) →
    ∃ n, ((fstep c)^[n] ms).2 < 4 * pow2 (K - 51) ∧ |c - ((fstep c)^[n] ms).1| ≤ 8 * pow2 (K - 51) := by
  have hη := pow2_pos (K - 51)
  have start : ∀ {ms : ℚ × ℚ}, Inv c K ms → 4 * pow2 (K - 51) ≤ ms.2 →
      ∃ n, ((fstep c)^[n] ms).2 = ms.2 / 2 ∧ |c - ((fstep c)^[n] ms).1| < ms.2 := by
    intro ms h hs
    have hp : 0 < 3 / 4 * ms.2 := by linarith
    obtain ⟨j, hj⟩ := exists_nat_gt (|c - ms.1| / (3 / 4 * ms.2))
    rw [div_lt_iff₀ hp] at hj
    exact Inv.halved hK hc1 j h hs (by linarith)
  induction i with
  | zero =>
    intro ms h hs hi
    rw [zero_add, pow_one] at hi
    obtain ⟨n, n1, n2⟩ := start h hs
    exact ⟨n, by linarith, by linarith⟩
  | succ i ih =>
    intro ms h hs hi
    obtain ⟨n, n1, n2⟩ := start h hs
    rcases lt_or_ge (ms.2 / 2) (4 * pow2 (K - 51)) with g | g
    · exact ⟨n, by linarith, by linarith⟩
    · obtain ⟨n', n1', n2'⟩ := ih (h.iter (by omega) hc1 n) (by rw [n1]; exact g) (by
        rw [n1]
        rw [pow_succ] at hi
        linarith)
      refine ⟨n' + n, ?_⟩
      rw [Function.iterate_add_apply]
      exact ⟨n1', n2'⟩

/-- Close it stays. -/
theorem Inv.stays (hK : -900 ≤ K) (hc1 : |c| ≤ pow2 K) (h : Inv c K ms) (hs : ms.2 < 4 * pow2 (K - 51))
    (hd : |c - ms.1| ≤ 8 * pow2 (K - 51)) (n : ℕ) : |c - ((fstep c)^[n] ms).1| ≤ 8 * pow2 (K - 51) := by
  have hη := pow2_pos (K - 51)
  suffices ((fstep c)^[n] ms).2 < 4 * pow2 (K - 51) ∧ |c - ((fstep c)^[n] ms).1| ≤ 8 * pow2 (K - 51) from this.2
  induction n with
  | zero => exact ⟨hs, hd⟩
  | succ n ih =>
    have hn := h.iter (by omega) hc1 n
    rw [Function.iterate_succ_apply']
    exact ⟨(fstep_snd_le hn.s hn.s0).2.2.trans_lt ih.1, (hn.move (by omega) hc1).1.trans (max_le ih.2 (by linarith [ih.1]))⟩

/-- On doubles the update is `fstep`. -/
theorem Inv.update (hK : -900 ≤ K) (hK1 : K ≤ 1000) (hc1 : |c| ≤ pow2 K) (h : Inv c K ms) {k : ℕ} (hk : k ≠ 0) :
    Fame.update Dbl.arith ⟨.fin ms.1, .fin ms.2, .fin 0, k⟩ (.fin c) =
      ⟨.fin (fstep c ms).1, .fin (fstep c ms).2, .fin 0, k + 1⟩ := by
  have nx := h.next (by omega) hc1
  have hd : 4 * pow2 K ≤ dblMax := by
    have e : pow2 (K + 2) = 4 * pow2 K := by
      rw [show K + 2 = K + 1 + 1 by ring, pow2_succ, pow2_succ]; ring
    have : pow2 1002 ≤ dblMax := by decide +kernel
    rw [← e]
    exact (pow2_le.2 (by omega)).trans this
  clear hK1
  have hp := pow2_pos K
  have h3 := h.s0
  have h4 := h.s1
  have hm : |ms.1| ≤ 3 * pow2 K := by
    have : ms.1 = c - (c - ms.1) := by ring
    rw [this]
    exact (abs_sub _ _).trans (by linarith [h.d])
  have ub : |ms.1 + ms.2| ≤ dblMax := (abs_add_le _ _).trans (by rw [abs_of_nonneg h3]; linarith)
  have lb : |ms.1 + -ms.2| ≤ dblMax := (abs_add_le _ _).trans (by rw [abs_neg, abs_of_nonneg h3]; linarith)
  have up : Dbl.arith.add (.fin ms.1) (.fin ms.2) = .fin (rnd64 (ms.1 + ms.2)) := Dbl.ofRat_fin ub
  have dn : Dbl.arith.sub (.fin ms.1) (.fin ms.2) = .fin (rnd64 (ms.1 - ms.2)) := by
    rw [sub_eq_add_neg]; exact Dbl.ofRat_fin lb
  have l1 : Dbl.arith.lt (.fin c) (.fin ms.1) = decide (c < ms.1) := rfl
  have l2 : Dbl.arith.lt (.fin ms.1) (.fin c) = decide (ms.1 < c) := rfl
  have sb : Dbl.arith.abs (Dbl.arith.sub (.fin c) (.fin (fstep c ms).1)) = .fin (rnd64 |c - (fstep c ms).1|) := by
    have : Dbl.arith.sub (.fin c) (.fin (fstep c ms).1) = .fin (rnd64 (c - (fstep c ms).1)) := by
      rw [sub_eq_add_neg]
      exact Dbl.ofRat_fin (by rw [← sub_eq_add_neg]; linarith [nx.d])
    rw [this]
    show Dbl.fin |rnd64 (c - (fstep c ms).1)| = _
    congr 1
    rcases le_total 0 (c - (fstep c ms).1) with g | g
    · rw [abs_of_nonneg g, abs_of_nonneg (rnd64_nonneg g)]
    · rw [abs_of_nonpos g, rnd64_neg, abs_of_nonpos]
      have := rnd64_mono g
      rwa [rnd64_zero] at this
  have l3 : Dbl.arith.lt (.fin (rnd64 |c - (fstep c ms).1|)) (.fin ms.2) = decide (rnd64 |c - (fstep c ms).1| < ms.2) := rfl
  obtain ⟨t1, t2, t3⟩ := half_step_fin h3 (by linarith) h.s
  have key : (if Dbl.arith.lt (.fin c) (.fin ms.1) then (⟨Dbl.arith.sub (.fin ms.1) (.fin ms.2), .fin ms.2, .fin 0, k⟩ : Fame Dbl)
      else if Dbl.arith.lt (.fin ms.1) (.fin c) then ⟨Dbl.arith.add (.fin ms.1) (.fin ms.2), .fin ms.2, .fin 0, k⟩
      else ⟨.fin ms.1, .fin ms.2, .fin 0, k⟩) = ⟨.fin (fstep c ms).1, .fin ms.2, .fin 0, k⟩ := by
    rw [l1, l2, up, dn]
    simp only [fstep, decide_eq_true_eq]
    split_ifs <;> rfl
  unfold Fame.update
  simp only [hk, if_false, key, sb, l3]
  have e : (fstep c ms).2 = if rnd64 |c - (fstep c ms).1| < ms.2 then rnd64 (ms.2 / 2) else ms.2 := rfl
  rw [e]
  by_cases g : rnd64 |c - (fstep c ms).1| < ms.2
  · simp only [g, decide_true, if_true, t1, ne_eq, hk, not_false_eq_true, Bool.true_and]
    rw [grow_fin t2 (t3.trans (by linarith)) (rnd64_idem _) le_rfl one_pos (.inl rfl)]
  · simp only [g, decide_false, if_false, Bool.and_false, Bool.false_eq_true]
    rw [grow_fin h3 (by linarith) h.s le_rfl one_pos (.inl rfl)]

theorem Inv.run (hK : -900 ≤ K) (hK1 : K ≤ 1000) (hc1 : |c| ≤ pow2 K) (h : Inv c K ms) {k : ℕ} (hk : k ≠ 0) (n : ℕ) :
    (List.replicate n (Dbl.fin c)).foldl (Fame.update Dbl.arith) ⟨.fin ms.1, .fin ms.2, .fin 0, k⟩ =
      ⟨.fin ((fstep c)^[n] ms).1, .fin ((fstep c)^[n] ms).2, .fin 0, k + n⟩ := by
  induction n with
  | zero => rfl
  | succ n ih =>
    rw [List.replicate_succ', List.foldl_append, ih, List.foldl_cons, List.foldl_nil,
      (h.iter (by omega) hc1 n).update hK hK1 hc1 (by omega), Function.iterate_succ_apply', Nat.add_assoc]

end follow

end Fame

/-- **C95**: where it holds. With `epsilon = 0`, if when the stream settles at `c` the magnitudes of the estimate, of `c` and of
the step are at most `2^K` and the step is at least `2^(K-49)`, the estimate ends up within `2^(K-48)` of `c` and stays there. -/
theorem C95_follows_partial (K : ℤ) (hK : -900 ≤ K) (hK1 : K ≤ 1000) (f : Fame Dbl) (m s c : ℚ) (h0 : f.historyCount ≠ 0)
    (hm : f.median = .fin m) (hmd : IsDouble m) (hs : f.stepSize = .fin s) (hsd : IsDouble s) (he : f.epsilon = .fin 0)
    (hm1 : |m| ≤ pow2 K) (hc1 : |c| ≤ pow2 K) (hs1 : s ≤ pow2 K) (hs2 : pow2 (K - 49) ≤ s) :
    ∃ N, ∀ n, N ≤ n → ∃ v : ℚ,
      ((List.replicate n (Dbl.fin c)).foldl (Fame.update Dbl.arith) f).evaluate = .fin v ∧ |c - v| ≤ pow2 (K - 48) := by
  have e1 : pow2 (K - 49) = 4 * pow2 (K - 51) := by
    rw [show K - 49 = K - 51 + 1 + 1 by ring, pow2_succ, pow2_succ]; ring
  have e2 : pow2 (K - 48) = 8 * pow2 (K - 51) := by
    rw [show K - 48 = K - 49 + 1 by ring, pow2_succ, e1]; ring
  have hη := pow2_pos (K - 51)
  have inv : Fame.Inv c K (m, s) := ⟨hmd.1, hsd.1, by simp only; linarith, hs1, (abs_sub _ _).trans (by simp only; linarith)⟩
  rw [e1] at hs2
  obtain ⟨i, hi⟩ : ∃ i : ℕ, s < 4 * pow2 (K - 51) * 2 ^ (i + 1) := by
    obtain ⟨i, hi⟩ := pow_unbounded_of_one_lt (s / (4 * pow2 (K - 51))) (one_lt_two (α := ℚ))
    rw [div_lt_iff₀ (by linarith)] at hi
    refine ⟨i, ?_⟩
    have : (0 : ℚ) < 2 ^ i * (4 * pow2 (K - 51)) := by positivity
    rw [pow_succ]
    linarith
  obtain ⟨N, n1, n2⟩ := Fame.Inv.drains hK hc1 i inv hs2 hi
  refine ⟨N, fun n hn => ?_⟩
  obtain ⟨j, rfl⟩ : ∃ j, n = j + N := ⟨n - N, by omega⟩
  have ef : f = ⟨.fin m, .fin s, .fin 0, f.historyCount⟩ := by
    obtain ⟨a, b, d, k⟩ := f
    simp only at hm hs he
    rw [hm, hs, he]
  rw [ef, inv.run hK hK1 hc1 h0 (j + N), e2]
  refine ⟨_, rfl, ?_⟩
  rw [Function.iterate_add_apply]
  exact (inv.iter (by omega) hc1 N).stays hK hc1 n1 n2 j

/-! ### Concrete cases -/

/-- Estimate 10 with step 5: a stream that settles at 1000 is reached to within 2^-38. -/
example : ∃ N, ∀ n, N ≤ n → ∃ v : ℚ, ((List.replicate n (Dbl.fin 1000)).foldl (Fame.update Dbl.arith)
    ⟨.fin 10, .fin 5, .fin 0, 1⟩).evaluate = .fin v ∧ |1000 - v| ≤ pow2 (10 - 48) :=
  C95_follows_partial 10 (by norm_num) (by norm_num) _ 10 5 1000 (by simp) rfl (by decide +kernel) rfl (by decide +kernel) rfl
    (by decide +kernel) (by decide +kernel) (by decide +kernel) (by decide +kernel)


/-- 56 observations of 10, then a million of 1000, NaN and an infinity: still 10. -/
example (f : Fame Dbl) (hf : Fame.new Dbl.arith (.fin (b64.lit (1 / 10))) (.fin 0) = .ok f) :
    ((List.replicate 56 (Dbl.fin 10) ++ (List.replicate 1000000 (Dbl.fin 1000) ++ [Dbl.nan, Dbl.inf true])).foldl
      (Fame.update Dbl.arith) f).evaluate = .fin 10 :=
  C95_freezes_partial 10 _ (by decide +kernel) isDouble_tenth (by decide +kernel) (by decide +kernel) (by decide +kernel) f hf _

/-- 2100 observations of 1/8 with a first step of 1000, then other values. -/
example (f : Fame Dbl) (hf : Fame.new Dbl.arith (.fin 1000) (.fin 0) = .ok f) :
    ((List.replicate 2100 (Dbl.fin (1 / 8)) ++ [Dbl.fin 5, Dbl.fin (-7)]).foldl (Fame.update Dbl.arith) f).evaluate = .fin (1 / 8) :=
  C95_freezes_all_partial _ _ (by decide +kernel) (by decide +kernel) (by decide +kernel) f hf _

/-- `epsilon` 1/8: 3948 observations of 10, then others. -/
example (f : Fame Dbl) (hf : Fame.new Dbl.arith (.fin (b64.lit (1 / 10))) (.fin (1 / 8)) = .ok f) :
    ((List.replicate 3948 (Dbl.fin 10) ++ [Dbl.fin 5, Dbl.fin 3000]).foldl (Fame.update Dbl.arith) f).evaluate = .fin 10 :=
  C95_freezes_epsilon_partial 10 _ (1 / 8) (by decide +kernel) (by decide +kernel) (by decide +kernel)
    (by decide +kernel) (by norm_num) (by norm_num) f hf _

/-- A step that has underflowed, any `epsilon`. -/
example (ys : List Dbl) : (ys.foldl (Fame.update Dbl.arith) ⟨.fin 10, .fin 0, .fin (1 / 8), 1350⟩).evaluate = .fin 10 :=
  (C95_dead_partial _ 10 (1 / 8) (by simp) rfl (by decide +kernel) rfl rfl (by norm_num) (by norm_num) ys).1

/-- Estimate 1: a step of 2^-54 is stuck. A step of 2^-53 is not, although `1 + 2^-53` rounds back to 1. -/
example : rnd64 (1 + pow2 (-54)) = 1 ∧ rnd64 (1 - pow2 (-54)) = 1 ∧ rnd64 (1 + pow2 (-53)) = 1 ∧ rnd64 (1 - pow2 (-53)) ≠ 1 := by
  decide +kernel

/-- Both sides of the criterion: with estimate 1 the step 2^-54 is stuck for ever, the step 2^-53 is not. -/
example : (∀ ys : List Dbl, (ys.foldl (Fame.update Dbl.arith) ⟨.fin 1, .fin (pow2 (-54)), .fin 0, 1⟩).evaluate = .fin 1) ∧
    ¬ ∀ ys : List Dbl, (ys.foldl (Fame.update Dbl.arith) ⟨.fin 1, .fin (pow2 (-53)), .fin 0, 1⟩).evaluate = .fin 1 := by
  rw [C95_stuck_iff_partial _ 1 _ (by simp) rfl (by decide +kernel) rfl (by decide +kernel) (by decide +kernel) rfl,
    C95_stuck_iff_partial _ 1 _ (by simp) rfl (by decide +kernel) rfl (by decide +kernel) (by decide +kernel) rfl]
  decide +kernel

/-- Latencies of 10 then a spread of values: the deviation is reported as 0. -/
example (d : Mad Dbl) (hd : Mad.new Dbl.arith = .ok d) :
    ((List.replicate 1073 (Dbl.fin 10) ++ [Dbl.fin 50, Dbl.fin (-80), Dbl.fin 1000]).foldl (Mad.update Dbl.arith) d).evaluate = .fin 0 :=
  C95_mad_partial 10 (by decide +kernel) d hd _

end KML
