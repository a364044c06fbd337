import Verif.Props.UnitTests
import Verif.Props.EntropyError

/-! # C93: the unit tests of StreamingEntropy that do not overflow the window, on doubles -/

namespace KML

open Spec

theorem expo_two {x : ℚ} (h2 : 2 ≤ x) (h3 : x ≤ 3) : expo x = 1 := by
  have h0 : x ≠ 0 := by linarith
  obtain ⟨e1, e2⟩ := expo_spec h0
  rw [abs_of_pos (by linarith)] at e1 e2
  have a : expo x < 2 := by
    by_contra h
    have : pow2 2 ≤ pow2 (expo x) := pow2_le.2 (by omega)
    have : pow2 2 = 4 := by decide +kernel
    linarith
  have b : 0 < expo x := by
    by_contra h
    have : pow2 (expo x + 1) ≤ pow2 1 := pow2_le.2 (by omega)
    have : pow2 1 = 2 := by decide +kernel
    linarith
  omega

/-- Between 2 and 3 the floats are the multiples of `2^-22`. -/
theorem narrow_two {x : ℚ} (h2 : 2 ≤ x) (h3 : x ≤ 3) : ∃ m : ℤ, (Dbl.fin x).narrow = .fin (m * pow2 (-22)) ∧
    floatOrd (m * pow2 (-22)) = 127 * 2 ^ 23 + m ∧ |(m : ℚ) - x * 2 ^ 22| ≤ 1 / 2 := by
  have hp : pow2 (-22) = 1 / 2 ^ 22 := by decide +kernel
  have he : rnd32 x = rndAt (-22) x := by
    unfold rnd32
    rw [if_neg (by linarith), expo_two h2 h3]
    norm_num
  have err := rndAt_err (-22) x
  have e2 : rndAt (-22) x = (rne (x / pow2 (-22)) : ℚ) * pow2 (-22) := rfl
  generalize rne (x / pow2 (-22)) = m at e2
  rw [e2, hp] at err
  have hm : |(m : ℚ) - x * 2 ^ 22| ≤ 1 / 2 := by
    have : (m : ℚ) * (1 / 2 ^ 22) - x = ((m : ℚ) - x * 2 ^ 22) * (1 / 2 ^ 22) := by ring
    rw [this, abs_mul, abs_of_pos (by positivity : (0 : ℚ) < 1 / 2 ^ 22)] at err
    norm_num at err ⊢
    linarith
  obtain ⟨m1, m2⟩ := abs_le.1 hm
  have m3 : (2 ^ 23 : ℤ) ≤ m := by
    by_contra h
    have : (m : ℚ) ≤ 2 ^ 23 - 1 := by exact_mod_cast (by omega : m ≤ 2 ^ 23 - 1)
    norm_num at *
    linarith
  have m4 : m ≤ 3 * 2 ^ 22 := by
    by_contra h
    have : (3 * 2 ^ 22 + 1 : ℚ) ≤ m := by exact_mod_cast (by omega : 3 * 2 ^ 22 + 1 ≤ m)
    norm_num at *
    linarith
  have m3' : (2 ^ 23 : ℚ) ≤ m := by exact_mod_cast m3
  have m4' : (m : ℚ) ≤ 3 * 2 ^ 22 := by exact_mod_cast m4
  have y2 : 2 ≤ (m : ℚ) * pow2 (-22) := by rw [hp]; norm_num at *; linarith
  have y3 : (m : ℚ) * pow2 (-22) ≤ 3 := by rw [hp]; norm_num at *; linarith
  refine ⟨m, ?_, ?_, hm⟩
  · unfold Dbl.narrow
    simp only [he, e2]
    rw [if_neg]
    rw [not_lt, abs_of_pos (by linarith)]
    refine y3.trans ?_
    decide +kernel
  · unfold floatOrd
    simp only [expo_two y2 y3]
    rw [if_neg (by linarith), if_neg (by linarith), abs_of_pos (by linarith)]
    have hk : max ((1 : ℤ) - 23) (-149) = -22 := by norm_num
    rw [hk, mul_div_assoc, div_self (by rw [hp]; norm_num), mul_one, Int.floor_intCast]
    ring

/-- Doubles between 2 and 3 that are close pass `EXPECT_FLOAT_EQ`. -/
theorem floatEq_near {x y : ℚ} (hx2 : 2 ≤ x) (hx3 : x ≤ 3) (hy2 : 2 ≤ y) (hy3 : y ≤ 3) (h : |x - y| ≤ 1 / 2 ^ 22) :
    floatEq (.fin x) (.fin y) = true := by
  obtain ⟨m, a1, a2, a3⟩ := narrow_two hx2 hx3
  obtain ⟨n, b1, b2, b3⟩ := narrow_two hy2 hy3
  unfold floatEq
  rw [a1, b1]
  simp only [a2, b2, decide_eq_true_eq]
  have : |((m - n : ℤ) : ℚ)| ≤ 4 := by
    rw [abs_le] at *
    push_cast
    norm_num at *
    constructor <;> linarith
  have e : (127 * 2 ^ 23 + m - (127 * 2 ^ 23 + n) : ℤ) = m - n := by ring
  rw [e]
  exact_mod_cast this

theorem almostEq_near {x y : ℚ} (h : |x - y| ≤ pow2 (-25)) : almostEq (.fin x) (.fin y) = true := by
  have hd : pow2 (-25) ≤ dblMax := by decide +kernel
  have hs : Dbl.arith.sub (.fin x) (.fin y) = .fin (rnd64 (x - y)) := by
    show Dbl.ofRat (x + -y) = _
    rw [← sub_eq_add_neg]
    exact Dbl.ofRat_fin (h.trans hd)
  unfold almostEq
  rw [hs]
  simp only [decide_eq_true_eq]
  have := rnd64_abs_le_mul (x := x - y) (n := 1) (k := -25) (by norm_num) (by norm_num) (by simpa using h)
  refine this.trans_lt ?_
  decide +kernel

theorem logb_five : 2.3 ≤ Real.logb 2 5 ∧ Real.logb 2 5 ≤ 2.4 := by
  have h : Real.logb 2 ((5 : ℝ) ^ 10) = 10 * Real.logb 2 5 := by rw [Real.logb_pow]; norm_num
  have p : ∀ k : ℕ, Real.logb 2 ((2 : ℝ) ^ k) = k := fun k => by
    rw [Real.logb_pow, Real.logb_self_eq_one (by norm_num), mul_one]
  have h1 : Real.logb 2 ((2 : ℝ) ^ 23) ≤ Real.logb 2 ((5 : ℝ) ^ 10) :=
    Real.logb_le_logb_of_le (by norm_num) (by norm_num) (by norm_num)
  have h2 : Real.logb 2 ((5 : ℝ) ^ 10) ≤ Real.logb 2 ((2 : ℝ) ^ 24) :=
    Real.logb_le_logb_of_le (by norm_num) (by norm_num) (by norm_num)
  rw [h, p] at h1 h2
  push_cast at h1 h2
  norm_num at *
  constructor <;> linarith

/-- The value computed in the tests. -/
theorem entropy_tests_value (L : LArith Dbl) (hL : L.Accurate) (numBins : ℕ) (xs : List ℚ)
    (h : (numBins, xs) ∈ [(5, [1, 2, 3, 4, 5]), (10, [1, 2, 3, 4, 5]), (10, ([1, 1, 2, 2, 3, 3, 4, 4, 5, 5] : List ℚ))]) :
    ∃ (e0 e : Entropy Dbl) (v : ℚ), Entropy.new L 10 numBins = .ok e0 ∧
      updateAll (Entropy.update L) e0 (Tests.dbls xs) = .ok e ∧ e.evaluate = .fin v ∧
      |(v : ℝ) - Real.logb 2 5| ≤ 2200 / 2 ^ 53 := by
  have facts : numBins ≠ 0 ∧ xs ≠ [] ∧ (∀ x ∈ xs, IsDouble x) ∧ (∀ x ∈ xs, |x| ≤ dblMax / 2) ∧ xs.length ≤ 10 ∧
      distinct xs = 5 ∧ 5 ≤ numBins ∧ Separated (1 / 4999) xs ∧ (∀ v ∈ xs, ∀ w ∈ xs, xs.count v = xs.count w) := by
    unfold Separated
    revert h
    rw [List.mem_cons, List.mem_cons, List.mem_singleton]
    rintro (h | h | h) <;> obtain ⟨rfl, rfl⟩ := Prod.mk.inj h <;> decide +kernel
  obtain ⟨f1, f2, f3, f4, f5, f6, f7, f8, f9⟩ := facts
  obtain ⟨e0, he0, hb⟩ : ∃ e0, Entropy.new L 10 numBins = .ok e0 ∧ e0.hist.numBins = numBins :=
    ⟨_, by rw [Entropy.new, if_neg f1]; rfl, rfl⟩
  obtain ⟨e, v, a1, a2, a3⟩ := C96_shannon L hL 10 numBins e0 xs f2 f3 f4 f5 (f5.trans (by norm_num)) he0
    (by rw [f6, hb]; exact f7) f8
  have hmap : Tests.dbls xs = xs.map Dbl.fin := by
    unfold Tests.dbls
    refine List.map_congr_left fun x hx => ?_
    rw [Dbl.ofRat_fin (f3 x hx).2, (f3 x hx).1]
  refine ⟨e0, e, v, he0, by rw [hmap]; exact a1, a2, ?_⟩
  have hinj : Function.Injective (fun y : ℚ => (y : ℝ)) := Rat.cast_injective
  have hu : Spec.entropy (xs.map fun y : ℚ => (y : ℝ)) = Real.logb 2 5 := by
    rw [Spec.entropy_uniform (by simpa using f2)]
    · unfold distinct at f6 ⊢
      rw [List.dedup_map_of_injective hinj, List.length_map, f6]
      norm_num
    · intro v hv w hw
      obtain ⟨v', hv', rfl⟩ := List.mem_map.1 hv
      obtain ⟨w', hw', rfl⟩ := List.mem_map.1 hw
      rw [List.count_map_of_injective _ _ hinj, List.count_map_of_injective _ _ hinj]
      exact f9 v' hv' w' hw'
  rw [hu] at a3
  refine a3.trans ?_
  have : (xs.length : ℝ) ≤ 10 := by exact_mod_cast f5
  rw [div_le_div_iff_of_pos_right (by positivity)]
  linarith

/-- The comparison with any expected value that is `log2 5` to one part in a thousand million. -/
theorem entropy_tests_pass (L : LArith Dbl) (hL : L.Accurate) (numBins : ℕ) (xs : List ℚ)
    (h : (numBins, xs) ∈ [(5, [1, 2, 3, 4, 5]), (10, [1, 2, 3, 4, 5]), (10, ([1, 1, 2, 2, 3, 3, 4, 4, 5, 5] : List ℚ))])
    (w : ℚ) (hw : |(w : ℝ) - Real.logb 2 5| ≤ 1 / 10 ^ 9) :
    Tests.entropyTest L 10 numBins xs floatEq (.fin w) = .ok true ∧
      Tests.entropyTest L 10 numBins xs almostEq (.fin w) = .ok true := by
  obtain ⟨e0, e, v, h0, h1, h2, h3⟩ := entropy_tests_value L hL numBins xs h
  obtain ⟨l1, l2⟩ := logb_five
  have h4 : (2200 : ℝ) / 2 ^ 53 ≤ 1 / 10 ^ 9 := by norm_num
  have h3 := h3.trans h4
  obtain ⟨v1, v2⟩ := abs_le.1 h3
  obtain ⟨w1, w2⟩ := abs_le.1 hw
  norm_num at l1 l2 v1 v2 w1 w2
  have c : ∀ q : ℚ, (2 : ℝ) ≤ q → 2 ≤ q := fun q h => by exact_mod_cast h
  have c' : ∀ q : ℚ, (q : ℝ) ≤ 3 → q ≤ 3 := fun q h => by exact_mod_cast h
  have d : |w - v| ≤ 1 / 10 ^ 8 := by
    have : |((w - v : ℚ) : ℝ)| ≤ ((1 / 10 ^ 8 : ℚ) : ℝ) := by
      push_cast
      rw [abs_le]
      norm_num
      constructor <;> linarith
    exact_mod_cast this
  have p25 : (1 : ℚ) / 10 ^ 8 ≤ pow2 (-25) := by decide +kernel
  unfold Tests.entropyTest
  simp only [h0, Res.ok_bind, h1, h2]
  constructor
  · rw [floatEq_near (c w (by linarith)) (c' w (by linarith)) (c v (by linarith)) (c' v (by linarith)) (d.trans (by norm_num))]
  · rw [almostEq_near (d.trans p25)]

/-- C93: with a `log2` good to a few units in the last place, the C++ tests `TestUniformEntropyWithoutDecrement` and
`TestUniformEntropyDoubleBins` pass. -/
theorem C93_entropy_cpp_partial (L : LArith Dbl) (hL : L.Accurate) :
    Tests.entropyTest L 10 5 [1, 2, 3, 4, 5] floatEq (L.log2 (Tests.lit 5)) = .ok true ∧
      Tests.entropyTest L 10 10 [1, 1, 2, 2, 3, 3, 4, 4, 5, 5] floatEq (L.log2 (Tests.lit 5)) = .ok true := by
  have h5 : Tests.lit 5 = .fin 5 := by decide +kernel
  obtain ⟨l, e1, e2⟩ := hL.log2 5 (by decide +kernel) (by norm_num)
  push_cast at e2
  have hw : |(l : ℝ) - Real.logb 2 5| ≤ 1 / 10 ^ 9 := by
    refine e2.trans ?_
    obtain ⟨l1, l2⟩ := logb_five
    rw [abs_of_nonneg (by norm_num at l1 ⊢; linarith)]
    norm_num at *
    linarith
  rw [h5, e1]
  exact ⟨(entropy_tests_pass L hL 5 _ (by simp) l hw).1, (entropy_tests_pass L hL 10 _ (by simp) l hw).1⟩

/-- C93: so do the Python tests `test_uniform_entropy_without_decrement` and `test_uniform_entropy_double_bins`, whatever
way `math.log(5, 2)` is computed to nine places. -/
theorem C93_entropy_python_partial (L : LArith Dbl) (hL : L.Accurate) (w : ℚ) (hw : |(w : ℝ) - Real.logb 2 5| ≤ 1 / 10 ^ 9) :
    Tests.entropyTest L 10 10 [1, 2, 3, 4, 5] almostEq (.fin w) = .ok true ∧
      Tests.entropyTest L 10 10 [1, 1, 2, 2, 3, 3, 4, 4, 5, 5] almostEq (.fin w) = .ok true :=
  ⟨(entropy_tests_pass L hL 10 _ (by simp) w hw).2, (entropy_tests_pass L hL 10 _ (by simp) w hw).2⟩

example : ∃ L : LArith Dbl, ∃ w : ℚ, L.Accurate ∧ |(w : ℝ) - Real.logb 2 5| ≤ 1 / 10 ^ 9 := by
  obtain ⟨L, hL⟩ := exists_accurate
  obtain ⟨w, h1, h2⟩ := exists_rat_btwn (show Real.logb 2 5 < Real.logb 2 5 + 1 / 10 ^ 9 by linarith [show (0 : ℝ) < 1 / 10 ^ 9 by positivity])
  exact ⟨L, w, hL, abs_le.2 ⟨by linarith [show (0 : ℝ) < 1 / 10 ^ 9 by positivity], by linarith⟩⟩

end KML
