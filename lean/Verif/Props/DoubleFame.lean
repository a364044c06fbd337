import Verif.Lemmas.Double
import Verif.Props.DoubleMean
import Verif.Props.Mad

/-! # C86: WindowedFAME and StreamingMAD on real doubles -/

namespace KML

theorem rnd64_err {x : ℚ} {k : ℤ} (hk : -1022 ≤ k) (h : |x| ≤ pow2 k) : |rnd64 x - x| ≤ pow2 (k - 53) := by
  by_cases hx : x = 0
  · subst hx; rw [rnd64_zero, sub_zero, abs_zero]; exact (pow2_pos _).le
  rw [rnd64, if_neg hx]
  refine (rndAt_err _ x).trans ?_
  have he : expo x ≤ k := pow2_le.1 ((expo_spec hx).1.trans h)
  have h1 : pow2 (max (expo x - 52) (-1074)) ≤ pow2 (k - 53 + 1) := pow2_le.2 (by omega)
  rw [pow2_succ] at h1
  linarith

namespace Fame

/-- Apply a function to every value. -/
abbrev map {α β : Type} (f : α → β) (a : Fame α) : Fame β := ⟨f a.median, f a.stepSize, f a.epsilon, a.historyCount⟩

theorem b64_lit_one : b64.lit 1 = 1 := by simpa using P2.lit_b64 1 (by norm_num)

theorem b64_lit_two : b64.lit 2 = 2 := by simpa using P2.lit_b64 2 (by norm_num)

theorem b64_update_first (f : Fame ℚ) (x : ℚ) (h : f.historyCount = 0) :
    f.update b64 x = ⟨x, rnd64 (max (rnd64 (|x| / 2)) f.stepSize * rnd64 (1 + f.epsilon)), f.epsilon, 1⟩ := by
  have hmax : b64.max (b64.div (b64.abs x) (b64.lit 2)) f.stepSize = max (rnd64 (|x| / 2)) f.stepSize := by
    rw [b64_lit_two]
    simp only [Arith.max, b64, decide_eq_true_eq]
    split
    · rw [max_eq_right (le_of_lt ‹_›)]
    · rw [max_eq_left (not_lt.1 ‹_›)]
  unfold update
  rw [hmax, b64_lit_one, b64_lit_two]
  simp [h, b64]

theorem b64_update_later (f : Fame ℚ) (x : ℚ) (h : f.historyCount ≠ 0) :
    f.update b64 x =
      let m := if x < f.median then rnd64 (f.median - f.stepSize)
        else if f.median < x then rnd64 (f.median + f.stepSize) else f.median
      ⟨m, rnd64 ((if |rnd64 (x - m)| < f.stepSize then rnd64 (f.stepSize / 2) else f.stepSize) * rnd64 (1 + f.epsilon)),
        f.epsilon, f.historyCount + 1⟩ := by
  unfold update
  rw [b64_lit_one, b64_lit_two]
  by_cases c1 : x < f.median
  · simp only [h, if_false, b64, c1, decide_true, if_true, ne_eq, not_false_eq_true, Bool.true_and]
    by_cases c2 : |rnd64 (x - rnd64 (f.median - f.stepSize))| < f.stepSize <;> simp [c2]
  · by_cases c3 : f.median < x
    · simp only [h, if_false, b64, c1, c3, decide_true, decide_false, if_true, ne_eq, not_false_eq_true, Bool.true_and,
        Bool.false_eq_true]
      by_cases c2 : |rnd64 (x - rnd64 (f.median + f.stepSize))| < f.stepSize <;> simp [c2]
    · simp only [h, if_false, b64, c1, c3, decide_false, ne_eq, not_false_eq_true, Bool.false_eq_true]
      by_cases c2 : |rnd64 (x - f.median)| < f.stepSize <;> simp [c2]

/-- The size of estimate and step after `n` observations of magnitude at most `2 ^ M`. -/
structure Fit (M : ℤ) (f : Fame ℚ) : Prop where
  eps : 0 ≤ f.epsilon ∧ f.epsilon < 1
  start : f.historyCount = 0 → f.median = 0 ∧ |f.stepSize| ≤ pow2 M
  later : f.historyCount ≠ 0 → |f.median| ≤ 4 * f.historyCount * pow2 M ∧ 0 ≤ f.stepSize ∧
    f.stepSize - |f.median| ≤ 4 * f.historyCount * pow2 M

theorem growth {e : ℚ} (h0 : 0 ≤ e) (h1 : e < 1) : 1 ≤ rnd64 (1 + e) ∧ rnd64 (1 + e) ≤ 2 := by
  have r1 : rnd64 1 = 1 := b64_lit_one
  have r2 : rnd64 2 = 2 := b64_lit_two
  constructor
  · rw [← r1]; exact rnd64_mono (by linarith)
  · rw [← r2]; exact rnd64_mono (by linarith)

theorem abs_step_cases {m s x m' : ℚ} {e : ℚ} (hs : 0 ≤ s)
    (hm' : |m' - (if x < m then m - s else if m < x then m + s else m)| ≤ e) {B C : ℚ} (hx : |x| ≤ B) (he : 4 * e ≤ B)
    (h1 : |m| ≤ C) (h2 : s - |m| ≤ C) :
    |m'| ≤ C + 4 * B ∧ (s - |m'| ≤ C + B) ∧
    (s - e ≤ |x - m'| → s ≤ C + 2 * B ∧ s - |m'| ≤ e + B) := by
  have he0 : 0 ≤ e := (abs_nonneg _).trans hm'
  have hB : 0 ≤ B := (abs_nonneg _).trans hx
  have hC : 0 ≤ C := (abs_nonneg _).trans h1
  rw [abs_le] at hx h1 hm'
  obtain ⟨x1, x2⟩ := hx
  obtain ⟨c1, c2⟩ := h1
  obtain ⟨d1, d2⟩ := hm'
  refine ⟨?_, ?_, ?_⟩
  · split_ifs at d1 d2 with a b
    · rcases abs_cases m with ⟨k, k'⟩ | ⟨k, k'⟩ <;> rw [k] at h2 <;> rw [abs_le] <;> constructor <;> linarith
    · rcases abs_cases m with ⟨k, k'⟩ | ⟨k, k'⟩ <;> rw [k] at h2 <;> rw [abs_le] <;> constructor <;> linarith
    · rw [abs_le]; constructor <;> linarith
  · split_ifs at d1 d2 with a b
    · rcases abs_cases m' with ⟨k, k'⟩ | ⟨k, k'⟩ <;> rw [k] <;> linarith
    · rcases abs_cases m' with ⟨k, k'⟩ | ⟨k, k'⟩ <;> rw [k] <;> linarith
    · rcases abs_cases m' with ⟨k, k'⟩ | ⟨k, k'⟩ <;> rcases abs_cases m with ⟨l, l'⟩ | ⟨l, l'⟩ <;> rw [l] at h2 <;> rw [k] <;>
        linarith
  · intro hd
    constructor
    · split_ifs at d1 d2 with a b
      · rcases abs_cases (x - m') with ⟨k, k'⟩ | ⟨k, k'⟩ <;> rw [k] at hd <;> rcases abs_cases m with ⟨l, l'⟩ | ⟨l, l'⟩ <;>
          rw [l] at h2 <;> linarith
      · rcases abs_cases (x - m') with ⟨k, k'⟩ | ⟨k, k'⟩ <;> rw [k] at hd <;> rcases abs_cases m with ⟨l, l'⟩ | ⟨l, l'⟩ <;>
          rw [l] at h2 <;> linarith
      · have : m = x := le_antisymm (not_lt.1 a) (not_lt.1 b)
        rcases abs_cases (x - m') with ⟨k, k'⟩ | ⟨k, k'⟩ <;> rw [k] at hd <;> linarith
    · rcases abs_cases (x - m') with ⟨k, k'⟩ | ⟨k, k'⟩ <;> rw [k] at hd <;> rcases abs_cases m' with ⟨l, l'⟩ | ⟨l, l'⟩ <;>
        rw [l] <;> linarith

theorem pow2_mul_nat {M : ℤ} (k : ℕ) {n : ℚ} (h : n ≤ 2 ^ k) : n * pow2 M ≤ pow2 (M + k) := by
  rw [pow2_add, mul_comm, pow2_eq (k : ℤ), zpow_natCast]
  exact mul_le_mul_of_nonneg_left h (pow2_pos M).le

/-- The magnitudes that occur in an update. -/
theorem Fit.mags {M : ℤ} {f : Fame ℚ} (h : Fit M f) (h0 : f.historyCount ≠ 0) (hn : f.historyCount ≤ 2 ^ 46) :
    |f.median| ≤ pow2 (M + 48) ∧ f.stepSize ≤ pow2 (M + 49) := by
  obtain ⟨h1, h2, h3⟩ := h.later h0
  have hn' : (f.historyCount : ℚ) ≤ 2 ^ 46 := by exact_mod_cast hn
  have hc := pow2_mul_nat (M := M) 48 (n := 4 * f.historyCount) (by linarith)
  have e : pow2 (M + 49) = 2 * pow2 (M + 48) := by rw [← pow2_succ]; congr 1; ring
  push_cast at hc
  constructor
  · exact h1.trans hc
  · rw [e]; linarith

theorem Fit.update {M : ℤ} (hM0 : 0 ≤ M) {f : Fame ℚ} (h : Fit M f) (hn : f.historyCount ≤ 2 ^ 46) {x : ℚ}
    (hx : |x| ≤ pow2 M) : Fit M (f.update b64 x) := by
  obtain ⟨g1, g2⟩ := growth h.eps.1 h.eps.2
  have hB := pow2_pos M
  have e2 : pow2 M = 4 * pow2 (M - 2) := by
    have := pow2_succ (M - 2)
    have h2 := pow2_succ (M - 2 + 1)
    rw [show M - 2 + 1 + 1 = M by ring] at h2
    linarith
  have err : ∀ y, |y| ≤ pow2 (M + 51) → |rnd64 y - y| ≤ pow2 (M - 2) := fun y hy => by
    have := rnd64_err (by omega) hy
    rwa [show M + 51 - 53 = M - 2 by ring] at this
  have big : ∀ (k : ℕ) (y : ℚ), k ≤ 51 → |y| ≤ 2 ^ k * pow2 M → |y| ≤ pow2 (M + 51) := fun k y hk hy =>
    hy.trans (by
      have := pow2_mul_nat (M := M) 51 (n := 2 ^ k) (pow_le_pow_right₀ (by norm_num) hk)
      simpa using this)
  set e := pow2 (M - 2) with he
  by_cases h0 : f.historyCount = 0
  · obtain ⟨hm, hs⟩ := h.start h0
    rw [b64_update_first f x h0]
    refine ⟨h.eps, fun h => by simp at h, fun _ => ?_⟩
    have r1 := abs_le.1 (err (|x| / 2) (big 0 _ (by norm_num) (by rw [abs_div, abs_abs]; norm_num; linarith)))
    have hs' := abs_le.1 hs
    have k0 : 0 ≤ max (rnd64 (|x| / 2)) f.stepSize := le_max_of_le_left (rnd64_nonneg (by positivity))
    have k1 : max (rnd64 (|x| / 2)) f.stepSize ≤ pow2 M := max_le (by linarith) hs'.2
    have k2 : max (rnd64 (|x| / 2)) f.stepSize * rnd64 (1 + f.epsilon) ≤ pow2 M * 2 := by
      exact mul_le_mul k1 g2 (by linarith) hB.le
    have k3 : 0 ≤ max (rnd64 (|x| / 2)) f.stepSize * rnd64 (1 + f.epsilon) := mul_nonneg k0 (by linarith)
    have r2 := abs_le.1 (err _ (big 1 _ (by norm_num) (by rw [abs_of_nonneg k3]; linarith)))
    have ha := abs_nonneg x
    simp only [Nat.cast_one, mul_one]
    exact ⟨by linarith, rnd64_nonneg k3, by linarith⟩
  · obtain ⟨c1, c2, c3⟩ := h.later h0
    obtain ⟨m1, m2⟩ := h.mags h0 hn
    have p48 : pow2 (M + 48) = 2 ^ 48 * pow2 M := by rw [pow2_add, mul_comm]; rfl
    have p49 : pow2 (M + 49) = 2 ^ 49 * pow2 M := by rw [pow2_add, mul_comm]; rfl
    rw [p48] at m1
    rw [p49] at m2
    have m1' := abs_le.1 m1
    rw [b64_update_later f x h0]
    set m' := if x < f.median then rnd64 (f.median - f.stepSize)
        else if f.median < x then rnd64 (f.median + f.stepSize) else f.median with hm'
    have hd : |m' - (if x < f.median then f.median - f.stepSize
        else if f.median < x then f.median + f.stepSize else f.median)| ≤ e := by
      rw [hm']
      split_ifs
      · exact err _ (big 50 _ (by norm_num) (by rw [abs_le]; constructor <;> linarith))
      · exact err _ (big 50 _ (by norm_num) (by rw [abs_le]; constructor <;> linarith))
      · rw [sub_self, abs_zero]; exact (pow2_pos _).le
    obtain ⟨a1, a2, a3⟩ := abs_step_cases c2 hd hx (by linarith) c1 c3
    have a1' := abs_le.1 a1
    have hx' := abs_le.1 hx
    have hC : 4 * (f.historyCount : ℚ) * pow2 M ≤ 2 ^ 48 * pow2 M := by
      refine mul_le_mul_of_nonneg_right ?_ hB.le
      have : (f.historyCount : ℚ) ≤ 2 ^ 46 := by exact_mod_cast hn
      linarith
    refine ⟨h.eps, fun h => by simp at h, fun _ => ?_⟩
    have hC' : 4 * ((f.historyCount + 1 : ℕ) : ℚ) * pow2 M = 4 * (f.historyCount : ℚ) * pow2 M + 4 * pow2 M := by
      push_cast; ring
    simp only
    rw [hC']
    refine ⟨a1, ?_, ?_⟩
    · refine rnd64_nonneg (mul_nonneg ?_ (by linarith))
      split
      · exact rnd64_nonneg (by linarith)
      · exact c2
    · have r1 := abs_le.1 (err (x - m') (big 50 _ (by norm_num) (by rw [abs_le]; constructor <;> linarith)))
      split_ifs with hc
      · have r2 := abs_le.1 (err (f.stepSize / 2) (big 49 _ (by norm_num) (by rw [abs_le]; constructor <;> linarith)))
        have k0 : 0 ≤ rnd64 (f.stepSize / 2) := rnd64_nonneg (by linarith)
        have k1 : rnd64 (f.stepSize / 2) * rnd64 (1 + f.epsilon) ≤ (f.stepSize / 2 + e) * 2 :=
          mul_le_mul (by linarith) g2 (by linarith) (by linarith)
        have k2 : 0 ≤ rnd64 (f.stepSize / 2) * rnd64 (1 + f.epsilon) := mul_nonneg k0 (by linarith)
        have r3 := abs_le.1 (err _ (big 50 _ (by norm_num) (by rw [abs_of_nonneg k2]; linarith)))
        linarith
      · rw [not_lt] at hc
        have hge : f.stepSize - e ≤ |x - m'| := by
          have : |rnd64 (x - m')| ≤ |x - m'| + e := by
            have h1 := err (x - m') (big 50 _ (by norm_num) (by rw [abs_le]; constructor <;> linarith))
            have h2 := abs_sub_abs_le_abs_sub (rnd64 (x - m')) (x - m')
            linarith
          linarith
        obtain ⟨b1, b2⟩ := a3 hge
        have k1 : f.stepSize * rnd64 (1 + f.epsilon) ≤ f.stepSize * 2 := mul_le_mul_of_nonneg_left g2 c2
        have k2 : 0 ≤ f.stepSize * rnd64 (1 + f.epsilon) := mul_nonneg c2 (by linarith)
        have r3 := abs_le.1 (err _ (big 50 _ (by norm_num) (by rw [abs_of_nonneg k2]; linarith)))
        linarith

open Dbl in
/-- `update` on doubles is `update` in `b64`. -/
theorem Fit.update_dbl {M : ℤ} (hM0 : 0 ≤ M) (hM : M ≤ 960) {f : Fame ℚ} (h : Fit M f) (hn : f.historyCount ≤ 2 ^ 46) {x : ℚ}
    (hx : |x| ≤ pow2 M) : (f.map Dbl.fin).update Dbl.arith (.fin x) = (f.update b64 x).map .fin := by
  have ix : Is (.fin x) x M := ⟨rfl, hx⟩
  have ie : Is (.fin f.epsilon) f.epsilon 0 := ⟨rfl, by rw [pow2_zero, abs_le]; constructor <;> linarith [h.eps.1, h.eps.2]⟩
  have i1 : Is (Dbl.arith.lit 1) (b64.lit 1) 0 := Is.lit (by norm_num) (by norm_num) (by rw [pow2_zero]; norm_num)
  have i2 : Is (Dbl.arith.lit 2) (b64.lit 2) 1 := Is.lit (by norm_num) (by norm_num) (by rw [pow2_eq]; norm_num)
  have o2 : 1 ≤ |b64.lit 2| := by rw [b64_lit_two]; norm_num
  have ig := i1.add ie (by norm_num) (by norm_num)
  by_cases h0 : f.historyCount = 0
  · obtain ⟨hm, hs⟩ := h.start h0
    have is : Is (.fin f.stepSize) f.stepSize M := ⟨rfl, hs⟩
    have ih := ix.abs.div i2.eq o2 (by omega) (by omega)
    have imax : Is (Dbl.arith.max (Dbl.arith.div (Dbl.arith.abs (.fin x)) (Dbl.arith.lit 2)) (.fin f.stepSize))
        (b64.max (b64.div (b64.abs x) (b64.lit 2)) f.stepSize) M := by
      unfold Arith.max
      rw [ih.eq, Dbl.lt_fin]
      split
      · exact is
      · exact ⟨rfl, ih.2⟩
    have ik := imax.mul ig (by omega) (by omega)
    have hirr : ∀ y, b64.lt y y = false := fun y => by simp [b64]
    unfold Fame.update
    simp only [Fame.map, h0, if_true, Dbl.lt_fin, hirr, Bool.false_eq_true, if_false, ne_eq, not_true_eq_false,
      decide_false, Bool.false_and, ik.eq]
  · obtain ⟨m1, m2⟩ := h.mags h0 hn
    have c2 := (h.later h0).2.1
    have im : Is (.fin f.median) f.median (M + 49) := ⟨rfl, m1.trans (pow2_le.2 (by omega))⟩
    have is : Is (.fin f.stepSize) f.stepSize (M + 49) := ⟨rfl, by rwa [abs_of_nonneg c2]⟩
    have isub := im.sub is (by omega) (by omega)
    have iadd := im.add is (by omega) (by omega)
    have ihalf := is.div i2.eq o2 (by omega) (by omega)
    have key : ∀ (d : Dbl) (m' : ℚ), Is d m' (M + 49 + 1) → ∃ q, Dbl.arith.abs (Dbl.arith.sub (.fin x) d) = .fin q ∧
        b64.abs (b64.sub x m') = q := fun d m' hd => by
      have := ((ix.mono (l := M + 49 + 1) (by omega)).sub hd (by omega) (by omega)).abs
      exact ⟨_, this.eq, rfl⟩
    obtain ⟨q1, a1, a2⟩ := key _ _ isub
    obtain ⟨q2, b1, b2⟩ := key _ _ iadd
    obtain ⟨q3, c1, c3⟩ := key _ _ (im.mono (by omega))
    have k1 := is.mul ig (by omega) (by omega)
    have k2 := ihalf.mul ig (by omega) (by omega)
    unfold Fame.update
    simp only [Fame.map, h0, if_false, Dbl.lt_fin, ne_eq]
    by_cases d1 : b64.lt x f.median = true
    · simp only [d1, if_true, a1, a2, Dbl.lt_fin]
      by_cases d2 : b64.lt q1 f.stepSize = true
      · simp [h0, d2, isub.eq, k2.eq]
      · simp [h0, d2, isub.eq, k1.eq]
    · rw [Bool.not_eq_true] at d1
      by_cases d3 : b64.lt f.median x = true
      · simp only [d1, d3, if_true, Bool.false_eq_true, if_false, b1, b2, Dbl.lt_fin]
        by_cases d2 : b64.lt q2 f.stepSize = true
        · simp [h0, d2, iadd.eq, k2.eq]
        · simp [h0, d2, iadd.eq, k1.eq]
      · rw [Bool.not_eq_true] at d3
        simp only [d1, d3, Bool.false_eq_true, if_false, c1, c3, Dbl.lt_fin]
        by_cases d2 : b64.lt q3 f.stepSize = true
        · simp [h0, d2, k2.eq]
        · simp [h0, d2, k1.eq]

end Fame

/-- **C86**, the full claim: finite doubles never make WindowedFAME or StreamingMAD infinite or NaN. -/
def C86_full : Prop :=
  (∀ (s e : ℚ) (f : Fame Dbl), IsDouble s → IsDouble e → Fame.new Dbl.arith (.fin s) (.fin e) = .ok f → ∀ xs : List ℚ,
    (∀ x ∈ xs, IsDouble x) → ∃ v, ((xs.map .fin).foldl (Fame.update Dbl.arith) f).evaluate = .fin v) ∧
  (∀ m : Mad Dbl, Mad.new Dbl.arith = .ok m → ∀ xs : List ℚ, (∀ x ∈ xs, IsDouble x) →
    ∃ v, ((xs.map .fin).foldl (Mad.update Dbl.arith) m).evaluate = .fin v)

/-- **C86** is violated by WindowedFAME: a step from 3/4 of the range towards its end leaves the range. -/
theorem C86_violated : ¬ C86_full := by
  intro h
  obtain ⟨v, hv⟩ := h.1 0 0 ⟨.fin 0, .fin 0, .fin 0, 0⟩ (by unfold IsDouble; decide +kernel) (by unfold IsDouble; decide +kernel)
    (by decide +kernel) [3 * 2 ^ 1022, dblMax] (by unfold IsDouble; decide +kernel)
  have e : (([3 * 2 ^ 1022, dblMax].map Dbl.fin).foldl (Fame.update Dbl.arith) ⟨.fin 0, .fin 0, .fin 0, 0⟩).evaluate =
      .inf false := by decide +kernel
  rw [e] at hv
  cases hv

namespace Fame

/-- **C86**: an estimate that is once infinite or NaN stays so, whatever is observed. -/
theorem nonFinite_update {f : Fame Dbl} (h0 : f.historyCount ≠ 0) (h : f.median.NonFinite) (x : Dbl) :
    (f.update Dbl.arith x).median.NonFinite := by
  unfold Fame.update
  simp only [h0, if_false]
  by_cases d1 : Dbl.arith.lt x f.median = true
  · simp only [d1, if_true]
    split <;> exact h.sub_left _
  · rw [Bool.not_eq_true] at d1
    by_cases d2 : Dbl.arith.lt f.median x = true
    · simp only [d1, d2, if_true, Bool.false_eq_true, if_false]
      split <;> exact h.add_left _
    · rw [Bool.not_eq_true] at d2
      simp only [d1, d2, Bool.false_eq_true, if_false]
      split <;> exact h

end Fame

/-- **C86**: an estimate that is once infinite or NaN stays so, whatever is observed afterwards. -/
theorem C86_never_recovers_partial (f : Fame Dbl) (h0 : f.historyCount ≠ 0) (h : f.evaluate.NonFinite) (xs : List Dbl) :
    (xs.foldl (Fame.update Dbl.arith) f).evaluate.NonFinite := by
  induction xs generalizing f with
  | nil => exact h
  | cons x xs ih =>
    rw [List.foldl_cons]
    have := Fame.run_count Dbl.arith f [x]
    exact ih _ (by rw [List.foldl_cons, List.foldl_nil] at this; rw [this]; simp) (Fame.nonFinite_update h0 h x)

theorem Fame.Fit.run {M : ℤ} (hM0 : 0 ≤ M) (hM : M ≤ 960) (xs : List ℚ) : ∀ f : Fame ℚ, Fame.Fit M f →
    f.historyCount + xs.length ≤ 2 ^ 46 → (∀ x ∈ xs, |x| ≤ pow2 M) →
    (xs.map Dbl.fin).foldl (Fame.update Dbl.arith) (f.map .fin) = (xs.foldl (Fame.update b64) f).map .fin ∧
    Fame.Fit M (xs.foldl (Fame.update b64) f) := by
  induction xs with
  | nil => exact fun f h _ _ => ⟨rfl, h⟩
  | cons x xs ih =>
    intro f h hn hx
    rw [List.length_cons] at hn
    have hx0 := hx x (by simp)
    simp only [List.map_cons, List.foldl_cons]
    rw [h.update_dbl hM0 hM (by omega) hx0]
    refine ih _ (h.update hM0 (by omega) hx0) ?_ fun y hy => hx y (by simp [hy])
    have := Fame.run_count b64 f [x]
    rw [List.foldl_cons, List.foldl_nil, List.length_singleton] at this
    omega

theorem Fame.new_dbl {s e : ℚ} {f : Fame Dbl} (hf : Fame.new Dbl.arith (.fin s) (.fin e) = .ok f) {M : ℤ} (hs : |s| ≤ pow2 M) :
    ∃ g, Fame.new b64 s e = .ok g ∧ f = g.map .fin ∧ Fame.Fit M g := by
  have l0 : Dbl.arith.lit 0 = .fin 0 := dbl_lit_zero
  have l1 : Dbl.arith.lit 1 = .fin 1 := dbl_lit_one
  have b0 : b64.lit 0 = 0 := by simpa using P2.lit_b64 0 (by norm_num)
  unfold Fame.new at hf ⊢
  rw [l0, l1, Dbl.lt_fin, Dbl.le_fin] at hf
  rw [b0, Fame.b64_lit_one]
  split at hf
  · cases hf
  · rename_i hc
    rw [if_neg hc]
    injection hf with hf
    refine ⟨_, rfl, hf.symm, ?_, fun _ => ⟨rfl, hs⟩, fun h => absurd rfl h⟩
    simpa [b64] using hc

/-- **C86**, WindowedFAME: for any first step and any observations of magnitude at most `2 ^ M` (`M ≤ 960`), and any
epsilon, up to `2 ^ 46` observations on doubles give exactly what rounded arithmetic without overflow gives, and the
estimate is at most `4 n 2 ^ M`. Missing: larger magnitudes, longer streams. -/
theorem C86_fame_partial (M : ℤ) (hM0 : 0 ≤ M) (hM : M ≤ 960) (s e : ℚ) (hs : |s| ≤ pow2 M) (f : Fame Dbl)
    (hf : Fame.new Dbl.arith (.fin s) (.fin e) = .ok f) (xs : List ℚ) (hx : ∀ x ∈ xs, |x| ≤ pow2 M)
    (hn : xs.length ≤ 2 ^ 46) :
    ∃ g, Fame.new b64 s e = .ok g ∧
      ((xs.map .fin).foldl (Fame.update Dbl.arith) f).evaluate = .fin (xs.foldl (Fame.update b64) g).evaluate ∧
      |(xs.foldl (Fame.update b64) g).evaluate| ≤ 4 * xs.length * pow2 M := by
  obtain ⟨g, h1, rfl, h3⟩ := Fame.new_dbl hf hs
  have hg : g.historyCount = 0 := by
    unfold Fame.new at h1
    split at h1
    · cases h1
    · injection h1 with h1; rw [← h1]
  obtain ⟨h4, h5⟩ := h3.run hM0 hM xs g (by omega) hx
  refine ⟨g, h1, by rw [h4]; rfl, ?_⟩
  have hc := Fame.run_count b64 g xs
  rw [hg, zero_add] at hc
  by_cases h0 : xs.length = 0
  · rw [h0, Fame.evaluate, (h5.start (by omega)).1]; simp
  · have := (h5.later (by omega)).1
    rwa [hc] at this

/-- Epsilon 1/2, magnitudes up to `2 ^ 900`. -/
example : ∀ x ∈ ([2 ^ 900, -(2 ^ 900), 1, 1 / 3] : List ℚ), |x| ≤ pow2 960 := by decide +kernel

namespace Mad

/-- Apply a function to every value. -/
abbrev map {α β : Type} (f : α → β) (m : Mad α) : Mad β := ⟨m.scoreMedian.map f, m.errorMedian.map f, m.historyCount⟩

theorem run_dbl {M : ℤ} (hM0 : 0 ≤ M) (hM : M ≤ 900) (xs : List ℚ) : ∀ m : Mad ℚ, Fame.Fit M m.scoreMedian →
    Fame.Fit (M + 50) m.errorMedian → m.scoreMedian.historyCount = m.errorMedian.historyCount →
    m.scoreMedian.historyCount + xs.length ≤ 2 ^ 46 → (∀ x ∈ xs, |x| ≤ pow2 M) →
    (xs.map Dbl.fin).foldl (Mad.update Dbl.arith) (m.map .fin) = (xs.foldl (Mad.update b64) m).map .fin := by
  induction xs with
  | nil => exact fun _ _ _ _ _ _ => rfl
  | cons x xs ih =>
    intro m h1 h2 h3 hn hx
    rw [List.length_cons] at hn
    have hx0 := hx x (by simp)
    simp only [List.map_cons, List.foldl_cons]
    have u1 := h1.update hM0 (by omega) hx0
    have hc := Fame.run_count b64 m.scoreMedian [x]
    rw [List.foldl_cons, List.foldl_nil, List.length_singleton] at hc
    have hm : |(m.scoreMedian.update b64 x).median| ≤ pow2 (M + 49) := by
      have hk := (u1.later (by omega)).1
      have hn' : ((m.scoreMedian.update b64 x).historyCount : ℚ) ≤ 2 ^ 46 + 1 := by
        rw [hc]; push_cast
        have : (m.scoreMedian.historyCount : ℚ) ≤ 2 ^ 46 := by exact_mod_cast (by omega : m.scoreMedian.historyCount ≤ 2 ^ 46)
        linarith
      have := Fame.pow2_mul_nat (M := M) 49 (n := 4 * (m.scoreMedian.update b64 x).historyCount) (by linarith)
      exact hk.trans (by simpa using this)
    have ie := (Dbl.Is.sub (d := .fin x) (e := .fin (m.scoreMedian.update b64 x).median) (k := M + 49)
      ⟨rfl, hx0.trans (pow2_le.2 (by omega))⟩ ⟨rfl, hm⟩ (by omega) (by omega)).abs
    rw [show M + 49 + 1 = M + 50 by ring] at ie
    have hie : |b64.abs (b64.sub x (m.scoreMedian.update b64 x).median)| ≤ pow2 (M + 50) := ie.2
    have e1 : (m.map Dbl.fin).update Dbl.arith (.fin x) = (m.update b64 x).map .fin := by
      unfold Mad.update
      simp only [Mad.map]
      rw [h1.update_dbl hM0 (by omega) (by omega) hx0]
      simp only [Fame.evaluate, Fame.map]
      rw [ie.eq]
      have := h2.update_dbl (by omega) (by omega) (by omega) hie
      simp only [Fame.map] at this
      rw [this]
    rw [e1]
    have hc2 := Fame.run_count b64 m.errorMedian [b64.abs (b64.sub x (m.scoreMedian.update b64 x).median)]
    rw [List.foldl_cons, List.foldl_nil, List.length_singleton] at hc2
    refine ih _ u1 (h2.update (by omega) (by omega) hie) ?_ ?_ fun y hy => hx y (by simp [hy])
    · show (m.scoreMedian.update b64 x).historyCount =
        (m.errorMedian.update b64 (b64.abs (b64.sub x (m.scoreMedian.update b64 x).median))).historyCount
      omega
    · show (m.scoreMedian.update b64 x).historyCount + _ ≤ _
      omega

end Mad

/-- **C86**, StreamingMAD: up to `2 ^ 46` observations of magnitude at most `2 ^ 900` on doubles give exactly what rounded
arithmetic without overflow gives. Missing: larger magnitudes, longer streams. -/
theorem C86_mad_partial (d : Mad Dbl) (hd : Mad.new Dbl.arith = .ok d) (xs : List ℚ) (hx : ∀ x ∈ xs, |x| ≤ pow2 900)
    (hn : xs.length ≤ 2 ^ 46) :
    ∃ m, Mad.new b64 = .ok m ∧
      ((xs.map .fin).foldl (Mad.update Dbl.arith) d).evaluate = .fin (xs.foldl (Mad.update b64) m).evaluate := by
  have l0 : Dbl.arith.lit 0 = .fin 0 := dbl_lit_zero
  have b0 : b64.lit 0 = 0 := by simpa using P2.lit_b64 0 (by norm_num)
  have l10 : Dbl.arith.lit (1 / 10) = .fin (b64.lit (1 / 10)) := by decide +kernel
  have hs : ∀ M : ℤ, 0 ≤ M → |b64.lit (1 / 10)| ≤ pow2 M := fun M hM => by
    have h1 : |b64.lit (1 / 10)| ≤ pow2 0 := by decide +kernel
    exact h1.trans (pow2_le.2 hM)
  unfold Mad.new at hd ⊢
  rw [l0, l10] at hd
  rw [b0]
  obtain ⟨f, f1, hd⟩ := Res.bind_eq_ok.1 hd
  obtain ⟨f', f2, hd⟩ := Res.bind_eq_ok.1 hd
  rw [f1] at f2
  injection f2 with f2
  subst f2
  injection hd with hd
  obtain ⟨g, g1, g2, g3⟩ := Fame.new_dbl f1 (hs 900 (by norm_num))
  obtain ⟨g', g1', g2', g3'⟩ := Fame.new_dbl f1 (hs 950 (by norm_num))
  rw [g1] at g1'
  injection g1' with g1'
  subst g1'
  have hg : g.historyCount = 0 := by
    unfold Fame.new at g1
    split at g1
    · cases g1
    · injection g1 with g1; rw [← g1]
  refine ⟨⟨g, g, 0⟩, by rw [g1]; rfl, ?_⟩
  have := Mad.run_dbl (M := 900) (by norm_num) (by norm_num) xs ⟨g, g, 0⟩ g3 g3' rfl (by simpa [hg] using hn) hx
  rw [← hd, g2, this]
  rfl

/-- The median of the errors after `n` observations: the step is at most 1 and epsilon is 0. -/
structure Fame.Small (n : ℕ) (f : Fame Dbl) : Prop where
  count : f.historyCount ≠ 0
  eps : f.epsilon = .fin 0
  median : ∃ v : ℚ, f.median = .fin v ∧ |v| ≤ n ∧ |v| ≤ 2 ^ 53
  step : ∃ s : ℚ, f.stepSize = .fin s ∧ 0 ≤ s ∧ s ≤ 1

theorem Fame.Small.update {n : ℕ} {f : Fame Dbl} (h : f.Small n) (x : Dbl) :
    (f.update Dbl.arith x).Small (n + 1) := by
  obtain ⟨h0, he, ⟨v, hv, hvn, hv53⟩, s, hs, hs0, hs1⟩ := h
  have l1 : Dbl.arith.lit 1 = .fin 1 := dbl_lit_one
  have l2 : Dbl.arith.lit 2 = .fin 2 := by simpa using P2.lit_fin 2 (by norm_num)
  have hv' := abs_le.1 hvn
  have hv'' := abs_le.1 hv53
  have hmove : ∀ q : ℚ, |q| ≤ n + 1 → |q| ≤ 2 ^ 53 + 1 →
      ∃ w : ℚ, Dbl.ofRat q = .fin w ∧ |w| ≤ (n + 1 : ℕ) ∧ |w| ≤ 2 ^ 53 := fun q hq hq53 => by
    have top : rnd64 (2 ^ 53 + 1) = 2 ^ 53 := by decide +kernel
    have h53 : |rnd64 q| ≤ 2 ^ 53 := by
      rw [abs_le] at hq53 ⊢
      have h1 := rnd64_mono hq53.1
      have h2 := rnd64_mono hq53.2
      rw [rnd64_neg, top] at h1
      rw [top] at h2
      exact ⟨h1, h2⟩
    refine ⟨_, Dbl.ofRat_eq (h53.trans (by decide +kernel)), ?_, h53⟩
    by_cases hn : n + 1 ≤ 2 ^ 53
    · have hb := rnd64_abs_le_mul (x := q) (n := n + 1) (k := 0) hn (by norm_num) (by
        rw [pow2_zero]; push_cast; linarith)
      rwa [pow2_zero, mul_one] at hb
    · exact h53.trans (by exact_mod_cast (by omega : 2 ^ 53 ≤ n + 1))
  have hstep : ∀ t : ℚ, 0 ≤ t → t ≤ 1 → ∃ w : ℚ, Dbl.arith.mul (.fin t) (Dbl.arith.add (Dbl.arith.lit 1) f.epsilon) = .fin w ∧
      0 ≤ w ∧ w ≤ 1 := fun t t0 t1 => by
    have g : Dbl.arith.add (Dbl.arith.lit 1) f.epsilon = .fin 1 := by rw [he]; decide +kernel
    rw [g]
    have hb := rnd64_abs_le (x := t * 1) (k := 0) (by norm_num) (by rw [pow2_zero, mul_one, abs_of_nonneg t0]; exact t1)
    refine ⟨_, Dbl.ofRat_eq (hb.trans (pow2_le.2 (by norm_num))), rnd64_nonneg (by linarith), ?_⟩
    rw [pow2_zero] at hb
    exact (abs_le.1 hb).2
  have hhalf : ∃ w : ℚ, Dbl.arith.div (.fin s) (Dbl.arith.lit 2) = .fin w ∧ 0 ≤ w ∧ w ≤ 1 := by
    rw [l2]
    show ∃ w : ℚ, Dbl.div (.fin s) (.fin 2) = .fin w ∧ _
    rw [Dbl.div, if_neg (by norm_num)]
    have hb := rnd64_abs_le (x := s / 2) (k := 0) (by norm_num) (by
      rw [pow2_zero, abs_of_nonneg (by positivity)]; linarith)
    refine ⟨_, Dbl.ofRat_eq (hb.trans (pow2_le.2 (by norm_num))), rnd64_nonneg (by linarith), ?_⟩
    rw [pow2_zero] at hb
    exact (abs_le.1 hb).2
  obtain ⟨w, hw, hw0, hw1⟩ := hhalf
  obtain ⟨a, ha, ha0, ha1⟩ := hstep s hs0 hs1
  obtain ⟨b, hb, hb0, hb1⟩ := hstep w hw0 hw1
  obtain ⟨p, hp, hp1⟩ := hmove (v + -s) (by rw [abs_le]; constructor <;> linarith) (by rw [abs_le]; constructor <;> linarith)
  obtain ⟨q, hq, hq1⟩ := hmove (v + s) (by rw [abs_le]; constructor <;> linarith) (by rw [abs_le]; constructor <;> linarith)
  have hp' : Dbl.arith.sub (.fin v) (.fin s) = .fin p := hp
  have hq' : Dbl.arith.add (.fin v) (.fin s) = .fin q := hq
  have hvn1 : |v| ≤ (n + 1 : ℕ) ∧ |v| ≤ 2 ^ 53 := ⟨by push_cast; linarith, hv53⟩
  have fin : ∀ (c : Bool) (m : Dbl) (r : ℚ), m = .fin r → |r| ≤ (n + 1 : ℕ) ∧ |r| ≤ 2 ^ 53 →
      Fame.Small (n + 1) ⟨m, Dbl.arith.mul (if c then Dbl.arith.div (.fin s) (Dbl.arith.lit 2) else .fin s)
        (Dbl.arith.add (Dbl.arith.lit 1) f.epsilon), f.epsilon, f.historyCount + 1⟩ := by
    intro c m r hm hr
    refine ⟨Nat.succ_ne_zero _, he, ⟨r, hm, hr⟩, ?_⟩
    cases c
    · exact ⟨a, ha, ha0, ha1⟩
    · exact ⟨b, by rw [← hb, ← hw]; rfl, hb0, hb1⟩
  unfold Fame.update
  simp only [h0, if_false]
  by_cases d1 : Dbl.arith.lt x f.median = true
  · simp only [d1, if_true]
    rw [hv, hs, hp']
    by_cases d2 : Dbl.arith.lt (Dbl.arith.abs (Dbl.arith.sub x (.fin p))) (.fin s) = true
    · simpa [h0, d2] using fin true _ p rfl hp1
    · simpa [h0, d2] using fin false _ p rfl hp1
  · rw [Bool.not_eq_true] at d1
    by_cases d3 : Dbl.arith.lt f.median x = true
    · simp only [d1, d3, if_true, Bool.false_eq_true, if_false]
      rw [hv, hs, hq']
      by_cases d2 : Dbl.arith.lt (Dbl.arith.abs (Dbl.arith.sub x (.fin q))) (.fin s) = true
      · simpa [h0, d2] using fin true _ q rfl hq1
      · simpa [h0, d2] using fin false _ q rfl hq1
    · rw [Bool.not_eq_true] at d3
      simp only [d1, d3, Bool.false_eq_true, if_false]
      rw [hv, hs]
      by_cases d2 : Dbl.arith.lt (Dbl.arith.abs (Dbl.arith.sub x (.fin v))) (.fin s) = true
      · simpa [h0, d2, hv] using fin true _ v rfl hvn1
      · simpa [h0, d2, hv, hs] using fin false _ v rfl hvn1

/-- **C86**, StreamingMAD: once the first observation is finite, the result is finite whatever follows (infinities and NaN
included), and after `n + 1` observations at most `n` and at most `2 ^ 53` in magnitude. -/
theorem C86_mad_finite_partial (d : Mad Dbl) (hd : Mad.new Dbl.arith = .ok d) (x : ℚ) (xs : List Dbl) :
    ∃ v : ℚ, ((.fin x :: xs).foldl (Mad.update Dbl.arith) d).evaluate = .fin v ∧ |v| ≤ xs.length ∧ |v| ≤ 2 ^ 53 := by
  suffices h : ((.fin x :: xs).foldl (Mad.update Dbl.arith) d).errorMedian.Small xs.length by
    obtain ⟨v, h1, h2⟩ := h.median
    exact ⟨v, h1, h2⟩
  induction xs using List.reverseRecOn with
  | nil =>
    have e : d = ⟨⟨.fin 0, Dbl.arith.lit (1 / 10), .fin 0, 0⟩, ⟨.fin 0, Dbl.arith.lit (1 / 10), .fin 0, 0⟩, 0⟩ := by
      have : Mad.new Dbl.arith =
        .ok ⟨⟨.fin 0, Dbl.arith.lit (1 / 10), .fin 0, 0⟩, ⟨.fin 0, Dbl.arith.lit (1 / 10), .fin 0, 0⟩, 0⟩ := by decide +kernel
      rw [this] at hd
      injection hd with hd
      exact hd.symm
    rw [List.foldl_cons, List.foldl_nil, e]
    have h1 : (Fame.update Dbl.arith ⟨.fin 0, Dbl.arith.lit (1 / 10), .fin 0, 0⟩ (.fin x)).evaluate = .fin x :=
      (Fame.update_same Dbl.arith (Dbl.lt_irrefl _) (.inr rfl)).1
    have h2 : Dbl.arith.abs (Dbl.arith.sub (.fin x) (.fin x)) = .fin 0 := by
      show Dbl.abs (Dbl.ofRat (x + -x)) = _
      rw [add_neg_cancel]
      decide +kernel
    unfold Mad.update
    simp only [h1, h2]
    refine ⟨by decide +kernel, by decide +kernel, ⟨0, by decide +kernel, by simp⟩, b64.lit (1 / 10), by decide +kernel,
      by decide +kernel, by decide +kernel⟩
  | append_singleton xs y ih =>
    rw [List.length_append, List.length_singleton]
    rw [← List.cons_append, List.foldl_append, List.foldl_cons, List.foldl_nil]
    exact ih.update _

/-- The largest doubles, an infinity and NaN after 3. -/
example (d : Mad Dbl) (hd : Mad.new Dbl.arith = .ok d) :
    ∃ v : ℚ, ((.fin 3 :: [.fin dblMax, .fin (-dblMax), .inf true, .nan, .fin 0]).foldl (Mad.update Dbl.arith) d).evaluate =
      .fin v ∧ |v| ≤ 5 ∧ |v| ≤ 2 ^ 53 := C86_mad_finite_partial d hd 3 _

/-- **C86**, StreamingMAD: the claim for StreamingMAD holds as it stands. -/
theorem C86_mad_always_partial (m : Mad Dbl) (hm : Mad.new Dbl.arith = .ok m) (xs : List ℚ) :
    ∃ v, ((xs.map .fin).foldl (Mad.update Dbl.arith) m).evaluate = .fin v := by
  cases xs with
  | nil =>
    have : Mad.new Dbl.arith =
      .ok ⟨⟨.fin 0, Dbl.arith.lit (1 / 10), .fin 0, 0⟩, ⟨.fin 0, Dbl.arith.lit (1 / 10), .fin 0, 0⟩, 0⟩ := by decide +kernel
    rw [this] at hm
    injection hm with hm
    exact ⟨0, by rw [← hm]; rfl⟩
  | cons x xs =>
    obtain ⟨v, hv, _⟩ := C86_mad_finite_partial m hm x (xs.map .fin)
    exact ⟨v, hv⟩

/-- The largest double and its negative in turn. -/
example (m : Mad Dbl) (hm : Mad.new Dbl.arith = .ok m) :
    ∃ v, ((([dblMax, -dblMax, dblMax, -dblMax] : List ℚ).map .fin).foldl (Mad.update Dbl.arith) m).evaluate = .fin v :=
  C86_mad_always_partial m hm _

end KML
