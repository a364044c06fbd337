import Verif.Lemmas.Float
import Verif.Model.Python
import Verif.Props.DoubleQuantile
import Verif.Props.Python
import Verif.Spec.Double
import Mathlib.Tactic.Linarith
import Mathlib.Tactic.Ring
import Mathlib.Tactic.FieldSimp
import Mathlib.Tactic.Positivity
import Mathlib.Tactic.Zify

/-!
# C110: the doubles of the model are IEEE 754 doubles
-/

namespace KML

open IEEE

/-- The nearest integer is nearest. -/
theorem rne_nearest (q : ℚ) (n : ℤ) : |q - rne q| ≤ |q - n| := by
  have h := rne_spec q
  by_cases hn : n = rne q
  · rw [hn]
  have h1 : (1 : ℚ) ≤ |(n : ℚ) - rne q| := by
    have : (1 : ℤ) ≤ |n - rne q| := Int.one_le_abs (sub_ne_zero.2 hn)
    exact_mod_cast this
  rw [abs_sub_comm] at h
  have h2 : |(n : ℚ) - rne q| ≤ |q - n| + |q - rne q| := by
    have := abs_sub_le (n : ℚ) q (rne q)
    rwa [abs_sub_comm (n : ℚ) q] at this
  linarith

/-- In a tie it is even. -/
theorem rne_tie {q : ℚ} {n : ℤ} (hn : n ≠ rne q) (h : |q - n| = |q - rne q|) : Even (rne q) := by
  have h0 := rne_spec q
  rw [abs_sub_comm] at h0
  have h1 : (1 : ℚ) ≤ |(n : ℚ) - rne q| := by
    have : (1 : ℤ) ≤ |n - rne q| := Int.one_le_abs (sub_ne_zero.2 hn)
    exact_mod_cast this
  have h2 : |(n : ℚ) - rne q| ≤ |q - n| + |q - rne q| := by
    have := abs_sub_le (n : ℚ) q (rne q)
    rwa [abs_sub_comm (n : ℚ) q] at this
  have h3 : |q - rne q| = 1 / 2 := by linarith
  unfold rne at h3 ⊢
  have hf := Int.floor_le q
  have hf1 := Int.lt_floor_add_one q
  dsimp only at h3 ⊢
  split_ifs at h3 ⊢ with a b c
  · rw [abs_of_nonneg (by linarith)] at h3; linarith
  · rw [abs_of_neg (by push_cast; linarith)] at h3; push_cast at h3; linarith
  · exact Int.even_iff.2 c
  · rw [Int.even_add_one, Int.even_iff]; exact c

/-- Rounding to a format: `rnd64` and `rnd32` are instances. -/
def rndTo (p : ℕ) (emin : ℤ) (x : ℚ) : ℚ := if x = 0 then 0 else rndAt (max (expo x - (p - 1 : ℕ)) emin) x

theorem rnd64_eq_rndTo : rnd64 = rndTo 53 (-1074) := rfl

theorem rnd32_eq_rndTo : rnd32 = rndTo 24 (-149) := rfl

section

variable {p : ℕ} {emin : ℤ}

theorem two_zpow_pos (k : ℤ) : (0 : ℚ) < 2 ^ k := zpow_pos (by norm_num) k

/-- Numbers of the format as large as `2 ^ (p - 1 + E)` are multiples of `2 ^ E`. -/
theorem format_grid (hp : 1 ≤ p) {E : ℤ} {y : ℚ} (hy : InFormat p emin y) :
    (∃ n : ℤ, y = n * 2 ^ E) ∨ (emin < E ∧ |y| < 2 ^ (p - 1) * 2 ^ E) := by
  obtain ⟨m, k, hm, hk, rfl⟩ := hy
  by_cases h : E ≤ k
  · left
    obtain ⟨d, rfl⟩ := Int.le.dest h
    refine ⟨m * 2 ^ d, ?_⟩
    rw [zpow_add₀ (by norm_num)]
    push_cast
    rw [zpow_natCast]; ring
  · right
    push Not at h
    refine ⟨by omega, ?_⟩
    rw [abs_mul, abs_of_pos (two_zpow_pos k)]
    have h1 : |(m : ℚ)| < 2 ^ p := by exact_mod_cast hm
    have h2 : (2 : ℚ) ^ p * 2 ^ k ≤ 2 ^ (p - 1) * 2 ^ E := by
      obtain ⟨r, rfl⟩ : ∃ r, p = r + 1 := ⟨p - 1, by omega⟩
      have h3 : (2 : ℚ) ^ (k + 1) ≤ 2 ^ E := zpow_le_zpow_right₀ (by norm_num) (by omega)
      rw [zpow_add_one₀ (by norm_num)] at h3
      have h4 : (0 : ℚ) < 2 ^ r := by positivity
      rw [pow_succ, Nat.add_sub_cancel]
      nlinarith
    exact lt_of_lt_of_le (mul_lt_mul_of_pos_right h1 (two_zpow_pos k)) h2

/-- A multiple of `2 ^ E` with an even last digit is an even multiple. -/
theorem even_of_lastDigit (hp : 1 ≤ p) {E n : ℤ} (hE : E = emin ∨ 2 ^ (p - 1) ≤ |n|) (hE' : emin ≤ E)
    (h : LastDigitEven p emin (n * 2 ^ E)) : Even n := by
  obtain ⟨m, k, he, hm, hk, hc, heq⟩ := h
  by_cases hle : E ≤ k
  · obtain ⟨d, rfl⟩ := Int.le.dest hle
    have : n = m * 2 ^ d := by
      rw [zpow_add₀ (by norm_num), zpow_natCast] at heq
      have h1 : (n : ℚ) * 2 ^ E = (m * 2 ^ d) * 2 ^ E := by rw [heq]; ring
      have := mul_right_cancel₀ (two_zpow_pos E).ne' h1
      exact_mod_cast this
    rw [this]; exact he.mul_right _
  · exfalso
    push Not at hle
    have hn : 2 ^ (p - 1) ≤ |n| := by
      rcases hE with hE | hE
      · omega
      · exact hE
    obtain ⟨d, hd⟩ : ∃ d : ℕ, E = k + (d + 1) := ⟨(E - k - 1).toNat, by omega⟩
    subst hd
    have : m = n * 2 ^ (d + 1) := by
      rw [zpow_add₀ (by norm_num)] at heq
      have h1 : (m : ℚ) * 2 ^ k = (n * 2 ^ (d + 1)) * 2 ^ k := by
        rw [← heq]
        have : (2 : ℚ) ^ ((d : ℤ) + 1) = 2 ^ (d + 1) := by exact_mod_cast zpow_natCast (2 : ℚ) (d + 1)
        rw [this]; ring
      have := mul_right_cancel₀ (two_zpow_pos k).ne' h1
      exact_mod_cast this
    rw [this, abs_mul, abs_of_pos (by positivity : (0 : ℤ) < 2 ^ (d + 1))] at hm
    obtain ⟨r, rfl⟩ : ∃ r, p = r + 1 := ⟨p - 1, by omega⟩
    rw [Nat.add_sub_cancel] at hn
    rw [pow_succ 2 r] at hm
    have h1 : (2 : ℤ) ≤ 2 ^ (d + 1) := by
      rw [pow_succ]
      have : (1 : ℤ) ≤ 2 ^ d := one_le_pow₀ (by norm_num)
      linarith
    have h2 : (0 : ℤ) < 2 ^ r := by positivity
    nlinarith

/-- What is needed of the exponent at which `rndTo` rounds. -/
theorem exponent_spec (hp : 1 ≤ p) {x : ℚ} (hx : x ≠ 0) :
    |x| < 2 ^ p * 2 ^ max (expo x - (p - 1 : ℕ)) emin ∧
      (max (expo x - (p - 1 : ℕ)) emin = emin ∨ 2 ^ (p - 1) * 2 ^ max (expo x - (p - 1 : ℕ)) emin ≤ |x|) := by
  obtain ⟨h1, h2⟩ := expo_spec hx
  rw [pow2_eq] at h1 h2
  constructor
  · refine lt_of_lt_of_le h2 ?_
    rw [← zpow_natCast, ← zpow_add₀ (by norm_num)]
    refine zpow_le_zpow_right₀ (by norm_num) ?_
    have := le_max_left (expo x - (p - 1 : ℕ)) emin
    omega
  · rcases le_total (expo x - (p - 1 : ℕ)) emin with h | h
    · left; exact max_eq_right h
    · right
      rw [max_eq_left h, ← zpow_natCast, ← zpow_add₀ (by norm_num)]
      refine le_trans (zpow_le_zpow_right₀ (by norm_num) ?_) h1
      omega

/-- Distances in units of the last place. -/
theorem scaled_dist (x : ℚ) (E n : ℤ) : |x - n * 2 ^ E| = |x / 2 ^ E - n| * 2 ^ E := by
  have h := two_zpow_pos E
  rw [← abs_of_pos h, ← abs_mul, abs_of_pos h, sub_mul, div_mul_cancel₀ _ h.ne']

/-- A number of the format that is not a multiple of the last place of `x` is further away than some multiple. -/
theorem off_grid {x y : ℚ} {E : ℤ} (h1 : 2 ^ (p - 1) * 2 ^ E ≤ |x|) (h2 : |y| < 2 ^ (p - 1) * 2 ^ E) :
    ∃ n : ℤ, |x - n * 2 ^ E| < |x - y| := by
  have hy := abs_lt.1 h2
  rcases le_total 0 x with hx | hx
  · rw [abs_of_nonneg hx] at h1
    refine ⟨2 ^ (p - 1), ?_⟩
    push_cast
    rw [abs_of_nonneg (by linarith), abs_of_pos (by linarith)]; linarith
  · rw [abs_of_nonpos hx] at h1
    refine ⟨-2 ^ (p - 1), ?_⟩
    push_cast
    rw [abs_of_nonpos (by linarith), abs_of_neg (by linarith)]; linarith

theorem rne_abs_le {q : ℚ} {c : ℤ} (h : |q| ≤ c) : |rne q| ≤ c := by
  obtain ⟨h1, h2⟩ := abs_le.1 h
  refine abs_le.2 ⟨?_, ?_⟩
  · have := rne_mono (p := ((-c : ℤ) : ℚ)) (q := q) (by push_cast; exact h1)
    rwa [rne_int] at this
  · have := rne_mono (p := q) (q := (c : ℚ)) h2
    rwa [rne_int] at this

theorem le_rne_abs {q : ℚ} {c : ℤ} (h : (c : ℚ) ≤ |q|) : c ≤ |rne q| := by
  rcases le_total 0 q with hq | hq
  · rw [abs_of_nonneg hq] at h
    have := rne_mono h
    rw [rne_int] at this
    exact this.trans (le_abs_self _)
  · rw [abs_of_nonpos hq] at h
    have := rne_mono (p := q) (q := ((-c : ℤ) : ℚ)) (by push_cast; linarith)
    rw [rne_int] at this
    exact (by omega : c ≤ -rne q).trans (neg_le_abs _)

theorem rndTo_spec (hp : 2 ≤ p) (x : ℚ) : RoundTo p emin x (rndTo p emin x) := by
  unfold rndTo
  by_cases hx : x = 0
  · subst hx
    rw [if_pos rfl]
    refine ⟨⟨0, emin, by simp, le_rfl, by simp⟩, fun y _ => by simp, fun y _ hne h => ?_⟩
    exact ⟨0, emin, by simp, by simp, le_rfl, .inl rfl, by simp⟩
  rw [if_neg hx]
  obtain ⟨e1, e2⟩ := exponent_spec (emin := emin) (by omega : 1 ≤ p) hx
  have e3 : emin ≤ max (expo x - (p - 1 : ℕ)) emin := le_max_right _ _
  generalize max (expo x - (p - 1 : ℕ)) emin = E at e1 e2 e3 ⊢
  have hu := two_zpow_pos E
  have hr : rndAt E x = rne (x / 2 ^ E) * (2 : ℚ) ^ E := by rw [rndAt, pow2_eq]
  rw [hr]
  have q1 : |x / 2 ^ E| < 2 ^ p := by
    rw [abs_div, abs_of_pos hu, div_lt_iff₀ hu]; exact e1
  have q2 : E = emin ∨ (2 : ℚ) ^ (p - 1) ≤ |x / 2 ^ E| := by
    refine e2.imp_right fun h => ?_
    rw [abs_div, abs_of_pos hu, le_div_iff₀ hu]; exact h
  have n1 : |rne (x / 2 ^ E)| ≤ 2 ^ p := rne_abs_le (by push_cast; exact q1.le)
  have n2 : E = emin ∨ 2 ^ (p - 1) ≤ |rne (x / 2 ^ E)| := q2.imp_right fun h => le_rne_abs (by push_cast; exact h)
  have near : ∀ n : ℤ, |x - rne (x / 2 ^ E) * 2 ^ E| ≤ |x - n * 2 ^ E| := fun n => by
    rw [scaled_dist, scaled_dist]
    exact mul_le_mul_of_nonneg_right (rne_nearest _ n) hu.le
  have even : Even (rne (x / 2 ^ E)) → LastDigitEven p emin (rne (x / 2 ^ E) * 2 ^ E) := fun h => by
    rcases n1.lt_or_eq with hlt | heq
    · exact ⟨_, E, h, hlt, e3, n2, rfl⟩
    · obtain ⟨r, rfl⟩ : ∃ r, p = r + 2 := ⟨p - 2, by omega⟩
      have hs : rne (x / 2 ^ E) = 2 ^ (r + 2) ∨ rne (x / 2 ^ E) = -2 ^ (r + 2) := by
        rcases abs_choice (rne (x / 2 ^ E)) with h | h
        · left; rw [← h, heq]
        · right; rw [← heq, h]; simp
      have hlt : (2 : ℤ) ^ (r + 1) < 2 ^ (r + 2) := by
        have : (0 : ℤ) < 2 ^ r := by positivity
        rw [pow_succ, pow_succ, pow_succ]; linarith
      rcases hs with h | h
      · refine ⟨2 ^ (r + 1), E + 1, ?_, ?_, by omega, .inr ?_, ?_⟩
        · rw [pow_succ]; exact even_two.mul_left _
        · rw [abs_of_pos (by positivity)]; exact hlt
        · rw [abs_of_pos (by positivity)]; exact le_rfl
        · rw [h, zpow_add_one₀ (by norm_num)]; push_cast; ring
      · refine ⟨-2 ^ (r + 1), E + 1, ?_, ?_, by omega, .inr ?_, ?_⟩
        · rw [pow_succ]; exact (even_two.mul_left _).neg
        · rw [abs_neg, abs_of_pos (by positivity)]; exact hlt
        · rw [abs_neg, abs_of_pos (by positivity)]; exact le_rfl
        · rw [h, zpow_add_one₀ (by norm_num)]; push_cast; ring
  refine ⟨?_, fun y hy => ?_, fun y hy hne h => ?_⟩
  · rcases n1.lt_or_eq with hlt | heq
    · exact ⟨_, E, hlt, e3, rfl⟩
    · have he : Even (rne (x / 2 ^ E)) := by
        rw [← even_abs, heq, Int.even_pow]; exact ⟨even_two, by omega⟩
      obtain ⟨m, k, _, h1, h2, _, h3⟩ := even he
      exact ⟨m, k, h1, h2, h3⟩
  · rcases format_grid (E := E) (by omega) hy with ⟨n, rfl⟩ | ⟨h1, h2⟩
    · exact near n
    · obtain ⟨n, hn⟩ := off_grid (e2.resolve_left (by omega)) h2
      exact (near n).trans hn.le
  · rcases format_grid (E := E) (by omega) hy with ⟨n, rfl⟩ | ⟨h1, h2⟩
    · refine even (rne_tie (n := n) (fun h => hne (by rw [h])) ?_)
      rw [scaled_dist, scaled_dist] at h
      exact mul_right_cancel₀ hu.ne' h
    · obtain ⟨n, hn⟩ := off_grid (e2.resolve_left (by omega)) h2
      exact absurd (near n) (by rw [← h]; exact not_le.2 hn)

/-- The specification leaves no choice. -/
theorem IEEE.RoundTo.unique (hp : 2 ≤ p) {x r s : ℚ} (hr : RoundTo p emin x r) (hs : RoundTo p emin x s) : r = s := by
  by_contra hne
  have hd : |x - r| = |x - s| := le_antisymm (hr.2.1 s hs.1) (hs.2.1 r hr.1)
  have er := hr.2.2 s hs.1 (Ne.symm hne) hd.symm
  have es := hs.2.2 r hr.1 hne hd
  by_cases hx : x = 0
  · subst hx
    have h0 : InFormat p emin 0 := ⟨0, emin, by simp, le_rfl, by simp⟩
    have h1 := hr.2.1 0 h0
    have h2 := hs.2.1 0 h0
    simp only [sub_self, abs_zero, zero_sub, abs_neg, abs_nonpos_iff] at h1 h2
    exact hne (h1.trans h2.symm)
  obtain ⟨e1, e2⟩ := exponent_spec (emin := emin) (by omega : 1 ≤ p) hx
  have e3 : emin ≤ max (expo x - (p - 1 : ℕ)) emin := le_max_right _ _
  generalize max (expo x - (p - 1 : ℕ)) emin = E at e1 e2 e3
  have hu := two_zpow_pos E
  -- every integer multiple within reach is a number of the format
  have hround := rndTo_spec (emin := emin) hp x
  have grid : ∀ z, RoundTo p emin x z → ∃ n : ℤ, z = n * 2 ^ E ∧ (E = emin ∨ 2 ^ (p - 1) ≤ |n|) := by
    intro z hz
    have key : E = emin ∨ ¬ |z| < 2 ^ (p - 1) * 2 ^ E := by
      refine e2.imp_right fun h2 hlt => ?_
      -- the power of two is nearer
      have hy := abs_lt.1 hlt
      have f1 : ∀ s : ℤ, |s| = 1 → InFormat p emin (s * 2 ^ (p - 1) * 2 ^ E) := fun s hs =>
        ⟨s * 2 ^ (p - 1), E, by
          rw [abs_mul, hs, one_mul, abs_of_pos (by positivity)]
          exact pow_lt_pow_right₀ (by norm_num) (by omega), e3, by push_cast; ring⟩
      rcases le_total 0 x with hx | hx
      · rw [abs_of_nonneg hx] at h2
        have := hz.2.1 _ (f1 1 rfl)
        push_cast at this
        rw [abs_of_pos (by linarith), abs_of_nonneg (by linarith)] at this
        linarith
      · rw [abs_of_nonpos hx] at h2
        have := hz.2.1 _ (f1 (-1) rfl)
        push_cast at this
        rw [abs_of_neg (by linarith), abs_of_nonpos (by linarith)] at this
        linarith
    rcases format_grid (E := E) (by omega) hz.1 with ⟨n, hn⟩ | ⟨h1, h2⟩
    · refine ⟨n, hn, key.imp_right fun h => ?_⟩
      rw [hn, abs_mul, abs_of_pos hu] at h
      have h5 := le_of_mul_le_mul_right (not_lt.1 h) hu
      exact_mod_cast h5
    · exact absurd h2 (key.resolve_left (by omega))
  obtain ⟨a, rfl, ha⟩ := grid r hr
  obtain ⟨b, rfl, hb⟩ := grid s hs
  have pa := even_of_lastDigit (by omega) ha e3 er
  have pb := even_of_lastDigit (by omega) hb e3 es
  have hab : a ≠ b := fun h => hne (by rw [h])
  rw [scaled_dist, scaled_dist] at hd
  have hd' := mul_right_cancel₀ hu.ne' hd
  -- both are at most half a unit away
  have close : |x / 2 ^ E - a| ≤ 1 / 2 := by
    obtain ⟨c, hc, _⟩ := grid _ hround
    have h1 := hr.2.1 _ hround.1
    have h2 : |x - rndTo p emin x| ≤ 1 / 2 * 2 ^ E := by
      have h3 : |x - rne (x / 2 ^ E) * 2 ^ E| ≤ 1 / 2 * 2 ^ E := by
        rw [scaled_dist]
        have := rne_spec (x / 2 ^ E)
        rw [abs_sub_comm] at this
        exact mul_le_mul_of_nonneg_right this hu.le
      refine le_trans (hround.2.1 _ ?_) h3
      have n1 : |rne (x / 2 ^ E)| ≤ 2 ^ p := rne_abs_le (by
        push_cast
        rw [abs_div, abs_of_pos hu, div_le_iff₀ hu]; exact e1.le)
      rcases n1.lt_or_eq with hlt | heq
      · exact ⟨_, E, hlt, e3, rfl⟩
      · obtain ⟨t, rfl⟩ : ∃ t, p = t + 1 := ⟨p - 1, by omega⟩
        have hs : rne (x / 2 ^ E) = 2 ^ (t + 1) ∨ rne (x / 2 ^ E) = -2 ^ (t + 1) := by
          rcases abs_choice (rne (x / 2 ^ E)) with h | h
          · left; rw [← h, heq]
          · right; rw [← heq, h]; simp
        have hlt : (2 : ℤ) ^ t < 2 ^ (t + 1) := pow_lt_pow_right₀ (by norm_num) (by omega)
        rcases hs with h | h
        · refine ⟨2 ^ t, E + 1, ?_, by omega, ?_⟩
          · rw [abs_of_pos (by positivity)]; exact hlt
          · rw [h, zpow_add_one₀ (by norm_num)]; push_cast; ring
        · refine ⟨-2 ^ t, E + 1, ?_, by omega, ?_⟩
          · rw [abs_neg, abs_of_pos (by positivity)]; exact hlt
          · rw [h, zpow_add_one₀ (by norm_num)]; push_cast; ring
    have h4 := h1.trans h2
    rw [scaled_dist] at h4
    exact le_of_mul_le_mul_right h4 hu
  have h6 : |(a : ℚ) - b| ≤ 1 := by
    have := abs_sub_le (a : ℚ) (x / 2 ^ E) b
    rw [abs_sub_comm (a : ℚ) (x / 2 ^ E)] at this
    linarith
  have h7 : |a - b| ≤ 1 := by exact_mod_cast h6
  have h8 : a - b ≠ 0 := sub_ne_zero.2 hab
  obtain ⟨i, hi⟩ := pa
  obtain ⟨j, hj⟩ := pb
  rw [abs_le] at h7
  omega

end

namespace Dbl

/-- A number that a `double` can hold: 53 binary digits, exponents from -1074 to 971. -/
def Representable (q : ℚ) : Prop := ∃ m k : ℤ, |m| < 2 ^ 53 ∧ -1074 ≤ k ∧ k ≤ 971 ∧ q = m * (2 : ℚ) ^ k

/-- A value of type `double`. -/
def Valid : Dbl → Prop
  | .fin q => Representable q
  | _ => True

/-- What IEEE 754 says a result is whose exact value is `x`: rounded to nearest as if the exponent were not bounded, and
infinity if that exceeds the largest `double`. -/
def Rounds (x : ℚ) (d : Dbl) : Prop :=
  ∃ r, RoundTo 53 (-1074) x r ∧
    (|r| ≤ (2 - 2 ^ (-52 : ℤ)) * 2 ^ (1023 : ℕ) ∧ d = .fin r ∨
      (2 - 2 ^ (-52 : ℤ)) * 2 ^ (1023 : ℕ) < |r| ∧ d = .inf (decide (r < 0)))

theorem max_eq : ((2 - 2 ^ (-52 : ℤ)) * 2 ^ (1023 : ℕ) : ℚ) = (2 ^ 53 - 1) * 2 ^ 971 := by
  have h : (2 : ℚ) ^ (1023 : ℕ) = 2 ^ 52 * 2 ^ 971 := by rw [← pow_add]
  rw [h, zpow_neg]
  have : ((2 : ℚ) ^ (52 : ℤ))⁻¹ * 2 ^ 52 = 1 := by norm_num
  have h2 : (2 : ℚ) * 2 ^ 52 = 2 ^ 53 := by norm_num
  calc (2 - ((2 : ℚ) ^ (52 : ℤ))⁻¹) * (2 ^ 52 * 2 ^ 971)
      = (2 * 2 ^ 52 - ((2 : ℚ) ^ (52 : ℤ))⁻¹ * 2 ^ 52) * 2 ^ 971 := by ring
    _ = _ := by rw [this, h2]

/-- The numbers a `double` can hold are those of the format up to the largest one. -/
theorem representable_iff (q : ℚ) : Representable q ↔ InFormat 53 (-1074) q ∧ |q| ≤ (2 ^ 53 - 1) * 2 ^ 971 := by
  constructor
  · rintro ⟨m, k, hm, hk, hk', rfl⟩
    refine ⟨⟨m, k, hm, hk, rfl⟩, ?_⟩
    rw [abs_mul, abs_of_pos (two_zpow_pos k)]
    have h1 : |(m : ℚ)| ≤ 2 ^ 53 - 1 := by
      have : |m| ≤ 2 ^ 53 - 1 := by omega
      exact_mod_cast this
    have h2 : (2 : ℚ) ^ k ≤ 2 ^ 971 := by
      rw [← zpow_natCast]; exact zpow_le_zpow_right₀ (by norm_num) hk'
    exact mul_le_mul h1 h2 (two_zpow_pos k).le (by norm_num)
  · rintro ⟨⟨m, k, hm, hk, rfl⟩, h⟩
    by_cases hk' : k ≤ 971
    · exact ⟨m, k, hm, hk, hk', rfl⟩
    obtain ⟨d, rfl⟩ : ∃ d : ℕ, k = d + 971 := ⟨(k - 971).toNat, by omega⟩
    have e : (m : ℚ) * 2 ^ ((d : ℤ) + 971) = ((m * 2 ^ d : ℤ) : ℚ) * 2 ^ (971 : ℤ) := by
      rw [zpow_add₀ (by norm_num), zpow_natCast]; push_cast; ring
    refine ⟨m * 2 ^ d, 971, ?_, by norm_num, le_rfl, e⟩
    rw [e, abs_mul, abs_of_pos (two_zpow_pos 971)] at h
    have h3 : |((m * 2 ^ d : ℤ) : ℚ)| ≤ 2 ^ 53 - 1 :=
      le_of_mul_le_mul_right (h.trans_eq (by rw [← zpow_natCast (2 : ℚ) 971]; rfl)) (two_zpow_pos 971)
    have h4 : |m * 2 ^ d| ≤ 2 ^ 53 - 1 := by exact_mod_cast h3
    omega

theorem ofRat_rounds (x : ℚ) : Rounds x (ofRat x) := by
  refine ⟨rnd64 x, rndTo_spec (by norm_num) x, ?_⟩
  rw [max_eq, ofRat]
  split_ifs with h
  · exact .inr ⟨h, rfl⟩
  · exact .inl ⟨not_lt.1 h, rfl⟩

theorem Rounds.valid {x : ℚ} {d : Dbl} (h : Rounds x d) : d.Valid := by
  obtain ⟨r, h1, ⟨h2, rfl⟩ | ⟨_, rfl⟩⟩ := h
  · exact (representable_iff r).2 ⟨h1.1, by rwa [max_eq] at h2⟩
  · trivial

theorem Rounds.unique {x : ℚ} {d e : Dbl} (h : Rounds x d) (h' : Rounds x e) : d = e := by
  obtain ⟨r, h1, h2⟩ := h
  obtain ⟨s, h3, h4⟩ := h'
  obtain rfl := h1.unique (by norm_num) h3
  rcases h2 with ⟨h2, rfl⟩ | ⟨h2, rfl⟩ <;> rcases h4 with ⟨h4, rfl⟩ | ⟨h4, rfl⟩
  · rfl
  · exact absurd h2 (not_le.2 h4)
  · exact absurd h4 (not_le.2 h2)
  · rfl

end Dbl

/-! ## C110 -/

/-- **C110**: `rnd64 x` is the one double (were exponents not bounded above) nearest to `x`, the even one of two. -/
theorem C110_round (x r : ℚ) : RoundTo 53 (-1074) x r ↔ r = rnd64 x :=
  ⟨fun h => h.unique (by norm_num) (rndTo_spec (by norm_num) x), fun h => h ▸ rndTo_spec (by norm_num) x⟩

/-- **C110** for the `float` of the two containers in Python. -/
theorem C110_round_float (x r : ℚ) : RoundTo 24 (-149) x r ↔ r = rnd32 x :=
  ⟨fun h => h.unique (by norm_num) (rndTo_spec (by norm_num) x), fun h => h ▸ rndTo_spec (by norm_num) x⟩

/-- **C110**: the hypotheses "is a double" of the other claims mean what they should: 53 digits, exponent from -1074 to 971. -/
theorem C110_double (q : ℚ) : (IsDouble q ↔ Dbl.Representable q) ∧ ((Dbl.fin q).IsDouble ↔ Dbl.Representable q) := by
  have fmt : rnd64 q = q ↔ InFormat 53 (-1074) q := by
    constructor
    · intro h
      have := (rndTo_spec (p := 53) (emin := -1074) (by norm_num) q).1
      rwa [← rnd64_eq_rndTo, h] at this
    · intro h
      refine ((C110_round q q).1 ⟨h, fun y _ => by simp, fun y _ hne hd => ?_⟩).symm
      rw [sub_self, abs_zero, abs_eq_zero, sub_eq_zero] at hd
      exact absurd hd.symm hne
  constructor
  · rw [Dbl.representable_iff, IsDouble, fmt]; rfl
  · rw [Dbl.representable_iff, ← fmt]
    show (if _ < |rnd64 q| then _ else _) = _ ↔ _
    constructor
    · intro h
      split_ifs at h with h1
      injection h with h
      exact ⟨h, by rw [h] at h1; exact not_lt.1 h1⟩
    · rintro ⟨h1, h2⟩
      rw [h1, if_neg (not_lt.2 h2)]

/-- **C110**: the operations on finite doubles are the exact operations, rounded; overflow gives an infinity of the right
sign. `Rounds x d` determines `d`. -/
theorem C110_operations (a b : ℚ) (n : ℤ) :
    Dbl.Rounds (a + b) (Dbl.arith.add (.fin a) (.fin b)) ∧ Dbl.Rounds (a - b) (Dbl.arith.sub (.fin a) (.fin b)) ∧
      Dbl.Rounds (a * b) (Dbl.arith.mul (.fin a) (.fin b)) ∧
      (b ≠ 0 → Dbl.Rounds (a / b) (Dbl.arith.div (.fin a) (.fin b))) ∧ Dbl.Rounds a (Dbl.arith.lit a) ∧
      Dbl.Rounds n (Dbl.arith.ofInt n) ∧ ∀ x d e, Dbl.Rounds x d → Dbl.Rounds x e → d = e := by
  refine ⟨Dbl.ofRat_rounds _, ?_, Dbl.ofRat_rounds _, fun h => ?_, Dbl.ofRat_rounds _, Dbl.ofRat_rounds _,
    fun x d e => Dbl.Rounds.unique⟩
  · rw [sub_eq_add_neg]; exact Dbl.ofRat_rounds (a + -b)
  · show Dbl.Rounds _ (if b = 0 then _ else Dbl.ofRat (a / b))
    rw [if_neg h]
    exact Dbl.ofRat_rounds _

/-- **C110**: results are doubles. -/
theorem C110_closed {a b : Dbl} (ha : a.Valid) (hb : b.Valid) :
    (Dbl.arith.add a b).Valid ∧ (Dbl.arith.sub a b).Valid ∧ (Dbl.arith.mul a b).Valid ∧ (Dbl.arith.div a b).Valid ∧
      (Dbl.arith.abs a).Valid := by
  have z : Dbl.Representable 0 := ⟨0, 0, by norm_num, by norm_num, by norm_num, by norm_num⟩
  refine ⟨?_, ?_, ?_, ?_, ?_⟩
  · cases a <;> cases b <;> try trivial
    · show (if _ then _ else _ : Dbl).Valid
      split_ifs <;> trivial
    · exact (Dbl.ofRat_rounds _).valid
  · cases a <;> cases b <;> try trivial
    · show (if _ then _ else _ : Dbl).Valid
      split_ifs <;> trivial
    · exact (Dbl.ofRat_rounds _).valid
  · cases a <;> cases b <;> try trivial
    · show (if _ then _ else _ : Dbl).Valid
      split_ifs <;> trivial
    · show (if _ then _ else _ : Dbl).Valid
      split_ifs <;> trivial
    · exact (Dbl.ofRat_rounds _).valid
  · rcases a with _ | s | a <;> rcases b with _ | t | b <;> try first | trivial | exact z
    show (if b = 0 then (if a = 0 then .nan else .inf (decide (a < 0))) else Dbl.ofRat (a / b) : Dbl).Valid
    split_ifs
    · trivial
    · trivial
    · exact (Dbl.ofRat_rounds _).valid
  · cases a with
    | nan => trivial
    | inf s => trivial
    | fin q =>
      obtain ⟨m, k, hm, h1, h2, rfl⟩ := ha
      exact ⟨|m|, k, by rwa [abs_abs], h1, h2, by push_cast; rw [abs_mul, abs_of_pos (two_zpow_pos k)]⟩

/-- **C110**: what is not a number or infinite. Infinities obey limits where there is one, NaN is absorbing, and every
comparison with NaN is false. -/
theorem C110_special (a : Dbl) (q : ℚ) (s t : Bool) :
    (∀ op ∈ [Dbl.arith.add, Dbl.arith.sub, Dbl.arith.mul, Dbl.arith.div], op .nan a = .nan ∧ op a .nan = .nan) ∧
      (∀ cmp ∈ [Dbl.arith.lt, Dbl.arith.le, Dbl.arith.eq], cmp .nan a = false ∧ cmp a .nan = false) ∧
      Dbl.arith.add (.inf s) (.inf s) = .inf s ∧ Dbl.arith.add (.inf s) (.inf !s) = .nan ∧
      Dbl.arith.sub (.inf s) (.inf s) = .nan ∧ Dbl.arith.sub (.inf s) (.inf !s) = .inf s ∧
      Dbl.arith.add (.inf s) (.fin q) = .inf s ∧ Dbl.arith.add (.fin q) (.inf s) = .inf s ∧
      Dbl.arith.sub (.inf s) (.fin q) = .inf s ∧ Dbl.arith.sub (.fin q) (.inf s) = .inf !s ∧
      Dbl.arith.mul (.inf s) (.inf t) = .inf (s != t) ∧
      Dbl.arith.mul (.inf s) (.fin 0) = .nan ∧ Dbl.arith.mul (.fin 0) (.inf s) = .nan ∧
      (0 < q → Dbl.arith.mul (.inf s) (.fin q) = .inf s ∧ Dbl.arith.mul (.fin q) (.inf s) = .inf s ∧
        Dbl.arith.div (.inf s) (.fin q) = .inf s ∧ Dbl.arith.div (.fin q) (.fin 0) = .inf false) ∧
      (q < 0 → Dbl.arith.mul (.inf s) (.fin q) = .inf !s ∧ Dbl.arith.mul (.fin q) (.inf s) = .inf !s ∧
        Dbl.arith.div (.inf s) (.fin q) = .inf !s ∧ Dbl.arith.div (.fin q) (.fin 0) = .inf true) ∧
      Dbl.arith.div (.inf s) (.inf t) = .nan ∧ Dbl.arith.div (.fin q) (.inf s) = .fin 0 ∧
      Dbl.arith.div (.fin 0) (.fin 0) = .nan ∧ Dbl.arith.abs .nan = .nan ∧ Dbl.arith.abs (.inf s) = .inf false ∧
      Dbl.arith.abs (.fin q) = .fin |q| := by
  refine ⟨?_, ?_, ?_⟩
  · intro op h
    simp only [List.mem_cons, List.not_mem_nil, or_false] at h
    rcases h with rfl | rfl | rfl | rfl <;> cases a <;> exact ⟨rfl, rfl⟩
  · intro op h
    simp only [List.mem_cons, List.not_mem_nil, or_false] at h
    rcases h with rfl | rfl | rfl <;> cases a <;> exact ⟨rfl, rfl⟩
  · refine ⟨?_, ?_, ?_, ?_, rfl, rfl, rfl, rfl, rfl, ?_, ?_, fun h => ?_, fun h => ?_, rfl, rfl, ?_, rfl, rfl, rfl⟩
    · cases s <;> rfl
    · cases s <;> rfl
    · cases s <;> rfl
    · cases s <;> rfl
    · rfl
    · rfl
    · have h0 : q ≠ 0 := h.ne'
      have h1 : ¬ q < 0 := not_lt.2 h.le
      refine ⟨?_, ?_, ?_, ?_⟩
      · simp [Dbl.arith, Dbl.mul, Dbl.isZero, Dbl.isNeg, h0, h1]
      · simp [Dbl.arith, Dbl.mul, Dbl.isZero, Dbl.isNeg, h0, h1]
      · simp [Dbl.arith, Dbl.div, Dbl.isNeg, h1]
      · simp [Dbl.arith, Dbl.div, h0, h1]
    · have h0 : q ≠ 0 := h.ne
      refine ⟨?_, ?_, ?_, ?_⟩
      · simp [Dbl.arith, Dbl.mul, Dbl.isZero, Dbl.isNeg, h0, h]
      · simp [Dbl.arith, Dbl.mul, Dbl.isZero, Dbl.isNeg, h0, h]
      · simp [Dbl.arith, Dbl.div, Dbl.isNeg, h]
      · simp [Dbl.arith, Dbl.div, h0, h]
    · rfl

/-- **C110**: comparisons are those of the numbers, minus infinity below and plus infinity above all of them. -/
theorem C110_compare (a b : ℚ) (s t : Bool) :
    (Dbl.arith.lt (.fin a) (.fin b) = true ↔ a < b) ∧ (Dbl.arith.le (.fin a) (.fin b) = true ↔ a ≤ b) ∧
      (Dbl.arith.eq (.fin a) (.fin b) = true ↔ a = b) ∧
      (Dbl.arith.lt (.inf s) (.fin b) = true ↔ s = true) ∧ (Dbl.arith.lt (.fin a) (.inf s) = true ↔ s = false) ∧
      (Dbl.arith.le (.inf s) (.fin b) = true ↔ s = true) ∧ (Dbl.arith.le (.fin a) (.inf s) = true ↔ s = false) ∧
      Dbl.arith.eq (.inf s) (.fin b) = false ∧ Dbl.arith.eq (.fin a) (.inf s) = false ∧
      (Dbl.arith.lt (.inf s) (.inf t) = true ↔ s = true ∧ t = false) ∧
      (Dbl.arith.le (.inf s) (.inf t) = true ↔ s = true ∨ t = false) ∧ (Dbl.arith.eq (.inf s) (.inf t) = true ↔ s = t) := by
  refine ⟨by simp [Dbl.arith, Dbl.lt], ?_, by simp [Dbl.arith, Dbl.eq], ?_, ?_, ?_, ?_, rfl, rfl, ?_, ?_, ?_⟩
  · simp [Dbl.arith, Dbl.le, Dbl.lt, Dbl.eq, le_iff_lt_or_eq]
  all_goals cases s <;> cases t <;> simp [Dbl.arith, Dbl.le, Dbl.lt, Dbl.eq]

/-- **C110**: `static_cast<int>(std::round(x))` is the nearest integer, the one further from 0 if there are two. -/
theorem C110_round_int (x : ℚ) (n : ℤ) : Dbl.arith.round (.fin x) = n ↔
    |x - n| ≤ 1 / 2 ∧ (|x - n| = 1 / 2 → |x| < |(n : ℚ)|) := by
  show (if 0 ≤ x then ⌊x + 1 / 2⌋ else ⌈x - 1 / 2⌉) = n ↔ _
  split_ifs with h
  · rw [Int.floor_eq_iff, abs_of_nonneg h]
    constructor
    · rintro ⟨h1, h2⟩
      refine ⟨abs_le.2 ⟨by linarith, by linarith⟩, fun h3 => ?_⟩
      rcases (abs_eq (by norm_num)).1 h3 with h3 | h3
      · linarith
      · exact lt_of_lt_of_le (by linarith) (le_abs_self _)
    · rintro ⟨h1, h2⟩
      obtain ⟨h3, h4⟩ := abs_le.1 h1
      refine ⟨by linarith, lt_of_le_of_ne (by linarith) fun h5 => ?_⟩
      have h6 : x - n = 1 / 2 := by linarith
      have h7 := h2 (by rw [h6]; norm_num)
      have h8 : (0 : ℚ) ≤ n := by
        have : (-1 : ℚ) < n := by linarith
        have : (-1 : ℤ) < n := by exact_mod_cast this
        exact_mod_cast (by omega : 0 ≤ n)
      rw [abs_of_nonneg h8] at h7
      linarith
  · push Not at h
    rw [Int.ceil_eq_iff, abs_of_neg h]
    constructor
    · rintro ⟨h1, h2⟩
      refine ⟨abs_le.2 ⟨by linarith, by linarith⟩, fun h3 => ?_⟩
      rcases (abs_eq (by norm_num)).1 h3 with h3 | h3
      · exact lt_of_lt_of_le (by linarith) (neg_le_abs _)
      · linarith
    · rintro ⟨h1, h2⟩
      obtain ⟨h3, h4⟩ := abs_le.1 h1
      refine ⟨lt_of_le_of_ne (by linarith) fun h5 => ?_, by linarith⟩
      have h6 : x - n = -(1 / 2) := by linarith
      have h7 := h2 (by rw [h6]; norm_num)
      have h8 : (n : ℚ) ≤ 0 := by
        have : (n : ℚ) < 1 := by linarith
        have : n < 1 := by exact_mod_cast this
        exact_mod_cast (by omega : n ≤ 0)
      rw [abs_of_nonpos h8] at h7
      linarith

/-- **C110** for `float`: conversion from `double` rounds to nearest; beyond the largest `float` it gives infinity. -/
theorem C110_float (q r : ℚ) (h : RoundTo 24 (-149) q r) :
    (Dbl.fin q).narrow = if |r| ≤ (2 - 2 ^ (-23 : ℤ)) * 2 ^ (127 : ℕ) then .fin r else .inf (decide (r < 0)) := by
  obtain rfl := (C110_round_float q r).1 h
  have e : ((2 - 2 ^ (-23 : ℤ)) * 2 ^ (127 : ℕ) : ℚ) = fltMax := by norm_num [fltMax]
  rw [e]
  show (if fltMax < |rnd32 q| then _ else _) = _
  split_ifs with h1 h2 h2
  · exact absurd h2 (not_le.2 h1)
  · rfl
  · rfl
  · exact absurd (not_lt.1 h1) h2

/-- A tie: 2^53 + 1 lies between two doubles and goes to the even one, 2^53. -/
example : RoundTo 53 (-1074) (2 ^ 53 + 1) (2 ^ 53) ∧ rnd64 (2 ^ 53 + 1) = 2 ^ 53 ∧ rnd64 (2 ^ 53 + 3) = 2 ^ 53 + 4 :=
  ⟨(C110_round _ _).2 (by decide +kernel), by decide +kernel, by decide +kernel⟩

/-- The smallest double is 2^-1074; half of it is a tie with 0. -/
example : rnd64 (pow2 (-1074)) = pow2 (-1074) ∧ rnd64 (pow2 (-1075)) = 0 ∧ rnd64 (3 * pow2 (-1075)) = pow2 (-1073) := by
  decide +kernel

/-- The sum of the largest double and half the last digit of it overflows, a bit less does not. -/
example : Dbl.arith.add (.fin ((2 ^ 53 - 1) * 2 ^ 971)) (.fin (2 ^ 970)) = .inf false ∧
    Dbl.arith.add (.fin ((2 ^ 53 - 1) * 2 ^ 971)) (.fin (2 ^ 970 - 2 ^ 917)) = .fin ((2 ^ 53 - 1) * 2 ^ 971) := by
  decide +kernel

/-- 0.1 + 0.2 is not 0.3. -/
example : Dbl.arith.add (Dbl.arith.lit (1 / 10)) (Dbl.arith.lit (2 / 10)) ≠ Dbl.arith.lit (3 / 10) := by decide +kernel

end KML
