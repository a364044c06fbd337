import Verif.Model.Float
import Mathlib.Tactic.Linarith
import Mathlib.Tactic.Positivity
import Mathlib.Tactic.FieldSimp
import Mathlib.Tactic.Ring
import Mathlib.Tactic.NormNum
import Mathlib.Algebra.Order.Floor.Ring
import Mathlib.Data.Rat.Lemmas
import Mathlib.Algebra.Order.GroupWithZero.Basic
import Mathlib.Data.Nat.Log

/-! Round-to-nearest-even at 53 bits satisfies the assumptions of `Rounding`. -/

namespace KML

theorem pow2_eq (e : ℤ) : pow2 e = (2 : ℚ) ^ e := by
  cases e with
  | ofNat n => simp [pow2]
  | negSucc n =>
    rw [pow2, zpow_negSucc, Rat.mkRat_eq_div]
    simp

theorem pow2_pos (e : ℤ) : 0 < pow2 e := by rw [pow2_eq]; exact zpow_pos (by norm_num) e

theorem pow2_add (a b : ℤ) : pow2 (a + b) = pow2 a * pow2 b := by
  simp only [pow2_eq]; exact zpow_add₀ (by norm_num) a b

theorem pow2_le {a b : ℤ} : pow2 a ≤ pow2 b ↔ a ≤ b := by
  simp only [pow2_eq]; exact zpow_le_zpow_iff_right₀ (by norm_num)

theorem pow2_lt {a b : ℤ} : pow2 a < pow2 b ↔ a < b := by
  simp only [pow2_eq]; exact zpow_lt_zpow_iff_right₀ (by norm_num)

theorem pow2_succ (a : ℤ) : pow2 (a + 1) = 2 * pow2 a := by
  rw [pow2_add, mul_comm]; congr 1

theorem expo_spec {x : ℚ} (hx : x ≠ 0) : pow2 (expo x) ≤ |x| ∧ |x| < pow2 (expo x + 1) := by
  have hn : x.num.natAbs ≠ 0 := by simpa using hx
  have hd : x.den ≠ 0 := x.den_ne_zero
  set a := Nat.log2 x.num.natAbs with ha
  set b := Nat.log2 x.den with hb
  have h1 : 2 ^ a ≤ x.num.natAbs := Nat.log2_self_le hn
  have h2 : x.num.natAbs < 2 ^ (a + 1) := Nat.lt_log2_self
  have h3 : 2 ^ b ≤ x.den := Nat.log2_self_le hd
  have h4 : x.den < 2 ^ (b + 1) := Nat.lt_log2_self
  have habs : |x| = (x.num.natAbs : ℚ) / x.den := by
    conv_lhs => rw [← Rat.num_div_den x]
    rw [abs_div]; simp
  have h1' : (2 : ℚ) ^ a ≤ (x.num.natAbs : ℚ) := by exact_mod_cast h1
  have h2' : (x.num.natAbs : ℚ) < (2 : ℚ) ^ (a + 1) := by exact_mod_cast h2
  have h3' : (2 : ℚ) ^ b ≤ (x.den : ℚ) := by exact_mod_cast h3
  have h4' : (x.den : ℚ) < (2 : ℚ) ^ (b + 1) := by exact_mod_cast h4
  have hdpos : (0 : ℚ) < x.den := by positivity
  have e1 : pow2 ((a : ℤ) - b) = 2 ^ a / 2 ^ b := by
    rw [pow2_eq, zpow_sub₀ (by norm_num)]; simp
  have hup : |x| < pow2 ((a : ℤ) - b + 1) := by
    rw [pow2_succ, e1, habs, div_lt_iff₀ hdpos]
    have : (2 : ℚ) * (2 ^ a / 2 ^ b) * x.den = 2 ^ (a + 1) * (x.den / 2 ^ b) := by ring
    rw [this]
    have : (1 : ℚ) ≤ x.den / 2 ^ b := by rw [le_div_iff₀ (by positivity)]; linarith
    have hp : (0 : ℚ) < 2 ^ (a + 1) := by positivity
    nlinarith
  have hlo : pow2 ((a : ℤ) - b - 1) ≤ |x| := by
    have : pow2 ((a : ℤ) - b) = 2 * pow2 ((a : ℤ) - b - 1) := by
      rw [← pow2_succ]; congr 1; ring
    have h5 : pow2 ((a : ℤ) - b - 1) = 2 ^ a / 2 ^ (b + 1) := by
      rw [e1] at this
      rw [pow_succ]
      field_simp at this ⊢
      linarith
    rw [h5, habs, div_le_div_iff₀ (by positivity) hdpos]
    have hp : (0 : ℚ) < 2 ^ a := by positivity
    nlinarith
  have hE : expo x = if pow2 ((a : ℤ) - b) ≤ |x| then (a : ℤ) - b else (a : ℤ) - b - 1 := rfl
  rw [hE]
  split
  · exact ⟨‹_›, hup⟩
  · refine ⟨hlo, ?_⟩
    rw [sub_add_cancel]
    exact not_le.1 ‹_›

theorem expo_unique {x : ℚ} {e : ℤ} (h1 : pow2 e ≤ |x|) (h2 : |x| < pow2 (e + 1)) : expo x = e := by
  have hx : x ≠ 0 := by
    rintro rfl
    have := pow2_pos e
    simp at h1; linarith
  obtain ⟨h3, h4⟩ := expo_spec hx
  have := pow2_lt.1 (h1.trans_lt h4)
  have := pow2_lt.1 (h3.trans_lt h2)
  omega

theorem expo_mono {x y : ℚ} (hx : x ≠ 0) (h : |x| ≤ |y|) : expo x ≤ expo y := by
  have hy : y ≠ 0 := by
    rintro rfl
    simp at h; exact hx h
  have := pow2_lt.1 (((expo_spec hx).1.trans h).trans_lt (expo_spec hy).2)
  omega

theorem expo_neg (x : ℚ) : expo (-x) = expo x := by
  unfold expo; simp

theorem expo_scale {x : ℚ} (hx : x ≠ 0) (k : ℤ) : expo (x * pow2 k) = expo x + k := by
  obtain ⟨h1, h2⟩ := expo_spec hx
  have hk := pow2_pos k
  apply expo_unique
  · rw [abs_mul, abs_of_pos hk, pow2_add]
    exact mul_le_mul_of_nonneg_right h1 hk.le
  · rw [abs_mul, abs_of_pos hk, show expo x + k + 1 = expo x + 1 + k by ring, pow2_add]
    exact mul_lt_mul_of_pos_right h2 hk

/-! ### `rne` -/

theorem rne_int (n : ℤ) : rne (n : ℚ) = n := by
  simp [rne]

theorem rne_spec (q : ℚ) : |(rne q : ℚ) - q| ≤ 1 / 2 := by
  have h1 := Int.floor_le q
  have h2 := Int.lt_floor_add_one q
  unfold rne
  simp only
  split
  · rw [abs_le]; constructor <;> linarith
  · split
    · push_cast; rw [abs_le]; constructor <;> linarith
    · split
      · rw [abs_le]; constructor <;> linarith
      · push_cast; rw [abs_le]; constructor <;> linarith

theorem rne_cases (q : ℚ) : rne q = ⌊q⌋ ∨ rne q = ⌊q⌋ + 1 := by
  unfold rne; simp only
  split_ifs <;> simp

theorem rne_mono {p q : ℚ} (h : p ≤ q) : rne p ≤ rne q := by
  have hf : ⌊p⌋ ≤ ⌊q⌋ := Int.floor_le_floor h
  rcases hf.lt_or_eq with hlt | heq
  · rcases rne_cases p with hp | hp <;> rcases rne_cases q with hq | hq <;> omega
  · unfold rne
    simp only
    rw [heq]
    split_ifs <;> first | omega | linarith

theorem rne_neg (q : ℚ) : rne (-q) = - rne q := by
  by_cases hq : (⌊q⌋ : ℚ) = q
  · have h1 : rne q = ⌊q⌋ := by conv_lhs => rw [← hq]; rw [rne_int]
    have h2 : rne (-q) = -⌊q⌋ := by
      conv_lhs => rw [← hq, ← Int.cast_neg, rne_int]
    rw [h1, h2]
  · have h1 := Int.floor_le q
    have h1' : (⌊q⌋ : ℚ) < q := lt_of_le_of_ne h1 hq
    have h2 := Int.lt_floor_add_one q
    have hfl : ⌊-q⌋ = -⌊q⌋ - 1 := by
      rw [Int.floor_eq_iff]; push_cast; constructor <;> linarith
    unfold rne
    simp only [hfl]
    push_cast
    split_ifs <;> first | omega | linarith

theorem rndAt_int_mul (k m : ℤ) : rndAt k ((m : ℚ) * pow2 k) = m * pow2 k := by
  have := (pow2_pos k).ne'
  rw [rndAt, mul_div_assoc, div_self this, mul_one, rne_int]

theorem rndAt_mono (k : ℤ) {x y : ℚ} (h : x ≤ y) : rndAt k x ≤ rndAt k y := by
  have hk := pow2_pos k
  unfold rndAt
  have : rne (x / pow2 k) ≤ rne (y / pow2 k) := rne_mono (div_le_div_of_nonneg_right h hk.le)
  have : (rne (x / pow2 k) : ℚ) ≤ rne (y / pow2 k) := by exact_mod_cast this
  exact mul_le_mul_of_nonneg_right this hk.le

theorem rndAt_neg (k : ℤ) (x : ℚ) : rndAt k (-x) = - rndAt k x := by
  unfold rndAt; rw [neg_div, rne_neg]; push_cast; ring

theorem rndAt_err (k : ℤ) (x : ℚ) : |rndAt k x - x| ≤ pow2 k / 2 := by
  have hk := pow2_pos k
  have h := rne_spec (x / pow2 k)
  have : rndAt k x - x = ((rne (x / pow2 k) : ℚ) - x / pow2 k) * pow2 k := by
    unfold rndAt; field_simp
  rw [this, abs_mul, abs_of_pos hk]
  nlinarith

/-! ### `rnd53` -/

theorem rnd53_zero : rnd53 0 = 0 := rfl

theorem rnd53_neg (x : ℚ) : rnd53 (-x) = - rnd53 x := by
  unfold rnd53
  by_cases h : x = 0
  · simp [h]
  · simp [h, expo_neg, rndAt_neg]

theorem pow2_52 (e : ℤ) : pow2 e = (2 ^ 52 : ℤ) * pow2 (e - 52) := by
  have : pow2 e = pow2 52 * pow2 (e - 52) := by rw [← pow2_add]; congr 1; ring
  rw [this]; congr 1

theorem pow2_53 (e : ℤ) : pow2 (e + 1) = (2 ^ 53 : ℤ) * pow2 (e - 52) := by
  have : pow2 (e + 1) = pow2 53 * pow2 (e - 52) := by rw [← pow2_add]; congr 1; ring
  rw [this]; congr 1

/-- Numbers with at most 53 significant bits are not changed. -/
theorem rnd53_repr (m k : ℤ) (hm : |m| ≤ 2 ^ 53) : rnd53 ((m : ℚ) * pow2 k) = m * pow2 k := by
  by_cases h0 : m = 0
  · simp [h0, rnd53]
  have hk := pow2_pos k
  have hx : (m : ℚ) * pow2 k ≠ 0 := mul_ne_zero (by exact_mod_cast h0) hk.ne'
  have hm' : |(m : ℚ)| ≤ 2 ^ 53 := by exact_mod_cast hm
  obtain ⟨h1, h2⟩ := expo_spec hx
  set e := expo ((m : ℚ) * pow2 k) with he
  unfold rnd53
  rw [if_neg hx, ← he]
  rw [abs_mul, abs_of_pos hk] at h1
  have hle : e ≤ k + 53 := by
    have : pow2 e ≤ pow2 (k + 53) := by
      rw [pow2_add]
      have : pow2 53 = 2 ^ 53 := rfl
      rw [this]
      nlinarith
    exact pow2_le.1 this
  rcases hle.lt_or_eq with hlt | heq
  · -- the grid of `x` is at least as fine as `2 ^ k`
    obtain ⟨j, hj⟩ : ∃ j : ℕ, k = e - 52 + j := ⟨(k - (e - 52)).toNat, by omega⟩
    have : (m : ℚ) * pow2 k = ((m * 2 ^ j : ℤ) : ℚ) * pow2 (e - 52) := by
      rw [hj, pow2_add]
      have : pow2 (j : ℤ) = 2 ^ j := by rw [pow2_eq]; simp
      rw [this]; push_cast; ring
    rw [this, rndAt_int_mul]
  · -- `|m| = 2 ^ 53`
    have hm53 : |(m : ℚ)| = 2 ^ 53 := by
      refine le_antisymm hm' ?_
      rw [heq, pow2_add] at h1
      have : pow2 53 = 2 ^ 53 := rfl
      rw [this] at h1
      nlinarith
    have hmi : m = 2 ^ 53 ∨ m = -2 ^ 53 := by
      have : |m| = 2 ^ 53 := by exact_mod_cast hm53
      rcases abs_eq (by norm_num : (0 : ℤ) ≤ 2 ^ 53) |>.1 this with h | h <;> simp [h]
    have he52 : pow2 (e - 52) = 2 * pow2 k := by
      rw [heq, ← pow2_succ]; congr 1; ring
    rcases hmi with h | h
    · have : (m : ℚ) * pow2 k = ((2 ^ 52 : ℤ) : ℚ) * pow2 (e - 52) := by
        rw [he52, h]; push_cast; ring
      rw [this, rndAt_int_mul]
    · have : (m : ℚ) * pow2 k = ((-2 ^ 52 : ℤ) : ℚ) * pow2 (e - 52) := by
        rw [he52, h]; push_cast; ring
      rw [this, rndAt_int_mul]

/-- Every result has at most 53 significant bits. -/
theorem rnd53_form (x : ℚ) : ∃ m k : ℤ, |m| ≤ 2 ^ 53 ∧ rnd53 x = m * pow2 k := by
  by_cases hx : x = 0
  · exact ⟨0, 0, by norm_num, by simp [hx, rnd53]⟩
  refine ⟨rne (x / pow2 (expo x - 52)), expo x - 52, ?_, by simp [rnd53, hx, rndAt]⟩
  obtain ⟨-, h2⟩ := expo_spec hx
  have hs := pow2_pos (expo x - 52)
  rw [pow2_53] at h2
  have h3 : |x / pow2 (expo x - 52)| ≤ (2 ^ 53 : ℤ) := by
    rw [abs_div, abs_of_pos hs, div_le_iff₀ hs]; exact h2.le
  rw [abs_le] at h3
  rw [abs_le]
  constructor
  · have := rne_mono h3.1
    rwa [← Int.cast_neg, rne_int] at this
  · have := rne_mono h3.2
    rwa [rne_int] at this

theorem rnd53_idem (x : ℚ) : rnd53 (rnd53 x) = rnd53 x := by
  obtain ⟨m, k, hm, h⟩ := rnd53_form x
  rw [h, rnd53_repr m k hm]

theorem rnd53_half (x : ℚ) (h : rnd53 x = x) : rnd53 (x / 2) = x / 2 := by
  obtain ⟨m, k, hm, hx⟩ := rnd53_form x
  rw [h] at hx
  have : x / 2 = m * pow2 (k - 1) := by
    have : pow2 k = 2 * pow2 (k - 1) := by rw [← pow2_succ]; congr 1; ring
    rw [hx, this]; ring
  rw [this, rnd53_repr m _ hm]

theorem rnd53_int (n : ℤ) (h : |n| ≤ 2 ^ 53) : rnd53 (n : ℚ) = n := by
  have := rnd53_repr n 0 h
  have h0 : pow2 0 = 1 := rfl
  rwa [h0, mul_one] at this

theorem rnd53_pos_mono {x y : ℚ} (hx : 0 < x) (h : x ≤ y) : rnd53 x ≤ rnd53 y := by
  have hy : 0 < y := hx.trans_le h
  have hab : |x| ≤ |y| := by rwa [abs_of_pos hx, abs_of_pos hy]
  rcases (expo_mono hx.ne' hab).lt_or_eq with hlt | heq
  · obtain ⟨-, h2⟩ := expo_spec hx.ne'
    obtain ⟨h3, -⟩ := expo_spec hy.ne'
    rw [abs_of_pos hx] at h2
    rw [abs_of_pos hy] at h3
    have a1 : rnd53 x ≤ pow2 (expo x + 1) := by
      rw [rnd53, if_neg hx.ne', pow2_53, ← rndAt_int_mul, ← pow2_53]
      exact rndAt_mono _ h2.le
    have a2 : pow2 (expo y) ≤ rnd53 y := by
      rw [rnd53, if_neg hy.ne']
      conv_lhs => rw [pow2_52, ← rndAt_int_mul, ← pow2_52]
      exact rndAt_mono _ h3
    exact a1.trans ((pow2_le.2 (by omega)).trans a2)
  · rw [rnd53, rnd53, if_neg hx.ne', if_neg hy.ne', heq]
    exact rndAt_mono _ h

theorem rnd53_nonneg {x : ℚ} (hx : 0 ≤ x) : 0 ≤ rnd53 x := by
  rcases hx.lt_or_eq with h | h
  · rw [rnd53, if_neg h.ne']
    have := rndAt_mono (expo x - 52) h.le
    have h0 : rndAt (expo x - 52) 0 = 0 := by
      have := rndAt_int_mul (expo x - 52) 0
      simpa using this
    linarith
  · simp [← h, rnd53]

theorem rnd53_mono {x y : ℚ} (h : x ≤ y) : rnd53 x ≤ rnd53 y := by
  rcases lt_trichotomy x 0 with hx | hx | hx
  · rcases lt_or_ge y 0 with hy | hy
    · have := rnd53_pos_mono (x := -y) (y := -x) (by linarith) (by linarith)
      rw [rnd53_neg, rnd53_neg] at this
      linarith
    · have h1 := rnd53_nonneg (x := -x) (by linarith)
      rw [rnd53_neg] at h1
      have h2 := rnd53_nonneg hy
      linarith
  · subst hx; rw [rnd53_zero]; exact rnd53_nonneg h
  · exact rnd53_pos_mono hx h

theorem rnd53_rel (x : ℚ) : |rnd53 x - x| ≤ |x| / 2 ^ 53 := by
  by_cases hx : x = 0
  · simp [hx, rnd53]
  · rw [rnd53, if_neg hx]
    refine (rndAt_err _ x).trans ?_
    have h1 := (expo_spec hx).1
    rw [pow2_52] at h1
    push_cast at h1
    have hs := pow2_pos (expo x - 52)
    rw [div_le_div_iff₀ (by norm_num) (by norm_num)]
    nlinarith

theorem rnd53_scale (x : ℚ) (k : ℤ) : rnd53 (x * pow2 k) = rnd53 x * pow2 k := by
  by_cases hx : x = 0
  · simp [hx, rnd53]
  have hk := (pow2_pos k).ne'
  have hx' : x * pow2 k ≠ 0 := mul_ne_zero hx hk
  rw [rnd53, rnd53, if_neg hx, if_neg hx', expo_scale hx]
  unfold rndAt
  have e : pow2 (expo x + k - 52) = pow2 (expo x - 52) * pow2 k := by
    rw [← pow2_add]; congr 1; ring
  have hs := (pow2_pos (expo x - 52)).ne'
  rw [e, mul_div_mul_right _ _ hk, mul_assoc]

/-- 53-bit rounding as a `Rounding`. -/
def R53 : Rounding ℚ where
  rnd := rnd53
  mono := rnd53_mono
  idem := rnd53_idem
  int_exact := rnd53_int
  tiny := 0
  tiny_nonneg := le_rfl
  rel x _ := by
    refine (rnd53_rel x).trans ?_
    have := abs_nonneg x
    rw [div_le_div_iff₀ (by norm_num) (by norm_num)]
    nlinarith
  sub_exact a b _ _ h := by
    have h0 : a - b = 0 := by
      rw [mul_zero] at h
      exact abs_eq_zero.1 (le_antisymm h (abs_nonneg _))
    rw [h0]; rfl

theorem b53_eq : b53 = R53.arith := rfl

/-! ### `rnd64` -/

theorem rnd64_zero : rnd64 0 = 0 := rfl

theorem rnd64_normal {x : ℚ} (h : -1022 ≤ expo x) : rnd64 x = rnd53 x := by
  unfold rnd64 rnd53
  rw [max_eq_left (by omega)]

theorem rnd64_sub {x : ℚ} (h : expo x < -1022) : rnd64 x = rndAt (-1074) x := by
  unfold rnd64
  rw [max_eq_right (by omega)]
  split
  · have := rndAt_int_mul (-1074) 0
    simp_all
  · rfl

theorem rnd64_neg (x : ℚ) : rnd64 (-x) = - rnd64 x := by
  unfold rnd64
  by_cases h : x = 0
  · simp [h]
  · simp [h, expo_neg, rndAt_neg]

theorem expo_le_of_lt {x : ℚ} {e : ℤ} (hx : x ≠ 0) (h : |x| < pow2 (e + 1)) : expo x ≤ e := by
  have := pow2_lt.1 ((expo_spec hx).1.trans_lt h)
  omega

theorem le_expo_of_le {x : ℚ} {e : ℤ} (hx : x ≠ 0) (h : pow2 e ≤ |x|) : e ≤ expo x := by
  have := pow2_lt.1 (h.trans_lt (expo_spec hx).2)
  omega

/-- Floating point numbers are not changed. -/
theorem rnd64_repr (m k : ℤ) (hm : |m| ≤ 2 ^ 53) (hk : -1074 ≤ k) :
    rnd64 ((m : ℚ) * pow2 k) = m * pow2 k := by
  rcases lt_or_ge (expo ((m : ℚ) * pow2 k)) (-1022) with h | h
  · rw [rnd64_sub h]
    obtain ⟨j, hj⟩ : ∃ j : ℕ, k = -1074 + j := ⟨(k + 1074).toNat, by omega⟩
    have : (m : ℚ) * pow2 k = ((m * 2 ^ j : ℤ) : ℚ) * pow2 (-1074) := by
      rw [hj, pow2_add]
      have : pow2 (j : ℤ) = 2 ^ j := by rw [pow2_eq]; simp
      rw [this]; push_cast; ring
    rw [this, rndAt_int_mul]
  · rw [rnd64_normal h, rnd53_repr m k hm]

theorem rnd64_form (x : ℚ) : ∃ m k : ℤ, |m| ≤ 2 ^ 53 ∧ -1074 ≤ k ∧ rnd64 x = m * pow2 k := by
  by_cases hx : x = 0
  · exact ⟨0, 0, by norm_num, by norm_num, by simp [hx, rnd64]⟩
  set g := max (expo x - 52) (-1074) with hg
  refine ⟨rne (x / pow2 g), g, ?_, le_max_right _ _, by simp [rnd64, hx, rndAt, ← hg]⟩
  obtain ⟨-, h2⟩ := expo_spec hx
  have hs := pow2_pos g
  have h3 : |x| ≤ (2 ^ 53 : ℤ) * pow2 g := by
    rw [pow2_53] at h2
    have : pow2 (expo x - 52) ≤ pow2 g := pow2_le.2 (le_max_left _ _)
    have h53 : (0 : ℚ) ≤ ((2 ^ 53 : ℤ) : ℚ) := by norm_num
    nlinarith
  have h4 : |x / pow2 g| ≤ (2 ^ 53 : ℤ) := by
    rw [abs_div, abs_of_pos hs, div_le_iff₀ hs]; exact h3
  rw [abs_le] at h4
  rw [abs_le]
  constructor
  · have := rne_mono h4.1
    rwa [← Int.cast_neg, rne_int] at this
  · have := rne_mono h4.2
    rwa [rne_int] at this

theorem rnd64_idem (x : ℚ) : rnd64 (rnd64 x) = rnd64 x := by
  obtain ⟨m, k, hm, hk, h⟩ := rnd64_form x
  rw [h, rnd64_repr m k hm hk]

theorem rnd64_int (n : ℤ) (h : |n| ≤ 2 ^ 53) : rnd64 (n : ℚ) = n := by
  have := rnd64_repr n 0 h (by norm_num)
  have h0 : pow2 0 = 1 := rfl
  rwa [h0, mul_one] at this

theorem rnd64_pos_mono {x y : ℚ} (hx : 0 < x) (h : x ≤ y) : rnd64 x ≤ rnd64 y := by
  have hy : 0 < y := hx.trans_le h
  have hab : |x| ≤ |y| := by rwa [abs_of_pos hx, abs_of_pos hy]
  have hexp := expo_mono hx.ne' hab
  rcases lt_or_ge (expo x) (-1022) with h1 | h1
  · rcases lt_or_ge (expo y) (-1022) with h2 | h2
    · rw [rnd64_sub h1, rnd64_sub h2]; exact rndAt_mono _ h
    · rw [rnd64_sub h1, rnd64_normal h2]
      have hx2 : x ≤ pow2 (-1022) := by
        have := (expo_spec hx.ne').2
        rw [abs_of_pos hx] at this
        exact this.le.trans (pow2_le.2 (by omega))
      have hb : pow2 (-1022) = ((2 ^ 52 : ℤ) : ℚ) * pow2 (-1074) := pow2_52 (-1022)
      have a1 : rndAt (-1074) x ≤ pow2 (-1022) := by
        rw [hb, ← rndAt_int_mul, ← hb]; exact rndAt_mono _ hx2
      have a2 : pow2 (expo y) ≤ rnd53 y := by
        obtain ⟨h3, -⟩ := expo_spec hy.ne'
        rw [abs_of_pos hy] at h3
        rw [rnd53, if_neg hy.ne']
        conv_lhs => rw [pow2_52, ← rndAt_int_mul, ← pow2_52]
        exact rndAt_mono _ h3
      exact a1.trans ((pow2_le.2 h2).trans a2)
  · rw [rnd64_normal h1, rnd64_normal (h1.trans hexp)]
    exact rnd53_mono h

theorem rnd64_nonneg {x : ℚ} (hx : 0 ≤ x) : 0 ≤ rnd64 x := by
  rcases hx.lt_or_eq with h | h
  · rw [rnd64, if_neg h.ne']
    have := rndAt_mono (max (expo x - 52) (-1074)) h.le
    have h0 : rndAt (max (expo x - 52) (-1074)) 0 = 0 := by
      have := rndAt_int_mul (max (expo x - 52) (-1074)) 0
      simpa using this
    linarith
  · simp [← h, rnd64]

theorem rnd64_mono {x y : ℚ} (h : x ≤ y) : rnd64 x ≤ rnd64 y := by
  rcases lt_trichotomy x 0 with hx | hx | hx
  · rcases lt_or_ge y 0 with hy | hy
    · have := rnd64_pos_mono (x := -y) (y := -x) (by linarith) (by linarith)
      rw [rnd64_neg, rnd64_neg] at this
      linarith
    · have h1 := rnd64_nonneg (x := -x) (by linarith)
      rw [rnd64_neg] at h1
      have h2 := rnd64_nonneg hy
      linarith
  · subst hx; rw [rnd64_zero]; exact rnd64_nonneg h
  · exact rnd64_pos_mono hx h

theorem rnd64_rel {x : ℚ} (h : pow2 (-1024) ≤ |x|) : |rnd64 x - x| ≤ |x| / 4 := by
  rcases lt_or_ge (expo x) (-1022) with h1 | h1
  · rw [rnd64_sub h1]
    refine (rndAt_err _ x).trans ?_
    have : pow2 (-1024) = pow2 50 * pow2 (-1074) := by rw [← pow2_add]; rfl
    have h50 : pow2 50 = 2 ^ 50 := rfl
    rw [this, h50] at h
    have := pow2_pos (-1074)
    linarith
  · rw [rnd64_normal h1]
    refine (rnd53_rel x).trans ?_
    have := abs_nonneg x
    rw [div_le_div_iff₀ (by norm_num) (by norm_num)]
    nlinarith

/-- Every floating point number is a multiple of the smallest subnormal. -/
theorem rnd64_grid {x : ℚ} (h : rnd64 x = x) : ∃ m : ℤ, x = m * pow2 (-1074) := by
  obtain ⟨m, k, -, hk, hx⟩ := rnd64_form x
  rw [h] at hx
  obtain ⟨j, hj⟩ : ∃ j : ℕ, k = -1074 + j := ⟨(k + 1074).toNat, by omega⟩
  refine ⟨m * 2 ^ j, ?_⟩
  rw [hx, hj, pow2_add]
  have : pow2 (j : ℤ) = 2 ^ j := by rw [pow2_eq]; simp
  rw [this]; push_cast; ring

/-- Binary64 rounding, gradual underflow included, as a `Rounding`. -/
def R64 : Rounding ℚ where
  rnd := rnd64
  mono := rnd64_mono
  idem := rnd64_idem
  int_exact := rnd64_int
  tiny := pow2 (-1024)
  tiny_nonneg := (pow2_pos _).le
  rel _ h := rnd64_rel h
  sub_exact a b ha hb h := by
    obtain ⟨m, rfl⟩ := rnd64_grid ha
    obtain ⟨n, rfl⟩ := rnd64_grid hb
    have hs := pow2_pos (-1074)
    have e : (m : ℚ) * pow2 (-1074) - n * pow2 (-1074) = ((m - n : ℤ) : ℚ) * pow2 (-1074) := by
      push_cast; ring
    rw [e] at h ⊢
    apply rnd64_repr _ _ _ le_rfl
    have h2 : 4 * pow2 (-1024) = (2 ^ 52 : ℤ) * pow2 (-1074) := by
      rw [show (4 : ℚ) = pow2 2 from rfl, ← pow2_add, show (2 : ℤ) + -1024 = -1022 by norm_num, pow2_52,
        show (-1022 : ℤ) - 52 = -1074 by norm_num]
    rw [h2, abs_mul, abs_of_pos hs] at h
    have h3 := le_of_mul_le_mul_right h hs
    have h4 : |m - n| ≤ 2 ^ 52 := by exact_mod_cast h3
    exact h4.trans (by norm_num)

theorem b64_eq : b64 = R64.arith := rfl

end KML
