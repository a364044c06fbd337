import Verif.Props.Entropy
import Verif.Props.DoubleQueries
import Verif.Props.FameFreeze
import Mathlib.Analysis.Complex.ExponentialBounds

/-! # C96: the rounding error of StreamingEntropy -/

namespace KML

open Spec

/-- Doubles with a `std::log2` that is off by at most `2^-51` of the value (glibc documents one unit in the last place). -/
structure LArith.Accurate (L : LArith Dbl) : Prop where
  arith : L.toArith = Dbl.arith
  neg : ∀ q : ℚ, L.neg (.fin q) = .fin (-q)
  log2 : ∀ q : ℚ, IsDouble q → 0 < q → ∃ l : ℚ, L.log2 (.fin q) = .fin l ∧
    |(l : ℝ) - Real.logb 2 q| ≤ 1 / 2 ^ 51 * |Real.logb 2 q|

/-- There is one. -/
theorem exists_accurate : ∃ L : LArith Dbl, L.Accurate := by
  have h : ∀ q : ℚ, ∃ l : ℚ, |(l : ℝ) - Real.logb 2 q| ≤ 1 / 2 ^ 51 * |Real.logb 2 q| := by
    intro q
    by_cases h0 : Real.logb 2 (q : ℝ) = 0
    · exact ⟨0, by rw [h0]; simp⟩
    · have hp : 0 < 1 / 2 ^ 51 * |Real.logb 2 (q : ℝ)| := by positivity
      obtain ⟨l, hl1, hl2⟩ := exists_rat_btwn (show Real.logb 2 (q : ℝ) < Real.logb 2 q + 1 / 2 ^ 51 * |Real.logb 2 q| by linarith)
      exact ⟨l, by rw [abs_of_nonneg (by linarith)]; linarith⟩
  choose f hf using h
  exact ⟨{ toArith := Dbl.arith, log2 := fun x => match x with | .fin q => .fin (f q) | y => y,
           neg := fun x => match x with | .fin q => .fin (-q) | y => y, ceilNat := fun _ => 0 },
    rfl, fun _ => rfl, fun q _ _ => ⟨f q, rfl, hf q⟩⟩

namespace Entropy

/-! ### Real bounds -/

theorem log_two_pos : (2 / 3 : ℝ) < Real.log 2 := by
  have := Real.log_two_gt_d9
  linarith

/-- `|p log2 p| ≤ 3/2` on the unit interval. -/
theorem g_bound {p : ℝ} (h0 : 0 ≤ p) (h1 : p ≤ 1) : |g p| ≤ 3 / 2 := by
  rcases h0.eq_or_lt with rfl | h0
  · rw [g_zero, abs_zero]; norm_num
  have hl := log_two_pos
  have h2 : Real.log p ≤ 0 := Real.log_nonpos h0.le h1
  have h3 : 1 - p⁻¹ ≤ Real.log p := Real.one_sub_inv_le_log_of_pos h0
  have h4 : -1 ≤ p * Real.log p := by
    have := mul_le_mul_of_nonneg_left h3 h0.le
    rw [mul_sub, mul_one, mul_inv_cancel₀ h0.ne'] at this
    linarith
  have h5 : p * Real.log p ≤ 0 := mul_nonpos_of_nonneg_of_nonpos h0.le h2
  have e : g p = p * Real.log p / Real.log 2 := by unfold g Real.logb; ring
  rw [e, abs_div, abs_of_nonpos h5, abs_of_pos (by linarith), div_le_iff₀ (by linarith)]
  linarith

/-- The logarithm near a point. -/
theorem logb_near {a b m : ℝ} (hm : 0 < m) (ha : m ≤ a) (hb : m ≤ b) : |Real.logb 2 a - Real.logb 2 b| ≤ 3 / 2 * |a - b| / m := by
  wlog h : b ≤ a generalizing a b with H
  · rw [abs_sub_comm, abs_sub_comm a b]
    exact H hb ha (not_le.1 h).le
  have ha0 : 0 < a := by linarith
  have hb0 : 0 < b := by linarith
  have hl := log_two_pos
  have h1 : Real.log (a / b) ≤ a / b - 1 := Real.log_le_sub_one_of_pos (div_pos ha0 hb0)
  have h2 : 0 ≤ Real.log (a / b) := Real.log_nonneg ((one_le_div hb0).2 h)
  have e : Real.logb 2 a - Real.logb 2 b = Real.log (a / b) / Real.log 2 := by
    rw [Real.log_div ha0.ne' hb0.ne']
    unfold Real.logb
    ring
  rw [e, abs_of_nonneg (div_nonneg h2 (by linarith)), abs_of_nonneg (sub_nonneg.2 h), div_le_iff₀ (by linarith)]
  have h3 : a / b - 1 = (a - b) / b := by field_simp
  have h4 : (a - b) / b ≤ (a - b) / m := div_le_div_of_nonneg_left (by linarith) hm hb
  have h5 : 0 ≤ (a - b) / m := div_nonneg (by linarith) hm.le
  have h6 : 3 / 2 * (a - b) / m = 3 / 2 * ((a - b) / m) := by ring
  rw [h6]
  nlinarith

/-- One rounding unit. -/
noncomputable def uu : ℝ := 1 / 2 ^ 53

theorem rnd64_err_real {x : ℚ} (k : ℕ) (h : |x| ≤ 2 ^ k) : |((rnd64 x : ℚ) : ℝ) - x| ≤ 2 ^ k * uu := by
  have e : pow2 (k : ℤ) = 2 ^ k := by rw [pow2_eq]; simp
  have h1 := rnd64_err (x := x) (k := k) (by omega) (by rw [e]; exact h)
  have e2 : pow2 ((k : ℤ) - 53) = 2 ^ k * (1 / 2 ^ 53) := by
    rw [sub_eq_add_neg, pow2_add, e]
    have : pow2 (-53) = 1 / 2 ^ 53 := by decide +kernel
    rw [this]
  rw [e2] at h1
  have h2 : ((|rnd64 x - x| : ℚ) : ℝ) ≤ ((2 ^ k * (1 / 2 ^ 53) : ℚ) : ℝ) := by exact_mod_cast h1
  push_cast at h2
  exact h2

theorem uu_pos : 0 < uu := by unfold uu; positivity

theorem uu_small : uu ≤ 1 / 1000 := by unfold uu; norm_num

/-- Relative error for a fraction of at most `2^40` observations. -/
theorem frac_err {k n : ℕ} (hk : 1 ≤ k) (hkn : k ≤ n) (hn : n ≤ 2 ^ 40) :
    IsDouble (rnd64 ((k : ℚ) / n)) ∧ 0 < rnd64 ((k : ℚ) / n) ∧ rnd64 ((k : ℚ) / n) ≤ 1 ∧
      |((rnd64 ((k : ℚ) / n) : ℚ) : ℝ) - k / n| ≤ uu * (2 * (k / n)) := by
  have hn0 : (0 : ℚ) < n := by exact_mod_cast (by omega : 0 < n)
  have hk0 : (1 : ℚ) ≤ k := by exact_mod_cast hk
  have hp0 : 0 < (k : ℚ) / n := by positivity
  have hp1 : (k : ℚ) / n ≤ 1 := by
    rw [div_le_one hn0]; exact_mod_cast hkn
  have hpl : pow2 (-40) ≤ (k : ℚ) / n := by
    have e : pow2 (-40) = 1 / 2 ^ 40 := by decide +kernel
    rw [e, div_le_div_iff₀ (by positivity) hn0]
    have : (n : ℚ) ≤ 2 ^ 40 := by exact_mod_cast hn
    nlinarith
  have one : rnd64 1 = 1 := by simpa using rnd64_int 1 (by norm_num)
  have hr1 : rnd64 ((k : ℚ) / n) ≤ 1 := by
    have := rnd64_mono hp1
    rwa [one] at this
  have hr0 : 0 < rnd64 ((k : ℚ) / n) := by
    have := rnd64_mono hpl
    have e : rnd64 (pow2 (-40)) = pow2 (-40) := by decide +kernel
    rw [e] at this
    exact (pow2_pos _).trans_le this
  refine ⟨⟨rnd64_idem _, rnd64_le_dblMax (by rw [abs_of_pos hp0]; exact hp1.trans (by decide +kernel))⟩, hr0, hr1, ?_⟩
  set p := (k : ℚ) / n with hp
  have hne : p ≠ 0 := hp0.ne'
  obtain ⟨e1, e2⟩ := expo_spec hne
  rw [abs_of_pos hp0] at e1 e2
  have he : -41 ≤ expo p := by
    have := le_expo_of_le hne (by rw [abs_of_pos hp0]; exact hpl)
    omega
  have herr := rnd64_err (x := p) (k := expo p + 1) (by omega) (by rw [abs_of_pos hp0]; exact e2.le)
  have e3 : pow2 (expo p + 1 - 53) = pow2 (expo p) * 2 * (1 / 2 ^ 53) := by
    rw [sub_eq_add_neg, pow2_add, pow2_succ]
    have : pow2 (-53) = 1 / 2 ^ 53 := by decide +kernel
    rw [this]; ring
  rw [e3] at herr
  have h1 : |rnd64 p - p| ≤ 1 / 2 ^ 53 * (2 * p) := by
    have : pow2 (expo p) * 2 * (1 / 2 ^ 53) ≤ p * 2 * (1 / 2 ^ 53) := by gcongr
    linarith
  have h2 : ((|rnd64 p - p| : ℚ) : ℝ) ≤ ((1 / 2 ^ 53 * (2 * p) : ℚ) : ℝ) := by exact_mod_cast h1
  have h3 : ((p : ℚ) : ℝ) = (k : ℝ) / n := by rw [hp]; push_cast; rfl
  push_cast at h2
  rw [h3] at h2
  exact h2

/-! ### One `xlogx` -/

variable {L : LArith Dbl}

theorem ofNat_dbl {m : ℕ} (hm : m ≤ 2 ^ 53) : Dbl.arith.ofNat m = .fin m := by
  have h1 : |((m : ℤ) : ℚ)| ≤ 2 ^ 53 := by
    rw [abs_of_nonneg (by positivity)]; exact_mod_cast hm
  have h2 : rnd64 ((m : ℤ) : ℚ) = ((m : ℤ) : ℚ) := rnd64_int _ (by exact_mod_cast h1)
  show Dbl.ofRat ((m : ℤ) : ℚ) = _
  rw [Dbl.ofRat_fin (h1.trans (by decide +kernel)), h2]
  simp

theorem div_dbl {k n : ℕ} (hkn : k ≤ n) (hn0 : 0 < n) :
    Dbl.arith.div (.fin k) (.fin n) = .fin (rnd64 ((k : ℚ) / n)) := by
  have hn : (n : ℚ) ≠ 0 := by exact_mod_cast hn0.ne'
  show (if (n : ℚ) = 0 then _ else Dbl.ofRat ((k : ℚ) / n)) = _
  rw [if_neg hn]
  refine Dbl.ofRat_fin ?_
  have : (k : ℚ) / n ≤ 1 := by
    rw [div_le_one (by exact_mod_cast hn0)]
    exact_mod_cast hkn
  rw [abs_of_nonneg (by positivity)]
  exact this.trans (by decide +kernel)

theorem ofRat_real {x : ℚ} (k : ℕ) (hk : k ≤ 50) (h : |(x : ℝ)| ≤ 2 ^ k) :
    ∃ y : ℚ, Dbl.ofRat x = .fin y ∧ |(y : ℝ) - x| ≤ 2 ^ k * uu := by
  have h' : |x| ≤ 2 ^ k := by
    have : ((|x| : ℚ) : ℝ) ≤ ((2 ^ k : ℚ) : ℝ) := by push_cast; exact h
    exact_mod_cast this
  refine ⟨rnd64 x, Dbl.ofRat_fin (h'.trans ?_), rnd64_err_real k h'⟩
  have h1 : (2 : ℚ) ^ k ≤ 2 ^ 50 := pow_le_pow_right₀ (by norm_num) hk
  exact h1.trans (by decide +kernel)

/-- `xlogx` of a fraction. -/
theorem xlogx_dbl (hL : L.Accurate) {k n : ℕ} (hkn : k ≤ n) (hn0 : 0 < n) (hn : n ≤ 2 ^ 40) :
    ∃ x : ℚ, Utils.xlogx L (L.div (.fin k) (.fin n)) = .ok (.fin x) ∧ |(x : ℝ) - g ((k : ℝ) / n)| ≤ 17 * uu := by
  have hu := uu_pos
  have hus := uu_small
  unfold Utils.xlogx
  rw [hL.arith, div_dbl hkn hn0, dbl_lit_zero]
  rcases Nat.eq_zero_or_pos k with rfl | hk
  · have e : rnd64 (((0 : ℕ) : ℚ) / n) = 0 := by simp [rnd64_zero]
    rw [e]
    refine ⟨0, rfl, ?_⟩
    simp only [Nat.cast_zero, zero_div, g_zero, Rat.cast_zero, sub_zero, abs_zero]
    linarith
  obtain ⟨d, p0, p1, pe⟩ := frac_err hk hkn hn
  set p := rnd64 ((k : ℚ) / n)
  have l1 : Dbl.arith.lt (.fin p) (.fin 0) = false := decide_eq_false (not_lt.2 p0.le)
  have l2 : Dbl.arith.eq (.fin 0) (.fin p) = false := decide_eq_false p0.ne
  rw [l1, l2]
  simp only [Bool.false_eq_true, if_false]
  obtain ⟨l, e1, e2⟩ := hL.log2 p d p0
  rw [e1]
  have p0' : (0 : ℝ) < p := by exact_mod_cast p0
  have p1' : (p : ℝ) ≤ 1 := by exact_mod_cast p1
  set q : ℝ := (k : ℝ) / n
  have hn0' : (0 : ℝ) < n := by exact_mod_cast hn0
  have hk' : (0 : ℝ) < k := by exact_mod_cast hk
  have q0 : 0 < q := div_pos hk' hn0'
  have q1 : q ≤ 1 := (div_le_one hn0').2 (by exact_mod_cast hkn)
  have gp := g_bound p0'.le p1'
  have gq := g_bound q0.le q1
  have habs := abs_le.1 pe
  have hq2 : q / 2 ≤ p := by nlinarith
  -- the product before rounding
  have y1 : |((p * l : ℚ) : ℝ) - g p| ≤ 6 * uu := by
    have e : ((p * l : ℚ) : ℝ) - g p = p * ((l : ℝ) - Real.logb 2 p) := by
      unfold g; push_cast; ring
    have e51 : (1 : ℝ) / 2 ^ 51 = 4 * uu := by unfold uu; norm_num
    rw [e, abs_mul, abs_of_pos p0']
    have h1 := mul_le_mul_of_nonneg_left e2 p0'.le
    have h2 : (p : ℝ) * (1 / 2 ^ 51 * |Real.logb 2 p|) = 4 * uu * |g p| := by
      unfold g
      rw [abs_mul, abs_of_pos p0', e51]; ring
    rw [h2] at h1
    nlinarith
  have y2 : |g p - g q| ≤ 9 * uu := by
    have e : g p - g q = (p - q) * Real.logb 2 q + p * (Real.logb 2 p - Real.logb 2 q) := by unfold g; ring
    rw [e]
    refine (abs_add_le _ _).trans ?_
    have h1 : |((p : ℝ) - q) * Real.logb 2 q| ≤ 3 * uu := by
      rw [abs_mul]
      have h1 := mul_le_mul_of_nonneg_right pe (abs_nonneg (Real.logb 2 q))
      have h2 : uu * (2 * q) * |Real.logb 2 q| = 2 * uu * |g q| := by
        unfold g
        rw [abs_mul, abs_of_pos q0]; ring
      rw [h2] at h1
      nlinarith
    have h2 : |(p : ℝ) * (Real.logb 2 p - Real.logb 2 q)| ≤ 6 * uu := by
      rw [abs_mul, abs_of_pos p0']
      have h1 := logb_near (m := q / 2) (by linarith) hq2 (by linarith : q / 2 ≤ q)
      have h3 : 3 / 2 * |(p : ℝ) - q| / (q / 2) ≤ 6 * uu := by
        rw [div_le_iff₀ (by linarith)]
        linarith
      have h4 := abs_nonneg (Real.logb 2 (p : ℝ) - Real.logb 2 q)
      nlinarith
    linarith
  have hy : |((p * l : ℚ) : ℝ)| ≤ 2 ^ 1 := by
    have : ((p * l : ℚ) : ℝ) = (((p * l : ℚ) : ℝ) - g p) + g p := by ring
    rw [this]
    refine (abs_add_le _ _).trans ?_
    rw [pow_one]
    linarith
  obtain ⟨x, x1, x2⟩ := ofRat_real 1 (by norm_num) hy
  refine ⟨x, congrArg Res.ok x1, ?_⟩
  have e : (x : ℝ) - g q = ((x : ℝ) - ((p * l : ℚ) : ℝ)) + (((p * l : ℚ) : ℝ) - g p) + (g p - g q) := by ring
  rw [e]
  refine (abs_add_three _ _ _).trans ?_
  linarith

/-! ### One update -/

/-- `(n - 1) / n` and its logarithm. -/
theorem ratio_dbl (hL : L.Accurate) {n : ℕ} (h2 : 2 ≤ n) (hn : n ≤ 2 ^ 40) :
    ∃ r l : ℚ, L.div (L.sub (.fin n) (L.lit 1)) (.fin n) = .fin r ∧ L.log2 (.fin r) = .fin l ∧ 0 < r ∧ r ≤ 1 ∧
      |(r : ℝ) - ((n : ℝ) - 1) / n| ≤ uu * 2 ∧ |(l : ℝ) - Real.logb 2 (((n : ℝ) - 1) / n)| ≤ 10 * uu := by
  have hu := uu_pos
  have hus := uu_small
  obtain ⟨m, rfl⟩ : ∃ m, n = m + 1 := ⟨n - 1, by omega⟩
  have hs : L.sub (.fin ((m + 1 : ℕ) : ℚ)) (L.lit 1) = .fin m := by
    rw [hL.arith, dbl_lit_one]
    show Dbl.ofRat (((m + 1 : ℕ) : ℚ) + -1) = _
    have e : ((m + 1 : ℕ) : ℚ) + -1 = m := by push_cast; ring
    rw [e]
    exact ofNat_dbl (m := m) (by omega)
  rw [hs, hL.arith, div_dbl (by omega) (by omega)]
  obtain ⟨d, r0, r1, re⟩ := frac_err (k := m) (n := m + 1) (by omega) (by omega) hn
  obtain ⟨l, e1, e2⟩ := hL.log2 _ d r0
  have hq : (((m + 1 : ℕ) : ℝ) - 1) / ((m + 1 : ℕ) : ℝ) = (m : ℝ) / ((m + 1 : ℕ) : ℝ) := by push_cast; ring
  rw [hq]
  have hm : (1 : ℝ) ≤ m := by exact_mod_cast (by omega : 1 ≤ m)
  have hm1 : (0 : ℝ) < ((m + 1 : ℕ) : ℝ) := by positivity
  set q : ℝ := (m : ℝ) / ((m + 1 : ℕ) : ℝ) with hqd
  have q1 : q ≤ 1 := (div_le_one hm1).2 (by push_cast; linarith)
  have q2 : 1 / 2 ≤ q := by
    rw [hqd, div_le_div_iff₀ (by norm_num) hm1]
    push_cast
    linarith
  have hre : |((rnd64 ((m : ℚ) / ((m + 1 : ℕ) : ℚ)) : ℚ) : ℝ) - q| ≤ uu * 2 := re.trans (by nlinarith)
  have half : rnd64 (1 / 2) = 1 / 2 := by decide +kernel
  have r2 : (1 / 2 : ℚ) ≤ rnd64 ((m : ℚ) / ((m + 1 : ℕ) : ℚ)) := by
    rw [← half]
    refine rnd64_mono ?_
    rw [div_le_div_iff₀ (by norm_num) (by positivity)]
    have : (1 : ℚ) ≤ m := by exact_mod_cast (by omega : 1 ≤ m)
    push_cast
    linarith
  generalize rnd64 ((m : ℚ) / ((m + 1 : ℕ) : ℚ)) = r at *
  have r2' : (1 / 2 : ℝ) ≤ r := by
    have : ((1 / 2 : ℚ) : ℝ) ≤ (r : ℝ) := by exact_mod_cast r2
    push_cast at this
    exact this
  have r1' : (r : ℝ) ≤ 1 := by exact_mod_cast r1
  refine ⟨r, l, rfl, e1, r0, r1, hre, ?_⟩
  have k1 := logb_near (a := r) (b := q) (m := 1 / 2) (by norm_num) r2' q2
  have k2 : |Real.logb 2 (r : ℝ)| ≤ 1 := by
    have a1 : Real.logb 2 (r : ℝ) ≤ 0 := Real.logb_nonpos (by norm_num) (by linarith) r1'
    have a2 : -1 ≤ Real.logb 2 (r : ℝ) := by
      have : Real.logb 2 (1 / 2 : ℝ) = -1 := by
        rw [one_div, Real.logb_inv, Real.logb_self_eq_one (by norm_num)]
      rw [← this]
      exact Real.logb_le_logb_of_le (by norm_num) (by norm_num) r2'
    exact abs_le.2 ⟨a2, by linarith⟩
  have e51 : (1 : ℝ) / 2 ^ 51 = 4 * uu := by unfold uu; norm_num
  rw [e51] at e2
  have e : (l : ℝ) - Real.logb 2 q = ((l : ℝ) - Real.logb 2 r) + (Real.logb 2 r - Real.logb 2 q) := by ring
  rw [e]
  refine (abs_add_le _ _).trans ?_
  have k3 : 3 / 2 * |(r : ℝ) - q| / (1 / 2) = 3 * |(r : ℝ) - q| := by ring
  rw [k3] at k1
  nlinarith

/-- The change of the entropy, in exact arithmetic. -/
noncomputable def incr (n c : ℕ) (H : ℝ) : ℝ :=
  if n = 1 then -g ((c : ℝ) / n) + g (((c - 1 : ℕ) : ℝ) / n)
  else ((n : ℝ) - 1) / n * (H - Real.logb 2 (((n : ℝ) - 1) / n)) + (-g ((c : ℝ) / n) + g (((c - 1 : ℕ) : ℝ) / n))

theorem max_dbl (hL : L.toArith = Dbl.arith) {c : ℕ} (hc : c ≤ 2 ^ 53) :
    L.max (L.lit 0) (L.sub (.fin c) (L.lit 1)) = .fin ((c - 1 : ℕ) : ℚ) := by
  rw [hL, dbl_lit_zero, dbl_lit_one]
  rcases c with _ | c
  · have : Dbl.arith.sub (.fin ((0 : ℕ) : ℚ)) (.fin 1) = .fin (-1) := by decide +kernel
    rw [this]
    decide +kernel
  · have hs : Dbl.arith.sub (.fin ((c + 1 : ℕ) : ℚ)) (.fin 1) = .fin c := by
      show Dbl.ofRat (((c + 1 : ℕ) : ℚ) + -1) = _
      have e : ((c + 1 : ℕ) : ℚ) + -1 = c := by push_cast; ring
      rw [e]
      exact ofNat_dbl (m := c) (by omega)
    rw [hs, Nat.add_sub_cancel]
    unfold Arith.max
    have : Dbl.arith.lt (.fin 0) (.fin (c : ℚ)) = decide ((0 : ℚ) < c) := rfl
    rw [this]
    by_cases h : (0 : ℚ) < c
    · rw [decide_eq_true h, if_pos rfl]
    · have h0 : (c : ℚ) = 0 := le_antisymm (not_lt.1 h) (by positivity)
      rw [decide_eq_false h, h0]
      rfl

/-- One `increment` on doubles. -/
theorem increment_dbl (hL : L.Accurate) {e : Entropy Dbl} {i n : ℕ} {b : Bin Dbl} (hb : e.hist.bins[i]? = some b)
    (ht : e.hist.total = n) (hc1 : b.count ≤ n) (hn0 : 0 < n) (hn : n ≤ 2 ^ 40) {v : ℚ} (hv : e.entropy = .fin v) {H ε : ℝ}
    (hH : |(v : ℝ) - H| ≤ ε) (hH1 : |H| ≤ 40) (hε : ε ≤ 1) :
    ∃ v' : ℚ, e.increment L i = .ok { e with entropy := .fin v' } ∧
      |(v' : ℝ) - incr n b.count H| ≤ ((n : ℝ) - 1) / n * ε + 400 * uu := by
  have hu := uu_pos
  have hus := uu_small
  have hi : i < e.hist.bins.length := (List.getElem?_eq_some_iff.1 hb).1
  have hg : e.hist.getBin i = .ok b := by
    unfold Hist.getBin
    rw [if_neg (by omega), hb]
  have on : L.ofNat n = .fin n := by rw [hL.arith]; exact ofNat_dbl (by omega)
  have oc : L.ofNat b.count = .fin b.count := by rw [hL.arith]; exact ofNat_dbl (by omega)
  obtain ⟨x1, a1, a2⟩ := xlogx_dbl hL hc1 hn0 hn
  obtain ⟨x2, b1, b2⟩ := xlogx_dbl hL (k := b.count - 1) (by omega) hn0 hn
  have g1 := g_bound (p := (b.count : ℝ) / n) (by positivity)
    ((div_le_one (by exact_mod_cast hn0)).2 (by exact_mod_cast hc1))
  have g2 := g_bound (p := ((b.count - 1 : ℕ) : ℝ) / n) (by positivity)
    ((div_le_one (by exact_mod_cast hn0)).2 (by exact_mod_cast (by omega : b.count - 1 ≤ n)))
  have hr0 : |((-x1 + x2 : ℚ) : ℝ) - (-g ((b.count : ℝ) / n) + g (((b.count - 1 : ℕ) : ℝ) / n))| ≤ 34 * uu := by
    push_cast
    have : -(x1 : ℝ) + x2 - (-g ((b.count : ℝ) / n) + g (((b.count - 1 : ℕ) : ℝ) / n)) =
      -((x1 : ℝ) - g ((b.count : ℝ) / n)) + ((x2 : ℝ) - g (((b.count - 1 : ℕ) : ℝ) / n)) := by ring
    rw [this]
    refine (abs_add_le _ _).trans ?_
    rw [abs_neg]
    linarith
  set G : ℝ := -g ((b.count : ℝ) / n) + g (((b.count - 1 : ℕ) : ℝ) / n) with hG
  have hG1 : |G| ≤ 3 := by
    rw [hG]
    refine (abs_add_le _ _).trans ?_
    rw [abs_neg]
    linarith
  have near : ∀ {x y d : ℝ}, |x - y| ≤ d → |x| ≤ |y| + d := fun {x y d} h => by
    have : x = (x - y) + y := by ring
    rw [this]
    exact (abs_add_le _ _).trans (by linarith)
  have trans' : ∀ {x y z d d' : ℝ}, |x - y| ≤ d → |y - z| ≤ d' → |x - z| ≤ d + d' := fun {x y z d d'} h h' => by
    have : x - z = (x - y) + (y - z) := by ring
    rw [this]
    exact (abs_add_le _ _).trans (by linarith)
  obtain ⟨rhs, r1, r2⟩ := ofRat_real (x := -x1 + x2) 2 (by norm_num) ((near hr0).trans (by norm_num; linarith))
  have hrhs : |(rhs : ℝ) - G| ≤ 38 * uu := (trans' r2 hr0).trans (by norm_num; linarith)
  have hadd : L.add (L.neg (.fin x1)) (.fin x2) = .fin rhs := by rw [hL.neg, hL.arith]; exact r1
  have heq : L.eq (L.lit 1) (.fin n) = decide (n = 1) := by
    rw [hL.arith, dbl_lit_one]
    show decide ((1 : ℚ) = (n : ℚ)) = _
    rw [decide_eq_decide]
    constructor
    · intro h; exact_mod_cast h.symm
    · intro h; rw [h]; simp
  unfold increment
  simp only [Hist.getTotalCount, ht, hg, Res.ok_bind, on, oc, max_dbl hL.arith (by omega : b.count ≤ 2 ^ 53), a1, b1, hadd, heq]
  have hε0 : 0 ≤ ε := (abs_nonneg _).trans hH
  have hn1 : (1 : ℝ) ≤ n := by exact_mod_cast hn0
  by_cases h1 : n = 1
  · simp only [h1, decide_true, if_true]
    refine ⟨rhs, rfl, ?_⟩
    subst h1
    have : incr 1 b.count H = G := by unfold incr; rw [if_pos rfl]
    rw [this]
    norm_num
    linarith
  simp only [h1, decide_false, Bool.false_eq_true, if_false]
  obtain ⟨r, l, c1, c2, c3, c4, c5, c6⟩ := ratio_dbl hL (n := n) (by omega) hn
  rw [c1, c2, hv]
  set q : ℝ := ((n : ℝ) - 1) / n with hq
  have q0 : 0 ≤ q := div_nonneg (by linarith) (by linarith)
  have q1 : q ≤ 1 := (div_le_one (by linarith)).2 (by linarith)
  have lq : |Real.logb 2 q| ≤ 1 := by
    have h2 : (2 : ℝ) ≤ n := by exact_mod_cast (by omega : 2 ≤ n)
    have q2 : 1 / 2 ≤ q := by
      rw [hq, div_le_div_iff₀ (by norm_num) (by linarith)]
      linarith
    have a1 : Real.logb 2 q ≤ 0 := Real.logb_nonpos (by norm_num) q0 q1
    have a2 : -1 ≤ Real.logb 2 q := by
      have : Real.logb 2 (1 / 2 : ℝ) = -1 := by
        rw [one_div, Real.logb_inv, Real.logb_self_eq_one (by norm_num)]
      rw [← this]
      exact Real.logb_le_logb_of_le (by norm_num) (by norm_num) q2
    exact abs_le.2 ⟨a2, by linarith⟩
  -- the difference
  have d0 : |((v + -l : ℚ) : ℝ) - (H - Real.logb 2 q)| ≤ ε + 10 * uu := by
    push_cast
    have : (v : ℝ) + -l - (H - Real.logb 2 q) = ((v : ℝ) - H) - (l - Real.logb 2 q) := by ring
    rw [this]
    exact (abs_sub _ _).trans (by linarith)
  have hHl : |H - Real.logb 2 q| ≤ 41 := (abs_sub _ _).trans (by linarith)
  obtain ⟨d, d1, d2⟩ := ofRat_real (x := v + -l) 6 (by norm_num) ((near d0).trans (by norm_num; linarith))
  have hd : |(d : ℝ) - (H - Real.logb 2 q)| ≤ ε + 74 * uu := (trans' d2 d0).trans (by norm_num; linarith)
  have hda : |(d : ℝ)| ≤ 63 := (near hd).trans (by linarith)
  -- the product
  have r0' : (0 : ℝ) < r := by exact_mod_cast c3
  have r1' : (r : ℝ) ≤ 1 := by exact_mod_cast c4
  have m0 : |((r * d : ℚ) : ℝ) - q * (H - Real.logb 2 q)| ≤ q * ε + 200 * uu := by
    push_cast
    have : (r : ℝ) * d - q * (H - Real.logb 2 q) = q * (d - (H - Real.logb 2 q)) + (r - q) * d := by ring
    rw [this]
    refine (abs_add_le _ _).trans ?_
    rw [abs_mul, abs_mul, abs_of_nonneg q0]
    have h1 := mul_le_mul_of_nonneg_left hd q0
    have h2 : |(r : ℝ) - q| * |(d : ℝ)| ≤ uu * 2 * 63 := mul_le_mul c5 hda (abs_nonneg _) (by positivity)
    nlinarith
  have ma : |((r * d : ℚ) : ℝ)| ≤ 2 ^ 6 := by
    push_cast
    rw [abs_mul, abs_of_pos r0']
    have := mul_le_mul r1' hda (abs_nonneg _) zero_le_one
    norm_num
    linarith
  obtain ⟨m, m1, m2⟩ := ofRat_real (x := r * d) 6 (by norm_num) ma
  have hm : |(m : ℝ) - q * (H - Real.logb 2 q)| ≤ q * ε + 264 * uu := (trans' m2 m0).trans (by norm_num; linarith)
  -- the sum
  have s0 : |((m + rhs : ℚ) : ℝ) - (q * (H - Real.logb 2 q) + G)| ≤ q * ε + 302 * uu := by
    push_cast
    have : (m : ℝ) + rhs - (q * (H - Real.logb 2 q) + G) = ((m : ℝ) - q * (H - Real.logb 2 q)) + (rhs - G) := by ring
    rw [this]
    exact (abs_add_le _ _).trans (by linarith)
  have sa : |q * (H - Real.logb 2 q) + G| ≤ 44 := by
    refine (abs_add_le _ _).trans ?_
    rw [abs_mul, abs_of_nonneg q0]
    have := mul_le_mul q1 hHl (abs_nonneg _) zero_le_one
    linarith
  have qe : q * ε ≤ 1 := by nlinarith
  obtain ⟨s, s1, s2⟩ := ofRat_real (x := m + rhs) 6 (by norm_num) ((near s0).trans (by norm_num; linarith))
  have hi1 : incr n b.count H = q * (H - Real.logb 2 q) + G := by unfold incr; rw [if_neg h1]
  refine ⟨s, ?_, ?_⟩
  · have e1 : L.sub (.fin v) (.fin l) = .fin d := by rw [hL.arith]; exact d1
    have e2 : L.mul (.fin r) (.fin d) = .fin m := by rw [hL.arith]; exact m1
    have e3 : L.add (.fin m) (.fin rhs) = .fin s := by rw [hL.arith]; exact s1
    rw [e1, e2, e3]
  · rw [hi1]
    exact (trans' s2 s0).trans (by norm_num; linarith)

/-! ### The stream -/

/-- The entropy of the bins after `n` observations, in exact arithmetic. -/
noncomputable def value {F : Type} (n : ℕ) (l : List (Bin F)) : ℝ :=
  if n = 0 then 0 else Real.logb 2 n - Hist.wsum (fun c => g c) l / n

theorem wsum_bounds {F : Type} {N : ℕ} (l : List (Bin F)) (hl : ∀ b ∈ l, b.count ≤ N) :
    0 ≤ Hist.wsum (fun c => g c) l ∧ Hist.wsum (fun c => g c) l ≤ (Hist.sumCounts l : ℕ) * Real.logb 2 N := by
  induction l with
  | nil => simp [Hist.wsum, Hist.sumCounts]
  | cons b l ih =>
    obtain ⟨i1, i2⟩ := ih fun b hb => hl b (List.mem_cons_of_mem _ hb)
    rw [Hist.sumCounts_cons]
    simp only [Hist.wsum, List.map_cons, List.sum_cons] at i1 i2 ⊢
    have hb := hl b List.mem_cons_self
    have h1 : 0 ≤ g (b.count : ℝ) ∧ g (b.count : ℝ) ≤ b.count * Real.logb 2 N := by
      unfold g
      rcases Nat.eq_zero_or_pos b.count with h | h
      · simp [h]
      · have h1 : (1 : ℝ) ≤ b.count := by exact_mod_cast h
        exact ⟨mul_nonneg (by positivity) (Real.logb_nonneg (by norm_num) h1),
          mul_le_mul_of_nonneg_left (Real.logb_le_logb_of_le (by norm_num) (by linarith) (by exact_mod_cast hb))
            (by positivity)⟩
    push_cast
    constructor
    · linarith
    · rw [add_mul]; linarith

theorem value_bounds {F : Type} {n : ℕ} {l : List (Bin F)} (hs : Hist.sumCounts l = n) (hl : ∀ b ∈ l, b.count ≤ n) :
    0 ≤ value n l ∧ value n l ≤ Real.logb 2 n := by
  unfold value
  split
  · rename_i h; subst h; simp
  · rename_i h
    obtain ⟨w1, w2⟩ := wsum_bounds l hl
    rw [hs] at w2
    have hp : (0 : ℝ) < n := by exact_mod_cast Nat.pos_of_ne_zero h
    constructor
    · rw [sub_nonneg, div_le_iff₀ hp]; linarith
    · rw [sub_le_self_iff]; positivity

theorem logb_le_40 {n : ℕ} (hn : n ≤ 2 ^ 40) : Real.logb 2 (n : ℝ) ≤ 40 := by
  rcases Nat.eq_zero_or_pos n with rfl | h
  · simp
  · have h1 : Real.logb 2 ((2 : ℝ) ^ 40) = 40 := by
      rw [Real.logb_pow, Real.logb_self_eq_one (by norm_num)]; norm_num
    rw [← h1]
    exact Real.logb_le_logb_of_le (by norm_num) (by exact_mod_cast h) (by exact_mod_cast hn)

/-- One observation in exact arithmetic. -/
theorem incr_value {F : Type} {n c : ℕ} {l l' : List (Bin F)} (h0 : n = 0 → l = []) (hc : 0 < c)
    (hsum : Hist.wsum (fun c => g c) l' + g ((c - 1 : ℕ) : ℝ) = Hist.wsum (fun c => g c) l + g (c : ℝ)) :
    incr (n + 1) c (value n l) = value (n + 1) l' := by
  have hm : (0 : ℝ) < ((n + 1 : ℕ) : ℝ) := by positivity
  have hcc : (((c - 1 : ℕ) : ℝ)) = c - 1 := by
    rw [Nat.cast_sub hc]; simp
  unfold incr value
  rw [if_neg (Nat.succ_ne_zero n), g_div (by positivity) hm, g_div (by positivity) hm]
  rcases Nat.eq_zero_or_pos n with rfl | hpos
  · have hz : Hist.wsum (fun c => g c) l = 0 := by
      rw [h0 rfl]; simp [Hist.wsum]
    rw [hz] at hsum
    simp only [zero_add, if_true, Nat.cast_one, Real.logb_one, mul_zero, sub_zero, div_one]
    linarith
  · rw [if_neg (by omega), if_neg (by omega)]
    have hn0 : (0 : ℝ) < n := by exact_mod_cast hpos
    have hsub : ((n + 1 : ℕ) : ℝ) - 1 = n := by push_cast; ring
    rw [hsub, Real.logb_div hn0.ne' hm.ne', hcc]
    have hsum' : Hist.wsum (fun c => g c) l' =
        Hist.wsum (fun c => g c) l + g c - g (((c - 1 : ℕ) : ℝ)) := by linarith
    rw [hsum', hcc]
    have hm' : ((n + 1 : ℕ) : ℝ) ≠ 0 := hm.ne'
    have hadd : ((n + 1 : ℕ) : ℝ) = n + 1 := by push_cast; ring
    field_simp
    rw [hadd]
    ring

theorem count_le_sum {F : Type} {l : List (Bin F)} {b : Bin F} (hb : b ∈ l) : b.count ≤ Hist.sumCounts l := by
  induction l with
  | nil => cases hb
  | cons a l ih =>
    rw [Hist.sumCounts_cons]
    rcases List.mem_cons.1 hb with rfl | hb
    · omega
    · have := ih hb; omega

theorem run_edges {nb W : ℕ} {xs : List ℚ} (hx : ∀ x ∈ xs, |x| ≤ dblMax / 2) {h : Hist ℚ}
    (hu : updateAll (Hist.update b64) (Hist.new nb W) xs = .ok h) : Hist.Edges (fun x => |x| ≤ dblMax / 2) h.bins := by
  induction xs using List.reverseRecOn generalizing h with
  | nil => simp only [updateAll] at hu; injection hu with hu; subst hu; intro b hb; simp [Hist.new] at hb
  | append_singleton xs x ih =>
    rw [updateAll_snoc] at hu
    obtain ⟨h1, e1, e2⟩ := Res.bind_eq_ok.1 hu
    exact (Hist.sim_dbl.update (ih (fun y hy => hx y (by simp [hy])) e1) (hx x (by simp))).2 h e2

theorem run_dbl (hL : L.Accurate) (nb W : ℕ) (hW : 1 ≤ W) (xs : List ℚ) (hx : ∀ x ∈ xs, |x| ≤ dblMax / 2)
    (hd : distinct xs ≤ nb) (hn : xs.length ≤ W) (hn40 : xs.length ≤ 2 ^ 40) :
    ∃ (e : Entropy Dbl) (hq : Hist ℚ) (v : ℚ) (w : List ℕ),
      updateAll (Entropy.update L) ⟨W, some [], 0, Hist.new nb W, L.lit 0⟩ (xs.map Dbl.fin) = .ok e ∧
      updateAll (Hist.update b64) (Hist.new nb W) xs = .ok hq ∧ e.hist = hq.map Dbl.fin ∧ e.windowSize = W ∧
      e.window = some w ∧ w.length = xs.length ∧ e.entropy = .fin v ∧
      |(v : ℝ) - value xs.length hq.bins| ≤ 200 * ((xs.length : ℝ) + 1) * uu := by
  have hu := uu_pos
  induction xs using List.reverseRecOn with
  | nil =>
    refine ⟨_, _, 0, [], rfl, rfl, rfl, rfl, rfl, rfl, ?_, ?_⟩
    · rw [hL.arith]; exact dbl_lit_zero
    · simp [value]; positivity
  | append_singleton xs x ih =>
    rw [List.length_append, List.length_singleton] at hn hn40
    have hdx := (Hist.distinct_mono (ys := xs ++ [x]) (xs := xs) (by simp +contextual)).trans hd
    have hx' : ∀ y ∈ xs, |y| ≤ dblMax / 2 := fun y hy => hx y (by simp [hy])
    obtain ⟨e, hq, v, w, he, hh, heh, hws, hw, hwl, hv, herr⟩ := ih hx' hdx (by omega) (by omega)
    obtain ⟨h', hu1⟩ := C55_enough_bins_partial R64 nb W hW (xs ++ [x]) hd
    rw [← b64_eq] at hu1
    have hu' : hq.update b64 x = .ok h' := by
      rw [updateAll_snoc, hh, Res.ok_bind] at hu1
      exact hu1
    have hed := run_edges hx' hh
    have hxx : |x| ≤ dblMax / 2 := hx x (by simp)
    obtain ⟨i, b1, b2, hs⟩ := Hist.update_step hu'
    have hc := Hist.Counts.run hh
    have hc' := hc.update hu'
    have ho := Hist.Ordered.run (R := R64) (nb := nb) (W := W) (xs := xs) (h := hq) (by omega) (by rw [← b64_eq]; exact hh)
    have h0 : hq.total = 0 → hq.bins = [] := by
      intro h0
      have : xs = [] := List.length_eq_zero_iff.1 (by have := hc.total; omega)
      subst this
      simp only [updateAll] at hh
      injection hh with hh
      rw [← hh]; rfl
    have hlen : b1.length ≤ nb :=
      (ho.placed (R := R64) h0 (by rw [← b64_eq]; exact hs.placed)).length_le.trans hd
    have hb2 : b2 = b1 := by
      rcases hs.decay with ⟨-, e2, -⟩ | ⟨h2, -⟩
      · exact e2
      · have := hc.total; have := hc.windowSize; omega
    have hbins : h'.bins = b1 := by
      rcases hs.merge with ⟨-, e2⟩ | ⟨h1, -⟩
      · rw [e2, hb2]
      · rw [hb2, hc.numBins] at h1; omega
    obtain ⟨b, hb, hbc, hsum⟩ := hs.placed.wsum h0 (fun c => g c) (by simp [g])
    rw [← hbins] at hb hsum
    have hsearch : e.hist.binSearch L.toArith (.fin x) = .ok i := by
      rw [hL.arith, heh]
      have := Hist.sim_dbl.search hed (c := ⟨x, x, 1⟩) hxx hq.bins.length 0 hq.bins.length ((0 + hq.bins.length) / 2)
      unfold Hist.binSearch Hist.binSearchBin
      simp only [List.length_map]
      exact this.trans hs.search
    have hupd : e.hist.update L.toArith (.fin x) = .ok (h'.map Dbl.fin) := by
      rw [hL.arith, heh, (Hist.sim_dbl.update hed hxx).1, hu']
      rfl
    have htot : h'.total = xs.length + 1 := by rw [hc'.total]; omega
    have hsumc := hc.sum_eq (by omega)
    have hsumc' := hc'.sum_eq hn
    have vb := value_bounds (n := xs.length) (l := hq.bins) hsumc (fun b hb => hsumc ▸ count_le_sum hb)
    have hH : |value xs.length hq.bins| ≤ 40 := by
      rw [abs_of_nonneg vb.1]
      exact vb.2.trans (logb_le_40 (by omega))
    have hbm : b ∈ h'.bins := List.mem_of_getElem? hb
    have hbn : b.count ≤ xs.length + 1 := hsumc' ▸ count_le_sum hbm
    have hn40' : (xs.length : ℝ) + 1 ≤ 2 ^ 40 := by exact_mod_cast hn40
    obtain ⟨v', i1, i2⟩ := increment_dbl hL
      (e := { e with window := some (w ++ [i]), hist := h'.map Dbl.fin }) (i := i) (n := xs.length + 1) (b := b.map Dbl.fin)
      (by simp [List.getElem?_map, hb]) htot hbn (by omega) hn40 hv herr hH
      (by unfold uu; rw [mul_one_div, div_le_one (by positivity)]; norm_num at hn40' ⊢; linarith)
    rw [List.map_append, List.map_singleton, updateAll_snoc, he, Res.ok_bind,
      update_room hsearch hw (by rw [hws]; omega), hupd, Res.ok_bind, i1, Res.ok_bind]
    refine ⟨_, h', v', w ++ [i], rfl, hu1, rfl, hws, rfl, by simp [hwl], rfl, ?_⟩
    have hval := incr_value (n := xs.length) (c := b.count) (l := hq.bins) (l' := h'.bins)
      (fun h => h0 (by rw [hc.total]; omega)) hbc hsum
    rw [List.length_append, List.length_singleton, ← hval]
    refine i2.trans (le_of_eq ?_)
    push_cast
    have : (xs.length : ℝ) + 1 ≠ 0 := by positivity
    field_simp
    ring

/-- The entropy of the fractions of the observations in the bins. -/
theorem value_eq {F : Type} {n : ℕ} (hn : n ≠ 0) {l : List (Bin F)} (hs : Hist.sumCounts l = n) :
    value n l = -(l.map fun b => (b.count : ℝ) / n * Real.logb 2 ((b.count : ℝ) / n)).sum := by
  have hp : (0 : ℝ) < n := by exact_mod_cast Nat.pos_of_ne_zero hn
  have h2 : ∀ l : List (Bin F), (l.map fun b => (b.count : ℝ) / n * Real.logb 2 ((b.count : ℝ) / n)).sum =
      (Hist.wsum (fun c => g c) l - (Hist.sumCounts l : ℕ) * Real.logb 2 n) / n := by
    intro l
    induction l with
    | nil => simp [Hist.wsum, Hist.sumCounts]
    | cons b l ih =>
      rw [List.map_cons, List.sum_cons, ih, Hist.sumCounts_cons]
      have := g_div (Nat.cast_nonneg b.count) hp
      unfold g at this
      rw [this]
      simp only [Hist.wsum, List.map_cons, List.sum_cons, g]
      push_cast
      ring
  rw [h2, hs]
  unfold value
  rw [if_neg hn]
  field_simp
  ring

/-! ### Separated doubles are told apart -/

/-- A double clearly above a number stays above after rounding. -/
theorem rnd64_lt_of_double {x y : ℚ} (hx : 0 ≤ x) (hxy : 2 * x < y) (hy : ∃ m : ℤ, y = m * pow2 (-1074)) : rnd64 x < rnd64 y := by
  have y0 : 0 < y := by linarith
  obtain ⟨e1, e2⟩ := expo_spec y0.ne'
  rw [abs_of_pos y0] at e1 e2
  rcases lt_or_ge (expo y) (-1021) with h | h
  · obtain ⟨m, rfl⟩ := hy
    have hp := pow2_pos (-1074)
    have m0 : 0 < m := by
      by_contra hm
      have : (m : ℚ) ≤ 0 := by exact_mod_cast not_lt.1 hm
      nlinarith
    have m1 : (1 : ℚ) ≤ m := by exact_mod_cast m0
    have y1 : (m : ℚ) * pow2 (-1074) < pow2 (-1021) := e2.trans_le (pow2_le.2 (by omega))
    have e53 : pow2 (-1021) = 2 ^ 53 * pow2 (-1074) := by
      have : pow2 (-1021) = pow2 53 * pow2 (-1074) := by rw [← pow2_add]; rfl
      rw [this]; rfl
    have mm : (m : ℚ) < 2 ^ 53 := lt_of_mul_lt_mul_right (by rw [← e53]; exact y1) hp.le
    have mm' : m < 2 ^ 53 := by exact_mod_cast mm
    rw [rnd64_repr m (-1074) (by rw [abs_of_pos m0]; exact mm'.le) le_rfl]
    have e22 : pow2 (-1021) = 2 * pow2 (-1022) := by
      have : pow2 (-1021) = pow2 1 * pow2 (-1022) := by rw [← pow2_add]; rfl
      rw [this]; rfl
    have e75 : pow2 (-1074) = 2 * pow2 (-1022 - 53) := by
      have : pow2 (-1074) = pow2 1 * pow2 (-1022 - 53) := by rw [← pow2_add]; rfl
      rw [this]; rfl
    have := (abs_le.1 (rnd64_err (x := x) (k := -1022) le_rfl (by rw [abs_of_nonneg hx]; linarith))).2
    nlinarith
  · have k1 : pow2 (expo y + 1) = 2 * pow2 (expo y) := pow2_succ _
    have r1 := (abs_le.1 (rnd64_err (x := x) (k := expo y) (by omega) (by rw [abs_of_nonneg hx]; linarith))).2
    have r2 := (abs_le.1 (rnd64_err (x := y) (k := expo y + 1) (by omega) (by rw [abs_of_pos y0]; exact e2.le))).1
    have k2 : pow2 (expo y + 1 - 53) = 2 * pow2 (expo y - 53) := by
      rw [← pow2_succ]; congr 1; ring
    have k3 : pow2 (expo y) = 2 ^ 53 * pow2 (expo y - 53) := by
      have : pow2 (expo y) = pow2 53 * pow2 (expo y - 53) := by rw [← pow2_add]; congr 1; ring
      rw [this]; rfl
    have := pow2_pos (expo y - 53)
    rw [k2] at r2
    nlinarith

/-- Doubles further apart than two ten-thousandths are told apart by the tolerant comparison. -/
theorem less_sep {a b : ℚ} (ha : rnd64 a = a) (hb : rnd64 b = b) (h : 1 / 4999 * max |a| |b| < b - a) :
    Utils.definitelyLessThan R64.arith a b (Utils.defaultEps R64.arith) = true := by
  unfold Utils.definitelyLessThan
  rw [larger_eq]
  have he : Utils.defaultEps R64.arith = rnd64 (1 / 10000) := rfl
  have he2 : rnd64 (1 / 10000) ≤ 1 / 9998 ∧ 0 ≤ rnd64 (1 / 10000) := by decide +kernel
  show decide (rnd64 (max |a| |b| * _) < rnd64 (b - a)) = true
  rw [he, decide_eq_true_eq]
  have hm : 0 ≤ max |a| |b| := (abs_nonneg a).trans (le_max_left _ _)
  refine rnd64_lt_of_double (mul_nonneg hm he2.2) ?_ ?_
  · have := mul_le_mul_of_nonneg_left he2.1 hm
    linarith
  · obtain ⟨m, hm⟩ := rnd64_grid ha
    obtain ⟨n, hn⟩ := rnd64_grid hb
    refine ⟨n - m, ?_⟩
    rw [hm, hn]
    push_cast
    ring

/-- The frequency table of the observations as real numbers. -/
theorem table_cast {xs : List ℚ} {l : List (Bin ℚ)} (h : Hist.Table xs l) :
    Hist.Table (xs.map fun y : ℚ => (y : ℝ)) (l.map (Bin.map fun y : ℚ => (y : ℝ))) := by
  have hinj : Function.Injective fun y : ℚ => (y : ℝ) := Rat.cast_injective
  refine ⟨⟨?_, ?_, ?_⟩, ?_, ?_⟩
  · rw [List.pairwise_map]
    exact h.ord.sorted.imp fun hab => by simpa using hab
  · intro b hb
    obtain ⟨c, hc, rfl⟩ := List.mem_map.1 hb
    simpa using h.ord.le c hc
  · intro b hb
    obtain ⟨c, hc, rfl⟩ := List.mem_map.1 hb
    have := h.ord.mem c hc
    exact ⟨List.mem_map_of_mem this.1, List.mem_map_of_mem this.2⟩
  · intro b hb
    obtain ⟨c, hc, rfl⟩ := List.mem_map.1 hb
    have := h.point c hc
    refine ⟨by simp [this.1], ?_⟩
    show c.count = (xs.map fun y : ℚ => (y : ℝ)).count ((fun y : ℚ => (y : ℝ)) c.left)
    rw [List.count_map_of_injective _ _ hinj]
    exact this.2
  · intro v hv
    obtain ⟨y, hy, rfl⟩ := List.mem_map.1 hv
    obtain ⟨b, hb, rfl⟩ := h.all y hy
    exact ⟨_, List.mem_map_of_mem hb, rfl⟩

theorem wsum_map {F G : Type} (f : F → G) (h : ℕ → ℝ) (l : List (Bin F)) :
    Hist.wsum h (l.map (Bin.map f)) = Hist.wsum h l := by
  simp [Hist.wsum, List.map_map, Function.comp_def]

theorem sumCounts_map {F G : Type} (f : F → G) (l : List (Bin F)) :
    Hist.sumCounts (l.map (Bin.map f)) = Hist.sumCounts l := by
  simp [Hist.sumCounts, List.map_map, Function.comp_def]

theorem new_form {L : LArith Dbl} {W numBins : ℕ} {e0 : Entropy Dbl} (hW : 1 ≤ W) (h : Entropy.new L W numBins = .ok e0) :
    e0 = ⟨W, some [], 0, Hist.new e0.hist.numBins W, L.lit 0⟩ := by
  unfold Entropy.new at h
  simp only [if_pos (by omega : W > 0), if_neg (by omega : ¬ W = 0), Res.ok_bind] at h
  split at h <;>
  · injection h with h
    subst h
    rfl

end Entropy

/-! ## C96 -/

/-- **C96**, any values: while the window fills, with no more different values than bins and a `log2` good to a few units
in the last place, the entropy computed on doubles differs from the exact entropy of the fractions of the observations in
the bins by at most `200 (n + 1) / 2^53` after `n` observations. -/
theorem C96_binned (L : LArith Dbl) (hL : L.Accurate) (W numBins : ℕ) (e0 : Entropy Dbl) (xs : List ℚ) (hne : xs ≠ [])
    (hx : ∀ x ∈ xs, |x| ≤ dblMax / 2) (hn : xs.length ≤ W) (hn40 : xs.length ≤ 2 ^ 40)
    (hnew : Entropy.new L W numBins = .ok e0) (hd : distinct xs ≤ e0.hist.numBins) :
    ∃ (e : Entropy Dbl) (v : ℚ), updateAll (Entropy.update L) e0 (xs.map Dbl.fin) = .ok e ∧ e.evaluate = .fin v ∧
      |(v : ℝ) - -(e.hist.bins.map fun b =>
        (b.count : ℝ) / xs.length * Real.logb 2 ((b.count : ℝ) / xs.length)).sum| ≤ 200 * ((xs.length : ℝ) + 1) / 2 ^ 53 := by
  have hpos : 0 < xs.length := List.length_pos_iff.2 hne
  obtain ⟨e, hq, v, w, he, hh, heh, -, -, -, hv, herr⟩ :=
    Entropy.run_dbl hL e0.hist.numBins W (by omega) xs hx hd hn hn40
  rw [Entropy.new_form (by omega) hnew]
  refine ⟨e, v, he, hv, ?_⟩
  rw [Entropy.value_eq (by omega) ((Hist.Counts.run hh).sum_eq hn)] at herr
  rw [heh, List.map_map]
  refine herr.trans (le_of_eq ?_)
  unfold Entropy.uu
  ring

/-- **C96**: with separated values the computed number is the Shannon entropy of the observations up to that error. -/
theorem C96_shannon (L : LArith Dbl) (hL : L.Accurate) (W numBins : ℕ) (e0 : Entropy Dbl) (xs : List ℚ) (hne : xs ≠ [])
    (hdbl : ∀ x ∈ xs, IsDouble x) (hx : ∀ x ∈ xs, |x| ≤ dblMax / 2) (hn : xs.length ≤ W) (hn40 : xs.length ≤ 2 ^ 40)
    (hnew : Entropy.new L W numBins = .ok e0) (hd : distinct xs ≤ e0.hist.numBins) (hsep : Separated (1 / 4999) xs) :
    ∃ (e : Entropy Dbl) (v : ℚ), updateAll (Entropy.update L) e0 (xs.map Dbl.fin) = .ok e ∧ e.evaluate = .fin v ∧
      |(v : ℝ) - Spec.entropy (xs.map fun y : ℚ => (y : ℝ))| ≤ 200 * ((xs.length : ℝ) + 1) / 2 ^ 53 := by
  have hpos : 0 < xs.length := List.length_pos_iff.2 hne
  obtain ⟨e, hq, v, w, he, hh, heh, -, -, -, hv, herr⟩ :=
    Entropy.run_dbl hL e0.hist.numBins W (by omega) xs hx hd hn hn40
  rw [Entropy.new_form (by omega) hnew]
  refine ⟨e, v, he, hv, ?_⟩
  have ht : Hist.Table xs hq.bins :=
    Hist.Table.run (R := R64) hn hd (fun a ha b hb hab =>
      Entropy.less_sep (hdbl a ha).1 (hdbl b hb).1 (hsep a ha b hb hab)) (by rw [← b64_eq]; exact hh)
  have hc := (Hist.Counts.run hh).sum_eq hn
  have hs := Entropy.table_entropy (Entropy.table_cast ht) (by simpa using hne)
    (by rw [Entropy.sumCounts_map, List.length_map]; exact hc)
  rw [Entropy.wsum_map, List.length_map] at hs
  rw [hs]
  unfold Entropy.value at herr
  rw [if_neg (by omega)] at herr
  refine herr.trans (le_of_eq ?_)
  unfold Entropy.uu
  ring

/-- Six observations of three values. -/
example : ∃ (L : LArith Dbl) (e0 : Entropy Dbl), L.Accurate ∧ Entropy.new L 6 3 = .ok e0 ∧
    ∃ (e : Entropy Dbl) (v : ℚ), updateAll (Entropy.update L) e0 ([1, 2, 2, 3, 3, 3].map Dbl.fin) = .ok e ∧
      e.evaluate = .fin v ∧ |(v : ℝ) - Spec.entropy ([1, 2, 2, 3, 3, 3].map fun y : ℚ => (y : ℝ))| ≤ 1400 / 2 ^ 53 := by
  obtain ⟨L, hL⟩ := exists_accurate
  refine ⟨L, _, hL, rfl, ?_⟩
  obtain ⟨e, v, h1, h2, h3⟩ := C96_shannon L hL 6 3 _ [1, 2, 2, 3, 3, 3] (by simp) (by decide +kernel) (by decide +kernel)
    (by simp) (by simp) rfl (by show distinct [1, 2, 2, 3, 3, 3] ≤ 3; decide +kernel) (by unfold Separated; decide +kernel)
  exact ⟨e, v, h1, h2, h3.trans (by norm_num)⟩

end KML
