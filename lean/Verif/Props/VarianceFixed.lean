import Verif.Props.DoubleMean
import Verif.Props.Scaling
import Verif.Props.Variance
import Verif.Props.WindowedConst

/-! # C112: StreamingVariance of fixed-point data on doubles -/

namespace KML

open Spec

/-- The rational core: squares and mean of integers that are not all equal. `n S₂ - S₁² ≥ n - 1`. -/
theorem int_variance_gap {l : List ℤ} (hne : ¬ ∀ x ∈ l, ∀ y ∈ l, x = y) :
    (l.length : ℤ) - 1 ≤ l.length * (l.map fun x => x * x).sum - l.sum * l.sum := by
  obtain ⟨c, hc, d, hd, hcd⟩ : ∃ c ∈ l, ∃ d ∈ l, d ≠ c := by
    push Not at hne
    obtain ⟨x, hx, y, hy, h⟩ := hne
    exact ⟨y, hy, x, hx, h⟩
  -- `a` elements equal `c`, `b` differ
  have key : ∀ l : List ℤ, ∃ a b s t : ℤ, 0 ≤ a ∧ 0 ≤ b ∧ (c ∈ l → 1 ≤ a) ∧ (d ∈ l → 1 ≤ b) ∧ a + b = l.length ∧
      l.sum = (a + b) * c + s ∧ (l.map fun x => x * x).sum = (a + b) * (c * c) + 2 * c * s + t ∧ s * s ≤ b * t ∧ b ≤ t := by
    intro l
    induction l with
    | nil => exact ⟨0, 0, 0, 0, by simp⟩
    | cons x l ih =>
      obtain ⟨a, b, s, t, h1, h2, h3, h4, h5, h6, h7, h8, h9⟩ := ih
      by_cases hx : x = c
      · refine ⟨a + 1, b, s, t, by omega, h2, fun _ => by omega, ?_, by push_cast [List.length_cons]; omega, ?_, ?_, h8, h9⟩
        · intro h
          rcases List.mem_cons.1 h with h | h
          · exact absurd (h.trans hx) hcd
          · exact h4 h
        · rw [List.sum_cons, h6, hx]; ring
        · rw [List.map_cons, List.sum_cons, h7, hx]; ring
      · have hy : 1 ≤ (x - c) * (x - c) := by
          have : x - c ≠ 0 := sub_ne_zero.2 hx
          have := mul_self_pos.2 this
          omega
        refine ⟨a, b + 1, s + (x - c), t + (x - c) * (x - c), h1, by omega, ?_, fun _ => by omega,
          by push_cast [List.length_cons]; omega, ?_, ?_, ?_, by omega⟩
        · intro h
          rcases List.mem_cons.1 h with h | h
          · exact absurd h.symm hx
          · exact h3 h
        · rw [List.sum_cons, h6]; ring
        · rw [List.map_cons, List.sum_cons, h7]; ring
        · -- Cauchy–Schwarz, one more term
          rcases h2.eq_or_lt with hb | hb
          · have hs : s = 0 := by
              rw [← hb, zero_mul] at h8
              nlinarith [mul_self_nonneg s]
            rw [← hb, hs]
            have : 0 ≤ t := by omega
            nlinarith
          · have hsq := mul_self_nonneg (b * (x - c) - s)
            have : 0 ≤ b * ((b + 1) * (t + (x - c) * (x - c)) - (s + (x - c)) * (s + (x - c))) := by
              nlinarith
            have := nonneg_of_mul_nonneg_right this hb
            linarith
  obtain ⟨a, b, s, t, h1, h2, h3, h4, h5, h6, h7, h8, h9⟩ := key l
  have a1 := h3 hc
  have b1 := h4 hd
  rw [h6, h7, ← h5]
  have e : (a + b) * ((a + b) * (c * c) + 2 * c * s + t) - ((a + b) * c + s) * ((a + b) * c + s) = a * t + (b * t - s * s) := by
    ring
  rw [e]
  nlinarith

theorem int_sq_le {l : List ℤ} : l.sum * l.sum ≤ l.length * (l.map fun x => x * x).sum := by
  by_cases h : ∀ x ∈ l, ∀ y ∈ l, x = y
  · rcases l with _ | ⟨c, l⟩
    · simp
    · have e : c :: l = List.replicate (l.length + 1) c :=
        List.eq_replicate_iff.2 ⟨by simp, fun b hb => h b hb c List.mem_cons_self⟩
      rw [e]
      simp
      apply le_of_eq
      ring
  · have := int_variance_gap h
    have : 0 < l.length := by
      rcases l with _ | ⟨c, l⟩
      · exact absurd (by simp) h
      · simp
    omega

/-- Rounding away from the underflow range. -/
theorem rnd64_rel_normal {x : ℚ} (h : x = 0 ∨ pow2 (-1022) ≤ |x|) : |rnd64 x - x| ≤ 1 / 2 ^ 53 * |x| := by
  rw [rnd64_eq_rnd53 h, one_div, inv_mul_eq_div]
  exact rnd53_rel x

/-- The three roundings of `evaluate`, in terms of the exact mean square `a` and the exact squared mean `b`. -/
theorem variance_rounding {a b μ : ℚ} (hb : b = μ * μ) (hba : b ≤ a) (ha : a = 0 ∨ pow2 (-1022) ≤ a)
    (hμ : μ = 0 ∨ pow2 (-500) ≤ |μ|) :
    |rnd64 a - rnd64 (rnd64 μ * rnd64 μ) - (a - b)| ≤ 5 / 2 ^ 53 * a ∧
    |rnd64 (rnd64 a - rnd64 (rnd64 μ * rnd64 μ)) - (a - b)| ≤ 7 / 2 ^ 53 * a := by
  have b0 : 0 ≤ b := hb ▸ mul_self_nonneg μ
  have a0 : 0 ≤ a := b0.trans hba
  have rel : ∀ x : ℚ, (x = 0 ∨ pow2 (-1022) ≤ |x|) → |rnd64 x - x| ≤ 1 / 2 ^ 53 * |x| := fun x => rnd64_rel_normal
  have relg : ∀ x : ℚ, (∃ m : ℤ, x = m * pow2 (-1074)) → |rnd64 x - x| ≤ 1 / 2 ^ 53 * |x| := fun x => rnd64_rel_grid
  obtain ⟨u, hu⟩ : ∃ u : ℚ, u = 1 / 2 ^ 53 := ⟨_, rfl⟩
  rw [← hu] at rel relg
  have u0 : 0 ≤ u := by rw [hu]; positivity
  have u1 : u ≤ 1 / 1000 := by rw [hu]; norm_num
  have e1 : |rnd64 a - a| ≤ u * a := by
    have := rel a (by rwa [abs_of_nonneg a0])
    rwa [abs_of_nonneg a0] at this
  have e2 : |rnd64 μ - μ| ≤ u * |μ| := rel _ (by
    refine hμ.imp id fun h => (pow2_le.2 (by norm_num)).trans h)
  set m := rnd64 μ with hm
  have e3 : |m * m - b| ≤ (2 * u + u * u) * b := by
    have : m * m - b = (m - μ) * (m - μ) + 2 * (μ * (m - μ)) := by rw [hb]; ring
    rw [this]
    refine (abs_add_le _ _).trans ?_
    rw [abs_mul, abs_mul, abs_mul, abs_two]
    have h0 := abs_nonneg (m - μ)
    have h1 := abs_nonneg μ
    have hbb : b = |μ| * |μ| := by rw [hb, abs_mul_abs_self]
    rw [hbb]
    have k1 : |m - μ| * |m - μ| ≤ (u * |μ|) * (u * |μ|) := mul_le_mul e2 e2 h0 (mul_nonneg u0 h1)
    have k2 : |μ| * |m - μ| ≤ |μ| * (u * |μ|) := mul_le_mul_of_nonneg_left e2 h1
    nlinarith
  have hmm : m * m = 0 ∨ pow2 (-1022) ≤ |m * m| := by
    rcases hμ with h | h
    · left; rw [hm, h, rnd64_zero, zero_mul]
    · right
      have h3 : pow2 (-501) ≤ |m| := by
        have k1 := abs_sub_abs_le_abs_sub μ m
        rw [abs_sub_comm] at k1
        have k2 : pow2 (-501) = pow2 (-500) / 2 := by decide +kernel
        have k3 : (0 : ℚ) < pow2 (-500) := pow2_pos _
        have k4 : u * |μ| ≤ 1 / 1000 * |μ| := mul_le_mul_of_nonneg_right u1 (abs_nonneg μ)
        linarith
      rw [abs_mul]
      calc pow2 (-1022) ≤ pow2 (-501 + -501) := pow2_le.2 (by norm_num)
        _ = pow2 (-501) * pow2 (-501) := pow2_add _ _
        _ ≤ |m| * |m| := mul_le_mul h3 h3 (pow2_pos _).le (abs_nonneg _)
  have e4 : |rnd64 (m * m) - m * m| ≤ u * (m * m) := by
    have := rel _ hmm
    rwa [abs_of_nonneg (mul_self_nonneg m)] at this
  set r := rnd64 (m * m) with hr
  have e5 : |rnd64 a - r - (a - b)| ≤ (4 * u + 4 * u * u) * a := by
    rw [abs_le] at e1 e3 e4 ⊢
    have k2 : m * m ≤ (1 + 2 * u + u * u) * b := by linarith [e3.2]
    have k3 : u * (m * m) ≤ u * ((1 + 2 * u + u * u) * b) := mul_le_mul_of_nonneg_left k2 u0
    have k4 : (3 * u + 3 * u * u + u * u * u) * b ≤ (3 * u + 4 * u * u) * a := by
      refine mul_le_mul ?_ hba b0 (by positivity)
      have : u * u * u ≤ u * u * 1 := mul_le_mul_of_nonneg_left (by linarith) (mul_nonneg u0 u0)
      linarith
    constructor <;> nlinarith
  refine ⟨e5.trans (mul_le_mul_of_nonneg_right (by rw [hu]; norm_num) a0), ?_⟩
  have e6 : |rnd64 (rnd64 a - r) - (rnd64 a - r)| ≤ u * |rnd64 a - r| := by
    obtain ⟨g1, h1⟩ := rnd64_grid (rnd64_idem a)
    obtain ⟨g2, h2⟩ := rnd64_grid (rnd64_idem (m * m))
    exact relg _ ⟨g1 - g2, by rw [hr, h1, h2]; push_cast; ring⟩
  have e7 : |rnd64 a - r| ≤ 2 * a := by
    have : |rnd64 a - r| ≤ |rnd64 a - r - (a - b)| + |a - b| := by
      have := abs_add_le (rnd64 a - r - (a - b)) (a - b)
      rwa [sub_add_cancel] at this
    rw [abs_of_nonneg (sub_nonneg.2 hba)] at this
    have : (4 * u + 4 * u * u) * a ≤ 1 * a := mul_le_mul_of_nonneg_right (by nlinarith) a0
    linarith
  have := abs_add_le (rnd64 (rnd64 a - r) - (rnd64 a - r)) (rnd64 a - r - (a - b))
  rw [sub_add_sub_cancel] at this
  have e8 : u * |rnd64 a - r| ≤ u * (2 * a) := mul_le_mul_of_nonneg_left e7 u0
  have e9 : (2 * u + (4 * u + 4 * u * u)) * a ≤ 7 / 2 ^ 53 * a := mul_le_mul_of_nonneg_right (by rw [hu]; norm_num) a0
  linarith

theorem sum_map_int (l : List ℤ) (p : ℚ) : (l.map fun (n : ℤ) => (n : ℚ) * p).sum = (l.sum : ℤ) * p := by
  induction l with
  | nil => simp
  | cons a l ih => rw [List.map_cons, List.sum_cons, List.sum_cons, ih]; push_cast; ring

/-- `b64` on fixed-point data: what `evaluate` computes. -/
theorem Variance.run_fixed {k : ℤ} (hk : -400 ≤ k) (B W : ℕ) (ns : List ℤ) (hn : ∀ n ∈ ns, |n| ≤ B)
    (hB : (if W = 0 then ns.length else W) * (B * B) ≤ 2 ^ 53) (hne : ns ≠ []) (hlen : ns.length ≤ 2 ^ 52) (hW : W ≤ 2 ^ 53) :
    ∃ v, updateAll (Variance.update b64) (Variance.new b64 W) (ns.map fun (n : ℤ) => (n : ℚ) * pow2 k) = .ok v ∧
      v.evaluate b64 = rnd64 (rnd64 ((((windowOf W ns).map fun x => x * x).sum : ℤ) * pow2 (k + k) / (windowOf W ns).length) -
        rnd64 (rnd64 (((windowOf W ns).sum : ℤ) * pow2 k / (windowOf W ns).length) *
          rnd64 (((windowOf W ns).sum : ℤ) * pow2 k / (windowOf W ns).length))) := by
  obtain ⟨v, v1, v2, v3, -⟩ := Variance.run_eq b64 W (ns.map fun (n : ℤ) => (n : ℚ) * pow2 k)
  refine ⟨v, v1, ?_⟩
  have h0 : 0 < ns.length := List.length_pos_of_ne_nil hne
  have hN : 0 < (if W = 0 then ns.length else W) := by split <;> omega
  have hBB : B * B ≤ 2 ^ 53 := (Nat.le_mul_of_pos_left _ hN).trans hB
  have hB1 : (if W = 0 then ns.length else W) * B ≤ 2 ^ 53 := by
    rcases Nat.eq_zero_or_pos B with h | h
    · rw [h]; simp
    · exact (Nat.mul_le_mul_left _ (Nat.le_mul_of_pos_left _ h)).trans hB
  obtain ⟨m1, a1, a2, a3⟩ := Mean.run_fixed (k := k) (by omega) B W ns hn hB1
  have hsqb : ∀ n ∈ ns.map (fun x : ℤ => x * x), |n| ≤ ((B * B : ℕ) : ℤ) := by
    intro n h
    obtain ⟨x, hx, rfl⟩ := List.mem_map.1 h
    rw [abs_mul]
    push_cast
    exact mul_le_mul (hn x hx) (hn x hx) (abs_nonneg _) (by positivity)
  obtain ⟨m2, b1, b2, b3⟩ := Mean.run_fixed (k := k + k) (by omega) (B * B) W (ns.map fun x => x * x) hsqb (by simpa using hB)
  have hsq : (ns.map fun (n : ℤ) => (n : ℚ) * pow2 k).map (fun x => b64.mul x x) =
      (ns.map fun x => x * x).map fun (n : ℤ) => (n : ℚ) * pow2 (k + k) := by
    rw [List.map_map, List.map_map]
    refine List.map_congr_left fun n h => ?_
    show rnd64 ((n : ℚ) * pow2 k * ((n : ℚ) * pow2 k)) = ((n * n : ℤ) : ℚ) * pow2 (k + k)
    have : (n : ℚ) * pow2 k * ((n : ℚ) * pow2 k) = ((n * n : ℤ) : ℚ) * pow2 (k + k) := by
      rw [pow2_add]; push_cast; ring
    rw [this]
    refine rnd64_repr _ _ ?_ (by omega)
    have := hsqb (n * n) (List.mem_map.2 ⟨n, h, rfl⟩)
    exact this.trans (by exact_mod_cast hBB)
  rw [hsq, b1] at v3
  rw [a1] at v2
  injection v2 with v2
  injection v3 with v3
  have hl : (windowOf W ns).length ≤ 2 ^ 53 := by rw [windowOf_length]; split <;> omega
  have cast : b64.ofNat (windowOf W ns).length = (windowOf W ns).length := by
    show rnd64 (((windowOf W ns).length : ℤ) : ℚ) = _
    rw [rnd64_int _ (by rw [abs_of_nonneg (by positivity)]; exact_mod_cast hl), Int.cast_natCast]
  have e1 : v.mean.evaluate b64 = rnd64 (((windowOf W ns).sum : ℤ) * pow2 k / (windowOf W ns).length) := by
    rw [← v2, Mean.evaluate_eq _ a2, if_neg (by simpa using hne), a3, windowOf_map, List.length_map, cast]
    rfl
  have e2 : v.sumSquared.evaluate b64 =
      rnd64 ((((windowOf W ns).map fun x => x * x).sum : ℤ) * pow2 (k + k) / (windowOf W ns).length) := by
    rw [← v3, Mean.evaluate_eq _ b2, if_neg (by simpa using hne), b3]
    simp only [windowOf_map, List.length_map, cast]
    rfl
  show b64.sub (v.sumSquared.evaluate b64) (b64.mul (v.mean.evaluate b64) (v.mean.evaluate b64)) = _
  rw [e1, e2]
  rfl

/-- **C112**: fixed-point data (integer multiples `n · 2 ^ k` with `|n| ≤ B`; `k = 0` for integers), `W · B² ≤ 2 ^ 53` (without a
window: number of observations times `B²`). However long the stream, StreamingVariance of doubles is finite and within
`7 · 2 ^ -53` times the mean square of the window of its variance, and 0 if the window is constant. If `W · B² ≤ 2 ^ 49`, it is
never negative and 0 only if the window is constant. -/
theorem C112_fixed_point (k : ℤ) (hk : -400 ≤ k) (hk2 : k ≤ 400) (B W : ℕ) (ns : List ℤ) (hn : ∀ n ∈ ns, |n| ≤ B)
    (hB : (if W = 0 then ns.length else W) * (B * B) ≤ 2 ^ 53) (hne : ns ≠ []) (hlen : ns.length ≤ 2 ^ 52) (hW : W ≤ 2 ^ 53) :
    ∃ d v, updateAll (Variance.update Dbl.arith) (Variance.new Dbl.arith W) (ns.map fun (n : ℤ) => .fin ((n : ℚ) * pow2 k)) = .ok d ∧
      d.evaluate Dbl.arith = .fin v ∧
      |v - variance (windowOf W (ns.map fun (n : ℤ) => (n : ℚ) * pow2 k))| ≤
        7 / 2 ^ 53 * mean ((windowOf W (ns.map fun (n : ℤ) => (n : ℚ) * pow2 k)).map fun x => x * x) ∧
      ((∀ x ∈ windowOf W ns, ∀ y ∈ windowOf W ns, x = y) → v = 0) ∧
      ((if W = 0 then ns.length else W) * (B * B) ≤ 2 ^ 49 →
        0 ≤ v ∧ (v = 0 ↔ ∀ x ∈ windowOf W ns, ∀ y ∈ windowOf W ns, x = y)) := by
  obtain ⟨v, h1, h2⟩ := Variance.run_fixed hk B W ns hn hB hne hlen hW
  have h0 : 0 < ns.length := List.length_pos_of_ne_nil hne
  have hN : 0 < (if W = 0 then ns.length else W) := by split <;> omega
  have hBB : B * B ≤ 2 ^ 53 := (Nat.le_mul_of_pos_left _ hN).trans hB
  have hB27 : B < 2 ^ 27 := by
    by_contra h
    have : 2 ^ 27 * 2 ^ 27 ≤ B * B := Nat.mul_le_mul (by omega) (by omega)
    omega
  obtain ⟨d, v', d1, d2, d3⟩ := C83_variance_partial W (ns.map fun (n : ℤ) => (n : ℚ) * pow2 k) (by
    intro x hx
    obtain ⟨n, h, rfl⟩ := List.mem_map.1 hx
    have hnB : |n| ≤ 2 ^ 27 := (hn n h).trans (by exact_mod_cast hB27.le)
    refine ⟨rnd64_repr n k (hnB.trans (by norm_num)) (by omega), ?_⟩
    rw [abs_mul, abs_of_pos (pow2_pos k)]
    have : |(n : ℚ)| ≤ pow2 27 := by
      have e : pow2 27 = 2 ^ 27 := rfl
      rw [e]; exact_mod_cast hnB
    calc |(n : ℚ)| * pow2 k ≤ pow2 27 * pow2 k := mul_le_mul_of_nonneg_right this (pow2_pos _).le
      _ = pow2 (27 + k) := (pow2_add _ _).symm
      _ ≤ pow2 450 := pow2_le.2 (by omega)) (by simpa using hlen)
  rw [h1] at d2
  injection d2 with d2
  subst d2
  rw [List.map_map] at d1
  refine ⟨d, v.evaluate b64, d1, d3, ?_⟩
  have hwn : windowOf W ns ≠ [] := by
    have : 0 < (windowOf W ns).length := by rw [windowOf_length]; split <;> omega
    exact List.ne_nil_of_length_pos this
  have hwl : (windowOf W ns).length ≤ (if W = 0 then ns.length else W) := by rw [windowOf_length]; split <;> omega
  have hwl2 : (windowOf W ns).length ≤ 2 ^ 52 := by rw [windowOf_length]; split <;> omega
  have hwB : ∀ n ∈ windowOf W ns, |n| ≤ B := fun n h => hn n (windowOf_subset h)
  rw [windowOf_map]
  generalize windowOf W ns = l at *
  obtain ⟨n, hnl⟩ : ∃ n, n = l.length := ⟨_, rfl⟩
  have n0 : 0 < n := by rw [hnl]; exact List.length_pos_of_ne_nil hwn
  have n0' : (0 : ℚ) < n := by exact_mod_cast n0
  have n52 : (n : ℚ) ≤ pow2 52 := by
    have e : pow2 52 = 2 ^ 52 := rfl
    rw [e, hnl]; exact_mod_cast hwl2
  set S1 : ℤ := l.sum with hS1
  set S2 : ℤ := (l.map fun x => x * x).sum with hS2
  rw [← hnl] at h2
  have pk := pow2_pos k
  have ha : mean ((l.map fun (n : ℤ) => (n : ℚ) * pow2 k).map fun x => x * x) = S2 * pow2 (k + k) / n := by
    unfold mean
    rw [List.length_map, List.length_map, ← hnl, hS2, ← sum_map_int, List.map_map, List.map_map, pow2_add]
    congr 2
    refine List.map_congr_left fun x _ => ?_
    simp only [Function.comp]
    push_cast
    ring
  have hμ : mean (l.map fun (n : ℤ) => (n : ℚ) * pow2 k) = S1 * pow2 k / n := by
    unfold mean
    rw [List.length_map, ← hnl, sum_map_int]
  obtain ⟨a, hadef⟩ : ∃ a : ℚ, a = S2 * pow2 (k + k) / n := ⟨_, rfl⟩
  obtain ⟨μ, hμdef⟩ : ∃ μ : ℚ, μ = S1 * pow2 k / n := ⟨_, rfl⟩
  rw [← hadef, ← hμdef] at h2
  rw [variance_eq, ha, hμ, ← hadef, ← hμdef]
  have hS2n : 0 ≤ S2 := by
    rw [hS2]
    refine List.sum_nonneg fun x hx => ?_
    obtain ⟨y, -, rfl⟩ := List.mem_map.1 hx
    exact mul_self_nonneg y
  have hcs : S1 * S1 ≤ n * S2 := by rw [hnl]; exact int_sq_le
  have hdiff : a - μ * μ = (n * S2 - S1 * S1 : ℤ) * (pow2 (k + k) / (n * n)) := by
    rw [hadef, hμdef, pow2_add]
    push_cast
    field_simp
  have hba : μ * μ ≤ a := by
    rw [← sub_nonneg, hdiff]
    exact mul_nonneg (by exact_mod_cast sub_nonneg.2 hcs) (div_nonneg (pow2_pos _).le (by positivity))
  have hsmall : ∀ (z : ℤ) (j : ℤ), -950 ≤ j → z ≠ 0 → pow2 (j - 52) ≤ |(z : ℚ) * pow2 j / n| := by
    intro z j hj hz
    rw [abs_div, abs_mul, abs_of_pos (pow2_pos j), abs_of_pos n0', le_div_iff₀ n0']
    have hz1 : (1 : ℚ) ≤ |(z : ℚ)| := by
      have := Int.one_le_abs hz
      exact_mod_cast this
    calc pow2 (j - 52) * n ≤ pow2 (j - 52) * pow2 52 := mul_le_mul_of_nonneg_left n52 (pow2_pos _).le
      _ = 1 * pow2 j := by rw [← pow2_add, sub_add_cancel, one_mul]
      _ ≤ |(z : ℚ)| * pow2 j := mul_le_mul_of_nonneg_right hz1 (pow2_pos j).le
  have a0 : 0 ≤ a := by rw [hadef]; exact div_nonneg (mul_nonneg (by exact_mod_cast hS2n) (pow2_pos _).le) n0'.le
  obtain ⟨r1, r2⟩ := variance_rounding (a := a) (b := μ * μ) rfl hba (by
      by_cases hz : S2 = 0
      · left; rw [hadef, hz]; simp
      · right
        have := hsmall S2 (k + k) (by omega) hz
        rw [← hadef, abs_of_nonneg a0] at this
        exact (pow2_le.2 (by omega)).trans this) (by
      by_cases hz : S1 = 0
      · left; rw [hμdef, hz]; simp
      · right
        have := hsmall S1 k (by omega) hz
        rw [← hμdef] at this
        exact (pow2_le.2 (by omega)).trans this)
  rw [← h2] at r2
  have hconst : (∀ x ∈ l, ∀ y ∈ l, x = y) → v.evaluate b64 = 0 := by
    intro h
    obtain ⟨c, hc⟩ := List.exists_mem_of_ne_nil l hwn
    have e : l = List.replicate n c := List.eq_replicate_iff.2 ⟨hnl.symm, fun b hb => h b hb c hc⟩
    have e1 : S1 = n * c := by rw [hS1, e]; simp
    have e2 : S2 = n * (c * c) := by rw [hS2, e]; simp
    have f1 : μ = c * pow2 k := by rw [hμdef, e1]; push_cast; field_simp
    have f2 : a = (c * c : ℤ) * pow2 (k + k) := by rw [hadef, e2]; push_cast; field_simp
    have hcB := hwB c hc
    have hc53 : |c * c| ≤ 2 ^ 53 := by
      rw [abs_mul]
      calc |c| * |c| ≤ (B : ℤ) * B := mul_le_mul hcB hcB (abs_nonneg _) (by positivity)
        _ ≤ 2 ^ 53 := by exact_mod_cast hBB
    have hc53' : |c| ≤ 2 ^ 53 := hcB.trans (by have := hB27; have : (B : ℤ) < 2 ^ 27 := by exact_mod_cast this
                                               omega)
    have g1 : rnd64 μ = μ := by rw [f1]; exact rnd64_repr c k hc53' (by omega)
    have g2 : rnd64 a = a := by rw [f2]; exact rnd64_repr _ _ hc53 (by omega)
    have g3 : μ * μ = a := by rw [f1, f2, pow2_add]; push_cast; ring
    rw [h2, g1, g3, g2, sub_self, rnd64_zero]
  refine ⟨r2, hconst, fun h49 => ?_⟩
  by_cases hall : ∀ x ∈ l, ∀ y ∈ l, x = y
  · rw [hconst hall]
    exact ⟨le_rfl, fun _ => hall, fun _ => rfl⟩
  · have gap := int_variance_gap hall
    rw [← hnl, ← hS1, ← hS2] at gap
    have n2 : 2 ≤ n := by
      by_contra hlt
      have h1 : l.length = 1 := by omega
      obtain ⟨c, hc⟩ := List.length_eq_one_iff.1 h1
      rw [hc] at hall
      exact hall (by simp)
    have n2' : (2 : ℚ) ≤ n := by exact_mod_cast n2
    have hP : 0 < pow2 (k + k) := pow2_pos _
    -- the variance is at least `2 ^ 2k / 2n`, the mean square at most `B² 2 ^ 2k`
    have hlow : pow2 (k + k) / (2 * n) ≤ a - μ * μ := by
      rw [hdiff]
      have : ((n : ℚ) - 1) ≤ ((n * S2 - S1 * S1 : ℤ) : ℚ) := by exact_mod_cast gap
      calc pow2 (k + k) / (2 * n) = (n / 2) * (pow2 (k + k) / (n * n)) := by field_simp
        _ ≤ _ := mul_le_mul_of_nonneg_right (by linarith) (div_nonneg hP.le (by positivity))
    have hS2B : S2 ≤ n * (B * B : ℕ) := by
      rw [hS2, hnl]
      clear * - hwB
      induction l with
      | nil => simp
      | cons x l ih =>
        have h1 := ih fun y hy => hwB y (List.mem_cons_of_mem _ hy)
        have h2 := hwB x List.mem_cons_self
        have h3 : x * x ≤ (B : ℤ) * B := by
          rw [← abs_mul_abs_self x]
          exact mul_le_mul h2 h2 (abs_nonneg _) (by positivity)
        rw [List.map_cons, List.sum_cons, List.length_cons]
        push_cast at h1 ⊢
        linarith
    have hup : a ≤ (B * B : ℕ) * pow2 (k + k) := by
      rw [hadef, div_le_iff₀ n0']
      have : (S2 : ℚ) ≤ n * (B * B : ℕ) := by exact_mod_cast hS2B
      calc (S2 : ℚ) * pow2 (k + k) ≤ n * (B * B : ℕ) * pow2 (k + k) := mul_le_mul_of_nonneg_right this hP.le
        _ = _ := by ring
    have hnB : (n : ℚ) * (B * B : ℕ) ≤ 2 ^ 49 := by
      have : n * (B * B) ≤ 2 ^ 49 := (Nat.mul_le_mul_right _ (by rw [hnl]; exact hwl)).trans h49
      exact_mod_cast this
    have hlt : 5 / 2 ^ 53 * a < a - μ * μ := by
      refine lt_of_lt_of_le ?_ hlow
      rw [lt_div_iff₀ (by positivity)]
      calc 5 / 2 ^ 53 * a * (2 * n) ≤ 5 / 2 ^ 53 * ((B * B : ℕ) * pow2 (k + k)) * (2 * n) := by
            refine mul_le_mul_of_nonneg_right (mul_le_mul_of_nonneg_left hup (by norm_num)) (by positivity)
        _ = 10 / 2 ^ 53 * (n * (B * B : ℕ)) * pow2 (k + k) := by ring
        _ ≤ 10 / 2 ^ 53 * 2 ^ 49 * pow2 (k + k) :=
            mul_le_mul_of_nonneg_right (mul_le_mul_of_nonneg_left hnB (by norm_num)) hP.le
        _ < pow2 (k + k) := by linarith
    have hpos : 0 < rnd64 a - rnd64 (rnd64 μ * rnd64 μ) := by
      have := (abs_le.1 r1).1
      linarith
    have hvpos : 0 < v.evaluate b64 := by
      rw [h2]
      obtain ⟨g1, e1⟩ := rnd64_grid (rnd64_idem a)
      obtain ⟨g2, e2⟩ := rnd64_grid (rnd64_idem (rnd64 μ * rnd64 μ))
      have e3 : rnd64 a - rnd64 (rnd64 μ * rnd64 μ) = ((g1 - g2 : ℤ) : ℚ) * pow2 (-1074) := by
        rw [e1, e2]; push_cast; ring
      have hp := pow2_pos (-1074)
      rw [e3] at hpos ⊢
      have hg : 1 ≤ g1 - g2 := by
        have := (mul_pos_iff_of_pos_right hp).1 hpos
        have : (0 : ℤ) < g1 - g2 := by exact_mod_cast this
        omega
      have : rnd64 (((1 : ℤ) : ℚ) * pow2 (-1074)) ≤ rnd64 (((g1 - g2 : ℤ) : ℚ) * pow2 (-1074)) :=
        rnd64_mono (mul_le_mul_of_nonneg_right (by exact_mod_cast hg) hp.le)
      rw [rnd64_repr 1 (-1074) (by norm_num) le_rfl, Int.cast_one, one_mul] at this
      linarith
    exact ⟨hvpos.le, fun h => absurd h hvpos.ne', fun h => absurd h hall⟩

/-- Integers up to 1000 with a window of 1000; sixteenths of a unit without window. -/
example : (if (1000 : ℕ) = 0 then [999, -5, 31].length else 1000) * (1000 * 1000) ≤ 2 ^ 49 := by norm_num
example : ∃ d, updateAll (Variance.update Dbl.arith) (Variance.new Dbl.arith 3)
      ([(100 : ℤ), 5, 7, 6].map fun (n : ℤ) => .fin ((n : ℚ) * pow2 (-4))) = .ok d ∧
    ∃ v, d.evaluate Dbl.arith = .fin v ∧ 0 < v := by
  obtain ⟨d, v, h1, h2, -, -, h3⟩ := C112_fixed_point (-4) (by norm_num) (by norm_num) 100 3 [100, 5, 7, 6] (by decide)
    (by norm_num) (by simp) (by norm_num) (by norm_num)
  obtain ⟨h4, h5⟩ := h3 (by norm_num)
  exact ⟨d, h1, v, h2, lt_of_le_of_ne h4 fun h => absurd (h5.1 h.symm) (by decide)⟩

/-- The condition on the size is needed: 10⁸ and 10⁸ + 1 have `W · B² ≈ 2 ^ 54` and variance 0. -/
example : ∃ v, updateAll (Variance.update b64) (Variance.new b64 0) [100000000, 100000001] = .ok v ∧ v.evaluate b64 = 0 :=
  C19_zero_violated

end KML
