import Verif.Props.DoubleMean

/-! # C94: rounding errors of StreamingMean and StreamingVariance grow linearly with the stream -/

set_option linter.unusedSectionVars false

namespace KML

open Spec

section Generic

variable {K : Type} [Field K] [LinearOrder K] [IsStrictOrderedRing K] [FloorRing K]

theorem abs_sum_le_length {l : List K} {M : K} (h : ∀ x ∈ l, |x| ≤ M) : |l.sum| ≤ l.length * M := by
  induction l with
  | nil => simp
  | cons a l ih =>
    have h1 := h a (by simp)
    have h2 := ih fun x hx => h x (by simp [hx])
    rw [List.sum_cons, List.length_cons]
    push_cast
    calc |a + l.sum| ≤ |a| + |l.sum| := abs_add_le _ _
      _ ≤ _ := by linarith

theorem one_add_pow_le {u : K} (hu : 0 ≤ u) (k : ℕ) (h : k * u ≤ 1 / 4) : (1 + u) ^ k ≤ 4 / 3 := by
  have key : ∀ j : ℕ, j ≤ k → (1 + u) ^ j * (1 - j * u) ≤ 1 := by
    intro j hj
    induction j with
    | zero => simp
    | succ j ih =>
      have h1 := ih (by omega)
      have hp : 0 ≤ (1 + u) ^ j := by positivity
      rw [pow_succ]
      push_cast
      have : (1 + u) ^ j * (1 + u) * (1 - (j + 1) * u) = (1 + u) ^ j * (1 - j * u) - (1 + u) ^ j * ((j + 1) * u ^ 2) := by ring
      rw [this]
      have : 0 ≤ (1 + u) ^ j * ((j + 1) * u ^ 2) := by positivity
      linarith
  have h1 := key k le_rfl
  have hp : 0 ≤ (1 + u) ^ k := by positivity
  nlinarith

/-- The sum is off by at most a constant per operation. -/
theorem Mean.run_sum_drift (R : Rounding K) {u η : K} (hu : 0 ≤ u) (hη : 0 ≤ η) (hR : ∀ x, |R.rnd x - x| ≤ u * |x| + η)
    (W : ℕ) (M : K) (hM : 0 ≤ M) (n : ℕ) (xs : List K) :
    ∃ m, updateAll (Mean.update R.arith) (Mean.new R.arith W) xs = .ok m ∧ Mean.Inv W xs m ∧
      ((∀ x ∈ xs, |x| ≤ M) → (windowOf W xs).length ≤ n → |m.sum - (windowOf W xs).sum| ≤
        ((2 * xs.length : ℕ) : K) * (1 + u) ^ (2 * xs.length) * (u * (n * M) + η)) := by
  have key : ∀ (s S t : K) (k : ℕ) (c : K), 0 ≤ c → |S + t| ≤ n * M → u * (n * M) + η ≤ c →
      |s - S| ≤ k * (1 + u) ^ k * c → |R.rnd (s + t) - (S + t)| ≤ ((k + 1 : ℕ) : K) * (1 + u) ^ (k + 1) * c := by
    intro s S t k c hc hB hcc h
    have hk : (1 : K) ≤ (1 + u) ^ (k + 1) := one_le_pow₀ (by linarith)
    have h1 := hR (s + t)
    have h2 : |s + t| ≤ |S + t| + |s - S| := by
      have : s + t = (S + t) + (s - S) := by ring
      rw [this]; exact abs_add_le _ _
    have h3 : |R.rnd (s + t) - (S + t)| ≤ |R.rnd (s + t) - (s + t)| + |s - S| := by
      have : R.rnd (s + t) - (S + t) = (R.rnd (s + t) - (s + t)) + (s - S) := by ring
      rw [this]; exact abs_add_le _ _
    have h4 : u * |s + t| ≤ u * (n * M + |s - S|) := mul_le_mul_of_nonneg_left (by linarith) hu
    have h5 : (1 + u) * |s - S| ≤ (1 + u) * (k * (1 + u) ^ k * c) := mul_le_mul_of_nonneg_left h (by linarith)
    have h6 : c ≤ (1 + u) ^ (k + 1) * c := le_mul_of_one_le_left hc hk
    calc |R.rnd (s + t) - (S + t)| ≤ (1 + u) * |s - S| + (u * (n * M) + η) := by linarith
      _ ≤ (1 + u) * (k * (1 + u) ^ k * c) + (1 + u) ^ (k + 1) * c := by linarith
      _ = _ := by push_cast; rw [pow_succ]; ring
  have hc : 0 ≤ u * (n * M) + η := by positivity
  have weaken : ∀ (k l : ℕ), k ≤ l → (k : K) * (1 + u) ^ k * (u * (n * M) + η) ≤ l * (1 + u) ^ l * (u * (n * M) + η) := by
    intro k l h
    refine mul_le_mul_of_nonneg_right ?_ hc
    refine mul_le_mul (by exact_mod_cast h) (pow_le_pow_right₀ (by linarith) h) (by positivity) (by positivity)
  refine updateAll_induct (fun xs (m : Mean K) => Mean.Inv W xs m ∧
      ((∀ x ∈ xs, |x| ≤ M) → (windowOf W xs).length ≤ n → |m.sum - (windowOf W xs).sum| ≤
        ((2 * xs.length : ℕ) : K) * (1 + u) ^ (2 * xs.length) * (u * (n * M) + η))) ?_ ?_ xs
  · refine ⟨Mean.inv_new _ W, fun _ _ => ?_⟩
    simp [Mean.new, Rounding.arith, R.rnd_zero, windowOf, lastN]
  · rintro xs m x ⟨hinv, h1⟩
    obtain ⟨m', hm', hinv', hsum⟩ := Mean.update_spec R.arith hinv x
    refine ⟨m', hm', hinv', fun hb hn => ?_⟩
    have hlen : (windowOf W xs).length ≤ (windowOf W (xs ++ [x])).length := by
      rw [windowOf_length, windowOf_length]
      split
      · rw [List.length_append]; omega
      · rw [List.length_append]; omega
    have h1 := h1 (fun y hy => hb y (by simp [hy])) (hlen.trans hn)
    have hwin : |(windowOf W (xs ++ [x])).sum| ≤ n * M := by
      refine (abs_sum_le_length fun y hy => hb y (windowOf_subset hy)).trans ?_
      exact mul_le_mul_of_nonneg_right (by exact_mod_cast hn) hM
    have e2 : 2 * (xs ++ [x]).length = 2 * xs.length + 1 + 1 := by simp; ring
    rw [e2]
    by_cases hc' : W ≠ 0 ∧ W ≤ xs.length
    · obtain ⟨a, r, l1, l2, l3⟩ := lastN_snoc_ge x (Nat.pos_of_ne_zero hc'.1) hc'.2
      rw [if_pos hc', l3] at hsum
      simp only [Rounding.arith] at hsum
      have w1 : windowOf W xs = a :: r := by rw [windowOf, if_neg hc'.1, l1]
      have w2 : windowOf W (xs ++ [x]) = r ++ [x] := by rw [windowOf, if_neg hc'.1, l2]
      rw [w1] at h1 hlen
      rw [w2] at hwin hn ⊢
      have hr : |r.sum| ≤ n * M := by
        refine (abs_sum_le_length fun y hy => hb y (windowOf_subset (W := W) (by rw [w2]; simp [hy]))).trans ?_
        refine mul_le_mul_of_nonneg_right ?_ hM
        rw [List.length_append] at hn
        exact_mod_cast (by omega : r.length ≤ n)
      have k1 := key m.sum (a :: r).sum (-a) _ _ hc (by rw [List.sum_cons]; simpa using hr) le_rfl h1
      have k2 := key _ _ x _ _ hc (by simpa using hwin) le_rfl k1
      rw [hsum, sub_eq_add_neg m.sum a]
      have : (r ++ [x]).sum = (a :: r).sum + -a + x := by simp
      rw [this]
      exact k2
    · rw [if_neg hc'] at hsum
      simp only [Rounding.arith] at hsum
      have w2 : (windowOf W (xs ++ [x])).sum = (windowOf W xs).sum + x := by
        by_cases hw : W = 0
        · simp [windowOf, hw]
        · have hlt : xs.length < W := by
            by_contra hlt; exact hc' ⟨hw, Nat.not_lt.1 hlt⟩
          simp [windowOf, hw, lastN_snoc_lt x hlt]
      have k1 := key m.sum _ x _ _ hc (by rw [← w2]; exact hwin) le_rfl h1
      rw [hsum, w2]
      exact k1.trans (weaken _ _ (Nat.le_succ _))

/-- Error of the mean: `4 N` roundings of values of the size of the data, whatever the window. -/
theorem Mean.run_error (R : Rounding K) {u η : K} (hu : 0 ≤ u) (hη : 0 ≤ η) (hR : ∀ x, |R.rnd x - x| ≤ u * |x| + η)
    (W : ℕ) (M : K) (hM : 0 ≤ M) (xs : List K) (hb : ∀ x ∈ xs, |x| ≤ M) (hN : xs.length * u ≤ 1 / 8) (hlen : xs.length ≤ 2 ^ 53) :
    ∃ m, updateAll (Mean.update R.arith) (Mean.new R.arith W) xs = .ok m ∧
      |m.evaluate R.arith - mean (windowOf W xs)| ≤ 4 * xs.length * (u * M + η) := by
  obtain ⟨m, h1, h2, h3⟩ := Mean.run_sum_drift R hu hη hR W M hM (windowOf W xs).length xs
  refine ⟨m, h1, ?_⟩
  have h3 := h3 hb le_rfl
  rw [Mean.evaluate_eq _ h2]
  by_cases hx : xs = []
  · subst hx; simp [Rounding.arith, R.rnd_zero, mean, windowOf, lastN]
  have hw := windowOf_ne_nil (W := W) hx
  have hwl : (windowOf W xs).length ≤ xs.length := by rw [windowOf_length]; split <;> omega
  have hone : (1 : K) ≤ (windowOf W xs).length := by exact_mod_cast List.length_pos_iff.2 hw
  have hN1 : (1 : K) ≤ xs.length := by exact_mod_cast List.length_pos_iff.2 hx
  have hnat : R.rnd ((windowOf W xs).length : K) = (windowOf W xs).length := R.rnd_nat _ (hwl.trans hlen)
  simp only [hx, if_false, Rounding.arith, Arith.ofNat, mean, Int.cast_natCast, hnat]
  have hS : |(windowOf W xs).sum| ≤ (windowOf W xs).length * M := abs_sum_le_length fun y hy => hb y (windowOf_subset hy)
  have hp : (1 + u) ^ (2 * xs.length) ≤ 4 / 3 := one_add_pow_le hu _ (by push_cast; linarith)
  generalize ((windowOf W xs).length : K) = c at *
  generalize (windowOf W xs).sum = S at *
  have hpos : 0 < c := by linarith
  have hpos' : 0 ≤ u * M + η := by positivity
  have h4 : |m.sum - S| ≤ 8 / 3 * xs.length * c * (u * M + η) := by
    refine h3.trans ?_
    have : u * (c * M) + η ≤ c * (u * M + η) := by nlinarith
    calc ((2 * xs.length : ℕ) : K) * (1 + u) ^ (2 * xs.length) * (u * (c * M) + η)
        ≤ ((2 * xs.length : ℕ) : K) * (4 / 3) * (c * (u * M + η)) := by
          refine mul_le_mul (mul_le_mul_of_nonneg_left hp (by positivity)) this (by positivity) (by positivity)
      _ = _ := by push_cast; ring
  have h5 : |m.sum / c - S / c| ≤ 8 / 3 * xs.length * (u * M + η) := by
    rw [← sub_div, abs_div, abs_of_pos hpos, div_le_iff₀ hpos]
    linarith
  have h6 := hR (m.sum / c)
  have h7 : |S / c| ≤ M := by
    rw [abs_div, abs_of_pos hpos, div_le_iff₀ hpos]; linarith
  have h8 : |m.sum / c| ≤ M + 8 / 3 * xs.length * (u * M + η) := by
    have : m.sum / c = S / c + (m.sum / c - S / c) := by ring
    rw [this]
    exact (abs_add_le _ _).trans (by linarith)
  have h9 : |R.rnd (m.sum / c) - S / c| ≤ |R.rnd (m.sum / c) - m.sum / c| + |m.sum / c - S / c| := by
    have : R.rnd (m.sum / c) - S / c = (R.rnd (m.sum / c) - m.sum / c) + (m.sum / c - S / c) := by ring
    rw [this]; exact abs_add_le _ _
  have h10 : u * |m.sum / c| ≤ u * M + 1 / 3 * (u * M + η) := by
    calc u * |m.sum / c| ≤ u * (M + 8 / 3 * xs.length * (u * M + η)) := mul_le_mul_of_nonneg_left h8 hu
      _ = u * M + 8 / 3 * (xs.length * u) * (u * M + η) := by ring
      _ ≤ _ := by nlinarith
  have h11 : (u * M + η) * 1 ≤ (u * M + η) * xs.length := mul_le_mul_of_nonneg_left hN1 hpos'
  linarith

theorem abs_mean_le {l : List K} {M : K} (hM : 0 ≤ M) (h : ∀ x ∈ l, |x| ≤ M) : |mean l| ≤ M := by
  by_cases hl : l = []
  · subst hl; simpa [mean] using hM
  have hpos : (0 : K) < l.length := by exact_mod_cast List.length_pos_iff.2 hl
  rw [mean, abs_div, abs_of_pos hpos, div_le_iff₀ hpos]
  linarith [abs_sum_le_length h]

theorem abs_mean_sub_le {l : List K} (f g : K → K) {c : K} (hc : 0 ≤ c) (h : ∀ x ∈ l, |f x - g x| ≤ c) :
    |mean (l.map f) - mean (l.map g)| ≤ c := by
  have e : mean (l.map f) - mean (l.map g) = mean (l.map fun x => f x - g x) := by
    unfold mean
    rw [List.length_map, List.length_map, List.length_map, ← sub_div]
    congr 1
    clear h
    induction l with
    | nil => simp
    | cons a l ih =>
      simp only [List.map_cons, List.sum_cons]
      rw [← ih]; ring
  rw [e]
  refine abs_mean_le hc fun y hy => ?_
  obtain ⟨x, hx, rfl⟩ := List.mem_map.1 hy
  exact h x hx

/-- Error of the variance. -/
theorem Variance.run_error (R : Rounding K) {u η : K} (hu : 0 ≤ u) (hη : 0 ≤ η) (hR : ∀ x, |R.rnd x - x| ≤ u * |x| + η)
    (W : ℕ) (M : K) (hM : 0 ≤ M) (xs : List K) (hne : xs ≠ []) (hb : ∀ x ∈ xs, |x| ≤ M) (hN : xs.length * u ≤ 1 / 8)
    (hN' : xs.length * η ≤ 1 / 8) (hlen : xs.length ≤ 2 ^ 53) :
    ∃ v, updateAll (Variance.update R.arith) (Variance.new R.arith W) xs = .ok v ∧
      |v.evaluate R.arith - variance (windowOf W xs)| ≤ 21 * xs.length * (u * M ^ 2 + η * M + η) := by
  have hN1 : (1 : K) ≤ xs.length := by exact_mod_cast List.length_pos_iff.2 hne
  have hu8 : u ≤ 1 / 8 := by nlinarith
  obtain ⟨v, h1, h2, h3, -⟩ := Variance.run_eq R.arith W xs
  refine ⟨v, h1, ?_⟩
  obtain ⟨m, k1, k2⟩ := Mean.run_error R hu hη hR W M hM xs hb hN hlen
  rw [h2] at k1
  injection k1 with k1
  subst k1
  have hsq : ∀ x, |x| ≤ M → |R.rnd (x * x) - x * x| ≤ u * M ^ 2 + η := by
    intro x hx
    have h5 : |x * x| ≤ M ^ 2 := by rw [abs_mul, pow_two]; exact mul_le_mul hx hx (abs_nonneg _) hM
    exact (hR _).trans (by nlinarith)
  have hb2 : ∀ y ∈ xs.map (fun x => R.arith.mul x x), |y| ≤ M ^ 2 + (u * M ^ 2 + η) := by
    intro y hy
    obtain ⟨x, hx, rfl⟩ := List.mem_map.1 hy
    have h4 := hsq x (hb x hx)
    have h5 : |x * x| ≤ M ^ 2 := by rw [abs_mul, pow_two]; exact mul_le_mul (hb x hx) (hb x hx) (abs_nonneg _) hM
    have : R.arith.mul x x = (R.rnd (x * x) - x * x) + x * x := by simp [Rounding.arith]
    rw [this]
    exact (abs_add_le _ _).trans (by linarith)
  obtain ⟨m2, k3, k4⟩ := Mean.run_error R hu hη hR W (M ^ 2 + (u * M ^ 2 + η)) (by positivity)
    (xs.map fun x => R.arith.mul x x) hb2 (by simpa using hN) (by simpa using hlen)
  rw [h3] at k3
  injection k3 with k3
  subst k3
  rw [List.length_map, windowOf_map] at k4
  have k5 : |Spec.mean ((windowOf W xs).map fun x => R.arith.mul x x) - Spec.mean ((windowOf W xs).map fun x => x * x)| ≤
      u * M ^ 2 + η := abs_mean_sub_le _ _ (by positivity) fun x hx => hsq x (hb x (windowOf_subset hx))
  have k6 : |Spec.mean (windowOf W xs)| ≤ M := abs_mean_le hM fun x hx => hb x (windowOf_subset hx)
  have k7 : |Spec.mean ((windowOf W xs).map fun x => x * x)| ≤ M ^ 2 := by
    refine abs_mean_le (by positivity) fun y hy => ?_
    obtain ⟨x, hx, rfl⟩ := List.mem_map.1 hy
    have := hb x (windowOf_subset hx)
    rw [abs_mul, pow_two]; exact mul_le_mul this this (abs_nonneg _) hM
  have k8 := variance_nonneg (windowOf W xs)
  rw [variance_eq] at k8 ⊢
  have e : v.evaluate R.arith = R.rnd (v.sumSquared.evaluate R.arith - R.rnd (v.mean.evaluate R.arith * v.mean.evaluate R.arith)) := rfl
  rw [e]
  generalize v.mean.evaluate R.arith = a at *
  generalize v.sumSquared.evaluate R.arith = s at *
  generalize Spec.mean ((windowOf W xs).map fun x => R.arith.mul x x) = q' at *
  generalize Spec.mean ((windowOf W xs).map fun x => x * x) = q at *
  generalize Spec.mean (windowOf W xs) = μ at *
  generalize (xs.length : K) = N at *
  have hM2 : 0 ≤ M ^ 2 := by positivity
  have huM : 0 ≤ u * M ^ 2 := by positivity
  have hηM : 0 ≤ η * M := by positivity
  -- the mean of the squares
  have A : |s - q| ≤ N * (11 / 2) * (u * M ^ 2 + η) := by
    have t : |s - q| ≤ |s - q'| + |q' - q| := by
      have : s - q = (s - q') + (q' - q) := by ring
      rw [this]; exact abs_add_le _ _
    have t2 : u * (M ^ 2 + (u * M ^ 2 + η)) + η ≤ 9 / 8 * (u * M ^ 2 + η) := by nlinarith
    have t3 : 4 * N * (u * (M ^ 2 + (u * M ^ 2 + η)) + η) ≤ 4 * N * (9 / 8 * (u * M ^ 2 + η)) :=
      mul_le_mul_of_nonneg_left t2 (by linarith)
    have t4 : u * M ^ 2 + η ≤ N * (u * M ^ 2 + η) := le_mul_of_one_le_left (by linarith) hN1
    linarith
  -- the square of the mean
  have D : |a * a - μ * μ| ≤ N * (10 * (u * M ^ 2) + 12 * (η * M) + 2 * η) := by
    have t : a * a - μ * μ = (a - μ) * (2 * μ + (a - μ)) := by ring
    have t2 : |2 * μ + (a - μ)| ≤ 2 * M + 4 * N * (u * M + η) := by
      refine (abs_add_le _ _).trans ?_
      rw [abs_mul, abs_two]
      linarith
    have t3 : 2 * M + 4 * N * (u * M + η) ≤ 5 / 2 * M + 4 * N * η := by nlinarith
    rw [t, abs_mul]
    have p0 : 0 ≤ 4 * N * (u * M + η) := by positivity
    calc |a - μ| * |2 * μ + (a - μ)| ≤ 4 * N * (u * M + η) * (5 / 2 * M + 4 * N * η) :=
          mul_le_mul k2 (t2.trans t3) (abs_nonneg _) p0
      _ = N * (10 * (u * M ^ 2) + 10 * (η * M) + 16 * (N * u) * (η * M) + 16 * (N * η) * η) := by ring
      _ ≤ _ := by
        refine mul_le_mul_of_nonneg_left ?_ (by linarith)
        nlinarith
  have hμ : |μ * μ| ≤ M ^ 2 := by rw [abs_mul, pow_two]; exact mul_le_mul k6 k6 (abs_nonneg _) hM
  have hD0 : 0 ≤ N * (10 * (u * M ^ 2) + 12 * (η * M) + 2 * η) := by positivity
  have r1 : |R.rnd (a * a) - a * a| ≤ u * M ^ 2 + 1 / 8 * (N * (10 * (u * M ^ 2) + 12 * (η * M) + 2 * η)) + η := by
    have t1 : |a * a| ≤ M ^ 2 + N * (10 * (u * M ^ 2) + 12 * (η * M) + 2 * η) := by
      have : a * a = μ * μ + (a * a - μ * μ) := by ring
      rw [this]; exact (abs_add_le _ _).trans (by linarith)
    have t2 := mul_le_mul_of_nonneg_left t1 hu
    have t3 := mul_le_mul_of_nonneg_right hu8 hD0
    have := hR (a * a)
    linarith
  have E : |(s - R.rnd (a * a)) - (q - μ * μ)| ≤ |s - q| + |R.rnd (a * a) - a * a| + |a * a - μ * μ| := by
    have : (s - R.rnd (a * a)) - (q - μ * μ) = (s - q) + -(R.rnd (a * a) - a * a) + -(a * a - μ * μ) := by ring
    rw [this]
    refine (abs_add_le _ _).trans ?_
    rw [abs_neg]
    have := abs_add_le (s - q) (-(R.rnd (a * a) - a * a))
    rw [abs_neg] at this
    linarith
  have v1 : |q - μ * μ| ≤ M ^ 2 := by
    rw [abs_of_nonneg k8]
    have := mul_self_nonneg μ
    have := le_abs_self q
    linarith
  have f1 := hR (s - R.rnd (a * a))
  have f2 : |s - R.rnd (a * a)| ≤ |q - μ * μ| + |(s - R.rnd (a * a)) - (q - μ * μ)| := by
    have : s - R.rnd (a * a) = (q - μ * μ) + ((s - R.rnd (a * a)) - (q - μ * μ)) := by ring
    conv_lhs => rw [this]
    exact abs_add_le _ _
  have f3 : |R.rnd (s - R.rnd (a * a)) - (q - μ * μ)| ≤
      |R.rnd (s - R.rnd (a * a)) - (s - R.rnd (a * a))| + |(s - R.rnd (a * a)) - (q - μ * μ)| := by
    have : R.rnd (s - R.rnd (a * a)) - (q - μ * μ) =
      (R.rnd (s - R.rnd (a * a)) - (s - R.rnd (a * a))) + ((s - R.rnd (a * a)) - (q - μ * μ)) := by ring
    rw [this]; exact abs_add_le _ _
  have f4 := mul_le_mul_of_nonneg_left f2 hu
  have f5 : u * |(s - R.rnd (a * a)) - (q - μ * μ)| ≤ 1 / 8 * |(s - R.rnd (a * a)) - (q - μ * μ)| :=
    mul_le_mul_of_nonneg_right hu8 (abs_nonneg _)
  have f6 := mul_le_mul_of_nonneg_left v1 hu
  have g1 : u * M ^ 2 ≤ N * (u * M ^ 2) := le_mul_of_one_le_left huM hN1
  have g2 : η ≤ N * η := le_mul_of_one_le_left hη hN1
  have g3 : 0 ≤ N * (η * M) := by positivity
  linarith

end Generic

/-! ### Doubles -/

theorem rnd64_err_two (x : ℚ) : |rnd64 x - x| ≤ 1 / 2 ^ 53 * |x| + pow2 (-1075) := by
  by_cases hx : x = 0
  · subst hx; rw [rnd64_zero, sub_zero, abs_zero, mul_zero, zero_add]; exact (pow2_pos _).le
  have h75 : pow2 (-1074) / 2 = pow2 (-1075) := by decide +kernel
  have h0 := abs_nonneg x
  rcases lt_or_ge (expo x) (-1022) with h | h
  · rw [rnd64_sub h]
    have := rndAt_err (-1074) x
    rw [h75] at this
    have : 0 ≤ 1 / 2 ^ 53 * |x| := mul_nonneg (by norm_num) h0
    linarith
  · rw [rnd64_normal h]
    have := rnd53_rel x
    have := pow2_pos (-1075)
    rw [one_div, inv_mul_eq_div]
    linarith

theorem length_mul_u {n : ℕ} (h : n ≤ 2 ^ 50) : (n : ℚ) * (1 / 2 ^ 53) ≤ 1 / 8 := by
  have hl : (n : ℚ) ≤ 2 ^ 50 := by exact_mod_cast h
  linarith

theorem length_mul_eta {n : ℕ} (h : n ≤ 2 ^ 50) : (n : ℚ) * pow2 (-1075) ≤ 1 / 8 := by
  have hl : (n : ℚ) ≤ 2 ^ 50 := by exact_mod_cast h
  exact (mul_le_mul_of_nonneg_right hl (pow2_pos _).le).trans (by decide +kernel)

/-- **C94** (doubles with overflow): `N ≤ 2 ^ 50` doubles of magnitude at most `M ≤ 2 ^ 950`, any window. The mean is
within `4 N` rounding errors (`2 ^ -53` relative to `M`) of the mean of the window. -/
theorem C94_mean (W : ℕ) (M : ℚ) (hM : M ≤ pow2 950) (xs : List ℚ) (hx : ∀ x ∈ xs, rnd64 x = x ∧ |x| ≤ M)
    (hlen : xs.length ≤ 2 ^ 50) :
    ∃ d a, updateAll (Mean.update Dbl.arith) (Mean.new Dbl.arith W) (xs.map .fin) = .ok d ∧ d.evaluate Dbl.arith = .fin a ∧
      |a - mean (windowOf W xs)| ≤ 4 * xs.length * (M / 2 ^ 53 + pow2 (-1075)) := by
  obtain ⟨d, m, h1, h2, h3⟩ := C83_moderate_partial W xs (fun x h => ⟨(hx x h).1, (hx x h).2.trans hM⟩) (by omega)
  refine ⟨d, _, h1, h3, ?_⟩
  clear hM
  by_cases hne : xs = []
  · subst hne
    cases h2
    have e : (Mean.new b64 W).evaluate b64 = 0 := by
      show b64.lit 0 = 0
      decide +kernel
    rw [e]
    simp [windowOf, lastN, mean]
  have hM0 : 0 ≤ M := by
    obtain ⟨x, h⟩ := List.exists_mem_of_ne_nil xs hne
    exact (abs_nonneg x).trans (hx x h).2
  obtain ⟨m', k1, k2⟩ := Mean.run_error R64 (u := 1 / 2 ^ 53) (η := pow2 (-1075)) (by positivity) (pow2_pos _).le
    rnd64_err_two W M hM0 xs (fun x h => (hx x h).2) (length_mul_u hlen) (by omega)
  rw [← b64_eq, h2] at k1
  injection k1 with k1
  subst k1
  rw [← b64_eq] at k2
  refine k2.trans (le_of_eq ?_)
  ring

/-- **C94**, StreamingVariance: magnitude at most `M ≤ 2 ^ 450`. In particular a negative result is at most this far below 0. -/
theorem C94_variance (W : ℕ) (M : ℚ) (hM : M ≤ pow2 450) (xs : List ℚ) (hne : xs ≠ []) (hx : ∀ x ∈ xs, rnd64 x = x ∧ |x| ≤ M)
    (hlen : xs.length ≤ 2 ^ 50) :
    ∃ d a, updateAll (Variance.update Dbl.arith) (Variance.new Dbl.arith W) (xs.map .fin) = .ok d ∧
      d.evaluate Dbl.arith = .fin a ∧
      |a - variance (windowOf W xs)| ≤ 21 * xs.length * (M ^ 2 / 2 ^ 53 + (M + 1) * pow2 (-1075)) ∧
      -(21 * xs.length * (M ^ 2 / 2 ^ 53 + (M + 1) * pow2 (-1075))) ≤ a := by
  obtain ⟨d, v, h1, h2, h3⟩ := C83_variance_partial W xs (fun x h => ⟨(hx x h).1, (hx x h).2.trans hM⟩) (by omega)
  have hM0 : 0 ≤ M := by
    obtain ⟨x, h⟩ := List.exists_mem_of_ne_nil xs hne
    exact (abs_nonneg x).trans (hx x h).2
  obtain ⟨v', k1, k2⟩ := Variance.run_error R64 (u := 1 / 2 ^ 53) (η := pow2 (-1075)) (by positivity) (pow2_pos _).le
    rnd64_err_two W M hM0 xs hne (fun x h => (hx x h).2) (length_mul_u hlen) (length_mul_eta hlen) (by omega)
  rw [← b64_eq, h2] at k1
  injection k1 with k1
  subst k1
  rw [← b64_eq] at k2
  have key : |v.evaluate b64 - variance (windowOf W xs)| ≤ 21 * xs.length * (M ^ 2 / 2 ^ 53 + (M + 1) * pow2 (-1075)) :=
    k2.trans (le_of_eq (by ring))
  refine ⟨d, _, h1, h3, key, ?_⟩
  have := variance_nonneg (windowOf W xs)
  have := (abs_le.1 key).1
  linarith

/-- Data meeting the hypotheses of both theorems: 0.1 as a double, a million times, window 3. -/
example : (∀ x ∈ List.replicate 1000000 (rnd64 (1 / 10)), rnd64 x = x ∧ |x| ≤ 1 / 8) ∧ (1 / 8 : ℚ) ≤ pow2 450 ∧
    (List.replicate 1000000 (rnd64 (1 / 10))).length ≤ 2 ^ 50 ∧ List.replicate 1000000 (rnd64 (1 / 10)) ≠ [] := by
  refine ⟨fun x h => ?_, by decide +kernel, ?_, ?_⟩
  · rw [List.eq_of_mem_replicate h]
    decide +kernel
  · rw [List.length_replicate]; norm_num
  · rw [Ne, ← List.length_eq_zero_iff, List.length_replicate]; norm_num

/-- The bound for them: the mean is 0.1 up to 6e-11, the variance at least -4e-11. -/
example : 4 * (1000000 : ℚ) * ((1 / 8) / 2 ^ 53 + pow2 (-1075)) < 6 / 10 ^ 11 ∧
    21 * (1000000 : ℚ) * ((1 / 8) ^ 2 / 2 ^ 53 + (1 / 8 + 1) * pow2 (-1075)) < 4 / 10 ^ 11 := by
  decide +kernel

end KML
