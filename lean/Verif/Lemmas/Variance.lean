import Verif.Lemmas.Mean

/-! Algebra of the population variance, and the run of `StreamingVariance`. -/

set_option linter.unusedSectionVars false

namespace KML

open Spec

namespace Variance

variable {F : Type} (A : Arith F)

/-- Any arithmetic: the two means run independently; the inherited members keep their initial values. -/
theorem run_eq (W : ℕ) (xs : List F) :
    ∃ v, updateAll (Variance.update A) (Variance.new A W) xs = .ok v ∧
      updateAll (Mean.update A) (Mean.new A W) xs = .ok v.mean ∧
      updateAll (Mean.update A) (Mean.new A W) (xs.map fun x => A.mul x x) = .ok v.sumSquared ∧
      v.historyCount = 0 ∧ v.window = (if W > 0 then some [] else none) := by
  refine updateAll_induct (fun xs (v : Variance F) =>
    updateAll (Mean.update A) (Mean.new A W) xs = .ok v.mean ∧
      updateAll (Mean.update A) (Mean.new A W) (xs.map fun x => A.mul x x) = .ok v.sumSquared ∧
      v.historyCount = 0 ∧ v.window = (if W > 0 then some [] else none)) ?_ ?_ xs
  · exact ⟨rfl, rfl, rfl, rfl⟩
  · rintro xs v x ⟨h1, h2, h3, h4⟩
    obtain ⟨m, hm⟩ := Mean.run_inv A W (xs ++ [x])
    obtain ⟨m2, hm2⟩ := Mean.run_inv A W ((xs ++ [x]).map fun x => A.mul x x)
    have e1 : v.mean.update A x = .ok m := by
      have := hm.1
      rwa [updateAll_snoc, h1, Res.ok_bind] at this
    have e2 : v.sumSquared.update A (A.mul x x) = .ok m2 := by
      have := hm2.1
      rwa [List.map_append, List.map_singleton, updateAll_snoc, h2, Res.ok_bind] at this
    exact ⟨⟨v.window, v.historyCount, m, m2⟩, by simp [update, e1, e2], hm.1, hm2.1, h3, h4⟩

end Variance

section Exact

variable {K : Type} [Field K] [LinearOrder K] [IsStrictOrderedRing K] [FloorRing K]

theorem sum_sq_dev (l : List K) (c : K) :
    (l.map fun x => (x - c) ^ 2).sum = (l.map fun x => x * x).sum - 2 * c * l.sum + l.length * c ^ 2 := by
  induction l with
  | nil => simp
  | cons a l ih =>
    simp only [List.map_cons, List.sum_cons, List.length_cons, ih]
    push_cast; ring

theorem variance_eq (l : List K) :
    variance l = mean (l.map fun x => x * x) - mean l * mean l := by
  by_cases hl : l = []
  · simp [hl, variance, mean]
  have hn : (l.length : K) ≠ 0 := by
    have : l.length ≠ 0 := by simpa using hl
    exact_mod_cast this
  unfold variance
  rw [mean, sum_sq_dev]
  simp only [mean, List.length_map]
  field_simp
  ring

theorem variance_nonneg (l : List K) : 0 ≤ variance l := by
  unfold variance mean
  apply div_nonneg
  · apply List.sum_nonneg
    intro y hy
    obtain ⟨z, -, rfl⟩ := List.mem_map.1 hy
    exact sq_nonneg _
  · positivity

theorem sum_sq_eq_zero {l : List K} {c : K} (h : (l.map fun x => (x - c) ^ 2).sum = 0) :
    ∀ x ∈ l, x = c := by
  induction l with
  | nil => simp
  | cons a l ih =>
    have h1 : 0 ≤ (l.map fun x => (x - c) ^ 2).sum := by
      apply List.sum_nonneg
      intro y hy
      obtain ⟨z, -, rfl⟩ := List.mem_map.1 hy
      exact sq_nonneg _
    have h2 := sq_nonneg (a - c)
    simp only [List.map_cons, List.sum_cons] at h
    have ha : (a - c) ^ 2 = 0 := by linarith
    have hr : (l.map fun x => (x - c) ^ 2).sum = 0 := by linarith
    intro x hx
    rcases List.mem_cons.1 hx with rfl | hx
    · exact sub_eq_zero.1 (pow_eq_zero_iff (by norm_num) |>.1 ha)
    · exact ih hr x hx

theorem mean_const {l : List K} {c : K} (hl : l ≠ []) (h : ∀ x ∈ l, x = c) : mean l = c := by
  have : l = List.replicate l.length c := List.eq_replicate_iff.2 ⟨rfl, h⟩
  have hn : (l.length : K) ≠ 0 := by
    have : l.length ≠ 0 := by simpa using hl
    exact_mod_cast this
  rw [mean]
  conv_lhs => rw [this]
  rw [List.sum_replicate, List.length_replicate, nsmul_eq_mul]
  field_simp

theorem variance_eq_zero {l : List K} : variance l = 0 ↔ ∀ x ∈ l, ∀ y ∈ l, x = y := by
  by_cases hl : l = []
  · simp [hl, variance, mean]
  have hn : (l.length : K) ≠ 0 := by
    have : l.length ≠ 0 := by simpa using hl
    exact_mod_cast this
  constructor
  · intro h
    unfold variance at h
    rw [mean, div_eq_zero_iff] at h
    rcases h with h | h
    · intro x hx y hy
      rw [sum_sq_eq_zero h x hx, sum_sq_eq_zero h y hy]
    · simp [hl] at h
  · intro h
    obtain ⟨a, ha⟩ := List.exists_mem_of_ne_nil l hl
    have hc : ∀ x ∈ l, x = a := fun x hx => h x hx a ha
    unfold variance
    rw [mean_const hl hc]
    apply mean_const (by simpa using hl)
    intro y hy
    obtain ⟨z, hz, rfl⟩ := List.mem_map.1 hy
    rw [hc z hz]; simp

theorem mean_add_const {l : List K} (hl : l ≠ []) (c : K) : mean (l.map fun x => x + c) = mean l + c := by
  have hn : (l.length : K) ≠ 0 := by
    have : l.length ≠ 0 := by simpa using hl
    exact_mod_cast this
  have : ∀ l : List K, (l.map fun x => x + c).sum = l.sum + l.length * c := by
    intro l
    induction l with
    | nil => simp
    | cons a l ih => simp only [List.map_cons, List.sum_cons, List.length_cons, ih]; push_cast; ring
  rw [mean, this, mean, List.length_map]
  field_simp

theorem mean_mul (l : List K) (k : K) : mean (l.map fun x => k * x) = k * mean l := by
  have : (l.map fun x => k * x).sum = k * l.sum := by
    induction l with
    | nil => simp
    | cons a l ih => simp only [List.map_cons, List.sum_cons, ih]; ring
  rw [mean, mean, this, List.length_map, mul_div_assoc]

theorem variance_shift (l : List K) (c : K) : variance (l.map fun x => x + c) = variance l := by
  by_cases hl : l = []
  · simp [hl, variance, mean]
  unfold variance
  rw [mean_add_const hl, List.map_map]
  congr 2
  funext x
  simp

theorem variance_scale (l : List K) (k : K) : variance (l.map fun x => k * x) = k ^ 2 * variance l := by
  unfold variance
  conv_rhs => rw [← mean_mul, List.map_map]
  rw [mean_mul l, List.map_map]
  congr 2
  funext x
  simp only [Function.comp]
  ring

theorem Variance.run_exact (W : ℕ) (xs : List K) :
    ∃ v, updateAll (Variance.update (exact K)) (Variance.new (exact K) W) xs = .ok v ∧
      v.evaluate (exact K) = variance (windowOf W xs) := by
  obtain ⟨v, h1, h2, h3, -⟩ := Variance.run_eq (exact K) W xs
  refine ⟨v, h1, ?_⟩
  have ev : ∀ (ys : List K) (m : Mean K),
      updateAll (Mean.update (exact K)) (Mean.new (exact K) W) ys = .ok m →
      m.evaluate (exact K) = Spec.mean (windowOf W ys) := by
    intro ys m hm
    obtain ⟨m', k1, k2, k3⟩ := Mean.run_exact (K := K) W ys
    rw [k1] at hm; cases hm
    rw [Mean.evaluate_eq _ k2]
    split
    · subst ys; simp [Spec.mean, exact, windowOf, lastN]
    · simp [exact, Arith.ofNat, k3, Spec.mean]
  rw [variance_eq, ← windowOf_map]
  simp only [Variance.evaluate, ev _ _ h2, ev _ _ h3]
  rfl

end Exact

end KML
