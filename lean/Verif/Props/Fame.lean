import Verif.Lemmas.Fame
import Verif.Lemmas.Float

/-! # C22–C26: WindowedFAME -/

set_option linter.unusedSectionVars false

namespace KML

open Spec

/-! ## C22 -/

/-- **C22** (any arithmetic in which `c < c` is false, so any IEEE arithmetic): the estimate is 0 before
any observation, and while all observations equal `c` it is `c`. -/
theorem C22_first_and_constant {F : Type} (A : Arith F) (stepSize epsilon c : F)
    (hirr : A.lt c c = false) (f : Fame F) (hf : Fame.new A stepSize epsilon = .ok f) (n : ℕ) :
    ((List.replicate n c).foldl (Fame.update A) f).evaluate = if n = 0 then A.lit 0 else c := by
  unfold Fame.new at hf
  split at hf
  · cases hf
  · injection hf with hf
    subst hf
    split
    · subst n; rfl
    · exact (Fame.run_const A hirr (Or.inr rfl) n).2 (Nat.pos_of_ne_zero ‹_›)

theorem Dbl.lt_irrefl (x : Dbl) : Dbl.lt x x = false := by
  cases x <;> simp [Dbl.lt]

/-- Doubles, NaN included, meet the hypothesis. -/
example (c : Dbl) (f : Fame Dbl) (hf : Fame.new Dbl.arith (Dbl.ofRat (1 / 10)) (Dbl.ofRat 0) = .ok f)
    (n : ℕ) :
    ((List.replicate (n + 1) c).foldl (Fame.update Dbl.arith) f).evaluate = c := by
  simpa using C22_first_and_constant Dbl.arith _ _ c (Dbl.lt_irrefl c) f hf (n + 1)

section Exact

variable {K : Type} [Field K] [LinearOrder K] [IsStrictOrderedRing K] [FloorRing K]

/-! ## C23 -/

/-- Halving or keeping a step. -/
theorem half_or_keep (p : Prop) [Decidable p] {s : K} (hs : 0 ≤ s) :
    s / 2 ≤ (if p then s / 2 else s) ∧ (if p then s / 2 else s) ≤ s := by
  split <;> constructor <;> linarith

/-- Hull invariant behind C23: `s` is the step used by the last update. -/
theorem fame_hull (stepSize epsilon : K) (hs : 0 ≤ stepSize) (he : 0 ≤ epsilon) (f : Fame K)
    (hf : Fame.new (exact K) stepSize epsilon = .ok f) (lo hi : K) (xs : List K) (hne : xs ≠ [])
    (hr : InRange lo hi xs) :
    ∃ s, 0 ≤ s ∧ s ≤ 2 * (xs.foldl (Fame.update (exact K)) f).stepSize ∧
      lo - s ≤ (xs.foldl (Fame.update (exact K)) f).median ∧
      (xs.foldl (Fame.update (exact K)) f).median ≤ hi + s := by
  have hf' : f.stepSize = stepSize ∧ f.epsilon = epsilon ∧ f.historyCount = 0 := by
    unfold Fame.new at hf
    split at hf
    · cases hf
    · injection hf with hf; subst hf; exact ⟨rfl, rfl, rfl⟩
  obtain ⟨f1, f2, f3⟩ := hf'
  induction xs using List.reverseRecOn with
  | nil => exact absurd rfl hne
  | append_singleton xs x ih =>
    rw [List.foldl_append, List.foldl_cons, List.foldl_nil]
    obtain ⟨hx1, hx2⟩ := hr x (by simp)
    by_cases h0 : xs = []
    · subst h0
      rw [List.foldl_nil, Fame.update_first f x f3, f1, f2]
      have hm : 0 ≤ max (|x| / 2) stepSize := le_max_of_le_right hs
      refine ⟨max (|x| / 2) stepSize, hm, ?_, ?_, ?_⟩ <;> simp only
      · nlinarith
      · linarith
      · linarith
    · obtain ⟨s, h1, h2, h3, h4⟩ := ih h0 fun y hy => hr y (by simp [hy])
      have hh : (xs.foldl (Fame.update (exact K)) f).historyCount ≠ 0 := by
        rw [Fame.run_count, f3]; simpa using h0
      have hep := Fame.run_epsilon (exact K) f xs
      generalize xs.foldl (Fame.update (exact K)) f = g at *
      rw [Fame.update_later g x hh]
      have hg : 0 ≤ g.stepSize := by linarith
      refine ⟨g.stepSize, hg, ?_, ?_, ?_⟩
      · simp only [hep, f2]
        have := (half_or_keep (|x - (if x < g.median then g.median - g.stepSize
          else if g.median < x then g.median + g.stepSize else g.median)| < g.stepSize) hg).1
        nlinarith
      all_goals
        simp only
        split
        · linarith
        · split <;> linarith

/-- **C23** (exact arithmetic): after any stream `xs` and one more observation `x`, with `s` the step in
force at that update, the estimate is within `s` of the range of the observations. -/
theorem C23_within_one_step (stepSize epsilon : K) (hs : 0 ≤ stepSize) (he : 0 ≤ epsilon) (f : Fame K)
    (hf : Fame.new (exact K) stepSize epsilon = .ok f) (xs : List K) (x lo hi : K)
    (hr : InRange lo hi (xs ++ [x])) :
    let g := xs.foldl (Fame.update (exact K)) f
    let s := if xs = [] then max (|x| / 2) stepSize else g.stepSize
    lo - s ≤ (g.update (exact K) x).evaluate ∧ (g.update (exact K) x).evaluate ≤ hi + s := by
  intro g s
  have hf' : f.stepSize = stepSize ∧ f.epsilon = epsilon ∧ f.historyCount = 0 := by
    unfold Fame.new at hf
    split at hf
    · cases hf
    · injection hf with hf; subst hf; exact ⟨rfl, rfl, rfl⟩
  obtain ⟨f1, f2, f3⟩ := hf'
  obtain ⟨hx1, hx2⟩ := hr x (by simp)
  by_cases h0 : xs = []
  · subst h0
    have hm : 0 ≤ max (|x| / 2) stepSize := le_max_of_le_right hs
    simp only [g, s, List.foldl_nil, Fame.update_first f x f3, Fame.evaluate, if_true]
    exact ⟨by linarith, by linarith⟩
  · obtain ⟨s', h1, h2, h3, h4⟩ := fame_hull stepSize epsilon hs he f hf lo hi xs h0
      fun y hy => hr y (by simp [hy])
    have hh : g.historyCount ≠ 0 := by
      simp only [g]; rw [Fame.run_count, f3]; simpa using h0
    have hs' : s = g.stepSize := by simp [s, h0]
    rw [hs', Fame.update_later g x hh]
    change s' ≤ 2 * g.stepSize at h2
    change lo - s' ≤ g.median at h3
    change g.median ≤ hi + s' at h4
    have hg : 0 ≤ g.stepSize := by linarith
    simp only [Fame.evaluate]
    constructor
    all_goals
      split
      · linarith
      · split <;> linarith

/-- **C23**: with `epsilon = 0` the step never exceeds `max(|first| / 2, stepSize)`. -/
theorem C23_step_bounded (stepSize : K) (hs : 0 ≤ stepSize) (f : Fame K)
    (hf : Fame.new (exact K) stepSize 0 = .ok f) (x : K) (xs : List K) :
    ((x :: xs).foldl (Fame.update (exact K)) f).stepSize ≤ max (|x| / 2) stepSize := by
  have hf' : f.stepSize = stepSize ∧ f.epsilon = 0 ∧ f.historyCount = 0 := by
    unfold Fame.new at hf
    split at hf
    · cases hf
    · injection hf with hf; subst hf; exact ⟨rfl, rfl, rfl⟩
  obtain ⟨f1, f2, f3⟩ := hf'
  have hm : 0 ≤ max (|x| / 2) stepSize := le_max_of_le_right hs
  suffices h : 0 ≤ ((x :: xs).foldl (Fame.update (exact K)) f).stepSize ∧
      ((x :: xs).foldl (Fame.update (exact K)) f).stepSize ≤ max (|x| / 2) stepSize from h.2
  induction xs using List.reverseRecOn with
  | nil =>
    rw [List.foldl_cons, List.foldl_nil, Fame.update_first f x f3, f1, f2]
    simpa using le_max_iff.1 hm
  | append_singleton xs y ih =>
    rw [← List.cons_append, List.foldl_append, List.foldl_cons, List.foldl_nil]
    have hh : ((x :: xs).foldl (Fame.update (exact K)) f).historyCount ≠ 0 := by
      rw [Fame.run_count]; simp
    have hep := Fame.run_epsilon (exact K) f (x :: xs)
    generalize (x :: xs).foldl (Fame.update (exact K)) f = g at *
    rw [Fame.update_later g y hh]
    simp only [hep, f2, add_zero, mul_one]
    have := half_or_keep (|y - (if y < g.median then g.median - g.stepSize
      else if g.median < y then g.median + g.stepSize else g.median)| < g.stepSize) ih.1
    exact ⟨by linarith [this.1], this.2.trans ih.2⟩

/-- The hypotheses of the two theorems above, with a step larger than the given one. -/
example : ∃ f, Fame.new (exact ℚ) (1 / 10) 0 = .ok f ∧ InRange (2 : ℚ) 9 ([4, 9, 2] ++ [9]) ∧
    (([4, 9, 2] : List ℚ).foldl (Fame.update (exact ℚ)) f).stepSize = 2 :=
  ⟨⟨0, 1 / 10, 0, 0⟩, by decide +kernel, by unfold InRange; decide +kernel, by decide +kernel⟩

/-! ## C24 -/

/-- Once the distance is below two steps, it stays so and shrinks geometrically. -/
theorem fame_phase2 (c : K) (n : ℕ) : ∀ (f : Fame K), f.historyCount ≠ 0 → 0 < f.stepSize →
    0 ≤ f.epsilon → |c - f.median| < 2 * f.stepSize →
    |c - ((List.replicate (n + 1) c).foldl (Fame.update (exact K)) f).median| <
      f.stepSize * ((1 + f.epsilon) / 2) ^ n := by
  induction n with
  | zero =>
    intro f hh hs he hd
    obtain ⟨h1, -⟩ := Fame.update_dist f c hh
    simp only [zero_add, List.replicate_one, List.foldl_cons, List.foldl_nil, pow_zero, mul_one]
    rw [h1]
    have hd0 := abs_nonneg (c - f.median)
    split
    · exact hs
    · rename_i hne
      have : 0 < |c - f.median| := lt_of_le_of_ne hd0 (Ne.symm hne)
      rw [abs_lt]; constructor <;> linarith
  | succ n ih =>
    intro f hh hs he hd
    obtain ⟨h1, h2, h3, h4⟩ := Fame.update_dist f c hh
    have hd0 := abs_nonneg (c - f.median)
    have hlt : |c - (f.update (exact K) c).median| < f.stepSize := by
      rw [h1]
      split
      · exact hs
      · rename_i hne
        have : 0 < |c - f.median| := lt_of_le_of_ne hd0 (Ne.symm hne)
        rw [abs_lt]; constructor <;> linarith
    rw [if_pos hlt] at h2
    have := ih (f.update (exact K) c) (by rw [h4]; omega) (by rw [h2]; positivity)
      (by rw [h3]; exact he) (by rw [h2]; nlinarith)
    rw [List.replicate_succ, List.foldl_cons]
    refine this.trans_le (le_of_eq ?_)
    rw [h2, h3, pow_succ]; ring

/-- Until then the distance falls by at least one step per observation. -/
theorem fame_phase1 (c : K) (n : ℕ) : ∀ (f : Fame K), f.historyCount ≠ 0 → 0 < f.stepSize →
    0 ≤ f.epsilon → f.epsilon < 1 → |c - f.median| < (n + 2) * f.stepSize →
    ∃ N : ℕ, N * f.stepSize ≤ |c - f.median| ∧
      let g := (List.replicate N c).foldl (Fame.update (exact K)) f
      |c - g.median| < 2 * g.stepSize ∧ 0 < g.stepSize ∧ g.stepSize ≤ max f.stepSize |c - f.median| ∧
      g.epsilon = f.epsilon ∧ g.historyCount ≠ 0 := by
  induction n with
  | zero =>
    intro f hh hs he _ hd
    refine ⟨0, by simp, ?_⟩
    simp only [List.replicate_zero, List.foldl_nil]
    exact ⟨by simpa using hd, hs, le_max_left _ _, trivial, hh⟩
  | succ n ih =>
    intro f hh hs he he1 hd
    by_cases hlt : |c - f.median| < 2 * f.stepSize
    · refine ⟨0, by simp, ?_⟩
      simp only [List.replicate_zero, List.foldl_nil]
      exact ⟨hlt, hs, le_max_left _ _, trivial, hh⟩
    · have hge := not_lt.1 hlt
      obtain ⟨h1, h2, h3, h4⟩ := Fame.update_dist f c hh
      rw [if_neg (by linarith), abs_of_nonneg (by linarith : 0 ≤ |c - f.median| - f.stepSize)] at h1
      rw [h1, if_neg (by linarith)] at h2
      have hstep : f.stepSize ≤ (f.update (exact K) c).stepSize := by rw [h2]; nlinarith
      obtain ⟨N, i1, i2, i3, i4, i5, i6⟩ := ih (f.update (exact K) c) (by rw [h4]; omega)
        (by linarith) (by rw [h3]; exact he) (by rw [h3]; exact he1) (by
          rw [h1]
          push_cast at hd
          have hn : (0 : K) ≤ n := Nat.cast_nonneg n
          nlinarith)
      refine ⟨N + 1, ?_, ?_⟩
      · rw [h1] at i1
        have hN : (0 : K) ≤ N := Nat.cast_nonneg N
        push_cast
        nlinarith
      · simp only [List.replicate_succ, List.foldl_cons]
        refine ⟨i2, i3, i4.trans ?_, i5.trans h3, i6⟩
        rw [h1, h2]
        apply max_le
        · refine le_max_of_le_right ?_; nlinarith
        · refine le_max_of_le_right ?_; linarith

/-- **C24** (exact arithmetic): whatever happened before (any state with at least one observation and a
positive step), if from now on all observations equal `c`, then after `N ≤ distance / step` observations
the error is below the step and thereafter shrinks by the factor `(1+epsilon)/2` per observation. -/
theorem C24_geometric_convergence (f : Fame K) (hh : f.historyCount ≠ 0) (hs : 0 < f.stepSize)
    (he : 0 ≤ f.epsilon) (he1 : f.epsilon < 1) (c : K) :
    ∃ N : ℕ, N * f.stepSize ≤ |c - f.evaluate| ∧ ∀ n,
      |c - ((List.replicate (N + n + 1) c).foldl (Fame.update (exact K)) f).evaluate| <
        max f.stepSize |c - f.evaluate| * ((1 + f.epsilon) / 2) ^ n := by
  obtain ⟨n₀, hn₀⟩ : ∃ n : ℕ, |c - f.median| < (n + 2) * f.stepSize := by
    obtain ⟨n, hn⟩ := exists_nat_gt (|c - f.median| / f.stepSize)
    rw [div_lt_iff₀ hs] at hn
    exact ⟨n, by linarith⟩
  obtain ⟨N, h1, h2, h3, h4, h5, h6⟩ := fame_phase1 c n₀ f hh hs he he1 hn₀
  refine ⟨N, h1, fun n => ?_⟩
  have := fame_phase2 c n _ h6 h3 (by rw [h5]; exact he) h2
  rw [← List.foldl_append, List.replicate_append_replicate] at this
  refine this.trans_le ?_
  rw [h5]
  exact mul_le_mul_of_nonneg_right h4 (pow_nonneg (by linarith) n)

/-- Step positivity along any run, exact arithmetic. -/
theorem fame_step_pos (f : Fame K) (hs : 0 < f.stepSize) (he : 0 ≤ f.epsilon) (xs : List K) :
    0 < (xs.foldl (Fame.update (exact K)) f).stepSize := by
  induction xs generalizing f with
  | nil => exact hs
  | cons x xs ih =>
    rw [List.foldl_cons]
    by_cases h0 : f.historyCount = 0
    · rw [Fame.update_first f x h0]
      exact ih _ (mul_pos (lt_max_of_lt_right hs) (by linarith)) he
    · rw [Fame.update_later f x h0]
      refine ih _ ?_ he
      have := (half_or_keep (|x - (if x < f.median then f.median - f.stepSize
        else if f.median < x then f.median + f.stepSize else f.median)| < f.stepSize) hs.le).1
      exact mul_pos (by linarith) (by linarith)

/-- **C24**: for every history `xs` of an estimator built with a positive step, if the stream settles at
`c` the estimate converges to `c`. -/
theorem C24_converges (stepSize epsilon : K) (hs : 0 < stepSize) (f : Fame K)
    (hf : Fame.new (exact K) stepSize epsilon = .ok f) (xs : List K) (c δ : K) (hδ : 0 < δ) :
    ∃ N, ∀ n, N ≤ n →
      |c - ((xs ++ List.replicate n c).foldl (Fame.update (exact K)) f).evaluate| < δ := by
  have hf' : f.stepSize = stepSize ∧ f.epsilon = epsilon ∧ f.historyCount = 0 ∧ 0 ≤ epsilon ∧ epsilon < 1 := by
    unfold Fame.new at hf
    split at hf
    · cases hf
    · rename_i hcond
      injection hf with hf; subst hf
      simp [exact] at hcond
      exact ⟨rfl, rfl, rfl, hcond.1, hcond.2⟩
  obtain ⟨f1, f2, f3, e0, e1⟩ := hf'
  by_cases h0 : xs = []
  · subst h0
    refine ⟨1, fun n hn => ?_⟩
    have := (Fame.run_const (exact K) (f := f) (c := c) (by simp [exact]) (Or.inr f3) n).2 hn
    rw [List.nil_append, Fame.evaluate, this]
    simpa using hδ
  · have hep := Fame.run_epsilon (exact K) f xs
    have hst := fame_step_pos f (by rw [f1]; exact hs) (by rw [f2]; exact e0) xs
    have hh : (xs.foldl (Fame.update (exact K)) f).historyCount ≠ 0 := by
      rw [Fame.run_count, f3]; simpa using h0
    simp only [List.foldl_append]
    generalize xs.foldl (Fame.update (exact K)) f = g at *
    have ge0 : 0 ≤ g.epsilon := by rw [hep, f2]; exact e0
    have ge1 : g.epsilon < 1 := by rw [hep, f2]; exact e1
    obtain ⟨N, -, hN⟩ := C24_geometric_convergence g hh hst ge0 ge1 c
    set B := max g.stepSize |c - g.evaluate|
    have hB : 0 < B := lt_max_of_lt_left hst
    obtain ⟨j, hj⟩ := exists_pow_lt_of_lt_one (div_pos hδ hB) (by linarith : (1 + g.epsilon) / 2 < 1)
    refine ⟨N + j + 1, fun n hn => ?_⟩
    obtain ⟨i, rfl⟩ : ∃ i, n = N + (j + i) + 1 := ⟨n - (N + j + 1), by omega⟩
    refine (hN (j + i)).trans ?_
    have hp : ((1 + g.epsilon) / 2) ^ (j + i) ≤ ((1 + g.epsilon) / 2) ^ j :=
      pow_le_pow_of_le_one (by linarith) (by linarith) (Nat.le_add_right j i)
    calc B * ((1 + g.epsilon) / 2) ^ (j + i) ≤ B * ((1 + g.epsilon) / 2) ^ j :=
          mul_le_mul_of_nonneg_left hp hB.le
      _ < B * (δ / B) := mul_lt_mul_of_pos_left hj hB
      _ = δ := by field_simp

/-- The hypotheses of the two theorems above: after the observations 4 and 9 the estimate is 7 and the step 9/4. -/
example : ∃ f, Fame.new (exact ℚ) (1 / 10) (1 / 2) = .ok f ∧
    ([4, 9] : List ℚ).foldl (Fame.update (exact ℚ)) f = ⟨7, 9 / 4, 1 / 2, 2⟩ :=
  ⟨⟨0, 1 / 10, 1 / 2, 0⟩, by decide +kernel, by decide +kernel⟩

/-! ## C25 -/

/-- `f` scaled by `a`. -/
def fameScaled (a : K) (f : Fame K) : Fame K := ⟨a * f.median, |a| * f.stepSize, f.epsilon, f.historyCount⟩

theorem fame_update_scaled (a : K) (ha : a ≠ 0) (f : Fame K) (x : K) :
    (fameScaled a f).update (exact K) (a * x) = fameScaled a (f.update (exact K) x) := by
  have hp : 0 < |a| := abs_pos.2 ha
  by_cases h0 : f.historyCount = 0
  · rw [Fame.update_first _ _ (by exact h0), Fame.update_first _ _ h0]
    simp only [fameScaled, abs_mul]
    rw [mul_div_assoc, ← mul_max_of_nonneg _ _ hp.le, mul_assoc]
  · change Fame.update (exact K) ⟨a * f.median, |a| * f.stepSize, f.epsilon, f.historyCount⟩ (a * x) = _
    rw [Fame.update_later _ _ (by exact h0), Fame.update_later _ _ h0]
    have hm : (if a * x < a * f.median then a * f.median - |a| * f.stepSize
        else if a * f.median < a * x then a * f.median + |a| * f.stepSize else a * f.median) =
        a * (if x < f.median then f.median - f.stepSize
        else if f.median < x then f.median + f.stepSize else f.median) := by
      rcases lt_or_gt_of_ne ha with hn | hn
      · rw [abs_of_neg hn]
        rcases lt_trichotomy x f.median with h | h | h
        · have h1 : a * f.median < a * x := mul_lt_mul_of_neg_left h hn
          simp only [h, h1, not_lt.2 h1.le, if_true, if_false]; ring
        · subst h; simp
        · have h1 : a * x < a * f.median := mul_lt_mul_of_neg_left h hn
          simp only [h, h1, not_lt.2 h.le, if_true, if_false]; ring
      · rw [abs_of_pos hn]
        rcases lt_trichotomy x f.median with h | h | h
        · have h1 : a * x < a * f.median := mul_lt_mul_of_pos_left h hn
          simp only [h, h1, if_true]; ring
        · subst h; simp
        · have h1 : a * f.median < a * x := mul_lt_mul_of_pos_left h hn
          simp only [h, h1, not_lt.2 h.le, not_lt.2 h1.le, if_true, if_false]; ring
    simp only [fameScaled, hm]
    congr 1
    set m := (if x < f.median then f.median - f.stepSize
        else if f.median < x then f.median + f.stepSize else f.median)
    have hc : |a * x - a * m| < |a| * f.stepSize ↔ |x - m| < f.stepSize := by
      rw [← mul_sub, abs_mul]; exact mul_lt_mul_iff_right₀ hp
    by_cases h : |x - m| < f.stepSize
    · rw [if_pos (hc.2 h), if_pos h]; ring
    · rw [if_neg (fun h' => h (hc.1 h')), if_neg h]; ring

theorem fame_run_scaled (a : K) (ha : a ≠ 0) (f : Fame K) (xs : List K) :
    (xs.map fun x => a * x).foldl (Fame.update (exact K)) (fameScaled a f) =
      fameScaled a (xs.foldl (Fame.update (exact K)) f) := by
  induction xs generalizing f with
  | nil => rfl
  | cons x xs ih => rw [List.map_cons, List.foldl_cons, List.foldl_cons, fame_update_scaled a ha, ih]

/-- **C25** (exact arithmetic): scaling step and observations by `k > 0` scales the estimate. -/
theorem C25_scale_equivariant (stepSize epsilon k : K) (hk : 0 < k) (f : Fame K)
    (hf : Fame.new (exact K) stepSize epsilon = .ok f) (xs : List K) :
    ∃ f', Fame.new (exact K) (k * stepSize) epsilon = .ok f' ∧
      ((xs.map fun x => k * x).foldl (Fame.update (exact K)) f').evaluate =
        k * (xs.foldl (Fame.update (exact K)) f).evaluate := by
  refine ⟨fameScaled k f, ?_, ?_⟩
  · unfold Fame.new at hf ⊢
    split at hf
    · cases hf
    · injection hf with hf; subst hf
      rw [if_neg ‹_›]
      simp [fameScaled, exact, abs_of_pos hk]
  · rw [fame_run_scaled k hk.ne']; rfl

/-- **C25** (exact arithmetic): negating the observations negates the estimate. -/
theorem C25_negation_equivariant (stepSize epsilon : K) (f : Fame K)
    (hf : Fame.new (exact K) stepSize epsilon = .ok f) (xs : List K) :
    ((xs.map fun x => -x).foldl (Fame.update (exact K)) f).evaluate =
      -(xs.foldl (Fame.update (exact K)) f).evaluate := by
  have e : f = fameScaled (-1) f := by
    unfold Fame.new at hf
    split at hf
    · cases hf
    · injection hf with hf; subst hf
      simp [fameScaled, exact]
  have em : (xs.map fun x => -x) = xs.map fun x => (-1 : K) * x := by simp
  rw [em]
  conv_lhs => rw [e]
  rw [fame_run_scaled (-1) (by norm_num)]
  simp [Fame.evaluate, fameScaled]

end Exact

/-- The hypotheses of C23–C25 are met by the default parameters. -/
example : Fame.new (exact ℚ) (1 / 10) 0 = .ok ⟨0, 1 / 10, 0, 0⟩ := by
  simp [Fame.new, exact]

/-- A concrete run with a growing step: 4, 10, 10, 10 ends at 65/8. -/
example : (([4, 10, 10, 10] : List ℚ).foldl (Fame.update (exact ℚ)) ⟨0, 1 / 10, 1 / 2, 0⟩).evaluate =
    65 / 8 := by decide +kernel

/-! ## C26 -/

/-- **C26**, the full claim, for doubles: the constructor throws exactly when `epsilon` is not in
`[0, 1)`, and a positive step stays positive. -/
def C26_full : Prop :=
  ∀ stepSize epsilon : Dbl,
    ((Fame.new Dbl.arith stepSize epsilon).IsThrow ↔
      ¬ (Dbl.le (.fin 0) epsilon = true ∧ Dbl.lt epsilon (.fin 1) = true)) ∧
    (Dbl.lt (.fin 0) stepSize = true → ∀ f, Fame.new Dbl.arith stepSize epsilon = .ok f →
      ∀ xs : List Dbl, Dbl.lt (.fin 0) (xs.foldl (Fame.update Dbl.arith) f).stepSize = true)

/-- **C26** is false of the code: NaN is accepted as `epsilon`. -/
theorem C26_violated : ¬ C26_full := by
  intro h
  obtain ⟨m, hm⟩ := (h (.fin 1) .nan).1.2 (by decide)
  have : Fame.new Dbl.arith (.fin 1) .nan = .ok ⟨.fin 0, .fin 1, .nan, 0⟩ := by decide +kernel
  rw [this] at hm
  cases hm

/-- **C26** is false for the step too: the smallest positive double as step underflows to 0 on the
second observation of a constant stream, after which the estimator can no longer move. -/
theorem C26_step_violated :
    ∃ f, Fame.new Dbl.arith (.fin (pow2 (-1074))) (.fin 0) = .ok f ∧
      Dbl.lt (.fin 0) f.stepSize = true ∧
      (([.fin 0, .fin 0] : List Dbl).foldl (Fame.update Dbl.arith) f).stepSize = .fin 0 := by
  exact ⟨⟨.fin 0, .fin (pow2 (-1074)), .fin 0, 0⟩, by decide +kernel, by decide +kernel, by decide +kernel⟩

/-- **C26**, the part that holds for doubles: every non-NaN `epsilon` is validated correctly.
Missing: NaN. -/
theorem C26_epsilon_partial (stepSize epsilon : Dbl) (hnan : epsilon ≠ .nan) :
    (Fame.new Dbl.arith stepSize epsilon).IsThrow ↔
      ¬ (Dbl.le (.fin 0) epsilon = true ∧ Dbl.lt epsilon (.fin 1) = true) := by
  have h0 : Dbl.ofRat 0 = .fin 0 := by decide +kernel
  have h1 : Dbl.ofRat 1 = .fin 1 := by decide +kernel
  cases epsilon with
  | nan => exact absurd rfl hnan
  | inf s => cases s <;> simp [Fame.new, Dbl.arith, h0, h1, Dbl.lt, Dbl.le, Dbl.eq, Res.IsThrow]
  | fin q =>
    simp only [Fame.new, Dbl.arith, h0, h1, Dbl.lt, Dbl.le, Dbl.eq, Res.IsThrow]
    by_cases hq : q < 0
    · simp [hq, not_lt.2 hq.le, hq.ne']
    · by_cases hq1 : q < 1
      · have : 0 < q ∨ 0 = q := (not_lt.1 hq).lt_or_eq
        simp [hq, hq1, not_lt.2 hq1.le, hq1.ne', this]
      · have : 1 < q ∨ 1 = q := (not_lt.1 hq1).lt_or_eq
        simp [hq1, this]

section Round

variable {K : Type} [Field K] [LinearOrder K] [IsStrictOrderedRing K] [FloorRing K]

theorem Rounding.rnd_pos (R : Rounding K) (ht : R.tiny = 0) {x : K} (h : 0 < x) : 0 < R.rnd x := by
  have := R.rel x (by rw [ht]; exact abs_nonneg x)
  rw [abs_of_pos h] at this
  have := (abs_le.1 this).1
  linarith

/-- **C26**, the part that holds for any rounding without underflow: validation, and a positive step stays
positive for ever. Missing: underflow (`C26_step_violated`) and NaN (`C26_violated`). -/
theorem C26_step_positive_partial (R : Rounding K) (ht : R.tiny = 0) (stepSize epsilon : K) :
    ((Fame.new R.arith stepSize epsilon).IsThrow ↔ ¬ (0 ≤ epsilon ∧ epsilon < 1)) ∧
    (0 < stepSize → ∀ f, Fame.new R.arith stepSize epsilon = .ok f →
      ∀ xs : List K, 0 < (xs.foldl (Fame.update R.arith) f).stepSize) := by
  have r0 : R.rnd 0 = 0 := R.rnd_zero
  have r1 : R.rnd 1 = 1 := by simpa using R.rnd_nat 1 (by norm_num)
  have r2 : R.rnd 2 = 2 := by simpa using R.rnd_nat 2 (by norm_num)
  constructor
  · simp only [Fame.new, Rounding.arith, Rat.cast_zero, Rat.cast_one, r0, r1, Res.IsThrow]
    by_cases h : epsilon < 0
    · simp [h]
    · by_cases h' : epsilon < 1
      · simp [h, h', not_lt.1 h, not_le.2 h']
      · simp [h', not_lt.1 h']
  · intro hs f hf
    have hf' : f.stepSize = stepSize ∧ f.epsilon = epsilon ∧ 0 ≤ epsilon := by
      unfold Fame.new at hf
      split at hf
      · cases hf
      · rename_i hcond
        injection hf with hf; subst hf
        simp [Rounding.arith, r0] at hcond
        exact ⟨rfl, rfl, hcond.1⟩
    obtain ⟨f1, f2, e0⟩ := hf'
    have key : ∀ (g : Fame K) (x : K), 0 < g.stepSize → g.epsilon = epsilon →
        0 < (g.update R.arith x).stepSize ∧ (g.update R.arith x).epsilon = epsilon := by
      intro g x hg hge
      have hmul : ∀ s : K, 0 < s → 0 < R.rnd (s * R.rnd (R.rnd 1 + epsilon)) := fun s hs =>
        R.rnd_pos ht (mul_pos hs (R.rnd_pos ht (by rw [r1]; linarith)))
      have hdiv : ∀ s : K, 0 < s → 0 < R.rnd (s / R.rnd 2) := fun s hs =>
        R.rnd_pos ht (by rw [r2]; linarith)
      have hmax : 0 < (Rounding.arith R).max ((Rounding.arith R).div ((Rounding.arith R).abs x)
          ((Rounding.arith R).lit 2)) g.stepSize := by
        simp only [Arith.max, Rounding.arith, decide_eq_true_eq]
        split
        · exact hg
        · exact lt_of_lt_of_le hg (not_lt.1 ‹_›)
      have hlit1 : (Rounding.arith R).lit 1 = R.rnd 1 := by simp [Rounding.arith]
      have hlit2 : (Rounding.arith R).lit 2 = R.rnd 2 := by simp [Rounding.arith]
      have hmulA : ∀ s : K, 0 < s → 0 < (Rounding.arith R).mul s
          ((Rounding.arith R).add ((Rounding.arith R).lit 1) g.epsilon) := by
        intro s hs
        rw [hlit1, hge]; exact hmul s hs
      have hdivA : ∀ s : K, 0 < s → 0 < (Rounding.arith R).div s ((Rounding.arith R).lit 2) := by
        intro s hs
        rw [hlit2]; exact hdiv s hs
      refine ⟨?_, ?_⟩
      · unfold Fame.update
        simp only
        split_ifs
        all_goals first
          | exact hmulA _ hmax
          | exact hmulA _ (hdivA _ hmax)
          | exact hmulA _ hg
          | exact hmulA _ (hdivA _ hg)
      · unfold Fame.update; simp only; split_ifs <;> exact hge
    intro xs
    have : ∀ (xs : List K) (g : Fame K), 0 < g.stepSize → g.epsilon = epsilon →
        0 < (xs.foldl (Fame.update R.arith) g).stepSize := by
      intro xs
      induction xs with
      | nil => intro g hg _; exact hg
      | cons x xs ih =>
        intro g hg hge
        obtain ⟨k1, k2⟩ := key g x hg hge
        exact ih _ k1 k2
    exact this xs f (by rw [f1]; exact hs) f2

end Round

/-- 53-bit arithmetic meets the hypotheses. -/
example (xs : List ℚ) : 0 < (xs.foldl (Fame.update b53) ⟨0, 1, 1 / 2, 0⟩).stepSize :=
  (C26_step_positive_partial R53 rfl 1 (1 / 2)).2 (by norm_num) _ (by
    have : Fame.new b53 1 (1 / 2) = .ok ⟨0, 1, 1 / 2, 0⟩ := by decide +kernel
    exact this) xs

end KML
