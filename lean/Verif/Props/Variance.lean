import Verif.Lemmas.Variance
import Verif.Lemmas.Float

/-! # C18–C21: StreamingVariance -/

set_option linter.unusedSectionVars false

namespace KML

open Spec

section Exact

variable {K : Type} [Field K] [LinearOrder K] [IsStrictOrderedRing K] [FloorRing K]

/-- **C18** (exact arithmetic): `evaluate()` is the population variance of the last `W` observations. -/
theorem C18_population_variance (W : ℕ) (xs : List K) :
    ∃ v, updateAll (Variance.update (exact K)) (Variance.new (exact K) W) xs = .ok v ∧
      v.evaluate (exact K) = variance (windowOf W xs) :=
  Variance.run_exact W xs

/-- **C19**, the part that holds: in exact arithmetic `evaluate()` is never negative, and zero exactly
when the windowed observations are all equal. Missing: floating point, where both fail
(`C19_violated`, `C19_zero_violated`). -/
theorem C19_nonneg_partial (W : ℕ) (xs : List K) :
    ∃ v, updateAll (Variance.update (exact K)) (Variance.new (exact K) W) xs = .ok v ∧
      0 ≤ v.evaluate (exact K) ∧
      (v.evaluate (exact K) = 0 ↔ ∀ x ∈ windowOf W xs, ∀ y ∈ windowOf W xs, x = y) := by
  obtain ⟨v, h1, h2⟩ := Variance.run_exact (K := K) W xs
  exact ⟨v, h1, by rw [h2]; exact variance_nonneg _, by rw [h2]; exact variance_eq_zero⟩

/-- The last three of 10, 1, 2, 3 have variance 2/3; the last two of 9, 5, 5 have variance 0. -/
example : (do
    let v ← updateAll (Variance.update (exact ℚ)) (Variance.new (exact ℚ) 3) [10, 1, 2, 3]
    .ok (v.evaluate (exact ℚ))) = .ok (2 / 3) ∧ (do
    let v ← updateAll (Variance.update (exact ℚ)) (Variance.new (exact ℚ) 2) [9, 5, 5]
    .ok (v.evaluate (exact ℚ))) = .ok 0 := by
  decide +kernel

/-- **C20** (exact arithmetic): shifting every observation changes nothing. -/
theorem C20_shift_invariant (W : ℕ) (xs : List K) (c : K) :
    ∃ v v', updateAll (Variance.update (exact K)) (Variance.new (exact K) W) xs = .ok v ∧
      updateAll (Variance.update (exact K)) (Variance.new (exact K) W) (xs.map fun x => x + c) = .ok v' ∧
      v'.evaluate (exact K) = v.evaluate (exact K) := by
  obtain ⟨v, h1, h2⟩ := Variance.run_exact (K := K) W xs
  obtain ⟨v', h3, h4⟩ := Variance.run_exact (K := K) W (xs.map fun x => x + c)
  exact ⟨v, v', h1, h3, by rw [h4, h2, windowOf_map, variance_shift]⟩

/-- **C20** (exact arithmetic): scaling every observation by `k` scales the result by `k^2`. -/
theorem C20_scales_quadratically (W : ℕ) (xs : List K) (k : K) :
    ∃ v v', updateAll (Variance.update (exact K)) (Variance.new (exact K) W) xs = .ok v ∧
      updateAll (Variance.update (exact K)) (Variance.new (exact K) W) (xs.map fun x => k * x) = .ok v' ∧
      v'.evaluate (exact K) = k ^ 2 * v.evaluate (exact K) := by
  obtain ⟨v, h1, h2⟩ := Variance.run_exact (K := K) W xs
  obtain ⟨v', h3, h4⟩ := Variance.run_exact (K := K) W (xs.map fun x => k * x)
  exact ⟨v, v', h1, h3, by rw [h4, h2, windowOf_map, variance_scale]⟩

end Exact

/-- Four observations, window of three: the variance of 2, 4, 9. -/
example : ∃ v, updateAll (Variance.update (exact ℚ)) (Variance.new (exact ℚ) 3) [100, 2, 4, 9] = .ok v ∧
    v.evaluate (exact ℚ) = 26 / 3 := by
  obtain ⟨v, h1, h2⟩ := C18_population_variance (K := ℚ) 3 [100, 2, 4, 9]
  exact ⟨v, h1, by rw [h2]; norm_num [variance, mean, windowOf, lastN]⟩

/-- **C19**, the full claim, in the arithmetic the code runs in. -/
def C19_full : Prop :=
  ∀ (W : ℕ) (xs : List ℚ) (v : Variance ℚ),
    updateAll (Variance.update b64) (Variance.new b64 W) xs = .ok v →
      0 ≤ v.evaluate b64 ∧
      (v.evaluate b64 = 0 ↔ ∀ x ∈ windowOf W xs, ∀ y ∈ windowOf W xs, x = y)

/-- The run of `C19_violated`. -/
theorem variance_negative_run :
    ∃ v, updateAll (Variance.update b64) (Variance.new b64 0)
      [b64.lit (1 / 10), b64.lit (1 / 10), b64.lit (1 / 10)] = .ok v ∧
      v.evaluate b64 < 0 := by
  have : (match updateAll (Variance.update b64) (Variance.new b64 0)
      [b64.lit (1 / 10), b64.lit (1 / 10), b64.lit (1 / 10)] with
      | .ok v => decide (v.evaluate b64 < 0) | _ => false) = true := by decide +kernel
  split at this
  · exact ⟨_, ‹_›, of_decide_eq_true this⟩
  · cases this

/-- **C19** is false of the code: in binary64 the variance of 0.1, 0.1, 0.1 is negative. -/
theorem C19_violated : ¬ C19_full := by
  intro h
  obtain ⟨v, h1, h2⟩ := variance_negative_run
  exact absurd (h 0 _ v h1).1 (not_le.2 h2)

/-- **C19**: it can also be 0 for different observations (10^8 and 10^8 + 1 in binary64). -/
theorem C19_zero_violated :
    ∃ v, updateAll (Variance.update b64) (Variance.new b64 0) [100000000, 100000001] = .ok v ∧
      v.evaluate b64 = 0 := by
  have : (match updateAll (Variance.update b64) (Variance.new b64 0) [100000000, 100000001] with
      | .ok v => decide (v.evaluate b64 = 0) | _ => false) = true := by decide +kernel
  split at this
  · exact ⟨_, ‹_›, of_decide_eq_true this⟩
  · cases this

/-- **C21**, the full claim, for any arithmetic. -/
def C21_full : Prop :=
  ∀ (F : Type) (A : Arith F) (W : ℕ) (xs : List F) (v : Variance F),
    updateAll (Variance.update A) (Variance.new A W) xs = .ok v →
      v.historyCount = xs.length ∧ v.window = (if W = 0 then none else some (lastN W xs))

/-- **C21** is false of the code: after one observation the count is 0 and the window is empty. -/
theorem C21_violated : ¬ C21_full := by
  intro h
  obtain ⟨v, h1, -, -, h2, h3⟩ := Variance.run_eq (exact ℚ) 2 [5]
  have := (h ℚ (exact ℚ) 2 [5] v h1).1
  rw [h2] at this
  simp at this

/-- **C21**, what is true instead: in any arithmetic and after any stream the class's own count is 0 and
its own window empty; the information is kept, correctly, in the embedded mean (and, squared, in the
embedded mean of squares). Missing: exposure through the inherited members. -/
theorem C21_embedded_partial {F : Type} (A : Arith F) (W : ℕ) (xs : List F) :
    ∃ v, updateAll (Variance.update A) (Variance.new A W) xs = .ok v ∧
      v.historyCount = 0 ∧ v.window = (if W = 0 then none else some []) ∧
      v.mean.historyCount = xs.length ∧
      v.mean.window = (if W = 0 then none else some (lastN W xs)) ∧
      v.sumSquared.historyCount = xs.length ∧
      v.sumSquared.window = (if W = 0 then none else some (lastN W (xs.map fun x => A.mul x x))) := by
  obtain ⟨v, h1, h2, h3, h4, h5⟩ := Variance.run_eq A W xs
  obtain ⟨m, k1, k2⟩ := Mean.run_inv A W xs
  obtain ⟨m', k3, k4⟩ := Mean.run_inv A W (xs.map fun x => A.mul x x)
  rw [h2] at k1; cases k1
  rw [h3] at k3; cases k3
  refine ⟨v, h1, h4, ?_, k2.hist, k2.win, ?_, k4.win⟩
  · rw [h5]
    by_cases hW : W = 0
    · simp [hW]
    · simp [hW, Nat.pos_of_ne_zero hW]
  · simpa using k4.hist

/-- Three observations, window 2. -/
example : (do
    let v ← updateAll (Variance.update b64) (Variance.new b64 2) [1, 2, 3]
    .ok ((v.historyCount, v.mean.historyCount), [v.window, v.mean.window, v.sumSquared.window])) =
    .ok ((0, 3), [some [], some [2, 3], some [4, 9]]) := by
  decide +kernel

end KML
