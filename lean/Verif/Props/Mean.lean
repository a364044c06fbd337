import Verif.Lemmas.Mean
import Verif.Lemmas.Float
import Mathlib.Algebra.Order.Archimedean.Basic

/-! # C15–C17: StreamingMean -/

set_option linter.unusedSectionVars false

namespace KML

open Spec

section Exact

variable {K : Type} [Field K] [LinearOrder K] [IsStrictOrderedRing K] [FloorRing K]

/-- **C15** (exact arithmetic): every run succeeds and `evaluate()` is the mean of the last `W`
observations (of all if `W = 0`; `0` before any). -/
theorem C15_mean_of_window (W : ℕ) (xs : List K) :
    ∃ m, updateAll (Mean.update (exact K)) (Mean.new (exact K) W) xs = .ok m ∧
      m.evaluate (exact K) = mean (windowOf W xs) := by
  obtain ⟨m, h1, h2, h3⟩ := Mean.run_exact (K := K) W xs
  refine ⟨m, h1, ?_⟩
  rw [Mean.evaluate_eq _ h2]
  split
  · subst xs; simp [mean, exact, windowOf, lastN]
  · simp [exact, Arith.ofNat, h3, mean]

/-- **C15**: consequently the estimate lies between the smallest and largest windowed observation. -/
theorem C15_mean_in_window_range (W : ℕ) (xs : List K) (hne : xs ≠ []) (lo hi : K)
    (h : InRange lo hi (windowOf W xs)) :
    ∃ m, updateAll (Mean.update (exact K)) (Mean.new (exact K) W) xs = .ok m ∧
      lo ≤ m.evaluate (exact K) ∧ m.evaluate (exact K) ≤ hi := by
  obtain ⟨m, h1, h2⟩ := C15_mean_of_window W xs
  refine ⟨m, h1, ?_⟩
  rw [h2]
  have hw := windowOf_ne_nil (W := W) hne
  generalize windowOf W xs = w at *
  have hpos : (0 : K) < w.length := by exact_mod_cast List.length_pos_iff.2 hw
  have key : ∀ l : List K, InRange lo hi l → lo * l.length ≤ l.sum ∧ l.sum ≤ hi * l.length := by
    intro l
    induction l with
    | nil => intro _; simp
    | cons a l ih =>
      intro hr
      obtain ⟨i1, i2⟩ := ih fun x hx => hr x (List.mem_cons_of_mem _ hx)
      obtain ⟨a1, a2⟩ := hr a List.mem_cons_self
      simp only [List.sum_cons, List.length_cons, Nat.cast_add, Nat.cast_one]
      constructor <;> linarith
  obtain ⟨k1, k2⟩ := key w h
  exact ⟨by rw [mean, le_div_iff₀ hpos]; exact k1, by rw [mean, div_le_iff₀ hpos]; exact k2⟩

end Exact

/-- Five observations, window of three. -/
example : ∃ m, updateAll (Mean.update (exact ℚ)) (Mean.new (exact ℚ) 3) [1, 2, 6, 7, 11] = .ok m ∧
    m.evaluate (exact ℚ) = 8 := by
  obtain ⟨m, h1, h2⟩ := C15_mean_of_window (K := ℚ) 3 [1, 2, 6, 7, 11]
  exact ⟨m, h1, by rw [h2]; norm_num [mean, windowOf, lastN]⟩

/-- **C16** (any arithmetic): `getWindow()` is null for `W = 0` and otherwise exactly the last `W`
observations, oldest first; the count is the number of updates; no run fails. -/
theorem C16_mean_window {F : Type} (A : Arith F) (W : ℕ) (xs : List F) :
    ∃ m, updateAll (Mean.update A) (Mean.new A W) xs = .ok m ∧
      m.window = (if W = 0 then none else some (lastN W xs)) ∧ m.historyCount = xs.length := by
  obtain ⟨m, h1, h2⟩ := Mean.run_inv A W xs
  exact ⟨m, h1, h2.win, h2.hist⟩

/-- **C16**: memory never exceeds the window size. -/
theorem C16_mean_memory_bound {F : Type} (A : Arith F) (W : ℕ) (xs : List F) (m : Mean F)
    (h : updateAll (Mean.update A) (Mean.new A W) xs = .ok m) (w : List F) (hw : m.window = some w) :
    w.length = min W xs.length := by
  obtain ⟨m', h1, h2, -⟩ := C16_mean_window A W xs
  rw [h1] at h
  cases h
  rw [h2] at hw
  split at hw
  · cases hw
  · cases hw; exact lastN_length W xs

example : ∃ m, updateAll (Mean.update Dbl.arith) (Mean.new Dbl.arith 2) [.nan, .inf true, .fin 1] = .ok m ∧
    m.window = some [.inf true, .fin 1] := by
  obtain ⟨m, h1, h2, -⟩ := C16_mean_window Dbl.arith 2 [.nan, .inf true, .fin 1]
  exact ⟨m, h1, h2⟩

/-! ## C17 -/

/-- **C17**, the full claim: for every rounding with relative error `u` and every window size there is
(a) the accumulated bound for the sum, and (b) for `W ≥ 1` a bound on the error of `evaluate()` that
depends only on the current window. -/
def C17_full : Prop :=
  ∀ (R : Rounding ℚ) (u : ℚ), 0 ≤ u → (∀ x, |R.rnd x - x| ≤ u * |x|) → ∀ W : ℕ,
    (∀ xs, ∃ m, updateAll (Mean.update R.arith) (Mean.new R.arith W) xs = .ok m ∧
      |m.sum - (windowOf W xs).sum| ≤
        ((1 + u) ^ (xs.length + (evicted W xs).length) - 1) * (absSum xs + absSum (evicted W xs))) ∧
    (W ≠ 0 → ∃ g : List ℚ → ℚ, ∀ xs m,
      updateAll (Mean.update R.arith) (Mean.new R.arith W) xs = .ok m →
        |m.evaluate R.arith - mean (windowOf W xs)| ≤ g (windowOf W xs))

/-- The stream `2^(53+k), 2^k, 0, 0` through a window of two, in 53-bit arithmetic. -/
theorem mean_drift (k : ℕ) :
    ∃ m, updateAll (Mean.update b53) (Mean.new b53 2) [2 ^ 53 * 2 ^ k, 2 ^ k, 0, 0] = .ok m ∧
      m.evaluate b53 = -(2 ^ k / 2) := by
  have hk : pow2 (k : ℤ) = 2 ^ k := by rw [pow2_eq]; simp
  have r : ∀ q : ℚ, rnd53 (q * 2 ^ k) = rnd53 q * 2 ^ k := fun q => by rw [← hk, rnd53_scale]
  have h1 : rnd53 (2 ^ 53 * 2 ^ k) = 2 ^ 53 * 2 ^ k := by
    rw [r]; congr 1
    decide +kernel
  have h2 : rnd53 (2 ^ 53 * 2 ^ k + 2 ^ k) = 2 ^ 53 * 2 ^ k := by
    have : (2 ^ 53 * 2 ^ k + 2 ^ k : ℚ) = (2 ^ 53 + 1) * 2 ^ k := by ring
    rw [this, r]; congr 1
    decide +kernel
  have h3 : rnd53 (-2 ^ k) = -2 ^ k := by
    have : (-2 ^ k : ℚ) = (-1) * 2 ^ k := by ring
    rw [this, r]; congr 1
    decide +kernel
  have h4 : rnd53 (-2 ^ k / 2) = -(2 ^ k / 2) := by
    have : (-2 ^ k / 2 : ℚ) = (-1 / 2) * 2 ^ k := by ring
    rw [this, r]
    have : rnd53 (-1 / 2) = -1 / 2 := by decide +kernel
    rw [this]; ring
  refine ⟨⟨2, some [0, 0], 4, -2 ^ k⟩, ?_, ?_⟩
  · simp [updateAll, Mean.update, Mean.new, b53, rnd53_zero, h1, h2, h3]
  · have : rnd53 2 = 2 := by decide +kernel
    simp [Mean.evaluate, b53, Arith.ofNat, this, h4]

/-- **C17** is false of the code: cancellation leaves an error from evicted observations, so no function
of the current window bounds it (53-bit arithmetic, window of two). -/
theorem C17_violated : ¬ C17_full := by
  intro h
  obtain ⟨-, h⟩ := h R53 (1 / 2 ^ 53) (by norm_num)
    (fun x => by rw [div_mul_eq_mul_div, one_mul]; exact rnd53_rel x) 2
  obtain ⟨g, hg⟩ := h (by norm_num)
  obtain ⟨k, hk⟩ : ∃ k : ℕ, g [0, 0] < 2 ^ k / 2 := by
    obtain ⟨k, hk⟩ := pow_unbounded_of_one_lt (2 * g [0, 0]) (by norm_num : (1 : ℚ) < 2)
    exact ⟨k, by linarith⟩
  obtain ⟨m, hm, he⟩ := mean_drift k
  have := hg _ m hm
  have e : windowOf 2 [2 ^ 53 * 2 ^ k, 2 ^ k, 0, 0] = ([0, 0] : List ℚ) := by
    simp [windowOf, lastN]
  rw [e, ← b53_eq, he] at this
  have hp : (0 : ℚ) < 2 ^ k / 2 := by positivity
  simp [mean] at this
  rw [abs_of_pos (by positivity)] at this
  linarith

section Partial

variable {K : Type} [Field K] [LinearOrder K] [IsStrictOrderedRing K] [FloorRing K]

/-- **C17**, the part that holds: the sum and `evaluate()` are within the accumulated relative error of
everything ever added or subtracted, `k` the number of operations. Missing from the full claim: a bound
in terms of the current window only, which is false (`C17_violated`). -/
theorem C17_rounding_error_partial (R : Rounding K) (u : K) (hu : 0 ≤ u)
    (hR : ∀ x, |R.rnd x - x| ≤ u * |x|) (W : ℕ) (xs : List K) :
    ∃ m, updateAll (Mean.update R.arith) (Mean.new R.arith W) xs = .ok m ∧
      |m.sum - (windowOf W xs).sum| ≤
        ((1 + u) ^ (xs.length + (evicted W xs).length) - 1) * (absSum xs + absSum (evicted W xs)) ∧
      ((windowOf W xs).length ≤ 2 ^ 53 →
        |m.evaluate R.arith - mean (windowOf W xs)| ≤
          ((1 + u) ^ (xs.length + (evicted W xs).length + 1) - 1) *
            (absSum xs + absSum (evicted W xs)) / (windowOf W xs).length) := by
  obtain ⟨m, h1, h2, h3, h4⟩ := Mean.run_sum_error R u hu hR W xs
  refine ⟨m, h1, h3, fun hlen => ?_⟩
  have h0 : R.rnd 0 = 0 := by simpa using hR 0
  rw [Mean.evaluate_eq _ h2]
  by_cases hx : xs = []
  · subst hx; simp [Rounding.arith, h0, mean, windowOf, lastN]
  have hw := windowOf_ne_nil (W := W) hx
  have hpos : (0 : K) < (windowOf W xs).length := by exact_mod_cast List.length_pos_iff.2 hw
  have hnat : R.rnd ((windowOf W xs).length : K) = (windowOf W xs).length := by
    have := R.int_exact ((windowOf W xs).length : ℤ) (by rw [Nat.abs_cast]; exact_mod_cast hlen)
    simpa using this
  simp only [hx, if_false, Rounding.arith, Arith.ofNat, mean, Int.cast_natCast, hnat]
  generalize ((windowOf W xs).length : K) = c at *
  set k := xs.length + (evicted W xs).length
  set M := absSum xs + absSum (evicted W xs)
  have e1 : |R.rnd (m.sum / c) - (windowOf W xs).sum / c| ≤
      |R.rnd (m.sum / c) - m.sum / c| + |m.sum - (windowOf W xs).sum| / c := by
    have : R.rnd (m.sum / c) - (windowOf W xs).sum / c =
        (R.rnd (m.sum / c) - m.sum / c) + (m.sum - (windowOf W xs).sum) / c := by ring
    rw [this]
    refine (abs_add_le _ _).trans ?_
    rw [abs_div (m.sum - _), abs_of_pos hpos]
  have e2 := hR (m.sum / c)
  rw [abs_div m.sum, abs_of_pos hpos] at e2
  have e3 : u * (|m.sum| / c) ≤ u * ((1 + u) ^ k * M) / c := by
    rw [mul_div_assoc]
    exact mul_le_mul_of_nonneg_left (div_le_div_of_nonneg_right h4 hpos.le) hu
  have e4 : |m.sum - (windowOf W xs).sum| / c ≤ ((1 + u) ^ k - 1) * M / c :=
    div_le_div_of_nonneg_right h3 hpos.le
  have e5 : ((1 + u) ^ (k + 1) - 1) * M / c = u * ((1 + u) ^ k * M) / c + ((1 + u) ^ k - 1) * M / c := by
    rw [pow_succ]; ring
  rw [e5]
  linarith

end Partial

/-- 53-bit arithmetic meets the hypotheses with `u = 2^-53`. -/
example (W : ℕ) (xs : List ℚ) : ∃ m, updateAll (Mean.update b53) (Mean.new b53 W) xs = .ok m ∧
    |m.sum - (windowOf W xs).sum| ≤ ((1 + 1 / 2 ^ 53) ^ (xs.length + (evicted W xs).length) - 1) *
      (absSum xs + absSum (evicted W xs)) := by
  obtain ⟨m, h1, h2, -⟩ := C17_rounding_error_partial R53 (1 / 2 ^ 53) (by norm_num)
    (fun x => by rw [div_mul_eq_mul_div, one_mul]; exact rnd53_rel x) W xs
  exact ⟨m, h1, h2⟩

end KML
