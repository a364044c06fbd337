import Verif.Lemmas.Window
import Verif.Model.Stats
import Mathlib.Tactic.Linarith
import Mathlib.Tactic.Ring
import Mathlib.Tactic.FieldSimp
import Mathlib.Tactic.Positivity

/-! Invariants of `StreamingMean`. -/

namespace KML

set_option linter.unusedSectionVars false

open Spec

namespace Mean

variable {F : Type} (A : Arith F)

/-- What holds of the members other than `sum`, in any arithmetic. -/
structure Inv (W : ℕ) (xs : List F) (m : Mean F) : Prop where
  ws : m.windowSize = W
  win : m.window = if W = 0 then none else some (lastN W xs)
  hist : m.historyCount = xs.length

theorem inv_new (W : ℕ) : Inv W [] (Mean.new A W) := by
  refine ⟨rfl, ?_, rfl⟩
  by_cases h : W = 0
  · simp [Mean.new, h]
  · simp [Mean.new, h, lastN, Nat.pos_of_ne_zero h]

/-- One update: what happens to the window and to the sum. -/
theorem update_spec {W : ℕ} {xs : List F} {m : Mean F} (h : Inv W xs m) (x : F) :
    ∃ m', m.update A x = .ok m' ∧ Inv W (xs ++ [x]) m' ∧
      m'.sum = A.add (if W ≠ 0 ∧ W ≤ xs.length then
        (match xs[xs.length - W]? with | some a => A.sub m.sum a | none => m.sum) else m.sum) x := by
  obtain ⟨hws, hwin, hh⟩ := h
  by_cases hW : W = 0
  · subst hW
    simp only [if_true] at hwin
    refine ⟨⟨m.windowSize, none, m.historyCount + 1, A.add m.sum x⟩, by simp [update, hwin], ⟨hws, ?_, ?_⟩, ?_⟩ <;> simp [hh]
  · simp only [hW, if_false] at hwin
    by_cases hlt : xs.length < W
    · have hl : (lastN W xs).length + 1 ≤ m.windowSize := by rw [lastN_length, hws]; omega
      refine ⟨⟨m.windowSize, some (lastN W xs ++ [x]), m.historyCount + 1, A.add m.sum x⟩,
        by simp [update, hwin, Nat.not_lt.2 hl], ⟨hws, ?_, ?_⟩, ?_⟩
      · simp [hW, lastN_snoc_lt x hlt]
      · simp [hh]
      · simp [Nat.not_le.2 hlt]
    · obtain ⟨a, r, h1, h2, h3⟩ := lastN_snoc_ge x (Nat.pos_of_ne_zero hW) (Nat.not_lt.1 hlt)
      have hl : m.windowSize < (lastN W xs).length + 1 := by rw [lastN_length, hws]; omega
      have hl' : m.windowSize < r.length + 1 + 1 := by simpa [h1] using hl
      refine ⟨⟨m.windowSize, some (r ++ [x]), m.historyCount + 1, A.add (A.sub m.sum a) x⟩,
        by simp [update, hwin, h1, hl'], ⟨hws, ?_, ?_⟩, ?_⟩
      · simp [hW, h2]
      · simp [hh]
      · simp [hW, Nat.not_lt.1 hlt, h3]

theorem run_inv (W : ℕ) (xs : List F) :
    ∃ m, updateAll (Mean.update A) (Mean.new A W) xs = .ok m ∧ Inv W xs m :=
  updateAll_induct (fun xs m => Inv W xs m) (inv_new A W)
    (fun _ _ x h => by
      obtain ⟨m', h1, h2, -⟩ := update_spec A h x
      exact ⟨m', h1, h2⟩) xs

theorem evaluate_eq {W : ℕ} {xs : List F} {m : Mean F} (h : Inv W xs m) :
    m.evaluate A = if xs = [] then A.lit 0 else A.div m.sum (A.ofNat (windowOf W xs).length) := by
  obtain ⟨-, hwin, hh⟩ := h
  unfold evaluate
  rw [hh, hwin]
  by_cases hx : xs = []
  · simp [hx]
  · have : xs.length ≠ 0 := by simpa using hx
    simp only [this, hx, if_false]
    by_cases hW : W = 0
    · simp [hW, windowOf]
    · simp [hW, windowOf]

end Mean

section Exact

variable {K : Type} [Field K] [LinearOrder K] [IsStrictOrderedRing K] [FloorRing K]

theorem evicted_snoc {W : ℕ} {xs : List K} (x : K) (hW : W ≠ 0) (h : W ≤ xs.length) :
    ∃ a, xs[xs.length - W]? = some a ∧ evicted W (xs ++ [x]) = evicted W xs ++ [a] := by
  have hi : xs.length - W < xs.length := by omega
  refine ⟨xs[xs.length - W], List.getElem?_eq_getElem hi, ?_⟩
  simp only [evicted, hW, if_false, List.length_append, List.length_singleton]
  rw [List.take_append_of_le_length (by omega), show xs.length + 1 - W = xs.length - W + 1 by omega,
    List.take_succ_eq_append_getElem hi]

theorem evicted_snoc_lt {W : ℕ} {xs : List K} (x : K) (h : W = 0 ∨ xs.length < W) :
    evicted W (xs ++ [x]) = evicted W xs := by
  unfold evicted
  rcases h with h | h
  · simp [h]
  · split
    · rfl
    · simp only [List.length_append, List.length_singleton]
      rw [Nat.sub_eq_zero_of_le (by omega), Nat.sub_eq_zero_of_le (by omega)]; simp

theorem evicted_append_window (W : ℕ) (xs : List K) : evicted W xs ++ windowOf W xs = xs := by
  unfold evicted windowOf lastN
  split <;> simp

theorem window_sum (W : ℕ) (xs : List K) : (windowOf W xs).sum = xs.sum - (evicted W xs).sum := by
  have h := congrArg List.sum (evicted_append_window W xs)
  rw [List.sum_append] at h
  rw [← h]; ring

namespace Mean

/-- The terms added by the run and the sum they produce, for a rounding with relative error `u`. -/
theorem run_sum_error (R : Rounding K) (u : K) (hu : 0 ≤ u) (hR : ∀ x, |R.rnd x - x| ≤ u * |x|)
    (W : ℕ) (xs : List K) :
    ∃ m, updateAll (Mean.update R.arith) (Mean.new R.arith W) xs = .ok m ∧ Inv W xs m ∧
      |m.sum - (windowOf W xs).sum| ≤
        ((1 + u) ^ (xs.length + (evicted W xs).length) - 1) * (absSum xs + absSum (evicted W xs)) ∧
      |m.sum| ≤ (1 + u) ^ (xs.length + (evicted W xs).length) *
        (absSum xs + absSum (evicted W xs)) := by
  have h0 : R.rnd 0 = 0 := by simpa using hR 0
  have key : ∀ (s S t M : K) (k : ℕ), |s - S| ≤ ((1 + u) ^ k - 1) * M → |s| ≤ (1 + u) ^ k * M → 0 ≤ M →
      |R.rnd (s + t) - (S + t)| ≤ ((1 + u) ^ (k + 1) - 1) * (M + |t|) ∧
      |R.rnd (s + t)| ≤ (1 + u) ^ (k + 1) * (M + |t|) := by
    intro s S t M k h1 h2 hM
    have hk : (1 : K) ≤ (1 + u) ^ k := one_le_pow₀ (by linarith)
    have ht := abs_nonneg t
    have hst : |s + t| ≤ (1 + u) ^ k * (M + |t|) := by
      calc |s + t| ≤ |s| + |t| := abs_add_le s t
        _ ≤ (1 + u) ^ k * M + |t| := by linarith
        _ ≤ _ := by nlinarith
    have hr := hR (s + t)
    have e1 : |R.rnd (s + t) - (S + t)| ≤ |R.rnd (s + t) - (s + t)| + |s - S| := by
      have : R.rnd (s + t) - (S + t) = (R.rnd (s + t) - (s + t)) + (s - S) := by ring
      rw [this]; exact abs_add_le _ _
    have e2 : |R.rnd (s + t)| ≤ |R.rnd (s + t) - (s + t)| + |s + t| := by
      have : R.rnd (s + t) = (R.rnd (s + t) - (s + t)) + (s + t) := by ring
      conv_lhs => rw [this]
      exact abs_add_le _ _
    have hmul : u * |s + t| ≤ u * ((1 + u) ^ k * (M + |t|)) := mul_le_mul_of_nonneg_left hst hu
    have hps : (1 + u) ^ (k + 1) = (1 + u) ^ k + u * (1 + u) ^ k := by rw [pow_succ]; ring
    constructor
    · rw [hps]
      have : ((1 + u) ^ k - 1) * M ≤ ((1 + u) ^ k - 1) * (M + |t|) :=
        mul_le_mul_of_nonneg_left (by linarith) (by linarith)
      nlinarith
    · rw [hps]; nlinarith
  have habs : ∀ l : List K, 0 ≤ absSum l := by
    intro l
    unfold absSum
    apply List.sum_nonneg
    intro y hy
    obtain ⟨z, -, rfl⟩ := List.mem_map.1 hy
    exact abs_nonneg z
  have happ : ∀ (l : List K) (y : K), absSum (l ++ [y]) = absSum l + |y| := by
    intro l y; simp [absSum]
  have := updateAll_induct (update := Mean.update R.arith) (s₀ := Mean.new R.arith W)
    (fun xs m => Inv W xs m ∧
      |m.sum - (windowOf W xs).sum| ≤
        ((1 + u) ^ (xs.length + (evicted W xs).length) - 1) * (absSum xs + absSum (evicted W xs)) ∧
      |m.sum| ≤ (1 + u) ^ (xs.length + (evicted W xs).length) *
        (absSum xs + absSum (evicted W xs))) ?_ ?_ xs
  · exact this
  · refine ⟨inv_new _ W, ?_, ?_⟩
    · simp [Mean.new, Rounding.arith, h0, windowOf, lastN, absSum, evicted]
    · simp [Mean.new, Rounding.arith, h0, absSum, evicted]
  · rintro xs m x ⟨hinv, h1, h2⟩
    obtain ⟨m', hm', hinv', hsum⟩ := update_spec R.arith hinv x
    refine ⟨m', hm', hinv', ?_⟩
    have hM : 0 ≤ absSum xs + absSum (evicted W xs) := add_nonneg (habs _) (habs _)
    by_cases hc : W ≠ 0 ∧ W ≤ xs.length
    · obtain ⟨a, ha, hev⟩ := evicted_snoc x hc.1 hc.2
      rw [if_pos hc, ha] at hsum
      simp only [Rounding.arith] at hsum
      obtain ⟨k1, k2⟩ := key m.sum _ (-a) _ _ h1 h2 hM
      obtain ⟨k3, k4⟩ := key _ _ x _ _ k1 k2 (add_nonneg hM (abs_nonneg _))
      rw [abs_neg] at k3 k4
      have e1 : (windowOf W (xs ++ [x])).sum = (windowOf W xs).sum + -a + x := by
        rw [window_sum, window_sum, hev]; simp; ring
      have e2 : (xs ++ [x]).length + (evicted W xs ++ [a]).length =
          xs.length + (evicted W xs).length + 1 + 1 := by simp; ring
      have e3 : absSum (xs ++ [x]) + absSum (evicted W xs ++ [a]) =
          absSum xs + absSum (evicted W xs) + |a| + |x| := by rw [happ, happ]; ring
      rw [hsum, e1, hev, e2, e3, sub_eq_add_neg m.sum a]
      exact ⟨k3, k4⟩
    · have hc' : W = 0 ∨ xs.length < W := by
        by_cases hw : W = 0
        · exact Or.inl hw
        · right; by_contra hlt; exact hc ⟨hw, Nat.not_lt.1 hlt⟩
      rw [if_neg hc] at hsum
      simp only [Rounding.arith] at hsum
      obtain ⟨k1, k2⟩ := key m.sum _ x _ _ h1 h2 hM
      have hev := evicted_snoc_lt x hc'
      have e1 : (windowOf W (xs ++ [x])).sum = (windowOf W xs).sum + x := by
        rw [window_sum, window_sum, hev]; simp; ring
      have e2 : (xs ++ [x]).length + (evicted W xs).length =
          xs.length + (evicted W xs).length + 1 := by simp; ring
      have e3 : absSum (xs ++ [x]) + absSum (evicted W xs) =
          absSum xs + absSum (evicted W xs) + |x| := by rw [happ]; ring
      rw [hsum, e1, hev, e2, e3]
      exact ⟨k1, k2⟩

/-- Exact arithmetic: the sum is the sum of the window. -/
theorem run_exact (W : ℕ) (xs : List K) :
    ∃ m, updateAll (Mean.update (exact K)) (Mean.new (exact K) W) xs = .ok m ∧ Inv W xs m ∧
      m.sum = (windowOf W xs).sum := by
  rw [exact_eq_none]
  obtain ⟨m, h1, h2, h3, -⟩ := run_sum_error (K := K) Rounding.none 0 le_rfl
    (fun x => by simp [Rounding.none]) W xs
  refine ⟨m, h1, h2, ?_⟩
  simp only [add_zero, one_pow, sub_self, zero_mul] at h3
  exact sub_eq_zero.1 (abs_eq_zero.1 (le_antisymm h3 (abs_nonneg _)))

end Mean

end Exact

end KML
