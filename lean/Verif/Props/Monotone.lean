import Verif.Props.Mean
import Verif.Props.P2
import Verif.Props.Fame
import Mathlib.Algebra.Order.BigOperators.Group.List

/-! # C102: larger observations never lower an estimate of location -/

namespace KML

set_option linter.unusedSectionVars false

open Spec

/-- `ys` is `xs` with some observations replaced by larger ones. -/
def Spec.Above {K : Type} [LE K] (xs ys : List K) : Prop := List.Forall₂ (· ≤ ·) xs ys

/-- **C102**, full statement: if no observation gets smaller, neither does the mean, the median estimate of WindowedFAME
or the estimate of StreamingP2Quantile, in exact arithmetic and in `b64`. -/
def C102_full : Prop := ∀ xs ys : List ℚ, (∀ x ∈ xs, rnd64 x = x) → (∀ y ∈ ys, rnd64 y = y) → Above xs ys →
  (∀ W m m', updateAll (Mean.update b64) (Mean.new b64 W) xs = .ok m →
    updateAll (Mean.update b64) (Mean.new b64 W) ys = .ok m' → m.evaluate b64 ≤ m'.evaluate b64) ∧
  (∀ s e f, Fame.new (exact ℚ) s e = .ok f →
    (xs.foldl (Fame.update (exact ℚ)) f).evaluate ≤ (ys.foldl (Fame.update (exact ℚ)) f).evaluate) ∧
  ∀ q p, P2.new (exact ℚ) q = .ok p → ∀ r r' v v' p1 p2, updateAll (P2.update (exact ℚ)) p xs = .ok r →
    updateAll (P2.update (exact ℚ)) p ys = .ok r' → r.evaluate (exact ℚ) = .ok (v, p1) → r'.evaluate (exact ℚ) = .ok (v', p2) →
    v ≤ v'

/-- **C102** is violated by the windowed mean in `b64`: the first stream is nowhere larger, its mean is. -/
theorem C102_violated : ¬ C102_full := by
  intro h
  have e1 : updateAll (Mean.update b64) (Mean.new b64 2) [1, 1, 1, 1] = .ok ⟨2, some [1, 1], 4, 2⟩ := by decide +kernel
  have e2 : updateAll (Mean.update b64) (Mean.new b64 2) [1, 2 ^ 53, 1, 1] = .ok ⟨2, some [1, 1], 4, 1⟩ := by decide +kernel
  have := (h [1, 1, 1, 1] [1, 2 ^ 53, 1, 1] (by decide +kernel) (by decide +kernel)
    (by unfold Above; simp; norm_num)).1 2 _ _ e1 e2
  revert this
  decide +kernel

/-- **C102** is violated by WindowedFAME, in exact arithmetic: a larger observation prevents the halving of the step, and the
next step down is larger. -/
theorem C102_fame_violated : Above [0, 1 / 2, -10] [0, 5, (-10 : ℚ)] ∧
    ([0, 1 / 2, -10].foldl (Fame.update (exact ℚ)) ⟨0, 1, 0, 0⟩).evaluate = 1 / 2 ∧
    ([0, 5, -10].foldl (Fame.update (exact ℚ)) ⟨0, 1, 0, 0⟩).evaluate = 0 := by
  refine ⟨by unfold Above; simp; norm_num, by decide +kernel, by decide +kernel⟩

/-- **C102** is violated by StreamingP2Quantile, in exact arithmetic, at the seventh observation. -/
theorem C102_quantile_violated : Above [3, 4, 4, 2, 6, 1, 0] [3, 4, 7, 3, 6, 1, (0 : ℚ)] ∧
    (do let p ← updateAll (P2.update (exact ℚ)) (P2.blank (1 / 2)) [3, 4, 4, 2, 6, 1, 0]
        let r ← p.evaluate (exact ℚ)
        .ok r.1) = .ok (10 / 3) ∧
    (do let p ← updateAll (P2.update (exact ℚ)) (P2.blank (1 / 2)) [3, 4, 7, 3, 6, 1, 0]
        let r ← p.evaluate (exact ℚ)
        .ok r.1) = .ok (8 / 3) := by
  refine ⟨by unfold Above; simp; norm_num, by decide +kernel, by decide +kernel⟩

section

variable {K : Type} [Field K] [LinearOrder K] [IsStrictOrderedRing K] [FloorRing K]

theorem Above.windowOf {xs ys : List K} (h : Above xs ys) (W : ℕ) : Above (windowOf W xs) (windowOf W ys) := by
  unfold Spec.windowOf Spec.lastN
  split
  · exact h
  · rw [h.length_eq]
    exact List.forall₂_drop _ h

theorem Above.sum {xs ys : List K} (h : Above xs ys) : xs.sum ≤ ys.sum := List.Forall₂.sum_le_sum h

theorem Above.snoc {xs ys : List K} {x : K} (h : Above (xs ++ [x]) ys) : ∃ us y, ys = us ++ [y] ∧ Above xs us ∧ x ≤ y := by
  have hl := h.length_eq
  rw [List.length_append, List.length_singleton] at hl
  rcases List.eq_nil_or_concat ys with rfl | ⟨us, y, rfl⟩
  · simp at hl
  · rw [List.concat_eq_append] at h hl ⊢
    rw [List.length_append, List.length_singleton] at hl
    have hl : xs.length = us.length := by omega
    refine ⟨us, y, rfl, ?_, ?_⟩
    · have := List.forall₂_take xs.length h
      rw [List.take_left, hl, List.take_left] at this
      exact this
    · have := List.forall₂_drop xs.length h
      rw [List.drop_left, hl, List.drop_left] at this
      cases this
      assumption

/-- **C102**, StreamingMean in exact arithmetic, for every window. -/
theorem C102_mean_partial (W : ℕ) (xs ys : List K) (h : Above xs ys) :
    ∃ m m', updateAll (Mean.update (exact K)) (Mean.new (exact K) W) xs = .ok m ∧
      updateAll (Mean.update (exact K)) (Mean.new (exact K) W) ys = .ok m' ∧ m.evaluate (exact K) ≤ m'.evaluate (exact K) := by
  obtain ⟨m, h1, h2⟩ := C15_mean_of_window W xs
  obtain ⟨m', h3, h4⟩ := C15_mean_of_window W ys
  refine ⟨m, m', h1, h3, ?_⟩
  rw [h2, h4]
  have hw := Above.windowOf h W
  unfold mean
  rw [hw.length_eq]
  exact div_le_div_of_nonneg_right (Above.sum hw) (by positivity)

/-- **C102**, StreamingMean in floating point while nothing has left the window (or without a window). -/
theorem C102_rounded_partial (R : Rounding K) (W : ℕ) (xs ys : List K) (hW : W = 0 ∨ xs.length ≤ W) (h : Above xs ys) :
    ∃ m m', updateAll (Mean.update R.arith) (Mean.new R.arith W) xs = .ok m ∧
      updateAll (Mean.update R.arith) (Mean.new R.arith W) ys = .ok m' ∧ m.evaluate R.arith ≤ m'.evaluate R.arith := by
  have key : ∀ xs ys : List K, (W = 0 ∨ xs.length ≤ W) → Above xs ys →
      ∃ m m', updateAll (Mean.update R.arith) (Mean.new R.arith W) xs = .ok m ∧
      updateAll (Mean.update R.arith) (Mean.new R.arith W) ys = .ok m' ∧ Mean.Inv W xs m ∧ Mean.Inv W ys m' ∧
      m.sum ≤ m'.sum := by
    intro xs
    induction xs using List.reverseRecOn with
    | nil =>
      intro ys _ h
      cases h
      exact ⟨_, _, rfl, rfl, Mean.inv_new _ W, Mean.inv_new _ W, le_rfl⟩
    | append_singleton xs x ih =>
      intro ys hW h
      obtain ⟨us, y, rfl, hu, hxy⟩ := Above.snoc h
      rw [List.length_append, List.length_singleton] at hW
      obtain ⟨m, m', h1, h2, h3, h4, h5⟩ := ih us (by omega) hu
      obtain ⟨n, k1, k2, k3⟩ := Mean.update_spec R.arith h3 x
      obtain ⟨n', l1, l2, l3⟩ := Mean.update_spec R.arith h4 y
      refine ⟨n, n', by rw [updateAll_snoc, h1, Res.ok_bind, k1], by rw [updateAll_snoc, h2, Res.ok_bind, l1], k2, l2, ?_⟩
      have hl : xs.length = us.length := hu.length_eq
      rw [k3, l3, if_neg (by omega), if_neg (by omega)]
      exact R.mono (add_le_add h5 hxy)
  obtain ⟨m, m', h1, h2, h3, h4, h5⟩ := key xs ys hW h
  refine ⟨m, m', h1, h2, ?_⟩
  rw [Mean.evaluate_eq _ h3, Mean.evaluate_eq _ h4]
  have hl : xs.length = ys.length := h.length_eq
  have hw := (Above.windowOf h W).length_eq
  by_cases hx : xs = []
  · have hy : ys = [] := by subst hx; cases h; rfl
    rw [if_pos hx, if_pos hy]
  · have hy : ys ≠ [] := by rintro rfl; exact hx (List.length_eq_zero_iff.1 hl)
    rw [if_neg hx, if_neg hy, hw]
    refine R.mono (div_le_div_of_nonneg_right h5 ?_)
    show 0 ≤ R.rnd ((_ : ℤ) : K)
    rw [← R.rnd_zero]
    exact R.mono (by positivity)

/-- Order statistics are monotone. -/
theorem IsRank.mono {xs ys : List K} (h : Above xs ys) {k : ℕ} {v w : K} (hv : IsRank xs k v) (hw : IsRank ys k w) : v ≤ w := by
  by_contra hc
  rw [not_le] at hc
  have h1 : ∀ {xs ys : List K}, Above xs ys → (ys.filter (· ≤ w)).length ≤ (xs.filter (· < v)).length := by
    intro xs ys h
    induction h with
    | nil => simp
    | @cons x y xs ys hxy _ ih =>
      by_cases hy : y ≤ w
      · rw [List.filter_cons_of_pos (by simpa using hy), List.filter_cons_of_pos (by simpa using (hxy.trans hy).trans_lt hc)]
        simpa using ih
      · rw [List.filter_cons_of_neg (by simpa using hy)]
        exact ih.trans (by
          by_cases hx : x < v
          · rw [List.filter_cons_of_pos (by simpa using hx)]; simp
          · rw [List.filter_cons_of_neg (by simpa using hx)])
  have := h1 h
  have := hv.2.1
  have := hw.2.2
  omega

/-- **C102**, StreamingP2Quantile up to the fifth observation, in any rounding arithmetic. -/
theorem C102_quantile_partial (R : Rounding K) (q : K) (hq : R.rnd (4 * q) = 4 * q) (p : P2 K) (hp : P2.new R.arith q = .ok p)
    (xs ys : List K) (hne : xs ≠ []) (h5 : xs.length ≤ 5) (hx : ∀ x ∈ xs, R.rnd x = x) (hy : ∀ y ∈ ys, R.rnd y = y)
    (h : Above xs ys) :
    ∃ r r' v v' p1 p2, updateAll (P2.update R.arith) p xs = .ok r ∧ updateAll (P2.update R.arith) p ys = .ok r' ∧
      r.evaluate R.arith = .ok (v, p1) ∧ r'.evaluate R.arith = .ok (v', p2) ∧ v ≤ v' := by
  have hl : xs.length = ys.length := h.length_eq
  rcases Nat.lt_or_ge xs.length 5 with h5 | h5'
  · obtain ⟨r, v, p1, a1, a2, a3⟩ := C32_padded_partial R q p hp xs hne h5 hx
    obtain ⟨r', v', p2, b1, b2, b3⟩ := C32_padded_partial R q p hp ys
      (by rintro rfl; exact hne (List.length_eq_zero_iff.1 hl)) (by omega) hy
    rw [← hl] at b3
    refine ⟨r, r', v, v', p1, p2, a1, b1, a2, b2, IsRank.mono ?_ a3 b3⟩
    exact List.rel_append h (List.forall₂_same.2 fun _ _ => le_rfl)
  · obtain ⟨r, v, a1, a2, a3⟩ := C31_five R q hq p hp xs (by omega) hx
    obtain ⟨r', v', b1, b2, b3⟩ := C31_five R q hq p hp ys (by omega) hy
    exact ⟨r, r', v, v', r, r', a1, b1, a2, b2, IsRank.mono h a3 b3⟩

end

/-- Five observations in binary64. -/
example : ∃ r r' v v' p1 p2, updateAll (P2.update b64) (P2.blank (1 / 4)) [5, 1, 4, 2, 3] = .ok r ∧
    updateAll (P2.update b64) (P2.blank (1 / 4)) [5, 3, 4, 2, 8] = .ok r' ∧
    r.evaluate b64 = .ok (v, p1) ∧ r'.evaluate b64 = .ok (v', p2) ∧ v ≤ v' :=
  C102_quantile_partial R64 (1 / 4) (by decide +kernel) _ (by decide +kernel) _ _ (by simp) (by simp) (by decide +kernel)
    (by decide +kernel) (by unfold Above; simp; norm_num)

/-- A window of two in exact arithmetic, and three observations without eviction in binary64. -/
example : (∃ m m', updateAll (Mean.update (exact ℚ)) (Mean.new (exact ℚ) 2) [1, 5, 2, 3] = .ok m ∧
      updateAll (Mean.update (exact ℚ)) (Mean.new (exact ℚ) 2) [2, 5, 7, 3] = .ok m' ∧
      m.evaluate (exact ℚ) ≤ m'.evaluate (exact ℚ)) ∧
    ∃ m m', updateAll (Mean.update b64) (Mean.new b64 3) [1, 1 / 3, 2 ^ 53] = .ok m ∧
      updateAll (Mean.update b64) (Mean.new b64 3) [2, 1, 2 ^ 53] = .ok m' ∧ m.evaluate b64 ≤ m'.evaluate b64 :=
  ⟨C102_mean_partial 2 _ _ (by unfold Above; simp; norm_num),
    C102_rounded_partial R64 3 _ _ (.inr (by simp)) (by unfold Above; simp; norm_num)⟩

end KML
