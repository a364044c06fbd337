import Verif.Props.Mad
import Verif.Props.Fame

/-! # C91: StreamingMAD and the scale of the data -/

set_option linter.unusedSectionVars false

namespace KML

/-- The full property: scaling the observations by `k > 0` scales the deviation. It is false of the code. -/
def C91_full : Prop := ∀ (m : Mad ℚ), Mad.new (exact ℚ) = .ok m → ∀ (k : ℚ) (xs : List ℚ), 0 < k →
  ((xs.map fun x => k * x).foldl (Mad.update (exact ℚ)) m).evaluate = k * (xs.foldl (Mad.update (exact ℚ)) m).evaluate

theorem Mad.new_exact {K : Type} [Field K] [LinearOrder K] [IsStrictOrderedRing K] [FloorRing K] {m : Mad K}
    (h : Mad.new (exact K) = .ok m) : m = ⟨⟨0, 1 / 10, 0, 0⟩, ⟨0, 1 / 10, 0, 0⟩, 0⟩ := by
  have e : Fame.new (exact K) ((exact K).lit (1 / 10)) ((exact K).lit 0) = .ok ⟨0, 1 / 10, 0, 0⟩ := by
    unfold Fame.new
    simp [exact]
  unfold Mad.new at h
  rw [e, Res.ok_bind, Res.ok_bind] at h
  injection h with h
  exact h.symm

/-- **C91** is violated: the deviation moves by 0.1 per observation in whatever unit. -/
theorem C91_violated : ¬ C91_full := by
  intro h
  have h1 := h ⟨⟨0, 1 / 10, 0, 0⟩, ⟨0, 1 / 10, 0, 0⟩, 0⟩ (by decide +kernel) 1000 [0, 10] (by norm_num)
  revert h1
  decide +kernel

section

variable {K : Type} [Field K] [LinearOrder K] [IsStrictOrderedRing K] [FloorRing K]

/-- The observations negated. -/
theorem mad_neg (m : Mad K) (hm : m = ⟨⟨0, 1 / 10, 0, 0⟩, ⟨0, 1 / 10, 0, 0⟩, 0⟩) (xs : List K) :
    ((xs.map fun x => -x).foldl (Mad.update (exact K)) m) =
      ⟨fameScaled (-1) (xs.foldl (Mad.update (exact K)) m).scoreMedian, (xs.foldl (Mad.update (exact K)) m).errorMedian,
        (xs.foldl (Mad.update (exact K)) m).historyCount⟩ := by
  induction xs using List.reverseRecOn with
  | nil => subst hm; simp [fameScaled]
  | append_singleton xs x ih =>
    rw [List.map_append, List.foldl_append, List.foldl_append, ih]
    generalize xs.foldl (Mad.update (exact K)) m = g
    simp only [List.map_cons, List.map_nil, List.foldl_cons, List.foldl_nil, Mad.update]
    have e := fame_update_scaled (K := K) (-1) (by norm_num) g.scoreMedian x
    rw [neg_one_mul] at e
    have e2 : (exact K).abs ((exact K).sub (-x) (fameScaled (-1) (Fame.update (exact K) g.scoreMedian x)).evaluate) =
        (exact K).abs ((exact K).sub x (Fame.update (exact K) g.scoreMedian x).evaluate) := by
      simp only [Fame.evaluate, fameScaled]
      show |-x - -1 * _| = |x - _|
      rw [← abs_neg]
      congr 1
      ring
    rw [e, e2]

/-- **C91**, the part that holds: the deviation does not depend on the sign of the data. -/
theorem C91_negation_partial (m : Mad K) (hm : Mad.new (exact K) = .ok m) (xs : List K) :
    ((xs.map fun x => -x).foldl (Mad.update (exact K)) m).evaluate = (xs.foldl (Mad.update (exact K)) m).evaluate := by
  rw [mad_neg m (Mad.new_exact hm)]
  rfl

/-- **C91**, how it fails: whatever the data, the deviation grows by at most 0.1 per observation after the first. -/
theorem C91_rate_partial (m : Mad K) (hm : Mad.new (exact K) = .ok m) (xs : List K) :
    0 ≤ (xs.foldl (Mad.update (exact K)) m).evaluate ∧
      (xs.foldl (Mad.update (exact K)) m).evaluate ≤ ((xs.length - 1 : ℕ) : K) / 10 := by
  refine ⟨C28_nonneg_partial m hm xs, ?_⟩
  have e0 := Mad.new_exact hm
  have key : ∀ xs : List K, let g := (xs.foldl (Mad.update (exact K)) m).errorMedian
      (xs = [] ∧ g = ⟨0, 1 / 10, 0, 0⟩) ∨ (g.historyCount ≠ 0 ∧ g.epsilon = 0 ∧ 0 ≤ g.stepSize ∧ g.stepSize ≤ 1 / 10 ∧
        g.median ≤ ((xs.length - 1 : ℕ) : K) / 10) := by
    intro xs
    induction xs using List.reverseRecOn with
    | nil => left; subst e0; exact ⟨rfl, rfl⟩
    | append_singleton xs x ih =>
      right
      simp only [List.foldl_append, List.foldl_cons, List.foldl_nil] at ih ⊢
      rcases ih with ⟨rfl, h⟩ | ⟨h1, h2, h3, h4, h5⟩
      · rw [List.foldl_nil, e0]
        simp only [Mad.update]
        have e1 : (Fame.update (exact K) ⟨0, 1 / 10, 0, 0⟩ x).evaluate = x := by
          rw [Fame.update_first _ x rfl]; rfl
        have e2 : (exact K).abs ((exact K).sub x x) = 0 := by simp [exact]
        rw [e1, e2, Fame.update_first _ 0 rfl]
        norm_num
      · have hne : xs ≠ [] := by
          rintro rfl
          rw [List.foldl_nil, e0] at h1
          exact h1 rfl
        obtain ⟨n, hn⟩ := Nat.exists_eq_succ_of_ne_zero (mt List.length_eq_zero_iff.1 hne)
        rw [hn] at h5
        rw [List.length_append, List.length_singleton, hn]
        generalize xs.foldl (Mad.update (exact K)) m = g at *
        simp only [Mad.update]
        rw [Fame.update_later _ _ h1]
        simp only [h2, add_zero, mul_one]
        have h6 : ((n.succ + 1 - 1 : ℕ) : K) = (n.succ - 1 : ℕ) + 1 := by
          rw [Nat.add_sub_cancel, Nat.succ_sub_one]; push_cast; ring
        rw [h6]
        refine ⟨by omega, trivial, ?_, ?_, ?_⟩
        · split_ifs <;> linarith
        · split_ifs <;> linarith
        · split
          · linarith
          · split <;> linarith
  rcases key xs with ⟨rfl, h⟩ | ⟨-, -, -, -, h⟩
  · unfold Mad.evaluate Fame.evaluate
    rw [h]; simp
  · exact h

end

/-- The bound is attained, by observations a thousand apart. -/
example : ∃ m, Mad.new (exact ℚ) = .ok m ∧
    (([0, 1000, 2000, 3000] : List ℚ).foldl (Mad.update (exact ℚ)) m).evaluate = ((4 - 1 : ℕ) : ℚ) / 10 := by
  exact ⟨⟨⟨0, 1 / 10, 0, 0⟩, ⟨0, 1 / 10, 0, 0⟩, 0⟩, by decide +kernel, by decide +kernel⟩

end KML
