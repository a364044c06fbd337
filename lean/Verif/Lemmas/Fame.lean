import Verif.Spec.Stats
import Verif.Model.Stats
import Mathlib.Data.List.Induction
import Mathlib.Tactic.Linarith
import Mathlib.Tactic.Ring
import Mathlib.Tactic.FieldSimp
import Mathlib.Tactic.Positivity
import Mathlib.Algebra.Order.Archimedean.Basic

/-! WindowedFAME: one update in closed form, and its dynamics. -/

set_option linter.unusedSectionVars false

namespace KML

namespace Fame

section Any

variable {F : Type} (A : Arith F)

/-- Feeding the current median changes only the step and the count. -/
theorem update_same {f : Fame F} {c : F} (hirr : A.lt c c = false)
    (h : f.median = c ∨ f.historyCount = 0) :
    (f.update A c).median = c ∧ (f.update A c).historyCount = f.historyCount + 1 := by
  unfold update
  by_cases h0 : f.historyCount = 0
  · simp [h0, hirr]
  · have hm : f.median = c := h.resolve_right h0
    simp only [h0, if_false, hm, hirr]
    simp only [Bool.false_eq_true, if_false]
    constructor <;> split <;> simp [hm]

theorem run_const {f : Fame F} {c : F} (hirr : A.lt c c = false)
    (h : f.median = c ∨ f.historyCount = 0) (n : ℕ) :
    ((List.replicate n c).foldl (Fame.update A) f).historyCount = f.historyCount + n ∧
    (0 < n → ((List.replicate n c).foldl (Fame.update A) f).median = c) := by
  induction n generalizing f with
  | zero => simp
  | succ n ih =>
    obtain ⟨h1, h2⟩ := update_same A hirr h
    obtain ⟨h3, h4⟩ := ih (f := f.update A c) (Or.inl h1)
    simp only [List.replicate_succ, List.foldl_cons]
    refine ⟨by rw [h3, h2]; ring, fun _ => ?_⟩
    by_cases hn : n = 0
    · subst hn; simpa using h1
    · exact h4 (Nat.pos_of_ne_zero hn)

theorem run_count (f : Fame F) (xs : List F) :
    (xs.foldl (Fame.update A) f).historyCount = f.historyCount + xs.length := by
  induction xs generalizing f with
  | nil => simp
  | cons x xs ih =>
    rw [List.foldl_cons, ih]
    have : (f.update A x).historyCount = f.historyCount + 1 := by
      unfold update
      simp only
      split_ifs <;> rfl
    rw [this, List.length_cons]; ring

theorem run_epsilon (f : Fame F) (xs : List F) :
    (xs.foldl (Fame.update A) f).epsilon = f.epsilon := by
  induction xs generalizing f with
  | nil => simp
  | cons x xs ih =>
    rw [List.foldl_cons, ih]
    unfold update
    simp only
    split_ifs <;> rfl

end Any

section Exact

variable {K : Type} [Field K] [LinearOrder K] [IsStrictOrderedRing K] [FloorRing K]

/-- First observation, exact arithmetic. -/
theorem update_first (f : Fame K) (x : K) (h : f.historyCount = 0) :
    f.update (exact K) x =
      ⟨x, max (|x| / 2) f.stepSize * (1 + f.epsilon), f.epsilon, 1⟩ := by
  have hm : (if |x| / 2 < f.stepSize then f.stepSize else |x| / 2) = max (|x| / 2) f.stepSize := by
    split
    · rw [max_eq_right (le_of_lt ‹_›)]
    · rw [max_eq_left (not_lt.1 ‹_›)]
  unfold update
  simp [h, exact, Arith.max, hm]

/-- Later observations, exact arithmetic. -/
theorem update_later (f : Fame K) (x : K) (h : f.historyCount ≠ 0) :
    f.update (exact K) x =
      let m := if x < f.median then f.median - f.stepSize
        else if f.median < x then f.median + f.stepSize else f.median
      ⟨m, (if |x - m| < f.stepSize then f.stepSize / 2 else f.stepSize) * (1 + f.epsilon), f.epsilon,
        f.historyCount + 1⟩ := by
  unfold update
  simp only [h, if_false, exact, decide_eq_true_eq]
  by_cases h1 : x < f.median
  · simp only [h1, if_true]
    by_cases h2 : |x - (f.median - f.stepSize)| < f.stepSize <;> simp [h, h2]
  · by_cases h3 : f.median < x
    · simp only [h1, h3, if_true, if_false]
      by_cases h2 : |x - (f.median + f.stepSize)| < f.stepSize <;> simp [h, h2]
    · simp only [h1, h3, if_false]
      by_cases h2 : |x - f.median| < f.stepSize <;> simp [h, h2]

/-- Later observations: distance and step after one update. -/
theorem update_dist (f : Fame K) (c : K) (h : f.historyCount ≠ 0) :
    |c - (f.update (exact K) c).median| = (if |c - f.median| = 0 then 0 else |(|c - f.median|) - f.stepSize|) ∧
    (f.update (exact K) c).stepSize =
      (if |c - (f.update (exact K) c).median| < f.stepSize then f.stepSize / 2 else f.stepSize) *
        (1 + f.epsilon) ∧
    (f.update (exact K) c).epsilon = f.epsilon ∧
    (f.update (exact K) c).historyCount = f.historyCount + 1 := by
  rw [update_later f c h]
  refine ⟨?_, rfl, rfl, rfl⟩
  simp only
  rcases lt_trichotomy c f.median with hlt | heq | hgt
  · have h1 : |c - f.median| = f.median - c := by
      rw [abs_of_neg (by linarith)]; ring
    rw [if_pos hlt, h1, if_neg (by linarith : ¬ f.median - c = 0)]
    rw [show c - (f.median - f.stepSize) = -(f.median - c - f.stepSize) by ring, abs_neg]
  · simp [heq]
  · have h1 : |c - f.median| = c - f.median := abs_of_pos (by linarith)
    rw [if_neg (not_lt.2 hgt.le), if_pos hgt, h1, if_neg (by linarith : ¬ c - f.median = 0)]
    rw [show c - (f.median + f.stepSize) = c - f.median - f.stepSize by ring]

end Exact

end Fame

end KML
