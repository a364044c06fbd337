import Verif.Props.Fame
import Mathlib.Data.Sign.Defs
import Mathlib.Algebra.BigOperators.Ring.Finset
import Mathlib.Algebra.BigOperators.Intervals

/-! # C77: the FAME recursion and what epsilon is for -/

namespace KML

variable {K : Type} [Field K] [LinearOrder K] [IsStrictOrderedRing K] [FloorRing K]

namespace Spec

/-- FAME, next observation: the estimate `m` moves one step `s` towards `x`; the step is halved if `x` is then
less than a step away; it grows by the factor `1 + ε`. -/
def fameNext (ε : K) (ms : K × K) (x : K) : K × K :=
  let m := ms.1 + SignType.sign (x - ms.1) * ms.2
  (m, (if |x - m| < ms.2 then ms.2 / 2 else ms.2) * (1 + ε))

/-- FAME: estimate and step after a stream. -/
def fame (s ε : K) : List K → K × K
  | [] => (0, s)
  | x :: xs => xs.foldl (fameNext ε) (x, max (|x| / 2) s * (1 + ε))

end Spec

open Spec

theorem fame_new_eq {s ε : K} {f : Fame K} (hf : Fame.new (exact K) s ε = .ok f) :
    f = ⟨0, s, ε, 0⟩ ∧ 0 ≤ ε ∧ ε < 1 := by
  unfold Fame.new at hf
  split at hf
  · cases hf
  · rename_i hc
    injection hf with hf
    subst hf
    simp [exact] at hc
    exact ⟨by simp [exact], hc.1, hc.2⟩

theorem fame_next (f : Fame K) (x : K) (h : f.historyCount ≠ 0) :
    ((f.update (exact K) x).median, (f.update (exact K) x).stepSize) =
      fameNext f.epsilon (f.median, f.stepSize) x := by
  rw [Fame.update_later f x h]
  have hm : (if x < f.median then f.median - f.stepSize
        else if f.median < x then f.median + f.stepSize else f.median) =
      f.median + SignType.sign (x - f.median) * f.stepSize := by
    rcases lt_trichotomy x f.median with h | h | h
    · rw [if_pos h, sign_neg (sub_neg.2 h)]; simp; ring
    · subst h; simp
    · rw [if_neg (not_lt.2 h.le), if_pos h, sign_pos (sub_pos.2 h)]; simp
  simp only [fameNext, hm]

theorem fame_foldl (xs : List K) : ∀ f : Fame K, f.historyCount ≠ 0 →
    ((xs.foldl (Fame.update (exact K)) f).median, (xs.foldl (Fame.update (exact K)) f).stepSize) =
      xs.foldl (fameNext f.epsilon) (f.median, f.stepSize) := by
  induction xs with
  | nil => intro f _; rfl
  | cons x xs ih =>
    intro f h
    have h1 := Fame.run_epsilon (exact K) f [x]
    have h2 := Fame.run_count (exact K) f [x]
    simp only [List.foldl_cons, List.foldl_nil] at h1 h2
    rw [List.foldl_cons, List.foldl_cons, ih _ (by rw [h2]; simp), h1, fame_next f x h]

/-- **C77** (exact arithmetic): estimate and step follow the FAME recursion. -/
theorem C77_recursion (s ε : K) (f : Fame K) (hf : Fame.new (exact K) s ε = .ok f) (xs : List K) :
    ((xs.foldl (Fame.update (exact K)) f).evaluate, (xs.foldl (Fame.update (exact K)) f).stepSize) =
      fame s ε xs := by
  obtain ⟨rfl, -, -⟩ := fame_new_eq hf
  cases xs with
  | nil => rfl
  | cons x xs =>
    simp only [Fame.evaluate, List.foldl_cons, fame]
    rw [Fame.update_first _ x rfl]
    exact fame_foldl xs _ (by simp)

/-- A run with a growing step. -/
example : fame (1 / 10 : ℚ) (1 / 2) [4, 10, 10, 10] = (65 / 8, 81 / 32) := by decide +kernel

/-- **C77** (exact arithmetic): after `n` observations the step is the initial one times `(1 + ε)^n`, halved
at most once per observation after the first. -/
theorem C77_step_law (s ε : K) (f : Fame K) (hf : Fame.new (exact K) s ε = .ok f) (x : K) (xs : List K) :
    ∃ h ≤ xs.length, ((x :: xs).foldl (Fame.update (exact K)) f).stepSize =
      max (|x| / 2) s * (1 + ε) ^ (xs.length + 1) / 2 ^ h := by
  have := C77_recursion s ε f hf (x :: xs)
  have e : ((x :: xs).foldl (Fame.update (exact K)) f).stepSize = (fame s ε (x :: xs)).2 := by rw [← this]
  rw [e]
  clear e this hf f
  simp only [fame]
  induction xs using List.reverseRecOn with
  | nil => exact ⟨0, le_rfl, by simp⟩
  | append_singleton xs y ih =>
    obtain ⟨h, h1, h2⟩ := ih
    rw [List.foldl_append, List.foldl_cons, List.foldl_nil]
    generalize xs.foldl (fameNext ε) (x, max (|x| / 2) s * (1 + ε)) = ms at h2
    simp only [List.length_append, List.length_singleton, fameNext]
    split
    · refine ⟨h + 1, by omega, ?_⟩
      rw [h2, pow_succ, pow_succ]; ring
    · refine ⟨h, by omega, ?_⟩
      rw [h2, pow_succ]; ring

/-- **C77** (exact arithmetic): after a jump the estimate follows at an exponentially growing pace. If from now
on all observations equal `c`, then after `N` of them, with step(1 + (1+ε) + … + (1+ε)^(N-1)) at most the
distance, the error is below the largest of step and distance times ((1+ε)/2)^n, `n` observations later. -/
theorem C77_tracking (f : Fame K) (hh : f.historyCount ≠ 0) (hs : 0 < f.stepSize)
    (he : 0 ≤ f.epsilon) (he1 : f.epsilon < 1) (c : K) :
    ∃ N : ℕ, f.stepSize * ∑ i ∈ Finset.range N, (1 + f.epsilon) ^ i ≤ |c - f.evaluate| ∧ ∀ n,
      |c - ((List.replicate (N + n + 1) c).foldl (Fame.update (exact K)) f).evaluate| <
        max f.stepSize |c - f.evaluate| * ((1 + f.epsilon) / 2) ^ n := by
  have phase1 : ∀ (n : ℕ) (f : Fame K), f.historyCount ≠ 0 → 0 < f.stepSize →
      0 ≤ f.epsilon → f.epsilon < 1 → |c - f.median| < (n + 2) * f.stepSize →
      ∃ N : ℕ, f.stepSize * ∑ i ∈ Finset.range N, (1 + f.epsilon) ^ i ≤ |c - f.median| ∧
        let g := (List.replicate N c).foldl (Fame.update (exact K)) f
        |c - g.median| < 2 * g.stepSize ∧ 0 < g.stepSize ∧ g.stepSize ≤ max f.stepSize |c - f.median| ∧
        g.epsilon = f.epsilon ∧ g.historyCount ≠ 0 := by
    intro n
    induction n with
    | zero =>
      intro f hh hs he _ hd
      refine ⟨0, by simp, ?_⟩
      simp only [List.replicate_zero, List.foldl_nil]
      exact ⟨by simpa using hd, hs, le_max_left _ _, trivial, hh⟩
    | succ n ih =>
      intro f hh hs he he1 hd
      by_cases hlt : |c - f.median| < 2 * f.stepSize
      · refine ⟨0, by simp, ?_⟩
        simp only [List.replicate_zero, List.foldl_nil]
        exact ⟨hlt, hs, le_max_left _ _, trivial, hh⟩
      · have hge := not_lt.1 hlt
        obtain ⟨h1, h2, h3, h4⟩ := Fame.update_dist f c hh
        rw [if_neg (by linarith), abs_of_nonneg (by linarith : 0 ≤ |c - f.median| - f.stepSize)] at h1
        rw [h1, if_neg (by linarith)] at h2
        have hstep : f.stepSize ≤ (f.update (exact K) c).stepSize := by rw [h2]; nlinarith
        obtain ⟨N, i1, i2, i3, i4, i5, i6⟩ := ih (f.update (exact K) c) (by rw [h4]; omega)
          (by linarith) (by rw [h3]; exact he) (by rw [h3]; exact he1) (by
            rw [h1]
            push_cast at hd
            have hn : (0 : K) ≤ n := Nat.cast_nonneg n
            nlinarith)
        refine ⟨N + 1, ?_, ?_⟩
        · rw [h1, h2, h3] at i1
          rw [Finset.sum_range_succ', pow_zero]
          have : ∑ i ∈ Finset.range N, (1 + f.epsilon) ^ (i + 1) =
              (1 + f.epsilon) * ∑ i ∈ Finset.range N, (1 + f.epsilon) ^ i := by
            rw [Finset.mul_sum]; exact Finset.sum_congr rfl fun i _ => pow_succ' _ _
          rw [this]
          linarith
        · simp only [List.replicate_succ, List.foldl_cons]
          refine ⟨i2, i3, i4.trans ?_, i5.trans h3, i6⟩
          rw [h1, h2]
          apply max_le
          · refine le_max_of_le_right ?_; nlinarith
          · refine le_max_of_le_right ?_; linarith
  obtain ⟨n₀, hn₀⟩ : ∃ n : ℕ, |c - f.median| < (n + 2) * f.stepSize := by
    obtain ⟨n, hn⟩ := exists_nat_gt (|c - f.median| / f.stepSize)
    rw [div_lt_iff₀ hs] at hn
    exact ⟨n, by linarith⟩
  obtain ⟨N, h1, h2, h3, h4, h5, h6⟩ := phase1 n₀ f hh hs he he1 hn₀
  refine ⟨N, h1, fun n => ?_⟩
  have := fame_phase2 c n _ h6 h3 (by rw [h5]; exact he) h2
  rw [← List.foldl_append, List.replicate_append_replicate] at this
  refine this.trans_le ?_
  rw [h5]
  exact mul_le_mul_of_nonneg_right h4 (pow_nonneg (by linarith) n)

/-- The hypotheses are met after one observation; the jump from 1 to 100 with ε = 1/2 takes 11 observations;
at a constant step of 3/4 it would take 132. -/
example : ([1] : List ℚ).foldl (Fame.update (exact ℚ)) ⟨0, 1 / 10, 1 / 2, 0⟩ = ⟨1, 3 / 4, 1 / 2, 1⟩ ∧
    (0 : ℚ) < 3 / 4 ∧
    100 < ((List.replicate 11 (100 : ℚ)).foldl (Fame.update (exact ℚ)) ⟨1, 3 / 4, 1 / 2, 1⟩).evaluate ∧
    ((List.replicate 10 (100 : ℚ)).foldl (Fame.update (exact ℚ)) ⟨1, 3 / 4, 1 / 2, 1⟩).evaluate < 100 := by
  decide +kernel

end KML
