import Verif.Lemmas.Fame
import Verif.Lemmas.Float
import Verif.Props.Fame

/-! # C27, C28: StreamingMAD -/

set_option linter.unusedSectionVars false

namespace KML

/-! ## C27 -/

/-- The two medians of a MAD on a constant stream see constant streams. -/
theorem mad_const_run {F : Type} (A : Arith F) (c : F) (hc : A.abs (A.sub c c) = A.lit 0)
    (hirr : A.lt c c = false) (m : Mad F) (hs : m.scoreMedian.historyCount = 0) (n : ℕ) :
    ((List.replicate n c).foldl (Mad.update A) m).errorMedian =
      (List.replicate n (A.lit 0)).foldl (Fame.update A) m.errorMedian ∧
    ((List.replicate n c).foldl (Mad.update A) m).scoreMedian =
      (List.replicate n c).foldl (Fame.update A) m.scoreMedian := by
  induction n with
  | zero => exact ⟨rfl, rfl⟩
  | succ n ih =>
    obtain ⟨h1, h2⟩ := ih
    rw [List.replicate_succ', List.replicate_succ', List.foldl_append, List.foldl_append,
      List.foldl_append]
    simp only [List.foldl_cons, List.foldl_nil]
    generalize (List.replicate n c).foldl (Mad.update A) m = g at h1 h2
    have hs' : (g.scoreMedian.update A c).evaluate = c := by
      have := (Fame.run_const A (f := m.scoreMedian) hirr (Or.inr hs) (n + 1)).2 (Nat.succ_pos n)
      rw [List.replicate_succ', List.foldl_append] at this
      rw [h2]; exact this
    simp only [Mad.update]
    rw [hs', hc, h1, h2]
    exact ⟨rfl, rfl⟩

/-- **C27** (any arithmetic in which `c - c` is 0 and neither `c < c` nor `0 < 0`, so IEEE with finite
`c`): after any number of observations equal to `c`, zero included, `evaluate()` is 0. -/
theorem C27_mad_constant_zero {F : Type} (A : Arith F) (c : F) (hc : A.abs (A.sub c c) = A.lit 0)
    (hirr : A.lt c c = false) (hirr0 : A.lt (A.lit 0) (A.lit 0) = false) (m : Mad F)
    (hm : Mad.new A = .ok m) (n : ℕ) :
    ((List.replicate n c).foldl (Mad.update A) m).evaluate = A.lit 0 := by
  unfold Mad.new at hm
  rw [Res.bind_eq_ok] at hm
  obtain ⟨f, hf, hm⟩ := hm
  rw [Res.bind_eq_ok] at hm
  obtain ⟨f', hf', hm⟩ := hm
  injection hm with hm
  subst hm
  have hcount : f.historyCount = 0 := by
    unfold Fame.new at hf
    split at hf
    · cases hf
    · injection hf with hf; subst hf; rfl
  obtain ⟨h1, -⟩ := mad_const_run A c hc hirr ⟨f, f', 0⟩ hcount n
  rw [Mad.evaluate, h1]
  have := C22_first_and_constant A _ _ (A.lit 0) hirr0 f' hf' n
  rw [this]
  split <;> rfl

/-- Every finite double meets the hypotheses. -/
example (q : ℚ) (n : ℕ) : ∃ m, Mad.new Dbl.arith = .ok m ∧
    ((List.replicate n (.fin q)).foldl (Mad.update Dbl.arith) m).evaluate = .fin 0 := by
  have h0 : Dbl.ofRat 0 = .fin 0 := by decide +kernel
  have hl : Dbl.arith.lit 0 = .fin 0 := h0
  have hnew : ∃ m, Mad.new Dbl.arith = .ok m :=
    ⟨⟨⟨.fin 0, Dbl.ofRat (1 / 10), .fin 0, 0⟩, ⟨.fin 0, Dbl.ofRat (1 / 10), .fin 0, 0⟩, 0⟩, by
      decide +kernel⟩
  obtain ⟨m, hm⟩ := hnew
  refine ⟨m, hm, ?_⟩
  rw [← hl]
  refine C27_mad_constant_zero Dbl.arith (.fin q) ?_ (Dbl.lt_irrefl (.fin q))
    (Dbl.lt_irrefl (Dbl.arith.lit 0)) m hm n
  simp [Dbl.arith, Dbl.sub, Dbl.neg, Dbl.add, h0, Dbl.abs]

/-! ## C28 -/

/-- **C28**, the full claim, in binary64. -/
def C28_full : Prop :=
  ∀ (m : Mad ℚ), Mad.new b64 = .ok m → ∀ xs : List ℚ, 0 ≤ (xs.foldl (Mad.update b64) m).evaluate

/-- **C28** is false of the code: 0.1 + 0.1 + 0.1 is not a multiple of 0.1 in binary64, so stepping back
down overshoots zero. -/
theorem C28_violated : ¬ C28_full := by
  intro h
  have h1 := h ⟨⟨0, b64.lit (1 / 10), 0, 0⟩, ⟨0, b64.lit (1 / 10), 0, 0⟩, 0⟩ (by decide +kernel)
    [0, 1, 1, -10, 0, 0, 0, 0]
  revert h1
  decide +kernel

section Exact

variable {K : Type} [Field K] [LinearOrder K] [IsStrictOrderedRing K] [FloorRing K]

/-- With `epsilon = 0`, an estimate that is a natural multiple of the step stays one on non-negative
observations. -/
theorem fame_multiple (f : Fame K) (x : K) (hh : f.historyCount ≠ 0) (he : f.epsilon = 0)
    (hs : 0 < f.stepSize) (hm : ∃ k : ℕ, f.median = k * f.stepSize) (hx : 0 ≤ x) :
    0 < (f.update (exact K) x).stepSize ∧ (f.update (exact K) x).epsilon = 0 ∧
    ∃ k : ℕ, (f.update (exact K) x).median = k * (f.update (exact K) x).stepSize := by
  obtain ⟨k, hk⟩ := hm
  rw [Fame.update_later f x hh]
  have hm' : ∃ j : ℕ, (if x < f.median then f.median - f.stepSize
      else if f.median < x then f.median + f.stepSize else f.median) = j * f.stepSize := by
    split
    · rename_i hlt
      have hkpos : k ≠ 0 := by
        rintro rfl
        simp at hk; linarith
      obtain ⟨j, rfl⟩ := Nat.exists_eq_succ_of_ne_zero hkpos
      exact ⟨j, by rw [hk]; push_cast; ring⟩
    · split
      · exact ⟨k + 1, by rw [hk]; push_cast; ring⟩
      · exact ⟨k, hk⟩
  obtain ⟨j, hj⟩ := hm'
  simp only [hj, he, add_zero, mul_one, true_and]
  split
  · exact ⟨by linarith, 2 * j, by push_cast; ring⟩
  · exact ⟨hs, j, rfl⟩

/-- **C28**, the part that holds: in exact arithmetic `evaluate()` is never negative (it is a natural
multiple of the current step). Missing: floating point, where it fails (`C28_violated`). -/
theorem C28_nonneg_partial (m : Mad K) (hm : Mad.new (exact K) = .ok m) (xs : List K) :
    0 ≤ (xs.foldl (Mad.update (exact K)) m).evaluate := by
  unfold Mad.new at hm
  rw [Res.bind_eq_ok] at hm
  obtain ⟨f, hf, hm⟩ := hm
  rw [Res.bind_eq_ok] at hm
  obtain ⟨f', hf', hm⟩ := hm
  injection hm with hm
  have hfe : f = ⟨0, 1 / 10, 0, 0⟩ := by
    unfold Fame.new at hf
    split at hf
    · cases hf
    · injection hf with hf; rw [← hf]; simp [exact]
  have hfe' : f' = ⟨0, 1 / 10, 0, 0⟩ := by
    rw [hf] at hf'; injection hf' with e; rw [← e]; exact hfe
  have : ∀ xs : List K, let g := xs.foldl (Mad.update (exact K)) m
      (xs = [] ∧ g = m) ∨
      (g.errorMedian.historyCount ≠ 0 ∧ g.errorMedian.epsilon = 0 ∧ 0 < g.errorMedian.stepSize ∧
        ∃ k : ℕ, g.errorMedian.median = k * g.errorMedian.stepSize) := by
    intro xs
    induction xs using List.reverseRecOn with
    | nil => exact Or.inl ⟨rfl, rfl⟩
    | append_singleton xs x ih =>
      right
      simp only [List.foldl_append, List.foldl_cons, List.foldl_nil] at ih ⊢
      rcases ih with ⟨rfl, h⟩ | ⟨h1, h2, h3, h4⟩
      · rw [List.foldl_nil, ← hm]
        simp only [Mad.update]
        have e1 : (Fame.update (exact K) f x).evaluate = x := by
          rw [Fame.update_first f x (by rw [hfe])]; rfl
        have e2 : (exact K).abs ((exact K).sub x x) = 0 := by simp [exact]
        rw [e1, e2, Fame.update_first f' 0 (by rw [hfe'])]
        simp only [hfe', abs_zero, zero_div]
        refine ⟨one_ne_zero, trivial, ?_, 0, by simp⟩
        simp
      · generalize xs.foldl (Mad.update (exact K)) m = g at *
        simp only [Mad.update]
        obtain ⟨k1, k2, k3⟩ := fame_multiple g.errorMedian
          ((exact K).abs ((exact K).sub x (Fame.update (exact K) g.scoreMedian x).evaluate)) h1 h2 h3 h4
          (abs_nonneg _)
        refine ⟨?_, k2, k1, k3⟩
        rw [(Fame.update_dist _ _ h1).2.2.2]; omega
  rcases this xs with ⟨-, h⟩ | ⟨-, -, h3, k, hk⟩
  · rw [h, Mad.evaluate, ← hm, hfe']; simp [Fame.evaluate]
  · rw [Mad.evaluate, Fame.evaluate, hk]
    exact mul_nonneg (Nat.cast_nonneg k) h3.le

end Exact

/-- The hypothesis is met; a run with a positive result. -/
example : ∃ m, Mad.new (exact ℚ) = .ok m ∧
    (([0, 1, 1, -10, 0, 5, 0] : List ℚ).foldl (Mad.update (exact ℚ)) m).evaluate = 1 / 5 := by
  exact ⟨⟨⟨0, 1 / 10, 0, 0⟩, ⟨0, 1 / 10, 0, 0⟩, 0⟩, by decide +kernel, by decide +kernel⟩

end KML
