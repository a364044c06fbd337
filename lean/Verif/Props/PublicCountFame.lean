import Verif.Props.PublicCountWindowed
import Verif.Props.DoubleFame

/-!
# C151: assigning the number of observations of WindowedFAME

`update` asks only whether `m_historyCount` is zero.
-/

set_option linter.unusedSectionVars false

namespace KML

open Spec

/-- A history of WindowedFAME, whose calls are all defined: the values of the `evaluate` calls. -/
def Fame.arun {F : Type} (A : Arith F) (f : Fame F) (ops : List (AOp F)) : Res (List F × Fame F) :=
  AOp.run (fun f x => .ok (Fame.update A f x)) (fun f => .ok (f.evaluate, f)) Fame.assign f ops

namespace Fame

/-- Equal but for counts of which both or neither are zero. -/
def Alike {F : Type} (f g : Fame F) : Prop :=
  f.median = g.median ∧ f.stepSize = g.stepSize ∧ f.epsilon = g.epsilon ∧ (f.historyCount = 0 ↔ g.historyCount = 0)

theorem update_nonzero {F : Type} (A : Arith F) (m s e : F) (n : ℕ) (hn : n ≠ 0) (x : F) :
    (⟨m, s, e, n⟩ : Fame F).update A x =
      ⟨if A.lt x m then A.sub m s else if A.lt m x then A.add m s else m,
       A.mul (if A.lt (A.abs (A.sub x (if A.lt x m then A.sub m s else if A.lt m x then A.add m s else m))) s
         then A.div s (A.lit 2) else s) (A.add (A.lit 1) e), e, n + 1⟩ := by
  unfold Fame.update
  by_cases h1 : A.lt x m = true
  · by_cases h2 : A.lt (A.abs (A.sub x (A.sub m s))) s = true <;> simp [hn, h1, h2]
  · by_cases h3 : A.lt m x = true
    · by_cases h2 : A.lt (A.abs (A.sub x (A.add m s))) s = true <;> simp [hn, h1, h2, h3]
    · by_cases h2 : A.lt (A.abs (A.sub x m)) s = true <;> simp [hn, h1, h2, h3]

theorem Alike.update {F : Type} (A : Arith F) {f g : Fame F} (h : Alike f g) (x : F) : Alike (f.update A x) (g.update A x) := by
  obtain ⟨m, s, e, n⟩ := f
  obtain ⟨m', s', e', n'⟩ := g
  obtain ⟨h1, h2, h3, h4⟩ := h
  simp only at h1 h2 h3 h4
  subst h1 h2 h3
  by_cases hn : n = 0
  · have hn' := h4.1 hn
    subst hn; subst hn'
    exact ⟨rfl, rfl, rfl, by simp⟩
  · have hn' : n' ≠ 0 := fun h => hn (h4.2 h)
    rw [update_nonzero A _ _ _ _ hn, update_nonzero A _ _ _ _ hn']
    exact ⟨rfl, rfl, rfl, by simp⟩

end Fame

/-- The same history with other numbers assigned. -/
def AOp.recount {F : Type} (g : ℕ → ℕ) : List (AOp F) → List (AOp F)
  | [] => []
  | .assign n :: os => .assign (g n) :: recount g os
  | .call o :: os => .call o :: recount g os

theorem Fame.arun_recount {F : Type} (A : Arith F) (g : ℕ → ℕ) (hg : ∀ n, g n = 0 ↔ n = 0) (ops : List (AOp F)) :
    ∀ f f' : Fame F, Fame.Alike f f' → (Fame.arun A f ops).mapOk Prod.fst = (Fame.arun A f' (AOp.recount g ops)).mapOk Prod.fst := by
  induction ops with
  | nil => intro f f' _; rfl
  | cons o ops ih =>
    intro f f' h
    cases o with
    | assign n =>
      exact ih _ _ ⟨h.1, h.2.1, h.2.2.1, by simp only [Fame.assign]; exact (hg n).symm⟩
    | call o =>
      cases o with
      | update x => exact ih _ _ (h.update A x)
      | evaluate =>
        have := ih f f' h
        unfold Fame.arun at this ⊢
        have hm : f.evaluate = f'.evaluate := h.1
        simp only [AOp.run, AOp.recount, Res.ok_bind, hm]
        revert this
        rcases AOp.run (fun f x => .ok (Fame.update A f x)) (fun f => .ok (f.evaluate, f)) Fame.assign f ops with ⟨a, b⟩ | m | u <;>
          rcases AOp.run (fun f x => .ok (Fame.update A f x)) (fun f => .ok (f.evaluate, f)) Fame.assign f' (AOp.recount g ops)
            with ⟨c, d⟩ | m' | u' <;> simp [Res.mapOk]

/-- **C151**, any arithmetic: only whether the assigned number is zero matters to the values. -/
theorem C151_zero_only {F : Type} (A : Arith F) (f : Fame F) (g : ℕ → ℕ) (hg : ∀ n, g n = 0 ↔ n = 0) (ops : List (AOp F)) :
    (Fame.arun A f ops).mapOk Prod.fst = (Fame.arun A f (AOp.recount g ops)).mapOk Prod.fst :=
  Fame.arun_recount A g hg ops f f ⟨rfl, rfl, rfl, Iff.rfl⟩

/-- 7 and 1 assigned, before the first observation; 0 and 0, in the middle. -/
example : ((Fame.arun b64 ⟨0, 1, 0, 0⟩ [.assign 7, .call (.update 8), .call .evaluate, .assign 0, .call (.update 9),
      .call .evaluate]).mapOk Prod.fst,
    (Fame.arun b64 ⟨0, 1, 0, 0⟩ (AOp.recount (fun n => if n = 0 then 0 else 1) [.assign 7, .call (.update 8), .call .evaluate,
      .assign 0, .call (.update 9), .call .evaluate])).mapOk Prod.fst) = (.ok [1, 9], .ok [1, 9]) := by
  decide +kernel

/-- **C151**, doubles, every state (also one whose median is infinite or not a number): after 0 is assigned, the next
observation is the value. -/
theorem C151_restart (f : Fame Dbl) (x : Dbl) : ((f.assign 0).update Dbl.arith x).evaluate = x := by
  have hx : Dbl.arith.lt x x = false := by
    cases x <;> simp [Dbl.arith, Dbl.lt]
  simp [Fame.assign, Fame.update, Fame.evaluate, hx]

/-- Not a number; without the assignment it stays so. -/
example : ((⟨.nan, .fin 1, .fin 0, 5⟩ : Fame Dbl).update Dbl.arith (.fin 3)).evaluate = .nan ∧
    (((⟨.nan, .fin 1, .fin 0, 5⟩ : Fame Dbl).assign 0).update Dbl.arith (.fin 3)).evaluate = .fin 3 := by
  decide +kernel

section Exact

variable {K : Type} [Field K] [LinearOrder K] [IsStrictOrderedRing K] [FloorRing K]

/-- The median within one largest step of the interval. -/
structure Fame.Tethered (lo hi S : K) (f : Fame K) : Prop where
  eps : f.epsilon = 0
  step0 : 0 ≤ f.stepSize
  step1 : f.stepSize ≤ S
  lo_med : lo - S ≤ f.median
  med_hi : f.median ≤ hi + S

theorem Fame.Tethered.update {lo hi S x : K} {f : Fame K} (h : Tethered lo hi S f) (h1 : lo ≤ x) (h2 : x ≤ hi) (hS : |x| / 2 ≤ S) :
    Tethered lo hi S (f.update (exact K) x) := by
  obtain ⟨m, s, e, n⟩ := f
  obtain ⟨he, s0, s1, m0, m1⟩ := h
  simp only at he s0 s1 m0 m1
  subst he
  have hx0 : 0 ≤ |x| / 2 := by positivity
  by_cases hn : n = 0
  · subst hn
    have hmax : (exact K).max (|x| / 2) s = |x| / 2 ∨ (exact K).max (|x| / 2) s = s := by
      unfold Arith.max
      split
      · exact Or.inr rfl
      · exact Or.inl rfl
    have e2 : (exact K).div ((exact K).abs x) ((exact K).lit 2) = |x| / 2 := by simp [exact]
    have hu : (⟨m, s, 0, 0⟩ : Fame K).update (exact K) x = ⟨x, (exact K).max (|x| / 2) s * (1 + 0), 0, 1⟩ := by
      simp only [Fame.update, e2]
      simp [exact]
    rw [hu]
    refine ⟨rfl, ?_, ?_, by simp only; linarith, by simp only; linarith⟩
    · rcases hmax with h | h <;> simp only [h, add_zero, mul_one] <;> assumption
    · rcases hmax with h | h <;> simp only [h, add_zero, mul_one] <;> assumption
  · have key : ∀ m' : K, lo - S ≤ m' → m' ≤ hi + S → ∀ s' : K, (s' = s ∨ s' = s / 2) →
        Tethered lo hi S (⟨m', s' * (1 + 0), 0, n + 1⟩ : Fame K) := by
      intro m' a b s' hs'
      rcases hs' with rfl | rfl
      · exact ⟨rfl, by simpa using s0, by simpa using s1, a, b⟩
      · exact ⟨rfl, by simp; linarith, by simp; linarith, a, b⟩
    rw [Fame.update_nonzero _ _ _ _ _ hn]
    have e1 : (exact K).add ((exact K).lit 1) 0 = 1 + 0 := by simp [exact]
    have e2 : (exact K).div s ((exact K).lit 2) = s / 2 := by simp [exact]
    rw [e1, e2]
    refine key _ ?_ ?_ _ ?_
    · show lo - S ≤ _
      split
      · rename_i hl
        have hl' : x < m := by simpa [exact] using hl
        show lo - S ≤ m - s; linarith
      · split
        · show lo - S ≤ m + s; linarith
        · exact m0
    · split
      · show m - s ≤ hi + S; linarith
      · split
        · rename_i hg
          have hg' : m < x := by simpa [exact] using hg
          show m + s ≤ hi + S; linarith
        · exact m1
    · exact (ite_eq_or_eq _ _ _).symm

theorem Fame.Tethered.arun {lo hi S : K} (ops : List (AOp K)) (hS : ∀ x ∈ AOp.observed ops, |x| / 2 ≤ S)
    (hx : InRange lo hi (AOp.observed ops)) : ∀ f : Fame K, Tethered lo hi S f →
    ∃ vs f', Fame.arun (exact K) f ops = .ok (vs, f') ∧ ∀ v ∈ vs, lo - S ≤ v ∧ v ≤ hi + S := by
  induction ops with
  | nil => intro f _; exact ⟨[], f, rfl, by simp⟩
  | cons o ops ih =>
    intro f h
    cases o with
    | assign n => exact ih hS hx (f.assign n) ⟨h.1, h.2, h.3, h.4, h.5⟩
    | call o =>
      cases o with
      | update x =>
        have hm : x ∈ AOp.observed (AOp.call (SOp.update x) :: ops) := by simp [AOp.observed]
        exact ih (fun y hy => hS y (by simp [AOp.observed, hy])) (fun y hy => hx y (by simp [AOp.observed, hy])) _
          (h.update (hx x hm).1 (hx x hm).2 (hS x hm))
      | evaluate =>
        obtain ⟨vs, f', h1, h2⟩ := ih hS hx f h
        unfold Fame.arun at h1
        refine ⟨f.median :: vs, f', ?_, ?_⟩
        · simp only [Fame.arun, AOp.run, Res.ok_bind, h1]; rfl
        · intro v hv
          rcases List.mem_cons.1 hv with rfl | hv
          · exact ⟨h.4, h.5⟩
          · exact h2 v hv

/-- **C151**, exact arithmetic, the default epsilon 0: whatever counts are assigned, every value is at most one step outside any
interval that contains 0 and the observations, where no step is larger than the given step size or half the largest
magnitude. -/
theorem C151_bound (s : K) (hs : 0 ≤ s) (f : Fame K) (hf : Fame.new (exact K) s 0 = .ok f) (ops : List (AOp K)) (lo hi : K)
    (h0 : lo ≤ 0 ∧ 0 ≤ hi) (hx : InRange lo hi (AOp.observed ops)) :
    ∃ vs f', Fame.arun (exact K) f ops = .ok (vs, f') ∧
      ∀ v ∈ vs, lo - max s (max (-lo) hi / 2) ≤ v ∧ v ≤ hi + max s (max (-lo) hi / 2) := by
  have hf' : f = ⟨0, s, 0, 0⟩ := by
    unfold Fame.new at hf
    split at hf
    · cases hf
    · injection hf with hf
      rw [← hf]
      simp [exact]
  subst hf'
  have hm : s ≤ max s (max (-lo) hi / 2) := le_max_left _ _
  refine Fame.Tethered.arun ops (fun x hm => ?_) hx _ ⟨rfl, hs, hm, ?_, ?_⟩
  · refine le_trans ?_ (le_max_right _ _)
    have := hx x hm
    have h1 : |x| ≤ max (-lo) hi := abs_le.2 ⟨by have := le_max_left (-lo) hi; linarith, this.2.trans (le_max_right _ _)⟩
    linarith
  · show lo - _ ≤ (0 : K); linarith [h0.1]
  · show (0 : K) ≤ hi + _; linarith [h0.2]

/-- No first observation because 1 is assigned, then a restart at 3; the default step 1/10. -/
example : (Fame.arun (exact ℚ) ⟨0, 1 / 10, 0, 0⟩ [.assign 1, .call (.update 6), .call .evaluate, .assign 0, .call (.update 3),
    .call .evaluate, .call (.update 10), .call .evaluate]).mapOk Prod.fst = .ok [1 / 10, 3, 9 / 2] := by
  decide +kernel

end Exact

end KML
