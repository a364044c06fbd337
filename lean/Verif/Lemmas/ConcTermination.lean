import Verif.Lemmas.Concurrency
import Mathlib.Algebra.BigOperators.Group.Finset.Basic
import Mathlib.Algebra.Order.BigOperators.Group.Finset
import Mathlib.Data.Fintype.Basic

/-! # Every execution of methods of bounded length ends -/

set_option linter.unusedSectionVars false

namespace KML.Conc

variable {ι Op Loc : Type} [DecidableEq ι] [DecidableEq Loc] {Val : Loc → Type} {ρ : Type}

/-- At most `n` accesses, whatever is read. -/
inductive Within : ℕ → Code Loc Val ρ → Prop
  | ret (n : ℕ) (r : ρ) : Within n (.ret r)
  | ub (n : ℕ) (u : UB) : Within n (.ub u)
  | read (n : ℕ) (l : Loc) (k : Val l → Code Loc Val ρ) (h : ∀ v, Within n (k v)) : Within (n + 1) (.read l k)
  | write (n : ℕ) (l : Loc) (v : Val l) (k : Code Loc Val ρ) (h : Within n k) : Within (n + 1) (.write l v k)
  | rmw (n : ℕ) (l : Loc) (f : Val l → Val l) (k : Val l → Code Loc Val ρ) (h : ∀ v, Within n (k v)) :
      Within (n + 1) (.rmw l f k)

theorem Within.mono {n m : ℕ} {c : Code Loc Val ρ} (h : Within n c) (hnm : n ≤ m) : Within m c := by
  induction h generalizing m with
  | ret n r => exact .ret _ _
  | ub n u => exact .ub _ _
  | read n l k h ih =>
    obtain ⟨m, rfl⟩ : ∃ m', m = m' + 1 := ⟨m - 1, by omega⟩
    exact .read _ _ _ fun v => ih v (by omega)
  | write n l v k h ih =>
    obtain ⟨m, rfl⟩ : ∃ m', m = m' + 1 := ⟨m - 1, by omega⟩
    exact .write _ _ _ _ (ih (by omega))
  | rmw n l f k h ih =>
    obtain ⟨m, rfl⟩ : ∃ m', m = m' + 1 := ⟨m - 1, by omega⟩
    exact .rmw _ _ _ _ fun v => ih v (by omega)

variable [Fintype ι] {L : Lib Op Loc Val ρ} {c c' : Config ι Op Loc Val ρ}

/-- `w` bounds the steps each thread has still to make. -/
def Budget (L : Lib Op Loc Val ρ) (B : ℕ) (c : Config ι Op Loc Val ρ) (w : ι → ℕ) : Prop :=
  ∀ t, (∀ op ∈ (c.threads t).todo, Within B (L.code op)) ∧
    match (c.threads t).cur with
    | none => (c.threads t).todo.length * (B + 2) ≤ w t
    | some (_, k) => ∃ n, Within n k ∧ (c.threads t).todo.length * (B + 2) + n + 1 ≤ w t

theorem Budget.step {B : ℕ} {w : ι → ℕ} (hB : Budget L B c w) {t : ι} (h : c.step L t = some c') :
    0 < w t ∧ (c'.bad ≠ none ∨ Budget L B c' (Function.update w t (w t - 1))) := by
  have hset : ∀ (th : Thread Op Loc Val ρ) (m : Mem Loc Val) (o : Option ι) (log : List (ι × Op)) (b : Option UB),
      (∀ op ∈ th.todo, Within B (L.code op)) →
      (match th.cur with
        | none => th.todo.length * (B + 2) ≤ w t - 1
        | some (_, k) => ∃ n, Within n k ∧ th.todo.length * (B + 2) + n + 1 ≤ w t - 1) →
      Budget L B ⟨m, o, Function.update c.threads t th, log, b⟩ (Function.update w t (w t - 1)) := by
    intro th m o log b h1 h2 u
    by_cases hu : u = t
    · subst hu; simp only [Function.update_self]; exact ⟨h1, h2⟩
    · simp only [Function.update_of_ne hu]; exact hB u
  obtain ⟨ht1, ht2⟩ := hB t
  unfold Config.step at h
  simp only at h
  split at h
  · cases h
  split at h
  · rename_i hcur
    rw [hcur] at ht2
    simp only at ht2
    split at h
    · cases h
    · rename_i op todo htodo
      rw [htodo] at ht1 ht2
      rw [List.length_cons, Nat.add_mul] at ht2
      have hgo : ∀ m o log b, Budget L B ⟨m, o, Function.update c.threads t
          ⟨todo, some (op, L.code op), (c.threads t).res⟩, log, b⟩ (Function.update w t (w t - 1)) := by
        intro m o log b
        refine hset _ _ _ _ _ (fun op' h => ht1 op' (by simp [h])) ?_
        exact ⟨B, ht1 op (by simp), by simp only; omega⟩
      refine ⟨by omega, Or.inr ?_⟩
      split at h
      · split at h
        · cases h
        · injection h with h
          subst h
          exact hgo _ _ _ _
      · injection h with h
        subst h
        exact hgo _ _ _ _
  all_goals
    rename_i hcur
    rw [hcur] at ht2
    obtain ⟨n, hn, hw⟩ := ht2
    refine ⟨by omega, ?_⟩
    injection h with h
    subst h
  · exact Or.inr (hset _ _ _ _ _ ht1 (by simp only; omega))
  · exact Or.inl (by simp)
  · refine Or.inr (hset _ _ _ _ _ ht1 ?_)
    cases hn with
    | read n _ _ hk => exact ⟨n, hk _, by simp only; omega⟩
  · refine Or.inr (hset _ _ _ _ _ ht1 ?_)
    cases hn with
    | write n _ _ _ hk => exact ⟨n, hk, by simp only; omega⟩
  · refine Or.inr (hset _ _ _ _ _ ht1 ?_)
    cases hn with
    | rmw n _ _ _ hk => exact ⟨n, hk _, by simp only; omega⟩

theorem Budget.exec {B : ℕ} {w : ι → ℕ} (hB : Budget L B c w) {ts : List ι} (h : c.exec L ts = some c') :
    ts.length ≤ ∑ t, w t := by
  induction ts generalizing c w with
  | nil => simp
  | cons t ts ih =>
    unfold Config.exec at h
    obtain ⟨c1, h1, h2⟩ := Option.bind_eq_some_iff.1 h
    obtain ⟨hpos, hnext⟩ := hB.step h1
    have hsum : ∑ u, Function.update w t (w t - 1) u + 1 = ∑ u, w u := by
      rw [← Finset.add_sum_erase _ _ (Finset.mem_univ t), ← Finset.add_sum_erase _ w (Finset.mem_univ t),
        Function.update_self]
      rw [Finset.sum_congr rfl fun u hu => Function.update_of_ne (Finset.ne_of_mem_erase hu) _ _]
      omega
    rw [List.length_cons, ← hsum]
    rcases hnext with hb | hnext
    · -- nothing runs after undefined behaviour
      rcases ts with _ | ⟨u, ts⟩
      · simp
      · unfold Config.exec at h2
        obtain ⟨c2, h3, -⟩ := Option.bind_eq_some_iff.1 h2
        unfold Config.step at h3
        rcases hb' : c1.bad with _ | x
        · exact absurd hb' hb
        · simp only [hb'] at h3; cases h3
    · have := ih hnext h2
      omega

/-- Calls of at most `B` accesses: no schedule is longer than this. -/
theorem exec_length {B : ℕ} {m0 : Mem Loc Val} {prog : ι → List Op} (hB : ∀ t, ∀ op ∈ prog t, Within B (L.code op))
    {ts : List ι} (h : (Config.init m0 prog).exec L ts = some c) :
    ts.length ≤ ∑ t, (prog t).length * (B + 2) :=
  Budget.exec (w := fun t => (prog t).length * (B + 2)) (fun t => ⟨hB t, le_rfl⟩) h

end KML.Conc
