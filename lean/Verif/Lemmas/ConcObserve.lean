import Verif.Lemmas.ConcContainers

/-! # What calls without the lock can see -/

set_option linter.unusedSectionVars false

namespace KML.Conc

variable {ι Op Loc : Type} [DecidableEq ι] [DecidableEq Loc] {Val : Loc → Type} {ρ : Type}

/-- The possible steps of thread `t`. -/
inductive Stepped (L : Lib Op Loc Val ρ) (c : Config ι Op Loc Val ρ) (t : ι) : Config ι Op Loc Val ρ → Prop
  | enter (op : Op) (todo : List Op) (h1 : (c.threads t).cur = none) (h2 : (c.threads t).todo = op :: todo)
      (h3 : L.locked op = false) : Stepped L c t { c with
        threads := Function.update c.threads t ⟨todo, some (op, L.code op), (c.threads t).res⟩
        log := c.log ++ [(t, op)] }
  | lock (op : Op) (todo : List Op) (h1 : (c.threads t).cur = none) (h2 : (c.threads t).todo = op :: todo)
      (h3 : L.locked op = true) (h4 : c.owner = none) : Stepped L c t { c with
        owner := some t
        threads := Function.update c.threads t ⟨todo, some (op, L.code op), (c.threads t).res⟩
        log := c.log ++ [(t, op)] }
  | ret (op : Op) (r : ρ) (h1 : (c.threads t).cur = some (op, .ret r)) : Stepped L c t { c with
        owner := if L.locked op then none else c.owner
        threads := Function.update c.threads t ⟨(c.threads t).todo, none, (c.threads t).res ++ [(op, r)]⟩ }
  | ub (op : Op) (u : UB) (h1 : (c.threads t).cur = some (op, .ub u)) : Stepped L c t { c with bad := some u }
  | read (op : Op) (l : Loc) (k : Val l → Code Loc Val ρ) (h1 : (c.threads t).cur = some (op, .read l k)) :
      Stepped L c t { c with
        threads := Function.update c.threads t ⟨(c.threads t).todo, some (op, k (c.mem l)), (c.threads t).res⟩ }
  | write (op : Op) (l : Loc) (v : Val l) (k : Code Loc Val ρ) (h1 : (c.threads t).cur = some (op, .write l v k)) :
      Stepped L c t { c with
        mem := Function.update c.mem l v
        threads := Function.update c.threads t ⟨(c.threads t).todo, some (op, k), (c.threads t).res⟩ }
  | rmw (op : Op) (l : Loc) (f : Val l → Val l) (k : Val l → Code Loc Val ρ)
      (h1 : (c.threads t).cur = some (op, .rmw l f k)) : Stepped L c t { c with
        mem := Function.update c.mem l (f (c.mem l))
        threads := Function.update c.threads t ⟨(c.threads t).todo, some (op, k (c.mem l)), (c.threads t).res⟩ }

variable {L : Lib Op Loc Val ρ} {m0 : Mem Loc Val} {prog : ι → List Op} {c c' : Config ι Op Loc Val ρ}

theorem stepped {t : ι} (h : c.step L t = some c') : c.bad = none ∧ Stepped L c t c' := by
  unfold Config.step at h
  simp only at h
  split at h
  · cases h
  rename_i hbad
  refine ⟨hbad, ?_⟩
  split at h
  · rename_i hcur
    split at h
    · cases h
    · rename_i op todo htodo
      split at h
      · rename_i hop
        split at h
        · cases h
        · rename_i hown
          injection h with h
          subst h
          exact .lock op todo hcur htodo hop hown
      · rename_i hop
        injection h with h
        subst h
        exact .enter op todo hcur htodo (by simpa using hop)
  · rename_i op r hcur
    injection h with h
    subst h
    exact .ret op r hcur
  · rename_i op u hcur
    injection h with h
    subst h
    exact .ub op u hcur
  · rename_i op l k hcur
    injection h with h
    subst h
    exact .read op l k hcur
  · rename_i op l v k hcur
    injection h with h
    subst h
    exact .write op l v k hcur
  · rename_i op l f k hcur
    injection h with h
    subst h
    exact .rmw op l f k hcur

/-- Code that does not write `l`. -/
inductive NoWrite (l : Loc) : Code Loc Val ρ → Prop
  | ret (r : ρ) : NoWrite l (.ret r)
  | ub (u : UB) : NoWrite l (.ub u)
  | read (l' : Loc) (k : Val l' → Code Loc Val ρ) (h : ∀ v, NoWrite l (k v)) : NoWrite l (.read l' k)
  | write (l' : Loc) (v : Val l') (k : Code Loc Val ρ) (hl : l' ≠ l) (h : NoWrite l k) : NoWrite l (.write l' v k)
  | rmw (l' : Loc) (f : Val l' → Val l') (k : Val l' → Code Loc Val ρ) (hl : l' ≠ l) (h : ∀ v, NoWrite l (k v)) :
      NoWrite l (.rmw l' f k)

/-- Code that writes `l` at most once. -/
inductive Once (l : Loc) : Code Loc Val ρ → Prop
  | ret (r : ρ) : Once l (.ret r)
  | ub (u : UB) : Once l (.ub u)
  | read (l' : Loc) (k : Val l' → Code Loc Val ρ) (h : ∀ v, Once l (k v)) : Once l (.read l' k)
  | write (l' : Loc) (v : Val l') (k : Code Loc Val ρ) (hl : l' ≠ l) (h : Once l k) : Once l (.write l' v k)
  | rmw (l' : Loc) (f : Val l' → Val l') (k : Val l' → Code Loc Val ρ) (hl : l' ≠ l) (h : ∀ v, Once l (k v)) :
      Once l (.rmw l' f k)
  | now (v : Val l) (k : Code Loc Val ρ) (h : NoWrite l k) : Once l (.write l v k)

theorem NoWrite.once {l : Loc} {k : Code Loc Val ρ} (h : NoWrite l k) : Once l k := by
  induction h with
  | ret r => exact .ret r
  | ub u => exact .ub u
  | read l' k _ ih => exact .read l' k ih
  | write l' v k hl _ ih => exact .write l' v k hl ih
  | rmw l' f k hl _ ih => exact .rmw l' f k hl ih

theorem exec_append (c : Config ι Op Loc Val ρ) (xs ys : List ι) :
    c.exec L (xs ++ ys) = (c.exec L xs).bind fun d => d.exec L ys := by
  induction xs generalizing c with
  | nil => rfl
  | cons x xs ih =>
    simp only [List.cons_append, Config.exec, Option.bind_assoc]
    congr 1
    funext d
    exact ih d

theorem exec_bad {u : UB} (hb : c.bad = some u) {ts : List ι} (h : c.exec L ts = some c') : c' = c := by
  cases ts with
  | nil => unfold Config.exec at h; injection h with h; exact h.symm
  | cons t ts =>
    unfold Config.exec at h
    obtain ⟨d, h1, -⟩ := Option.bind_eq_some_iff.1 h
    have := (stepped h1).1
    rw [hb] at this; cases this

/-- `d` is a moment of the execution `ts` starting at `c` at which no call holds the lock. -/
def Config.Rest (L : Lib Op Loc Val ρ) (c : Config ι Op Loc Val ρ) (ts : List ι) (d : Config ι Op Loc Val ρ) : Prop :=
  ∃ s₁ s₂, ts = s₁ ++ s₂ ∧ c.exec L s₁ = some d ∧ d.owner = none

theorem Config.Rest.cons {t : ι} {ts : List ι} {d : Config ι Op Loc Val ρ} (h1 : c.step L t = some c')
    (h2 : c'.Rest L ts d) : c.Rest L (t :: ts) d := by
  obtain ⟨s₁, s₂, h3, h4, h5⟩ := h2
  exact ⟨t :: s₁, s₂, by rw [h3]; rfl, by unfold Config.exec; rw [h1]; exact h4, h5⟩

theorem Config.Rest.here {ts : List ι} (h : c.owner = none) : c.Rest L ts c := ⟨[], ts, rfl, rfl, h⟩

/-- A call that does not hold the lock is made by a thread that does not hold it. -/
theorem Inv.not_owner (hI : Inv L m0 prog c) {t : ι} {op : Op} {k : Code Loc Val ρ}
    (hk : (c.threads t).cur = some (op, k)) (hop : L.locked op = false) : c.owner ≠ some t := by
  intro ho
  obtain ⟨op1, _, _, _, _, h0, h1, -⟩ := hI.busy t ho
  rw [hk] at h1
  injection h1 with h1
  injection h1 with h1 _
  subst h1
  rw [hop] at h0; cases h0

/-- What a step of another thread does to the lock holder and the memory: nothing. -/
theorem Inv.other (hI : Inv L m0 prog c) {t u : ι} (hu : c.owner = some u) (ht : t ≠ u)
    (h : c.step L t = some c') :
    c'.owner = some u ∧ c'.mem = c.mem ∧ c'.threads u = c.threads u := by
  obtain ⟨hb, h⟩ := stepped h
  have hun : ∀ op k, (c.threads t).cur = some (op, k) → L.locked op = false ∧ ReadOnly k := by
    intro op k hk
    rcases hop : L.locked op with _ | _
    · exact ⟨rfl, hI.reader t op k hk hop⟩
    · have := hI.holder t op k hk hop
      rw [hu] at this
      injection this with this
      exact absurd this.symm ht
  have hset : ∀ th, Function.update c.threads t th u = c.threads u := fun th =>
    Function.update_of_ne (Ne.symm ht) _ _
  cases h with
  | enter op todo h1 h2 h3 => exact ⟨hu, rfl, hset _⟩
  | lock op todo h1 h2 h3 h4 => rw [hu] at h4; cases h4
  | ret op r h1 =>
    refine ⟨?_, rfl, hset _⟩
    simp only [(hun _ _ h1).1]
    exact hu
  | ub op v h1 => exact absurd (hun _ _ h1).2 (by intro h; cases h)
  | read op l k h1 => exact ⟨hu, rfl, hset _⟩
  | write op l v k h1 => exact absurd (hun _ _ h1).2 (by intro h; cases h)
  | rmw op l f k h1 => exact absurd (hun _ _ h1).2 (by intro h; cases h)

/-- If the call holding the lock no longer writes `l`, the value of `l` is still there when the lock is released. -/
theorem Inv.release (hL : Disciplined L prog) {l : Loc} {ts : List ι} {c1 : Config ι Op Loc Val ρ} :
    ∀ {c : Config ι Op Loc Val ρ}, Inv L m0 prog c → ∀ {u op k}, c.owner = some u →
      (c.threads u).cur = some (op, k) → NoWrite l k → c.exec L ts = some c1 → c1.owner = none →
      ∃ d, c.Rest L ts d ∧ d.mem l = c.mem l := by
  induction ts with
  | nil =>
    intro c _ u op k hu _ _ h h1
    unfold Config.exec at h
    injection h with h
    subst h
    rw [hu] at h1; cases h1
  | cons t ts ih =>
    intro c hI u op k hu hk hn h h1
    unfold Config.exec at h
    obtain ⟨c', h2, h3⟩ := Option.bind_eq_some_iff.1 h
    have hI' := hI.step hL h2
    by_cases ht : t = u
    · subst ht
      obtain ⟨hb, hs⟩ := stepped h2
      have hlk : L.locked op = true := by
        obtain ⟨op1, _, _, _, _, h0, e1, -⟩ := hI.busy t hu
        rw [hk] at e1
        injection e1 with e1
        injection e1 with e1 _
        rw [e1]; exact h0
      -- go on with the rest `k'` of the call
      have go : ∀ (k' : Code Loc Val ρ), NoWrite l k' → c'.owner = some t → (c'.threads t).cur = some (op, k') →
          c'.mem l = c.mem l → ∃ d, c.Rest L (t :: ts) d ∧ d.mem l = c.mem l := by
        intro k' g1 g2 g3 g4
        obtain ⟨d, e1, e2⟩ := ih hI' g2 g3 g1 h3 h1
        exact ⟨d, e1.cons h2, e2.trans g4⟩
      cases hs with
      | enter op' todo g1 => rw [hk] at g1; cases g1
      | lock op' todo g1 => rw [hk] at g1; cases g1
      | ret op' r g1 =>
        rw [hk] at g1
        injection g1 with g1
        injection g1 with g1 g2
        subst g1
        refine ⟨_, (Config.Rest.here ?_).cons h2, rfl⟩
        simp [hlk]
      | ub op' v g1 =>
        have := exec_bad (u := v) (by rfl) h3
        rw [this] at h1
        simp only at h1
        rw [hu] at h1; cases h1
      | read op' l' k' g1 =>
        rw [hk] at g1
        injection g1 with g1
        injection g1 with g1 g2
        subst g1
        subst g2
        cases hn with
        | read _ _ hn => exact go (k' (c.mem l')) (hn _) hu (by simp) rfl
      | write op' l' v k' g1 =>
        rw [hk] at g1
        injection g1 with g1
        injection g1 with g1 g2
        subst g1
        subst g2
        cases hn with
        | write _ _ _ hl hn => exact go _ hn hu (by simp) (Function.update_of_ne (Ne.symm hl) _ _)
      | rmw op' l' f k' g1 =>
        rw [hk] at g1
        injection g1 with g1
        injection g1 with g1 g2
        subst g1
        subst g2
        cases hn with
        | rmw _ _ _ hl hn => exact go (k' (c.mem l')) (hn _) hu (by simp) (Function.update_of_ne (Ne.symm hl) _ _)
    · obtain ⟨g1, g2, g3⟩ := hI.other hu ht h2
      obtain ⟨d, e1, e2⟩ := ih hI' g1 (by rw [g3]; exact hk) hn h3 h1
      exact ⟨d, e1.cons h2, by rw [e2, g2]⟩

/-- The value of `l` is one that satisfies `H`, unless the call holding the lock has written it and will not do so
again. -/
structure Fresh (l : Loc) (H : Val l → Prop) (c : Config ι Op Loc Val ρ) : Prop where
  idle : c.owner = none → H (c.mem l)
  busy : ∀ u, c.owner = some u → ∃ op k, (c.threads u).cur = some (op, k) ∧
    ((Once l k ∧ H (c.mem l)) ∨ NoWrite l k)

theorem Fresh.step (hI : Inv L m0 prog c) {l : Loc}
    (ho : ∀ t, ∀ op ∈ prog t, L.locked op = true → Once l (L.code op)) {H : Val l → Prop} (hF : Fresh l H c) {t : ι}
    (h : c.step L t = some c') (hH : c'.owner = none → H (c'.mem l)) : Fresh l H c' := by
  refine ⟨hH, ?_⟩
  intro u hu
  rcases hown : c.owner with _ | v
  · -- the lock has just been taken
    obtain ⟨hb, hs⟩ := stepped h
    have hun : ∀ op k, (c.threads t).cur = some (op, k) → ReadOnly k := by
      intro op k hk
      rcases hop : L.locked op with _ | _
      · exact hI.reader t op k hk hop
      · have := hI.holder t op k hk hop
        rw [hown] at this; cases this
    cases hs with
    | enter op todo h1 h2 h3 => simp only at hu; rw [hown] at hu; cases hu
    | lock op todo h1 h2 h3 h4 =>
      simp only at hu
      injection hu with hu
      subst hu
      refine ⟨op, L.code op, by simp, Or.inl ⟨ho t op ?_ h3, hF.idle hown⟩⟩
      rw [← hI.order t, h2]; simp
    | ret op r h1 => simp only at hu; rw [hown] at hu; simp at hu
    | ub op v h1 => simp only at hu; rw [hown] at hu; cases hu
    | read op l' k h1 => simp only at hu; rw [hown] at hu; cases hu
    | write op l' v k h1 => exact absurd (hun _ _ h1) (by intro h; cases h)
    | rmw op l' f k h1 => exact absurd (hun _ _ h1) (by intro h; cases h)
  · obtain ⟨op, k, hk, hc⟩ := hF.busy v hown
    by_cases ht : t = v
    · subst ht
      obtain ⟨hb, hs⟩ := stepped h
      have hlk : L.locked op = true := by
        obtain ⟨op1, _, _, _, _, h0, e1, -⟩ := hI.busy t hown
        rw [hk] at e1
        injection e1 with e1
        injection e1 with e1 _
        rw [e1]; exact h0
      cases hs with
      | enter op' todo g1 => rw [hk] at g1; cases g1
      | lock op' todo g1 => rw [hk] at g1; cases g1
      | ret op' r g1 =>
        rw [hk] at g1
        injection g1 with g1
        injection g1 with g1 g2
        subst g1
        simp [hlk] at hu
      | ub op' w g1 =>
        simp only at hu
        rw [hown] at hu
        injection hu with hu
        subst hu
        exact ⟨op, k, hk, hc⟩
      | read op' l' k' g1 =>
        rw [hk] at g1
        injection g1 with g1
        injection g1 with g1 g2
        subst g1
        subst g2
        simp only at hu
        rw [hown] at hu
        injection hu with hu
        subst hu
        refine ⟨op, k' (c.mem l'), by simp, ?_⟩
        rcases hc with ⟨h1, h2⟩ | h1
        · cases h1 with
          | read _ _ h1 => exact Or.inl ⟨h1 _, h2⟩
        · cases h1 with
          | read _ _ h1 => exact Or.inr (h1 _)
      | write op' l' w k' g1 =>
        rw [hk] at g1
        injection g1 with g1
        injection g1 with g1 g2
        subst g1
        subst g2
        simp only at hu
        rw [hown] at hu
        injection hu with hu
        subst hu
        refine ⟨op, k', by simp, ?_⟩
        rcases hc with ⟨h1, h2⟩ | h1
        · cases h1 with
          | write _ _ _ hl h1 =>
            refine Or.inl ⟨h1, ?_⟩
            simp only
            rw [Function.update_of_ne (Ne.symm hl)]
            exact h2
          | now _ _ h1 => exact Or.inr h1
        · cases h1 with
          | write _ _ _ hl h1 => exact Or.inr h1
      | rmw op' l' f k' g1 =>
        rw [hk] at g1
        injection g1 with g1
        injection g1 with g1 g2
        subst g1
        subst g2
        simp only at hu
        rw [hown] at hu
        injection hu with hu
        subst hu
        refine ⟨op, k' (c.mem l'), by simp, ?_⟩
        rcases hc with ⟨h1, h2⟩ | h1
        · cases h1 with
          | rmw _ _ _ hl h1 =>
            refine Or.inl ⟨h1 _, ?_⟩
            simp only
            rw [Function.update_of_ne (Ne.symm hl)]
            exact h2
        · cases h1 with
          | rmw _ _ _ hl h1 => exact Or.inr (h1 _)
    · obtain ⟨g1, g2, g3⟩ := hI.other hown ht h
      rw [g1] at hu
      injection hu with hu
      subst hu
      exact ⟨op, k, by rw [g3]; exact hk, by rw [g2]; exact hc⟩

/-- `r` is a possible result of `k` if every value it reads satisfies `H`. -/
inductive Sees (H : ∀ l, Val l → Prop) : Code Loc Val ρ → ρ → Prop
  | ret (r : ρ) : Sees H (.ret r) r
  | read (l : Loc) (k : Val l → Code Loc Val ρ) (v : Val l) (r : ρ) (hv : H l v) (h : Sees H (k v) r) :
      Sees H (.read l k) r

/-- Results are only added. -/
theorem step_res {t : ι} (h : c.step L t = some c') (u : ι) : ∃ rest, (c'.threads u).res = (c.threads u).res ++ rest := by
  obtain ⟨hb, hs⟩ := stepped h
  by_cases hu : u = t
  · subst hu
    cases hs with
    | ret op r h1 => exact ⟨[(op, r)], by simp⟩
    | _ => exact ⟨[], by simp⟩
  · cases hs with
    | ub => exact ⟨[], by simp⟩
    | _ => exact ⟨[], by simp [Function.update_of_ne hu]⟩

theorem exec_res {ts : List ι} (u : ι) :
    ∀ {c : Config ι Op Loc Val ρ}, c.exec L ts = some c' → ∃ rest, (c'.threads u).res = (c.threads u).res ++ rest := by
  induction ts with
  | nil => intro c h; unfold Config.exec at h; injection h with h; subst h; exact ⟨[], by simp⟩
  | cons t ts ih =>
    intro c h
    unfold Config.exec at h
    obtain ⟨d, h1, h2⟩ := Option.bind_eq_some_iff.1 h
    obtain ⟨r1, e1⟩ := step_res h1 u
    obtain ⟨r2, e2⟩ := ih h2
    exact ⟨r1 ++ r2, by rw [e2, e1, List.append_assoc]⟩

/-- A call without the lock only sees values that are in memory at moments of rest. -/
theorem Inv.sees (hL : Disciplined L prog) (H : ∀ l, Val l → Prop) (S : Loc → Prop)
    (ho : ∀ l, S l → ∀ t, ∀ op ∈ prog t, L.locked op = true → Once l (L.code op))
    {ts : List ι} {c1 : Config ι Op Loc Val ρ} (hend : c1.owner = none) (t : ι) (op : Op) (hop : L.locked op = false)
    (r : ρ) :
    ∀ {c : Config ι Op Loc Val ρ}, Inv L m0 prog c → (∀ l, S l → Fresh l (H l) c) → c.exec L ts = some c1 →
      (∀ d, c.Rest L ts d → ∀ l, S l → H l (d.mem l)) →
      ∀ {k}, (c.threads t).cur = some (op, k) →
      ∀ {rest}, (c1.threads t).res = (c.threads t).res ++ (op, r) :: rest →
      Sees (fun l v => S l → H l v) k r := by
  induction ts with
  | nil =>
    intro c hI hF h _ k hk rest hr
    unfold Config.exec at h
    injection h with h
    subst h
    exact absurd (congrArg List.length hr) (by simp)
  | cons u ts ih =>
    intro c hI hF h hR k hk rest hr
    have h' := h
    unfold Config.exec at h
    obtain ⟨c', h1, h2⟩ := Option.bind_eq_some_iff.1 h
    have hI' := hI.step hL h1
    have hR' : ∀ d, c'.Rest L ts d → ∀ l, S l → H l (d.mem l) := fun d hd => hR d (hd.cons h1)
    have hF' : ∀ l, S l → Fresh l (H l) c' := fun l hl =>
      (hF l hl).step hI (ho l hl) h1 fun hown => hR' c' (Config.Rest.here hown) l hl
    by_cases hu : u = t
    · subst hu
      obtain ⟨hb, hs⟩ := stepped h1
      have hro := hI.reader u op k hk hop
      cases hs with
      | enter op' todo g1 => rw [hk] at g1; cases g1
      | lock op' todo g1 => rw [hk] at g1; cases g1
      | ret op' r' g1 =>
        rw [hk] at g1
        injection g1 with g1
        injection g1 with g1 g2
        subst g1
        subst g2
        obtain ⟨r2, e2⟩ := exec_res u h2
        simp only [Function.update_self] at e2
        rw [hr] at e2
        simp only [List.append_assoc, List.singleton_append, List.append_cancel_left_eq, List.cons.injEq,
          Prod.mk.injEq, true_and] at e2
        rw [e2.1]
        exact .ret _
      | ub op' v g1 =>
        rw [hk] at g1
        injection g1 with g1
        injection g1 with g1 g2
        subst g2
        cases hro
      | read op' l k' g1 =>
        rw [hk] at g1
        injection g1 with g1
        injection g1 with g1 g2
        subst g1
        subst g2
        refine .read l k' (c.mem l) r ?_ (ih hI' hF' h2 hR' (k := k' (c.mem l)) (by simp) (rest := rest)
          (by simpa using hr))
        intro hl
        rcases hown : c.owner with _ | v
        · exact (hF l hl).idle hown
        · obtain ⟨op1, k1, e1, e2⟩ := (hF l hl).busy v hown
          rcases e2 with ⟨-, e2⟩ | e2
          · exact e2
          · obtain ⟨d, e3, e4⟩ := hI.release hL hown e1 e2 h' hend
            rw [← e4]
            exact hR d e3 l hl
      | write op' l v k' g1 =>
        rw [hk] at g1
        injection g1 with g1
        injection g1 with g1 g2
        subst g2
        cases hro
      | rmw op' l f k' g1 =>
        rw [hk] at g1
        injection g1 with g1
        injection g1 with g1 g2
        subst g2
        cases hro
    · have hth : c'.threads t = c.threads t := by
        obtain ⟨hb, hs⟩ := stepped h1
        cases hs <;> first | rfl | exact Function.update_of_ne (Ne.symm hu) _ _
      exact ih hI' hF' h2 hR' (by rw [hth]; exact hk) (rest := rest) (by rw [hth]; exact hr)

end KML.Conc
