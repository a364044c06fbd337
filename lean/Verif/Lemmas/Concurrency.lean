import Verif.Model.Concurrency

/-! # Serialisability of classes whose every method holds the lock -/

set_option linter.unusedSectionVars false

namespace KML.Conc

variable {ι Op Loc : Type} [DecidableEq ι] [DecidableEq Loc] {Val : Loc → Type} {ρ σ : Type}

theorem Code.run_bind (c : Code Loc Val ρ) (f : ρ → Code Loc Val σ) (m : Mem Loc Val) :
    (c.bind f).run m = c.run m >>= fun p => (f p.1).run p.2 := by
  induction c generalizing m with
  | ret r => rfl
  | ub u => rfl
  | read l k ih => exact ih _ _
  | write l v k ih => exact ih _
  | rmw l g k ih => exact ih _ _

theorem runCalls_append {σ ο ρ : Type} (step : σ → ο → Res (ρ × σ)) (s : σ) (xs ys : List ο) :
    runCalls step s (xs ++ ys) = (do
      let (rs, s') ← runCalls step s xs
      let (rs', s'') ← runCalls step s' ys
      .ok (rs ++ rs', s'')) := by
  induction xs generalizing s with
  | nil =>
    simp only [List.nil_append, runCalls, Res.ok_bind]
    rcases runCalls step s ys with ⟨rs, s'⟩ | m | u <;> rfl
  | cons x xs ih =>
    simp only [List.cons_append, runCalls]
    rcases step s x with ⟨r, s'⟩ | m | u
    · simp only [Res.ok_bind, ih]
      rcases runCalls step s' xs with ⟨rs, s''⟩ | m | u
      · simp only [Res.ok_bind]
        rcases runCalls step s'' ys with ⟨rs', s'''⟩ | m | u <;> rfl
      · rfl
      · rfl
    · rfl
    · rfl

/-- One more call. -/
theorem serial_snoc (L : Lib Op Loc Val ρ) (m : Mem Loc Val) (log : List (ι × Op)) (t : ι) (op : Op) :
    serial L m (log ++ [(t, op)]) = (do
      let (rs, m') ← serial L m log
      let (r, m'') ← (L.code op).run m'
      .ok (rs ++ [(t, op, r)], m'')) := by
  unfold serial
  rw [runCalls_append]
  rcases runCalls _ m log with ⟨rs, m'⟩ | u | u
  · simp only [Res.ok_bind, runCalls]
    rcases (L.code op).run m' with ⟨r, m''⟩ | u | u <;> rfl
  · rfl
  · rfl

theorem mine_snoc {β : Type} (t u : ι) (l : List (ι × β)) (b : β) :
    mine t (l ++ [(u, b)]) = if u = t then mine t l ++ [b] else mine t l := by
  unfold mine
  rw [List.filter_append, List.map_append]
  by_cases h : u = t <;> simp [h]

/-- Code that only reads, and is defined whatever it reads. -/
inductive ReadOnly : Code Loc Val ρ → Prop
  | ret (r : ρ) : ReadOnly (.ret r)
  | read (l : Loc) (k : Val l → Code Loc Val ρ) (h : ∀ v, ReadOnly (k v)) : ReadOnly (.read l k)

/-- Calls that do not hold the lock only read. -/
def Disciplined (L : Lib Op Loc Val ρ) (prog : ι → List Op) : Prop :=
  ∀ t, ∀ op ∈ prog t, L.locked op = true ∨ ReadOnly (L.code op)

/-- What holds at every moment of a disciplined program. -/
structure Inv (L : Lib Op Loc Val ρ) (m0 : Mem Loc Val) (prog : ι → List Op) (c : Config ι Op Loc Val ρ) : Prop where
  order : ∀ t, mine t c.log ++ (c.threads t).todo = prog t
  holder : ∀ t op k, (c.threads t).cur = some (op, k) → L.locked op = true → c.owner = some t
  reader : ∀ t op k, (c.threads t).cur = some (op, k) → L.locked op = false → ReadOnly k
  idle : c.owner = none → c.bad = none ∧ ∃ rs, serial L m0 (L.lockedCalls c.log) = .ok (rs, c.mem) ∧
    ∀ t, L.lockedResults (c.threads t).res = mine t rs
  busy : ∀ t, c.owner = some t → ∃ op k log rs m, L.locked op = true ∧ (c.threads t).cur = some (op, k) ∧
    L.lockedCalls c.log = log ++ [(t, op)] ∧ serial L m0 log = .ok (rs, m) ∧
    (∀ u, L.lockedResults (c.threads u).res = mine u rs) ∧ (L.code op).run m = k.run c.mem
  bad : ∀ u, c.bad = some u → ∃ t op, c.owner = some t ∧ (c.threads t).cur = some (op, .ub u)

theorem Inv.init (L : Lib Op Loc Val ρ) (m0 : Mem Loc Val) (prog : ι → List Op) :
    Inv L m0 prog (Config.init m0 prog) where
  order t := rfl
  holder t _ _ h := by cases h
  reader t _ _ h := by cases h
  idle _ := ⟨rfl, [], rfl, fun t => rfl⟩
  busy t h := by cases h
  bad u h := by cases h

variable {L : Lib Op Loc Val ρ} {m0 : Mem Loc Val} {prog : ι → List Op} {c c' : Config ι Op Loc Val ρ}

/-- The thread holding the lock performs one access that leaves the meaning of the rest of the call unchanged. -/
theorem Inv.access (hI : Inv L m0 prog c) {t : ι} {op : Op} {k k' : Code Loc Val ρ} {m : Mem Loc Val}
    (hb : c.bad = none) (hop : L.locked op = true) (hk : (c.threads t).cur = some (op, k))
    (hrun : k'.run m = k.run c.mem) :
    Inv L m0 prog { c with
      mem := m
      threads := Function.update c.threads t ⟨(c.threads t).todo, some (op, k'), (c.threads t).res⟩ } := by
  have hown := hI.holder t _ _ hk hop
  refine ⟨?_, ?_, ?_, ?_, ?_, ?_⟩
  · intro u
    simp only
    by_cases h : u = t
    · subst h; rw [Function.update_self]; exact hI.order u
    · rw [Function.update_of_ne h]; exact hI.order u
  · intro u op' x hx hop'
    simp only at hx ⊢
    by_cases h : u = t
    · subst h; exact hown
    · rw [Function.update_of_ne h] at hx; exact hI.holder u _ x hx hop'
  · intro u op' x hx hop'
    simp only at hx
    by_cases h : u = t
    · subst h
      rw [Function.update_self] at hx
      injection hx with hx
      injection hx with hx _
      subst hx
      rw [hop] at hop'; cases hop'
    · rw [Function.update_of_ne h] at hx; exact hI.reader u _ x hx hop'
  · intro h; simp only at h; rw [hown] at h; cases h
  · intro u hu
    simp only at hu ⊢
    rw [hown] at hu
    injection hu with hu
    subst hu
    obtain ⟨op1, k1, log, rs, m1, h0, h1, h2, h3, h4, h5⟩ := hI.busy t hown
    rw [hk] at h1
    injection h1 with h1
    injection h1 with h1' h1
    subst h1 h1'
    refine ⟨op, k', log, rs, m1, h0, by rw [Function.update_self], h2, h3, ?_, by rw [hrun, h5]⟩
    intro v
    by_cases h : v = t
    · subst h; rw [Function.update_self]; exact h4 v
    · rw [Function.update_of_ne h]; exact h4 v
  · intro u hu; simp only at hu; rw [hb] at hu; cases hu

/-- A thread not holding the lock changes only its own place in its call. -/
theorem Inv.local (hI : Inv L m0 prog c) {t : ι} {th : Thread Op Loc Val ρ} {log : List (ι × Op)}
    (hb : c.bad = none) (ho : c.owner ≠ some t)
    (hlog : L.lockedCalls log = L.lockedCalls c.log)
    (hord : mine t log ++ th.todo = prog t) (hother : ∀ u, u ≠ t → mine u log = mine u c.log)
    (hcur : ∀ op k, th.cur = some (op, k) → L.locked op = false ∧ ReadOnly k)
    (hres : L.lockedResults th.res = L.lockedResults (c.threads t).res) :
    Inv L m0 prog { c with
      threads := Function.update c.threads t th
      log := log } := by
  have hr : ∀ u, L.lockedResults (Function.update c.threads t th u).res = L.lockedResults (c.threads u).res := by
    intro u
    by_cases h : u = t
    · subst h; rw [Function.update_self]; exact hres
    · rw [Function.update_of_ne h]
  refine ⟨?_, ?_, ?_, ?_, ?_, ?_⟩
  · intro u
    simp only
    by_cases h : u = t
    · subst h; rw [Function.update_self]; exact hord
    · rw [Function.update_of_ne h, hother u h]; exact hI.order u
  · intro u op x hx hop
    simp only at hx ⊢
    by_cases h : u = t
    · subst h
      rw [Function.update_self] at hx
      rw [(hcur op x hx).1] at hop; cases hop
    · rw [Function.update_of_ne h] at hx; exact hI.holder u _ x hx hop
  · intro u op x hx hop
    simp only at hx
    by_cases h : u = t
    · subst h
      rw [Function.update_self] at hx
      exact (hcur op x hx).2
    · rw [Function.update_of_ne h] at hx; exact hI.reader u _ x hx hop
  · intro h
    obtain ⟨h1, rs, h2, h3⟩ := hI.idle h
    exact ⟨h1, rs, by simp only; rw [hlog]; exact h2, fun u => (hr u).trans (h3 u)⟩
  · intro u hu
    simp only at hu ⊢
    obtain ⟨op1, k1, log1, rs, m1, h0, h1, h2, h3, h4, h5⟩ := hI.busy u hu
    refine ⟨op1, k1, log1, rs, m1, h0, ?_, by rw [hlog]; exact h2, h3, fun v => (hr v).trans (h4 v), h5⟩
    rw [Function.update_of_ne]
    · exact h1
    · rintro rfl; exact ho hu
  · intro u hu; simp only at hu; rw [hb] at hu; cases hu

theorem Inv.step (hL : Disciplined L prog) (hI : Inv L m0 prog c) {t : ι}
    (h : c.step L t = some c') : Inv L m0 prog c' := by
  unfold Config.step at h
  simp only at h
  split at h
  · cases h
  rename_i hbad
  -- the lock holder is inside a locked call
  have hlocked : ∀ op k, (c.threads t).cur = some (op, k) → L.locked op = false → c.owner ≠ some t := by
    intro op k hk hop ho
    obtain ⟨op1, _, _, _, _, h0, h1, -⟩ := hI.busy t ho
    rw [hk] at h1
    injection h1 with h1
    injection h1 with h1 _
    subst h1
    rw [hop] at h0; cases h0
  split at h
  · rename_i hcur
    have ho : c.owner ≠ some t := by
      intro ho
      obtain ⟨op1, _, _, _, _, h0, h1, -⟩ := hI.busy t ho
      rw [hcur] at h1; cases h1
    split at h
    · cases h
    · rename_i op todo htodo
      have hmem : op ∈ prog t := by rw [← hI.order t, htodo]; simp
      split at h
      · rename_i hop
        split at h
        · cases h
        · rename_i hown
          injection h with h
          subst h
          obtain ⟨-, rs, hs, hr⟩ := hI.idle hown
          have hres : ∀ u, L.lockedResults (Function.update c.threads t
              ⟨todo, some (op, L.code op), (c.threads t).res⟩ u).res = mine u rs := by
            intro u
            by_cases hu : u = t
            · subst hu; rw [Function.update_self]; exact hr u
            · rw [Function.update_of_ne hu]; exact hr u
          refine ⟨?_, ?_, ?_, ?_, ?_, ?_⟩
          · intro u
            simp only
            rw [mine_snoc]
            by_cases hu : u = t
            · subst hu
              rw [Function.update_self, if_pos rfl, ← hI.order u, htodo]
              simp
            · rw [Function.update_of_ne hu, if_neg (Ne.symm hu)]; exact hI.order u
          · intro u op' x hx hop'
            simp only at hx ⊢
            by_cases hu : u = t
            · rw [hu]
            · rw [Function.update_of_ne hu] at hx
              have := hI.holder u _ x hx hop'
              rw [hown] at this; cases this
          · intro u op' x hx hop'
            simp only at hx
            by_cases hu : u = t
            · subst hu
              rw [Function.update_self] at hx
              injection hx with hx
              injection hx with hx _
              subst hx
              rw [hop] at hop'; cases hop'
            · rw [Function.update_of_ne hu] at hx; exact hI.reader u _ x hx hop'
          · intro h; cases h
          · intro u hu
            simp only at hu
            injection hu with hu
            subst hu
            refine ⟨op, _, L.lockedCalls c.log, rs, c.mem, hop, by simp, ?_, hs, hres, rfl⟩
            simp [Lib.lockedCalls, hop]
          · intro u hu; simp only at hu; rw [hbad] at hu; cases hu
      · rename_i hop
        have hop : L.locked op = false := by simpa using hop
        injection h with h
        subst h
        refine hI.local (t := t) hbad ho ?_ ?_ ?_ ?_ ?_
        · simp [Lib.lockedCalls, hop]
        · simp only; rw [mine_snoc, if_pos rfl, ← hI.order t, htodo]; simp
        · intro u hu; rw [mine_snoc, if_neg (Ne.symm hu)]
        · intro op' k hk
          simp only at hk
          injection hk with hk
          injection hk with h1 h2
          subst h1 h2
          refine ⟨hop, (hL t op hmem).resolve_left (by simp [hop])⟩
        · rfl
  · rename_i op r hcur
    rcases hop : L.locked op with _ | _
    · -- a reader returns
      injection h with h
      subst h
      simp only [hop, Bool.false_eq_true, if_false]
      refine hI.local (t := t) (log := c.log) hbad (hlocked op _ hcur hop) rfl ?_ (fun _ _ => rfl) ?_ ?_
      · exact hI.order t
      · intro _ _ hk; cases hk
      · simp [Lib.lockedResults, hop]
    have hown := hI.holder t _ _ hcur hop
    obtain ⟨op1, k, log, rs, m, h0, h1, h2, h3, h4, h5⟩ := hI.busy t hown
    rw [hcur] at h1
    injection h1 with h1
    injection h1 with hb h1
    subst h1 hb
    injection h with h
    subst h
    simp only [hop, if_true]
    have hser : serial L m0 (L.lockedCalls c.log) = .ok (rs ++ [(t, op, r)], c.mem) := by
      rw [h2, serial_snoc, h3]
      simp only [Res.ok_bind]
      rw [h5]
      rfl
    refine ⟨?_, ?_, ?_, ?_, ?_, ?_⟩
    · intro u
      simp only
      by_cases hu : u = t
      · subst hu; rw [Function.update_self]; exact hI.order u
      · rw [Function.update_of_ne hu]; exact hI.order u
    · intro u op' x hx hop'
      simp only at hx ⊢
      by_cases hu : u = t
      · subst hu; rw [Function.update_self] at hx; cases hx
      · rw [Function.update_of_ne hu] at hx
        have := hI.holder u _ x hx hop'
        rw [hown] at this
        injection this with this
        exact absurd this.symm hu
    · intro u op' x hx hop'
      simp only at hx
      by_cases hu : u = t
      · subst hu; rw [Function.update_self] at hx; cases hx
      · rw [Function.update_of_ne hu] at hx; exact hI.reader u _ x hx hop'
    · intro _
      refine ⟨hbad, _, hser, ?_⟩
      intro u
      rw [mine_snoc]
      simp only
      by_cases hu : u = t
      · subst hu
        rw [Function.update_self, if_pos rfl, ← h4 u]
        simp [Lib.lockedResults, hop]
      · rw [Function.update_of_ne hu, if_neg (Ne.symm hu)]; exact h4 u
    · intro u hu; cases hu
    · intro u hu; simp only at hu; rw [hbad] at hu; cases hu
  · rename_i op u hcur
    rcases hop : L.locked op with _ | _
    · cases hI.reader t _ _ hcur hop
    have hown := hI.holder t _ _ hcur hop
    injection h with h
    subst h
    refine ⟨hI.order, hI.holder, hI.reader, ?_, hI.busy, ?_⟩
    · intro h; simp only at h; rw [hown] at h; cases h
    · intro v hv
      simp only at hv ⊢
      injection hv with hv
      subst hv
      exact ⟨t, op, hown, hcur⟩
  · rename_i op l k hcur
    injection h with h
    subst h
    rcases hop : L.locked op with _ | _
    · refine hI.local (t := t) (log := c.log) hbad (hlocked op _ hcur hop) rfl (hI.order t) (fun _ _ => rfl) ?_ rfl
      intro op' k' hk
      simp only at hk
      injection hk with hk
      injection hk with h1 h2
      subst h1 h2
      refine ⟨hop, ?_⟩
      cases hI.reader t _ _ hcur hop with
      | read _ _ h => exact h _
    · exact hI.access hbad hop hcur rfl
  · rename_i op l v k hcur
    injection h with h
    subst h
    rcases hop : L.locked op with _ | _
    · cases hI.reader t _ _ hcur hop
    · exact hI.access hbad hop hcur rfl
  · rename_i op l f k hcur
    injection h with h
    subst h
    rcases hop : L.locked op with _ | _
    · cases hI.reader t _ _ hcur hop
    · exact hI.access hbad hop hcur rfl

theorem Inv.exec (hL : Disciplined L prog) (hI : Inv L m0 prog c) {ts : List ι}
    (h : c.exec L ts = some c') : Inv L m0 prog c' := by
  induction ts generalizing c with
  | nil => unfold Config.exec at h; injection h with h; subst h; exact hI
  | cons t ts ih =>
    unfold Config.exec at h
    obtain ⟨c1, h1, h2⟩ := Option.bind_eq_some_iff.1 h
    exact ih (hI.step hL h1) h2

/-- If every call takes the lock, no two threads are inside a call. -/
theorem Inv.no_race (hI : Inv L m0 prog c) (hall : ∀ t op k, (c.threads t).cur = some (op, k) → L.locked op = true) :
    ¬ c.Race := by
  rintro ⟨t, u, o₁, o₂, k₁, k₂, l, w₁, w₂, a₁, a₂, hne, h1, h2, -⟩
  have e1 := hI.holder t _ _ h1 (hall _ _ _ h1)
  rw [hI.holder u _ _ h2 (hall _ _ _ h2)] at e1
  injection e1 with e1
  exact hne e1.symm

/-- The memory of a finished run is that of the serial run of the locked calls, and so are their results. -/
theorem Inv.finished (hI : Inv L m0 prog c) (hf : c.Finished) :
    ∃ rs, serial L m0 (L.lockedCalls c.log) = .ok (rs, c.mem) ∧
      (∀ t, L.lockedResults (c.threads t).res = mine t rs) ∧ ∀ t, mine t c.log = prog t := by
  have hown : c.owner = none := by
    rcases h : c.owner with _ | t
    · rfl
    · obtain ⟨_, k, _, _, _, _, h1, -⟩ := hI.busy t h
      rw [(hf.2 t).1] at h1; cases h1
  obtain ⟨-, rs, h1, h2⟩ := hI.idle hown
  refine ⟨rs, h1, h2, fun t => ?_⟩
  have := hI.order t
  rw [(hf.2 t).2, List.append_nil] at this
  exact this

/-- An undefined run is a serial run that is undefined. -/
theorem Inv.undefined (hI : Inv L m0 prog c) {u : UB} (hu : c.bad = some u) :
    serial L m0 (L.lockedCalls c.log) = .ub u := by
  obtain ⟨t, op, h1, h2⟩ := hI.bad u hu
  obtain ⟨op', k, log, rs, m, h0, h3, h4, h5, -, h6⟩ := hI.busy t h1
  rw [h2] at h3
  injection h3 with h3
  injection h3 with h3' h3
  subst h3 h3'
  rw [h4, serial_snoc, h5]
  simp only [Res.ok_bind]
  rw [h6]
  rfl

/-- As long as some thread has work to do, some thread can go on. -/
theorem Inv.progress (hI : Inv L m0 prog c) (hb : c.bad = none) (hf : ¬ c.Finished) : ∃ t c', c.step L t = some c' := by
  have hin : ∀ t op k, (c.threads t).cur = some (op, k) → ∃ t c', c.step L t = some c' := by
    intro t op k h1
    refine ⟨t, ?_⟩
    unfold Config.step
    simp only [hb, h1]
    cases k <;> exact ⟨_, rfl⟩
  rcases hown : c.owner with _ | t
  · by_cases hcur : ∀ t, (c.threads t).cur = none
    · obtain ⟨t, ht⟩ : ∃ t, (c.threads t).todo ≠ [] := by
        by_contra h
        push Not at h
        exact hf ⟨hb, fun t => ⟨hcur t, h t⟩⟩
      rcases htodo : (c.threads t).todo with _ | ⟨op, todo⟩
      · exact absurd htodo ht
      · refine ⟨t, ?_⟩
        unfold Config.step
        simp only [hb, hcur t, htodo, hown]
        split <;> exact ⟨_, rfl⟩
    · push Not at hcur
      obtain ⟨t, ht⟩ := hcur
      rcases h : (c.threads t).cur with _ | ⟨op, k⟩
      · exact absurd h ht
      · exact hin t op k h
  · obtain ⟨op, k, _, _, _, _, h1, -⟩ := hI.busy t hown
    exact hin t op k h1

/-- A call that is not interrupted runs to its end as it would alone. -/
theorem solo (L : Lib Op Loc Val ρ) (k : Code Loc Val ρ) (c : Config ι Op Loc Val ρ) (t : ι) (op : Op)
    (hb : c.bad = none) (hk : (c.threads t).cur = some (op, k)) (r : ρ) (m : Mem Loc Val)
    (hrun : k.run c.mem = .ok (r, m)) :
    ∃ n, c.exec L (List.replicate n t) = some { c with
      mem := m
      owner := if L.locked op then none else c.owner
      threads := Function.update c.threads t ⟨(c.threads t).todo, none, (c.threads t).res ++ [(op, r)]⟩ } := by
  induction k generalizing c with
  | ret r' =>
    simp only [Code.run] at hrun
    injection hrun with hrun
    injection hrun with h1 h2
    subst h1 h2
    refine ⟨1, ?_⟩
    simp only [List.replicate_one, Config.exec, Config.step, hb, hk, Option.bind_some]
  | ub u => simp only [Code.run] at hrun; cases hrun
  | read l k ih =>
    obtain ⟨n, hn⟩ := ih (c.mem l) { c with
      threads := Function.update c.threads t ⟨(c.threads t).todo, some (op, k (c.mem l)), (c.threads t).res⟩ }
      hb (by simp) hrun
    refine ⟨n + 1, ?_⟩
    rw [List.replicate_succ, Config.exec]
    simp only [Config.step, hb, hk, Option.bind_some]
    rw [hb] at hn
    rw [hn]
    simp
  | write l v k ih =>
    obtain ⟨n, hn⟩ := ih { c with
      mem := Function.update c.mem l v
      threads := Function.update c.threads t ⟨(c.threads t).todo, some (op, k), (c.threads t).res⟩ }
      hb (by simp) hrun
    refine ⟨n + 1, ?_⟩
    rw [List.replicate_succ, Config.exec]
    simp only [Config.step, hb, hk, Option.bind_some]
    rw [hb] at hn
    rw [hn]
    simp
  | rmw l f k ih =>
    obtain ⟨n, hn⟩ := ih (c.mem l) { c with
      mem := Function.update c.mem l (f (c.mem l))
      threads := Function.update c.threads t ⟨(c.threads t).todo, some (op, k (c.mem l)), (c.threads t).res⟩ }
      hb (by simp) hrun
    refine ⟨n + 1, ?_⟩
    rw [List.replicate_succ, Config.exec]
    simp only [Config.step, hb, hk, Option.bind_some]
    rw [hb] at hn
    rw [hn]
    simp

/-! ### Calls that do not overlap -/

/-- At most one thread is inside a call. -/
def Config.OneAtATime (c : Config ι Op Loc Val ρ) : Prop :=
  ∀ t u, (c.threads t).cur ≠ none → (c.threads u).cur ≠ none → t = u

/-- Along the whole schedule at most one thread is inside a call. -/
def Config.NoOverlap (L : Lib Op Loc Val ρ) : Config ι Op Loc Val ρ → List ι → Prop
  | c, [] => c.OneAtATime
  | c, t :: ts => c.OneAtATime ∧ ∀ c', c.step L t = some c' → c'.NoOverlap L ts

/-- Same configuration, except that a thread inside a call holds the lock. -/
structure Shadow (c d : Config ι Op Loc Val ρ) : Prop where
  mem : d.mem = c.mem
  threads : d.threads = c.threads
  log : d.log = c.log
  bad : d.bad = c.bad
  owner : ∀ t, d.owner = some t ↔ (c.threads t).cur ≠ none

theorem Config.NoOverlap.one {L : Lib Op Loc Val ρ} {c : Config ι Op Loc Val ρ} {ts : List ι} (h : c.NoOverlap L ts) :
    c.OneAtATime := by
  cases ts with
  | nil => exact h
  | cons t ts => exact h.1

theorem Shadow.step {L M : Lib Op Loc Val ρ} (hL : ∀ op, L.locked op = false) (hM : ∀ op, M.locked op = true)
    (hc : M.code = L.code) {c d c' : Config ι Op Loc Val ρ} (h : Shadow c d) {t : ι} (hs : c.step L t = some c')
    (ho : c.OneAtATime) (ho' : c'.OneAtATime) : ∃ d', d.step M t = some d' ∧ Shadow c' d' := by
  obtain ⟨m, o, th, log, bad⟩ := d
  obtain ⟨m', o', th', log', bad'⟩ := c
  obtain ⟨e1, e2, e3, e4, how⟩ := h
  simp only at e1 e2 e3 e4 how
  subst e1 e2 e3 e4
  -- a step inside a call keeps the owner
  have hin : ∀ x : Op × Code Loc Val ρ, (th t).cur ≠ none → ∀ u, o = some u ↔
      (Function.update th t ⟨(th t).todo, some x, (th t).res⟩ u).cur ≠ none := by
    intro x hx u
    by_cases hu : u = t
    · subst hu; rw [Function.update_self]; simpa using (how u).2 hx
    · rw [Function.update_of_ne hu]; exact how u
  unfold Config.step at hs ⊢
  simp only at hs ⊢
  rcases bad with _ | u
  · rcases hcur : (th t).cur with _ | ⟨op, k⟩
    · rw [hcur] at hs
      rcases htodo : (th t).todo with _ | ⟨op, todo⟩
      · rw [htodo] at hs; cases hs
      · rw [htodo] at hs
        simp only [hL, Bool.false_eq_true, if_false] at hs
        injection hs with hs
        subst hs
        have hnone : o = none := by
          rcases o with _ | u
          · rfl
          · exfalso
            have h1 := (how u).1 rfl
            have hne : u ≠ t := by rintro rfl; exact h1 hcur
            exact hne (ho' u t (by simpa [Function.update_of_ne hne] using h1) (by simp))
        subst hnone
        simp only [hM, if_true]
        refine ⟨_, rfl, rfl, by rw [hc], rfl, rfl, fun u => ?_⟩
        by_cases hu : u = t
        · subst hu; simp
        · simp only
          rw [Function.update_of_ne hu, ← how u]
          simpa using Ne.symm hu
    · have hne : (th t).cur ≠ none := by rw [hcur]; simp
      rw [hcur] at hs
      cases k with
      | ret r =>
        simp only at hs ⊢
        injection hs with hs
        subst hs
        refine ⟨_, rfl, rfl, rfl, rfl, rfl, fun u => ?_⟩
        simp only [hM, if_true]
        by_cases hu : u = t
        · subst hu; simp
        · rw [Function.update_of_ne hu]
          simp only [reduceCtorEq, false_iff, not_not]
          by_contra h1
          exact hu (ho u t h1 hne)
      | ub u =>
        simp only at hs ⊢
        injection hs with hs
        subst hs
        exact ⟨_, rfl, rfl, rfl, rfl, rfl, how⟩
      | read l k =>
        simp only at hs ⊢
        injection hs with hs
        subst hs
        exact ⟨_, rfl, rfl, rfl, rfl, rfl, hin _ hne⟩
      | write l v k =>
        simp only at hs ⊢
        injection hs with hs
        subst hs
        exact ⟨_, rfl, rfl, rfl, rfl, rfl, hin _ hne⟩
      | rmw l f k =>
        simp only at hs ⊢
        injection hs with hs
        subst hs
        exact ⟨_, rfl, rfl, rfl, rfl, rfl, hin _ hne⟩
  · cases hs

/-- A run without locks whose calls do not overlap is a run with a lock around every call. -/
theorem Shadow.exec {L M : Lib Op Loc Val ρ} (hL : ∀ op, L.locked op = false) (hM : ∀ op, M.locked op = true)
    (hc : M.code = L.code) {c d c' : Config ι Op Loc Val ρ} (h : Shadow c d) {ts : List ι}
    (hs : c.exec L ts = some c') (hn : c.NoOverlap L ts) : ∃ d', d.exec M ts = some d' ∧ Shadow c' d' := by
  induction ts generalizing c d with
  | nil => unfold Config.exec at hs ⊢; injection hs with hs; subst hs; exact ⟨d, rfl, h⟩
  | cons t ts ih =>
    unfold Config.exec at hs ⊢
    obtain ⟨c1, h1, h2⟩ := Option.bind_eq_some_iff.1 hs
    obtain ⟨d1, h3, h4⟩ := h.step hL hM hc h1 hn.1 (hn.2 c1 h1).one
    rw [h3]
    exact ih h4 h2 (hn.2 c1 h1)

/-! ### Invariants of single locations -/

/-- Started in memory where every location `l` satisfies `P l`, and with other threads keeping that so, the code writes
only values satisfying `P` and, if it returns, returns a result satisfying `Q`. -/
inductive Safe (P : ∀ l, Val l → Prop) (Q : ρ → Prop) : Code Loc Val ρ → Prop
  | ub (u : UB) : Safe P Q (.ub u)
  | ret (r : ρ) (h : Q r) : Safe P Q (.ret r)
  | read (l : Loc) (k : Val l → Code Loc Val ρ) (h : ∀ v, P l v → Safe P Q (k v)) : Safe P Q (.read l k)
  | write (l : Loc) (v : Val l) (k : Code Loc Val ρ) (hv : P l v) (h : Safe P Q k) : Safe P Q (.write l v k)
  | rmw (l : Loc) (f : Val l → Val l) (k : Val l → Code Loc Val ρ) (hv : ∀ v, P l v → P l (f v))
      (h : ∀ v, P l v → Safe P Q (k v)) : Safe P Q (.rmw l f k)

/-- Every thread is at a safe place and has returned only good results, whoever holds the lock. -/
structure Guarded (L : Lib Op Loc Val ρ) (P : ∀ l, Val l → Prop) (Q : Op → ρ → Prop) (c : Config ι Op Loc Val ρ) :
    Prop where
  mem : ∀ l, P l (c.mem l)
  cur : ∀ t op k, (c.threads t).cur = some (op, k) → Safe P (Q op) k
  res : ∀ t, ∀ p ∈ (c.threads t).res, Q p.1 p.2
  todo : ∀ t, ∀ op ∈ (c.threads t).todo, Safe P (Q op) (L.code op)

variable {P : ∀ l, Val l → Prop} {Q : Op → ρ → Prop}

theorem Guarded.init (hm : ∀ l, P l (m0 l)) (hp : ∀ t, ∀ op ∈ prog t, Safe P (Q op) (L.code op)) :
    Guarded L P Q (Config.init m0 prog) where
  mem := hm
  cur t _ _ h := by cases h
  res t p h := by cases h
  todo := hp

theorem Guarded.set (hG : Guarded L P Q c) {t : ι} {th : Thread Op Loc Val ρ} {m : Mem Loc Val} {o : Option ι}
    {log : List (ι × Op)} (hm : ∀ l, P l (m l)) (hcur : ∀ op k, th.cur = some (op, k) → Safe P (Q op) k)
    (hres : ∀ p ∈ th.res, Q p.1 p.2) (htodo : ∀ op ∈ th.todo, Safe P (Q op) (L.code op)) :
    Guarded L P Q ⟨m, o, Function.update c.threads t th, log, c.bad⟩ := by
  refine ⟨hm, ?_, ?_, ?_⟩
  · intro u op k hk
    simp only at hk
    by_cases h : u = t
    · subst h; rw [Function.update_self] at hk; exact hcur op k hk
    · rw [Function.update_of_ne h] at hk; exact hG.cur u op k hk
  · intro u
    simp only
    by_cases h : u = t
    · subst h; rw [Function.update_self]; exact hres
    · rw [Function.update_of_ne h]; exact hG.res u
  · intro u
    simp only
    by_cases h : u = t
    · subst h; rw [Function.update_self]; exact htodo
    · rw [Function.update_of_ne h]; exact hG.todo u

theorem Guarded.step (hG : Guarded L P Q c) {t : ι} (h : c.step L t = some c') : Guarded L P Q c' := by
  unfold Config.step at h
  simp only at h
  have hupd : ∀ (l : Loc) (v : Val l), P l v → ∀ l', P l' (Function.update c.mem l v l') := by
    intro l v hv l'
    by_cases h : l' = l
    · subst h; rw [Function.update_self]; exact hv
    · rw [Function.update_of_ne h]; exact hG.mem l'
  split at h
  · cases h
  split at h
  · split at h
    · cases h
    · rename_i op todo htodo
      have hall := hG.todo t
      rw [htodo] at hall
      have hcur : ∀ op' k, (some (op, L.code op) : Option (Op × Code Loc Val ρ)) = some (op', k) → Safe P (Q op') k := by
        intro op' k hk
        injection hk with hk
        injection hk with h1 h2
        subst h1 h2
        exact hall op (by simp)
      split at h
      · split at h
        · cases h
        · injection h with h
          subst h
          exact hG.set hG.mem hcur (hG.res t) fun op' h => hall op' (by simp [h])
      · injection h with h
        subst h
        exact hG.set hG.mem hcur (hG.res t) fun op' h => hall op' (by simp [h])
  · rename_i op r hcur
    injection h with h
    subst h
    refine hG.set hG.mem (fun _ _ h => by cases h) ?_ (hG.todo t)
    intro p hp
    rcases List.mem_append.1 hp with hp | hp
    · exact hG.res t p hp
    · simp at hp
      subst hp
      cases hG.cur t op _ hcur with
      | ret _ h => exact h
  · rename_i op u hcur
    injection h with h
    subst h
    exact ⟨hG.mem, hG.cur, hG.res, hG.todo⟩
  · rename_i op l k hcur
    injection h with h
    subst h
    refine hG.set hG.mem ?_ (hG.res t) (hG.todo t)
    intro op' k' hk
    simp only at hk
    injection hk with hk
    injection hk with h1 h2
    subst h1 h2
    cases hG.cur t op _ hcur with
    | read _ _ h => exact h _ (hG.mem l)
  · rename_i op l v k hcur
    injection h with h
    subst h
    cases hG.cur t op _ hcur with
    | write _ _ _ hv h =>
      refine hG.set (hupd l v hv) ?_ (hG.res t) (hG.todo t)
      intro op' k' hk
      simp only at hk
      injection hk with hk
      injection hk with h1 h2
      subst h1 h2
      exact h
  · rename_i op l f k hcur
    injection h with h
    subst h
    cases hG.cur t op _ hcur with
    | rmw _ _ _ hv h =>
      refine hG.set (hupd l _ (hv _ (hG.mem l))) ?_ (hG.res t) (hG.todo t)
      intro op' k' hk
      simp only at hk
      injection hk with hk
      injection hk with h1 h2
      subst h1 h2
      exact h _ (hG.mem l)

theorem Guarded.exec (hG : Guarded L P Q c) {ts : List ι} (h : c.exec L ts = some c') : Guarded L P Q c' := by
  induction ts generalizing c with
  | nil => unfold Config.exec at h; injection h with h; subst h; exact hG
  | cons t ts ih =>
    unfold Config.exec at h
    obtain ⟨c1, h1, h2⟩ := Option.bind_eq_some_iff.1 h
    exact ih (hG.step h1) h2

end KML.Conc
