import Verif.Model.ConcReset
import Verif.Lemmas.ConcObserve
import Verif.Props.ConcList

/-!
# C135: `LinkedList::reset` while other threads use the list
-/

namespace KML

open Conc

set_option linter.unusedSectionVars false

section

variable {ι : Type} [DecidableEq ι] {α : Type}

/-- The state reached by a schedule of calls among which there may be `reset`. -/
def ResetRun (W : ℕ) (dflt : α) (guard : Bool) (prog : ι → List (LList.ROp α)) (sched : List ι)
    (c : Config ι (LList.ROp α) LLoc (LVal α) (COut α)) : Prop :=
  (Config.init (LList.fresh dflt) prog).exec (LList.resetLib W dflt guard) sched = some c

/-- When all calls have finished the list is in order: what it shows can be shown, and `size()` is the number of items. -/
def InOrder (guard : Bool) : Prop :=
  ∀ (n W : ℕ) (dflt : ℕ) (prog : Fin n → List (LList.ROp ℕ)) (sched : List (Fin n))
    (c : Config (Fin n) (LList.ROp ℕ) LLoc (LVal ℕ) (COut ℕ)), ResetRun W dflt guard prog sched c → c.Finished →
    ∃ xs, (LList.view W c.mem).display = .ok xs ∧ (LList.view W c.mem).size = xs.length

/-- The full property, for the class. -/
def C135_full : Prop := InOrder false

/-- **C135** is violated: an `update` has found the list not empty when another thread resets it; the new node is hung to a
node that is no longer in the list, and the list is empty with `size()` 1. -/
theorem C135_violated : ¬ C135_full := by
  intro h
  have hrun : ((Config.init (LList.fresh 0) fun t : Fin 2 =>
      if t = 0 then [LList.ROp.call (.update 1), .reset] else [.call (.update 2)]).exec
      (LList.resetLib 10 (0 : ℕ) false) (List.replicate 14 0 ++ List.replicate 9 1 ++ List.replicate 9 0 ++
        List.replicate 11 1)).map (fun c =>
        ((LList.view 10 c.mem).display, (LList.view 10 c.mem).size,
          c.bad.isNone && (c.threads 0).cur.isNone && (c.threads 0).todo.isEmpty &&
          (c.threads 1).cur.isNone && (c.threads 1).todo.isEmpty)) =
      some (.ok [], 1, true) := by decide +kernel
  obtain ⟨c, h1, h2⟩ := Option.map_eq_some_iff.1 hrun
  simp only [Prod.mk.injEq, Bool.and_eq_true, List.isEmpty_iff, Option.isNone_iff_eq_none] at h2
  obtain ⟨e1, e2, ⟨⟨⟨e3, e4⟩, e5⟩, e6⟩, e7⟩ := h2
  obtain ⟨xs, h3, h4⟩ := h 2 10 0 _ _ c h1 ⟨e3, Fin.forall_fin_two.2 ⟨⟨e4, e5⟩, e6, e7⟩⟩
  rw [e1] at h3
  injection h3 with h3
  rw [e2, ← h3] at h4
  cases h4

/-- **C135**: `reset` walks over the nodes while another thread deletes them. -/
theorem C135_use_after_free : ∃ (sched : List (Fin 2)) (c : Config (Fin 2) (LList.ROp ℕ) LLoc (LVal ℕ) (COut ℕ)),
    ResetRun 10 0 false
      (fun t => if t = 0 then [.call (.update 1), .call (.update 2), .reset] else [.call .pop, .call .pop]) sched c ∧
    c.bad = some .useAfterFree := by
  have hrun : ((Config.init (LList.fresh 0) fun t : Fin 2 =>
      if t = 0 then [LList.ROp.call (.update 1), .call (.update 2), .reset] else [.call .pop, .call .pop]).exec
      (LList.resetLib 10 (0 : ℕ) false) (List.replicate 39 0 ++ List.replicate 30 1 ++
        List.replicate 2 0)).map (fun c => c.bad) = some (some .useAfterFree) := by decide +kernel
  obtain ⟨c, h1, h2⟩ := Option.map_eq_some_iff.1 hrun
  exact ⟨_, c, h1, h2⟩

/-- **C135**: two threads that both find something in the list and then reset it: the second dereferences a null pointer. -/
theorem C135_two_resets : ∃ (sched : List (Fin 2)) (c : Config (Fin 2) (LList.ROp ℕ) LLoc (LVal ℕ) (COut ℕ)),
    ResetRun 10 0 false
      (fun t => if t = 0 then [.call (.update 1), .call .full, .reset] else [.call .full, .reset]) sched c ∧
    c.bad = some .nullDeref ∧ (c.threads 0).res = [(.call (.update 1), .unit), (.call .full, .bool true), (.reset, .unit)] ∧
    (c.threads 1).res = [(.call .full, .bool true)] := by
  have hrun : ((Config.init (LList.fresh 0) fun t : Fin 2 =>
      if t = 0 then [LList.ROp.call (.update 1), .call .full, .reset] else [.call .full, .reset]).exec
      (LList.resetLib 10 (0 : ℕ) false) (List.replicate 14 0 ++ List.replicate 3 1 ++ List.replicate 12 0 ++
        List.replicate 4 1)).map (fun c => (decide (c.bad = some .nullDeref) &&
        decide ((c.threads 0).res = [(.call (.update 1), .unit), (.call .full, .bool true), (.reset, .unit)]) &&
        decide ((c.threads 1).res = [(.call .full, .bool true)]))) = some true := by decide +kernel
  obtain ⟨c, h1, h2⟩ := Option.map_eq_some_iff.1 hrun
  simp only [Bool.and_eq_true, decide_eq_true_eq, and_assoc] at h2
  exact ⟨_, c, h1, h2⟩

/-! ### With the mutex in every call -/

namespace Conc.LList

theorem sweep_code (W : ℕ) {m : Mem LLoc (LVal α)} (hm : Wf m) (rest : LList.LCode α (COut α)) :
    ∀ (fuel : ℕ) (p : Option ℕ), (sweepCode rest fuel p).run m = (do
      let _ ← LinkedList.sweep (view W m).heap fuel p
      rest.run m) := by
  intro fuel
  induction fuel with
  | zero =>
    intro p
    cases p with
    | none => rfl
    | some a => rfl
  | succ fuel ih =>
    intro p
    cases p with
    | none => rfl
    | some a =>
      unfold sweepCode LinkedList.sweep
      rw [run_deref, deref_view W hm]
      simp only
      by_cases ha : isAlive m a = true
      · simp only [if_pos ha, Res.ok_bind, Code.run]
        rw [run_deref]
        simp only [if_pos ha, Code.run]
        exact ih _
      · simp only [if_neg ha]
        rfl

theorem sweep_heap {h h' : Heap α} : ∀ {fuel : ℕ} {p : Option ℕ}, LinkedList.sweep h fuel p = .ok h' → h' = h := by
  intro fuel
  induction fuel with
  | zero =>
    intro p hp
    cases p with
    | none => injection hp with hp; exact hp.symm
    | some a => cases hp
  | succ fuel ih =>
    intro p hp
    cases p with
    | none => injection hp with hp; exact hp.symm
    | some a =>
      unfold LinkedList.sweep at hp
      obtain ⟨x, -, hp⟩ := Res.bind_eq_ok.1 hp
      exact ih hp

theorem reset_code (W : ℕ) (dflt : α) {m : Mem LLoc (LVal α)} (hm : Wf m) :
    through (view W) ((resetCode : LList.LCode α (COut α)).run m) = (view W m).step dflt .reset ∧
      ∀ r m', (resetCode : LList.LCode α (COut α)).run m = .ok (r, m') → Wf m' := by
  have hself : Function.update m .brk (m .brk) = m := Function.update_eq_self _ _
  unfold resetCode
  simp only [Code.run]
  have hb : Function.update m LLoc.brk ((fun (n : ℕ) => (n : ℕ)) (m .brk)) = m := hself
  rw [hb, run_deref]
  unfold LinkedList.step LinkedList.reset
  rw [deref_view W hm]
  have hhead : (view W m).head = m .head := rfl
  rw [hhead]
  rcases hh : m .head with _ | a
  · exact ⟨rfl, fun r m' h => by cases h⟩
  · simp only
    by_cases ha : isAlive m a = true
    · simp only [if_pos ha, Res.ok_bind, Code.run]
      rw [sweep_code W hm, heap_length]
      rcases hs : LinkedList.sweep (view W m).heap (m .brk) (m (.next a)) with h' | t | u
      · have := sweep_heap hs
        subst this
        simp only [Res.ok_bind, Code.run, through]
        refine ⟨?_, ?_⟩
        · rw [view_tail, view_head, view_size]
        · intro r m' h
          injection h with h
          injection h with h1 h2
          subst h2
          exact ((hm.set _ (by simp) (by simp)).set _ (by simp) (by simp)).set _ (by simp) (by simp)
      · exact ⟨rfl, fun r m' h => by cases h⟩
      · exact ⟨rfl, fun r m' h => by cases h⟩
    · simp only [if_neg ha]
      exact ⟨rfl, fun r m' h => by cases h⟩

theorem rop_seq (W : ℕ) (dflt : α) (guard : Bool) (op : ROp α) {m : Mem LLoc (LVal α)} (hm : Wf m) :
    through (view W) (((resetLib W dflt guard).code op).run m) = (view W m).step dflt op.toCOp ∧
      ∀ r m', ((resetLib W dflt guard).code op).run m = .ok (r, m') → Wf m' := by
  cases op with
  | call op => exact code_seq W dflt guard op hm
  | reset => exact reset_code W dflt hm

end Conc.LList

theorem reset_inv {W : ℕ} {dflt : α} {prog : ι → List (LList.ROp α)} {sched : List ι}
    {c : Config ι (LList.ROp α) LLoc (LVal α) (COut α)} (h : ResetRun W dflt true prog sched c) :
    Inv (LList.resetLib W dflt true) (LList.fresh dflt) prog c :=
  (Inv.init _ _ _).exec (fun _ op _ => Or.inl (by cases op <;> rfl)) h

theorem reset_locked (W : ℕ) (dflt : α) (op : LList.ROp α) : (LList.resetLib W dflt true).locked op = true := by
  cases op <;> rfl

theorem reset_calls (W : ℕ) (dflt : α) (log : List (ι × LList.ROp α)) :
    (LList.resetLib W dflt true).lockedCalls log = log := List.filter_eq_self.2 fun _ _ => reset_locked W dflt _

theorem reset_serial (W : ℕ) (dflt : α) (log : List (ι × LList.ROp α)) :
    (do
      let (rs, m') ← serial (LList.resetLib W dflt true) (LList.fresh dflt) log
      .ok (rs.map (fun p => p.2.2), LList.view W m')) =
      runCalls (LinkedList.step dflt) (LinkedList.new W) (log.map fun p => p.2.toCOp) ∧
    ∀ rs m', serial (LList.resetLib W dflt true) (LList.fresh dflt) log = .ok (rs, m') →
      rs.map (fun p => (p.1, p.2.1)) = log := by
  obtain ⟨h1, h2⟩ := serial_through (LList.resetLib W dflt true) (LList.view W)
    (fun l (op : LList.ROp α) => LinkedList.step dflt l op.toCOp) log LList.Wf
    (fun p _ m hm => LList.rop_seq W dflt true p.2 hm) (LList.fresh dflt) (LList.wf_fresh dflt)
  refine ⟨?_, fun rs m' e => (h2 rs m' e).2⟩
  rw [h1, LList.view_fresh]
  have hmap : (log.map fun p => p.2.toCOp) = (log.map Prod.snd).map LList.ROp.toCOp := by rw [List.map_map]; rfl
  rw [hmap]
  generalize log.map Prod.snd = ops
  generalize LinkedList.new W = l
  induction ops generalizing l with
  | nil => rfl
  | cons o os ih =>
    simp only [List.map_cons, runCalls]
    rcases LinkedList.step dflt l o.toCOp with ⟨r, l'⟩ | u | u
    · simp only [Res.ok_bind, ih]
    · rfl
    · rfl

/-- **C135**, with the mutex that `reset` takes held by every other call too: there is no race; a run is undefined only if,
in the order in which the calls got the mutex, a `reset` comes when the list is empty (C09); and a finished run amounts to
the calls made one at a time in that order on a bounded queue: same results, same items. Missing from C135: the other calls
do not take the mutex (`C135_violated`). -/
theorem C135_guarded_partial (W : ℕ) (dflt : α) (prog : ι → List (LList.ROp α)) (sched : List ι)
    (c : Config ι (LList.ROp α) LLoc (LVal α) (COut α)) (h : ResetRun W dflt true prog sched c) :
    ¬ c.Race ∧
    (∀ u, c.bad = some u → u = .nullDeref ∧ ¬ noEmptyReset (listCap W) [] (c.log.map fun p => p.2.toCOp)) ∧
    (c.Finished → (∀ t, mine t c.log = prog t) ∧
      noEmptyReset (listCap W) [] (c.log.map fun p => p.2.toCOp) ∧
      (LList.view W c.mem).display = .ok (queueAfter (listCap W) [] (c.log.map fun p => p.2.toCOp)) ∧
      (LList.view W c.mem).size = (queueAfter (listCap W) [] (c.log.map fun p => p.2.toCOp)).length ∧
      ∃ history : List (ι × LList.ROp α × COut α), history.map (fun p => (p.1, p.2.1)) = c.log ∧
        history.map (fun p => p.2.2) = listOutputs dflt W [] (c.log.map fun p => p.2.toCOp) ∧
        ∀ t, (c.threads t).res = mine t history) := by
  obtain ⟨r1, r2⟩ := LinkedList.Rep.run dflt (c.log.map fun p => p.2.toCOp) (LinkedList.rep_new (W := W) (α := α))
  obtain ⟨h4, h5⟩ := reset_serial W dflt c.log
  refine ⟨(reset_inv h).no_race fun _ op _ _ => reset_locked W dflt op, fun u hu => ?_, fun hf => ?_⟩
  · have h1 := (reset_inv h).undefined hu
    rw [reset_calls] at h1
    rw [h1] at h4
    by_cases hn : noEmptyReset (listCap W) [] (c.log.map fun p => p.2.toCOp)
    · obtain ⟨l', e, -⟩ := r1 hn
      rw [e] at h4
      cases h4
    · rw [r2 hn] at h4
      injection h4 with h4
      exact ⟨h4, hn⟩
  · obtain ⟨rs, h1, h2, h3⟩ := (reset_inv h).finished hf
    rw [reset_calls] at h1
    rw [h1] at h4
    by_cases hn : noEmptyReset (listCap W) [] (c.log.map fun p => p.2.toCOp)
    · obtain ⟨l', e, hrep⟩ := r1 hn
      rw [e] at h4
      injection h4 with h4
      obtain ⟨e1, e2⟩ := Prod.mk.inj h4
      rw [← e2] at hrep
      refine ⟨h3, hn, hrep.display, hrep.size, rs, h5 rs _ h1, e1, fun t => ?_⟩
      rw [← h2 t]
      exact (List.filter_eq_self.2 fun _ _ => reset_locked W dflt _).symm
    · rw [r2 hn] at h4
      cases h4

/-- The run of `C135_violated` under the mutex: the `update` of thread 1 comes before or after the `reset`, not in between. -/
example : ((Config.init (LList.fresh 0) fun t : Fin 2 =>
      if t = 0 then [LList.ROp.call (.update 1), .reset] else [.call (.update 2)]).exec
      (LList.resetLib 10 (0 : ℕ) true) (List.replicate 14 0 ++ List.replicate 20 1 ++ List.replicate 13 0)).map
      (fun c => c.bad.isNone && (c.threads 0).cur.isNone && (c.threads 0).todo.isEmpty &&
          (c.threads 1).cur.isNone && (c.threads 1).todo.isEmpty) = some true := by decide +kernel

/-! ### What the mutex of the class as it is does achieve -/

theorem holder_step {Op Loc : Type} [DecidableEq Loc] {Val : Loc → Type} {ρ : Type} {L : Lib Op Loc Val ρ}
    {c c' : Config ι Op Loc Val ρ} {t : ι} (h : c.step L t = some c')
    (hc : ∀ t op k, (c.threads t).cur = some (op, k) → L.locked op = true → c.owner = some t) :
    ∀ t op k, (c'.threads t).cur = some (op, k) → L.locked op = true → c'.owner = some t := by
  -- the thread that steps stays in its call
  have stay : ∀ (todo : List Op) (op : Op) (k k1 : Code Loc Val ρ) (res : List (Op × ρ)),
      (c.threads t).cur = some (op, k1) →
      ∀ u o k', ((Function.update c.threads t ⟨todo, some (op, k), res⟩) u).cur = some (o, k') → L.locked o = true →
        c.owner = some u := by
    intro todo op k k1 res hk u o k' hu ho
    by_cases e : u = t
    · subst e
      rw [Function.update_self] at hu
      simp only [Option.some.injEq, Prod.mk.injEq] at hu
      rw [← hu.1] at ho
      exact hc u op k1 hk ho
    · rw [Function.update_of_ne e] at hu
      exact hc u o k' hu ho
  obtain ⟨-, hs⟩ := stepped h
  cases hs with
  | enter op todo h1 h2 h3 =>
    intro u o k' hu ho
    by_cases e : u = t
    · subst e
      simp only [Function.update_self, Option.some.injEq, Prod.mk.injEq] at hu
      rw [← hu.1, h3] at ho
      cases ho
    · simp only [Function.update_of_ne e] at hu
      exact hc u o k' hu ho
  | lock op todo h1 h2 h3 h4 =>
    intro u o k' hu ho
    by_cases e : u = t
    · rw [e]
    · simp only [Function.update_of_ne e] at hu
      have := hc u o k' hu ho
      rw [h4] at this
      cases this
  | ret op r h1 =>
    intro u o k' hu ho
    by_cases e : u = t
    · subst e
      simp at hu
    · simp only [Function.update_of_ne e] at hu
      have h2 := hc u o k' hu ho
      cases hop : L.locked op with
      | false => simpa using h2
      | true =>
        have h3 := hc t op _ h1 hop
        rw [h2] at h3
        exact absurd (Option.some.inj h3) e
  | ub => exact hc
  | read op l' k h1 => exact stay _ _ _ _ _ h1
  | write op l' v k h1 => exact stay _ _ _ _ _ h1
  | rmw op l' f k h1 => exact stay _ _ _ _ _ h1

/-- **C135**: of the class as it is, at most one thread at a time is inside `reset`. -/
theorem C135_one_reset (W : ℕ) (dflt : α) (guard : Bool) (prog : ι → List (LList.ROp α)) (sched : List ι)
    (c : Config ι (LList.ROp α) LLoc (LVal α) (COut α)) (h : ResetRun W dflt guard prog sched c)
    (t u : ι) (k k' : LList.LCode α (COut α)) (ht : (c.threads t).cur = some (.reset, k))
    (hu : (c.threads u).cur = some (.reset, k')) : t = u := by
  have key : ∀ (ts : List ι) (c0 : Config ι (LList.ROp α) LLoc (LVal α) (COut α)),
      (∀ t op k, (c0.threads t).cur = some (op, k) → (LList.resetLib W dflt guard).locked op = true →
        c0.owner = some t) →
      c0.exec (LList.resetLib W dflt guard) ts = some c →
      ∀ t op k, (c.threads t).cur = some (op, k) → (LList.resetLib W dflt guard).locked op = true →
        c.owner = some t := by
    intro ts
    induction ts with
    | nil =>
      intro c0 h0 e
      unfold Config.exec at e
      injection e with e
      subst e
      exact h0
    | cons u us ih =>
      intro c0 h0 e
      unfold Config.exec at e
      obtain ⟨c1, e1, e2⟩ := Option.bind_eq_some_iff.1 e
      exact ih c1 (holder_step e1 h0) e2
  have hI := key sched _ (by intro t op k hk; simp [Config.init] at hk) h
  exact Option.some.inj ((hI t _ _ ht rfl).symm.trans (hI u _ _ hu rfl))

/-- Thread 1 waits for the `reset` of thread 0, while a `pop` does not. -/
example : ((Config.init (LList.fresh 0) fun _ : Fin 2 => [LList.ROp.reset]).exec
      (LList.resetLib 10 (0 : ℕ) false) [0, 1]).isNone = true ∧
    ((Config.init (LList.fresh 0) fun t : Fin 2 => if t = 0 then [LList.ROp.reset] else [.call .pop]).exec
      (LList.resetLib 10 (0 : ℕ) false) [0, 1]).isSome = true := by decide +kernel

/-! ### The allocator -/

/-- Code that only accesses `l` atomically. -/
inductive AtomicAt {Loc : Type} {Val : Loc → Type} {ρ : Type} (l : Loc) : Code Loc Val ρ → Prop
  | ret (r : ρ) : AtomicAt l (.ret r)
  | ub (u : UB) : AtomicAt l (.ub u)
  | read (l' : Loc) (k : Val l' → Code Loc Val ρ) (hl : l' ≠ l) (h : ∀ v, AtomicAt l (k v)) : AtomicAt l (.read l' k)
  | write (l' : Loc) (v : Val l') (k : Code Loc Val ρ) (hl : l' ≠ l) (h : AtomicAt l k) : AtomicAt l (.write l' v k)
  | rmw (l' : Loc) (f : Val l' → Val l') (k : Val l' → Code Loc Val ρ) (h : ∀ v, AtomicAt l (k v)) :
      AtomicAt l (.rmw l' f k)

theorem AtomicAt.bind {Loc : Type} {Val : Loc → Type} {ρ : Type} {l : Loc} {k : Code Loc Val ρ}
    {f : ρ → Code Loc Val ρ} (h : AtomicAt l k) (hf : ∀ r, AtomicAt l (f r)) : AtomicAt l (k.bind f) := by
  induction h with
  | ret r => exact hf r
  | ub u => exact .ub u
  | read l' k hl _ ih => exact .read l' _ hl ih
  | write l' v k hl _ ih => exact .write l' v _ hl ih
  | rmw l' g k _ ih => exact .rmw l' g _ ih

theorem atomic_deref {ρ : Type} (p : Option ℕ) (k : ℕ → LList.LCode α ρ) (h : ∀ a, AtomicAt .brk (k a)) :
    AtomicAt .brk (LList.deref p k) := by
  cases p with
  | none => exact .ub _
  | some a =>
    refine .read _ _ (by simp) fun (b : Bool) => ?_
    cases b
    · exact .ub _
    · exact h a

theorem atomic_pop (dflt : α) : AtomicAt .brk (LList.popCode dflt) := by
  refine .read _ _ (by simp) fun (h : Option ℕ) => ?_
  split
  · exact .ret _
  refine .read _ _ (by simp) fun (h : Option ℕ) => atomic_deref _ _ fun a => .read _ _ (by simp) fun n => ?_
  refine .read _ _ (by simp) fun (h : Option ℕ) => atomic_deref _ _ fun a => .read _ _ (by simp) fun v => ?_
  refine .read _ _ (by simp) fun (h : Option ℕ) => ?_
  have hrest : AtomicAt .brk (Code.write .head n <| .read .size fun (s : ℕ) => .write .size (LinkedList.decr s) <|
      .ret (COut.val v) : LList.LCode α (COut α)) :=
    .write _ _ _ (by simp) (.read _ _ (by simp) fun s => .write _ _ _ (by simp) (.ret _))
  cases h with
  | none => exact hrest
  | some b => exact atomic_deref _ _ fun a => .write _ _ _ (by simp) hrest

theorem atomic_update (W : ℕ) (dflt x : α) : AtomicAt .brk (LList.updateCode W dflt x) := by
  have hrest : AtomicAt .brk (Code.read .size fun (s : ℕ) => .write .size (s + 1 : ℕ) <|
      .read .count fun (n : ℕ) => .write .count (n + 1 : ℕ) <| .ret COut.unit : LList.LCode α (COut α)) :=
    .read _ _ (by simp) fun s => .write _ _ _ (by simp) (.read _ _ (by simp) fun s => .write _ _ _ (by simp) (.ret _))
  refine .rmw _ _ _ fun node => .write _ _ _ (by simp) <| .write _ _ _ (by simp) <| .write _ _ _ (by simp) <|
    .write _ _ _ (by simp) <| .read _ _ (by simp) fun (h : Option ℕ) => ?_
  split
  · exact .write _ _ _ (by simp) <| .write _ _ _ (by simp) hrest
  · refine .read _ _ (by simp) fun t => atomic_deref _ _ fun a => .write _ _ _ (by simp) <|
      .read _ _ (by simp) fun t => atomic_deref _ _ fun a => .write _ _ _ (by simp) <| .write _ _ _ (by simp) <|
      .read _ _ (by simp) fun (s : ℕ) => ?_
    split
    · exact (atomic_pop dflt).bind fun _ => hrest
    · exact hrest

theorem atomic_sweep (rest : LList.LCode α (COut α)) (h : AtomicAt .brk rest) (fuel : ℕ) (p : Option ℕ) :
    AtomicAt .brk (LList.sweepCode rest fuel p) := by
  induction fuel generalizing p with
  | zero => cases p with
    | none => exact h
    | some a => exact .ub _
  | succ fuel ih => cases p with
    | none => exact h
    | some a =>
      exact atomic_deref _ _ fun a => .read _ _ (by simp) fun _ => atomic_deref _ _ fun a => .read _ _ (by simp) fun n => ih n

theorem atomic_code (W : ℕ) (dflt : α) (guard : Bool) (op : LList.ROp α) :
    AtomicAt .brk ((LList.resetLib W dflt guard).code op) := by
  cases op with
  | reset =>
    exact .rmw _ _ _ fun fuel => .read _ _ (by simp) fun h => atomic_deref _ _ fun a => .read _ _ (by simp) fun n =>
      atomic_sweep _ (.write _ _ _ (by simp) <| .write _ _ _ (by simp) <| .write _ _ _ (by simp) (.ret _)) _ _
  | call op => cases op with
    | update x => exact atomic_update W dflt x
    | pop => exact atomic_pop dflt
    | size => exact .read _ _ (by simp) fun _ => .ret _
    | empty => exact .read _ _ (by simp) fun _ => .ret _
    | full => exact .read _ _ (by simp) fun _ => .ret _

theorem AtomicAt.step {Op Loc : Type} [DecidableEq Loc] {Val : Loc → Type} {ρ : Type} {L : Lib Op Loc Val ρ} {l : Loc}
    (hL : ∀ op, AtomicAt l (L.code op)) {c c' : Config ι Op Loc Val ρ} {t : ι} (h : c.step L t = some c')
    (hc : ∀ t op k, (c.threads t).cur = some (op, k) → AtomicAt l k) :
    ∀ t op k, (c'.threads t).cur = some (op, k) → AtomicAt l k := by
  -- the thread that steps goes on with code that has the property
  have go : ∀ (todo : List Op) (op : Op) (k : Code Loc Val ρ) (res : List (Op × ρ)), AtomicAt l k →
      ∀ u o k', ((Function.update c.threads t ⟨todo, some (op, k), res⟩) u).cur = some (o, k') → AtomicAt l k' := by
    intro todo op k res hk u o k' hu
    by_cases e : u = t
    · subst e
      rw [Function.update_self] at hu
      simp only [Option.some.injEq, Prod.mk.injEq] at hu
      rw [← hu.2]
      exact hk
    · rw [Function.update_of_ne e] at hu
      exact hc u o k' hu
  obtain ⟨-, hs⟩ := stepped h
  cases hs with
  | enter op todo => exact go _ _ _ _ (hL op)
  | lock op todo => exact go _ _ _ _ (hL op)
  | ret op r h1 =>
    intro u o k' hu
    by_cases e : u = t
    · subst e
      simp at hu
    · simp only [Function.update_of_ne e] at hu
      exact hc u o k' hu
  | ub => exact hc
  | read op l' k h1 =>
    cases hc t _ _ h1 with
    | read _ _ _ hk => exact go _ _ _ _ (hk _)
  | write op l' v k h1 =>
    cases hc t _ _ h1 with
    | write _ _ _ _ hk => exact go _ _ _ _ hk
  | rmw op l' f k h1 =>
    cases hc t _ _ h1 with
    | rmw _ _ _ hk => exact go _ _ _ _ (hk _)

/-- **C135**, **C13**: whatever the threads do, with the mutex or without, nothing but the atomic access of the allocator
touches its state, so the races of the class are on its own fields and nodes. -/
theorem C135_allocator (W : ℕ) (dflt : α) (guard : Bool) (prog : ι → List (LList.ROp α)) (sched : List ι)
    (c : Config ι (LList.ROp α) LLoc (LVal α) (COut α)) (h : ResetRun W dflt guard prog sched c)
    (t : ι) (op : LList.ROp α) (k : LList.LCode α (COut α)) (hk : (c.threads t).cur = some (op, k)) (w a : Bool)
    (hw : k.access = some (.brk, w, a)) : a = true := by
  have key : ∀ (ts : List ι) (c0 : Config ι (LList.ROp α) LLoc (LVal α) (COut α)),
      (∀ t op k, (c0.threads t).cur = some (op, k) → AtomicAt .brk k) →
      c0.exec (LList.resetLib W dflt guard) ts = some c →
      ∀ t op k, (c.threads t).cur = some (op, k) → AtomicAt .brk k := by
    intro ts
    induction ts with
    | nil =>
      intro c0 h0 e
      unfold Config.exec at e
      injection e with e
      subst e
      exact h0
    | cons u us ih =>
      intro c0 h0 e
      unfold Config.exec at e
      obtain ⟨c1, e1, e2⟩ := Option.bind_eq_some_iff.1 e
      exact ih c1 (AtomicAt.step (atomic_code W dflt guard) e1 h0) e2
  have hat := key sched _ (by intro t op k hk; simp [Config.init] at hk) h t op k hk
  cases hat with
  | ret | ub => cases hw
  | read l' k hl => simp only [Code.access, Option.some.injEq, Prod.mk.injEq] at hw; exact absurd hw.1 hl
  | write l' v k hl => simp only [Code.access, Option.some.injEq, Prod.mk.injEq] at hw; exact absurd hw.1 hl
  | rmw l' f k => simp only [Code.access, Option.some.injEq, Prod.mk.injEq] at hw; exact hw.2.2.symm

/-- Two threads at once at the allocator. -/
example : ((Config.init (LList.fresh 0) fun _ : Fin 2 => [LList.ROp.call (.update 1)]).exec
    (LList.resetLib 10 (0 : ℕ) false) [0, 1]).map (fun c =>
      ((c.threads 0).cur.map fun p => p.2.access, (c.threads 1).cur.map fun p => p.2.access)) =
    some (some (some (.brk, true, true)), some (some (.brk, true, true))) := rfl

end

end KML
