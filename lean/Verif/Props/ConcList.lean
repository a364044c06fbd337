import Verif.Lemmas.ConcContainers
import Verif.Lemmas.ConcTermination
import Verif.Props.LinkedList
import Mathlib.Algebra.BigOperators.Group.Finset.Piecewise

/-!
# C13: LinkedList under concurrency
-/

namespace KML

open Conc

set_option linter.unusedSectionVars false

section

variable {ι : Type} [DecidableEq ι] {α : Type}

/-- The state reached by a schedule; `guard` says whether every call takes the mutex (in the class: none does). -/
def ListRun (W : ℕ) (dflt : α) (guard : Bool) (prog : ι → List (LList.Op α)) (sched : List ι)
    (c : Config ι (LList.Op α) LLoc (LVal α) (COut α)) : Prop :=
  (Config.init (LList.fresh dflt) prog).exec (LList.lib W dflt guard) sched = some c

/-- What a concurrent run of calls should amount to: one history of the calls of all threads, in the order in which they
started, each thread seeing its part, with results and final list as in the sequential model. -/
def ListSerial (W : ℕ) (dflt : α) (prog : ι → List (LList.Op α))
    (c : Config ι (LList.Op α) LLoc (LVal α) (COut α)) : Prop :=
  (∀ t, mine t c.log = prog t) ∧
  ∃ history : List (ι × LList.Op α × COut α),
    history.map (fun p => (p.1, p.2.1)) = c.log ∧
    runCalls (LinkedList.step dflt) (LinkedList.new W) (history.map fun p => p.2.1.toCOp) =
      .ok (history.map fun p => p.2.2, LList.view W c.mem) ∧
    ∀ t, (c.threads t).res = mine t history

/-- No item is lost: if the items of all updates fit into the window, nothing undefined happens, and once all updates have
finished the list shows as many items as were given, the items of each thread among them in order, and `size()` is their
number. -/
def NoLoss (ι α : Type) [DecidableEq ι] [Fintype ι] (guard : Bool) : Prop :=
  ∀ (W : ℕ) (dflt : α) (items : ι → List α) (sched : List ι) (c : Config ι (LList.Op α) LLoc (LVal α) (COut α)),
    ∑ t, (items t).length ≤ W → ListRun W dflt guard (fun t => (items t).map .update) sched c →
    c.bad = none ∧ (c.Finished → ∃ xs, (LList.view W c.mem).display = .ok xs ∧
      xs.length = ∑ t, (items t).length ∧ (LList.view W c.mem).size = xs.length ∧ ∀ t, (items t).Sublist xs)

/-- The full property, for the class. -/
def C13_full : Prop := ∀ n, NoLoss (Fin n) ℕ false

/-- **C13** is violated: both threads find the list empty, and each makes its node the head. One item is lost, and
`size()` is 2 for a list of one node. -/
theorem C13_violated : ¬ C13_full := by
  intro h
  have hrun : ((Config.init (LList.fresh 0) fun t : Fin 2 => [LList.Op.update (if t = 0 then 1 else 2)]).exec
      (LList.lib 10 (0 : ℕ) false) (List.replicate 7 0 ++ List.replicate 14 1 ++ List.replicate 7 0)).map (fun c =>
        ((LList.view 10 c.mem).display, (LList.view 10 c.mem).size,
          c.bad.isNone && (c.threads 0).cur.isNone && (c.threads 0).todo.isEmpty &&
          (c.threads 1).cur.isNone && (c.threads 1).todo.isEmpty)) =
      some (.ok [1], 2, true) := by decide +kernel
  obtain ⟨c, h1, h2⟩ := Option.map_eq_some_iff.1 hrun
  simp only [Prod.mk.injEq, Bool.and_eq_true, List.isEmpty_iff, Option.isNone_iff_eq_none] at h2
  obtain ⟨e1, e2, ⟨⟨⟨e3, e4⟩, e5⟩, e6⟩, e7⟩ := h2
  obtain ⟨-, h3⟩ := h 2 10 0 (fun t => if t = 0 then [1] else [2]) _ c (by decide) (by
    have : (fun t : Fin 2 => [LList.Op.update (if t = 0 then 1 else 2)]) =
        fun t => (if t = 0 then [1] else [2] : List ℕ).map .update := by
      funext t; split <;> rfl
    rw [this] at h1
    exact h1)
  obtain ⟨xs, h4, h5, -⟩ := h3 ⟨e3, Fin.forall_fin_two.2 ⟨⟨e4, e5⟩, e6, e7⟩⟩
  rw [e1] at h4
  injection h4 with h4
  subst h4
  revert h5
  decide

/-- The cause is a data race between two updates. -/
theorem C13_race : ∃ (sched : List (Fin 2)) (c : Config (Fin 2) (LList.Op ℕ) LLoc (LVal ℕ) (COut ℕ)),
    ListRun 10 0 false (fun t => [LList.Op.update t.val]) sched c ∧ c.Race := by
  have hrun : ((Config.init (LList.fresh 0) fun t : Fin 2 => [LList.Op.update t.val]).exec
      (LList.lib 10 (0 : ℕ) false) (List.replicate 7 0 ++ List.replicate 7 1)).map (fun c =>
        ((c.threads 0).cur.bind fun p => p.2.access, (c.threads 1).cur.bind fun p => p.2.access)) =
      some (some (.head, true, false), some (.head, true, false)) := by decide +kernel
  obtain ⟨c, h1, h2⟩ := Option.map_eq_some_iff.1 hrun
  refine ⟨_, c, h1, ?_⟩
  injection h2 with h2 h3
  obtain ⟨⟨o1, k1⟩, e1, e2⟩ := Option.bind_eq_some_iff.1 h2
  obtain ⟨⟨o2, k2⟩, e3, e4⟩ := Option.bind_eq_some_iff.1 h3
  exact ⟨0, 1, o1, o2, k1, k2, .head, _, _, _, _, by decide, e1, e3, e2, e4, rfl, rfl⟩

/-- Beyond the window it is worse: two updates evict the same node, the second deleting it again. -/
theorem C13_double_delete : ∃ (sched : List (Fin 2)) (c : Config (Fin 2) (LList.Op ℕ) LLoc (LVal ℕ) (COut ℕ)),
    ListRun 1 0 false (fun t => if t = 0 then [.update 1, .update 2] else [.update 3]) sched c ∧
    c.bad = some .useAfterFree := by
  have hrun : ((Config.init (LList.fresh 0) fun t : Fin 2 =>
      if t = 0 then [LList.Op.update 1, .update 2] else [.update 3]).exec
      (LList.lib 1 (0 : ℕ) false) (List.replicate 37 0 ++ List.replicate 25 1 ++ List.replicate 2 0)).map (fun c =>
        c.bad) = some (some .useAfterFree) := by decide +kernel
  obtain ⟨c, h1, h2⟩ := Option.map_eq_some_iff.1 hrun
  exact ⟨_, c, h1, h2⟩

/-- And an `update` overlapping a `pop` can write through a pointer to a deleted node. -/
theorem C13_use_after_free : ∃ (sched : List (Fin 2)) (c : Config (Fin 2) (LList.Op ℕ) LLoc (LVal ℕ) (COut ℕ)),
    ListRun 10 0 false (fun t => if t = 0 then [.update 1, .update 2] else [.pop]) sched c ∧
    c.bad = some .useAfterFree := by
  have hrun : ((Config.init (LList.fresh 0) fun t : Fin 2 =>
      if t = 0 then [LList.Op.update 1, .update 2] else [.pop]).exec
      (LList.lib 10 (0 : ℕ) false) (List.replicate 22 0 ++ List.replicate 15 1 ++ List.replicate 2 0)).map (fun c =>
        c.bad) = some (some .useAfterFree) := by decide +kernel
  obtain ⟨c, h1, h2⟩ := Option.map_eq_some_iff.1 hrun
  exact ⟨_, c, h1, h2⟩

/-! ### With a lock -/

theorem list_inv {W : ℕ} {dflt : α} {prog : ι → List (LList.Op α)} {sched : List ι}
    {c : Config ι (LList.Op α) LLoc (LVal α) (COut α)} (h : ListRun W dflt true prog sched c) :
    Inv (LList.lib W dflt true) (LList.fresh dflt) prog c :=
  (Inv.init _ _ _).exec (fun _ _ _ => Or.inl rfl) h

theorem list_calls (W : ℕ) (dflt : α) (log : List (ι × LList.Op α)) :
    (LList.lib W dflt true).lockedCalls log = log := List.filter_eq_self.2 fun _ _ => rfl

theorem list_serial (W : ℕ) (dflt : α) (log : List (ι × LList.Op α)) :
    (do
      let (rs, m') ← serial (LList.lib W dflt true) (LList.fresh dflt) log
      .ok (rs.map (fun p => p.2.2), LList.view W m')) =
      runCalls (LinkedList.step dflt) (LinkedList.new W) (log.map fun p => p.2.toCOp) ∧
    ∀ rs m', serial (LList.lib W dflt true) (LList.fresh dflt) log = .ok (rs, m') →
      rs.map (fun p => (p.1, p.2.1)) = log := by
  obtain ⟨h1, h2⟩ := serial_through (LList.lib W dflt true) (LList.view W)
    (fun l (op : LList.Op α) => LinkedList.step dflt l op.toCOp) log LList.Wf
    (fun p _ m hm => LList.code_seq W dflt true p.2 hm) (LList.fresh dflt) (LList.wf_fresh dflt)
  refine ⟨?_, fun rs m' e => (h2 rs m' e).2⟩
  rw [h1, LList.view_fresh]
  have hmap : (log.map fun p => p.2.toCOp) = (log.map Prod.snd).map LList.Op.toCOp := by rw [List.map_map]; rfl
  rw [hmap]
  generalize log.map Prod.snd = ops
  generalize LinkedList.new W = l
  induction ops generalizing l with
  | nil => rfl
  | cons o os ih =>
    simp only [List.map_cons, runCalls]
    rcases LinkedList.step dflt l o.toCOp with ⟨r, l'⟩ | u | u
    · simp only [Res.ok_bind, ih]
    · rfl
    · rfl

/-- The calls of these histories are defined: there is no `reset` among them. -/
theorem noEmptyReset_ops (cap : Option ℕ) (ops : List (LList.Op α)) :
    ∀ q : List α, noEmptyReset cap q (ops.map LList.Op.toCOp) := by
  induction ops with
  | nil => intro q; trivial
  | cons o os ih => intro q; cases o <;> exact ih _

/-- **C13**, with a mutex held by every call: for every program, schedule and window, every finished run amounts to the
calls made one at a time. Missing from C13: the class does not take the mutex (`C13_violated`). -/
theorem C13_guarded_partial (W : ℕ) (dflt : α) (prog : ι → List (LList.Op α)) (sched : List ι)
    (c : Config ι (LList.Op α) LLoc (LVal α) (COut α)) (h : ListRun W dflt true prog sched c) :
    c.bad = none ∧ (c.Finished → ListSerial W dflt prog c) ∧ ¬ c.Race := by
  refine ⟨?_, ?_, (list_inv h).no_race fun _ _ _ _ => rfl⟩
  · rcases hb : c.bad with _ | u
    · rfl
    · exfalso
      have h1 := (list_inv h).undefined hb
      rw [list_calls] at h1
      obtain ⟨h4, -⟩ := list_serial W dflt c.log
      rw [h1] at h4
      have h5 : (c.log.map fun p => p.2.toCOp) = (c.log.map Prod.snd).map LList.Op.toCOp := by rw [List.map_map]; rfl
      obtain ⟨_, _, h6, -⟩ := C09_linkedlist_no_dangling W dflt _ (noEmptyReset_ops (listCap W) (c.log.map Prod.snd) [])
      rw [h5, h6] at h4
      cases h4
  · intro hf
    obtain ⟨rs, h1, h2, h3⟩ := (list_inv h).finished hf
    rw [list_calls] at h1
    obtain ⟨h4, h5⟩ := list_serial W dflt c.log
    rw [h1] at h4
    have h6 := h5 rs _ h1
    refine ⟨h3, rs, h6, ?_, fun t => ?_⟩
    · have h7 : (rs.map fun p => p.2.1.toCOp) = c.log.map fun p => p.2.toCOp := by
        rw [← h6, List.map_map]; rfl
      rw [h7, ← h4]
      rfl
    · rw [← h2 t]
      exact (List.filter_eq_self.2 fun _ _ => rfl).symm

/-- With the mutex: two updates, one after the other, and the list is finished. -/
example : ∃ (sched : List (Fin 2)) (c : Config (Fin 2) (LList.Op ℕ) LLoc (LVal ℕ) (COut ℕ)),
    ListRun 10 0 true (fun t => [LList.Op.update (if t = 0 then 1 else 2)]) sched c ∧ c.Finished := by
  have hrun : ((Config.init (LList.fresh 0) fun t : Fin 2 => [LList.Op.update (if t = 0 then 1 else 2)]).exec
      (LList.lib 10 (0 : ℕ) true) (List.replicate 14 0 ++ List.replicate 20 1)).map (fun c =>
        c.bad.isNone && (c.threads 0).cur.isNone && (c.threads 0).todo.isEmpty &&
        (c.threads 1).cur.isNone && (c.threads 1).todo.isEmpty) = some true := by decide +kernel
  obtain ⟨c, h1, h2⟩ := Option.map_eq_some_iff.1 hrun
  simp only [Bool.and_eq_true, List.isEmpty_iff, Option.isNone_iff_eq_none] at h2
  obtain ⟨⟨⟨⟨e3, e4⟩, e5⟩, e6⟩, e7⟩ := h2
  exact ⟨_, c, h1, e3, fun t => match t with | 0 => ⟨e4, e5⟩ | 1 => ⟨e6, e7⟩⟩

theorem sum_mine [Fintype ι] {β : Type} (log : List (ι × β)) : ∑ t, (mine t log).length = log.length := by
  induction log with
  | nil => simp [mine]
  | cons p log ih =>
    have : ∀ t, (mine t (p :: log)).length = (if p.1 = t then 1 else 0) + (mine t log).length := by
      intro t
      unfold mine
      rw [List.filter_cons]
      split <;> rename_i hp
      · simp only [decide_eq_true_eq] at hp
        simp [hp]; omega
      · simp only [decide_eq_true_eq] at hp
        simp [hp]
    simp only [this, Finset.sum_add_distrib, ih, Finset.sum_ite_eq, Finset.mem_univ, if_true, List.length_cons]
    omega

theorem mine_sublist {β : Type} (t : ι) (log : List (ι × β)) : (mine t log).Sublist (log.map Prod.snd) :=
  List.filter_sublist.map _

theorem queueAfter_updates (W : ℕ) (xs : List α) : ∀ q : List α, q.length + xs.length ≤ W →
    queueAfter (listCap W) q (xs.map COp.update) = q ++ xs := by
  induction xs with
  | nil => intro q _; simp [queueAfter]
  | cons x xs ih =>
    intro q h
    have hW : W ≠ 0 := by simp only [List.length_cons] at h; omega
    simp only [List.length_cons] at h
    have hp : Spec.push (listCap W) q x = q ++ [x] := by
      unfold Spec.push listCap
      rw [if_neg hW]
      simp only
      rw [if_pos (by omega)]
    simp only [List.map_cons, queueAfter]
    rw [hp, ih _ (by simp only [List.length_append, List.length_cons, List.length_nil]; omega)]
    simp

/-- A finished run that amounts to its calls made one at a time loses nothing. -/
theorem ListSerial.noLoss [Fintype ι] {W : ℕ} {dflt : α} {items : ι → List α}
    {c : Config ι (LList.Op α) LLoc (LVal α) (COut α)} (hW : ∑ t, (items t).length ≤ W)
    (h : ListSerial W dflt (fun t => (items t).map .update) c) :
    ∃ xs, (LList.view W c.mem).display = .ok xs ∧ xs.length = ∑ t, (items t).length ∧
      (LList.view W c.mem).size = xs.length ∧ ∀ t, (items t).Sublist xs := by
  obtain ⟨h1, hist, h2, h3, -⟩ := h
  -- the calls are updates
  have hup : ∀ p ∈ c.log, ∃ x, p.2 = .update x := by
    intro p hp
    have hm : p.2 ∈ mine p.1 c.log := List.mem_map.2 ⟨p, List.mem_filter.2 ⟨hp, by simp⟩, rfl⟩
    rw [h1] at hm
    obtain ⟨x, -, hx⟩ := List.mem_map.1 hm
    exact ⟨x, hx.symm⟩
  let item : LList.Op α → α := fun | .update x => x | _ => dflt
  let xs := c.log.map fun p => item p.2
  have hops : (hist.map fun p => p.2.1.toCOp) = xs.map COp.update := by
    have e1 : (hist.map fun p => p.2.1.toCOp) = c.log.map fun p => p.2.toCOp := by rw [← h2, List.map_map]; rfl
    rw [e1]
    simp only [xs, List.map_map]
    refine List.map_congr_left fun p hp => ?_
    obtain ⟨x, hx⟩ := hup p hp
    simp [hx, LList.Op.toCOp, item]
  have hlen : xs.length = ∑ t, (items t).length := by
    simp only [xs, List.length_map]
    rw [← sum_mine]
    refine Finset.sum_congr rfl fun t _ => ?_
    rw [h1]; simp
  have hsub : ∀ t, (items t).Sublist xs := by
    intro t
    have e := (mine_sublist t c.log).map item
    rw [h1, List.map_map, List.map_map] at e
    have e2 : (items t).map (item ∘ LList.Op.update) = items t := by
      have : (item ∘ LList.Op.update) = id := by funext x; rfl
      rw [this, List.map_id]
    rw [e2] at e
    exact e
  have hreset : noEmptyReset (listCap W) [] (xs.map COp.update) := by
    have := noEmptyReset_ops (listCap W) (xs.map LList.Op.update) []
    rwa [List.map_map] at this
  obtain ⟨l, e1, e2⟩ := ((LinkedList.rep_new (α := α) (W := W)).run dflt (xs.map COp.update)).1 hreset
  rw [hops, e1] at h3
  injection h3 with h3
  injection h3 with _ h3
  rw [queueAfter_updates W xs [] (by simp only [List.length_nil]; omega), List.nil_append] at e2
  rw [← h3]
  exact ⟨xs, e2.display, hlen, e2.size, hsub⟩

/-- **C13** for the class with a mutex around every call. -/
theorem C13_guarded_no_loss_partial (ι α : Type) [DecidableEq ι] [Fintype ι] : NoLoss ι α true := by
  intro W dflt items sched c hW h
  obtain ⟨h1, h2, -⟩ := C13_guarded_partial W dflt _ sched c h
  exact ⟨h1, fun hf => (h2 hf).noLoss hW⟩

/-! ### Without a lock, calls not overlapping -/

theorem list_shadow {W : ℕ} {dflt : α} {prog : ι → List (LList.Op α)} {sched : List ι}
    {c : Config ι (LList.Op α) LLoc (LVal α) (COut α)} (h : ListRun W dflt false prog sched c)
    (hn : (Config.init (LList.fresh dflt) prog).NoOverlap (LList.lib W dflt false) sched) :
    ∃ d, ListRun W dflt true prog sched d ∧ Shadow c d :=
  Shadow.exec (L := LList.lib W dflt false) (M := LList.lib W dflt true) (d := Config.init (LList.fresh dflt) prog)
    (fun _ => rfl) (fun _ => rfl) rfl ⟨rfl, rfl, rfl, rfl, fun t => by simp [Config.init]⟩ h hn

/-- **C13**, the class itself, used by one thread at a time (several threads may take turns): every run is defined and
amounts to its calls made one at a time. Missing: overlapping calls. -/
theorem C13_turns_partial (W : ℕ) (dflt : α) (prog : ι → List (LList.Op α)) (sched : List ι)
    (c : Config ι (LList.Op α) LLoc (LVal α) (COut α)) (h : ListRun W dflt false prog sched c)
    (hn : (Config.init (LList.fresh dflt) prog).NoOverlap (LList.lib W dflt false) sched) :
    c.bad = none ∧ (c.Finished → ListSerial W dflt prog c) := by
  obtain ⟨d, h1, h2⟩ := list_shadow h hn
  obtain ⟨h3, h4, -⟩ := C13_guarded_partial W dflt prog sched d h1
  refine ⟨by rw [← h2.bad]; exact h3, fun hf => ?_⟩
  have := h4 ⟨by rw [h2.bad]; exact hf.1, fun t => by rw [h2.threads]; exact hf.2 t⟩
  unfold ListSerial at this ⊢
  rw [h2.log, h2.mem, h2.threads] at this
  exact this

theorem noOverlap_of {L : Lib (LList.Op α) LLoc (LVal α) (COut α)} (ts : List ι)
    (c : Config ι (LList.Op α) LLoc (LVal α) (COut α))
    (h : ∀ n ≤ ts.length, ∀ d, c.exec L (ts.take n) = some d → d.OneAtATime) : c.NoOverlap L ts := by
  induction ts generalizing c with
  | nil => exact h 0 le_rfl c rfl
  | cons t ts ih =>
    refine ⟨h 0 (Nat.zero_le _) c rfl, fun c' hc' => ih c' fun n hn d hd => ?_⟩
    refine h (n + 1) (by simpa using hn) d ?_
    rw [List.take_succ_cons, Config.exec, hc']
    exact hd

/-- Two threads taking turns: the hypotheses of `C13_turns_partial` hold. -/
example : ∃ (sched : List (Fin 2)) (c : Config (Fin 2) (LList.Op ℕ) LLoc (LVal ℕ) (COut ℕ)),
    ListRun 10 0 false (fun t => [LList.Op.update (if t = 0 then 1 else 2)]) sched c ∧
    (Config.init (LList.fresh 0) fun t : Fin 2 => [LList.Op.update (if t = 0 then 1 else 2)]).NoOverlap
      (LList.lib 10 (0 : ℕ) false) sched ∧ (LList.view 10 c.mem).size = 2 := by
  let init : Config (Fin 2) (LList.Op ℕ) LLoc (LVal ℕ) (COut ℕ) :=
    Config.init (LList.fresh 0) fun t : Fin 2 => [LList.Op.update (if t = 0 then 1 else 2)]
  let sched : List (Fin 2) := List.replicate 14 0 ++ List.replicate 20 1
  have key : (List.range 35).all (fun n => (init.exec (LList.lib 10 (0 : ℕ) false) (sched.take n)).all fun d =>
      (d.threads 0).cur.isNone || (d.threads 1).cur.isNone) = true := by decide +kernel
  have hrun : (init.exec (LList.lib 10 (0 : ℕ) false) sched).map (fun c => (LList.view 10 c.mem).size) = some 2 := by
    decide +kernel
  obtain ⟨c, h1, h2⟩ := Option.map_eq_some_iff.1 hrun
  refine ⟨sched, c, h1, noOverlap_of _ _ fun n hn d hd => ?_, h2⟩
  have h3 := List.all_eq_true.1 key n (List.mem_range.2 (Nat.lt_succ_of_le hn))
  have h4 : init.exec (LList.lib 10 (0 : ℕ) false) (sched.take n) = some d := hd
  rw [h4, Option.all_some, Bool.or_eq_true, Option.isNone_iff_eq_none, Option.isNone_iff_eq_none] at h3
  intro t u ht hu
  match t, u with
  | 0, 0 => rfl
  | 1, 1 => rfl
  | 0, 1 => exact absurd h3 (not_or.2 ⟨ht, hu⟩)
  | 1, 0 => exact absurd h3 (not_or.2 ⟨hu, ht⟩)

/-- Two threads taking turns. -/
example : ((Config.init (LList.fresh 0) fun t : Fin 2 => [LList.Op.update (if t = 0 then 1 else 2)]).exec
    (LList.lib 10 (0 : ℕ) false) (List.replicate 14 0 ++ List.replicate 18 1)).map (fun c =>
      ((LList.view 10 c.mem).display, (LList.view 10 c.mem).size)) = some (.ok [1, 2], 2) := by decide +kernel

/-- With the mutex the schedule of `C13_violated` is impossible: thread 1 has to wait. -/
example : ((Config.init (LList.fresh 0) fun t : Fin 2 => [LList.Op.update (if t = 0 then 1 else 2)]).exec
    (LList.lib 10 (0 : ℕ) true) (List.replicate 7 0 ++ [1])).isNone = true := by decide +kernel

end

end KML
