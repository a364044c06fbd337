import Verif.Lemmas.ConcContainers
import Verif.Lemmas.ConcTermination
import Verif.Props.RingBuffer
import Verif.Props.LinkedList

/-! # C05, C06, C13: threads -/

set_option linter.unusedSectionVars false

namespace KML

open Conc

section

variable {ι : Type} [DecidableEq ι] {α : Type}

/-! ## C05 -/

/-- The calls of `RingBuffer` that hold the lock. -/
def Locking : COp α → Prop
  | .update _ => True
  | .pop => True
  | .reset => True
  | _ => False

theorem locked_iff (W : ℕ) (dflt : α) (op : COp α) : (Ring.lib W dflt).locked op = true ↔ Locking op := by
  cases op <;> simp [Ring.lib, Locking]

theorem ring_disciplined (W : ℕ) (dflt : α) (prog : ι → List (COp α)) : Disciplined (Ring.lib W dflt) prog := by
  intro t op _
  cases op with
  | update x => exact Or.inl rfl
  | pop => exact Or.inl rfl
  | reset => exact Or.inl rfl
  | size =>
    refine Or.inr (.read _ _ fun f => ?_)
    split
    · exact .ret _
    · refine .read _ _ fun h => .read _ _ fun t => ?_
      split <;> exact .read _ _ fun h => .read _ _ fun t => .ret _
  | empty =>
    refine Or.inr (.read _ _ fun f => ?_)
    dsimp only
    split
    · exact .ret _
    · exact .read _ _ fun h => .read _ _ fun t => .ret _
  | full => exact Or.inr (.read _ _ fun f => .ret _)

/-- The state reached by a schedule. -/
def RingRun (W : ℕ) (dflt : α) (prog : ι → List (COp α)) (sched : List ι)
    (c : Config ι (COp α) RLoc (RVal α) (COut α)) : Prop :=
  (Config.init Ring.fresh prog).exec (Ring.lib W dflt) sched = some c

theorem RingRun.inv {W : ℕ} {dflt : α} {prog : ι → List (COp α)} {sched : List ι}
    {c : Config ι (COp α) RLoc (RVal α) (COut α)} (h : RingRun W dflt prog sched c) :
    Inv (Ring.lib W dflt) Ring.fresh prog c :=
  (Inv.init _ _ _).exec (ring_disciplined W dflt prog) h

/-- The serial run of locked calls, in terms of the sequential model. -/
theorem ring_serial (W : ℕ) (dflt : α) (log : List (ι × COp α)) (hl : ∀ p ∈ log, Locking p.2)
    (m : Mem RLoc (RVal α)) :
    (do
      let (rs, m') ← serial (Ring.lib W dflt) m log
      .ok (rs.map (fun p => p.2.2), Ring.view W m')) =
      runCalls (RingBuffer.step dflt) (Ring.view W m) (log.map Prod.snd) ∧
    ∀ rs m', serial (Ring.lib W dflt) m log = .ok (rs, m') → rs.map (fun p => (p.1, p.2.1)) = log := by
  obtain ⟨h1, h2⟩ := serial_through (Ring.lib W dflt) (Ring.view W) (RingBuffer.step dflt) log (fun _ => True)
    (fun p hp m _ => ⟨Ring.locked_code W dflt p.2 ((locked_iff W dflt p.2).2 (hl p hp)) m, fun _ _ _ => trivial⟩)
    m trivial
  exact ⟨h1, fun rs m' e => (h2 rs m' e).2⟩

/-- **C05**: whatever the threads and the schedule, the calls holding the lock behave as if made one at a time in the
order in which they took the lock (`c.log`): there is one history of calls and results, made of these calls in this
order, whose results and final buffer are those of the sequential model; each thread gets its share of it, in its own
order. Calls of `size`, `empty` and `full` in between disturb nothing. -/
theorem C05_serialisable (W : ℕ) (dflt : α) (prog : ι → List (COp α)) (sched : List ι)
    (c : Config ι (COp α) RLoc (RVal α) (COut α)) (h : RingRun W dflt prog sched c) (hf : c.Finished) :
    (∀ t, mine t c.log = prog t) ∧
    ∃ history : List (ι × COp α × COut α),
      history.map (fun p => (p.1, p.2.1)) = c.log.filter (fun p => (Ring.lib W dflt).locked p.2) ∧
      runCalls (RingBuffer.step dflt) (RingBuffer.new W) (history.map fun p => p.2.1) =
        .ok (history.map fun p => p.2.2, Ring.view W c.mem) ∧
      ∀ t, (c.threads t).res.filter (fun p => (Ring.lib W dflt).locked p.1) = mine t history := by
  obtain ⟨rs, h1, h2, h3⟩ := h.inv.finished hf
  have hlog : ∀ p ∈ (Ring.lib W dflt).lockedCalls c.log, Locking p.2 := fun p hp =>
    (locked_iff W dflt p.2).1 (List.mem_filter.1 hp).2
  obtain ⟨h4, h5⟩ := ring_serial W dflt _ hlog Ring.fresh
  rw [h1, Ring.view_fresh] at h4
  have h6 := h5 rs _ h1
  refine ⟨h3, rs, h6, ?_, h2⟩
  have h7 : (rs.map fun p => p.2.1) = ((Ring.lib W dflt).lockedCalls c.log).map Prod.snd := by
    rw [← h6, List.map_map]; rfl
  rw [h7, ← h4]
  rfl

/-- **C05**: with a window, those results are the ones of a bounded queue. -/
theorem C05_linearisable (W : ℕ) (hW : 1 ≤ W) (dflt : α) (prog : ι → List (COp α)) (sched : List ι)
    (c : Config ι (COp α) RLoc (RVal α) (COut α)) (h : RingRun W dflt prog sched c) (hf : c.Finished) :
    ∃ history : List (ι × COp α × COut α),
      history.map (fun p => (p.1, p.2.1)) = c.log.filter (fun p => (Ring.lib W dflt).locked p.2) ∧
      (history.map fun p => p.2.2) = boundedQueueOutputs dflt W (history.map fun p => p.2.1) ∧
      ∀ t, (c.threads t).res.filter (fun p => (Ring.lib W dflt).locked p.1) = mine t history := by
  obtain ⟨-, hist, h1, h2, h3⟩ := C05_serialisable W dflt prog sched c h hf
  obtain ⟨b, h4⟩ := C01_ringbuffer_is_bounded_fifo W hW dflt (hist.map fun p => p.2.1)
  rw [h2] at h4
  injection h4 with h4
  injection h4 with h4 _
  exact ⟨hist, h1, h4, h3⟩

/-- **C05**: with a window no schedule reaches undefined behaviour. -/
theorem C05_defined (W : ℕ) (hW : 1 ≤ W) (dflt : α) (prog : ι → List (COp α)) (sched : List ι)
    (c : Config ι (COp α) RLoc (RVal α) (COut α)) (h : RingRun W dflt prog sched c) : c.bad = none := by
  rcases hb : c.bad with _ | u
  · rfl
  · have h1 := h.inv.undefined hb
    have hlog : ∀ p ∈ (Ring.lib W dflt).lockedCalls c.log, Locking p.2 := fun p hp =>
      (locked_iff W dflt p.2).1 (List.mem_filter.1 hp).2
    obtain ⟨h4, -⟩ := ring_serial W dflt _ hlog Ring.fresh
    rw [h1, Ring.view_fresh] at h4
    obtain ⟨x, hx⟩ := C02_ringbuffer_memory_safe W hW dflt
      (((Ring.lib W dflt).lockedCalls c.log).map Prod.snd)
    rw [hx] at h4
    cases h4

/-- A finished run of three calls in two threads, thread 1 updating between the calls of thread 0: the hypotheses of
the three theorems above hold. -/
example : ∃ (sched : List (Fin 2)) (c : Config (Fin 2) (COp ℕ) RLoc (RVal ℕ) (COut ℕ)),
    RingRun 2 0 (fun t => if t = 0 then [.update 1, .pop] else [COp.update 2]) sched c ∧ c.Finished := by
  have hrun : ((Config.init Ring.fresh fun t : Fin 2 => if t = 0 then [.update 1, .pop] else [COp.update 2]).exec
      (Ring.lib 2 (0 : ℕ)) (List.replicate 12 0 ++ List.replicate 12 1 ++ List.replicate 8 0)).map (fun c =>
        c.bad.isNone && (c.threads 0).cur.isNone && (c.threads 0).todo.isEmpty &&
        (c.threads 1).cur.isNone && (c.threads 1).todo.isEmpty) = some true := by decide +kernel
  obtain ⟨c, h1, h2⟩ := Option.map_eq_some_iff.1 hrun
  simp only [Bool.and_eq_true, List.isEmpty_iff, Option.isNone_iff_eq_none] at h2
  obtain ⟨⟨⟨⟨e3, e4⟩, e5⟩, e6⟩, e7⟩ := h2
  exact ⟨_, c, h1, e3, fun t => match t with | 0 => ⟨e4, e5⟩ | 1 => ⟨e6, e7⟩⟩

theorem RingRun.cur_mem {W : ℕ} {dflt : α} {prog : ι → List (COp α)} {sched : List ι}
    {c : Config ι (COp α) RLoc (RVal α) (COut α)} (h : RingRun W dflt prog sched c)
    (hp : ∀ t, ∀ op ∈ prog t, Locking op) (t : ι) (op : COp α) (k : Code RLoc (RVal α) (COut α))
    (hk : (c.threads t).cur = some (op, k)) : (Ring.lib W dflt).locked op = true := by
  -- every call made is a call of the program
  have key : ∀ (c c' : Config ι (COp α) RLoc (RVal α) (COut α)) (sched : List ι),
      (∀ t, (∀ op ∈ (c.threads t).todo, Locking op) ∧ ∀ op k, (c.threads t).cur = some (op, k) → Locking op) →
      c.exec (Ring.lib W dflt) sched = some c' →
      ∀ t op k, (c'.threads t).cur = some (op, k) → Locking op := by
    intro c c' sched
    induction sched generalizing c with
    | nil =>
      intro h1 h2
      unfold Config.exec at h2
      injection h2 with h2
      subst h2
      exact fun t => (h1 t).2
    | cons t ts ih =>
      intro h1 h2
      unfold Config.exec at h2
      obtain ⟨c1, h3, h4⟩ := Option.bind_eq_some_iff.1 h2
      refine ih c1 ?_ h4
      have hset : ∀ (th : Thread (COp α) RLoc (RVal α) (COut α)) m o log b,
          (∀ op ∈ th.todo, Locking op) → (∀ op k, th.cur = some (op, k) → Locking op) →
          ∀ u, (∀ op ∈ ((⟨m, o, Function.update c.threads t th, log, b⟩ :
            Config ι (COp α) RLoc (RVal α) (COut α)).threads u).todo, Locking op) ∧
            ∀ op k, ((⟨m, o, Function.update c.threads t th, log, b⟩ :
              Config ι (COp α) RLoc (RVal α) (COut α)).threads u).cur = some (op, k) → Locking op := by
        intro th m o log b g1 g2 u
        by_cases hu : u = t
        · subst hu; simp only [Function.update_self]; exact ⟨g1, g2⟩
        · simp only [Function.update_of_ne hu]; exact h1 u
      unfold Config.step at h3
      simp only at h3
      split at h3
      · cases h3
      split at h3
      · split at h3
        · cases h3
        · rename_i op todo htodo
          have g1 := (h1 t).1
          rw [htodo] at g1
          have g2 : ∀ op' k, (some (op, (Ring.lib W dflt).code op) : Option (COp α × Code RLoc (RVal α) (COut α))) =
              some (op', k) → Locking op' := by
            intro op' k e
            injection e with e
            injection e with e _
            subst e
            exact g1 op (by simp)
          split at h3
          · split at h3
            · cases h3
            · injection h3 with h3
              subst h3
              exact hset _ _ _ _ _ (fun op' h => g1 op' (by simp [h])) g2
          · injection h3 with h3
            subst h3
            exact hset _ _ _ _ _ (fun op' h => g1 op' (by simp [h])) g2
      · injection h3 with h3
        subst h3
        exact hset _ _ _ _ _ (h1 t).1 (fun _ _ h => by cases h)
      · injection h3 with h3
        subst h3
        exact h1
      all_goals
        rename_i hcur
        injection h3 with h3
        subst h3
        refine hset _ _ _ _ _ (h1 t).1 ?_
        intro op' k' e
        injection e with e
        injection e with e _
        subst e
        exact (h1 t).2 _ _ hcur
  exact (locked_iff W dflt op).2 (key _ _ _ (fun t => ⟨hp t, fun _ _ h => by cases h⟩) h t op k hk)

/-- **C05**: there is no data race between `update`, `pop` and `reset`. -/
theorem C05_race_free (W : ℕ) (dflt : α) (prog : ι → List (COp α)) (hp : ∀ t, ∀ op ∈ prog t, Locking op)
    (sched : List ι) (c : Config ι (COp α) RLoc (RVal α) (COut α)) (h : RingRun W dflt prog sched c) : ¬ c.Race :=
  h.inv.no_race (h.cur_mem hp)

theorem ring_within (W : ℕ) (dflt : α) (op : COp α) : Within 12 ((Ring.lib W dflt).code op) := by
  have hadv : ∀ (l : RLoc) (hl : RVal α l = ℕ) (n : ℕ) (k : Ring.RCode α (COut α)), Within n k →
      Within (n + 2) (Ring.advance W l hl k) := by
    intro l hl n k hk
    unfold Ring.advance
    refine .read _ _ _ fun v => ?_
    split
    · exact .ub _ _
    · exact .write _ _ _ _ hk
  cases op with
  | update x =>
    refine .read 11 _ _ fun h => ?_
    dsimp only
    split
    · refine .write 10 _ _ _ (.read 9 _ _ fun f => ?_)
      have hrest : Within 7 (Ring.advance W .head rfl <|
          .read .head fun (h : ℕ) => .read .tail fun (t : ℕ) => .write .full (h == t) <|
          .read .count fun (n : ℕ) => .write .count (n + 1 : ℕ) <| .ret .unit : Ring.RCode α (COut α)) :=
        hadv _ _ 5 _ (.read 4 _ _ fun h => .read 3 _ _ fun t => .write 2 _ _ _
          (.read 1 _ _ fun n => .write 0 _ _ _ (.ret _ _)))
      split
      · exact hadv _ _ 7 _ hrest
      · exact hrest.mono (by omega)
    · exact .ub _ _
  | pop =>
    have hbody : Within 5 (if (false : Bool) then .ret (.val dflt) else
        .read .tail fun (t : ℕ) =>
        if t < W then
          .read (.cell t) fun (v : Option α) =>
          match v with
          | none => .ub .uninit
          | some v =>
            .write .full false <|
            Ring.advance W .tail rfl <|
            .ret (.val v)
        else .ub .oob : Ring.RCode α (COut α)) := by
      refine .read 4 _ _ fun t => ?_
      split
      · refine .read 3 _ _ fun v => ?_
        rcases v with _ | v
        · exact .ub _ _
        · exact .write 2 _ _ _ (hadv _ _ 0 _ (.ret _ _))
      · exact .ub _ _
    refine (?_ : Within 8 _).mono (by omega)
    refine .read 7 _ _ fun f => ?_
    dsimp only
    split
    · exact hbody.mono (by omega)
    · refine .read 6 _ _ fun h => .read 5 _ _ fun t => ?_
      rcases (h == t : Bool) with _ | _
      · exact hbody
      · exact .ret _ _
  | reset => exact .read 11 _ _ fun t => .write 10 _ _ _ (.write 9 _ _ _ (.ret _ _))
  | size =>
    refine .read 11 _ _ fun f => ?_
    split
    · exact .ret _ _
    · refine .read 10 _ _ fun h => .read 9 _ _ fun t => ?_
      split <;> exact .read 8 _ _ fun h => .read 7 _ _ fun t => .ret _ _
  | empty =>
    refine .read 11 _ _ fun f => ?_
    dsimp only
    split
    · exact .ret _ _
    · exact .read 10 _ _ fun h => .read 9 _ _ fun t => .ret _ _
  | full => exact .read 11 _ _ fun f => .ret _ _

/-- **C05**: no deadlock and no livelock. As long as calls remain some thread can go on, and no schedule of `n` calls takes
more than `14 n` steps. -/
theorem C05_terminates [Fintype ι] (W : ℕ) (hW : 1 ≤ W) (dflt : α) (prog : ι → List (COp α)) (sched : List ι)
    (c : Config ι (COp α) RLoc (RVal α) (COut α)) (h : RingRun W dflt prog sched c) :
    (¬ c.Finished → ∃ t c', c.step (Ring.lib W dflt) t = some c') ∧
    sched.length ≤ ∑ t, (prog t).length * 14 :=
  ⟨fun hf => h.inv.progress (C05_defined W hW dflt prog sched c h) hf,
    exec_length (B := 12) (fun _ op _ => ring_within W dflt op) h⟩

/-- Three calls in two threads; thread 1 updates while thread 0 is between its two calls. -/
example : ((Config.init Ring.fresh fun t : Fin 2 => if t = 0 then [.update 1, .pop] else [COp.update 2]).exec
    (Ring.lib 2 (0 : ℕ)) (List.replicate 12 0 ++ List.replicate 12 1 ++ List.replicate 8 0)).map
    (fun c => (c.log, (c.threads 0).res)) =
    some ([(0, .update 1), (1, .update 2), (0, .pop)], [(.update 1, .unit), (.pop, .val 1)]) := by
  decide +kernel

/-- While thread 0 holds the lock thread 1 cannot start. -/
example : ((Config.init Ring.fresh fun t : Fin 2 => if t = 0 then [COp.update 1] else [COp.update 2]).exec
    (Ring.lib 2 (0 : ℕ)) [0, 0, 0, 1]).isNone = true := by
  decide +kernel

/-! ## C06 -/

/-- The full property: `size()` never exceeds the window. -/
def C06_full : Prop := ∀ (n W : ℕ) (prog : Fin n → List (COp ℕ)) (sched : List (Fin n))
  (c : Config (Fin n) (COp ℕ) RLoc (RVal ℕ) (COut ℕ)), 1 ≤ W → RingRun W 0 prog sched c →
  ∀ t k, (COp.size, COut.num k) ∈ (c.threads t).res → k ≤ W

/-- **C06** is violated: `size()` reads `m_head`, is suspended while another thread makes three updates, then reads
`m_tail`. It returns 2^64 - 1 for a buffer of two elements. -/
theorem C06_violated : ¬ C06_full := by
  intro h
  have hrun : ((Config.init Ring.fresh fun t : Fin 2 => if t = 0 then [COp.size] else
      [.update 1, .update 2, .update 3]).exec (Ring.lib 2 (0 : ℕ))
      (List.replicate 5 0 ++ List.replicate 38 1 ++ [0, 0])).map (fun c => (c.threads 0).res) =
      some [(.size, .num (2 ^ 64 - 1))] := by decide +kernel
  obtain ⟨c, h1, h2⟩ := Option.map_eq_some_iff.1 hrun
  have := h 2 2 _ _ c (by norm_num) h1 0 (2 ^ 64 - 1) (by rw [h2]; simp)
  norm_num at this

/-- The cause is a data race: `size()` reads `m_full` while `update` is about to write it. -/
theorem C06_race : ∃ (sched : List (Fin 2)) (c : Config (Fin 2) (COp ℕ) RLoc (RVal ℕ) (COut ℕ)),
    RingRun 2 0 (fun t => if t = 0 then [COp.size] else [.update 1]) sched c ∧ c.Race := by
  have hrun : ((Config.init Ring.fresh fun t : Fin 2 => if t = 0 then [COp.size] else [.update 1]).exec
      (Ring.lib 2 (0 : ℕ)) (0 :: List.replicate 8 1)).map (fun c =>
        ((c.threads 0).cur.bind fun p => p.2.access, (c.threads 1).cur.bind fun p => p.2.access)) =
      some (some (.full, false, false), some (.full, true, false)) := by decide +kernel
  obtain ⟨c, h1, h2⟩ := Option.map_eq_some_iff.1 hrun
  refine ⟨_, c, h1, ?_⟩
  injection h2 with h2 h3
  obtain ⟨⟨o1, k1⟩, e1, e2⟩ := Option.bind_eq_some_iff.1 h2
  obtain ⟨⟨o2, k2⟩, e3, e4⟩ := Option.bind_eq_some_iff.1 h3
  exact ⟨0, 1, o1, o2, k1, k2, .full, _, _, _, _, by decide, e1, e3, e2, e4, rfl, rfl⟩

/-- What the locations of a `RingBuffer` hold at any moment. -/
def RingLoc (W : ℕ) : ∀ l : RLoc, RVal α l → Prop
  | .head, v => (show ℕ from v) < W
  | .tail, v => (show ℕ from v) < W
  | _, _ => True

/-- A possibly torn size. -/
def TornSize (W : ℕ) (op : COp α) (r : COut α) : Prop := op = .size → ∀ k, r = .num k → k < 2 * W ∨ 2 ^ 64 - W < k

theorem ring_safe (W : ℕ) (hW : 1 ≤ W) (hW' : 2 * W ≤ 2 ^ 64) (dflt : α) (op : COp α) :
    Safe (RingLoc W) (TornSize W op) ((Ring.lib W dflt).code op) := by
  have hne : ∀ {op : COp α} {r}, op ≠ .size → TornSize W op r := fun h e => absurd e h
  have hmod : ∀ i, (i + 1) % W < W := fun i => Nat.mod_lt _ (by omega)
  have hadv : ∀ (op : COp α) (k : Ring.RCode α (COut α)), Safe (RingLoc W) (TornSize W op) k →
      Safe (RingLoc W) (TornSize W op) (Ring.advance W .head rfl k) ∧
      Safe (RingLoc W) (TornSize W op) (Ring.advance W .tail rfl k) := by
    intro op k hk
    refine ⟨.read _ _ fun v _ => ?_, .read _ _ fun v _ => ?_⟩
    · split
      · exact .ub _
      · exact .write _ _ _ (hmod _) hk
    · split
      · exact .ub _
      · exact .write _ _ _ (hmod _) hk
  cases op with
  | update x =>
    refine .read _ _ fun h _ => ?_
    dsimp only
    split
    · refine .write _ _ _ trivial (.read _ _ fun f _ => ?_)
      have hrest : Safe (RingLoc W) (TornSize W (.update x)) (Ring.advance W .head rfl <|
          .read .head fun (h : ℕ) => .read .tail fun (t : ℕ) => .write .full (h == t) <|
          .read .count fun (n : ℕ) => .write .count (n + 1 : ℕ) <| .ret .unit : Ring.RCode α (COut α)) :=
        (hadv _ _ (.read _ _ fun h _ => .read _ _ fun t _ => by
          refine .write _ _ _ trivial (.read _ _ fun n _ => .write _ _ _ trivial (.ret _ (hne (by simp)))))).1
      split
      · exact (hadv _ _ hrest).2
      · exact hrest
    · exact .ub _
  | pop =>
    have hbody : Safe (RingLoc W) (TornSize W .pop) (if (false : Bool) then .ret (.val dflt) else
        .read .tail fun (t : ℕ) =>
        if t < W then
          .read (.cell t) fun (v : Option α) =>
          match v with
          | none => .ub .uninit
          | some v =>
            .write .full false <|
            Ring.advance W .tail rfl <|
            .ret (.val v)
        else .ub .oob : Ring.RCode α (COut α)) := by
      refine .read _ _ fun t _ => ?_
      split
      · refine .read _ _ fun v _ => ?_
        rcases v with _ | v
        · exact .ub _
        · exact .write _ _ _ trivial (hadv _ _ (.ret _ (hne (by simp)))).2
      · exact .ub _
    refine .read _ _ fun f _ => ?_
    dsimp only
    split
    · exact hbody
    · refine .read _ _ fun h _ => .read _ _ fun t _ => ?_
      rcases (h == t : Bool) with _ | _
      · exact hbody
      · exact .ret _ (hne (by simp))
  | reset => exact .read _ _ fun t ht => .write _ _ _ ht (.write _ _ _ trivial (.ret _ (hne (by simp))))
  | size =>
    refine .read _ _ fun f _ => ?_
    split
    · refine .ret _ fun _ k hk => ?_
      injection hk with hk
      omega
    · refine .read _ _ fun h _ => .read _ _ fun t _ => ?_
      split
      · refine .read _ _ fun (h : ℕ) (hh : h < W) => .read _ _ fun (t : ℕ) (ht : t < W) => .ret _ fun _ k hk => ?_
        injection hk with hk
        subst hk
        rcases Nat.lt_or_ge h t with hlt | hge
        · right
          rw [Nat.mod_eq_of_lt (by omega)]
          omega
        · left
          have : 2 ^ 64 + h - t = (h - t) + 2 ^ 64 := by omega
          rw [this, Nat.add_mod_right, Nat.mod_eq_of_lt (by omega)]
          omega
      · refine .read _ _ fun (h : ℕ) (hh : h < W) => .read _ _ fun (t : ℕ) (ht : t < W) => .ret _ fun _ k hk => ?_
        injection hk with hk
        subst hk
        left
        have : 2 ^ 64 + W + h - t = (W + h - t) + 2 ^ 64 := by omega
        rw [this, Nat.add_mod_right, Nat.mod_eq_of_lt (by omega)]
        omega
  | empty =>
    refine .read _ _ fun f _ => ?_
    dsimp only
    split
    · exact .ret _ (hne (by simp))
    · exact .read _ _ fun h _ => .read _ _ fun t _ => .ret _ (hne (by simp))
  | full => exact .read _ _ fun f _ => .ret _ (hne (by simp))

/-- **C06**, what holds of a torn `size()`: under every interleaving it returns less than twice the window, or a negative
number above minus the window taken modulo 2^64. Missing: that it is at most the window (false, `C06_violated`). -/
theorem C06_torn_partial (W : ℕ) (hW : 1 ≤ W) (hW' : 2 * W ≤ 2 ^ 64) (dflt : α) (prog : ι → List (COp α))
    (sched : List ι) (c : Config ι (COp α) RLoc (RVal α) (COut α)) (h : RingRun W dflt prog sched c) (t : ι) (k : ℕ)
    (hk : (COp.size, COut.num k) ∈ (c.threads t).res) : k < 2 * W ∨ 2 ^ 64 - W < k := by
  have hG : Guarded (Ring.lib W dflt) (RingLoc W) (TornSize W) c :=
    (Guarded.init (by intro l; cases l <;> first | exact hW | trivial)
      fun t op _ => ring_safe W hW hW' dflt op).exec h
  exact hG.res t _ hk rfl k rfl

/-- The run of `C06_violated` meets the hypotheses, with a torn size. -/
example : ∃ (sched : List (Fin 2)) (c : Config (Fin 2) (COp ℕ) RLoc (RVal ℕ) (COut ℕ)),
    RingRun 2 0 (fun t => if t = 0 then [COp.size] else [.update 1, .update 2, .update 3]) sched c ∧
    (COp.size, COut.num (2 ^ 64 - 1)) ∈ (c.threads 0).res := by
  have hrun : ((Config.init Ring.fresh fun t : Fin 2 => if t = 0 then [COp.size] else
      [.update 1, .update 2, .update 3]).exec (Ring.lib 2 (0 : ℕ))
      (List.replicate 5 0 ++ List.replicate 38 1 ++ [0, 0])).map (fun c => (c.threads 0).res) =
      some [(.size, .num (2 ^ 64 - 1))] := by decide +kernel
  obtain ⟨c, h1, h2⟩ := Option.map_eq_some_iff.1 hrun
  exact ⟨_, c, h1, by rw [h2]; simp⟩

/-- **C06**, the quiet case: a call of `size()` made while no call holds the lock, and not interrupted, returns the number
of stored elements, at most the window. -/
theorem C06_quiet_partial (W : ℕ) (hW : 1 ≤ W) (hW' : W < 2 ^ 64) (dflt : α) (prog : ι → List (COp α))
    (sched : List ι) (c : Config ι (COp α) RLoc (RVal α) (COut α)) (h : RingRun W dflt prog sched c)
    (ho : c.owner = none) (t : ι) (ht : (c.threads t).cur = some (.size, (Ring.lib W dflt).code .size)) :
    (Ring.view W c.mem).size ≤ W ∧
    ∃ n c', c.exec (Ring.lib W dflt) (List.replicate n t) = some c' ∧ c'.mem = c.mem ∧
      (c'.threads t).res = (c.threads t).res ++ [(.size, .num (Ring.view W c.mem).size)] := by
  obtain ⟨hb, rs, h1, -⟩ := h.inv.idle ho
  have hlog : ∀ p ∈ (Ring.lib W dflt).lockedCalls c.log, Locking p.2 := fun p hp =>
    (locked_iff W dflt p.2).1 (List.mem_filter.1 hp).2
  obtain ⟨h4, -⟩ := ring_serial W dflt _ hlog Ring.fresh
  rw [h1, Ring.view_fresh] at h4
  have hreach : RingBuffer.Reachable W (Ring.view W c.mem) := ⟨dflt, _, _, h4.symm⟩
  obtain ⟨q, hq⟩ := hreach.rep hW
  have htl : (c.mem .tail : ℕ) < W := hq.tail_lt
  have hhd : (c.mem .head : ℕ) < W := by
    have : (Ring.view W c.mem).head < W := by rw [hq.head]; exact Nat.mod_lt _ (by omega)
    exact this
  refine ⟨by rw [hq.size]; exact hq.qlen, ?_⟩
  have hrun : ((Ring.lib W dflt).code .size).run c.mem = .ok (.num (Ring.view W c.mem).size, c.mem) := by
    have e1 : (Ring.view W c.mem).full = c.mem .full := rfl
    have e2 : (Ring.view W c.mem).head = c.mem .head := rfl
    have e3 : (Ring.view W c.mem).tail = c.mem .tail := rfl
    have e4 : (Ring.view W c.mem).windowSize = W := rfl
    unfold RingBuffer.size
    rw [e1, e2, e3, e4]
    simp only [Ring.lib, Ring.sizeCode, Code.run]
    rcases (c.mem .full : Bool) with _ | _
    · simp only [Bool.false_eq_true, if_false, Bool.not_false, if_true, Code.run]
      have harith : ∀ hd tl : ℕ, hd < W → tl < W →
          (hd ≥ tl → (2 ^ 64 + hd - tl) % 2 ^ 64 = hd - tl) ∧
          (¬ hd ≥ tl → (2 ^ 64 + W + hd - tl) % 2 ^ 64 = W + hd - tl) := by
        intro hd tl h1 h2
        constructor
        · intro h3
          have : 2 ^ 64 + hd - tl = (hd - tl) + 2 ^ 64 := by omega
          rw [this, Nat.add_mod_right, Nat.mod_eq_of_lt (by omega)]
        · intro h3
          have : 2 ^ 64 + W + hd - tl = (W + hd - tl) + 2 ^ 64 := by omega
          rw [this, Nat.add_mod_right, Nat.mod_eq_of_lt (by omega)]
      obtain ⟨a1, a2⟩ := harith _ _ hhd htl
      by_cases hge : c.mem .head ≥ c.mem .tail
      · rw [if_pos hge, if_pos hge]
        simp only [Code.run]
        rw [a1 hge]
      · rw [if_neg hge, if_neg hge]
        simp only [Code.run]
        rw [a2 hge]
    · rfl
  obtain ⟨n, hn⟩ := solo _ _ c t _ hb ht _ _ hrun
  exact ⟨n, _, hn, rfl, by simp⟩

/-- Thread 1 has finished an update and thread 0 starts `size()`: the hypotheses hold. -/
example : ∃ (sched : List (Fin 2)) (c : Config (Fin 2) (COp ℕ) RLoc (RVal ℕ) (COut ℕ)),
    RingRun 2 0 (fun t => if t = 0 then [COp.size] else [.update 1]) sched c ∧ c.owner = none ∧
    (c.threads 0).cur = some (.size, (Ring.lib 2 (0 : ℕ)).code .size) ∧ (Ring.view 2 c.mem).size = 1 :=
  ⟨List.replicate 12 1 ++ [0], _, show Config.exec _ _ _ = _ from rfl, rfl, rfl, rfl⟩

end

end KML
