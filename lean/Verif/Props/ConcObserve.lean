import Verif.Lemmas.ConcObserve
import Verif.Props.Concurrency

/-! # C78: `empty()` and `full()` while other threads use the ring buffer -/

set_option linter.unusedSectionVars false

namespace KML

open Conc

section

variable {ι : Type} [DecidableEq ι] {α : Type}

/-- The contents of the buffer when no call holds the lock: the queue after the calls made so far (see `Spec.qrun`). -/
def contents (W : ℕ) (dflt : α) (d : Config ι (COp α) RLoc (RVal α) (COut α)) : List α :=
  (Spec.qrun dflt (some W) (fun q => decide (q.length = W)) []
    ((d.log.filter fun p => (Ring.lib W dflt).locked p.2).map Prod.snd)).2

/-- Between `c₀` and `c₁` thread `t` makes the call `op`, from its start to its return, and gets `r`. No call holds the
lock at `c₀` or at `c₁`; any number may start and end in between. -/
structure Observed (W : ℕ) (dflt : α) (prog : ι → List (COp α)) (sched : List ι) (t : ι) (op : COp α) (r : COut α)
    (c₀ c₁ : Config ι (COp α) RLoc (RVal α) (COut α)) : Prop where
  before : ∃ sched₀, RingRun W dflt prog sched₀ c₀
  during : c₀.exec (Ring.lib W dflt) sched = some c₁
  free₀ : c₀.owner = none
  free₁ : c₁.owner = none
  start : (c₀.threads t).cur = some (op, (Ring.lib W dflt).code op)
  result : ∃ rest, (c₁.threads t).res = (c₀.threads t).res ++ (op, r) :: rest

/-- The full property: `empty()` returns what is true at some moment of the call at which no other call is under way. -/
def C78_full : Prop := ∀ (n W : ℕ) (prog : Fin n → List (COp ℕ)) (sched : List (Fin n)) (t : Fin n) (b : Bool)
  (c₀ c₁ : Config (Fin n) (COp ℕ) RLoc (RVal ℕ) (COut ℕ)), 1 ≤ W →
  Observed W 0 prog sched t .empty (.bool b) c₀ c₁ →
  ∃ d, c₀.Rest (Ring.lib W 0) sched d ∧ (contents W 0 d).isEmpty = b

theorem RingRun.snoc {W : ℕ} {dflt : α} {prog : ι → List (COp α)} {s₀ s₁ : List ι}
    {c d : Config ι (COp α) RLoc (RVal α) (COut α)} (h : RingRun W dflt prog s₀ c)
    (h1 : c.exec (Ring.lib W dflt) s₁ = some d) : RingRun W dflt prog (s₀ ++ s₁) d := by
  unfold RingRun at h ⊢
  rw [exec_append, h]
  exact h1

/-- At rest the memory represents the contents. -/
theorem contents_rep {W : ℕ} (hW : 1 ≤ W) {dflt : α} {prog : ι → List (COp α)} {s : List ι}
    {d : Config ι (COp α) RLoc (RVal α) (COut α)} (h : RingRun W dflt prog s d) (ho : d.owner = none) :
    RingBuffer.Rep W (Ring.view W d.mem) (contents W dflt d) := by
  obtain ⟨hb, rs, h1, -⟩ := h.inv.idle ho
  have hlog : ∀ p ∈ (Ring.lib W dflt).lockedCalls d.log, Locking p.2 := fun p hp =>
    (locked_iff W dflt p.2).1 (List.mem_filter.1 hp).2
  obtain ⟨h4, -⟩ := ring_serial W dflt _ hlog Ring.fresh
  rw [h1, Ring.view_fresh, Res.ok_bind] at h4
  obtain ⟨b, h5, h6⟩ := (RingBuffer.rep_new (α := α) hW).run dflt
    (((Ring.lib W dflt).lockedCalls d.log).map Prod.snd)
  rw [h5] at h4
  injection h4 with h4
  injection h4 with _ h4
  rw [h4]
  exact h6

/-- `update`, `pop` and `reset` write `m_head`, `m_tail` and `m_full` at most once each. -/
theorem ring_once (W : ℕ) (dflt : α) (op : COp α) (hop : (Ring.lib W dflt).locked op = true) (l : RLoc)
    (hl : l = .head ∨ l = .tail ∨ l = .full) : Once l ((Ring.lib W dflt).code op) := by
  have advn : ∀ (l' : RLoc) (hl' : RVal α l' = ℕ) (k : Ring.RCode α (COut α)), l' ≠ l → NoWrite l k →
      NoWrite l (Ring.advance W l' hl' k) := by
    intro l' hl' k hne hk
    refine .read _ _ fun i => ?_
    split
    · exact .ub _
    · exact .write _ _ _ hne hk
  have advo : ∀ (l' : RLoc) (hl' : RVal α l' = ℕ) (k : Ring.RCode α (COut α)), l' ≠ l → Once l k →
      Once l (Ring.advance W l' hl' k) := by
    intro l' hl' k hne hk
    refine .read _ _ fun i => ?_
    split
    · exact .ub _
    · exact .write _ _ _ hne hk
  have advs : ∀ (hl' : RVal α l = ℕ) (k : Ring.RCode α (COut α)), NoWrite l k →
      Once l (Ring.advance W l hl' k) := by
    intro hl' k hk
    refine .read _ _ fun i => ?_
    split
    · exact .ub _
    · exact .now _ _ hk
  cases op with
  | update x =>
    refine .read _ _ fun h => ?_
    dsimp only
    split
    · refine .write _ _ _ (by rcases hl with rfl | rfl | rfl <;> simp) (.read _ _ fun f => ?_)
      have hend : NoWrite l (.read .count fun (n : ℕ) => .write .count (n + 1 : ℕ) <| .ret .unit :
          Ring.RCode α (COut α)) :=
        .read _ _ fun n => .write _ _ _ (by rcases hl with rfl | rfl | rfl <;> simp) (.ret _)
      have hfull : l ≠ .full → NoWrite l (.read .head fun (h : ℕ) => .read .tail fun (t : ℕ) =>
          .write .full (h == t) <| .read .count fun (n : ℕ) => .write .count (n + 1 : ℕ) <| .ret .unit :
          Ring.RCode α (COut α)) := fun hne => .read _ _ fun h => .read _ _ fun t => .write _ _ _ (Ne.symm hne) hend
      rcases hl with rfl | rfl | rfl
      · have hrest := advs rfl _ (hfull (by simp))
        split
        · exact advo _ _ _ (by simp) hrest
        · exact hrest
      · have hrest := advn .head rfl _ (by simp) (hfull (by simp))
        split
        · exact advs rfl _ hrest
        · exact hrest.once
      · have hnow : Once .full (.read .head fun (h : ℕ) => .read .tail fun (t : ℕ) =>
            .write .full (h == t) <| .read .count fun (n : ℕ) => .write .count (n + 1 : ℕ) <| .ret .unit :
            Ring.RCode α (COut α)) := .read _ _ fun h => .read _ _ fun t => .now _ _ hend
        have hrest := advo .head rfl _ (by simp) hnow
        split
        · exact advo _ _ _ (by simp) hrest
        · exact hrest
    · exact .ub _
  | pop =>
    have hbody : Once l (if (false : Bool) then .ret (.val dflt) else
        .read .tail fun (t : ℕ) =>
        if t < W then
          .read (.cell t) fun (v : Option α) =>
          match v with
          | none => .ub .uninit
          | some v =>
            .write .full false <|
            Ring.advance W .tail rfl <|
            .ret (.val v)
        else .ub .oob : Ring.RCode α (COut α)) := by
      refine .read _ _ fun t => ?_
      split
      · refine .read _ _ fun v => ?_
        rcases v with _ | v
        · exact .ub _
        · rcases hl with rfl | rfl | rfl
          · exact .write _ _ _ (by simp) (advo _ _ _ (by simp) (.ret _))
          · exact .write _ _ _ (by simp) (advs rfl _ (.ret _))
          · exact .now _ _ (advn _ _ _ (by simp) (.ret _))
      · exact .ub _
    refine .read _ _ fun f => ?_
    dsimp only
    split
    · exact hbody
    · refine .read _ _ fun h => .read _ _ fun t => ?_
      rcases (h == t : Bool) with _ | _
      · exact hbody
      · exact .ret _
  | reset =>
    refine .read _ _ fun t => ?_
    rcases hl with rfl | rfl | rfl
    · exact .now _ _ (.write _ _ _ (by simp) (.ret _))
    · exact .write _ _ _ (by simp) (.write _ _ _ (by simp) (.ret _))
    · exact .write _ _ _ (by simp) (.now _ _ (.ret _))
  | size => cases hop
  | empty => cases hop
  | full => cases hop

theorem Rest.run {W : ℕ} {dflt : α} {prog : ι → List (COp α)} {s₀ ts : List ι}
    {c d : Config ι (COp α) RLoc (RVal α) (COut α)} (h : RingRun W dflt prog s₀ c)
    (hd : c.Rest (Ring.lib W dflt) ts d) : ∃ s, RingRun W dflt prog s d ∧ d.owner = none := by
  obtain ⟨s₁, s₂, -, h2, h3⟩ := hd
  exact ⟨_, h.snoc h2, h3⟩

/-- The values an unlocked call sees are those of moments of rest. -/
theorem Observed.sees {W : ℕ} {dflt : α} {prog : ι → List (COp α)} {sched : List ι} {t : ι} {op : COp α} {r : COut α}
    {c₀ c₁ : Config ι (COp α) RLoc (RVal α) (COut α)} (h : Observed W dflt prog sched t op r c₀ c₁)
    (hop : (Ring.lib W dflt).locked op = false) :
    Sees (fun l v => (l = .head ∨ l = .tail ∨ l = .full) →
      ∃ d, c₀.Rest (Ring.lib W dflt) sched d ∧ d.mem l = v) ((Ring.lib W dflt).code op) r := by
  obtain ⟨s₀, h0⟩ := h.before
  obtain ⟨rest, hr⟩ := h.result
  refine Inv.sees (ring_disciplined W dflt prog) (fun l v => ∃ d, c₀.Rest (Ring.lib W dflt) sched d ∧ d.mem l = v)
    (fun l => l = .head ∨ l = .tail ∨ l = .full) (fun l hl t op _ hop => ring_once W dflt op hop l hl) h.free₁ t op hop r
    h0.inv (fun l _ => ⟨fun ho => ⟨c₀, Config.Rest.here ho, rfl⟩, fun u hu => ?_⟩) h.during
    (fun d hd l _ => ⟨d, hd, rfl⟩) h.start hr
  rw [h.free₀] at hu; cases hu

/-- **C78** for `full()`: it returns what is true at some moment of the call at which no other call is under way, whatever
the other threads do. -/
theorem C78_full_partial (W : ℕ) (hW : 1 ≤ W) (dflt : α) (prog : ι → List (COp α)) (sched : List ι) (t : ι) (b : Bool)
    (c₀ c₁ : Config ι (COp α) RLoc (RVal α) (COut α)) (h : Observed W dflt prog sched t .full (.bool b) c₀ c₁) :
    ∃ d, c₀.Rest (Ring.lib W dflt) sched d ∧ decide ((contents W dflt d).length = W) = b := by
  have hs := h.sees rfl
  change Sees _ (Code.read RLoc.full fun (f : Bool) => Code.ret (COut.bool f) : Ring.RCode α (COut α)) _ at hs
  cases hs with
  | read _ _ v _ hv hs =>
    cases hs
    obtain ⟨d, h1, h2⟩ := hv (by simp)
    obtain ⟨s₀, h0⟩ := h.before
    obtain ⟨s, h3, h4⟩ := Rest.run h0 h1
    refine ⟨d, h1, ?_⟩
    rw [← (contents_rep hW h3 h4).full, ← h2]
    rfl

/-- As long as the buffer is empty at rest, `m_tail` stays where it is. -/
structure Parked (W : ℕ) (dflt : α) (τ : ℕ) (c : Config ι (COp α) RLoc (RVal α) (COut α)) : Prop where
  idle : c.owner = none → c.mem .tail = τ
  busy : ∀ u, c.owner = some u → ∃ op k m, (Ring.lib W dflt).locked op = true ∧ (c.threads u).cur = some (op, k) ∧
    ((Ring.lib W dflt).code op).run m = k.run c.mem ∧ (Ring.view W m).isEmpty = true ∧ m .tail = τ

theorem empty_tail {W : ℕ} {dflt : α} {op : COp α} (hop : (Ring.lib W dflt).locked op = true)
    {m m' : Mem RLoc (RVal α)} {r : COut α} (h : ((Ring.lib W dflt).code op).run m = .ok (r, m'))
    (h1 : (Ring.view W m).isEmpty = true) (h2 : (Ring.view W m').isEmpty = true) : m' .tail = m .tail := by
  have hc := Ring.locked_code W dflt op hop m
  rw [h] at hc
  change Res.ok (r, Ring.view W m') = _ at hc
  suffices (Ring.view W m').tail = (Ring.view W m).tail from this
  generalize Ring.view W m = b at *
  generalize Ring.view W m' = b' at *
  have hf : b.full = false ∧ b.head = b.tail := by simpa [RingBuffer.isEmpty] using h1
  have hf' : b'.full = false ∧ b'.head = b'.tail := by simpa [RingBuffer.isEmpty] using h2
  cases op with
  | update x =>
    exfalso
    obtain ⟨b1, e1, e2⟩ := Res.bind_eq_ok.1 hc.symm
    injection e2 with e2
    injection e2 with _ e2
    subst e2
    unfold RingBuffer.update at e1
    obtain ⟨buf, -, e1⟩ := Res.bind_eq_ok.1 e1
    simp only [hf.1, Bool.false_eq_true, if_false, Res.ok_bind] at e1
    obtain ⟨hd, -, e1⟩ := Res.bind_eq_ok.1 e1
    injection e1 with e1
    subst e1
    simp only at hf'
    obtain ⟨g1, g2⟩ := hf'
    rw [g2] at g1
    simp at g1
  | pop =>
    have : b.pop dflt = .ok (dflt, b) := by unfold RingBuffer.pop; rw [if_pos h1]
    simp only [RingBuffer.step, this, Res.ok_bind] at hc
    injection hc with hc
    injection hc with _ hc
    rw [hc]
  | reset =>
    simp only [RingBuffer.step] at hc
    injection hc with hc
    injection hc with _ hc
    rw [hc]; rfl
  | size => cases hop
  | empty => cases hop
  | full => cases hop

theorem Parked.exec {W : ℕ} {dflt : α} {prog : ι → List (COp α)} {τ : ℕ} {ts : List ι}
    {d : Config ι (COp α) RLoc (RVal α) (COut α)} :
    ∀ {c : Config ι (COp α) RLoc (RVal α) (COut α)}, Inv (Ring.lib W dflt) Ring.fresh prog c → Parked W dflt τ c →
      c.exec (Ring.lib W dflt) ts = some d →
      (∀ e, c.Rest (Ring.lib W dflt) ts e → (Ring.view W e.mem).isEmpty = true) → Parked W dflt τ d := by
  induction ts with
  | nil => intro c _ hP h _; unfold Config.exec at h; injection h with h; subst h; exact hP
  | cons t ts ih =>
    intro c hI hP h hE
    unfold Config.exec at h
    obtain ⟨c', h1, h2⟩ := Option.bind_eq_some_iff.1 h
    have hI' := hI.step (ring_disciplined W dflt prog) h1
    have hE' : ∀ e, c'.Rest (Ring.lib W dflt) ts e → (Ring.view W e.mem).isEmpty = true := fun e he => hE e (he.cons h1)
    refine ih hI' ?_ h2 hE'
    rcases hown : c.owner with _ | v
    · obtain ⟨hb, hs⟩ := stepped h1
      have hun : ∀ op k, (c.threads t).cur = some (op, k) → (Ring.lib W dflt).locked op = false ∧ ReadOnly k := by
        intro op k hk
        rcases hop : (Ring.lib W dflt).locked op with _ | _
        · exact ⟨rfl, hI.reader t op k hk hop⟩
        · have := hI.holder t op k hk hop
          rw [hown] at this; cases this
      cases hs with
      | enter op todo g1 g2 g3 =>
        exact ⟨fun _ => hP.idle hown, fun u hu => by simp only at hu; rw [hown] at hu; cases hu⟩
      | lock op todo g1 g2 g3 g4 =>
        refine ⟨(fun hu => by cases hu), fun u hu => ?_⟩
        simp only at hu
        injection hu with hu
        subst hu
        exact ⟨op, _, c.mem, g3, by simp, rfl, hE c (Config.Rest.here hown), hP.idle hown⟩
      | ret op r g1 =>
        refine ⟨fun _ => hP.idle hown, fun u hu => ?_⟩
        simp only [(hun _ _ g1).1] at hu
        rw [hown] at hu; cases hu
      | ub op v g1 => exact absurd (hun _ _ g1).2 (by intro h; cases h)
      | read op l k g1 =>
        exact ⟨fun _ => hP.idle hown, fun u hu => by simp only at hu; rw [hown] at hu; cases hu⟩
      | write op l v k g1 => exact absurd (hun _ _ g1).2 (by intro h; cases h)
      | rmw op l f k g1 => exact absurd (hun _ _ g1).2 (by intro h; cases h)
    · obtain ⟨op, k, m, p1, p2, p3, p4, p5⟩ := hP.busy v hown
      by_cases ht : t = v
      · subst ht
        obtain ⟨hb, hs⟩ := stepped h1
        have own : ∀ (m' : Mem RLoc (RVal α)) (k' : Code RLoc (RVal α) (COut α)) (th), k'.run m' = k.run c.mem →
            th = ⟨(c.threads t).todo, some (op, k'), (c.threads t).res⟩ →
            Parked W dflt τ { c with mem := m', threads := Function.update c.threads t th } := by
          intro m' k' th e1 e2
          subst e2
          refine ⟨(fun hu => by simp only at hu; rw [hown] at hu; cases hu), fun u hu => ?_⟩
          simp only at hu
          rw [hown] at hu
          injection hu with hu
          subst hu
          exact ⟨op, k', m, p1, by simp, p3.trans e1.symm, p4, p5⟩
        cases hs with
        | enter op' todo g1 => rw [p2] at g1; cases g1
        | lock op' todo g1 => rw [p2] at g1; cases g1
        | ret op' r g1 =>
          rw [p2] at g1
          injection g1 with g1
          injection g1 with g1 g2
          subst g1
          subst g2
          have hlast := hE' _ (Config.Rest.here (by simp [p1]))
          refine ⟨fun _ => ?_, fun u hu => by simp [p1] at hu⟩
          simp only
          rw [← p5]
          exact empty_tail p1 p3 p4 hlast
        | ub op' w g1 =>
          refine ⟨(fun hu => by simp only at hu; rw [hown] at hu; cases hu), fun u hu => ?_⟩
          simp only at hu
          rw [hown] at hu
          injection hu with hu
          subst hu
          exact ⟨op, k, m, p1, p2, p3, p4, p5⟩
        | read op' l k' g1 =>
          rw [p2] at g1
          injection g1 with g1
          injection g1 with g1 g2
          subst g1
          subst g2
          exact own c.mem (k' (c.mem l)) _ rfl rfl
        | write op' l w k' g1 =>
          rw [p2] at g1
          injection g1 with g1
          injection g1 with g1 g2
          subst g1
          subst g2
          exact own _ k' _ rfl rfl
        | rmw op' l f k' g1 =>
          rw [p2] at g1
          injection g1 with g1
          injection g1 with g1 g2
          subst g1
          subst g2
          exact own _ (k' (c.mem l)) _ rfl rfl
      · obtain ⟨g1, g2, g3⟩ := hI.other hown ht h1
        refine ⟨(fun hu => by rw [g1] at hu; cases hu), fun u hu => ?_⟩
        rw [g1] at hu
        injection hu with hu
        subst hu
        exact ⟨op, k, m, p1, by rw [g3]; exact p2, by rw [g2]; exact p3, p4, p5⟩

/-- **C78** for `empty()`, one half: if it returns false the buffer holds something at some moment of the call.
Missing: the converse for true (false, `C78_violated`). -/
theorem C78_nonempty_partial (W : ℕ) (hW : 1 ≤ W) (dflt : α) (prog : ι → List (COp α)) (sched : List ι) (t : ι)
    (c₀ c₁ : Config ι (COp α) RLoc (RVal α) (COut α)) (h : Observed W dflt prog sched t .empty (.bool false) c₀ c₁) :
    ∃ d, c₀.Rest (Ring.lib W dflt) sched d ∧ contents W dflt d ≠ [] := by
  by_contra hno
  push Not at hno
  obtain ⟨s₀, h0⟩ := h.before
  have hE : ∀ e, c₀.Rest (Ring.lib W dflt) sched e → (Ring.view W e.mem).isEmpty = true := by
    intro e he
    obtain ⟨s, h3, h4⟩ := Rest.run h0 he
    rw [(contents_rep hW h3 h4).isEmpty, hno e he]
    rfl
  have hT : ∀ e, c₀.Rest (Ring.lib W dflt) sched e → e.mem .tail = c₀.mem .tail := by
    intro e he
    obtain ⟨s₁, s₂, e1, e2, e3⟩ := he
    refine (Parked.exec (τ := c₀.mem .tail) h0.inv ⟨fun _ => rfl, fun u hu => ?_⟩ e2 fun e' he' => ?_).idle e3
    · rw [h.free₀] at hu; cases hu
    · obtain ⟨s₃, s₄, e4, e5, e6⟩ := he'
      exact hE e' ⟨s₃, s₄ ++ s₂, by rw [e1, e4, List.append_assoc], e5, e6⟩
  have hH : ∀ e, c₀.Rest (Ring.lib W dflt) sched e → e.mem .full = false ∧ e.mem .head = c₀.mem .tail := by
    intro e he
    have := hE e he
    have hf : e.mem .full = false ∧ e.mem .head = e.mem .tail := by
      simpa [RingBuffer.isEmpty, Ring.view] using this
    exact ⟨hf.1, hf.2.trans (hT e he)⟩
  have hs := h.sees rfl
  change Sees _ (Code.read RLoc.full fun (f : Bool) => if f then Code.ret (COut.bool false) else
    Code.read RLoc.head fun (h : ℕ) => Code.read RLoc.tail fun (t : ℕ) => Code.ret (COut.bool (h == t)) :
      Ring.RCode α (COut α)) _ at hs
  cases hs with
  | read _ _ f _ hf hs =>
    obtain ⟨d, h1, h2⟩ := hf (by simp)
    rw [(hH d h1).1] at h2
    subst h2
    simp only [Bool.false_eq_true, if_false] at hs
    cases hs with
    | read _ _ hd _ hhd hs =>
      obtain ⟨d, h1, h2⟩ := hhd (by simp)
      rw [(hH d h1).2] at h2
      subst h2
      generalize hr : COut.bool false = r at hs
      cases hs with
      | read _ _ tl _ htl hs =>
        obtain ⟨d, h1, h2⟩ := htl (by simp)
        rw [hT d h1] at h2
        subst h2
        cases hs
        simp at hr

/-- **C78** without interference: if no `update`, `pop` or `reset` is made during the call, `empty()` is exact. -/
theorem C78_alone_partial (W : ℕ) (hW : 1 ≤ W) (dflt : α) (prog : ι → List (COp α)) (sched : List ι) (t : ι) (b : Bool)
    (c₀ c₁ : Config ι (COp α) RLoc (RVal α) (COut α)) (h : Observed W dflt prog sched t .empty (.bool b) c₀ c₁)
    (hquiet : ∀ d, c₀.Rest (Ring.lib W dflt) sched d →
      d.log.filter (fun p => (Ring.lib W dflt).locked p.2) = c₀.log.filter (fun p => (Ring.lib W dflt).locked p.2)) :
    b = (contents W dflt c₀).isEmpty := by
  obtain ⟨s₀, h0⟩ := h.before
  have hM : ∀ e, c₀.Rest (Ring.lib W dflt) sched e → e.mem = c₀.mem := by
    intro e he
    obtain ⟨s, h3, h4⟩ := Rest.run h0 he
    obtain ⟨-, rs, g1, -⟩ := h3.inv.idle h4
    obtain ⟨-, rs', g2, -⟩ := h0.inv.idle h.free₀
    have g3 := hquiet e he
    change (Ring.lib W dflt).lockedCalls e.log = (Ring.lib W dflt).lockedCalls c₀.log at g3
    rw [g3, g2] at g1
    injection g1 with g1
    injection g1 with _ g1
    exact g1.symm
  rw [← (contents_rep hW h0 h.free₀).isEmpty]
  have hs := h.sees rfl
  change Sees _ (Code.read RLoc.full fun (f : Bool) => if f then Code.ret (COut.bool false) else
    Code.read RLoc.head fun (h : ℕ) => Code.read RLoc.tail fun (t : ℕ) => Code.ret (COut.bool (h == t)) :
      Ring.RCode α (COut α)) _ at hs
  have hview : (Ring.view W c₀.mem).isEmpty = (!(c₀.mem .full : Bool) && ((c₀.mem .head : ℕ) == (c₀.mem .tail : ℕ))) := rfl
  rw [hview]
  cases hs with
  | read _ _ f _ hf hs =>
    obtain ⟨d, h1, h2⟩ := hf (by simp)
    rw [hM d h1] at h2
    rw [h2]
    change Bool at f
    rcases f with _ | _
    · simp only [Bool.false_eq_true, if_false] at hs
      cases hs with
      | read _ _ hd _ hhd hs =>
        obtain ⟨d, h1, h2⟩ := hhd (by simp)
        rw [hM d h1] at h2
        cases hs with
        | read _ _ tl _ htl hs =>
          obtain ⟨d, h1, h3⟩ := htl (by simp)
          rw [hM d h1] at h3
          rw [h2, h3]
          cases hs
          rfl
    · simp only [if_true] at hs
      cases hs
      rfl

/-- **C78** is violated: with one element in a buffer of two, `empty()` reads `m_full`, another thread adds an element, and
`empty()` goes on to find `m_head == m_tail`. It returns true although the buffer is never empty. -/
theorem C78_violated : ¬ C78_full := by
  intro h
  let prog : Fin 2 → List (COp ℕ) := fun t => if t = 0 then [.empty] else [.update 1, .update 2]
  let pre : List (Fin 2) := List.replicate 12 1 ++ [0]
  let call : List (Fin 2) := [0] ++ List.replicate 12 1 ++ [0, 0, 0]
  obtain ⟨c₀, h0, hstart⟩ : ∃ c₀, (Config.init Ring.fresh prog).exec (Ring.lib 2 (0 : ℕ)) pre = some c₀ ∧
      (c₀.threads 0).cur = some (.empty, (Ring.lib 2 (0 : ℕ)).code .empty) := ⟨_, rfl, rfl⟩
  -- the moments of the call, with the lock and the contents
  have key : ((Config.init Ring.fresh prog).exec (Ring.lib 2 (0 : ℕ)) pre).all (fun c₀ =>
      c₀.owner == none && (c₀.threads 0).res == [] &&
      (c₀.exec (Ring.lib 2 (0 : ℕ)) call).any (fun c₁ =>
        c₁.owner == none && (c₁.threads 0).res == [(.empty, .bool true)]) &&
      (List.range 17).all (fun n =>
        (c₀.exec (Ring.lib 2 (0 : ℕ)) (call.take n)).all (fun d =>
          d.owner != none || !(contents 2 0 d).isEmpty))) = true := by decide +kernel
  rw [h0] at key
  simp only [Option.all_some, Bool.and_eq_true, beq_iff_eq, List.all_eq_true, List.mem_range] at key
  obtain ⟨⟨⟨k1, k2⟩, k3⟩, k4⟩ := key
  rcases h1 : c₀.exec (Ring.lib 2 (0 : ℕ)) call with _ | c₁
  · rw [h1] at k3; cases k3
  rw [h1] at k3
  simp only [Option.any_some, Bool.and_eq_true, beq_iff_eq] at k3
  obtain ⟨d, ⟨s₁, s₂, g1, g2, g3⟩, g4⟩ := h 2 2 prog call 0 true c₀ c₁ (by norm_num)
    ⟨⟨pre, h0⟩, h1, k1, k3.1, hstart, [], by rw [k2, k3.2]; rfl⟩
  have hlen : s₁.length < 17 := by
    have := congrArg List.length g1
    simp only [List.length_append, show call.length = 16 from rfl] at this
    omega
  have htake : call.take s₁.length = s₁ := by rw [g1]; simp
  have := k4 _ hlen
  rw [htake, g2] at this
  simp only [Option.all_some, g3, g4] at this
  exact absurd this (by decide)

/-- A call of `empty()` overlapping a `pop` that empties the buffer, so that the hypotheses of the theorems
above hold with an actual overlap; it returns false. -/
example : ∃ (prog : Fin 2 → List (COp ℕ)) (sched : List (Fin 2)) (c₀ c₁ : Config (Fin 2) (COp ℕ) RLoc (RVal ℕ) (COut ℕ)),
    Observed 2 0 prog sched 0 .empty (.bool false) c₀ c₁ := by
  let prog : Fin 2 → List (COp ℕ) := fun t => if t = 0 then [.empty] else [.update 1, .pop]
  let pre : List (Fin 2) := List.replicate 12 1 ++ [0]
  let call : List (Fin 2) := [0, 0, 0] ++ List.replicate 10 1 ++ [0]
  obtain ⟨c₀, h0, hstart⟩ : ∃ c₀, (Config.init Ring.fresh prog).exec (Ring.lib 2 (0 : ℕ)) pre = some c₀ ∧
      (c₀.threads 0).cur = some (.empty, (Ring.lib 2 (0 : ℕ)).code .empty) := ⟨_, rfl, rfl⟩
  have key : ((Config.init Ring.fresh prog).exec (Ring.lib 2 (0 : ℕ)) pre).all (fun c₀ =>
      c₀.owner == none && (c₀.threads 0).res == [] &&
      (c₀.exec (Ring.lib 2 (0 : ℕ)) call).any (fun c₁ =>
        c₁.owner == none && (c₁.threads 0).res == [(.empty, .bool false)])) = true := by decide +kernel
  rw [h0] at key
  simp only [Option.all_some, Bool.and_eq_true, beq_iff_eq] at key
  obtain ⟨⟨k1, k2⟩, k3⟩ := key
  rcases h1 : c₀.exec (Ring.lib 2 (0 : ℕ)) call with _ | c₁
  · rw [h1] at k3; cases k3
  rw [h1] at k3
  simp only [Option.any_some, Bool.and_eq_true, beq_iff_eq] at k3
  exact ⟨prog, call, c₀, c₁, ⟨pre, h0⟩, h1, k1, k3.1, hstart, [], by rw [k2, k3.2]; rfl⟩

end

end KML
