import Verif.Model.PublicWindow
import Verif.Props.RingBuffer
import Verif.Props.LinkedList

/-!
# C142, C143: assigning the public window size of RingBuffer and LinkedList
-/

namespace KML

variable {α : Type}

/-- What a queue returns whose capacity can be changed: a new capacity keeps the newest items that fit. -/
def Spec.wrun (dflt : α) (capOf : ℕ → Option ℕ) : ℕ → List α → List (WOp α) → List (COut α) × List α
  | _, q, [] => ([], q)
  | W, q, .call o :: os =>
    let (r, q') := Spec.qstep dflt (capOf W) (fun q => decide (q.length = W)) q o
    let (rs, q'') := Spec.wrun dflt capOf W q' os
    (r :: rs, q'')
  | _, q, .assign n :: os =>
    let (rs, q'') := Spec.wrun dflt capOf n (Spec.windowOf n q) os
    (.unit :: rs, q'')

/-- The results of a history. -/
def resultsOf {σ ρ : Type} (r : Res (List ρ × σ)) : Res (List ρ) := do
  let (rs, _) ← r
  .ok rs

/-- **C142**, the full claim: with positive window sizes a RingBuffer is a queue whose capacity can be changed. -/
def C142_full : Prop :=
  ∀ (W : ℕ) (ops : List (WOp ℤ)), 1 ≤ W → (∀ n, .assign n ∈ ops → 1 ≤ n) →
    ∃ b, runCalls (RingBuffer.wstep 0) (RingBuffer.new W) ops = .ok ((Spec.wrun 0 some W [] ops).1, b)

/-- A larger window size lets `update` write behind the end of the buffer. -/
theorem C142_grow_violated :
    runCalls (RingBuffer.wstep (0 : ℤ)) (RingBuffer.new 1) [.assign 2, .call (.update 1), .call (.update 2)] = .ub .oob := by
  decide

/-- **C142** is violated. -/
theorem C142_violated : ¬ C142_full := by
  intro h
  obtain ⟨b, hb⟩ := h 1 [.assign 2, .call (.update 1), .call (.update 2)] (by decide) (by simp)
  rw [C142_grow_violated] at hb
  cases hb

/-- A smaller window size, later set back, lets `pop` read an element that was never written. -/
theorem C142_shrink_violated :
    runCalls (RingBuffer.wstep (0 : ℤ)) (RingBuffer.new 4)
      [.call (.update 1), .call (.update 2), .call .pop, .call .pop, .assign 1, .call (.update 3), .assign 4, .call .pop,
       .call .pop] = .ub .uninit := by
  decide

/-- A smaller window size alone loses an item: after `update` the buffer is not empty, yet of size 0. -/
theorem C142_size_violated :
    resultsOf (runCalls (RingBuffer.wstep (0 : ℤ)) (RingBuffer.new 2)
      [.call (.update 1), .call .pop, .assign 1, .call (.update 2), .call .size, .call .empty]) =
      .ok [.unit, .val 1, .unit, .unit, .num 0, .bool false] := by
  decide

namespace RingBuffer

/-- Head and tail lie in a buffer of `C` elements. -/
structure Inside (C : ℕ) (b : RingBuffer α) : Prop where
  len : b.buf.length = C
  ws : 1 ≤ b.windowSize
  wc : b.windowSize ≤ C
  head : b.head < C
  tail : b.tail < C

theorem next_lt {C W i : ℕ} (h : 1 ≤ W) (hc : W ≤ C) : ∃ j, next W i = .ok j ∧ j < C :=
  ⟨_, next_ok h, (Nat.mod_lt _ h).trans_le hc⟩

theorem Inside.wstep {C : ℕ} {b : RingBuffer α} (h : Inside C b) (dflt : α) (o : WOp α)
    (ho : ∀ n, o = .assign n → 1 ≤ n ∧ n ≤ C) :
    (∃ r b', b.wstep dflt o = .ok (r, b') ∧ Inside C b') ∨ b.wstep dflt o = .ub .uninit := by
  cases o with
  | assign n =>
    obtain ⟨n1, n2⟩ := ho n rfl
    exact .inl ⟨_, _, rfl, ⟨h.len, n1, n2, h.head, h.tail⟩⟩
  | call o =>
    cases o with
    | update x =>
      left
      obtain ⟨j, hj, hjc⟩ := next_lt (i := b.head) h.ws h.wc
      obtain ⟨t, ht, htc⟩ : ∃ t, (if b.full then next b.windowSize b.tail else .ok b.tail) = Res.ok t ∧ t < C := by
        split
        · exact next_lt h.ws h.wc
        · exact ⟨_, rfl, h.tail⟩
      refine ⟨.unit, ⟨b.windowSize, b.buf.set b.head (some x), j, t, j == t, b.historyCount + 1⟩, ?_, ⟨by simpa using h.len, h.ws, h.wc, hjc, htc⟩⟩
      have hs : store b.buf b.head x = .ok (b.buf.set b.head (some x)) := by
        unfold store
        rw [if_pos (by rw [h.len]; exact h.head)]
      cases hf : b.full with
      | true =>
        rw [hf, if_pos rfl] at ht
        simp [RingBuffer.wstep, RingBuffer.step, RingBuffer.update, hs, hj, hf, ht]
      | false =>
        rw [hf] at ht
        injection ht with ht
        simp [RingBuffer.wstep, RingBuffer.step, RingBuffer.update, hs, hj, hf, ht]
    | pop =>
      simp only [RingBuffer.wstep, RingBuffer.step, RingBuffer.pop]
      split
      · exact .inl ⟨_, _, rfl, h⟩
      · obtain ⟨j, hj, hjc⟩ := next_lt (i := b.tail) h.ws h.wc
        have hlt : b.tail < b.buf.length := by rw [h.len]; exact h.tail
        unfold load
        rw [List.getElem?_eq_getElem hlt]
        cases b.buf[b.tail] with
        | none => exact .inr rfl
        | some v =>
          left
          simp only [Res.ok_bind, hj]
          exact ⟨_, _, rfl, ⟨h.len, h.ws, h.wc, h.head, hjc⟩⟩
    | reset => exact .inl ⟨_, _, rfl, ⟨h.len, h.ws, h.wc, h.tail, h.tail⟩⟩
    | size => exact .inl ⟨_, _, rfl, h⟩
    | empty => exact .inl ⟨_, _, rfl, h⟩
    | full => exact .inl ⟨_, _, rfl, h⟩

/-- `b` is `c` with a longer buffer. -/
structure Longer (c b : RingBuffer α) : Prop where
  buf : ∃ rest, b.buf = c.buf ++ rest
  ws : b.windowSize = c.windowSize
  head : b.head = c.head
  tail : b.tail = c.tail
  full : b.full = c.full

theorem Longer.step {c b c' : RingBuffer α} (h : Longer c b) (dflt : α) (o : COp α) {r : COut α}
    (hc : c.step dflt o = .ok (r, c')) : ∃ b', b.step dflt o = .ok (r, b') ∧ Longer c' b' := by
  obtain ⟨⟨rest, hb⟩, hw, hh, ht, hf⟩ := h
  cases o with
  | update x =>
    obtain ⟨c1, hu, h2⟩ := Res.bind_eq_ok.1 hc
    clear hc
    injection h2 with h2
    injection h2 with h2 h5
    subst h5 h2
    unfold RingBuffer.update at hu
    obtain ⟨buf, h1, hc⟩ := Res.bind_eq_ok.1 hu
    obtain ⟨hlt, h1⟩ : c.head < c.buf.length ∧ buf = c.buf.set c.head (some x) := by
      unfold store at h1
      split at h1
      · injection h1 with h1; exact ⟨‹_›, h1.symm⟩
      · cases h1
    subst h1
    have hs : store b.buf c.head x = .ok (c.buf.set c.head (some x) ++ rest) := by
      unfold store
      rw [if_pos (by rw [hb, List.length_append]; omega), hb, List.set_append_left _ _ hlt]
    cases hcf : c.full with
    | true =>
      rw [hcf] at hc
      obtain ⟨t, h3, hc⟩ := Res.bind_eq_ok.1 hc
      obtain ⟨j, h4, hc⟩ := Res.bind_eq_ok.1 hc
      injection hc with hc
      subst hc
      exact ⟨⟨b.windowSize, c.buf.set c.head (some x) ++ rest, j, t, j == t, b.historyCount + 1⟩, by
        simp [RingBuffer.step, RingBuffer.update, hs, hf, hcf, hw, hh, ht, h3, h4], ⟨⟨rest, rfl⟩, hw, rfl, rfl, rfl⟩⟩
    | false =>
      rw [hcf] at hc
      obtain ⟨t, h3, hc⟩ := Res.bind_eq_ok.1 hc
      injection h3 with h3
      subst h3
      obtain ⟨j, h4, hc⟩ := Res.bind_eq_ok.1 hc
      injection hc with hc
      subst hc
      exact ⟨⟨b.windowSize, c.buf.set c.head (some x) ++ rest, j, c.tail, j == c.tail, b.historyCount + 1⟩, by
        simp [RingBuffer.step, RingBuffer.update, hs, hf, hcf, hw, hh, ht, h4], ⟨⟨rest, rfl⟩, hw, rfl, rfl, rfl⟩⟩
  | pop =>
    have he : b.isEmpty = c.isEmpty := by simp only [RingBuffer.isEmpty, hf, hh, ht]
    simp only [RingBuffer.step, RingBuffer.pop] at hc ⊢
    rw [he]
    by_cases hem : c.isEmpty
    · rw [if_pos hem] at hc ⊢
      simp only [Res.ok_bind] at hc
      injection hc with hc
      injection hc with hc h5
      subst hc h5
      exact ⟨_, rfl, ⟨⟨rest, hb⟩, hw, hh, ht, hf⟩⟩
    · rw [if_neg hem] at hc ⊢
      obtain ⟨⟨v, c1⟩, hc, h2⟩ := Res.bind_eq_ok.1 hc
      obtain ⟨v', h3, hc⟩ := Res.bind_eq_ok.1 hc
      obtain ⟨j, h4, hc⟩ := Res.bind_eq_ok.1 hc
      injection hc with hc
      injection hc with hc h6
      injection h2 with h2
      injection h2 with h2 h5
      subst hc h5 h2 h6
      have hl : load b.buf b.tail = .ok v' := by
        unfold load at h3 ⊢
        rcases hg : c.buf[c.tail]? with _ | g
        · rw [hg] at h3; cases h3
        · rw [hb, ht, List.getElem?_append_left (List.getElem?_eq_some_iff.1 hg).1, hg]
          rw [hg] at h3
          exact h3
      rw [hl, hw, ht, h4]
      exact ⟨_, rfl, ⟨⟨rest, hb⟩, rfl, hh, rfl, rfl⟩⟩
  | reset =>
    injection hc with hc
    injection hc with hc h5
    subst hc h5
    exact ⟨_, rfl, ⟨⟨rest, hb⟩, hw, ht, ht, rfl⟩⟩
  | size =>
    injection hc with hc
    injection hc with hc h5
    subst hc h5
    exact ⟨b, by simp only [RingBuffer.step, RingBuffer.size, hf, hh, ht, hw], ⟨⟨rest, hb⟩, hw, hh, ht, hf⟩⟩
  | empty =>
    injection hc with hc
    injection hc with hc h5
    subst hc h5
    exact ⟨b, by simp only [RingBuffer.step, RingBuffer.isEmpty, hf, hh, ht], ⟨⟨rest, hb⟩, hw, hh, ht, hf⟩⟩
  | full =>
    injection hc with hc
    injection hc with hc h5
    subst hc h5
    exact ⟨b, by simp only [RingBuffer.step, RingBuffer.isFull, hf], ⟨⟨rest, hb⟩, hw, hh, ht, hf⟩⟩

theorem Longer.run (dflt : α) (ops : List (COp α)) : ∀ {c b c' : RingBuffer α} {rs : List (COut α)}, Longer c b →
    runCalls (RingBuffer.step dflt) c ops = .ok (rs, c') →
    ∃ b', runCalls (RingBuffer.wstep dflt) b (ops.map .call) = .ok (rs, b') := by
  induction ops with
  | nil =>
    intro c b c' rs _ h
    injection h with h
    injection h with h _
    subst h
    exact ⟨b, rfl⟩
  | cons o os ih =>
    intro c b c' rs h hr
    simp only [runCalls] at hr
    obtain ⟨⟨r, c1⟩, h1, hr⟩ := Res.bind_eq_ok.1 hr
    obtain ⟨⟨rs', c2⟩, h2, hr⟩ := Res.bind_eq_ok.1 hr
    injection hr with hr
    injection hr with hr _
    subst hr
    obtain ⟨b1, e1, l1⟩ := h.step dflt o h1
    obtain ⟨b2, e2⟩ := ih l1 h2
    exact ⟨b2, by simp [runCalls, RingBuffer.wstep, e1, e2]⟩

end RingBuffer

/-- **C142**, partial: with window sizes from 1 to the one of the constructor there is no access outside of the buffer, no
division by zero, and no exception. What remains possible is `C142_shrink_violated`. -/
theorem C142_bounds_partial (W : ℕ) (hW : 1 ≤ W) (dflt : α) (ops : List (WOp α)) (ho : ∀ n, .assign n ∈ ops → 1 ≤ n ∧ n ≤ W) :
    (runCalls (RingBuffer.wstep dflt) (RingBuffer.new W) ops).IsOk ∨
      runCalls (RingBuffer.wstep dflt) (RingBuffer.new W) ops = .ub .uninit := by
  suffices h : ∀ (b : RingBuffer α), RingBuffer.Inside W b → (runCalls (RingBuffer.wstep dflt) b ops).IsOk ∨
      runCalls (RingBuffer.wstep dflt) b ops = .ub .uninit from
    h _ ⟨by simp [RingBuffer.new], hW, le_rfl, hW, hW⟩
  induction ops with
  | nil => exact fun b _ => .inl ⟨_, rfl⟩
  | cons o os ih =>
    intro b hb
    rcases hb.wstep dflt o (fun n hn => ho n (by simp [hn])) with ⟨r, b', h1, h2⟩ | h1
    · rcases ih (fun n hn => ho n (by simp [hn])) b' h2 with ⟨⟨rs, b2⟩, h3⟩ | h3
      · exact .inl ⟨(r :: rs, b2), by simp [runCalls, h1, h3]⟩
      · exact .inr (by simp [runCalls, h1, h3])
    · exact .inr (by simp [runCalls, h1])

example : resultsOf (runCalls (RingBuffer.wstep (0 : ℤ)) (RingBuffer.new 3)
    [.call (.update 1), .call (.update 2), .call (.update 3), .assign 2, .call (.update 4), .call .pop, .assign 3,
     .call .pop]) = .ok [.unit, .unit, .unit, .unit, .unit, .val 2, .unit, .val 4] := by
  decide

/-- **C142**, partial: a smaller window size assigned before the first call is as good as one given to the constructor. -/
theorem C142_fresh_partial (W n : ℕ) (h1 : 1 ≤ n) (hn : n ≤ W) (dflt : α) (ops : List (COp α)) :
    ∃ b, runCalls (RingBuffer.wstep dflt) (RingBuffer.new W) (.assign n :: ops.map .call) =
      .ok (.unit :: boundedQueueOutputs dflt n ops, b) := by
  obtain ⟨c, hc⟩ := C01_ringbuffer_is_bounded_fifo n h1 dflt ops
  have hl : RingBuffer.Longer (RingBuffer.new n : RingBuffer α) { (RingBuffer.new W : RingBuffer α) with windowSize := n } :=
    ⟨⟨List.replicate (W - n) none, by simp [RingBuffer.new, Nat.add_sub_cancel' hn]⟩, rfl, rfl, rfl, rfl⟩
  obtain ⟨b, hb⟩ := hl.run dflt ops hc
  exact ⟨b, by simp [runCalls, RingBuffer.wstep] at hb ⊢; simp [hb]⟩

example : resultsOf (runCalls (RingBuffer.wstep (0 : ℤ)) (RingBuffer.new 5)
    (.assign 2 :: [.update 1, .update 2, .update 3, .size, .pop].map .call)) =
      .ok [.unit, .unit, .unit, .unit, .num 2, .val 2] := by
  decide

/-- **C143**, the full claim: a LinkedList is a queue whose capacity can be changed (0: unbounded). Calls of `reset` and
`full` are left out, see C10 and C12. -/
def C143_full : Prop :=
  ∀ (W : ℕ) (ops : List (WOp ℤ)), .call .reset ∉ ops → .call .full ∉ ops →
    ∃ l, runCalls (LinkedList.wstep 0) (LinkedList.new W) ops = .ok ((Spec.wrun 0 listCap W [] ops).1, l)

/-- **C143** is violated: with the window size reduced from 3 to 2 the list holds 3 items, and 4 after the next update. -/
theorem C143_violated : ¬ C143_full := by
  intro h
  obtain ⟨l, hl⟩ := h 3 [.call (.update 1), .call (.update 2), .call (.update 3), .assign 2, .call .size, .call (.update 4),
    .call .size] (by decide) (by decide)
  have : resultsOf (runCalls (LinkedList.wstep (0 : ℤ)) (LinkedList.new 3) [.call (.update 1), .call (.update 2),
    .call (.update 3), .assign 2, .call .size, .call (.update 4), .call .size]) =
      .ok [.unit, .unit, .unit, .unit, .num 3, .unit, .num 4] := by decide
  rw [hl] at this
  injection this with this
  revert this
  clear hl l
  decide

/-- One call on a list that evicts only when it holds exactly `W` items; `none` for a `reset` of an empty list. -/
def Spec.listStep (dflt : α) (W : ℕ) (q : List α) : COp α → Option (COut α × List α)
  | .update x => some (.unit, if q ≠ [] ∧ q.length = W then (q ++ [x]).tail else q ++ [x])
  | .pop => match q with
    | [] => some (.val dflt, [])
    | x :: xs => some (.val x, xs)
  | .reset => match q with
    | [] => none
    | _ :: _ => some (.unit, [])
  | .size => some (.num q.length, q)
  | .empty => some (.bool q.isEmpty, q)
  | .full => some (.bool !q.isEmpty, q)

/-- A history of calls and assignments on such a list. -/
def Spec.listRun (dflt : α) : ℕ → List α → List (WOp α) → Option (List (COut α) × List α)
  | _, q, [] => some ([], q)
  | W, q, .call o :: os => do
    let (r, q') ← Spec.listStep dflt W q o
    let (rs, q'') ← Spec.listRun dflt W q' os
    some (r :: rs, q'')
  | _, q, .assign n :: os => do
    let (rs, q'') ← Spec.listRun dflt n q os
    some (.unit :: rs, q'')

namespace LinkedList

/-- The same list with another window size. -/
def setW (n : ℕ) (l : LinkedList α) : LinkedList α := { l with windowSize := n }

theorem setW_self (l : LinkedList α) : setW l.windowSize l = l := rfl

theorem pop_setW (n : ℕ) (l : LinkedList α) (dflt : α) :
    (setW n l).pop dflt = (l.pop dflt >>= fun r => .ok (r.1, setW n r.2)) := by
  have he : (setW n l).isEmpty = l.isEmpty := rfl
  unfold LinkedList.pop
  rw [he]
  split
  · rfl
  · rcases h : l.heap.deref l.head with ⟨a, n'⟩ | m | u
    · have h' : (setW n l).heap.deref (setW n l).head = .ok (a, n') := h
      rw [h']
      simp only [Res.ok_bind]
      rcases h2 : l.heap.free a with hp | m | u
      · have h2' : (setW n l).heap.free a = .ok hp := h2
        rw [h2']; rfl
      · have h2' : (setW n l).heap.free a = .throw m := h2
        rw [h2']; rfl
      · have h2' : (setW n l).heap.free a = .ub u := h2
        rw [h2']; rfl
    · have h' : (setW n l).heap.deref (setW n l).head = .throw m := h
      rw [h']; rfl
    · have h' : (setW n l).heap.deref (setW n l).head = .ub u := h
      rw [h']; rfl

theorem reset_setW (n : ℕ) (l : LinkedList α) : (setW n l).reset = (l.reset >>= fun r => .ok (setW n r)) := by
  unfold LinkedList.reset
  rcases h : l.heap.deref l.head with ⟨a, n'⟩ | m | u
  · have h' : (setW n l).heap.deref (setW n l).head = .ok (a, n') := h
    rw [h']
    simp only [Res.ok_bind]
    rcases h2 : LinkedList.sweep l.heap l.heap.length n'.next with hp | m | u
    · have h2' : LinkedList.sweep (setW n l).heap (setW n l).heap.length n'.next = .ok hp := h2
      rw [h2']; rfl
    · have h2' : LinkedList.sweep (setW n l).heap (setW n l).heap.length n'.next = .throw m := h2
      rw [h2']; rfl
    · have h2' : LinkedList.sweep (setW n l).heap (setW n l).heap.length n'.next = .ub u := h2
      rw [h2']; rfl
  · have h' : (setW n l).heap.deref (setW n l).head = .throw m := h
    rw [h']; rfl
  · have h' : (setW n l).heap.deref (setW n l).head = .ub u := h
    rw [h']; rfl

/-- `update` looks at the window size only to compare it with the size. -/
theorem update_setW (n : ℕ) (l : LinkedList α) (dflt x : α) (h : l.isEmpty = true ∨ (l.size ≠ n ∧ l.size ≠ l.windowSize)) :
    (setW n l).update dflt x = (l.update dflt x >>= fun r => .ok (setW n r)) := by
  rcases he : l.isEmpty with _ | _
  · obtain ⟨h1, h2⟩ := h.resolve_left (by rw [he]; simp)
    have hne : l.head ≠ none := by rintro h0; simp [LinkedList.isEmpty, h0] at he
    simp only [LinkedList.update, Heap.alloc, LinkedList.isEmpty, setW, beq_iff_eq, hne, ite_false, h1, h2]
    rcases h3 : Heap.deref (l.heap ++ [some (⟨x, none, none⟩ : Node α)]) l.tail with ⟨t, tn⟩ | m | u
    · simp only [Res.ok_bind]
      rcases h4 : Heap.deref ((l.heap ++ [some (⟨x, none, none⟩ : Node α)]).set t (some { tn with next := some l.heap.length }))
        (some l.heap.length) with ⟨t', tn'⟩ | m | u <;> rfl
    · rfl
    · rfl
  · have hne : l.head = none := by simpa [LinkedList.isEmpty] using he
    simp only [LinkedList.update, Heap.alloc, LinkedList.isEmpty, setW, beq_iff_eq, hne, ite_true]
    rfl

/-- `l` holds the queue `q`, whatever its window size. -/
def Holds (l : LinkedList α) (q : List α) : Prop := ∃ lost, Rep 0 (setW 0 l) q lost

theorem Holds.rep {l : LinkedList α} {q : List α} (h : Holds l q) (hq : l.windowSize ≠ 0 → q.length ≤ l.windowSize) :
    ∃ lost, Rep l.windowSize l q lost := by
  obtain ⟨lost, h⟩ := h
  exact ⟨lost, rfl, h.chain, h.size, hq, h.live⟩

theorem Rep.holds {W : ℕ} {l : LinkedList α} {q : List α} {lost : ℕ} (h : Rep W l q lost) : Holds l q :=
  ⟨lost, rfl, h.chain, h.size, fun h => absurd rfl h, h.live⟩

theorem Holds.setW {l : LinkedList α} {q : List α} (h : Holds l q) (n : ℕ) : Holds (LinkedList.setW n l) q := h

theorem Holds.step {l : LinkedList α} {q : List α} (h : Holds l q) (dflt : α) (o : COp α) :
    match Spec.listStep dflt l.windowSize q o with
    | none => l.step dflt o = .ub .nullDeref
    | some (r, q') => ∃ l', l.step dflt o = .ok (r, l') ∧ Holds l' q' ∧ l'.windowSize = l.windowSize := by
  obtain ⟨lost, hr⟩ := h
  have hl : LinkedList.setW l.windowSize (LinkedList.setW 0 l) = l := rfl
  have hem : l.isEmpty = q.isEmpty := hr.isEmpty
  have hsz : l.size = q.length := hr.size
  cases o with
  | update x =>
    simp only [Spec.listStep]
    by_cases hc : q ≠ [] ∧ q.length = l.windowSize
    · rw [if_pos hc]
      obtain ⟨lost', hrep⟩ := Holds.rep ⟨lost, hr⟩ (fun _ => hc.2.le)
      obtain ⟨l', e1, e2, -⟩ := hrep.update dflt x
      have hpos : 0 < q.length := List.length_pos_iff.2 hc.1
      have hp : Spec.push (cap l.windowSize) q x = (q ++ [x]).tail := by
        unfold cap Spec.push
        rw [if_neg (by omega)]
        simp only [hc.2, lt_irrefl, if_false]
      rw [hp] at e2
      exact ⟨l', by simp [LinkedList.step, e1], e2.holds, e2.ws⟩
    · rw [if_neg hc]
      obtain ⟨l', e1, e2, -⟩ := hr.update dflt x
      have hu := update_setW l.windowSize (LinkedList.setW 0 l) dflt x (by
        rcases q with _ | ⟨y, q⟩
        · left; exact hem
        · right
          refine ⟨fun h => hc ⟨by simp, ?_⟩, fun h => ?_⟩
          · rw [← hsz]; exact h
          · have : l.size = 0 := h
            rw [hsz] at this
            simp at this)
      rw [hl, e1] at hu
      refine ⟨LinkedList.setW l.windowSize l', by simp [LinkedList.step, hu], ⟨lost, ?_⟩, rfl⟩
      have h0 : LinkedList.setW 0 (LinkedList.setW l.windowSize l') = l' := by
        have := e2.ws
        unfold LinkedList.setW
        rw [← this]
      rw [h0]
      exact e2
  | pop =>
    have hu := pop_setW l.windowSize (LinkedList.setW 0 l) dflt
    rw [hl] at hu
    cases q with
    | nil =>
      rw [hr.pop_nil] at hu
      exact ⟨l, by simp [LinkedList.step, hu, hl], ⟨lost, hr⟩, rfl⟩
    | cons y q =>
      obtain ⟨l', e1, e2, -⟩ := hr.pop_cons dflt
      rw [e1] at hu
      refine ⟨LinkedList.setW l.windowSize l', by simp [LinkedList.step, hu], ⟨lost, ?_⟩, rfl⟩
      have h0 : LinkedList.setW 0 (LinkedList.setW l.windowSize l') = l' := by
        have := e2.ws
        unfold LinkedList.setW
        rw [← this]
      rw [h0]
      exact e2
  | reset =>
    have hu := reset_setW l.windowSize (LinkedList.setW 0 l)
    rw [hl] at hu
    cases q with
    | nil =>
      rw [hr.reset_nil] at hu
      simp [Spec.listStep, LinkedList.step, hu]
    | cons y q =>
      obtain ⟨l', e1, e2, -⟩ := hr.reset
      rw [e1] at hu
      refine ⟨LinkedList.setW l.windowSize l', by simp [LinkedList.step, hu], ⟨lost + (y :: q).length, ?_⟩, rfl⟩
      have h0 : LinkedList.setW 0 (LinkedList.setW l.windowSize l') = l' := by
        have := e2.ws
        unfold LinkedList.setW
        rw [← this]
      rw [h0]
      exact e2
  | size => exact ⟨l, by simp [LinkedList.step, hsz], ⟨lost, hr⟩, rfl⟩
  | empty => exact ⟨l, by simp [LinkedList.step, hem], ⟨lost, hr⟩, rfl⟩
  | full =>
    have hf : l.isFull = !q.isEmpty := by rw [← hem]; rfl
    exact ⟨l, by simp [LinkedList.step, hf], ⟨lost, hr⟩, rfl⟩

theorem Holds.run (dflt : α) (ops : List (WOp α)) : ∀ {l : LinkedList α} {q : List α}, Holds l q →
    match Spec.listRun dflt l.windowSize q ops with
    | none => runCalls (LinkedList.wstep dflt) l ops = .ub .nullDeref
    | some (rs, q') => ∃ l', runCalls (LinkedList.wstep dflt) l ops = .ok (rs, l') ∧ Holds l' q' := by
  induction ops with
  | nil => intro l q h; exact ⟨l, rfl, h⟩
  | cons o os ih =>
    intro l q h
    cases o with
    | assign n =>
      have := ih (h.setW n)
      simp only [Spec.listRun]
      have hw : (LinkedList.setW n l).windowSize = n := rfl
      rw [hw] at this
      rcases hr : Spec.listRun dflt n q os with _ | ⟨rs, q'⟩
      · rw [hr] at this
        simp only [LinkedList.setW] at this
        simp [runCalls, LinkedList.wstep, this]
      · rw [hr] at this
        obtain ⟨l', e1, e2⟩ := this
        simp only [LinkedList.setW] at e1
        exact ⟨l', by simp [runCalls, LinkedList.wstep, e1], e2⟩
    | call o =>
      have hs := h.step dflt o
      simp only [Spec.listRun]
      rcases hq : Spec.listStep dflt l.windowSize q o with _ | ⟨r, q1⟩
      · rw [hq] at hs
        simp only at hs
        simp [runCalls, LinkedList.wstep, hs]
      · rw [hq] at hs
        obtain ⟨l1, e1, e2, e3⟩ := hs
        have := ih e2
        rw [e3] at this
        simp only [Option.bind_eq_bind, Option.bind_some]
        rcases hr : Spec.listRun dflt l.windowSize q1 os with _ | ⟨rs, q'⟩
        · rw [hr] at this
          simp only at this
          simp [runCalls, LinkedList.wstep, e1, this]
        · rw [hr] at this
          obtain ⟨l', e4, e5⟩ := this
          exact ⟨l', by simp [runCalls, LinkedList.wstep, e1, e4], e5⟩

end LinkedList

/-- **C143**, what holds for every history of calls and assignments: an item is evicted exactly when the list holds as many as
the window size of the moment; the only undefined behaviour is `reset` on an empty list. -/
theorem C143_exact_partial (W : ℕ) (dflt : α) (ops : List (WOp α)) :
    match Spec.listRun dflt W [] ops with
    | none => runCalls (LinkedList.wstep dflt) (LinkedList.new W) ops = .ub .nullDeref
    | some (rs, q) => ∃ l, runCalls (LinkedList.wstep dflt) (LinkedList.new W) ops = .ok (rs, l) ∧ l.display = .ok q := by
  have h := ((LinkedList.rep_new (α := α) (W := W)).holds).run dflt ops
  have hw : (LinkedList.new W : LinkedList α).windowSize = W := rfl
  rw [hw] at h
  rcases hr : Spec.listRun dflt W [] ops with _ | ⟨rs, q⟩
  · rw [hr] at h; exact h
  · rw [hr] at h
    obtain ⟨l, e1, lost, e2⟩ := h
    exact ⟨l, e1, e2.display⟩

example : Spec.listRun (0 : ℤ) 3 [] [.call (.update 1), .call (.update 2), .call (.update 3), .assign 2, .call (.update 4),
    .call .pop, .call .pop, .call (.update 5), .call .size] =
      some ([.unit, .unit, .unit, .unit, .unit, .val 1, .val 2, .unit, .num 2], [4, 5]) := by
  decide

theorem Spec.listRun_updates (dflt : α) (n : ℕ) (ys : List α) : ∀ (q : List α), n < q.length →
    ∃ rs, Spec.listRun dflt n q (ys.map fun y => .call (.update y)) = some (rs, q ++ ys) := by
  induction ys with
  | nil => intro q _; exact ⟨[], by simp [Spec.listRun]⟩
  | cons y ys ih =>
    intro q h
    obtain ⟨rs, hrs⟩ := ih (q ++ [y]) (by simp; omega)
    refine ⟨.unit :: rs, ?_⟩
    have : ¬ (q ≠ [] ∧ q.length = n) := fun hc => by omega
    simp [Spec.listRun, Spec.listStep, this, hrs]

theorem Spec.listRun_filling (dflt : α) (W : ℕ) (xs : List α) (os : List (WOp α)) : ∀ (q : List α), q.length + xs.length ≤ W →
    Spec.listRun dflt W q (xs.map (fun y => .call (.update y)) ++ os) =
      (Spec.listRun dflt W (q ++ xs) os).map fun r => (xs.map (fun _ => .unit) ++ r.1, r.2) := by
  induction xs with
  | nil => intro q _; simp
  | cons x xs ih =>
    intro q h
    simp only [List.length_cons] at h
    have := ih (q ++ [x]) (by simp; omega)
    have hc : ¬ (q ≠ [] ∧ q.length = W) := fun hc => by omega
    simp only [List.map_cons, List.cons_append, Spec.listRun, Spec.listStep, if_neg hc, Option.bind_eq_bind, Option.bind_some,
      this, List.append_assoc, List.nil_append]
    rcases Spec.listRun dflt W (q ++ x :: xs) os with _ | ⟨rs, q'⟩ <;> rfl

/-- Once the window size is below the number of items held, nothing is ever evicted again: however many updates follow, the
list keeps them all. -/
theorem C143_unbounded_violated (W n : ℕ) (dflt : α) (xs ys : List α) (hx : xs.length ≤ W) (hn : n < xs.length) :
    ∃ rs l, runCalls (LinkedList.wstep dflt) (LinkedList.new W)
        (xs.map (fun y => .call (.update y)) ++ .assign n :: ys.map fun y => .call (.update y)) = .ok (rs, l) ∧
      l.display = .ok (xs ++ ys) := by
  have h := C143_exact_partial W dflt (xs.map (fun y => .call (.update y)) ++ .assign n :: ys.map fun y => .call (.update y))
  obtain ⟨rs, hrs⟩ := Spec.listRun_updates dflt n ys xs hn
  rw [Spec.listRun_filling dflt W xs _ [] (by simpa using hx)] at h
  simp only [List.nil_append, Spec.listRun, hrs, Option.bind_eq_bind, Option.bind_some, Option.map_some] at h
  obtain ⟨l, e1, e2⟩ := h
  exact ⟨_, l, e1, e2⟩

example : (3 : ℕ) ≤ 3 ∧ 2 < [1, 2, 3].length := by decide

/-- Every assigned window size is 0 or leaves room for the items held, `reset` is not called on an empty list, `full` is not
called (C10, C12). -/
def roomy (dflt : α) : ℕ → List α → List (WOp α) → Prop
  | _, _, [] => True
  | W, q, .call o :: os => o ≠ .full ∧ (o = .reset → q ≠ []) ∧
      roomy dflt W (Spec.qstep dflt (listCap W) (fun q => decide (q.length = W)) q o).2 os
  | _, q, .assign n :: os => (n = 0 ∨ q.length ≤ n) ∧ roomy dflt n q os

theorem windowOf_roomy {n : ℕ} {q : List α} (h : n = 0 ∨ q.length ≤ n) : Spec.windowOf n q = q := by
  unfold Spec.windowOf Spec.lastN
  split
  · rfl
  · rw [show q.length - n = 0 by omega, List.drop_zero]

theorem listStep_roomy (dflt : α) {W : ℕ} {q : List α} (h : W = 0 ∨ q.length ≤ W) {o : COp α} (h1 : o ≠ .full)
    (h2 : o = .reset → q ≠ []) :
    Spec.listStep dflt W q o = some (Spec.qstep dflt (listCap W) (fun q => decide (q.length = W)) q o) ∧
      (W = 0 ∨ (Spec.qstep dflt (listCap W) (fun q => decide (q.length = W)) q o).2.length ≤ W) := by
  cases o with
  | update x =>
    simp only [Spec.listStep, Spec.qstep, Spec.push, listCap]
    by_cases h0 : W = 0
    · subst h0
      simp
    · have hq := h.resolve_left h0
      rw [if_neg h0]
      by_cases hl : q.length < W
      · have : ¬ (q ≠ [] ∧ q.length = W) := fun hc => by omega
        simp only [if_pos hl, if_neg this]
        exact ⟨trivial, .inr (by simp; omega)⟩
      · have hc : q ≠ [] ∧ q.length = W := ⟨by rintro rfl; simp at hl; omega, by omega⟩
        simp only [if_neg hl, if_pos hc]
        exact ⟨trivial, .inr (by simp; omega)⟩
  | pop =>
    cases q with
    | nil => exact ⟨rfl, .inr (by simp [Spec.qstep])⟩
    | cons y q => exact ⟨rfl, h.imp id fun h => by simp [Spec.qstep] at h ⊢; omega⟩
  | reset =>
    cases q with
    | nil => exact absurd rfl (h2 rfl)
    | cons y q => exact ⟨rfl, .inr (by simp [Spec.qstep])⟩
  | size => exact ⟨rfl, h⟩
  | empty => exact ⟨rfl, h⟩
  | full => exact absurd rfl h1

theorem listRun_roomy (dflt : α) (ops : List (WOp α)) : ∀ (W : ℕ) (q : List α), (W = 0 ∨ q.length ≤ W) → roomy dflt W q ops →
    Spec.listRun dflt W q ops = some (Spec.wrun dflt listCap W q ops) := by
  induction ops with
  | nil => intros; rfl
  | cons o os ih =>
    intro W q h hr
    cases o with
    | call o =>
      obtain ⟨h1, h2, h3⟩ := hr
      obtain ⟨e1, e2⟩ := listStep_roomy dflt h h1 h2
      have := ih W _ e2 h3
      simp only [Spec.listRun, Spec.wrun, e1, Option.bind_eq_bind, Option.bind_some, this]
    | assign n =>
      obtain ⟨h1, h2⟩ := hr
      have := ih n q h1 h2
      simp only [Spec.listRun, Spec.wrun, Option.bind_eq_bind, windowOf_roomy h1, this, Option.bind_some]

/-- **C143**, partial: the claim holds as long as an assigned window size is not below the number of items held. -/
theorem C143_roomy_partial (W : ℕ) (dflt : α) (ops : List (WOp α)) (h : roomy dflt W [] ops) :
    ∃ l, runCalls (LinkedList.wstep dflt) (LinkedList.new W) ops = .ok ((Spec.wrun dflt listCap W [] ops).1, l) ∧
      l.display = .ok (Spec.wrun dflt listCap W [] ops).2 := by
  have := C143_exact_partial W dflt ops
  rw [listRun_roomy dflt ops W [] (.inr (by simp)) h] at this
  exact this

example : roomy (0 : ℤ) 2 [] [.call (.update 1), .call (.update 2), .call (.update 3), .assign 3, .call (.update 4),
    .call .pop, .assign 2, .call (.update 5)] := by
  simp [roomy, Spec.qstep, Spec.push, listCap]

end KML
