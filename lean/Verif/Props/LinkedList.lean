import Verif.Lemmas.LinkedList

/-!
# C08–C12: LinkedList
-/

namespace KML

variable {α : Type}

/-- The window a `LinkedList` is meant to keep: 0 means everything. -/
def listCap (W : ℕ) : Option ℕ := if W = 0 then none else some W

/-- No call of `reset` happens while the queue is empty. -/
def noEmptyReset (cap : Option ℕ) : List α → List (COp α) → Prop
  | _, [] => True
  | q, .reset :: os => q ≠ [] ∧ noEmptyReset cap [] os
  | q, .update x :: os => noEmptyReset cap (Spec.push cap q x) os
  | q, .pop :: os => noEmptyReset cap q.tail os
  | q, _ :: os => noEmptyReset cap q os

/-- Items dropped by `reset` calls over a history. -/
def itemsReset (cap : Option ℕ) : List α → List (COp α) → ℕ
  | _, [] => 0
  | q, .reset :: os => q.length + itemsReset cap [] os
  | q, .update x :: os => itemsReset cap (Spec.push cap q x) os
  | q, .pop :: os => itemsReset cap q.tail os
  | q, _ :: os => itemsReset cap q os

/-- What the queue holds after a history. -/
def queueAfter (cap : Option ℕ) : List α → List (COp α) → List α
  | q, [] => q
  | _, .reset :: os => queueAfter cap [] os
  | q, .update x :: os => queueAfter cap (Spec.push cap q x) os
  | q, .pop :: os => queueAfter cap q.tail os
  | q, _ :: os => queueAfter cap q os

/-- What a history of calls returns, with `full()` answering as implemented ("not empty"). -/
def listOutputs (dflt : α) (W : ℕ) (q : List α) (ops : List (COp α)) : List (COut α) :=
  (Spec.qrun dflt (listCap W) (fun q => !q.isEmpty) q ops).1

theorem LinkedList.Rep.run {W : ℕ} (dflt : α) (ops : List (COp α)) :
    ∀ {l : LinkedList α} {q : List α} {lost : ℕ}, LinkedList.Rep W l q lost →
    (noEmptyReset (listCap W) q ops → ∃ l', runCalls (LinkedList.step dflt) l ops =
        .ok (listOutputs dflt W q ops, l') ∧
      LinkedList.Rep W l' (queueAfter (listCap W) q ops)
        (lost + itemsReset (listCap W) q ops)) ∧
    (¬ noEmptyReset (listCap W) q ops →
      runCalls (LinkedList.step dflt) l ops = .ub .nullDeref) := by
  induction ops with
  | nil => intro l q lost h; exact ⟨fun _ => ⟨l, rfl, h⟩, fun hn => absurd trivial hn⟩
  | cons o os ih =>
    intro l q lost h
    cases o with
    | update x =>
      obtain ⟨l1, h1, r1, _⟩ := h.update dflt x
      obtain ⟨ih1, ih2⟩ := ih r1
      constructor
      · intro hn
        obtain ⟨l2, h2, r2⟩ := ih1 hn
        exact ⟨l2, by simp [runCalls, LinkedList.step, h1, h2, listOutputs, Spec.qrun, Spec.qstep,
          LinkedList.cap, listCap], r2⟩
      · intro hn
        simp [runCalls, LinkedList.step, h1, ih2 hn]
    | pop =>
      cases q with
      | nil =>
        obtain ⟨ih1, ih2⟩ := ih h
        constructor
        · intro hn
          obtain ⟨l2, h2, r2⟩ := ih1 hn
          exact ⟨l2, by simp [runCalls, LinkedList.step, h.pop_nil, h2, listOutputs, Spec.qrun,
            Spec.qstep], r2⟩
        · intro hn
          simp [runCalls, LinkedList.step, h.pop_nil, ih2 hn]
      | cons y q =>
        obtain ⟨l1, h1, r1, _⟩ := h.pop_cons dflt
        obtain ⟨ih1, ih2⟩ := ih r1
        constructor
        · intro hn
          obtain ⟨l2, h2, r2⟩ := ih1 hn
          exact ⟨l2, by simp [runCalls, LinkedList.step, h1, h2, listOutputs, Spec.qrun,
            Spec.qstep], r2⟩
        · intro hn
          simp [runCalls, LinkedList.step, h1, ih2 hn]
    | reset =>
      cases q with
      | nil =>
        refine ⟨fun hn => absurd rfl hn.1, fun _ => ?_⟩
        simp [runCalls, LinkedList.step, h.reset_nil]
      | cons y q =>
        obtain ⟨l1, h1, r1, _⟩ := h.reset
        obtain ⟨ih1, ih2⟩ := ih r1
        constructor
        · intro hn
          obtain ⟨l2, h2, r2⟩ := ih1 hn.2
          refine ⟨l2, by simp [runCalls, LinkedList.step, h1, h2, listOutputs, Spec.qrun,
            Spec.qstep], ?_⟩
          simpa [queueAfter, itemsReset, Nat.add_assoc] using r2
        · intro hn
          have : ¬ noEmptyReset (listCap W) [] os := fun h => hn ⟨by simp, h⟩
          simp [runCalls, LinkedList.step, h1, ih2 this]
    | size =>
      obtain ⟨ih1, ih2⟩ := ih h
      constructor
      · intro hn
        obtain ⟨l2, h2, r2⟩ := ih1 hn
        exact ⟨l2, by simp [runCalls, LinkedList.step, h.size, h2, listOutputs, Spec.qrun,
          Spec.qstep], r2⟩
      · intro hn
        simp [runCalls, LinkedList.step, ih2 hn]
    | empty =>
      obtain ⟨ih1, ih2⟩ := ih h
      constructor
      · intro hn
        obtain ⟨l2, h2, r2⟩ := ih1 hn
        exact ⟨l2, by simp [runCalls, LinkedList.step, h.isEmpty, h2, listOutputs, Spec.qrun,
          Spec.qstep], r2⟩
      · intro hn
        simp [runCalls, LinkedList.step, ih2 hn]
    | full =>
      obtain ⟨ih1, ih2⟩ := ih h
      constructor
      · intro hn
        obtain ⟨l2, h2, r2⟩ := ih1 hn
        have hf : l.isFull = !q.isEmpty := by
          rw [← h.isEmpty]; rfl
        exact ⟨l2, by simp [runCalls, LinkedList.step, hf, h2, listOutputs, Spec.qrun,
          Spec.qstep], r2⟩
      · intro hn
        simp [runCalls, LinkedList.step, ih2 hn]

theorem qrun_full_irrelevant (dflt : α) (cap : Option ℕ) (f g : List α → Bool) (ops : List (COp α)) :
    ∀ q : List α, .full ∉ ops → Spec.qrun dflt cap f q ops = Spec.qrun dflt cap g q ops := by
  induction ops with
  | nil => intros; rfl
  | cons o os ih =>
    intro q h
    simp only [List.mem_cons, not_or] at h
    have : Spec.qstep dflt cap f q o = Spec.qstep dflt cap g q o := by
      cases o <;> first | rfl | exact absurd rfl h.1
    simp [Spec.qrun, this, ih _ h.2]

theorem qrun_snd (dflt : α) (cap : Option ℕ) (f : List α → Bool) (ops : List (COp α)) :
    ∀ q : List α, (Spec.qrun dflt cap f q ops).2 = queueAfter cap q ops := by
  induction ops with
  | nil => intro q; rfl
  | cons o os ih =>
    intro q
    cases o with
    | pop => cases q <;> simp [Spec.qrun, Spec.qstep, queueAfter, ih]
    | _ => simp [Spec.qrun, Spec.qstep, queueAfter, ih]

/-- **C08.** For every window size, element type and history of update, pop, size, empty and of reset
on non-empty lists, a LinkedList returns exactly what a plain queue of capacity `W` (unbounded for
`W = 0`) returns, and walking it from the head shows exactly the queue, oldest first. -/
theorem C08_linkedlist_is_windowed_fifo (W : ℕ) (dflt : α) (ops : List (COp α))
    (hfull : .full ∉ ops) (hreset : noEmptyReset (listCap W) [] ops) (fullFn : List α → Bool) :
    ∃ l, runCalls (LinkedList.step dflt) (LinkedList.new W) ops =
        .ok ((Spec.qrun dflt (listCap W) fullFn [] ops).1, l) ∧
      l.display = .ok (Spec.qrun dflt (listCap W) fullFn [] ops).2 := by
  obtain ⟨l, h1, h2⟩ := ((LinkedList.rep_new (α := α) (W := W)).run dflt ops).1 hreset
  refine ⟨l, ?_, ?_⟩
  · rw [h1, listOutputs, qrun_full_irrelevant dflt _ _ fullFn ops [] hfull]
  · rw [qrun_snd]; exact h2.display

/-- instance: eviction, pops past the end, a reset and reuse after it -/
example : ∃ l, runCalls (LinkedList.step (0 : ℤ)) (LinkedList.new 2)
    [.update 1, .update 2, .update 3, .pop, .reset, .update 7, .pop, .pop, .update 8, .size] =
    .ok ([.unit, .unit, .unit, .val 2, .unit, .unit, .val 7, .val 0, .unit, .num 1], l) ∧
    l.display = .ok [8] :=
  C08_linkedlist_is_windowed_fifo 2 0 _ (by decide) (by simp [noEmptyReset, listCap, Spec.push])
    (fun _ => true)

/-- A list some history of calls leads to. -/
def LinkedList.Reachable (W : ℕ) (l : LinkedList α) : Prop :=
  ∃ dflt ops outs, runCalls (LinkedList.step dflt) (LinkedList.new W) ops = .ok (outs, l)

theorem LinkedList.Reachable.rep {W : ℕ} {l : LinkedList α} (h : LinkedList.Reachable W l) :
    ∃ q lost, LinkedList.Rep W l q lost := by
  obtain ⟨dflt, ops, outs, h⟩ := h
  obtain ⟨h1, h2⟩ := (LinkedList.rep_new (α := α) (W := W)).run dflt ops
  by_cases hn : noEmptyReset (listCap W) [] ops
  · obtain ⟨l', h3, r⟩ := h1 hn
    rw [h3] at h; cases h
    exact ⟨_, _, r⟩
  · rw [h2 hn] at h; cases h

/-- **C09.** No history in which `reset` is only called on non-empty lists dereferences a null or freed
node or frees a node twice, and `display` of every reachable list is defined. (All calls, `full`
included.) -/
theorem C09_linkedlist_no_dangling (W : ℕ) (dflt : α) (ops : List (COp α))
    (hreset : noEmptyReset (listCap W) [] ops) :
    ∃ outs l, runCalls (LinkedList.step dflt) (LinkedList.new W) ops = .ok (outs, l) ∧
      l.display.IsOk := by
  obtain ⟨l, h1, h2⟩ := ((LinkedList.rep_new (α := α) (W := W)).run dflt ops).1 hreset
  exact ⟨_, l, h1, _, h2.display⟩

/-- instance: the evicted and the popped node are not reached again -/
example : ∃ outs l, runCalls (LinkedList.step (0 : ℤ)) (LinkedList.new 2)
    [.update 1, .update 2, .update 3, .pop, .reset, .update 7, .update 8, .update 9] = .ok (outs, l) ∧ l.display.IsOk :=
  C09_linkedlist_no_dangling 2 0 _ (by simp [noEmptyReset, listCap, Spec.push])

/-- **C10, full statement.** `reset` and the destructor are defined on every reachable list. -/
def C10_full : Prop :=
  ∀ (W : ℕ) (l : LinkedList ℤ), LinkedList.Reachable W l → l.reset.IsOk ∧ l.destroy.IsOk

/-- **C10 is false**: both dereference a null head on an empty list. -/
theorem C10_violated : ¬ C10_full := by
  intro h
  obtain ⟨⟨_, h⟩, _⟩ := h 1 (LinkedList.new 1) ⟨0, [], [], rfl⟩
  cases h

/-- **C10, the part that holds**: on a reachable list `reset` and the destructor are defined exactly
when the list is not empty; otherwise they dereference null. -/
theorem C10_reset_destroy_partial (W : ℕ) (l : LinkedList α) (hl : LinkedList.Reachable W l) :
    (l.isEmpty = false → (∃ l', l.reset = .ok l' ∧ l'.isEmpty = true ∧ l'.size = 0) ∧
      l.destroy.IsOk) ∧
    (l.isEmpty = true → l.reset = .ub .nullDeref ∧ l.destroy = .ub .nullDeref) := by
  obtain ⟨q, lost, h⟩ := hl.rep
  cases q with
  | nil =>
    have := h.isEmpty
    exact ⟨fun he => by simp [this] at he, fun _ => ⟨h.reset_nil, h.destroy_nil⟩⟩
  | cons x q =>
    have := h.isEmpty
    obtain ⟨l', h1, h2, _⟩ := h.reset
    exact ⟨fun _ => ⟨⟨l', h1, by simpa using h2.isEmpty, h2.size⟩, _, h.destroy⟩,
      fun he => by simp [this] at he⟩

/-- A list of two nodes is reachable, and so is one emptied again: both cases occur. -/
example : (∃ l : LinkedList ℤ, LinkedList.Reachable 2 l ∧ l.isEmpty = false ∧ l.size = 2) ∧
    ∃ l : LinkedList ℤ, LinkedList.Reachable 2 l ∧ l.isEmpty = true ∧ l.historyCount = 1 :=
  ⟨⟨_, ⟨0, [.update 1, .update 2, .update 3], _, rfl⟩, by decide, by decide⟩,
    ⟨_, ⟨0, [.update 1, .pop], _, rfl⟩, by decide, by decide⟩⟩

/-- A whole history is undefined exactly when it resets an empty list. -/
theorem C10_history_partial (W : ℕ) (dflt : α) (ops : List (COp α)) :
    (runCalls (LinkedList.step dflt) (LinkedList.new W) ops).IsOk ↔
      noEmptyReset (listCap W) [] ops := by
  obtain ⟨h1, h2⟩ := (LinkedList.rep_new (α := α) (W := W)).run dflt ops
  refine ⟨fun ⟨a, ha⟩ => ?_, fun hn => ?_⟩
  · by_contra hn
    rw [h2 hn] at ha; cases ha
  · obtain ⟨l, h3, _⟩ := h1 hn
    exact ⟨_, h3⟩

/-- **C11, full statement.** The number of allocated nodes always equals `size()`, and destruction
releases everything. -/
def C11_full : Prop :=
  ∀ (W : ℕ) (l : LinkedList ℤ), LinkedList.Reachable W l →
    l.heap.live = l.size ∧ ∀ h, l.destroy = .ok h → h.live = 0

/-- **C11 is false**: `reset` keeps every node allocated. -/
theorem C11_violated : ¬ C11_full := by
  intro h
  obtain ⟨h, _⟩ := h 2 _ ⟨0, [.update 1, .update 2, .reset], _, rfl⟩
  exact absurd h (by decide)

/-- ... and so does the destructor. -/
theorem C11_destructor_violated :
    ∃ (l : LinkedList ℤ) (h : Heap ℤ), LinkedList.Reachable 2 l ∧ l.destroy = .ok h ∧ h.live = 2 :=
  ⟨_, _, ⟨0, [.update 1, .update 2], _, rfl⟩, rfl, by decide⟩

/-- **C11, the part that holds**: eviction and pop release their nodes, so the nodes allocated are those
in the list plus exactly those dropped by earlier `reset` calls (which are leaked); destruction
releases none. In particular without `reset` at most `W` nodes are ever allocated. -/
theorem C11_node_accounting_partial (W : ℕ) (dflt : α) (ops : List (COp α)) (outs : List (COut α))
    (l : LinkedList α)
    (h : runCalls (LinkedList.step dflt) (LinkedList.new W) ops = .ok (outs, l)) :
    l.heap.live = l.size + itemsReset (listCap W) [] ops ∧ (W ≠ 0 → l.size ≤ W) ∧
    ∀ h', l.destroy = .ok h' → h'.live = l.heap.live := by
  obtain ⟨h1, h2⟩ := (LinkedList.rep_new (α := α) (W := W)).run dflt ops
  by_cases hn : noEmptyReset (listCap W) [] ops
  · obtain ⟨l', h3, r⟩ := h1 hn
    rw [h3] at h
    cases h
    refine ⟨by rw [r.live, r.size]; omega, fun h0 => by rw [r.size]; exact r.qlen h0, ?_⟩
    intro h' hd
    generalize hq : queueAfter (listCap W) [] ops = q at r
    cases q with
    | nil => rw [r.destroy_nil] at hd; cases hd
    | cons x q => rw [r.destroy] at hd; cases hd; rfl
  · rw [h2 hn] at h; cases h

theorem itemsReset_eq_zero (cap : Option ℕ) (ops : List (COp α)) (h : .reset ∉ ops) :
    ∀ q : List α, itemsReset cap q ops = 0 := by
  induction ops with
  | nil => intro q; rfl
  | cons o os ih =>
    intro q
    simp only [List.mem_cons, not_or] at h
    cases o with
    | reset => exact absurd rfl h.1
    | _ => exact ih h.2 _

/-- Without `reset`, memory is exactly the list. -/
theorem C11_no_reset_partial (W : ℕ) (dflt : α) (ops : List (COp α)) (outs : List (COut α))
    (l : LinkedList α) (hr : .reset ∉ ops)
    (h : runCalls (LinkedList.step dflt) (LinkedList.new W) ops = .ok (outs, l)) :
    l.heap.live = l.size := by
  have := (C11_node_accounting_partial W dflt ops outs l h).1
  rwa [itemsReset_eq_zero _ _ hr, Nat.add_zero] at this

example : ∃ outs l, runCalls (LinkedList.step (0 : ℤ)) (LinkedList.new 2)
    [.update 1, .update 2, .update 3, .pop] = .ok (outs, l) ∧ l.heap.live = 1 ∧ l.heap.length = 3 :=
  ⟨_, _, rfl, by decide, by decide⟩

/-- **C12, full statement.** `full()` is true exactly when `size() == windowSize` and never for an
unbounded list. -/
def C12_full : Prop :=
  ∀ (W : ℕ) (l : LinkedList ℤ), LinkedList.Reachable W l →
    (l.isFull = true ↔ W ≠ 0 ∧ l.size = W)

/-- **C12 is false**: one item in a window of two counts as full. -/
theorem C12_violated : ¬ C12_full := by
  intro h
  have := (h 2 _ ⟨0, [.update 1], _, rfl⟩).1 (by decide)
  exact absurd this.2 (by decide)

/-- It is also false for an unbounded list. -/
theorem C12_unbounded_violated : ∃ l : LinkedList ℤ, LinkedList.Reachable 0 l ∧ l.isFull = true :=
  ⟨_, ⟨0, [.update 1], _, rfl⟩, by decide⟩

/-- **C12, the part that holds**: `full()` means "not empty": it is true exactly when `size() ≠ 0`.
So a full window does report full, and windowSize 1 is right. -/
theorem C12_full_means_nonempty_partial (W : ℕ) (l : LinkedList α) (hl : LinkedList.Reachable W l) :
    (l.isFull = true ↔ l.size ≠ 0) ∧ (l.isEmpty = true ↔ l.size = 0) ∧
    (W ≠ 0 → l.size = W → l.isFull = true) ∧ (W = 1 → (l.isFull = true ↔ l.size = W)) := by
  obtain ⟨q, lost, h⟩ := hl.rep
  have hf : l.isFull = !q.isEmpty := by rw [← h.isEmpty]; rfl
  have hsz := h.size
  have hq := h.qlen
  have he := h.isEmpty
  have key : (l.isFull = true ↔ l.size ≠ 0) := by
    rw [hf, hsz]; cases q <;> simp
  refine ⟨key, ?_, ?_, ?_⟩
  · rw [he, hsz]; cases q <;> simp
  · intro h0 h1; rw [key, h1]; exact h0
  · intro h1; subst h1; rw [key, hsz]; have := hq (by omega); omega

/-- One item in a window of three: not full, but `full()` says so. -/
example : ∃ l : LinkedList ℤ, LinkedList.Reachable 3 l ∧ l.size = 1 ∧ l.isFull = true :=
  ⟨_, ⟨0, [.update 1, .update 2, .pop], _, rfl⟩, by decide, by decide⟩

end KML
