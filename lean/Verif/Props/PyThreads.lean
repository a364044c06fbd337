import Verif.Model.PyThreads
import Verif.Props.Python

/-!
# C133: one Python object, several threads

The calls of several threads on a Python container do not take effect one after another: two `update` calls with iterables
can mix their items. But nothing worse can happen, since the wrappers keep the global interpreter lock during every C++
call: whatever the threads do and however they take turns, the object is used as by one thread, which makes the calls of
each thread in their order, items one by one. In particular no item is lost, as happens in C++ (C13).
-/

namespace KML

open Py

/-- The queue operations that are left to be done by a thread. -/
def Spec.pending (t : Thread) : List (COp Dbl) :=
  (PyVal.goodPrefix PyVal.asFloat t.items).map .update ++ t.calls.flatMap (pyFlat PyVal.asFloat)

/-- The part of a common history that belongs to thread `k`. -/
def Spec.ofThread {α : Type} (k : ℕ) (tr : List (ℕ × α)) : List α := (tr.filter fun e => e.1 = k).map Prod.snd

/-- What C133 claims: two calls take effect one after the other. What the object then holds is seen by emptying it. -/
def C133_full : Prop :=
  ∀ (W : ℕ) (a b : PyVal) (ks : List ℕ) (s : RingBuffer Dbl) (ts : List Thread), 1 ≤ W →
    runThreads (RingBuffer.step (.fin 0)) ks (RingBuffer.new W) [.start [.update a], .start [.update b]] = .ok (s, ts) →
    (∀ t ∈ ts, t.finished) → ∀ n,
    ∃ o s', (Py.ringRun (RingBuffer.new W) [.update a, .update b] = .ok (o, s') ∨
        Py.ringRun (RingBuffer.new W) [.update b, .update a] = .ok (o, s')) ∧
      ∃ outs x y, Py.ringRun s (List.replicate n .pop) = .ok (outs, x) ∧
        Py.ringRun s' (List.replicate n .pop) = .ok (outs, y)

theorem runCalls_append_eq {σ ο ρ : Type} (step : σ → ο → Res (ρ × σ)) (s : σ) (l1 l2 : List ο) :
    runCalls step s (l1 ++ l2) = (runCalls step s l1 >>= fun p => runCalls step p.2 l2 >>= fun q =>
      .ok (p.1 ++ q.1, q.2)) := by
  induction l1 generalizing s with
  | nil =>
    rw [List.nil_append, runCalls, Res.ok_bind]
    cases runCalls step s l2 <;> rfl
  | cons o os ih =>
    rw [List.cons_append, runCalls, runCalls]
    cases h : step s o with
    | throw m => rfl
    | ub u => rfl
    | ok p =>
      simp only [Res.ok_bind, ih]
      cases h1 : runCalls step p.2 os with
      | throw m => rfl
      | ub u => rfl
      | ok q =>
        simp only [Res.ok_bind]
        cases h2 : runCalls step q.2 l2 with
        | throw m => rfl
        | ub u => rfl
        | ok r => rfl

theorem runCalls_length {σ ο ρ : Type} {step : σ → ο → Res (ρ × σ)} {s s' : σ} {l : List ο} {rs : List ρ}
    (h : runCalls step s l = .ok (rs, s')) : rs.length = l.length := by
  induction l generalizing s rs with
  | nil => injection h with h; injection h with h; subst h; rfl
  | cons o os ih =>
    obtain ⟨⟨r, s1⟩, h1, h⟩ := Res.bind_eq_ok.1 h
    obtain ⟨⟨rs', s2⟩, h2, h⟩ := Res.bind_eq_ok.1 h
    injection h with h; injection h with ha hb; subst ha; subst hb
    simp [ih h2]

theorem pyAnswers_append (a b : List Out) : pyAnswers (a ++ b) = pyAnswers a ++ pyAnswers b := by
  simp only [pyAnswers, List.filterMap_append, answers_append]

/-- What is needed of the wrapped object: its methods throw nothing, and `update` returns nothing. -/
structure Quiet {σ : Type} (cstep : σ → COp Dbl → Res (COut Dbl × σ)) : Prop where
  noThrow : ∀ s o m, cstep s o ≠ .throw m
  unit : ∀ s x r s', cstep s (.update x) = .ok (r, s') → r = .unit

section

variable {σ : Type} {cstep : σ → COp Dbl → Res (COut Dbl × σ)}

/-- What one turn of a thread does to the object. -/
theorem Thread.step_spec (hq : Quiet cstep) (s : σ) (t : Thread) :
    (∃ s' t' os rs, t.step cstep s = .ok (s', t') ∧ runCalls cstep s os = .ok (rs, s') ∧
      os ++ Spec.pending t' = Spec.pending t ∧ pyAnswers t'.outs = pyAnswers t.outs ++ answers rs) ∨
    (∃ u os, t.step cstep s = .ub u ∧ runCalls cstep s os = .ub u ∧ os <+: Spec.pending t) := by
  obtain ⟨calls, items, outs⟩ := t
  have hunit : pyAnswers [Out.value .unit] = [] := rfl
  cases items with
  | cons v vs =>
    cases hv : v.asFloat with
    | ub u => exact absurd hv (v.asFloat_not_ub u)
    | throw m =>
      left
      refine ⟨s, _, [], [], by simp only [Thread.step, hv]; rfl, rfl, ?_, ?_⟩
      · simp [Spec.pending, PyVal.goodPrefix, hv]
      · rw [pyAnswers_append]; rfl
    | ok x =>
      cases hc : cstep s (.update x) with
      | throw m => exact absurd hc (hq.noThrow _ _ _)
      | ub u =>
        right
        refine ⟨u, [.update x], by simp only [Thread.step, hv, hc], by simp only [runCalls, hc]; rfl, ?_⟩
        simp [Spec.pending, PyVal.goodPrefix, hv]
      | ok p =>
        obtain ⟨r, s'⟩ := p
        left
        refine ⟨s', _, [.update x], [r], by simp only [Thread.step, hv, hc]; rfl, by simp only [runCalls, hc]; rfl, ?_, ?_⟩
        · simp [Spec.pending, PyVal.goodPrefix, hv]
        · have hr := hq.unit _ _ _ _ hc
          subst hr
          show pyAnswers (if vs.isEmpty then outs ++ [.value .unit] else outs) = _
          split
          · rw [pyAnswers_append, hunit]; rfl
          · simp [answers]
  | nil =>
    cases calls with
    | nil => exact .inl ⟨s, _, [], [], rfl, rfl, rfl, by simp [answers]⟩
    | cons o rest =>
      have simple : ∀ o', pyFlat PyVal.asFloat o = [o'] →
          Py.step cstep s o = (do let (r, s') ← cstep s o'; .ok (.value r, s')) →
          Thread.step cstep s ⟨o :: rest, [], outs⟩ = (do
            let (r, s') ← Py.step cstep s o
            .ok (s', { calls := rest, items := [], outs := outs ++ [r] })) →
          (∃ s' t' os rs, Thread.step cstep s ⟨o :: rest, [], outs⟩ = .ok (s', t') ∧
            runCalls cstep s os = .ok (rs, s') ∧
            os ++ Spec.pending t' = Spec.pending ⟨o :: rest, [], outs⟩ ∧
            pyAnswers t'.outs = pyAnswers outs ++ answers rs) ∨
          (∃ u os, Thread.step cstep s ⟨o :: rest, [], outs⟩ = .ub u ∧ runCalls cstep s os = .ub u ∧
            os <+: Spec.pending ⟨o :: rest, [], outs⟩) := by
        intro o' e1 e2 e3
        rw [e3, e2]
        cases hc : cstep s o' with
        | throw m => exact absurd hc (hq.noThrow _ _ _)
        | ub u =>
          right
          exact ⟨u, [o'], rfl, by simp only [runCalls, hc]; rfl, by simp [Spec.pending, PyVal.goodPrefix, e1]⟩
        | ok p =>
          obtain ⟨r, s'⟩ := p
          left
          refine ⟨s', _, [o'], [r], rfl, by simp only [runCalls, hc]; rfl, ?_, ?_⟩
          · simp [Spec.pending, PyVal.goodPrefix, e1]
          · rw [pyAnswers_append]
            congr 1
      cases o with
      | pop => exact simple .pop rfl rfl rfl
      | reset => exact simple .reset rfl rfl rfl
      | size => exact simple .size rfl rfl rfl
      | empty => exact simple .empty rfl rfl rfl
      | full => exact simple .full rfl rfl rfl
      | update v =>
        left
        refine ⟨s, _, [], [], rfl, rfl, ?_, ?_⟩
        · cases hv : v.elements <;> simp [Spec.pending, PyVal.goodPrefix, pyFlat, hv]
        · show pyAnswers (if (v.elements.getD [v]).isEmpty then outs ++ [.value .unit] else outs) = _
          split
          · rw [pyAnswers_append, hunit]; rfl
          · simp [answers]

theorem Spec.ofThread_map {α : Type} (k j : ℕ) (l : List α) (tr : List (ℕ × α)) :
    Spec.ofThread j (l.map (fun a => (k, a)) ++ tr) = if k = j then l ++ Spec.ofThread j tr else Spec.ofThread j tr := by
  unfold Spec.ofThread
  rw [List.filter_append, List.map_append]
  by_cases h : k = j
  · rw [if_pos h]
    congr 1
    rw [List.filter_eq_self.2 (by simp [h])]
    simp
  · rw [if_neg h]
    rw [List.filter_eq_nil_iff.2 (by simp [h])]
    simp

/-- **C133**, what holds: there is one history of queue operations that leads to the same object (or to the same
undefined behaviour). The part of it that belongs to a thread is what the thread has done of its calls, in order, and the
calls of the thread return what the operations return in that history. -/
theorem C133_serial_partial (hq : Quiet cstep) (ks : List ℕ) (s : σ) (ts : List Thread) :
    (∃ s' ts' tr, runThreads cstep ks s ts = .ok (s', ts') ∧ ts'.length = ts.length ∧
      runCalls cstep s (tr.map fun e : ℕ × COp Dbl × COut Dbl => e.2.1) = .ok (tr.map fun e => e.2.2, s') ∧
      (∀ e ∈ tr, e.1 < ts.length) ∧
      ∀ k t t', ts[k]? = some t → ts'[k]? = some t' →
        (Spec.ofThread k tr).map Prod.fst ++ Spec.pending t' = Spec.pending t ∧
        pyAnswers t'.outs = pyAnswers t.outs ++ answers ((Spec.ofThread k tr).map Prod.snd)) ∨
    (∃ u, ∃ tr : List (ℕ × COp Dbl), runThreads cstep ks s ts = .ub u ∧ runCalls cstep s (tr.map Prod.snd) = .ub u ∧
      (∀ e ∈ tr, e.1 < ts.length) ∧ ∀ k t, ts[k]? = some t → Spec.ofThread k tr <+: Spec.pending t) := by
  induction ks generalizing s ts with
  | nil =>
    left
    refine ⟨s, ts, [], rfl, rfl, rfl, by simp, ?_⟩
    intro k t t' h1 h2
    rw [h1] at h2
    injection h2 with h2
    subst h2
    simp [Spec.ofThread, answers]
  | cons j ks ih =>
    unfold runThreads
    cases hj : ts[j]? with
    | none => exact ih s ts
    | some t =>
      have hjl : j < ts.length := (List.getElem?_eq_some_iff.1 hj).1
      simp only
      rcases Thread.step_spec hq s t with ⟨s1, t1, os, rs, e1, e2, e3, e4⟩ | ⟨u, os, e1, e2, e3⟩
      · rw [e1]
        simp only [Res.ok_bind]
        have hlen := runCalls_length e2
        rcases ih s1 (ts.set j t1) with ⟨s', ts', tr, f1, f2, f3, f4, f5⟩ | ⟨u, tr, f1, f2, f4, f3⟩
        · left
          rw [List.length_set] at f2 f4
          refine ⟨s', ts', (os.zip rs).map (fun a => (j, a)) ++ tr, f1, f2, ?_, ?_, ?_⟩
          · have h1 : ((os.zip rs).map (fun a => (j, a)) ++ tr).map (fun e => e.2.1) = os ++ tr.map fun e => e.2.1 := by
              rw [List.map_append, List.map_map]
              congr 1
              exact List.map_fst_zip (by omega)
            have h2 : ((os.zip rs).map (fun a => (j, a)) ++ tr).map (fun e => e.2.2) = rs ++ tr.map fun e => e.2.2 := by
              rw [List.map_append, List.map_map]
              congr 1
              exact List.map_snd_zip (by omega)
            rw [h1, h2, runCalls_append_eq, e2]
            simp only [Res.ok_bind]
            rw [f3]
            rfl
          · intro e he
            rw [List.mem_append] at he
            rcases he with he | he
            · obtain ⟨a, -, rfl⟩ := List.mem_map.1 he
              exact hjl
            · exact f4 e he
          · intro k t0 t' h1 h2
            rw [Spec.ofThread_map]
            by_cases hjk : j = k
            · subst hjk
              rw [hj] at h1
              injection h1 with h1
              subst h1
              obtain ⟨g1, g2⟩ := f5 j t1 t' (by simp [hjl]) h2
              rw [if_pos rfl, List.map_append, List.map_append, List.map_fst_zip (by omega),
                List.map_snd_zip (by omega), List.append_assoc, g1, e3, g2, e4, answers_append, List.append_assoc]
              exact ⟨rfl, rfl⟩
            · rw [if_neg hjk]
              exact f5 k t0 t' (by rw [List.getElem?_set_ne hjk]; exact h1) h2
        · right
          rw [List.length_set] at f4
          refine ⟨u, os.map (fun o => (j, o)) ++ tr, f1, ?_, ?_, ?_⟩
          · rw [List.map_append, List.map_map, show (Prod.snd ∘ fun o : COp Dbl => (j, o)) = id from rfl, List.map_id,
              runCalls_append_eq, e2]
            simp only [Res.ok_bind]
            rw [f2]
            rfl
          · intro e he
            rw [List.mem_append] at he
            rcases he with he | he
            · obtain ⟨a, -, rfl⟩ := List.mem_map.1 he
              exact hjl
            · exact f4 e he
          · intro k t0 h1
            rw [Spec.ofThread_map]
            by_cases hjk : j = k
            · subst hjk
              rw [hj] at h1
              injection h1 with h1
              subst h1
              rw [if_pos rfl, ← e3]
              exact (List.prefix_append_right_inj os).2 (f3 j t1 (by simp [hjl]))
            · rw [if_neg hjk]
              exact f3 k t0 (by rw [List.getElem?_set_ne hjk]; exact h1)
      · right
        refine ⟨u, os.map (fun o => (j, o)), by rw [e1]; rfl, by simpa using e2, ?_, ?_⟩
        · intro e he
          obtain ⟨a, -, rfl⟩ := List.mem_map.1 he
          exact hjl
        intro k t' h
        have := Spec.ofThread_map j k os []
        rw [List.append_nil] at this
        rw [this]
        by_cases hjk : j = k
        · subst hjk
          rw [hj] at h
          injection h with h
          subst h
          simpa [Spec.ofThread] using e3
        · rw [if_neg hjk]; simp [Spec.ofThread]

end

/-- A computation that throws nothing. -/
theorem Res.bind_no_throw {α β : Type} {x : Res α} {f : α → Res β} (hx : ∀ m, x ≠ .throw m) (hf : ∀ a m, f a ≠ .throw m) (m : String) :
    (x >>= f) ≠ .throw m := by
  cases x with
  | ok a => exact hf a m
  | throw m' => exact absurd rfl (hx m')
  | ub u => exact fun h => nomatch h

/-- Goes through a definition to see that it throws nothing. -/
macro "no_throw" h:ident g:ident : tactic =>
  `(tactic| repeat' first
    | (intro h; cases h; done)
    | exact $h _ _ _
    | exact $h _ _
    | exact $g _ _ _
    | exact $g _ _
    | dsimp only
    | refine Res.bind_no_throw ?_ ?_ _
    | split
    | intro _)

theorem RingBuffer.next_no_throw (W i : ℕ) (m : String) : RingBuffer.next W i ≠ .throw m := by
  unfold RingBuffer.next; split <;> exact nofun

theorem RingBuffer.quiet : Quiet (RingBuffer.step (Dbl.fin 0)) := by
  constructor
  · intro s o m
    cases o <;> unfold RingBuffer.step
    · unfold RingBuffer.update RingBuffer.store
      no_throw RingBuffer.next_no_throw RingBuffer.next_no_throw
    · unfold RingBuffer.pop RingBuffer.load
      no_throw RingBuffer.next_no_throw RingBuffer.next_no_throw
    all_goals exact nofun
  · intro s x r s' h
    obtain ⟨b, -, h⟩ := Res.bind_eq_ok.1 h
    injection h with h; injection h with h; exact h.symm

theorem Heap.deref_no_throw {α : Type} (h : Heap α) (p : Option ℕ) (m : String) : h.deref p ≠ .throw m := by
  unfold Heap.deref
  split
  · exact nofun
  · split <;> exact nofun

theorem LinkedList.pop_no_throw {α : Type} (d : α) (l : LinkedList α) (m : String) : l.pop d ≠ .throw m := by
  unfold LinkedList.pop Heap.free
  no_throw Heap.deref_no_throw Heap.deref_no_throw

theorem LinkedList.sweep_no_throw {α : Type} (h : Heap α) (fuel : ℕ) (p : Option ℕ) (m : String) :
    LinkedList.sweep h fuel p ≠ .throw m := by
  induction fuel generalizing p m with
  | zero => cases p <;> exact nofun
  | succ n ih =>
    cases p with
    | none => exact nofun
    | some p => exact Res.bind_no_throw (Heap.deref_no_throw _ _) (fun _ m => ih _ m) m

theorem LinkedList.update_no_throw (l : LinkedList Dbl) (x : Dbl) (m : String) : l.update (.fin 0) x ≠ .throw m := by
  unfold LinkedList.update
  dsimp only
  split
  · exact nofun
  · refine Res.bind_no_throw (Heap.deref_no_throw _ _) ?_ m
    intro a m
    refine Res.bind_no_throw (Heap.deref_no_throw _ _) ?_ m
    intro b m
    split
    · refine Res.bind_no_throw (LinkedList.pop_no_throw _ _) ?_ m
      intro c m h
      cases h
    · exact nofun

theorem LinkedList.quiet : Quiet (LinkedList.step (Dbl.fin 0)) := by
  constructor
  · intro s o m
    cases o <;> unfold LinkedList.step
    · exact Res.bind_no_throw (LinkedList.update_no_throw _ _) (by intro a m h; cases h) m
    · no_throw LinkedList.pop_no_throw LinkedList.pop_no_throw
    · unfold LinkedList.reset
      no_throw Heap.deref_no_throw LinkedList.sweep_no_throw
    all_goals exact nofun
  · intro s x r s' h
    obtain ⟨b, -, h⟩ := Res.bind_eq_ok.1 h
    injection h with h; injection h with h; exact h.symm

/-- Two updates with two items each: the items are stored as 1, 3, 2, 4. -/
theorem C133_violated : ¬ C133_full := by
  intro h
  have h1 : (match runThreads (RingBuffer.step (.fin 0)) [0, 1, 0, 1, 0, 1] (RingBuffer.new 4)
      [.start [.update (.list [.int 1, .int 2])], .start [.update (.list [.int 3, .int 4])]] with
      | .ok (s, ts) => decide (s = ⟨4, [some (.fin 1), some (.fin 3), some (.fin 2), some (.fin 4)], 0, 0, true, 4⟩) &&
          ts.all fun t => t.calls.isEmpty && t.items.isEmpty
      | _ => false) = true := by
    decide +kernel
  cases hr : runThreads (RingBuffer.step (.fin 0)) [0, 1, 0, 1, 0, 1] (RingBuffer.new 4)
      [.start [.update (.list [.int 1, .int 2])], .start [.update (.list [.int 3, .int 4])]] with
  | throw m => rw [hr] at h1; cases h1
  | ub u => rw [hr] at h1; cases h1
  | ok r =>
    obtain ⟨s, ts⟩ := r
    rw [hr] at h1
    simp only [Bool.and_eq_true, decide_eq_true_eq, List.all_eq_true, List.isEmpty_iff] at h1
    obtain ⟨o, s', hs, outs, x, y, hx, hy⟩ := h 4 _ _ _ s ts (by norm_num) hr h1.2 4
    rw [h1.1] at hx
    have hx' : Py.ringRun ⟨4, [some (.fin 1), some (.fin 3), some (.fin 2), some (.fin 4)], 0, 0, true, 4⟩
        (List.replicate 4 .pop) = .ok ([.value (.val (.fin 1)), .value (.val (.fin 3)), .value (.val (.fin 2)),
          .value (.val (.fin 4))], ⟨4, [some (.fin 1), some (.fin 3), some (.fin 2), some (.fin 4)], 0, 0, false, 4⟩) := by
      decide +kernel
    rw [hx'] at hx
    injection hx with hx
    injection hx with hx
    subst hx
    rcases hs with hs | hs
    · have e : Py.ringRun (RingBuffer.new 4) [.update (.list [.int 1, .int 2]), .update (.list [.int 3, .int 4])] =
          .ok ([.value .unit, .value .unit],
            ⟨4, [some (.fin 1), some (.fin 2), some (.fin 3), some (.fin 4)], 0, 0, true, 4⟩) := by decide +kernel
      rw [e] at hs
      injection hs with hs
      injection hs with _ hs
      subst hs
      have e2 : Py.ringRun ⟨4, [some (.fin 1), some (.fin 2), some (.fin 3), some (.fin 4)], 0, 0, true, 4⟩
        (List.replicate 4 .pop) = .ok ([.value (.val (.fin 1)), .value (.val (.fin 2)), .value (.val (.fin 3)),
          .value (.val (.fin 4))], ⟨4, [some (.fin 1), some (.fin 2), some (.fin 3), some (.fin 4)], 0, 0, false, 4⟩) := by
        decide +kernel
      rw [e2] at hy
      injection hy with hy
      injection hy with hy
      exact absurd hy (by decide +kernel)
    · have e : Py.ringRun (RingBuffer.new 4) [.update (.list [.int 3, .int 4]), .update (.list [.int 1, .int 2])] =
          .ok ([.value .unit, .value .unit],
            ⟨4, [some (.fin 3), some (.fin 4), some (.fin 1), some (.fin 2)], 0, 0, true, 4⟩) := by decide +kernel
      rw [e] at hs
      injection hs with hs
      injection hs with _ hs
      subst hs
      have e2 : Py.ringRun ⟨4, [some (.fin 3), some (.fin 4), some (.fin 1), some (.fin 2)], 0, 0, true, 4⟩
        (List.replicate 4 .pop) = .ok ([.value (.val (.fin 3)), .value (.val (.fin 4)), .value (.val (.fin 1)),
          .value (.val (.fin 2))], ⟨4, [some (.fin 3), some (.fin 4), some (.fin 1), some (.fin 2)], 0, 0, false, 4⟩) := by
        decide +kernel
      rw [e2] at hy
      injection hy with hy
      injection hy with hy
      exact absurd hy (by decide +kernel)

theorem Spec.pending_start (c : List Op) : Spec.pending (.start c) = c.flatMap (pyFlat PyVal.asFloat) := by
  simp [Spec.pending, Thread.start, PyVal.goodPrefix]

theorem Spec.pending_finished {t : Thread} (h : t.finished) : Spec.pending t = [] := by
  simp [Spec.pending, h.1, h.2, PyVal.goodPrefix]

/-- **C133**, PyRingBuffer: any number of threads, any calls, any order of turns. Nothing is undefined, and the calls return
what a queue of capacity `W` returns in one common history, in which each thread makes its calls in order. -/
theorem C133_ring_partial (W : ℕ) (hW : 1 ≤ W) (calls : List (List Op)) (ks : List ℕ) :
    ∃ s' ts' tr, runThreads (RingBuffer.step (.fin 0)) ks (RingBuffer.new W) (calls.map .start) = .ok (s', ts') ∧
      ts'.length = calls.length ∧
      (tr.map fun e : ℕ × COp Dbl × COut Dbl => e.2.2) = boundedQueueOutputs (.fin 0) W (tr.map fun e => e.2.1) ∧
      (∀ e ∈ tr, e.1 < calls.length) ∧
      ∀ k c t', calls[k]? = some c → ts'[k]? = some t' →
        (Spec.ofThread k tr).map Prod.fst <+: c.flatMap (pyFlat PyVal.asFloat) ∧
        (t'.finished → (Spec.ofThread k tr).map Prod.fst = c.flatMap (pyFlat PyVal.asFloat)) ∧
        pyAnswers t'.outs = answers ((Spec.ofThread k tr).map Prod.snd) := by
  rcases C133_serial_partial RingBuffer.quiet ks (RingBuffer.new W) (calls.map .start) with
    ⟨s', ts', tr, h1, h2, h3, h4, h5⟩ | ⟨u, tr, -, h2, -, -⟩
  · rw [List.length_map] at h2 h4
    refine ⟨s', ts', tr, h1, h2, ?_, h4, ?_⟩
    · obtain ⟨b, hb⟩ := C01_ringbuffer_is_bounded_fifo W hW (Dbl.fin 0) (tr.map fun e => e.2.1)
      rw [h3] at hb
      injection hb with hb
      injection hb with hb
    · intro k c t' hc ht
      obtain ⟨g1, g2⟩ := h5 k (.start c) t' (by rw [List.getElem?_map, hc]; rfl) ht
      rw [Spec.pending_start] at g1
      refine ⟨⟨_, g1⟩, fun hf => ?_, by rw [g2]; rfl⟩
      rw [← g1, Spec.pending_finished hf, List.append_nil]
  · obtain ⟨b, hb⟩ := C01_ringbuffer_is_bounded_fifo W hW (Dbl.fin 0) (tr.map Prod.snd)
    rw [h2] at hb
    cases hb

theorem noEmptyReset_of_no_reset {α : Type} (cap : Option ℕ) (ops : List (COp α)) (h : .reset ∉ ops) (q : List α) :
    noEmptyReset cap q ops := by
  induction ops generalizing q with
  | nil => trivial
  | cons o os ih =>
    rw [List.mem_cons, not_or] at h
    cases o with
    | reset => exact absurd rfl h.1
    | update x => exact ih h.2 _
    | pop => exact ih h.2 _
    | size => exact ih h.2 _
    | empty => exact ih h.2 _
    | full => exact ih h.2 _

theorem pyFlat_no_reset (c : List Op) (h : .reset ∉ c) : (.reset : COp Dbl) ∉ c.flatMap (pyFlat PyVal.asFloat) := by
  intro hm
  obtain ⟨o, ho, hm⟩ := List.mem_flatMap.1 hm
  cases o with
  | reset => exact h ho
  | update v =>
    unfold pyFlat at hm
    cases hv : v.elements <;> simp [hv] at hm
  | pop => simp [pyFlat] at hm
  | size => simp [pyFlat] at hm
  | empty => simp [pyFlat] at hm
  | full => simp [pyFlat] at hm

theorem Spec.mem_of_ofThread {α : Type} {e : ℕ × α} {tr : List (ℕ × α)} (h : e ∈ tr) : e.2 ∈ Spec.ofThread e.1 tr :=
  List.mem_map.2 ⟨e, List.mem_filter.2 ⟨h, by simp⟩, rfl⟩

/-- **C133**, PyLinkedList: any number of threads, any calls except `reset`, any order of turns. Nothing is undefined, and
the calls return what a queue returns in one common history. -/
theorem C133_list_partial (W : ℕ) (calls : List (List Op)) (hc : ∀ c ∈ calls, .reset ∉ c) (ks : List ℕ) :
    ∃ s' ts' tr, runThreads (LinkedList.step (.fin 0)) ks (LinkedList.new W) (calls.map .start) = .ok (s', ts') ∧
      ts'.length = calls.length ∧
      (tr.map fun e : ℕ × COp Dbl × COut Dbl => e.2.2) = listOutputs (.fin 0) W [] (tr.map fun e => e.2.1) ∧
      s'.display = .ok (queueAfter (listCap W) [] (tr.map fun e => e.2.1)) ∧
      (∀ e ∈ tr, e.1 < calls.length) ∧
      ∀ k c t', calls[k]? = some c → ts'[k]? = some t' →
        (Spec.ofThread k tr).map Prod.fst <+: c.flatMap (pyFlat PyVal.asFloat) ∧
        (t'.finished → (Spec.ofThread k tr).map Prod.fst = c.flatMap (pyFlat PyVal.asFloat)) ∧
        pyAnswers t'.outs = answers ((Spec.ofThread k tr).map Prod.snd) := by
  have hp := Spec.pending_start
  rcases C133_serial_partial LinkedList.quiet ks (LinkedList.new W) (calls.map .start) with
    ⟨s', ts', tr, h1, h2, h3, h4, h5⟩ | ⟨u, tr, h0, h2, h4, h3⟩
  · rw [List.length_map] at h2 h4
    have hn : .reset ∉ (tr.map fun e => e.2.1) := by
      intro hm
      obtain ⟨e, he, hr⟩ := List.mem_map.1 hm
      have hl := h4 e he
      obtain ⟨g1, -⟩ := h5 e.1 (.start calls[e.1]) ts'[e.1] (by simp [hl]) (by simp)
      rw [hp] at g1
      refine pyFlat_no_reset calls[e.1] (hc _ (List.getElem_mem hl)) ?_
      rw [← g1]
      refine List.mem_append_left _ (List.mem_map.2 ⟨e.2, Spec.mem_of_ofThread he, hr⟩)
    obtain ⟨l, g1, g2⟩ := ((LinkedList.rep_new (α := Dbl) (W := W)).run (.fin 0) _).1
      (noEmptyReset_of_no_reset (listCap W) _ hn [])
    rw [h3] at g1
    injection g1 with g1
    injection g1 with g1 g3
    subst g3
    refine ⟨s', ts', tr, h1, h2, g1, g2.display, h4, ?_⟩
    intro k c t' hc ht
    obtain ⟨g1, g2⟩ := h5 k (.start c) t' (by rw [List.getElem?_map, hc]; rfl) ht
    rw [hp] at g1
    refine ⟨⟨_, g1⟩, fun hf => ?_, by rw [g2]; rfl⟩
    rw [← g1, Spec.pending_finished hf, List.append_nil]
  · exfalso
    have hn : .reset ∉ tr.map Prod.snd := by
      intro hm
      obtain ⟨e, he, hr⟩ := List.mem_map.1 hm
      have hl : e.1 < calls.length := by simpa using h4 e he
      have g1 := h3 e.1 (.start calls[e.1]) (by simp [hl])
      rw [hp] at g1
      refine pyFlat_no_reset calls[e.1] (hc _ (List.getElem_mem hl)) (g1.subset ?_)
      rw [← hr]
      exact Spec.mem_of_ofThread he
    obtain ⟨l, g1, g2⟩ := ((LinkedList.rep_new (α := Dbl) (W := W)).run (.fin 0) _).1
      (noEmptyReset_of_no_reset (listCap W) _ hn [])
    rw [h2] at g1
    cases g1

theorem queueAfter_window {α : Type} (W : ℕ) (xs : List α) : queueAfter (listCap W) [] (xs.map COp.update) = Spec.windowOf W xs := by
  have h : ∀ q : List α, queueAfter (listCap W) q (xs.map COp.update) = xs.foldl (Spec.push (listCap W)) q := by
    induction xs with
    | nil => intro q; rfl
    | cons x xs ih => intro q; exact ih _
  rw [h]
  unfold listCap Spec.windowOf
  split
  · have : ∀ q : List α, xs.foldl (Spec.push none) q = q ++ xs := by
      clear h
      induction xs with
      | nil => intro q; simp
      | cons x xs ih => intro q; rw [List.foldl_cons, ih]; simp [Spec.push]
    simpa using this []
  · rw [C01_queue_keeps_last W [] xs (by simp)]; rfl

/-- The items among the operations of a common history. -/
def Spec.itemsOf (tr : List (ℕ × COp Dbl × COut Dbl)) : List (ℕ × Dbl) :=
  tr.filterMap fun e => match e.2.1 with
    | .update x => some (e.1, x)
    | _ => none

theorem Spec.itemsOf_updates (tr : List (ℕ × COp Dbl × COut Dbl)) (h : ∀ e ∈ tr, ∃ x, e.2.1 = .update x) :
    (tr.map fun e => e.2.1) = ((Spec.itemsOf tr).map Prod.snd).map .update ∧
      ∀ k, (Spec.ofThread k tr).map Prod.fst = (Spec.ofThread k (Spec.itemsOf tr)).map .update := by
  induction tr with
  | nil => exact ⟨rfl, fun _ => rfl⟩
  | cons e tr ih =>
    obtain ⟨j, o, r⟩ := e
    obtain ⟨x, hx⟩ := h _ (List.mem_cons_self)
    simp only at hx
    subst hx
    obtain ⟨i1, i2⟩ := ih fun e he => h e (List.mem_cons_of_mem _ he)
    have e1 : Spec.itemsOf ((j, .update x, r) :: tr) = (j, x) :: Spec.itemsOf tr := rfl
    rw [e1]
    refine ⟨by simp [i1], fun k => ?_⟩
    have := i2 k
    unfold Spec.ofThread at this ⊢
    by_cases hk : j = k
    · simp only [hk, List.filter_cons, decide_true, if_true, List.map_cons, this]
    · simp only [hk, List.filter_cons, decide_false, Bool.false_eq_true, if_false, this]

theorem pyFlat_updates (c : List PyVal) : (c.map Op.update).flatMap (pyFlat PyVal.asFloat) =
    (c.flatMap fun v => PyVal.goodPrefix PyVal.asFloat (v.elements.getD [v])).map .update := by
  induction c with
  | nil => rfl
  | cons v c ih =>
    rw [List.map_cons, List.flatMap_cons, List.flatMap_cons, ih, List.map_append]
    congr 1
    simp only [pyFlat]
    cases v.elements <;> rfl

/-- **C133**, PyLinkedList: threads that only update lose nothing, unlike in C++ (C13). The list holds the last `W` (all, for
`W` = 0) of the items of all threads, those of each thread in their order. -/
theorem C133_updates_partial (W : ℕ) (calls : List (List PyVal)) (ks : List ℕ) :
    ∃ s' ts', ∃ xs : List (ℕ × Dbl), runThreads (LinkedList.step (.fin 0)) ks (LinkedList.new W)
        (calls.map fun c => .start (c.map .update)) = .ok (s', ts') ∧
      s'.display = .ok (Spec.windowOf W (xs.map Prod.snd)) ∧
      (∀ e ∈ xs, e.1 < calls.length) ∧
      ∀ k c t', calls[k]? = some c → ts'[k]? = some t' → t'.finished →
        Spec.ofThread k xs = c.flatMap fun v => PyVal.goodPrefix PyVal.asFloat (v.elements.getD [v]) := by
  obtain ⟨s', ts', tr, h1, h2, -, h4, h5, h6⟩ := C133_list_partial W (calls.map fun c => c.map .update)
    (by intro c hc; obtain ⟨c, -, rfl⟩ := List.mem_map.1 hc; simp) ks
  rw [List.length_map] at h2 h5
  have hu : ∀ e ∈ tr, ∃ x, e.2.1 = .update x := by
    intro e he
    have hl := h5 e he
    obtain ⟨g1, -⟩ := h6 e.1 (calls[e.1].map .update) ts'[e.1] (by simp [hl]) (by simp)
    have hm := g1.subset (List.mem_map.2 ⟨e.2, Spec.mem_of_ofThread he, rfl⟩)
    rw [pyFlat_updates] at hm
    obtain ⟨x, -, hx⟩ := List.mem_map.1 hm
    exact ⟨x, hx.symm⟩
  obtain ⟨i1, i2⟩ := Spec.itemsOf_updates tr hu
  refine ⟨s', ts', Spec.itemsOf tr, ?_, ?_, ?_, ?_⟩
  · rw [← h1, List.map_map]; rfl
  · rw [h4, i1, queueAfter_window]
  · intro e he
    obtain ⟨e', he', h⟩ := List.mem_filterMap.1 he
    have := h5 e' he'
    split at h
    · injection h with h; rw [← h]; exact this
    · cases h
  · intro k c t' hc ht hf
    have := (h6 k (c.map .update) t' (by rw [List.getElem?_map, hc]; rfl) ht).2.1 hf
    rw [i2, pyFlat_updates] at this
    exact List.map_injective_iff.2 (fun a b h => by injection h) this

/-- Threads that reset: one alone may do this as often as it likes, but two of them can dereference a null pointer. -/
theorem C133_reset : (∀ n, ∃ r, Py.listRun (LinkedList.new 4) (List.replicate n [.update (.int 1), .reset]).flatten = .ok r) ∧
    runThreads (LinkedList.step (.fin 0)) [0, 0, 1, 1, 0, 1] (LinkedList.new 4)
      [.start [.update (.int 1), .reset], .start [.update (.int 1), .reset]] = .ub .nullDeref := by
  constructor
  · intro n
    have hf : pyFlat PyVal.asFloat (.update (.int 1)) = [.update (.fin 1)] := by decide +kernel
    have h : noEmptyReset (listCap 4) [] ((List.replicate n [Op.update (.int 1), .reset]).flatten.flatMap (pyFlat PyVal.asFloat)) := by
      induction n with
      | zero => trivial
      | succ n ih =>
        rw [List.replicate_succ, List.flatten_cons, List.flatMap_append, List.flatMap_cons, hf]
        exact ⟨by simp [listCap, Spec.push], ih⟩
    obtain ⟨outs, l, h1, -⟩ := C69_list_partial 4 _ h
    exact ⟨_, h1⟩
  · have h : (match runThreads (LinkedList.step (.fin 0)) [0, 0, 1, 1, 0, 1] (LinkedList.new 4)
        [.start [.update (.int 1), .reset], .start [.update (.int 1), .reset]] with
        | .ub u => decide (u = .nullDeref)
        | _ => false) = true := by decide +kernel
    cases hr : runThreads (LinkedList.step (.fin 0)) [0, 0, 1, 1, 0, 1] (LinkedList.new 4)
        [.start [.update (.int 1), .reset], .start [.update (.int 1), .reset]] with
    | ok r => rw [hr] at h; cases h
    | throw m => rw [hr] at h; cases h
    | ub u => rw [hr] at h; rw [of_decide_eq_true h]

/-- Two threads, one that updates with two items and one that pops twice, stopped half-way. -/
example : ∃ s' ts', ∃ tr : List (ℕ × COp Dbl × COut Dbl), runThreads (RingBuffer.step (.fin 0)) [0, 1, 0, 1] (RingBuffer.new 2)
      [.start [.update (.list [.int 1, .int 2])], .start [.pop, .pop]] = .ok (s', ts') ∧ ts'.length = 2 ∧
      (tr.map fun e => e.2.2) = boundedQueueOutputs (.fin 0) 2 (tr.map fun e => e.2.1) := by
  obtain ⟨s', ts', tr, h1, h2, h3, -⟩ := C133_ring_partial 2 (by norm_num)
    [[.update (.list [.int 1, .int 2])], [.pop, .pop]] [0, 1, 0, 1]
  exact ⟨s', ts', tr, h1, h2, h3⟩

/-- Two threads that update a list of window 3 with two items each. -/
example : ∃ s' ts', ∃ xs : List (ℕ × Dbl), runThreads (LinkedList.step (.fin 0)) [0, 1, 0, 1, 0, 1] (LinkedList.new 3)
      [.start [.update (.list [.int 1, .int 2])], .start [.update (.list [.int 3, .int 4])]] = .ok (s', ts') ∧
      s'.display = .ok (Spec.windowOf 3 (xs.map Prod.snd)) := by
  obtain ⟨s', ts', xs, h1, h2, -⟩ := C133_updates_partial 3 [[.list [.int 1, .int 2]], [.list [.int 3, .int 4]]]
    [0, 1, 0, 1, 0, 1]
  exact ⟨s', ts', xs, h1, h2⟩

end KML
