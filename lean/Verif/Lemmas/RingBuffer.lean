import Verif.Spec.Queue

/-! Representation relation of `RingBuffer` and its preservation. -/

namespace KML

variable {α : Type}

namespace RingBuffer

/-- `b` holds the queue `q`. -/
structure Rep (W : ℕ) (b : RingBuffer α) (q : List α) : Prop where
  ws : b.windowSize = W
  len : b.buf.length = W
  tail_lt : b.tail < W
  qlen : q.length ≤ W
  head : b.head = (b.tail + q.length) % W
  full : b.full = decide (q.length = W)
  cells : ∀ i (h : i < q.length), b.buf[(b.tail + i) % W]? = some (some q[i])

variable {W : ℕ} {b : RingBuffer α} {q : List α}

theorem rep_new (hW : 1 ≤ W) : Rep W (new W : RingBuffer α) [] where
  ws := rfl
  len := by simp [new]
  tail_lt := by simp only [new]; omega
  qlen := by simp
  head := by simp [new]
  full := by simp [new]; omega
  cells i h := by simp at h

theorem Rep.isFull (h : Rep W b q) : b.isFull = decide (q.length = W) := h.full

theorem mod_cases {W t n : ℕ} (ht : t < W) (hn : n ≤ W) :
    (t + n) % W = if t + n < W then t + n else t + n - W := by
  split
  · exact Nat.mod_eq_of_lt ‹_›
  · rw [Nat.mod_eq_sub_mod (by omega), Nat.mod_eq_of_lt (by omega)]

theorem Rep.isEmpty (h : Rep W b q) : b.isEmpty = q.isEmpty := by
  have hm := mod_cases h.tail_lt h.qlen
  rw [RingBuffer.isEmpty, h.full, h.head, hm]
  have ht := h.tail_lt
  have hq := h.qlen
  cases q with
  | nil => simp at hm ⊢; omega
  | cons a q =>
    simp only [List.isEmpty_cons, List.length_cons] at *
    by_cases hc : q.length + 1 = W
    · simp [hc]
    · simp only [hc, decide_false, Bool.not_false, Bool.true_and, beq_eq_false_iff_ne]
      split <;> omega

theorem Rep.size (h : Rep W b q) : b.size = q.length := by
  have hm := mod_cases h.tail_lt h.qlen
  have ht := h.tail_lt
  have hq := h.qlen
  rw [RingBuffer.size, h.full, h.head, h.ws, hm]
  by_cases hc : q.length = W
  · simp [hc]
  · simp only [hc, decide_false, Bool.not_false, ite_true]
    split <;> split <;> omega

theorem Rep.reset (h : Rep W b q) : Rep W b.reset [] where
  ws := h.ws
  len := h.len
  tail_lt := h.tail_lt
  qlen := by simp
  head := by simp [RingBuffer.reset, Nat.mod_eq_of_lt h.tail_lt]
  full := by have := h.tail_lt; simp [RingBuffer.reset]; omega
  cells i h := by simp at h

theorem next_ok {W i : ℕ} (hW : 1 ≤ W) : next W i = .ok ((i + 1) % W) := by
  unfold next; rw [if_neg (by omega)]

theorem Rep.pop_nil (h : Rep W b []) (dflt : α) : b.pop dflt = .ok (dflt, b) := by
  simp [RingBuffer.pop, h.isEmpty]

theorem Rep.pop_cons {x : α} (h : Rep W b (x :: q)) (dflt : α) :
    ∃ b', b.pop dflt = .ok (x, b') ∧ Rep W b' q := by
  have ht := h.tail_lt
  have hq := h.qlen
  simp only [List.length_cons] at hq
  have h0 := h.cells 0 (by simp)
  simp only [Nat.add_zero, List.getElem_cons_zero, Nat.mod_eq_of_lt ht] at h0
  refine ⟨{ b with full := false, tail := (b.tail + 1) % W }, ?_, ?_⟩
  · have hl : load b.buf b.tail = .ok x := by simp [load, h0]
    simp [RingBuffer.pop, h.isEmpty, hl, h.ws, next_ok (show 1 ≤ W by omega)]
  · refine ⟨h.ws, h.len, Nat.mod_lt _ (by omega), by omega, ?_, ?_, ?_⟩
    · have := h.head
      simp only [List.length_cons] at this
      simp only [this, Nat.mod_add_mod]
      congr 1; omega
    · simp; omega
    · intro i hi
      have := h.cells (i + 1) (by simpa using hi)
      simp only [List.getElem_cons_succ] at this
      simp only [Nat.mod_add_mod]
      rw [← this]; congr 2; omega

theorem Rep.update (h : Rep W b q) (x : α) :
    ∃ b', b.update x = .ok b' ∧ Rep W b' (Spec.push (some W) q x) ∧
      b'.historyCount = b.historyCount + 1 := by
  have ht := h.tail_lt
  have hq := h.qlen
  have hW : 1 ≤ W := by omega
  have hhead : b.head < W := by rw [h.head]; exact Nat.mod_lt _ (by omega)
  have hst : store b.buf b.head x = .ok (b.buf.set b.head (some x)) := by
    simp [store, h.len, hhead]
  by_cases hc : q.length = W
  · -- full: the oldest item is overwritten
    have hf : b.full = true := by simp [h.full, hc]
    have hht : b.head = b.tail := by
      rw [h.head, hc, Nat.add_mod_right, Nat.mod_eq_of_lt ht]
    refine ⟨⟨W, b.buf.set b.head (some x), (b.head + 1) % W, (b.tail + 1) % W,
        (b.head + 1) % W == (b.tail + 1) % W, b.historyCount + 1⟩,
      by simp [RingBuffer.update, hst, hf, h.ws, next_ok hW], ?_, rfl⟩
    obtain _ | ⟨a, q⟩ := q
    · simp at hc; omega
    simp only [List.length_cons] at hc
    have hp : Spec.push (some W) (a :: q) x = q ++ [x] := by
      simp [Spec.push]; omega
    rw [hp]
    refine ⟨rfl, by simp [h.len], Nat.mod_lt _ (by omega), by simp; omega, ?_, ?_, ?_⟩
    · simp only [hht, List.length_append, List.length_singleton, hc, Nat.add_mod_right,
        Nat.mod_mod]
    · simp [hht, hc]
    · intro i hi
      simp only [List.length_append, List.length_singleton] at hi
      simp only [Nat.mod_add_mod, hht]
      by_cases hi2 : i < q.length
      · have := h.cells (i + 1) (by simpa using hi2)
        simp only [List.getElem_cons_succ] at this
        rw [List.getElem_append_left hi2, ← this, List.getElem?_set_ne]
        · congr 2; omega
        · have := mod_cases ht (show i + 1 ≤ W by omega)
          rw [show b.tail + 1 + i = b.tail + (i + 1) by omega, this]
          split <;> omega
      · have hi3 : i = q.length := by omega
        subst hi3
        rw [show b.tail + 1 + q.length = b.tail + W by omega, Nat.add_mod_right,
          Nat.mod_eq_of_lt ht, List.getElem?_set_self (by rw [h.len]; omega)]
        simp
  · have hf : b.full = false := by simp [h.full, hc]
    refine ⟨⟨W, b.buf.set b.head (some x), (b.head + 1) % W, b.tail,
        (b.head + 1) % W == b.tail, b.historyCount + 1⟩,
      by simp [RingBuffer.update, hst, hf, h.ws, next_ok hW], ?_, rfl⟩
    have hp : Spec.push (some W) q x = q ++ [x] := by
      simp [Spec.push]; omega
    rw [hp]
    have hm := mod_cases ht hq
    refine ⟨rfl, by simp [h.len], ht, by simp; omega, ?_, ?_, ?_⟩
    · simp only [h.head, Nat.mod_add_mod, List.length_append, List.length_singleton]
      congr 1
    · have hm1 := mod_cases ht (show q.length + 1 ≤ W by omega)
      simp only [h.head, Nat.mod_add_mod, List.length_append, List.length_singleton]
      rw [show b.tail + q.length + 1 = b.tail + (q.length + 1) by omega, hm1]
      rw [Bool.eq_iff_iff]
      simp only [beq_iff_eq, decide_eq_true_eq]
      split <;> omega
    · intro i hi
      simp only [List.length_append, List.length_singleton] at hi
      by_cases hi2 : i < q.length
      · rw [List.getElem_append_left hi2, ← h.cells i hi2, List.getElem?_set_ne]
        rw [h.head, hm, mod_cases ht (show i ≤ W by omega)]
        split <;> split <;> omega
      · have hi3 : i = q.length := by omega
        subst hi3
        rw [← h.head, List.getElem?_set_self (by rw [h.len]; omega)]
        simp

/-- One call preserves the representation and returns what the queue returns. -/
theorem Rep.step (h : Rep W b q) (dflt : α) (o : COp α) :
    ∃ b', b.step dflt o =
        .ok ((Spec.qstep dflt (some W) (fun q => decide (q.length = W)) q o).1, b') ∧
      Rep W b' (Spec.qstep dflt (some W) (fun q => decide (q.length = W)) q o).2 := by
  cases o with
  | update x =>
    obtain ⟨b', h1, h2, _⟩ := h.update x
    exact ⟨b', by simp [RingBuffer.step, h1, Spec.qstep], h2⟩
  | pop =>
    cases q with
    | nil => exact ⟨b, by simp [RingBuffer.step, h.pop_nil, Spec.qstep], h⟩
    | cons x q =>
      obtain ⟨b', h1, h2⟩ := h.pop_cons dflt
      exact ⟨b', by simp [RingBuffer.step, h1, Spec.qstep], h2⟩
  | reset => exact ⟨_, rfl, h.reset⟩
  | size => exact ⟨b, by simp [RingBuffer.step, h.size, Spec.qstep], h⟩
  | empty => exact ⟨b, by simp [RingBuffer.step, h.isEmpty, Spec.qstep], h⟩
  | full => exact ⟨b, by simp [RingBuffer.step, h.isFull, Spec.qstep], h⟩

/-- Any history of calls. -/
theorem Rep.run (dflt : α) (ops : List (COp α)) : ∀ {b : RingBuffer α} {q : List α}, Rep W b q →
    ∃ b', runCalls (RingBuffer.step dflt) b ops =
        .ok ((Spec.qrun dflt (some W) (fun q => decide (q.length = W)) q ops).1, b') ∧
      Rep W b' (Spec.qrun dflt (some W) (fun q => decide (q.length = W)) q ops).2 := by
  induction ops with
  | nil => intro b q h; exact ⟨b, rfl, h⟩
  | cons o os ih =>
    intro b q h
    obtain ⟨b1, h1, r1⟩ := h.step dflt o
    obtain ⟨b2, h2, r2⟩ := ih r1
    exact ⟨b2, by simp [runCalls, h1, h2, Spec.qrun], r2⟩

end RingBuffer

end KML
