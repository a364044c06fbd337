import Verif.Lemmas.RingBuffer

/-!
# C01–C04, C07: RingBuffer
-/

namespace KML

variable {α : Type}

/-- What a bounded queue of capacity `W` returns for a history of calls (see `Spec.qrun`). -/
def boundedQueueOutputs (dflt : α) (W : ℕ) (ops : List (COp α)) : List (COut α) :=
  (Spec.qrun dflt (some W) (fun q => decide (q.length = W)) [] ops).1

/-- **C01.** For every window size `W ≥ 1`, element type and history of calls, a RingBuffer returns
exactly what a plain queue of capacity `W` returns. -/
theorem C01_ringbuffer_is_bounded_fifo (W : ℕ) (hW : 1 ≤ W) (dflt : α) (ops : List (COp α)) :
    ∃ b, runCalls (RingBuffer.step dflt) (RingBuffer.new W) ops =
      .ok (boundedQueueOutputs dflt W ops, b) := by
  obtain ⟨b, h, _⟩ := (RingBuffer.rep_new (α := α) hW).run dflt ops
  exact ⟨b, h⟩

/-- The queue of the specification really is the last `W` items pushed, oldest first. -/
theorem C01_queue_keeps_last (W : ℕ) (q xs : List α) (hq : q.length ≤ W) :
    xs.foldl (Spec.push (some W)) q = Spec.lastN W (q ++ xs) := by
  induction xs generalizing q with
  | nil =>
    have : q.length - W = 0 := by omega
    simp [Spec.lastN, this]
  | cons x xs ih =>
    have hp : Spec.push (some W) q x = Spec.lastN W (q ++ [x]) := by
      unfold Spec.push Spec.lastN
      by_cases h : q.length < W
      · have : (q ++ [x]).length - W = 0 := by simp; omega
        simp only [if_pos h]; rw [this, List.drop_zero]
      · have : (q ++ [x]).length - W = 1 := by simp; omega
        simp only [if_neg h]; rw [this, List.drop_one]
    rw [List.foldl_cons, hp, ih _ (by simp [Spec.lastN]; omega)]
    unfold Spec.lastN
    rw [← List.drop_append_of_le_length (by simp), List.drop_drop]
    simp only [List.append_assoc, List.singleton_append, List.length_drop, List.length_append,
      List.length_cons, List.length_nil]
    congr 1
    omega

/-- **C02.** With `W ≥ 1` no history reaches undefined behaviour (out-of-range access, read of a never
written element, `% 0`) or throws. -/
theorem C02_ringbuffer_memory_safe (W : ℕ) (hW : 1 ≤ W) (dflt : α) (ops : List (COp α)) :
    (runCalls (RingBuffer.step dflt) (RingBuffer.new W) ops).IsOk := by
  obtain ⟨b, h⟩ := C01_ringbuffer_is_bounded_fifo W hW dflt ops
  exact ⟨_, h⟩

/-- non-trivial instance of C01/C02: wrap-around, overwrite, pop of an empty buffer and reset -/
example : boundedQueueOutputs (0 : ℤ) 2
    [.update 1, .update 2, .update 3, .full, .pop, .pop, .pop, .update 4, .reset, .size] =
    [.unit, .unit, .unit, .bool true, .val 2, .val 3, .val 0, .unit, .unit, .num 0] := by decide

example : (runCalls (RingBuffer.step (0 : ℤ)) (RingBuffer.new 2)
    [.update 1, .update 2, .update 3, .full, .pop, .pop, .pop, .update 4, .reset, .size]).IsOk :=
  C02_ringbuffer_memory_safe 2 (by decide) 0 _

/-- **C03, full statement.** Every method is defined for every window size, 0 included. -/
def C03_full : Prop :=
  ∀ (W : ℕ) (ops : List (COp ℤ)), (runCalls (RingBuffer.step 0) (RingBuffer.new W) ops).IsOk

/-- **C03 is false**: the first update of a buffer of window size 0 writes out of range. -/
theorem C03_violated : ¬ C03_full := by
  intro h
  obtain ⟨a, ha⟩ := h 0 [.update 1]
  cases ha

/-- **C03, the part that holds**: all histories for `W ≥ 1`; for `W = 0` all histories without an
update, and *no* history with one. -/
theorem C03_window_zero_partial (W : ℕ) (dflt : α) (ops : List (COp α)) :
    (runCalls (RingBuffer.step dflt) (RingBuffer.new W) ops).IsOk ↔
      (1 ≤ W ∨ ∀ x, COp.update x ∉ ops) := by
  by_cases hW : 1 ≤ W
  · simp [hW, C02_ringbuffer_memory_safe W hW dflt ops]
  · have h0 : W = 0 := by omega
    subst h0
    simp only [Nat.le_zero, one_ne_zero, false_or]
    induction ops with
    | nil => simp [runCalls, Res.IsOk]
    | cons o os ih =>
      cases o with
      | update x =>
        simp [runCalls, RingBuffer.step, RingBuffer.update, RingBuffer.store, RingBuffer.new, Res.IsOk]
        exact ⟨x, fun h => absurd rfl h⟩
      | _ =>
        simp_all [runCalls, RingBuffer.step, RingBuffer.new,
          RingBuffer.pop, RingBuffer.isEmpty, RingBuffer.reset, Res.IsOk, Res.bind_eq_ok]
        exact exists_comm.trans ih

/-- Window 0: reading calls are fine, an update is not. -/
example : (runCalls (RingBuffer.step (0 : ℤ)) (RingBuffer.new 0) [.size, .empty, .pop, .reset, .full]).IsOk ∧
    ¬ (runCalls (RingBuffer.step (0 : ℤ)) (RingBuffer.new 0) [.size, .update 1]).IsOk :=
  ⟨(C03_window_zero_partial 0 0 _).2 (Or.inr (by simp)), fun h => by
    have := (C03_window_zero_partial 0 0 _).1 h
    simp at this⟩

/-- A buffer some history of calls leads to. -/
def RingBuffer.Reachable (W : ℕ) (b : RingBuffer α) : Prop :=
  ∃ dflt ops outs, runCalls (RingBuffer.step dflt) (RingBuffer.new W) ops = .ok (outs, b)

theorem RingBuffer.Reachable.rep {W : ℕ} (hW : 1 ≤ W) {b : RingBuffer α}
    (h : RingBuffer.Reachable W b) : ∃ q, RingBuffer.Rep W b q := by
  obtain ⟨dflt, ops, outs, h⟩ := h
  obtain ⟨b', h1, h2⟩ := (RingBuffer.rep_new (α := α) hW).run dflt ops
  rw [h1] at h
  cases h
  exact ⟨_, h2⟩

theorem RingBuffer.Rep.drain {W : ℕ} : ∀ {q : List α} {b : RingBuffer α}, RingBuffer.Rep W b q →
    ∀ dflt, ∃ b', runCalls (RingBuffer.step dflt) b (List.replicate q.length .pop) =
      .ok (q.map .val, b') ∧ b'.isEmpty = true
  | [], b, h, _ => ⟨b, rfl, by simpa using h.isEmpty⟩
  | x :: q, b, h, dflt => by
    obtain ⟨b1, h1, r1⟩ := h.pop_cons dflt
    obtain ⟨b2, h2, e2⟩ := RingBuffer.Rep.drain r1 dflt
    exact ⟨b2, by simp [List.replicate_succ, runCalls, RingBuffer.step, h1, h2], e2⟩

/-- **C04.** At every point of every history `size() ≤ W`, `full()` iff `size() = W`, `empty()` iff
`size() = 0`, and exactly `size()` stored items (not depending on the `T()` returned by an empty
buffer) come out of successive pops, after which the buffer is empty. -/
theorem C04_ringbuffer_observers_agree (W : ℕ) (hW : 1 ≤ W) (b : RingBuffer α)
    (hb : RingBuffer.Reachable W b) :
    b.size ≤ W ∧ (b.isFull = true ↔ b.size = W) ∧ (b.isEmpty = true ↔ b.size = 0) ∧
    ∃ items : List α, items.length = b.size ∧ ∀ dflt, ∃ b',
      runCalls (RingBuffer.step dflt) b (List.replicate b.size .pop) = .ok (items.map .val, b') ∧
      b'.isEmpty = true := by
  obtain ⟨q, h⟩ := hb.rep hW
  refine ⟨by rw [h.size]; exact h.qlen, by simp [h.isFull, h.size], ?_, q, h.size.symm, ?_⟩
  · rw [h.isEmpty, h.size]; simp
  · rw [h.size]; exact h.drain

/-- a reachable buffer that is neither empty nor full and whose head is behind its tail -/
example : ∃ b : RingBuffer ℤ, RingBuffer.Reachable 3 b ∧ b.head < b.tail ∧ b.size = 2 :=
  ⟨_, ⟨0, [.update 1, .update 2, .update 3, .update 4, .pop], _, rfl⟩, by decide, by decide⟩

/-- **C07.** The `size_t` computation of `size()`, which wraps modulo 2^64 whenever
`windowSize + head ≥ 2^64`, is exact: it gives `(head - tail) mod windowSize`, or the window size if
full. -/
theorem C07_size_exact_in_64_bits (W head tail : BitVec 64) (full : Bool)
    (hh : head < W) (ht : tail < W) :
    ((RingBuffer.sizeBV W head tail full).toNat : ℤ) =
      if full then (W.toNat : ℤ) else ((head.toNat : ℤ) - tail.toNat) % W.toNat := by
  have hh' : head.toNat < W.toNat := hh
  have ht' : tail.toNat < W.toNat := ht
  have hW := W.isLt
  cases full with
  | true => simp [RingBuffer.sizeBV]
  | false =>
    simp only [RingBuffer.sizeBV, Bool.not_false, ite_true, Bool.false_eq_true, ite_false]
    split
    · rename_i h
      have h' : tail.toNat ≤ head.toNat := h
      have : (head - tail).toNat = head.toNat - tail.toNat := by
        rw [BitVec.toNat_sub]; omega
      rw [this, Int.emod_eq_of_lt (by omega) (by omega)]
      omega
    · rename_i h
      have h' : head.toNat < tail.toNat := by
        simpa [BitVec.le_def] using h
      have : (W + head - tail).toNat = W.toNat + head.toNat - tail.toNat := by
        rw [BitVec.toNat_sub, BitVec.toNat_add]; omega
      rw [this, ← Int.add_emod_right, Int.emod_eq_of_lt (by omega) (by omega)]
      omega

theorem RingBuffer.Rep.size64 {W : ℕ} (hW : 1 ≤ W) (hW64 : W < 2 ^ 64) {b : RingBuffer α} {q : List α}
    (h : RingBuffer.Rep W b q) :
    (RingBuffer.sizeBV (BitVec.ofNat 64 W) (BitVec.ofNat 64 b.head) (BitVec.ofNat 64 b.tail)
      b.full).toNat = b.size := by
  have ht := h.tail_lt
  have hh : b.head < W := by rw [h.head]; exact Nat.mod_lt _ (by omega)
  have e1 : (BitVec.ofNat 64 W).toNat = W := by simp; omega
  have e2 : (BitVec.ofNat 64 b.head).toNat = b.head := by simp; omega
  have e3 : (BitVec.ofNat 64 b.tail).toNat = b.tail := by simp; omega
  unfold RingBuffer.sizeBV RingBuffer.size
  rw [h.ws]
  cases b.full
  · simp only [Bool.not_false, ite_true, ge_iff_le, BitVec.le_def, e2, e3]
    split
    · rw [BitVec.toNat_sub, e2, e3]; omega
    · rw [BitVec.toNat_sub, BitVec.toNat_add, e1, e2, e3]; omega
  · simpa using e1

/-- C07 for reachable buffers: the 64-bit `size()` is the number of items held. -/
theorem C07_size_matches_model (W : ℕ) (hW : 1 ≤ W) (hW64 : W < 2 ^ 64) (b : RingBuffer α)
    (hb : RingBuffer.Reachable W b) :
    (RingBuffer.sizeBV (BitVec.ofNat 64 W) (BitVec.ofNat 64 b.head) (BitVec.ofNat 64 b.tail)
      b.full).toNat = b.size := by
  obtain ⟨q, h⟩ := hb.rep hW
  exact h.size64 hW hW64

/-- an instance in which `windowSize + head` exceeds 2^64 -/
example : (RingBuffer.sizeBV (BitVec.ofNat 64 (2 ^ 64 - 1)) 5#64 7#64 false).toNat = 2 ^ 64 - 3 := by
  decide

end KML
