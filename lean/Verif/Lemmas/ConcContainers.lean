import Verif.Lemmas.Concurrency
import Verif.Lemmas.RingBuffer
import Verif.Lemmas.LinkedList

/-! # The access-by-access code of the containers agrees with the sequential model -/

set_option linter.unusedSectionVars false

namespace KML.Conc

/-- The outcome seen through a view of the memory. -/
def through {ρ σ τ : Type} (f : σ → τ) : Res (ρ × σ) → Res (ρ × τ)
  | .ok (r, s) => .ok (r, f s)
  | .throw m => .throw m
  | .ub u => .ub u

namespace Ring

variable {α : Type}

theorem cell_self (m : Mem RLoc (RVal α)) (i : ℕ) (v : Option α) : cell (Function.update m (.cell i) v) i = v := by
  simp [cell]

theorem cell_ne (m : Mem RLoc (RVal α)) {l : RLoc} {j : ℕ} (v : RVal α l) (h : l ≠ .cell j) :
    cell (Function.update m l v) j = cell m j := by
  unfold cell; rw [Function.update_of_ne h.symm]

theorem cell_field (m : Mem RLoc (RVal α)) {l : RLoc} (v : RVal α l) (h : ∀ j, l ≠ .cell j) :
    cell (Function.update m l v) = cell m := funext fun j => cell_ne m v (h j)

theorem view_head (W : ℕ) (m : Mem RLoc (RVal α)) (v : ℕ) :
    view W (Function.update m .head v) = { view W m with head := v } := by
  simp [view, cell_field]

theorem view_tail (W : ℕ) (m : Mem RLoc (RVal α)) (v : ℕ) :
    view W (Function.update m .tail v) = { view W m with tail := v } := by
  simp [view, cell_field]

theorem view_full (W : ℕ) (m : Mem RLoc (RVal α)) (v : Bool) :
    view W (Function.update m .full v) = { view W m with full := v } := by
  simp [view, cell_field]

theorem view_count (W : ℕ) (m : Mem RLoc (RVal α)) (v : ℕ) :
    view W (Function.update m .count v) = { view W m with historyCount := v } := by
  simp [view, cell_field]

theorem view_cell (W i : ℕ) (m : Mem RLoc (RVal α)) (v : Option α) :
    view W (Function.update m (.cell i) v) = { view W m with buf := (view W m).buf.set i v } := by
  have : (List.range W).map (cell (Function.update m (.cell i) v)) = ((List.range W).map (cell m)).set i v := by
    refine List.ext_getElem (by simp) fun j h1 h2 => ?_
    rw [List.getElem_set]
    simp only [List.getElem_map, List.getElem_range]
    by_cases h : i = j
    · subst h; rw [if_pos rfl, cell_self]
    · rw [if_neg h, cell_ne _ _ (by simpa using h)]
  simp [view, this]

theorem view_buf_length (W : ℕ) (m : Mem RLoc (RVal α)) : (view W m).buf.length = W := by simp [view]

theorem update_code (W : ℕ) (x : α) (m : Mem RLoc (RVal α)) :
    through (view W) ((updateCode W x).run m) = (do
      let b ← (view W m).update x
      .ok (.unit, b)) := by
  unfold updateCode RingBuffer.update RingBuffer.store RingBuffer.next
  simp only [Code.run, advance]
  rw [view_buf_length]
  by_cases hh : m .head < W
  · have h0 : W ≠ 0 := by rintro rfl; exact Nat.not_lt_zero _ hh
    have hh' : (view W m).head < W := hh
    have hW : (view W m).windowSize = W := rfl
    rw [if_pos hh, if_pos hh']
    simp only [Code.run, Res.ok_bind]
    rcases hf : m .full with _ | _
    · have hf' : (view W m).full = false := hf
      simp [hf, hf', Code.run, h0, through, view_head, view_full, view_count, view_cell, hW]
      simp [view]
    · have hf' : (view W m).full = true := hf
      simp [hf, hf', Code.run, h0, through, view_head, view_tail, view_full, view_count, view_cell, hW]
      simp [view]
  · have hh' : ¬ (view W m).head < W := hh
    rw [if_neg hh, if_neg hh']
    rfl

theorem load_view (W : ℕ) (m : Mem RLoc (RVal α)) {i : ℕ} (h : i < W) :
    RingBuffer.load (view W m).buf i = match cell m i with
      | none => .ub .uninit
      | some v => .ok v := by
  unfold RingBuffer.load
  have : (view W m).buf[i]? = some (cell m i) := by simp [view, h]
  rw [this]
  cases cell m i <;> rfl

theorem pop_code (W : ℕ) (dflt : α) (m : Mem RLoc (RVal α)) :
    through (view W) ((popCode W dflt).run m) = (do
      let (v, b) ← (view W m).pop dflt
      .ok (.val v, b)) := by
  unfold popCode emptyCode RingBuffer.pop RingBuffer.isEmpty RingBuffer.next
  have hbody : through (view W) ((if m .tail < W then
        .read (.cell (m .tail)) fun (v : Option α) =>
        match v with
        | none => .ub .uninit
        | some v =>
          .write .full false <|
          advance W .tail rfl <|
          .ret (.val v)
      else .ub .oob : RCode α (COut α)).run m) = (do
        let item ← RingBuffer.load (view W m).buf (m .tail)
        let tail ← if W = 0 then .ub .divZero
          else .ok ((m .tail + 1 : ℕ) % W)
        .ok (.val item, { view W m with full := false, tail := tail })) := by
    by_cases h : m .tail < W
    · have h0 : W ≠ 0 := by rintro rfl; exact Nat.not_lt_zero _ h
      rw [if_pos h, load_view W m h]
      simp only [Code.run]
      have hc : cell m (m .tail) = m (.cell (m .tail)) := rfl
      rw [hc]
      rcases m (.cell (m .tail)) with _ | v
      · rfl
      · simp [Code.run, advance, h0, through, view_full, view_tail]
    · rw [if_neg h]
      have : RingBuffer.load (view W m).buf (m .tail) = .ub .oob := by
        unfold RingBuffer.load
        rw [List.getElem?_eq_none (by rw [view_buf_length]; exact Nat.not_lt.1 h)]
      rw [this]
      rfl
  have hf' : (view W m).full = m .full := rfl
  have hh' : (view W m).head = m .head := rfl
  have ht' : (view W m).tail = m .tail := rfl
  have hw' : (view W m).windowSize = W := rfl
  rw [hf', hh', ht', hw']
  simp only [Code.run]
  rcases hf : m .full with _ | _
  · by_cases he : m .head = m .tail
    · simp [he, Code.run, through]
    · simp only [Code.run, Bool.false_eq_true, if_false, beq_iff_eq, he, Bool.not_false,
        Bool.true_and]
      refine hbody.trans ?_
      rcases RingBuffer.load (view W m).buf (m .tail) with v | u | u
      · by_cases h0 : W = 0 <;> simp [h0, view]
      · rfl
      · rfl
  · simp only [Code.run, if_true, Bool.false_eq_true, if_false, Bool.not_true, Bool.false_and]
    refine hbody.trans ?_
    rcases RingBuffer.load (view W m).buf (m .tail) with v | u | u
    · by_cases h0 : W = 0 <;> simp [h0, view]
    · rfl
    · rfl

/-- Run alone, the calls that hold the lock do what the sequential model says. -/
theorem locked_code (W : ℕ) (dflt : α) (op : COp α) (hop : (lib W dflt).locked op = true) (m : Mem RLoc (RVal α)) :
    through (view W) (((lib W dflt).code op).run m) = (view W m).step dflt op := by
  cases op with
  | update x => exact update_code W x m
  | pop => exact pop_code W dflt m
  | reset =>
    simp only [lib, resetCode, Code.run, through, RingBuffer.step, RingBuffer.reset, view_full, view_head]
    rfl
  | size => cases hop
  | empty => cases hop
  | full => cases hop

theorem view_fresh (W : ℕ) : view W (fresh : Mem RLoc (RVal α)) = RingBuffer.new W := by
  unfold view RingBuffer.new
  congr 1
  refine List.ext_getElem (by simp) fun j h1 h2 => ?_
  simp [cell, fresh]

end Ring

/-- Serial runs of calls that agree with a sequential model agree with it. -/
theorem serial_through {ι Op Loc : Type} [DecidableEq ι] [DecidableEq Loc] {Val : Loc → Type} {ρ τ : Type}
    (L : Lib Op Loc Val ρ) (view : Mem Loc Val → τ) (step : τ → Op → Res (ρ × τ)) (log : List (ι × Op))
    (Wf : Mem Loc Val → Prop)
    (h : ∀ p ∈ log, ∀ m, Wf m → through view ((L.code p.2).run m) = step (view m) p.2 ∧
      ∀ r m', (L.code p.2).run m = .ok (r, m') → Wf m') (m : Mem Loc Val) (hm : Wf m) :
    (do
      let (rs, m') ← serial L m log
      .ok (rs.map (fun p => p.2.2), view m')) = runCalls step (view m) (log.map Prod.snd) ∧
    ∀ rs m', serial L m log = .ok (rs, m') → Wf m' ∧ rs.map (fun p => (p.1, p.2.1)) = log := by
  induction log generalizing m with
  | nil =>
    refine ⟨rfl, ?_⟩
    intro rs m' h
    simp only [serial, runCalls] at h
    injection h with h
    injection h with h1 h2
    subst h1 h2
    exact ⟨hm, rfl⟩
  | cons p log ih =>
    obtain ⟨h1, h2⟩ := h p (by simp) m hm
    have ih' := fun m hm => ih (fun q hq => h q (by simp [hq])) m hm
    simp only [serial, runCalls, List.map_cons] at ih' ⊢
    rw [← h1]
    rcases hr : (L.code p.2).run m with ⟨r, m'⟩ | u | u
    · obtain ⟨h3, h4⟩ := ih' m' (h2 r m' hr)
      simp only [Res.ok_bind, through]
      rw [← h3]
      refine ⟨?_, ?_⟩
      · rcases runCalls _ m' log with ⟨rs, m''⟩ | u | u <;> rfl
      · intro rs m'' e
        obtain ⟨⟨rs', m3⟩, e1, e2⟩ := Res.bind_eq_ok.1 e
        injection e2 with e2
        injection e2 with e2 e3
        subst e2 e3
        obtain ⟨h5, h6⟩ := h4 rs' m3 e1
        refine ⟨h5, ?_⟩
        rw [List.map_cons, h6]
    · refine ⟨rfl, ?_⟩
      intro rs m'' e
      simp only [Res.throw_bind] at e
      cases e
    · refine ⟨rfl, ?_⟩
      intro rs m'' e
      simp only [Res.ub_bind] at e
      cases e

namespace LList

variable {α : Type}

/-- Nothing beyond the allocator's next address is a node. -/
def Wf (m : Mem LLoc (LVal α)) : Prop := ∀ a : ℕ, (m .brk : ℕ) ≤ a → isAlive m a = false

theorem node_other (m : Mem LLoc (LVal α)) {l : LLoc} (v : LVal α l) {a : ℕ} (h1 : l ≠ .alive a) (h2 : l ≠ .value a)
    (h3 : l ≠ .next a) (h4 : l ≠ .previous a) : node (Function.update m l v) a = node m a := by
  unfold node isAlive
  rw [Function.update_of_ne h1.symm, Function.update_of_ne h2.symm, Function.update_of_ne h3.symm,
    Function.update_of_ne h4.symm]

theorem isAlive_other (m : Mem LLoc (LVal α)) {l : LLoc} (v : LVal α l) {a : ℕ} (h1 : l ≠ .alive a) :
    isAlive (Function.update m l v) a = isAlive m a := by
  unfold isAlive; rw [Function.update_of_ne h1.symm]

theorem view_head (W : ℕ) (m : Mem LLoc (LVal α)) (v : Option ℕ) :
    view W (Function.update m .head v) = { view W m with head := v } := by
  have : node (Function.update m .head v) = node m := funext fun a => node_other m _ (by simp) (by simp) (by simp) (by simp)
  simp [view, this]

theorem view_tail (W : ℕ) (m : Mem LLoc (LVal α)) (v : Option ℕ) :
    view W (Function.update m .tail v) = { view W m with tail := v } := by
  have : node (Function.update m .tail v) = node m := funext fun a => node_other m _ (by simp) (by simp) (by simp) (by simp)
  simp [view, this]

theorem view_size (W : ℕ) (m : Mem LLoc (LVal α)) (v : ℕ) :
    view W (Function.update m .size v) = { view W m with size := v } := by
  have : node (Function.update m .size v) = node m := funext fun a => node_other m _ (by simp) (by simp) (by simp) (by simp)
  simp [view, this]

theorem view_count (W : ℕ) (m : Mem LLoc (LVal α)) (v : ℕ) :
    view W (Function.update m .count v) = { view W m with historyCount := v } := by
  have : node (Function.update m .count v) = node m :=
    funext fun a => node_other m _ (by simp) (by simp) (by simp) (by simp)
  simp [view, this]

theorem heap_set (m m' : Mem LLoc (LVal α)) (a n : ℕ) (h : ∀ b, b ≠ a → node m' b = node m b) :
    (List.range n).map (node m') = ((List.range n).map (node m)).set a (node m' a) := by
  refine List.ext_getElem (by simp) fun j h1 h2 => ?_
  rw [List.getElem_set]
  simp only [List.getElem_map, List.getElem_range]
  by_cases hj : a = j
  · rw [if_pos hj, hj]
  · rw [if_neg hj, h j (Ne.symm hj)]

theorem view_next (W : ℕ) (m : Mem LLoc (LVal α)) (a : ℕ) (v : Option ℕ) (ha : isAlive m a = true) :
    view W (Function.update m (.next a) v) =
      { view W m with heap := (view W m).heap.set a (some ⟨m (.value a), v, m (.previous a)⟩) } := by
  have h := heap_set m (Function.update m (.next a) v) a (m .brk)
    fun b hb => node_other m _ (by simp) (by simp) (by simpa using Ne.symm hb) (by simp)
  have hn : node (Function.update m (.next a) v) a = some ⟨m (.value a), v, m (.previous a)⟩ := by
    unfold node
    rw [isAlive_other m _ (by simp), ha]
    simp
  rw [hn] at h
  simp [view, h]

theorem view_previous (W : ℕ) (m : Mem LLoc (LVal α)) (a : ℕ) (v : Option ℕ) (ha : isAlive m a = true) :
    view W (Function.update m (.previous a) v) =
      { view W m with heap := (view W m).heap.set a (some ⟨m (.value a), m (.next a), v⟩) } := by
  have h := heap_set m (Function.update m (.previous a) v) a (m .brk)
    fun b hb => node_other m _ (by simp) (by simp) (by simp) (by simpa using Ne.symm hb)
  have hn : node (Function.update m (.previous a) v) a = some ⟨m (.value a), m (.next a), v⟩ := by
    unfold node
    rw [isAlive_other m _ (by simp), ha]
    simp
  rw [hn] at h
  simp [view, h]

theorem view_delete (W : ℕ) (m : Mem LLoc (LVal α)) (a : ℕ) :
    view W (Function.update m (.alive a) false) = { view W m with heap := (view W m).heap.set a none } := by
  have h := heap_set m (Function.update m (.alive a) false) a (m .brk)
    fun b hb => node_other m _ (by simpa using Ne.symm hb) (by simp) (by simp) (by simp)
  have hn : node (Function.update m (.alive a) false) a = none := by
    simp [node, isAlive]
  rw [hn] at h
  simp [view, h]

theorem get_view (W : ℕ) {m : Mem LLoc (LVal α)} (hm : Wf m) (a : ℕ) :
    (view W m).heap[a]? = if isAlive m a then some (some ⟨m (.value a), m (.next a), m (.previous a)⟩) else
      if a < m .brk then some none else none := by
  rcases Nat.lt_or_ge a (m .brk) with h | h
  · have : (view W m).heap[a]? = some (node m a) := by simp [view, h]
    rw [this]
    unfold node
    rw [if_pos h]
    split <;> rfl
  · rw [hm a h]
    have : ¬ a < m .brk := Nat.not_lt.2 h
    simp [view, this]

theorem deref_view (W : ℕ) {m : Mem LLoc (LVal α)} (hm : Wf m) (p : Option ℕ) :
    (view W m).heap.deref p = match p with
      | none => .ub .nullDeref
      | some a => if isAlive m a then .ok (a, ⟨m (.value a), m (.next a), m (.previous a)⟩) else .ub .useAfterFree := by
  rcases p with _ | a
  · rfl
  · unfold Heap.deref
    simp only
    rw [get_view W hm]
    split
    · rename_i heq
      split at heq
      · rename_i h; rw [if_pos h]; cases heq; rfl
      · split at heq <;> cases heq
    · rename_i heq
      split
      · rename_i h
        rw [if_pos h] at heq
        exact absurd rfl (heq _)
      · rfl

theorem free_view (W : ℕ) {m : Mem LLoc (LVal α)} (hm : Wf m) (a : ℕ) :
    (view W m).heap.free a = if isAlive m a then .ok ((view W m).heap.set a none) else .ub .useAfterFree := by
  unfold Heap.free
  rw [get_view W hm]
  rcases h : isAlive m a with _ | _
  · simp only [Bool.false_eq_true, if_false]
    split
    · rename_i heq; split at heq <;> cases heq
    · rfl
  · simp

/-- Running a dereference. -/
theorem run_deref {ρ : Type} (p : Option ℕ) (k : ℕ → LCode α ρ) (m : Mem LLoc (LVal α)) :
    (deref p k).run m = match p with
      | none => .ub .nullDeref
      | some a => if isAlive m a then (k a).run m else .ub .useAfterFree := by
  rcases p with _ | a
  · rfl
  · unfold deref
    simp only [Code.run]
    unfold isAlive
    split <;> rfl

theorem Wf.set {m : Mem LLoc (LVal α)} (hm : Wf m) {l : LLoc} (v : LVal α l) (h1 : l ≠ .brk) (h2 : ∀ a, l ≠ .alive a) :
    Wf (Function.update m l v) := by
  intro a ha
  rw [isAlive_other m _ (h2 a)]
  rw [Function.update_of_ne h1.symm] at ha
  exact hm a ha

theorem Wf.delete {m : Mem LLoc (LVal α)} (hm : Wf m) (a : ℕ) : Wf (Function.update m (.alive a) false) := by
  intro b hb
  rw [Function.update_of_ne (by simp)] at hb
  by_cases h : a = b
  · subst h; simp [isAlive]
  · rw [isAlive_other m _ (by simpa using h)]; exact hm b hb

theorem pop_code (W : ℕ) (dflt : α) {m : Mem LLoc (LVal α)} (hm : Wf m) :
    through (view W) ((popCode dflt).run m) = (do
      let (v, l) ← (view W m).pop dflt
      .ok (.val v, l)) ∧ ∀ r m', (popCode dflt).run m = .ok (r, m') → Wf m' := by
  unfold popCode LinkedList.pop LinkedList.isEmpty
  have hh' : (view W m).head = m .head := rfl
  have hs' : (view W m).size = m .size := rfl
  rw [hh', hs']
  simp only [Code.run]
  rcases hh : m .head with _ | a
  · refine ⟨rfl, ?_⟩
    intro r m' h
    simp only [if_true] at h
    injection h with h
    injection h with _ h
    subst h
    exact hm
  · simp only [reduceCtorEq, if_false, Code.run, hh, run_deref]
    rw [deref_view W hm]
    simp only
    rcases ha : isAlive m a with _ | _
    · refine ⟨rfl, ?_⟩
      intro r m' h
      simp only [Bool.false_eq_true, if_false] at h
      cases h
    · simp only [if_true, show (some a == none) = false from rfl, Bool.false_eq_true, if_false, Res.ok_bind]
      rw [free_view W hm, ha]
      simp only [if_true, Res.ok_bind, through]
      refine ⟨?_, ?_⟩
      · simp [view_size, view_head, view_delete]
      · intro r m' h
        injection h with h
        injection h with _ h
        subst h
        exact ((hm.delete a).set _ (by simp) (by simp)).set _ (by simp) (by simp)

/-- Memory after `new Node<T>(item)`. -/
def allocated (m : Mem LLoc (LVal α)) (item : α) : Mem LLoc (LVal α) :=
  Function.update (Function.update (Function.update (Function.update (Function.update m
    .brk (m .brk + 1 : ℕ)) (.value (m .brk)) item) (.next (m .brk)) (none : Option ℕ))
    (.previous (m .brk)) (none : Option ℕ)) (.alive (m .brk)) true

theorem allocated_head (m : Mem LLoc (LVal α)) (item : α) : allocated m item .head = m .head := by simp [allocated]
theorem allocated_tail (m : Mem LLoc (LVal α)) (item : α) : allocated m item .tail = m .tail := by simp [allocated]
theorem allocated_size (m : Mem LLoc (LVal α)) (item : α) : allocated m item .size = m .size := by simp [allocated]
theorem allocated_count (m : Mem LLoc (LVal α)) (item : α) : allocated m item .count = m .count := by simp [allocated]
theorem allocated_brk (m : Mem LLoc (LVal α)) (item : α) : allocated m item .brk = (m .brk + 1 : ℕ) := by
  simp [allocated]

theorem allocated_alive (m : Mem LLoc (LVal α)) (item : α) : isAlive (allocated m item) (m .brk) = true := by
  simp [allocated, isAlive]

theorem allocated_node (m : Mem LLoc (LVal α)) (item : α) :
    node (allocated m item) (m .brk) = some ⟨item, none, none⟩ := by
  simp [allocated, isAlive, node]

theorem allocated_other (m : Mem LLoc (LVal α)) (item : α) {a : ℕ} (h : a ≠ m .brk) :
    node (allocated m item) a = node m a := by
  have h' : m .brk ≠ a := Ne.symm h
  unfold allocated
  repeat rw [node_other _ _ (by simp [h']) (by simp [h']) (by simp [h']) (by simp [h'])]

theorem Wf.allocated {m : Mem LLoc (LVal α)} (hm : Wf m) (item : α) : Wf (allocated m item) := by
  intro a ha
  rw [allocated_brk] at ha
  have h1 : a ≠ m .brk := by
    intro h
    rw [h] at ha
    exact Nat.not_succ_le_self _ ha
  have h2 : isAlive m a = false := hm a (Nat.le_of_succ_le ha)
  have h3 := allocated_other m item h1
  unfold node at h3
  rw [h2] at h3
  rcases h : isAlive (LList.allocated m item) a with _ | _
  · rfl
  · rw [h] at h3; simp at h3

theorem view_allocated (W : ℕ) (m : Mem LLoc (LVal α)) (item : α) :
    view W (allocated m item) = { view W m with heap := (view W m).heap ++ [some ⟨item, none, none⟩] } := by
  have hmap : (List.range (m .brk)).map (node (allocated m item)) = (List.range (m .brk)).map (node m) := by
    refine List.map_congr_left fun a ha => allocated_other m item ?_
    have := List.mem_range.1 ha
    exact Nat.ne_of_lt this
  unfold view
  rw [allocated_head, allocated_tail, allocated_size, allocated_count, allocated_brk, List.range_succ, List.map_append,
    hmap, List.map_singleton, allocated_node]

/-- The end of `update`. -/
def counted (m : Mem LLoc (LVal α)) : Mem LLoc (LVal α) :=
  Function.update (Function.update m .size (m .size + 1 : ℕ)) .count (m .count + 1 : ℕ)

theorem view_counted (W : ℕ) (m : Mem LLoc (LVal α)) :
    view W (counted m) =
      { view W m with
        size := (view W m).size + 1
        historyCount := (view W m).historyCount + 1 } := by
  unfold counted
  rw [view_count, view_size]
  rfl

theorem Wf.counted {m : Mem LLoc (LVal α)} (hm : Wf m) : Wf (counted m) :=
  (hm.set _ (by simp) (by simp)).set _ (by simp) (by simp)

theorem heap_length (W : ℕ) (m : Mem LLoc (LVal α)) : (view W m).heap.length = m .brk := by simp [view]

theorem update_code (W : ℕ) (dflt x : α) {m : Mem LLoc (LVal α)} (hm : Wf m) :
    through (view W) ((updateCode W dflt x).run m) = (do
      let l ← (view W m).update dflt x
      .ok (.unit, l)) ∧ ∀ r m', (updateCode W dflt x).run m = .ok (r, m') → Wf m' := by
  have hm1 := hm.allocated x
  have hcount : ∀ m : Mem LLoc (LVal α), Function.update (Function.update m .size (m .size + 1 : ℕ)) .count
      (Function.update m .size (m .size + 1 : ℕ) .count + 1 : ℕ) = counted m := by
    intro m; simp [counted]
  unfold updateCode LinkedList.update Heap.alloc LinkedList.isEmpty
  simp only [Code.run]
  rw [show (Function.update (Function.update (Function.update (Function.update (Function.update m
    .brk (m .brk + 1 : ℕ)) (.value (m .brk)) x) (.next (m .brk)) (none : Option ℕ))
    (.previous (m .brk)) (none : Option ℕ)) (.alive (m .brk)) true) = allocated m x from rfl, allocated_head]
  have hh' : (view W m).head = m .head := rfl
  have ht' : (view W m).tail = m .tail := rfl
  have hs' : (view W m).size = m .size := rfl
  have hw' : (view W m).windowSize = W := rfl
  have hva := view_allocated W m x
  have hhl := heap_length W m
  rcases hh : m .head with _ | a0
  · simp only [if_true, Code.run, hcount, through, hh', hh, beq_self_eq_true, Res.ok_bind]
    refine ⟨?_, ?_⟩
    · rw [view_counted, view_tail, view_head, hva, hhl]
    · intro r m' h
      injection h with h
      injection h with _ h
      subst h
      exact ((hm1.set _ (by simp) (by simp)).set _ (by simp) (by simp)).counted
  · simp only [reduceCtorEq, if_false, hh', hh, show (some a0 == none) = false from rfl, Bool.false_eq_true, Code.run,
      run_deref, allocated_tail, ht']
    have hheap : (view W m).heap ++ [some ⟨x, none, none⟩] = (view W (allocated m x)).heap := by rw [hva]
    rw [hheap, deref_view W hm1]
    rcases ht : m .tail with _ | t
    · refine ⟨rfl, ?_⟩
      intro r m' h
      cases h
    simp only
    rcases hat : isAlive (allocated m x) t with _ | _
    · refine ⟨rfl, ?_⟩
      intro r m' h
      simp only [Bool.false_eq_true, if_false] at h
      cases h
    simp only [if_true, Res.ok_bind]
    -- the node is linked in
    have hm2 : Wf (Function.update (allocated m x) (.next t) (some (m .brk) : Option ℕ)) :=
      hm1.set _ (by simp) (by simp)
    have hv2 := view_next W (allocated m x) t (some (m .brk)) hat
    have ha2 : isAlive (Function.update (allocated m x) (.next t) (some (m .brk) : Option ℕ)) (m .brk) = true := by
      rw [isAlive_other _ _ (by simp)]; exact allocated_alive m x
    have hfields : (view W (Function.update (allocated m x) (.next t) (some (m .brk) : Option ℕ))).head = some a0 ∧
        Function.update (allocated m x) (.next t) (some (m .brk) : Option ℕ) .tail = some t := by
      refine ⟨?_, ?_⟩
      · rw [hv2, hva]; exact hh
      · rw [Function.update_of_ne (by simp), allocated_tail]; exact ht
    generalize hm2e : Function.update (allocated m x) (.next t) (some (m .brk) : Option ℕ) = m2 at *
    obtain ⟨hhead2, htail2⟩ := hfields
    have hheap2 : List.set (view W (allocated m x)).heap t (some ⟨allocated m x (.value t), some (m .brk),
        allocated m x (.previous t)⟩) = (view W m2).heap := by rw [hv2]
    rw [hhl, hheap2, deref_view W hm2, htail2]
    simp only [ha2, if_true, Res.ok_bind]
    have hm3 : Wf (Function.update m2 (.previous (m .brk)) (some t : Option ℕ)) := hm2.set _ (by simp) (by simp)
    have hm4 : Wf (Function.update (Function.update m2 (.previous (m .brk)) (some t : Option ℕ)) .tail
        (some (m .brk) : Option ℕ)) := hm3.set _ (by simp) (by simp)
    have hv4 : view W (Function.update (Function.update m2 (.previous (m .brk)) (some t : Option ℕ)) .tail
        (some (m .brk) : Option ℕ)) = ⟨W, some a0, some (m .brk), m .size, m .count,
          (view W m2).heap.set (m .brk) (some ⟨m2 (.value (m .brk)), m2 (.next (m .brk)), some t⟩)⟩ := by
      rw [view_tail, view_previous W m2 _ _ ha2]
      have h1 : (view W m2).size = m .size := by rw [hv2, hva]; rfl
      have h2 : (view W m2).historyCount = m .count := by rw [hv2, hva]; rfl
      have h3 : (view W m2).windowSize = W := rfl
      simp only [hhead2, h1, h2, h3]
    have hc : (view W m).historyCount = m .count := rfl
    rw [hs', hw', hc]
    generalize hm4e : Function.update (Function.update m2 (.previous (m .brk)) (some t : Option ℕ)) .tail
        (some (m .brk) : Option ℕ) = m4 at *
    have hs4 : m4 .size = m .size := by
      have := congrArg LinkedList.size hv4
      exact this
    rw [hs4]
    by_cases hfull : m .size = W
    · rw [if_pos hfull, if_pos hfull]
      simp only [Code.run_bind, Code.run, hcount]
      obtain ⟨h1, h2⟩ := pop_code W dflt hm4
      rw [hv4] at h1
      rcases hp : (popCode dflt).run m4 with ⟨r, m5⟩ | u | u
      · rw [hp] at h1
        simp only [through] at h1
        obtain ⟨⟨v, l⟩, e1, e2⟩ := Res.bind_eq_ok.1 h1.symm
        injection e2 with e2
        injection e2 with e2 e3
        rw [e1]
        subst e3
        refine ⟨?_, ?_⟩
        · simp only [Res.ok_bind, through, view_counted]
        · intro r' m' h
          simp only [Res.ok_bind] at h
          injection h with h
          injection h with _ h
          subst h
          exact (h2 r m5 hp).counted
      · rw [hp] at h1
        refine ⟨?_, ?_⟩
        · rcases hq : LinkedList.pop dflt ⟨W, some a0, some (m .brk), m .size, m .count,
            (view W m2).heap.set (m .brk) (some ⟨m2 (.value (m .brk)), m2 (.next (m .brk)), some t⟩)⟩ with q | u' | u'
          · rw [hq] at h1; cases h1
          · rw [hq] at h1
            simp only [through, Res.throw_bind] at h1 ⊢
            rw [h1]
          · rw [hq] at h1; cases h1
        · intro r' m' h; cases h
      · rw [hp] at h1
        refine ⟨?_, ?_⟩
        · rcases hq : LinkedList.pop dflt ⟨W, some a0, some (m .brk), m .size, m .count,
            (view W m2).heap.set (m .brk) (some ⟨m2 (.value (m .brk)), m2 (.next (m .brk)), some t⟩)⟩ with q | u' | u'
          · rw [hq] at h1; cases h1
          · rw [hq] at h1; cases h1
          · rw [hq] at h1
            simp only [through, Res.ub_bind] at h1 ⊢
            injection h1 with h1
            rw [h1]
        · intro r' m' h; cases h
    · rw [if_neg hfull, if_neg hfull]
      simp only [Code.run, hcount, through, Res.ok_bind]
      refine ⟨?_, ?_⟩
      · rw [view_counted, hv4]
      · intro r' m' h
        injection h with h
        injection h with _ h
        subst h
        exact hm4.counted

/-- Run alone, every call does what the sequential model says. -/
theorem code_seq (W : ℕ) (dflt : α) (guard : Bool) (op : Op α) {m : Mem LLoc (LVal α)} (hm : Wf m) :
    through (view W) (((lib W dflt guard).code op).run m) = (view W m).step dflt op.toCOp ∧
      ∀ r m', ((lib W dflt guard).code op).run m = .ok (r, m') → Wf m' := by
  cases op with
  | update x => exact update_code W dflt x hm
  | pop => exact pop_code W dflt hm
  | size => exact ⟨rfl, fun r m' h => by cases h; exact hm⟩
  | empty => exact ⟨rfl, fun r m' h => by cases h; exact hm⟩
  | full => exact ⟨rfl, fun r m' h => by cases h; exact hm⟩

theorem wf_fresh (dflt : α) : Wf (fresh dflt) := fun _ _ => rfl

theorem view_fresh (W : ℕ) (dflt : α) : view W (fresh dflt) = LinkedList.new W := rfl

end LList

end KML.Conc
