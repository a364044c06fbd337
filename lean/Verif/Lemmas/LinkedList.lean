import Verif.Spec.Queue

/-! Representation relation of `LinkedList` and its preservation. -/

namespace KML

variable {α : Type}

/-- `Chain h p es`: from pointer `p` the heap holds exactly the nodes `es` (address, value), at
increasing addresses. -/
inductive Chain (h : Heap α) : Option ℕ → List (ℕ × α) → Prop
  | nil : Chain h none []
  | cons {a v nxt prev rest} : h[a]? = some (some ⟨v, nxt, prev⟩) → Chain h nxt rest →
      (∀ e ∈ rest, a < e.1) → Chain h (some a) ((a, v) :: rest)

namespace Chain

variable {h : Heap α} {p : Option ℕ} {es : List (ℕ × α)}

theorem length_le : ∀ {p : Option ℕ} {es : List (ℕ × α)}, Chain h p es →
    ∀ a, p = some a → es.length + a ≤ h.length
  | _, _, .nil, _, hp => by cases hp
  | _, _, .cons (a := a) hc hr hlt, _, hp => by
    cases hp
    have ha : a < h.length := by
      rw [List.getElem?_eq_some_iff] at hc
      exact hc.1
    cases hr with
    | nil => simp; omega
    | cons hc' hr' hlt' =>
      have := length_le (.cons hc' hr' hlt') _ rfl
      have := hlt _ (List.mem_cons_self ..)
      simp at *; omega

theorem length_le' (hc : Chain h p es) : es.length ≤ h.length := by
  cases hc with
  | nil => simp
  | cons a b c => have := length_le (.cons a b c) _ rfl; omega

theorem walk_ok : ∀ {fuel : ℕ} {p : Option ℕ} {es : List (ℕ × α)}, Chain h p es → es.length ≤ fuel →
    LinkedList.walk h fuel p = .ok (es.map Prod.snd)
  | fuel, _, _, .nil, _ => by cases fuel <;> rfl
  | 0, _, _, .cons _ _ _, hf => by simp at hf
  | fuel + 1, _, _, .cons hc hr _, hf => by
    have := walk_ok hr (fuel := fuel) (by simpa using hf)
    simp [LinkedList.walk, Heap.deref, hc, this]

theorem sweep_ok : ∀ {fuel : ℕ} {p : Option ℕ} {es : List (ℕ × α)}, Chain h p es → es.length ≤ fuel →
    LinkedList.sweep h fuel p = .ok h
  | fuel, _, _, .nil, _ => by cases fuel <;> rfl
  | 0, _, _, .cons _ _ _, hf => by simp at hf
  | fuel + 1, _, _, .cons hc hr _, hf => by
    have := sweep_ok hr (fuel := fuel) (by simpa using hf)
    simp [LinkedList.sweep, Heap.deref, hc, this]

/-- A chain only depends on the cells it goes through. -/
theorem congr {h' : Heap α} : ∀ {p : Option ℕ} {es : List (ℕ × α)}, Chain h p es →
    (∀ e ∈ es, h'[e.1]? = h[e.1]?) → Chain h' p es
  | _, _, .nil, _ => .nil
  | _, _, .cons hc hr hlt, he =>
    .cons (by rw [← hc]; exact he _ (List.mem_cons_self ..))
      (congr hr fun e h => he e (List.mem_cons_of_mem _ h)) hlt

theorem lt_length (hc : Chain h p es) : ∀ e ∈ es, e.1 < h.length := by
  induction hc with
  | nil => simp
  | cons hc _ _ ih =>
    intro e he
    rcases List.mem_cons.1 he with rfl | he
    · rw [List.getElem?_eq_some_iff] at hc; exact hc.1
    · exact ih e he

/-- Linking a fresh node behind the last one. -/
theorem snoc (x : α) : ∀ {p : Option ℕ} {es : List (ℕ × α)} {t : ℕ} {w : α}, Chain h p (es ++ [(t, w)]) →
    ∃ tn, h[t]? = some (some tn) ∧ ∀ prev, Chain (((h ++ [some (⟨x, none, none⟩ : Node α)]).set t
        (some { tn with next := some h.length })).set h.length (some ⟨x, none, prev⟩)) p
      (es ++ [(t, w), (h.length, x)])
  | _, [], t, w, .cons (nxt := nxt) (prev := prev) hc hr _ => by
    have ht : t < h.length := by rw [List.getElem?_eq_some_iff] at hc; exact hc.1
    cases hr
    refine ⟨_, hc, fun prev' => ?_⟩
    refine .cons (nxt := some h.length) (prev := prev) ?_ (.cons (nxt := none) (prev := prev') ?_ .nil ?_) ?_
    · rw [List.getElem?_set_ne (by omega), List.getElem?_set_self (by simp; omega)]
    · rw [List.getElem?_set_self (by simp)]
    · simp
    · simpa using ht
  | _, e :: es, t, w, hch => by
    cases hch with
    | cons hc hr hlt =>
      rename_i a v nxt prev
      obtain ⟨tn, h1, h2⟩ := snoc x (es := es) hr
      have ht := hlt (t, w) (by simp)
      have hl : t < h.length := by rw [List.getElem?_eq_some_iff] at h1; exact h1.1
      simp only at ht
      refine ⟨tn, h1, fun prev' => ?_⟩
      refine .cons (nxt := nxt) (prev := prev) ?_ (h2 prev') ?_
      · rw [List.getElem?_set_ne (by omega), List.getElem?_set_ne (by omega),
          List.getElem?_append_left (by omega), hc]
      · intro e he
        rcases List.mem_append.1 he with he | he
        · exact hlt e (by simp [he])
        · simp only [List.mem_cons, List.not_mem_nil, or_false] at he
          rcases he with rfl | rfl
          · exact ht
          · simp only; omega

end Chain

namespace LinkedList

/-- Capacity meant by a window size: 0 is unbounded. -/
def cap (W : ℕ) : Option ℕ := if W = 0 then none else some W

/-- `l` holds the queue `q` and `lost` nodes are allocated but unreachable. -/
structure Rep (W : ℕ) (l : LinkedList α) (q : List α) (lost : ℕ) : Prop where
  ws : l.windowSize = W
  chain : ∃ es, Chain l.heap l.head es ∧ es.map Prod.snd = q ∧
    (∀ e, es.getLast? = some e → l.tail = some e.1)
  size : l.size = q.length
  qlen : W ≠ 0 → q.length ≤ W
  live : l.heap.live = q.length + lost

variable {W : ℕ} {l : LinkedList α} {q : List α} {lost : ℕ}

theorem rep_new : Rep W (new W : LinkedList α) [] 0 where
  ws := rfl
  chain := ⟨[], .nil, rfl, by simp⟩
  size := rfl
  qlen := by simp
  live := rfl

theorem Rep.isEmpty (h : Rep W l q lost) : l.isEmpty = q.isEmpty := by
  obtain ⟨es, hc, hq, _⟩ := h.chain
  unfold LinkedList.isEmpty
  generalize l.head = p at hc
  cases hc with
  | nil => subst hq; simp
  | cons _ _ _ => subst hq; simp

theorem live_set_some {h : Heap α} {a : ℕ} {n m : Node α} (ha : h[a]? = some (some n)) :
    Heap.live (h.set a (some m)) = Heap.live h := by
  obtain ⟨hl, he⟩ := List.getElem?_eq_some_iff.1 ha
  unfold Heap.live
  rw [List.countP_set (h := hl)]
  have : 0 < List.countP Option.isSome h :=
    List.countP_pos_iff.2 ⟨_, List.getElem_mem hl, by rw [he]; rfl⟩
  simp [he]; omega

theorem live_set_none {h : Heap α} {a : ℕ} {n : Node α} (ha : h[a]? = some (some n)) :
    Heap.live (h.set a none) + 1 = Heap.live h := by
  obtain ⟨hl, he⟩ := List.getElem?_eq_some_iff.1 ha
  unfold Heap.live
  rw [List.countP_set (h := hl)]
  have : 0 < List.countP Option.isSome h :=
    List.countP_pos_iff.2 ⟨_, List.getElem_mem hl, by rw [he]; rfl⟩
  simp [he]; omega

theorem Rep.pop_nil (h : Rep W l [] lost) (dflt : α) : l.pop dflt = .ok (dflt, l) := by
  simp [LinkedList.pop, h.isEmpty]

theorem Rep.pop_cons {x : α} (h : Rep W l (x :: q) lost) (dflt : α) :
    ∃ l', l.pop dflt = .ok (x, l') ∧ Rep W l' q lost ∧ l'.historyCount = l.historyCount := by
  obtain ⟨es, hc, hq, htl⟩ := h.chain
  have hemp := h.isEmpty
  generalize hp : l.head = p at hc
  cases hc with
  | nil => simp at hq
  | cons hcell hr hlt =>
    rename_i a v nxt prev rest
    simp only [List.map_cons, List.cons.injEq] at hq
    obtain ⟨rfl, rfl⟩ := hq
    have hsz := h.size
    refine ⟨{ l with heap := l.heap.set a none, head := nxt, size := l.size - 1 }, ?_, ?_, rfl⟩
    · have : l.size ≠ 0 := by rw [hsz]; simp
      simp [LinkedList.pop, hemp, hp, Heap.deref, hcell, Heap.free, decr, this]
    · refine ⟨h.ws, ⟨rest, ?_, rfl, ?_⟩, ?_, ?_, ?_⟩
      · refine hr.congr fun e he => ?_
        have := hlt e he
        rw [List.getElem?_set_ne (by omega)]
      · intro e he
        refine htl e ?_
        rw [List.getLast?_cons, he]; simp
      · simp [hsz]
      · intro h0; have := h.qlen h0; simp at this ⊢; omega
      · have := h.live
        have h2 := live_set_none hcell
        simp only [List.length_cons] at this
        simp only [Heap.live] at *
        omega

theorem Rep.update (h : Rep W l q lost) (dflt x : α) :
    ∃ l', l.update dflt x = .ok l' ∧ Rep W l' (Spec.push (cap W) q x) lost ∧
      l'.historyCount = l.historyCount + 1 := by
  have hemp := h.isEmpty
  have hsz := h.size
  cases q with
  | nil =>
    simp only [List.isEmpty_nil] at hemp
    have hemp' : l.head = none := by simpa [LinkedList.isEmpty] using hemp
    refine ⟨{ l with heap := l.heap ++ [some ⟨x, none, none⟩], head := some l.heap.length,
                     tail := some l.heap.length, size := l.size + 1,
                     historyCount := l.historyCount + 1 }, ?_, ?_, rfl⟩
    · simp [LinkedList.update, Heap.alloc, LinkedList.isEmpty, hemp']
    · have hp : Spec.push (cap W) [] x = [x] := by
        unfold cap Spec.push
        split <;> simp_all
        omega
      rw [hp]
      refine ⟨h.ws, ⟨[(l.heap.length, x)], ?_, rfl, by simp⟩, by simp [hsz], ?_, ?_⟩
      · refine .cons (nxt := none) (prev := none) ?_ .nil (by simp)
        simp
      · simp; omega
      · have := h.live
        simp [Heap.live] at *
        omega
  | cons a q =>
    simp only [List.isEmpty_cons] at hemp
    have hemp' : l.head ≠ none := by rintro h0; simp [LinkedList.isEmpty, h0] at hemp
    obtain ⟨es, hc, hq, htl⟩ := h.chain
    obtain ⟨es, ⟨t, w⟩, rfl⟩ : ∃ es' e, es = es' ++ [e] := by
      rcases List.eq_nil_or_concat es with rfl | ⟨es', e, rfl⟩
      · simp at hq
      · exact ⟨es', e, by simp⟩
    have htail : l.tail = some t := htl (t, w) (by simp)
    obtain ⟨tn, ht, hchain⟩ := hc.snoc x
    have htlt : t < l.heap.length := by rw [List.getElem?_eq_some_iff] at ht; exact ht.1
    -- the list after linking, before the possible eviction
    let l1 : LinkedList α := { l with
      heap := ((l.heap ++ [some (⟨x, none, none⟩ : Node α)]).set t
        (some { tn with next := some l.heap.length })).set l.heap.length (some ⟨x, none, some t⟩)
      tail := some l.heap.length }
    have hlive : l1.heap.live = l.heap.live + 1 := by
      show Heap.live (List.set (List.set _ _ _) _ _) = _
      rw [live_set_some (n := ⟨x, none, none⟩), live_set_some (n := tn)]
      · simp [Heap.live]
      · rw [List.getElem?_append_left htlt, ht]
      · rw [List.getElem?_set_ne (by omega)]; simp
    have hchain1 : Chain l1.heap l1.head (es ++ [(t, w), (l.heap.length, x)]) := hchain (some t)
    have hupd : l.update dflt x =
        (if l.size = W then (do let (_, l) ← l1.pop dflt; .ok l) else .ok l1) >>= fun l2 =>
          .ok { l2 with size := l2.size + 1, historyCount := l2.historyCount + 1 } := by
      have e1 : (l.heap ++ [some (⟨x, none, none⟩ : Node α)])[t]? = some (some tn) := by
        rw [List.getElem?_append_left htlt, ht]
      have e2 : (List.set (l.heap ++ [some (⟨x, none, none⟩ : Node α)]) t
          (some { tn with next := some l.heap.length }))[l.heap.length]? =
          some (some ⟨x, none, none⟩) := by
        rw [List.getElem?_set_ne (by omega)]; simp
      simp only [LinkedList.update, Heap.alloc, LinkedList.isEmpty, beq_iff_eq, hemp', ite_false,
        Heap.deref, htail, e1, Res.ok_bind, e2, h.ws]
      by_cases hW : l.size = W <;> simp [hW, l1, h.ws]
    by_cases hW : l.size = W
    · -- evict the oldest: `l1` holds one item too many, which `pop` removes
      have hWpos : W ≠ 0 := by rw [← hW, hsz]; simp
      generalize hp1 : l1.head = p1 at hchain1
      have hq1 : (es ++ [(t, w), (l.heap.length, x)]).map Prod.snd = a :: (q ++ [x]) := by
        rw [← List.cons_append, ← hq]; simp
      generalize hes : es ++ [(t, w), (l.heap.length, x)] = es1 at hchain1 hq1
      cases hchain1 with
      | nil => simp at hq1
      | cons hcell hr hlt =>
        rename_i b v nxt prev rest
        simp only [List.map_cons, List.cons.injEq] at hq1
        obtain ⟨rfl, hrest⟩ := hq1
        have hsize1 : l1.size ≠ 0 := by show l.size ≠ 0; rw [hW]; exact hWpos
        have hpop : l1.pop dflt = .ok (v, { l1 with
            heap := l1.heap.set b none, head := nxt, size := l1.size - 1 }) := by
          have : l1.head ≠ none := by rw [hp1]; simp
          simp [LinkedList.pop, LinkedList.isEmpty, hp1, Heap.deref, hcell, Heap.free, decr,
            hsize1]
        refine ⟨{ l1 with heap := l1.heap.set b none, head := nxt, size := l1.size - 1 + 1,
                          historyCount := l1.historyCount + 1 }, ?_, ?_, rfl⟩
        · rw [hupd]; simp [hW, hpop]
        · have hp : Spec.push (cap W) (v :: q) x = q ++ [x] := by
            have : (v :: q).length = W := by rw [← hsz, hW]
            simp only [List.length_cons] at this
            simp [cap, Spec.push, ← this]
          rw [hp]
          refine ⟨h.ws, ⟨rest, ?_, hrest, ?_⟩, ?_, ?_, ?_⟩
          · refine hr.congr fun e he => ?_
            have := hlt e he
            rw [List.getElem?_set_ne (by omega)]
          · intro e he
            have hlast : ((b, v) :: rest).getLast? = some e := by
              rw [List.getLast?_cons, he]; simp
            rw [← hes] at hlast
            simp at hlast
            subst hlast; rfl
          · show l.size - 1 + 1 = _
            rw [hsz]; simp
          · intro _
            have := hsz
            rw [hW] at this
            simp at *; omega
          · have h2 := live_set_none hcell
            have h3 := h.live
            simp only [List.length_cons, List.length_append, List.length_nil] at *
            show Heap.live (l1.heap.set b none) = _
            omega
    · refine ⟨{ l1 with size := l1.size + 1, historyCount := l1.historyCount + 1 }, ?_, ?_, rfl⟩
      · rw [hupd]; simp [hW]
      · have hp : Spec.push (cap W) (a :: q) x = a :: q ++ [x] := by
          unfold cap Spec.push
          by_cases h0 : W = 0
          · simp [h0]
          · have := h.qlen h0
            rw [hsz] at hW
            simp at this hW
            simp [h0]; omega
        rw [hp]
        refine ⟨h.ws, ⟨_, hchain1, ?_, ?_⟩, ?_, ?_, ?_⟩
        · rw [← hq]; simp
        · intro e he
          simp at he
          subst he; rfl
        · show l.size + 1 = _
          rw [hsz]; simp
        · intro h0
          have := h.qlen h0
          rw [hsz] at hW
          simp at this hW ⊢; omega
        · have h3 := h.live
          show Heap.live l1.heap = _
          simp only [List.length_cons, List.length_append, List.length_nil] at *
          omega

/-- On a non-empty list the loop of `reset` and of the destructor leaves the heap as it is. -/
theorem Rep.sweep {x : α} (h : Rep W l (x :: q) lost) :
    ∃ a n, l.heap.deref l.head = .ok (a, n) ∧
      LinkedList.sweep l.heap l.heap.length n.next = .ok l.heap := by
  obtain ⟨es, hc, hq, _⟩ := h.chain
  have hlen := hc.length_le'
  generalize hp : l.head = p at hc
  cases hc with
  | nil => simp at hq
  | cons hcell hr hlt =>
    refine ⟨_, _, by simp [Heap.deref, hcell]; exact ⟨rfl, rfl⟩, ?_⟩
    exact hr.sweep_ok (by simp at hlen; omega)

theorem Rep.reset {x : α} (h : Rep W l (x :: q) lost) :
    ∃ l', l.reset = .ok l' ∧ Rep W l' [] (lost + (x :: q).length) ∧
      l'.historyCount = l.historyCount := by
  obtain ⟨a, n, h1, h2⟩ := h.sweep
  refine ⟨{ l with size := 0, head := none, tail := none }, ?_, ?_, rfl⟩
  · simp [LinkedList.reset, h1, h2]
  · refine ⟨h.ws, ⟨[], .nil, rfl, by simp⟩, rfl, by simp, ?_⟩
    have := h.live
    simp at *; omega

theorem Rep.reset_nil (h : Rep W l [] lost) : l.reset = .ub .nullDeref := by
  have : l.head = none := by simpa [LinkedList.isEmpty] using h.isEmpty
  simp [LinkedList.reset, this, Heap.deref]

theorem Rep.destroy_nil (h : Rep W l [] lost) : l.destroy = .ub .nullDeref := by
  have : l.head = none := by simpa [LinkedList.isEmpty] using h.isEmpty
  simp [LinkedList.destroy, this, Heap.deref]

theorem Rep.destroy {x : α} (h : Rep W l (x :: q) lost) : l.destroy = .ok l.heap := by
  obtain ⟨a, n, h1, h2⟩ := h.sweep
  simp [LinkedList.destroy, h1, h2]

theorem Rep.display (h : Rep W l q lost) : l.display = .ok q := by
  obtain ⟨es, hc, hq, _⟩ := h.chain
  rw [LinkedList.display, hc.walk_ok hc.length_le', hq]

end LinkedList

end KML
