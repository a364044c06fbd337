import Verif.Lemmas.Histogram
import Verif.Model.HistHeap
import Verif.Props.HistMemory

/-!
# C107: the bins behind the pointers of StreamingHistogram
-/

namespace KML

variable {F : Type} {A : Arith F}

/-- Two calls with the same outcome: both return related values, or throw the same, or are undefined for the same reason. -/
def Res.Rel {α β : Type} (R : α → β → Prop) : Res α → Res β → Prop
  | .ok a, .ok b => R a b
  | .throw m, .throw m' => m = m'
  | .ub u, .ub u' => u = u'
  | _, _ => False

theorem Res.Rel.bind {α β γ δ : Type} {R : α → β → Prop} {S : γ → δ → Prop} {x : Res α} {y : Res β} {f : α → Res γ}
    {g : β → Res δ} (h : Res.Rel R x y) (hf : ∀ a b, R a b → Res.Rel S (f a) (g b)) : Res.Rel S (x >>= f) (y >>= g) := by
  rcases x with a | m | u <;> rcases y with b | m' | u' <;> first | exact h.elim | exact hf _ _ h | exact h

namespace HHist

/-- The pointers `ps` are the only way to the bins `bs`: they are different, allocated and point to them in order. Nothing
that was allocated before (`h0`) has changed, and `n` bins have been allocated since. -/
structure Owns (h0 c : BinHeap F) (ps : List ℕ) (bs : List (Bin F)) (n : ℕ) : Prop where
  val : ps.map c = bs.map some
  nodup : ps.Nodup
  frame : ∀ p, h0 p ≠ none → c p = h0 p
  mine : ∀ p ∈ ps, h0 p = none
  fin : {p | c p ≠ none}.Finite
  count : {p | c p ≠ none ∧ h0 p = none}.ncard = n

variable {h0 c : BinHeap F} {ps : List ℕ} {bs : List (Bin F)} {n : ℕ}

theorem Owns.length (h : Owns h0 c ps bs n) : ps.length = bs.length := by
  have := congrArg List.length h.val
  simpa using this

theorem Owns.get (h : Owns h0 c ps bs n) (i : ℕ) :
    (bs[i]? = none ∧ at' ps i = .ub .oob) ∨
      ∃ p b, bs[i]? = some b ∧ ps[i]? = some p ∧ at' ps i = .ok p ∧ c p = some b ∧ p ∈ ps := by
  unfold at'
  rcases hp : ps[i]? with _ | p
  · left
    refine ⟨?_, rfl⟩
    rw [List.getElem?_eq_none_iff] at hp ⊢
    rw [← h.length]; exact hp
  · right
    have hv : (ps.map c)[i]? = (bs.map some)[i]? := by rw [h.val]
    rw [List.getElem?_map, List.getElem?_map, hp] at hv
    rcases hb : bs[i]? with _ | b
    · rw [hb] at hv; simp at hv
    · rw [hb] at hv
      simp at hv
      exact ⟨p, b, rfl, rfl, rfl, hv, List.mem_of_getElem? hp⟩

theorem Owns.set (h : Owns h0 c ps bs n) {i p : ℕ} (hp : ps[i]? = some p) (b : Bin F) :
    Owns h0 (Function.update c p (some b)) ps (bs.set i b) n := by
  have hmem := List.mem_of_getElem? hp
  have hc : c p ≠ none := by
    rcases h.get i with ⟨-, k⟩ | ⟨p', b', -, k1, -, k2, -⟩
    · unfold at' at k; rw [hp] at k; cases k
    · rw [hp] at k1; injection k1 with k1; rw [k1, k2]; simp
  have hsup : ∀ q, Function.update c p (some b) q ≠ none ↔ c q ≠ none := by
    intro q
    by_cases hq : q = p
    · subst hq; simp [hc]
    · rw [Function.update_of_ne hq]
  refine ⟨?_, h.nodup, ?_, h.mine, ?_, ?_⟩
  · apply List.ext_getElem?
    intro j
    have hv : (ps.map c)[j]? = (bs.map some)[j]? := by rw [h.val]
    rw [List.getElem?_map, List.getElem?_map] at hv ⊢
    rw [List.getElem?_set]
    by_cases hj : i = j
    · subst hj
      have hl : i < bs.length := by
        rw [← h.length]
        exact (List.getElem?_eq_some_iff.1 hp).1
      rw [hp]
      simp [hl]
    · rw [if_neg hj, ← hv]
      rcases hq : ps[j]? with _ | q
      · rfl
      · have : q ≠ p := by
          rintro rfl
          obtain ⟨k1, k2⟩ := List.getElem?_eq_some_iff.1 hp
          obtain ⟨k3, k4⟩ := List.getElem?_eq_some_iff.1 hq
          exact hj ((List.Nodup.getElem_inj_iff h.nodup).1 (k2.trans k4.symm))
        simp [Function.update_of_ne this]
  · intro q hq
    have : q ≠ p := by
      rintro rfl
      exact hq (h.mine q hmem)
    rw [Function.update_of_ne this]
    exact h.frame q hq
  · simp only [hsup]; exact h.fin
  · simp only [hsup]; exact h.count

theorem Owns.alloc (h : Owns h0 c ps bs n) {q : ℕ} (hq : c q = none) (b : Bin F) :
    q ∉ ps ∧ h0 q = none ∧ Owns h0 (Function.update c q (some b)) ps bs (n + 1) := by
  have h1 : q ∉ ps := by
    intro hm
    have : c q ∈ ps.map c := List.mem_map_of_mem hm
    rw [h.val, hq] at this
    simp at this
  have h2 : h0 q = none := by
    by_contra hn
    rw [← h.frame q hn] at hn
    exact hn hq
  refine ⟨h1, h2, ?_, h.nodup, ?_, h.mine, ?_, ?_⟩
  · rw [← h.val]
    apply List.map_congr_left
    intro p hp
    rw [Function.update_of_ne]
    rintro rfl
    exact h1 hp
  · intro p hp
    rw [Function.update_of_ne]
    · exact h.frame p hp
    · rintro rfl; exact hp h2
  · refine (h.fin.insert q).subset ?_
    intro p hp
    by_cases hpq : p = q
    · exact .inl hpq
    · right
      simpa [Function.update_of_ne hpq] using hp
  · have : {p | Function.update c q (some b) p ≠ none ∧ h0 p = none} = insert q {p | c p ≠ none ∧ h0 p = none} := by
      ext p
      by_cases hpq : p = q
      · subst hpq; simp [h2]
      · simp [hpq]
    rw [this, Set.ncard_insert_of_notMem (by simp [hq]) (h.fin.subset fun p hp => hp.1), h.count]

theorem Owns.free (h : Owns h0 c ps bs n) {q : ℕ} (h1 : q ∉ ps) (h2 : h0 q = none) (hc : c q ≠ none) :
    Owns h0 (Function.update c q none) ps bs (n - 1) := by
  refine ⟨?_, h.nodup, ?_, h.mine, ?_, ?_⟩
  · rw [← h.val]
    apply List.map_congr_left
    intro p hp
    rw [Function.update_of_ne]
    rintro rfl
    exact h1 hp
  · intro p hp
    rw [Function.update_of_ne]
    · exact h.frame p hp
    · rintro rfl; exact hp h2
  · refine h.fin.subset ?_
    intro p hp
    by_cases hpq : p = q
    · subst hpq; simp at hp
    · simpa [Function.update_of_ne hpq] using hp
  · have : {p | Function.update c q none p ≠ none ∧ h0 p = none} = {p | c p ≠ none ∧ h0 p = none} \ {q} := by
      ext p
      by_cases hpq : p = q
      · subst hpq; simp
      · simp [hpq]
    have hm : q ∈ {p | c p ≠ none ∧ h0 p = none} := ⟨hc, h2⟩
    rw [this, Set.ncard_sdiff_singleton_of_mem hm, h.count]

theorem Owns.insert (h : Owns h0 c ps bs n) {q : ℕ} (h1 : q ∉ ps) (h2 : h0 q = none) {b : Bin F} (hc : c q = some b) {i : ℕ}
    (hi : i ≤ ps.length) : Owns h0 c (ps.insertIdx i q) (bs.insertIdx i b) n := by
  refine ⟨?_, ?_, h.frame, ?_, h.fin, h.count⟩
  · have e : ∀ {α β : Type} (f : α → β) (l : List α) (a : α) (i : ℕ), (l.insertIdx i a).map f = (l.map f).insertIdx i (f a) := by
      intro α β f l a i
      exact List.map_insertIdx ..
    rw [e, e, h.val, hc]
  · exact (List.perm_insertIdx q ps hi).symm.nodup (List.nodup_cons.2 ⟨h1, h.nodup⟩)
  · intro p hp
    rcases List.mem_cons.1 ((List.perm_insertIdx q ps hi).mem_iff.1 hp) with rfl | hp
    · exact h2
    · exact h.mine p hp

theorem Owns.push (h : Owns h0 c ps bs n) {q : ℕ} (h1 : q ∉ ps) (h2 : h0 q = none) {b : Bin F} (hc : c q = some b) :
    Owns h0 c (ps ++ [q]) (bs ++ [b]) n := by
  have := h.insert h1 h2 hc le_rfl
  rwa [List.insertIdx_length_self, h.length, List.insertIdx_length_self] at this

theorem Owns.erase (h : Owns h0 c ps bs n) (i : ℕ) : Owns h0 c (ps.eraseIdx i) (bs.eraseIdx i) n := by
  refine ⟨?_, h.nodup.sublist (List.eraseIdx_sublist ..), h.frame,
    fun p hp => h.mine p (List.mem_of_mem_eraseIdx hp), h.fin, h.count⟩
  rw [← List.eraseIdx_map, ← List.eraseIdx_map, h.val]

theorem Owns.drop (h : Owns h0 c ps bs n) : Owns h0 c [] [] n := ⟨rfl, List.nodup_nil, h.frame, by simp, h.fin, h.count⟩

/-! ### The functions -/

theorem searchLoop_eq (h : Owns h0 c ps bs n) {q : ℕ} {b : Bin F} (hq : c q = some b) (fuel : ℕ) :
    ∀ low high index, searchLoop A c ps q fuel low high index = Hist.searchLoop A bs b fuel low high index := by
  induction fuel with
  | zero => intro low high index; rfl
  | succ fuel ih =>
    intro low high index
    unfold searchLoop Hist.searchLoop
    by_cases hl : low < high
    · rw [if_pos hl, if_pos hl]
      rcases h.get index with ⟨k1, k2⟩ | ⟨p, b', k1, -, k2, k3, -⟩
      · rw [k1, k2]; rfl
      · rw [k1, k2]
        simp only [Res.ok_bind, deref, k3, hq, ih]
    · rw [if_neg hl, if_neg hl]

/-- The pointer histogram `g` shows the histogram `h`. -/
structure Shows (h0 : BinHeap F) (g : HHist F) (h : Hist F) : Prop where
  owns : Owns h0 g.heap g.bins h.bins h.live
  numBins : g.numBins = h.numBins
  windowSize : g.windowSize = h.windowSize
  window : g.window = h.window
  total : g.total = h.total
  historyCount : g.historyCount = h.historyCount

theorem Shows.new (h0 : BinHeap F) (hf : {p | h0 p ≠ none}.Finite) (numBins W : ℕ) :
    Shows h0 (HHist.new h0 numBins W) (Hist.new numBins W) := by
  refine ⟨⟨rfl, List.nodup_nil, fun _ _ => rfl, by simp [HHist.new], hf, ?_⟩, rfl, rfl, rfl, rfl, rfl⟩
  simp [HHist.new, Hist.new]

theorem Shows.reset {g : HHist F} {h : Hist F} (hs : Shows h0 g h) : Shows h0 g.reset h.reset :=
  ⟨hs.owns.drop, hs.numBins, hs.windowSize, rfl, hs.total, rfl⟩

theorem Shows.decay {g : HHist F} {h : Hist F} (hs : Shows h0 g h) : Res.Rel (Shows h0) g.decayCounts h.decayCounts := by
  unfold decayCounts Hist.decayCounts
  rw [hs.total, hs.windowSize, hs.window]
  by_cases ht : h.total > h.windowSize
  · rw [if_pos ht, if_pos ht]
    rcases h.window with _ | ⟨del, rest⟩
    · exact rfl
    · simp only
      rcases hs.owns.get del with ⟨k1, k2⟩ | ⟨p, b, k1, k2, k3, k4, k5⟩
      · rw [k1]
        simp only [lower, k2]
        exact rfl
      · rw [k1]
        -- the heap after the decrement
        have key : ∃ c b', lower g.heap g.bins del = .ok c ∧
            b' = (if b.count > 0 then { b with count := b.count - 1 } else b) ∧ c p = some b' ∧
            Owns h0 c g.bins (h.bins.set del b') h.live := by
          unfold lower
          simp only [k3, Res.ok_bind, deref, k4]
          by_cases hc : b.count > 0
          · refine ⟨Function.update g.heap p (some { b with count := b.count - 1 }), { b with count := b.count - 1 }, ?_, ?_,
              by simp, hs.owns.set k2 _⟩
            · rw [if_pos hc]; unfold store; rw [k4]
            · rw [if_pos hc]
          · refine ⟨g.heap, b, by rw [if_neg hc], by rw [if_neg hc], k4, ?_⟩
            have := hs.owns.set k2 b
            have e : Function.update g.heap p (some b) = g.heap := by rw [← k4]; exact Function.update_eq_self p g.heap
            rwa [e] at this
        obtain ⟨c, b', e1, e2, e3, e4⟩ := key
        simp only [e1, ← e2, Res.ok_bind, List.length_set, dropEmpty, hs.numBins, hs.owns.length, k3, deref, e3]
        by_cases hn : h.bins.length > h.numBins
        · rw [if_pos hn, if_pos hn]
          by_cases hz : b'.count = 0
          · rw [if_pos hz, if_pos hz]
            exact ⟨e4.erase del, rfl, rfl, rfl, rfl, hs.historyCount⟩
          · rw [if_neg hz, if_neg hz]
            exact ⟨e4, rfl, rfl, rfl, rfl, hs.historyCount⟩
        · rw [if_neg hn, if_neg hn]
          exact ⟨e4, rfl, rfl, rfl, rfl, hs.historyCount⟩
  · rw [if_neg ht, if_neg ht]
    exact hs

theorem Shows.add_aux {g : HHist F} {h : Hist F} (hs : Shows h0 g h) (x : F) {q : ℕ} {c : BinHeap F} (q1 : q ∉ g.bins)
    (q2 : h0 q = none) (q3 : Owns h0 c g.bins h.bins (h.live + 1)) (hq : c q = some ⟨x, x, 1⟩) :
    Res.Rel (Shows h0)
      (binSearchBin A c g.bins q >>= fun index => place A c g.bins g.total x q index >>= fun cb =>
        decayCounts { g with heap := cb.1, bins := cb.2, historyCount := g.historyCount + 1, total := g.total + 1,
                             window := g.window ++ [index] })
      (h.add A x) := by
  unfold Hist.add
  have hsearch : binSearchBin A c g.bins q = h.binSearch A x := by
    unfold binSearchBin Hist.binSearch Hist.binSearchBin
    rw [searchLoop_eq q3 hq, hs.owns.length]
  rw [hsearch]
  rcases h.binSearch A x with i | m | u
  rotate_left
  · exact rfl
  · exact rfl
  simp only [Res.ok_bind]
  refine Res.Rel.bind (R := fun cb h' => ∃ n, Owns h0 cb.1 cb.2 h'.bins n ∧ h'.live = n ∧ h'.numBins = h.numBins ∧
    h'.windowSize = h.windowSize ∧ h'.window = h.window ∧ h'.total = h.total ∧ h'.historyCount = h.historyCount) ?_ ?_
  · unfold place Hist.place
    simp only [hs.total, hs.owns.length]
    by_cases ht : h.total = 0
    · rw [if_pos ht, if_pos ht]
      exact ⟨_, q3.push q1 q2 hq, rfl, rfl, rfl, rfl, rfl, rfl⟩
    · rw [if_neg ht, if_neg ht]
      by_cases hl : i = h.bins.length
      · rw [if_pos hl, if_pos hl]
        exact ⟨_, q3.push q1 q2 hq, rfl, rfl, rfl, rfl, rfl, rfl⟩
      · rw [if_neg hl, if_neg hl]
        rcases q3.get i with ⟨k1, k2⟩ | ⟨p, b, k1, k2, k3, k4, k5⟩
        · rw [k1, k2]; exact rfl
        · rw [k1, k3]
          simp only [Res.ok_bind, deref, k4]
          by_cases hle : A.le b.left x = true
          · rw [if_pos hle, if_pos hle]
            simp only [store, k4, Res.ok_bind]
            have hpq : q ≠ p := fun e => q1 (e ▸ k5)
            have hq' : Function.update c p (some { b with count := b.count + 1 }) q = some ⟨x, x, 1⟩ := by
              rw [Function.update_of_ne hpq, hq]
            simp only [HHist.free, hq', Res.ok_bind]
            exact ⟨_, (q3.set k2 _).free q1 q2 (by rw [hq']; simp), by simp, rfl, rfl, rfl, rfl, rfl⟩
          · rw [if_neg hle, if_neg hle]
            refine ⟨_, q3.insert q1 q2 hq ?_, rfl, rfl, rfl, rfl, rfl, rfl⟩
            exact (List.getElem?_eq_some_iff.1 k2).1.le
  · rintro ⟨c', bins⟩ h' ⟨m, k1, rfl, k2, k3, k4, k5, k6⟩
    refine Shows.decay ⟨k1, ?_, ?_, ?_, ?_, ?_⟩
    · exact hs.numBins.trans k2.symm
    · exact hs.windowSize.trans k3.symm
    · simp only [k4, hs.window]
    · simp only [k5, hs.total]
    · simp only [k6, hs.historyCount]

theorem Shows.add {al : Allocator F} (hal : al.Sound) {g : HHist F} {h : Hist F} (hs : Shows h0 g h) (x : F) :
    Res.Rel (Shows h0) (g.add A al x) (h.add A x) := by
  obtain ⟨q1, q2, q3⟩ := hs.owns.alloc (hal _ hs.owns.fin) (⟨x, x, 1⟩ : Bin F)
  have hq : Function.update g.heap (al g.heap) (some (⟨x, x, 1⟩ : Bin F)) (al g.heap) = some ⟨x, x, 1⟩ := by simp
  unfold HHist.add
  exact Shows.add_aux hs x q1 q2 q3 hq

theorem mergeLoop_eq (ps : List ℕ) : ∀ (bs : List (Bin F)), ps.map c = bs.map some → ∀ i d m,
    mergeLoop A c ps i d m = .ok (Hist.mergeLoop A bs i d m) := by
  induction ps with
  | nil =>
    intro bs h i d m
    cases bs with
    | nil => rfl
    | cons => simp at h
  | cons p ps ih =>
    intro bs h i d m
    cases bs with
    | nil => simp at h
    | cons b bs =>
      cases ps with
      | nil =>
        cases bs with
        | nil => rfl
        | cons => simp at h
      | cons q ps =>
        cases bs with
        | nil => simp at h
        | cons b' bs =>
          simp only [List.map_cons, List.cons.injEq] at h
          unfold mergeLoop Hist.mergeLoop
          simp only [deref, h.1, h.2.1, Res.ok_bind]
          split
          · exact ih (b' :: bs) (by simp [h.2.1, h.2.2]) _ _ _
          · exact ih (b' :: bs) (by simp [h.2.1, h.2.2]) _ _ _

theorem Shows.merge_aux {g : HHist F} {h : Hist F} (hs : Shows h0 g h) (i : ℕ) :
    Res.Rel (Shows h0)
      (mergeBins A g.heap g.bins i (i + 1) >>= fun cb => .ok
        { g with heap := cb.1, bins := cb.2, window := g.window.map fun w => if w = i + 1 then i else w })
      (Hist.mergeBins A h.bins i (i + 1) >>= fun bins => .ok
        { h with bins := bins, window := h.window.map fun w => if w = i + 1 then i else w }) := by
  refine Res.Rel.bind (R := fun cb bs => Owns h0 cb.1 cb.2 bs h.live) ?_ ?_
  · unfold mergeBins Hist.mergeBins
    rcases hs.owns.get (i + 1) with ⟨k1, k2⟩ | ⟨p, r, k1, -, k3, k4, -⟩
    · rw [k1, k2]; exact rfl
    · rw [k1, k3]
      simp only [Res.ok_bind, deref, k4]
      have ho := hs.owns.erase (i + 1)
      rcases ho.get i with ⟨l1, l2⟩ | ⟨p', l, l1, l2, l3, l4, -⟩
      · rw [l1, l2]; exact rfl
      · rw [l1, l3]
        simp only [Res.ok_bind, l4, store]
        exact ho.set l2 _
  · rintro ⟨c, bins⟩ bs ho
    exact ⟨ho, hs.numBins, hs.windowSize, by simp only [hs.window], hs.total, hs.historyCount⟩

theorem Shows.update {al : Allocator F} (hal : al.Sound) {g : HHist F} {h : Hist F} (hs : Shows h0 g h) (x : F) :
    Res.Rel (Shows h0) (g.update A al x) (h.update A x) := by
  unfold HHist.update Hist.update
  refine Res.Rel.bind (hs.add hal x) ?_
  intro g h hs
  by_cases hn : h.bins.length > h.numBins
  · have hn' : g.bins.length > g.numBins := by rw [hs.numBins, hs.owns.length]; exact hn
    rw [if_pos hn', if_pos hn, mergeLoop_eq _ _ hs.owns.val, Res.ok_bind, hs.owns.length]
    exact hs.merge_aux (A := A) (Hist.mergeIndex A h.bins)
  · have hn' : ¬ g.bins.length > g.numBins := by rw [hs.numBins, hs.owns.length]; exact hn
    rw [if_neg hn', if_neg hn]
    exact hs

/-- A history of calls. -/
def runCalls (A : Arith F) (al : Allocator F) : HHist F → List (HistCall F) → Res (HHist F)
  | h, [] => .ok h
  | h, .update x :: cs => do
    let h ← h.update A al x
    runCalls A al h cs
  | h, .reset :: cs => runCalls A al h.reset cs

theorem Shows.runCalls {al : Allocator F} (hal : al.Sound) (cs : List (HistCall F)) : ∀ {g : HHist F} {h : Hist F},
    Shows h0 g h → Res.Rel (Shows h0) (g.runCalls A al cs) (h.runCalls A cs) := by
  induction cs with
  | nil => exact fun hs => hs
  | cons call cs ih =>
    intro g h hs
    cases call with
    | update x => exact Res.Rel.bind (hs.update hal x) fun a b hs => ih hs
    | reset => exact ih hs.reset

/-- Deleting different allocated objects one after the other succeeds and leaves the rest. -/
theorem freeAll_ok (ps : List ℕ) : ∀ c : BinHeap F, ps.Nodup → (∀ p ∈ ps, c p ≠ none) →
    freeAll c ps = .ok fun p => if p ∈ ps then none else c p := by
  induction ps with
  | nil => intro c _ _; simp [freeAll]
  | cons p ps ih =>
    intro c hn ha
    obtain ⟨hn1, hn2⟩ := List.nodup_cons.1 hn
    obtain ⟨b, hb⟩ := Option.ne_none_iff_exists'.1 (ha p (by simp))
    unfold freeAll
    simp only [HHist.free, hb, Res.ok_bind]
    rw [ih _ hn2 fun q hq => ?_]
    · congr 1
      funext q
      by_cases hqp : q = p
      · subst hqp; simp [hn1]
      · simp [hqp]
    · rw [Function.update_of_ne (by rintro rfl; exact hn1 hq)]
      exact ha q (List.mem_cons_of_mem _ hq)

end HHist

/-- The histogram kept by value never reports a dangling pointer. -/
theorem Hist.update_ne_dangling (h : Hist F) (x : F) : h.update A x ≠ .ub .useAfterFree := by
  obtain ⟨i, b1, live, e1, e2, -⟩ := place_spec (A := A) h x
  have hadd : h.add A x = decayCounts { h with
      bins := b1, live := live, historyCount := h.historyCount + 1, total := h.total + 1,
      window := h.window ++ [i] } := by
    unfold add
    rw [e1, Res.ok_bind, e2, Res.ok_bind]
  have hdec : ∀ g : Hist F, decayCounts g ≠ .ub .useAfterFree := by
    intro g
    unfold decayCounts
    split
    · split
      · simp
      · split <;> simp
    · simp
  unfold Hist.update
  rw [hadd]
  rcases hd : decayCounts { h with
      bins := b1, live := live, historyCount := h.historyCount + 1, total := h.total + 1,
      window := h.window ++ [i] } with g | m | u
  · rw [Res.ok_bind]
    split
    · unfold mergeBins
      simp only
      split
      · simp
      · split <;> simp
    · simp
  · simp
  · rw [Res.ub_bind, ← hd]
    exact hdec _

/-! ## C107 -/

/-- **C107**, refinement (any arithmetic, any allocator, any heap of other objects, every history of updates and resets): the
histogram with its pointers behaves exactly as the histogram with the bins kept by value, which all other theorems are
about: the same outcome, the pointers in `m_bins` lead to the same bins in the same order, and the ghost count of live bins
is the number of bins allocated and not deleted. -/
theorem C107_refines (A : Arith F) (al : Allocator F) (hal : al.Sound) (h0 : BinHeap F) (hf : {p | h0 p ≠ none}.Finite)
    (numBins W : ℕ) (cs : List (HistCall F)) :
    Res.Rel (fun g h => g.bins.map g.heap = h.bins.map some ∧ {p | g.heap p ≠ none ∧ h0 p = none}.ncard = h.live ∧
        (g.numBins, g.windowSize, g.window, g.total, g.historyCount) =
          (h.numBins, h.windowSize, h.window, h.total, h.historyCount))
      ((HHist.new h0 numBins W).runCalls A al cs) ((Hist.new numBins W).runCalls A cs) := by
  have := HHist.Shows.runCalls (A := A) hal cs (.new h0 hf numBins W)
  revert this
  rcases (HHist.new h0 numBins W).runCalls A al cs with g | m | u <;>
  rcases (Hist.new numBins W).runCalls A cs with h | m' | u' <;> intro hr <;> try exact hr
  refine ⟨hr.owns.val, hr.owns.count, ?_⟩
  rw [hr.numBins, hr.windowSize, hr.window, hr.total, hr.historyCount]

/-- **C107**, memory safety: no history of updates and resets reads, writes or deletes a bin that is not allocated (whatever
else may be undefined, see C57). -/
theorem C107_no_dangling (A : Arith F) (al : Allocator F) (hal : al.Sound) (h0 : BinHeap F) (hf : {p | h0 p ≠ none}.Finite)
    (numBins W : ℕ) (cs : List (HistCall F)) :
    (HHist.new h0 numBins W).runCalls A al cs ≠ .ub .useAfterFree := by
  have h1 := C107_refines A al hal h0 hf numBins W cs
  have h2 : ∀ (cs : List (HistCall F)) (h : Hist F), h.runCalls A cs ≠ .ub .useAfterFree := by
    intro cs
    induction cs with
    | nil => intro h; simp [Hist.runCalls]
    | cons call cs ih =>
      intro h
      cases call with
      | update x =>
        unfold Hist.runCalls
        rcases hu : h.update A x with h' | m | u
        · exact ih h'
        · simp
        · rw [Res.ub_bind, ← hu]
          exact Hist.update_ne_dangling h x
      | reset => exact ih h.reset
  intro h3
  rw [h3] at h1
  have h2 := h2 cs (Hist.new numBins W)
  rcases hh : (Hist.new numBins W).runCalls A cs with h | m' | u' <;> rw [hh] at h1 h2
  · exact h1
  · exact h1
  · exact h2 (by rw [show u' = .useAfterFree from h1.symm])

/-- **C107**, ownership: after every history of updates and resets the pointers in `m_bins` are different and point to bins
that this histogram allocated; all other objects are as they were; the destructor succeeds and deletes nothing; a destructor
without the `reset()` would delete exactly the bins held, each once. -/
theorem C107_ownership (A : Arith F) (al : Allocator F) (hal : al.Sound) (h0 : BinHeap F) (hf : {p | h0 p ≠ none}.Finite)
    (numBins W : ℕ) (cs : List (HistCall F)) (g : HHist F) (hr : (HHist.new h0 numBins W).runCalls A al cs = .ok g) :
    g.bins.Nodup ∧ (∀ p ∈ g.bins, g.heap p ≠ none ∧ h0 p = none) ∧ (∀ p, h0 p ≠ none → g.heap p = h0 p) ∧
      g.destroy = .ok g.heap ∧ g.destroyBase = .ok fun p => if p ∈ g.bins then none else g.heap p := by
  have h1 := HHist.Shows.runCalls (A := A) hal cs (.new h0 hf numBins W)
  rw [hr] at h1
  rcases hh : (Hist.new numBins W).runCalls A cs with h | m' | u' <;> rw [hh] at h1
  rotate_left
  · exact h1.elim
  · exact h1.elim
  have ho : HHist.Owns h0 g.heap g.bins h.bins h.live := h1.owns
  have hal' : ∀ p ∈ g.bins, g.heap p ≠ none := by
    intro p hp
    have : g.heap p ∈ g.bins.map g.heap := List.mem_map_of_mem hp
    rw [ho.val] at this
    obtain ⟨b, -, hb⟩ := List.mem_map.1 this
    rw [← hb]; simp
  exact ⟨ho.nodup, fun p hp => ⟨hal' p hp, ho.mine p hp⟩, ho.frame, rfl, HHist.freeAll_ok _ _ ho.nodup hal'⟩

/-- **C107**, the model notices what is not there: reading, writing or deleting an object that is not allocated is a use after
free, and the three work on one that is. -/
theorem C107_heap (c : BinHeap F) (p : ℕ) (b b' : Bin F) :
    (c p = none → HHist.deref c p = .ub .useAfterFree ∧ HHist.store c p b = .ub .useAfterFree ∧
      HHist.free c p = .ub .useAfterFree) ∧
    (c p = some b' → HHist.deref c p = .ok b' ∧
      HHist.store c p b = .ok (fun q => if q = p then some b else c q) ∧
      HHist.free c p = .ok (fun q => if q = p then none else c q)) := by
  refine ⟨fun h => ?_, fun h => ?_⟩ <;> unfold HHist.deref HHist.store HHist.free <;> rw [h]
  · exact ⟨rfl, rfl, rfl⟩
  · refine ⟨rfl, congrArg Res.ok ?_, congrArg Res.ok ?_⟩ <;> funext q <;> by_cases hq : q = p <;> simp [Function.update, hq]

/-- **C107**, deleting is possible once: if two histograms held the same pointers (the copy members of `IStreamingHistogram` copy
`m_bins` as it is; they are never instantiated), destroying both through the base destructor would be undefined behaviour as
soon as there is a bin. -/
theorem C107_delete_once (A : Arith F) (al : Allocator F) (hal : al.Sound) (h0 : BinHeap F) (hf : {p | h0 p ≠ none}.Finite)
    (numBins W : ℕ) (cs : List (HistCall F)) (g : HHist F) (hr : (HHist.new h0 numBins W).runCalls A al cs = .ok g) :
    ∃ c, g.destroyBase = .ok c ∧
      (if g.bins = [] then ({ g with heap := c } : HHist F).destroyBase = .ok c
       else ({ g with heap := c } : HHist F).destroyBase = .ub .useAfterFree) := by
  obtain ⟨-, -, -, -, h⟩ := C107_ownership A al hal h0 hf numBins W cs g hr
  refine ⟨_, h, ?_⟩
  split
  · rename_i he
    simp [HHist.destroyBase, he, HHist.freeAll]
  · rename_i hne
    obtain ⟨p, ps, hb⟩ := List.exists_cons_of_ne_nil hne
    simp [HHist.destroyBase, hb, HHist.freeAll, HHist.free]

/-- The lowest free address. -/
noncomputable def lowestFree : Allocator F := fun c => by
  classical
  exact if h : ∃ p, c p = none then Nat.find h else 0

/-- There are allocators, and more than one. -/
theorem lowestFree_sound : (lowestFree : Allocator F).Sound := by
  intro c hc
  have : ∃ p, c p = none := by
    by_contra hn
    push Not at hn
    have : {p | c p ≠ none} = Set.univ := Set.eq_univ_of_forall hn
    rw [this] at hc
    exact Set.infinite_univ hc
  classical
  unfold lowestFree
  rw [dif_pos this]
  exact Nat.find_spec this

/-- The first free one of 100 addresses, for the example. -/
def scan (c : BinHeap ℚ) : ℕ := ((List.range 100).find? fun p => (c p).isNone).getD 0

/-- Two bins, address 1 taken by another object. The bin of the repeated 5 is allocated at 3 and deleted again; 6 goes to 3 and
is merged into 5 (its bin leaks), 0 goes to 4 and swallows 1 (whose bin leaks). -/
example : (match (HHist.new (fun p => if p = 1 then some ⟨7, 7, 7⟩ else none) 2 9).runCalls (exact ℚ) scan
      [.update 1, .update 5, .update 5, .update 6, .update 0] with
    | .ok g => decide (g.bins = [4, 2]) && decide ((List.range 6).map g.heap =
        [some ⟨1, 1, 1⟩, some ⟨7, 7, 7⟩, some ⟨5, 6, 3⟩, some ⟨6, 6, 1⟩, some ⟨0, 1, 2⟩, none])
    | _ => false) = true := by
  decide +kernel

/-- the same histogram, destroyed twice -/
example : (match (HHist.new (fun p => if p = 1 then some ⟨7, 7, 7⟩ else none) 2 9).runCalls (exact ℚ) scan [.update 1, .update 5] with
    | .ok g => (match g.destroyBase with
      | .ok c => (match ({ g with heap := c } : HHist ℚ).destroyBase with | .ub u => decide (u = .useAfterFree) | _ => false)
      | _ => false)
    | _ => false) = true := by
  decide +kernel

end KML
