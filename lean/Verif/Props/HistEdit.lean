import Verif.Props.HistThreshold
import Verif.Model.HistPublic
import Verif.Model.Size64

/-! # C153: writing into the bins of a histogram -/

namespace KML

open Utils

namespace Spec

/-- The number of observations of a history. -/
def seen {F : Type} : List (HEOp F) → ℕ
  | [] => 0
  | .update _ :: os => seen os + 1
  | _ :: os => seen os

/-- The values a history brings in: what is observed, and what is written as an edge. -/
def brought {F : Type} : List (HEOp F) → List F
  | [] => []
  | .update x :: os => x :: brought os
  | .setEdges _ l r :: os => l :: r :: brought os
  | .setCount _ _ :: os => brought os

@[simp] theorem seen_append {F : Type} (os ps : List (HEOp F)) : seen (os ++ ps) = seen os + seen ps := by
  induction os with
  | nil => simp [seen]
  | cons o os ih =>
    cases o <;> simp only [List.cons_append, seen, ih]
    omega

@[simp] theorem brought_append {F : Type} (os ps : List (HEOp F)) : brought (os ++ ps) = brought os ++ brought ps := by
  induction os with
  | nil => rfl
  | cons o os ih => cases o <;> simp [brought, ih]

end Spec

open Spec

namespace Hist

variable {F : Type} {A : Arith F} {P : F → Prop}

/-- What the writes into bins add to the counts in the bins, all in all. -/
def countGain (A : Arith F) : Hist F → List (HEOp F) → ℤ
  | _, [] => 0
  | h, o :: os =>
    (match o with
      | .setCount i n => (n : ℤ) - (h.bins[i]?.elim 0 Bin.count : ℕ)
      | _ => 0) +
    (match h.edit A o with
      | .ok h' => countGain A h' os
      | _ => 0)

/-- Facts about a histogram after `n` observations and any writes into its bins. -/
structure Kept (nb W n : ℕ) (h : Hist F) : Prop where
  numBins : h.numBins = nb
  windowSize : h.windowSize = W
  size : h.bins.length ≤ nb
  total : h.total = min n W
  hist : h.historyCount = n
  lag : h.window.length = W + min n W

theorem Kept.update {nb W n : ℕ} {h h' : Hist F} {x : F} (hc : Kept nb W n h)
    (hu : h.update A x = .ok h') : Kept nb W (n + 1) h' := by
  obtain ⟨i, b1, b2, hs⟩ := update_step hu
  have hsz := hs.size (by rw [hc.numBins]; exact hc.size)
  have h1 := hc.numBins
  have h2 := hc.windowSize
  have h3 := hc.total
  have h4 := hc.lag
  refine ⟨by rw [hs.numBins, h1], by rw [hs.windowSize, h2], by omega, ?_, by rw [hs.count, hc.hist], ?_⟩
  · rcases hs.decay with ⟨h5, -, h6, -⟩ | ⟨h5, h6, -⟩ <;> omega
  · rcases hs.decay with ⟨h5, -, -, w, rfl, e⟩ | ⟨h5, -, d, w, e3, -, e⟩
    · rw [e]; split <;> simp <;> omega
    · have := congrArg List.length e3
      rw [e]; split <;> simp at this ⊢ <;> omega

/-- A write that succeeds changes one bin that is there. -/
theorem getBin_some {h : Hist F} {i : ℕ} {b : Bin F} (e : h.getBin i = .ok b) : h.bins[i]? = some b := by
  unfold getBin at e
  split at e
  · cases e
  · revert e
    rcases h.bins[i]? with _ | c <;> simp

theorem edit_cases {h h' : Hist F} {o : HEOp F} (e : h.edit A o = .ok h') :
    (∃ x, o = .update x ∧ h.update A x = .ok h') ∨
    (∃ i l r b, o = .setEdges i l r ∧ h.bins[i]? = some b ∧
      h' = { h with bins := h.bins.set i { b with left := l, right := r } }) ∨
    (∃ i n b, o = .setCount i n ∧ h.bins[i]? = some b ∧ h' = { h with bins := h.bins.set i { b with count := n } }) := by
  cases o with
  | update x => exact .inl ⟨x, rfl, e⟩
  | setEdges i l r =>
    obtain ⟨b, e1, e2⟩ := Res.bind_eq_ok.1 e
    injection e2 with e2
    exact .inr (.inl ⟨i, l, r, b, rfl, getBin_some e1, e2.symm⟩)
  | setCount i n =>
    obtain ⟨b, e1, e2⟩ := Res.bind_eq_ok.1 e
    injection e2 with e2
    exact .inr (.inr ⟨i, n, b, rfl, getBin_some e1, e2.symm⟩)

theorem Kept.run {nb W : ℕ} {h : Hist F} {ops : List (HEOp F)}
    (hu : updateAll (Hist.edit A) (Hist.new nb W) ops = .ok h) : Kept nb W (seen ops) h := by
  induction ops using List.reverseRecOn generalizing h with
  | nil =>
    simp only [updateAll] at hu; injection hu with hu; subst hu
    exact ⟨rfl, rfl, Nat.zero_le _, by simp [Hist.new, seen], rfl, by simp [Hist.new, seen]⟩
  | append_singleton ops o ih =>
    rw [updateAll_snoc] at hu
    obtain ⟨h1, e1, e2⟩ := Res.bind_eq_ok.1 hu
    have hk := ih e1
    rw [seen_append]
    rcases edit_cases e2 with ⟨x, rfl, e⟩ | ⟨i, l, r, b, rfl, -, rfl⟩ | ⟨i, n, b, rfl, -, rfl⟩
    · exact hk.update e
    · exact ⟨hk.numBins, hk.windowSize, by simpa using hk.size, hk.total, hk.hist, hk.lag⟩
    · exact ⟨hk.numBins, hk.windowSize, by simpa using hk.size, hk.total, hk.hist, hk.lag⟩

theorem Edges.set {l : List (Bin F)} (hl : Edges P l) {i : ℕ} {b : Bin F} (hb : P b.left ∧ P b.right) : Edges P (l.set i b) := by
  intro c hc
  rcases List.mem_or_eq_of_mem_set hc with hc | rfl
  · exact hl c hc
  · exact hb

theorem Safe.update (hc : Mergeable A P) {nb W n : ℕ} (hb : 1 ≤ nb) (hW : 1 ≤ W) (hn : n < 2 * W + nb) {h : Hist F}
    (hk : Kept nb W n h) (hs : Safe P nb n h) {x : F} (hxP : P x) :
    ∃ h', h.update A x = .ok h' ∧ Safe P nb (n + 1) h' := by
  have hlag := hk.lag
  have hnb := hk.numBins
  have hws := hk.windowSize
  have htot := hk.total
  have hsz := hk.size
  have hfew := hs.few
  obtain ⟨u, v, hw, hv, hu⟩ := hs.window
  have hux : ∃ d u', u = d :: u' := by
    rcases u with _ | ⟨d, u'⟩
    · exfalso
      rw [hw] at hlag
      simp only [List.nil_append] at hlag
      omega
    · exact ⟨d, u', rfl⟩
  obtain ⟨d, u', rfl⟩ := hux
  have hd := hu d (by simp)
  rcases hc.update (by omega) hs.edges hxP with ⟨h', i, b1, b2, e', hst⟩ | ⟨-, i, b1, hp, -, d', w, hdw, hbd⟩
  · refine ⟨h', e', ?_⟩
    have hlen := hst.size (by omega)
    obtain ⟨p1, p2, p3, -⟩ := hst.placed.length
    refine ⟨by omega, (hst.edges hxP hs.edges).2, ?_⟩
    obtain ⟨f, w, f1, hw', hcase, -⟩ := hst.window
    have hsplit : ∃ s t, w = s ++ t ∧ t.length ≤ n + 1 - nb ∧ ∀ j ∈ s, j < max 1 h'.bins.length := by
      have hbase : ∀ s, (∀ j ∈ s, j ∈ d :: u') → w = s ++ v ++ [i] →
          ∃ s t, w = s ++ t ∧ t.length ≤ n + 1 - nb ∧ ∀ j ∈ s, j < max 1 h'.bins.length := by
        intro s hs hws
        have hs' : ∀ j ∈ s, j < max 1 h'.bins.length := fun j hj => by have := hu j (hs j hj); omega
        rcases Nat.lt_or_ge n nb with hlt | hge
        · have hv0 : v = [] := List.length_eq_zero_iff.1 (by omega)
          refine ⟨s ++ [i], [], by rw [hws, hv0]; simp, by simp, ?_⟩
          intro j hj
          rcases List.mem_append.1 hj with hj | hj
          · exact hs' j hj
          · simp at hj
            have : i < h'.bins.length := by omega
            omega
        · exact ⟨s, v ++ [i], by rw [hws]; simp, by simp; omega, hs'⟩
      rcases hcase with ⟨-, -, h1⟩ | ⟨-, d', h1, -⟩
      · exact hbase (d :: u') (fun j hj => hj) (by rw [h1, hw])
      · rw [hw] at h1
        simp only [List.cons_append, List.cons.injEq] at h1
        exact hbase u' (fun j hj => List.mem_cons_of_mem _ hj) (by rw [← h1.2])
    obtain ⟨s, t, rfl, ht, hs'⟩ := hsplit
    refine ⟨s.map f, t.map f, by rw [hw', List.map_append], by simpa using ht, ?_⟩
    intro j hj
    obtain ⟨k, hk, rfl⟩ := List.mem_map.1 hj
    exact lt_of_le_of_lt (f1 k) (hs' k hk)
  · exfalso
    rw [hw] at hdw
    simp only [List.cons_append, List.cons.injEq] at hdw
    have := hp.length
    omega

theorem Safe.edited (hc : Mergeable A P) {nb W : ℕ} (hb : 1 ≤ nb) (hW : 1 ≤ W) {h : Hist F} {ops : List (HEOp F)}
    (hn : seen ops ≤ 2 * W + nb) (hx : ∀ x ∈ brought ops, P x)
    (hu : updateAll (Hist.edit A) (Hist.new nb W) ops = .ok h) : Safe P nb (seen ops) h := by
  induction ops using List.reverseRecOn generalizing h with
  | nil =>
    simp only [updateAll] at hu; injection hu with hu; subst hu
    refine ⟨le_rfl, by intro b hb; simp [Hist.new] at hb, List.replicate W 0, [], by simp [Hist.new], by simp, ?_⟩
    intro j hj
    have := List.eq_of_mem_replicate hj
    omega
  | append_singleton ops o ih =>
    rw [updateAll_snoc] at hu
    obtain ⟨h1, e1, e2⟩ := Res.bind_eq_ok.1 hu
    rw [seen_append] at hn ⊢
    rw [brought_append] at hx
    have hs := ih (by omega) (fun x hx' => hx x (by simp [hx'])) e1
    have hk := Kept.run e1
    rcases edit_cases e2 with ⟨x, rfl, e⟩ | ⟨i, l, r, b, rfl, hb', rfl⟩ | ⟨i, n, b, rfl, hb', rfl⟩
    · simp only [seen] at hn
      obtain ⟨h', e', hs'⟩ := hs.update hc hb hW (by omega) hk (hx x (by simp [brought]))
      rw [e] at e'
      injection e' with e'
      subst e'
      exact hs'
    · refine ⟨by simpa [seen] using hs.few, hs.edges.set ⟨hx l (by simp [brought]), hx r (by simp [brought])⟩, ?_⟩
      simpa [seen] using hs.window
    · refine ⟨by simpa [seen] using hs.few, hs.edges.set (hs.edges b (List.mem_of_getElem? hb')), ?_⟩
      simpa [seen] using hs.window

/-- Writing a count moves the sum of the counts by the difference. -/
theorem sum_set {l : List (Bin F)} {i : ℕ} {b c : Bin F} (h : l[i]? = some b) :
    (sumCounts (l.set i c) : ℤ) = sumCounts l + c.count - b.count := by
  obtain ⟨l1, l2, rfl, rfl⟩ := split_getElem? h
  rw [set_mid]
  simp only [sumCounts_append, sumCounts_cons]
  push_cast; ring

theorem gain_snoc {h h' : Hist F} {ops : List (HEOp F)} (e : updateAll (Hist.edit A) h ops = .ok h') (o : HEOp F) :
    countGain A h (ops ++ [o]) = countGain A h ops +
      (match o with
        | .setCount i n => (n : ℤ) - (h'.bins[i]?.elim 0 Bin.count : ℕ)
        | _ => 0) := by
  induction ops generalizing h with
  | nil =>
    simp only [updateAll] at e; injection e with e; subst e
    simp only [List.nil_append, countGain, zero_add]
    rcases h.edit A o with _ | _ | _ <;> simp
  | cons p ops ih =>
    simp only [updateAll] at e
    obtain ⟨h1, e1, e2⟩ := Res.bind_eq_ok.1 e
    simp only [List.cons_append, countGain, e1]
    rw [ih e2]; ring

theorem sum_filling {nb W n : ℕ} {h h' : Hist F} {x : F} (hc : Kept nb W n h) (hn : n < W) (hu : h.update A x = .ok h') :
    sumCounts h'.bins = sumCounts h.bins + 1 := by
  obtain ⟨i, b1, b2, hs⟩ := update_step hu
  have h1 := hc.windowSize
  have h2 := hc.total
  have hps := hs.placed.sum
  rcases hs.decay with ⟨-, e, -⟩ | ⟨h5, -⟩
  · subst e
    rcases hs.merge with ⟨-, m⟩ | ⟨-, m⟩
    · rw [m]; omega
    · have := m.sum; omega
  · omega

theorem gain_run {nb W : ℕ} {h : Hist F} {ops : List (HEOp F)} (hn : seen ops ≤ W)
    (hu : updateAll (Hist.edit A) (Hist.new nb W) ops = .ok h) :
    (sumCounts h.bins : ℤ) = seen ops + countGain A (Hist.new nb W) ops := by
  induction ops using List.reverseRecOn generalizing h with
  | nil =>
    simp only [updateAll] at hu; injection hu with hu; subst hu
    simp [Hist.new, seen, countGain, sumCounts]
  | append_singleton ops o ih =>
    rw [updateAll_snoc] at hu
    obtain ⟨h1, e1, e2⟩ := Res.bind_eq_ok.1 hu
    rw [seen_append] at hn ⊢
    have hs := ih (by omega) e1
    have hk := Kept.run e1
    rw [gain_snoc e1]
    rcases edit_cases e2 with ⟨x, rfl, e⟩ | ⟨i, l, r, b, rfl, hb', rfl⟩ | ⟨i, n, b, rfl, hb', rfl⟩
    · simp only [seen] at hn ⊢
      have := sum_filling hk (by omega) e
      rw [this]; push_cast; rw [hs]; ring
    · simp only [seen]
      rw [sum_set hb', hs]; push_cast; ring
    · simp only [seen, hb', Option.elim]
      rw [sum_set hb', hs]; push_cast; ring

/-! ### Counts play no part while the window fills -/

/-- A bin, its count forgotten. -/
def bare (b : Bin F) : Bin F := { b with count := 0 }

/-- A histogram, the counts in its bins forgotten. -/
def bared (h : Hist F) : Hist F := { h with bins := h.bins.map bare }

theorem bare_search (l : List (Bin F)) (c : Bin F) (fuel low high i : ℕ) :
    searchLoop A (l.map bare) c fuel low high i = searchLoop A l c fuel low high i := by
  induction fuel generalizing low high i with
  | zero => rfl
  | succ n ih =>
    simp only [searchLoop, List.getElem?_map]
    cases hb : l[i]? with
    | none => rfl
    | some b =>
      simp only [Option.map_some, ih]
      rfl

theorem bare_place (h : Hist F) (x : F) (i : ℕ) : bared <$> h.bared.place A x i = bared <$> h.place A x i := by
  unfold place bared
  simp only [List.length_map, List.getElem?_map]
  by_cases h0 : h.total = 0
  · simp [h0, bare, Function.comp_def]
  simp only [h0, if_false]
  by_cases h1 : i = h.bins.length
  · simp [h1, bare, Function.comp_def]
  simp only [h1, if_false]
  cases hb : h.bins[i]? with
  | none => rfl
  | some b =>
    simp only [Option.map_some, bare]
    cases A.le b.left x
    · simp [List.map_insertIdx, bare, Function.comp_def]; rfl
    · simp [List.map_set, bare, Function.comp_def]; rfl

theorem bare_mergeLoop (l : List (Bin F)) (i : ℕ) (m : F) (k : ℕ) : mergeLoop A (l.map bare) i m k = mergeLoop A l i m k := by
  induction l generalizing i m k with
  | nil => rfl
  | cons a l ih =>
    cases l with
    | nil => rfl
    | cons b l =>
      simp only [List.map_cons] at ih
      simp only [List.map_cons, Hist.mergeLoop, ih]
      rfl

theorem bare_mergeBins (l : List (Bin F)) (i j : ℕ) :
    List.map bare <$> mergeBins A (l.map bare) i j = List.map bare <$> mergeBins A l i j := by
  unfold mergeBins
  simp only [List.getElem?_map]
  cases hr : l[j]? with
  | none => rfl
  | some r =>
    simp only [Option.map_some, List.eraseIdx_map, List.getElem?_map]
    cases hb : (l.eraseIdx j)[i]? with
    | none => rfl
    | some b => simp [List.map_set, bare, Bin.add, Function.comp_def]; rfl

theorem bare_finish (h : Hist F) : bared <$> finish A h.bared = bared <$> finish A h := by
  unfold finish
  have hm : mergeIndex A h.bared.bins = mergeIndex A h.bins := by
    simp only [mergeIndex, bared, bare_mergeLoop, List.length_map]
  rw [hm]
  simp only [bared, List.length_map]
  split
  · have := bare_mergeBins (A := A) h.bins (mergeIndex A h.bins) (mergeIndex A h.bins + 1)
    revert this
    rcases mergeBins A (h.bins.map bare) (mergeIndex A h.bins) (mergeIndex A h.bins + 1) with a | a | a <;>
      rcases mergeBins A h.bins (mergeIndex A h.bins) (mergeIndex A h.bins + 1) with b | b | b <;>
      intro this <;> simp_all [bared]
  · simp [bared, bare, Function.comp_def]

theorem bare_update {h : Hist F} (ht : h.total < h.windowSize) (x : F) :
    bared <$> h.bared.update A x = bared <$> h.update A x := by
  obtain ⟨i, b1, l1, s1, p1, -⟩ := place_spec (A := A) h x
  obtain ⟨j, b2, l2, s2, p2, -⟩ := place_spec (A := A) h.bared x
  have hij : j = i := by
    have : h.bared.binSearch A x = h.binSearch A x := by
      simp only [binSearch, binSearchBin, bared, bare_search, List.length_map]
    rw [s1, s2] at this
    injection this
  subst hij
  have hp := bare_place (A := A) h x j
  rw [p1, p2] at hp
  simp only [Res.map_ok, bared] at hp
  injection hp with hp
  injection hp with q1 q2 q3 q4 q5 q6 q7
  rw [update_eq, update_eq]
  unfold Hist.add
  rw [s1, s2, Res.ok_bind, Res.ok_bind, p1, p2, Res.ok_bind, Res.ok_bind, decay_noop _ (by simp [bared]; omega),
    decay_noop _ (by simp; omega), Res.ok_bind, Res.ok_bind, ← bare_finish]
  conv_rhs => rw [← bare_finish]
  simp only [bared] at q3 ⊢
  rw [q3, q7]

theorem bare_run {nb W : ℕ} {h : Hist F} {ops : List (HEOp F)} (hn : seen ops ≤ W) (hE : ∀ i l r, HEOp.setEdges i l r ∉ ops)
    (hu : updateAll (Hist.edit A) (Hist.new nb W) ops = .ok h) :
    ∃ g, updateAll (Hist.update A) (Hist.new nb W) (brought ops) = .ok g ∧ g.bared = h.bared := by
  induction ops using List.reverseRecOn generalizing h with
  | nil => simp only [updateAll] at hu; injection hu with hu; subst hu; exact ⟨_, rfl, rfl⟩
  | append_singleton ops o ih =>
    rw [updateAll_snoc] at hu
    obtain ⟨h1, e1, e2⟩ := Res.bind_eq_ok.1 hu
    rw [seen_append] at hn
    obtain ⟨g, e3, e4⟩ := ih (by omega) (fun i l r hm => hE i l r (by simp [hm])) e1
    rw [brought_append]
    have hk := Kept.run e1
    rcases edit_cases e2 with ⟨x, rfl, e⟩ | ⟨i, l, r, b, rfl, hb', rfl⟩ | ⟨i, n, b, rfl, hb', rfl⟩
    · simp only [brought, seen] at hn ⊢
      rw [updateAll_snoc, e3, Res.ok_bind]
      have h1t : h1.total < h1.windowSize := by have := hk.total; have := hk.windowSize; omega
      have hgt : g.total < g.windowSize := by
        have q1 := congrArg Hist.total e4
        have q2 := congrArg Hist.windowSize e4
        simp only [bared] at q1 q2
        omega
      have := bare_update (A := A) hgt x
      rw [e4, bare_update h1t x, e] at this
      revert this
      rcases g.update A x with a | a | a
      · intro this
        simp only [Res.map_ok] at this
        injection this with this
        exact ⟨a, rfl, this.symm⟩
      · intro this; cases this
      · intro this; cases this
    · exact absurd (List.mem_append_right _ (List.mem_singleton_self _)) (hE i l r)
    · refine ⟨g, by simpa [brought] using e3, ?_⟩
      rw [e4]
      unfold bared
      simp only [List.map_set]
      congr 1
      symm
      apply List.ext_getElem?
      intro k
      rw [List.getElem?_set]
      split
      · rename_i hk'
        subst hk'
        rw [List.getElem?_map, hb']
        have : i < h1.bins.length := by
          by_contra hlt
          rw [List.getElem?_eq_none_iff.2 (by omega)] at hb'
          cases hb'
        simp [this, bare]
      · rfl

end Hist

/-- **C153**, the full claim: whatever was written into the bins, an observation that a histogram without such writes is sure to survive
is processed, and the counts then add up. -/
def C153_full : Prop := ∀ (numBins W : ℕ) (ops : List (HEOp ℚ)) (x : ℚ) (h : Hist ℚ), 1 ≤ numBins → 1 ≤ W →
  seen ops < 2 * W + numBins → (∀ y ∈ brought ops, |y| ≤ dblMax) → |x| ≤ dblMax →
  updateAll (Hist.edit (exact ℚ)) (Hist.new numBins W) ops = .ok h →
  ∃ h', h.update (exact ℚ) x = .ok h' ∧ (seen ops < W → h'.binCounts.IsOk)

/-- **C153** is violated: one observation, its count set to 5, a second observation: `binCounts` throws. -/
theorem C153_violated : ¬ C153_full := by
  intro h
  obtain ⟨h', e, hc⟩ := h 5 9 [.update 1, .setCount 0 5] 2 ⟨5, 9, [⟨1, 1, 5⟩], [0, 0, 0, 0, 0, 0, 0, 0, 0, 0], 1, 1, 1⟩
    (by decide) (by decide) (by decide) (by intro y hy; simp [brought] at hy; subst hy; decide +kernel) (by decide +kernel)
    (by decide +kernel)
  have e2 : Hist.update (exact ℚ) ⟨5, 9, [⟨1, 1, 5⟩], [0, 0, 0, 0, 0, 0, 0, 0, 0, 0], 1, 1, 1⟩ (2 : ℚ) =
      .ok ⟨5, 9, [⟨1, 1, 5⟩, ⟨2, 2, 1⟩], [0, 0, 0, 0, 0, 0, 0, 0, 0, 0, 1], 2, 2, 2⟩ := by decide +kernel
  rw [e2] at e
  injection e with e
  subst e
  obtain ⟨c, hc⟩ := hc (by decide)
  simp [Hist.binCounts] at hc

/-- Nor is the observation processed: an edge written far away, and no two bins are close enough to be merged. -/
theorem C153_violated_undefined : updateAll (Hist.edit (exact ℚ)) (Hist.new 1 9)
    [.update 1, .setEdges 0 1 (-dblMax), .update 2] = .ub .oob := by
  decide +kernel

/-- The same with an infinite edge on doubles. -/
theorem C153_violated_infinite : updateAll (Hist.edit Dbl.arith) (Hist.new 1 9)
    [.update (.fin 1), .setEdges 0 (.fin 1) (.inf true), .update (.fin 2)] = .ub .oob := by
  decide +kernel

/-- **C153**, definedness (any arithmetic): if the observations and the edges written differ by less than `DBL_MAX`, then within the
first `2 W + numBins` observations every one is processed, whatever counts were written. Missing: edges further apart, as
`C153_violated_undefined`. -/
theorem C153_defined_partial {F : Type} (A : Arith F) (numBins W : ℕ) (hb : 1 ≤ numBins) (hW : 1 ≤ W) (ops : List (HEOp F)) (x : F)
    (h : Hist F) (hn : seen ops < 2 * W + numBins)
    (hd : ∀ a ∈ x :: brought ops, ∀ b ∈ x :: brought ops,
      definitelyLessThan A (A.sub b a) (A.lit dblMax) (defaultEps A) = true)
    (hu : updateAll (Hist.edit A) (Hist.new numBins W) ops = .ok h) : (h.update A x).IsOk := by
  have hc : Hist.Mergeable A (fun y => y ∈ x :: brought ops) := fun a b ha hb => hd a ha b hb
  have hs := Hist.Safe.edited hc hb hW (by omega) (fun y hy => List.mem_cons_of_mem _ hy) hu
  obtain ⟨h', e, -⟩ := hs.update hc hb hW hn (Hist.Kept.run hu) (x := x) (List.mem_cons_self ..)
  exact ⟨h', e⟩

/-- One bin, window 2; edges written out of order and a count of 0: the third observation is processed. -/
example : ∃ h, updateAll (Hist.edit (exact ℚ)) (Hist.new 1 2) [.update 1, .setEdges 0 7 (-7), .setCount 0 0, .update 2] = .ok h ∧
    (h.update (exact ℚ) 3).IsOk ∧ ∀ a ∈ [3, 1, 7, -7, 2], ∀ b ∈ [3, 1, 7, -7, 2],
      definitelyLessThan (exact ℚ) ((exact ℚ).sub b a) ((exact ℚ).lit dblMax) (defaultEps (exact ℚ)) = true := by
  refine ⟨⟨1, 2, [⟨2, 2, 1⟩], [0, 0, 0, 0], 2, 2, 2⟩, by decide +kernel,
    ⟨⟨1, 2, [⟨3, 3, 1⟩], [0, 0, 0, 1], 2, 3, 3⟩, by decide +kernel⟩, by decide +kernel⟩

/-- **C153**, what writes cannot touch (any arithmetic, any number of observations): the total count, the number of observations, the
limits on bins and window, and the length of the deque. -/
theorem C153_untouched_partial {F : Type} (A : Arith F) (numBins W : ℕ) (ops : List (HEOp F)) (h : Hist F)
    (hu : updateAll (Hist.edit A) (Hist.new numBins W) ops = .ok h) :
    h.getTotalCount = min (seen ops) W ∧ h.historyCount = seen ops ∧ h.size ≤ numBins ∧ h.windowSize = W ∧
      h.window.length = W + min (seen ops) W := by
  have hk := Hist.Kept.run hu
  exact ⟨hk.total, hk.hist, hk.size, hk.windowSize, hk.lag⟩

/-- Three observations, window 2, a count of 100 written. -/
example : updateAll (Hist.edit (exact ℚ)) (Hist.new 5 2) [.update 1, .setCount 0 100, .update 2, .update 3] =
    .ok ⟨5, 2, [⟨1, 1, 99⟩, ⟨2, 2, 1⟩, ⟨3, 3, 1⟩], [0, 0, 1, 2], 2, 3, 3⟩ := by
  decide +kernel

/-- **C153**, the counts (any arithmetic): up to `W` observations, `binCounts` throws exactly if the counts written did not cancel
out. Missing: longer streams, whose counts are out of step without any write (C51). -/
theorem C153_counts_partial {F : Type} (A : Arith F) (numBins W : ℕ) (ops : List (HEOp F)) (h : Hist F) (hn : seen ops ≤ W)
    (hu : updateAll (Hist.edit A) (Hist.new numBins W) ops = .ok h) :
    ((h.bins.map Bin.count).sum : ℤ) = seen ops + Hist.countGain A (Hist.new numBins W) ops ∧
      (h.binCounts.IsOk ↔ Hist.countGain A (Hist.new numBins W) ops = 0) := by
  have h1 := Hist.gain_run hn hu
  have h2 : h.total = seen ops := by rw [(Hist.Kept.run hu).total]; omega
  have h3 : (Hist.sumCounts h.bins) = (h.bins.map Bin.count).sum := rfl
  rw [h3] at h1
  refine ⟨h1, ?_⟩
  unfold Hist.binCounts
  simp only [h2]
  constructor
  · rintro ⟨c, e⟩
    split at e
    · cases e
    · rename_i hne
      rw [not_not] at hne
      rw [hne] at h1
      omega
  · intro h0
    rw [if_neg (by rw [not_not]; omega)]
    exact ⟨_, rfl⟩

/-- A count raised by 4, another lowered by 1 after an observation fell into its bin: a gain of 3. -/
example : Hist.countGain (exact ℚ) (Hist.new 5 9) [.update 1, .setCount 0 5, .update 2, .update 2, .setCount 1 1] = 3 ∧
    updateAll (Hist.edit (exact ℚ)) (Hist.new 5 9) [.update 1, .setCount 0 5, .update 2, .update 2, .setCount 1 1] =
      .ok ⟨5, 9, [⟨1, 1, 5⟩, ⟨2, 2, 1⟩], [0, 0, 0, 0, 0, 0, 0, 0, 0, 0, 1, 1], 3, 3, 2⟩ := by
  decide +kernel

/-- **C153**, the counts as they are added up modulo `2^64`: up to `W < 2^64` observations `binCounts` stays silent exactly if the counts
written cancel out modulo `2^64`. (The counts in the bins are natural numbers here.) -/
theorem C153_modulo_partial {F : Type} (A : Arith F) (numBins W : ℕ) (ops : List (HEOp F)) (h : Hist F) (hn : seen ops ≤ W)
    (hW : W < 2 ^ 64) (hu : updateAll (Hist.edit A) (Hist.new numBins W) ops = .ok h) :
    h.binCounts64.IsOk ↔ (2 ^ 64 : ℤ) ∣ Hist.countGain A (Hist.new numBins W) ops := by
  have h1 := (C153_counts_partial A numBins W ops h hn hu).1
  have h2 : h.total = seen ops := by rw [(Hist.Kept.run hu).total]; omega
  unfold Hist.binCounts64
  simp only [h2]
  constructor
  · rintro ⟨c, e⟩
    split at e
    · cases e
    · rename_i hne
      rw [not_not] at hne
      unfold w64 at hne
      omega
  · intro h0
    rw [if_neg (by rw [not_not]; unfold w64; omega)]
    exact ⟨_, rfl⟩

/-- Two counts of `2^63 + 1` written where there was 1: no complaint about two observations. -/
example : (do
    let h ← updateAll (Hist.edit (exact ℚ)) (Hist.new 5 9)
      [.update 1, .update 2, .setCount 0 (2 ^ 63 + 1), .setCount 1 (2 ^ 63 + 1)]
    h.binCounts64) = .ok [2 ^ 63 + 1, 2 ^ 63 + 1] := by
  decide +kernel

/-- **C153**, only counts written (any arithmetic): up to `W` observations, the edges of the bins, the deque and the totals are those of
the histogram that was given the observations alone. Missing: longer streams, where a count of zero may remove a bin. -/
theorem C153_edges_partial {F : Type} (A : Arith F) (numBins W : ℕ) (ops : List (HEOp F)) (h : Hist F) (hn : seen ops ≤ W)
    (hE : ∀ i l r, HEOp.setEdges i l r ∉ ops) (hu : updateAll (Hist.edit A) (Hist.new numBins W) ops = .ok h) :
    ∃ g, updateAll (Hist.update A) (Hist.new numBins W) (brought ops) = .ok g ∧
      g.bins.map (fun b => (b.left, b.right)) = h.bins.map (fun b => (b.left, b.right)) ∧ g.window = h.window ∧
      g.total = h.total ∧ g.live = h.live := by
  obtain ⟨g, e, hg⟩ := Hist.bare_run hn hE hu
  have h1 := congrArg Hist.window hg
  have h2 := congrArg Hist.total hg
  have h3 := congrArg Hist.live hg
  refine ⟨g, e, ?_, h1, h2, h3⟩
  have := congrArg (fun k : Hist F => k.bins.map (fun b => (b.left, b.right))) hg
  simpa [Hist.bared, Hist.bare, Function.comp_def] using this

/-- Two bins, three observations; a count of 50 does not change what is merged. -/
example : updateAll (Hist.edit (exact ℚ)) (Hist.new 2 9) [.update 1, .setCount 0 50, .update 5, .update 2] =
      .ok ⟨2, 9, [⟨1, 2, 51⟩, ⟨5, 5, 1⟩], [0, 0, 0, 0, 0, 0, 0, 0, 0, 0, 0, 0], 3, 3, 3⟩ ∧
    updateAll (Hist.update (exact ℚ)) (Hist.new 2 9) [1, 5, 2] =
      .ok ⟨2, 9, [⟨1, 2, 2⟩, ⟨5, 5, 1⟩], [0, 0, 0, 0, 0, 0, 0, 0, 0, 0, 0, 0], 3, 3, 3⟩ := by
  decide +kernel

end KML
