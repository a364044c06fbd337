import Verif.Props.DoubleHist
import Verif.Props.DoubleMean
import Verif.Props.HistThreshold

/-!
# C138: infinite and NaN observations of StreamingHistogram

No number is definitely less than an infinity or NaN for the tolerant comparison, so the search for the bin of such an
observation ends at the first bin.
-/

namespace KML

open Utils

/-- **C138**, the full claim: after some finite observations, `+∞` becomes the right end of the last bin and `-∞` the left
end of the first bin. -/
def C138_full : Prop :=
  ∀ (numBins W : ℕ) (xs : List ℚ) (h h' : Hist Dbl) (neg : Bool), 1 ≤ numBins → xs ≠ [] → xs.length < W →
    (∀ x ∈ xs, |x| ≤ dblMax / 4) → updateAll (Hist.update Dbl.arith) (Hist.new numBins W) (xs.map .fin) = .ok h →
    h.update Dbl.arith (.inf neg) = .ok h' →
    if neg then h'.bins.head?.map Bin.left = some (.inf true) else h'.bins.getLast?.map Bin.right = some (.inf false)

/-- **C138** is violated: of 1, 2 and `+∞` the infinity is counted in the bin from 1 to 1. -/
theorem C138_violated : ¬ C138_full := by
  intro h
  have := h 10 10 [1, 2] ⟨10, 10, [⟨.fin 1, .fin 1, 1⟩, ⟨.fin 2, .fin 2, 1⟩], [0, 0, 0, 0, 0, 0, 0, 0, 0, 0, 0, 1], 2, 2, 2⟩
    ⟨10, 10, [⟨.fin 1, .fin 1, 2⟩, ⟨.fin 2, .fin 2, 1⟩], [0, 0, 0, 0, 0, 0, 0, 0, 0, 0, 0, 1, 0], 3, 3, 2⟩ false
    (by norm_num) (by simp) (by simp) (by decide +kernel) (by decide +kernel) (by decide +kernel)
  exact absurd this (by decide +kernel)

theorem Dbl.not_definitelyLess {a b : Dbl} (h : a.NonFinite ∨ b.NonFinite) {e : ℚ} (he : 0 < e) :
    definitelyLessThan Dbl.arith a b (.fin e) = false := by
  have h0 : (e = 0) = False := by simp [he.ne']
  have h1 : (e < 0) = False := by simp [he.le]
  have hn : ∀ d c : Dbl, c = .nan → Dbl.arith.lt d c = false := by
    rintro d c rfl
    cases d <;> rfl
  have hi : ∀ d : Dbl, Dbl.arith.lt (.inf false) d = false := by
    intro d
    rcases d with _ | t | q <;> try cases t
    all_goals rfl
  have hm : Dbl.arith.mul (.inf false) (.fin e) = .inf false := by simp [Dbl.arith, Dbl.mul, Dbl.isZero, Dbl.isNeg, h0, h1]
  unfold definitelyLessThan
  rcases a with _ | s | x <;> rcases b with _ | t | y
  case fin.fin => rcases h with h | h <;> exact absurd rfl (h _)
  case nan.nan => exact hn _ _ rfl
  case nan.inf => exact hn _ _ rfl
  case nan.fin => exact hn _ _ rfl
  case inf.nan => exact hn _ _ rfl
  case fin.nan => exact hn _ _ rfl
  case inf.inf => rw [show larger Dbl.arith (.inf s) (.inf t) = .inf false from rfl, hm]; exact hi _
  case inf.fin => rw [show larger Dbl.arith (.inf s) (.fin y) = .inf false from rfl, hm]; exact hi _
  case fin.inf => rw [show larger Dbl.arith (.fin x) (.inf t) = .inf false from rfl, hm]; exact hi _

theorem Dbl.not_less {a b : Dbl} (h : a.NonFinite ∨ b.NonFinite) :
    definitelyLessThan Dbl.arith a b (defaultEps Dbl.arith) = false := by
  rw [Dbl.eps_fin.1]
  exact Dbl.not_definitelyLess h (by decide +kernel)

namespace Hist

variable {h : Hist Dbl} {b : Bin Dbl} {bs : List (Bin Dbl)} {x : Dbl}

/-- **C138**: the search for an infinity or NaN ends at the first bin, whatever the bins. -/
theorem _root_.KML.C138_search_partial (h : Hist Dbl) (x : Dbl) (hx : x.NonFinite) : h.binSearch Dbl.arith x = .ok 0 := by
  obtain ⟨i, e, hi, h1, -⟩ := binSearchBin_spec (A := Dbl.arith) h ⟨x, x, 1⟩
  rcases Nat.eq_zero_or_pos i with h0 | h0
  · rw [h0] at e; exact e
  · have := h1 h.bins[i - 1] h0 (List.getElem?_eq_getElem (by omega))
    rw [show Bin.lt Dbl.arith h.bins[i - 1] ⟨x, x, 1⟩ = false from Dbl.not_less (.inr hx)] at this
    cases this

example : (⟨5, 9, [⟨.fin 1, .fin 1, 1⟩, ⟨.fin 2, .fin 2, 1⟩], [], 2, 2, 2⟩ : Hist Dbl).binSearch Dbl.arith (.inf false) = .ok 0 :=
  C138_search_partial _ _ (Dbl.nonFinite_inf _)

/-- The update of an observation whose search ends at the first bin and that is not below that bin. -/
theorem update_first (hs : h.binSearch Dbl.arith x = .ok 0) (hb : h.bins = b :: bs) (ht : h.total ≠ 0)
    (hw : h.total < h.windowSize) (hn : h.bins.length ≤ h.numBins) (hle : Dbl.arith.le b.left x = true) :
    h.update Dbl.arith x = .ok { h with
      bins := { b with count := b.count + 1 } :: bs, window := h.window ++ [0], total := h.total + 1
      historyCount := h.historyCount + 1 } := by
  have h1 : ¬ (0 = h.bins.length) := by rw [hb]; simp
  have h2 : h.place Dbl.arith x 0 = .ok { h with bins := { b with count := b.count + 1 } :: bs } := by
    unfold place
    rw [if_neg ht, if_neg h1]
    simp [hb, hle]
  have h3 : h.add Dbl.arith x = .ok { h with
      bins := { b with count := b.count + 1 } :: bs, window := h.window ++ [0], total := h.total + 1
      historyCount := h.historyCount + 1 } := by
    unfold add
    rw [hs, Res.ok_bind, h2, Res.ok_bind]
    unfold decayCounts
    rw [if_neg (by show ¬ (h.total + 1 > h.windowSize); omega)]
  unfold update
  rw [h3, Res.ok_bind]
  rw [hb] at hn
  exact if_neg (by simpa using hn)

/-- The same for an observation that is not at or above the first bin. -/
theorem add_front (hs : h.binSearch Dbl.arith x = .ok 0) (hb : h.bins = b :: bs) (ht : h.total ≠ 0)
    (hw : h.total < h.windowSize) (hle : Dbl.arith.le b.left x = false) :
    h.add Dbl.arith x = .ok { h with
      bins := ⟨x, x, 1⟩ :: b :: bs, window := h.window ++ [0], total := h.total + 1
      historyCount := h.historyCount + 1, live := h.live + 1 } := by
  have h1 : ¬ (0 = h.bins.length) := by rw [hb]; simp
  have h2 : h.place Dbl.arith x 0 = .ok { h with bins := ⟨x, x, 1⟩ :: b :: bs, live := h.live + 1 } := by
    unfold place
    rw [if_neg ht, if_neg h1]
    simp [hb, hle]
  unfold add
  rw [hs, Res.ok_bind, h2, Res.ok_bind]
  unfold decayCounts
  rw [if_neg (by show ¬ (h.total + 1 > h.windowSize); omega)]

/-- The state after observations up to a quarter of the largest double that fit the window. -/
theorem run_quarter {nb W : ℕ} {xs : List ℚ} (hb : 1 ≤ nb) (hne : xs ≠ []) (hn : xs.length < W)
    (hx : ∀ x ∈ xs, |x| ≤ dblMax / 4) :
    ∃ h b bs, updateAll (Hist.update Dbl.arith) (Hist.new nb W) (xs.map .fin) = .ok h ∧ h.bins = b :: bs ∧
      (∀ c ∈ h.bins, ∃ l r, c.left = .fin l ∧ c.right = .fin r ∧ |l| ≤ dblMax / 4 ∧ |r| ≤ dblMax / 4) ∧
      h.total ≠ 0 ∧ h.total < h.windowSize ∧ h.bins.length ≤ h.numBins ∧ h.numBins = nb := by
  obtain ⟨h, e⟩ := C88_defined_partial nb W hb xs hn.le hx
  have hx2 : ∀ x ∈ xs, |x| ≤ dblMax / 2 := fun x h => (hx x h).trans (by have := dblMax_pos; linarith)
  obtain ⟨es, h1, -, h2⟩ := C88_ordered_partial nb W (by omega) xs hx2 h e
  have hc := Counts.run e
  have hl : 0 < xs.length := List.length_pos_of_ne_nil hne
  have ht := hc.total
  rw [List.length_map] at ht
  have hs := hc.sum_ge
  cases hbins : h.bins with
  | nil => rw [hbins] at hs; simp [sumCounts] at hs; omega
  | cons b bs =>
    refine ⟨h, b, bs, e, hbins, ?_, by omega, by rw [hc.windowSize]; omega, by rw [hc.numBins]; exact hc.size,
      hc.numBins⟩
    intro c hc
    have := List.mem_map_of_mem (f := fun b : Bin Dbl => (b.left, b.right)) hc
    rw [h1] at this
    obtain ⟨p, hp, hq⟩ := List.mem_map.1 this
    obtain ⟨-, m1, m2⟩ := h2 p hp
    injection hq with q1 q2
    exact ⟨p.1, p.2, q1.symm, q2.symm, hx _ m1, hx _ m2⟩

theorem mergeBins_cons {F : Type} {A : Arith F} {a : Bin F} {l l' : List (Bin F)} {i j : ℕ} (h : mergeBins A l i j = .ok l') :
    mergeBins A (a :: l) (i + 1) (j + 1) = .ok (a :: l') := by
  unfold mergeBins at h ⊢
  simp only [List.getElem?_cons_succ, List.eraseIdx_cons_succ, List.set_cons_succ]
  cases h5 : l[j]? with
  | none => rw [h5] at h; cases h
  | some r =>
    simp only [h5] at h ⊢
    cases h6 : (l.eraseIdx j)[i]? with
    | none => simp only [h6] at h; cases h
    | some b =>
      simp only [h6] at h ⊢
      injection h with h
      rw [h]

/-- With `-∞` or NaN in front, the first bin is never merged. -/
theorem merge_front {b c : Bin Dbl} {bs : List (Bin Dbl)} {x : Dbl} (hx : x.NonFinite) {k : ℕ}
    (hd : definitelyLessThan Dbl.arith (Dbl.arith.sub c.right b.right) (Dbl.arith.lit dblMax) (defaultEps Dbl.arith) = true) :
    ∃ i l, mergeIndex Dbl.arith (⟨x, x, k⟩ :: b :: c :: bs) = i + 1 ∧
      mergeBins Dbl.arith (⟨x, x, k⟩ :: b :: c :: bs) (i + 1) (i + 2) = .ok (⟨x, x, k⟩ :: l) ∧
      Merged Dbl.arith i (b :: c :: bs) l := by
  have h1 : definitelyLessThan Dbl.arith (Dbl.arith.sub b.right x) (Dbl.arith.lit dblMax) (defaultEps Dbl.arith) = false :=
    Dbl.not_less (.inl (Dbl.NonFinite.sub_right hx _))
  have h2 : mergeIndex Dbl.arith (⟨x, x, k⟩ :: b :: c :: bs) =
      mergeLoop Dbl.arith (c :: bs) 2 (Dbl.arith.sub c.right b.right) 1 := by
    unfold mergeIndex
    rw [mergeLoop]
    simp only [h1, Bool.false_eq_true, if_false]
    rw [mergeLoop]
    simp only [hd, if_true]
  obtain ⟨i, hi, hi'⟩ : ∃ i, mergeIndex Dbl.arith (⟨x, x, k⟩ :: b :: c :: bs) = i + 1 ∧ i + 1 < (b :: c :: bs).length := by
    rw [h2]
    rcases mergeLoop_range (A := Dbl.arith) (c :: bs) 2 (Dbl.arith.sub c.right b.right) 1 with h | ⟨h3, h4⟩
    · exact ⟨0, h, by simp⟩
    · refine ⟨mergeLoop Dbl.arith (c :: bs) 2 (Dbl.arith.sub c.right b.right) 1 - 1, by omega, ?_⟩
      simp only [List.length_cons] at h4 ⊢
      omega
  rcases mergeBins_spec (A := Dbl.arith) (b :: c :: bs) i with ⟨h3, -⟩ | ⟨l, h3, h4⟩
  · omega
  · refine ⟨i, l, hi, ?_, h4⟩
    exact mergeBins_cons h3

/-- The update with `-∞` or NaN of a full histogram. -/
theorem update_front {b c : Bin Dbl} {bs : List (Bin Dbl)} {x : Dbl} (hx : x.NonFinite) (hb : h.bins = b :: c :: bs)
    (ht : h.total ≠ 0) (hw : h.total < h.windowSize) (hle : Dbl.arith.le b.left x = false)
    (hd : definitelyLessThan Dbl.arith (Dbl.arith.sub c.right b.right) (Dbl.arith.lit dblMax) (defaultEps Dbl.arith) = true)
    (hn : h.numBins = h.bins.length) :
    ∃ i l, Merged Dbl.arith i h.bins l ∧ h.update Dbl.arith x = .ok { h with
      bins := ⟨x, x, 1⟩ :: l, window := (h.window ++ [0]).map fun w => if w = i + 2 then i + 1 else w
      total := h.total + 1, historyCount := h.historyCount + 1, live := h.live + 1 } := by
  obtain ⟨i, l, h1, h2, h3⟩ := merge_front (k := 1) hx hd
  refine ⟨i, l, by rw [hb]; exact h3, ?_⟩
  unfold update
  rw [add_front (C138_search_partial h x hx) hb ht hw hle, Res.ok_bind]
  rw [if_pos (by show _ > h.numBins; rw [hn, hb]; simp)]
  simp only [h1]
  rw [h2]
  rfl

end Hist

/-- **C138**: `+∞` after finite observations is counted in the lowest bin, whose edges stay as they are. -/
theorem C138_plus_partial (numBins W : ℕ) (xs : List ℚ) (hb : 1 ≤ numBins) (hne : xs ≠ []) (hn : xs.length < W)
    (hx : ∀ x ∈ xs, |x| ≤ dblMax / 4) :
    ∃ h b bs, updateAll (Hist.update Dbl.arith) (Hist.new numBins W) (xs.map .fin) = .ok h ∧ h.bins = b :: bs ∧
      h.update Dbl.arith (.inf false) = .ok { h with
        bins := { b with count := b.count + 1 } :: bs, window := h.window ++ [0], total := h.total + 1
        historyCount := h.historyCount + 1 } := by
  obtain ⟨h, b, bs, e, h1, h2, h3, h4, h5, -⟩ := Hist.run_quarter hb hne hn hx
  refine ⟨h, b, bs, e, h1, Hist.update_first (C138_search_partial h _ (Dbl.nonFinite_inf _)) h1 h3 h4 h5 ?_⟩
  obtain ⟨l, r, el, -⟩ := h2 b (by rw [h1]; simp)
  rw [el]; rfl

/-- Three observations in two bins, then `+∞`. -/
example : (do
    let h ← updateAll (Hist.update Dbl.arith) (Hist.new 2 10) [.fin 1, .fin 2, .fin 9, .inf false]
    .ok h.bins) = .ok [⟨.fin 1, .fin 2, 3⟩, ⟨.fin 9, .fin 9, 1⟩] := by
  decide +kernel

example : ∀ x ∈ [(1 : ℚ), 2, 9], |x| ≤ dblMax / 4 := by decide +kernel

/-- **C138**: `-∞` or NaN after finite observations gets a bin of its own in front of the others. If there is no room, two
of the finite bins are merged, and with one bin the behaviour is undefined. -/
theorem C138_front_partial (numBins W : ℕ) (xs : List ℚ) (hb : 1 ≤ numBins) (hne : xs ≠ []) (hn : xs.length < W)
    (hx : ∀ x ∈ xs, |x| ≤ dblMax / 4) (x : Dbl) (hx' : x = .inf true ∨ x = .nan) :
    ∃ h, updateAll (Hist.update Dbl.arith) (Hist.new numBins W) (xs.map .fin) = .ok h ∧
      (h.size < numBins → h.update Dbl.arith x = .ok { h with
        bins := ⟨x, x, 1⟩ :: h.bins, window := h.window ++ [0], total := h.total + 1
        historyCount := h.historyCount + 1, live := h.live + 1 }) ∧
      (h.size = numBins → 2 ≤ numBins → ∃ i l, Hist.Merged Dbl.arith i h.bins l ∧ h.update Dbl.arith x = .ok { h with
        bins := ⟨x, x, 1⟩ :: l, window := (h.window ++ [0]).map fun w => if w = i + 2 then i + 1 else w
        total := h.total + 1, historyCount := h.historyCount + 1, live := h.live + 1 }) ∧
      (numBins = 1 → h.update Dbl.arith x = .ub .oob) := by
  obtain ⟨h, b, bs, e, h1, h2, h3, h4, h5, h6⟩ := Hist.run_quarter hb hne hn hx
  have hf : x.NonFinite := by
    rcases hx' with rfl | rfl
    · exact Dbl.nonFinite_inf _
    · exact Dbl.nonFinite_nan
  have hle : Dbl.arith.le b.left x = false := by
    obtain ⟨l, r, el, -⟩ := h2 b (by rw [h1]; simp)
    rw [el]
    rcases hx' with rfl | rfl <;> rfl
  have ha := Hist.add_front (C138_search_partial h x hf) h1 h3 h4 hle
  refine ⟨h, e, fun hlt => ?_, fun heq h2b => ?_, fun h1b => ?_⟩
  · unfold Hist.update
    rw [ha, Res.ok_bind, if_neg]
    · rw [h1]
    · show ¬ (_ > h.numBins)
      rw [Hist.size, h1] at hlt
      simp only [List.length_cons] at hlt ⊢
      omega
  · obtain ⟨c, cs, rfl⟩ : ∃ c cs, bs = c :: cs := by
      cases bs with
      | nil => rw [Hist.size, h1] at heq; simp at heq; omega
      | cons c cs => exact ⟨c, cs, rfl⟩
    refine Hist.update_front hf h1 h3 h4 hle ?_ (by rw [h6]; exact heq.symm)
    obtain ⟨-, r1, -, q1, -, s1⟩ := h2 b (by rw [h1]; simp)
    obtain ⟨-, r2, -, q2, -, s2⟩ := h2 c (by rw [h1]; simp)
    have hM := dblMax_pos
    rw [q1, q2, Hist.sim_dbl.diffMax r2 r1 (by linarith) (by linarith), b64_eq]
    exact Hist.Big.diff ⟨by decide +kernel, by decide +kernel, by decide +kernel, by decide +kernel, by decide +kernel⟩ s1 s2
  · have : bs = [] := by
      rw [h1, h6, h1b] at h5
      exact List.length_eq_zero_iff.1 (by simpa using h5)
    subst this
    unfold Hist.update
    rw [ha, Res.ok_bind, if_pos (by show _ > h.numBins; rw [h6, h1b]; simp)]
    have h7 : definitelyLessThan Dbl.arith (Dbl.arith.sub b.right x) (Dbl.arith.lit dblMax) (defaultEps Dbl.arith) = false :=
      Dbl.not_less (.inl (Dbl.NonFinite.sub_right hf _))
    have h8 : Hist.mergeIndex Dbl.arith [⟨x, x, 1⟩, b] = 2 := by
      unfold Hist.mergeIndex Hist.mergeLoop
      simp only [h7, Bool.false_eq_true, if_false]
      rfl
    simp only [h8]
    rfl

/-- With room for it, without room for it, and with one bin. -/
example : (do
      let h ← updateAll (Hist.update Dbl.arith) (Hist.new 4 10) [.fin 1, .fin 2, .fin 9, .inf true]
      .ok h.bins) = .ok [⟨.inf true, .inf true, 1⟩, ⟨.fin 1, .fin 1, 1⟩, ⟨.fin 2, .fin 2, 1⟩, ⟨.fin 9, .fin 9, 1⟩] ∧
    (do
      let h ← updateAll (Hist.update Dbl.arith) (Hist.new 3 10) [.fin 1, .fin 2, .fin 9, .inf true]
      .ok h.bins) = .ok [⟨.inf true, .inf true, 1⟩, ⟨.fin 1, .fin 2, 2⟩, ⟨.fin 9, .fin 9, 1⟩] ∧
    updateAll (Hist.update Dbl.arith) (Hist.new 1 10) [.fin 1, .fin 2, .inf true] = .ub .oob := by
  decide +kernel

example : ∃ h, updateAll (Hist.update Dbl.arith) (Hist.new 1 10) ([1, 2].map .fin) = .ok h ∧
    h.update Dbl.arith .nan = .ub .oob := by
  obtain ⟨h, e, -, -, h1⟩ := C138_front_partial 1 10 [1, 2] (by norm_num) (by simp) (by simp) (by decide +kernel) .nan (.inr rfl)
  exact ⟨h, e, h1 rfl⟩

/-! ### A stream that starts with `-∞` -/

namespace Hist

/-- All observations in one bin at `-∞`. -/
structure Swallowed (nb W n : ℕ) (h : Hist Dbl) : Prop where
  numBins : h.numBins = nb
  windowSize : h.windowSize = W
  bins : h.bins = [⟨.inf true, .inf true, min n W⟩]
  window : ∀ i ∈ h.window, i = 0
  total : h.total = min n W

theorem Swallowed.update {nb W n : ℕ} {h : Hist Dbl} (hs : Swallowed nb W n h) (hb : 1 ≤ nb) (hW : 1 ≤ W) (hn : 1 ≤ n)
    {x : Dbl} (hx : x ≠ .nan) : ∃ h', h.update Dbl.arith x = .ok h' ∧ Swallowed nb W (n + 1) h' := by
  have h1 : h.binSearch Dbl.arith x = .ok 0 := by
    unfold binSearch binSearchBin
    rw [hs.bins]
    unfold searchLoop
    have : Bin.lt Dbl.arith ⟨.inf true, .inf true, min n W⟩ ⟨x, x, 1⟩ = false := Dbl.not_less (.inl (Dbl.nonFinite_inf _))
    simp [this, searchLoop]
  have hle : Dbl.arith.le (.inf true) x = true := by
    rcases x with _ | s | q
    · exact absurd rfl hx
    · cases s <;> rfl
    · rfl
  have ht := hs.total
  have h2 : h.place Dbl.arith x 0 = .ok { h with bins := [⟨.inf true, .inf true, min n W + 1⟩] } := by
    unfold place
    rw [if_neg (by omega), if_neg (by rw [hs.bins]; simp)]
    simp [hs.bins, hle]
  unfold Hist.update add
  rw [h1, Res.ok_bind, h2, Res.ok_bind]
  unfold decayCounts
  have h0 : ∀ i ∈ h.window ++ [0], i = 0 := by
    intro i hi
    rcases List.mem_append.1 hi with hi | hi
    · exact hs.window i hi
    · simpa using hi
  by_cases hlt : n < W
  · rw [if_neg (by show ¬ (h.total + 1 > h.windowSize); rw [hs.windowSize]; omega), Res.ok_bind,
      if_neg (by show ¬ (1 > h.numBins); rw [hs.numBins]; omega)]
    refine ⟨_, rfl, hs.numBins, hs.windowSize, ?_, h0, ?_⟩
    · show [_] = [_]
      rw [show min (n + 1) W = min n W + 1 by omega]
    · show h.total + 1 = _
      omega
  · rw [if_pos (by show h.total + 1 > h.windowSize; rw [hs.windowSize]; omega)]
    dsimp only
    cases hw : h.window ++ [0] with
    | nil => simp at hw
    | cons d w =>
      rw [hw] at h0
      obtain rfl := h0 d (by simp)
      have h4 : ¬ (1 > h.numBins) := by rw [hs.numBins]; omega
      simp only [List.getElem?_cons_zero, List.set_cons_zero, List.length_cons, List.length_nil, Nat.zero_add, if_neg h4,
        Res.ok_bind, Nat.succ_pos, gt_iff_lt, if_true, Nat.add_sub_cancel]
      refine ⟨_, rfl, hs.numBins, hs.windowSize, ?_, fun i hi => h0 i (by simp [hi]), ?_⟩
      · show [_] = [_]
        rw [show min (n + 1) W = min n W by omega]
      · show h.total = _
        omega

end Hist

/-- **C138**: after a first observation `-∞` every later observation, finite or infinite, is counted in the bin at `-∞`, for
streams of any length; the histogram never has another bin. -/
theorem C138_swallow_partial (numBins W : ℕ) (hb : 1 ≤ numBins) (hW : 1 ≤ W) (ys : List Dbl) (hy : ∀ y ∈ ys, y ≠ .nan) :
    ∃ h, updateAll (Hist.update Dbl.arith) (Hist.new numBins W) (.inf true :: ys) = .ok h ∧
      h.bins = [⟨.inf true, .inf true, min (ys.length + 1) W⟩] := by
  suffices ∃ h, updateAll (Hist.update Dbl.arith) (Hist.new numBins W) (.inf true :: ys) = .ok h ∧
      Hist.Swallowed numBins W (ys.length + 1) h by
    obtain ⟨h, e, hs⟩ := this
    exact ⟨h, e, hs.bins⟩
  induction ys using List.reverseRecOn with
  | nil =>
    have h1 : (Hist.new numBins W : Hist Dbl).update Dbl.arith (.inf true) = .ok { (Hist.new numBins W : Hist Dbl) with
        bins := [⟨.inf true, .inf true, 1⟩], window := List.replicate W 0 ++ [0], total := 1, historyCount := 1, live := 1 } := by
      unfold Hist.update Hist.add
      rw [C138_search_partial _ _ (Dbl.nonFinite_inf _), Res.ok_bind]
      have h2 : (Hist.new numBins W : Hist Dbl).place Dbl.arith (.inf true) 0 = .ok { (Hist.new numBins W : Hist Dbl) with
          bins := [⟨.inf true, .inf true, 1⟩], live := 1 } := rfl
      rw [h2, Res.ok_bind]
      unfold Hist.decayCounts
      rw [if_neg (by show ¬ (0 + 1 > W); omega), Res.ok_bind, if_neg (by show ¬ (1 > numBins); omega)]
      rfl
    refine ⟨_, by rw [updateAll, h1]; rfl, rfl, rfl, ?_, ?_, ?_⟩
    · show [_] = [_]
      rw [show min ([].length + 1) W = 1 by simp; omega]
    · intro i hi
      rcases List.mem_append.1 hi with hi | hi
      · exact (List.mem_replicate.1 hi).2
      · simpa using hi
    · show 1 = min ([].length + 1) W
      simp; omega
  | append_singleton ys y ih =>
    obtain ⟨h, e, hs⟩ := ih fun z hz => hy z (by simp [hz])
    obtain ⟨h', e', hs'⟩ := hs.update hb hW (by omega) (hy y (by simp))
    refine ⟨h', ?_, by simpa using hs'⟩
    rw [← List.cons_append, updateAll_snoc, e]
    exact e'

/-- `-∞` and then 5, 7 and -3, in a window of 3. -/
example : ∃ h, updateAll (Hist.update Dbl.arith) (Hist.new 10 3) [.inf true, .fin 5, .fin 7, .fin (-3)] = .ok h ∧
    h.bins = [⟨.inf true, .inf true, 3⟩] :=
  C138_swallow_partial 10 3 (by norm_num) (by norm_num) [.fin 5, .fin 7, .fin (-3)] (by simp)

end KML
