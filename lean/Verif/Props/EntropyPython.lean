import Verif.Props.PyStats
import Verif.Lemmas.Entropy

/-! # C106: StreamingEntropy never throws; C80 for PyStreamingEntropy -/

set_option linter.unusedSectionVars false

namespace KML

section Size

variable {F : Type} {A : Arith F}

/-- The number of bins after an update: the item is placed at or before the new end, and one bin disappears if there are more
than `numBins`. -/
theorem Hist.update_size {h h' : Hist F} {x : F} (hb : h.bins.length ≤ h.numBins) (hu : h.update A x = .ok h') :
    ∃ i k, h.binSearch A x = .ok i ∧ i ≤ h.bins.length ∧ i < k ∧ h.bins.length ≤ k ∧ h'.numBins = h.numBins ∧
      h'.bins.length = min h.numBins k := by
  obtain ⟨i, bins, live, e1, e2, hp, -⟩ := Hist.place_spec (A := A) h x
  obtain ⟨l1, l2, l3, -⟩ := hp.length
  have hil : i ≤ h.bins.length := by
    obtain ⟨j, hj, hjl, -⟩ := Hist.binSearchBin_spec (A := A) h (Hist.unit x)
    have : Res.ok i = Res.ok j := e1.symm.trans hj
    injection this with this
    omega
  have hadd : h.add A x = Hist.decayCounts { h with
      bins := bins, live := live, historyCount := h.historyCount + 1, total := h.total + 1,
      window := h.window ++ [i] } := by
    unfold Hist.add
    rw [e1, Res.ok_bind, e2, Res.ok_bind]
  unfold Hist.update at hu
  obtain ⟨g, hg, hu⟩ := Res.bind_eq_ok.1 hu
  rw [hadd] at hg
  have hg' : g.numBins = h.numBins ∧
      (g.bins.length = bins.length ∨ h.numBins < bins.length ∧ g.bins.length + 1 = bins.length) := by
    rcases Nat.lt_or_ge h.windowSize (h.total + 1) with ht | ht
    · rcases hw : h.window ++ [i] with _ | ⟨d, rest⟩
      · simp at hw
      rcases Hist.decay_evict { h with
        bins := bins, live := live, historyCount := h.historyCount + 1, total := h.total + 1,
        window := h.window ++ [i] } ht hw with ⟨-, k⟩ | ⟨b', k1, k2⟩
      · rw [k] at hg; cases hg
      · rw [k1] at hg
        injection hg with hg
        subst hg
        refine ⟨rfl, ?_⟩
        simp only at k2 ⊢
        generalize hB : bins = B at k2
        cases k2 with
        | keep l1 l2' b _ => simp
        | erase l1 l2' b h1 _ => simp at h1 ⊢; omega
    · rw [Hist.decay_noop _ ht] at hg
      injection hg with hg
      subst hg
      exact ⟨rfl, .inl rfl⟩
  obtain ⟨g1, g2⟩ := hg'
  refine ⟨i, bins.length, e1, hil, l1, l2, ?_⟩
  split at hu
  · rename_i hlt
    obtain ⟨b, hm, hu⟩ := Res.bind_eq_ok.1 hu
    injection hu with hu
    subst hu
    simp only
    unfold Hist.mergeBins at hm
    split at hm
    · cases hm
    · rename_i r hr
      simp only at hm
      split at hm
      · cases hm
      · injection hm with hm
        subst hm
        have := (List.getElem?_eq_some_iff.1 hr).1
        rw [List.length_set, List.length_eraseIdx_of_lt this]
        omega
  · injection hu with hu
    subst hu
    omega

end Size

theorem Hist.getBin_ok {F : Type} {h : Hist F} {i : ℕ} (hi : i < h.bins.length) : h.getBin i = .ok h.bins[i] := by
  unfold Hist.getBin
  rw [if_neg (by omega), List.getElem?_eq_getElem hi]

/-- The index one past the end gets through the check. -/
theorem Hist.getBin_end {F : Type} {h : Hist F} {i : ℕ} (hi : i = h.bins.length) : h.getBin i = .ub .oob := by
  unfold Hist.getBin
  rw [if_neg (by omega), List.getElem?_eq_none (by omega)]

namespace Dbl

/-- Not below 0 (NaN included). -/
def NotNeg (d : Dbl) : Prop := Dbl.lt d (.fin 0) = false

theorem notNeg_iff (d : Dbl) : d.NotNeg ↔ d = .nan ∨ d = .inf false ∨ ∃ q : ℚ, d = .fin q ∧ 0 ≤ q := by
  unfold NotNeg
  rcases d with _ | s | q
  · simp [lt]
  · cases s <;> simp [lt]
  · simp [lt]

theorem ofRat_notNeg {x : ℚ} (h : 0 ≤ x) : (ofRat x).NotNeg := by
  have h1 : 0 ≤ rnd64 x := by
    have := rnd64_mono h
    rwa [show rnd64 0 = 0 from rfl] at this
  rw [notNeg_iff]
  unfold ofRat
  simp only
  split
  · rw [decide_eq_false (not_lt.2 h1)]; simp
  · exact .inr (.inr ⟨_, rfl, h1⟩)

theorem div_notNeg {a b : Dbl} (ha : a.NotNeg) (hb : b.NotNeg) : (div a b).NotNeg := by
  rw [notNeg_iff] at ha hb
  rcases ha with rfl | rfl | ⟨a, rfl, ha⟩ <;> rcases hb with rfl | rfl | ⟨b, rfl, hb⟩
  all_goals first
    | rfl
    | skip
  · show lt (inf (false != decide (b < 0))) (fin 0) = false
    rw [decide_eq_false (not_lt.2 hb)]
    rfl
  show (if b = 0 then (if a = 0 then nan else inf (decide (a < 0))) else ofRat (a / b)).NotNeg
  split
  · split
    · rfl
    · rw [decide_eq_false (not_lt.2 ha)]; rfl
  · exact ofRat_notNeg (div_nonneg ha hb)

end Dbl

namespace Entropy

variable {L : LArith Dbl}

theorem xlogx_ok (hL : L.toArith = Dbl.arith) {x : Dbl} (h : x.NotNeg) : ∃ y, Utils.xlogx L x = .ok y := by
  unfold Utils.xlogx
  have h0 : L.lt x (L.lit 0) = false := by
    rw [hL]
    show Dbl.lt x (Dbl.ofRat 0) = false
    rw [Dbl.ofRat_zero]
    exact h
  rw [h0]
  simp only [Bool.false_eq_true, if_false]
  split <;> exact ⟨_, rfl⟩

theorem div_eq (hL : L.toArith = Dbl.arith) (a b : Dbl) : L.div a b = Dbl.div a b := by rw [hL]; rfl

theorem ofNat_notNeg (hL : L.toArith = Dbl.arith) (n : ℕ) : (L.ofNat n).NotNeg := by
  rw [hL]
  exact Dbl.ofRat_notNeg (x := ((n : ℤ) : ℚ)) (by positivity)

theorem max_notNeg (hL : L.toArith = Dbl.arith) (x : Dbl) : (L.max (L.lit 0) x).NotNeg := by
  rw [hL]
  show (if Dbl.lt (Dbl.ofRat 0) x then x else Dbl.ofRat 0).NotNeg
  rw [Dbl.ofRat_zero]
  split
  · rename_i h
    rcases x with _ | s | q
    · rfl
    · cases s
      · rfl
      · cases h
    · have h : 0 < q := by simpa [Dbl.lt] using h
      exact decide_eq_false (not_lt.2 h.le)
  · simp [Dbl.NotNeg, Dbl.lt]

theorem lit_one_dbl (hL : L.toArith = Dbl.arith) : L.lit 1 = .fin 1 := by
  rw [hL]
  exact Dbl.ofRat_one

theorem add_one_notNeg (hL : L.toArith = Dbl.arith) {x : Dbl} (h : x.NotNeg) : (L.add x (L.lit 1)).NotNeg := by
  rw [lit_one_dbl hL, hL]
  rw [Dbl.notNeg_iff] at h
  rcases h with rfl | rfl | ⟨q, rfl, h⟩
  · rfl
  · rfl
  · exact Dbl.ofRat_notNeg (by linarith)

theorem pred_succ_notNeg (hL : L.toArith = Dbl.arith) {x : Dbl} (h : x.NotNeg) :
    (L.add (L.sub x (L.lit 1)) (L.lit 1)).NotNeg := by
  rw [lit_one_dbl hL, hL]
  rw [Dbl.notNeg_iff] at h
  rcases h with rfl | rfl | ⟨q, rfl, h⟩
  · rfl
  · rfl
  · show (Dbl.add (Dbl.ofRat (q + -1)) (.fin 1)).NotNeg
    have h1 : -1 ≤ rnd64 (q + -1) := by
      have := rnd64_mono (show (-1 : ℚ) ≤ q + -1 by linarith)
      rwa [show rnd64 (-1) = -1 by decide +kernel] at this
    unfold Dbl.ofRat
    simp only
    split
    · rename_i h2
      have : ¬ rnd64 (q + -1) < 0 := by
        intro h3
        rw [abs_of_neg h3] at h2
        have h4 : (1 : ℚ) < (2 ^ 53 - 1) * 2 ^ 971 := by decide +kernel
        have h5 : -rnd64 (q + -1) ≤ 1 := by linarith only [h1]
        exact absurd (h2.trans_le h5) (not_lt.2 h4.le)
      rw [decide_eq_false this]
      rfl
    · exact Dbl.ofRat_notNeg (by linarith)

theorem increment_outcome (hL : L.toArith = Dbl.arith) (e : Entropy Dbl) {i : ℕ} (hi : i ≤ e.hist.bins.length) :
    (i < e.hist.bins.length ∧ ∃ e', e.increment L i = .ok e') ∨ i = e.hist.bins.length ∧ e.increment L i = .ub .oob := by
  unfold increment
  rcases Nat.lt_or_ge i e.hist.bins.length with hlt | hge
  · left
    refine ⟨hlt, ?_⟩
    rw [Hist.getBin_ok hlt]
    generalize e.hist.bins[i] = b
    simp only [Res.ok_bind]
    obtain ⟨x1, h1⟩ := xlogx_ok hL (Dbl.div_notNeg (ofNat_notNeg hL b.count) (ofNat_notNeg hL e.hist.getTotalCount))
    obtain ⟨x2, h2⟩ := xlogx_ok hL
      (Dbl.div_notNeg (max_notNeg hL (L.sub (L.ofNat b.count) (L.lit 1))) (ofNat_notNeg hL e.hist.getTotalCount))
    rw [← div_eq hL] at h1 h2
    rw [h1, Res.ok_bind, h2, Res.ok_bind]
    split <;> exact ⟨_, rfl⟩
  · right
    refine ⟨by omega, ?_⟩
    rw [Hist.getBin_end (by omega)]
    rfl

theorem decrement_ok (hL : L.toArith = Dbl.arith) (e : Entropy Dbl) {i : ℕ} (hi : i < e.hist.bins.length) :
    ∃ e', e.decrement L i = .ok e' := by
  unfold decrement
  have hn := pred_succ_notNeg hL (ofNat_notNeg hL e.hist.getTotalCount)
  rw [Hist.getBin_ok hi]
  generalize e.hist.bins[i] = b
  simp only [Res.ok_bind]
  have hc := max_notNeg hL (L.sub (L.ofNat b.count) (L.lit 1))
  obtain ⟨x1, h1⟩ := xlogx_ok hL (Dbl.div_notNeg (add_one_notNeg hL hc) hn)
  obtain ⟨x2, h2⟩ := xlogx_ok hL (Dbl.div_notNeg hc hn)
  rw [← div_eq hL] at h1 h2
  rw [h1, Res.ok_bind, h2, Res.ok_bind]
  exact ⟨_, rfl⟩

/-- All indices in the window are those of bins. -/
structure Near (e : Entropy Dbl) : Prop where
  size : e.hist.bins.length ≤ e.hist.numBins
  room : ∀ w, e.window = some w → 0 < e.windowSize
  index : ∀ w, e.window = some w → ∀ i ∈ w, i < e.hist.bins.length

theorem Near.new {W n : ℕ} {e : Entropy Dbl} (h : Entropy.new L W n = .ok e) : e.Near := by
  unfold Entropy.new at h
  have key : ∀ bins : ℕ, (⟨W, if W > 0 then some [] else none, 0, Hist.new bins W, L.lit 0⟩ : Entropy Dbl).Near := by
    intro bins
    refine ⟨by simp [Hist.new], ?_, ?_⟩
    · intro w hw
      simp only at hw ⊢
      split at hw
      · assumption
      · cases hw
    · intro w hw i hi
      simp only at hw
      split at hw
      · injection hw with hw; subst hw; cases hi
      · cases hw
  by_cases hn : n = 0
  · by_cases hW : W = 0
    · rw [if_pos hn, if_pos hW, Res.ub_bind] at h
      cases h
    · rw [if_pos hn, if_neg hW, Res.ok_bind] at h
      injection h with h
      subst h
      exact key _
  · rw [if_neg hn, Res.ok_bind] at h
    injection h with h
    subst h
    exact key _

/-- What an update does: the three outcomes. -/
theorem Near.update_cases (hL : L.toArith = Dbl.arith) {e : Entropy Dbl} (h : e.Near) (hW : 0 < e.windowSize)
    (hw0 : e.window ≠ none) (x : Dbl) : ∃ i, e.hist.binSearch L.toArith x = .ok i ∧ i ≤ e.hist.numBins ∧
    ((∃ u, e.hist.update L.toArith x = .ub u ∧ e.update L x = .ub u) ∨
     ∃ hist, e.hist.update L.toArith x = .ok hist ∧
      (i = e.hist.numBins ∧ e.update L x = .ub .oob ∨ i < e.hist.numBins ∧ ∃ e', e.update L x = .ok e' ∧ e'.Near ∧
        e'.windowSize = e.windowSize ∧ e'.window ≠ none)) := by
  obtain ⟨i, hi, hil, -⟩ := Hist.binSearchBin_spec (A := L.toArith) e.hist (Hist.unit x)
  replace hi : e.hist.binSearch L.toArith x = .ok i := hi
  refine ⟨i, hi, hil.trans h.size, ?_⟩
  obtain ⟨w, hw⟩ := Option.ne_none_iff_exists'.1 hw0
  -- what follows the eviction
  have tail : ∀ (e1 : Entropy Dbl) (v : List ℕ), e1.hist = e.hist → e1.windowSize = e.windowSize →
      (∀ j ∈ v, j < e.hist.bins.length ∨ j = i) →
      ∀ r, r = (do
        let hist ← e1.hist.update L.toArith x
        let e' ← ({ e1 with window := some v, hist := hist } : Entropy Dbl).increment L i
        .ok { e' with historyCount := e'.historyCount + 1 } : Res (Entropy Dbl)) →
      ((∃ u, e.hist.update L.toArith x = .ub u ∧ r = .ub u) ∨
       ∃ hist, e.hist.update L.toArith x = .ok hist ∧
        (i = e.hist.numBins ∧ r = .ub .oob ∨ i < e.hist.numBins ∧ ∃ e', r = .ok e' ∧ e'.Near ∧
          e'.windowSize = e.windowSize ∧ e'.window ≠ none)) := by
    rintro e1 v he hsz hv r rfl
    rw [he]
    rcases hh : e.hist.update L.toArith x with hist | m' | u
    · right
      refine ⟨hist, rfl, ?_⟩
      obtain ⟨i', k, s0, s1, s2, s3, s4, s5⟩ := Hist.update_size h.size hh
      rw [hi] at s0
      injection s0 with s0
      subst s0
      have hsize := h.size
      simp only [Res.ok_bind]
      have hle : i ≤ hist.bins.length := by omega
      rcases increment_outcome hL ({ e1 with window := some v, hist := hist } : Entropy Dbl) (i := i) hle with
        ⟨k1, e2, k2⟩ | ⟨k1, k2⟩
      · right
        simp only at k1
        refine ⟨by omega, { e2 with historyCount := e2.historyCount + 1 }, by rw [k2, Res.ok_bind], ?_⟩
        obtain ⟨f1, f2, f3, -⟩ := increment_frame k2
        refine ⟨⟨?_, ?_, ?_⟩, f3.trans hsz, by simp only [f2]; simp⟩
        · simp only [f1]; omega
        · intro w' _
          simp only [f3, hsz]
          exact hW
        · intro w' hw' j hj
          simp only [f1, f2] at hw' ⊢
          injection hw' with hw'
          subst hw'
          rcases hv j hj with hv | hv
          · omega
          · rw [hv]; exact k1
      · left
        simp only at k1
        refine ⟨by omega, by rw [k2, Res.ub_bind]⟩
    · exact absurd hh (Hist.update_ne_throw _ _ _ _)
    · exact .inl ⟨u, rfl, rfl⟩
  rcases Nat.lt_or_ge w.length e.windowSize with hl | hl
  · refine tail e (w ++ [i]) rfl rfl ?_ _ (update_room hi hw hl)
    intro j hj
    rcases List.mem_append.1 hj with hj | hj
    · exact .inl (h.index w hw j hj)
    · exact .inr (List.mem_singleton.1 hj)
  · obtain ⟨front, rest, hc, hu⟩ := update_evict hi hw hl
    rw [hu]
    obtain ⟨a, w', rfl⟩ : ∃ a w', w = a :: w' := List.exists_cons_of_length_pos (by omega)
    injection hc with hc1 hc2
    subst hc1 hc2
    obtain ⟨e1, hd⟩ := decrement_ok hL e (h.index _ hw a List.mem_cons_self)
    rw [hd, Res.ok_bind]
    obtain ⟨f1, -, f3, -⟩ := decrement_frame hd
    refine tail e1 (w' ++ [i]) f1 f3 ?_ _ rfl
    intro j hj
    rcases List.mem_append.1 hj with hj | hj
    · exact .inl (h.index _ hw j (List.mem_cons_of_mem _ hj))
    · exact .inr (List.mem_singleton.1 hj)

theorem Near.update (hL : L.toArith = Dbl.arith) {e : Entropy Dbl} (h : e.Near) (x : Dbl) :
    (∀ m, e.update L x ≠ .throw m) ∧ ∀ e', e.update L x = .ok e' → e'.Near := by
  rcases hw : e.window with _ | w
  · have : e.update L x = .ub .nullDeref := by
      obtain ⟨i, hi, -⟩ := Hist.binSearchBin_spec (A := L.toArith) e.hist (Hist.unit x)
      replace hi : e.hist.binSearch L.toArith x = .ok i := hi
      unfold Entropy.update
      rw [hi, Res.ok_bind]
      simp only [hw]
    rw [this]
    exact ⟨fun m => by simp, fun e' h => by cases h⟩
  obtain ⟨i, -, -, ⟨u, -, k⟩ | ⟨hist, -, ⟨-, k⟩ | ⟨-, e', k, k', -⟩⟩⟩ := h.update_cases hL (h.room w hw) (by rw [hw]; simp) x
  · rw [k]; exact ⟨fun m => by simp, fun e' h => by cases h⟩
  · rw [k]; exact ⟨fun m => by simp, fun e' h => by cases h⟩
  · rw [k]
    refine ⟨fun m => by simp, ?_⟩
    intro e'' h'
    injection h' with h'
    subst h'
    exact k'

theorem Near.updateAll (hL : L.toArith = Dbl.arith) {e e' : Entropy Dbl} (h : e.Near) {xs : List Dbl}
    (hu : KML.updateAll (Entropy.update L) e xs = .ok e') : e'.Near := by
  induction xs generalizing e with
  | nil => injection hu with hu; subst hu; exact h
  | cons x xs ih =>
    obtain ⟨e1, h1, h2⟩ := Res.bind_eq_ok.1 hu
    exact ih ((h.update hL x).2 _ h1) h2

end Entropy

/-- **C106** (doubles, any `std::log2`): no update of a `StreamingEntropy`, whatever was observed before, NaN and infinities
included, throws: the checks in `getBin` and `xlogx` never fire. -/
theorem C106_no_throw (L : LArith Dbl) (hL : L.toArith = Dbl.arith) (W n : ℕ) (e e' : Entropy Dbl)
    (h : Entropy.new L W n = .ok e) (xs : List Dbl) (hu : updateAll (Entropy.update L) e xs = .ok e') (x : Dbl) (m : String) :
    e'.update L x ≠ .throw m := by
  exact ((Entropy.Near.updateAll hL (.new h) hu).update hL x).1 m

/-- **C106** (doubles, any `std::log2`, any stream so far): with a window the outcome of an update is decided by the bins alone.
It is undefined if the update of the histogram is, or if the observation is placed after `numBins` bins (`getBin` lets that
index through and returns a bin past the end); otherwise it succeeds. In particular the index evicted from the window is
always the index of a bin. -/
theorem C106_outcome (L : LArith Dbl) (hL : L.toArith = Dbl.arith) (W n : ℕ) (hW : 0 < W) (e e' : Entropy Dbl)
    (h : Entropy.new L W n = .ok e) (xs : List Dbl) (hu : updateAll (Entropy.update L) e xs = .ok e') (x : Dbl) :
    (∃ w, e'.window = some w ∧ ∀ i ∈ w, i < e'.hist.size) ∧ ∃ i, e'.hist.binSearch L.toArith x = .ok i ∧
    ((∃ u, e'.hist.update L.toArith x = .ub u ∧ e'.update L x = .ub u) ∨
     ∃ hist, e'.hist.update L.toArith x = .ok hist ∧
      (i = e'.hist.numBins ∧ e'.update L x = .ub .oob ∨ i < e'.hist.numBins ∧ ∃ e'', e'.update L x = .ok e'')) := by
  have hwin : e'.Near ∧ e'.windowSize = W ∧ e'.window ≠ none := by
    have h0 : e.Near ∧ e.windowSize = W ∧ e.window ≠ none := by
      refine ⟨.new h, ?_⟩
      unfold Entropy.new at h
      simp only [if_pos (by omega : W > 0), if_neg (by omega : ¬ W = 0), Res.ok_bind] at h
      split at h <;>
      · injection h with h
        subst h
        simp
    clear h
    induction xs generalizing e with
    | nil => injection hu with hu; subst hu; exact h0
    | cons y xs ih =>
      obtain ⟨e1, h1, h2⟩ := Res.bind_eq_ok.1 hu
      obtain ⟨i, -, -, ⟨u, -, k⟩ | ⟨hist, -, ⟨-, k⟩ | ⟨-, e2, k, k', k2, k3⟩⟩⟩ :=
        h0.1.update_cases hL (by rw [h0.2.1]; exact hW) h0.2.2 y
      · rw [k] at h1; cases h1
      · rw [k] at h1; cases h1
      · rw [k] at h1
        injection h1 with h1
        subst h1
        exact ih e2 h2 ⟨k', k2.trans h0.2.1, k3⟩
  obtain ⟨hN, hwin⟩ := hwin
  obtain ⟨w, hw⟩ := Option.ne_none_iff_exists'.1 hwin.2
  refine ⟨⟨w, hw, hN.index w hw⟩, ?_⟩
  obtain ⟨i, k1, -, k2⟩ := hN.update_cases hL (by rw [hwin.1]; exact hW) hwin.2 x
  refine ⟨i, k1, ?_⟩
  rcases k2 with k | ⟨hist, k3, k | ⟨k4, e'', k5, -⟩⟩
  · exact .inl k
  · exact .inr ⟨hist, k3, .inl k⟩
  · exact .inr ⟨hist, k3, .inr ⟨k4, e'', k5⟩⟩

/-- **C80**, PyStreamingEntropy (any `std::log2`): every session on an object that was constructed, NaN, infinities, bad items
and undefined updates included, is the C++ program. -/
theorem C80_entropy [Cython] (L : LArith Dbl) (hL : L.toArith = Dbl.arith) (window numBins : PyVal) (e : Entropy Dbl)
    (h : Py.entropy L window numBins = .ok e) (ops : List (Py.GOp Unit)) :
    Py.entropyRun L e ops = cProgram (Entropy.update L) (fun e _ => .ok (e.evaluate, e)) e ops := by
  obtain ⟨W, -, h⟩ := Res.bind_eq_ok.1 h
  obtain ⟨n, -, h⟩ := Res.bind_eq_ok.1 h
  refine session_of_inv _ _ Entropy.Near (fun s x hs => hs.update hL x) ?_ e (.new h) ops
  intro s c r s' hs hm
  injection hm with hm
  injection hm with _ hm
  subst hm
  exact hs

/-- A logarithm that is right where the example needs it. -/
def exampleLog : LArith Dbl := { Dbl.arith with
  log2 := fun x => if x = .fin 1 then .fin 0 else .fin (-1)
  neg := fun x => match x with | .fin q => .fin (-q) | d => d
  ceilNat := fun _ => 0 }

/-- Two bins hold 1 and 2: a third value above them is placed after both and its bin read past the end, other values are
fine. -/
example : (match (do
      let e ← Entropy.new exampleLog 3 2
      updateAll (Entropy.update exampleLog) e [.fin 1, .fin 2]) with
    | .ok e => decide (e.window = some [0, 1]) && decide (e.hist.numBins = 2) &&
        decide (e.hist.binSearch exampleLog.toArith (.fin 3) = .ok 2) && (match e.update exampleLog (.fin 3) with
          | .ub u => decide (u = .oob)
          | _ => false) &&
        (match e.update exampleLog (.fin 1) with
          | .ok e => decide (e.window = some [0, 1, 0])
          | _ => false)
    | _ => false) = true := by
  decide +kernel

/-- A session with a bad item: 1, 2 and a string, then 1. -/
example [C : Cython] : exampleLog.toArith = Dbl.arith ∧ (match (do
      let e ← Py.entropy exampleLog (.int 4) (.int 4)
      Py.entropyRun exampleLog e [.update (.list [.int 1, .int 2, .str "a", .int 5]), .call (.ok ()), .update (.int 1)]) with
    | .ok (outs, e) => decide (outs = [.raised "TypeError", .value (.fin 1), .done]) &&
        decide (e.historyCount = 3)
    | _ => false) = true := by
  constructor
  · rfl
  · rcases C with ⟨_ | _, _ | _⟩ <;> decide +kernel

end KML
