import Verif.Props.Entropy

/-! # C66–C68: StreamingEntropy beyond its window or its bins; bins chosen; xlogx -/

set_option linter.unusedSectionVars false

namespace KML

open Spec

namespace Entropy

/-! ### A concrete run -/

theorem run1 : (Hist.new 10 2 : Hist ℝ).update (exact ℝ) 2 = .ok ⟨10, 2, [⟨2, 2, 1⟩], [0, 0, 0], 1, 1, 1⟩ := by
  simp [Hist.update, Hist.add, Hist.binSearch, Hist.binSearchBin, Hist.searchLoop, Hist.place, Hist.decayCounts,
    Hist.new]

theorem run2 : (⟨10, 2, [⟨2, 2, 1⟩], [0, 0, 0], 1, 1, 1⟩ : Hist ℝ).binSearch (exact ℝ) 1 = .ok 0 ∧
    (⟨10, 2, [⟨2, 2, 1⟩], [0, 0, 0], 1, 1, 1⟩ : Hist ℝ).update (exact ℝ) 1 =
    .ok ⟨10, 2, [⟨1, 1, 1⟩, ⟨2, 2, 1⟩], [0, 0, 0, 0], 2, 2, 2⟩ := by
  constructor <;>
  norm_num [Hist.update, Hist.add, Hist.binSearch, Hist.binSearchBin, Hist.searchLoop, Hist.place, Hist.decayCounts,
    Bin.lt, Utils.definitelyLessThan, Utils.larger, Utils.defaultEps, exact]

theorem run3 : (⟨10, 2, [⟨1, 1, 1⟩, ⟨2, 2, 1⟩], [0, 0, 0, 0], 2, 2, 2⟩ : Hist ℝ).binSearch (exact ℝ) 1 = .ok 0 ∧
    (⟨10, 2, [⟨1, 1, 1⟩, ⟨2, 2, 1⟩], [0, 0, 0, 0], 2, 2, 2⟩ : Hist ℝ).update (exact ℝ) 1 =
    .ok ⟨10, 2, [⟨1, 1, 1⟩, ⟨2, 2, 1⟩], [0, 0, 0, 0], 2, 3, 2⟩ := by
  constructor <;>
  norm_num [Hist.update, Hist.add, Hist.binSearch, Hist.binSearchBin, Hist.searchLoop, Hist.place, Hist.decayCounts,
    Bin.lt, Utils.definitelyLessThan, Utils.larger, Utils.defaultEps, exact]

theorem logb_half : Real.logb 2 (1 / 2 : ℝ) = -1 := by
  rw [one_div, Real.logb_inv, Real.logb_self_eq_one (by norm_num)]

/-- 2, 1, 1 with window 2 ends with entropy 1. -/
theorem run_211 : ∃ e, updateAll (Entropy.update realL) (start 10 2) [2, 1, 1] = .ok e ∧ e.evaluate = 1 := by
  have s1 : (start 10 2).update realL 2 = .ok ⟨2, some [0], 1, ⟨10, 2, [⟨2, 2, 1⟩], [0, 0, 0], 1, 1, 1⟩, 0⟩ := by
    have hsearch : (start 10 2).hist.binSearch realL.toArith 2 = .ok 0 := rfl
    have hu : (start 10 2).hist.update realL.toArith 2 = .ok ⟨10, 2, [⟨2, 2, 1⟩], [0, 0, 0], 1, 1, 1⟩ := run1
    rw [update_room (w := []) hsearch rfl (by simp [start]), hu, Res.ok_bind,
      increment_real (b := ⟨2, 2, 1⟩) rfl, Res.ok_bind]
    simp [start, g]
  have s2 : (⟨2, some [0], 1, ⟨10, 2, [⟨2, 2, 1⟩], [0, 0, 0], 1, 1, 1⟩, 0⟩ : Entropy ℝ).update realL 1 =
      .ok ⟨2, some [0, 0], 2, ⟨10, 2, [⟨1, 1, 1⟩, ⟨2, 2, 1⟩], [0, 0, 0, 0], 2, 2, 2⟩, 1⟩ := by
    rw [update_room (w := [0]) (i := 0) run2.1 rfl (by simp)]
    have hu : (⟨10, 2, [⟨2, 2, 1⟩], [0, 0, 0], 1, 1, 1⟩ : Hist ℝ).update realL.toArith 1 =
      .ok ⟨10, 2, [⟨1, 1, 1⟩, ⟨2, 2, 1⟩], [0, 0, 0, 0], 2, 2, 2⟩ := run2.2
    simp only
    rw [hu, Res.ok_bind, increment_real (b := ⟨1, 1, 1⟩) rfl, Res.ok_bind]
    have h1 : ((2 : ℕ) : ℝ) - 1 = 1 := by norm_num
    simp only [g, Nat.cast_one, Nat.cast_ofNat]
    norm_num
    rw [logb_half]
    norm_num
  have s3 : ∃ e, (⟨2, some [0, 0], 2, ⟨10, 2, [⟨1, 1, 1⟩, ⟨2, 2, 1⟩], [0, 0, 0, 0], 2, 2, 2⟩, 1⟩ :
      Entropy ℝ).update realL 1 = .ok e ∧ e.evaluate = 1 := by
    obtain ⟨front, rest, hfr, he⟩ := update_evict (L := realL)
      (e := (⟨2, some [0, 0], 2, ⟨10, 2, [⟨1, 1, 1⟩, ⟨2, 2, 1⟩], [0, 0, 0, 0], 2, 2, 2⟩, 1⟩ : Entropy ℝ))
      (w := [0, 0]) (i := 0) run3.1 rfl (by simp)
    simp at hfr
    obtain ⟨rfl, rfl⟩ := hfr
    rw [he, decrement_real (b := ⟨1, 1, 1⟩) rfl (by norm_num), Res.ok_bind]
    have hu : (⟨10, 2, [⟨1, 1, 1⟩, ⟨2, 2, 1⟩], [0, 0, 0, 0], 2, 2, 2⟩ : Hist ℝ).update realL.toArith 1 =
      .ok ⟨10, 2, [⟨1, 1, 1⟩, ⟨2, 2, 1⟩], [0, 0, 0, 0], 2, 3, 2⟩ := run3.2
    simp only
    rw [hu, Res.ok_bind, increment_real (b := ⟨1, 1, 1⟩) rfl, Res.ok_bind]
    refine ⟨_, rfl, ?_⟩
    simp only [g, Nat.cast_one, Nat.cast_ofNat, evaluate]
    norm_num
    rw [logb_half]
    norm_num
  obtain ⟨e, h3, h4⟩ := s3
  refine ⟨e, ?_, h4⟩
  simp only [updateAll]
  rw [s1, Res.ok_bind, s2, Res.ok_bind, h3, Res.ok_bind]

end Entropy

/-! ## C66 -/

/-- The full property: every update is defined, and with separated values and enough bins the result is the entropy of
the last `W` observations. Both halves are false of the code. -/
def C66_full : Prop := ∀ (W numBins : ℕ) (e0 : Entropy ℝ) (xs : List ℝ), 2 ≤ W → xs ≠ [] →
  Entropy.new realL W numBins = .ok e0 →
  ∃ e, updateAll (Entropy.update realL) e0 xs = .ok e ∧
    (distinct xs ≤ e0.hist.numBins → Separated (1 / 10000) xs → e.evaluate = Spec.entropy (lastN W xs))

/-- **C66** is violated in value: after 2, 1, 1 with window 2 the code says 1 bit; the window is constant. -/
theorem C66_violated : ¬ C66_full := by
  intro h
  obtain ⟨e, h1, h2⟩ := h 2 10 _ [2, 1, 1] le_rfl (by simp) (Entropy.new_real (by norm_num) 10)
  obtain ⟨e', h3, h4⟩ := Entropy.run_211
  have : Entropy.binsFor 2 10 = 10 := rfl
  rw [this, h3] at h1
  injection h1 with h1
  subst h1
  have hd : distinct [(2 : ℝ), 1, 1] ≤ 10 := by
    refine (List.Sublist.length_le (List.dedup_sublist _)).trans (by simp)
  have hs : Separated (1 / 10000) [(2 : ℝ), 1, 1] := by
    intro a ha b hb hab
    simp at ha hb
    rcases ha with rfl | rfl <;> rcases hb with rfl | rfl <;>
      first | (exfalso; linarith) | norm_num [abs_of_pos]
  have h5 := h2 hd hs
  have h6 : lastN 2 [(2 : ℝ), 1, 1] = [1, 1] := rfl
  rw [h4, h6, Spec.entropy_uniform (by simp) (by simp)] at h5
  have h7 : distinct [(1 : ℝ), 1] = 1 := by simp [distinct]
  rw [h7] at h5
  norm_num at h5

/-- **C66** is violated in definedness, in any arithmetic: an observation above all bins of a histogram that has all its
bins is inserted at the end and merged away, and `increment` then reads the bin after the last. -/
theorem C66_new_maximum {F : Type} (L : LArith F) (e : Entropy F) (x : F) (w : List ℕ)
    (hw : e.window = some w) (hl : w.length < e.windowSize) (hfull : e.hist.size = e.hist.numBins)
    (hs : e.hist.binSearch L.toArith x = .ok e.hist.size) :
    e.update L x = .ub .oob := by
  rw [Entropy.update_room hs hw hl]
  rcases Hist.update_cases (A := L.toArith) e.hist x with ⟨h', i, b1, b2, hu, hst⟩ | ⟨hu, -⟩
  · rw [hu, Res.ok_bind]
    have hi : i = e.hist.size := by
      have := hst.search; rw [hs] at this; injection this with this; exact this.symm
    have hb1 : b1.length = e.hist.size + 1 := by
      have h1 := hst.placed.length
      have h2 : e.hist.bins.length = e.hist.size := rfl
      omega
    have hsz : h'.size = e.hist.size := by
      unfold Hist.size at *
      rcases hst.decay with ⟨-, e2, -⟩ | ⟨-, -, d, w', -, e2, -⟩
      · rcases hst.merge with ⟨h3, h4⟩ | ⟨h3, h4⟩
        · rw [e2] at h3; omega
        · have := h4.length; rw [e2] at this; omega
      · have h5 := e2.length
        rcases hst.merge with ⟨h3, h4⟩ | ⟨h3, h4⟩
        · rw [h4]; omega
        · have := h4.length; omega
    have hget : h'.getBin e.hist.size = .ub .oob := (C63_getBin_partial h' _).2.1.2 hsz.symm
    have : ({ e with window := some (w ++ [e.hist.size]), hist := h' } : Entropy F).increment L e.hist.size =
        .ub .oob := by
      unfold Entropy.increment
      simp only [hget]
      rfl
    rw [this]
    rfl
  · rw [hu]; rfl

/-- **C66**: so every increasing stream of separated values is undefined once it outgrows the bins, before the window
is even full. -/
theorem C66_increasing (W numBins : ℕ) (e0 : Entropy ℝ) (xs : List ℝ) (hn : xs.length ≤ W)
    (hnew : Entropy.new realL W numBins = .ok e0) (hlen : e0.hist.numBins < xs.length)
    (hinc : xs.Pairwise (· < ·)) (hsep : Separated (1 / 10000) xs) :
    updateAll (Entropy.update realL) e0 xs = .ub .oob := by
  rw [Entropy.new_real (by omega)] at hnew
  injection hnew with hnew
  subst hnew
  have hb := Entropy.binsFor_pos W numBins
  have hnb : (Entropy.start (Entropy.binsFor W numBins) W).hist.numBins = Entropy.binsFor W numBins := rfl
  rw [hnb] at hlen
  generalize Entropy.binsFor W numBins = nb at *
  obtain ⟨x, hx⟩ : ∃ x, xs[nb]? = some x := ⟨_, List.getElem?_eq_getElem hlen⟩
  obtain ⟨ys, zs, hsplit, hys⟩ := split_getElem? hx
  have hnd : ys.Nodup := by
    have := hinc
    rw [hsplit] at this
    exact (List.pairwise_append.1 this).1.imp fun h => h.ne
  have hdy : distinct ys = nb := by unfold distinct; rw [hnd.dedup, hys]
  have hyl : ys.length < W := by omega
  obtain ⟨e, he, w, hw, hwl, -⟩ := Entropy.enough_run nb W (by omega) ys hdy.le
  have hh : updateAll (Hist.update (exact ℝ)) (Hist.new nb W) ys = .ok e.hist := (Entropy.run_hist he).1
  have hsepy : Separated (1 / 10000) ys := fun a ha b hb => hsep a (by rw [hsplit]; simp [ha]) b
    (by rw [hsplit]; simp [hb])
  have hdl : ∀ a b : ℝ, (1 / 10000) * max |a| |b| < b - a →
      Utils.definitelyLessThan (exact ℝ) a b (Utils.defaultEps (exact ℝ)) = true := by
    intro a b hab
    have he : Utils.defaultEps (exact ℝ) = 1 / 10000 := by simp [Utils.defaultEps, exact]
    rw [he]
    exact (less_exact a b _).2 (by rwa [mul_comm])
  have ht : Hist.Table ys e.hist.bins :=
    Hist.Table.run (R := Rounding.none) hyl.le hdy.le (fun a ha b hb hab => hdl a b (hsepy a ha b hb hab)) hh
  have hc := Hist.Counts.run hh
  -- one bin per value
  have hsize : e.hist.bins.length = nb := by
    refine le_antisymm hc.size ?_
    rw [← hdy]
    have hsub : ys.dedup ⊆ e.hist.bins.map Bin.left := by
      intro v hv
      obtain ⟨b, hb, rfl⟩ := ht.all v (List.mem_dedup.1 hv)
      exact List.mem_map.2 ⟨b, hb, rfl⟩
    have := ((List.nodup_dedup ys).subperm hsub).length_le
    simpa [distinct] using this
  have hsearch : e.hist.binSearch (exact ℝ) x = .ok e.hist.size := by
    have hle : e.hist.bins.Pairwise fun a b => a.left ≤ b.left := ht.ord.sorted.imp fun h => h.le
    rw [C50_insertion_point e.hist x hle, List.filter_eq_self.2]
    · rfl
    · intro b hb
      have hlt : b.left < x := by
        have := hinc
        rw [hsplit] at this
        exact (List.pairwise_append.1 this).2.2 b.left (ht.ord.mem b hb).1 x (by simp)
      have := hsep b.left (by rw [hsplit]; simp [(ht.ord.mem b hb).1]) x (by rw [hsplit]; simp) hlt
      rw [decide_eq_true_eq]
      rwa [mul_comm]
  have hbad := C66_new_maximum realL e x w hw (by rw [(Entropy.run_hist he).2.1]; show w.length < W; omega)
    (by show e.hist.bins.length = e.hist.numBins; rw [hsize, hc.numBins]) hsearch
  rw [hsplit, updateAll_append, he, Res.ok_bind]
  simp only [updateAll]
  rw [hbad]
  rfl

/-- The default histogram of window 4 has three bins: 1, 2, 3, 4 is undefined. -/
example : updateAll (Entropy.update realL) (Entropy.start (Entropy.binsFor 4 0) 4) [1, 2, 3, 4] = .ub .oob := by
  have hb : Entropy.binsFor 4 0 = 3 := by decide +kernel
  refine C66_increasing 4 0 _ _ le_rfl (Entropy.new_real (by norm_num) 0) ?_ ?_ ?_
  · show Entropy.binsFor 4 0 < 4
    rw [hb]; norm_num
  · norm_num
  · intro a ha b hb hab
    simp at ha hb
    rcases ha with rfl | rfl | rfl | rfl <;> rcases hb with rfl | rfl | rfl | rfl <;>
      first | (exfalso; linarith) | norm_num [abs_of_pos]

/-- **C66**, the part that holds: with no more different values than bins, every update of every stream is defined, and the
histogram inside is the one of `StreamingHistogram`. Missing: the value after the window has filled (false,
`C66_violated`) and streams with more values (false, `C66_increasing`). With `W = 1` the definedness holds but
`decrement` divides by zero, which is NaN in floating point. -/
theorem C66_defined_partial (W numBins : ℕ) (hW : 1 ≤ W) (e0 : Entropy ℝ) (xs : List ℝ)
    (hnew : Entropy.new realL W numBins = .ok e0) (hd : distinct xs ≤ e0.hist.numBins) :
    ∃ e, updateAll (Entropy.update realL) e0 xs = .ok e ∧
      updateAll (Hist.update (exact ℝ)) e0.hist xs = .ok e.hist ∧ e.historyCount = xs.length := by
  rw [Entropy.new_real hW] at hnew
  injection hnew with hnew
  subst hnew
  obtain ⟨e, he, -⟩ := Entropy.enough_run _ W hW xs hd
  obtain ⟨h1, -, h3⟩ := Entropy.run_hist he
  exact ⟨e, he, h1, by rw [h3]; simp [Entropy.start]⟩

/-- **C66**, another part that holds: a constant stream has entropy 0 for ever (`W ≥ 2`). -/
theorem C66_constant_partial (W numBins : ℕ) (hW : 2 ≤ W) (e0 : Entropy ℝ) (c : ℝ) (n : ℕ)
    (hnew : Entropy.new realL W numBins = .ok e0) :
    ∃ e, updateAll (Entropy.update realL) e0 (List.replicate n c) = .ok e ∧ e.evaluate = 0 := by
  rw [Entropy.new_real (by omega)] at hnew
  injection hnew with hnew
  subst hnew
  have hb := Entropy.binsFor_pos W numBins
  generalize Entropy.binsFor W numBins = nb at *
  have hdist : ∀ n, distinct (List.replicate n c) ≤ nb := by
    intro n
    refine le_trans ?_ hb
    rcases n with _ | n
    · simp [distinct]
    · simp [distinct, List.replicate_dedup]
  have hbins : ∀ n h, updateAll (Hist.update (exact ℝ)) (Hist.new nb W) (List.replicate n c) = .ok h →
      h.bins = if n = 0 then [] else [⟨c, c, min n W⟩] := by
    intro n h hh
    rcases n with _ | n
    · simp only [List.replicate_zero, updateAll] at hh
      injection hh with hh
      rw [← hh]; rfl
    · obtain ⟨h', e1, e2⟩ := C57_constant_partial (K := ℝ) Rounding.none nb W hb (by omega) c (n + 1) (by omega)
      have : updateAll (Hist.update (exact ℝ)) (Hist.new nb W) (List.replicate (n + 1) c) = .ok h' := e1
      rw [this] at hh
      injection hh with hh
      subst hh
      rw [e2]
      simp [lastN]
      omega
  induction n with
  | zero => exact ⟨_, rfl, rfl⟩
  | succ n ih =>
    obtain ⟨e, he, hv⟩ := ih
    obtain ⟨e2, he2, w2, hw2, hwl2, -⟩ := Entropy.enough_run nb W (by omega) (List.replicate n c) (hdist n)
    rw [he] at he2
    injection he2 with he2
    subst he2
    obtain ⟨e', he', -⟩ := Entropy.enough_run nb W (by omega) (List.replicate (n + 1) c) (hdist _)
    refine ⟨e', he', ?_⟩
    have hh : updateAll (Hist.update (exact ℝ)) (Hist.new nb W) (List.replicate n c) = .ok e.hist :=
      (Entropy.run_hist he).1
    have hh' : updateAll (Hist.update (exact ℝ)) (Hist.new nb W) (List.replicate (n + 1) c) = .ok e'.hist :=
      (Entropy.run_hist he').1
    have hbs := hbins _ _ hh
    have hbs' := hbins _ _ hh'
    rw [if_neg (by omega)] at hbs'
    have hc := Hist.Counts.run hh
    have hc' := Hist.Counts.run hh'
    have ht := hc.total
    have ht' := hc'.total
    rw [List.length_replicate] at ht ht'
    have hws : e.windowSize = W := (Entropy.run_hist he).2.1
    rw [List.replicate_succ', updateAll_snoc, he, Res.ok_bind] at he'
    have hu := (Entropy.update_hist he').1
    have hsearch : e.hist.binSearch realL.toArith c = .ok 0 := by
      have hle : e.hist.bins.Pairwise fun a b => a.left ≤ b.left := by
        rw [hbs]; split <;> simp
      refine (C50_insertion_point e.hist c hle).trans ?_
      rw [hbs]
      split <;> simp
    have hm : (0 : ℝ) < (min (n + 1) W : ℕ) := by
      have : 0 < min (n + 1) W := by omega
      exact_mod_cast this
    have hfin : ∀ e1 : Entropy ℝ, e1.hist = e'.hist → e1.entropy = 0 → ∃ e3, e1.increment realL 0 = .ok e3 ∧
        e3.entropy = 0 := by
      intro e1 hh1 hv1
      have hb1 : e1.hist.bins[0]? = some ⟨c, c, min (n + 1) W⟩ := by rw [hh1, hbs']; rfl
      refine ⟨_, Entropy.increment_real hb1, ?_⟩
      simp only
      rw [hv1, hh1, ht', div_self hm.ne']
      by_cases h1 : min (n + 1) W = 1
      · rw [if_pos h1, h1]; simp [Entropy.g]
      · rw [if_neg h1]
        rw [Nat.cast_sub (by omega)]
        simp only [Entropy.g, Nat.cast_one, Real.logb_one]
        ring
    rcases Nat.lt_or_ge w2.length W with hlt | hge
    · rw [Entropy.update_room hsearch hw2 (by rw [hws]; exact hlt), hu, Res.ok_bind] at he'
      obtain ⟨e3, h3, h4⟩ := hfin { e with window := some (w2 ++ [0]), hist := e'.hist } rfl hv
      rw [h3, Res.ok_bind] at he'
      injection he' with he'
      rw [← he']
      exact h4
    · have hnW : W ≤ n := by rw [hwl2, List.length_replicate] at hge; omega
      obtain ⟨front, rest, hfr, hue⟩ := Entropy.update_evict (L := realL) hsearch hw2 (by rw [hws]; exact hge)
      rw [if_neg (by omega)] at hbs
      have hf : front = 0 := by
        obtain ⟨e5, he5, w5, hw5, -, hw6⟩ := Entropy.enough_run nb W (by omega) (List.replicate n c) (hdist n)
        rw [he] at he5
        injection he5 with he5
        subst he5
        rw [hw2] at hw5
        injection hw5 with hw5
        subst hw5
        rcases w2 with _ | ⟨a, w⟩
        · simp at hge; omega
        · simp at hfr
          have := hw6 a (by simp)
          rw [hbs] at this
          simp at this
          rw [← hfr.1, this]
      subst hf
      have hb0 : e.hist.bins[0]? = some ⟨c, c, min n W⟩ := by rw [hbs]; rfl
      rw [hue, Entropy.decrement_real hb0 (by omega), Res.ok_bind] at he'
      simp only at he'
      rw [hu, Res.ok_bind] at he'
      have hW' : min n W = W := by omega
      have hWr : (2 : ℝ) ≤ W := by exact_mod_cast hW
      have hz : ((e.hist.total : ℝ) - 1 + 1) / ((e.hist.total : ℝ) - 1) *
          (e.entropy + Entropy.g ((((min n W - 1 : ℕ) : ℝ) + 1) / ((e.hist.total : ℝ) - 1 + 1)) -
          Entropy.g (((min n W - 1 : ℕ) : ℝ) / ((e.hist.total : ℝ) - 1 + 1))) +
          Real.logb 2 (((e.hist.total : ℝ) - 1) / ((e.hist.total : ℝ) - 1 + 1)) = 0 := by
        have hv' : e.entropy = 0 := hv
        rw [ht, hW', hv', Nat.cast_sub (by omega)]
        simp only [Nat.cast_one, sub_add_cancel]
        rw [div_self (by linarith)]
        simp only [Entropy.g, Real.logb_one]
        have h1 : (W : ℝ) - 1 ≠ 0 := by intro h; linarith
        have h2 : (W : ℝ) ≠ 0 := by intro h; linarith
        field_simp
        ring
      rw [hz] at he'
      obtain ⟨e3, h3, h4⟩ := hfin ⟨e.windowSize, some rest, e.historyCount, e'.hist, 0⟩ rfl rfl
      rw [h3, Res.ok_bind] at he'
      injection he' with he'
      rw [← he']
      exact h4

/-- Seven equal observations through a window of 2. -/
example : ∃ e, updateAll (Entropy.update realL) (Entropy.start (Entropy.binsFor 2 0) 2) [5, 5, 5, 5, 5, 5, 5] = .ok e ∧
    e.evaluate = 0 :=
  C66_constant_partial 2 0 le_rfl _ 5 7 (Entropy.new_real (by norm_num) 0)

/-- Two different values, three bins, a stream longer than the window. -/
example : ∃ e, updateAll (Entropy.update realL) (Entropy.start 3 2) [2, 1, 1, 2] = .ok e ∧ e.historyCount = 4 := by
  obtain ⟨e, h1, -, h3⟩ := C66_defined_partial 2 3 (by norm_num) _ [2, 1, 1, 2] (Entropy.new_real (by norm_num) 3) (by
    show ([2, 1, 1, 2] : List ℝ).dedup.length ≤ 3
    simp)
  exact ⟨e, h1, h3⟩

/-- Without a window every update is undefined (any arithmetic): `m_window` is null. Asking for the default number of
bins already makes the constructor undefined. -/
theorem C66_no_window {F : Type} (L : LArith F) (numBins : ℕ) :
    Entropy.new L 0 0 = .ub .badConv ∧
    ∀ e0, Entropy.new L 0 numBins = .ok e0 → ∀ x, e0.update L x = .ub .nullDeref := by
  refine ⟨rfl, fun e0 h x => ?_⟩
  obtain ⟨b, rfl⟩ : ∃ b, e0 = ⟨0, none, 0, Hist.new b 0, L.lit 0⟩ := by
    by_cases hb : numBins = 0
    · subst hb; cases h
    · unfold Entropy.new at h
      simp only [if_neg hb, Res.ok_bind] at h
      injection h with h
      exact ⟨numBins, h.symm⟩
  unfold Entropy.update
  obtain ⟨i, hi, -⟩ := C50_defined L.toArith (Hist.new b 0) x
  simp only
  rw [hi, Res.ok_bind]

/-! ## C67 -/

/-- **C67**: with `numBins = 0` the histogram has `ceil(log2 W) + 1` bins (`Nat.clog 2 W` is the least `k` with
`W ≤ 2 ^ k`); otherwise the number given. -/
theorem C67_sturges (W numBins : ℕ) (hW : 1 ≤ W) : ∃ e0, Entropy.new realL W numBins = .ok e0 ∧
    (numBins = 0 → (e0.hist.numBins : ℤ) = ⌈Real.logb 2 W⌉ + 1 ∧ W ≤ 2 ^ (e0.hist.numBins - 1) ∧
      ∀ k, W ≤ 2 ^ k → e0.hist.numBins ≤ k + 1) ∧
    (numBins ≠ 0 → e0.hist.numBins = numBins) ∧ e0.hist.windowSize = W ∧ e0.evaluate = 0 := by
  refine ⟨_, Entropy.new_real hW numBins, ?_, ?_, rfl, rfl⟩
  · intro h
    have hb : (Entropy.start (Entropy.binsFor W numBins) W).hist.numBins = Nat.clog 2 W + 1 := by
      show Entropy.binsFor W numBins = _
      unfold Entropy.binsFor; rw [if_pos h]
    rw [hb]
    refine ⟨?_, ?_, ?_⟩
    · have h := Real.ceil_logb_natCast (b := 2) (r := (W : ℝ)) (Nat.cast_nonneg W)
      rw [Int.clog_natCast] at h
      have h' : ⌈Real.logb 2 (W : ℝ)⌉ = (Nat.clog 2 W : ℤ) := by exact_mod_cast h
      rw [h']; push_cast; ring
    · rw [Nat.add_sub_cancel]; exact Nat.le_pow_clog (by norm_num) W
    · intro k hk
      have := (Nat.clog_le_iff_le_pow (b := 2) (by norm_num)).2 hk
      omega
  · intro h
    show Entropy.binsFor W numBins = _
    unfold Entropy.binsFor; rw [if_neg h]

/-- Window 10 gets five bins. -/
example : (Entropy.start (Entropy.binsFor 10 0) 10).hist.numBins = 5 := by
  show Entropy.binsFor 10 0 = 5
  decide +kernel

/-! ## C68 -/

/-- **C68**: `xlogx` throws exactly for negative numbers and otherwise is the continuous function `x log2 x`, which is 0 at
0 and 1 and at most 0 in between. -/
theorem C68_xlogx (x : ℝ) :
    ((Utils.xlogx realL x).IsThrow ↔ x < 0) ∧
    (0 ≤ x → Utils.xlogx realL x = .ok (x * Real.logb 2 x)) ∧
    Utils.xlogx realL 0 = .ok 0 ∧
    (0 ≤ x → x ≤ 1 → ∃ v, Utils.xlogx realL x = .ok v ∧ v ≤ 0) ∧
    Continuous (fun x : ℝ => x * Real.logb 2 x) := by
  have hnn : ∀ x : ℝ, 0 ≤ x → Utils.xlogx realL x = .ok (x * Real.logb 2 x) := fun x h => Entropy.xlogx_real h
  refine ⟨⟨?_, ?_⟩, hnn x, by rw [hnn 0 le_rfl]; simp, ?_, ?_⟩
  · rintro ⟨m, hm⟩
    by_contra h
    rw [hnn x (not_lt.1 h)] at hm
    cases hm
  · intro h
    refine ⟨"Input item must be >= 0!", ?_⟩
    unfold Utils.xlogx
    rw [if_pos]
    show decide (x < ((0 : ℚ) : ℝ)) = true
    simp [h]
  · intro h0 h1
    exact ⟨_, hnn x h0, mul_nonpos_of_nonneg_of_nonpos h0 (Real.logb_nonpos (by norm_num) h0 h1)⟩
  · have h := Real.continuous_mul_log.div_const (Real.log 2)
    refine h.congr fun x => ?_
    unfold Real.logb
    ring

/-- In any arithmetic `xlogx` throws exactly when the comparison with 0 succeeds. -/
theorem C68_any {F : Type} (L : LArith F) (x : F) :
    (Utils.xlogx L x).IsThrow ↔ L.lt x (L.lit 0) = true := by
  unfold Utils.xlogx
  split
  · rename_i h
    exact ⟨fun _ => h, fun _ => ⟨_, rfl⟩⟩
  · rename_i h
    refine ⟨?_, fun h' => absurd h' h⟩
    rintro ⟨m, hm⟩
    split at hm <;> cases hm

/-- `xlogx (1/2)` is -1/2. -/
example : Utils.xlogx realL (1 / 2) = .ok (-(1 / 2)) := by
  rw [(C68_xlogx (1 / 2)).2.1 (by norm_num), Entropy.logb_half]
  norm_num

end KML
