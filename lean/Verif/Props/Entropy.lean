import Verif.Lemmas.Entropy
import Mathlib.Analysis.SpecialFunctions.Log.NegMulLog

/-! # C64–C68: StreamingEntropy and xlogx -/

set_option linter.unusedSectionVars false

namespace KML

open Spec

namespace Entropy

/-- A new `StreamingEntropy` whose histogram has `nb` bins. -/
noncomputable def start (nb W : ℕ) : Entropy ℝ := ⟨W, some [], 0, Hist.new nb W, 0⟩

/-- The number of bins chosen by the constructor. -/
def binsFor (W numBins : ℕ) : ℕ := if numBins = 0 then Nat.clog 2 W + 1 else numBins

theorem binsFor_pos (W numBins : ℕ) : 1 ≤ binsFor W numBins := by
  unfold binsFor; split <;> omega

theorem ceil_logb (W : ℕ) : ⌈Real.logb 2 (W : ℝ)⌉₊ = Nat.clog 2 W := by
  have h := Real.ceil_logb_natCast (b := 2) (r := (W : ℝ)) (Nat.cast_nonneg W)
  rw [Int.clog_natCast] at h
  rw [← Int.toNat_natCast (Nat.clog 2 W), ← h]
  rfl

theorem new_real {W : ℕ} (hW : 1 ≤ W) (numBins : ℕ) :
    Entropy.new realL W numBins = .ok (start (binsFor W numBins) W) := by
  unfold Entropy.new start binsFor
  have hc : realL.ceilNat (realL.log2 (realL.ofNat W)) = Nat.clog 2 W := by
    rw [ofNat_real]; exact ceil_logb W
  rw [lit_zero, if_pos (by omega : W > 0)]
  by_cases h : numBins = 0
  · subst h
    rw [if_pos rfl, if_neg (by omega), if_pos rfl, Res.ok_bind, hc]
    simp
  · rw [if_neg h, if_neg h, Res.ok_bind]

/-! ### Definedness with enough bins -/

theorem enough_run (nb W : ℕ) (hW : 1 ≤ W) (xs : List ℝ) (hd : distinct xs ≤ nb) :
    ∃ e, updateAll (Entropy.update realL) (start nb W) xs = .ok e ∧
      ∃ w, e.window = some w ∧ w.length = min xs.length W ∧ ∀ i ∈ w, i < e.hist.bins.length := by
  induction xs using List.reverseRecOn with
  | nil => exact ⟨_, rfl, [], rfl, by simp, by simp⟩
  | append_singleton xs x ih =>
    obtain ⟨e, he, w, hw, hwl, hwi⟩ := ih ((Hist.distinct_mono (by simp +contextual)).trans hd)
    obtain ⟨hh, hws, -⟩ := run_hist he
    have hh1 : updateAll (Hist.update (exact ℝ)) (Hist.new nb W) xs = .ok e.hist := hh
    -- the histogram update
    obtain ⟨h', hu⟩ := C55_enough_bins_partial (K := ℝ) Rounding.none nb W hW (xs ++ [x]) hd
    have hu' : e.hist.update (exact ℝ) x = .ok h' := by
      rw [updateAll_snoc] at hu
      obtain ⟨h1, e1, e2⟩ := Res.bind_eq_ok.1 hu
      have : updateAll (Hist.update (exact ℝ)) (Hist.new nb W) xs = .ok h1 := e1
      rw [hh1] at this
      injection this with this
      subst this
      exact e2
    obtain ⟨i, b1, b2, hs⟩ := Hist.update_step hu'
    have hc := Hist.Counts.run hh1
    have ho := Hist.Ordered.run (R := Rounding.none) (by omega) hh1
    have h0 : e.hist.total = 0 → e.hist.bins = [] := by
      intro h0
      have : xs = [] := List.length_eq_zero_iff.1 (by have := hc.total; omega)
      subst this
      simp only [updateAll] at hh1
      injection hh1 with hh1
      rw [← hh1]; rfl
    have hlen : b1.length ≤ nb :=
      (ho.placed (R := Rounding.none) h0 hs.placed).length_le.trans hd
    have hl := hs.placed.length
    have hb2 : b2.length = b1.length := by
      rcases hs.decay with ⟨-, e2, -⟩ | ⟨-, -, d, w', -, e2, -⟩
      · rw [e2]
      · exact e2.length.2.2.2 (by rw [hc.numBins]; exact hlen)
    have hbins : h'.bins.length = b1.length := by
      rcases hs.merge with ⟨-, e2⟩ | ⟨h1, -⟩
      · rw [e2, hb2]
      · rw [hc.numBins] at h1; omega
    have hi : i < h'.bins.length := by omega
    rw [updateAll_snoc, he, Res.ok_bind]
    have hsearch : e.hist.binSearch realL.toArith x = .ok i := hs.search
    have hupd : e.hist.update realL.toArith x = .ok h' := hu'
    have hws' : e.windowSize = W := hws
    rcases Nat.lt_or_ge w.length W with hlt | hge
    · rw [update_room hsearch hw (by rw [hws']; exact hlt), hupd, Res.ok_bind,
        increment_real (List.getElem?_eq_getElem hi), Res.ok_bind]
      refine ⟨_, rfl, w ++ [i], rfl, by simp; omega, ?_⟩
      intro j hj
      rcases List.mem_append.1 hj with hj | hj
      · have := hwi j hj
        simp only; omega
      · simp at hj; subst hj; exact hi
    · obtain ⟨front, rest, hfr, hue⟩ := update_evict (L := realL) hsearch hw (by rw [hws']; exact hge)
      have hwne : w ≠ [] := by
        rintro rfl; simp at hge; omega
      have hfw : front ∈ w := by
        rcases w with _ | ⟨a, w⟩
        · exact absurd rfl hwne
        · simp at hfr; rw [← hfr.1]; simp
      have hf := hwi front hfw
      have htot : 0 < e.hist.total := by
        have := hc.total; omega
      rw [hue, decrement_real (List.getElem?_eq_getElem hf) htot, Res.ok_bind]
      simp only
      rw [hupd, Res.ok_bind, increment_real (List.getElem?_eq_getElem hi), Res.ok_bind]
      refine ⟨_, rfl, rest, rfl, ?_, ?_⟩
      · have := congrArg List.length hfr
        simp at this ⊢; omega
      · intro j hj
        have : j ∈ w ++ [i] := by rw [hfr]; simp [hj]
        rcases List.mem_append.1 this with hj | hj
        · have := hwi j hj
          simp only; omega
        · simp at hj; subst hj; exact hi

/-! ### The value while the window fills -/

theorem g_div {c m : ℝ} (hc : 0 ≤ c) (hm : 0 < m) : g (c / m) = (g c - c * Real.logb 2 m) / m := by
  unfold g
  rcases hc.eq_or_lt with rfl | hc
  · simp
  · rw [Real.logb_div hc.ne' hm.ne']
    field_simp

theorem fill_value (nb W : ℕ) (xs : List ℝ) (hn : xs.length ≤ W) (hd : distinct xs ≤ nb) (e : Entropy ℝ)
    (he : updateAll (Entropy.update realL) (start nb W) xs = .ok e) :
    e.entropy = if xs = [] then 0 else
      Real.logb 2 xs.length - Hist.wsum (fun c => g c) e.hist.bins / xs.length := by
  induction xs using List.reverseRecOn generalizing e with
  | nil => simp only [updateAll] at he; injection he with he; subst he; rfl
  | append_singleton xs x ih =>
    rw [List.length_append, List.length_singleton] at hn
    have hdx := (Hist.distinct_mono (ys := xs ++ [x]) (xs := xs) (by simp +contextual)).trans hd
    obtain ⟨e1, he1, w, hw, hwl, -⟩ := enough_run nb W (by omega) xs hdx
    have hval := ih (by omega) hdx e1 he1
    rw [updateAll_snoc, he1, Res.ok_bind] at he
    obtain ⟨hh, hws, -⟩ := run_hist he1
    have hh1 : updateAll (Hist.update (exact ℝ)) (Hist.new nb W) xs = .ok e1.hist := hh
    obtain ⟨hu, -, -⟩ := update_hist he
    have hu' : e1.hist.update (exact ℝ) x = .ok e.hist := hu
    obtain ⟨i, b1, b2, hs⟩ := Hist.update_step hu'
    have hc := Hist.Counts.run hh1
    have hc' := hc.update hu'
    have ho := Hist.Ordered.run (R := Rounding.none) (by omega) hh1
    have h0 : e1.hist.total = 0 → e1.hist.bins = [] := by
      intro h0
      have : xs = [] := List.length_eq_zero_iff.1 (by have := hc.total; omega)
      subst this
      simp only [updateAll] at hh1
      injection hh1 with hh1
      rw [← hh1]; rfl
    have hlen : b1.length ≤ nb :=
      (ho.placed (R := Rounding.none) h0 hs.placed).length_le.trans hd
    have hb2 : b2 = b1 := by
      rcases hs.decay with ⟨-, e2, -⟩ | ⟨h2, -⟩
      · exact e2
      · have := hc.total; have := hc.windowSize; omega
    have hbins : e.hist.bins = b1 := by
      rcases hs.merge with ⟨-, e2⟩ | ⟨h1, -⟩
      · rw [e2, hb2]
      · rw [hb2, hc.numBins] at h1; omega
    obtain ⟨b, hb, hbc, hsum⟩ := hs.placed.wsum h0 (fun c => g c) (by simp [g])
    rw [← hbins] at hb hsum
    have hsearch : e1.hist.binSearch realL.toArith x = .ok i := hs.search
    have hws' : e1.windowSize = W := hws
    rw [update_room hsearch hw (by rw [hws']; omega), hu, Res.ok_bind] at he
    rw [increment_real (e := { e1 with window := some (w ++ [i]), hist := e.hist }) hb, Res.ok_bind] at he
    injection he with he
    have hent := congrArg Entropy.entropy he
    simp only at hent
    rw [← hent]
    have htot : e.hist.total = xs.length + 1 := by rw [hc'.total]; omega
    rw [htot, if_neg (by simp : ¬ xs ++ [x] = [])]
    have hm : (0 : ℝ) < ((xs.length + 1 : ℕ) : ℝ) := by positivity
    rw [g_div (by positivity) hm, g_div (by positivity) hm, List.length_append, List.length_singleton]
    have hcc : (((b.count - 1 : ℕ) : ℝ)) = b.count - 1 := by
      rw [Nat.cast_sub hbc]; simp
    rcases xs.eq_nil_or_concat with rfl | ⟨ys, y, hy⟩
    · have hz : Hist.wsum (fun c => g c) e1.hist.bins = 0 := by
        rw [h0 (by rw [hc.total]; simp)]; simp [Hist.wsum]
      rw [hz] at hsum
      simp only [List.length_nil, zero_add, if_true, Nat.cast_one, Real.logb_one, mul_zero, sub_zero, div_one]
      linarith
    · have hne : xs ≠ [] := by rw [hy]; simp
      have hpos : 0 < xs.length := List.length_pos_iff.2 hne
      rw [if_neg (by omega), hval, if_neg hne]
      have hn0 : (0 : ℝ) < xs.length := by exact_mod_cast hpos
      have hsub : ((xs.length + 1 : ℕ) : ℝ) - 1 = xs.length := by push_cast; ring
      rw [hsub, Real.logb_div hn0.ne' hm.ne', hcc]
      have hsum' : Hist.wsum (fun c => g c) e.hist.bins =
          Hist.wsum (fun c => g c) e1.hist.bins + g b.count - g (((b.count - 1 : ℕ) : ℝ)) := by linarith
      rw [hsum', hcc]
      have hm' : ((xs.length + 1 : ℕ) : ℝ) ≠ 0 := hm.ne'
      have hadd : ((xs.length + 1 : ℕ) : ℝ) = xs.length + 1 := by push_cast; ring
      field_simp
      rw [hadd]
      ring

/-- Entropy of a frequency table. -/
theorem table_entropy {xs : List ℝ} {l : List (Bin ℝ)} (ht : Hist.Table xs l) (hne : xs ≠ [])
    (hsum : Hist.sumCounts l = xs.length) :
    Spec.entropy xs = Real.logb 2 xs.length - Hist.wsum (fun c => g c) l / xs.length := by
  have hpos : (0 : ℝ) < xs.length := by exact_mod_cast List.length_pos_iff.2 hne
  have hperm : (l.map Bin.left).Perm xs.dedup := by
    refine (List.perm_ext_iff_of_nodup ?_ (List.nodup_dedup xs)).2 ?_
    · rw [List.nodup_iff_pairwise_ne, List.pairwise_map]
      exact ht.ord.sorted.imp fun hab => hab.ne
    · intro v
      rw [List.mem_dedup]
      constructor
      · intro hv
        obtain ⟨b, hb, rfl⟩ := List.mem_map.1 hv
        exact (ht.ord.mem b hb).1
      · intro hv
        obtain ⟨b, hb, rfl⟩ := ht.all v hv
        exact List.mem_map.2 ⟨b, hb, rfl⟩
  unfold Spec.entropy
  rw [← (hperm.map _).sum_eq, List.map_map]
  have h1 : (l.map ((fun v => (xs.count v : ℝ) / xs.length * Real.logb 2 ((xs.count v : ℝ) / xs.length)) ∘ Bin.left)) =
      l.map fun b => (g b.count - b.count * Real.logb 2 xs.length) / xs.length := by
    refine List.map_congr_left fun b hb => ?_
    rw [← g_div (Nat.cast_nonneg _) hpos]
    simp only [Function.comp]
    rw [(ht.point b hb).2]
    rfl
  rw [h1]
  have h2 : ∀ l : List (Bin ℝ), (l.map fun b => (g b.count - b.count * Real.logb 2 xs.length) / xs.length).sum =
      (Hist.wsum (fun c => g c) l - (Hist.sumCounts l : ℕ) * Real.logb 2 xs.length) / xs.length := by
    intro l
    induction l with
    | nil => simp [Hist.wsum, Hist.sumCounts]
    | cons b l ih =>
      rw [List.map_cons, List.sum_cons, ih, Hist.sumCounts_cons]
      simp only [Hist.wsum, List.map_cons, List.sum_cons]
      push_cast
      ring
  rw [h2, hsum]
  field_simp
  ring

end Entropy

/-! ## C64 -/

/-- **C64**, any values: while the window fills, with no more different values than bins, `evaluate()` is the entropy of the
fractions of the observations in the bins. -/
theorem C64_binned (W numBins : ℕ) (e0 : Entropy ℝ) (xs : List ℝ) (hne : xs ≠ []) (hn : xs.length ≤ W)
    (hnew : Entropy.new realL W numBins = .ok e0) (hd : distinct xs ≤ e0.hist.numBins) :
    ∃ e, updateAll (Entropy.update realL) e0 xs = .ok e ∧
      e.evaluate = -(e.hist.bins.map fun b =>
        (b.count : ℝ) / xs.length * Real.logb 2 ((b.count : ℝ) / xs.length)).sum := by
  have hpos : 0 < xs.length := List.length_pos_iff.2 hne
  rw [Entropy.new_real (by omega)] at hnew
  injection hnew with hnew
  subst hnew
  obtain ⟨e, he, -⟩ := Entropy.enough_run _ W (by omega) xs hd
  refine ⟨e, he, ?_⟩
  have hv := Entropy.fill_value _ W xs hn hd e he
  rw [if_neg hne] at hv
  unfold Entropy.evaluate
  have hh : updateAll (Hist.update (exact ℝ)) (Hist.new _ W) xs = .ok e.hist := (Entropy.run_hist he).1
  have hc := (Hist.Counts.run hh).sum_eq hn
  have hp : (0 : ℝ) < xs.length := by exact_mod_cast hpos
  rw [hv]
  have h2 : ∀ l : List (Bin ℝ), (l.map fun b =>
        (b.count : ℝ) / xs.length * Real.logb 2 ((b.count : ℝ) / xs.length)).sum =
      (Hist.wsum (fun c => Entropy.g c) l - (Hist.sumCounts l : ℕ) * Real.logb 2 xs.length) / xs.length := by
    intro l
    induction l with
    | nil => simp [Hist.wsum, Hist.sumCounts]
    | cons b l ih =>
      rw [List.map_cons, List.sum_cons, ih, Hist.sumCounts_cons]
      have := Entropy.g_div (Nat.cast_nonneg b.count) hp
      unfold Entropy.g at this
      rw [this]
      simp only [Hist.wsum, List.map_cons, List.sum_cons, Entropy.g]
      push_cast
      ring
  rw [h2, hc]
  field_simp
  ring

/-- **C64**: with separated values that is the Shannon entropy of the observations. -/
theorem C64_shannon (W numBins : ℕ) (e0 : Entropy ℝ) (xs : List ℝ) (hne : xs ≠ []) (hn : xs.length ≤ W)
    (hnew : Entropy.new realL W numBins = .ok e0) (hd : distinct xs ≤ e0.hist.numBins)
    (hsep : Separated (1 / 10000) xs) :
    ∃ e, updateAll (Entropy.update realL) e0 xs = .ok e ∧ e.evaluate = Spec.entropy xs := by
  have hpos : 0 < xs.length := List.length_pos_iff.2 hne
  rw [Entropy.new_real (by omega)] at hnew
  injection hnew with hnew
  subst hnew
  obtain ⟨e, he, -⟩ := Entropy.enough_run _ W (by omega) xs hd
  refine ⟨e, he, ?_⟩
  have hv := Entropy.fill_value _ W xs hn hd e he
  rw [if_neg hne] at hv
  have hh : updateAll (Hist.update (exact ℝ)) (Hist.new _ W) xs = .ok e.hist := (Entropy.run_hist he).1
  have ht : Hist.Table xs e.hist.bins := by
    refine Hist.Table.run (R := Rounding.none) hn hd (fun a ha b hb hab => ?_) hh
    have he : Utils.defaultEps (Rounding.none (K := ℝ)).arith = 1 / 10000 := by
      simp [Utils.defaultEps, Rounding.none, Rounding.arith]
    rw [he]
    exact (less_exact a b _).2 (by have := hsep a ha b hb hab; rwa [mul_comm])
  unfold Entropy.evaluate
  rw [hv, Entropy.table_entropy ht hne ((Hist.Counts.run hh).sum_eq hn)]

/-! ## C65 -/

theorem Spec.count_frac {xs : List ℝ} {v : ℝ} (hv : v ∈ xs) :
    0 < (xs.count v : ℝ) / xs.length ∧ (xs.count v : ℝ) / xs.length ≤ 1 := by
  have h1 : 0 < xs.count v := List.count_pos_iff.2 hv
  have h2 : xs.count v ≤ xs.length := List.count_le_length
  have h3 : (0 : ℝ) < xs.length := by exact_mod_cast h1.trans_le h2
  exact ⟨div_pos (by exact_mod_cast h1) h3, (div_le_one h3).2 (by exact_mod_cast h2)⟩

theorem Spec.sum_frac {xs : List ℝ} (hne : xs ≠ []) :
    (xs.dedup.map fun v => (xs.count v : ℝ) / xs.length).sum = 1 := by
  have h3 : (0 : ℝ) < xs.length := by exact_mod_cast List.length_pos_iff.2 hne
  have h1 : ∀ l : List ℝ, (l.map fun v => (xs.count v : ℝ) / xs.length).sum =
      ((l.map fun v => xs.count v).sum : ℕ) / xs.length := by
    intro l
    induction l with
    | nil => simp
    | cons a l ih => rw [List.map_cons, List.sum_cons, ih, List.map_cons, List.sum_cons]; push_cast; ring
  rw [h1, List.sum_map_count_dedup_eq_length]
  exact div_self h3.ne'

theorem Spec.entropy_nonneg (xs : List ℝ) : 0 ≤ Spec.entropy xs := by
  unfold Spec.entropy
  have key : ∀ l : List ℝ, (∀ y ∈ l, y ≤ 0) → l.sum ≤ 0 := by
    intro l hl
    induction l with
    | nil => simp
    | cons a l ih =>
      rw [List.sum_cons]
      have h1 := hl a (by simp)
      have h2 := ih fun y hy => hl y (by simp [hy])
      linarith
  rw [neg_nonneg]
  refine key _ fun y hy => ?_
  obtain ⟨v, hv, rfl⟩ := List.mem_map.1 hy
  obtain ⟨h1, h2⟩ := Spec.count_frac (List.mem_dedup.1 hv)
  exact mul_nonpos_of_nonneg_of_nonpos h1.le (Real.logb_nonpos (by norm_num) h1.le h2)

theorem Spec.entropy_le {xs : List ℝ} (hne : xs ≠ []) : Spec.entropy xs ≤ Real.logb 2 (distinct xs) := by
  have hk : 0 < distinct xs := by
    obtain ⟨v, hv⟩ := List.exists_mem_of_ne_nil xs hne
    exact List.length_pos_of_mem (List.mem_dedup.2 hv)
  have hk' : (0 : ℝ) < distinct xs := by exact_mod_cast hk
  have hlog2 : (0 : ℝ) < Real.log 2 := Real.log_pos (by norm_num)
  -- each term
  have hterm : ∀ p : ℝ, 0 < p → -(p * Real.logb 2 p) ≤
      p * Real.logb 2 (distinct xs) + (1 / distinct xs - p) / Real.log 2 := by
    intro p hp
    have h1 := Real.log_le_sub_one_of_pos (x := 1 / ((distinct xs : ℝ) * p)) (by positivity)
    rw [Real.log_div one_ne_zero (by positivity), Real.log_one, Real.log_mul hk'.ne' hp.ne'] at h1
    unfold Real.logb
    have h2 : p * (0 - (Real.log (distinct xs) + Real.log p)) ≤ 1 / distinct xs - p := by
      have := mul_le_mul_of_nonneg_left h1 hp.le
      refine this.trans (le_of_eq ?_)
      field_simp
    have h3 : -(p * (Real.log p / Real.log 2)) - p * (Real.log (distinct xs) / Real.log 2) ≤
        (1 / distinct xs - p) / Real.log 2 := by
      rw [le_div_iff₀ hlog2]
      have : (-(p * (Real.log p / Real.log 2)) - p * (Real.log (distinct xs) / Real.log 2)) * Real.log 2 =
          p * (0 - (Real.log (distinct xs) + Real.log p)) := by
        field_simp; ring
      rw [this]; exact h2
    linarith
  have hsum : ∀ l : List ℝ, (∀ v ∈ l, v ∈ xs) →
      -(l.map fun v => (xs.count v : ℝ) / xs.length * Real.logb 2 ((xs.count v : ℝ) / xs.length)).sum ≤
      (l.map fun v => (xs.count v : ℝ) / xs.length).sum * Real.logb 2 (distinct xs) +
        ((l.length : ℝ) * (1 / distinct xs) - (l.map fun v => (xs.count v : ℝ) / xs.length).sum) / Real.log 2 := by
    intro l hl
    induction l with
    | nil => simp
    | cons a l ih =>
      have h1 := ih fun v hv => hl v (by simp [hv])
      have h2 := hterm _ (Spec.count_frac (hl a (by simp))).1
      simp only [List.map_cons, List.sum_cons, List.length_cons]
      push_cast
      rw [neg_add]
      refine (add_le_add h2 h1).trans (le_of_eq ?_)
      ring
  have h := hsum xs.dedup fun v hv => List.mem_dedup.1 hv
  rw [Spec.sum_frac hne] at h
  unfold Spec.entropy
  refine h.trans (le_of_eq ?_)
  have : (xs.dedup.length : ℝ) * (1 / distinct xs) = 1 := by
    show ((distinct xs : ℕ) : ℝ) * (1 / distinct xs) = 1
    field_simp
  rw [this]
  ring

theorem Spec.entropy_uniform {xs : List ℝ} (hne : xs ≠ []) (hu : ∀ v ∈ xs, ∀ w ∈ xs, xs.count v = xs.count w) :
    Spec.entropy xs = Real.logb 2 (distinct xs) := by
  obtain ⟨v, hv⟩ := List.exists_mem_of_ne_nil xs hne
  have hk : 0 < distinct xs := List.length_pos_of_mem (List.mem_dedup.2 hv)
  have hk' : (0 : ℝ) < distinct xs := by exact_mod_cast hk
  have hrep : ∀ f : ℝ → ℝ, xs.dedup.map (fun w => f ((xs.count w : ℝ) / xs.length)) =
      List.replicate (distinct xs) (f ((xs.count v : ℝ) / xs.length)) := by
    intro f
    rw [List.eq_replicate_iff]
    refine ⟨by simp [distinct], ?_⟩
    intro y hy
    obtain ⟨w, hw, rfl⟩ := List.mem_map.1 hy
    rw [hu w (List.mem_dedup.1 hw) v hv]
  have h1 := Spec.sum_frac hne
  rw [hrep fun p => p, List.sum_replicate, nsmul_eq_mul] at h1
  have hp : (xs.count v : ℝ) / xs.length = 1 / distinct xs := by
    rw [eq_div_iff hk'.ne']; linarith
  unfold Spec.entropy
  rw [hrep fun p => p * Real.logb 2 p, List.sum_replicate, nsmul_eq_mul, hp, Real.logb_div one_ne_zero hk'.ne',
    Real.logb_one]
  field_simp
  ring

/-- **C65**: under the conditions of C64 the entropy lies between 0 and the logarithm of the number of values; it is 0
on constant streams and maximal when all values are equally frequent. -/
theorem C65_bounds (W numBins : ℕ) (e0 : Entropy ℝ) (xs : List ℝ) (hne : xs ≠ []) (hn : xs.length ≤ W)
    (hnew : Entropy.new realL W numBins = .ok e0) (hd : distinct xs ≤ e0.hist.numBins)
    (hsep : Separated (1 / 10000) xs) :
    ∃ e, updateAll (Entropy.update realL) e0 xs = .ok e ∧ 0 ≤ e.evaluate ∧
      e.evaluate ≤ Real.logb 2 (distinct xs) ∧
      ((∀ v ∈ xs, ∀ w ∈ xs, v = w) → e.evaluate = 0) ∧
      ((∀ v ∈ xs, ∀ w ∈ xs, xs.count v = xs.count w) → e.evaluate = Real.logb 2 (distinct xs)) := by
  obtain ⟨e, he, hv⟩ := C64_shannon W numBins e0 xs hne hn hnew hd hsep
  refine ⟨e, he, by rw [hv]; exact Spec.entropy_nonneg xs, by rw [hv]; exact Spec.entropy_le hne, ?_, ?_⟩
  · intro hc
    rw [hv, Spec.entropy_uniform hne fun v hv w hw => by rw [hc v hv w hw]]
    have : distinct xs = 1 := by
      obtain ⟨v, hv⟩ := List.exists_mem_of_ne_nil xs hne
      have h1 : xs = List.replicate xs.length v := List.eq_replicate_iff.2 ⟨rfl, fun w hw => hc w hw v hv⟩
      unfold distinct
      rw [h1, List.replicate_dedup (by simpa using hne)]
      rfl
    rw [this]; simp
  · intro hu
    rw [hv, Spec.entropy_uniform hne hu]

/-- 3, 1, 2, 1 has four observations of three separated values: C64 and C65 apply with three bins, and with the
default number of bins. -/
example : (∃ e, updateAll (Entropy.update realL) (Entropy.start 3 4) [3, 1, 2, 1] = .ok e ∧
      e.evaluate = Spec.entropy [3, 1, 2, 1]) ∧
    ∃ e, updateAll (Entropy.update realL) (Entropy.start (Nat.clog 2 4 + 1) 4) [3, 1, 2, 1] = .ok e ∧
      e.evaluate = Spec.entropy [3, 1, 2, 1] := by
  have hd : distinct [(3 : ℝ), 1, 2, 1] ≤ 3 := by
    unfold distinct
    have : [(3 : ℝ), 1, 2, 1].dedup = [3, 2, 1] := by norm_num [List.dedup_cons_of_mem, List.dedup_cons_of_notMem]
    rw [this]; simp
  have hs : Separated (1 / 10000) [(3 : ℝ), 1, 2, 1] := by
    intro a ha b hb hab
    simp at ha hb
    rcases ha with rfl | rfl | rfl | rfl <;> rcases hb with rfl | rfl | rfl | rfl <;>
      first | (exfalso; linarith) | norm_num [abs_of_pos]
  have hc : Nat.clog 2 4 = 2 := by decide +kernel
  exact ⟨C64_shannon 4 3 _ _ (by simp) le_rfl (Entropy.new_real (by norm_num) 3) hd hs,
    C64_shannon 4 0 _ _ (by simp) le_rfl (Entropy.new_real (by norm_num) 0)
      (by show _ ≤ Nat.clog 2 4 + 1; rw [hc]; exact hd) hs⟩

end KML
