import Verif.Props.Histogram
import Verif.Spec.Quantile

/-! # C55–C57, C59: histogram streams -/

set_option linter.unusedSectionVars false

namespace KML

open Spec

/-! ## C55 -/

/-- The full property (exact arithmetic). It is false of the code. -/
def C55_full : Prop := ∀ (numBins W : ℕ) (xs : List ℚ), 1 ≤ numBins → 1 ≤ W → (∀ x ∈ xs, |x| ≤ 1000) →
  (updateAll (Hist.update (exact ℚ)) (Hist.new numBins W) xs).IsOk

/-- **C55** is violated: with one bin and window one the stream 1, 2, 1, 2 decrements a bin that is not there;
so do larger histograms. -/
theorem C55_violated : ¬ C55_full ∧
    updateAll (Hist.update (exact ℚ)) (Hist.new 1 1) [1, 2, 1, 2] = .ub .oob ∧
    updateAll (Hist.update (exact ℚ)) (Hist.new 2 1) [1, 2, 3, 1, 1] = .ub .oob ∧
    updateAll (Hist.update (exact ℚ)) (Hist.new 2 2) [1, 2, 3, 1, 1, 1, 1] = .ub .oob ∧
    updateAll (Hist.update b64) (Hist.new 3 1) [2, 3, 1, 4, 1, 1] = .ub .oob := by
  have h1 : updateAll (Hist.update (exact ℚ)) (Hist.new 1 1) [1, 2, 1, 2] = .ub .oob := by decide +kernel
  refine ⟨fun h => ?_, h1, by decide +kernel, by decide +kernel, by decide +kernel⟩
  obtain ⟨v, hv⟩ := h 1 1 [1, 2, 1, 2] le_rfl le_rfl
    (by decide +kernel)
  rw [h1] at hv
  cases hv

/-- Without bins the very first update is undefined. -/
theorem C55_no_bins {K : Type} [Field K] [LinearOrder K] [IsStrictOrderedRing K] [FloorRing K] (W : ℕ)
    (hW : 1 ≤ W) (x : K) (xs : List K) :
    updateAll (Hist.update (exact K)) (Hist.new 0 W) (x :: xs) = .ub .oob := by
  have h1 : (Hist.new 0 W : Hist K).update (exact K) x = .ub .oob := by
    rcases Hist.update_cases (A := exact K) (Hist.new 0 W) x with ⟨h', i, b1, b2, e, hs⟩ | ⟨e, -⟩
    · exfalso
      have hp := hs.placed.length
      have hl : b1.length = 1 := by
        have : (Hist.new 0 W : Hist K).bins.length = 0 := rfl
        omega
      rcases hs.decay with ⟨-, e2, -⟩ | ⟨h2, -⟩
      · rcases hs.merge with ⟨h3, -⟩ | ⟨-, h3⟩
        · rw [e2, hl] at h3
          exact absurd h3 (by simp [Hist.new])
        · have := h3.length
          rw [e2, hl] at this
          omega
      · exact absurd h2 (by simp [Hist.new]; omega)
    · exact e
  simp only [updateAll]
  rw [h1]
  rfl

section Round

variable {K : Type} [Field K] [LinearOrder K] [IsStrictOrderedRing K] [FloorRing K]

/-- **C55**, filling phase (any rounding): with at least one bin, every stream of at most `W` observations whose
differences pass the comparison with `DBL_MAX` is processed. Missing: longer streams that need more than `numBins`
bins. -/
theorem C55_filling_partial (R : Rounding K) (numBins W : ℕ) (hb : 1 ≤ numBins) (xs : List K)
    (hn : xs.length ≤ W)
    (hd : ∀ a ∈ xs, ∀ b ∈ xs, Utils.definitelyLessThan R.arith (R.arith.sub b a) (R.arith.lit dblMax)
      (Utils.defaultEps R.arith) = true) :
    (updateAll (Hist.update R.arith) (Hist.new numBins W) xs).IsOk := by
  induction xs using List.reverseRecOn with
  | nil => exact ⟨_, rfl⟩
  | append_singleton xs x ih =>
    rw [List.length_append, List.length_singleton] at hn
    obtain ⟨h, e⟩ := ih (by omega) fun a ha b hb => hd a (by simp [ha]) b (by simp [hb])
    have hc := Hist.Counts.run e
    have ho := Hist.Ordered.run (by omega) e
    rw [updateAll_snoc, e, Res.ok_bind]
    have ht : h.total < h.windowSize := by have := hc.total; have := hc.windowSize; omega
    rcases Hist.update_cases (A := R.arith) h x with ⟨h', i, b1, b2, e', -⟩ | ⟨-, i, b1, -, hp, hbad⟩
    · exact ⟨h', e'⟩
    · exfalso
      rcases hbad with ⟨h1, -⟩ | ⟨b2, h1, h2, ⟨rfl, -⟩ | ⟨h3, -⟩⟩
      · omega
      · have h0 : h.total = 0 → h.bins = [] := by
          intro h0
          have : xs = [] := List.length_eq_zero_iff.1 (by have := hc.total; omega)
          subst this
          simp only [updateAll] at e
          injection e with e
          subst e; rfl
        have ho' := ho.placed h0 hp
        rw [hc.numBins] at h1
        obtain ⟨a, b, l, rfl⟩ : ∃ a b l, b2 = a :: b :: l := by
          match b2, h1 with
          | [], h1 => simp at h1
          | [_], h1 => simp at h1; omega
          | a :: b :: l, _ => exact ⟨a, b, l, rfl⟩
        have := Hist.mergeIndex_lt (A := R.arith) (a := a) (b := b) (l := l)
          (hd _ (ho'.mem a (by simp)).2 _ (ho'.mem b (by simp)).2)
        omega
      · omega

/-- The values needed of a rounding near `DBL_MAX`. -/
structure Hist.Big (R : Rounding K) : Prop where
  whole : R.rnd (dblMax : K) = dblMax
  half : R.rnd ((dblMax : K) / 2) = dblMax / 2
  neg : R.rnd (-((dblMax : K) / 2)) = -(dblMax / 2)
  eighth : R.rnd ((dblMax : K) / 8) = dblMax / 8
  eps : R.rnd (1 / 10000) ≤ 1 / 8

theorem Hist.Big.diff {R : Rounding K} (hR : Hist.Big R) {a b : K} (ha : |a| ≤ dblMax / 4) (hb : |b| ≤ dblMax / 4) :
    Utils.definitelyLessThan R.arith (R.arith.sub b a) (R.arith.lit dblMax) (Utils.defaultEps R.arith) = true := by
  have hM : (0 : K) < dblMax := by
    have : (0 : ℚ) < dblMax := by norm_num [dblMax]
    exact_mod_cast this
  rw [less_iff]
  have hl : R.arith.lit dblMax = (dblMax : K) := hR.whole
  rw [hl]
  have hs : R.arith.sub b a = R.rnd (b - a) := rfl
  rw [hs]
  obtain ⟨a1, a2⟩ := abs_le.1 ha
  obtain ⟨b1, b2⟩ := abs_le.1 hb
  have h1 : R.rnd (b - a) ≤ dblMax / 2 := by
    rw [← hR.half]; exact R.mono (by linarith)
  have h2 : -(dblMax / 2) ≤ R.rnd (b - a) := by
    rw [← hR.neg]; exact R.mono (by linarith)
  have h3 : max |R.rnd (b - a)| |(dblMax : K)| = dblMax := by
    rw [abs_of_pos hM, max_eq_right]
    exact (abs_le.2 ⟨h2, h1⟩).trans (by linarith)
  rw [h3]
  have h4 : Utils.defaultEps R.arith ≤ 1 / 8 := by
    have := hR.eps
    simpa [Utils.defaultEps, Rounding.arith] using this
  have h5 : R.rnd ((dblMax : K) * Utils.defaultEps R.arith) ≤ dblMax / 8 := by
    rw [← hR.eighth]
    refine R.mono ?_
    have := mul_le_mul_of_nonneg_left h4 hM.le
    linarith
  have h6 : (dblMax : K) / 2 ≤ R.rnd (dblMax - R.rnd (b - a)) := by
    rw [← hR.half]; exact R.mono (by linarith)
  linarith

/-- **C55**, filling phase, in exact arithmetic and in IEEE binary64: values up to `DBL_MAX / 4` in size. -/
theorem C55_filling_exact_partial (numBins W : ℕ) (hb : 1 ≤ numBins) (xs : List K) (hn : xs.length ≤ W)
    (hx : ∀ x ∈ xs, |x| ≤ dblMax / 4) :
    (updateAll (Hist.update (exact K)) (Hist.new numBins W) xs).IsOk := by
  have hR : Hist.Big (Rounding.none (K := K)) := ⟨rfl, rfl, rfl, rfl, by simp [Rounding.none]; norm_num⟩
  exact C55_filling_partial Rounding.none numBins W hb xs hn fun a ha b hb => hR.diff (hx a ha) (hx b hb)

theorem C55_filling_b64_partial (numBins W : ℕ) (hb : 1 ≤ numBins) (xs : List ℚ) (hn : xs.length ≤ W)
    (hx : ∀ x ∈ xs, |x| ≤ dblMax / 4) :
    (updateAll (Hist.update b64) (Hist.new numBins W) xs).IsOk := by
  have hR : Hist.Big R64 := ⟨by decide +kernel, by decide +kernel, by decide +kernel, by decide +kernel,
    by decide +kernel⟩
  rw [b64_eq]
  exact C55_filling_partial R64 numBins W hb xs hn fun a ha b hb =>
    hR.diff (by simpa using hx a ha) (by simpa using hx b hb)

/-- Five observations in two bins, window five. -/
example : (updateAll (Hist.update b64) (Hist.new 2 5) [3, 1, 4, 1, 5]).IsOk :=
  C55_filling_b64_partial 2 5 (by norm_num) _ le_rfl (by decide +kernel)

/-- The window holds indices of bins, once there is a bin. -/
theorem Hist.enough_run (R : Rounding K) (numBins W : ℕ) (hW : 1 ≤ W) (xs : List K) (hd : distinct xs ≤ numBins) :
    ∃ h, updateAll (Hist.update R.arith) (Hist.new numBins W) xs = .ok h ∧
      ∀ w ∈ h.window, w < max 1 h.bins.length := by
  induction xs using List.reverseRecOn with
  | nil =>
    refine ⟨_, rfl, ?_⟩
    intro w hw
    have : w = 0 := by simp [Hist.new] at hw; exact hw.2
    omega
  | append_singleton xs x ih =>
    obtain ⟨h, e, hw⟩ := ih ((Hist.distinct_mono (by simp +contextual)).trans hd)
    have hc := Hist.Counts.run e
    have ho := Hist.Ordered.run (by omega) e
    have h0 : h.total = 0 → h.bins = [] := by
      intro h0
      have : xs = [] := List.length_eq_zero_iff.1 (by have := hc.total; omega)
      subst this
      simp only [updateAll] at e
      injection e with e
      subst e; rfl
    rw [updateAll_snoc, e, Res.ok_bind]
    have hwin : ∀ {i : ℕ} {b1 : List (Bin K)}, Hist.Placed R.arith x (h.total = 0) i h.bins b1 →
        ∀ w ∈ h.window ++ [i], w < b1.length := by
      intro i b1 hp w hmem
      have hl := hp.length
      have hpos : 0 < b1.length := by omega
      rcases List.mem_append.1 hmem with hmem | hmem
      · have := hw w hmem; omega
      · simp at hmem; omega
    rcases Hist.update_cases (A := R.arith) h x with ⟨h', i, b1, b2, e', hs⟩ | ⟨-, i, b1, -, hp, hbad⟩
    · refine ⟨h', e', ?_⟩
      have hlen : b1.length ≤ numBins := (ho.placed h0 hs.placed).length_le.trans hd
      have hmem := hwin hs.placed
      have hb2 : b2.length = b1.length := by
        rcases hs.decay with ⟨-, e2, -⟩ | ⟨-, -, d, w, -, e2, -⟩
        · rw [e2]
        · exact e2.length.2.2.2 (by rw [hc.numBins]; exact hlen)
      have hno : ¬ h.numBins < b2.length := by rw [hc.numBins]; omega
      have hbins : h'.bins = b2 := by
        rcases hs.merge with ⟨-, e2⟩ | ⟨h1, -⟩
        · exact e2
        · exact absurd h1 hno
      rw [hbins, hb2]
      intro w hw'
      rcases hs.decay with ⟨-, -, -, w', rfl, e2⟩ | ⟨-, -, d, w', e2, -, e3⟩
      · rw [e2, if_neg hno] at hw'
        have := hmem w hw'; omega
      · rw [e3, if_neg hno] at hw'
        have := hmem w (by rw [e2]; exact List.mem_cons_of_mem _ hw'); omega
    · exfalso
      have hlen : b1.length ≤ numBins := (ho.placed h0 hp).length_le.trans hd
      have hmem := hwin hp
      rcases hbad with ⟨-, d, w, e1, h2⟩ | ⟨b2, h1, -, ⟨rfl, -⟩ | ⟨-, d, w, -, h2⟩⟩
      · have := hmem d (by rw [e1]; simp); omega
      · rw [hc.numBins] at h1; omega
      · have := h2.length; rw [hc.numBins] at h1; omega

/-- **C55**, enough bins (any rounding): if the stream takes at most `numBins` different values, no update is
undefined, whatever its length. -/
theorem C55_enough_bins_partial (R : Rounding K) (numBins W : ℕ) (hW : 1 ≤ W) (xs : List K)
    (hd : distinct xs ≤ numBins) : (updateAll (Hist.update R.arith) (Hist.new numBins W) xs).IsOk := by
  obtain ⟨h, e, -⟩ := Hist.enough_run R numBins W hW xs hd
  exact ⟨h, e⟩

/-- Twelve observations of three values, window two. -/
example : (updateAll (Hist.update b64) (Hist.new 3 2) [3, 1, 2, 2, 1, 3, 1, 3, 2, 2, 2, 1]).IsOk := by
  rw [b64_eq]
  exact C55_enough_bins_partial R64 3 2 (by norm_num) _ (by decide +kernel)

/-! ## C56 -/

theorem Hist.Table.run {R : Rounding K} {nb W : ℕ} {xs : List K} {h : Hist K} (hn : xs.length ≤ W)
    (hd : distinct xs ≤ nb)
    (hsep : ∀ a ∈ xs, ∀ b ∈ xs, a < b →
      Utils.definitelyLessThan R.arith a b (Utils.defaultEps R.arith) = true)
    (hu : updateAll (Hist.update R.arith) (Hist.new nb W) xs = .ok h) : Hist.Table xs h.bins := by
  induction xs using List.reverseRecOn generalizing h with
  | nil =>
    simp only [updateAll] at hu
    injection hu with hu
    subst hu
    exact ⟨Hist.Ordered.nil, by simp [Hist.new], by simp⟩
  | append_singleton xs x ih =>
    rw [updateAll_snoc] at hu
    obtain ⟨h1, e1, e2⟩ := Res.bind_eq_ok.1 hu
    rw [List.length_append, List.length_singleton] at hn
    have hc := Hist.Counts.run e1
    have ht := ih (by omega) ((Hist.distinct_mono (by simp +contextual)).trans hd)
      (fun a ha b hb => hsep a (by simp [ha]) b (by simp [hb])) e1
    obtain ⟨i, b1, b2, hs⟩ := Hist.update_step e2
    have h0 : h1.total = 0 → h1.bins = [] := by
      intro h0
      have : xs = [] := List.length_eq_zero_iff.1 (by have := hc.total; omega)
      subst this
      simp only [updateAll] at e1
      injection e1 with e1
      subst e1; rfl
    have htab := ht.placed h0 (fun b hb hlt => hsep _ (by simp [(ht.ord.mem b hb).1]) x (by simp) hlt) hs.placed
    have hlen := htab.ord.length_le.trans hd
    have hwin := hc.windowSize
    have htot := hc.total
    have hb2 : b2 = b1 := by
      rcases hs.decay with ⟨-, e, -⟩ | ⟨h2, -⟩
      · exact e
      · omega
    rcases hs.merge with ⟨-, e⟩ | ⟨h2, -⟩
    · rw [e, hb2]; exact htab
    · rw [hb2, hc.numBins] at h2; omega

/-- **C56** (any rounding): at most `W` observations of at most `numBins` values, which the tolerant comparison
tells apart, are processed and give the exact frequency table. -/
theorem C56_frequency_table_rounded (R : Rounding K) (numBins W : ℕ) (xs : List K) (hn : xs.length ≤ W)
    (hd : distinct xs ≤ numBins)
    (hsep : ∀ a ∈ xs, ∀ b ∈ xs, a < b →
      Utils.definitelyLessThan R.arith a b (Utils.defaultEps R.arith) = true) :
    ∃ h, updateAll (Hist.update R.arith) (Hist.new numBins W) xs = .ok h ∧
      IsFreqTable (h.bins.map fun b => (b.left, b.count)) xs ∧ ∀ b ∈ h.bins, b.right = b.left := by
  rcases xs with _ | ⟨x, xs⟩
  · exact ⟨_, rfl, ⟨by simp [Hist.new], by simp [Hist.new]⟩, by simp [Hist.new]⟩
  obtain ⟨h, e, -⟩ := Hist.enough_run R numBins W (by simp at hn; omega) (x :: xs) hd
  have ht := Hist.Table.run hn hd hsep e
  refine ⟨h, e, ⟨?_, ?_⟩, fun b hb => (ht.point b hb).1⟩
  · rw [List.map_map, List.pairwise_map]
    exact ht.ord.sorted
  · intro v c
    constructor
    · intro hm
      obtain ⟨b, hb, hbe⟩ := List.mem_map.1 hm
      injection hbe with h1 h2
      subst h1 h2
      exact ⟨(ht.ord.mem b hb).1, (ht.point b hb).2⟩
    · rintro ⟨hv, rfl⟩
      obtain ⟨b, hb, rfl⟩ := ht.all v hv
      exact List.mem_map.2 ⟨b, hb, by rw [(ht.point b hb).2]⟩

/-- **C56** (exact arithmetic): values separated by more than the relative tolerance 0.0001. -/
theorem C56_frequency_table (numBins W : ℕ) (xs : List K) (hn : xs.length ≤ W)
    (hd : distinct xs ≤ numBins) (hsep : Separated (1 / 10000 : K) xs) :
    ∃ h, updateAll (Hist.update (exact K)) (Hist.new numBins W) xs = .ok h ∧
      IsFreqTable (h.bins.map fun b => (b.left, b.count)) xs ∧ ∀ b ∈ h.bins, b.right = b.left := by
  refine C56_frequency_table_rounded Rounding.none numBins W xs hn hd fun a ha b hb hab => ?_
  have he : Utils.defaultEps (Rounding.none (K := K)).arith = 1 / 10000 := by
    simp [Utils.defaultEps, Rounding.none, Rounding.arith]
  rw [he]
  exact (less_exact a b _).2 (by have := hsep a ha b hb hab; rwa [mul_comm])

/-- Six observations of three values. -/
example : ∃ h, updateAll (Hist.update (exact ℚ)) (Hist.new 3 6) [3, 1, 2, 1, 1, 3] = .ok h ∧
    IsFreqTable (h.bins.map fun b => (b.left, b.count)) [3, 1, 2, 1, 1, 3] ∧ ∀ b ∈ h.bins, b.right = b.left :=
  C56_frequency_table 3 6 _ (by simp) (by decide +kernel) (by unfold Separated; decide +kernel)

/-! ## C57 -/

/-- The full property (exact arithmetic): with enough bins for separated values, only the last `W` observations
count. It is false of the code. -/
def C57_full : Prop := ∀ (numBins W : ℕ) (xs : List ℚ) (h : Hist ℚ), 1 ≤ W → distinct xs ≤ numBins →
  Separated (1 / 10000) xs → updateAll (Hist.update (exact ℚ)) (Hist.new numBins W) xs = .ok h →
  IsFreqTable ((h.bins.filter fun b => b.count ≠ 0).map fun b => (b.left, b.count)) (lastN W xs)

/-- **C57** is violated: after 3, 2, 1 with window 2 the histogram holds 1 zero times, not 3. -/
theorem C57_violated : ¬ C57_full := by
  intro h
  have h1 := h 10 2 [3, 2, 1] ⟨10, 2, [⟨1, 1, 0⟩, ⟨2, 2, 1⟩, ⟨3, 3, 1⟩], [0, 0, 0, 0], 2, 3, 3⟩ (by norm_num)
    (by decide +kernel) (by unfold Separated; decide +kernel) (by decide +kernel)
  have h2 : ((3 : ℚ), 1) ∈ (([⟨1, 1, 0⟩, ⟨2, 2, 1⟩, ⟨3, 3, 1⟩] : List (Bin ℚ)).filter fun b =>
    b.count ≠ 0).map fun b => (b.left, b.count) := by decide +kernel
  have h3 := ((h1.2 3 1).1 h2).1
  have h4 : ¬ (3 : ℚ) ∈ lastN 2 [3, 2, 1] := by decide +kernel
  exact h4 h3

/-- The part of **C57** that holds (any rounding): constant streams. Missing: everything else. -/
theorem C57_constant_partial (R : Rounding K) (numBins W : ℕ) (hb : 1 ≤ numBins) (hW : 1 ≤ W) (c : K) (n : ℕ)
    (hn : 1 ≤ n) : ∃ h, updateAll (Hist.update R.arith) (Hist.new numBins W) (List.replicate n c) = .ok h ∧
      h.bins = [⟨c, c, (lastN W (List.replicate n c)).length⟩] := by
  have hdist : ∀ n, distinct (List.replicate n c) ≤ numBins := by
    intro n
    refine le_trans ?_ hb
    rcases n with _ | n
    · simp [distinct]
    · simp [distinct, List.replicate_dedup]
  have key : ∀ n, 1 ≤ n → ∃ h, updateAll (Hist.update R.arith) (Hist.new numBins W) (List.replicate n c) = .ok h ∧
      h.bins = [⟨c, c, min n W⟩] := by
    intro n hn
    induction n with
    | zero => omega
    | succ n ih =>
      obtain ⟨h', e', -⟩ := Hist.enough_run R numBins W hW (List.replicate (n + 1) c) (hdist _)
      refine ⟨h', e', ?_⟩
      have ho' := Hist.Ordered.run (by omega) e'
      rw [List.replicate_succ', updateAll_snoc] at e'
      obtain ⟨h, e1, e2⟩ := Res.bind_eq_ok.1 e'
      have hc := Hist.Counts.run e1
      have hc' := hc.update e2
      rw [List.length_replicate] at hc hc'
      -- one bin
      have hl1 : h'.bins.length ≤ 1 := by
        refine ho'.length_le.trans ?_
        simp [distinct, List.replicate_dedup]
      obtain ⟨i, b1, b2, hs⟩ := Hist.update_step e2
      have hcount : ∀ {h : Hist K}, h.bins.length ≤ 1 → Hist.Ordered (List.replicate (n + 1) c) h.bins →
          ∀ k, 0 < k → Hist.sumCounts h.bins = k → h.bins = [⟨c, c, k⟩] := by
        intro h hl ho k hk hsum
        match hb : h.bins, hl with
        | [], _ => rw [hb] at hsum; simp [Hist.sumCounts] at hsum; omega
        | [b], _ =>
          rw [hb] at hsum ho
          have := ho.mem b (by simp)
          simp [List.mem_replicate] at this
          simp [Hist.sumCounts] at hsum
          obtain ⟨l, r, k'⟩ := b
          simp_all
        | _ :: _ :: _, hl => simp at hl
      refine hcount hl1 ho' _ (by omega) ?_
      rcases Nat.lt_or_ge n W with hlt | hge
      · rw [hc'.sum_eq (by omega)]; omega
      · obtain ⟨h2, e3, e4⟩ := ih (by omega)
        rw [e1] at e3
        injection e3 with e3
        subst e3
        -- full window: one bin with count W; one more, one less
        have hp := hs.placed
        have hsumb := hp.sum
        rw [e4] at hsumb
        have hb1 : b1 = [⟨c, c, W + 1⟩] := by
          have hob : Hist.Ordered (List.replicate (n + 1) c) b1 := by
            have := (Hist.Ordered.run (by omega) e1).placed (x := c) (t0 := h.total = 0)
              (fun h0 => by have := hc.total; omega) hp
            rwa [← List.replicate_succ'] at this
          have hlb : b1.length ≤ 1 := by
            refine hob.length_le.trans ?_
            simp [distinct, List.replicate_dedup]
          refine hcount (h := { h with bins := b1 }) hlb hob _ (by omega) ?_
          simp only
          rw [hsumb]
          simp [Hist.sumCounts]; omega
        rcases hs.decay with ⟨h5, -⟩ | ⟨-, -, d, w, -, hev, -⟩
        · have := hc.total; have := hc.windowSize; omega
        · have hb2 : Hist.sumCounts b2 = W := by
            obtain ⟨b, g1, g2⟩ := hev.sum_eq
            rw [hb1] at g1 g2
            have hd0 : d = 0 := by have := hev.length.1; rw [hb1] at this; simpa using this
            subst hd0
            simp at g1
            subst g1
            simp [Hist.sumCounts] at g2 ⊢
            omega
          rcases hs.merge with ⟨-, e5⟩ | ⟨-, e5⟩
          · rw [e5, hb2]; omega
          · rw [e5.sum, hb2]; omega
  obtain ⟨h, e1, e2⟩ := key n hn
  refine ⟨h, e1, ?_⟩
  rw [e2]
  have : (lastN W (List.replicate n c)).length = min n W := by simp [lastN]; omega
  rw [this]

/-- Five equal observations, window three. -/
example : (do
    let h ← updateAll (Hist.update b64) (Hist.new 2 3) [7, 7, 7, 7, 7]
    .ok h.bins) = .ok [⟨7, 7, 3⟩] := by
  decide +kernel

end Round

/-- Why **C57** fails (any arithmetic): the index queue starts with `W` zeros and is as long as `W` plus the number of
observations held, so an index is taken out `2 W` updates after it went in, and the first `W` evictions take
from bin 0. -/
theorem C57_window_lag {F : Type} (A : Arith F) (numBins W : ℕ) (xs : List F) (h : Hist F)
    (hu : updateAll (Hist.update A) (Hist.new numBins W) xs = .ok h) :
    h.window.length = W + min xs.length W := by
  induction xs using List.reverseRecOn generalizing h with
  | nil => simp only [updateAll] at hu; injection hu with hu; subst hu; simp [Hist.new]
  | append_singleton xs x ih =>
    rw [updateAll_snoc] at hu
    obtain ⟨h1, e1, e2⟩ := Res.bind_eq_ok.1 hu
    have h2 := ih h1 e1
    have hc := Hist.Counts.run e1
    have hwin := hc.windowSize
    have htot := hc.total
    obtain ⟨i, b1, b2, hs⟩ := Hist.update_step e2
    rw [List.length_append, List.length_singleton]
    rcases hs.decay with ⟨h3, -, -, w, rfl, e⟩ | ⟨h3, -, d, w, e3, -, e⟩
    · rw [e]; split <;> simp <;> omega
    · have := congrArg List.length e3
      rw [e]; split <;> simp at this ⊢ <;> omega

/-- Three observations, window 2: four indices are kept. -/
example : updateAll (Hist.update (exact ℚ)) (Hist.new 10 2) [3, 2, 1] =
    .ok ⟨10, 2, [⟨1, 1, 0⟩, ⟨2, 2, 1⟩, ⟨3, 3, 1⟩], [0, 0, 0, 0], 2, 3, 3⟩ := by
  decide +kernel

/-! ## C59 -/

section Round

variable {K : Type} [Field K] [LinearOrder K] [IsStrictOrderedRing K] [FloorRing K]

theorem Hist.Below.run {R : Rounding K} {nb W : ℕ} {xs : List K} {h : Hist K} (hn : xs.length ≤ W)
    (hu : updateAll (Hist.update R.arith) (Hist.new nb W) xs = .ok h) : Hist.Below xs 0 h.bins := by
  induction xs using List.reverseRecOn generalizing h with
  | nil => simp only [updateAll] at hu; injection hu with hu; subst hu; trivial
  | append_singleton xs x ih =>
    rw [updateAll_snoc] at hu
    obtain ⟨h1, e1, e2⟩ := Res.bind_eq_ok.1 hu
    rw [List.length_append, List.length_singleton] at hn
    have hc := Hist.Counts.run e1
    have hwin := hc.windowSize
    have htot := hc.total
    have hbel := ih (by omega) e1
    have ho := Hist.Ordered.run (by omega) e1
    have h0 : h1.total = 0 → h1.bins = [] := by
      intro h0
      have : xs = [] := List.length_eq_zero_iff.1 (by omega)
      subst this
      simp only [updateAll] at e1
      injection e1 with e1
      subst e1; rfl
    obtain ⟨i, b1, b2, hs⟩ := Hist.update_step e2
    have hb1 := Hist.Below.placed ho hbel (hc.sum_eq (by omega)) h0 hs.placed
    have hb2 : b2 = b1 := by
      rcases hs.decay with ⟨-, e, -⟩ | ⟨h2, -⟩
      · exact e
      · omega
    rcases hs.merge with ⟨-, e⟩ | ⟨-, e⟩
    · rw [e, hb2]; exact hb1
    · rw [hb2] at e
      exact Hist.Below.merged (ho.placed h0 hs.placed) hb1 e

/-- **C59** (any rounding): while the window fills, the first left edge is the minimum, and the observations below the
left edge of a bin are no more than the counts of the bins before it. -/
theorem C59_minimum (R : Rounding K) (numBins W : ℕ) (xs : List K) (h : Hist K) (hn : xs.length ≤ W)
    (hu : updateAll (Hist.update R.arith) (Hist.new numBins W) xs = .ok h) :
    (xs ≠ [] → ∃ b, h.bins.head? = some b ∧ IsMin xs b.left) ∧
    ∀ i b, h.bins[i]? = some b → below xs b.left ≤ ((h.bins.take i).map Bin.count).sum := by
  have hb := Hist.Below.run hn hu
  have hget : ∀ i b, h.bins[i]? = some b → below xs b.left ≤ ((h.bins.take i).map Bin.count).sum := by
    intro i b hi
    have := hb.get hi
    simpa using this
  refine ⟨fun hne => ?_, hget⟩
  have hpos : 0 < xs.length := List.length_pos_iff.2 hne
  have hsum := (Hist.Counts.run hu).sum_eq hn
  have ho := Hist.Ordered.run (by omega) hu
  rcases hl : h.bins with _ | ⟨b, l⟩
  · rw [hl] at hsum; simp [Hist.sumCounts] at hsum; omega
  · refine ⟨b, rfl, (ho.mem b (by rw [hl]; simp)).1, ?_⟩
    have h0 := hget 0 b (by rw [hl]; rfl)
    simp at h0
    intro x hx
    by_contra hlt
    have : x ∈ xs.filter (· < b.left) := by simp [hx, not_le.1 hlt]
    unfold below at h0
    rw [List.length_eq_zero_iff.1 h0] at this
    simp at this

/-- Six observations in three bins. -/
example : (do
    let h ← updateAll (Hist.update b64) (Hist.new 3 10) [5, 1, 4, 2, 3, 1]
    .ok h.bins) = .ok [⟨1, 3, 4⟩, ⟨4, 4, 1⟩, ⟨5, 5, 1⟩] := by
  decide +kernel

end Round

end KML
