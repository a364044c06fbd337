import Verif.Props.HistQueries

/-!
# C62: what a histogram does after `reset`; C58 past the window

`reset` empties the bins and the window but keeps the total count.
-/

namespace KML

open Spec

namespace Hist

section

variable {F : Type} {A : Arith F}

theorem Evicted.split {nb i : ℕ} {l l' : List (Bin F)} (h : Evicted nb i l l') :
    ∃ l1 b l2, l = l1 ++ b :: l2 ∧ l1.length = i ∧
      ((l.length ≤ nb ∨ b.count - 1 ≠ 0) ∧ l' = l1 ++ decBin b :: l2 ∨
        nb < l.length ∧ b.count - 1 = 0 ∧ l' = l1 ++ l2) := by
  cases h with
  | keep l1 l2 b h => exact ⟨l1, b, l2, rfl, rfl, Or.inl ⟨by rwa [decBin_count] at h, rfl⟩⟩
  | erase l1 l2 b h1 h2 => exact ⟨l1, b, l2, rfl, rfl, Or.inr ⟨h1, by rwa [decBin_count] at h2, rfl⟩⟩

/-- An observation that is placed and evicted at once leaves at most an empty bin behind. -/
theorem placed_evicted {x : F} {i nb : ℕ} {l b1 b2 : List (Bin F)} (hp : Placed A x False i l b1)
    (he : Evicted nb i b1 b2) (hl : l.length ≤ nb) (h0 : ∀ b ∈ l, b.count = 0) :
    b2.length ≤ nb ∧ ∀ b ∈ b2, b ∈ l ∨ b = ⟨x, x, 0⟩ := by
  obtain ⟨l1, b, l2, e1, e2, h⟩ := he.split
  have du : decBin (unit x) = ⟨x, x, 0⟩ := rfl
  cases hp with
  | push _ _ _ hpush =>
    have hi : l.length = i := by
      rcases hpush with hpush | hpush
      · exact hpush.elim
      · exact hpush.1.symm
    obtain ⟨rfl, e⟩ := List.append_inj e1 (hi.trans e2.symm)
    injection e with ea eb
    subst ea; subst eb
    rcases h with ⟨hk, rfl⟩ | ⟨hk, -, rfl⟩
    · rw [du]
      refine ⟨?_, by simp⟩
      rcases hk with hk | hk
      · simpa using hk
      · exact absurd rfl hk
    · rw [List.append_nil]; exact ⟨hl, fun a ha => Or.inl ha⟩
  | inc k1 k2 c g1 g2 g3 =>
    obtain ⟨rfl, e⟩ := List.append_inj e1 e2.symm
    injection e with ea eb
    subst eb
    have hc : c.count = 0 := h0 c (by simp)
    have hd : decBin b = c := by
      rw [← ea]; simp [decBin]
    rcases h with ⟨hk, rfl⟩ | ⟨hk, -, rfl⟩
    · rw [hd]; exact ⟨hl, fun a ha => Or.inl ha⟩
    · simp at hk hl; omega
  | insert k1 k2 c g1 g2 g3 =>
    obtain ⟨rfl, e⟩ := List.append_inj e1 e2.symm
    injection e with ea eb
    subst ea; subst eb
    rcases h with ⟨hk, rfl⟩ | ⟨hk, -, rfl⟩
    · rw [du]
      refine ⟨?_, fun a ha => ?_⟩
      · rcases hk with hk | hk
        · simpa using hk
        · exact absurd rfl hk
      · simp only [List.mem_append, List.mem_cons] at ha ⊢
        tauto
    · exact ⟨hl, fun a ha => Or.inl ha⟩

/-- A histogram that was full when it was reset and has been given `ys` since. -/
structure Blind (nb W : ℕ) (ys : List F) (h : Hist F) : Prop where
  numBins : h.numBins = nb
  windowSize : h.windowSize = W
  total : h.total = W
  window : h.window = []
  size : h.bins.length ≤ nb
  bins : ∀ b ∈ h.bins, b.count = 0 ∧ b.left = b.right ∧ b.left ∈ ys
  hist : h.historyCount = ys.length

theorem Blind.update {nb W : ℕ} (hW : 1 ≤ W) {ys : List F} {h : Hist F} (hb : Blind nb W ys h) (x : F) :
    ∃ h', h.update A x = .ok h' ∧ Blind nb W (ys ++ [x]) h' := by
  have ht : (h.total = 0) = False := by rw [hb.total]; simp; omega
  have h0 : ∀ b ∈ h.bins, b.count = 0 := fun b hb' => (hb.bins b hb').1
  rcases update_cases (A := A) h x with ⟨h', i, b1, b2, e, s⟩ | ⟨-, i, b1, -, hp, hc⟩
  · refine ⟨h', e, ?_⟩
    have hp := s.placed
    rw [ht] at hp
    rcases s.decay with ⟨hlt, -⟩ | ⟨-, e1, d, w, e2, e3, e4⟩
    · rw [hb.total, hb.windowSize] at hlt; omega
    · rw [hb.window] at e2
      injection e2 with ea eb
      subst ea; subst eb
      rw [hb.numBins] at e3
      obtain ⟨g1, g2⟩ := placed_evicted hp e3 hb.size h0
      have hm : h'.bins = b2 := by
        rcases s.merge with hm | hm
        · exact hm.2
        · rw [hb.numBins] at hm; omega
      refine ⟨s.numBins.trans hb.numBins, s.windowSize.trans hb.windowSize, e1.trans hb.total, ?_, hm ▸ g1, ?_, ?_⟩
      · rw [e4]; simp
      · intro b hb'
        rw [hm] at hb'
        rcases g2 b hb' with h | h
        · obtain ⟨k1, k2, k3⟩ := hb.bins b h
          exact ⟨k1, k2, List.mem_append_left _ k3⟩
        · rw [h]; simp
      · rw [s.count, hb.hist]; simp
  · rw [ht] at hp
    exfalso
    rcases hc with ⟨-, d, w, e2, hd⟩ | ⟨b2, hn, -, hc⟩
    · rw [hb.window] at e2
      injection e2 with ea eb
      subst ea
      have := hp.length.1
      omega
    · rcases hc with ⟨-, hlt⟩ | ⟨-, d, w, e2, he⟩
      · rw [hb.total, hb.windowSize] at hlt; omega
      · rw [hb.window] at e2
        injection e2 with ea eb
        subst ea
        have := (placed_evicted hp (hb.numBins ▸ he) (hb.size) h0).1
        rw [hb.numBins] at hn
        omega

theorem Blind.run {nb W : ℕ} (hW : 1 ≤ W) {h : Hist F} (hb : Blind nb W [] h) (ys : List F) :
    ∃ h', updateAll (Hist.update A) h ys = .ok h' ∧ Blind nb W ys h' := by
  induction ys using List.reverseRecOn with
  | nil => exact ⟨h, rfl, hb⟩
  | append_singleton ys x ih =>
    obtain ⟨h1, e1, b1⟩ := ih
    obtain ⟨h2, e2, b2⟩ := b1.update (A := A) hW x
    exact ⟨h2, by rw [updateAll_snoc, e1, Res.ok_bind, e2], b2⟩

theorem Blind.sum {nb W : ℕ} {ys : List F} {h : Hist F} (hb : Blind nb W ys h) : (h.bins.map Bin.count).sum = 0 := by
  rw [List.sum_eq_zero]
  intro c hc
  obtain ⟨b, hb', rfl⟩ := List.mem_map.1 hc
  exact (hb.bins b hb').1

theorem Blind.of_reset {numBins W : ℕ} {xs : List F} {h : Hist F} (hn : W ≤ xs.length)
    (hu : updateAll (Hist.update A) (Hist.new numBins W) xs = .ok h) : Blind numBins W [] h.reset := by
  have hc := Hist.Counts.run hu
  refine ⟨hc.numBins, hc.windowSize, ?_, rfl, Nat.zero_le _, fun b hb => ?_, rfl⟩
  · show h.total = W
    rw [hc.total]; omega
  · simp [Hist.reset] at hb

end

end Hist

/-- **C62**, what goes wrong (any arithmetic): once the window has been full, a histogram that is reset never counts
anything again. Every update is defined, but each observation is evicted as soon as it is placed: all bins stay at
count 0 (each is a single observed value), the total still is the window size, and `binCounts` always throws. -/
theorem C62_full_window {F : Type} (A : Arith F) (numBins W : ℕ) (hW : 1 ≤ W) (xs ys : List F) (h : Hist F)
    (hn : W ≤ xs.length) (hu : updateAll (Hist.update A) (Hist.new numBins W) xs = .ok h) :
    ∃ h', updateAll (Hist.update A) h.reset ys = .ok h' ∧ h'.historyCount = ys.length ∧ h'.size ≤ numBins ∧
      (∀ b ∈ h'.bins, b.count = 0 ∧ b.left = b.right ∧ b.left ∈ ys) ∧ h'.getTotalCount = W ∧
      h'.binCounts = .throw "Counts are somehow out of sync!" := by
  obtain ⟨h', e, hb⟩ := (Hist.Blind.of_reset hn hu).run (A := A) hW ys
  refine ⟨h', e, hb.hist, hb.size, hb.bins, hb.total, ?_⟩
  unfold Hist.binCounts
  simp only
  rw [hb.sum, hb.total, if_pos (by omega)]

/-- Window 2: two observations, a reset and five more, of which two have a bin. -/
example : (do
    let h ← updateAll (Hist.update b64) (Hist.new 2 2) [9, 8]
    let h ← updateAll (Hist.update b64) h.reset [3, 1, 3, 2, 1]
    .ok (h.bins, h.total)) = .ok ([⟨1, 1, 0⟩, ⟨3, 3, 0⟩], 2) := by
  decide +kernel

/-- **C62**, what goes wrong before the window is full (any arithmetic): after a reset of a histogram that has been
given something, `binCounts` throws for as long as the observations from before and after fit the window: the total is
that of both, the bins count the later ones only. -/
theorem C62_out_of_sync {F : Type} (A : Arith F) (numBins W : ℕ) (xs ys : List F) (h h' : Hist F)
    (hx : xs ≠ []) (hn : xs.length + ys.length ≤ W) (hu : updateAll (Hist.update A) (Hist.new numBins W) xs = .ok h)
    (hu' : updateAll (Hist.update A) h.reset ys = .ok h') :
    h'.getTotalCount = xs.length + ys.length ∧ (h'.bins.map Bin.count).sum = ys.length ∧
      h'.binCounts = .throw "Counts are somehow out of sync!" := by
  have hs : (h'.bins.map Bin.count).sum = ys.length := by
    have hb := C62_bins_partial A numBins W xs ys h hn hu
    rw [hu'] at hb
    cases hf : updateAll (Hist.update A) (Hist.new numBins W) ys with
    | ok f =>
      rw [hf] at hb
      simp only [Res.mapOk, Res.ok.injEq, Prod.mk.injEq] at hb
      rw [hb.1]
      exact (Hist.Counts.run hf).sum_eq (by omega)
    | throw m => rw [hf] at hb; simp [Res.mapOk] at hb
    | ub u => rw [hf] at hb; simp [Res.mapOk] at hb
  have key : ∀ (zs : List F) (k : Hist F), xs.length + zs.length ≤ W →
      updateAll (Hist.update A) h.reset zs = .ok k → k.total = xs.length + zs.length ∧ k.windowSize = W := by
    intro zs
    induction zs using List.reverseRecOn with
    | nil =>
      intro k hz e
      injection e with e
      subst e
      have hc := Hist.Counts.run hu
      exact ⟨by show h.total = _; rw [hc.total]; simp at hz ⊢; omega, hc.windowSize⟩
    | append_singleton zs z ih =>
      intro k hz e
      rw [updateAll_snoc] at e
      obtain ⟨k1, e1, e⟩ := Res.bind_eq_ok.1 e
      simp only [List.length_append, List.length_singleton] at hz ⊢
      obtain ⟨t1, t2⟩ := ih k1 (by omega) e1
      obtain ⟨i, b1, b2, s⟩ := Hist.update_step e
      refine ⟨?_, s.windowSize.trans t2⟩
      rcases s.decay with ⟨-, -, h3, -⟩ | ⟨h3, -⟩ <;> omega
  have ht := (key ys h' hn hu').1
  have : 0 < xs.length := List.length_pos_iff.2 hx
  refine ⟨ht, hs, ?_⟩
  unfold Hist.binCounts
  simp only
  rw [hs, ht, if_pos (by omega)]

/-- Two observations, a reset, three more. -/
example : (do
    let h ← updateAll (Hist.update b64) (Hist.new 2 5) [9, 8]
    let h ← updateAll (Hist.update b64) h.reset [3, 1, 2]
    .ok (h.bins, h.total)) = .ok ([⟨1, 2, 2⟩, ⟨3, 3, 1⟩], 5) := by
  decide +kernel

section Exact

variable {K : Type} [Field K] [LinearOrder K] [IsStrictOrderedRing K] [FloorRing K]

/-- **C62**, what goes wrong (exact arithmetic): after the reset of a full histogram the density is 0 everywhere and
every quantile above 0 is undefined, whatever has been observed since. -/
theorem C62_full_window_quantile (numBins W : ℕ) (hW : 1 ≤ W) (xs ys : List K) (h h' : Hist K) (q : K)
    (hn : W ≤ xs.length) (hu : updateAll (Hist.update (exact K)) (Hist.new numBins W) xs = .ok h)
    (hu' : updateAll (Hist.update (exact K)) h.reset ys = .ok h') (q0 : 0 < q) (q1 : q ≤ 1) :
    (∀ p ∈ h'.pdf (exact K) true false, p = 0) ∧ h'.quantile (exact K) q = .ub .oob := by
  obtain ⟨h2, e, hb⟩ := (Hist.Blind.of_reset hn hu).run (A := exact K) hW ys
  rw [hu'] at e
  injection e with e
  subst e
  have hpdf : h'.pdf (exact K) true false = List.replicate h'.bins.length 0 := by
    rw [List.eq_replicate_iff]
    refine ⟨by simp [Hist.pdf], fun p hp => ?_⟩
    simp only [Hist.pdf, List.mem_map, Bool.not_true, Bool.false_eq_true, if_false] at hp
    obtain ⟨b, hb', rfl⟩ := hp
    rw [(hb.bins b hb').1]
    simp [exact, Arith.ofNat]
  have hcdf : h'.cdf (exact K) true = List.replicate h'.bins.length 0 := by
    unfold Hist.cdf
    rw [hpdf]
    have hf : ∀ n, Hist.partialSumFrom (exact K) 0 (List.replicate n 0) = List.replicate n 0 := by
      intro n
      induction n with
      | zero => rfl
      | succ n ih =>
        rw [List.replicate_succ]
        show (0 + 0 : K) :: Hist.partialSumFrom (exact K) (0 + 0) _ = _
        rw [add_zero, ih]
    cases h'.bins.length with
    | zero => rfl
    | succ n =>
      rw [List.replicate_succ]
      show (0 : K) :: _ = _
      rw [hf]
  refine ⟨fun p hp => ?_, ?_⟩
  · rw [hpdf] at hp; exact (List.mem_replicate.1 hp).2
  · unfold Hist.quantile
    have hr : ((exact K).lt q ((exact K).lit 0) || (exact K).lt ((exact K).lit 1) q) = false := by
      simp [exact, q0.le, q1]
    have hlb : Hist.lowerBound (exact K) (List.replicate h'.bins.length 0) q = h'.bins.length := by
      unfold Hist.lowerBound
      have hlt : (exact K).lt 0 q = true := by simp [exact, q0]
      rw [List.takeWhile_replicate, if_pos hlt, List.length_replicate]
    rw [hr, hcdf]
    simp only [Bool.false_eq_true, if_false]
    unfold Hist.quantileIndex
    simp only [hlb]
    rw [List.getElem?_eq_none (by simp)]
    simp only [List.length_replicate]
    by_cases hz : h'.bins.length = 0
    · rw [if_pos hz]; rfl
    · rw [if_neg hz]
      simp only [Res.ok_bind]
      have hlt : h'.bins.length - 1 < h'.bins.length := by omega
      rw [List.getElem?_eq_getElem (by simpa using hlt), List.getElem?_eq_getElem hlt]
      simp only [List.getElem_replicate]
      have he : Utils.essentiallyEqual (exact K) q 0 (Utils.defaultEps (exact K)) = false := by
        simp [Utils.essentiallyEqual, Utils.smaller, exact, q0, abs_of_pos q0]
      rw [he]
      simp only [Bool.false_eq_true, if_false]
      rw [List.getElem?_eq_none (by simp; omega)]

/-- Window 2: the median of five observations after the reset. -/
example : (do
    let h ← updateAll (Hist.update (exact ℚ)) (Hist.new 2 2) [9, 8]
    let h ← updateAll (Hist.update (exact ℚ)) h.reset [3, 1, 3, 2, 1]
    h.quantile (exact ℚ) (1 / 2)) = .ub .oob := by
  decide +kernel

/-- **C58**, past the window (exact arithmetic): however many observations there have been, `pdf` adds up to the sum of
the bin counts divided by the total count. That is at least 1, and 1 exactly when `binCounts` does not throw; the cdf
is non-decreasing and ends there. -/
theorem C58_any_length (numBins W : ℕ) (hW : 1 ≤ W) (xs : List K) (h : Hist K) (hne : xs ≠ [])
    (hu : updateAll (Hist.update (exact K)) (Hist.new numBins W) xs = .ok h) :
    (h.pdf (exact K) true false).sum = ((h.bins.map Bin.count).sum : K) / (min xs.length W : ℕ) ∧
      1 ≤ (h.pdf (exact K) true false).sum ∧
      ((h.pdf (exact K) true false).sum = 1 ↔ ∃ cs, h.binCounts = .ok cs) ∧
      (∀ p ∈ h.pdf (exact K) true false, 0 ≤ p) ∧
      IsRunningSum (h.pdf (exact K) true false) (h.cdf (exact K) true) ∧
      (h.cdf (exact K) true).getLast? = some (h.pdf (exact K) true false).sum := by
  have hc := Hist.Counts.run hu
  have hpos : 0 < xs.length := List.length_pos_iff.2 hne
  have ht : 0 < h.total := by rw [hc.total]; omega
  have ht' : (0 : K) < h.total := by exact_mod_cast ht
  have hsum : (h.pdf (exact K) true false).sum = (Hist.sumCounts h.bins : ℕ) / (h.total : K) := by
    rw [Hist.pdf_exact, Hist.sum_div]
  have hge : (h.total : K) ≤ (Hist.sumCounts h.bins : ℕ) := by exact_mod_cast hc.sum_ge
  have h1 : 1 ≤ (h.pdf (exact K) true false).sum := by rw [hsum, le_div_iff₀ ht']; linarith
  have hrun : IsRunningSum (h.pdf (exact K) true false) (h.cdf (exact K) true) := Hist.partialSum_spec _
  refine ⟨?_, h1, ?_, ?_, hrun, ?_⟩
  · rw [hsum, hc.total]
    simp only [Hist.sumCounts]
  · rw [hsum, div_eq_one_iff_eq ht'.ne']
    unfold Hist.binCounts
    simp only
    constructor
    · intro e
      have e : Hist.sumCounts h.bins = h.total := by exact_mod_cast e
      exact ⟨_, if_neg (not_not.2 e)⟩
    · rintro ⟨cs, e⟩
      split at e
      · cases e
      · rename_i hs
        have hs := not_not.1 hs
        exact_mod_cast hs
  · intro p hp
    rw [Hist.pdf_exact] at hp
    obtain ⟨b, -, rfl⟩ := List.mem_map.1 hp
    positivity
  · have hne' : 0 < (h.pdf (exact K) true false).length := by
      rcases hp : h.pdf (exact K) true false with _ | ⟨p, ps⟩
      · rw [hp] at h1
        simp only [List.sum_nil] at h1
        linarith
      · simp
    obtain ⟨hl, hget⟩ := hrun
    rw [List.getLast?_eq_getElem?]
    have hi : (h.cdf (exact K) true).length - 1 < (h.cdf (exact K) true).length := by omega
    rw [List.getElem?_eq_getElem hi, hget _ _ (List.getElem?_eq_getElem hi), hl, List.take_of_length_le (by omega)]

/-- Window 2: after 1, 2, 3, 4, 4 the cdf goes up to 2. -/
example : (do
    let h ← updateAll (Hist.update (exact ℚ)) (Hist.new 10 2) [1, 2, 3, 4, 4]
    .ok (h.pdf (exact ℚ) true false, h.cdf (exact ℚ) true)) = .ok ([0, 1 / 2, 1 / 2, 1], [0, 1 / 2, 1, 2]) := by
  decide +kernel

end Exact

end KML
