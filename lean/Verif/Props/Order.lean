import Verif.Props.DoubleMean
import Verif.Props.HistStreams
import Verif.Props.Entropy
import Verif.Props.Variance
import Verif.Props.Mean
import Verif.Props.Fame
import Mathlib.Algebra.BigOperators.Group.List.Basic

/-! # C103: the order of the observations does not matter -/

namespace KML

set_option linter.unusedSectionVars false

open Spec

/-- **C103**, full statement: while nothing has left the window, the mean and the variance (in `b64`), the median estimate,
the quantile estimate and the histogram (in exact arithmetic) of a stream in another order are the same. -/
def C103_full : Prop := ∀ xs ys : List ℚ, (∀ x ∈ xs, rnd64 x = x) → xs.Perm ys →
  (∀ m m', updateAll (Mean.update b64) (Mean.new b64 0) xs = .ok m → updateAll (Mean.update b64) (Mean.new b64 0) ys = .ok m' →
    m.evaluate b64 = m'.evaluate b64) ∧
  (∀ m m', updateAll (Variance.update b64) (Variance.new b64 0) xs = .ok m →
    updateAll (Variance.update b64) (Variance.new b64 0) ys = .ok m' → m.evaluate b64 = m'.evaluate b64) ∧
  (∀ s e f, Fame.new (exact ℚ) s e = .ok f →
    (xs.foldl (Fame.update (exact ℚ)) f).evaluate = (ys.foldl (Fame.update (exact ℚ)) f).evaluate) ∧
  (∀ q p, P2.new (exact ℚ) q = .ok p → ∀ r r' v v' p1 p2, updateAll (P2.update (exact ℚ)) p xs = .ok r →
    updateAll (P2.update (exact ℚ)) p ys = .ok r' → r.evaluate (exact ℚ) = .ok (v, p1) → r'.evaluate (exact ℚ) = .ok (v', p2) →
    v = v') ∧
  ∀ numBins h h', 1 ≤ numBins → updateAll (Hist.update (exact ℚ)) (Hist.new numBins xs.length) xs = .ok h →
    updateAll (Hist.update (exact ℚ)) (Hist.new numBins xs.length) ys = .ok h' → h.bins = h'.bins

/-- **C103** is violated by the mean of doubles: `2 ^ 53 + 1 + 1` is rounded to `2 ^ 53`. -/
theorem C103_violated : ¬ C103_full := by
  intro h
  have e1 : updateAll (Mean.update b64) (Mean.new b64 0) [2 ^ 53, 1, 1] = .ok ⟨0, none, 3, 2 ^ 53⟩ := by decide +kernel
  have e2 : updateAll (Mean.update b64) (Mean.new b64 0) [1, 1, 2 ^ 53] = .ok ⟨0, none, 3, 2 ^ 53 + 2⟩ := by decide +kernel
  have := (h [2 ^ 53, 1, 1] [1, 1, 2 ^ 53] (by decide +kernel) (by decide +kernel)).1 _ _ e1 e2
  revert this
  decide +kernel

/-- **C103** is violated by WindowedFAME. -/
theorem C103_fame_violated : ([0, 1, 2].foldl (Fame.update (exact ℚ)) ⟨0, 1, 0, 0⟩).evaluate = 3 / 2 ∧
    ([2, 1, 0].foldl (Fame.update (exact ℚ)) ⟨0, 1, 0, 0⟩).evaluate = 1 / 2 := by
  constructor <;> decide +kernel

/-- **C103** is violated by StreamingP2Quantile at the sixth observation. -/
theorem C103_quantile_violated :
    (do let p ← updateAll (P2.update (exact ℚ)) (P2.blank (1 / 2)) [1, 2, 3, 4, 5, 6]
        let r ← p.evaluate (exact ℚ)
        .ok r.1) = .ok 3 ∧
    (do let p ← updateAll (P2.update (exact ℚ)) (P2.blank (1 / 2)) [1, 2, 4, 5, 6, 3]
        let r ← p.evaluate (exact ℚ)
        .ok r.1) = .ok 4 := by
  constructor <;> decide +kernel

/-- **C103** is violated by StreamingHistogram: three different histograms of the same four observations. -/
theorem C103_histogram_violated :
    (do let h ← updateAll (Hist.update (exact ℚ)) (Hist.new 2 4) [1, 2, 3, 4]
        .ok h.bins) = .ok [⟨1, 3, 3⟩, ⟨4, 4, 1⟩] ∧
    (do let h ← updateAll (Hist.update (exact ℚ)) (Hist.new 2 4) [1, 3, 4, 2]
        .ok h.bins) = .ok [⟨1, 2, 2⟩, ⟨3, 4, 2⟩] ∧
    (do let h ← updateAll (Hist.update (exact ℚ)) (Hist.new 2 4) [2, 3, 4, 1]
        .ok h.bins) = .ok [⟨1, 1, 1⟩, ⟨2, 4, 3⟩] := by
  refine ⟨?_, ?_, ?_⟩ <;> decide +kernel

section

variable {K : Type} [Field K] [LinearOrder K] [IsStrictOrderedRing K] [FloorRing K]

theorem mean_perm {xs ys : List K} (h : xs.Perm ys) : mean xs = mean ys := by
  unfold mean; rw [h.sum_eq, h.length_eq]

theorem variance_perm {xs ys : List K} (h : xs.Perm ys) : variance xs = variance ys := by
  unfold variance
  rw [mean_perm h]
  exact mean_perm (h.map _)

/-- A window that has not lost anything. -/
theorem windowOf_all {α : Type} {W : ℕ} {xs : List α} (h : W = 0 ∨ xs.length ≤ W) : windowOf W xs = xs := by
  unfold windowOf lastN
  split
  · rfl
  · rw [show xs.length - W = 0 by omega, List.drop_zero]

/-- **C103**, StreamingMean and StreamingVariance in exact arithmetic. -/
theorem C103_moments_partial (W : ℕ) (xs ys : List K) (hW : W = 0 ∨ xs.length ≤ W) (h : xs.Perm ys) :
    (∃ m m', updateAll (Mean.update (exact K)) (Mean.new (exact K) W) xs = .ok m ∧
      updateAll (Mean.update (exact K)) (Mean.new (exact K) W) ys = .ok m' ∧ m.evaluate (exact K) = m'.evaluate (exact K)) ∧
    ∃ v v', updateAll (Variance.update (exact K)) (Variance.new (exact K) W) xs = .ok v ∧
      updateAll (Variance.update (exact K)) (Variance.new (exact K) W) ys = .ok v' ∧
      v.evaluate (exact K) = v'.evaluate (exact K) := by
  have hW' : W = 0 ∨ ys.length ≤ W := by rw [← h.length_eq]; exact hW
  constructor
  · obtain ⟨m, h1, h2⟩ := C15_mean_of_window W xs
    obtain ⟨m', h3, h4⟩ := C15_mean_of_window W ys
    exact ⟨m, m', h1, h3, by rw [h2, h4, windowOf_all hW, windowOf_all hW', mean_perm h]⟩
  · obtain ⟨m, h1, h2⟩ := C18_population_variance W xs
    obtain ⟨m', h3, h4⟩ := C18_population_variance W ys
    exact ⟨m, m', h1, h3, by rw [h2, h4, windowOf_all hW, windowOf_all hW', variance_perm h]⟩

/-- **C103**, StreamingP2Quantile up to the fifth observation, in any rounding arithmetic. -/
theorem C103_quantile_partial (R : Rounding K) (q : K) (hq : R.rnd (4 * q) = 4 * q) (p : P2 K) (hp : P2.new R.arith q = .ok p)
    (xs ys : List K) (hne : xs ≠ []) (h5 : xs.length ≤ 5) (hx : ∀ x ∈ xs, R.rnd x = x) (h : xs.Perm ys) :
    ∃ r r' v p1 p2, updateAll (P2.update R.arith) p xs = .ok r ∧ updateAll (P2.update R.arith) p ys = .ok r' ∧
      r.evaluate R.arith = .ok (v, p1) ∧ r'.evaluate R.arith = .ok (v, p2) := by
  have hl : xs.length = ys.length := h.length_eq
  have hy : ∀ y ∈ ys, R.rnd y = y := fun y hy => hx y (h.mem_iff.2 hy)
  rcases Nat.lt_or_ge xs.length 5 with h5 | h5'
  · obtain ⟨r, v, p1, a1, a2, a3⟩ := C32_padded_partial R q p hp xs hne h5 hx
    obtain ⟨r', v', p2, b1, b2, b3⟩ := C32_padded_partial R q p hp ys
      (by rintro rfl; exact hne (List.length_eq_zero_iff.1 hl)) (by omega) hy
    rw [← hl] at b3
    have := IsRank.unique (IsRank.perm (h.append_right _) a3) b3
    subst this
    exact ⟨r, r', v, p1, p2, a1, b1, a2, b2⟩
  · obtain ⟨r, v, a1, a2, a3⟩ := C31_five R q hq p hp xs (by omega) hx
    obtain ⟨r', v', b1, b2, b3⟩ := C31_five R q hq p hp ys (by omega) hy
    have := IsRank.unique (IsRank.perm h a3) b3
    subst this
    exact ⟨r, r', v, r, r', a1, b1, a2, b2⟩

/-- There is only one frequency table. -/
theorem IsFreqTable.unique {t u : List (K × ℕ)} {xs ys : List K} (h : xs.Perm ys) (ht : IsFreqTable t xs)
    (hu : IsFreqTable u ys) : t = u := by
  have nd : ∀ {t : List (K × ℕ)} {xs : List K}, IsFreqTable t xs → t.Nodup ∧ t.Pairwise fun a b => a.1 < b.1 := by
    intro t xs ht
    have := List.pairwise_map.1 ht.1
    exact ⟨this.imp fun {a b} hab he => by rw [he] at hab; exact lt_irrefl _ hab, this⟩
  have hp : t.Perm u := by
    refine (List.perm_ext_iff_of_nodup (nd ht).1 (nd hu).1).2 ?_
    rintro ⟨v, c⟩
    rw [ht.2, hu.2, h.mem_iff, h.count_eq]
  exact hp.eq_of_pairwise (fun a b _ _ h1 h2 => absurd (h1.trans h2) (lt_irrefl _)) (nd ht).2 (nd hu).2

/-- **C103**, StreamingHistogram with enough bins for values the tolerance can tell apart, in any rounding arithmetic. -/
theorem C103_histogram_partial (R : Rounding K) (numBins W : ℕ) (xs ys : List K) (hn : xs.length ≤ W)
    (hd : distinct xs ≤ numBins)
    (hsep : ∀ a ∈ xs, ∀ b ∈ xs, a < b → Utils.definitelyLessThan R.arith a b (Utils.defaultEps R.arith) = true)
    (h : xs.Perm ys) :
    ∃ g g', updateAll (Hist.update R.arith) (Hist.new numBins W) xs = .ok g ∧
      updateAll (Hist.update R.arith) (Hist.new numBins W) ys = .ok g' ∧ g.bins = g'.bins := by
  obtain ⟨g, a1, a2, a3⟩ := C56_frequency_table_rounded R numBins W xs hn hd hsep
  obtain ⟨g', b1, b2, b3⟩ := C56_frequency_table_rounded R numBins W ys (by rw [← h.length_eq]; exact hn)
    (by unfold distinct at hd ⊢; rw [← h.dedup.length_eq]; exact hd)
    (fun a ha b hb hab => hsep a (h.mem_iff.2 ha) b (h.mem_iff.2 hb) hab)
  refine ⟨g, g', a1, b1, ?_⟩
  have e := IsFreqTable.unique h a2 b2
  have back : ∀ l : List (Bin K), (∀ b ∈ l, b.right = b.left) →
      (l.map fun b => (b.left, b.count)).map (fun p => (⟨p.1, p.1, p.2⟩ : Bin K)) = l := by
    intro l hl
    rw [List.map_map]
    conv_rhs => rw [← List.map_id l]
    refine List.map_congr_left fun b hb => ?_
    obtain ⟨x, y, c⟩ := b
    have := hl _ hb
    simp only at this
    simp [this]
  rw [← back g.bins a3, ← back g'.bins b3, e]

end

/-- **C103**, StreamingEntropy under the same conditions. -/
theorem C103_entropy_partial (W numBins : ℕ) (e0 : Entropy ℝ) (xs ys : List ℝ) (hne : xs ≠ []) (hn : xs.length ≤ W)
    (hnew : Entropy.new realL W numBins = .ok e0) (hd : distinct xs ≤ e0.hist.numBins) (hsep : Separated (1 / 10000) xs)
    (h : xs.Perm ys) :
    ∃ e e', updateAll (Entropy.update realL) e0 xs = .ok e ∧ updateAll (Entropy.update realL) e0 ys = .ok e' ∧
      e.evaluate = e'.evaluate := by
  obtain ⟨e, a1, a2⟩ := C64_shannon W numBins e0 xs hne hn hnew hd hsep
  obtain ⟨e', b1, b2⟩ := C64_shannon W numBins e0 ys
    (by rintro rfl; exact hne (List.length_eq_zero_iff.1 h.length_eq)) (by rw [← h.length_eq]; exact hn) hnew
    (by unfold distinct at hd ⊢; rw [← h.dedup.length_eq]; exact hd)
    (fun a ha b hb hab => hsep a (h.mem_iff.2 ha) b (h.mem_iff.2 hb) hab)
  refine ⟨e, e', a1, b1, ?_⟩
  rw [a2, b2]
  unfold Spec.entropy
  rw [(h.dedup.map _).sum_eq, h.length_eq]
  congr 2
  exact List.map_congr_left fun v _ => by rw [h.count_eq]

/-- **C103**, StreamingMean on doubles: fixed-point data. -/
theorem C103_fixed_point_partial (k : ℤ) (hk : -1074 ≤ k) (hk2 : k ≤ 890) (B W : ℕ) (ns ms : List ℤ) (hn : ∀ n ∈ ns, |n| ≤ B)
    (hB : (if W = 0 then ns.length else W) * B ≤ 2 ^ 53) (hne : ns ≠ []) (hW : W ≤ 2 ^ 53) (hlen : ns.length ≤ 2 ^ 52)
    (hfit : W = 0 ∨ ns.length ≤ W) (h : ns.Perm ms) :
    ∃ d d', updateAll (Mean.update Dbl.arith) (Mean.new Dbl.arith W) (ns.map fun (n : ℤ) => .fin ((n : ℚ) * pow2 k)) = .ok d ∧
      updateAll (Mean.update Dbl.arith) (Mean.new Dbl.arith W) (ms.map fun (n : ℤ) => .fin ((n : ℚ) * pow2 k)) = .ok d' ∧
      d.evaluate Dbl.arith = d'.evaluate Dbl.arith := by
  obtain ⟨d, a1, a2⟩ := C84_fixed_point k hk hk2 B W ns hn hB hne hW hlen
  obtain ⟨d', b1, b2⟩ := C84_fixed_point k hk hk2 B W ms (fun n hm => hn n (h.mem_iff.2 hm)) (by rw [← h.length_eq]; exact hB)
    (by rintro rfl; exact hne (List.length_eq_zero_iff.1 h.length_eq)) hW (by rw [← h.length_eq]; exact hlen)
  refine ⟨d, d', a1, b1, ?_⟩
  rw [a2, b2, windowOf_all (by simpa using hfit), windowOf_all (by rw [List.length_map, ← h.length_eq]; exact hfit),
    mean_perm (h.map _)]

/-- Fixed-point data with a window of four. -/
example : ∃ d d', updateAll (Mean.update Dbl.arith) (Mean.new Dbl.arith 4) ([3, -1, 7].map fun (n : ℤ) => .fin ((n : ℚ) * pow2 (-10))) = .ok d ∧
    updateAll (Mean.update Dbl.arith) (Mean.new Dbl.arith 4) ([7, 3, -1].map fun (n : ℤ) => .fin ((n : ℚ) * pow2 (-10))) = .ok d' ∧
    d.evaluate Dbl.arith = d'.evaluate Dbl.arith :=
  C103_fixed_point_partial (-10) (by norm_num) (by norm_num) 7 4 _ _ (by decide) (by norm_num) (by simp) (by norm_num) (by simp)
    (by simp) (by decide)

/-- Three values in three bins, in binary64. -/
example : ∃ g g', updateAll (Hist.update b64) (Hist.new 3 6) [3, 1, 2, 1, 1, 3] = .ok g ∧
    updateAll (Hist.update b64) (Hist.new 3 6) [1, 1, 1, 2, 3, 3] = .ok g' ∧ g.bins = g'.bins :=
  C103_histogram_partial R64 3 6 _ _ (by simp) (by decide +kernel) (by decide +kernel) (by decide +kernel)

example : ∃ r r' v p1 p2, updateAll (P2.update b64) (P2.blank (1 / 4)) [5, 1, 4, 2, 3] = .ok r ∧
    updateAll (P2.update b64) (P2.blank (1 / 4)) [1, 2, 3, 4, 5] = .ok r' ∧
    r.evaluate b64 = .ok (v, p1) ∧ r'.evaluate b64 = .ok (v, p2) :=
  C103_quantile_partial R64 (1 / 4) (by decide +kernel) _ (by decide +kernel) _ _ (by simp) (by simp) (by decide +kernel)
    (by decide +kernel)

/-- 3, 1, 2, 1 in three bins and in another order. -/
example : ∃ e e', updateAll (Entropy.update realL) (Entropy.start 3 4) [3, 1, 2, 1] = .ok e ∧
    updateAll (Entropy.update realL) (Entropy.start 3 4) [1, 1, 2, 3] = .ok e' ∧ e.evaluate = e'.evaluate := by
  have hd : distinct [(3 : ℝ), 1, 2, 1] ≤ 3 := by
    unfold distinct
    have : [(3 : ℝ), 1, 2, 1].dedup = [3, 2, 1] := by norm_num [List.dedup_cons_of_mem, List.dedup_cons_of_notMem]
    rw [this]; simp
  have hs : Separated (1 / 10000) [(3 : ℝ), 1, 2, 1] := by
    intro a ha b hb hab
    simp at ha hb
    rcases ha with rfl | rfl | rfl | rfl <;> rcases hb with rfl | rfl | rfl | rfl <;>
      first | (exfalso; linarith) | norm_num [abs_of_pos]
  exact C103_entropy_partial 4 3 _ _ _ (by simp) le_rfl (Entropy.new_real (by norm_num) 3) hd hs
    (((List.Perm.refl [2, (1 : ℝ)]).cons 1).cons 3 |>.trans (List.reverse_perm _).symm |>.trans
      (by simp; exact List.Perm.swap 1 2 [3]))

/-- A window of four holds 1, 5, 3. -/
example : (∃ m m', updateAll (Mean.update (exact ℚ)) (Mean.new (exact ℚ) 4) [1, 5, 3] = .ok m ∧
      updateAll (Mean.update (exact ℚ)) (Mean.new (exact ℚ) 4) [5, 3, 1] = .ok m' ∧
      m.evaluate (exact ℚ) = m'.evaluate (exact ℚ)) ∧
    ∃ v v', updateAll (Variance.update (exact ℚ)) (Variance.new (exact ℚ) 4) [1, 5, 3] = .ok v ∧
      updateAll (Variance.update (exact ℚ)) (Variance.new (exact ℚ) 4) [5, 3, 1] = .ok v' ∧
      v.evaluate (exact ℚ) = v'.evaluate (exact ℚ) :=
  C103_moments_partial 4 _ _ (Or.inr (by simp)) (by decide +kernel)

end KML
