import Verif.Props.HistQueries
import Verif.Props.Order

/-!
# C61: how far the quantile of a histogram leaves the data

Between two levels of the cdf the quantile is extrapolated from bin `i` with the count of bin `i + 1`. It exceeds the
largest observation by up to `n - 1` times the range of the data (or times 1/numBins if that is more); the median of a 0
followed by n ones is n/numBins.
-/

namespace KML

open Spec

variable {K : Type} [Field K] [LinearOrder K] [IsStrictOrderedRing K] [FloorRing K]

omit [Field K] [LinearOrder K] [IsStrictOrderedRing K] [FloorRing K] in
theorem Hist.two_counts {bs : List (Bin K)} {i : ℕ} {b b' : Bin K} (hb : bs[i]? = some b)
    (hb' : bs[i + 1]? = some b') : b.count + b'.count ≤ sumCounts bs := by
  unfold sumCounts
  induction bs generalizing i with
  | nil => simp at hb
  | cons a bs ih =>
    cases i with
    | zero =>
      simp only [List.getElem?_cons_zero, Option.some.injEq] at hb
      simp only [zero_add, List.getElem?_cons_succ] at hb'
      have := List.single_le_sum (by simp) _ (List.mem_map_of_mem (f := Bin.count) (List.mem_of_getElem? hb'))
      simp only [List.map_cons, List.sum_cons, hb]
      omega
    | succ i =>
      simp only [List.getElem?_cons_succ] at hb hb'
      have := ih hb hb'
      simp only [List.map_cons, List.sum_cons]
      omega

/-- **C61**, upper bound (exact arithmetic): while the window fills, with all `n` observations between `m` and `M`, no
quantile exceeds `M` by more than `n - 1` times the range or 1/numBins, whichever is more. -/
theorem C61_upper_partial (numBins W : ℕ) (xs : List K) (h : Hist K) (q v m M : K) (hn : xs.length ≤ W)
    (hu : updateAll (Hist.update (exact K)) (Hist.new numBins W) xs = .ok h)
    (hv : h.quantile (exact K) q = .ok v) (hm : ∀ x ∈ xs, m ≤ x ∧ x ≤ M) :
    v ≤ M + (xs.length - 1) * max (M - m) (1 / numBins) := by
  have hq : 0 ≤ q ∧ q ≤ 1 := by
    have := (C60_rejects Rounding.none h q).not.1 (by
      rintro ⟨m, hm⟩
      have : h.quantile (exact K) q = .throw m := hm
      rw [hv] at this
      cases this)
    push Not at this
    exact this
  obtain ⟨h0, h1⟩ := hq
  have hne : xs ≠ [] := by
    rintro rfl
    simp only [updateAll] at hu
    injection hu with hu
    subst hu
    simp [Hist.quantile, Hist.quantileIndex, Hist.lowerBound, Hist.cdf, Hist.pdf, Hist.new, Hist.partialSum, exact] at hv
    split at hv <;> cases hv
  obtain ⟨hrun, hs, hl⟩ := C58_cdf numBins W xs h hne hn hu
  obtain ⟨i, c, e1, e2, e3⟩ := Hist.index_spec hs hl h1
  have hlen := Hist.cdf_length h
  have hi : i < h.bins.length := by
    have := (List.getElem?_eq_some_iff.1 e2).1; omega
  have hpos : 0 < xs.length := List.length_pos_iff.2 hne
  have ho := Hist.Ordered.run (R := Rounding.none) (by omega) hu
  have hcnt := Hist.Counts.run hu
  obtain ⟨b, hb⟩ : ∃ b, h.bins[i]? = some b := ⟨_, List.getElem?_eq_getElem hi⟩
  have hmem : b ∈ h.bins := List.mem_of_getElem? hb
  have hleft := hm _ (ho.mem _ hmem).1
  have hright := hm _ (ho.mem _ hmem).2
  have hn1 : (0 : K) ≤ (xs.length : K) - 1 := by
    have : (1 : K) ≤ xs.length := by exact_mod_cast hpos
    linarith
  have hmax : (0 : K) ≤ max (M - m) (1 / numBins) := le_max_of_le_right (by positivity)
  rw [Hist.quantile_at h0 h1 e1 e2 hb] at hv
  split at hv
  · injection hv with hv
    rw [← hv]
    nlinarith [mul_nonneg hn1 hmax]
  · split at hv
    · cases hv
    · rename_i c' hc'
      injection hv with hv
      rw [← hv]
      obtain ⟨b', hb'⟩ : ∃ b', h.bins[i + 1]? = some b' :=
        ⟨_, List.getElem?_eq_getElem (by have := (List.getElem?_eq_some_iff.1 hc').1; omega)⟩
      have htot : h.total = xs.length := by rw [hcnt.total]; omega
      have ht : (h.total : K) ≠ 0 := by rw [htot]; exact_mod_cast hpos.ne'
      have hdiff : (c' - c) * h.total = (b'.count : K) := by
        rw [hrun.2 i c e2, hrun.2 (i + 1) c' hc', List.take_add_one (i := i + 1), List.sum_append, Hist.pdf_exact]
        simp [hb']
        field_simp
      have hb1 : 1 ≤ b.count := Hist.pos_run hn hu b hmem
      have hsum := Hist.two_counts hb hb'
      rw [hcnt.sum_eq hn] at hsum
      have hb1' : (1 : K) ≤ b.count := by exact_mod_cast hb1
      have hb2 : (b'.count : K) ≤ xs.length - 1 := by
        have : (b.count : K) + b'.count ≤ xs.length := by exact_mod_cast hsum
        linarith
      set w := (if b.right - b.left = 0 then 1 / (h.numBins : K) else b.right - b.left) with hw
      have hw0 : 0 ≤ w := by
        rw [hw]; split
        · positivity
        · have := ho.le _ hmem; linarith
      have hw1 : w ≤ max (M - m) (1 / numBins) := by
        rw [hw]; split
        · rw [hcnt.numBins]; exact le_max_right _ _
        · exact le_max_of_le_left (by linarith [hleft.1, hright.2])
      have e : w * (c' - c) * h.total / b.count = w * b'.count / b.count := by rw [mul_assoc, hdiff]
      rw [e]
      have h2 : w * b'.count / b.count ≤ w * b'.count := div_le_self (by positivity) hb1'
      have h3 : w * b'.count ≤ (xs.length - 1) * max (M - m) (1 / numBins) := by
        rw [mul_comm]
        exact mul_le_mul hb2 hw1 hw0 hn1
      linarith [hleft.2]

/-- 0, 1, 1, 1 in two bins: the median is 3/2, the bound 1 + 3 * 1. -/
example : (do
    let h ← updateAll (Hist.update (exact ℚ)) (Hist.new 2 10) [0, 1, 1, 1]
    h.quantile (exact ℚ) (1 / 2)) = .ok (3 / 2) := by
  decide +kernel

/-- **C61**: with two or more bins the median of a 0 followed by `n` ones is `n/numBins`. -/
theorem C61_median (numBins n W : ℕ) (hb : 2 ≤ numBins) (hn : 2 ≤ n) (hW : n + 1 ≤ W) :
    ∃ h : Hist K, updateAll (Hist.update (exact K)) (Hist.new numBins W) (0 :: List.replicate n 1) = .ok h ∧
      h.quantile (exact K) (1 / 2) = .ok (n / numBins) := by
  have hlen : (0 :: List.replicate n (1 : K)).length ≤ W := by simpa using hW
  obtain ⟨h, hu, hf, hr⟩ := C56_frequency_table numBins W (0 :: List.replicate n (1 : K)) hlen
    (by
      refine le_trans ?_ hb
      unfold distinct
      have : (0 :: List.replicate n (1 : K)).dedup ⊆ [0, 1] := by
        intro x hx
        rw [List.mem_dedup, List.mem_cons, List.mem_replicate] at hx
        rcases hx with rfl | ⟨-, rfl⟩ <;> simp
      exact (List.subperm_of_subset (List.nodup_dedup _) this).length_le)
    (by
      intro a ha b hb hab
      rw [List.mem_cons, List.mem_replicate] at ha hb
      rcases ha with rfl | ⟨-, rfl⟩ <;> rcases hb with rfl | ⟨-, rfl⟩ 
      · exact absurd hab (lt_irrefl _)
      · rw [abs_zero, abs_one, max_eq_right zero_le_one]; norm_num
      · exact absurd hab (not_lt.2 zero_le_one)
      · exact absurd hab (lt_irrefl _))
  have htab : IsFreqTable [((0 : K), 1), (1, n)] (0 :: List.replicate n (1 : K)) := by
    refine ⟨by simp, fun v c => ?_⟩
    have h01 : (0 : K) ≠ 1 := zero_ne_one
    have hn0 : n ≠ 0 := by omega
    have c0 : (0 :: List.replicate n (1 : K)).count 0 = 1 := by
      simp [List.count_replicate, h01.symm]
    have c1 : (0 :: List.replicate n (1 : K)).count 1 = n := by
      simp
    constructor
    · intro h
      simp only [List.mem_cons, Prod.mk.injEq, List.not_mem_nil, or_false] at h
      rcases h with ⟨rfl, rfl⟩ | ⟨rfl, rfl⟩
      · exact ⟨by simp, c0.symm⟩
      · exact ⟨by simp [hn0], c1.symm⟩
    · rintro ⟨h, rfl⟩
      rw [List.mem_cons, List.mem_replicate] at h
      rcases h with rfl | ⟨-, rfl⟩
      · rw [c0]; simp
      · rw [c1]; simp
  have heq := IsFreqTable.unique (List.Perm.refl _) hf htab
  have hbins : h.bins = [⟨0, 0, 1⟩, ⟨1, 1, n⟩] := by
    generalize h.bins = bs at heq hr
    match bs, heq, hr with
    | [_], heq, _ => simp at heq
    | _ :: _ :: _ :: _, heq, _ => simp at heq
    | [b, b'], heq, hr =>
      simp only [List.map_cons, List.map_nil, List.cons.injEq, Prod.mk.injEq, and_true] at heq
      obtain ⟨⟨h1, h2⟩, h3, h4⟩ := heq
      have r1 := hr b (by simp)
      have r2 := hr b' (by simp)
      rcases b with ⟨l, r, c⟩
      rcases b' with ⟨l', r', c'⟩
      simp only at h1 h2 h3 h4 r1 r2
      subst h1 h2 h3 h4 r1 r2
      rfl
  refine ⟨h, hu, ?_⟩
  have hcnt := Hist.Counts.run hu
  have htot : h.total = n + 1 := by rw [hcnt.total]; simp; omega
  have hcdf : h.cdf (exact K) true = [1 / ((n : K) + 1), 1] := by
    have hn1 : (n : K) + 1 ≠ 0 := by positivity
    unfold Hist.cdf
    rw [Hist.pdf_exact, hbins, htot]
    have : (1 : K) / (n + 1) + n / (n + 1) = 1 := by field_simp; ring
    simpa [Hist.partialSum, Hist.partialSumFrom, exact] using this
  have := C61_between numBins W _ h 0 (1 / ((n : K) + 1)) 1 (1 / 2) ⟨0, 0, 1⟩ ⟨1, 1, n⟩ hlen hu
    (by rw [hcdf]; rfl) (by rw [hcdf]; rfl) (by rw [hbins]; rfl) (by rw [hbins]; rfl) ?_ (by norm_num)
  · rw [this]; simp
    field_simp
  · have : (2 : K) ≤ n := by exact_mod_cast hn
    rw [div_mul_eq_mul_div, div_lt_div_iff₀ (by linarith) (by norm_num)]
    linarith

example : ∃ h : Hist ℚ, updateAll (Hist.update (exact ℚ)) (Hist.new 10 1000) (0 :: List.replicate 500 1) = .ok h ∧
    h.quantile (exact ℚ) (1 / 2) = .ok 50 := by
  obtain ⟨h, h1, h2⟩ := C61_median (K := ℚ) 10 500 1000 (by norm_num) (by norm_num) (by norm_num)
  exact ⟨h, h1, by rw [h2]; norm_num⟩

/-- So the quantile of data between 0 and 1 can be as large as you like. -/
theorem C61_unbounded (numBins : ℕ) (hb : 2 ≤ numBins) (B : K) :
    ∃ (W : ℕ) (xs : List K) (h : Hist K) (v : K), xs.length ≤ W ∧ (∀ x ∈ xs, 0 ≤ x ∧ x ≤ 1) ∧
      updateAll (Hist.update (exact K)) (Hist.new numBins W) xs = .ok h ∧
      h.quantile (exact K) (1 / 2) = .ok v ∧ B < v := by
  obtain ⟨n, hn⟩ := exists_nat_gt (max 2 (B * numBins))
  have h2 : 2 ≤ n := by
    have : (2 : K) < n := (le_max_left _ _).trans_lt hn
    exact_mod_cast this.le
  have hb0 : (0 : K) < numBins := by
    have : (2 : K) ≤ numBins := by exact_mod_cast hb
    linarith
  obtain ⟨h, hu, hq⟩ := C61_median (K := K) numBins n (n + 1) hb h2 le_rfl
  refine ⟨n + 1, _, h, _, by simp, ?_, hu, hq, ?_⟩
  · intro x hx
    rw [List.mem_cons, List.mem_replicate] at hx
    rcases hx with rfl | ⟨-, rfl⟩ <;> simp
  · rw [lt_div_iff₀ hb0]
    exact (le_max_right _ _).trans_lt hn

end KML
