import Verif.Props.HistStreams
import Verif.Props.P2Exact

/-! # C58, C60–C63: histogram queries -/

set_option linter.unusedSectionVars false

namespace KML

open Spec

namespace Hist

/-! ### Positive counts while the window fills -/

theorem pos_run {F : Type} {A : Arith F} {nb W : ℕ} {xs : List F} {h : Hist F} (hn : xs.length ≤ W)
    (hu : updateAll (Hist.update A) (Hist.new nb W) xs = .ok h) : ∀ b ∈ h.bins, 0 < b.count := by
  induction xs using List.reverseRecOn generalizing h with
  | nil => simp only [updateAll] at hu; injection hu with hu; subst hu; simp [Hist.new]
  | append_singleton xs x ih =>
    rw [updateAll_snoc] at hu
    obtain ⟨h1, e1, e2⟩ := Res.bind_eq_ok.1 hu
    rw [List.length_append, List.length_singleton] at hn
    have hc := Hist.Counts.run e1
    have hwin := hc.windowSize
    have htot := hc.total
    have hpos := ih (by omega) e1
    obtain ⟨i, b1, b2, hs⟩ := Hist.update_step e2
    have hb1 : ∀ b ∈ b1, 0 < b.count := by
      have hp := hs.placed
      generalize h1.bins = l at hp hpos
      cases hp with
      | push =>
        intro b hb
        rcases List.mem_append.1 hb with hb | hb
        · exact hpos b hb
        · simp at hb; rw [hb]; exact Nat.one_pos
      | inc l1 l2 c =>
        intro b hb
        rcases List.mem_append.1 hb with hb | hb
        · exact hpos b (by simp [hb])
        · rcases List.mem_cons.1 hb with rfl | hb
          · exact Nat.succ_pos _
          · exact hpos b (by simp [hb])
      | insert l1 l2 c =>
        intro b hb
        rcases List.mem_append.1 hb with hb | hb
        · exact hpos b (by simp [hb])
        · rcases List.mem_cons.1 hb with rfl | hb
          · exact Nat.one_pos
          · exact hpos b (by simp [List.mem_cons.1 hb])
    have hb2 : b2 = b1 := by
      rcases hs.decay with ⟨-, e, -⟩ | ⟨h2, -⟩
      · exact e
      · omega
    rcases hs.merge with ⟨-, e⟩ | ⟨-, e⟩
    · rw [e, hb2]; exact hb1
    · rw [hb2] at e
      generalize mergeIndex A b1 = mi at e
      generalize h.bins = l' at e ⊢
      cases e with
      | mk l1 l2 a b =>
        intro c hc
        rcases List.mem_append.1 hc with hc | hc
        · exact hb1 c (by simp [hc])
        · rcases List.mem_cons.1 hc with rfl | hc
          · have := hb1 a (by simp)
            simp only [Bin.add]; omega
          · exact hb1 c (by simp [hc])

variable {K : Type} [Field K] [LinearOrder K] [IsStrictOrderedRing K] [FloorRing K]

theorem partialSumFrom_spec (acc : K) (l : List K) :
    (partialSumFrom (exact K) acc l).length = l.length ∧
    ∀ i c, (partialSumFrom (exact K) acc l)[i]? = some c → c = acc + (l.take (i + 1)).sum := by
  induction l generalizing acc with
  | nil => simp [partialSumFrom]
  | cons x l ih =>
    obtain ⟨h1, h2⟩ := ih (acc + x)
    refine ⟨by simp [partialSumFrom]; exact h1, ?_⟩
    intro i c hc
    cases i with
    | zero =>
      have hc : some (acc + x) = some c := hc
      injection hc with hc
      simp [hc]
    | succ i =>
      have hc : (partialSumFrom (exact K) (acc + x) l)[i]? = some c := hc
      rw [h2 i c hc]
      simp [add_assoc]

theorem partialSum_spec (l : List K) : IsRunningSum l (partialSum (exact K) l) := by
  cases l with
  | nil => simp [IsRunningSum, partialSum]
  | cons x l =>
    obtain ⟨h1, h2⟩ := partialSumFrom_spec x l
    refine ⟨by simp [partialSum, h1], ?_⟩
    intro i c hc
    cases i with
    | zero =>
      have hc : some x = some c := hc
      injection hc with hc
      simp [hc]
    | succ i =>
      have hc : (partialSumFrom (exact K) x l)[i]? = some c := hc
      rw [h2 i c hc]
      simp

theorem ofNat_exact (n : ℕ) : (exact K).ofNat n = n := by simp [Arith.ofNat, exact]

theorem pdf_exact (h : Hist K) : h.pdf (exact K) true false = h.bins.map fun b => (b.count : K) / h.total := by
  simp only [pdf, ofNat_exact]
  rfl

theorem pdf_counts (h : Hist K) : h.pdf (exact K) false false = h.bins.map fun b => (b.count : K) := by
  simp only [pdf, ofNat_exact, Bool.not_false, if_true]
  refine List.map_congr_left fun b _ => ?_
  simp [exact]

theorem sum_cast (l : List (Bin K)) : (l.map fun b => (b.count : K)).sum = (sumCounts l : ℕ) := by
  induction l with
  | nil => simp [sumCounts]
  | cons b l ih => simp [sumCounts_cons, ih]

theorem sum_div (l : List (Bin K)) (t : K) : (l.map fun b => (b.count : K) / t).sum = (sumCounts l : ℕ) / t := by
  induction l with
  | nil => simp [sumCounts]
  | cons b l ih => simp [sumCounts_cons, ih, add_div]

/-- The width used by `pdf` for the density: an empty width counts as 1. -/
def densityWidth (b : Bin K) : K := if b.right - b.left ≤ 0 then 1 else b.right - b.left

end Hist

section Round

variable {K : Type} [Field K] [LinearOrder K] [IsStrictOrderedRing K] [FloorRing K]

/-! ## C58 -/

/-- **C58** (exact arithmetic), `pdf`: non-negative with sum 1. -/
theorem C58_pdf (numBins W : ℕ) (xs : List K) (h : Hist K) (hne : xs ≠ []) (hn : xs.length ≤ W)
    (hu : updateAll (Hist.update (exact K)) (Hist.new numBins W) xs = .ok h) :
    (h.pdf (exact K) true false).length = h.size ∧ (∀ p ∈ h.pdf (exact K) true false, 0 < p) ∧
    (h.pdf (exact K) true false).sum = 1 := by
  have hc := Hist.Counts.run hu
  have hpos : 0 < xs.length := List.length_pos_iff.2 hne
  have ht : h.total = xs.length := by rw [hc.total]; omega
  have ht' : (0 : K) < h.total := by rw [ht]; exact_mod_cast hpos
  rw [Hist.pdf_exact]
  refine ⟨by simp [Hist.size], ?_, ?_⟩
  · intro p hp
    obtain ⟨b, hb, rfl⟩ := List.mem_map.1 hp
    have := Hist.pos_run hn hu b hb
    exact div_pos (by exact_mod_cast this) ht'
  · rw [Hist.sum_div, hc.sum_eq hn, ht]
    exact div_self (by rw [← ht]; exact ht'.ne')

/-- **C58**, density: the density times the bin widths (1 for bins without width) adds up to 1, with either value of
`normalize`. -/
theorem C58_density (numBins W : ℕ) (xs : List K) (h : Hist K) (hne : xs ≠ []) (hn : xs.length ≤ W) (norm : Bool)
    (hu : updateAll (Hist.update (exact K)) (Hist.new numBins W) xs = .ok h) :
    (List.zipWith (fun p (b : Bin K) => p * (if b.left < b.right then b.right - b.left else 1))
      (h.pdf (exact K) norm true) h.bins).sum = 1 := by
  have hc := Hist.Counts.run hu
  have hpos : 0 < xs.length := List.length_pos_iff.2 hne
  have ht : h.total = xs.length := by rw [hc.total]; omega
  have ht' : (0 : K) < h.total := by rw [ht]; exact_mod_cast hpos
  have h1 : List.zipWith (fun p (b : Bin K) => p * (if b.left < b.right then b.right - b.left else 1))
      (h.pdf (exact K) norm true) h.bins = h.bins.map fun b => (b.count : K) / h.total := by
    simp only [Hist.pdf, Hist.ofNat_exact, if_true]
    rw [List.zipWith_map_left, List.zipWith_self]
    refine List.map_congr_left fun b _ => ?_
    simp only [exact, decide_eq_true_eq, Rat.cast_zero, Rat.cast_one]
    by_cases hw : b.left < b.right
    · have h2 : (0 : K) < b.right - b.left := sub_pos.2 hw
      rw [if_pos hw, if_neg (not_le.2 h2)]
      field_simp
    · have h2 : b.right - b.left ≤ (0 : K) := sub_nonpos.2 (not_lt.1 hw)
      rw [if_neg hw, if_pos h2]
      simp
  rw [h1, Hist.sum_div, hc.sum_eq hn, ht]
  exact div_self (by rw [← ht]; exact ht'.ne')

/-- **C58**, `cdf`: the running sum of `pdf`, strictly increasing (so non-decreasing) and ending at 1. -/
theorem C58_cdf (numBins W : ℕ) (xs : List K) (h : Hist K) (hne : xs ≠ []) (hn : xs.length ≤ W)
    (hu : updateAll (Hist.update (exact K)) (Hist.new numBins W) xs = .ok h) :
    IsRunningSum (h.pdf (exact K) true false) (h.cdf (exact K) true) ∧
    (h.cdf (exact K) true).Pairwise (· < ·) ∧ (h.cdf (exact K) true).getLast? = some 1 := by
  obtain ⟨h1, h2, h3⟩ := C58_pdf numBins W xs h hne hn hu
  have hrun : IsRunningSum (h.pdf (exact K) true false) (h.cdf (exact K) true) := Hist.partialSum_spec _
  generalize h.pdf (exact K) true false = ps at *
  generalize h.cdf (exact K) true = cs at *
  obtain ⟨hl, hget⟩ := hrun
  refine ⟨⟨hl, hget⟩, ?_, ?_⟩
  · rw [List.pairwise_iff_getElem]
    intro i j hi hj hij
    have e1 := hget i _ (List.getElem?_eq_getElem hi)
    have e2 := hget j _ (List.getElem?_eq_getElem hj)
    rw [e1, e2]
    have hsplit : ps.take (j + 1) = ps.take (i + 1) ++ (ps.drop (i + 1)).take (j - i) := by
      rw [← List.take_add]; congr 1; omega
    rw [hsplit, List.sum_append]
    have : 0 < ((ps.drop (i + 1)).take (j - i)).sum := by
      refine List.sum_pos _ (fun p hp => h2 p (List.mem_of_mem_drop (List.mem_of_mem_take hp))) ?_
      intro he
      have := congrArg List.length he
      simp at this
      omega
    linarith
  · have hne' : 0 < ps.length := by
      rcases ps with _ | ⟨p, ps⟩
      · simp at h3
      · simp
    rw [List.getLast?_eq_getElem?]
    have hi : cs.length - 1 < cs.length := by omega
    rw [List.getElem?_eq_getElem hi, hget _ _ (List.getElem?_eq_getElem hi), hl,
      List.take_of_length_le (by omega), h3]

/-- **C58**, unnormalised: `pdf` gives the counts and `cdf` their running sum, ending at the number of
observations. -/
theorem C58_counts (numBins W : ℕ) (xs : List K) (h : Hist K) (hn : xs.length ≤ W)
    (hu : updateAll (Hist.update (exact K)) (Hist.new numBins W) xs = .ok h) :
    h.pdf (exact K) false false = h.bins.map (fun b => (b.count : K)) ∧
    IsRunningSum (h.bins.map fun b => (b.count : K)) (h.cdf (exact K) false) ∧
    (h.pdf (exact K) false false).sum = xs.length := by
  refine ⟨Hist.pdf_counts h, ?_, ?_⟩
  · rw [← Hist.pdf_counts]; exact Hist.partialSum_spec _
  · rw [Hist.pdf_counts, Hist.sum_cast, (Hist.Counts.run hu).sum_eq hn]

/-- Six observations in three bins. -/
example : (do
    let h ← updateAll (Hist.update (exact ℚ)) (Hist.new 3 10) [5, 1, 4, 2, 3, 1]
    .ok (h.pdf (exact ℚ) true false, h.cdf (exact ℚ) true, h.pdf (exact ℚ) true true)) =
    .ok ([2 / 3, 1 / 6, 1 / 6], [2 / 3, 5 / 6, 1], [1 / 3, 1 / 6, 1 / 6]) := by
  decide +kernel

/-! ## C60 -/

/-- **C60**, rejection (any rounding, any histogram): exactly the levels outside `[0, 1]` throw. -/
theorem C60_rejects (R : Rounding K) (h : Hist K) (q : K) :
    (h.quantile R.arith q).IsThrow ↔ q < 0 ∨ 1 < q := by
  have h0 : R.arith.lit 0 = (0 : K) := by simp [Rounding.arith, R.rnd_zero]
  have h1 : R.arith.lit 1 = (1 : K) := by simp [Rounding.arith, R.rnd_one]
  have hlt : ∀ a b : K, R.arith.lt a b = decide (a < b) := fun a b => rfl
  unfold Hist.quantile
  rw [h0, h1, hlt, hlt]
  by_cases hq : q < 0 ∨ 1 < q
  · simp only [Bool.or_eq_true, decide_eq_true_eq, hq, if_true, iff_true]
    exact ⟨_, rfl⟩
  · simp only [Bool.or_eq_true, decide_eq_true_eq, hq, if_false, iff_false]
    rintro ⟨m, hm⟩
    revert hm
    unfold Hist.quantileIndex
    simp only
    generalize h.cdf R.arith true = cdf
    split
    · split
      · intro hm; cases hm
      · rw [Res.ok_bind]
        split
        · split
          · intro hm; cases hm
          · split <;> (intro hm; cases hm)
        · intro hm; cases hm
    · split
      · rw [Res.ok_bind]
        split
        · split
          · intro hm; cases hm
          · split <;> (intro hm; cases hm)
        · intro hm; cases hm
      · rw [Res.ok_bind]
        split
        · split
          · intro hm; cases hm
          · split <;> (intro hm; cases hm)
        · intro hm; cases hm

/-- Levels -1 and 2 are refused, 1 is not. -/
example : (do
    let h ← updateAll (Hist.update b64) (Hist.new 10 10) [1, 2, 3]
    h.quantile b64 2) = .throw "Percentile must be in closed range [0, 1]!" ∧ (do
    let h ← updateAll (Hist.update b64) (Hist.new 10 10) [1, 2, 3]
    h.quantile b64 1) = .ok 3 := by
  decide +kernel

/-- The full property (exact arithmetic). It is false of the code. -/
def C60_full : Prop := ∀ (numBins W : ℕ) (xs : List ℚ) (h : Hist ℚ) (q : ℚ), 1 ≤ W → xs ≠ [] →
  updateAll (Hist.update (exact ℚ)) (Hist.new numBins W) xs = .ok h → 0 ≤ q → q ≤ 1 →
  (h.quantile (exact ℚ) q).IsOk

/-- **C60** is violated: the median of a histogram with one bin reads past the end of the cdf. -/
theorem C60_violated : ¬ C60_full := by
  intro h
  obtain ⟨v, hv⟩ := h 10 10 [5] ⟨10, 10, [⟨5, 5, 1⟩], [0, 0, 0, 0, 0, 0, 0, 0, 0, 0, 0], 1, 1, 1⟩ (1 / 2)
    (by norm_num) (by simp) (by decide +kernel) (by norm_num) (by norm_num)
  have h2 : (⟨10, 10, [⟨5, 5, 1⟩], [0, 0, 0, 0, 0, 0, 0, 0, 0, 0, 0], 1, 1, 1⟩ : Hist ℚ).quantile (exact ℚ)
    (1 / 2) = .ub .oob := by decide +kernel
  rw [hv] at h2
  cases h2

theorem Hist.lowerBound_spec {cs : List K} {q : K} (R : Rounding K) :
    Hist.lowerBound R.arith cs q ≤ cs.length ∧
    (∀ j c, j < Hist.lowerBound R.arith cs q → cs[j]? = some c → c < q) ∧
    (∀ c, cs[Hist.lowerBound R.arith cs q]? = some c → q ≤ c) := by
  unfold Hist.lowerBound
  induction cs with
  | nil => simp
  | cons x cs ih =>
    obtain ⟨h1, h2, h3⟩ := ih
    by_cases hx : x < q
    · have hx' : R.arith.lt x q = true := decide_eq_true hx
      rw [show List.takeWhile (fun x => R.arith.lt x q) (x :: cs) =
        x :: List.takeWhile (fun x => R.arith.lt x q) cs by simp [hx']]
      refine ⟨by simpa using h1, ?_, ?_⟩
      · intro j c hj hc
        cases j with
        | zero => simp at hc; rw [← hc]; exact hx
        | succ j => exact h2 j c (by simpa using hj) (by simpa using hc)
      · intro c hc
        exact h3 c (by simpa using hc)
    · have hx' : ¬ R.arith.lt x q = true := by
        intro hh; exact hx (of_decide_eq_true hh)
      rw [show List.takeWhile (fun x => R.arith.lt x q) (x :: cs) = [] by simp [hx']]
      refine ⟨by simp, by simp, ?_⟩
      intro c hc
      simp at hc
      rw [← hc]; exact not_lt.1 hx

/-- The cdf entry at which `quantile` looks, for a level in `[0, 1]` on a filling histogram. -/
theorem Hist.index_spec {cs : List K} {q : K} (hs : cs.Pairwise (· < ·)) (hl : cs.getLast? = some 1) (hq : q ≤ 1) :
    ∃ i c, Hist.quantileIndex (exact K) cs q = .ok i ∧ cs[i]? = some c ∧
      (c ≤ q ∧ (c = q ∨ i + 1 < cs.length) ∨ i = 0 ∧ q < c) := by
  obtain ⟨h1, h2, h3⟩ := Hist.lowerBound_spec (cs := cs) (q := q) (Rounding.none (K := K))
  have he : Hist.lowerBound (exact K) cs q = Hist.lowerBound (Rounding.none (K := K)).arith cs q := rfl
  rw [← he] at h1 h2 h3
  unfold Hist.quantileIndex
  simp only
  generalize Hist.lowerBound (exact K) cs q = it at *
  have hlen : 0 < cs.length := by
    rcases cs with _ | ⟨c, cs⟩
    · simp at hl
    · simp
  rw [List.getLast?_eq_getElem?] at hl
  have hlt : it < cs.length := by
    by_contra hge
    have : (1 : K) < q := h2 (cs.length - 1) 1 (by omega) hl
    linarith
  have hv := List.getElem?_eq_getElem hlt
  have hqv := h3 _ hv
  rw [hv]
  simp only
  by_cases hcond : it ≠ 0 ∧ q < cs[it]
  · have hb : (it ≠ 0 && (exact K).lt q cs[it]) = true := by
      rw [Bool.and_eq_true]
      exact ⟨by simpa using hcond.1, decide_eq_true hcond.2⟩
    have hi : it - 1 < cs.length := by omega
    have hh := List.getElem?_eq_getElem hi
    refine ⟨it - 1, cs[it - 1], by simp only [hb, if_true], hh, Or.inl ⟨(h2 _ _ (by omega) hh).le, Or.inr ?_⟩⟩
    have := hcond.1
    omega
  · have hb : (it ≠ 0 && (exact K).lt q cs[it]) = false := by
      rw [← Bool.not_eq_true, Bool.and_eq_true]
      rintro ⟨g1, g2⟩
      exact hcond ⟨by simpa using g1, of_decide_eq_true g2⟩
    refine ⟨it, cs[it], by simp only [hb, Bool.false_eq_true, if_false], hv, ?_⟩
    rcases hqv.lt_or_eq with hlt' | heq
    · have h0 : it = 0 := by
        by_contra h0; exact hcond ⟨h0, hlt'⟩
      exact Or.inr ⟨h0, hlt'⟩
    · exact Or.inl ⟨heq.ge, Or.inl heq.symm⟩

/-- `quantile` once the index is known. -/
theorem Hist.quantile_at {h : Hist K} {q : K} {i : ℕ} {c : K} {b : Bin K} (h0 : 0 ≤ q) (h1 : q ≤ 1)
    (hi : Hist.quantileIndex (exact K) (h.cdf (exact K) true) q = .ok i)
    (hc : (h.cdf (exact K) true)[i]? = some c) (hb : h.bins[i]? = some b) :
    h.quantile (exact K) q = if |q - c| ≤ min |q| |c| * (1 / 10000) then .ok b.left
      else match (h.cdf (exact K) true)[i + 1]? with
        | none => .ub .oob
        | some c' => .ok (b.left + (if b.right - b.left = 0 then 1 / (h.numBins : K) else b.right - b.left) * (c' - c) *
            h.total / b.count) := by
  have hcond : ((exact K).lt q ((exact K).lit 0) || (exact K).lt ((exact K).lit 1) q) = false := by
    simp [exact, h0, h1]
  have hee : Utils.essentiallyEqual (exact K) q c (Utils.defaultEps (exact K)) =
      decide (|q - c| ≤ min |q| |c| * (1 / 10000)) := by
    rw [Bool.eq_iff_iff, decide_eq_true_iff]
    have : Utils.defaultEps (exact K) = 1 / 10000 := by simp [Utils.defaultEps, exact]
    rw [this]
    exact essential_iff (Rounding.none (K := K)) q c _
  unfold Hist.quantile
  simp only [hcond, Bool.false_eq_true, if_false, hi, Res.ok_bind, hc, hb, hee, decide_eq_true_eq, Hist.ofNat_exact]
  rcases (h.cdf (exact K) true)[i + 1]? with _ | c'
  · rfl
  · simp [exact]

theorem Hist.cdf_length (h : Hist K) : (h.cdf (exact K) true).length = h.bins.length := by
  have h1 : IsRunningSum (h.pdf (exact K) true false) (h.cdf (exact K) true) := Hist.partialSum_spec _
  rw [h1.1, Hist.pdf_exact]; simp

/-- **C60**, the part that holds (exact arithmetic): while the window fills, with at least two bins, every level in
`[0, 1]` has a quantile. Missing: one bin (see `C60_single_bin`), and streams longer than the window. -/
theorem C60_defined_partial (numBins W : ℕ) (xs : List K) (h : Hist K) (q : K) (hn : xs.length ≤ W)
    (hu : updateAll (Hist.update (exact K)) (Hist.new numBins W) xs = .ok h) (h2 : 2 ≤ h.size) (h0 : 0 ≤ q)
    (h1 : q ≤ 1) : (h.quantile (exact K) q).IsOk := by
  have hne : xs ≠ [] := by
    rintro rfl
    simp only [updateAll] at hu
    injection hu with hu
    subst hu
    simp [Hist.size, Hist.new] at h2
  obtain ⟨-, hs, hl⟩ := C58_cdf numBins W xs h hne hn hu
  obtain ⟨i, c, e1, e2, e3⟩ := Hist.index_spec hs hl h1
  have hlen := Hist.cdf_length h
  have hi : i < h.bins.length := by
    have := (List.getElem?_eq_some_iff.1 e2).1; omega
  rw [Hist.quantile_at h0 h1 e1 e2 (List.getElem?_eq_getElem hi)]
  split
  · exact ⟨_, rfl⟩
  · rename_i hne'
    have hlt : i + 1 < (h.cdf (exact K) true).length := by
      rcases e3 with ⟨-, rfl | e3⟩ | ⟨rfl, -⟩
      · exfalso
        apply hne'
        rw [sub_self, abs_zero]
        have := abs_nonneg c
        simp
      · exact e3
      · rw [hlen]; exact h2
    rw [List.getElem?_eq_getElem hlt]
    exact ⟨_, rfl⟩

/-- **C60**, one bin: every level more than 0.01% below 1 is undefined. So are all quantiles of a constant
stream. -/
theorem C60_single_bin (numBins W : ℕ) (xs : List K) (h : Hist K) (q : K) (hn : xs.length ≤ W)
    (hu : updateAll (Hist.update (exact K)) (Hist.new numBins W) xs = .ok h) (h2 : h.size = 1) (h0 : 0 ≤ q)
    (h1 : q * (1 + 1 / 10000) < 1) : h.quantile (exact K) q = .ub .oob := by
  have hne : xs ≠ [] := by
    rintro rfl
    simp only [updateAll] at hu
    injection hu with hu
    subst hu
    simp [Hist.size, Hist.new] at h2
  have hq1 : q < 1 := by nlinarith
  obtain ⟨-, hs, hl⟩ := C58_cdf numBins W xs h hne hn hu
  obtain ⟨i, c, e1, e2, e3⟩ := Hist.index_spec hs hl hq1.le
  have hlen := Hist.cdf_length h
  have hb : h.bins.length = 1 := h2
  have hi : i = 0 := by
    have := (List.getElem?_eq_some_iff.1 e2).1; omega
  subst hi
  have hc : c = 1 := by
    rw [List.getLast?_eq_getElem?, hlen, hb] at hl
    rw [show 1 - 1 = 0 from rfl] at hl
    rw [hl] at e2
    injection e2 with e2
    exact e2.symm
  subst hc
  rw [Hist.quantile_at h0 hq1.le e1 e2 (List.getElem?_eq_getElem (by omega)), if_neg]
  · rw [List.getElem?_eq_none (by omega)]
  · rw [not_le, abs_of_nonneg h0, abs_one, min_eq_left hq1.le, abs_of_neg (by linarith)]
    linarith

/-- Two bins: the median exists. -/
example : (do
    let h ← updateAll (Hist.update (exact ℚ)) (Hist.new 2 10) [1, 2, 3]
    h.quantile (exact ℚ) (1 / 2)) = .ok (3 / 2) := by
  decide +kernel

/-! ## C61 -/

/-- The full property (exact arithmetic). It is false of the code. -/
def C61_full : Prop := ∀ (numBins W : ℕ) (xs : List ℚ) (h : Hist ℚ), xs.length ≤ W →
  updateAll (Hist.update (exact ℚ)) (Hist.new numBins W) xs = .ok h →
  (∀ q v, h.quantile (exact ℚ) q = .ok v → (∃ a ∈ xs, a ≤ v) ∧ (∃ b ∈ xs, v ≤ b)) ∧
  (∀ q q' v v', q ≤ q' → h.quantile (exact ℚ) q = .ok v → h.quantile (exact ℚ) q' = .ok v' → v ≤ v')

/-- **C61** is violated twice: 1, 2, 3 in two bins has median 3/2 and two-thirds quantile 1; and 1, 101/100 has
two-thirds quantile 11/10, above both observations. -/
theorem C61_violated : ¬ C61_full ∧
    (do let h ← updateAll (Hist.update (exact ℚ)) (Hist.new 2 10) [1, 2, 3]
        h.quantile (exact ℚ) (1 / 2)) = .ok (3 / 2) ∧
    (do let h ← updateAll (Hist.update (exact ℚ)) (Hist.new 2 10) [1, 2, 3]
        h.quantile (exact ℚ) (2 / 3)) = .ok 1 ∧
    (do let h ← updateAll (Hist.update (exact ℚ)) (Hist.new 10 10) [1, 101 / 100]
        h.quantile (exact ℚ) (2 / 3)) = .ok (11 / 10) := by
  refine ⟨fun h => ?_, by decide +kernel, by decide +kernel, by decide +kernel⟩
  have h1 := (h 2 10 [1, 2, 3] ⟨2, 10, [⟨1, 2, 2⟩, ⟨3, 3, 1⟩], [0, 0, 0, 0, 0, 0, 0, 0, 0, 0, 0, 0, 2], 3, 3, 3⟩
    (by simp) (by decide +kernel)).2 (1 / 2) (2 / 3) (3 / 2) 1 (by norm_num) (by decide +kernel) (by decide +kernel)
  norm_num at h1

/-- **C61**, lower bound (exact arithmetic): while the window fills, no quantile is below all observations. -/
theorem C61_lower_partial (numBins W : ℕ) (xs : List K) (h : Hist K) (q v : K) (hn : xs.length ≤ W)
    (hu : updateAll (Hist.update (exact K)) (Hist.new numBins W) xs = .ok h)
    (hv : h.quantile (exact K) q = .ok v) : ∃ a ∈ xs, a ≤ v := by
  have hq : 0 ≤ q ∧ q ≤ 1 := by
    have := (C60_rejects Rounding.none h q).not.1 (by
      rintro ⟨m, hm⟩
      have : h.quantile (exact K) q = .throw m := hm
      rw [hv] at this
      cases this)
    push Not at this
    exact this
  obtain ⟨h0, h1⟩ := hq
  have hne : xs ≠ [] := by
    rintro rfl
    simp only [updateAll] at hu
    injection hu with hu
    subst hu
    simp [Hist.quantile, Hist.quantileIndex, Hist.lowerBound, Hist.cdf, Hist.pdf, Hist.new, Hist.partialSum, exact] at hv
    split at hv <;> cases hv
  obtain ⟨-, hs, hl⟩ := C58_cdf numBins W xs h hne hn hu
  obtain ⟨i, c, e1, e2, e3⟩ := Hist.index_spec hs hl h1
  have hlen := Hist.cdf_length h
  have hi : i < h.bins.length := by
    have := (List.getElem?_eq_some_iff.1 e2).1; omega
  have hpos : 0 < xs.length := List.length_pos_iff.2 hne
  have ho := Hist.Ordered.run (R := Rounding.none) (by omega) hu
  have hmem : h.bins[i] ∈ h.bins := List.getElem_mem hi
  rw [Hist.quantile_at h0 h1 e1 e2 (List.getElem?_eq_getElem hi)] at hv
  refine ⟨_, (ho.mem _ hmem).1, ?_⟩
  split at hv
  · injection hv with hv; rw [hv]
  · split at hv
    · cases hv
    · rename_i c' hc'
      injection hv with hv
      rw [← hv]
      have hcc : c ≤ c' := by
        obtain ⟨g1, g2⟩ := List.getElem?_eq_some_iff.1 e2
        obtain ⟨g3, g4⟩ := List.getElem?_eq_some_iff.1 hc'
        rw [← g2, ← g4]
        exact (List.pairwise_iff_getElem.1 hs i (i + 1) g1 g3 (by omega)).le
      have hw : (0 : K) ≤ (if h.bins[i].right - h.bins[i].left = 0 then 1 / (h.numBins : K)
          else h.bins[i].right - h.bins[i].left) := by
        split
        · positivity
        · have := ho.le _ hmem; linarith
      have : (0 : K) ≤ (if h.bins[i].right - h.bins[i].left = 0 then 1 / (h.numBins : K)
          else h.bins[i].right - h.bins[i].left) * (c' - c) * h.total / h.bins[i].count := by
        have : 0 ≤ c' - c := by linarith
        positivity
      linarith

/-- **C61**, at the levels of the cdf (exact arithmetic): the quantile at `cdf[i]` is the left edge of bin `i`, so
on those levels it is increasing. -/
theorem C61_knots_partial (numBins W : ℕ) (xs : List K) (h : Hist K) (i : ℕ) (c : K) (b : Bin K)
    (hn : xs.length ≤ W) (hu : updateAll (Hist.update (exact K)) (Hist.new numBins W) xs = .ok h)
    (hc : (h.cdf (exact K) true)[i]? = some c) (hb : h.bins[i]? = some b) :
    h.quantile (exact K) c = .ok b.left := by
  have hne : xs ≠ [] := by
    rintro rfl
    simp only [updateAll] at hu
    injection hu with hu
    subst hu
    simp [Hist.new] at hb
  obtain ⟨hp1, hp2, hp3⟩ := C58_pdf numBins W xs h hne hn hu
  obtain ⟨hrun, hs, hl⟩ := C58_cdf numBins W xs h hne hn hu
  have hc0 : 0 ≤ c := by
    rw [hrun.2 i c hc]
    exact List.sum_nonneg fun p hp => (hp2 p (List.mem_of_mem_take hp)).le
  obtain ⟨g1, g2⟩ := List.getElem?_eq_some_iff.1 hc
  have hc1 : c ≤ 1 := by
    rw [List.getLast?_eq_getElem?] at hl
    obtain ⟨g3, g4⟩ := List.getElem?_eq_some_iff.1 hl
    rw [← g2, ← g4]
    rcases Nat.lt_or_ge i ((h.cdf (exact K) true).length - 1) with hlt | hge
    · exact (List.pairwise_iff_getElem.1 hs _ _ g1 g3 hlt).le
    · have : i = (h.cdf (exact K) true).length - 1 := by omega
      subst this; exact le_rfl
  obtain ⟨j, c', e1, e2, e3⟩ := Hist.index_spec hs hl hc1
  obtain ⟨g5, g6⟩ := List.getElem?_eq_some_iff.1 e2
  -- the index found is `i`
  have hij : j = i := by
    obtain ⟨k1, k2, k3⟩ := Hist.lowerBound_spec (cs := h.cdf (exact K) true) (q := c) (Rounding.none (K := K))
    have he : Hist.lowerBound (Rounding.none (K := K)).arith (h.cdf (exact K) true) c = i := by
      rcases Nat.lt_trichotomy (Hist.lowerBound (Rounding.none (K := K)).arith (h.cdf (exact K) true) c) i with
        hlt | he | hgt
      · have := k3 _ (List.getElem?_eq_getElem (by omega))
        have h2 := List.pairwise_iff_getElem.1 hs _ _ (by omega) g1 hlt
        rw [g2] at h2
        exact absurd h2 (not_lt.2 this)
      · exact he
      · exact absurd (k2 i c hgt hc) (lt_irrefl _)
    have : Hist.quantileIndex (exact K) (h.cdf (exact K) true) c = .ok i := by
      unfold Hist.quantileIndex
      have he' : Hist.lowerBound (exact K) (h.cdf (exact K) true) c = i := he
      simp only [he', hc]
      rw [if_neg]
      rw [Bool.and_eq_true]
      rintro ⟨-, g⟩
      exact absurd (of_decide_eq_true g) (lt_irrefl c)
    rw [this] at e1
    injection e1 with e1
    exact e1.symm
  subst hij
  rw [Hist.quantile_at hc0 hc1 e1 hc hb, if_pos]
  rw [sub_self, abs_zero]
  have := abs_nonneg c
  simp

/-- **C61**, between two levels (exact arithmetic): the quantile does not depend on the level; it is the left edge of
bin `i` plus its width (1/numBins if it has none) times the ratio of the next count to its own. -/
theorem C61_between (numBins W : ℕ) (xs : List K) (h : Hist K) (i : ℕ) (c c' q : K) (b b' : Bin K)
    (hn : xs.length ≤ W) (hu : updateAll (Hist.update (exact K)) (Hist.new numBins W) xs = .ok h)
    (hc : (h.cdf (exact K) true)[i]? = some c) (hc' : (h.cdf (exact K) true)[i + 1]? = some c')
    (hb : h.bins[i]? = some b) (hb' : h.bins[i + 1]? = some b')
    (hq : c * (1 + 1 / 10000) < q) (hq' : q < c') :
    h.quantile (exact K) q = .ok (b.left +
      (if b.right = b.left then 1 / (numBins : K) else b.right - b.left) * b'.count / b.count) := by
  have hne : xs ≠ [] := by
    rintro rfl
    simp only [updateAll] at hu
    injection hu with hu
    subst hu
    simp [Hist.new] at hb
  obtain ⟨hp1, hp2, hp3⟩ := C58_pdf numBins W xs h hne hn hu
  obtain ⟨hrun, hs, hl⟩ := C58_cdf numBins W xs h hne hn hu
  have hc0 : 0 ≤ c := by
    rw [hrun.2 i c hc]
    exact List.sum_nonneg fun p hp => (hp2 p (List.mem_of_mem_take hp)).le
  have hcq : c < q := by nlinarith
  have hq0 : 0 ≤ q := hc0.trans hcq.le
  obtain ⟨g1, g2⟩ := List.getElem?_eq_some_iff.1 hc
  obtain ⟨g1', g2'⟩ := List.getElem?_eq_some_iff.1 hc'
  have hc1 : c' ≤ 1 := by
    rw [List.getLast?_eq_getElem?] at hl
    obtain ⟨g3, g4⟩ := List.getElem?_eq_some_iff.1 hl
    rw [← g2', ← g4]
    rcases Nat.lt_or_ge (i + 1) ((h.cdf (exact K) true).length - 1) with hlt | hge
    · exact (List.pairwise_iff_getElem.1 hs _ _ g1' g3 hlt).le
    · have : i + 1 = (h.cdf (exact K) true).length - 1 := by omega
      have he : (h.cdf (exact K) true)[i + 1] = (h.cdf (exact K) true)[(h.cdf (exact K) true).length - 1] := by
        congr 1
      exact he.le
  have hidx : Hist.quantileIndex (exact K) (h.cdf (exact K) true) q = .ok i := by
    obtain ⟨k1, k2, k3⟩ := Hist.lowerBound_spec (cs := h.cdf (exact K) true) (q := q) (Rounding.none (K := K))
    have he : Hist.lowerBound (Rounding.none (K := K)).arith (h.cdf (exact K) true) q = i + 1 := by
      rcases Nat.lt_trichotomy (Hist.lowerBound (Rounding.none (K := K)).arith (h.cdf (exact K) true) q) (i + 1) with
        hlt | he | hgt
      · exfalso
        have h3 := k3 _ (List.getElem?_eq_getElem (by omega))
        rcases Nat.lt_or_ge (Hist.lowerBound (Rounding.none (K := K)).arith (h.cdf (exact K) true) q) i with hlt' | hge
        · have h2 := List.pairwise_iff_getElem.1 hs _ _ (by omega) g1 hlt'
          rw [g2] at h2
          linarith
        · have he : Hist.lowerBound (Rounding.none (K := K)).arith (h.cdf (exact K) true) q = i := by omega
          simp only [he, g2] at h3
          linarith
      · exact he
      · exact absurd (k2 (i + 1) c' hgt hc') (not_lt.2 hq'.le)
    unfold Hist.quantileIndex
    have he' : Hist.lowerBound (exact K) (h.cdf (exact K) true) q = i + 1 := he
    simp only [he', hc']
    rw [if_pos]
    · simp
    · rw [Bool.and_eq_true]
      exact ⟨by simp, decide_eq_true hq'⟩
  rw [Hist.quantile_at hq0 (hq'.le.trans hc1) hidx hc hb, if_neg]
  · rw [hc']
    simp only [sub_eq_zero]
    have hcnt := Hist.Counts.run hu
    rw [hcnt.numBins]
    have hpos : 0 < xs.length := List.length_pos_iff.2 hne
    have ht : (h.total : K) ≠ 0 := by
      have : h.total = xs.length := by rw [hcnt.total]; omega
      rw [this]; exact_mod_cast hpos.ne'
    have hdiff : c' - c = (b'.count : K) / h.total := by
      rw [hrun.2 i c hc, hrun.2 (i + 1) c' hc', List.take_add_one (i := i + 1), List.sum_append, Hist.pdf_exact]
      simp [hb']
    rw [hdiff]
    congr 2
    field_simp
  · rw [not_le, abs_of_nonneg hq0, abs_of_nonneg hc0, abs_of_pos (by linarith), min_eq_right hcq.le]
    linarith

/-- 1, 2, 3 in ten bins. -/
example : (do
    let h ← updateAll (Hist.update (exact ℚ)) (Hist.new 10 10) [1, 2, 3]
    h.quantile (exact ℚ) (1 / 2)) = .ok (11 / 10) := by
  decide +kernel

end Round

/-! ## C62 -/

/-- The full property (exact arithmetic): counts after a reset are those of a fresh histogram. It is false of the
code. -/
def C62_full : Prop := ∀ (numBins W : ℕ) (xs ys : List ℚ) (h h' f : Hist ℚ),
  updateAll (Hist.update (exact ℚ)) (Hist.new numBins W) xs = .ok h →
  updateAll (Hist.update (exact ℚ)) h.reset ys = .ok h' →
  updateAll (Hist.update (exact ℚ)) (Hist.new numBins W) ys = .ok f →
  h'.getTotalCount = f.getTotalCount ∧ h'.binCounts = f.binCounts ∧ h'.bins = f.bins

/-- **C62** is violated: one observation, a reset and one observation leave a total of 2, and `binCounts` throws. -/
theorem C62_violated : ¬ C62_full ∧ (do
    let h ← updateAll (Hist.update (exact ℚ)) (Hist.new 10 10) [1]
    let h ← updateAll (Hist.update (exact ℚ)) h.reset [1]
    h.binCounts) = .throw "Counts are somehow out of sync!" := by
  refine ⟨fun h => ?_, by decide +kernel⟩
  have h1 := (h 10 10 [1] [1] ⟨10, 10, [⟨1, 1, 1⟩], [0, 0, 0, 0, 0, 0, 0, 0, 0, 0, 0], 1, 1, 1⟩
    ⟨10, 10, [⟨1, 1, 1⟩], [0], 2, 1, 2⟩ ⟨10, 10, [⟨1, 1, 1⟩], [0, 0, 0, 0, 0, 0, 0, 0, 0, 0, 0], 1, 1, 1⟩
    (by decide +kernel) (by decide +kernel) (by decide +kernel)).1
  revert h1
  decide +kernel

/-- **C62**, what `reset` does clear (any arithmetic, any histogram). -/
theorem C62_clears_partial {F : Type} (h : Hist F) :
    h.reset.size = 0 ∧ h.reset.historyCount = 0 ∧ h.reset.isEmpty = true ∧ h.reset.getTotalCount = h.getTotalCount :=
  ⟨rfl, rfl, rfl, rfl⟩

namespace Hist

variable {F : Type} {A : Arith F}

/-- Same bins, both still filling. -/
structure Twin (n : ℕ) (h f : Hist F) : Prop where
  bins : h.bins = f.bins
  numBins : h.numBins = f.numBins
  windowSize : h.windowSize = f.windowSize
  hist : h.historyCount = f.historyCount
  ftotal : f.total = 0 → f.bins = []
  htotal : h.total = 0 → h.bins = []
  hfill : h.total + n ≤ h.windowSize
  ffill : f.total + n ≤ f.windowSize

theorem Twin.update {n : ℕ} {h f : Hist F} (ht : Twin (n + 1) h f) (x : F) :
    (h.update A x = .ub .oob ∧ f.update A x = .ub .oob) ∨
    ∃ h' f', h.update A x = .ok h' ∧ f.update A x = .ok f' ∧ Twin n h' f' := by
  obtain ⟨i, e1, hi, -⟩ := binSearchBin_spec (A := A) h (unit x)
  have hsearch : h.binSearch A x = .ok i := e1
  have fsearch : f.binSearch A x = .ok i := by
    rw [← hsearch]; unfold binSearch binSearchBin; rw [ht.bins]
  -- placement does not depend on the totals
  have hplace : ∃ b1 l1 l2, h.place A x i = .ok { h with bins := b1, live := l1 } ∧
      f.place A x i = .ok { f with bins := b1, live := l2 } := by
    obtain ⟨j, b1, l1, g1, g2, -⟩ := place_spec (A := A) h x
    have hj : j = i := by rw [hsearch] at g1; injection g1 with g1; exact g1.symm
    subst hj
    obtain ⟨j', b1', l1', k1, k2, -⟩ := place_spec (A := A) f x
    have hj : j' = j := by rw [fsearch] at k1; injection k1 with k1; exact k1.symm
    subst hj
    refine ⟨b1, l1, l1', g2, ?_⟩
    have hb : b1' = b1 := by
      have q1 : (h.place A x j').mapOk Hist.bins = .ok b1 := by rw [g2]; rfl
      have q2 : (f.place A x j').mapOk Hist.bins = .ok b1' := by rw [k2]; rfl
      have q3 : (h.place A x j').mapOk Hist.bins = (f.place A x j').mapOk Hist.bins := by
        unfold place
        simp only
        have hi' : j' ≤ f.bins.length := by rw [← ht.bins]; exact hi
        by_cases h0 : h.bins = []
        · have hf0 : f.bins = [] := by rw [← ht.bins]; exact h0
          have hj0 : j' = 0 := by rw [hf0] at hi'; simpa using hi'
          subst hj0
          simp only [h0, hf0, List.length_nil, if_true]
          split <;> split <;> rfl
        · have hf0 : f.bins ≠ [] := by rw [← ht.bins]; exact h0
          rw [if_neg (fun hh => h0 (ht.htotal hh)), if_neg (fun hh => hf0 (ht.ftotal hh)), ht.bins]
          split
          · rfl
          · split
            · rfl
            · split <;> rfl
      rw [q1, q2] at q3
      injection q3 with q3
      exact q3.symm
    rw [k2, hb]
  obtain ⟨b1, l1, l2, p1, p2⟩ := hplace
  have hadd : h.add A x = .ok { h with
      bins := b1, live := l1, historyCount := h.historyCount + 1, total := h.total + 1,
      window := h.window ++ [i] } := by
    unfold add
    rw [hsearch, Res.ok_bind, p1, Res.ok_bind, decay_noop]
    have := ht.hfill
    simp only; omega
  have fadd : f.add A x = .ok { f with
      bins := b1, live := l2, historyCount := f.historyCount + 1, total := f.total + 1,
      window := f.window ++ [i] } := by
    unfold add
    rw [fsearch, Res.ok_bind, p2, Res.ok_bind, decay_noop]
    have := ht.ffill
    simp only; omega
  rw [update_eq, update_eq, hadd, fadd, Res.ok_bind, Res.ok_bind]
  unfold finish
  simp only [ht.numBins]
  have e3 := ht.hfill
  have e4 := ht.ffill
  by_cases hb : b1.length > f.numBins
  · rw [if_pos hb, if_pos hb]
    rcases mergeBins_spec (A := A) b1 (mergeIndex A b1) with ⟨-, he⟩ | ⟨l', he, -⟩
    · left; rw [he]; exact ⟨rfl, rfl⟩
    · right
      rw [he]
      exact ⟨_, _, rfl, rfl, rfl, rfl, ht.windowSize, by simp [ht.hist], by simp, by simp, by simp only; omega,
        by simp only; omega⟩
  · rw [if_neg hb, if_neg hb]
    right
    exact ⟨_, _, rfl, rfl, rfl, rfl, ht.windowSize, by simp [ht.hist], by simp, by simp, by simp only; omega,
      by simp only; omega⟩

theorem Twin.run {ys : List F} {h f : Hist F} (ht : Twin ys.length h f) :
    (updateAll (Hist.update A) h ys).mapOk (fun h => (h.bins, h.historyCount)) =
    (updateAll (Hist.update A) f ys).mapOk (fun h => (h.bins, h.historyCount)) := by
  induction ys generalizing h f with
  | nil => simp only [updateAll, Res.mapOk, ht.bins, ht.hist]
  | cons y ys ih =>
    simp only [updateAll]
    rcases ht.update (A := A) y with ⟨e1, e2⟩ | ⟨h', f', e1, e2, ht'⟩
    · rw [e1, e2]
    · rw [e1, e2]
      exact ih ht'

end Hist

/-- **C62**, the part that holds (any arithmetic): as long as the observations before and after the reset together
fit the window, the bins and the history count evolve as in a new histogram. Missing: the total count,
which keeps the observations from before the reset, and longer streams. -/
theorem C62_bins_partial {F : Type} (A : Arith F) (numBins W : ℕ) (xs ys : List F) (h : Hist F)
    (hn : xs.length + ys.length ≤ W) (hu : updateAll (Hist.update A) (Hist.new numBins W) xs = .ok h) :
    (updateAll (Hist.update A) h.reset ys).mapOk (fun h => (h.bins, h.historyCount)) =
    (updateAll (Hist.update A) (Hist.new numBins W) ys).mapOk (fun h => (h.bins, h.historyCount)) := by
  have hc := Hist.Counts.run hu
  refine Hist.Twin.run ⟨rfl, hc.numBins, hc.windowSize, rfl, fun _ => rfl, fun _ => rfl, ?_, ?_⟩
  · have := hc.total; have := hc.windowSize
    simp only [Hist.reset]; omega
  · simp [Hist.new]; omega

/-- Two observations, a reset, three more. -/
example : (do
    let h ← updateAll (Hist.update b64) (Hist.new 2 5) [9, 8]
    let h ← updateAll (Hist.update b64) h.reset [3, 1, 2]
    .ok h.bins) = .ok [⟨1, 2, 2⟩, ⟨3, 3, 1⟩] := by
  decide +kernel

/-! ## C63 -/

/-- The full property. Both halves are false of the code. -/
def C63_full : Prop :=
  (∀ (h : Hist ℚ) (i : ℕ), h.size ≤ i → (h.getBin i).IsThrow) ∧
  (∀ (numBins W : ℕ) (xs : List ℚ) (h : Hist ℚ),
    updateAll (Hist.update (exact ℚ)) (Hist.new numBins W) xs = .ok h →
    (h.isFull = true ↔ W ≤ xs.length))

/-- **C63** is violated: `getBin(size())` reads past the end, and one observation makes a histogram with window
10 "full". -/
theorem C63_violated : ¬ C63_full ∧ ¬ (∀ (h : Hist ℚ) (i : ℕ), h.size ≤ i → (h.getBin i).IsThrow) ∧
    ¬ (∀ (numBins W : ℕ) (xs : List ℚ) (h : Hist ℚ),
      updateAll (Hist.update (exact ℚ)) (Hist.new numBins W) xs = .ok h →
      (h.isFull = true ↔ W ≤ xs.length)) := by
  have h1 : ¬ (∀ (h : Hist ℚ) (i : ℕ), h.size ≤ i → (h.getBin i).IsThrow) := by
    intro h
    obtain ⟨m, hm⟩ := h (Hist.new 10 10) 0 le_rfl
    cases hm
  have h2 : ¬ (∀ (numBins W : ℕ) (xs : List ℚ) (h : Hist ℚ),
      updateAll (Hist.update (exact ℚ)) (Hist.new numBins W) xs = .ok h →
      (h.isFull = true ↔ W ≤ xs.length)) := by
    intro h
    have := (h 10 10 [1] ⟨10, 10, [⟨1, 1, 1⟩], [0, 0, 0, 0, 0, 0, 0, 0, 0, 0, 0], 1, 1, 1⟩ (by decide +kernel)).1
      (by decide +kernel)
    simp at this
  exact ⟨fun h => h1 h.1, h1, h2⟩

/-- **C63**, what `getBin` does check (any arithmetic, any histogram): it returns the bin below `size()`, is undefined
at `size()` and throws above. -/
theorem C63_getBin_partial {F : Type} (h : Hist F) (i : ℕ) :
    ((∃ b, h.getBin i = .ok b ∧ h.bins[i]? = some b) ↔ i < h.size) ∧
    (h.getBin i = .ub .oob ↔ i = h.size) ∧ ((h.getBin i).IsThrow ↔ h.size < i) := by
  unfold Hist.getBin Hist.size
  rcases Nat.lt_trichotomy i h.bins.length with hlt | heq | hgt
  · rw [if_neg (by omega), List.getElem?_eq_getElem hlt]
    refine ⟨⟨fun _ => hlt, fun _ => ⟨_, rfl, rfl⟩⟩, ⟨fun h => (by cases h), fun h => by omega⟩,
      ⟨fun ⟨m, hm⟩ => (by cases hm), fun h => by omega⟩⟩
  · rw [if_neg (by omega), List.getElem?_eq_none (by omega)]
    refine ⟨⟨fun ⟨b, hb, _⟩ => (by cases hb), fun h => by omega⟩, ⟨fun _ => heq, fun _ => rfl⟩,
      ⟨fun ⟨m, hm⟩ => (by cases hm), fun h => by omega⟩⟩
  · rw [if_pos hgt]
    refine ⟨⟨fun ⟨b, hb, _⟩ => (by cases hb), fun h => by omega⟩, ⟨fun h => (by cases h), fun h => by omega⟩,
      ⟨fun _ => hgt, fun _ => ⟨_, rfl⟩⟩⟩

/-- **C63**, what `full` means (any arithmetic, `W ≥ 1`, `numBins ≥ 1`): while the window fills, at least one
observation. -/
theorem C63_full_partial {F : Type} (A : Arith F) (numBins W : ℕ) (xs : List F) (h : Hist F) (hn : xs.length ≤ W)
    (hu : updateAll (Hist.update A) (Hist.new numBins W) xs = .ok h) : h.isFull = true ↔ xs ≠ [] := by
  have hs := (Hist.Counts.run hu).sum_eq hn
  unfold Hist.isFull Hist.isEmpty
  rcases hb : h.bins with _ | ⟨b, l⟩
  · rw [hb] at hs
    simp [Hist.sumCounts] at hs
    have : xs = [] := List.length_eq_zero_iff.1 hs.symm
    simp [this]
  · have : xs ≠ [] := by
      rintro rfl
      simp only [updateAll] at hu
      injection hu with hu
      subst hu
      simp [Hist.new] at hb
    simp [this]

/-- Three bins. -/
example : (⟨5, 9, [⟨1, 1, 1⟩, ⟨2, 2, 1⟩, ⟨3, 3, 1⟩], [], 3, 3, 3⟩ : Hist ℚ).getBin 1 = .ok ⟨2, 2, 1⟩ ∧
    (⟨5, 9, [⟨1, 1, 1⟩, ⟨2, 2, 1⟩, ⟨3, 3, 1⟩], [], 3, 3, 3⟩ : Hist ℚ).getBin 3 = .ub .oob ∧
    (⟨5, 9, [⟨1, 1, 1⟩, ⟨2, 2, 1⟩, ⟨3, 3, 1⟩], [], 3, 3, 3⟩ : Hist ℚ).getBin 4 =
      .throw "Can't get bin outside of histogram!" := by
  decide +kernel

end KML
