import Verif.Props.HistTally
import Verif.Props.HistQueries
import Verif.Props.DoubleQueries

/-! # C100: the histogram's cdf and the empirical distribution function -/

set_option linter.unusedSectionVars false

namespace KML

open Spec

/-- Fraction of the observations that are at most `v`. -/
def Spec.ecdf {K : Type} [LinearOrder K] [Field K] (xs : List K) (v : K) : K :=
  ((xs.filter (· ≤ v)).length : K) / xs.length

/-- **C100**, as one would claim it: while the window is filling, entry `i` of the normalised cdf is the fraction of the
observations that are at most the right edge of bin `i`. It is false of the code. -/
def C100_full : Prop := ∀ (numBins W : ℕ) (xs : List ℚ) (h : Hist ℚ), 1 ≤ numBins → xs.length ≤ W →
  updateAll (Hist.update (exact ℚ)) (Hist.new numBins W) xs = .ok h →
  h.cdf (exact ℚ) true = h.bins.map fun b => ecdf xs b.right

section Round

variable {K : Type} [Field K] [LinearOrder K] [IsStrictOrderedRing K] [FloorRing K]

namespace Hist

theorem Tally.first {xs : List K} {b : Bin K} {l : List (Bin K)} (h : Tally xs (b :: l)) :
    b.count = (xs.filter (· ≤ b.right)).length := by
  rw [h.cnt b (by simp)]
  unfold inside
  congr 1
  refine List.filter_congr fun x hx => ?_
  obtain ⟨c, hc, h1, -⟩ := h.all x hx
  have hle : b.left ≤ x := by
    rcases List.mem_cons.1 hc with rfl | hc
    · exact h1
    · exact (h.le b (by simp)).trans ((List.pairwise_cons.1 h.disj).1 c hc |>.le.trans h1)
  simp [hle]

theorem Tally.sum {xs : List K} (l1 : List (Bin K)) {b : Bin K} {l2 : List (Bin K)} (h : Tally xs (l1 ++ b :: l2)) :
    sumCounts (l1 ++ [b]) = (xs.filter (· ≤ b.right)).length := by
  induction hn : l1.length generalizing l1 b with
  | zero =>
    have : l1 = [] := List.length_eq_zero_iff.1 hn
    subst this
    have := Tally.first (b := b) (l := l2) h
    rw [← this]
    simp [sumCounts]
  | succ n ih =>
    match l1, hn, h with
    | [a], _, h =>
      have hj := Tally.join (l1 := []) (a := a) (b := b) (c := ⟨a.left, b.right, a.count + b.count⟩) (l2 := l2) h rfl rfl rfl
      have := Tally.first hj
      simp only at this
      rw [← this]
      simp [sumCounts]
    | a :: d :: l, hn, h =>
      have hj := Tally.join (l1 := []) (a := a) (b := d) (c := ⟨a.left, d.right, a.count + d.count⟩) (l2 := l ++ b :: l2) h
        rfl rfl rfl
      have := ih (⟨a.left, d.right, a.count + d.count⟩ :: l) hj (by simpa using hn)
      rw [← this]
      simp [sumCounts]
      omega

theorem Tally.take {xs : List K} {l : List (Bin K)} (h : Tally xs l) {i : ℕ} {b : Bin K} (hb : l[i]? = some b) :
    sumCounts (l.take (i + 1)) = (xs.filter (· ≤ b.right)).length := by
  obtain ⟨l1, l2, rfl, rfl⟩ := split_getElem? hb
  rw [← h.sum l1]
  congr 1
  rw [List.take_append, List.take_of_length_le (by omega)]
  simp

end Hist

/-- **C100**, the part that holds (exact arithmetic): values separated by more than the relative tolerance 0.0001, any
number of bins. Missing: closer values, longer streams. -/
theorem C100_cdf_partial (numBins W : ℕ) (xs : List K) (h : Hist K) (hn : xs.length ≤ W)
    (hsep : Separated (1 / 10000 : K) xs)
    (hu : updateAll (Hist.update (exact K)) (Hist.new numBins W) xs = .ok h) :
    h.cdf (exact K) true = h.bins.map fun b => ecdf xs b.right := by
  have hap : Hist.Apart (Rounding.none (K := K)) xs := fun a ha b hb hab => by
    have he : Utils.defaultEps (Rounding.none (K := K)).arith = 1 / 10000 := by
      simp [Utils.defaultEps, Rounding.none, Rounding.arith]
    rw [he]
    exact (less_exact a b _).2 (by have := hsep a ha b hb hab; rwa [mul_comm])
  have ht := (Hist.Tally.run Hist.neat_none hn hap hu).1
  have hc := Hist.Counts.run hu
  have htot : h.total = xs.length := by rw [hc.total]; omega
  obtain ⟨r1, r2⟩ : IsRunningSum (h.pdf (exact K) true false) (h.cdf (exact K) true) := Hist.partialSum_spec _
  refine List.ext_getElem? fun i => ?_
  rw [List.getElem?_map]
  rcases hb : h.bins[i]? with _ | b
  · rw [List.getElem?_eq_none_iff] at hb
    rw [Option.map_none, List.getElem?_eq_none_iff, Hist.cdf_length]
    exact hb
  · have hi : i < (h.cdf (exact K) true).length := by
      rw [Hist.cdf_length]; exact (List.getElem?_eq_some_iff.1 hb).1
    rw [List.getElem?_eq_getElem hi, Option.map_some, r2 i _ (List.getElem?_eq_getElem hi), Hist.pdf_exact,
      ← List.map_take, Hist.sum_div, ht.take hb, htot]
    rfl

/-- Eight observations of eight values in three bins. -/
example : ∀ h, updateAll (Hist.update (exact ℚ)) (Hist.new 3 8) [3, 9, 1, 4, 8, 2, 5, 7] = .ok h →
    h.cdf (exact ℚ) true = h.bins.map fun b => ecdf [3, 9, 1, 4, 8, 2, 5, 7] b.right := fun h hu =>
  C100_cdf_partial 3 8 _ h (by simp) (by unfold Separated; decide +kernel) hu

end Round

/-- Its result: the fractions up to the right edges 2, 7 and 9. -/
example : (updateAll (Hist.update (exact ℚ)) (Hist.new 3 8) [3, 9, 1, 4, 8, 2, 5, 7]).mapOk
    (fun h => (h.bins.map Bin.right, h.cdf (exact ℚ) true)) = .ok ([2, 7, 9], [1 / 4, 3 / 4, 1]) := by
  decide +kernel

/-- C100 fails: of 1 and 1.00005 the cdf at the edge 1 says that all observations are at most 1. On doubles a descending
stream from `m + n - 1` to `m` has the cdf 1 at the edge `m`, although only one of the `n` observations is at most `m`. -/
theorem C100_violated : ¬ C100_full ∧
    ∀ W m n : ℕ, 2000000 ≤ m → 1 ≤ n → n ≤ W → m + n ≤ 2 ^ 53 →
      (updateAll (Hist.update Dbl.arith) (Hist.new 1 W) ((List.range' m n).reverse.map fun i : ℕ => .fin (i : ℚ))).mapOk
        (fun h => (h.bins.map Bin.right, h.cdf Dbl.arith true)) = .ok ([.fin m], [.fin 1]) ∧
      ecdf ((List.range' m n).reverse.map fun i : ℕ => (i : ℚ)) m = 1 / n := by
  refine ⟨fun hf => ?_, ?_⟩
  · have := hf 4 4 [1, 100005 / 100000]
      { numBins := 4, windowSize := 4, bins := [⟨1, 1, 2⟩], window := [0, 0, 0, 0, 0, 0], total := 2, historyCount := 2,
        live := 1 } (by norm_num) (by simp) (by decide +kernel)
    revert this
    unfold ecdf
    decide +kernel
  · intro W m n hm hn hW hs
    constructor
    · have h1 := C99_violated_drift W m n hm hn hW hs
      cases hu : updateAll (Hist.update Dbl.arith) (Hist.new 1 W) ((List.range' m n).reverse.map fun i : ℕ => Dbl.fin (i : ℚ)) with
      | throw m => rw [hu] at h1; cases h1
      | ub u => rw [hu] at h1; cases h1
      | ok h =>
        rw [hu] at h1
        have hb : h.bins = [⟨.fin m, .fin m, n⟩] := by injection h1
        have hlen : ((List.range' m n).reverse.map fun i : ℕ => Dbl.fin (i : ℚ)).length = n := by simp
        have hp := C92_pdf_partial 1 W _ h (by rw [← List.length_pos_iff, hlen]; exact hn) (by rw [hlen]; exact hW)
          (by rw [hlen]; omega) hu
        rw [hb, hlen] at hp
        have hn0 : (n : ℚ) ≠ 0 := by exact_mod_cast (by omega : n ≠ 0)
        have h11 : rnd64 1 = 1 := by decide +kernel
        simp only [List.map_cons, List.map_nil, div_self hn0, h11] at hp
        show Res.ok (h.bins.map Bin.right, Hist.partialSum Dbl.arith (h.pdf Dbl.arith true false)) = _
        rw [hp, hb]
        rfl
    · have hcount : (((List.range' m n).reverse.map fun i : ℕ => (i : ℚ)).filter (· ≤ (m : ℚ))).length = 1 := by
        rw [List.filter_map, List.length_map]
        obtain ⟨k, rfl⟩ : ∃ k, n = k + 1 := ⟨n - 1, by omega⟩
        rw [List.range'_succ, List.reverse_cons, List.filter_append, List.length_append]
        have e1 : (List.range' (m + 1) k).reverse.filter ((fun x => decide (x ≤ (m : ℚ))) ∘ fun i : ℕ => (i : ℚ)) = [] := by
          rw [List.filter_eq_nil_iff]
          intro i hi
          rw [List.mem_reverse, List.mem_range'_1] at hi
          simp only [Function.comp_apply, decide_eq_true_eq, Nat.cast_le]
          omega
        rw [e1]
        simp
      unfold ecdf
      rw [hcount]
      simp

/-- **C100**, on doubles: observations that the tolerant comparison of doubles tells apart; entry `i` of the cdf is within
`(i + 1) * 2^-51` of the empirical distribution function at the right edge of bin `i`. -/
theorem C100_dbl_partial (numBins W : ℕ) (hb : 1 ≤ numBins) (xs : List ℚ) (hne : xs ≠ []) (hn : xs.length ≤ W)
    (hN : xs.length ≤ 2 ^ 51) (hx : ∀ x ∈ xs, |x| ≤ dblMax / 4)
    (hap : ∀ a ∈ xs, ∀ b ∈ xs, a < b →
      Utils.definitelyLessThan Dbl.arith (.fin a) (.fin b) (Utils.defaultEps Dbl.arith) = true) :
    ∃ (h : Hist Dbl) (rs cs : List ℚ),
      updateAll (Hist.update Dbl.arith) (Hist.new numBins W) (xs.map .fin) = .ok h ∧
      h.bins.map Bin.right = rs.map .fin ∧ h.cdf Dbl.arith true = cs.map .fin ∧ cs.length = rs.length ∧
      ∀ i r c, rs[i]? = some r → cs[i]? = some c → |c - ecdf xs r| ≤ ((i + 1 : ℕ) : ℚ) / 2 ^ 51 := by
  obtain ⟨h, e⟩ := C55_filling_b64_partial numBins W hb xs hn hx
  have hx2 : ∀ x ∈ xs, |x| ≤ dblMax / 2 := fun x h => (hx x h).trans (by have := dblMax_pos; linarith)
  have hu : updateAll (Hist.update Dbl.arith) (Hist.new numBins W) (xs.map .fin) = .ok (h.map .fin) := by
    rw [C88_no_overflow_partial numBins W xs hx2, e]; rfl
  rw [b64_eq] at e
  have hap' : Hist.Apart R64 xs := fun a ha b hb hab => by
    have := Hist.sim_dbl.less a b (hx2 a ha) (hx2 b hb)
    rw [← b64_eq, ← this]
    exact hap a ha b hb hab
  have ht := (Hist.Tally.run Hist.neat_R64 hn hap' e).1
  have hsum := (Hist.Counts.run e).sum_eq hn
  have hpos : ∀ b ∈ h.bins, 1 ≤ b.count := Hist.pos_run hn e
  have hsz : (h.map Dbl.fin).size = h.bins.length := by simp [Hist.size]
  have hlen : h.bins.length ≤ xs.length := by
    rw [← hsum]
    unfold Hist.sumCounts
    have : ∀ l : List (Bin ℚ), (∀ b ∈ l, 1 ≤ b.count) → l.length ≤ (l.map Bin.count).sum := by
      intro l
      induction l with
      | nil => intro _; simp
      | cons b l ih =>
        intro hl
        have h1 := hl b (by simp)
        have h2 := ih fun c hc => hl c (by simp [hc])
        simp only [List.length_cons, List.map_cons, List.sum_cons]
        omega
    exact this _ hpos
  obtain ⟨cs, c1, c2, c3, c4, c5⟩ := C92_cdf_partial numBins W (xs.map .fin) (h.map .fin) (by simpa using hne)
    (by simpa using hn) (by rw [List.length_map]; omega) (by rw [hsz]; omega) hu
  refine ⟨h.map .fin, h.bins.map Bin.right, cs, hu, ?_, c1, by rw [c2, hsz, List.length_map], ?_⟩
  · simp
  · intro i r c hr hc
    have := c5 i c hc
    rw [List.getElem?_map] at hr
    obtain ⟨b, hb, rfl⟩ := Option.map_eq_some_iff.1 hr
    have e2 : (((h.map Dbl.fin).bins.take (i + 1)).map fun b => (b.count : ℚ) / (xs.map Dbl.fin).length).sum =
        ecdf xs b.right := by
      have e3 : (h.map Dbl.fin).bins = h.bins.map (Bin.map Dbl.fin) := rfl
      rw [e3, ← List.map_take, List.map_map]
      have : ((fun b : Bin Dbl => (b.count : ℚ) / (xs.map Dbl.fin).length) ∘ Bin.map Dbl.fin) =
          fun b : Bin ℚ => (b.count : ℚ) / (xs.length : ℚ) := by
        funext b
        simp
      rw [this, Hist.sum_div, ht.take hb]
      rfl
    rwa [e2] at this

/-- Eight doubles in three bins. -/
example : ∃ (h : Hist Dbl) (rs cs : List ℚ),
    updateAll (Hist.update Dbl.arith) (Hist.new 3 8) ([3, 9, 1, 4, 8, 1 / 2, 4, 7].map .fin) = .ok h ∧
    h.bins.map Bin.right = rs.map .fin ∧ h.cdf Dbl.arith true = cs.map .fin ∧ cs.length = rs.length ∧
    ∀ i r c, rs[i]? = some r → cs[i]? = some c →
      |c - ecdf [3, 9, 1, 4, 8, 1 / 2, 4, 7] r| ≤ ((i + 1 : ℕ) : ℚ) / 2 ^ 51 :=
  C100_dbl_partial 3 8 (by norm_num) _ (by simp) (by simp) (by norm_num) (by decide +kernel) (by decide +kernel)

end KML
