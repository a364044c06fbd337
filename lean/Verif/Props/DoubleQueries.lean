import Verif.Props.DoubleHist
import Verif.Props.HistQueries

/-! # C92: pdf, cdf and quantiles of a histogram of doubles -/

namespace KML

open Spec Utils

/-- Absolute error of one rounding. -/
theorem rnd64_abs_err {x : ℚ} {e : ℤ} (h : |x| < pow2 (e + 1)) (he : -1022 ≤ e) : |rnd64 x - x| ≤ pow2 (e - 52) / 2 := by
  by_cases hx : x = 0
  · subst hx
    have := pow2_pos (e - 52)
    rw [rnd64_zero, sub_zero, abs_zero]; linarith
  have := expo_le_of_lt hx h
  unfold rnd64
  rw [if_neg hx]
  refine (rndAt_err _ x).trans ?_
  have : pow2 (max (expo x - 52) (-1074)) ≤ pow2 (e - 52) := pow2_le.2 (by omega)
  linarith

theorem rnd64_abs_err_one {x : ℚ} (h0 : 0 ≤ x) (h1 : x ≤ 1) : |rnd64 x - x| ≤ 1 / 2 ^ 53 := by
  have := rnd64_abs_err (x := x) (e := 0) (by rw [abs_of_nonneg h0]; exact h1.trans_lt (by decide +kernel)) (by norm_num)
  have e : pow2 (0 - 52) / 2 = 1 / 2 ^ 53 := by decide +kernel
  rwa [e] at this

theorem rnd64_abs_err_three {x : ℚ} (h0 : 0 ≤ x) (h1 : x ≤ 3) : |rnd64 x - x| ≤ 1 / 2 ^ 52 := by
  have := rnd64_abs_err (x := x) (e := 1) (by rw [abs_of_nonneg h0]; exact h1.trans_lt (by decide +kernel)) (by norm_num)
  have e : pow2 (1 - 52) / 2 = 1 / 2 ^ 52 := by decide +kernel
  rwa [e] at this

namespace Hist

/-- Running sums of correctly rounded probabilities on doubles: never infinite, non-decreasing, and close to the exact
running sums. -/
theorem sums_dbl (ps : List ℚ) (acc a : ℚ) (m : ℕ) (hp : ∀ p ∈ ps, 0 ≤ p) (ha : 0 ≤ a) (hs : a + ps.sum ≤ 1)
    (hacc : 0 ≤ acc) (hfix : rnd64 acc = acc) (hm : |acc - a| ≤ m / 2 ^ 51) (hlen : m + ps.length ≤ 2 ^ 51) :
    ∃ cs : List ℚ, partialSumFrom Dbl.arith (.fin acc) (ps.map fun p => .fin (rnd64 p)) = cs.map .fin ∧
      cs.length = ps.length ∧ cs.Pairwise (· ≤ ·) ∧ (∀ c ∈ cs, acc ≤ c) ∧
      ∀ i c, cs[i]? = some c → |c - (a + (ps.take (i + 1)).sum)| ≤ ((m + i + 1 : ℕ) : ℚ) / 2 ^ 51 := by
  induction ps generalizing acc a m with
  | nil => exact ⟨[], rfl, rfl, List.Pairwise.nil, by simp, by simp⟩
  | cons p ps ih =>
    have hp0 := hp p (by simp)
    have hps : ∀ q ∈ ps, 0 ≤ q := fun q hq => hp q (by simp [hq])
    have hsum : 0 ≤ ps.sum := List.sum_nonneg hps
    rw [List.sum_cons] at hs
    rw [List.length_cons] at hlen
    have hp1 : p ≤ 1 := by linarith
    have e1 := rnd64_abs_err_one hp0 hp1
    have r0 := rnd64_nonneg hp0
    have hm1 : (m : ℚ) / 2 ^ 51 ≤ 1 := by
      rw [div_le_one (by positivity)]
      have : m ≤ 2 ^ 51 := by omega
      exact_mod_cast this
    rw [abs_le] at e1 hm
    have hr1 : rnd64 p ≤ 1 := by
      have := rnd64_mono hp1
      rwa [show rnd64 1 = 1 by decide +kernel] at this
    have hlo : 0 ≤ acc + rnd64 p := add_nonneg hacc r0
    have hhi : acc + rnd64 p ≤ 3 := by linarith [hm.2]
    have e2 := rnd64_abs_err_three hlo hhi
    have hM : (3 : ℚ) ≤ dblMax := by decide +kernel
    have hadd : Dbl.arith.add (.fin acc) (.fin (rnd64 p)) = .fin (rnd64 (acc + rnd64 p)) :=
      Dbl.ofRat_fin (by rw [abs_of_nonneg hlo]; linarith)
    have hmono : acc ≤ rnd64 (acc + rnd64 p) := by
      have := rnd64_mono (show acc ≤ acc + rnd64 p by linarith)
      rwa [hfix] at this
    rw [abs_le] at e2
    have hnext : |rnd64 (acc + rnd64 p) - (a + p)| ≤ ((m + 1 : ℕ) : ℚ) / 2 ^ 51 := by
      rw [abs_le]
      push_cast
      rw [add_div]
      constructor
      · linarith [e1.1, hm.1, e2.1]
      · linarith [e1.2, hm.2, e2.2]
    obtain ⟨cs, c1, c2, c3, c4, c5⟩ := ih (rnd64 (acc + rnd64 p)) (a + p) (m + 1) hps (by linarith) (by linarith)
      (by linarith) (rnd64_idem _) hnext (by omega)
    refine ⟨rnd64 (acc + rnd64 p) :: cs, ?_, by simp [c2], List.Pairwise.cons c4 c3, ?_, ?_⟩
    · simp only [List.map_cons, partialSumFrom, hadd, c1]
    · intro c hc
      rcases List.mem_cons.1 hc with rfl | hc
      · exact hmono
      · exact hmono.trans (c4 c hc)
    · intro i c hc
      cases i with
      | zero =>
        simp only [List.getElem?_cons_zero, Option.some.injEq] at hc
        subst hc
        simpa using hnext
      | succ i =>
        rw [List.getElem?_cons_succ] at hc
        have := c5 i c hc
        rw [List.take_succ_cons, List.sum_cons, ← add_assoc]
        refine this.trans (le_of_eq ?_)
        congr 2
        omega

theorem cdf_dbl {ps : List ℚ} (hp : ∀ p ∈ ps, 0 ≤ p) (hs : ps.sum ≤ 1) (hlen : ps.length ≤ 2 ^ 51) :
    ∃ cs : List ℚ, partialSum Dbl.arith (ps.map fun p => .fin (rnd64 p)) = cs.map .fin ∧
      cs.length = ps.length ∧ cs.Pairwise (· ≤ ·) ∧ (∀ c ∈ cs, 0 ≤ c) ∧
      ∀ i c, cs[i]? = some c → |c - (ps.take (i + 1)).sum| ≤ ((i + 1 : ℕ) : ℚ) / 2 ^ 51 := by
  cases ps with
  | nil => exact ⟨[], rfl, rfl, List.Pairwise.nil, by simp, by simp⟩
  | cons p ps =>
    have hp0 := hp p (by simp)
    have hps : ∀ q ∈ ps, 0 ≤ q := fun q hq => hp q (by simp [hq])
    have hsum : 0 ≤ ps.sum := List.sum_nonneg hps
    rw [List.sum_cons] at hs
    rw [List.length_cons] at hlen
    have e1 := rnd64_abs_err_one hp0 (by linarith)
    have hfirst : |rnd64 p - p| ≤ ((1 : ℕ) : ℚ) / 2 ^ 51 := e1.trans (by norm_num)
    obtain ⟨cs, c1, c2, c3, c4, c5⟩ := sums_dbl ps (rnd64 p) p 1 hps hp0 hs (rnd64_nonneg hp0) (rnd64_idem _) hfirst
      (by omega)
    refine ⟨rnd64 p :: cs, ?_, by simp [c2], List.Pairwise.cons c4 c3, ?_, ?_⟩
    · simp only [List.map_cons, partialSum, c1]
    · intro c hc
      rcases List.mem_cons.1 hc with rfl | hc
      · exact rnd64_nonneg hp0
      · exact (rnd64_nonneg hp0).trans (c4 c hc)
    · intro i c hc
      cases i with
      | zero =>
        simp only [List.getElem?_cons_zero, Option.some.injEq] at hc
        subst hc
        simpa using hfirst
      | succ i =>
        rw [List.getElem?_cons_succ] at hc
        have := c5 i c hc
        rw [List.take_succ_cons, List.sum_cons]
        refine this.trans (le_of_eq ?_)
        congr 2
        omega

/-- Where `std::lower_bound` stops. -/
theorem lowerBound_dbl {F : Type} (A : Arith F) (cs : List F) (q : F) :
    (∀ c, cs[lowerBound A cs q]? = some c → A.lt c q = false) ∧
      (cs[lowerBound A cs q]? = none → ∀ c ∈ cs, A.lt c q = true) := by
  unfold lowerBound
  induction cs with
  | nil => simp
  | cons x cs ih =>
    by_cases hx : A.lt x q = true
    · rw [show List.takeWhile (fun x => A.lt x q) (x :: cs) = x :: List.takeWhile (fun x => A.lt x q) cs by simp [hx]]
      simp only [List.length_cons, List.getElem?_cons_succ]
      refine ⟨ih.1, fun hn c hc => ?_⟩
      rcases List.mem_cons.1 hc with rfl | hc
      · exact hx
      · exact ih.2 hn c hc
    · rw [show List.takeWhile (fun x => A.lt x q) (x :: cs) = [] by simp [hx]]
      refine ⟨fun c hc => ?_, fun hn => by simp at hn⟩
      simp at hc
      subst hc
      simpa using hx

/-- `quantile` is defined if the level is accepted, tolerantly equal to the last cdf entry when above it, and tolerantly
equal to an entry it is neither above nor below. -/
theorem quantile_isOk {F : Type} {A : Arith F} {h : Hist F} {q : F}
    (hq : (A.lt q (A.lit 0) || A.lt (A.lit 1) q) = false) (hlen : (h.cdf A true).length = h.bins.length)
    (h2 : 2 ≤ h.bins.length)
    (hend : ∀ c, (h.cdf A true).getLast? = some c → A.lt c q = true → essentiallyEqual A q c (defaultEps A) = true)
    (heq : ∀ c, lowerBound A (h.cdf A true) q ≠ 0 → (h.cdf A true)[lowerBound A (h.cdf A true) q]? = some c →
      A.lt c q = false → A.lt q c = false → essentiallyEqual A q c (defaultEps A) = true) : (h.quantile A q).IsOk := by
  obtain ⟨l1, l2⟩ := lowerBound_dbl A (h.cdf A true) q
  unfold Hist.quantile
  rw [hq]
  simp only [Bool.false_eq_true, if_false]
  generalize h.cdf A true = cs at *
  -- an index whose entry is tolerantly equal to `q` or not the last one is enough
  have fin : ∀ i, i < cs.length → (∀ c, cs[i]? = some c → i + 1 < cs.length ∨ essentiallyEqual A q c (defaultEps A) = true) →
      quantileIndex A cs q = .ok i → ((do
        let index ← quantileIndex A cs q
        match cs[index]?, h.bins[index]? with
        | some c, some b =>
          if essentiallyEqual A q c (defaultEps A) = true then Res.ok b.left
          else match cs[index + 1]? with
            | none => .ub .oob
            | some c' =>
              let p := A.sub c' c
              let width := A.sub b.right b.left
              let width := if A.eq width (A.lit 0) = true then A.div (A.lit 1) (A.ofNat h.numBins) else width
              .ok (A.add b.left (A.div (A.mul (A.mul width p) (A.ofNat h.total)) (A.ofNat b.count)))
        | _, _ => .ub .oob) : Res F).IsOk := by
    intro i hi hc e
    rw [e, Res.ok_bind]
    have h3 : i < h.bins.length := by omega
    rw [List.getElem?_eq_getElem hi, List.getElem?_eq_getElem h3]
    simp only
    by_cases hess : essentiallyEqual A q cs[i] (defaultEps A) = true
    · rw [if_pos hess]; exact ⟨_, rfl⟩
    · rw [if_neg hess]
      rcases hc _ (List.getElem?_eq_getElem hi) with h4 | h4
      · rw [List.getElem?_eq_getElem h4]; exact ⟨_, rfl⟩
      · exact absurd h4 hess
  unfold quantileIndex at fin ⊢
  simp only at fin ⊢
  generalize lowerBound A cs q = it at *
  cases hv : cs[it]? with
  | none =>
    simp only [hv] at fin ⊢
    have h0 : ¬ cs.length = 0 := by omega
    rw [if_neg h0] at fin ⊢
    refine fin (cs.length - 1) (by omega) (fun c hc => Or.inr ?_) rfl
    rw [← List.getLast?_eq_getElem?] at hc
    exact hend c hc (l2 hv c (List.mem_of_getLast? hc))
  | some v =>
    simp only [hv] at fin ⊢
    have hit := (List.getElem?_eq_some_iff.1 hv).1
    have hvq := l1 v hv
    by_cases hcond : (decide (it ≠ 0) && A.lt q v) = true
    · rw [if_pos hcond] at fin ⊢
      have : it ≠ 0 := by
        rw [Bool.and_eq_true, decide_eq_true_eq] at hcond
        exact hcond.1
      exact fin (it - 1) (by omega) (fun c hc => Or.inl (by omega)) rfl
    · rw [if_neg hcond] at fin ⊢
      refine fin it hit (fun c hc => ?_) rfl
      by_cases h0 : it = 0
      · left; omega
      right
      rw [hv] at hc
      injection hc with hc
      subst hc
      have hqv : A.lt q v = false := by
        rw [Bool.and_eq_true, decide_eq_true_eq] at hcond
        rw [← Bool.not_eq_true]
        exact fun h => hcond ⟨h0, h⟩
      exact heq v h0 hv hvq hqv

theorem partialSumFrom_length {F : Type} (A : Arith F) (l : List F) (acc : F) :
    (partialSumFrom A acc l).length = l.length := by
  induction l generalizing acc with
  | nil => rfl
  | cons x l ih => simp [partialSumFrom, ih]

theorem partialSum_length {F : Type} (A : Arith F) (l : List F) : (partialSum A l).length = l.length := by
  cases l with
  | nil => rfl
  | cons x l => simp [partialSum, partialSumFrom_length]

theorem quantile_throw {F : Type} {A : Arith F} (h : Hist F) (q : F) :
    (h.quantile A q).IsThrow ↔ (A.lt q (A.lit 0) || A.lt (A.lit 1) q) = true := by
  unfold Hist.quantile
  by_cases hq : (A.lt q (A.lit 0) || A.lt (A.lit 1) q) = true
  · rw [if_pos hq]
    exact ⟨fun _ => hq, fun _ => ⟨_, rfl⟩⟩
  · rw [if_neg hq]
    refine ⟨?_, fun h => absurd h hq⟩
    rintro ⟨m, hm⟩
    exfalso
    revert hm
    unfold Hist.quantileIndex
    simp only
    generalize h.cdf A true = cdf
    have key : ∀ i : ℕ, (match cdf[i]?, h.bins[i]? with
        | some c, some b =>
          if essentiallyEqual A q c (defaultEps A) = true then Res.ok b.left
          else match cdf[i + 1]? with
            | none => .ub .oob
            | some c' =>
              .ok (A.add b.left (A.div (A.mul (A.mul (if A.eq (A.sub b.right b.left) (A.lit 0) = true then
                A.div (A.lit 1) (A.ofNat h.numBins) else A.sub b.right b.left) (A.sub c' c)) (A.ofNat h.total))
                (A.ofNat b.count)))
        | _, _ => .ub .oob) ≠ Res.throw m := by
      intro i
      split
      · split
        · intro hm; cases hm
        · split <;> (intro hm; cases hm)
      · intro hm; cases hm
    split
    · split
      · intro hm; cases hm
      · rw [Res.ok_bind]; exact key _
    · split
      · rw [Res.ok_bind]; exact key _
      · rw [Res.ok_bind]; exact key _

theorem pdf_dbl {h : Hist Dbl} {n : ℕ} (ht : h.total = n) (hc : ∀ b ∈ h.bins, b.count ≤ n) (h0 : 0 < n)
    (hn : n ≤ 2 ^ 53) :
    h.pdf Dbl.arith true false = (h.bins.map fun b => (b.count : ℚ) / n).map fun p => .fin (rnd64 p) := by
  have hnat : ∀ m : ℕ, m ≤ 2 ^ 53 → Dbl.arith.ofNat m = .fin m := fun m hm => by
    have h1 : |((m : ℤ) : ℚ)| ≤ 2 ^ 53 := by
      rw [abs_of_nonneg (by positivity)]; exact_mod_cast hm
    have h2 : rnd64 ((m : ℤ) : ℚ) = ((m : ℤ) : ℚ) := rnd64_int _ (by exact_mod_cast h1)
    show Dbl.ofRat ((m : ℤ) : ℚ) = _
    rw [Dbl.ofRat_fin (h1.trans (by decide +kernel)), h2]
    simp
  simp only [pdf, Bool.false_eq_true, if_false, Bool.not_true, List.map_map]
  refine List.map_congr_left fun b hb => ?_
  have hb := hc b hb
  rw [ht, hnat n hn, hnat b.count (hb.trans hn)]
  have hn0 : (n : ℚ) ≠ 0 := by exact_mod_cast h0.ne'
  have hle : (b.count : ℚ) / n ≤ 1 := by
    rw [div_le_one (by exact_mod_cast h0)]
    exact_mod_cast hb
  show (if (n : ℚ) = 0 then _ else Dbl.ofRat ((b.count : ℚ) / n)) = _
  rw [if_neg hn0]
  refine Dbl.ofRat_fin ?_
  rw [abs_of_nonneg (by positivity)]
  exact hle.trans (by decide +kernel)

theorem count_le_sum {F : Type} {l : List (Bin F)} {b : Bin F} (hb : b ∈ l) : b.count ≤ sumCounts l := by
  induction l with
  | nil => simp at hb
  | cons c l ih =>
    rw [sumCounts_cons]
    rcases List.mem_cons.1 hb with rfl | hb
    · omega
    · have := ih hb; omega

theorem sum_div_dbl (l : List (Bin Dbl)) (t : ℚ) : (l.map fun b => (b.count : ℚ) / t).sum = (sumCounts l : ℕ) / t := by
  induction l with
  | nil => simp [sumCounts]
  | cons b l ih => simp [sumCounts_cons, ih, add_div]

end Hist

theorem essential_fin {a b : ℚ} (ha : 0 ≤ a) (hb : 0 ≤ b) (ha1 : a ≤ 3) (hb1 : b ≤ 3) :
    essentiallyEqual Dbl.arith (.fin a) (.fin b) (defaultEps Dbl.arith) =
      decide (|rnd64 (a - b)| ≤ rnd64 (min a b * defaultEps b64)) := by
  obtain ⟨e1, -, e3, e4, -, -⟩ := Dbl.eps_fin
  have hM : (6 : ℚ) ≤ dblMax := by decide +kernel
  have hs : smaller Dbl.arith (.fin a) (.fin b) = .fin (min a b) := by
    unfold smaller
    show (if decide (|b| < |a|) = true then Dbl.fin |b| else Dbl.fin |a|) = _
    rw [abs_of_nonneg ha, abs_of_nonneg hb]
    by_cases h : b < a
    · rw [if_pos (decide_eq_true h), min_eq_right h.le]
    · rw [if_neg (by simpa using h), min_eq_left (not_lt.1 h)]
  have hsub : Dbl.arith.sub (.fin a) (.fin b) = .fin (rnd64 (a - b)) :=
    (Dbl.sub_fin (by rw [abs_of_nonneg ha]; linarith) (by rw [abs_of_nonneg hb]; linarith)).1
  have hm0 : 0 ≤ min a b := le_min ha hb
  have hmul : Dbl.arith.mul (.fin (min a b)) (.fin (defaultEps b64)) = .fin (rnd64 (min a b * defaultEps b64)) := by
    refine Dbl.ofRat_fin ?_
    rw [abs_of_nonneg (mul_nonneg hm0 e3)]
    have := mul_le_of_le_one_right hm0 e4
    have := min_le_left a b
    linarith
  unfold essentiallyEqual
  rw [hs, hsub, e1, hmul]
  exact Dbl.le_fin _ _

/-! ## C92 -/

/-- The full property: on doubles the normalised cdf ends at 1. It is false of the code. -/
def C92_full : Prop := ∀ (numBins W : ℕ) (xs : List ℚ) (h : Hist Dbl), xs ≠ [] → xs.length ≤ W →
  updateAll (Hist.update Dbl.arith) (Hist.new numBins W) (xs.map .fin) = .ok h →
  (h.cdf Dbl.arith true).getLast? = some (.fin 1)

/-- **C92** is violated: ten observations in ten bins give ten times `0.1`, which sums to less than 1. -/
theorem C92_violated : ¬ C92_full := by
  intro h
  have e : (match updateAll (Hist.update Dbl.arith) (Hist.new 10 10) ([0, 1, 2, 3, 4, 5, 6, 7, 8, 9].map .fin) with
    | .ok h => decide ((h.cdf Dbl.arith true).getLast? ≠ some (.fin 1))
    | _ => false) = true := by decide +kernel
  cases hu : updateAll (Hist.update Dbl.arith) (Hist.new 10 10) ([0, 1, 2, 3, 4, 5, 6, 7, 8, 9].map .fin) with
  | throw m => rw [hu] at e; cases e
  | ub u => rw [hu] at e; cases e
  | ok g =>
    rw [hu] at e
    exact of_decide_eq_true e (h 10 10 _ g (by simp) (by simp) hu)

/-- **C92**: for any stream of doubles, NaN and infinities included, every entry of the normalised pdf is the correctly
rounded frequency of its bin. -/
theorem C92_pdf_partial (numBins W : ℕ) (xs : List Dbl) (h : Hist Dbl) (hne : xs ≠ []) (hn : xs.length ≤ W)
    (hN : xs.length ≤ 2 ^ 53) (hu : updateAll (Hist.update Dbl.arith) (Hist.new numBins W) xs = .ok h) :
    h.pdf Dbl.arith true false = h.bins.map fun b => .fin (rnd64 ((b.count : ℚ) / xs.length)) := by
  have hc := Hist.Counts.run hu
  rw [Hist.pdf_dbl (n := xs.length) (by rw [hc.total]; omega)
    (fun b hb => (Hist.count_le_sum hb).trans (hc.sum_eq hn).le) (List.length_pos_iff.2 hne) hN, List.map_map]
  rfl

/-- **C92**: for any stream of doubles, NaN and infinities included, the normalised cdf is finite and non-decreasing, and
entry `i` is within `(i + 1) * 2^-51` of the exact cumulative frequency. -/
theorem C92_cdf_partial (numBins W : ℕ) (xs : List Dbl) (h : Hist Dbl) (hne : xs ≠ []) (hn : xs.length ≤ W)
    (hN : xs.length ≤ 2 ^ 53) (hs : h.size ≤ 2 ^ 51)
    (hu : updateAll (Hist.update Dbl.arith) (Hist.new numBins W) xs = .ok h) :
    ∃ cs : List ℚ, h.cdf Dbl.arith true = cs.map .fin ∧ cs.length = h.size ∧ cs.Pairwise (· ≤ ·) ∧ (∀ c ∈ cs, 0 ≤ c) ∧
      ∀ i c, cs[i]? = some c →
        |c - ((h.bins.take (i + 1)).map fun b => (b.count : ℚ) / xs.length).sum| ≤ ((i + 1 : ℕ) : ℚ) / 2 ^ 51 := by
  have hc := Hist.Counts.run hu
  have hpos := List.length_pos_iff.2 hne
  have hn0 : (xs.length : ℚ) ≠ 0 := by exact_mod_cast hpos.ne'
  have hp := Hist.pdf_dbl (n := xs.length) (by rw [hc.total]; omega)
    (fun b hb => (Hist.count_le_sum hb).trans (hc.sum_eq hn).le) hpos hN
  obtain ⟨cs, c1, c2, c3, c4, c5⟩ := Hist.cdf_dbl (ps := h.bins.map fun b => (b.count : ℚ) / xs.length)
    (by intro p hp; obtain ⟨b, -, rfl⟩ := List.mem_map.1 hp; positivity)
    (by rw [Hist.sum_div_dbl, hc.sum_eq hn, div_self hn0]) (by rw [List.length_map]; exact hs)
  refine ⟨cs, by unfold Hist.cdf; rw [hp, c1], by rw [c2, List.length_map]; rfl, c3, c4, ?_⟩
  intro i c hi
  rw [List.map_take]
  exact c5 i c hi

/-- **C92**: for any stream of doubles, NaN and infinities included, with at least two and at most 2^30 bins every level
in `[0, 1]` has a quantile, although the cdf may end below the level. -/
theorem C92_quantile_partial (numBins W : ℕ) (xs : List Dbl) (h : Hist Dbl) (q : ℚ) (hn : xs.length ≤ W)
    (hN : xs.length ≤ 2 ^ 53) (h2 : 2 ≤ h.size) (hs : h.size ≤ 2 ^ 30)
    (hu : updateAll (Hist.update Dbl.arith) (Hist.new numBins W) xs = .ok h) (h0 : 0 ≤ q) (h1 : q ≤ 1) :
    (h.quantile Dbl.arith (.fin q)).IsOk := by
  have hne : xs ≠ [] := by
    rintro rfl
    simp only [updateAll] at hu
    injection hu with hu
    subst hu
    simp [Hist.size, Hist.new] at h2
  have hc := Hist.Counts.run hu
  have hpos := List.length_pos_iff.2 hne
  have hn0 : (xs.length : ℚ) ≠ 0 := by exact_mod_cast hpos.ne'
  obtain ⟨cs, c1, c2, c3, c4, c5⟩ := C92_cdf_partial numBins W xs h hne hn hN (hs.trans (by norm_num)) hu
  have hsz : h.size = h.bins.length := rfl
  refine Hist.quantile_isOk ?_ (by rw [c1, List.length_map, c2]; rfl) h2 ?_ ?_
  · show (Dbl.lt (.fin q) (Dbl.ofRat 0) || Dbl.lt (Dbl.ofRat 1) (.fin q)) = false
    rw [show Dbl.ofRat 0 = .fin 0 by decide +kernel, show Dbl.ofRat 1 = .fin 1 by decide +kernel]
    show (decide (q < 0) || decide (1 < q)) = false
    simp [h0, h1]
  · intro c hl hlt
    rw [c1, List.getLast?_eq_getElem?, List.length_map, List.getElem?_map] at hl
    obtain ⟨c, hl', rfl⟩ := Option.map_eq_some_iff.1 hl
    have hlt : c < q := of_decide_eq_true hlt
    have hb := c5 _ c hl'
    rw [List.take_of_length_le (by omega), Hist.sum_div_dbl, hc.sum_eq hn, div_self hn0,
      show cs.length - 1 + 1 = h.size by omega] at hb
    have hb2 : (h.size : ℚ) / 2 ^ 51 ≤ 1 / 2 ^ 21 := by
      rw [div_le_div_iff₀ (by positivity) (by positivity)]
      have : (h.size : ℚ) ≤ 2 ^ 30 := by exact_mod_cast hs
      linarith
    have hb3 := (abs_le.1 (hb.trans hb2)).1
    have hc0 : 1 / 2 ≤ c := by linarith
    rw [essential_fin h0 (by linarith) (by linarith) (by linarith), decide_eq_true_eq,
      abs_of_nonneg (rnd64_nonneg (by linarith)), min_eq_right hlt.le]
    refine (rnd64_mono (show q - c ≤ 1 / 2 ^ 21 by linarith)).trans ?_
    refine le_trans ?_ (rnd64_mono (mul_le_mul_of_nonneg_right hc0 Dbl.eps_fin.2.2.1))
    decide +kernel
  · intro c _ hget hlt hgt
    rw [c1, List.getElem?_map] at hget
    obtain ⟨c, hget, rfl⟩ := Option.map_eq_some_iff.1 hget
    have hlt : ¬ c < q := of_decide_eq_false hlt
    have hgt : ¬ q < c := of_decide_eq_false hgt
    have : c = q := le_antisymm (not_lt.1 hgt) (not_lt.1 hlt)
    subst this
    rw [essential_fin h0 h0 (by linarith) (by linarith), decide_eq_true_eq, sub_self, rnd64_zero, abs_zero]
    exact rnd64_nonneg (mul_nonneg (le_min h0 h0) Dbl.eps_fin.2.2.1)

/-- **C92**: the level NaN passes the check of the range: with at least two bins a value comes back, where every other
level outside `[0, 1]` is rejected. -/
theorem C92_nan_level (h : Hist Dbl) (h2 : 2 ≤ h.size) : (h.quantile Dbl.arith .nan).IsOk ∧
    ∀ q, (h.quantile Dbl.arith q).IsThrow ↔ Dbl.arith.lt q (.fin 0) = true ∨ Dbl.arith.lt (.fin 1) q = true := by
  have hlt : ∀ x, Dbl.arith.lt x .nan = false := fun x => by cases x <;> rfl
  have hlen : (h.cdf Dbl.arith true).length = h.bins.length := by
    unfold Hist.cdf
    rw [Hist.partialSum_length]
    simp [Hist.pdf]
  have hlb : Hist.lowerBound Dbl.arith (h.cdf Dbl.arith true) .nan = 0 := by
    unfold Hist.lowerBound
    generalize h.cdf Dbl.arith true = cs
    cases cs with
    | nil => rfl
    | cons c cs => simp [hlt]
  constructor
  · refine Hist.quantile_isOk (by rw [hlt]; rfl) hlen h2 ?_ ?_
    · intro c _ hc
      rw [hlt] at hc
      cases hc
    · intro c h0
      exact absurd hlb h0
  · intro q
    have e0 : Dbl.arith.lit 0 = .fin 0 := by decide +kernel
    have e1 : Dbl.arith.lit 1 = .fin 1 := by decide +kernel
    rw [← e0, ← e1, ← Bool.or_eq_true]
    exact Hist.quantile_throw h q

/-- The level 1 on a cdf that ends below 1; the level NaN. -/
example : (do
    let h ← updateAll (Hist.update Dbl.arith) (Hist.new 10 10) ([0, 1, 2, 3, 4, 5, 6, 7, 8, 9].map .fin)
    h.quantile Dbl.arith (.fin 1)) = .ok (.fin 9) ∧ (do
    let h ← updateAll (Hist.update Dbl.arith) (Hist.new 10 10) [.fin 1, .fin 2, .fin 3]
    h.quantile Dbl.arith .nan) = .ok (.fin (b64.add 1 (b64.div (b64.mul (b64.mul (b64.lit (1 / 10))
      (b64.sub (b64.add (b64.div 1 3) (b64.div 1 3)) (b64.div 1 3))) 3) 1))) := by
  decide +kernel

/-- NaN and infinity among the observations do not disturb the frequencies of the bins (but they do disturb the bins, see
`C88_nan_order`). -/
example : (do
    let h ← updateAll (Hist.update Dbl.arith) (Hist.new 10 10) [.fin 1, .nan, .inf false, .fin 1]
    .ok (h.pdf Dbl.arith true false, h.cdf Dbl.arith true)) =
      .ok ([.fin (1 / 4), .fin (1 / 4), .fin (1 / 4), .fin (1 / 4)],
        [.fin (1 / 4), .fin (1 / 2), .fin (3 / 4), .fin 1]) := by
  decide +kernel

end KML
