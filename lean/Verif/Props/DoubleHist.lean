import Verif.Lemmas.HistSim
import Verif.Lemmas.Double
import Verif.Props.HistStreams

/-! # C88: StreamingHistogram on doubles with overflow -/

namespace KML

open Spec Utils

theorem rnd64_dblMax : rnd64 dblMax = dblMax := by decide +kernel

theorem dblMax_pos : 0 < dblMax := by norm_num [dblMax]

theorem rnd64_le_dblMax {x : ℚ} (h : |x| ≤ dblMax) : |rnd64 x| ≤ dblMax := by
  rw [abs_le] at h ⊢
  constructor
  · have := rnd64_mono h.1
    rwa [rnd64_neg, rnd64_dblMax] at this
  · have := rnd64_mono h.2
    rwa [rnd64_dblMax] at this

namespace Dbl

theorem ofRat_fin {x : ℚ} (h : |x| ≤ dblMax) : ofRat x = .fin (rnd64 x) := by
  unfold ofRat
  exact if_neg (not_lt.2 (rnd64_le_dblMax h))

/-- Comparing a double from 0 to the largest with a result that may overflow. -/
theorem lt_ofRat {t x : ℚ} (h0 : 0 ≤ t) (h1 : t ≤ dblMax) : Dbl.lt (.fin t) (ofRat x) = decide (t < rnd64 x) := by
  unfold ofRat
  simp only
  by_cases h : (2 ^ 53 - 1) * 2 ^ 971 < |rnd64 x|
  · rw [if_pos h]
    by_cases hn : rnd64 x < 0
    · simp only [Dbl.lt, hn, decide_true, Bool.not_true]
      exact (decide_eq_false (by linarith)).symm
    · rw [abs_of_nonneg (not_lt.1 hn)] at h
      simp only [Dbl.lt, hn, decide_false, Bool.not_false]
      exact (decide_eq_true (lt_of_le_of_lt h1 h)).symm
  · rw [if_neg h]
    rfl

theorem larger_fin (a b : ℚ) : larger Dbl.arith (.fin a) (.fin b) = .fin (larger b64 a b) := by
  unfold larger
  show (if decide (|a| < |b|) = true then Dbl.fin |b| else Dbl.fin |a|) = Dbl.fin (if decide (|a| < |b|) = true then |b| else |a|)
  split <;> rfl

theorem larger_b64 (a b : ℚ) : 0 ≤ larger b64 a b ∧ (|a| ≤ dblMax → |b| ≤ dblMax → larger b64 a b ≤ dblMax) := by
  unfold larger
  show 0 ≤ (if decide (|a| < |b|) = true then |b| else |a|) ∧
    (_ → _ → (if decide (|a| < |b|) = true then |b| else |a|) ≤ dblMax)
  split
  · exact ⟨abs_nonneg _, fun _ h => h⟩
  · exact ⟨abs_nonneg _, fun h _ => h⟩

theorem tol_fin {a b e : ℚ} (ha : |a| ≤ dblMax) (hb : |b| ≤ dblMax) (h0 : 0 ≤ e) (h1 : e ≤ 1) :
    Dbl.arith.mul (larger Dbl.arith (.fin a) (.fin b)) (.fin e) = .fin (b64.mul (larger b64 a b) e) ∧
      0 ≤ b64.mul (larger b64 a b) e ∧ b64.mul (larger b64 a b) e ≤ dblMax := by
  obtain ⟨l0, l1⟩ := larger_b64 a b
  have l1 := l1 ha hb
  have hm : |larger b64 a b * e| ≤ dblMax := by
    rw [abs_of_nonneg (mul_nonneg l0 h0)]
    exact (mul_le_of_le_one_right l0 h1).trans l1
  rw [larger_fin]
  refine ⟨ofRat_fin hm, rnd64_nonneg (mul_nonneg l0 h0), ?_⟩
  exact (le_abs_self _).trans (rnd64_le_dblMax hm)

/-- The tolerant comparisons of finite doubles are not affected by overflow. -/
theorem less_fin {a b e : ℚ} (ha : |a| ≤ dblMax) (hb : |b| ≤ dblMax) (h0 : 0 ≤ e) (h1 : e ≤ 1) :
    definitelyLessThan Dbl.arith (.fin a) (.fin b) (.fin e) = definitelyLessThan b64 a b e := by
  obtain ⟨t1, t2, t3⟩ := tol_fin ha hb h0 h1
  unfold definitelyLessThan
  rw [t1]
  have e1 : Dbl.arith.sub (.fin b) (.fin a) = ofRat (b - a) := by
    show ofRat (b + -a) = _
    rw [sub_eq_add_neg]
  rw [e1]
  exact lt_ofRat t2 t3

theorem greater_fin {a b e : ℚ} (ha : |a| ≤ dblMax) (hb : |b| ≤ dblMax) (h0 : 0 ≤ e) (h1 : e ≤ 1) :
    definitelyGreaterThan Dbl.arith (.fin a) (.fin b) (.fin e) = definitelyGreaterThan b64 a b e := by
  obtain ⟨t1, t2, t3⟩ := tol_fin ha hb h0 h1
  unfold definitelyGreaterThan
  rw [t1]
  have e1 : Dbl.arith.sub (.fin a) (.fin b) = ofRat (a - b) := by
    show ofRat (a + -b) = _
    rw [sub_eq_add_neg]
  rw [e1]
  exact lt_ofRat t2 t3

theorem sub_fin {a b : ℚ} (ha : |a| ≤ dblMax / 2) (hb : |b| ≤ dblMax / 2) :
    Dbl.arith.sub (.fin a) (.fin b) = .fin (b64.sub a b) ∧ |b64.sub a b| ≤ dblMax := by
  have h : |a - b| ≤ dblMax := by
    have := abs_sub a b
    linarith
  have e1 : Dbl.arith.sub (.fin a) (.fin b) = ofRat (a - b) := by
    show ofRat (a + -b) = _
    rw [sub_eq_add_neg]
  rw [e1]
  exact ⟨ofRat_fin h, rnd64_le_dblMax h⟩

theorem eps_fin : defaultEps Dbl.arith = .fin (defaultEps b64) ∧ plusEps Dbl.arith = .fin (plusEps b64) ∧
    0 ≤ defaultEps b64 ∧ defaultEps b64 ≤ 1 ∧ 0 ≤ plusEps b64 ∧ plusEps b64 ≤ 1 := by
  decide +kernel

theorem max_fin : Dbl.arith.lit dblMax = .fin (b64.lit dblMax) ∧ b64.lit dblMax = dblMax := by
  decide +kernel

end Dbl

/-- Up to half of the largest double a histogram takes the decisions of rounded arithmetic without overflow. -/
theorem Hist.sim_dbl : Hist.Sim b64 Dbl.arith Dbl.fin (fun x => |x| ≤ dblMax / 2) := by
  have hM := dblMax_pos
  have w : ∀ {x : ℚ}, |x| ≤ dblMax / 2 → |x| ≤ dblMax := fun h => by linarith
  obtain ⟨e1, e2, e3, e4, e5, e6⟩ := Dbl.eps_fin
  obtain ⟨m1, m2⟩ := Dbl.max_fin
  refine ⟨?_, ?_, ?_, ?_, ?_, ?_⟩
  · intro a b ha hb
    rw [e1]
    exact Dbl.less_fin (w ha) (w hb) e3 e4
  · intro a b ha hb
    rw [e2]
    exact Dbl.less_fin (w ha) (w hb) e5 e6
  · intro a b ha hb
    rw [e2]
    exact Dbl.greater_fin (w ha) (w hb) e5 e6
  · intro a b _ _
    exact Dbl.le_fin a b
  · intro a b c d ha hb hc hd
    obtain ⟨s1, s2⟩ := Dbl.sub_fin ha hb
    obtain ⟨s3, s4⟩ := Dbl.sub_fin hc hd
    rw [s1, s3, e1]
    exact Dbl.less_fin s2 s4 e3 e4
  · intro a b ha hb
    obtain ⟨s1, s2⟩ := Dbl.sub_fin ha hb
    rw [s1, m1, e1]
    exact Dbl.less_fin s2 (by rw [m2, abs_of_pos hM]) e3 e4

/-! ## C88 -/

/-- The full property: every stream of finite doubles that fits the window is processed. It is false of the code. -/
def C88_full : Prop := ∀ (numBins W : ℕ) (xs : List ℚ), 1 ≤ numBins → xs.length ≤ W →
  (∀ x ∈ xs, rnd64 x = x ∧ |x| ≤ dblMax) →
  (updateAll (Hist.update Dbl.arith) (Hist.new numBins W) (xs.map .fin)).IsOk

/-- **C88** is violated: when 0 and the largest double have to share one bin, no difference is found smaller than
`DBL_MAX`, and a bin that does not exist is merged; likewise the two largest doubles, whose difference overflows. -/
theorem C88_violated : ¬ C88_full ∧
    updateAll (Hist.update Dbl.arith) (Hist.new 1 2) [.fin 0, .fin dblMax] = .ub .oob ∧
    updateAll (Hist.update Dbl.arith) (Hist.new 1 2) [.fin (-dblMax), .fin dblMax] = .ub .oob := by
  have h1 : updateAll (Hist.update Dbl.arith) (Hist.new 1 2) [.fin 0, .fin dblMax] = .ub .oob := by decide +kernel
  refine ⟨fun h => ?_, h1, by decide +kernel⟩
  obtain ⟨v, hv⟩ := h 1 2 [0, dblMax] le_rfl (by simp) (by decide +kernel)
  simp only [List.map_cons, List.map_nil] at hv
  rw [h1] at hv
  cases hv

/-- **C88**: on any stream of doubles up to half of the largest, of any length, with any number of bins and any window,
the histogram on real doubles is the histogram in rounded arithmetic without overflow, so that every theorem about
roundings applies to it. -/
theorem C88_no_overflow_partial (numBins W : ℕ) (xs : List ℚ) (hx : ∀ x ∈ xs, |x| ≤ dblMax / 2) :
    updateAll (Hist.update Dbl.arith) (Hist.new numBins W) (xs.map .fin) =
      Hist.map .fin <$> updateAll (Hist.update b64) (Hist.new numBins W) xs :=
  Hist.sim_dbl.run xs hx (Hist.new numBins W) (by intro b hb; simp [Hist.new] at hb)

/-- **C88**, consequences on doubles. Up to half of the largest double: left edges strictly increase, no bin is inverted
and every edge is an observation. Up to a quarter: every stream that fits the window is processed. -/
theorem C88_ordered_partial (numBins W : ℕ) (hW : 0 < W) (xs : List ℚ) (hx : ∀ x ∈ xs, |x| ≤ dblMax / 2) (h : Hist Dbl)
    (hu : updateAll (Hist.update Dbl.arith) (Hist.new numBins W) (xs.map .fin) = .ok h) :
    ∃ es : List (ℚ × ℚ), h.bins.map (fun b => (b.left, b.right)) = es.map (fun e => (.fin e.1, .fin e.2)) ∧
      es.Pairwise (fun a b => a.1 < b.1) ∧ ∀ e ∈ es, e.1 ≤ e.2 ∧ e.1 ∈ xs ∧ e.2 ∈ xs := by
  rw [C88_no_overflow_partial numBins W xs hx] at hu
  cases hb : updateAll (Hist.update b64) (Hist.new numBins W) xs with
  | throw m => rw [hb] at hu; cases hu
  | ub u => rw [hb] at hu; cases hu
  | ok h' =>
    rw [hb, Res.map_ok] at hu
    injection hu with hu
    subst hu
    rw [b64_eq] at hb
    obtain ⟨o1, o2, -⟩ := C54_ordered R64 numBins W hW xs h' hb
    refine ⟨h'.bins.map fun b => (b.left, b.right), by simp [List.map_map, Function.comp_def], ?_, ?_⟩
    · rw [List.pairwise_map]; exact o1
    · intro e he
      obtain ⟨b, hb, rfl⟩ := List.mem_map.1 he
      exact o2 b hb

theorem C88_defined_partial (numBins W : ℕ) (hb : 1 ≤ numBins) (xs : List ℚ) (hn : xs.length ≤ W)
    (hx : ∀ x ∈ xs, |x| ≤ dblMax / 4) :
    (updateAll (Hist.update Dbl.arith) (Hist.new numBins W) (xs.map .fin)).IsOk := by
  obtain ⟨h, e⟩ := C55_filling_b64_partial numBins W hb xs hn hx
  refine ⟨h.map .fin, ?_⟩
  rw [C88_no_overflow_partial numBins W xs fun x h => (hx x h).trans (by have := dblMax_pos; linarith), e]
  rfl

/-- **C88**: with enough bins for the different values, every stream of doubles up to half of the largest is processed,
whatever its length. -/
theorem C88_enough_bins_partial (numBins W : ℕ) (hW : 1 ≤ W) (xs : List ℚ) (hd : distinct xs ≤ numBins)
    (hx : ∀ x ∈ xs, |x| ≤ dblMax / 2) :
    (updateAll (Hist.update Dbl.arith) (Hist.new numBins W) (xs.map .fin)).IsOk := by
  obtain ⟨h, e⟩ := C55_enough_bins_partial R64 numBins W hW xs hd
  refine ⟨h.map .fin, ?_⟩
  rw [← b64_eq] at e
  rw [C88_no_overflow_partial numBins W xs hx, e]
  rfl

/-- Large and small doubles; the difference of the first two is half of the largest double. -/
example : (updateAll (Hist.update Dbl.arith) (Hist.new 2 5) ([dblMax / 4, -dblMax / 4, 1, 0, 3].map .fin)).IsOk :=
  C88_defined_partial 2 5 (by norm_num) _ (by simp) (by decide +kernel)

example : (updateAll (Hist.update Dbl.arith) (Hist.new 3 2) ([dblMax / 2, -dblMax / 2, 1, 1, -dblMax / 2].map .fin)).IsOk :=
  C88_enough_bins_partial 3 2 (by norm_num) _ (by decide +kernel) (by decide +kernel)

/-- NaN is accepted silently and ends up in a bin of its own in front. -/
theorem C88_nan : (do
    let h ← updateAll (Hist.update Dbl.arith) (Hist.new 4 5) [.fin 1, .nan, .fin 2]
    .ok h.bins) = .ok [⟨.nan, .nan, 1⟩, ⟨.fin 1, .fin 1, 1⟩, ⟨.fin 2, .fin 2, 1⟩] := by
  decide +kernel

/-- After a NaN and an infinity the bins are out of order, and the same observation gets two bins. -/
theorem C88_nan_order : (do
    let h ← updateAll (Hist.update Dbl.arith) (Hist.new 10 10) [.fin 1, .nan, .inf false, .fin 1]
    .ok h.bins) =
      .ok [⟨.fin 1, .fin 1, 1⟩, ⟨.inf false, .inf false, 1⟩, ⟨.nan, .nan, 1⟩, ⟨.fin 1, .fin 1, 1⟩] := by
  decide +kernel

end KML
