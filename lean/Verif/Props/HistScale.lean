import Verif.Lemmas.HistSim
import Verif.Props.HistStreams
import Verif.Props.Entropy

/-! # C89, C90: changing the unit of measurement -/

set_option linter.unusedSectionVars false

namespace KML

open Spec Utils

section

variable {K : Type} [Field K] [LinearOrder K] [IsStrictOrderedRing K] [FloorRing K]

theorem Utils.larger_scale {k : K} (hk : 0 < k) (a b : K) : larger (exact K) (k * a) (k * b) = k * larger (exact K) a b := by
  unfold larger
  show (if decide (|k * a| < |k * b|) = true then |k * b| else |k * a|) =
    k * (if decide (|a| < |b|) = true then |b| else |a|)
  rw [abs_mul, abs_mul, abs_of_pos hk]
  by_cases h : |a| < |b|
  · simp [h, mul_lt_mul_of_pos_left h hk]
  · simp [h, not_lt.2 (mul_le_mul_of_nonneg_left (not_lt.1 h) hk.le)]

theorem Utils.less_scale {k : K} (hk : 0 < k) (a b e : K) :
    definitelyLessThan (exact K) (k * a) (k * b) e = definitelyLessThan (exact K) a b e := by
  unfold definitelyLessThan
  rw [larger_scale hk]
  refine decide_eq_decide.2 ?_
  show k * larger (exact K) a b * e < k * b - k * a ↔ larger (exact K) a b * e < b - a
  rw [mul_assoc, ← mul_sub]
  exact mul_lt_mul_iff_right₀ hk

theorem Utils.greater_scale {k : K} (hk : 0 < k) (a b e : K) :
    definitelyGreaterThan (exact K) (k * a) (k * b) e = definitelyGreaterThan (exact K) a b e := by
  unfold definitelyGreaterThan
  rw [larger_scale hk]
  refine decide_eq_decide.2 ?_
  show k * larger (exact K) a b * e < k * a - k * b ↔ larger (exact K) a b * e < a - b
  rw [mul_assoc, ← mul_sub]
  exact mul_lt_mul_iff_right₀ hk

/-- A histogram of scaled data takes the same decisions. -/
theorem Hist.sim_scale {k : K} (hk : 0 < k) :
    Hist.Sim (exact K) (exact K) (k * ·) (fun x => |x| ≤ (dblMax : K) / 4 ∧ |k * x| ≤ (dblMax : K) / 4) := by
  have hR : Hist.Big (Rounding.none (K := K)) := ⟨rfl, rfl, rfl, rfl, by simp [Rounding.none]; norm_num⟩
  refine ⟨?_, ?_, ?_, ?_, ?_, ?_⟩
  · intro a b _ _; exact less_scale hk a b _
  · intro a b _ _; exact less_scale hk a b _
  · intro a b _ _; exact greater_scale hk a b _
  · intro a b _ _
    show decide (k * a ≤ k * b) = decide (a ≤ b)
    rw [decide_eq_decide]
    exact mul_le_mul_iff_right₀ hk
  · intro a b c d _ _ _ _
    show definitelyLessThan _ (k * a - k * b) (k * c - k * d) _ = definitelyLessThan _ (a - b) (c - d) _
    rw [← mul_sub, ← mul_sub]
    exact less_scale hk _ _ _
  · intro a b ha hb
    have h1 := hR.diff ha.2 hb.2
    have h2 := hR.diff ha.1 hb.1
    have h3 := hR.diff hb.2 ha.2
    have h4 := hR.diff hb.1 ha.1
    first
      | exact h1.trans h2.symm
      | exact h3.trans h4.symm

end

/-! ## C89 -/

/-- The full property: scaling the data by `k > 0` scales the edges and the quantiles and keeps all counts. It is false
of the code. -/
def C89_full : Prop := ∀ (numBins W : ℕ) (k : ℚ) (xs : List ℚ) (h h' : Hist ℚ), 0 < k →
  (∀ x ∈ xs, |x| ≤ dblMax / 4 ∧ |k * x| ≤ dblMax / 4) →
  updateAll (Hist.update (exact ℚ)) (Hist.new numBins W) xs = .ok h →
  updateAll (Hist.update (exact ℚ)) (Hist.new numBins W) (xs.map (k * ·)) = .ok h' →
  h' = h.map (k * ·) ∧ ∀ q, h'.quantile (exact ℚ) q = (k * ·) <$> h.quantile (exact ℚ) q

/-- **C89** is violated by the quantiles: in a bin of width 0 they use the width 1/numBins whatever the unit. -/
theorem C89_violated : ¬ C89_full ∧
    (do let h ← updateAll (Hist.update (exact ℚ)) (Hist.new 2 5) [1, 2]; h.quantile (exact ℚ) (3 / 4)) = .ok (3 / 2) ∧
    (do let h ← updateAll (Hist.update (exact ℚ)) (Hist.new 2 5) [10, 20]; h.quantile (exact ℚ) (3 / 4)) =
      .ok (21 / 2) := by
  have e1 : (do let h ← updateAll (Hist.update (exact ℚ)) (Hist.new 2 5) [1, 2]; h.quantile (exact ℚ) (3 / 4)) =
      .ok (3 / 2) := by decide +kernel
  have e2 : (do let h ← updateAll (Hist.update (exact ℚ)) (Hist.new 2 5) [10, 20]; h.quantile (exact ℚ) (3 / 4)) =
      .ok (21 / 2) := by decide +kernel
  refine ⟨fun hf => ?_, e1, e2⟩
  rw [Res.bind_eq_ok] at e1 e2
  obtain ⟨h, u1, q1⟩ := e1
  obtain ⟨h', u2, q2⟩ := e2
  have := (hf 2 5 10 [1, 2] h h' (by norm_num) (by decide +kernel) u1 (by norm_num; exact u2)).2 (3 / 4)
  rw [q1, q2, Res.map_ok] at this
  injection this with this
  norm_num at this

/-- **C89**: exact arithmetic, any scale, number of bins, window and length of the stream: the histogram of the scaled
data is the scaled histogram, with the same counts, and one is undefined exactly when the other is. -/
theorem C89_scale_partial {K : Type} [Field K] [LinearOrder K] [IsStrictOrderedRing K] [FloorRing K] (numBins W : ℕ)
    (k : K) (hk : 0 < k) (xs : List K)
    (hx : ∀ x ∈ xs, |x| ≤ (dblMax : K) / 4 ∧ |k * x| ≤ (dblMax : K) / 4) :
    updateAll (Hist.update (exact K)) (Hist.new numBins W) (xs.map (k * ·)) =
      Hist.map (k * ·) <$> updateAll (Hist.update (exact K)) (Hist.new numBins W) xs :=
  (Hist.sim_scale hk).run xs hx (Hist.new numBins W) (by intro b hb; simp [Hist.new] at hb)

/-- **C89**: hence counts, probabilities and cumulative probabilities do not depend on the unit. -/
theorem C89_counts_partial {K : Type} [Field K] [LinearOrder K] [IsStrictOrderedRing K] [FloorRing K] (numBins W : ℕ)
    (k : K) (hk : 0 < k) (xs : List K) (hx : ∀ x ∈ xs, |x| ≤ (dblMax : K) / 4 ∧ |k * x| ≤ (dblMax : K) / 4)
    (h h' : Hist K) (hu : updateAll (Hist.update (exact K)) (Hist.new numBins W) xs = .ok h)
    (hu' : updateAll (Hist.update (exact K)) (Hist.new numBins W) (xs.map (k * ·)) = .ok h') :
    h'.binCounts = h.binCounts ∧
      (∀ n, h'.pdf (exact K) n false = h.pdf (exact K) n false ∧ h'.cdf (exact K) n = h.cdf (exact K) n) ∧
      h'.bins.map Bin.left = h.bins.map (fun b => k * b.left) ∧
      h'.bins.map Bin.right = h.bins.map (fun b => k * b.right) := by
  rw [C89_scale_partial numBins W k hk xs hx, hu, Res.map_ok] at hu'
  injection hu' with hu'
  subst hu'
  have hp : ∀ n, (h.map (k * ·)).pdf (exact K) n false = h.pdf (exact K) n false := by
    intro n
    simp [Hist.pdf, List.map_map, Function.comp_def]
  refine ⟨by simp [Hist.binCounts, List.map_map, Function.comp_def], fun n => ⟨hp n, ?_⟩, ?_, ?_⟩
  · unfold Hist.cdf; rw [hp]
  · simp [List.map_map, Function.comp_def]
  · simp [List.map_map, Function.comp_def]

/-- Metres to millimetres. -/
example : updateAll (Hist.update (exact ℚ)) (Hist.new 2 3) (([3, 1, 2, 7, 1] : List ℚ).map (1000 * ·)) =
    Hist.map (1000 * ·) <$> updateAll (Hist.update (exact ℚ)) (Hist.new 2 3) [3, 1, 2, 7, 1] ∧
    (updateAll (Hist.update (exact ℚ)) (Hist.new 2 3) [3, 1, 2, 7, 1]).IsOk := by
  refine ⟨C89_scale_partial 2 3 1000 (by norm_num) _ (by decide +kernel), ?_⟩
  have : (match updateAll (Hist.update (exact ℚ)) (Hist.new 2 3) [3, 1, 2, 7, 1] with | .ok _ => true | _ => false) = true := by
    decide +kernel
  split at this
  · exact ⟨_, by assumption⟩
  · cases this

/-- Moving the origin does change the table: the tolerance is relative. -/
theorem C89_shift : (do
      let h ← updateAll (Hist.update (exact ℚ)) (Hist.new 4 5) [1, 2, 3]
      .ok (h.bins.map Bin.count)) = .ok [1, 1, 1] ∧
    (do
      let h ← updateAll (Hist.update (exact ℚ)) (Hist.new 4 5) [100001, 100002, 100003]
      .ok (h.bins.map Bin.count)) = .ok [3] := by
  decide +kernel

/-! ## C90 -/

section

variable {F : Type} {L : LArith F} {g : F → F} {P : F → Prop}

/-- The same entropy with all edges mapped. -/
abbrev Entropy.map (g : F → F) (e : Entropy F) : Entropy F :=
  ⟨e.windowSize, e.window, e.historyCount, e.hist.map g, e.entropy⟩

theorem Entropy.getBin_map (h : Hist F) (i : ℕ) : (h.map g).getBin i = Bin.map g <$> h.getBin i := by
  unfold Hist.getBin
  simp only [List.length_map, List.getElem?_map]
  split
  · rfl
  · cases h.bins[i]? <;> rfl

theorem Entropy.increment_map (e : Entropy F) (i : ℕ) :
    (e.map g).increment L i = Entropy.map g <$> e.increment L i := by
  unfold Entropy.increment
  simp only [Entropy.getBin_map, Hist.getTotalCount]
  cases e.hist.getBin i with
  | throw m => rfl
  | ub u => rfl
  | ok b =>
    simp only [Res.map_ok, Res.ok_bind]
    cases xlogx L _ with
    | throw m => rfl
    | ub u => rfl
    | ok x1 =>
      simp only [Res.ok_bind]
      cases xlogx L _ with
      | throw m => rfl
      | ub u => rfl
      | ok x2 =>
        simp only [Res.ok_bind]
        by_cases hc : L.eq (L.lit 1) (L.ofNat e.hist.total) = true
        · simp only [hc, if_true]; rfl
        · rw [Bool.not_eq_true] at hc
          simp only [hc, Bool.false_eq_true, if_false]; rfl

theorem Entropy.decrement_map (e : Entropy F) (i : ℕ) :
    (e.map g).decrement L i = Entropy.map g <$> e.decrement L i := by
  unfold Entropy.decrement
  simp only [Entropy.getBin_map, Hist.getTotalCount]
  cases e.hist.getBin i with
  | throw m => rfl
  | ub u => rfl
  | ok b =>
    simp only [Res.map_ok, Res.ok_bind]
    cases xlogx L _ with
    | throw m => rfl
    | ub u => rfl
    | ok x1 =>
      simp only [Res.ok_bind]
      cases xlogx L _ with
      | throw m => rfl
      | ub u => rfl
      | ok x2 => rfl

theorem Entropy.update_map (s : Hist.Sim L.toArith L.toArith g P) {e : Entropy F} (hl : Hist.Edges P e.hist.bins) {x : F}
    (hx : P x) : (e.map g).update L (g x) = Entropy.map g <$> e.update L x ∧
      ∀ e', e.update L x = .ok e' → Hist.Edges P e'.hist.bins := by
  have hs : (e.hist.map g).binSearch L.toArith (g x) = e.hist.binSearch L.toArith x := by
    unfold Hist.binSearch Hist.binSearchBin
    rw [List.length_map]
    exact s.search hl (c := ⟨x, x, 1⟩) hx _ _ _ _
  obtain ⟨u1, u2⟩ := s.update hl hx
  have key : ∀ e1 : Entropy F, e1.hist = e.hist → ∀ i,
      ((do
        let hist ← (e1.map g).hist.update L.toArith (g x)
        let e2 ← ({ e1.map g with hist := hist } : Entropy F).increment L i
        .ok { e2 with historyCount := e2.historyCount + 1 }) : Res (Entropy F)) =
      Entropy.map g <$> (do
        let hist ← e1.hist.update L.toArith x
        let e2 ← ({ e1 with hist := hist } : Entropy F).increment L i
        .ok { e2 with historyCount := e2.historyCount + 1 }) ∧
      ∀ e', (do
        let hist ← e1.hist.update L.toArith x
        let e2 ← ({ e1 with hist := hist } : Entropy F).increment L i
        .ok { e2 with historyCount := e2.historyCount + 1 }) = .ok e' → Hist.Edges P e'.hist.bins := by
    intro e1 he i
    simp only [he, u1]
    cases hu : e.hist.update L.toArith x with
    | throw m => exact ⟨rfl, fun e' h => by cases h⟩
    | ub u => exact ⟨rfl, fun e' h => by cases h⟩
    | ok h1 =>
      simp only [Res.map_ok, Res.ok_bind]
      have hi := Entropy.increment_map (L := L) (g := g) (⟨e1.windowSize, e1.window, e1.historyCount, h1, e1.entropy⟩) i
      have hk : ∀ e2, Entropy.increment L (⟨e1.windowSize, e1.window, e1.historyCount, h1, e1.entropy⟩) i = .ok e2 →
          e2.hist = h1 := fun e2 h => (Entropy.increment_frame h).1
      rw [hi]
      cases hc : Entropy.increment L (⟨e1.windowSize, e1.window, e1.historyCount, h1, e1.entropy⟩) i with
      | throw m => exact ⟨rfl, fun e' h => by cases h⟩
      | ub u => exact ⟨rfl, fun e' h => by cases h⟩
      | ok e2 =>
        refine ⟨rfl, fun e' h => ?_⟩
        simp only [Res.ok_bind] at h
        injection h with h
        subst h
        show Hist.Edges P e2.hist.bins
        rw [hk e2 hc]
        exact u2 h1 hu
  unfold Entropy.update
  simp only [hs]
  cases hb : e.hist.binSearch L.toArith x with
  | throw m => exact ⟨rfl, fun e' h => by cases h⟩
  | ub u => exact ⟨rfl, fun e' h => by cases h⟩
  | ok i =>
    simp only [Res.ok_bind]
    cases hw : e.window with
    | none => exact ⟨rfl, fun e' h => by cases h⟩
    | some w =>
      simp only
      cases hwi : w ++ [i] with
      | nil => exact ⟨rfl, fun e' h => by cases h⟩
      | cons a r =>
        simp only
        by_cases hlen : (a :: r).length > e.windowSize
        · rw [if_pos hlen]
          simp only [Entropy.decrement_map]
          cases hd : e.decrement L a with
          | throw m => exact ⟨by simp only [hlen, if_true]; rfl, fun e' h => by simp only [hlen, if_true] at h; cases h⟩
          | ub u => exact ⟨by simp only [hlen, if_true]; rfl, fun e' h => by simp only [hlen, if_true] at h; cases h⟩
          | ok e1 =>
            have he1 : e1.hist = e.hist := (Entropy.decrement_frame hd).1
            simp only [hlen, if_true, Res.map_ok, Res.ok_bind]
            exact key ⟨e1.windowSize, some r, e1.historyCount, e1.hist, e1.entropy⟩ he1 i
        · rw [if_neg hlen]
          simp only [hlen, if_false]
          exact key ⟨e.windowSize, some (a :: r), e.historyCount, e.hist, e.entropy⟩ rfl i

theorem Entropy.run_map (s : Hist.Sim L.toArith L.toArith g P) (xs : List F) (hx : ∀ x ∈ xs, P x) (e : Entropy F)
    (hl : Hist.Edges P e.hist.bins) :
    updateAll (Entropy.update L) (e.map g) (xs.map g) = Entropy.map g <$> updateAll (Entropy.update L) e xs := by
  induction xs generalizing e with
  | nil => rfl
  | cons x xs ih =>
    simp only [List.map_cons, updateAll]
    obtain ⟨u1, u2⟩ := Entropy.update_map s hl (hx x (by simp))
    rw [u1]
    cases hu : e.update L x with
    | throw m => rfl
    | ub u => rfl
    | ok h1 => exact ih (fun y hy => hx y (by simp [hy])) h1 (u2 h1 hu)

end

/-- **C90**: the entropy of data in another unit is the same, and the one is undefined exactly when the other is; any
window, number of bins and length of the stream. -/
theorem C90_scale (W numBins : ℕ) (e0 : Entropy ℝ) (hnew : Entropy.new realL W numBins = .ok e0) (k : ℝ) (hk : 0 < k)
    (xs : List ℝ) (hx : ∀ x ∈ xs, |x| ≤ (dblMax : ℝ) / 4 ∧ |k * x| ≤ (dblMax : ℝ) / 4) :
    Entropy.evaluate <$> updateAll (Entropy.update realL) e0 (xs.map (k * ·)) =
      Entropy.evaluate <$> updateAll (Entropy.update realL) e0 xs := by
  have hb : e0.hist.bins = [] := by
    unfold Entropy.new at hnew
    by_cases h1 : numBins = 0
    · by_cases h2 : W = 0
      · simp only [h1, h2, if_true] at hnew
        cases hnew
      · simp only [h1, h2, if_true, if_false, Res.ok_bind] at hnew
        injection hnew with h; rw [← h]; rfl
    · simp only [h1, if_false, Res.ok_bind] at hnew
      injection hnew with h; rw [← h]; rfl
  have h0 : e0.map (k * ·) = e0 := by
    obtain ⟨a, b, c, ⟨d1, d2, d3, d4, d5, d6, d7⟩, f⟩ := e0
    simp only at hb
    subst hb
    rfl
  have := Entropy.run_map (L := realL) (Hist.sim_scale hk) xs hx e0 (by rw [hb]; intro b h; cases h)
  rw [h0] at this
  rw [this]
  cases updateAll (Entropy.update realL) e0 xs <;> rfl

/-- Metres to millimetres. -/
example : ∃ e, Entropy.evaluate <$> updateAll (Entropy.update realL) e (([1, 2, 1, 3] : List ℝ).map (1000 * ·)) =
    Entropy.evaluate <$> updateAll (Entropy.update realL) e [1, 2, 1, 3] ∧ Entropy.new realL 4 3 = .ok e := by
  refine ⟨_, C90_scale 4 3 _ (Entropy.new_real (by norm_num) 3) 1000 (by norm_num) _ ?_, Entropy.new_real (by norm_num) 3⟩
  intro x hx
  have hM : (4000 * 4 : ℝ) ≤ (dblMax : ℝ) := by exact_mod_cast (by decide +kernel : (4000 * 4 : ℚ) ≤ dblMax)
  have : 1 ≤ x ∧ x ≤ 3 := by
    simp at hx
    rcases hx with rfl | rfl | rfl | rfl <;> norm_num
  rw [abs_of_pos (by linarith), abs_of_pos (by linarith)]
  constructor <;> linarith

end KML
