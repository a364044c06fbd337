import Verif.Lemmas.P2Paper

/-!
# C75: the published P² algorithm
-/

namespace KML

open Spec Spec.Paper

variable {K : Type} [Field K] [LinearOrder K] [IsStrictOrderedRing K] [FloorRing K]

/-- **C75**, as one would claim it: after more than five observations `evaluate` returns the estimate of the
published algorithm (rational arithmetic). -/
def C75_full : Prop :=
  ∀ (q : ℚ) (p p' : P2 ℚ) (xs : List ℚ), P2.new (exact ℚ) q = .ok p → 6 ≤ xs.length →
    updateAll (P2.update (exact ℚ)) p xs = .ok p' → p'.evaluate (exact ℚ) = .ok (estimate ascending q xs, p')

/-- C75 fails for quantiles below 1/2, for which the code adjusts the middle markers from the right. -/
theorem C75_violated : ¬ C75_full := by
  intro h
  have key : (match (do
      let p ← P2.new (exact ℚ) (1 / 4)
      let p' ← updateAll (P2.update (exact ℚ)) p [2, 4, 7, 0, 5, 4, 3]
      .ok (p, p')) with
    | .ok (p, p') =>
      decide (P2.new (exact ℚ) (1 / 4) = .ok p) &&
      decide (updateAll (P2.update (exact ℚ)) p [2, 4, 7, 0, 5, 4, 3] = .ok p') &&
      !decide (p'.evaluate (exact ℚ) = .ok (estimate ascending (1 / 4) [2, 4, 7, 0, 5, 4, 3], p'))
    | _ => false) = true := by decide +kernel
  split at key
  · simp only [Bool.and_eq_true, decide_eq_true_eq, Bool.not_eq_true', decide_eq_false_iff_not] at key
    obtain ⟨⟨h1, h2⟩, h3⟩ := key
    exact h3 (h _ _ _ _ h1 (by decide) h2)
  · simp at key

/-- **C75**, partial: for a quantile of at least 1/2, after more than five observations, `evaluate` returns the
estimate of the published algorithm. Missing from the full claim: quantiles below 1/2. -/
theorem C75_upper_partial (q : K) (hq : 1 / 2 ≤ q) (p p' : P2 K) (hp : P2.new (exact K) q = .ok p)
    (xs : List K) (h6 : 6 ≤ xs.length) (hu : updateAll (P2.update (exact K)) p xs = .ok p') :
    p'.evaluate (exact K) = .ok (estimate ascending q xs, p') := by
  have hs := P2.Since.start (R := Rounding.none) (P2.Hull.new (R := Rounding.none) hp le_rfl le_rfl)
    (by rw [P2.new_eq_ok hp])
  have hs1 := hs.updateAll (fun _ _ => rfl) hu
  rw [List.nil_append] at hs1
  have := P2.markers_paper hp xs (by omega) p' hu
  unfold P2.evaluate
  rw [if_neg (by rw [hs1.count]; omega), estimate]
  rw [P2.orderOf, if_pos hq] at this
  rw [← this]
  rfl

/-- **C75**, partial: for a quantile below 1/2 `evaluate` returns the estimate of the published algorithm with
one change: the middle markers are adjusted in the opposite order. -/
theorem C75_lower_partial (q : K) (hq : q < 1 / 2) (p p' : P2 K) (hp : P2.new (exact K) q = .ok p)
    (xs : List K) (h6 : 6 ≤ xs.length) (hu : updateAll (P2.update (exact K)) p xs = .ok p') :
    p'.evaluate (exact K) = .ok (estimate descending q xs, p') := by
  have hs := P2.Since.start (R := Rounding.none) (P2.Hull.new (R := Rounding.none) hp le_rfl le_rfl)
    (by rw [P2.new_eq_ok hp])
  have hs1 := hs.updateAll (fun _ _ => rfl) hu
  rw [List.nil_append] at hs1
  have := P2.markers_paper hp xs (by omega) p' hu
  unfold P2.evaluate
  rw [if_neg (by rw [hs1.count]; omega), estimate]
  rw [P2.orderOf, if_neg (not_le.2 hq)] at this
  rw [← this]
  rfl

/-- **C75**, partial: all five markers, heights and positions, are those of the published algorithm (from the
fifth observation on; positions counted from 0 in the code). -/
theorem C75_markers_partial (q : K) (p p' : P2 K) (hp : P2.new (exact K) q = .ok p)
    (xs : List K) (h5 : 5 ≤ xs.length) (hu : updateAll (P2.update (exact K)) p xs = .ok p') :
    let m := markers (if 1 / 2 ≤ q then ascending else descending) q xs
    p'.heights = ⟨m.height 0, m.height 1, m.height 2, m.height 3, m.height 4⟩ ∧
      p'.pos = ⟨m.pos 0 - 1, m.pos 1 - 1, m.pos 2 - 1, m.pos 3 - 1, m.pos 4 - 1⟩ := by
  have := P2.markers_paper hp xs h5 p' hu
  intro m
  have hm : m = p'.abs := this.symm
  rw [hm]
  refine ⟨rfl, ?_⟩
  simp [P2.abs]

/-- Seven observations for which a marker moves: the median and the lower quartile. -/
example : (do
    let p ← P2.new (exact ℚ) (1 / 2)
    let p' ← updateAll (P2.update (exact ℚ)) p [2, 4, 7, 0, 5, 4, 3]
    let r ← p'.evaluate (exact ℚ)
    .ok r.1) = .ok (estimate ascending (1 / 2) [2, 4, 7, 0, 5, 4, 3]) := by decide +kernel

example : (do
    let p ← P2.new (exact ℚ) (1 / 4)
    let p' ← updateAll (P2.update (exact ℚ)) p [2, 4, 7, 0, 5, 4, 3]
    let r ← p'.evaluate (exact ℚ)
    .ok r.1) = .ok (estimate descending (1 / 4) [2, 4, 7, 0, 5, 4, 3]) := by decide +kernel

/-- The two orders differ on these observations. -/
example : estimate descending (1 / 4 : ℚ) [2, 4, 7, 0, 5, 4, 3] ≠
    estimate ascending (1 / 4 : ℚ) [2, 4, 7, 0, 5, 4, 3] := by decide +kernel

omit [LinearOrder K] [IsStrictOrderedRing K] [FloorRing K] in
/-- The published parabola formula is interpolation: it passes through its three points. -/
theorem C75_parabola_interpolates (a u b v c w : K) (hab : a ≠ b) (hac : a ≠ c) (hbc : b ≠ c) :
    parabola a u b v c w a = u ∧ parabola a u b v c w b = v ∧ parabola a u b v c w c = w := by
  have h1 := sub_ne_zero.2 hab
  have h2 := sub_ne_zero.2 hac
  have h3 := sub_ne_zero.2 hbc
  have h4 := sub_ne_zero.2 hab.symm
  have h5 := sub_ne_zero.2 hac.symm
  have h6 := sub_ne_zero.2 hbc.symm
  refine ⟨?_, ?_, ?_⟩ <;> simp only [parabola] <;> field_simp <;> ring

/-- The parabola through (0, 0), (1, 1) and (3, 9). -/
example : parabola (0 : ℚ) 0 1 1 3 9 1 = 1 ∧ parabola (0 : ℚ) 0 1 1 3 9 2 = 4 :=
  ⟨(C75_parabola_interpolates 0 0 1 1 3 9 (by norm_num) (by norm_num) (by norm_num)).2.1, by decide +kernel⟩

end KML
