import Verif.Props.Windowed

/-! # C45: how negative, and how large, the interquartile range can be -/

set_option linter.unusedSectionVars false

namespace KML

open Spec

variable {K : Type} [Field K] [LinearOrder K] [IsStrictOrderedRing K] [FloorRing K]

/-- Updates of a `StreamingIQR` are updates of its two estimators. -/
theorem IQR.updateAll_parts {F : Type} {A : Arith F} {xs : List F} {i i' : IQR F} (h : updateAll (IQR.update A) i xs = .ok i') :
    updateAll (WP2.update A) i.low xs = .ok i'.low ∧ updateAll (WP2.update A) i.high xs = .ok i'.high := by
  induction xs generalizing i with
  | nil => simp only [updateAll] at h ⊢; injection h with h; subst h; exact ⟨rfl, rfl⟩
  | cons x xs ih =>
    simp only [updateAll] at h ⊢
    obtain ⟨i1, k1, k2⟩ := Res.bind_eq_ok.1 h
    unfold IQR.update at k1
    obtain ⟨l, k3, k4⟩ := Res.bind_eq_ok.1 k1
    obtain ⟨g, k5, k6⟩ := Res.bind_eq_ok.1 k4
    injection k6 with k6
    subst k6
    rw [k3, k5]
    exact ih k2

/-- **C45**, from the fifth observation until the window is full (any rounding, any two levels): the value is at most the
(rounded) range of the data, and not more negative than that. Missing: the sign. -/
theorem C45_filling_partial (R : Rounding K) (low high : K) (W : ℕ) (i i' : IQR K) (hi : IQR.new R.arith low high W = .ok i)
    (xs : List K) (h5 : 5 ≤ xs.length) (hW : xs.length ≤ W) (hx : ∀ x ∈ xs, R.rnd x = x)
    (hu : updateAll (IQR.update R.arith) i xs = .ok i') :
    ∃ r a b, i'.evaluate R.arith = .ok (r, i') ∧ IsMin xs a ∧ IsMax xs b ∧ R.rnd (a - b) ≤ r ∧ r ≤ R.rnd (b - a) := by
  obtain ⟨h1, h2, -⟩ := IQR.new_eq_ok.1 hi
  obtain ⟨k1, k2⟩ := IQR.updateAll_parts hu
  obtain ⟨v, a, b, e1, e2, e3, e4, e5⟩ := C43_filling_partial R low W _ _ h1 xs h5 hW hx k1
  obtain ⟨v', a', b', f1, f2, f3, f4, f5⟩ := C43_filling_partial R high W _ _ h2 xs h5 hW hx k2
  have ha : a' = a := le_antisymm (f2.2 _ e2.1) (e2.2 _ f2.1)
  have hb : b' = b := le_antisymm (e3.2 _ f3.1) (f3.2 _ e3.1)
  subst ha hb
  refine ⟨R.rnd (v' - v), a', b', ?_, e2, e3, R.mono (by linarith), R.mono (by linarith)⟩
  unfold IQR.evaluate
  rw [f1, e1]
  rfl

/-- **C45**, every stream of five or more observations (exact arithmetic, `W ≥ 4`): the value is at most `2 W - 1` times the
width of any interval that contains the data, in either direction. Missing: the sign. -/
theorem C45_bound_partial (low high : K) (W : ℕ) (hW : 4 ≤ W) (i i' : IQR K) (hi : IQR.new (exact K) low high W = .ok i)
    (xs : List K) (h5 : 5 ≤ xs.length) (lo hi' : K) (hx : InRange lo hi' xs)
    (hu : updateAll (IQR.update (exact K)) i xs = .ok i') :
    ∃ r i'', i'.evaluate (exact K) = .ok (r, i'') ∧ |r| ≤ (2 * W - 1) * (hi' - lo) := by
  obtain ⟨h1, h2, -⟩ := IQR.new_eq_ok.1 hi
  obtain ⟨k1, k2⟩ := IQR.updateAll_parts hu
  obtain ⟨v, w, e1, e2, e3⟩ := C43_extrapolation_partial low W hW _ _ h1 xs h5 lo hi' hx k1
  obtain ⟨v', w', f1, f2, f3⟩ := C43_extrapolation_partial high W hW _ _ h2 xs h5 lo hi' hx k2
  refine ⟨v' - v, { i' with low := w, high := w' }, ?_, ?_⟩
  · unfold IQR.evaluate
    rw [f1, e1]
    rfl
  · have hc : ((W - 1 : ℕ) : K) = W - 1 := by rw [Nat.cast_sub (by omega), Nat.cast_one]
    rw [hc] at e2 e3 f2 f3
    rw [abs_le]
    constructor <;> linarith

/-- The crossing of `C45_violated` lies within the bound: -4991/1215 for data from -100 to 100. -/
example : IQR.valueAfter (exact ℚ) ⟨⟨20, 0, P2.blank (1 / 4), 0⟩, ⟨20, 0, P2.blank (3 / 4), 0⟩, 0⟩
    [0, 1, 0, 0, -100, 2, -100, 2, 0, 1, 1, 100, 2] = .ok (-4991 / 1215) ∧
    InRange (-100 : ℚ) 100 [0, 1, 0, 0, -100, 2, -100, 2, 0, 1, 1, 100, 2] := by
  constructor
  · decide +kernel
  · simp [InRange]; norm_num

end KML
