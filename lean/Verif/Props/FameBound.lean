import Verif.Props.FameLaw

/-! # C85: the step of WindowedFAME does not outgrow the data -/

namespace KML

open Spec

variable {K : Type} [Field K] [LinearOrder K] [IsStrictOrderedRing K] [FloorRing K]

/-- What bounds the step: the last step `t` limits how far outside the data the estimate `m` is, and the present step
`s` is at least `t` unless it has just been halved. -/
structure FameFit (lo hi S ε m s : K) : Prop where
  step : 0 ≤ s ∧ s ≤ S
  last : ∃ t, 0 ≤ t ∧ t ≤ S ∧ lo - t ≤ m ∧ m ≤ hi + t ∧ (t ≤ s ∨ 2 * s = t * (1 + ε))

theorem FameFit.grow {R S ε s t : K} (h0 : 0 ≤ ε) (h1 : ε < 1) (hR : 0 ≤ R) (hS : 5 / 2 * R ≤ S) (ht0 : 0 ≤ t)
    (htS : t ≤ S) (h : t ≤ s ∨ 2 * s = t * (1 + ε)) (hg : 2 * s ≤ R + t) : s * (1 + ε) ≤ S := by
  rcases h with h | h
  · have : s ≤ R := by linarith
    nlinarith
  · have h2 : t * ε ≤ R := by linarith
    have h3 : 2 * (s * (1 + ε)) = t * (1 + ε) ^ 2 := by rw [← mul_assoc, h]; ring
    rcases le_total ((1 + ε) ^ 2) 2 with hq | hq
    · have : t * (1 + ε) ^ 2 ≤ t * 2 := mul_le_mul_of_nonneg_left hq ht0
      linarith
    · have : (1 + ε) ^ 2 ≤ 5 * ε := by nlinarith
      have := mul_le_mul_of_nonneg_left this ht0
      linarith

theorem FameFit.next {lo hi S ε m s x : K} (h : FameFit lo hi S ε m s) (h0 : 0 ≤ ε) (h1 : ε < 1)
    (hS : 5 / 2 * (hi - lo) ≤ S) (hx1 : lo ≤ x) (hx2 : x ≤ hi) :
    FameFit lo hi S ε (fameNext ε (m, s) x).1 (fameNext ε (m, s) x).2 := by
  obtain ⟨⟨hs0, hsS⟩, t, ht0, htS, hlo, hhi, ht⟩ := h
  have hR : 0 ≤ hi - lo := by linarith
  have hm : lo - s ≤ m + SignType.sign (x - m) * s ∧ m + SignType.sign (x - m) * s ≤ hi + s := by
    have h2s : t ≤ 2 * s := by
      rcases ht with h | h
      · linarith
      · rw [h]; nlinarith
    rcases lt_trichotomy x m with h | h | h
    · rw [sign_neg (sub_neg.2 h)]
      simp only [SignType.coe_neg, SignType.coe_one]
      constructor <;> linarith
    · subst h; simp; constructor <;> linarith
    · rw [sign_pos (sub_pos.2 h)]
      simp only [SignType.coe_one]
      constructor <;> linarith
  simp only [fameNext]
  set m' := m + SignType.sign (x - m) * s with hm'
  by_cases hc : |x - m'| < s
  · rw [if_pos hc]
    have hle : s / 2 * (1 + ε) ≤ s := by nlinarith
    exact ⟨⟨by positivity, hle.trans hsS⟩, s, hs0, hsS, hm.1, hm.2, .inr (by ring)⟩
  · rw [if_neg hc]
    rw [not_lt] at hc
    refine ⟨⟨by positivity, ?_⟩, s, hs0, hsS, hm.1, hm.2, .inl (by nlinarith)⟩
    rcases lt_trichotomy x m with h | h | h
    · rw [sign_neg (sub_neg.2 h)] at hm'
      simp only [SignType.coe_neg, SignType.coe_one] at hm'
      rcases le_abs.1 hc with hc | hc
      · linarith
      · exact FameFit.grow h0 h1 hR hS ht0 htS ht (by linarith)
    · subst h
      simp only [sub_self, sign_zero, SignType.coe_zero, zero_mul, add_zero] at hm'
      rw [hm'] at hc
      simp only [sub_self, abs_zero] at hc
      nlinarith
    · rw [sign_pos (sub_pos.2 h)] at hm'
      simp only [SignType.coe_one] at hm'
      rcases le_abs.1 hc with hc | hc
      · exact FameFit.grow h0 h1 hR hS ht0 htS ht (by linarith)
      · linarith

theorem FameFit.foldl {lo hi S ε : K} (h0 : 0 ≤ ε) (h1 : ε < 1) (hS : 5 / 2 * (hi - lo) ≤ S) (xs : List K)
    (hx : InRange lo hi xs) : ∀ ms : K × K, FameFit lo hi S ε ms.1 ms.2 →
    FameFit lo hi S ε (xs.foldl (fameNext ε) ms).1 (xs.foldl (fameNext ε) ms).2 := by
  induction xs with
  | nil => exact fun _ h => h
  | cons x xs ih =>
    intro ms h
    have hx' := hx x (by simp)
    exact ih (fun y hy => hx y (by simp [hy])) _ (h.next h0 h1 hS hx'.1 hx'.2)

/-- **C85** (exact arithmetic): whatever epsilon, and however long the stream, the step never exceeds the larger of its first
value and 5/2 of the width of the data. -/
theorem C85_step_bounded (s ε : K) (f : Fame K) (hf : Fame.new (exact K) s ε = .ok f) (x : K) (xs : List K) (lo hi : K)
    (hr : InRange lo hi (x :: xs)) :
    0 ≤ ((x :: xs).foldl (Fame.update (exact K)) f).stepSize ∧
    ((x :: xs).foldl (Fame.update (exact K)) f).stepSize ≤ max (max (|x| / 2) s * (1 + ε)) (5 / 2 * (hi - lo)) := by
  obtain ⟨-, h0, h1⟩ := fame_new_eq hf
  have e := congrArg Prod.snd (C77_recursion s ε f hf (x :: xs))
  simp only at e
  rw [e]
  have hx := hr x (by simp)
  have hs : 0 ≤ max (|x| / 2) s * (1 + ε) :=
    mul_nonneg (le_max_of_le_left (by positivity)) (by linarith)
  exact (FameFit.foldl h0 h1 (le_max_right (max (|x| / 2) s * (1 + ε)) _) xs (fun y hy => hr y (by simp [hy]))
    (x, max (|x| / 2) s * (1 + ε))
    ⟨⟨hs, le_max_left _ _⟩, 0, le_rfl, hs.trans (le_max_left _ _), by simpa using hx.1, by simpa using hx.2, .inl hs⟩).step

/-- **C85** (exact arithmetic): hence the estimate stays within that distance of the data for ever. -/
theorem C85_estimate_bounded (s ε : K) (f : Fame K) (hf : Fame.new (exact K) s ε = .ok f) (x : K) (xs : List K)
    (lo hi : K) (hr : InRange lo hi (x :: xs)) :
    let S := max (max (|x| / 2) s * (1 + ε)) (5 / 2 * (hi - lo))
    lo - S ≤ ((x :: xs).foldl (Fame.update (exact K)) f).evaluate ∧
      ((x :: xs).foldl (Fame.update (exact K)) f).evaluate ≤ hi + S := by
  intro S
  obtain ⟨-, h0, h1⟩ := fame_new_eq hf
  have e := congrArg Prod.fst (C77_recursion s ε f hf (x :: xs))
  simp only at e
  rw [e]
  have hx := hr x (by simp)
  have hs : 0 ≤ max (|x| / 2) s * (1 + ε) :=
    mul_nonneg (le_max_of_le_left (by positivity)) (by linarith)
  obtain ⟨t, -, h2, h3, h4, -⟩ := (FameFit.foldl h0 h1 (le_max_right (max (|x| / 2) s * (1 + ε)) _) xs
    (fun y hy => hr y (by simp [hy])) (x, max (|x| / 2) s * (1 + ε))
    ⟨⟨hs, le_max_left _ _⟩, 0, le_rfl, hs.trans (le_max_left _ _), by simpa using hx.1, by simpa using hx.2, .inl hs⟩).last
  exact ⟨by simp only [fame]; linarith, by simp only [fame]; linarith⟩

/-- The step does grow: from 1/2 to 5/3 of the width of the data. -/
example : ∃ f, Fame.new (exact ℚ) (31 / 100) (3 / 5) = .ok f ∧ InRange (0 : ℚ) 1 (0 :: [1, 1, 0, 1, 0, 1, 0]) ∧
    (f.update (exact ℚ) 0).stepSize < 1 / 2 ∧
    83 / 50 < ((0 :: [1, 1, 0, 1, 0, 1, 0]).foldl (Fame.update (exact ℚ)) f).stepSize :=
  ⟨⟨0, 31 / 100, 3 / 5, 0⟩, by decide +kernel, by unfold InRange; decide +kernel, by decide +kernel, by decide +kernel⟩

end KML
