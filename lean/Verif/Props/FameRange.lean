import Verif.Props.Fame
import Verif.Props.DoubleFame
import Verif.Lemmas.P2

/-! # C23 in rounded arithmetic and on doubles: WindowedFAME stays within one step of the data -/

set_option linter.unusedSectionVars false

namespace KML

open Spec

section Round

variable {K : Type} [Field K] [LinearOrder K] [IsStrictOrderedRing K] [FloorRing K]

namespace Fame

theorem lit_one (R : Rounding K) : R.arith.lit 1 = 1 := by
  show R.rnd ((1 : ℚ) : K) = 1
  rw [Rat.cast_one, R.rnd_one]

theorem lit_two (R : Rounding K) : R.arith.lit 2 = 2 := by
  show R.rnd ((2 : ℚ) : K) = 2
  rw [Rat.cast_ofNat]
  simpa using R.rnd_nat 2 (by norm_num)

theorem round_update_first (R : Rounding K) (f : Fame K) (x : K) (h : f.historyCount = 0) :
    f.update R.arith x = ⟨x, R.rnd (max (R.rnd (|x| / 2)) f.stepSize * R.rnd (1 + f.epsilon)), f.epsilon, 1⟩ := by
  have hmax : R.arith.max (R.arith.div (R.arith.abs x) (R.arith.lit 2)) f.stepSize = max (R.rnd (|x| / 2)) f.stepSize := by
    rw [lit_two]
    simp only [Arith.max, Rounding.arith, decide_eq_true_eq]
    split
    · rw [max_eq_right (le_of_lt ‹_›)]
    · rw [max_eq_left (not_lt.1 ‹_›)]
  unfold update
  rw [hmax, lit_one, lit_two]
  simp [h, Rounding.arith]

theorem round_update_later (R : Rounding K) (f : Fame K) (x : K) (h : f.historyCount ≠ 0) :
    f.update R.arith x =
      let m := if x < f.median then R.rnd (f.median - f.stepSize)
        else if f.median < x then R.rnd (f.median + f.stepSize) else f.median
      ⟨m, R.rnd ((if |R.rnd (x - m)| < f.stepSize then R.rnd (f.stepSize / 2) else f.stepSize) * R.rnd (1 + f.epsilon)),
        f.epsilon, f.historyCount + 1⟩ := by
  unfold update
  rw [lit_one, lit_two]
  by_cases c1 : x < f.median
  · simp only [h, if_false, Rounding.arith, c1, decide_true, if_true, ne_eq, not_false_eq_true, Bool.true_and]
    by_cases c2 : |R.rnd (x - R.rnd (f.median - f.stepSize))| < f.stepSize <;> simp [c2]
  · by_cases c3 : f.median < x
    · simp only [h, if_false, Rounding.arith, c1, c3, decide_true, decide_false, if_true, ne_eq, not_false_eq_true,
        Bool.true_and, Bool.false_eq_true]
      by_cases c2 : |R.rnd (x - R.rnd (f.median + f.stepSize))| < f.stepSize <;> simp [c2]
    · simp only [h, if_false, Rounding.arith, c1, c3, decide_false, ne_eq, not_false_eq_true, Bool.false_eq_true]
      by_cases c2 : |R.rnd (x - f.median)| < f.stepSize <;> simp [c2]

end Fame

/-- Halving a step does not fall short of half of any smaller difference. Without underflow halving is exact; in binary64 the
halving of an odd multiple of the smallest double is rounded, but differences are multiples of it. -/
def Rounding.HalvesWell (R : Rounding K) : Prop :=
  ∀ a b s : K, R.rnd a = a → R.rnd b = b → R.rnd s = s → a - b < s → a - b ≤ 2 * R.rnd (s / 2)

theorem Rounding.none_halvesWell : (Rounding.none (K := K)).HalvesWell := by
  intro a b s _ _ _ h
  show a - b ≤ 2 * (s / 2)
  linarith

/-- Multiplying a step by `1 + epsilon`, rounded, never makes it smaller. -/
theorem Rounding.grow (R : Rounding K) {s e : K} (hs : R.rnd s = s) (hs0 : 0 ≤ s) (he : 0 ≤ e) :
    s ≤ R.rnd (s * R.rnd (1 + e)) := by
  have h1 : 1 ≤ R.rnd (1 + e) := by
    have := R.mono (show (1 : K) ≤ 1 + e by linarith)
    rwa [R.rnd_one] at this
  have := R.mono (show s ≤ s * R.rnd (1 + e) from le_mul_of_one_le_right hs0 h1)
  rwa [hs] at this

/-- Invariant of WindowedFAME behind C23, in terms of the step the next update will use. -/
structure Fame.Near (R : Rounding K) (lo hi : K) (f : Fame K) : Prop where
  med : R.rnd f.median = f.median
  step : R.rnd f.stepSize = f.stepSize
  nonneg : 0 ≤ f.stepSize
  eps : 0 ≤ f.epsilon
  hull : (lo - 2 * f.stepSize ≤ f.median ∧ f.median ≤ hi + 2 * f.stepSize) ∨
    (R.rnd (lo - f.stepSize) ≤ f.median ∧ f.median ≤ R.rnd (hi + f.stepSize))

theorem Fame.Near.value {R : Rounding K} {lo hi x : K} {f : Fame K} (h : f.Near R lo hi) (hx : R.rnd x = x)
    (hlo : lo ≤ x) (hhi : x ≤ hi) (h0 : f.historyCount ≠ 0) :
    R.rnd (lo - f.stepSize) ≤ (f.update R.arith x).median ∧ (f.update R.arith x).median ≤ R.rnd (hi + f.stepSize) := by
  have hs := h.nonneg
  rw [Fame.round_update_later R f x h0]
  simp only
  have m1 : R.rnd (f.median - f.stepSize) ≤ f.median := by
    have := R.mono (show f.median - f.stepSize ≤ f.median by linarith)
    rwa [h.med] at this
  have m2 : f.median ≤ R.rnd (f.median + f.stepSize) := by
    have := R.mono (show f.median ≤ f.median + f.stepSize by linarith)
    rwa [h.med] at this
  split
  · rename_i c
    refine ⟨R.mono (by linarith), ?_⟩
    rcases h.hull with h1 | h1
    · exact R.mono (by linarith)
    · exact m1.trans h1.2
  · split
    · rename_i c
      refine ⟨?_, R.mono (by linarith)⟩
      rcases h.hull with h1 | h1
      · exact R.mono (by linarith)
      · exact h1.1.trans m2
    · have : f.median = x := le_antisymm (not_lt.1 ‹_›) (not_lt.1 ‹_›)
      rw [this]
      constructor
      · have := R.mono (show lo - f.stepSize ≤ x by linarith)
        rwa [hx] at this
      · have := R.mono (show x ≤ hi + f.stepSize by linarith)
        rwa [hx] at this

theorem Fame.Near.update {R : Rounding K} (hR : R.HalvesWell) (hodd : ∀ x, R.rnd (-x) = -R.rnd x) {lo hi x : K} {f : Fame K} (h : f.Near R lo hi)
    (hx : R.rnd x = x) (hlo : lo ≤ x) (hhi : x ≤ hi) (h0 : f.historyCount ≠ 0) : (f.update R.arith x).Near R lo hi := by
  have hv := h.value hx hlo hhi h0
  rw [Fame.round_update_later R f x h0] at hv ⊢
  simp only at hv ⊢
  generalize hm : (if x < f.median then R.rnd (f.median - f.stepSize)
        else if f.median < x then R.rnd (f.median + f.stepSize) else f.median) = m at hv ⊢
  have hmr : R.rnd m = m := by
    rw [← hm]
    split
    · exact R.idem _
    · split
      · exact R.idem _
      · exact h.med
  have hh0 : 0 ≤ R.rnd (f.stepSize / 2) := R.rnd_nonneg (by linarith [h.nonneg])
  refine ⟨hmr, R.idem _, ?_, h.eps, ?_⟩ <;> simp only
  · refine R.rnd_nonneg (mul_nonneg ?_ (R.rnd_nonneg (by linarith [h.eps])))
    split
    · exact hh0
    · exact h.nonneg
  · split
    · rename_i c
      left
      have g := R.grow (s := R.rnd (f.stepSize / 2)) (R.idem _) hh0 h.eps
      rw [abs_lt] at c
      have a1 : x - m < f.stepSize := by
        by_contra hc
        have := R.mono (not_lt.1 hc)
        rw [h.step] at this
        linarith [c.2]
      have a2 : m - x < f.stepSize := by
        by_contra hc
        have := R.mono (show x - m ≤ -f.stepSize by linarith [not_lt.1 hc])
        rw [hodd, h.step] at this
        linarith [c.1]
      have b1 := hR x m f.stepSize hx hmr h.step a1
      have b2 := hR m x f.stepSize hmr hx h.step a2
      constructor <;> linarith
    · right
      have g := R.grow h.step h.nonneg h.eps
      exact ⟨(R.mono (by linarith)).trans hv.1, hv.2.trans (R.mono (by linarith))⟩

/-- The state after the constructor. -/
theorem Fame.new_eq {A : Arith K} {s e : K} {f : Fame K} (hf : Fame.new A s e = .ok f) :
    f = ⟨A.lit 0, s, e, 0⟩ ∧ A.lt e (A.lit 0) = false := by
  unfold Fame.new at hf
  split at hf
  · cases hf
  · rename_i hc
    injection hf with hf
    rw [Bool.or_eq_true, not_or] at hc
    exact ⟨hf.symm, by simpa using hc.1⟩

theorem Fame.run_near {R : Rounding K} (hR : R.HalvesWell) (hodd : ∀ x, R.rnd (-x) = -R.rnd x) (stepSize epsilon : K)
    (hs : 0 ≤ stepSize) (f : Fame K) (hf : Fame.new R.arith stepSize epsilon = .ok f)
    (lo hi : K) (xs : List K) (hne : xs ≠ []) (hr : InRange lo hi xs) (hx : ∀ x ∈ xs, R.rnd x = x) :
    (xs.foldl (Fame.update R.arith) f).Near R lo hi := by
  obtain ⟨rfl, he⟩ := Fame.new_eq hf
  have he : 0 ≤ epsilon := by
    have : R.arith.lit 0 = (0 : K) := by show R.rnd ((0 : ℚ) : K) = 0; rw [Rat.cast_zero, R.rnd_zero]
    rw [this] at he
    simpa [Rounding.arith] using he
  induction xs using List.reverseRecOn with
  | nil => exact absurd rfl hne
  | append_singleton xs x ih =>
    rw [List.foldl_append, List.foldl_cons, List.foldl_nil]
    obtain ⟨hx1, hx2⟩ := hr x (by simp)
    have hxr := hx x (by simp)
    by_cases h0 : xs = []
    · subst h0
      rw [List.foldl_nil, Fame.round_update_first R _ x rfl]
      simp only
      have s0 : 0 ≤ R.rnd (max (R.rnd (|x| / 2)) stepSize * R.rnd (1 + epsilon)) :=
        R.rnd_nonneg (mul_nonneg (le_max_of_le_right hs) (R.rnd_nonneg (by linarith)))
      exact ⟨hxr, R.idem _, s0, he, Or.inl (by simp only; constructor <;> linarith)⟩
    · refine (ih h0 (fun y hy => hr y (by simp [hy])) fun y hy => hx y (by simp [hy])).update hR hodd hxr hx1 hx2 ?_
      rw [Fame.run_count]
      simpa using h0

/-- **C23** (any odd rounding that halves well, in particular exact arithmetic and binary64): after any stream `xs` and one
more observation `x`, with `s` the step in force at that update, the estimate is between the rounded values of `lo - s` and
`hi + s`, where `[lo, hi]` contains the observations. -/
theorem C23_rounded (R : Rounding K) (hR : R.HalvesWell) (hodd : ∀ x, R.rnd (-x) = -R.rnd x) (stepSize epsilon : K)
    (hs : 0 ≤ stepSize) (f : Fame K) (hf : Fame.new R.arith stepSize epsilon = .ok f)
    (xs : List K) (x lo hi : K) (hr : InRange lo hi (xs ++ [x])) (hx : ∀ y ∈ xs ++ [x], R.rnd y = y) :
    let g := xs.foldl (Fame.update R.arith) f
    let s := if xs = [] then max (R.rnd (|x| / 2)) stepSize else g.stepSize
    R.rnd (lo - s) ≤ (g.update R.arith x).evaluate ∧ (g.update R.arith x).evaluate ≤ R.rnd (hi + s) := by
  intro g s
  obtain ⟨hx1, hx2⟩ := hr x (by simp)
  have hxr := hx x (by simp)
  by_cases h0 : xs = []
  · subst h0
    have hf' := (Fame.new_eq hf).1
    have hm : 0 ≤ max (R.rnd (|x| / 2)) stepSize := le_max_of_le_right hs
    simp only [g, s, List.foldl_nil, if_true, Fame.evaluate]
    rw [Fame.round_update_first R f x (by rw [hf'])]
    simp only
    constructor
    · have := R.mono (show lo - max (R.rnd (|x| / 2)) stepSize ≤ x by linarith)
      rwa [hxr] at this
    · have := R.mono (show x ≤ hi + max (R.rnd (|x| / 2)) stepSize by linarith)
      rwa [hxr] at this
  · have hn := Fame.run_near hR hodd stepSize epsilon hs f hf lo hi xs h0 (fun y hy => hr y (by simp [hy]))
      fun y hy => hx y (by simp [hy])
    simp only [s, if_neg h0]
    refine hn.value hxr hx1 hx2 ?_
    rw [Fame.run_count]
    simpa using fun _ => h0

/-- **C23** (any rounding): with `epsilon = 0` the step never exceeds `max(|first| / 2, stepSize)`. -/
theorem C23_step_rounded (R : Rounding K) (stepSize : K) (hs : 0 ≤ stepSize) (hsr : R.rnd stepSize = stepSize) (f : Fame K)
    (hf : Fame.new R.arith stepSize 0 = .ok f) (x : K) (xs : List K) :
    ((x :: xs).foldl (Fame.update R.arith) f).stepSize ≤ max (R.rnd (|x| / 2)) stepSize := by
  obtain ⟨rfl, -⟩ := Fame.new_eq hf
  set M := max (R.rnd (|x| / 2)) stepSize with hM
  have hm : 0 ≤ M := le_max_of_le_right hs
  have hMr : R.rnd M = M := by
    rw [hM]
    rcases max_choice (R.rnd (|x| / 2)) stepSize with h | h <;> rw [h]
    · exact R.idem _
    · exact hsr
  suffices h : 0 ≤ ((x :: xs).foldl (Fame.update R.arith) ⟨R.arith.lit 0, stepSize, 0, 0⟩).stepSize ∧
      R.rnd ((x :: xs).foldl (Fame.update R.arith) ⟨R.arith.lit 0, stepSize, 0, 0⟩).stepSize =
        ((x :: xs).foldl (Fame.update R.arith) ⟨R.arith.lit 0, stepSize, 0, 0⟩).stepSize ∧
      ((x :: xs).foldl (Fame.update R.arith) ⟨R.arith.lit 0, stepSize, 0, 0⟩).stepSize ≤ M from h.2.2
  induction xs using List.reverseRecOn with
  | nil =>
    rw [List.foldl_cons, List.foldl_nil, Fame.round_update_first R _ x rfl]
    simp only [add_zero, R.rnd_one, mul_one]
    rw [← hM, hMr]
    exact ⟨hm, hMr, le_rfl⟩
  | append_singleton xs y ih =>
    rw [← List.cons_append, List.foldl_append, List.foldl_cons, List.foldl_nil]
    have hh : ((x :: xs).foldl (Fame.update R.arith) ⟨R.arith.lit 0, stepSize, 0, 0⟩).historyCount ≠ 0 := by
      rw [Fame.run_count]; simp
    have hep := Fame.run_epsilon R.arith ⟨R.arith.lit 0, stepSize, 0, 0⟩ (x :: xs)
    generalize (x :: xs).foldl (Fame.update R.arith) ⟨R.arith.lit 0, stepSize, 0, 0⟩ = g at *
    rw [Fame.round_update_later R g y hh]
    simp only [hep, add_zero, R.rnd_one, mul_one]
    generalize (if y < g.median then R.rnd (g.median - g.stepSize)
        else if g.median < y then R.rnd (g.median + g.stepSize) else g.median) = m
    refine ⟨?_, R.idem _, ?_⟩
    · refine R.rnd_nonneg ?_
      split
      · exact R.rnd_nonneg (by linarith [ih.1])
      · exact ih.1
    · split
      · rw [R.idem]
        have := R.mono (show g.stepSize / 2 ≤ g.stepSize by linarith [ih.1])
        rw [ih.2.1] at this
        exact this.trans ih.2.2
      · rw [ih.2.1]
        exact ih.2.2

end Round

/-- Binary64 halves well. -/
theorem R64_halvesWell : R64.HalvesWell := by
  intro a b s ha hb hs h
  show a - b ≤ 2 * rnd64 (s / 2)
  obtain ⟨m, hm⟩ := rnd64_grid ha
  obtain ⟨n, hn⟩ := rnd64_grid hb
  obtain ⟨k, hk⟩ := rnd64_grid hs
  by_cases hx : s / 2 = 0
  · rw [hx, rnd64_zero]; linarith
  rcases lt_or_ge (expo (s / 2)) (-1022) with h1 | h1
  · have e := (abs_le.1 (rndAt_err (-1074) (s / 2))).1
    rw [rnd64_sub h1]
    have p := pow2_pos (-1074)
    have hlt : m - n < k := by
      rw [hm, hn, hk, ← sub_mul] at h
      have := lt_of_mul_lt_mul_right h p.le
      exact_mod_cast this
    have hle : ((m : ℚ) - n) + 1 ≤ k := by exact_mod_cast hlt
    have : a - b + pow2 (-1074) ≤ s := by
      rw [hm, hn, hk, ← sub_mul]
      nlinarith
    linarith
  · have e : rnd64 (s / 2) = s / 2 := by
      rw [rnd64_normal h1]
      have : rnd53 s = s := by
        rw [← rnd64_normal (x := s)]
        · exact hs
        refine h1.trans (expo_mono hx ?_)
        rw [abs_div, abs_two]
        linarith [abs_nonneg s]
      exact rnd53_half s this
    rw [e]
    linarith

/-- **C23** in binary64. -/
theorem C23_binary64 (stepSize epsilon : ℚ) (hs : 0 ≤ stepSize) (f : Fame ℚ)
    (hf : Fame.new b64 stepSize epsilon = .ok f) (xs : List ℚ) (x lo hi : ℚ) (hr : InRange lo hi (xs ++ [x]))
    (hx : ∀ y ∈ xs ++ [x], rnd64 y = y) :
    let g := xs.foldl (Fame.update b64) f
    let s := if xs = [] then max (rnd64 (|x| / 2)) stepSize else g.stepSize
    rnd64 (lo - s) ≤ (g.update b64 x).evaluate ∧ (g.update b64 x).evaluate ≤ rnd64 (hi + s) :=
  C23_rounded R64 R64_halvesWell rnd64_neg stepSize epsilon hs f hf xs x lo hi hr hx

/-- **C23** on doubles up to `2 ^ 960`: the bounds computed in doubles contain the estimate. -/
theorem C23_double (s e : ℚ) (hs0 : 0 ≤ s) (hsM : |s| ≤ pow2 960) (f : Fame Dbl)
    (hf : Fame.new Dbl.arith (.fin s) (.fin e) = .ok f) (xs : List ℚ) (x lo hi : ℚ) (hr : InRange lo hi (xs ++ [x]))
    (hx : ∀ y ∈ xs ++ [x], rnd64 y = y ∧ |y| ≤ pow2 960) (hne : xs ≠ []) (hn : xs.length < 2 ^ 46) :
    ∃ t v : ℚ, ((xs.map .fin).foldl (Fame.update Dbl.arith) f).stepSize = .fin t ∧
      (((xs ++ [x]).map .fin).foldl (Fame.update Dbl.arith) f).evaluate = .fin v ∧
      rnd64 (lo - t) ≤ v ∧ v ≤ rnd64 (hi + t) := by
  obtain ⟨g, h1, rfl, h3⟩ := Fame.new_dbl hf hsM
  have hg : g.historyCount = 0 := by rw [(Fame.new_eq h1).1]
  obtain ⟨h4, -⟩ := h3.run (by norm_num) (by norm_num) xs g (by omega) fun y hy => (hx y (by simp [hy])).2
  obtain ⟨h6, -⟩ := h3.run (by norm_num) (by norm_num) (xs ++ [x]) g (by rw [List.length_append, List.length_singleton]; omega)
    fun y hy => (hx y hy).2
  refine ⟨_, _, by rw [h4], by rw [h6]; rfl, ?_⟩
  have := C23_binary64 s e hs0 g h1 xs x lo hi hr fun y hy => (hx y hy).1
  simp only [if_neg hne] at this
  rw [List.foldl_append]
  exact this

/-- With the bounds taken in exact arithmetic instead, the claim would be off by a rounding: from `1 + 2 ^ -51` with step 8 an
observation of `1 + 2 ^ -52` leads to -7, which is less than `1 + 2 ^ -52 - 8`. -/
example : (match Fame.new b64 8 0 with
    | .ok f => ([1 + 1 / 2 ^ 51, 1 + 1 / 2 ^ 52].foldl (Fame.update b64) f).evaluate
    | _ => 0) = -7 := by
  decide +kernel

end KML
