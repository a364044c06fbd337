import Verif.Model.Utils
import Verif.Lemmas.Float
import Mathlib.Tactic.Linarith
import Mathlib.Tactic.NormNum
import Mathlib.Tactic.Ring

/-! # C46–C49: tolerant comparisons and bins -/

set_option linter.unusedSectionVars false

namespace KML

open Utils

section Round

variable {K : Type} [Field K] [LinearOrder K] [IsStrictOrderedRing K] [FloorRing K]

theorem larger_eq (R : Rounding K) (a b : K) : larger R.arith a b = max |a| |b| := by
  simp only [larger, Rounding.arith, decide_eq_true_eq]
  split
  · rw [max_eq_right (le_of_lt ‹_›)]
  · rw [max_eq_left (not_lt.1 ‹_›)]

theorem smaller_eq (R : Rounding K) (a b : K) : smaller R.arith a b = min |a| |b| := by
  simp only [smaller, Rounding.arith, decide_eq_true_eq]
  split
  · rw [min_eq_right (le_of_lt ‹_›)]
  · rw [min_eq_left (not_lt.1 ‹_›)]

theorem approx_iff (R : Rounding K) (a b e : K) :
    approximatelyEqual R.arith a b e = true ↔ |R.rnd (a - b)| ≤ R.rnd (max |a| |b| * e) := by
  unfold approximatelyEqual; rw [larger_eq]; simp [Rounding.arith]

theorem essential_iff (R : Rounding K) (a b e : K) :
    essentiallyEqual R.arith a b e = true ↔ |R.rnd (a - b)| ≤ R.rnd (min |a| |b| * e) := by
  unfold essentiallyEqual; rw [smaller_eq]; simp [Rounding.arith]

theorem greater_iff (R : Rounding K) (a b e : K) :
    definitelyGreaterThan R.arith a b e = true ↔ R.rnd (max |a| |b| * e) < R.rnd (a - b) := by
  unfold definitelyGreaterThan; rw [larger_eq]; simp [Rounding.arith]

theorem less_iff (R : Rounding K) (a b e : K) :
    definitelyLessThan R.arith a b e = true ↔ R.rnd (max |a| |b| * e) < R.rnd (b - a) := by
  unfold definitelyLessThan; rw [larger_eq]; simp [Rounding.arith]

theorem tol_nonneg (R : Rounding K) (a b e : K) (he : 0 ≤ e) : 0 ≤ R.rnd (max |a| |b| * e) := by
  have h0 : R.rnd 0 = 0 := R.rnd_zero
  rw [← h0]
  exact R.mono (mul_nonneg (le_max_of_le_left (abs_nonneg a)) he)

/-! ## C46 -/

/-- **C46**: for every sign-symmetric rounding and `epsilon ≥ 0`, exactly one of "approximately equal",
"definitely greater", "definitely less" holds. -/
theorem C46_trichotomy (R : Rounding K) (hodd : ∀ x, R.rnd (-x) = -R.rnd x) (a b e : K) (he : 0 ≤ e) :
    let E := approximatelyEqual R.arith a b e = true
    let G := definitelyGreaterThan R.arith a b e = true
    let L := definitelyLessThan R.arith a b e = true
    (E ∧ ¬ G ∧ ¬ L) ∨ (¬ E ∧ G ∧ ¬ L) ∨ (¬ E ∧ ¬ G ∧ L) := by
  simp only [approx_iff, greater_iff, less_iff]
  have h1 : R.rnd (b - a) = -R.rnd (a - b) := by rw [← hodd]; congr 1; ring
  have h2 := tol_nonneg R a b e he
  rw [h1, abs_le]
  generalize R.rnd (max |a| |b| * e) = M at *
  generalize R.rnd (a - b) = d at *
  rcases lt_or_ge M d with h | h
  · right; left
    exact ⟨fun h' => by linarith [h'.2], h, by linarith⟩
  · rcases lt_or_ge M (-d) with h' | h'
    · right; right
      exact ⟨fun h'' => by linarith [h''.1], by linarith, h'⟩
    · left
      exact ⟨⟨by linarith, h⟩, by linarith, by linarith⟩

/-- **C46**: greater and less are mirror images (any arithmetic with a symmetric `larger`). -/
theorem C46_mirror (R : Rounding K) (a b e : K) :
    definitelyGreaterThan R.arith a b e = definitelyLessThan R.arith b a e := by
  unfold definitelyGreaterThan definitelyLessThan
  rw [larger_eq, larger_eq, max_comm]

/-- **C46**: both equalities are symmetric (odd rounding). -/
theorem C46_symmetric (R : Rounding K) (hodd : ∀ x, R.rnd (-x) = -R.rnd x) (a b e : K) :
    approximatelyEqual R.arith a b e = approximatelyEqual R.arith b a e ∧
    essentiallyEqual R.arith a b e = essentiallyEqual R.arith b a e := by
  have h1 : R.rnd (b - a) = -R.rnd (a - b) := by rw [← hodd]; congr 1; ring
  constructor
  · rw [Bool.eq_iff_iff, approx_iff, approx_iff, h1, abs_neg, max_comm]
  · rw [Bool.eq_iff_iff, essential_iff, essential_iff, h1, abs_neg, min_comm]

/-- **C46**: both equalities are reflexive, and essential equality implies approximate equality. -/
theorem C46_reflexive_and_implication (R : Rounding K) (a b e : K) (he : 0 ≤ e) :
    approximatelyEqual R.arith a a e = true ∧ essentiallyEqual R.arith a a e = true ∧
    (essentiallyEqual R.arith a b e = true → approximatelyEqual R.arith a b e = true) := by
  have h0 : R.rnd 0 = 0 := R.rnd_zero
  refine ⟨?_, ?_, ?_⟩
  · rw [approx_iff, sub_self, h0, abs_zero]; exact tol_nonneg R a a e he
  · rw [essential_iff, sub_self, h0, abs_zero, min_self]
    have := tol_nonneg R a a e he
    rwa [max_self] at this
  · rw [essential_iff, approx_iff]
    intro h
    exact h.trans (R.mono (mul_le_mul_of_nonneg_right min_le_max he))

end Round

/-- Binary64 is an odd rounding: the default tolerance on 0.1 + 0.2 and 0.3. -/
example : approximatelyEqual b64 (b64.add (b64.lit (1 / 10)) (b64.lit (2 / 10))) (b64.lit (3 / 10))
      (defaultEps b64) = true ∧
    b64.eq (b64.add (b64.lit (1 / 10)) (b64.lit (2 / 10))) (b64.lit (3 / 10)) = false := by
  decide +kernel

example (a b : ℚ) := C46_trichotomy R64 rnd64_neg a b (defaultEps b64) (by decide +kernel)

/-! ## C47 -/

section Exact

variable {K : Type} [Field K] [LinearOrder K] [IsStrictOrderedRing K] [FloorRing K]

/-- Exact arithmetic: the meaning of `definitelyLessThan`. -/
theorem less_exact (a b e : K) :
    definitelyLessThan (exact K) a b e = true ↔ max |a| |b| * e < b - a := by
  rw [exact_eq_none, less_iff]; rfl

theorem greater_exact (a b e : K) :
    definitelyGreaterThan (exact K) a b e = true ↔ max |a| |b| * e < a - b := by
  rw [exact_eq_none, greater_iff]; rfl

/-- **C47** (exact): `definitelyLessThan` implies `<` and is irreflexive. -/
theorem C47_implies_lt (a b e : K) (he : 0 ≤ e) :
    (definitelyLessThan (exact K) a b e = true → a < b) ∧ definitelyLessThan (exact K) a a e = false := by
  have hp : ∀ x y : K, 0 ≤ max |x| |y| * e := fun x y =>
    mul_nonneg (le_max_of_le_left (abs_nonneg x)) he
  constructor
  · rw [less_exact]; intro h; linarith [hp a b]
  · rw [← Bool.not_eq_true, less_exact, sub_self]; exact not_lt.2 (hp a a)

/-- **C47** (exact): transitivity. -/
theorem C47_transitive (a b c e : K) (he : 0 ≤ e)
    (h1 : definitelyLessThan (exact K) a b e = true) (h2 : definitelyLessThan (exact K) b c e = true) :
    definitelyLessThan (exact K) a c e = true := by
  rw [less_exact] at *
  have hb := abs_nonneg a
  have hc := abs_nonneg c
  have h3 : |a| * e ≤ max |a| |b| * e := mul_le_mul_of_nonneg_right (le_max_left _ _) he
  have h4 : |c| * e ≤ max |b| |c| * e := mul_le_mul_of_nonneg_right (le_max_right _ _) he
  have h5 : 0 ≤ |a| * e := mul_nonneg hb he
  have h6 : 0 ≤ |c| * e := mul_nonneg hc he
  rcases max_choice |a| |c| with h | h <;> rw [h] <;> linarith

/-- **C47** (exact, `0 ≤ epsilon < 1`): lowering the left or raising the right side keeps it. -/
theorem C47_monotone (a a' b b' e : K) (he : 0 ≤ e) (he1 : e < 1) (ha : a' ≤ a) (hb : b ≤ b')
    (h : definitelyLessThan (exact K) a b e = true) :
    definitelyLessThan (exact K) a' b' e = true := by
  rw [less_exact] at *
  have key : max |a'| |b'| ≤ max |a| |b| + ((a - a') + (b' - b)) := by
    apply max_le
    · have := abs_sub_abs_le_abs_sub a' a
      rw [abs_of_nonpos (by linarith : a' - a ≤ 0)] at this
      have := le_max_left |a| |b|
      linarith
    · have := abs_sub_abs_le_abs_sub b' b
      rw [abs_of_nonneg (by linarith : 0 ≤ b' - b)] at this
      have := le_max_right |a| |b|
      linarith
  have h2 := mul_le_mul_of_nonneg_right key he
  have h3 : 0 ≤ (a - a') + (b' - b) := by linarith
  nlinarith

/-- **C47** (exact): invariance under positive scaling. -/
theorem C47_scale (a b e k : K) (hk : 0 < k) :
    definitelyLessThan (exact K) (k * a) (k * b) e = definitelyLessThan (exact K) a b e := by
  rw [Bool.eq_iff_iff, less_exact, less_exact, abs_mul, abs_mul, abs_of_pos hk,
    ← mul_max_of_nonneg _ _ hk.le, mul_assoc, ← mul_sub]
  exact mul_lt_mul_iff_right₀ hk

end Exact

example : definitelyLessThan (exact ℚ) 1 2 (1 / 10000) = true ∧
    definitelyLessThan (exact ℚ) 2 (2 + 1 / 1000) (1 / 10000) = true ∧
    definitelyLessThan (exact ℚ) 2 (2 + 1 / 10000) (1 / 10000) = false := by decide +kernel

/-! ## C48 -/

/-- A Boolean relation is a strict weak ordering. -/
def StrictWeak {α : Type} (r : α → α → Bool) : Prop :=
  (∀ x, r x x = false) ∧ (∀ x y z, r x y = true → r y z = true → r x z = true) ∧
  (∀ x y z, (r x y = false ∧ r y x = false) → (r y z = false ∧ r z y = false) →
    (r x z = false ∧ r z x = false))

/-- **C48**, the full claim, with and without rounding. -/
def C48_full : Prop := StrictWeak (Bin.lt b64) ∧ StrictWeak (Bin.lt (exact ℚ))

/-- **C48** is false of the code: 1 and 1.00009 tie, 1.00009 and 1.00018 tie, but 1 < 1.00018. -/
theorem C48_violated : ¬ StrictWeak (Bin.lt (exact ℚ)) ∧ ¬ StrictWeak (Bin.lt b64) ∧ ¬ C48_full := by
  have h1 : ¬ StrictWeak (Bin.lt (exact ℚ)) := by
    intro h
    have := h.2.2 ⟨1, 1, 1⟩ ⟨1 + 9 / 100000, 2, 1⟩ ⟨1 + 18 / 100000, 2, 1⟩
    revert this
    decide +kernel
  have h2 : ¬ StrictWeak (Bin.lt b64) := by
    intro h
    have := h.2.2 ⟨1, 1, 1⟩ ⟨b64.lit (1 + 9 / 100000), 2, 1⟩ ⟨b64.lit (1 + 18 / 100000), 2, 1⟩
    revert this
    decide +kernel
  exact ⟨h1, h2, fun h => h2 h.1⟩

section Exact

variable {K : Type} [Field K] [LinearOrder K] [IsStrictOrderedRing K] [FloorRing K]

theorem defaultEps_bounds : (0 : K) ≤ defaultEps (exact K) ∧ defaultEps (exact K) < 1 := by
  simp only [defaultEps, exact]
  constructor <;> norm_num

/-- **C48**, the part that holds (exact arithmetic): `operator<` is a strict partial order, refines `<`
on left edges, and is a strict weak order on any set of bins whose left edges are equal or separated.
Missing: transitivity of ties in general, which is false (`C48_violated`). -/
theorem C48_strict_partial_order_partial :
    (∀ x : Bin K, Bin.lt (exact K) x x = false) ∧
    (∀ x y : Bin K, Bin.lt (exact K) x y = true → x.left < y.left) ∧
    (∀ x y z : Bin K, Bin.lt (exact K) x y = true → Bin.lt (exact K) y z = true →
      Bin.lt (exact K) x z = true) ∧
    (∀ S : Bin K → Prop,
      (∀ x y, S x → S y → x.left = y.left ∨ Bin.lt (exact K) x y = true ∨ Bin.lt (exact K) y x = true) →
      ∀ x y z, S x → S y → S z → (Bin.lt (exact K) x y = false ∧ Bin.lt (exact K) y x = false) →
        (Bin.lt (exact K) y z = false ∧ Bin.lt (exact K) z y = false) →
        (Bin.lt (exact K) x z = false ∧ Bin.lt (exact K) z x = false)) := by
  have he := (defaultEps_bounds (K := K)).1
  refine ⟨fun x => (C47_implies_lt x.left x.left _ he).2, fun x y => (C47_implies_lt x.left y.left _ he).1,
    fun x y z => C47_transitive x.left y.left z.left _ he, ?_⟩
  intro S hS x y z hx hy hz h1 h2
  have hxy : x.left = y.left := by
    rcases hS x y hx hy with h | h | h
    · exact h
    · rw [h] at h1; simp at h1
    · rw [h] at h1; simp at h1
  have hyz : y.left = z.left := by
    rcases hS y z hy hz with h | h | h
    · exact h
    · rw [h] at h2; simp at h2
    · rw [h] at h2; simp at h2
  have hxz : x.left = z.left := hxy.trans hyz
  have hirr := fun a : K => (C47_implies_lt a a (defaultEps (exact K)) he).2
  exact ⟨by unfold Bin.lt; rw [hxz]; exact hirr _, by unfold Bin.lt; rw [hxz]; exact hirr _⟩

/-- **C48**, `operator==` for every sign-symmetric rounding: it is reflexive and symmetric, bins that are equal are not
ordered by `operator<`, and it compares both edges (and nothing else). -/
theorem C48_equality_partial (R : Rounding K) (hodd : ∀ x, R.rnd (-x) = -R.rnd x) (he : 0 ≤ defaultEps R.arith)
    (x y : Bin K) :
    Bin.eq R.arith x x = true ∧ Bin.eq R.arith x y = Bin.eq R.arith y x ∧
    (Bin.eq R.arith x y = true → Bin.lt R.arith x y = false ∧ Bin.lt R.arith y x = false) ∧
    (Bin.eq R.arith x y = true ↔
      |R.rnd (x.left - y.left)| ≤ R.rnd (min |x.left| |y.left| * R.rnd (1 / 10000)) ∧
      |R.rnd (x.right - y.right)| ≤ R.rnd (min |x.right| |y.right| * R.rnd (1 / 10000))) := by
  have r := fun a : K => (C46_reflexive_and_implication R a a (defaultEps R.arith) he).2.1
  have hd : defaultEps R.arith = R.rnd (1 / 10000) := by simp [defaultEps, Rounding.arith]
  refine ⟨?_, ?_, ?_, ?_⟩
  · simp only [Bin.eq, r, Bool.and_self]
  · simp only [Bin.eq, (C46_symmetric R hodd x.left y.left _).2, (C46_symmetric R hodd x.right y.right _).2]
  · intro h
    simp only [Bin.eq, Bool.and_eq_true] at h
    have ha := (C46_reflexive_and_implication R x.left y.left _ he).2.2 h.1
    have t := C46_trichotomy R hodd x.left y.left _ he
    have m := C46_mirror R x.left y.left (defaultEps R.arith)
    simp only [ha] at t
    unfold Bin.lt
    rw [← m]
    simpa [and_comm] using t
  · simp only [Bin.eq, Bool.and_eq_true, essential_iff, hd]

/-- Equality of bins is tolerant, and it does look at the right edge. -/
example : Bin.eq b64 ⟨1, 2, 3⟩ ⟨b64.lit (1 + 1 / 20000), 2, 5⟩ = true ∧ Bin.eq b64 ⟨1, 2, 3⟩ ⟨1, 3, 3⟩ = false ∧
    Bin.eq b64 ⟨1, 2, 3⟩ ⟨2, 2, 3⟩ = false := by decide +kernel

example (x y : Bin ℚ) := C48_equality_partial R64 rnd64_neg (by decide +kernel) x y

/-! ## C49 -/

/-- **C49** (any arithmetic): counts add up, every edge of the sum is an edge of an operand, and `+=`
stores and returns the same bin as `+`. -/
theorem C49_counts_and_edges {F : Type} (A : Arith F) (x y : Bin F) :
    (Bin.add A x y).count = x.count + y.count ∧
    ((Bin.add A x y).left = x.left ∨ (Bin.add A x y).left = y.left) ∧
    ((Bin.add A x y).right = x.right ∨ (Bin.add A x y).right = y.right) ∧
    Bin.addAssign A x y = (Bin.add A x y, Bin.add A x y) := by
  refine ⟨rfl, ?_, ?_, rfl⟩
  · simp only [Bin.add]; split <;> simp
  · simp only [Bin.add]; split <;> simp

/-- **C49** (exact): the sum covers the left operand exactly, and the right operand up to the relative
tolerance 10^-6. -/
theorem C49_covers (x y : Bin K) :
    let s := Bin.add (exact K) x y
    s.left ≤ x.left ∧ s.left ≤ y.left + max |y.left| |x.left| * (1 / 1000000) ∧
    x.right ≤ s.right ∧ y.right - max |y.right| |x.right| * (1 / 1000000) ≤ s.right := by
  have hp : ∀ a b : K, 0 ≤ max |a| |b| * (1 / 1000000) := fun a b =>
    mul_nonneg (le_max_of_le_left (abs_nonneg a)) (by norm_num)
  have he : plusEps (exact K) = (1 / 1000000 : K) := by simp [plusEps, exact]
  simp only [Bin.add, he]
  have e1 := less_exact y.left x.left (1 / 1000000 : K)
  have e2 := greater_exact y.right x.right (1 / 1000000 : K)
  have p1 := hp y.left x.left
  have p2 := hp y.right x.right
  have L : (if definitelyLessThan (exact K) y.left x.left (1 / 1000000) = true then y.left else x.left) ≤
      x.left ∧ (if definitelyLessThan (exact K) y.left x.left (1 / 1000000) = true then y.left else x.left)
        ≤ y.left + max |y.left| |x.left| * (1 / 1000000) := by
    split
    · have := e1.1 ‹_›; constructor <;> linarith
    · have := not_lt.1 (fun h => ‹¬ _› (e1.2 h)); constructor <;> linarith
  have R : x.right ≤ (if definitelyGreaterThan (exact K) y.right x.right (1 / 1000000) = true then y.right
      else x.right) ∧ y.right - max |y.right| |x.right| * (1 / 1000000) ≤
      (if definitelyGreaterThan (exact K) y.right x.right (1 / 1000000) = true then y.right
      else x.right) := by
    split
    · have := e2.1 ‹_›; constructor <;> linarith
    · have := not_lt.1 (fun h => ‹¬ _› (e2.2 h)); constructor <;> linarith
  exact ⟨L.1, L.2, R.1, R.2⟩

/-- **C49** (exact): when the edges are equal or differ by more than the tolerance, the sum is exactly the
convex hull of the two ranges. -/
theorem C49_exact_hull (x y : Bin K)
    (hl : x.left ≤ y.left ∨ definitelyLessThan (exact K) y.left x.left (plusEps (exact K)) = true)
    (hr : y.right ≤ x.right ∨ definitelyGreaterThan (exact K) y.right x.right (plusEps (exact K)) = true) :
    (Bin.add (exact K) x y).left = min x.left y.left ∧
    (Bin.add (exact K) x y).right = max x.right y.right := by
  have hp : ∀ a b : K, 0 ≤ max |a| |b| * (1 / 1000000) := fun a b =>
    mul_nonneg (le_max_of_le_left (abs_nonneg a)) (by norm_num)
  have he : plusEps (exact K) = (1 / 1000000 : K) := by simp [plusEps, exact]
  simp only [Bin.add]
  rw [he] at hl hr ⊢
  have e1 := less_exact y.left x.left (1 / 1000000 : K)
  have e2 := greater_exact y.right x.right (1 / 1000000 : K)
  constructor
  · by_cases h : definitelyLessThan (exact K) y.left x.left (1 / 1000000) = true
    · rw [if_pos h]
      have := e1.1 h
      rw [min_eq_right]; linarith [hp y.left x.left]
    · rw [if_neg h, min_eq_left (hl.resolve_right h)]
  · by_cases h : definitelyGreaterThan (exact K) y.right x.right (1 / 1000000) = true
    · rw [if_pos h]
      have := e2.1 h
      rw [max_eq_right]; linarith [hp y.right x.right]
    · rw [if_neg h, max_eq_left (hr.resolve_right h)]

end Exact

/-- Overlapping bins: the hypotheses of `C49_exact_hull` are met and the hull is exact. -/
example : Bin.add (exact ℚ) ⟨2, 5, 3⟩ ⟨1, 4, 2⟩ = ⟨1, 5, 5⟩ := by decide +kernel

example : definitelyLessThan (exact ℚ) 1 2 (plusEps (exact ℚ)) = true := by decide +kernel

end KML
