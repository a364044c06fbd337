import Verif.Props.EntropyWindow
import Verif.Props.EntropyError

/-! # C97: StreamingEntropy drifts without bound -/

set_option linter.unusedSectionVars false

namespace KML

open Spec Utils

/-- Comparisons of rationals and of their images in the reals. -/
theorem Hist.sim_cast : Hist.Sim (exact ℚ) (exact ℝ) (fun x : ℚ => (x : ℝ)) (fun _ => True) := by
  have hl : ∀ a b : ℚ, larger (exact ℝ) (a : ℝ) (b : ℝ) = ((larger (exact ℚ) a b : ℚ) : ℝ) := by
    intro a b
    have e1 := larger_eq (Rounding.none (K := ℝ)) (a : ℝ) (b : ℝ)
    have e2 := larger_eq (Rounding.none (K := ℚ)) a b
    rw [← exact_eq_none] at e1 e2
    rw [e1, e2]
    push_cast
    rfl
  have hless : ∀ a b e : ℚ, definitelyLessThan (exact ℝ) (a : ℝ) (b : ℝ) (e : ℝ) = definitelyLessThan (exact ℚ) a b e := by
    intro a b e
    unfold definitelyLessThan
    rw [hl]
    show decide (((larger (exact ℚ) a b : ℚ) : ℝ) * (e : ℝ) < (b : ℝ) - (a : ℝ)) = decide (larger (exact ℚ) a b * e < b - a)
    rw [decide_eq_decide]
    norm_cast
  have hgr : ∀ a b e : ℚ, definitelyGreaterThan (exact ℝ) (a : ℝ) (b : ℝ) (e : ℝ) =
      definitelyGreaterThan (exact ℚ) a b e := by
    intro a b e
    unfold definitelyGreaterThan
    rw [hl]
    show decide (((larger (exact ℚ) a b : ℚ) : ℝ) * (e : ℝ) < (a : ℝ) - (b : ℝ)) = decide (larger (exact ℚ) a b * e < a - b)
    rw [decide_eq_decide]
    norm_cast
  refine ⟨fun a b _ _ => hless a b _, fun a b _ _ => hless a b _, fun a b _ _ => hgr a b _, ?_, ?_, ?_⟩
  · intro a b _ _
    show decide ((a : ℝ) ≤ (b : ℝ)) = decide (a ≤ b)
    rw [decide_eq_decide]
    norm_cast
  · intro a b c d _ _ _ _
    have := hless (a - b) (c - d) (defaultEps (exact ℚ))
    push_cast at this
    exact this
  · intro a b _ _
    have := hless (a - b) dblMax (defaultEps (exact ℚ))
    push_cast at this
    exact this

/-- Small doubles are compared as rationals. -/
theorem Hist.sim_small : Hist.Sim (exact ℚ) Dbl.arith Dbl.fin (fun x => x ∈ ([1, 2, 3] : List ℚ)) := by
  have h1 : ∀ a ∈ ([1, 2, 3] : List ℚ), ∀ b ∈ ([1, 2, 3] : List ℚ),
      definitelyLessThan Dbl.arith (.fin a) (.fin b) (defaultEps Dbl.arith) =
        definitelyLessThan (exact ℚ) a b (defaultEps (exact ℚ)) ∧
      definitelyLessThan Dbl.arith (.fin a) (.fin b) (plusEps Dbl.arith) =
        definitelyLessThan (exact ℚ) a b (plusEps (exact ℚ)) ∧
      definitelyGreaterThan Dbl.arith (.fin a) (.fin b) (plusEps Dbl.arith) =
        definitelyGreaterThan (exact ℚ) a b (plusEps (exact ℚ)) ∧
      Dbl.arith.le (.fin a) (.fin b) = (exact ℚ).le a b ∧
      definitelyLessThan Dbl.arith (Dbl.arith.sub (.fin a) (.fin b)) (Dbl.arith.lit dblMax) (defaultEps Dbl.arith) =
        definitelyLessThan (exact ℚ) ((exact ℚ).sub a b) ((exact ℚ).lit dblMax) (defaultEps (exact ℚ)) := by
    decide +kernel
  have h2 : ∀ a ∈ ([1, 2, 3] : List ℚ), ∀ b ∈ ([1, 2, 3] : List ℚ), ∀ c ∈ ([1, 2, 3] : List ℚ), ∀ d ∈ ([1, 2, 3] : List ℚ),
      definitelyLessThan Dbl.arith (Dbl.arith.sub (.fin a) (.fin b)) (Dbl.arith.sub (.fin c) (.fin d)) (defaultEps Dbl.arith) =
        definitelyLessThan (exact ℚ) ((exact ℚ).sub a b) ((exact ℚ).sub c d) (defaultEps (exact ℚ)) := by
    decide +kernel
  exact ⟨fun a b ha hb => (h1 a ha b hb).1, fun a b ha hb => (h1 a ha b hb).2.1, fun a b ha hb => (h1 a ha b hb).2.2.1,
    fun a b ha hb => (h1 a ha b hb).2.2.2.1, fun a b c d ha hb hc hd => h2 a ha b hb c hc d hd,
    fun a b ha hb => (h1 a ha b hb).2.2.2.2⟩

/-- A double, or half of an integer up to `4 N + 16`. -/
def Entropy.Halves (N : ℕ) (x : ℚ) : Prop := IsDouble x ∨ ∃ k : ℤ, x = k / 2 ∧ |k| ≤ 4 * N + 16

/-- Arithmetic that is exact when the result is a double or half of an integer up to `4 N + 16`, with the logarithms of 1 and 1/2. -/
structure Entropy.Small {F : Type} (N : ℕ) (L : LArith F) (f : ℚ → F) : Prop where
  sim : Hist.Sim (exact ℚ) L.toArith f (fun x => x ∈ ([1, 2, 3] : List ℚ))
  lit : ∀ a, Halves N a → L.lit a = f a
  ofNat : ∀ n : ℕ, n ≤ 2 → L.ofNat n = f n
  add : ∀ a b, Halves N (a + b) → L.add (f a) (f b) = f (a + b)
  sub : ∀ a b, Halves N (a - b) → L.sub (f a) (f b) = f (a - b)
  mul : ∀ a b, Halves N (a * b) → L.mul (f a) (f b) = f (a * b)
  div : ∀ a b, b ≠ 0 → Halves N (a / b) → L.div (f a) (f b) = f (a / b)
  neg : ∀ a, L.neg (f a) = f (-a)
  lt : ∀ a b, L.lt (f a) (f b) = decide (a < b)
  eq : ∀ a b, L.eq (f a) (f b) = decide (a = b)
  log_one : L.log2 (f 1) = f 0
  log_half : L.log2 (f (1 / 2)) = f (-1)

namespace Entropy

/-- Halves of moderate integers are doubles. -/
theorem isDouble_half {x : ℚ} {k : ℤ} (h : x = k / 2) (hk : |k| ≤ 2 ^ 53) : IsDouble x := by
  have hp : pow2 (-1) = 1 / 2 := by decide +kernel
  have e : x = (k : ℚ) * pow2 (-1) := by rw [h, hp]; ring
  refine ⟨by rw [e]; exact rnd64_repr k (-1) hk (by norm_num), ?_⟩
  have h1 : |(k : ℚ)| ≤ 2 ^ 53 := by exact_mod_cast hk
  have h2 : (2 : ℚ) ^ 53 ≤ dblMax := by decide +kernel
  rw [h, abs_div, abs_of_pos (by norm_num : (0 : ℚ) < 2)]
  linarith [abs_nonneg (k : ℚ)]

theorem isDouble_of_halves {x : ℚ} (h : Halves (2 ^ 50) x) : IsDouble x := by
  obtain h | ⟨k, h1, h2⟩ := h
  · exact h
  · exact isDouble_half h1 (h2.trans (by norm_num))

theorem realL_small (N : ℕ) : Small N realL (fun x : ℚ => (x : ℝ)) where
  sim := by
    have h := Hist.sim_cast
    exact ⟨fun a b _ _ => h.less a b trivial trivial, fun a b _ _ => h.lessPlus a b trivial trivial,
      fun a b _ _ => h.greaterPlus a b trivial trivial, fun a b _ _ => h.le a b trivial trivial,
      fun a b c d _ _ _ _ => h.diff a b c d trivial trivial trivial trivial,
      fun a b _ _ => h.diffMax a b trivial trivial⟩
  lit _ _ := rfl
  ofNat n _ := by rw [Entropy.ofNat_real]; simp
  add a b _ := (Rat.cast_add a b).symm
  sub a b _ := (Rat.cast_sub a b).symm
  mul a b _ := (Rat.cast_mul a b).symm
  div a b _ _ := (Rat.cast_div a b).symm
  neg a := (Rat.cast_neg a).symm
  lt a b := by
    show decide ((a : ℝ) < (b : ℝ)) = _
    rw [decide_eq_decide]; norm_cast
  eq a b := by
    show decide ((a : ℝ) = (b : ℝ)) = _
    rw [decide_eq_decide]; norm_cast
  log_one := by show Real.logb 2 ((1 : ℚ) : ℝ) = _; simp
  log_half := by
    show Real.logb 2 (((1 / 2 : ℚ)) : ℝ) = _
    have := Entropy.logb_half
    push_cast
    exact this

theorem dbl_small (L : LArith Dbl) (hL : L.toArith = Dbl.arith) (hn : ∀ q : ℚ, L.neg (.fin q) = .fin (-q))
    (h1 : L.log2 (.fin 1) = .fin 0) (h2 : L.log2 (.fin (1 / 2)) = .fin (-1)) : Small (2 ^ 50) L Dbl.fin where
  sim := by rw [hL]; exact Hist.sim_small
  lit a ha := by
    have ha := isDouble_of_halves ha
    rw [hL]; show Dbl.ofRat a = _; rw [Dbl.ofRat_fin ha.2, ha.1]
  ofNat n hn := by rw [hL]; exact Entropy.ofNat_dbl (by omega)
  add a b h := by
    have h := isDouble_of_halves h
    rw [hL]; show Dbl.ofRat (a + b) = _; rw [Dbl.ofRat_fin h.2, h.1]
  sub a b h := by
    have h := isDouble_of_halves h
    rw [hL]; show Dbl.ofRat (a + -b) = _
    rw [← sub_eq_add_neg, Dbl.ofRat_fin h.2, h.1]
  mul a b h := by
    have h := isDouble_of_halves h
    rw [hL]; show Dbl.ofRat (a * b) = _; rw [Dbl.ofRat_fin h.2, h.1]
  div a b h0 h := by
    have h := isDouble_of_halves h
    rw [hL]
    show Dbl.div (.fin a) (.fin b) = _
    unfold Dbl.div
    simp only [h0, if_false]
    rw [Dbl.ofRat_fin h.2, h.1]
  neg := hn
  lt a b := by rw [hL]; rfl
  eq a b := by rw [hL]; rfl
  log_one := h1
  log_half := h2

variable {F : Type} {L : LArith F} {f : ℚ → F} {N : ℕ}

theorem halves {x : ℚ} {k : ℤ} (h : x = k / 2) (hk : |k| ≤ 4 * N + 16) : Halves N x := .inr ⟨k, h, hk⟩

theorem small_max (hL : Small N L f) {c : ℕ} (hc : c ≤ 2) :
    L.max (L.lit 0) (L.sub (L.ofNat c) (L.lit 1)) = f ((c - 1 : ℕ) : ℚ) := by
  rw [hL.lit 0 (Or.inl (by decide +kernel)), hL.lit 1 (Or.inl (by decide +kernel)), hL.ofNat c hc]
  unfold Arith.max
  obtain rfl | rfl | rfl : c = 0 ∨ c = 1 ∨ c = 2 := by omega
  all_goals rw [hL.sub _ _ (Or.inl (by decide +kernel)), hL.lt]; norm_num

theorem small_xlogx (hL : Small N L f) {x : ℚ} (hx : x = 0 ∨ x = 1 / 2 ∨ x = 1) :
    xlogx L (f x) = .ok (f (if x = 1 / 2 then -1 / 2 else 0)) := by
  unfold xlogx
  rw [hL.lit 0 (Or.inl (by decide +kernel)), hL.lt, hL.eq]
  obtain rfl | rfl | rfl := hx
  · norm_num
  · norm_num [hL.log_half]
    rw [hL.mul _ _ (Or.inl (by decide +kernel))]
    norm_num
  · norm_num
    rw [hL.log_one, hL.mul _ _ (Or.inl (by decide +kernel))]
    norm_num

/-- What a bin with `c` observations contributes, window 2. -/
def psi (c : ℕ) : ℚ := if c = 2 then 1 / 2 else -1 / 2

theorem decrement_small (hL : Small N L f) {e : Entropy F} {i : ℕ} {b : Bin F} (hb : e.hist.bins[i]? = some b)
    (ht : e.hist.total = 2) (hc : b.count ≤ 2) {v : ℚ} {k : ℤ} (hv : e.entropy = f v) (hk : v = k / 2) (hk2 : |k| ≤ N) :
    e.decrement L i = .ok { e with entropy := f (2 * (v + psi b.count) - 1) } := by
  have hi : i < e.hist.bins.length := (List.getElem?_eq_some_iff.1 hb).1
  have hg : e.hist.getBin i = .ok b := by
    unfold Hist.getBin
    rw [if_neg (by omega), hb]
  obtain ⟨k1, k2⟩ := abs_le.1 hk2
  unfold decrement
  simp only [Hist.getTotalCount, ht, hg, Res.ok_bind, small_max hL hc]
  have one : L.lit 1 = f 1 := hL.lit 1 (Or.inl (by decide +kernel))
  have n1 : L.sub (L.ofNat 2) (L.lit 1) = f 1 := by
    rw [hL.ofNat 2 le_rfl, one, hL.sub _ _ (Or.inl (by decide +kernel))]; norm_num
  have n2 : L.add (f 1) (L.lit 1) = f 2 := by rw [one, hL.add _ _ (Or.inl (by decide +kernel))]; norm_num
  have r1 : L.div (f 2) (f 1) = f 2 := by rw [hL.div _ _ (by norm_num) (Or.inl (by decide +kernel))]; norm_num
  have r2 : L.log2 (L.div (f 1) (f 2)) = f (-1) := by
    rw [hL.div _ _ (by norm_num) (Or.inl (by decide +kernel)), hL.log_half]
  rw [n1, n2, r1, r2, hv]
  have key : ∀ (s : ℤ) (x1 x2 : ℚ) (m1 m2 : ℤ), x1 = m1 / 2 → x2 = m2 / 2 → m1 - m2 = s → |m1| ≤ 2 → |m2| ≤ 2 →
      L.add (L.mul (f 2) (L.sub (L.add (f v) (f x1)) (f x2))) (f (-1)) = f (2 * (v + s / 2) - 1) := by
    intro s x1 x2 m1 m2 e1 e2 es a1 a2
    rw [abs_le] at a1 a2
    have d1 : Halves N (v + x1) := halves (k := k + m1) (by rw [hk, e1]; push_cast; ring) (abs_le.2 ⟨by omega, by omega⟩)
    have d2 : Halves N (v + x1 - x2) :=
      halves (k := k + m1 - m2) (by rw [hk, e1, e2]; push_cast; ring) (abs_le.2 ⟨by omega, by omega⟩)
    have d3 : Halves N (2 * (v + x1 - x2)) :=
      halves (k := 2 * (k + m1 - m2)) (by rw [hk, e1, e2]; push_cast; ring) (abs_le.2 ⟨by omega, by omega⟩)
    have d4 : Halves N (2 * (v + x1 - x2) + -1) :=
      halves (k := 2 * (k + m1 - m2) - 2) (by rw [hk, e1, e2]; push_cast; ring) (abs_le.2 ⟨by omega, by omega⟩)
    rw [hL.add _ _ d1, hL.sub _ _ d2, hL.mul _ _ d3, hL.add _ _ d4, e1, e2, ← es]
    push_cast
    congr 1
    ring
  obtain h | h | h : b.count = 0 ∨ b.count = 1 ∨ b.count = 2 := by omega
  · rw [h]
    have c1 : L.div (L.add (f ((0 - 1 : ℕ) : ℚ)) (L.lit 1)) (f 2) = f (1 / 2) := by
      rw [one, hL.add _ _ (Or.inl (by decide +kernel)), hL.div _ _ (by norm_num) (Or.inl (by decide +kernel))]; norm_num
    have c2 : L.div (f ((0 - 1 : ℕ) : ℚ)) (f 2) = f 0 := by
      rw [hL.div _ _ (by norm_num) (Or.inl (by decide +kernel))]; norm_num
    rw [c1, c2, small_xlogx hL (by norm_num), small_xlogx hL (by norm_num), Res.ok_bind, Res.ok_bind,
      key (-1) _ _ (-1) 0 (by norm_num) (by norm_num) (by norm_num) (by norm_num) (by norm_num)]
    norm_num [psi]
  · rw [h]
    have c1 : L.div (L.add (f ((1 - 1 : ℕ) : ℚ)) (L.lit 1)) (f 2) = f (1 / 2) := by
      rw [one, hL.add _ _ (Or.inl (by decide +kernel)), hL.div _ _ (by norm_num) (Or.inl (by decide +kernel))]; norm_num
    have c2 : L.div (f ((1 - 1 : ℕ) : ℚ)) (f 2) = f 0 := by
      rw [hL.div _ _ (by norm_num) (Or.inl (by decide +kernel))]; norm_num
    rw [c1, c2, small_xlogx hL (by norm_num), small_xlogx hL (by norm_num), Res.ok_bind, Res.ok_bind,
      key (-1) _ _ (-1) 0 (by norm_num) (by norm_num) (by norm_num) (by norm_num) (by norm_num)]
    norm_num [psi]
  · rw [h]
    have c1 : L.div (L.add (f ((2 - 1 : ℕ) : ℚ)) (L.lit 1)) (f 2) = f 1 := by
      rw [one, hL.add _ _ (Or.inl (by decide +kernel)), hL.div _ _ (by norm_num) (Or.inl (by decide +kernel))]; norm_num
    have c2 : L.div (f ((2 - 1 : ℕ) : ℚ)) (f 2) = f (1 / 2) := by
      rw [hL.div _ _ (by norm_num) (Or.inl (by decide +kernel))]; norm_num
    rw [c1, c2, small_xlogx hL (by norm_num), small_xlogx hL (by norm_num), Res.ok_bind, Res.ok_bind,
      key 1 _ _ 0 (-1) (by norm_num) (by norm_num) (by norm_num) (by norm_num) (by norm_num)]
    norm_num [psi]

/-- What `increment` takes away for a bin of count `c` when the total is 2. -/
def phi (c : ℕ) : ℚ := if c = 2 then 1 / 2 else if c = 1 then -1 / 2 else 0

theorem increment_small (hL : Small N L f) {e : Entropy F} {i : ℕ} {b : Bin F} (hb : e.hist.bins[i]? = some b)
    (ht : e.hist.total = 2) (hc : b.count ≤ 2) {v : ℚ} {k : ℤ} (hv : e.entropy = f v) (hk : v = k)
    (hk2 : |k| ≤ 2 * N + 4) :
    e.increment L i = .ok { e with entropy := f ((v + 1) / 2 - phi b.count) } := by
  have hi : i < e.hist.bins.length := (List.getElem?_eq_some_iff.1 hb).1
  have hg : e.hist.getBin i = .ok b := by
    unfold Hist.getBin
    rw [if_neg (by omega), hb]
  obtain ⟨k1, k2⟩ := abs_le.1 hk2
  unfold increment
  simp only [Hist.getTotalCount, ht, hg, Res.ok_bind, small_max hL hc]
  have one : L.lit 1 = f 1 := hL.lit 1 (Or.inl (by decide +kernel))
  have two : L.ofNat 2 = f 2 := hL.ofNat 2 le_rfl
  have n1 : L.sub (f 2) (f 1) = f 1 := by
    rw [hL.sub _ _ (Or.inl (by decide +kernel))]; norm_num
  have r1 : L.div (f 1) (f 2) = f (1 / 2) := hL.div _ _ (by norm_num) (Or.inl (by decide +kernel))
  have q1 : L.eq (f 1) (f 2) = false := by rw [hL.eq]; norm_num
  have d1 : Halves N (v - -1) := halves (k := 2 * (k + 1)) (by rw [hk]; push_cast; ring) (abs_le.2 ⟨by omega, by omega⟩)
  have d2 : Halves N (1 / 2 * (v - -1)) := halves (k := k + 1) (by rw [hk]; push_cast; ring) (abs_le.2 ⟨by omega, by omega⟩)
  have lhs : L.mul (f (1 / 2)) (L.sub (f v) (L.log2 (f (1 / 2)))) = f ((v + 1) / 2) := by
    rw [hL.log_half, hL.sub _ _ d1, hL.mul _ _ d2]
    congr 1; ring
  obtain h | h | h : b.count = 0 ∨ b.count = 1 ∨ b.count = 2 := by omega
  · rw [h]
    have c1 : L.div (L.ofNat 0) (f 2) = f 0 := by
      rw [hL.ofNat 0 (by norm_num), hL.div _ _ (by norm_num) (Or.inl (by decide +kernel))]; norm_num
    have c2 : L.div (f ((0 - 1 : ℕ) : ℚ)) (f 2) = f 0 := by
      rw [hL.div _ _ (by norm_num) (Or.inl (by decide +kernel))]; norm_num
    have d3 : Halves N ((v + 1) / 2 + 0) :=
      halves (k := k + 1) (by rw [hk]; push_cast; ring) (abs_le.2 ⟨by omega, by omega⟩)
    have rhs : L.add (L.neg (f (if (0 : ℚ) = 1 / 2 then -1 / 2 else 0))) (f (if (0 : ℚ) = 1 / 2 then -1 / 2 else 0)) =
        f 0 := by
      rw [hL.neg, hL.add _ _ (Or.inl (by decide +kernel))]; norm_num
    rw [two, c1, c2, small_xlogx hL (by norm_num), Res.ok_bind, Res.ok_bind, rhs, one, q1]
    simp only [Bool.false_eq_true, if_false]
    rw [n1, r1, hv, lhs, hL.add _ _ d3]
    norm_num [phi]
  · rw [h]
    have c1 : L.div (L.ofNat 1) (f 2) = f (1 / 2) := by
      rw [hL.ofNat 1 (by norm_num), hL.div _ _ (by norm_num) (Or.inl (by decide +kernel))]; norm_num
    have c2 : L.div (f ((1 - 1 : ℕ) : ℚ)) (f 2) = f 0 := by
      rw [hL.div _ _ (by norm_num) (Or.inl (by decide +kernel))]; norm_num
    have d3 : Halves N ((v + 1) / 2 + 1 / 2) :=
      halves (k := k + 2) (by rw [hk]; push_cast; ring) (abs_le.2 ⟨by omega, by omega⟩)
    have rhs : L.add (L.neg (f (if (1 / 2 : ℚ) = 1 / 2 then -1 / 2 else 0))) (f (if (0 : ℚ) = 1 / 2 then -1 / 2 else 0)) =
        f (1 / 2) := by
      rw [hL.neg, hL.add _ _ (Or.inl (by decide +kernel))]; norm_num
    rw [two, c1, c2, small_xlogx hL (by norm_num), small_xlogx hL (by norm_num), Res.ok_bind, Res.ok_bind, rhs, one, q1]
    simp only [Bool.false_eq_true, if_false]
    rw [n1, r1, hv, lhs, hL.add _ _ d3]
    norm_num [phi]
  · rw [h]
    have c1 : L.div (f 2) (f 2) = f 1 := by
      rw [hL.div _ _ (by norm_num) (Or.inl (by decide +kernel))]; norm_num
    have c2 : L.div (f ((2 - 1 : ℕ) : ℚ)) (f 2) = f (1 / 2) := by
      rw [hL.div _ _ (by norm_num) (Or.inl (by decide +kernel))]; norm_num
    have d3 : Halves N ((v + 1) / 2 + -1 / 2) :=
      halves (k := k) (by rw [hk]; ring) (abs_le.2 ⟨by omega, by omega⟩)
    have rhs : L.add (L.neg (f (if (1 : ℚ) = 1 / 2 then -1 / 2 else 0))) (f (if (1 / 2 : ℚ) = 1 / 2 then -1 / 2 else 0)) =
        f (-1 / 2) := by
      rw [hL.neg, hL.add _ _ (Or.inl (by decide +kernel))]; norm_num
    rw [two, c1, c2, small_xlogx hL (by norm_num), small_xlogx hL (by norm_num), Res.ok_bind, Res.ok_bind, rhs, one, q1]
    simp only [Bool.false_eq_true, if_false]
    rw [n1, r1, hv, lhs, hL.add _ _ d3]
    norm_num [phi]
    congr 1; ring

/-- One update with a full window of 2. -/
theorem evict_small (hL : Small N L f) {e : Entropy F} {h h' : Hist ℚ} {a b i : ℕ} {x : ℚ} {bf bi : Bin ℚ} {v : ℚ} {k : ℤ}
    (hh : e.hist = h.map f) (hed : Hist.Edges (fun x => x ∈ ([1, 2, 3] : List ℚ)) h.bins) (hx : x ∈ ([1, 2, 3] : List ℚ))
    (hW : e.windowSize = 2) (hw : e.window = some [a, b]) (ht : h.total = 2)
    (hs : h.binSearch (exact ℚ) x = .ok i) (hu : h.update (exact ℚ) x = .ok h') (ht' : h'.total = 2)
    (hbf : h.bins[a]? = some bf) (hbi : h'.bins[i]? = some bi) (hcf : bf.count ≤ 2) (hci : bi.count ≤ 2)
    (hv : e.entropy = f v) (hk : v = k / 2) (hk2 : |k| ≤ N) :
    e.update L (f x) = .ok ⟨2, some [b, i], e.historyCount + 1, h'.map f, f (v + psi bf.count - phi bi.count)⟩ := by
  have hsearch : e.hist.binSearch L.toArith (f x) = .ok i := by
    rw [hh]
    have := hL.sim.search hed (c := ⟨x, x, 1⟩) hx h.bins.length 0 h.bins.length ((0 + h.bins.length) / 2)
    unfold Hist.binSearch Hist.binSearchBin
    simp only [List.length_map]
    exact this.trans hs
  have hupd : e.hist.update L.toArith (f x) = .ok (h'.map f) := by
    rw [hh, (hL.sim.update hed hx).1, hu]
    rfl
  obtain ⟨front, rest, hfr, hue⟩ := update_evict (L := L) hsearch hw (by rw [hW]; rfl)
  obtain ⟨rfl, rfl⟩ : a = front ∧ [b, i] = rest := by simpa using hfr
  obtain ⟨k1, k2⟩ := abs_le.1 hk2
  have hd := decrement_small hL (e := e) (i := a) (b := bf.map f) (by rw [hh]; simp [List.getElem?_map, hbf]) (by rw [hh]; exact ht)
    hcf hv hk hk2
  rw [hue, hd, Res.ok_bind]
  simp only
  rw [hupd, Res.ok_bind]
  have hps : ∃ s : ℤ, psi bf.count = s / 2 ∧ |s| ≤ 1 := by
    unfold psi
    split
    · exact ⟨1, by norm_num, by norm_num⟩
    · exact ⟨-1, by norm_num, by norm_num⟩
  obtain ⟨s, hs1, hs2⟩ := hps
  rw [abs_le] at hs2
  have hi := increment_small hL
    (e := ⟨e.windowSize, some [b, i], e.historyCount, h'.map f, f (2 * (v + psi bf.count) - 1)⟩)
    (i := i) (b := bi.map f) (by simp [List.getElem?_map, hbi]) ht' hci (k := k + s - 1) rfl
    (by rw [hk, hs1]; push_cast; ring) (abs_le.2 ⟨by omega, by omega⟩)
  have e2 : (2 * (v + psi bf.count) - 1 + 1) / 2 - phi bi.count = v + psi bf.count - phi bi.count := by ring
  rw [hi, Res.ok_bind, hW]
  exact congrArg (fun t => Res.ok (⟨2, some [b, i], e.historyCount + 1, h'.map f, f t⟩ : Entropy F)) e2

/-! ### The histograms -/

theorem neg1 (m : ℕ) : (⟨2, 2, [⟨1, 1, 2⟩], [0, 0, 0, 0], 2, m, 1⟩ : Hist ℚ).binSearch (exact ℚ) 2 = .ok 1 ∧
    (⟨2, 2, [⟨1, 1, 2⟩], [0, 0, 0, 0], 2, m, 1⟩ : Hist ℚ).update (exact ℚ) 2 =
    .ok ⟨2, 2, [⟨1, 1, 1⟩, ⟨2, 2, 1⟩], [0, 0, 0, 1], 2, m + 1, 2⟩ := by
  constructor <;>
  norm_num [Hist.update, Hist.add, Hist.binSearch, Hist.binSearchBin, Hist.searchLoop, Hist.place, Hist.decayCounts,
    Bin.lt, Utils.definitelyLessThan, Utils.larger, Utils.defaultEps, exact]

theorem neg2 (m : ℕ) : (⟨2, 2, [⟨1, 1, 1⟩, ⟨2, 2, 1⟩], [0, 0, 0, 1], 2, m, 2⟩ : Hist ℚ).binSearch (exact ℚ) 1 = .ok 0 ∧
    (⟨2, 2, [⟨1, 1, 1⟩, ⟨2, 2, 1⟩], [0, 0, 0, 1], 2, m, 2⟩ : Hist ℚ).update (exact ℚ) 1 =
    .ok ⟨2, 2, [⟨1, 1, 1⟩, ⟨2, 2, 1⟩], [0, 0, 1, 0], 2, m + 1, 2⟩ := by
  constructor <;>
  norm_num [Hist.update, Hist.add, Hist.binSearch, Hist.binSearchBin, Hist.searchLoop, Hist.place, Hist.decayCounts,
    Bin.lt, Utils.definitelyLessThan, Utils.larger, Utils.defaultEps, exact]

theorem neg3 (m : ℕ) : (⟨2, 2, [⟨1, 1, 1⟩, ⟨2, 2, 1⟩], [0, 0, 1, 0], 2, m, 2⟩ : Hist ℚ).binSearch (exact ℚ) 1 = .ok 0 ∧
    (⟨2, 2, [⟨1, 1, 1⟩, ⟨2, 2, 1⟩], [0, 0, 1, 0], 2, m, 2⟩ : Hist ℚ).update (exact ℚ) 1 =
    .ok ⟨2, 2, [⟨1, 1, 1⟩, ⟨2, 2, 1⟩], [0, 1, 0, 0], 2, m + 1, 2⟩ := by
  constructor <;>
  norm_num [Hist.update, Hist.add, Hist.binSearch, Hist.binSearchBin, Hist.searchLoop, Hist.place, Hist.decayCounts,
    Bin.lt, Utils.definitelyLessThan, Utils.larger, Utils.defaultEps, exact]

theorem neg4 (m : ℕ) : (⟨2, 2, [⟨1, 1, 1⟩, ⟨2, 2, 1⟩], [0, 1, 0, 0], 2, m, 2⟩ : Hist ℚ).binSearch (exact ℚ) 2 = .ok 1 ∧
    (⟨2, 2, [⟨1, 1, 1⟩, ⟨2, 2, 1⟩], [0, 1, 0, 0], 2, m, 2⟩ : Hist ℚ).update (exact ℚ) 2 =
    .ok ⟨2, 2, [⟨1, 1, 0⟩, ⟨2, 2, 2⟩], [1, 0, 0, 1], 2, m + 1, 2⟩ := by
  constructor <;>
  norm_num [Hist.update, Hist.add, Hist.binSearch, Hist.binSearchBin, Hist.searchLoop, Hist.place, Hist.decayCounts,
    Bin.lt, Utils.definitelyLessThan, Utils.larger, Utils.defaultEps, exact]

theorem neg5 (m : ℕ) : (⟨2, 2, [⟨1, 1, 0⟩, ⟨2, 2, 2⟩], [1, 0, 0, 1], 2, m, 2⟩ : Hist ℚ).binSearch (exact ℚ) 1 = .ok 0 ∧
    (⟨2, 2, [⟨1, 1, 0⟩, ⟨2, 2, 2⟩], [1, 0, 0, 1], 2, m, 2⟩ : Hist ℚ).update (exact ℚ) 1 =
    .ok ⟨2, 2, [⟨1, 1, 1⟩, ⟨2, 2, 1⟩], [0, 0, 1, 0], 2, m + 1, 2⟩ := by
  constructor <;>
  norm_num [Hist.update, Hist.add, Hist.binSearch, Hist.binSearchBin, Hist.searchLoop, Hist.place, Hist.decayCounts,
    Bin.lt, Utils.definitelyLessThan, Utils.larger, Utils.defaultEps, exact]

theorem neg6 (m : ℕ) : (⟨2, 2, [⟨1, 1, 1⟩, ⟨2, 2, 1⟩], [0, 0, 1, 0], 2, m, 2⟩ : Hist ℚ).binSearch (exact ℚ) 1 = .ok 0 ∧
    (⟨2, 2, [⟨1, 1, 1⟩, ⟨2, 2, 1⟩], [0, 0, 1, 0], 2, m, 2⟩ : Hist ℚ).update (exact ℚ) 1 =
    .ok ⟨2, 2, [⟨1, 1, 1⟩, ⟨2, 2, 1⟩], [0, 1, 0, 0], 2, m + 1, 2⟩ := by
  constructor <;>
  norm_num [Hist.update, Hist.add, Hist.binSearch, Hist.binSearchBin, Hist.searchLoop, Hist.place, Hist.decayCounts,
    Bin.lt, Utils.definitelyLessThan, Utils.larger, Utils.defaultEps, exact]

theorem neg7 (m : ℕ) : (⟨2, 2, [⟨1, 1, 1⟩, ⟨2, 2, 1⟩], [0, 1, 0, 0], 2, m, 2⟩ : Hist ℚ).binSearch (exact ℚ) 2 = .ok 1 ∧
    (⟨2, 2, [⟨1, 1, 1⟩, ⟨2, 2, 1⟩], [0, 1, 0, 0], 2, m, 2⟩ : Hist ℚ).update (exact ℚ) 2 =
    .ok ⟨2, 2, [⟨1, 1, 0⟩, ⟨2, 2, 2⟩], [1, 0, 0, 1], 2, m + 1, 2⟩ := by
  constructor <;>
  norm_num [Hist.update, Hist.add, Hist.binSearch, Hist.binSearchBin, Hist.searchLoop, Hist.place, Hist.decayCounts,
    Bin.lt, Utils.definitelyLessThan, Utils.larger, Utils.defaultEps, exact]

theorem pos1 (m : ℕ) : (⟨3, 2, [⟨1, 1, 2⟩], [0, 0, 0, 0], 2, m, 1⟩ : Hist ℚ).binSearch (exact ℚ) 2 = .ok 1 ∧
    (⟨3, 2, [⟨1, 1, 2⟩], [0, 0, 0, 0], 2, m, 1⟩ : Hist ℚ).update (exact ℚ) 2 =
    .ok ⟨3, 2, [⟨1, 1, 1⟩, ⟨2, 2, 1⟩], [0, 0, 0, 1], 2, m + 1, 2⟩ := by
  constructor <;>
  norm_num [Hist.update, Hist.add, Hist.binSearch, Hist.binSearchBin, Hist.searchLoop, Hist.place, Hist.decayCounts,
    Bin.lt, Utils.definitelyLessThan, Utils.larger, Utils.defaultEps, exact]

theorem pos2 (m : ℕ) : (⟨3, 2, [⟨1, 1, 1⟩, ⟨2, 2, 1⟩], [0, 0, 0, 1], 2, m, 2⟩ : Hist ℚ).binSearch (exact ℚ) 2 = .ok 1 ∧
    (⟨3, 2, [⟨1, 1, 1⟩, ⟨2, 2, 1⟩], [0, 0, 0, 1], 2, m, 2⟩ : Hist ℚ).update (exact ℚ) 2 =
    .ok ⟨3, 2, [⟨1, 1, 0⟩, ⟨2, 2, 2⟩], [0, 0, 1, 1], 2, m + 1, 2⟩ := by
  constructor <;>
  norm_num [Hist.update, Hist.add, Hist.binSearch, Hist.binSearchBin, Hist.searchLoop, Hist.place, Hist.decayCounts,
    Bin.lt, Utils.definitelyLessThan, Utils.larger, Utils.defaultEps, exact]

theorem pos3 (m : ℕ) : (⟨3, 2, [⟨1, 1, 0⟩, ⟨2, 2, 2⟩], [0, 0, 1, 1], 2, m, 2⟩ : Hist ℚ).binSearch (exact ℚ) 3 = .ok 2 ∧
    (⟨3, 2, [⟨1, 1, 0⟩, ⟨2, 2, 2⟩], [0, 0, 1, 1], 2, m, 2⟩ : Hist ℚ).update (exact ℚ) 3 =
    .ok ⟨3, 2, [⟨1, 1, 0⟩, ⟨2, 2, 2⟩, ⟨3, 3, 1⟩], [0, 1, 1, 2], 2, m + 1, 3⟩ := by
  constructor <;>
  norm_num [Hist.update, Hist.add, Hist.binSearch, Hist.binSearchBin, Hist.searchLoop, Hist.place, Hist.decayCounts,
    Bin.lt, Utils.definitelyLessThan, Utils.larger, Utils.defaultEps, exact]

theorem pos4 (m : ℕ) : (⟨3, 2, [⟨1, 1, 0⟩, ⟨2, 2, 2⟩, ⟨3, 3, 1⟩], [0, 1, 1, 2], 2, m, 3⟩ : Hist ℚ).binSearch (exact ℚ) 1 = .ok 0 ∧
    (⟨3, 2, [⟨1, 1, 0⟩, ⟨2, 2, 2⟩, ⟨3, 3, 1⟩], [0, 1, 1, 2], 2, m, 3⟩ : Hist ℚ).update (exact ℚ) 1 =
    .ok ⟨3, 2, [⟨1, 1, 0⟩, ⟨2, 2, 2⟩, ⟨3, 3, 1⟩], [1, 1, 2, 0], 2, m + 1, 3⟩ := by
  constructor <;>
  norm_num [Hist.update, Hist.add, Hist.binSearch, Hist.binSearchBin, Hist.searchLoop, Hist.place, Hist.decayCounts,
    Bin.lt, Utils.definitelyLessThan, Utils.larger, Utils.defaultEps, exact]

theorem pos5 (m : ℕ) : (⟨3, 2, [⟨1, 1, 0⟩, ⟨2, 2, 2⟩, ⟨3, 3, 1⟩], [1, 1, 2, 0], 2, m, 3⟩ : Hist ℚ).binSearch (exact ℚ) 1 = .ok 0 ∧
    (⟨3, 2, [⟨1, 1, 0⟩, ⟨2, 2, 2⟩, ⟨3, 3, 1⟩], [1, 1, 2, 0], 2, m, 3⟩ : Hist ℚ).update (exact ℚ) 1 =
    .ok ⟨3, 2, [⟨1, 1, 1⟩, ⟨2, 2, 1⟩, ⟨3, 3, 1⟩], [1, 2, 0, 0], 2, m + 1, 3⟩ := by
  constructor <;>
  norm_num [Hist.update, Hist.add, Hist.binSearch, Hist.binSearchBin, Hist.searchLoop, Hist.place, Hist.decayCounts,
    Bin.lt, Utils.definitelyLessThan, Utils.larger, Utils.defaultEps, exact]

theorem pos6 (m : ℕ) : (⟨3, 2, [⟨1, 1, 1⟩, ⟨2, 2, 1⟩, ⟨3, 3, 1⟩], [1, 2, 0, 0], 2, m, 3⟩ : Hist ℚ).binSearch (exact ℚ) 2 = .ok 1 ∧
    (⟨3, 2, [⟨1, 1, 1⟩, ⟨2, 2, 1⟩, ⟨3, 3, 1⟩], [1, 2, 0, 0], 2, m, 3⟩ : Hist ℚ).update (exact ℚ) 2 =
    .ok ⟨3, 2, [⟨1, 1, 1⟩, ⟨2, 2, 1⟩, ⟨3, 3, 1⟩], [2, 0, 0, 1], 2, m + 1, 3⟩ := by
  constructor <;>
  norm_num [Hist.update, Hist.add, Hist.binSearch, Hist.binSearchBin, Hist.searchLoop, Hist.place, Hist.decayCounts,
    Bin.lt, Utils.definitelyLessThan, Utils.larger, Utils.defaultEps, exact]

theorem pos7 (m : ℕ) : (⟨3, 2, [⟨1, 1, 1⟩, ⟨2, 2, 1⟩, ⟨3, 3, 1⟩], [2, 0, 0, 1], 2, m, 3⟩ : Hist ℚ).binSearch (exact ℚ) 2 = .ok 1 ∧
    (⟨3, 2, [⟨1, 1, 1⟩, ⟨2, 2, 1⟩, ⟨3, 3, 1⟩], [2, 0, 0, 1], 2, m, 3⟩ : Hist ℚ).update (exact ℚ) 2 =
    .ok ⟨3, 2, [⟨1, 1, 1⟩, ⟨2, 2, 2⟩, ⟨3, 3, 0⟩], [0, 0, 1, 1], 2, m + 1, 3⟩ := by
  constructor <;>
  norm_num [Hist.update, Hist.add, Hist.binSearch, Hist.binSearchBin, Hist.searchLoop, Hist.place, Hist.decayCounts,
    Bin.lt, Utils.definitelyLessThan, Utils.larger, Utils.defaultEps, exact]

theorem pos8 (m : ℕ) : (⟨3, 2, [⟨1, 1, 1⟩, ⟨2, 2, 2⟩, ⟨3, 3, 0⟩], [0, 0, 1, 1], 2, m, 3⟩ : Hist ℚ).binSearch (exact ℚ) 3 = .ok 2 ∧
    (⟨3, 2, [⟨1, 1, 1⟩, ⟨2, 2, 2⟩, ⟨3, 3, 0⟩], [0, 0, 1, 1], 2, m, 3⟩ : Hist ℚ).update (exact ℚ) 3 =
    .ok ⟨3, 2, [⟨1, 1, 0⟩, ⟨2, 2, 2⟩, ⟨3, 3, 1⟩], [0, 1, 1, 2], 2, m + 1, 3⟩ := by
  constructor <;>
  norm_num [Hist.update, Hist.add, Hist.binSearch, Hist.binSearchBin, Hist.searchLoop, Hist.place, Hist.decayCounts,
    Bin.lt, Utils.definitelyLessThan, Utils.larger, Utils.defaultEps, exact]

/-! ### The runs -/

theorem edges12 (a b : ℕ) : Hist.Edges (fun x => x ∈ ([1, 2, 3] : List ℚ)) [⟨1, 1, a⟩, ⟨2, 2, b⟩] := by
  intro c hc
  simp only [List.mem_cons, List.not_mem_nil, or_false] at hc
  rcases hc with rfl | rfl <;> simp

theorem edges123 (a b c : ℕ) : Hist.Edges (fun x => x ∈ ([1, 2, 3] : List ℚ)) [⟨1, 1, a⟩, ⟨2, 2, b⟩, ⟨3, 3, c⟩] := by
  intro c hc
  simp only [List.mem_cons, List.not_mem_nil, or_false] at hc
  rcases hc with rfl | rfl | rfl <;> simp

theorem edges1 (a : ℕ) : Hist.Edges (fun x => x ∈ ([1, 2, 3] : List ℚ)) [⟨1, 1, a⟩] := by
  intro c hc
  simp only [List.mem_cons, List.not_mem_nil, or_false] at hc
  rcases hc with rfl; simp

/-- Two observations of 1. -/
theorem start_small (hL : Small N L f) (nb : ℕ) (hnb : 1 ≤ nb) :
    updateAll (Entropy.update L) ⟨2, some [], 0, Hist.new nb 2, L.lit 0⟩ [f 1, f 1] =
      .ok ⟨2, some [0, 0], 2, (⟨nb, 2, [⟨1, 1, 2⟩], [0, 0, 0, 0], 2, 2, 1⟩ : Hist ℚ).map f, f 0⟩ := by
  have zero : L.lit 0 = f 0 := hL.lit 0 (Or.inl (by decide +kernel))
  have one : L.lit 1 = f 1 := hL.lit 1 (Or.inl (by decide +kernel))
  have o1 : L.ofNat 1 = f 1 := by rw [hL.ofNat 1 (by norm_num)]; norm_num
  have hin : (1 : ℚ) ∈ ([1, 2, 3] : List ℚ) := by simp
  have h1 : (Hist.new nb 2 : Hist F).update L.toArith (f 1) =
      .ok ((⟨nb, 2, [⟨1, 1, 1⟩], [0, 0, 0], 1, 1, 1⟩ : Hist ℚ).map f) := by
    have := (hL.sim.update (h := Hist.new nb 2) (x := 1) (by intro b hb; simp [Hist.new] at hb) hin).1
    have e : (Hist.new nb 2 : Hist ℚ).map f = Hist.new nb 2 := rfl
    rw [e] at this
    rw [this]
    have : (Hist.new nb 2 : Hist ℚ).update (exact ℚ) 1 = .ok ⟨nb, 2, [⟨1, 1, 1⟩], [0, 0, 0], 1, 1, 1⟩ := by
      have : ¬ 1 > nb := by omega
      simp [Hist.update, Hist.add, Hist.binSearch, Hist.binSearchBin, Hist.searchLoop, Hist.place, Hist.decayCounts, Hist.new]
      omega
    rw [this]
    rfl
  have s1 : Entropy.update L ⟨2, some [], 0, Hist.new nb 2, L.lit 0⟩ (f 1) =
      .ok ⟨2, some [0], 1, (⟨nb, 2, [⟨1, 1, 1⟩], [0, 0, 0], 1, 1, 1⟩ : Hist ℚ).map f, f 0⟩ := by
    rw [update_room (w := []) (i := 0) (by simp [Hist.binSearch, Hist.binSearchBin, Hist.searchLoop, Hist.new]) rfl (by simp)]
    simp only
    rw [h1, Res.ok_bind]
    have hi : (⟨2, some ([] ++ [0]), 0, (⟨nb, 2, [⟨1, 1, 1⟩], [0, 0, 0], 1, 1, 1⟩ : Hist ℚ).map f, L.lit 0⟩ : Entropy F).increment L 0 =
        .ok ⟨2, some ([] ++ [0]), 0, (⟨nb, 2, [⟨1, 1, 1⟩], [0, 0, 0], 1, 1, 1⟩ : Hist ℚ).map f, f 0⟩ := by
      unfold increment
      have hg : ((⟨nb, 2, [⟨1, 1, 1⟩], [0, 0, 0], 1, 1, 1⟩ : Hist ℚ).map f).getBin 0 = .ok ⟨f 1, f 1, 1⟩ := rfl
      simp only [hg, Res.ok_bind, small_max hL (by norm_num : 1 ≤ 2), Hist.getTotalCount]
      have c1 : L.div (f 1) (f 1) = f 1 := by rw [hL.div _ _ (by norm_num) (Or.inl (by decide +kernel))]; norm_num
      have c2 : L.div (f ((1 - 1 : ℕ) : ℚ)) (f 1) = f 0 := by rw [hL.div _ _ (by norm_num) (Or.inl (by decide +kernel))]; norm_num
      have q1 : L.eq (f 1) (f 1) = true := by rw [hL.eq]; simp
      simp only [o1, c1, c2, small_xlogx hL (by norm_num : (0 : ℚ) = 0 ∨ (0 : ℚ) = 1 / 2 ∨ (0 : ℚ) = 1),
        small_xlogx hL (by norm_num : (1 : ℚ) = 0 ∨ (1 : ℚ) = 1 / 2 ∨ (1 : ℚ) = 1), Res.ok_bind, one, q1]
      simp only [if_true]
      rw [hL.neg, hL.add _ _ (Or.inl (by decide +kernel))]
      norm_num
    rw [hi]
    rfl
  have h2 : (⟨nb, 2, [⟨1, 1, 1⟩], [0, 0, 0], 1, 1, 1⟩ : Hist ℚ).binSearch (exact ℚ) 1 = .ok 0 ∧
      (⟨nb, 2, [⟨1, 1, 1⟩], [0, 0, 0], 1, 1, 1⟩ : Hist ℚ).update (exact ℚ) 1 =
        .ok ⟨nb, 2, [⟨1, 1, 2⟩], [0, 0, 0, 0], 2, 2, 1⟩ := by
    constructor
    · norm_num [Hist.binSearch, Hist.binSearchBin, Hist.searchLoop, Bin.lt, Utils.definitelyLessThan, Utils.larger,
        Utils.defaultEps, exact]
    · norm_num [Hist.update, Hist.add, Hist.binSearch, Hist.binSearchBin, Hist.searchLoop, Hist.place, Hist.decayCounts,
        Bin.lt, Utils.definitelyLessThan, Utils.larger, Utils.defaultEps, exact]
      omega
  have s2 : Entropy.update L ⟨2, some [0], 1, (⟨nb, 2, [⟨1, 1, 1⟩], [0, 0, 0], 1, 1, 1⟩ : Hist ℚ).map f, f 0⟩ (f 1) =
      .ok ⟨2, some [0, 0], 2, (⟨nb, 2, [⟨1, 1, 2⟩], [0, 0, 0, 0], 2, 2, 1⟩ : Hist ℚ).map f, f 0⟩ := by
    have hsearch : ((⟨nb, 2, [⟨1, 1, 1⟩], [0, 0, 0], 1, 1, 1⟩ : Hist ℚ).map f).binSearch L.toArith (f 1) = .ok 0 := by
      have := hL.sim.search (edges1 1) (c := ⟨1, 1, 1⟩) hin 1 0 1 ((0 + 1) / 2)
      exact this.trans h2.1
    rw [update_room (w := [0]) (i := 0) hsearch rfl (by simp)]
    simp only
    rw [(hL.sim.update (h := ⟨nb, 2, [⟨1, 1, 1⟩], [0, 0, 0], 1, 1, 1⟩) (edges1 1) hin).1, h2.2, Res.map_ok, Res.ok_bind,
      increment_small hL (b := (⟨1, 1, 2⟩ : Bin ℚ).map f) (v := 0) (k := 0) rfl rfl (by norm_num) rfl (by norm_num)
      (by rw [abs_zero]; omega), Res.ok_bind]
    norm_num [phi]
  simp only [updateAll]
  rw [s1, Res.ok_bind, s2, Res.ok_bind]

theorem negStep1 (hL : Small N L f) {v w : ℚ} {k : ℤ} (hk : v = k / 2) (hk2 : |k| ≤ N) (hw : v + 1 = w) (c m : ℕ) :
    Entropy.update L ⟨2, some [0, 0], c, (⟨2, 2, [⟨1, 1, 2⟩], [0, 0, 0, 0], 2, m, 1⟩ : Hist ℚ).map f, f v⟩ (f 2) =
      .ok ⟨2, some [0, 1], c + 1, (⟨2, 2, [⟨1, 1, 1⟩, ⟨2, 2, 1⟩], [0, 0, 0, 1], 2, m + 1, 2⟩ : Hist ℚ).map f, f w⟩ := by
  have h := evict_small hL (e := ⟨2, some [0, 0], c, (⟨2, 2, [⟨1, 1, 2⟩], [0, 0, 0, 0], 2, m, 1⟩ : Hist ℚ).map f, f v⟩) (v := v) rfl (edges1 2) (by simp) rfl rfl rfl
    (neg1 m).1 (neg1 m).2 rfl rfl rfl (by norm_num) (by norm_num) rfl hk hk2
  rw [h]
  exact congrArg (fun t => Res.ok (⟨2, some [0, 1], c + 1, (⟨2, 2, [⟨1, 1, 1⟩, ⟨2, 2, 1⟩], [0, 0, 0, 1], 2, m + 1, 2⟩ : Hist ℚ).map f, f t⟩ : Entropy F))
    (by rw [← hw]; norm_num [psi, phi]; try ring)

theorem negStep2 (hL : Small N L f) {v w : ℚ} {k : ℤ} (hk : v = k / 2) (hk2 : |k| ≤ N) (hw : v + 0 = w) (c m : ℕ) :
    Entropy.update L ⟨2, some [0, 1], c, (⟨2, 2, [⟨1, 1, 1⟩, ⟨2, 2, 1⟩], [0, 0, 0, 1], 2, m, 2⟩ : Hist ℚ).map f, f v⟩ (f 1) =
      .ok ⟨2, some [1, 0], c + 1, (⟨2, 2, [⟨1, 1, 1⟩, ⟨2, 2, 1⟩], [0, 0, 1, 0], 2, m + 1, 2⟩ : Hist ℚ).map f, f w⟩ := by
  have h := evict_small hL (e := ⟨2, some [0, 1], c, (⟨2, 2, [⟨1, 1, 1⟩, ⟨2, 2, 1⟩], [0, 0, 0, 1], 2, m, 2⟩ : Hist ℚ).map f, f v⟩) (v := v) rfl (edges12 1 1) (by simp) rfl rfl rfl
    (neg2 m).1 (neg2 m).2 rfl rfl rfl (by norm_num) (by norm_num) rfl hk hk2
  rw [h]
  exact congrArg (fun t => Res.ok (⟨2, some [1, 0], c + 1, (⟨2, 2, [⟨1, 1, 1⟩, ⟨2, 2, 1⟩], [0, 0, 1, 0], 2, m + 1, 2⟩ : Hist ℚ).map f, f t⟩ : Entropy F))
    (by rw [← hw]; norm_num [psi, phi]; try ring)

theorem negStep3 (hL : Small N L f) {v w : ℚ} {k : ℤ} (hk : v = k / 2) (hk2 : |k| ≤ N) (hw : v + 0 = w) (c m : ℕ) :
    Entropy.update L ⟨2, some [1, 0], c, (⟨2, 2, [⟨1, 1, 1⟩, ⟨2, 2, 1⟩], [0, 0, 1, 0], 2, m, 2⟩ : Hist ℚ).map f, f v⟩ (f 1) =
      .ok ⟨2, some [0, 0], c + 1, (⟨2, 2, [⟨1, 1, 1⟩, ⟨2, 2, 1⟩], [0, 1, 0, 0], 2, m + 1, 2⟩ : Hist ℚ).map f, f w⟩ := by
  have h := evict_small hL (e := ⟨2, some [1, 0], c, (⟨2, 2, [⟨1, 1, 1⟩, ⟨2, 2, 1⟩], [0, 0, 1, 0], 2, m, 2⟩ : Hist ℚ).map f, f v⟩) (v := v) rfl (edges12 1 1) (by simp) rfl rfl rfl
    (neg3 m).1 (neg3 m).2 rfl rfl rfl (by norm_num) (by norm_num) rfl hk hk2
  rw [h]
  exact congrArg (fun t => Res.ok (⟨2, some [0, 0], c + 1, (⟨2, 2, [⟨1, 1, 1⟩, ⟨2, 2, 1⟩], [0, 1, 0, 0], 2, m + 1, 2⟩ : Hist ℚ).map f, f t⟩ : Entropy F))
    (by rw [← hw]; norm_num [psi, phi]; try ring)

theorem negStep4 (hL : Small N L f) {v w : ℚ} {k : ℤ} (hk : v = k / 2) (hk2 : |k| ≤ N) (hw : v + -1 = w) (c m : ℕ) :
    Entropy.update L ⟨2, some [0, 0], c, (⟨2, 2, [⟨1, 1, 1⟩, ⟨2, 2, 1⟩], [0, 1, 0, 0], 2, m, 2⟩ : Hist ℚ).map f, f v⟩ (f 2) =
      .ok ⟨2, some [0, 1], c + 1, (⟨2, 2, [⟨1, 1, 0⟩, ⟨2, 2, 2⟩], [1, 0, 0, 1], 2, m + 1, 2⟩ : Hist ℚ).map f, f w⟩ := by
  have h := evict_small hL (e := ⟨2, some [0, 0], c, (⟨2, 2, [⟨1, 1, 1⟩, ⟨2, 2, 1⟩], [0, 1, 0, 0], 2, m, 2⟩ : Hist ℚ).map f, f v⟩) (v := v) rfl (edges12 1 1) (by simp) rfl rfl rfl
    (neg4 m).1 (neg4 m).2 rfl rfl rfl (by norm_num) (by norm_num) rfl hk hk2
  rw [h]
  exact congrArg (fun t => Res.ok (⟨2, some [0, 1], c + 1, (⟨2, 2, [⟨1, 1, 0⟩, ⟨2, 2, 2⟩], [1, 0, 0, 1], 2, m + 1, 2⟩ : Hist ℚ).map f, f t⟩ : Entropy F))
    (by rw [← hw]; norm_num [psi, phi]; try ring)

theorem negStep5 (hL : Small N L f) {v w : ℚ} {k : ℤ} (hk : v = k / 2) (hk2 : |k| ≤ N) (hw : v + 0 = w) (c m : ℕ) :
    Entropy.update L ⟨2, some [0, 1], c, (⟨2, 2, [⟨1, 1, 0⟩, ⟨2, 2, 2⟩], [1, 0, 0, 1], 2, m, 2⟩ : Hist ℚ).map f, f v⟩ (f 1) =
      .ok ⟨2, some [1, 0], c + 1, (⟨2, 2, [⟨1, 1, 1⟩, ⟨2, 2, 1⟩], [0, 0, 1, 0], 2, m + 1, 2⟩ : Hist ℚ).map f, f w⟩ := by
  have h := evict_small hL (e := ⟨2, some [0, 1], c, (⟨2, 2, [⟨1, 1, 0⟩, ⟨2, 2, 2⟩], [1, 0, 0, 1], 2, m, 2⟩ : Hist ℚ).map f, f v⟩) (v := v) rfl (edges12 0 2) (by simp) rfl rfl rfl
    (neg5 m).1 (neg5 m).2 rfl rfl rfl (by norm_num) (by norm_num) rfl hk hk2
  rw [h]
  exact congrArg (fun t => Res.ok (⟨2, some [1, 0], c + 1, (⟨2, 2, [⟨1, 1, 1⟩, ⟨2, 2, 1⟩], [0, 0, 1, 0], 2, m + 1, 2⟩ : Hist ℚ).map f, f t⟩ : Entropy F))
    (by rw [← hw]; norm_num [psi, phi]; try ring)

theorem negStep6 (hL : Small N L f) {v w : ℚ} {k : ℤ} (hk : v = k / 2) (hk2 : |k| ≤ N) (hw : v + 0 = w) (c m : ℕ) :
    Entropy.update L ⟨2, some [1, 0], c, (⟨2, 2, [⟨1, 1, 1⟩, ⟨2, 2, 1⟩], [0, 0, 1, 0], 2, m, 2⟩ : Hist ℚ).map f, f v⟩ (f 1) =
      .ok ⟨2, some [0, 0], c + 1, (⟨2, 2, [⟨1, 1, 1⟩, ⟨2, 2, 1⟩], [0, 1, 0, 0], 2, m + 1, 2⟩ : Hist ℚ).map f, f w⟩ := by
  have h := evict_small hL (e := ⟨2, some [1, 0], c, (⟨2, 2, [⟨1, 1, 1⟩, ⟨2, 2, 1⟩], [0, 0, 1, 0], 2, m, 2⟩ : Hist ℚ).map f, f v⟩) (v := v) rfl (edges12 1 1) (by simp) rfl rfl rfl
    (neg6 m).1 (neg6 m).2 rfl rfl rfl (by norm_num) (by norm_num) rfl hk hk2
  rw [h]
  exact congrArg (fun t => Res.ok (⟨2, some [0, 0], c + 1, (⟨2, 2, [⟨1, 1, 1⟩, ⟨2, 2, 1⟩], [0, 1, 0, 0], 2, m + 1, 2⟩ : Hist ℚ).map f, f t⟩ : Entropy F))
    (by rw [← hw]; norm_num [psi, phi]; try ring)

theorem negStep7 (hL : Small N L f) {v w : ℚ} {k : ℤ} (hk : v = k / 2) (hk2 : |k| ≤ N) (hw : v + -1 = w) (c m : ℕ) :
    Entropy.update L ⟨2, some [0, 0], c, (⟨2, 2, [⟨1, 1, 1⟩, ⟨2, 2, 1⟩], [0, 1, 0, 0], 2, m, 2⟩ : Hist ℚ).map f, f v⟩ (f 2) =
      .ok ⟨2, some [0, 1], c + 1, (⟨2, 2, [⟨1, 1, 0⟩, ⟨2, 2, 2⟩], [1, 0, 0, 1], 2, m + 1, 2⟩ : Hist ℚ).map f, f w⟩ := by
  have h := evict_small hL (e := ⟨2, some [0, 0], c, (⟨2, 2, [⟨1, 1, 1⟩, ⟨2, 2, 1⟩], [0, 1, 0, 0], 2, m, 2⟩ : Hist ℚ).map f, f v⟩) (v := v) rfl (edges12 1 1) (by simp) rfl rfl rfl
    (neg7 m).1 (neg7 m).2 rfl rfl rfl (by norm_num) (by norm_num) rfl hk hk2
  rw [h]
  exact congrArg (fun t => Res.ok (⟨2, some [0, 1], c + 1, (⟨2, 2, [⟨1, 1, 0⟩, ⟨2, 2, 2⟩], [1, 0, 0, 1], 2, m + 1, 2⟩ : Hist ℚ).map f, f t⟩ : Entropy F))
    (by rw [← hw]; norm_num [psi, phi]; try ring)

theorem posStep1 (hL : Small N L f) {v w : ℚ} {k : ℤ} (hk : v = k / 2) (hk2 : |k| ≤ N) (hw : v + 1 = w) (c m : ℕ) :
    Entropy.update L ⟨2, some [0, 0], c, (⟨3, 2, [⟨1, 1, 2⟩], [0, 0, 0, 0], 2, m, 1⟩ : Hist ℚ).map f, f v⟩ (f 2) =
      .ok ⟨2, some [0, 1], c + 1, (⟨3, 2, [⟨1, 1, 1⟩, ⟨2, 2, 1⟩], [0, 0, 0, 1], 2, m + 1, 2⟩ : Hist ℚ).map f, f w⟩ := by
  have h := evict_small hL (e := ⟨2, some [0, 0], c, (⟨3, 2, [⟨1, 1, 2⟩], [0, 0, 0, 0], 2, m, 1⟩ : Hist ℚ).map f, f v⟩) (v := v) rfl (edges1 2) (by simp) rfl rfl rfl
    (pos1 m).1 (pos1 m).2 rfl rfl rfl (by norm_num) (by norm_num) rfl hk hk2
  rw [h]
  exact congrArg (fun t => Res.ok (⟨2, some [0, 1], c + 1, (⟨3, 2, [⟨1, 1, 1⟩, ⟨2, 2, 1⟩], [0, 0, 0, 1], 2, m + 1, 2⟩ : Hist ℚ).map f, f t⟩ : Entropy F))
    (by rw [← hw]; norm_num [psi, phi]; try ring)

theorem posStep2 (hL : Small N L f) {v w : ℚ} {k : ℤ} (hk : v = k / 2) (hk2 : |k| ≤ N) (hw : v + -1 = w) (c m : ℕ) :
    Entropy.update L ⟨2, some [0, 1], c, (⟨3, 2, [⟨1, 1, 1⟩, ⟨2, 2, 1⟩], [0, 0, 0, 1], 2, m, 2⟩ : Hist ℚ).map f, f v⟩ (f 2) =
      .ok ⟨2, some [1, 1], c + 1, (⟨3, 2, [⟨1, 1, 0⟩, ⟨2, 2, 2⟩], [0, 0, 1, 1], 2, m + 1, 2⟩ : Hist ℚ).map f, f w⟩ := by
  have h := evict_small hL (e := ⟨2, some [0, 1], c, (⟨3, 2, [⟨1, 1, 1⟩, ⟨2, 2, 1⟩], [0, 0, 0, 1], 2, m, 2⟩ : Hist ℚ).map f, f v⟩) (v := v) rfl (edges12 1 1) (by simp) rfl rfl rfl
    (pos2 m).1 (pos2 m).2 rfl rfl rfl (by norm_num) (by norm_num) rfl hk hk2
  rw [h]
  exact congrArg (fun t => Res.ok (⟨2, some [1, 1], c + 1, (⟨3, 2, [⟨1, 1, 0⟩, ⟨2, 2, 2⟩], [0, 0, 1, 1], 2, m + 1, 2⟩ : Hist ℚ).map f, f t⟩ : Entropy F))
    (by rw [← hw]; norm_num [psi, phi]; try ring)

theorem posStep3 (hL : Small N L f) {v w : ℚ} {k : ℤ} (hk : v = k / 2) (hk2 : |k| ≤ N) (hw : v + 1 = w) (c m : ℕ) :
    Entropy.update L ⟨2, some [1, 1], c, (⟨3, 2, [⟨1, 1, 0⟩, ⟨2, 2, 2⟩], [0, 0, 1, 1], 2, m, 2⟩ : Hist ℚ).map f, f v⟩ (f 3) =
      .ok ⟨2, some [1, 2], c + 1, (⟨3, 2, [⟨1, 1, 0⟩, ⟨2, 2, 2⟩, ⟨3, 3, 1⟩], [0, 1, 1, 2], 2, m + 1, 3⟩ : Hist ℚ).map f, f w⟩ := by
  have h := evict_small hL (e := ⟨2, some [1, 1], c, (⟨3, 2, [⟨1, 1, 0⟩, ⟨2, 2, 2⟩], [0, 0, 1, 1], 2, m, 2⟩ : Hist ℚ).map f, f v⟩) (v := v) rfl (edges12 0 2) (by simp) rfl rfl rfl
    (pos3 m).1 (pos3 m).2 rfl rfl rfl (by norm_num) (by norm_num) rfl hk hk2
  rw [h]
  exact congrArg (fun t => Res.ok (⟨2, some [1, 2], c + 1, (⟨3, 2, [⟨1, 1, 0⟩, ⟨2, 2, 2⟩, ⟨3, 3, 1⟩], [0, 1, 1, 2], 2, m + 1, 3⟩ : Hist ℚ).map f, f t⟩ : Entropy F))
    (by rw [← hw]; norm_num [psi, phi]; try ring)

theorem posStep4 (hL : Small N L f) {v w : ℚ} {k : ℤ} (hk : v = k / 2) (hk2 : |k| ≤ N) (hw : v + 1 / 2 = w) (c m : ℕ) :
    Entropy.update L ⟨2, some [1, 2], c, (⟨3, 2, [⟨1, 1, 0⟩, ⟨2, 2, 2⟩, ⟨3, 3, 1⟩], [0, 1, 1, 2], 2, m, 3⟩ : Hist ℚ).map f, f v⟩ (f 1) =
      .ok ⟨2, some [2, 0], c + 1, (⟨3, 2, [⟨1, 1, 0⟩, ⟨2, 2, 2⟩, ⟨3, 3, 1⟩], [1, 1, 2, 0], 2, m + 1, 3⟩ : Hist ℚ).map f, f w⟩ := by
  have h := evict_small hL (e := ⟨2, some [1, 2], c, (⟨3, 2, [⟨1, 1, 0⟩, ⟨2, 2, 2⟩, ⟨3, 3, 1⟩], [0, 1, 1, 2], 2, m, 3⟩ : Hist ℚ).map f, f v⟩) (v := v) rfl (edges123 0 2 1) (by simp) rfl rfl rfl
    (pos4 m).1 (pos4 m).2 rfl rfl rfl (by norm_num) (by norm_num) rfl hk hk2
  rw [h]
  exact congrArg (fun t => Res.ok (⟨2, some [2, 0], c + 1, (⟨3, 2, [⟨1, 1, 0⟩, ⟨2, 2, 2⟩, ⟨3, 3, 1⟩], [1, 1, 2, 0], 2, m + 1, 3⟩ : Hist ℚ).map f, f t⟩ : Entropy F))
    (by rw [← hw]; norm_num [psi, phi]; try ring)

theorem posStep5 (hL : Small N L f) {v w : ℚ} {k : ℤ} (hk : v = k / 2) (hk2 : |k| ≤ N) (hw : v + 0 = w) (c m : ℕ) :
    Entropy.update L ⟨2, some [2, 0], c, (⟨3, 2, [⟨1, 1, 0⟩, ⟨2, 2, 2⟩, ⟨3, 3, 1⟩], [1, 1, 2, 0], 2, m, 3⟩ : Hist ℚ).map f, f v⟩ (f 1) =
      .ok ⟨2, some [0, 0], c + 1, (⟨3, 2, [⟨1, 1, 1⟩, ⟨2, 2, 1⟩, ⟨3, 3, 1⟩], [1, 2, 0, 0], 2, m + 1, 3⟩ : Hist ℚ).map f, f w⟩ := by
  have h := evict_small hL (e := ⟨2, some [2, 0], c, (⟨3, 2, [⟨1, 1, 0⟩, ⟨2, 2, 2⟩, ⟨3, 3, 1⟩], [1, 1, 2, 0], 2, m, 3⟩ : Hist ℚ).map f, f v⟩) (v := v) rfl (edges123 0 2 1) (by simp) rfl rfl rfl
    (pos5 m).1 (pos5 m).2 rfl rfl rfl (by norm_num) (by norm_num) rfl hk hk2
  rw [h]
  exact congrArg (fun t => Res.ok (⟨2, some [0, 0], c + 1, (⟨3, 2, [⟨1, 1, 1⟩, ⟨2, 2, 1⟩, ⟨3, 3, 1⟩], [1, 2, 0, 0], 2, m + 1, 3⟩ : Hist ℚ).map f, f t⟩ : Entropy F))
    (by rw [← hw]; norm_num [psi, phi]; try ring)

theorem posStep6 (hL : Small N L f) {v w : ℚ} {k : ℤ} (hk : v = k / 2) (hk2 : |k| ≤ N) (hw : v + 0 = w) (c m : ℕ) :
    Entropy.update L ⟨2, some [0, 0], c, (⟨3, 2, [⟨1, 1, 1⟩, ⟨2, 2, 1⟩, ⟨3, 3, 1⟩], [1, 2, 0, 0], 2, m, 3⟩ : Hist ℚ).map f, f v⟩ (f 2) =
      .ok ⟨2, some [0, 1], c + 1, (⟨3, 2, [⟨1, 1, 1⟩, ⟨2, 2, 1⟩, ⟨3, 3, 1⟩], [2, 0, 0, 1], 2, m + 1, 3⟩ : Hist ℚ).map f, f w⟩ := by
  have h := evict_small hL (e := ⟨2, some [0, 0], c, (⟨3, 2, [⟨1, 1, 1⟩, ⟨2, 2, 1⟩, ⟨3, 3, 1⟩], [1, 2, 0, 0], 2, m, 3⟩ : Hist ℚ).map f, f v⟩) (v := v) rfl (edges123 1 1 1) (by simp) rfl rfl rfl
    (pos6 m).1 (pos6 m).2 rfl rfl rfl (by norm_num) (by norm_num) rfl hk hk2
  rw [h]
  exact congrArg (fun t => Res.ok (⟨2, some [0, 1], c + 1, (⟨3, 2, [⟨1, 1, 1⟩, ⟨2, 2, 1⟩, ⟨3, 3, 1⟩], [2, 0, 0, 1], 2, m + 1, 3⟩ : Hist ℚ).map f, f t⟩ : Entropy F))
    (by rw [← hw]; norm_num [psi, phi]; try ring)

theorem posStep7 (hL : Small N L f) {v w : ℚ} {k : ℤ} (hk : v = k / 2) (hk2 : |k| ≤ N) (hw : v + -1 = w) (c m : ℕ) :
    Entropy.update L ⟨2, some [0, 1], c, (⟨3, 2, [⟨1, 1, 1⟩, ⟨2, 2, 1⟩, ⟨3, 3, 1⟩], [2, 0, 0, 1], 2, m, 3⟩ : Hist ℚ).map f, f v⟩ (f 2) =
      .ok ⟨2, some [1, 1], c + 1, (⟨3, 2, [⟨1, 1, 1⟩, ⟨2, 2, 2⟩, ⟨3, 3, 0⟩], [0, 0, 1, 1], 2, m + 1, 3⟩ : Hist ℚ).map f, f w⟩ := by
  have h := evict_small hL (e := ⟨2, some [0, 1], c, (⟨3, 2, [⟨1, 1, 1⟩, ⟨2, 2, 1⟩, ⟨3, 3, 1⟩], [2, 0, 0, 1], 2, m, 3⟩ : Hist ℚ).map f, f v⟩) (v := v) rfl (edges123 1 1 1) (by simp) rfl rfl rfl
    (pos7 m).1 (pos7 m).2 rfl rfl rfl (by norm_num) (by norm_num) rfl hk hk2
  rw [h]
  exact congrArg (fun t => Res.ok (⟨2, some [1, 1], c + 1, (⟨3, 2, [⟨1, 1, 1⟩, ⟨2, 2, 2⟩, ⟨3, 3, 0⟩], [0, 0, 1, 1], 2, m + 1, 3⟩ : Hist ℚ).map f, f t⟩ : Entropy F))
    (by rw [← hw]; norm_num [psi, phi]; try ring)

theorem posStep8 (hL : Small N L f) {v w : ℚ} {k : ℤ} (hk : v = k / 2) (hk2 : |k| ≤ N) (hw : v + 1 = w) (c m : ℕ) :
    Entropy.update L ⟨2, some [1, 1], c, (⟨3, 2, [⟨1, 1, 1⟩, ⟨2, 2, 2⟩, ⟨3, 3, 0⟩], [0, 0, 1, 1], 2, m, 3⟩ : Hist ℚ).map f, f v⟩ (f 3) =
      .ok ⟨2, some [1, 2], c + 1, (⟨3, 2, [⟨1, 1, 0⟩, ⟨2, 2, 2⟩, ⟨3, 3, 1⟩], [0, 1, 1, 2], 2, m + 1, 3⟩ : Hist ℚ).map f, f w⟩ := by
  have h := evict_small hL (e := ⟨2, some [1, 1], c, (⟨3, 2, [⟨1, 1, 1⟩, ⟨2, 2, 2⟩, ⟨3, 3, 0⟩], [0, 0, 1, 1], 2, m, 3⟩ : Hist ℚ).map f, f v⟩) (v := v) rfl (edges123 1 2 0) (by simp) rfl rfl rfl
    (pos8 m).1 (pos8 m).2 rfl rfl rfl (by norm_num) (by norm_num) rfl hk hk2
  rw [h]
  exact congrArg (fun t => Res.ok (⟨2, some [1, 2], c + 1, (⟨3, 2, [⟨1, 1, 0⟩, ⟨2, 2, 2⟩, ⟨3, 3, 1⟩], [0, 1, 1, 2], 2, m + 1, 3⟩ : Hist ℚ).map f, f t⟩ : Entropy F))
    (by rw [← hw]; norm_num [psi, phi]; try ring)

/-- 1, 1, 2 again and again: one bit less each time. -/
theorem drift_down (hL : Small N L f) (k : ℕ) (hk : 2 * k + 4 ≤ N) :
    updateAll (Entropy.update L) ⟨2, some [], 0, Hist.new 2 2, L.lit 0⟩ ((List.replicate (k + 2) [1, 1, 2]).flatten.map f) =
      .ok ⟨2, some [0, 1], 3 * k + 6,
        (⟨2, 2, [⟨1, 1, 0⟩, ⟨2, 2, 2⟩], [1, 0, 0, 1], 2, 3 * k + 6, 2⟩ : Hist ℚ).map f, f (-k)⟩ := by
  induction k with
  | zero =>
    have e : (List.replicate (0 + 2) ([1, 1, 2] : List ℚ)).flatten.map f = [f 1, f 1] ++ [f 2, f 1, f 1, f 2] := rfl
    have b0 : |(0 : ℤ)| ≤ N := by rw [abs_zero]; omega
    have b2 : |(2 : ℤ)| ≤ N := abs_le.2 ⟨by omega, by omega⟩
    rw [e, updateAll_append, start_small hL 2 (by norm_num), Res.ok_bind]
    simp only [updateAll]
    rw [negStep1 hL (k := 0) (w := 1) (by norm_num) b0 (by norm_num), Res.ok_bind,
      negStep2 hL (k := 2) (w := 1) (by norm_num) b2 (by norm_num), Res.ok_bind,
      negStep3 hL (k := 2) (w := 1) (by norm_num) b2 (by norm_num), Res.ok_bind,
      negStep4 hL (k := 2) (w := 0) (by norm_num) b2 (by norm_num), Res.ok_bind]
    norm_num
  | succ k ih =>
    have e : (List.replicate (k + 1 + 2) ([1, 1, 2] : List ℚ)).flatten.map f =
        (List.replicate (k + 2) ([1, 1, 2] : List ℚ)).flatten.map f ++ [f 1, f 1, f 2] := by
      rw [show k + 1 + 2 = (k + 2) + 1 by ring, List.replicate_succ', List.flatten_append, List.map_append]
      rfl
    have hv : (-k : ℚ) = ((-2 * k : ℤ) : ℚ) / 2 := by push_cast; ring
    have b : |(-2 * k : ℤ)| ≤ N := abs_le.2 ⟨by omega, by omega⟩
    rw [e, updateAll_append, ih (by omega), Res.ok_bind]
    simp only [updateAll]
    rw [negStep5 hL hv b (add_zero _), Res.ok_bind, negStep6 hL hv b (add_zero _), Res.ok_bind,
      negStep7 hL (w := -(k + 1 : ℕ)) hv b (by push_cast; ring), Res.ok_bind]
    rfl

/-- 1, 1, 2, 2, 3 again and again: half a bit more each time. -/
theorem drift_up (hL : Small N L f) (k : ℕ) (hk : k + 8 ≤ N) :
    updateAll (Entropy.update L) ⟨2, some [], 0, Hist.new 3 2, L.lit 0⟩
        ((List.replicate (k + 1) [1, 1, 2, 2, 3]).flatten.map f) =
      .ok ⟨2, some [1, 2], 5 * k + 5,
        (⟨3, 2, [⟨1, 1, 0⟩, ⟨2, 2, 2⟩, ⟨3, 3, 1⟩], [0, 1, 1, 2], 2, 5 * k + 5, 3⟩ : Hist ℚ).map f, f ((k + 2) / 2)⟩ := by
  induction k with
  | zero =>
    have e : (List.replicate (0 + 1) ([1, 1, 2, 2, 3] : List ℚ)).flatten.map f = [f 1, f 1] ++ [f 2, f 2, f 3] := rfl
    have b0 : |(0 : ℤ)| ≤ N := by rw [abs_zero]; omega
    have b2 : |(2 : ℤ)| ≤ N := abs_le.2 ⟨by omega, by omega⟩
    rw [e, updateAll_append, start_small hL 3 (by norm_num), Res.ok_bind]
    simp only [updateAll]
    rw [posStep1 hL (k := 0) (w := 1) (by norm_num) b0 (by norm_num), Res.ok_bind,
      posStep2 hL (k := 2) (w := 0) (by norm_num) b2 (by norm_num), Res.ok_bind,
      posStep3 hL (k := 0) (w := 1) (by norm_num) b0 (by norm_num), Res.ok_bind]
    norm_num
  | succ k ih =>
    have e : (List.replicate (k + 1 + 1) ([1, 1, 2, 2, 3] : List ℚ)).flatten.map f =
        (List.replicate (k + 1) ([1, 1, 2, 2, 3] : List ℚ)).flatten.map f ++ [f 1, f 1, f 2, f 2, f 3] := by
      rw [List.replicate_succ', List.flatten_append, List.map_append]
      rfl
    have hv : ((k + 2) / 2 : ℚ) = ((k + 2 : ℤ) : ℚ) / 2 := by push_cast; ring
    have hv1 : ((k + 3) / 2 : ℚ) = ((k + 3 : ℤ) : ℚ) / 2 := by push_cast; ring
    have hv2 : ((k + 1) / 2 : ℚ) = ((k + 1 : ℤ) : ℚ) / 2 := by push_cast; ring
    have b : |(k + 2 : ℤ)| ≤ N := abs_le.2 ⟨by omega, by omega⟩
    have b1 : |(k + 3 : ℤ)| ≤ N := abs_le.2 ⟨by omega, by omega⟩
    have b2 : |(k + 1 : ℤ)| ≤ N := abs_le.2 ⟨by omega, by omega⟩
    rw [e, updateAll_append, ih (by omega), Res.ok_bind]
    simp only [updateAll]
    rw [posStep4 hL (w := (k + 3) / 2) hv b (by ring), Res.ok_bind, posStep5 hL hv1 b1 (add_zero _), Res.ok_bind,
      posStep6 hL hv1 b1 (add_zero _), Res.ok_bind, posStep7 hL (w := (k + 1) / 2) hv1 b1 (by ring), Res.ok_bind,
      posStep8 hL (w := ((k + 1 : ℕ) + 2) / 2) hv2 b2 (by push_cast; ring), Res.ok_bind]
    rfl

theorem new_small {L : LArith F} {W nb : ℕ} (hW : 1 ≤ W) (hnb : 1 ≤ nb) :
    Entropy.new L W nb = .ok ⟨W, some [], 0, Hist.new nb W, L.lit 0⟩ := by
  unfold Entropy.new
  have h1 : ¬ nb < 1 := by omega
  have h2 : W > 0 := hW
  simp [h2, Nat.ne_of_gt hnb]

end Entropy

/-! ### C97 -/

/-- **C97**, as stated: for each window the reported entropy is bounded, whatever the stream, as the entropy of
the window is (between 0 and `log2 W`). Enough bins for the values are granted. -/
def C97_full : Prop := ∀ (W numBins : ℕ) (e0 : Entropy ℝ), 2 ≤ W → Entropy.new realL W numBins = .ok e0 →
  ∃ B : ℝ, ∀ (xs : List ℝ) (e : Entropy ℝ), distinct xs ≤ e0.hist.numBins →
    updateAll (Entropy.update realL) e0 xs = .ok e → |e.evaluate| ≤ B

/-- The stream 1, 1, 2, repeated `k` times. -/
def downStream (k : ℕ) : List ℚ := (List.replicate k [1, 1, 2]).flatten

/-- The stream 1, 1, 2, 2, 3, repeated `k` times. -/
def upStream (k : ℕ) : List ℚ := (List.replicate k [1, 1, 2, 2, 3]).flatten

theorem Spec.entropy_pair {a b : ℝ} (h : a ≠ b) : Spec.entropy [a, b] = 1 := by
  rw [Spec.entropy_uniform (by simp)]
  · have : distinct [a, b] = 2 := by simp [distinct, h]
    rw [this]
    norm_num
  · intro v hv w hw
    simp only [List.mem_cons, List.not_mem_nil, or_false] at hv hw
    rcases hv with rfl | rfl <;> rcases hw with rfl | rfl <;> simp [h, h.symm]

theorem lastN_two {α : Type} (xs : List α) (a b : α) : lastN 2 (xs ++ [a, b]) = [a, b] := by
  simp [lastN]

theorem downStream_succ (k : ℕ) : downStream (k + 1) = downStream k ++ [1] ++ [1, 2] := by
  simp [downStream, List.replicate_succ', List.flatten_append]

theorem upStream_succ (k : ℕ) : upStream (k + 1) = upStream k ++ [1, 1, 2] ++ [2, 3] := by
  simp [upStream, List.replicate_succ', List.flatten_append]

theorem Entropy.start_eq (nb W : ℕ) :
    Entropy.start nb W = ⟨W, some [], 0, Hist.new nb W, realL.lit 0⟩ := by
  have : realL.lit 0 = 0 := Rat.cast_zero
  rw [this]; rfl

/-- **C97**, downwards: `StreamingEntropy(2)` fed with 1, 1, 2 repeated loses one bit each time, although the last
two observations always have entropy 1. -/
theorem C97_down (k : ℕ) : ∃ e0 e, Entropy.new realL 2 0 = .ok e0 ∧ e0.hist.numBins = 2 ∧
    updateAll (Entropy.update realL) e0 ((downStream (k + 2)).map (↑)) = .ok e ∧ e.evaluate = -(k : ℝ) ∧
    Spec.entropy (lastN 2 ((downStream (k + 2)).map (fun x : ℚ => (x : ℝ)))) = 1 := by
  refine ⟨_, _, Entropy.new_real (by norm_num) 0, rfl,
    (congrArg (fun t => updateAll (Entropy.update realL) t _) (Entropy.start_eq _ 2)).trans (Entropy.drift_down (Entropy.realL_small (2 * k + 4)) k le_rfl), ?_, ?_⟩
  · show (((-k : ℚ)) : ℝ) = _
    push_cast; rfl
  · rw [downStream_succ, List.map_append]
    simp only [List.map_cons, List.map_nil]
    rw [lastN_two]
    exact Spec.entropy_pair (by norm_num)

/-- **C97**, upwards: with 3 bins, 1, 1, 2, 2, 3 repeated gains half a bit each time. -/
theorem C97_up (k : ℕ) : ∃ e0 e, Entropy.new realL 2 3 = .ok e0 ∧ e0.hist.numBins = 3 ∧
    updateAll (Entropy.update realL) e0 ((upStream (k + 1)).map (↑)) = .ok e ∧ e.evaluate = ((k : ℝ) + 2) / 2 ∧
    Spec.entropy (lastN 2 ((upStream (k + 1)).map (fun x : ℚ => (x : ℝ)))) = 1 := by
  refine ⟨_, _, Entropy.new_real (by norm_num) 3, rfl,
    (congrArg (fun t => updateAll (Entropy.update realL) t _) (Entropy.start_eq _ 2)).trans (Entropy.drift_up (Entropy.realL_small (k + 8)) k le_rfl), ?_, ?_⟩
  · show ((((k + 2) / 2 : ℚ)) : ℝ) = _
    push_cast; rfl
  · rw [upStream_succ, List.map_append]
    simp only [List.map_cons, List.map_nil]
    rw [lastN_two]
    exact Spec.entropy_pair (by norm_num)

/-- **C97**, what each update does once the window is full, for every window of 2 or more: the scaling of `decrement`
and `increment` cancels, leaving the terms of two bins — the one at the front of the index queue before the
histogram moves and the one of the new observation after. Missing from the full statement: that these terms add up to something
bounded (false, `C97_violated`), because the histogram drops an observation of its own choice. -/
theorem C97_step_partial (W numBins : ℕ) (hW : 2 ≤ W) (e0 e : Entropy ℝ) (xs : List ℝ) (x : ℝ) (hn : W ≤ xs.length)
    (hnew : Entropy.new realL W numBins = .ok e0) (hd : distinct (xs ++ [x]) ≤ e0.hist.numBins)
    (hrun : updateAll (Entropy.update realL) e0 xs = .ok e) :
    ∃ e' front rest i bf bi, updateAll (Entropy.update realL) e0 (xs ++ [x]) = .ok e' ∧
      e.window = some (front :: rest) ∧ e'.window = some (rest ++ [i]) ∧ e.hist.binSearch (exact ℝ) x = .ok i ∧
      e.hist.bins[front]? = some bf ∧ e'.hist.bins[i]? = some bi ∧
      e'.evaluate = e.evaluate +
        (Entropy.g ((((bf.count - 1 : ℕ) : ℝ) + 1) / W) - Entropy.g (((bf.count - 1 : ℕ) : ℝ) / W)) -
        (Entropy.g ((bi.count : ℝ) / W) - Entropy.g (((bi.count - 1 : ℕ) : ℝ) / W)) := by
  rw [Entropy.new_real (by omega)] at hnew
  injection hnew with hnew
  subst hnew
  generalize Entropy.binsFor W numBins = nb at *
  have hd1 : distinct (xs ++ [x]) ≤ nb := hd
  obtain ⟨e1, he1, w, hw, hwl, hwi⟩ := Entropy.enough_run nb W (by omega) xs
    ((Hist.distinct_mono (by simp +contextual)).trans hd1)
  rw [hrun] at he1
  injection he1 with he1
  subst he1
  obtain ⟨e', he', w', hw', hwl', hwi'⟩ := Entropy.enough_run nb W (by omega) (xs ++ [x]) hd1
  have hws : e.windowSize = W := (Entropy.run_hist hrun).2.1
  have hc := Hist.Counts.run (Entropy.run_hist hrun).1
  have hc' := Hist.Counts.run (Entropy.run_hist he').1
  have ht : e.hist.total = W := by have := hc.total; omega
  have ht' : e'.hist.total = W := by have := hc'.total; simp at this; omega
  obtain ⟨i, hi, -⟩ := C50_defined realL.toArith e.hist x
  obtain ⟨front, rest0, hfr, hue⟩ := Entropy.update_evict (L := realL) hi hw (by omega)
  rcases w with _ | ⟨a, rest⟩
  · simp at hwl; omega
  obtain ⟨rfl, hrest⟩ : a = front ∧ rest ++ [i] = rest0 := by simpa using hfr
  subst hrest
  have hf := hwi a (by simp)
  have hlast := he'
  rw [updateAll_snoc, hrun, Res.ok_bind] at hlast
  have hu := (Entropy.update_hist hlast).1
  rw [hue, Entropy.decrement_real (List.getElem?_eq_getElem hf) (by omega), Res.ok_bind] at hlast
  simp only at hlast
  rw [hu, Res.ok_bind] at hlast
  obtain ⟨e2, hinc, hlast⟩ := Res.bind_eq_ok.1 hlast
  obtain ⟨-, f2, -⟩ := Entropy.increment_frame hinc
  have hwin : e'.window = some (rest ++ [i]) := by
    injection hlast with hlast
    rw [← hlast]; exact f2
  have hi' : i < e'.hist.bins.length := by
    rw [hwin] at hw'
    injection hw' with hw'
    exact hwi' i (by rw [← hw']; simp)
  have hinc := (Entropy.increment_real (e := ⟨e.windowSize, some (rest ++ [i]), e.historyCount, e'.hist, _⟩) (i := i)
    (List.getElem?_eq_getElem hi')).symm.trans hinc
  injection hinc with hinc
  injection hlast with hlast
  refine ⟨e', a, rest, i, _, _, he', hw, hwin, hi, List.getElem?_eq_getElem hf, List.getElem?_eq_getElem hi', ?_⟩
  unfold Entropy.evaluate
  have hv : e'.entropy = e2.entropy := by rw [← hlast]
  rw [hv, ← hinc]
  simp only [ht, ht']
  rw [if_neg (by omega)]
  have hW1 : (1 : ℝ) < W := by exact_mod_cast hW
  have hne : (W : ℝ) - 1 ≠ 0 := by linarith
  have hne' : (W : ℝ) ≠ 0 := by linarith
  rw [sub_add_cancel]
  field_simp
  ring

theorem C97_violated : ¬ C97_full := by
  intro h
  obtain ⟨e0, -, h0, hn, -⟩ := C97_down 0
  obtain ⟨B, hB⟩ := h 2 0 e0 le_rfl h0
  obtain ⟨k, hk⟩ := exists_nat_gt B
  obtain ⟨e0', e, h0', -, hr, hv, -⟩ := C97_down k
  rw [h0] at h0'
  injection h0' with h0'
  subst h0'
  have hd : distinct ((downStream (k + 2)).map (fun x : ℚ => (x : ℝ))) ≤ e0.hist.numBins := by
    rw [hn]
    have : distinct ((downStream (k + 2)).map (fun x : ℚ => (x : ℝ))) ≤ distinct [(1 : ℝ), 2] := by
      apply Hist.distinct_mono
      intro x hx
      simp only [downStream, List.mem_map, List.mem_flatten, List.mem_replicate] at hx
      obtain ⟨q, ⟨l, ⟨-, rfl⟩, hq⟩, rfl⟩ := hx
      simp only [List.mem_cons, List.not_mem_nil, or_false] at hq ⊢
      rcases hq with rfl | rfl | rfl <;> norm_num
    refine this.trans ?_
    norm_num [distinct]
  have := hB _ e hd hr
  rw [hv, abs_neg, abs_of_nonneg (by positivity)] at this
  linarith

/-- **C97** on doubles, downwards, for any logarithm that is right at 1 and 1/2. The runs stop at 2^48 rounds
because the doubles do. -/
theorem C97_dbl_down (L : LArith Dbl) (hL : L.toArith = Dbl.arith) (hn : ∀ q : ℚ, L.neg (.fin q) = .fin (-q))
    (h1 : L.log2 (.fin 1) = .fin 0) (h2 : L.log2 (.fin (1 / 2)) = .fin (-1)) (k : ℕ) (hk : k ≤ 2 ^ 48) :
    ∃ e0 e, Entropy.new L 2 2 = .ok e0 ∧
      updateAll (Entropy.update L) e0 ((downStream (k + 2)).map Dbl.fin) = .ok e ∧ e.evaluate = .fin (-k) :=
  ⟨_, _, Entropy.new_small (by norm_num) (by norm_num),
    Entropy.drift_down (Entropy.dbl_small L hL hn h1 h2) k (by norm_num at hk ⊢; omega), rfl⟩

/-- **C97** on doubles, upwards. -/
theorem C97_dbl_up (L : LArith Dbl) (hL : L.toArith = Dbl.arith) (hn : ∀ q : ℚ, L.neg (.fin q) = .fin (-q))
    (h1 : L.log2 (.fin 1) = .fin 0) (h2 : L.log2 (.fin (1 / 2)) = .fin (-1)) (k : ℕ) (hk : k ≤ 2 ^ 48) :
    ∃ e0 e, Entropy.new L 2 3 = .ok e0 ∧
      updateAll (Entropy.update L) e0 ((upStream (k + 1)).map Dbl.fin) = .ok e ∧ e.evaluate = .fin ((k + 2) / 2) :=
  ⟨_, _, Entropy.new_small (by norm_num) (by norm_num),
    Entropy.drift_up (Entropy.dbl_small L hL hn h1 h2) k (by norm_num at hk ⊢; omega), rfl⟩

/-- A logarithm exists to run the doubles with; 1, 1, 2 a thousand and two times gives -1000 bits. -/
example : ∃ (L : LArith Dbl) (e0 e : Entropy Dbl), L.toArith = Dbl.arith ∧ Entropy.new L 2 2 = .ok e0 ∧
    updateAll (Entropy.update L) e0 ((downStream 1002).map Dbl.fin) = .ok e ∧ e.evaluate = .fin (-1000) := by
  let L : LArith Dbl := { Dbl.arith with
    log2 := fun x => if x = .fin (1 / 2) then .fin (-1) else .fin 0
    neg := fun x => match x with | .fin q => .fin (-q) | y => y
    ceilNat := fun _ => 1 }
  obtain ⟨e0, e, h1, h2, h3⟩ := C97_dbl_down L rfl (fun _ => rfl) (by decide +kernel) (by decide +kernel) 1000 (by norm_num)
  exact ⟨L, e0, e, rfl, h1, h2, by rw [h3]; norm_num⟩

example : ∃ e' : Entropy ℝ, updateAll (Entropy.update realL) (Entropy.start 10 2) ([2, 1] ++ [1]) = .ok e' := by
  obtain ⟨e, he, -⟩ := Entropy.enough_run 10 2 (by norm_num) [2, 1] (by norm_num [distinct])
  obtain ⟨e', -, -, -, -, -, h, -⟩ := C97_step_partial 2 10 le_rfl _ e [2, 1] 1 (by simp)
    (Entropy.new_real (by norm_num) 10) (by norm_num [distinct, Entropy.start, Entropy.binsFor, Hist.new]) he
  exact ⟨e', h⟩

end KML
