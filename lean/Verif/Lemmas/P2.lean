import Verif.Spec.Quantile
import Verif.Spec.Stats
import Verif.Lemmas.Sort
import Verif.Lemmas.Window
import Mathlib.Tactic.Linarith
import Mathlib.Tactic.Ring
import Mathlib.Tactic.Positivity
import Mathlib.Tactic.FieldSimp
import Mathlib.Tactic.NormNum

/-! Invariants of `StreamingP2Quantile`. -/

set_option linter.unusedSectionVars false

namespace KML

open Spec

/-! ### Values replaced by their images -/

/-- Apply a function to every value in an estimator. -/
def Five.map {α β : Type} (f : α → β) (v : Five α) : Five β := ⟨f v.x0, f v.x1, f v.x2, f v.x3, f v.x4⟩

/-- Apply a function to every value in an estimator. -/
def P2.map {α β : Type} (f : α → β) (p : P2 α) : P2 β :=
  ⟨f p.quantile, p.desired.map f, p.pos, p.heights.map f, p.historyCount⟩

/-- Apply a function to the observation of a call. -/
def QOp.map {α β : Type} (f : α → β) : QOp α → QOp β
  | .update x => .update (f x)
  | .evaluate => .evaluate
  | .clear => .clear

theorem Five.map_toList {α β : Type} (f : α → β) (v : Five α) : (v.map f).toList = v.toList.map f := rfl

theorem Five.map_ofList {α β : Type} (f : α → β) (v : Five α) (l : List α) :
    (v.map f).ofList (l.map f) = (v.ofList l).map f := by
  unfold Five.ofList
  rcases l with _ | ⟨a, _ | ⟨b, _ | ⟨c, _ | ⟨d, _ | ⟨e, _ | ⟨g, l⟩⟩⟩⟩⟩⟩ <;> rfl

/-! ### Order statistics of sorted lists -/

section Rank

variable {K : Type} [LinearOrder K]

theorem isRank_of_sorted {l : List K} (h : l.Pairwise (· ≤ ·)) {k : ℕ} {v : K} (hk : l[k]? = some v) :
    IsRank l k v := by
  obtain ⟨hlt, rfl⟩ := List.getElem?_eq_some_iff.1 hk
  refine ⟨List.getElem_mem hlt, ?_, ?_⟩
  · have e : l = l.take k ++ l.drop k := (List.take_append_drop k l).symm
    have h2 : (l.drop k).filter (· < l[k]) = [] := by
      rw [List.filter_eq_nil_iff]
      intro a ha
      obtain ⟨i, hi, rfl⟩ := List.mem_iff_getElem.1 ha
      rw [List.getElem_drop]
      simp only [decide_eq_true_eq, not_lt]
      rcases Nat.eq_zero_or_pos i with rfl | hpos
      · simp
      · exact List.pairwise_iff_getElem.1 h k (k + i) hlt (by simp at hi; omega) (by omega)
    have h3 : l.filter (· < l[k]) = (l.take k).filter (· < l[k]) ++ (l.drop k).filter (· < l[k]) := by
      rw [← List.filter_append, ← e]
    rw [h3, h2, List.append_nil]
    exact (List.length_filter_le _ _).trans (by simp)
  · have e : l = l.take (k + 1) ++ l.drop (k + 1) := (List.take_append_drop (k + 1) l).symm
    have h1 : (l.take (k + 1)).filter (· ≤ l[k]) = l.take (k + 1) := by
      rw [List.filter_eq_self]
      intro a ha
      obtain ⟨i, hi, rfl⟩ := List.mem_iff_getElem.1 ha
      rw [List.getElem_take]
      simp only [List.length_take] at hi
      simp only [decide_eq_true_eq]
      rcases Nat.lt_or_ge i k with hik | hik
      · exact List.pairwise_iff_getElem.1 h i k (by omega) hlt hik
      · have : i = k := by omega
        subst this; exact le_rfl
    have h3 : ((l.take (k + 1)).filter (· ≤ l[k])).length ≤ (l.filter (· ≤ l[k])).length :=
      ((List.take_sublist (k + 1) l).filter _).length_le
    rw [h1, List.length_take] at h3
    omega

theorem IsRank.perm {l l' : List K} (h : l.Perm l') {k : ℕ} {v : K} (hr : IsRank l k v) : IsRank l' k v :=
  ⟨h.mem_iff.1 hr.1, by rw [← (h.filter _).length_eq]; exact hr.2.1,
    by rw [← (h.filter _).length_eq]; exact hr.2.2⟩

/-- The element of a given rank is unique. -/
theorem IsRank.unique {l : List K} {k : ℕ} {v w : K} (hv : IsRank l k v) (hw : IsRank l k w) : v = w := by
  by_contra hne
  rcases lt_or_gt_of_ne hne with h | h
  · have : (l.filter (· ≤ v)).length ≤ (l.filter (· < w)).length :=
      (List.monotone_filter_right l (fun x hx => by
        simp only [decide_eq_true_eq] at hx ⊢; exact hx.trans_lt h)).length_le
    have := hv.2.2; have := hw.2.1; omega
  · have : (l.filter (· ≤ w)).length ≤ (l.filter (· < v)).length :=
      (List.monotone_filter_right l (fun x hx => by
        simp only [decide_eq_true_eq] at hx ⊢; exact hx.trans_lt h)).length_le
    have := hw.2.2; have := hv.2.1; omega

end Rank

namespace P2

/-! ### Marker positions, any sane arithmetic -/

/-- Comparison facts every IEEE arithmetic satisfies (NaN included). -/
structure Sane {F : Type} (A : Arith F) : Prop where
  up : ∀ d, A.le (A.lit 1) d = true → A.lt (A.lit 0) d = true
  down : ∀ d, A.le d (A.lit (-1)) = true → A.lt d (A.lit 0) = true ∧ A.lt (A.lit 0) d = false

/-- Strictly increasing positions starting at 0. -/
def PosInc (v : Five ℤ) : Prop := v.x0 = 0 ∧ v.x0 < v.x1 ∧ v.x1 < v.x2 ∧ v.x2 < v.x3 ∧ v.x3 < v.x4

section Any

variable {F : Type} {A : Arith F}

theorem adjust_pos (hA : Sane A) (des hm hi hp : F) {nm ni np : ℤ} (h1 : nm < ni) (h2 : ni < np) :
    nm < (adjust A des hm hi hp nm ni np).2 ∧ (adjust A des hm hi hp nm ni np).2 < np := by
  unfold adjust
  simp only
  split
  · rename_i h
    simp only [Bool.or_eq_true, Bool.and_eq_true, decide_eq_true_eq] at h
    rcases h with ⟨ha, hb⟩ | ⟨ha, hb⟩
    · have := hA.up _ ha
      simp only [copysign, this, if_true]
      omega
    · have := hA.down _ ha
      simp only [copysign, this.1, this.2, if_true, Bool.false_eq_true, if_false]
      omega
  · exact ⟨h1, h2⟩

theorem bump_posInc {v : Five ℤ} (h : PosInc v) {k : ℕ} (hk : k ≤ 3) : PosInc (bump v k) := by
  obtain ⟨h0, h1, h2, h3, h4⟩ := h
  simp only [PosInc, bump]
  refine ⟨h0, ?_, ?_, ?_, ?_⟩ <;> split_ifs <;> omega

theorem findK_le (h : Five F) (x : F) : (findK A h x).1 ≤ 3 := by
  unfold findK
  split_ifs <;> simp

theorem adjustHeights_posInc (hA : Sane A) {p : P2 F} (h : PosInc p.pos) (i : ℕ) :
    PosInc (adjustHeights A p i).pos := by
  obtain ⟨h0, h1, h2, h3, h4⟩ := h
  unfold adjustHeights
  split
  · have := adjust_pos hA p.desired.x1 p.heights.x0 p.heights.x1 p.heights.x2 h1 h2
    exact ⟨h0, this.1, this.2, h3, h4⟩
  · have := adjust_pos hA p.desired.x2 p.heights.x1 p.heights.x2 p.heights.x3 h2 h3
    exact ⟨h0, h1, this.1, this.2, h4⟩
  · have := adjust_pos hA p.desired.x3 p.heights.x2 p.heights.x3 p.heights.x4 h3 h4
    exact ⟨h0, h1, h2, this.1, this.2⟩
  · exact ⟨h0, h1, h2, h3, h4⟩

theorem adjustHeights_frame (p : P2 F) (i : ℕ) :
    (adjustHeights A p i).historyCount = p.historyCount ∧ (adjustHeights A p i).quantile = p.quantile ∧
    (adjustHeights A p i).pos.x4 = p.pos.x4 ∧ (adjustHeights A p i).pos.x0 = p.pos.x0 ∧
    (adjustHeights A p i).heights.x0 = p.heights.x0 ∧ (adjustHeights A p i).heights.x4 = p.heights.x4 ∧
    (adjustHeights A p i).desired = p.desired := by
  unfold adjustHeights
  split <;> simp

/-- `updateLater` up to the adjustments. -/
def start (A : Arith F) (p : P2 F) (x : F) : P2 F :=
  { p with heights := (findK A p.heights x).2, pos := bump p.pos (findK A p.heights x).1,
           desired := desiredAt A p.desired.x0 p.quantile p.historyCount }

/-- The adjustments of `updateLater`. -/
def finish (A : Arith F) (p : P2 F) : P2 F :=
  if A.le (A.lit (1 / 2)) p.quantile then
    adjustHeights A (adjustHeights A (adjustHeights A p 1) 2) 3
  else adjustHeights A (adjustHeights A (adjustHeights A p 3) 2) 1

theorem updateLater_eq (p : P2 F) (x : F) : updateLater A p x =
    { finish A (start A p x) with historyCount := (finish A (start A p x)).historyCount + 1 } := rfl

/-- The three adjustments of `updateLater`, in either order. -/
theorem updateLater_cases (p : P2 F) (x : F) (P : P2 F → Prop)
    (h0 : P { p with heights := (findK A p.heights x).2, pos := bump p.pos (findK A p.heights x).1,
                     desired := desiredAt A p.desired.x0 p.quantile p.historyCount })
    (hadj : ∀ p i, P p → P (adjustHeights A p i))
    (hcount : ∀ p, P p → P { p with historyCount := p.historyCount + 1 }) :
    P (updateLater A p x) := by
  unfold updateLater
  simp only
  split
  · exact hcount _ (hadj _ 3 (hadj _ 2 (hadj _ 1 h0)))
  · exact hcount _ (hadj _ 1 (hadj _ 2 (hadj _ 3 h0)))

theorem updateLater_posInc (hA : Sane A) {p : P2 F} (h : PosInc p.pos) (x : F) :
    PosInc (updateLater A p x).pos :=
  updateLater_cases p x (fun p => PosInc p.pos) (bump_posInc h (findK_le _ _))
    (fun _ i h => adjustHeights_posInc hA h i) (fun _ h => h)

theorem updateLater_frame (p : P2 F) (x : F) :
    (updateLater A p x).historyCount = p.historyCount + 1 ∧
    (updateLater A p x).quantile = p.quantile ∧
    (updateLater A p x).pos.x4 = p.pos.x4 + 1 ∧
    (updateLater A p x).heights.x0 = (findK A p.heights x).2.x0 ∧
    (updateLater A p x).heights.x4 = (findK A p.heights x).2.x4 := by
  have hk : (findK A p.heights x).1 < 4 := by have := findK_le (A := A) p.heights x; omega
  unfold updateLater
  simp only
  split
  · simp [adjustHeights_frame, bump, hk]
  · simp [adjustHeights_frame, bump, hk]

theorem updateFirst_frame (p : P2 F) (x : F) :
    (updateFirst A p x).historyCount = p.historyCount + 1 ∧ (updateFirst A p x).quantile = p.quantile ∧
    (updateFirst A p x).pos = p.pos := by
  unfold updateFirst
  simp only
  split <;> simp

theorem bumpOverflows_iff {v : Five ℤ} (h : PosInc v) {k : ℕ} (hk : k ≤ 3) :
    bumpOverflows v k = true ↔ intMax ≤ v.x4 := by
  obtain ⟨h0, h1, h2, h3, h4⟩ := h
  simp only [bumpOverflows, Bool.or_eq_true, Bool.and_eq_true, decide_eq_true_eq, ge_iff_le]
  constructor
  · rintro (((h | h) | h) | h) <;> omega
  · intro h; right; exact ⟨by omega, h⟩

/-- `update` in terms of its two parts. -/
theorem update_eq {p : P2 F} (h : PosInc p.pos) (x : F) :
    p.update A x = if p.historyCount < 5 then .ok (updateFirst A p x)
      else if intMax ≤ p.pos.x4 then .ub .intOverflow else .ok (updateLater A p x) := by
  unfold update
  simp only [bumpOverflows_iff h (findK_le (A := A) p.heights x)]

theorem new_eq_ok {q : F} {p : P2 F} (h : P2.new A q = .ok p) :
    p = ⟨q, ⟨A.lit 0, A.lit 0, A.lit 0, A.lit 0, A.lit 0⟩, ⟨0, 1, 2, 3, 4⟩,
      ⟨A.lit 0, A.lit 0, A.lit 0, A.lit 0, A.lit 0⟩, 0⟩ := by
  unfold new at h
  split at h
  · cases h
  · injection h with h; exact h.symm

theorem update_posInc (hA : Sane A) {p p' : P2 F} (h : PosInc p.pos) {x : F}
    (hu : p.update A x = .ok p') : PosInc p'.pos := by
  rw [update_eq h] at hu
  split at hu
  · injection hu with hu; subst hu; rw [(updateFirst_frame p x).2.2]; exact h
  · split at hu
    · cases hu
    · injection hu with hu; subst hu; exact updateLater_posInc hA h x

theorem evaluate_frame {p p' : P2 F} {v : F} (h : p.evaluate A = .ok (v, p')) :
    p'.pos = p.pos ∧ p'.historyCount = p.historyCount ∧ p'.quantile = p.quantile := by
  unfold evaluate at h
  split at h
  · simp only at h
    split at h
    · cases h
    · split at h
      · injection h with h; injection h with _ h; subst h; exact ⟨rfl, rfl, rfl⟩
      · cases h
  · injection h with h; injection h with _ h; subst h; exact ⟨rfl, rfl, rfl⟩

end Any

/-! ### Heights, any rounding -/

section Round

variable {K : Type} [Field K] [LinearOrder K] [IsStrictOrderedRing K] [FloorRing K]
variable (R : Rounding K)

theorem sane_round : Sane R.arith := by
  have h0 := R.rnd_zero
  have h1 := R.rnd_one
  have hm : R.rnd (-1) = -1 := by simpa using R.int_exact (-1) (by norm_num)
  constructor
  · intro d h
    simp only [Rounding.arith, decide_eq_true_eq, Rat.cast_one, Rat.cast_zero, h0, h1] at h ⊢
    linarith
  · intro d h
    simp only [Rounding.arith, decide_eq_true_eq, Rat.cast_neg, Rat.cast_one, Rat.cast_zero, h0, hm,
      decide_eq_false_iff_not] at h ⊢
    exact ⟨by linarith, by linarith⟩

variable {R}

/-- Interpolating upwards stays between the marker and its right neighbour. -/
theorem linear_up {hi hp : K} {ni np : ℤ} (r1 : R.rnd hi = hi) (r2 : R.rnd hp = hp) (h : hi ≤ hp)
    (hn : 1 < np - ni) :
    hi ≤ linear R.arith hi hp ni np (R.arith.ofInt 1) ∧ linear R.arith hi hp ni np (R.arith.ofInt 1) ≤ hp := by
  have one : R.rnd ((1 : ℤ) : K) = 1 := by simpa using R.rnd_one
  have two : R.rnd ((2 : ℤ) : K) = 2 := by
    have := R.int_exact 2 (by norm_num); simpa using this
  have hk : (2 : K) ≤ R.rnd ((np - ni : ℤ) : K) := by
    rw [← two]; apply R.mono; exact_mod_cast hn
  simp only [linear, Rounding.arith, one, one_mul, R.idem]
  set k := R.rnd ((np - ni : ℤ) : K)
  set y := hp - hi with hy
  have y0 : 0 ≤ y := by rw [hy]; linarith
  have d0 : 0 ≤ R.rnd y := R.rnd_nonneg y0
  have q0 : 0 ≤ R.rnd y / k := div_nonneg d0 (by linarith)
  have q1 : R.rnd y / k ≤ R.rnd y / 2 := div_le_div_of_nonneg_left d0 (by norm_num) hk
  have t0 : 0 ≤ R.rnd (R.rnd y / k) := R.rnd_nonneg q0
  have ht := R.tiny_nonneg
  have t1 : R.rnd (R.rnd y / k) ≤ y := by
    by_cases hc : y ≤ 4 * R.tiny
    · have e : R.rnd y = y := R.sub_exact hp hi r2 r1 (by rw [abs_of_nonneg (by rw [← hy]; exact y0)]; exact hc)
      calc R.rnd (R.rnd y / k) ≤ R.rnd y := R.mono (by linarith)
        _ = y := e
    · have hc := not_le.1 hc
      have e1 := R.rel y (by rw [abs_of_nonneg y0]; linarith)
      rw [abs_of_nonneg y0] at e1
      have e2 := (abs_le.1 e1).2
      have e3 := R.rel (5 / 8 * y) (by rw [abs_of_nonneg (by linarith)]; linarith)
      rw [abs_of_nonneg (by linarith : 0 ≤ 5 / 8 * y)] at e3
      have e4 := (abs_le.1 e3).2
      have e5 : R.rnd (R.rnd y / k) ≤ R.rnd (5 / 8 * y) := R.mono (by linarith)
      linarith
  constructor
  · conv_lhs => rw [← r1]
    exact R.mono (by linarith)
  · conv_rhs => rw [← r2]
    exact R.mono (by rw [hy] at t1; linarith)

/-- Interpolating downwards stays between the left neighbour and the marker. -/
theorem linear_down {hi hm : K} {ni nm : ℤ} (r1 : R.rnd hi = hi) (r2 : R.rnd hm = hm) (h : hm ≤ hi)
    (hn : nm - ni < -1) :
    hm ≤ linear R.arith hi hm ni nm (R.arith.ofInt (-1)) ∧
    linear R.arith hi hm ni nm (R.arith.ofInt (-1)) ≤ hi := by
  have mone : R.rnd ((-1 : ℤ) : K) = -1 := by
    have := R.int_exact (-1) (by norm_num); simpa using this
  have mtwo : R.rnd ((-2 : ℤ) : K) = -2 := by
    have := R.int_exact (-2) (by norm_num); simpa using this
  have hk : R.rnd ((nm - ni : ℤ) : K) ≤ -2 := by
    rw [← mtwo]; apply R.mono; exact_mod_cast (by omega : nm - ni ≤ -2)
  simp only [linear, Rounding.arith, mone]
  set k := R.rnd ((nm - ni : ℤ) : K)
  set y := hi - hm with hy
  have hyn : hm - hi = -y := by rw [hy]; ring
  rw [hyn]
  have y0 : 0 ≤ y := by rw [hy]; linarith
  have d0 : R.rnd (-y) ≤ 0 := by rw [← R.rnd_zero]; exact R.mono (by linarith)
  have e0 : 0 ≤ R.rnd (-1 * R.rnd (-y)) := R.rnd_nonneg (by linarith)
  set ε := R.rnd (-1 * R.rnd (-y))
  have q0 : ε / k ≤ 0 := div_nonpos_of_nonneg_of_nonpos e0 (by linarith)
  have q1 : -(ε / 2) ≤ ε / k := by
    have h1 : ε / (-k) ≤ ε / 2 := div_le_div_of_nonneg_left e0 (by norm_num) (by linarith)
    rw [div_neg] at h1; linarith
  have t0 : R.rnd (ε / k) ≤ 0 := by rw [← R.rnd_zero]; exact R.mono q0
  have ht := R.tiny_nonneg
  have t1 : -y ≤ R.rnd (ε / k) := by
    by_cases hc : y ≤ 4 * R.tiny
    · have f1 : R.rnd (-y) = -y := by
        rw [← hyn]
        exact R.sub_exact hm hi r2 r1 (by rw [hyn, abs_neg, abs_of_nonneg y0]; exact hc)
      have f2 : R.rnd y = y := R.sub_exact hi hm r1 r2 (by rw [← hy, abs_of_nonneg y0]; exact hc)
      have f3 : ε = y := by
        simp only [ε]; rw [f1, show (-1 : K) * -y = y by ring, f2]
      rw [f3] at q1 ⊢
      rw [← f1]
      exact R.mono (by linarith)
    · have hc := not_le.1 hc
      have e1 := R.rel (-y) (by rw [abs_neg, abs_of_nonneg y0]; linarith)
      rw [abs_neg, abs_of_nonneg y0] at e1
      obtain ⟨e2, e2'⟩ := abs_le.1 e1
      have dabs : |-1 * R.rnd (-y)| = -1 * R.rnd (-y) := abs_of_nonneg (by linarith)
      have e3 := R.rel (-1 * R.rnd (-y)) (by rw [dabs]; linarith)
      rw [dabs] at e3
      have e4 := (abs_le.1 e3).2
      have e5 : ε ≤ 25 / 16 * y := by simp only [ε]; linarith
      have e6 := R.rel (-(25 / 32 * y)) (by rw [abs_neg, abs_of_nonneg (by linarith)]; linarith)
      rw [abs_neg, abs_of_nonneg (by linarith : 0 ≤ 25 / 32 * y)] at e6
      have e7 := (abs_le.1 e6).1
      have e8 : R.rnd (-(25 / 32 * y)) ≤ R.rnd (ε / k) := R.mono (by linarith)
      linarith
  constructor
  · conv_lhs => rw [← r2]
    exact R.mono (by rw [hy] at t1; linarith)
  · conv_rhs => rw [← r1]
    exact R.mono (by linarith)

theorem linear_rep (hi hd : K) (ni nd : ℤ) (d : K) :
    R.rnd (linear R.arith hi hd ni nd d) = linear R.arith hi hd ni nd d := R.idem _

theorem parabolic_rep (hm hi hp : K) (nm ni np : ℤ) (d : K) :
    R.rnd (parabolic R.arith hm hi hp nm ni np d) = parabolic R.arith hm hi hp nm ni np d := R.idem _

/-- An adjusted marker stays between its neighbours and is a floating point number. -/
theorem adjust_height (des : K) {hm hi hp : K} {nm ni np : ℤ} (rm : R.rnd hm = hm) (ri : R.rnd hi = hi)
    (rp : R.rnd hp = hp) (h1 : hm ≤ hi) (h2 : hi ≤ hp) :
    hm ≤ (adjust R.arith des hm hi hp nm ni np).1 ∧ (adjust R.arith des hm hi hp nm ni np).1 ≤ hp ∧
    R.rnd (adjust R.arith des hm hi hp nm ni np).1 = (adjust R.arith des hm hi hp nm ni np).1 := by
  have hA := sane_round R
  unfold adjust
  simp only
  split
  · rename_i hcond
    simp only [Bool.or_eq_true, Bool.and_eq_true, decide_eq_true_eq] at hcond
    split
    · rename_i hb
      simp only [Rounding.arith, Bool.and_eq_true, decide_eq_true_eq] at hb
      exact ⟨hb.1.le, hb.2.le, R.idem _⟩
    · rcases hcond with ⟨ha, hb⟩ | ⟨ha, hb⟩
      · have := hA.up _ ha
        simp only [copysign, this, if_true]
        obtain ⟨k1, k2⟩ := linear_up (R := R) ri rp h2 hb
        exact ⟨h1.trans k1, k2, R.idem _⟩
      · have := hA.down _ ha
        simp only [copysign, this.1, this.2, if_true, Bool.false_eq_true, if_false]
        rw [if_neg (by decide)]
        obtain ⟨k1, k2⟩ := linear_down (R := R) ri rm h1 hb
        exact ⟨k1, k2.trans h2, R.idem _⟩
  · exact ⟨h1, h2, ri⟩

/-- All five heights are floating point numbers. -/
def Rep (R : Rounding K) (v : Five K) : Prop := ∀ x ∈ v.toList, R.rnd x = x

theorem rep_iff {v : Five K} : Rep R v ↔ R.rnd v.x0 = v.x0 ∧ R.rnd v.x1 = v.x1 ∧ R.rnd v.x2 = v.x2 ∧
    R.rnd v.x3 = v.x3 ∧ R.rnd v.x4 = v.x4 := by
  simp [Rep, Five.toList]

theorem adjustHeights_sorted {p : P2 K} (hr : Rep R p.heights) (hs : p.heights.Sorted) (i : ℕ) :
    Rep R (adjustHeights R.arith p i).heights ∧ (adjustHeights R.arith p i).heights.Sorted := by
  rw [rep_iff] at hr ⊢
  obtain ⟨r0, r1, r2, r3, r4⟩ := hr
  obtain ⟨s1, s2, s3, s4⟩ := hs
  unfold adjustHeights
  split
  · obtain ⟨a, b, c⟩ := adjust_height (R := R) p.desired.x1 (nm := p.pos.x0) (ni := p.pos.x1)
      (np := p.pos.x2) r0 r1 r2 s1 s2
    exact ⟨⟨r0, c, r2, r3, r4⟩, a, b, s3, s4⟩
  · obtain ⟨a, b, c⟩ := adjust_height (R := R) p.desired.x2 (nm := p.pos.x1) (ni := p.pos.x2)
      (np := p.pos.x3) r1 r2 r3 s2 s3
    exact ⟨⟨r0, r1, c, r3, r4⟩, s1, a, b, s4⟩
  · obtain ⟨a, b, c⟩ := adjust_height (R := R) p.desired.x3 (nm := p.pos.x2) (ni := p.pos.x3)
      (np := p.pos.x4) r2 r3 r4 s3 s4
    exact ⟨⟨r0, r1, r2, c, r4⟩, s1, s2, a, b⟩
  · exact ⟨⟨r0, r1, r2, r3, r4⟩, s1, s2, s3, s4⟩

theorem findK_heights (R : Rounding K) (h : Five K) (x : K) (hs : h.Sorted) :
    (findK R.arith h x).2 = ⟨min h.x0 x, h.x1, h.x2, h.x3, max h.x4 x⟩ := by
  obtain ⟨s1, s2, s3, s4⟩ := hs
  have key : ∀ a : K, (R.arith.lt x a = true ↔ x < a) := fun a => by simp [Rounding.arith]
  unfold findK
  simp only [key]
  split_ifs with c0 c1 c2 c3 c4
  · rw [min_eq_right c0.le, max_eq_left (by linarith)]
  · rw [min_eq_left (not_lt.1 c0), max_eq_left (by linarith)]
  · rw [min_eq_left (not_lt.1 c0), max_eq_left (by linarith)]
  · rw [min_eq_left (not_lt.1 c0), max_eq_left (by linarith)]
  · rw [min_eq_left (not_lt.1 c0), max_eq_left (by linarith)]
  · rw [min_eq_left (not_lt.1 c0), max_eq_right (not_lt.1 c4)]

theorem updateLater_sorted {p : P2 K} (hr : Rep R p.heights) (hs : p.heights.Sorted) {x : K}
    (hx : R.rnd x = x) :
    Rep R (updateLater R.arith p x).heights ∧ (updateLater R.arith p x).heights.Sorted := by
  refine updateLater_cases p x (fun p => Rep R p.heights ∧ p.heights.Sorted) ?_
    (fun p i h => adjustHeights_sorted h.1 h.2 i) (fun _ h => h)
  simp only [findK_heights R p.heights x hs]
  rw [rep_iff] at hr ⊢
  obtain ⟨r0, r1, r2, r3, r4⟩ := hr
  obtain ⟨s1, s2, s3, s4⟩ := hs
  refine ⟨⟨?_, r1, r2, r3, ?_⟩, (min_le_left _ _).trans s1, s2, s3, s4.trans (le_max_left _ _)⟩
  · rcases min_choice p.heights.x0 x with h | h <;> rw [h] <;> assumption
  · rcases max_choice p.heights.x4 x with h | h <;> rw [h] <;> assumption

theorem lt_decide (R : Rounding K) : ∀ a b : K, R.arith.lt a b = decide (a < b) := fun _ _ => rfl

/-! ### The invariant of every history -/

/-- Invariant of every history whose observations lie in `[lo, hi]` (`0` included, because the initial
heights are 0). -/
structure Hull (R : Rounding K) (lo hi : K) (p : P2 K) : Prop where
  q0 : 0 < p.quantile
  q1 : p.quantile < 1
  pos : PosInc p.pos
  rep : Rep R p.heights
  range : ∀ h ∈ p.heights.toList, lo ≤ h ∧ h ≤ hi
  sorted : 5 ≤ p.historyCount → p.heights.Sorted

theorem evalIndex_range (R : Rounding K) {p : P2 K} (q0 : 0 < p.quantile) (q1 : p.quantile < 1)
    (hn : p.historyCount ≤ 5) : 0 ≤ evalIndex R.arith p ∧ evalIndex R.arith p ≤ 4 := by
  have hc : R.rnd (p.historyCount : K) = p.historyCount := R.rnd_nat _ (by omega)
  have hsub : R.rnd ((p.historyCount : K) - 1) = p.historyCount - 1 := by
    have := R.int_exact (p.historyCount - 1) (by rw [abs_le]; constructor <;> omega)
    simpa using this
  have habs : |(p.historyCount : K) - 1| ≤ 4 := by
    have h1 : (p.historyCount : K) ≤ 5 := by exact_mod_cast hn
    have h2 : (0 : K) ≤ p.historyCount := Nat.cast_nonneg _
    rw [abs_le]; constructor <;> linarith
  have hm0 : 0 ≤ |(p.historyCount : K) - 1| * p.quantile := mul_nonneg (abs_nonneg _) q0.le
  have hm4 : |(p.historyCount : K) - 1| * p.quantile ≤ 4 := by
    have := abs_nonneg ((p.historyCount : K) - 1)
    nlinarith
  have r0 : 0 ≤ R.rnd (|(p.historyCount : K) - 1| * p.quantile) := R.rnd_nonneg hm0
  have r4 : R.rnd (|(p.historyCount : K) - 1| * p.quantile) ≤ 4 := by
    have h4 : R.rnd (4 : K) = 4 := by simpa using R.rnd_nat 4 (by norm_num)
    rw [← h4]; exact R.mono hm4
  simp only [evalIndex, Rounding.arith, Arith.ofNat, Int.cast_natCast, hc, Rat.cast_one, R.rnd_one, hsub]
  rw [if_pos r0]
  constructor
  · exact Int.floor_nonneg.2 (by linarith)
  · have : ⌊R.rnd (|(p.historyCount : K) - 1| * p.quantile) + 1 / 2⌋ < 5 := by
      rw [Int.floor_lt]; push_cast; linarith
    omega

/-- `evaluate` never fails on such a state, and its value is one of the heights. -/
theorem evaluate_spec {p : P2 K} (q0 : 0 < p.quantile) (q1 : p.quantile < 1) :
    ∃ v p', p.evaluate R.arith = .ok (v, p') ∧ v ∈ p.heights.toList ∧
      (p'.heights = p.heights.sort R.arith ∨ (6 ≤ p.historyCount ∧ p' = p)) ∧
      p' = { p with heights := p'.heights } ∧
      (p.historyCount ≤ 5 → (p.heights.sort R.arith).toList[(evalIndex R.arith p).toNat]? = some v) := by
  unfold evaluate
  by_cases h : p.historyCount ≤ 5
  · obtain ⟨i0, i4⟩ := evalIndex_range R q0 q1 h
    have hlen : (p.heights.sort R.arith).toList.length = 5 := rfl
    have hi : (evalIndex R.arith p).toNat < (p.heights.sort R.arith).toList.length := by rw [hlen]; omega
    refine ⟨(p.heights.sort R.arith).toList[(evalIndex R.arith p).toNat],
      { p with heights := p.heights.sort R.arith }, ?_, ?_, Or.inl rfl, rfl, ?_⟩
    · simp only [h, if_true, not_lt.2 i0, if_false, List.getElem?_eq_getElem hi]
    · exact (Five.sort_perm R.arith p.heights).mem_iff.1 (List.getElem_mem hi)
    · intro _; exact List.getElem?_eq_getElem hi
  · refine ⟨p.heights.x2, p, by simp [h], by simp [Five.toList], Or.inr ⟨by omega, rfl⟩, rfl,
      fun h' => absurd h' h⟩

theorem mem_ofList_set {v : Five K} {n : ℕ} (x y : K)
    (hy : y ∈ (v.ofList (v.toList.set n x)).toList) : y = x ∨ y ∈ v.toList := by
  rw [Five.toList_ofList v (by simp [Five.toList])] at hy
  rcases List.mem_or_eq_of_mem_set hy with h | h
  · exact Or.inr h
  · exact Or.inl h

theorem updateFirst_mem {A : Arith K} {p : P2 K} (x y : K)
    (hy : y ∈ (updateFirst A p x).heights.toList) : y = x ∨ y ∈ p.heights.toList := by
  unfold updateFirst at hy
  simp only at hy
  split at hy
  · exact mem_ofList_set x y ((Five.sort_perm A _).mem_iff.1 hy)
  · exact mem_ofList_set x y hy

theorem Hull.update {lo hi : K} {p p' : P2 K} (h : Hull R lo hi p) {x : K} (hx : R.rnd x = x)
    (hlo : lo ≤ x) (hhi : x ≤ hi) (hu : p.update R.arith x = .ok p') : Hull R lo hi p' := by
  have hpos := update_posInc (sane_round R) h.pos hu
  rw [update_eq h.pos] at hu
  split at hu
  · rename_i hn
    injection hu with hu
    have hmem := fun y => updateFirst_mem (A := R.arith) (p := p) x y
    obtain ⟨f1, f2, f3⟩ := updateFirst_frame (A := R.arith) p x
    rw [hu] at hmem f1 f2 f3
    refine ⟨f2 ▸ h.q0, f2 ▸ h.q1, hpos, ?_, ?_, ?_⟩
    · intro y hy
      rcases hmem y hy with rfl | hy
      · exact hx
      · exact h.rep y hy
    · intro y hy
      rcases hmem y hy with rfl | hy
      · exact ⟨hlo, hhi⟩
      · exact h.range y hy
    · intro h5
      rw [f1] at h5
      have h5' : p.historyCount + 1 = 5 := by omega
      rw [← hu]
      unfold updateFirst
      simp only [h5', if_true]
      exact Five.sort_sorted R.arith (lt_decide R) _
  · rename_i hn
    split at hu
    · cases hu
    · injection hu with hu
      have hs := h.sorted (by omega)
      obtain ⟨k1, k2⟩ := updateLater_sorted h.rep hs hx
      obtain ⟨f1, f2, -, f4, f5⟩ := updateLater_frame (A := R.arith) p x
      rw [findK_heights R p.heights x hs] at f4 f5
      rw [hu] at k1 k2 f1 f2 f4 f5
      refine ⟨f2 ▸ h.q0, f2 ▸ h.q1, hpos, k1, ?_, fun _ => k2⟩
      have e0 : lo ≤ p'.heights.x0 := by
        rw [f4]; exact le_min (h.range _ (by simp [Five.toList])).1 hlo
      have e4 : p'.heights.x4 ≤ hi := by
        rw [f5]; exact max_le (h.range _ (by simp [Five.toList])).2 hhi
      obtain ⟨s1, s2, s3, s4⟩ := k2
      intro y hy
      simp only [Five.toList, List.mem_cons, List.not_mem_nil, or_false] at hy
      rcases hy with rfl | rfl | rfl | rfl | rfl <;> constructor <;> linarith

theorem Hull.sort {lo hi : K} {p : P2 K} (h : Hull R lo hi p) :
    Hull R lo hi { p with heights := p.heights.sort R.arith } := by
  have hp := Five.sort_perm R.arith p.heights
  exact ⟨h.q0, h.q1, h.pos, fun y hy => h.rep y (hp.mem_iff.1 hy),
    fun y hy => h.range y (hp.mem_iff.1 hy), fun _ => Five.sort_sorted R.arith (lt_decide R) _⟩

theorem Hull.evaluate {lo hi : K} {p : P2 K} (h : Hull R lo hi p) :
    ∃ v p', p.evaluate R.arith = .ok (v, p') ∧ lo ≤ v ∧ v ≤ hi ∧ Hull R lo hi p' := by
  obtain ⟨v, p', h1, h2, h3, h4, -⟩ := evaluate_spec (R := R) h.q0 h.q1
  refine ⟨v, p', h1, (h.range v h2).1, (h.range v h2).2, ?_⟩
  rcases h3 with h3 | ⟨-, rfl⟩
  · rw [h4, h3]; exact h.sort
  · exact h

theorem Hull.clear {lo hi : K} {p : P2 K} (h : Hull R lo hi p) : Hull R lo hi p.clear :=
  ⟨h.q0, h.q1, h.pos, h.rep, h.range, fun h5 => absurd h5 (by simp [P2.clear])⟩

theorem new_ok_iff (R : Rounding K) (q : K) : (∃ p, P2.new R.arith q = .ok p) ↔ 0 < q ∧ q < 1 := by
  unfold new
  simp only [Rounding.arith, Rat.cast_zero, Rat.cast_one, R.rnd_zero, R.rnd_one]
  by_cases h0 : q ≤ 0
  · simp [h0, not_lt.2 h0]
  · by_cases h1 : 1 ≤ q
    · simp [h1, not_lt.2 h1]
    · simp [h0, h1, not_le.1 h0, not_le.1 h1]

theorem Hull.new {q : K} {p : P2 K} (h : P2.new R.arith q = .ok p) {lo hi : K} (hlo : lo ≤ 0) (hhi : 0 ≤ hi) :
    Hull R lo hi p := by
  obtain ⟨q0, q1⟩ := (new_ok_iff R q).1 ⟨p, h⟩
  have e := new_eq_ok h
  have l0 : R.arith.lit 0 = 0 := by simp [Rounding.arith, R.rnd_zero]
  rw [l0] at e
  subst e
  refine ⟨q0, q1, by simp [PosInc], ?_, ?_, ?_⟩
  · rw [rep_iff]; simp [R.rnd_zero]
  · intro y hy
    simp [Five.toList] at hy
    subst hy; exact ⟨hlo, hhi⟩
  · intro h5; simp at h5

end Round

end P2

end KML
