import Verif.Props.P2
import Verif.Props.Monotone
import Verif.Props.DoubleMean

/-!
# C37: what `clear()` of StreamingP2Quantile leaves behind; C102 for fixed-point data
-/

namespace KML

open Spec

/-- The observations of a history that were not among the first five after construction or `clear`; `n` observations
were made before. -/
def Spec.beyondFive {F : Type} : ℕ → List (QOp F) → ℕ
  | _, [] => 0
  | n, .update _ :: os => (if n < 5 then 0 else 1) + beyondFive (n + 1) os
  | n, .evaluate :: os => beyondFive n os
  | _, .clear :: os => beyondFive 0 os

namespace P2

variable {F : Type} {A : Arith F}

theorem update_pos {p p' : P2 F} {x : F} (h : p.update A x = .ok p') :
    p'.historyCount = p.historyCount + 1 ∧ p'.quantile = p.quantile ∧
    (p.historyCount < 5 → p'.pos = p.pos) ∧ p'.pos.x4 = p.pos.x4 + if p.historyCount < 5 then 0 else 1 := by
  unfold update at h
  split at h
  · rename_i h5
    injection h with h
    subst h
    obtain ⟨f1, f2, f3⟩ := updateFirst_frame (A := A) p x
    exact ⟨f1, f2, fun _ => f3, by rw [f3, if_pos h5, add_zero]⟩
  · rename_i h5
    split at h
    · cases h
    · injection h with h
      subst h
      obtain ⟨f1, f2, f3, -⟩ := updateLater_frame (A := A) p x
      exact ⟨f1, f2, fun h => absurd h h5, by rw [f3, if_neg h5]⟩

/-- The last marker counts the observations beyond five; without any the markers stay where they were. -/
theorem run_beyond {p p' : P2 F} {ops : List (QOp F)} {vs : List F} (hr : P2.run A p ops = .ok (vs, p')) :
    p'.quantile = p.quantile ∧ p'.pos.x4 = p.pos.x4 + beyondFive p.historyCount ops ∧
      (beyondFive p.historyCount ops = 0 → p'.pos = p.pos) := by
  induction ops generalizing p vs with
  | nil => simp only [P2.run] at hr; injection hr with hr; injection hr with _ hr; subst hr; simp [beyondFive]
  | cons o ops ih =>
    simp only [P2.run] at hr
    obtain ⟨⟨v1, q⟩, hq, hr⟩ := Res.bind_eq_ok.1 hr
    obtain ⟨⟨v2, q'⟩, hq', hr⟩ := Res.bind_eq_ok.1 hr
    simp only [Res.ok.injEq, Prod.mk.injEq] at hr
    obtain ⟨-, rfl⟩ := hr
    obtain ⟨i1, i2, i3⟩ := ih hq'
    cases o with
    | update x =>
      simp only [P2.step] at hq
      obtain ⟨p1, he, hq⟩ := Res.bind_eq_ok.1 hq
      injection hq with hq; injection hq with _ hq
      subst hq
      obtain ⟨f1, f2, f3, f4⟩ := update_pos he
      rw [f1] at i2 i3
      refine ⟨i1.trans f2, ?_, fun h0 => ?_⟩
      · rw [i2, f4]
        simp only [beyondFive]
        split <;> push_cast <;> ring
      · simp only [beyondFive] at h0
        have h5 : p.historyCount < 5 := by
          by_contra h
          rw [if_neg h] at h0
          omega
        exact (i3 (by omega)).trans (f3 h5)
    | evaluate =>
      simp only [P2.step] at hq
      obtain ⟨⟨v, p1⟩, he, hq⟩ := Res.bind_eq_ok.1 hq
      injection hq with hq; injection hq with _ hq
      subst hq
      obtain ⟨f1, f2, f3⟩ := evaluate_frame he
      simp only at i1 i2 i3
      rw [f2, f1] at i2 i3
      exact ⟨i1.trans f3, i2, i3⟩
    | clear =>
      simp only [P2.step] at hq
      injection hq with hq; injection hq with _ hq
      subst hq
      exact ⟨i1, i2, i3⟩

theorem updateAll_pos {p p' : P2 F} {xs : List F} (h : updateAll (P2.update A) p xs = .ok p') :
    p'.pos.x4 = p.pos.x4 + ((p.historyCount + xs.length - 5 : ℕ) - (p.historyCount - 5 : ℕ) : ℤ) := by
  induction xs generalizing p with
  | nil => simp only [updateAll] at h; injection h with h; subst h; simp
  | cons x xs ih =>
    simp only [updateAll] at h
    obtain ⟨p1, h1, h2⟩ := Res.bind_eq_ok.1 h
    obtain ⟨f1, -, -, f4⟩ := update_pos h1
    rw [ih h2, f1, f4, List.length_cons]
    split <;> omega

end P2

/-- **C37** (any arithmetic): from the fifth observation on all that survives `clear` are the marker positions. -/
theorem C37_left_over_partial {F : Type} (A : Arith F) (q : F) (p p' r : P2 F) (hp : P2.new A q = .ok p)
    (ops : List (QOp F)) (vs : List F) (hr : P2.run A p ops = .ok (vs, p')) (xs : List F) (hx : xs.length = 5)
    (hu : updateAll (P2.update A) p xs = .ok r) :
    updateAll (P2.update A) p'.clear xs = .ok { r with pos := p'.pos } := by
  have hq := (P2.run_beyond hr).1
  match xs, hx with
  | [a, b, c, d, e], _ =>
    rw [P2.five_updates A p (by rw [P2.new_eq_ok hp])] at hu
    injection hu with hu
    subst hu
    rw [P2.five_updates A _ rfl]
    simp only [P2.clear, hq]

/-- After seven observations and `clear` the markers of the next five stand at 0, 2, 3, 5, 6 instead of 0, 1, 2, 3, 4. -/
example : (do
    let (_, p) ← P2.run (exact ℚ) (P2.blank (1 / 2)) [.update 1, .update 2, .update 3, .update 4, .update 5, .update 0, .update 0,
      .clear]
    let p ← updateAll (P2.update (exact ℚ)) p [5, 6, 7, 8, 9]
    let r ← updateAll (P2.update (exact ℚ)) (P2.blank (1 / 2)) [5, 6, 7, 8, 9]
    .ok (p.pos.toList, r.pos.toList, p.heights.toList == r.heights.toList)) = .ok ([0, 2, 3, 5, 6], [0, 1, 2, 3, 4], true) := by
  decide +kernel

/-- **C37** (any arithmetic), exactly when it holds for five or more observations after `clear`: if and only if no
observation before was more than the fifth after construction or an earlier `clear`. -/
theorem C37_iff_partial {F : Type} (A : Arith F) (q : F) (p p' r : P2 F) (hp : P2.new A q = .ok p)
    (ops : List (QOp F)) (vs : List F) (hr : P2.run A p ops = .ok (vs, p')) (xs : List F) (hx : 5 ≤ xs.length)
    (hu : updateAll (P2.update A) p xs = .ok r) :
    updateAll (P2.update A) p'.clear xs = .ok r ↔ beyondFive 0 ops = 0 := by
  obtain ⟨hq, h4, h0⟩ := P2.run_beyond hr
  have hc : p.historyCount = 0 := by rw [P2.new_eq_ok hp]
  rw [hc] at h4 h0
  constructor
  · intro h
    have e1 := P2.updateAll_pos h
    have e2 := P2.updateAll_pos hu
    have e3 : p'.clear.historyCount = 0 := rfl
    have e4 : p'.clear.pos = p'.pos := rfl
    rw [e3, e4] at e1
    rw [hc] at e2
    omega
  · intro h
    rw [← hu]
    match xs, hx with
    | a :: b :: c :: d :: e :: xs, _ =>
      rw [show a :: b :: c :: d :: e :: xs = [a, b, c, d, e] ++ xs from rfl, updateAll_append, updateAll_append,
        P2.five_updates A _ rfl, P2.five_updates A p hc]
      simp only [P2.clear, h0 h, hq]

/-- Ten observations with a `clear` after the fifth leave nothing behind; with a `clear` after the sixth one marker is off. -/
example : beyondFive 0 ([.update 1, .update 2, .update 3, .update 4, .update 5, .clear, .update 6, .update 7, .update 8,
      .update 9, .evaluate, .update 10] : List (QOp ℚ)) = 0 ∧
    beyondFive 0 ([.update 1, .update 2, .update 3, .update 4, .update 5, .update 6, .clear, .update 7, .update 8,
      .update 9, .evaluate, .update 10] : List (QOp ℚ)) = 1 := by
  decide

example (vs : List ℚ) (p' : P2 ℚ)
    (hr : P2.run (exact ℚ) (P2.blank (1 / 2)) [.update 1, .update 2, .update 3, .update 4, .update 5, .update 6] = .ok (vs, p')) :
    ∀ r, updateAll (P2.update (exact ℚ)) (P2.blank (1 / 2)) [1, 2, 3, 4, 5] = .ok r →
      updateAll (P2.update (exact ℚ)) p'.clear [1, 2, 3, 4, 5] ≠ .ok r := fun r hu h =>
  absurd ((C37_iff_partial (exact ℚ) (1 / 2) _ p' r (by decide +kernel) _ vs hr _ (by simp) hu).1 h) (by decide)

section Round

variable {K : Type} [Field K] [LinearOrder K] [IsStrictOrderedRing K] [FloorRing K]

/-- **C37** (any rounding), fewer than five observations after `clear`: the value has the rank of the sample quantile, but
among the observations and the heights that were stored in the remaining places before. -/
theorem C37_few_partial (R : Rounding K) (q : K) (p p1 : P2 K) (hp : P2.new R.arith q = .ok p) (ops : List (QOp K)) (vs : List K)
    (hops : ∀ x ∈ QOp.observations ops, R.rnd x = x) (hr : P2.run R.arith p ops = .ok (vs, p1))
    (xs : List K) (hne : xs ≠ []) (h5 : xs.length < 5) (hx : ∀ x ∈ xs, R.rnd x = x) :
    ∃ p2 v p3, updateAll (P2.update R.arith) p1.clear xs = .ok p2 ∧ p2.evaluate R.arith = .ok (v, p3) ∧
      IsRank (xs ++ p1.heights.toList.drop xs.length) ⌊R.rnd (((xs.length - 1 : ℕ) : K) * q) + 1 / 2⌋.toNat v := by
  obtain ⟨lo, hlo0, hlo⟩ : ∃ lo : K, lo ≤ 0 ∧ ∀ x ∈ QOp.observations ops, lo ≤ x := by
    generalize QOp.observations ops = l
    induction l with
    | nil => exact ⟨0, le_rfl, by simp⟩
    | cons a l ih =>
      obtain ⟨b, hb, hl⟩ := ih
      refine ⟨min a b, (min_le_right _ _).trans hb, fun x hx => ?_⟩
      rcases List.mem_cons.1 hx with rfl | hx
      · exact min_le_left _ _
      · exact (min_le_right _ _).trans (hl x hx)
  obtain ⟨hi, hhi0, hhi⟩ : ∃ hi : K, 0 ≤ hi ∧ ∀ x ∈ QOp.observations ops, x ≤ hi := by
    generalize QOp.observations ops = l
    induction l with
    | nil => exact ⟨0, le_rfl, by simp⟩
    | cons a l ih =>
      obtain ⟨b, hb, hl⟩ := ih
      refine ⟨max a b, hb.trans (le_max_right _ _), fun x hx => ?_⟩
      rcases List.mem_cons.1 hx with rfl | hx
      · exact le_max_left _ _
      · exact (hl x hx).trans (le_max_right _ _)
  have hh := P2.Hull.new hp hlo0 hhi0
  rcases P2.run_hull R hh ops (fun x h => ⟨hops x h, hlo x h, hhi x h⟩) with ⟨vs', p', e1, -, e3⟩ | ⟨e1, -⟩
  swap
  · rw [hr] at e1; cases e1
  rw [hr] at e1
  simp only [Res.ok.injEq, Prod.mk.injEq] at e1
  obtain ⟨-, rfl⟩ := e1
  have hlen : 0 < xs.length := List.length_pos_of_ne_nil hne
  have hs0 := P2.Since.start e3.clear rfl
  rcases P2.updateAll_ok_iff (P2.sane_round R) hs0.pos rfl xs with ⟨p2, h1, -, h3, h4, -, -⟩ | ⟨-, -, h⟩
  · have hs := hs0.updateAll hx h1
    rw [List.nil_append] at hs
    obtain ⟨v, p3, f1, -, f3, f4, f5⟩ := P2.evaluate_spec (R := R) hs.q0 hs.q1
    refine ⟨p2, v, p3, h1, f1, ?_⟩
    have f5 := f5 (by omega)
    have hq : p1.clear.quantile = q := by
      have := (P2.run_beyond hr).1
      rw [P2.new_eq_ok hp] at this
      exact this
    rw [P2.evalIndex_eq R hs.q0 (n := xs.length - 1) (by omega) (by omega), h4, hq, Five.sort_toList] at f5
    have f6 := hs.early h5
    rw [show p1.clear.heights = p1.heights from rfl] at f6
    rw [← f6]
    exact IsRank.perm (sortList_perm _ _) (isRank_of_sorted (sortList_sorted R.arith (P2.lt_decide R) _) f5)
  · omega

/-- The median of the single observation 7 after 1, …, 5 and `clear` is 2: the least of 7, 2, 3, 4, 5. -/
example : (do
    let (_, p) ← P2.run (exact ℚ) (P2.blank (1 / 2)) [.update 1, .update 2, .update 3, .update 4, .update 5, .clear, .update 7]
    let (v, _) ← p.evaluate (exact ℚ)
    .ok v) = .ok 2 := by
  decide +kernel

end Round

/-- **C102**, StreamingMean on doubles: for fixed-point data (as in C84) raising observations never lowers the mean, with any
window and for streams of any length. -/
theorem C102_fixed_point_partial (k : ℤ) (hk : -1074 ≤ k) (hk2 : k ≤ 890) (B W : ℕ) (ns ms : List ℤ) (hn : ∀ n ∈ ns, |n| ≤ B)
    (hm : ∀ m ∈ ms, |m| ≤ B) (hB : (if W = 0 then ns.length else W) * B ≤ 2 ^ 53) (hne : ns ≠ []) (hW : W ≤ 2 ^ 53)
    (hlen : ns.length ≤ 2 ^ 52) (h : Above ns ms) :
    ∃ d d' v v', updateAll (Mean.update Dbl.arith) (Mean.new Dbl.arith W) (ns.map fun (n : ℤ) => .fin ((n : ℚ) * pow2 k)) = .ok d ∧
      updateAll (Mean.update Dbl.arith) (Mean.new Dbl.arith W) (ms.map fun (n : ℤ) => .fin ((n : ℚ) * pow2 k)) = .ok d' ∧
      d.evaluate Dbl.arith = .fin v ∧ d'.evaluate Dbl.arith = .fin v' ∧ v ≤ v' := by
  have hl := h.length_eq
  obtain ⟨d, e1, e2⟩ := C84_fixed_point k hk hk2 B W ns hn hB hne hW hlen
  obtain ⟨d', e3, e4⟩ := C84_fixed_point k hk hk2 B W ms hm (by rw [← hl]; exact hB)
    (by rw [← List.length_pos_iff, ← hl]; exact List.length_pos_of_ne_nil hne) hW (by omega)
  refine ⟨d, d', _, _, e1, e3, e2, e4, rnd64_mono ?_⟩
  have ha : Above (ns.map fun (n : ℤ) => (n : ℚ) * pow2 k) (ms.map fun (n : ℤ) => (n : ℚ) * pow2 k) := by
    unfold Above at h ⊢
    rw [List.forall₂_map_left_iff, List.forall₂_map_right_iff]
    exact h.imp fun a b hab => mul_le_mul_of_nonneg_right (by exact_mod_cast hab) (pow2_pos k).le
  have hw := Above.windowOf ha W
  unfold mean
  rw [hw.length_eq]
  exact div_le_div_of_nonneg_right (Above.sum hw) (by positivity)

/-- Prices in cents would do (in units of 2^-6 here), with a window of 3. -/
example : ∃ d d' v v', updateAll (Mean.update Dbl.arith) (Mean.new Dbl.arith 3)
        ([100, 3, -7, 12, 5].map fun (n : ℤ) => .fin ((n : ℚ) * pow2 (-6))) = .ok d ∧
      updateAll (Mean.update Dbl.arith) (Mean.new Dbl.arith 3)
        ([100, 3000, -7, 12, 6].map fun (n : ℤ) => .fin ((n : ℚ) * pow2 (-6))) = .ok d' ∧
      d.evaluate Dbl.arith = .fin v ∧ d'.evaluate Dbl.arith = .fin v' ∧ v ≤ v' :=
  C102_fixed_point_partial (-6) (by norm_num) (by norm_num) 3000 3 _ _ (by decide) (by decide) (by norm_num) (by simp) (by norm_num)
    (by simp) (by simp [Above])

end KML
