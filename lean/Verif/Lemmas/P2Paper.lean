import Verif.Spec.P2Paper
import Verif.Lemmas.P2Fresh
import Mathlib.Tactic.FieldSimp
import Mathlib.Tactic.Ring
import Mathlib.Tactic.Linarith

/-!
# The P² estimator of the code against the published algorithm
-/

namespace KML

namespace P2

open Spec Spec.Paper

variable {K : Type} [Field K] [LinearOrder K] [IsStrictOrderedRing K] [FloorRing K]

/-- The markers of the estimator, with positions counted from 1. -/
def abs (p : P2 K) : Markers K where
  height := ![p.heights.x0, p.heights.x1, p.heights.x2, p.heights.x3, p.heights.x4]
  pos := ![p.pos.x0 + 1, p.pos.x1 + 1, p.pos.x2 + 1, p.pos.x3 + 1, p.pos.x4 + 1]

theorem parabolic_paper (hm hi hp : K) {nm ni np : ℤ} (h1 : nm < ni) (h2 : ni < np) (s : ℤ)
    (hs : s = 1 ∨ s = -1) :
    parabolic (exact K) hm hi hp nm ni np ((exact K).ofInt s) =
      parabola ((nm + 1 : ℤ) : K) hm ((ni + 1 : ℤ) : K) hi ((np + 1 : ℤ) : K) hp ((ni + 1 + s : ℤ) : K) := by
  have a1 : ((ni : K) - nm) ≠ 0 := by
    have : (nm : K) < ni := by exact_mod_cast h1
    intro h; linarith
  have a2 : ((np : K) - ni) ≠ 0 := by
    have : (ni : K) < np := by exact_mod_cast h2
    intro h; linarith
  have a3 : ((np : K) - nm) ≠ 0 := by
    have : (nm : K) < np := by exact_mod_cast h1.trans h2
    intro h; linarith
  simp only [parabolic, exact, parabola]
  push_cast
  have b1 : ((nm : K) + 1 - (ni + 1)) ≠ 0 := by intro h; apply a1; linarith
  have b2 : ((nm : K) + 1 - (np + 1)) ≠ 0 := by intro h; apply a3; linarith
  have b3 : ((ni : K) + 1 - (nm + 1)) ≠ 0 := by intro h; apply a1; linarith
  have b4 : ((ni : K) + 1 - (np + 1)) ≠ 0 := by intro h; apply a2; linarith
  have b5 : ((np : K) + 1 - (nm + 1)) ≠ 0 := by intro h; apply a3; linarith
  have b6 : ((np : K) + 1 - (ni + 1)) ≠ 0 := by intro h; apply a2; linarith
  generalize hA : (nm : K) = a at *
  generalize hB : (ni : K) = b at *
  generalize hC : (np : K) = c at *
  have hss : (s : K) * s = 1 := by rcases hs with rfl | rfl <;> norm_num
  field_simp
  rcases hs with rfl | rfl <;> push_cast <;> ring

theorem linear_paper (hi hd : K) {ni nd : ℤ} (s : ℤ) :
    linear (exact K) hi hd ni nd ((exact K).ofInt s) =
      line ((ni + 1 : ℤ) : K) hi ((nd + 1 : ℤ) : K) hd ((ni + 1 + s : ℤ) : K) := by
  simp only [linear, exact, line]
  push_cast
  congr 1
  rw [show ((nd : K) + 1 - (ni + 1)) = nd - ni by ring]
  congr 1
  ring

/-- `move` for a marker given by itself and its neighbours. -/
def newHeight (hm hi hp : K) (nm ni np s : ℤ) : K :=
  let t : K := (ni + s : ℤ)
  let c := parabola (nm : K) hm (ni : K) hi (np : K) hp t
  if hm < c ∧ c < hp then c
  else if s = 1 then line (ni : K) hi (np : K) hp t
  else line (ni : K) hi (nm : K) hm t

theorem adjust_paper (des hm hi hp : K) {nm ni np : ℤ} (h1 : nm < ni) (h2 : ni < np) :
    adjust (exact K) des hm hi hp nm ni np =
      if 1 ≤ des - ni ∧ ni + 1 < np then (newHeight hm hi hp (nm + 1) (ni + 1) (np + 1) 1, ni + 1)
      else if des - ni ≤ -1 ∧ nm + 1 < ni then
        (newHeight hm hi hp (nm + 1) (ni + 1) (np + 1) (-1), ni - 1)
      else (hi, ni) := by
  have e1 := parabolic_paper hm hi hp h1 h2 1 (Or.inl rfl)
  have e2 := parabolic_paper hm hi hp h1 h2 (-1) (Or.inr rfl)
  have l1 := linear_paper (K := K) hi hp (ni := ni) (nd := np) 1
  have l2 := linear_paper (K := K) hi hm (ni := ni) (nd := nm) (-1)
  have hsub : (exact K).sub des ((exact K).ofInt ni) = des - ni := rfl
  have hle : ∀ a b : K, (exact K).le a b = decide (a ≤ b) := fun _ _ => rfl
  have hlt : ∀ a b : K, (exact K).lt a b = decide (a < b) := fun _ _ => rfl
  have lit1 : (exact K).lit 1 = 1 := by simp [exact]
  have lit0 : (exact K).lit 0 = 0 := by simp [exact]
  have litm : (exact K).lit (-1) = -1 := by simp [exact]
  unfold adjust
  simp only [hsub, hle, lit1, litm]
  by_cases c1 : 1 ≤ des - ni
  · have hs : copysign (exact K) (des - ni) = 1 := by
      unfold copysign; rw [lit0, hlt, if_pos]; simpa using lt_of_lt_of_le one_pos c1
    have nc : ¬ (des - ni ≤ -1) := by intro h; linarith
    by_cases r1 : ni + 1 < np
    · have r1' : np - ni > 1 := by omega
      simp only [c1, nc, r1, r1', decide_true, Bool.true_and, Bool.true_or, ite_true, and_self, hs, e1, l1, hlt,
        newHeight, Bool.and_eq_true, decide_eq_true_eq]
    · have r1' : ¬ (np - ni > 1) := by omega
      simp [c1, nc, r1, r1']
  · by_cases c2 : des - ni ≤ -1
    · have hs : copysign (exact K) (des - ni) = -1 := by
        unfold copysign; rw [lit0, hlt, if_neg, hlt, if_pos]
        · simp only [decide_eq_true_eq]; linarith
        · simp only [decide_eq_true_eq]; linarith
      by_cases r1 : nm + 1 < ni
      · have r1' : nm + -ni < -1 := by omega
        simp only [c1, c2, r1, r1', decide_true, decide_false, Bool.false_and, Bool.true_and, Bool.false_or,
          ite_true, and_self, hs, e2, l2, hlt, newHeight, Bool.and_eq_true, decide_eq_true_eq, false_and,
          ite_false, if_neg (show ¬ ((-1 : ℤ) = 1) by decide), Int.sub_eq_add_neg]
      · have r1' : ¬ (nm - ni < -1) := by omega
        simp [c1, c2, r1, r1']
    · simp [c1, c2]

/-- The desired positions of the code are those of the paper (counted from 0). -/
def Wants (q : K) (n : ℕ) (p : P2 K) : Prop :=
  p.desired.x1 = ((n : K) - 1) * (q / 2) ∧ p.desired.x2 = ((n : K) - 1) * q ∧
    p.desired.x3 = ((n : K) - 1) * ((1 + q) / 2)

theorem adjustHeights_desired (p : P2 K) (i : ℕ) :
    (adjustHeights (exact K) p i).desired = p.desired := (adjustHeights_frame p i).2.2.2.2.2.2

omit [Field K] [LinearOrder K] [IsStrictOrderedRing K] [FloorRing K] in
theorem markers_ext {a b : Markers K} (h0 : a.height 0 = b.height 0) (h1 : a.height 1 = b.height 1)
    (h2 : a.height 2 = b.height 2) (h3 : a.height 3 = b.height 3) (h4 : a.height 4 = b.height 4)
    (n0 : a.pos 0 = b.pos 0) (n1 : a.pos 1 = b.pos 1) (n2 : a.pos 2 = b.pos 2) (n3 : a.pos 3 = b.pos 3)
    (n4 : a.pos 4 = b.pos 4) : a = b := by
  obtain ⟨ah, an⟩ := a
  obtain ⟨bh, bn⟩ := b
  congr 1 <;> funext i
  · match i with
    | 0 => exact h0
    | 1 => exact h1
    | 2 => exact h2
    | 3 => exact h3
    | 4 => exact h4
  · match i with
    | 0 => exact n0
    | 1 => exact n1
    | 2 => exact n2
    | 3 => exact n3
    | 4 => exact n4

theorem settle_paper {q : K} {n : ℕ} {p : P2 K} (hp : PosInc p.pos) (hw : Wants q n p) :
    settle q n p.abs (0, 1, 2) = (adjustHeights (exact K) p 1).abs ∧
    settle q n p.abs (1, 2, 3) = (adjustHeights (exact K) p 2).abs ∧
    settle q n p.abs (2, 3, 4) = (adjustHeights (exact K) p 3).abs := by
  obtain ⟨p0, p1, p2, p3, p4⟩ := hp
  obtain ⟨w1, w2, w3⟩ := hw
  have key : ∀ (f : K) (m i r : ℤ) (w : K), w = ((n : K) - 1) * f →
      ((1 ≤ 1 + ((n : K) - 1) * f - ((i + 1 : ℤ) : K) ↔ 1 ≤ w - i) ∧
       (1 + ((n : K) - 1) * f - ((i + 1 : ℤ) : K) ≤ -1 ↔ w - i ≤ -1) ∧
       (i + 1 + 1 < r + 1 ↔ i + 1 < r) ∧ (m + 1 + 1 < i + 1 ↔ m + 1 < i)) := by
    intro f m i r w e
    have : 1 + ((n : K) - 1) * f - ((i + 1 : ℤ) : K) = w - i := by push_cast; rw [e]; ring
    rw [this]
    refine ⟨Iff.rfl, Iff.rfl, ?_, ?_⟩ <;> omega
  refine ⟨?_, ?_, ?_⟩
  · obtain ⟨k1, k2, k3, k4⟩ := key (q / 2) p.pos.x0 p.pos.x1 p.pos.x2 _ w1
    simp only [settle, adjustHeights, adjust_paper _ _ _ _ p1 p2, Paper.desired, fraction, abs,
      Matrix.cons_val]
    simp only [k1, k2, k3, k4]
    split_ifs
    · exact markers_ext rfl rfl rfl rfl rfl rfl rfl rfl rfl rfl
    · exact markers_ext rfl rfl rfl rfl rfl rfl (by simp [move]; try ring) (by simp [move]; try ring)
        (by simp [move]; try ring) rfl
    · rfl
  · obtain ⟨k1, k2, k3, k4⟩ := key q p.pos.x1 p.pos.x2 p.pos.x3 _ w2
    simp only [settle, adjustHeights, adjust_paper _ _ _ _ p2 p3, Paper.desired, fraction, abs,
      Matrix.cons_val]
    simp only [k1, k2, k3, k4]
    split_ifs
    · exact markers_ext rfl rfl rfl rfl rfl rfl rfl rfl rfl rfl
    · exact markers_ext rfl rfl rfl rfl rfl rfl (by simp [move]; try ring) (by simp [move]; try ring)
        (by simp [move]; try ring) rfl
    · rfl
  · obtain ⟨k1, k2, k3, k4⟩ := key ((1 + q) / 2) p.pos.x2 p.pos.x3 p.pos.x4 _ w3
    simp only [settle, adjustHeights, adjust_paper _ _ _ _ p3 p4, Paper.desired, fraction, abs,
      Matrix.cons_val]
    simp only [k1, k2, k3, k4]
    split_ifs
    · exact markers_ext rfl rfl rfl rfl rfl rfl rfl rfl rfl rfl
    · exact markers_ext rfl rfl rfl rfl rfl rfl (by simp [move]; try ring) (by simp [move]; try ring)
        (by simp [move]; try ring) rfl
    · rfl

theorem observe_paper {p : P2 K} (hs : p.heights.Sorted) (x : K) :
    observe p.abs x = (start (exact K) p x).abs := by
  have hh : (findK (exact K) p.heights x).2 = _ := findK_heights Rounding.none p.heights x hs
  obtain ⟨s1, s2, s3, s4⟩ := hs
  have hlt : ∀ a b : K, (exact K).lt a b = decide (a < b) := fun _ _ => rfl
  have hk : ((findK (exact K) p.heights x).1 < 1 ↔ x < p.heights.x1) ∧
      ((findK (exact K) p.heights x).1 < 2 ↔ x < p.heights.x2) ∧
      ((findK (exact K) p.heights x).1 < 3 ↔ x < p.heights.x3) ∧
      (findK (exact K) p.heights x).1 < 4 := by
    unfold findK
    simp only [hlt, decide_eq_true_eq]
    split_ifs <;> refine ⟨?_, ?_, ?_, by simp⟩ <;> simp only [Nat.lt_irrefl, false_iff, not_lt, Nat.zero_lt_succ,
      true_iff, show ¬ (3 < 1) by decide, show ¬ (3 < 2) by decide, show ¬ (2 < 1) by decide,
      show 1 < 2 by decide, show 1 < 3 by decide, show 2 < 3 by decide] <;> linarith
  obtain ⟨k1, k2, k3, k4⟩ := hk
  unfold start
  simp only [abs, hh, bump, k1, k2, k3, k4, ite_true]
  refine markers_ext rfl rfl rfl rfl rfl rfl ?_ ?_ ?_ rfl
  · change (if x < p.heights.x1 then p.pos.x1 + 1 + 1 else p.pos.x1 + 1) =
      (if x < p.heights.x1 then p.pos.x1 + 1 else p.pos.x1) + 1
    split_ifs <;> rfl
  · change (if x < p.heights.x2 then p.pos.x2 + 1 + 1 else p.pos.x2 + 1) =
      (if x < p.heights.x2 then p.pos.x2 + 1 else p.pos.x2) + 1
    split_ifs <;> rfl
  · change (if x < p.heights.x3 then p.pos.x3 + 1 + 1 else p.pos.x3 + 1) =
      (if x < p.heights.x3 then p.pos.x3 + 1 else p.pos.x3) + 1
    split_ifs <;> rfl

/-- The order in which the code adjusts the middle markers. -/
def orderOf (q : K) : List (Fin 5 × Fin 5 × Fin 5) := if 1 / 2 ≤ q then ascending else descending

theorem step_paper {p : P2 K} (hp : PosInc p.pos) (hs : p.heights.Sorted) (x : K) :
    Paper.step (orderOf p.quantile) p.quantile (p.historyCount + 1) p.abs x = (updateLater (exact K) p x).abs := by
  have hA : Sane (exact K) := sane_round Rounding.none
  have e : (updateLater (exact K) p x).abs = (finish (exact K) (start (exact K) p x)).abs := rfl
  have hst : PosInc (start (exact K) p x).pos := bump_posInc hp (findK_le _ _)
  have hw : Wants p.quantile (p.historyCount + 1) (start (exact K) p x) := by
    have h2 : (exact K).lit 2 = 2 := by simp [exact]
    have h1 : (exact K).lit 1 = 1 := by simp [exact]
    refine ⟨?_, ?_, ?_⟩ <;> simp only [start, desiredAt, h1, h2, Arith.ofNat] <;> simp only [exact] <;> push_cast <;> ring
  have adj : ∀ {r : P2 K} (i : ℕ), PosInc r.pos → Wants p.quantile (p.historyCount + 1) r →
      PosInc (adjustHeights (exact K) r i).pos ∧
        Wants p.quantile (p.historyCount + 1) (adjustHeights (exact K) r i) := fun i h1 h2 =>
    ⟨adjustHeights_posInc hA h1 i, by unfold Wants; rw [adjustHeights_desired]; exact h2⟩
  rw [e, Paper.step, observe_paper hs]
  unfold finish orderOf
  have hc : ((exact K).le ((exact K).lit (1 / 2)) (start (exact K) p x).quantile = true) ↔
      1 / 2 ≤ p.quantile := by simp [exact, start]
  simp only [hc]
  split_ifs
  · obtain ⟨a1, b1⟩ := adj 1 hst hw
    obtain ⟨a2, b2⟩ := adj 2 a1 b1
    simp only [ascending, List.foldl_cons, List.foldl_nil]
    rw [(settle_paper hst hw).1, (settle_paper a1 b1).2.1, (settle_paper a2 b2).2.2]
  · obtain ⟨a1, b1⟩ := adj 3 hst hw
    obtain ⟨a2, b2⟩ := adj 2 a1 b1
    simp only [descending, List.foldl_cons, List.foldl_nil]
    rw [(settle_paper hst hw).2.2, (settle_paper a1 b1).2.1, (settle_paper a2 b2).1]

omit [IsStrictOrderedRing K] [FloorRing K] in
theorem steps_snoc (o : List (Fin 5 × Fin 5 × Fin 5)) (q : K) (n : ℕ) (m : Markers K) (xs : List K) (x : K) :
    steps o q n m (xs ++ [x]) = Paper.step o q (n + xs.length + 1) (steps o q n m xs) x := by
  induction xs generalizing n m with
  | nil => rfl
  | cons y ys ih =>
    simp only [List.cons_append, steps, ih, List.length_cons]
    rw [show n + 1 + ys.length + 1 = n + (ys.length + 1) + 1 by omega]

/-- The markers of the code are those of the paper, adjusted in the order of the code. -/
theorem markers_paper {q : K} {p : P2 K} (hp : P2.new (exact K) q = .ok p) (xs : List K)
    (h5 : 5 ≤ xs.length) : ∀ p', updateAll (P2.update (exact K)) p xs = .ok p' →
    p'.abs = markers (orderOf q) q xs := by
  have hA : Sane (exact K) := sane_round Rounding.none
  have e0 := new_eq_ok hp
  have hs := Since.start (R := Rounding.none) (P2.Hull.new (R := Rounding.none) hp le_rfl le_rfl) (by rw [e0])
  have hpos : PosInc p.pos := hs.pos
  have h0 : p.historyCount = 0 := by rw [e0]
  induction xs using List.reverseRecOn with
  | nil => simp at h5
  | append_singleton ys x ih =>
    intro p' hu
    rcases Nat.lt_or_ge ys.length 5 with h | h
    · have h4 : (ys ++ [x]).length = 5 := by simp at h5 ⊢; omega
      have hs1 := hs.updateAll (fun _ _ => rfl) hu
      rw [List.nil_append] at hs1
      have hh := hs1.five h4
      have hpp : p'.pos = ⟨0, 1, 2, 3, 4⟩ := by
        rcases updateAll_ok_iff hA hpos h0 (ys ++ [x]) with ⟨p1, e1, -, -, -, -, -, e7⟩ | ⟨e1, -⟩
        · rw [hu] at e1; injection e1 with e1; subst e1
          rw [e7 (by omega), e0]
        · rw [hu] at e1; cases e1
      have hsort : sortList (exact K) (ys ++ [x]) = (ys ++ [x]).insertionSort (· ≤ ·) := by
        refine List.Perm.eq_of_pairwise (le := (· ≤ ·)) (fun _ _ _ _ h1 h2 => le_antisymm h1 h2)
          (sortList_sorted _ (lt_decide Rounding.none) _) (List.pairwise_insertionSort _ _) ?_
        exact (sortList_perm _ _).trans (List.perm_insertionSort _ _).symm
      have hh' : p'.heights.toList = (ys ++ [x]).insertionSort (· ≤ ·) := hh.trans hsort
      unfold markers
      rw [List.take_of_length_le (by omega), List.drop_of_length_le (by omega)]
      simp only [steps, Paper.start, ← hh']
      refine markers_ext rfl rfl rfl rfl rfl ?_ ?_ ?_ ?_ ?_ <;> simp [abs, hpp]
    · rw [updateAll_snoc] at hu
      obtain ⟨p1, e1, hu⟩ := Res.bind_eq_ok.1 hu
      have ih := ih h p1 e1
      have hs1 := hs.updateAll (fun _ _ => rfl) e1
      rw [List.nil_append] at hs1
      have hq : p1.quantile = q := by
        rcases updateAll_ok_iff hA hpos h0 ys with ⟨p2, e2, -, -, e4, -⟩ | ⟨e2, -⟩
        · rw [e1] at e2; injection e2 with e2; subst e2; rw [e4, e0]
        · rw [e1] at e2; cases e2
      rw [update_eq hs1.pos, if_neg (by rw [hs1.count]; omega)] at hu
      split at hu
      · cases hu
      · injection hu with hu
        rw [← hu, ← step_paper hs1.pos (hs1.late h).1 x, ih, hq, hs1.count]
        unfold markers
        rw [List.take_append_of_le_length (by omega), List.drop_append_of_le_length (by omega), steps_snoc,
          List.length_drop, show 5 + (ys.length - 5) + 1 = ys.length + 1 by omega]

end P2

end KML
