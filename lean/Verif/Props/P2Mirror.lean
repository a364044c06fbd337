import Verif.Props.P2Exact
import Verif.Props.Windowed
import Verif.Lemmas.P2Paper

/-! # C98: StreamingP2Quantile and negated data -/

set_option linter.unusedSectionVars false

namespace KML

open Spec

variable {K : Type} [Field K] [LinearOrder K] [IsStrictOrderedRing K] [FloorRing K]

namespace P2

theorem parabolic_mirror (hm hi hp : K) (nm ni np n : ℤ) (d : K) :
    parabolic (exact K) (-hp) (-hi) (-hm) (n - np) (n - ni) (n - nm) (-d) = -parabolic (exact K) hm hi hp nm ni np d := by
  have e1 : n - nm - (n - np) = np - nm := by ring
  have e2 : n - ni - (n - np) = np - ni := by ring
  have e3 : n - nm - (n - ni) = ni - nm := by ring
  simp only [parabolic, e1, e2, e3]
  show -hi + -d / ((np - nm : ℤ) : K) * ((((np - ni : ℤ) : K) + -d) * (-hm - -hi) / ((ni - nm : ℤ) : K) +
      (((ni - nm : ℤ) : K) - -d) * (-hi - -hp) / ((np - ni : ℤ) : K)) =
    -(hi + d / ((np - nm : ℤ) : K) * ((((ni - nm : ℤ) : K) + d) * (hp - hi) / ((np - ni : ℤ) : K) +
      (((np - ni : ℤ) : K) - d) * (hi - hm) / ((ni - nm : ℤ) : K)))
  ring

theorem linear_mirror (hi hd : K) (ni nd n : ℤ) (d : K) :
    linear (exact K) (-hi) (-hd) (n - ni) (n - nd) (-d) = -linear (exact K) hi hd ni nd d := by
  have e1 : n - nd - (n - ni) = -(nd - ni) := by ring
  simp only [linear, e1]
  show -hi + -d * (-hd - -hi) / ((-(nd - ni) : ℤ) : K) = -(hi + d * (hd - hi) / ((nd - ni : ℤ) : K))
  rw [Int.cast_neg, div_neg]
  ring

theorem copysign_mirror (x : K) : copysign (exact K) (-x) = -copysign (exact K) x := by
  unfold copysign
  show (if decide (((0 : ℚ) : K) < -x) = true then (1 : ℤ) else if decide (-x < ((0 : ℚ) : K)) = true then -1 else 0) =
    -(if decide (((0 : ℚ) : K) < x) = true then (1 : ℤ) else if decide (x < ((0 : ℚ) : K)) = true then -1 else 0)
  simp only [Rat.cast_zero, decide_eq_true_eq, Left.neg_pos_iff, Left.neg_neg_iff]
  rcases lt_trichotomy x 0 with h | h | h
  · simp [h, not_lt.2 h.le]
  · simp [h]
  · simp [h, not_lt.2 h.le]

theorem adjust_mirror (des hm hi hp : K) (nm ni np n : ℤ) :
    adjust (exact K) ((n : K) - des) (-hp) (-hi) (-hm) (n - np) (n - ni) (n - nm) =
      (-(adjust (exact K) des hm hi hp nm ni np).1, n - (adjust (exact K) des hm hi hp nm ni np).2) := by
  have hd : (exact K).sub ((n : K) - des) ((exact K).ofInt (n - ni)) = -(exact K).sub des ((exact K).ofInt ni) := by
    show (n : K) - des - ((n - ni : ℤ) : K) = -(des - (ni : K))
    push_cast; ring
  have l1 : ∀ x : K, (exact K).le ((exact K).lit 1) (-x) = (exact K).le x ((exact K).lit (-1)) := by
    intro x
    show decide (((1 : ℚ) : K) ≤ -x) = decide (x ≤ ((-1 : ℚ) : K))
    rw [decide_eq_decide]; push_cast; constructor <;> intro h <;> linarith
  have l2 : ∀ x : K, (exact K).le (-x) ((exact K).lit (-1)) = (exact K).le ((exact K).lit 1) x := by
    intro x
    show decide (-x ≤ ((-1 : ℚ) : K)) = decide (((1 : ℚ) : K) ≤ x)
    rw [decide_eq_decide]; push_cast; constructor <;> intro h <;> linarith
  have l3 : ∀ x y : K, (exact K).lt (-x) (-y) = (exact K).lt y x := by
    intro x y
    show decide (-x < -y) = decide (y < x)
    rw [decide_eq_decide]; exact neg_lt_neg_iff
  have i1 : decide (n - nm - (n - ni) > 1) = decide (nm - ni < -1) := by rw [decide_eq_decide]; omega
  have i2 : decide (n - np - (n - ni) < -1) = decide (np - ni > 1) := by rw [decide_eq_decide]; omega
  have o : ∀ s : ℤ, (exact K).ofInt (-s) = -(exact K).ofInt s := fun s => Int.cast_neg s
  unfold adjust
  simp only [hd, l1, l2, i1, i2, copysign_mirror, o, parabolic_mirror, l3]
  generalize (exact K).sub des ((exact K).ofInt ni) = dp
  have hor : ∀ a b c d : Bool, (a && b || c && d) = (c && d || a && b) := by decide
  rw [hor ((exact K).le dp ((exact K).lit (-1)))]
  split
  · have hand : ∀ a b : Bool, (a && b) = (b && a) := by decide
    rw [hand ((exact K).lt (parabolic (exact K) hm hi hp nm ni np ((exact K).ofInt (copysign (exact K) dp))) hp)]
    have hs : copysign (exact K) dp = 1 ∨ copysign (exact K) dp = -1 ∨ copysign (exact K) dp = 0 := by
      unfold copysign; split
      · simp
      · split <;> simp
    refine Prod.ext ?_ (by simp only; ring)
    simp only
    split
    · rfl
    · rcases hs with hs | hs | hs
      · simp [hs, ← linear_mirror hi hp ni np n, ← o]
      · simp [hs, ← linear_mirror hi hm ni nm n, ← o]
      · simp [hs, ← linear_mirror hi hi ni ni n, ← o]
  · rfl

/-- Reversed and negated heights. -/
def flipH (v : Five K) : Five K := ⟨-v.x4, -v.x3, -v.x2, -v.x1, -v.x0⟩

/-- Positions counted from the other end. -/
def flipN (v : Five ℤ) : Five ℤ := ⟨v.x4 - v.x4, v.x4 - v.x3, v.x4 - v.x2, v.x4 - v.x1, v.x4 - v.x0⟩

/-- `p'` is the mirror image of `p`. -/
structure Mirror (p p' : P2 K) : Prop where
  quantile : p'.quantile = 1 - p.quantile
  count : p'.historyCount = p.historyCount
  heights : p'.heights = flipH p.heights
  pos : p'.pos = flipN p.pos

/-- The mirror image together with the desired positions of the inner markers. -/
structure MirrorD (p p' : P2 K) : Prop extends Mirror p p' where
  d1 : p'.desired.x1 = (p.pos.x4 : K) - p.desired.x3
  d2 : p'.desired.x2 = (p.pos.x4 : K) - p.desired.x2
  d3 : p'.desired.x3 = (p.pos.x4 : K) - p.desired.x1

theorem MirrorD.adjust1 {p p' : P2 K} (h : MirrorD p p') :
    MirrorD (adjustHeights (exact K) p 1) (adjustHeights (exact K) p' 3) := by
  have e := adjust_mirror p.desired.x1 p.heights.x0 p.heights.x1 p.heights.x2 p.pos.x0 p.pos.x1 p.pos.x2 p.pos.x4
  simp only [adjustHeights]
  refine ⟨⟨h.quantile, h.count, ?_, ?_⟩, h.d1, h.d2, h.d3⟩ <;>
    simp only [h.heights, h.pos, h.d3, flipH, flipN, e]

theorem MirrorD.adjust2 {p p' : P2 K} (h : MirrorD p p') :
    MirrorD (adjustHeights (exact K) p 2) (adjustHeights (exact K) p' 2) := by
  have e := adjust_mirror p.desired.x2 p.heights.x1 p.heights.x2 p.heights.x3 p.pos.x1 p.pos.x2 p.pos.x3 p.pos.x4
  simp only [adjustHeights]
  refine ⟨⟨h.quantile, h.count, ?_, ?_⟩, h.d1, h.d2, h.d3⟩ <;>
    simp only [h.heights, h.pos, h.d2, flipH, flipN, e]

theorem MirrorD.adjust3 {p p' : P2 K} (h : MirrorD p p') :
    MirrorD (adjustHeights (exact K) p 3) (adjustHeights (exact K) p' 1) := by
  have e := adjust_mirror p.desired.x3 p.heights.x2 p.heights.x3 p.heights.x4 p.pos.x2 p.pos.x3 p.pos.x4 p.pos.x4
  simp only [adjustHeights]
  refine ⟨⟨h.quantile, h.count, ?_, ?_⟩, h.d1, h.d2, h.d3⟩ <;>
    simp only [h.heights, h.pos, h.d1, flipH, flipN, e]

theorem MirrorD.finish {p p' : P2 K} (h : MirrorD p p') (hq : p.quantile ≠ 1 / 2) :
    MirrorD (P2.finish (exact K) p) (P2.finish (exact K) p') := by
  have l : ∀ q : K, (exact K).le ((exact K).lit (1 / 2)) q = decide (1 / 2 ≤ q) := by
    intro q
    show decide (((1 / 2 : ℚ) : K) ≤ q) = _
    push_cast; rfl
  unfold P2.finish
  rw [l, l, h.quantile]
  rcases lt_or_gt_of_ne hq with hlt | hgt
  · have a : ¬ (1 / 2 ≤ p.quantile) := not_le.2 hlt
    have b : 1 / 2 ≤ 1 - p.quantile := by linarith
    simp only [a, b, decide_true, decide_false, if_true, Bool.false_eq_true, if_false]
    exact h.adjust3.adjust2.adjust1
  · have a : 1 / 2 ≤ p.quantile := hgt.le
    have b : ¬ (1 / 2 ≤ 1 - p.quantile) := by intro h; linarith
    simp only [a, b, decide_true, decide_false, if_true, Bool.false_eq_true, if_false]
    exact h.adjust1.adjust2.adjust3

theorem findK_mirror {h : Five K} (hs : h.Sorted) {x : K} (h1 : x ≠ h.x1) (h2 : x ≠ h.x2) (h3 : x ≠ h.x3) :
    findK (exact K) (flipH h) (-x) = (3 - (findK (exact K) h x).1, flipH (findK (exact K) h x).2) := by
  obtain ⟨s1, s2, s3, s4⟩ := hs
  have lt : ∀ a b : K, (exact K).lt a b = decide (a < b) := fun _ _ => rfl
  unfold findK flipH
  simp only [lt, neg_lt_neg_iff, decide_eq_true_eq]
  rcases lt_or_ge x h.x0 with c0 | c0
  · simp [c0, not_lt.2 c0.le, not_lt.2 (c0.le.trans s1), not_lt.2 ((c0.le.trans s1).trans s2),
      not_lt.2 (((c0.le.trans s1).trans s2).trans s3), not_lt.2 ((((c0.le.trans s1).trans s2).trans s3).trans s4)]
  rcases lt_or_gt_of_ne h1 with c1 | c1
  · have a4 : ¬ h.x4 < x := by linarith
    have a3 : ¬ h.x3 < x := by linarith
    have a2 : ¬ h.x2 < x := by linarith
    have a1 : ¬ h.x1 < x := by linarith
    rcases c0.lt_or_eq with c | c
    · simp [not_lt.2 c0, c, c1, a4, a3, a2, a1]
    · subst c; simp [c1, a4, a3, a2, a1]
  rcases lt_or_gt_of_ne h2 with c2 | c2
  · have a4 : ¬ h.x4 < x := by linarith
    have a3 : ¬ h.x3 < x := by linarith
    have a2 : ¬ h.x2 < x := by linarith
    simp [not_lt.2 c0, not_lt.2 c1.le, c1, c2, a4, a3, a2]
  rcases lt_or_gt_of_ne h3 with c3 | c3
  · have a4 : ¬ h.x4 < x := by linarith
    have a3 : ¬ h.x3 < x := by linarith
    simp [not_lt.2 c0, not_lt.2 c1.le, not_lt.2 c2.le, c2, c3, a4, a3]
  rcases lt_or_ge x h.x4 with c4 | c4
  · simp [not_lt.2 c0, not_lt.2 c1.le, not_lt.2 c2.le, not_lt.2 c3.le, c3, c4, not_lt.2 c4.le]
  · rcases c4.lt_or_eq with c | c
    · simp [not_lt.2 c0, not_lt.2 c1.le, not_lt.2 c2.le, not_lt.2 c3.le, c, not_lt.2 c4]
    · subst c; simp [not_lt.2 c0, not_lt.2 c1.le, not_lt.2 c2.le, not_lt.2 c3.le, c3]

theorem bump_mirror (v : Five ℤ) {k : ℕ} (hk : k < 4) : bump (flipN v) (3 - k) = flipN (bump v k) := by
  interval_cases k <;> simp [bump, flipN] <;> ring_nf <;> simp

theorem desiredAt_exact (d q : K) (n : ℕ) :
    desiredAt (exact K) d q n = ⟨d, n * q / 2, n * q, n * (1 + q) / 2, n⟩ := by
  simp [desiredAt, exact, Arith.ofNat]

theorem Mirror.start {p p' : P2 K} (h : Mirror p p') (hs : p.heights.Sorted) (hn : p.pos.x4 + 1 = p.historyCount)
    {x : K} (h1 : x ≠ p.heights.x1) (h2 : x ≠ p.heights.x2) (h3 : x ≠ p.heights.x3) :
    MirrorD (P2.start (exact K) p x) (P2.start (exact K) p' (-x)) := by
  have hk : (findK (exact K) p.heights x).1 < 4 := by have := findK_le (A := exact K) p.heights x; omega
  have fk := findK_mirror hs h1 h2 h3
  have hx4 : ((bump p.pos (findK (exact K) p.heights x).1).x4 : K) = (p.historyCount : K) := by
    simp only [bump, hk, if_true, hn]; push_cast; rfl
  unfold P2.start
  rw [h.heights, h.pos, h.count, h.quantile, fk]
  refine ⟨⟨rfl, rfl, rfl, bump_mirror _ hk⟩, ?_, ?_, ?_⟩
  · show _ = ((bump p.pos (findK (exact K) p.heights x).1).x4 : K) - _
    rw [hx4, desiredAt_exact, desiredAt_exact]; ring
  · show _ = ((bump p.pos (findK (exact K) p.heights x).1).x4 : K) - _
    rw [hx4, desiredAt_exact, desiredAt_exact]; ring
  · show _ = ((bump p.pos (findK (exact K) p.heights x).1).x4 : K) - _
    rw [hx4, desiredAt_exact, desiredAt_exact]; ring

theorem Mirror.updateLater {p p' : P2 K} (h : Mirror p p') (hs : p.heights.Sorted)
    (hn : p.pos.x4 + 1 = p.historyCount) (hq : p.quantile ≠ 1 / 2)
    {x : K} (h1 : x ≠ p.heights.x1) (h2 : x ≠ p.heights.x2) (h3 : x ≠ p.heights.x3) :
    Mirror (P2.updateLater (exact K) p x) (P2.updateLater (exact K) p' (-x)) := by
  have := ((h.start hs hn h1 h2 h3).finish hq).toMirror
  rw [updateLater_eq, updateLater_eq]
  exact ⟨this.quantile, by simp only [this.count], this.heights, this.pos⟩

/-- Sorting the negated values reverses the order. -/
theorem sortList_neg (l : List K) :
    sortList (exact K) (l.map fun x => -x) = ((sortList (exact K) l).map fun x => -x).reverse := by
  refine List.Perm.eq_of_pairwise (le := (· ≤ ·)) (fun _ _ _ _ h1 h2 => le_antisymm h1 h2)
    (sortList_sorted _ (lt_decide Rounding.none) _) ?_ ?_
  · rw [List.pairwise_reverse, List.pairwise_map]
    exact (sortList_sorted _ (lt_decide Rounding.none) l).imp fun h => neg_le_neg h
  · exact (sortList_perm _ _).trans (((sortList_perm _ _).symm.map _).trans (List.reverse_perm _).symm)

end P2

namespace Spec.Paper

/-- No observation after the fifth equals the height of an inner marker at that time (the markers being
those of the paper, adjusted in the order of the code). -/
def Untied (q : K) (xs : List K) : Prop :=
  ∀ n < xs.length, 5 ≤ n → ∀ i ∈ [1, 2, 3],
    xs[n]? ≠ some ((markers (if 1 / 2 ≤ q then ascending else descending) q (xs.take n)).height i)

instance (q : ℚ) (xs : List ℚ) : Decidable (Untied q xs) :=
  decidable_of_iff (∀ n ∈ List.range xs.length, 5 ≤ n → ∀ i ∈ ([1, 2, 3] : List (Fin 5)),
    ¬ (xs[n]? = some ((markers (if 1 / 2 ≤ q then ascending else descending) q (xs.take n)).height i)))
    (by simp only [List.mem_range]; rfl)

theorem Untied.init {q : K} {xs : List K} {x : K} (h : Untied q (xs ++ [x])) : Untied q xs := by
  intro n hn h5 i hi
  have := h n (by simp; omega) h5 i hi
  rwa [List.getElem?_append_left hn, List.take_append_of_le_length hn.le] at this

theorem Untied.last {q : K} {xs : List K} {x : K} (h : Untied q (xs ++ [x])) (h5 : 5 ≤ xs.length) :
    ∀ i ∈ [1, 2, 3], x ≠ (markers (if 1 / 2 ≤ q then ascending else descending) q xs).height i := by
  intro i hi
  have := h xs.length (by simp) h5 i hi
  simpa using this

end Spec.Paper

open Spec.Paper

namespace P2

theorem mirror_run {q : K} (hq : q ≠ 1 / 2) {p p' : P2 K} (hp : P2.new (exact K) q = .ok p)
    (hp' : P2.new (exact K) (1 - q) = .ok p') (xs : List K) (h5 : 5 ≤ xs.length) (hu : Untied q xs) :
    (∃ r r', updateAll (P2.update (exact K)) p xs = .ok r ∧
      updateAll (P2.update (exact K)) p' (xs.map fun x => -x) = .ok r' ∧ Mirror r r') ∨
    (updateAll (P2.update (exact K)) p xs = .ub .intOverflow ∧
      updateAll (P2.update (exact K)) p' (xs.map fun x => -x) = .ub .intOverflow) := by
  have hA : Sane (exact K) := sane_round Rounding.none
  have e0 := new_eq_ok hp
  have e0' := new_eq_ok hp'
  have hs := Since.start (R := Rounding.none) (P2.Hull.new (R := Rounding.none) hp le_rfl le_rfl) (by rw [e0])
  have hs' := Since.start (R := Rounding.none) (P2.Hull.new (R := Rounding.none) hp' le_rfl le_rfl) (by rw [e0'])
  have h0 : p.historyCount = 0 := by rw [e0]
  have h0' : p'.historyCount = 0 := by rw [e0']
  have hpp : p.pos = p'.pos := by rw [e0, e0']
  have hp4 : p.pos.x4 = 4 := by rw [e0]
  induction xs using List.reverseRecOn with
  | nil => simp at h5
  | append_singleton xs x ih =>
    rcases updateAll_ok_iff hA hs.pos h0 (xs ++ [x]) with ⟨r, r1, r2, r3, r4, r5, r6, r7⟩ | ⟨r1, r2, r3⟩
    · rcases updateAll_ok_iff hA hs'.pos h0' ((xs ++ [x]).map fun x => -x) with
        ⟨r', u1, u2, u3, u4, u5, u6, u7⟩ | ⟨u1, u2, u3⟩
      · left
        refine ⟨r, r', r1, u1, ?_⟩
        have hsr := hs.updateAll (fun _ _ => rfl) r1
        have hsr' := hs'.updateAll (fun _ _ => rfl) u1
        rw [List.nil_append] at hsr hsr'
        by_cases h : (xs ++ [x]).length = 5
        · refine ⟨?_, ?_, ?_, ?_⟩
          · rw [u4, r4, e0, e0']
          · rw [u3, r3, List.length_map]
          · apply Five.toList_inj
            rw [hsr'.five (by rw [List.length_map, h])]
            have := hsr.five h
            rw [← exact_eq_none] at this ⊢
            rw [sortList_neg, ← this]
            simp [Five.toList, flipH]
          · rw [u7 (by rw [List.length_map, h]), r7 h.le, e0, e0']
            simp [flipN]
        · have h5' : 5 ≤ xs.length := by
            simp only [List.length_append, List.length_singleton] at h h5; omega
          have ih := ih h5' hu.init
          rw [List.map_append, List.map_singleton] at u1
          rw [updateAll_snoc] at r1 u1
          obtain ⟨a, a1, a2⟩ := Res.bind_eq_ok.1 r1
          obtain ⟨b, b1, b2⟩ := Res.bind_eq_ok.1 u1
          rcases ih with ⟨a', b', c1, c2, hm⟩ | ⟨c1, -⟩
          · have e1 : a = a' := by simpa using a1.symm.trans c1
            have e2 : b = b' := by simpa using b1.symm.trans c2
            subst e1 e2
            have hsa := hs.updateAll (fun _ _ => rfl) a1
            have hsb := hs'.updateAll (fun _ _ => rfl) b1
            rw [List.nil_append] at hsa hsb
            have hmk := markers_paper hp xs h5' a a1
            have hx4 : a.pos.x4 + 1 = a.historyCount ∧ a.quantile = q := by
              rcases updateAll_ok_iff hA hs.pos h0 xs with ⟨a'', w1, -, w3, w4, w5, -⟩ | ⟨w1, -⟩
              · have : a = a'' := by simpa using a1.symm.trans w1
                subst this
                rw [w3, w5, hp4, w4, e0]
                exact ⟨by omega, rfl⟩
              · cases a1.symm.trans w1
            have hne := hu.last h5'
            rw [show (if 1 / 2 ≤ q then ascending else descending) = orderOf q from rfl, ← hmk] at hne
            rw [update_eq hsa.pos, if_neg (by rw [hsa.count]; omega)] at a2
            rw [update_eq hsb.pos, if_neg (by rw [hsb.count, List.length_map]; omega)] at b2
            split at a2
            · cases a2
            · split at b2
              · cases b2
              · injection a2 with a2
                injection b2 with b2
                rw [← a2, ← b2]
                exact hm.updateLater (hsa.late h5').1 hx4.1 (by rw [hx4.2]; exact hq)
                  (hne 1 (by simp)) (hne 2 (by simp)) (hne 3 (by simp))
          · cases a1.symm.trans c1
      · exfalso
        rw [List.length_map] at u2 u3
        rw [← hpp] at u2
        omega
    · right
      refine ⟨r1, ?_⟩
      rcases updateAll_ok_iff hA hs'.pos h0' ((xs ++ [x]).map fun x => -x) with
        ⟨r', u1, u2, u3, u4, u5, u6, u7⟩ | ⟨u1, -⟩
      · exfalso
        rw [List.length_map] at u5 u6
        rw [← hpp] at u5
        omega
      · exact u1

end P2

/-- The full property: the estimate of the negated observations at the level 1 - q is the negated estimate
at the level q, once there are at least five observations. It is false of the code. -/
def C98_full : Prop := ∀ (q : ℚ) (p p' : P2 ℚ), P2.new (exact ℚ) q = .ok p → P2.new (exact ℚ) (1 - q) = .ok p' →
  ∀ xs : List ℚ, 5 ≤ xs.length →
  P2.valueAfter (exact ℚ) p' (xs.map fun x => -x) = (P2.valueAfter (exact ℚ) p xs).mapOk fun v => -v

/-- **C98** is violated: the median of seven different numbers is reported as 19/3, that of the negated ones
as -8. -/
theorem C98_violated : ¬ C98_full := by
  intro h
  have h1 := h (1 / 2) (P2.blank (1 / 2)) (P2.blank (1 / 2)) (by decide +kernel) (by decide +kernel)
    [0, 8, 9, 10, 6, 3, 4] (by simp)
  revert h1
  decide +kernel

/-- The two reports. -/
example : P2.valueAfter (exact ℚ) (P2.blank (1 / 2)) [0, 8, 9, 10, 6, 3, 4] = .ok (19 / 3) ∧
    P2.valueAfter (exact ℚ) (P2.blank (1 / 2)) [0, -8, -9, -10, -6, -3, -4] = .ok (-8) := by
  decide +kernel

/-- Away from the median it fails when an observation equals a marker: the lower quartile of 3, 3, 3, 1, 0, 3
is reported as 3, the upper quartile of the negated observations as -7/3. -/
theorem C98_violated_tie : P2.valueAfter (exact ℚ) (P2.blank (1 / 4)) [3, 3, 3, 1, 0, 3] = .ok 3 ∧
    P2.valueAfter (exact ℚ) (P2.blank (3 / 4)) [-3, -3, -3, -1, 0, -3] = .ok (-(7 / 3)) := by
  decide +kernel

/-- With exactly five observations it fails when 4q lies midway between two integers. -/
theorem C98_violated_five : P2.valueAfter (exact ℚ) (P2.blank (1 / 8)) [1, 2, 3, 4, 5] = .ok 2 ∧
    P2.valueAfter (exact ℚ) (P2.blank (7 / 8)) [-1, -2, -3, -4, -5] = .ok (-1) := by
  decide +kernel

/-- **C98**, the part that holds (exact arithmetic): after more than five observations the two estimates are
mirror images if the level is not 1/2 and no observation after the fifth equals the height of an inner
marker. Missing: the median, ties with a marker, and (see `C98_five_partial`) exactly five observations. -/
theorem C98_mirror_partial (q : K) (hq : q ≠ 1 / 2) (p p' : P2 K) (hp : P2.new (exact K) q = .ok p)
    (hp' : P2.new (exact K) (1 - q) = .ok p') (xs : List K) (h6 : 6 ≤ xs.length) (hu : Untied q xs) :
    P2.valueAfter (exact K) p' (xs.map fun x => -x) = (P2.valueAfter (exact K) p xs).mapOk fun v => -v := by
  rcases P2.mirror_run hq hp hp' xs (by omega) hu with ⟨r, r', h1, h2, hm⟩ | ⟨h1, h2⟩
  · have hc : r.historyCount = xs.length := by
      rcases P2.updateAll_ok_iff (P2.sane_round Rounding.none)
        (P2.Since.start (R := Rounding.none) (P2.Hull.new (R := Rounding.none) hp le_rfl le_rfl)
          (by rw [P2.new_eq_ok hp])).pos (by rw [P2.new_eq_ok hp]) xs with ⟨a, a1, -, a3, -⟩ | ⟨a1, -⟩
      · have : r = a := by simpa using h1.symm.trans a1
        rw [this, a3]
      · cases h1.symm.trans a1
    unfold P2.valueAfter
    rw [h1, h2, Res.ok_bind, Res.ok_bind, P2.evaluate, P2.evaluate, if_neg (by rw [hm.count, hc]; omega),
      if_neg (by rw [hc]; omega), hm.heights]
    rfl
  · unfold P2.valueAfter
    rw [h1, h2]
    rfl

/-- Eight observations without ties at the lower quartile. -/
example : Untied (1 / 4 : ℚ) [3, 1, 4, 15, 9, 2, 6, 5] ∧
    P2.valueAfter (exact ℚ) (P2.blank (1 / 4)) [3, 1, 4, 15, 9, 2, 6, 5] = .ok (26 / 9) := by
  decide +kernel

theorem IsRank.neg {l : List K} {k : ℕ} {v : K} (h : IsRank l k v) :
    IsRank (l.map fun x => -x) (l.length - 1 - k) (-v) := by
  obtain ⟨h1, h2, h3⟩ := h
  have e1 := List.length_eq_length_filter_add (l := l) (fun x => decide (x < v))
  have e2 := List.length_eq_length_filter_add (l := l) (fun x => decide (x ≤ v))
  simp only [← decide_not, not_lt, not_le] at e1 e2
  refine ⟨List.mem_map.2 ⟨v, h1, rfl⟩, ?_, ?_⟩
  · rw [List.filter_map, List.length_map]
    simp only [Function.comp_def, neg_lt_neg_iff]
    omega
  · rw [List.filter_map, List.length_map]
    simp only [Function.comp_def, neg_le_neg_iff]
    omega

/-- **C98** with exactly five observations: the estimates are mirror images if 4q is not midway between two
integers. -/
theorem C98_five_partial (q : K) (h4 : ∀ n : ℤ, 4 * q + 1 / 2 ≠ n) (p p' : P2 K) (hp : P2.new (exact K) q = .ok p)
    (hp' : P2.new (exact K) (1 - q) = .ok p') (xs : List K) (h5 : xs.length = 5) :
    P2.valueAfter (exact K) p' (xs.map fun x => -x) = (P2.valueAfter (exact K) p xs).mapOk fun v => -v := by
  obtain ⟨r, v, h1, h2, h3⟩ := C31_five Rounding.none q rfl p hp xs h5 (fun _ _ => rfl)
  obtain ⟨r', v', u1, u2, u3⟩ := C31_five Rounding.none (1 - q) rfl p' hp' (xs.map fun x => -x) (by simp [h5])
    (fun _ _ => rfl)
  rw [← exact_eq_none] at h1 h2 u1 u2
  unfold P2.valueAfter
  rw [h1, u1, Res.ok_bind, Res.ok_bind, h2, u2]
  have q0 : 0 < q ∧ q < 1 := by
    have := (P2.Since.start (R := Rounding.none) (P2.Hull.new (R := Rounding.none) hp le_rfl le_rfl)
      (by rw [P2.new_eq_ok hp]))
    have e : p.quantile = q := by rw [P2.new_eq_ok hp]
    exact ⟨e ▸ this.q0, e ▸ this.q1⟩
  have f1 := Int.floor_le (4 * q + 1 / 2)
  have f2 := Int.lt_floor_add_one (4 * q + 1 / 2)
  have f3 := h4 ⌊4 * q + 1 / 2⌋
  have f0 : 0 ≤ ⌊4 * q + 1 / 2⌋ := Int.floor_nonneg.2 (by linarith [q0.1])
  have f4 : ⌊4 * q + 1 / 2⌋ < 5 := Int.floor_lt.2 (by push_cast; linarith [q0.2])
  have f5 : ⌊4 * (1 - q) + 1 / 2⌋ = 4 - ⌊4 * q + 1 / 2⌋ := by
    have := lt_of_le_of_ne f1 (Ne.symm f3)
    rw [Int.floor_eq_iff]
    push_cast
    constructor <;> linarith
  have hr := IsRank.neg h3
  rw [h5] at hr
  rw [f5, show (4 - ⌊4 * q + 1 / 2⌋).toNat = 5 - 1 - ⌊4 * q + 1 / 2⌋.toNat by omega] at u3
  rw [IsRank.unique u3 hr]
  rfl

/-- The quartile of five observations. -/
example : (∀ n : ℤ, 4 * (1 / 4 : ℚ) + 1 / 2 ≠ n) ∧
    P2.valueAfter (exact ℚ) (P2.blank (1 / 4)) [3, 1, 4, 15, 9] = .ok 3 := by
  refine ⟨fun n h => ?_, by decide +kernel⟩
  have h2 : ((2 * n : ℤ) : ℚ) = ((3 : ℤ) : ℚ) := by push_cast; linarith
  have := Int.cast_injective h2
  omega

/-! ### StreamingIQR of negated data -/

namespace IQR

/-- While the window is not full the two estimators see the whole stream. -/
theorem updateAll_short {F : Type} (A : Arith F) (W : ℕ) {p p' r r' : P2 F} (pv : F) (n m : ℕ) (xs : List F)
    (h : n + xs.length ≤ W) (h1 : updateAll (P2.update A) p xs = .ok r)
    (h2 : updateAll (P2.update A) p' xs = .ok r') :
    updateAll (IQR.update A) (⟨⟨W, n, p, pv⟩, ⟨W, n, p', pv⟩, m⟩ : IQR F) xs =
      .ok ⟨⟨W, n + xs.length, r, pv⟩, ⟨W, n + xs.length, r', pv⟩, m + xs.length⟩ := by
  induction xs generalizing n m p p' with
  | nil =>
    simp only [updateAll, Res.ok.injEq] at h1 h2 ⊢
    subst h1 h2; rfl
  | cons x xs ih =>
    simp only [updateAll, List.length_cons] at h h1 h2 ⊢
    obtain ⟨a, a1, a2⟩ := Res.bind_eq_ok.1 h1
    obtain ⟨b, b1, b2⟩ := Res.bind_eq_ok.1 h2
    have hm : ¬ (n + 1) % (W + 1) = 0 := by rw [Nat.mod_eq_of_lt (by omega)]; omega
    have hW : W > 0 := by omega
    have e : IQR.update A (⟨⟨W, n, p, pv⟩, ⟨W, n, p', pv⟩, m⟩ : IQR F) x =
        .ok ⟨⟨W, n + 1, a, pv⟩, ⟨W, n + 1, b, pv⟩, m + 1⟩ := by
      simp only [IQR.update, WP2.update, a1, b1, Res.ok_bind, hW, hm, if_true, if_false]
    rw [e, Res.ok_bind, ih _ _ (by omega) a2 b2]
    simp only [Nat.add_assoc, Nat.add_comm 1]

/-- Until the window is full the range is the difference of the two quantiles of the stream. -/
theorem valueAfter_short {F : Type} (A : Arith F) {low high : F} {W : ℕ} {i : IQR F} {p p' : P2 F}
    (hi : IQR.new A low high W = .ok i) (hp : P2.new A low = .ok p) (hp' : P2.new A high = .ok p') {xs : List F}
    (h : xs.length < W) {l u : F} (hl : p.valueAfter A xs = .ok l) (hu : p'.valueAfter A xs = .ok u) :
    i.valueAfter A xs = .ok (A.sub u l) := by
  obtain ⟨h1, h2, h3⟩ := IQR.new_eq_ok.1 hi
  obtain ⟨a, a1, a2⟩ := WP2.new_eq_ok h1
  obtain ⟨b, b1, b2⟩ := WP2.new_eq_ok h2
  rw [hp] at a1; rw [hp'] at b1
  injection a1 with a1; injection b1 with b1
  subst a1 b1
  have ei : i = ⟨⟨W, 0, p, A.lit 0⟩, ⟨W, 0, p', A.lit 0⟩, 0⟩ := by rw [← a2, ← b2, ← h3]
  unfold P2.valueAfter at hl hu
  obtain ⟨r, r1, hl⟩ := Res.bind_eq_ok.1 hl
  obtain ⟨r', r1', hu⟩ := Res.bind_eq_ok.1 hu
  obtain ⟨⟨l', s⟩, s1, hl⟩ := Res.bind_eq_ok.1 hl
  obtain ⟨⟨u', s'⟩, s1', hu⟩ := Res.bind_eq_ok.1 hu
  simp only [Res.ok.injEq] at hl hu
  subst hl hu
  unfold IQR.valueAfter
  rw [ei, updateAll_short A W (A.lit 0) 0 0 xs (by omega) r1 r1', Res.ok_bind]
  simp only [Nat.zero_add, IQR.evaluate, WP2.evaluate, h, if_true, s1, s1', Res.ok_bind]

end IQR

/-- **C98** for the interquartile range (exact arithmetic): while the window is not full, the range between
the levels q and 1 - q of the negated observations is that of the observations, under the hypotheses of
`C98_mirror_partial` for both levels. -/
theorem C98_iqr_partial (q : K) (hq : q ≠ 1 / 2) (W : ℕ) (i : IQR K) (hi : IQR.new (exact K) q (1 - q) W = .ok i)
    (xs : List K) (h6 : 6 ≤ xs.length) (hW : xs.length < W) (hmax : xs.length ≤ 2 ^ 31)
    (hu : Untied q xs) (hu' : Untied (1 - q) xs) :
    ∃ v, i.valueAfter (exact K) xs = .ok v ∧ i.valueAfter (exact K) (xs.map fun x => -x) = .ok v := by
  obtain ⟨h1, h2, h3⟩ := IQR.new_eq_ok.1 hi
  obtain ⟨p, hp, -⟩ := WP2.new_eq_ok h1
  obtain ⟨p', hp', -⟩ := WP2.new_eq_ok h2
  have hq1 : 1 - q ≠ 1 / 2 := fun h => hq (by linarith)
  have m1 := C98_mirror_partial q hq p p' hp hp' xs h6 hu
  have m2 := C98_mirror_partial (1 - q) hq1 p' p hp' (by rw [sub_sub_cancel]; exact hp) xs h6 hu'
  have ok : ∀ {q : K} {p : P2 K}, P2.new (exact K) q = .ok p → ∃ v, p.valueAfter (exact K) xs = .ok v := by
    intro q p hp
    have hs := P2.Since.start (R := Rounding.none) (P2.Hull.new (R := Rounding.none) hp le_rfl le_rfl)
      (by rw [P2.new_eq_ok hp])
    have h4 : p.pos.x4 = 4 := by rw [P2.new_eq_ok hp]
    rcases P2.updateAll_ok_iff (P2.sane_round Rounding.none) hs.pos (by rw [P2.new_eq_ok hp]) xs with
      ⟨a, a1, -, a3, -⟩ | ⟨-, a2, -⟩
    · refine ⟨a.heights.x2, ?_⟩
      unfold P2.valueAfter
      rw [exact_eq_none, a1, Res.ok_bind, P2.evaluate, if_neg (by rw [a3]; omega)]
      rfl
    · rw [h4] at a2; unfold P2.intMax at a2; omega
  obtain ⟨l, hl⟩ := ok hp
  obtain ⟨u, hu⟩ := ok hp'
  rw [hl] at m1; rw [hu] at m2
  refine ⟨u - l, IQR.valueAfter_short (exact K) hi hp hp' hW hl hu, ?_⟩
  have := IQR.valueAfter_short (exact K) hi hp hp' (xs := xs.map fun x => -x) (by simpa using hW) m2 m1
  rw [this]
  show Res.ok (-l - -u) = _
  rw [neg_sub_neg]

/-- Eight observations without ties at either quartile: the range is 6 - 26/9 both ways. -/
example : Untied (1 / 4 : ℚ) [3, 1, 4, 15, 9, 2, 6, 5] ∧ Untied (1 - 1 / 4 : ℚ) [3, 1, 4, 15, 9, 2, 6, 5] ∧ (do
    let i ← IQR.newDefault (exact ℚ) 20
    i.valueAfter (exact ℚ) ([3, 1, 4, 15, 9, 2, 6, 5].map fun x => -x)) = .ok (28 / 9) := by
  decide +kernel

/-- **C98** is violated on doubles: the median of the seven numbers above. -/
theorem C98_violated_dbl : (do
      let p ← P2.new Dbl.arith (.fin (1 / 2))
      p.valueAfter Dbl.arith ([0, 8, 9, 10, 6, 3, 4].map Dbl.fin)) ≠ .ok (.fin 8) ∧ (do
      let p ← P2.new Dbl.arith (.fin (1 / 2))
      p.valueAfter Dbl.arith ([0, -8, -9, -10, -6, -3, -4].map Dbl.fin)) = .ok (.fin (-8)) := by
  decide +kernel

end KML
