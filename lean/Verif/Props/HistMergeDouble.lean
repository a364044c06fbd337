import Verif.Props.HistThreshold
import Verif.Props.TolerantDouble

/-!
# C76 on doubles: which bins a histogram merges
-/

namespace KML

open Utils

namespace Hist

variable {F : Type} {A : Arith F} {P : F → Prop}

/-- What `mergeLoop` needs of the comparison: on the gaps it is a strict order. -/
structure StrictOn (A : Arith F) (P : F → Prop) : Prop where
  irrefl : ∀ g, P g → definitelyLessThan A g g (defaultEps A) = false
  trans : ∀ a b c, P a → P b → P c → definitelyLessThan A a b (defaultEps A) = true →
    definitelyLessThan A b c (defaultEps A) = true → definitelyLessThan A a c (defaultEps A) = true

/-- The index returned by `mergeLoop` is that of a pair to which no pair is preferable, or the initial one if none was
definitely below the initial gap. -/
theorem mergeLoop_prefers (hA : StrictOn A P) (l : List (Bin F))
    (hl : ∀ m1 c d m2, l = m1 ++ c :: d :: m2 → P (A.sub d.right c.right)) (i : ℕ) (md : F) (hmd : P md) (mi : ℕ) :
    (mergeLoop A l i md mi = mi ∧ ∀ m1 c d m2, l = m1 ++ c :: d :: m2 →
      definitelyLessThan A (A.sub d.right c.right) md (defaultEps A) = false) ∨
    (∃ l1 a b l2, l = l1 ++ a :: b :: l2 ∧ mergeLoop A l i md mi = i + l1.length ∧
      definitelyLessThan A (A.sub b.right a.right) md (defaultEps A) = true ∧
      ∀ m1 c d m2, l = m1 ++ c :: d :: m2 →
        definitelyLessThan A (A.sub d.right c.right) (A.sub b.right a.right) (defaultEps A) = false) := by
  induction l generalizing i md mi with
  | nil => left; exact ⟨rfl, fun m1 c d m2 h => by simp at h⟩
  | cons a l ih =>
    cases l with
    | nil =>
      left
      refine ⟨rfl, fun m1 c d m2 h => ?_⟩
      have := congrArg List.length h
      simp at this
      omega
    | cons b l =>
      have split : ∀ (Q : F → Prop), Q (A.sub b.right a.right) →
          (∀ m1 c d m2, b :: l = m1 ++ c :: d :: m2 → Q (A.sub d.right c.right)) →
          ∀ m1 c d m2, a :: b :: l = m1 ++ c :: d :: m2 → Q (A.sub d.right c.right) := by
        intro Q h1 h2 m1 c d m2 e
        cases m1 with
        | nil =>
          simp only [List.nil_append, List.cons.injEq] at e
          obtain ⟨rfl, rfl, -⟩ := e
          exact h1
        | cons y m1 =>
          simp only [List.cons_append, List.cons.injEq] at e
          exact h2 m1 c d m2 e.2
      have hp : P (A.sub b.right a.right) := hl [] a b l rfl
      have hl' : ∀ m1 c d m2, b :: l = m1 ++ c :: d :: m2 → P (A.sub d.right c.right) := fun m1 c d m2 e =>
        hl (a :: m1) c d m2 (by rw [e]; rfl)
      unfold mergeLoop
      dsimp only
      split_ifs with hd
      · right
        rcases ih hl' (i + 1) (A.sub b.right a.right) hp i with ⟨h1, h2⟩ | ⟨l1, c, d, l2, h1, h2, h3, h4⟩
        · exact ⟨[], a, b, l, rfl, by simpa using h1, hd,
            split (fun g => definitelyLessThan A g (A.sub b.right a.right) (defaultEps A) = false) (hA.irrefl _ hp) h2⟩
        · have hp' := hl' _ _ _ _ h1
          refine ⟨a :: l1, c, d, l2, by rw [h1]; rfl, by rw [h2]; simp; omega, hA.trans _ _ _ hp' hp hmd h3 hd, ?_⟩
          refine split (fun g => definitelyLessThan A g (A.sub d.right c.right) (defaultEps A) = false) ?_ h4
          rw [Bool.eq_false_iff]
          intro h
          have := hA.trans _ _ _ hp hp' hp h h3
          rw [hA.irrefl _ hp] at this
          cases this
      · rw [Bool.not_eq_true] at hd
        rcases ih hl' (i + 1) md hmd mi with ⟨h1, h2⟩ | ⟨l1, c, d, l2, h1, h2, h3, h4⟩
        · exact Or.inl ⟨h1, split (fun g => definitelyLessThan A g md (defaultEps A) = false) hd h2⟩
        · right
          have hp' := hl' _ _ _ _ h1
          refine ⟨a :: l1, c, d, l2, by rw [h1]; rfl, by rw [h2]; simp; omega, h3, ?_⟩
          refine split (fun g => definitelyLessThan A g (A.sub d.right c.right) (defaultEps A) = false) ?_ h4
          rw [Bool.eq_false_iff]
          intro h
          rw [hA.trans _ _ _ hp hp' hmd h h3] at hd
          cases hd

theorem update_of_add' {h h1 h' : Hist F} {x : F} (ha : h.add A x = .ok h1) (hu : h.update A x = .ok h') :
    (h1.bins.length ≤ h1.numBins ∧ h' = h1) ∨
    (h1.numBins < h1.bins.length ∧ ∃ bins, mergeBins A h1.bins (mergeIndex A h1.bins) (mergeIndex A h1.bins + 1) = .ok bins ∧
      h' = { h1 with bins := bins, window := h1.window.map fun w =>
        if w = mergeIndex A h1.bins + 1 then mergeIndex A h1.bins else w }) := by
  unfold update at hu
  rw [ha, Res.ok_bind] at hu
  split at hu
  · rename_i hlt
    obtain ⟨bins, hb, hu⟩ := Res.bind_eq_ok.1 hu
    injection hu with hu
    exact Or.inr ⟨hlt, bins, hb, hu.symm⟩
  · injection hu with hu
    exact Or.inl ⟨by omega, hu.symm⟩

theorem run_edges {xs : List F} (hx : ∀ x ∈ xs, P x) {h h' : Hist F} (hl : Edges P h.bins)
    (hu : updateAll (Hist.update A) h xs = .ok h') : Edges P h'.bins := by
  induction xs generalizing h with
  | nil => simp only [updateAll] at hu; injection hu with hu; subst hu; exact hl
  | cons x xs ih =>
    simp only [updateAll] at hu
    obtain ⟨h1, e1, e2⟩ := Res.bind_eq_ok.1 hu
    obtain ⟨i, b1, b2, hs⟩ := update_step e1
    exact ih (fun y hy => hx y (by simp [hy])) (hs.edges (hx x (by simp)) hl).2 e2

theorem add_run_edges {h h1 : Hist F} {x : F} (hx : P x) (hl : Edges P h.bins) (ha : h.add A x = .ok h1) : Edges P h1.bins := by
  unfold add at ha
  obtain ⟨i, -, ha⟩ := Res.bind_eq_ok.1 ha
  obtain ⟨h2, e2, ha⟩ := Res.bind_eq_ok.1 ha
  refine decay_edges ?_ ha
  show Edges P h2.bins
  unfold place at e2
  dsimp only at e2
  have hpush : Edges P (h.bins ++ [⟨x, x, 1⟩]) := by
    intro c hc
    rcases List.mem_append.1 hc with hc | hc
    · exact hl c hc
    · simp at hc; subst hc; exact ⟨hx, hx⟩
  split at e2
  · injection e2 with e2; subst e2; exact hpush
  · split at e2
    · injection e2 with e2; subst e2; exact hpush
    · split at e2
      · cases e2
      · rename_i b hb
        have hb' := hl b (List.mem_of_getElem? hb)
        split at e2
        · injection e2 with e2; subst e2
          intro c hc
          rcases List.mem_or_eq_of_mem_set hc with hc | rfl
          · exact hl c hc
          · exact hb'
        · injection e2 with e2; subst e2
          intro c hc
          rcases List.eq_or_mem_of_mem_insertIdx hc with rfl | hc
          · exact ⟨hx, hx⟩
          · exact hl c hc

/-- An edge of a histogram of doubles up to half of the largest. -/
def HalfEdge (d : Dbl) : Prop := ∃ q : ℚ, d = .fin q ∧ rnd64 q = q ∧ |q| ≤ dblMax / 2

/-- A gap between two such edges. -/
def HalfGap (d : Dbl) : Prop := ∃ q : ℚ, d = .fin q ∧ IsDouble q

theorem strictOn_dbl : StrictOn Dbl.arith HalfGap := by
  obtain ⟨e1, -, e3, -⟩ := Dbl.eps_fin
  have e4 : defaultEps b64 ≤ 1 / 8 := by decide +kernel
  constructor
  · rintro g ⟨q, rfl, hq⟩
    rw [e1]
    exact (C105_strict_order _ e3 e4 q q q hq hq hq).2.1
  · rintro a b c ⟨p, rfl, hp⟩ ⟨q, rfl, hq⟩ ⟨r, rfl, hr⟩
    rw [e1]
    exact (C105_strict_order _ e3 e4 p q r hp hq hr).2.2

end Hist

/-- If the tolerant comparison does not find `b` greater than `a`, it exceeds `a` by little. -/
theorem near_of_not_less_default {a b : ℚ} (ha : rnd64 a = a) (hb : rnd64 b = b)
    (h : definitelyLessThan b64 a b (defaultEps b64) = false) : b - a ≤ max |a| |b| / 9998 + pow2 (-1074) := by
  have he0 : 0 ≤ defaultEps b64 := by decide +kernel
  have he : defaultEps b64 ≤ 1 / 10000 + 1 / 2 ^ 60 := by decide +kernel
  generalize defaultEps b64 = e at h he0 he
  have h' : ¬ definitelyLessThan b64 a b e = true := by rw [h]; simp
  rw [b64_eq, less_iff, not_lt] at h'
  change rnd64 (b - a) ≤ rnd64 (max |a| |b| * e) at h'
  have M0 : 0 ≤ max |a| |b| := le_max_of_le_left (abs_nonneg a)
  have hs := pow2_pos (-1074)
  rcases le_or_gt (b - a) 0 with h0 | h0
  · have : 0 ≤ max |a| |b| / 9998 := div_nonneg M0 (by norm_num)
    linarith
  · obtain ⟨m, hm⟩ := rnd64_grid ha
    obtain ⟨n, hn⟩ := rnd64_grid hb
    have r1 := (abs_le.1 (rnd64_rel_grid (x := b - a) ⟨n - m, by rw [hm, hn]; push_cast; ring⟩)).1
    rw [abs_of_pos h0] at r1
    have r2 := (abs_le.1 (rnd64_err_two (max |a| |b| * e))).2
    rw [abs_of_nonneg (mul_nonneg M0 he0)] at r2
    have h75 : pow2 (-1074) / 2 = pow2 (-1075) := by decide +kernel
    rw [← h75] at r2
    have h3 := mul_le_mul_of_nonneg_left he M0
    linarith

open Hist

/-- **C76** on doubles, partial: in a histogram of doubles up to half of the largest the pair merged is one whose gap no other
gap undercuts by more than the relative tolerance 1/9990 (and the least positive double), and without excess nothing is
merged. -/
theorem C76_double_partial (numBins W : ℕ) (xs : List ℚ) (x : ℚ) (hx : ∀ y ∈ x :: xs, rnd64 y = y ∧ |y| ≤ dblMax / 2)
    (h h1 h' : Hist Dbl) (hr : updateAll (Hist.update Dbl.arith) (Hist.new numBins W) (xs.map .fin) = .ok h)
    (ha : h.add Dbl.arith (.fin x) = .ok h1) (hu : h.update Dbl.arith (.fin x) = .ok h') :
    (h1.bins.length ≤ h1.numBins → h' = h1) ∧
    (h1.numBins < h1.bins.length → ∃ l1 a b l2, ∃ ra rb : ℚ, h1.bins = l1 ++ a :: b :: l2 ∧ a.right = .fin ra ∧ b.right = .fin rb ∧
      h'.bins = l1 ++ Bin.add Dbl.arith a b :: l2 ∧
      h'.window = h1.window.map (fun w => if w = l1.length + 1 then l1.length else w) ∧
      ∀ m1 c d m2, h1.bins = m1 ++ c :: d :: m2 → ∃ rc rd : ℚ, c.right = .fin rc ∧ d.right = .fin rd ∧
        (rb - ra) - (rd - rc) ≤ max |rd - rc| |rb - ra| / 9990 + pow2 (-1074)) := by
  have hP : ∀ y ∈ xs.map Dbl.fin, HalfEdge y := by
    intro y hy
    obtain ⟨q, hq, rfl⟩ := List.mem_map.1 hy
    exact ⟨q, rfl, hx q (by simp [hq])⟩
  have hE : Edges HalfEdge h1.bins :=
    add_run_edges ⟨x, rfl, hx x (by simp)⟩ (run_edges hP (fun b hb => by simp [Hist.new] at hb) hr) ha
  have hgap : ∀ m1 c d m2, h1.bins = m1 ++ c :: d :: m2 → ∃ rc rd : ℚ, c.right = .fin rc ∧ d.right = .fin rd ∧
      Dbl.arith.sub d.right c.right = .fin (rnd64 (rd - rc)) ∧ IsDouble (rnd64 (rd - rc)) ∧
      |rnd64 (rd - rc) - (rd - rc)| ≤ 1 / 2 ^ 53 * |rd - rc| := by
    intro m1 c d m2 e
    obtain ⟨rc, c1, c2, c3⟩ := (hE c (by rw [e]; simp)).2
    obtain ⟨rd, d1, d2, d3⟩ := (hE d (by rw [e]; simp)).2
    obtain ⟨s1, s2⟩ := Dbl.sub_fin d3 c3
    obtain ⟨m, hm⟩ := rnd64_grid c2
    obtain ⟨n, hn⟩ := rnd64_grid d2
    refine ⟨rc, rd, c1, d1, by rw [c1, d1, s1]; rfl, ⟨rnd64_idem _, s2⟩, ?_⟩
    exact rnd64_rel_grid ⟨n - m, by rw [hm, hn]; push_cast; ring⟩
  have hg : ∀ m1 c d m2, h1.bins = m1 ++ c :: d :: m2 → HalfGap (Dbl.arith.sub d.right c.right) := by
    intro m1 c d m2 e
    obtain ⟨rc, rd, -, -, e1, e2, -⟩ := hgap m1 c d m2 e
    exact ⟨_, e1, e2⟩
  have hmax : HalfGap (Dbl.arith.lit dblMax) :=
    ⟨dblMax, by rw [Dbl.max_fin.1, Dbl.max_fin.2], rnd64_dblMax, by rw [abs_of_pos dblMax_pos]⟩
  rcases update_of_add' ha hu with ⟨h2, h3⟩ | ⟨h2, bins, h3, h4⟩
  · exact ⟨fun _ => h3, fun h => by omega⟩
  · refine ⟨fun h => by omega, fun _ => ?_⟩
    rcases mergeBins_spec (A := Dbl.arith) h1.bins (mergeIndex Dbl.arith h1.bins) with ⟨-, e⟩ | ⟨l', e, hm⟩
    · rw [h3] at e; cases e
    · rw [h3] at e; injection e with e; subst e
      rcases mergeLoop_prefers strictOn_dbl h1.bins hg 0 (Dbl.arith.lit dblMax) hmax h1.bins.length with
        ⟨g1, -⟩ | ⟨l1, a, b, l2, g1, g2, -, g4⟩
      · have := hm.length.1
        rw [mergeIndex, g1] at this
        omega
      · have hi : mergeIndex Dbl.arith h1.bins = l1.length := by rw [mergeIndex, g2]; omega
        obtain ⟨ra, rb, a1, b1, s1, s2, s3⟩ := hgap _ _ _ _ g1
        rw [hi, g1] at hm
        refine ⟨l1, a, b, l2, ra, rb, g1, a1, b1, ?_, ?_, ?_⟩
        · rw [h4]
          generalize hl : l1 ++ a :: b :: l2 = l at hm
          generalize hn : l1.length = n at hm
          cases hm with
          | mk k1 k2 c d =>
            obtain ⟨rfl, e⟩ := List.append_inj hl hn
            injection e with e1 e
            injection e with e2 e3
            rw [e1, e2, e3]
        · rw [h4, hi]
        · intro m1 c d m2 e
          obtain ⟨rc, rd, c1, d1, t1, t2, t3⟩ := hgap _ _ _ _ e
          refine ⟨rc, rd, c1, d1, ?_⟩
          have hn := g4 m1 c d m2 e
          obtain ⟨e1, -, e3, e4, -⟩ := Dbl.eps_fin
          rw [t1, s1, e1, Dbl.less_fin t2.2 s2.2 e3 e4] at hn
          have hk := near_of_not_less_default t2.1 s2.1 hn
          generalize rnd64 (rd - rc) = g' at t3 hk
          generalize rnd64 (rb - ra) = g at s3 hk
          have M1 : |rd - rc| ≤ max |rd - rc| |rb - ra| := le_max_left _ _
          have M2 : |rb - ra| ≤ max |rd - rc| |rb - ra| := le_max_right _ _
          generalize max |rd - rc| |rb - ra| = M at M1 M2 ⊢
          have hM0 : 0 ≤ M := (abs_nonneg _).trans M1
          have u1 := abs_le.1 t3
          have u2 := abs_le.1 s3
          have k1 : |g'| ≤ |rd - rc| + 1 / 2 ^ 53 * |rd - rc| := by
            have := abs_sub_abs_le_abs_sub g' (rd - rc)
            linarith
          have k2 : |g| ≤ |rb - ra| + 1 / 2 ^ 53 * |rb - ra| := by
            have := abs_sub_abs_le_abs_sub g (rb - ra)
            linarith
          have k3 : max |g'| |g| ≤ M + 1 / 2 ^ 53 * M := by
            refine max_le ?_ ?_
            · linarith
            · linarith
          linarith

/-- Doubles whose gaps are rounded: of 0.1, 0.2, 0.3 and 1 the first two bins are merged, though 0.3 - 0.2 comes out smaller
than 0.2 - 0.1 by rounding. -/
example : (do
    let h ← updateAll (Hist.update Dbl.arith) (Hist.new 3 9)
      [.fin (rnd64 (1 / 10)), .fin (rnd64 (2 / 10)), .fin (rnd64 (3 / 10)), .fin 1]
    .ok (h.bins.map Bin.count)) = .ok [2, 1, 1] := by
  decide +kernel

/-- **C76** on doubles, partial: a pair that is closer than every other pair by more than the tolerance is the one merged. -/
theorem C76_closest_double_partial (numBins W : ℕ) (xs : List ℚ) (x : ℚ) (hx : ∀ y ∈ x :: xs, rnd64 y = y ∧ |y| ≤ dblMax / 2)
    (h h1 h' : Hist Dbl) (hr : updateAll (Hist.update Dbl.arith) (Hist.new numBins W) (xs.map .fin) = .ok h)
    (ha : h.add Dbl.arith (.fin x) = .ok h1) (hu : h.update Dbl.arith (.fin x) = .ok h') (hn : h1.numBins < h1.bins.length)
    (l1 l2 : List (Bin Dbl)) (a b : Bin Dbl) (ra rb : ℚ) (hs : h1.bins = l1 ++ a :: b :: l2) (hra : a.right = .fin ra)
    (hrb : b.right = .fin rb)
    (hclose : ∀ m1 c d m2, ∀ rc rd : ℚ, h1.bins = m1 ++ c :: d :: m2 → m1.length ≠ l1.length → c.right = .fin rc → d.right = .fin rd →
      max |rb - ra| |rd - rc| / 9990 + pow2 (-1074) < (rd - rc) - (rb - ra)) :
    h'.bins = l1 ++ Bin.add Dbl.arith a b :: l2 := by
  obtain ⟨m1, c, d, m2, rc, rd, e1, c1, d1, e2, -, e4⟩ := (C76_double_partial numBins W xs x hx h h1 h' hr ha hu).2 hn
  by_cases hl : m1.length = l1.length
  · rw [hs] at e1
    obtain ⟨rfl, e⟩ := List.append_inj e1 hl.symm
    injection e with e1 e
    injection e with e3 e5
    rw [e2, e1, e3, e5]
  · have g1 := hclose m1 c d m2 rc rd e1 hl c1 d1
    obtain ⟨ra', rb', a1, b1, g2⟩ := e4 l1 a b l2 hs
    rw [hra] at a1
    rw [hrb] at b1
    injection a1 with a1
    injection b1 with b1
    subst a1 b1
    linarith

/-- A histogram of two bins at 0 and 10 takes in 11: the bins at 10 and 11 are merged. -/
example : (do
    let h ← updateAll (Hist.update Dbl.arith) (Hist.new 2 9) [.fin 0, .fin 10, .fin 11]
    .ok h.bins) = .ok [⟨.fin 0, .fin 0, 1⟩, ⟨.fin 10, .fin 11, 2⟩] := by
  decide +kernel

end KML
