import Verif.Props.P2
import Verif.Props.DoubleMean

/-!
# C139: infinite observations of StreamingP2Quantile
-/

namespace KML

open Spec

/-- **C139**, the full claim: one infinite observation after the first five does not make the estimate infinite or NaN, if all
other observations are doubles of magnitude up to 2^950. -/
def C139_full : Prop :=
  ∀ (q : ℚ) (p p' p'' : P2 Dbl) (v : Dbl) (neg : Bool) (xs ys : List ℚ), P2.new Dbl.arith (.fin q) = .ok p →
    (∀ x ∈ xs ++ ys, IsModerate x) → 5 ≤ xs.length →
    updateAll (P2.update Dbl.arith) p (xs.map .fin ++ .inf neg :: ys.map .fin) = .ok p' →
    p'.evaluate Dbl.arith = .ok (v, p'') → ∃ r, v = .fin r

/-- **C139** is violated: the median of 1, 2, 3, 4, 5, `+∞`, 6, 7 is estimated as `+∞`. -/
theorem C139_violated : ¬ C139_full := by
  intro h
  obtain ⟨r, hr⟩ := h (1 / 2) ⟨.fin (1 / 2), ⟨.fin 0, .fin 0, .fin 0, .fin 0, .fin 0⟩, ⟨0, 1, 2, 3, 4⟩,
      ⟨.fin 0, .fin 0, .fin 0, .fin 0, .fin 0⟩, 0⟩
    ⟨.fin (1 / 2), ⟨.fin 0, .fin (7 / 4), .fin (7 / 2), .fin (21 / 4), .fin 7⟩, ⟨0, 1, 3, 5, 7⟩,
      ⟨.fin 1, .fin 2, .inf false, .inf false, .inf false⟩, 8⟩
    ⟨.fin (1 / 2), ⟨.fin 0, .fin (7 / 4), .fin (7 / 2), .fin (21 / 4), .fin 7⟩, ⟨0, 1, 3, 5, 7⟩,
      ⟨.fin 1, .fin 2, .inf false, .inf false, .inf false⟩, 8⟩ (.inf false) false [1, 2, 3, 4, 5] [6, 7]
    (by decide +kernel) (by unfold IsModerate; decide +kernel) (by simp) (by decide +kernel) (by decide +kernel)
  cases hr

namespace Dbl

theorem NonFinite.mul_left {d : Dbl} (h : NonFinite d) (e : Dbl) : NonFinite (Dbl.arith.mul d e) := by
  rcases h.cases with rfl | ⟨s, rfl⟩
  · exact nonFinite_nan
  · rcases e with _ | t | q
    · exact nonFinite_nan
    · exact nonFinite_inf _
    · show NonFinite (if _ then _ else _)
      split
      · exact nonFinite_nan
      · exact nonFinite_inf _

theorem NonFinite.mul_right {e : Dbl} (h : NonFinite e) (d : Dbl) : NonFinite (Dbl.arith.mul d e) := by
  rcases h.cases with rfl | ⟨s, rfl⟩
  · cases d <;> exact nonFinite_nan
  · rcases d with _ | t | q
    · exact nonFinite_nan
    · exact nonFinite_inf _
    · show NonFinite (if _ then _ else _)
      split
      · exact nonFinite_nan
      · exact nonFinite_inf _

theorem NonFinite.div_left {d : Dbl} (h : NonFinite d) (e : Dbl) : NonFinite (Dbl.arith.div d e) := by
  rcases h.cases with rfl | ⟨s, rfl⟩
  · exact nonFinite_nan
  · rcases e with _ | t | q
    · exact nonFinite_nan
    · exact nonFinite_nan
    · exact nonFinite_inf _

end Dbl

namespace P2

open Dbl

theorem nonFinite_parabolic {hm hi hp : Dbl} (h : hm.NonFinite ∨ hi.NonFinite ∨ hp.NonFinite) (nm ni np : ℤ) (d : Dbl) :
    (parabolic Dbl.arith hm hi hp nm ni np d).NonFinite := by
  unfold parabolic
  rcases h with h | h | h
  · exact .add_right (.mul_right (.add_right (.div_left (.mul_right (.sub_right h _) _) _) _) _) _
  · exact .add_left h _
  · exact .add_right (.mul_right (.add_left (.div_left (.mul_right (.sub_left h _) _) _) _) _) _

theorem nonFinite_linear {hi hd : Dbl} (h : hi.NonFinite ∨ hd.NonFinite) (ni nd : ℤ) (d : Dbl) :
    (linear Dbl.arith hi hd ni nd d).NonFinite := by
  unfold linear
  rcases h with h | h
  · exact .add_left h _
  · exact .add_right (.div_left (.mul_right (.sub_left h _) _) _) _

/-- A marker that is infinite or NaN stays so, and a marker that moves towards such a one becomes so. -/
theorem nonFinite_adjust {des hm hi hp : Dbl} {nm ni np : ℤ}
    (h : hi.NonFinite ∨ (hp.NonFinite ∧ (adjust Dbl.arith des hm hi hp nm ni np).2 = ni + 1) ∨
      (hm.NonFinite ∧ (adjust Dbl.arith des hm hi hp nm ni np).2 = ni - 1)) :
    (adjust Dbl.arith des hm hi hp nm ni np).1.NonFinite := by
  unfold adjust at h ⊢
  dsimp only at h ⊢
  split at h
  · rename_i hc
    rw [if_pos hc]
    dsimp only at h ⊢
    have hp2 : hm.NonFinite ∨ hi.NonFinite ∨ hp.NonFinite := by
      rcases h with h | ⟨h, -⟩ | ⟨h, -⟩
      · exact .inr (.inl h)
      · exact .inr (.inr h)
      · exact .inl h
    split
    · exact nonFinite_parabolic hp2 _ _ _ _
    · split
      · rename_i hs
        rcases h with h | ⟨h, -⟩ | ⟨-, h⟩
        · exact nonFinite_linear (.inl h) _ _ _
        · exact nonFinite_linear (.inr h) _ _ _
        · omega
      · split
        · rcases h with h | ⟨-, h⟩ | ⟨h, -⟩
          · exact nonFinite_linear (.inl h) _ _ _
          · omega
          · exact nonFinite_linear (.inr h) _ _ _
        · rcases h with h | ⟨-, h⟩ | ⟨-, h⟩
          · exact nonFinite_linear (.inl h) _ _ _
          · omega
          · omega
  · rename_i hc
    rw [if_neg hc]
    rcases h with h | ⟨-, h⟩ | ⟨-, h⟩
    · exact h
    · dsimp only at h; omega
    · dsimp only at h; omega

theorem findK_inner {F : Type} {A : Arith F} (h : Five F) (x : F) :
    (findK A h x).2.x1 = h.x1 ∧ (findK A h x).2.x2 = h.x2 ∧ (findK A h x).2.x3 = h.x3 := by
  unfold findK
  split
  · exact ⟨rfl, rfl, rfl⟩
  · repeat' split
    all_goals exact ⟨rfl, rfl, rfl⟩

theorem nonFinite_updateLater (p : P2 Dbl) (x : Dbl) :
    (p.heights.x1.NonFinite → (updateLater Dbl.arith p x).heights.x1.NonFinite) ∧
    (p.heights.x2.NonFinite → (updateLater Dbl.arith p x).heights.x2.NonFinite) ∧
    (p.heights.x3.NonFinite → (updateLater Dbl.arith p x).heights.x3.NonFinite) ∧
    (p.heights.x3.NonFinite → (updateLater Dbl.arith p x).pos.x2 = (bump p.pos (findK Dbl.arith p.heights x).1).x2 + 1 →
      (updateLater Dbl.arith p x).heights.x2.NonFinite) ∧
    (p.heights.x1.NonFinite → (updateLater Dbl.arith p x).pos.x2 = (bump p.pos (findK Dbl.arith p.heights x).1).x2 - 1 →
      (updateLater Dbl.arith p x).heights.x2.NonFinite) := by
  obtain ⟨f1, f2, f3⟩ := findK_inner (A := Dbl.arith) p.heights x
  have g1 : p.heights.x1.NonFinite → (findK Dbl.arith p.heights x).2.x1.NonFinite := by rw [f1]; exact id
  have g2 : p.heights.x2.NonFinite → (findK Dbl.arith p.heights x).2.x2.NonFinite := by rw [f2]; exact id
  have g3 : p.heights.x3.NonFinite → (findK Dbl.arith p.heights x).2.x3.NonFinite := by rw [f3]; exact id
  unfold updateLater
  dsimp only
  split
  · refine ⟨fun h => ?_, fun h => ?_, fun h => ?_, fun h h' => ?_, fun h h' => ?_⟩
    · exact nonFinite_adjust (.inl (g1 h))
    · exact nonFinite_adjust (.inl (g2 h))
    · exact nonFinite_adjust (.inl (g3 h))
    · exact nonFinite_adjust (.inr (.inl ⟨g3 h, h'⟩))
    · exact nonFinite_adjust (.inr (.inr ⟨nonFinite_adjust (.inl (g1 h)), h'⟩))
  · refine ⟨fun h => ?_, fun h => ?_, fun h => ?_, fun h h' => ?_, fun h h' => ?_⟩
    · exact nonFinite_adjust (.inl (g1 h))
    · exact nonFinite_adjust (.inl (g2 h))
    · exact nonFinite_adjust (.inl (g3 h))
    · exact nonFinite_adjust (.inr (.inl ⟨nonFinite_adjust (.inl (g3 h)), h'⟩))
    · exact nonFinite_adjust (.inr (.inr ⟨g1 h, h'⟩))

end P2

/-- **C139**: an estimate that is infinite or NaN stays so, whatever is observed, until `clear`. -/
theorem C139_never_recovers_partial (p p' : P2 Dbl) (h5 : 6 ≤ p.historyCount) (v : Dbl) (p1 : P2 Dbl)
    (he : p.evaluate Dbl.arith = .ok (v, p1)) (hv : v.NonFinite) (xs : List Dbl)
    (hu : updateAll (P2.update Dbl.arith) p xs = .ok p') :
    ∃ v', p'.evaluate Dbl.arith = .ok (v', p') ∧ v'.NonFinite := by
  have h2 : p.heights.x2.NonFinite := by
    unfold P2.evaluate at he
    rw [if_neg (by omega)] at he
    injection he with he
    injection he with he _
    rw [he]; exact hv
  clear he hv
  suffices 6 ≤ p'.historyCount ∧ p'.heights.x2.NonFinite by
    refine ⟨p'.heights.x2, ?_, this.2⟩
    unfold P2.evaluate
    rw [if_neg (by omega)]
  induction xs generalizing p with
  | nil => simp only [updateAll] at hu; injection hu with hu; subst hu; exact ⟨h5, h2⟩
  | cons x xs ih =>
    simp only [updateAll] at hu
    obtain ⟨q, hq, hu⟩ := Res.bind_eq_ok.1 hu
    unfold P2.update at hq
    rw [if_neg (by omega)] at hq
    split at hq
    · cases hq
    · injection hq with hq
      subst hq
      exact ih _ (by rw [(P2.updateLater_frame p x).1]; omega) hu ((P2.nonFinite_updateLater p x).2.1 h2)

/-- **C139**, how the estimate gets there: when marker 2 moves towards a neighbour that is infinite or NaN it becomes infinite
or NaN itself. -/
theorem C139_spreads_partial (p p' : P2 Dbl) (x : Dbl) (h5 : 5 ≤ p.historyCount) (hu : p.update Dbl.arith x = .ok p')
    (h : (p.heights.x3.NonFinite ∧ p'.pos.x2 = (P2.bump p.pos (P2.findK Dbl.arith p.heights x).1).x2 + 1) ∨
      (p.heights.x1.NonFinite ∧ p'.pos.x2 = (P2.bump p.pos (P2.findK Dbl.arith p.heights x).1).x2 - 1)) :
    p'.evaluate Dbl.arith = .ok (p'.heights.x2, p') ∧ p'.heights.x2.NonFinite := by
  unfold P2.update at hu
  rw [if_neg (by omega)] at hu
  split at hu
  · cases hu
  · injection hu with hu
    subst hu
    refine ⟨?_, ?_⟩
    · unfold P2.evaluate
      rw [if_neg (by rw [(P2.updateLater_frame p x).1]; omega)]
    · obtain ⟨-, -, -, h1, h2⟩ := P2.nonFinite_updateLater p x
      rcases h with ⟨h3, h4⟩ | ⟨h3, h4⟩
      · exact h1 h3 h4
      · exact h2 h3 h4

/-- The state after 1, 2, 3, 4, 5, `+∞`, 6; the next observation moves marker 2 to the right, and the estimate is lost. -/
example (ys : List Dbl) (p' : P2 Dbl)
    (hu : updateAll (P2.update Dbl.arith) (⟨.fin (1 / 2), ⟨.fin 0, .fin (7 / 4), .fin (7 / 2), .fin (21 / 4), .fin 7⟩, ⟨0, 1, 3, 5, 7⟩,
      ⟨.fin 1, .fin 2, .inf false, .inf false, .inf false⟩, 8⟩ : P2 Dbl) ys = .ok p') :
    ∃ v', p'.evaluate Dbl.arith = .ok (v', p') ∧ v'.NonFinite :=
  C139_never_recovers_partial _ p' (by simp) _ _ rfl (Dbl.nonFinite_inf _) ys hu

example : ∃ p p' : P2 Dbl, 5 ≤ p.historyCount ∧ p.update Dbl.arith (.fin 7) = .ok p' ∧ p.heights.x3 = .inf false ∧
    p'.pos.x2 = (P2.bump p.pos (P2.findK Dbl.arith p.heights (.fin 7)).1).x2 + 1 :=
  ⟨⟨.fin (1 / 2), ⟨.fin 0, .fin (3 / 2), .fin 3, .fin (9 / 2), .fin 6⟩, ⟨0, 1, 2, 4, 6⟩,
      ⟨.fin 1, .fin 2, .fin 3, .inf false, .inf false⟩, 7⟩,
    ⟨.fin (1 / 2), ⟨.fin 0, .fin (7 / 4), .fin (7 / 2), .fin (21 / 4), .fin 7⟩, ⟨0, 1, 3, 5, 7⟩,
      ⟨.fin 1, .fin 2, .inf false, .inf false, .inf false⟩, 8⟩, by decide +kernel⟩

end KML
