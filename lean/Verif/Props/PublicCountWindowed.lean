import Verif.Props.PublicCount
import Verif.Props.Windowed

/-!
# C150: assigning the number of observations of WindowedP2Quantile

Which observation closes a window, and how the two estimates are weighted, both depend on `m_historyCount`, which
the caller may assign.
-/

set_option linter.unusedSectionVars false

namespace KML

open Spec

/-- The observations of a history of calls and assignments. -/
def AOp.observed {F : Type} : List (AOp F) → List F
  | [] => []
  | .call (.update x) :: os => x :: observed os
  | _ :: os => observed os

section Round

variable {K : Type} [Field K] [LinearOrder K] [IsStrictOrderedRing K] [FloorRing K] {R : Rounding K}

namespace WP2

/-- The estimator and its previous estimate stay in an interval, whatever the count. -/
structure Held (R : Rounding K) (lo hi : K) (w : WP2 K) : Prop where
  p2 : P2.Hull R lo hi w.p2
  lo_prev : lo ≤ w.previous
  prev_hi : w.previous ≤ hi

theorem Held.hull {lo hi : K} {w : WP2 K} (h : Held R lo hi w) : Hull R lo hi w :=
  ⟨h.p2, fun _ => ⟨h.lo_prev, h.prev_hi⟩⟩

theorem Held.update {lo hi x : K} {w w' : WP2 K} (h : Held R lo hi w) (hW : 0 < w.windowSize)
    (hx : R.rnd x = x) (hlo : lo ≤ x) (hhi : x ≤ hi) (hu : w.update R.arith x = .ok w') : Held R lo hi w' := by
  have hk := (h.hull.update hW hx hlo hhi hu).1
  suffices key : lo ≤ w'.previous ∧ w'.previous ≤ hi from ⟨hk.p2, key.1, key.2⟩
  unfold WP2.update at hu
  simp only at hu
  obtain ⟨p1, h1, hu⟩ := Res.bind_eq_ok.1 hu
  have hh := h.p2.update hx hlo hhi h1
  rw [if_pos hW] at hu
  split at hu
  · obtain ⟨⟨v, p2⟩, h2, hu⟩ := Res.bind_eq_ok.1 hu
    injection hu with hu
    subst hu
    obtain ⟨v', p2', e1, e2, e3, -⟩ := hh.evaluate
    rw [h2] at e1
    simp only [Res.ok.injEq, Prod.mk.injEq] at e1
    obtain ⟨rfl, rfl⟩ := e1
    exact ⟨e2, e3⟩
  · injection hu with hu; subst hu
    exact ⟨h.lo_prev, h.prev_hi⟩

/-- The values along a history satisfy whatever the value of every such state does. -/
theorem arun_held {lo hi : K} {W : ℕ} (hW : 0 < W) (P : K → Prop)
    (hP : ∀ w : WP2 K, Held R lo hi w → w.windowSize = W → ∀ r w', w.evaluate R.arith = .ok (r, w') → P r)
    (ops : List (AOp K)) : ∀ {w : WP2 K} {n : ℕ}, Held R lo hi w → w.windowSize = W → Fits w n →
    (∀ x ∈ AOp.observed ops, R.rnd x = x ∧ lo ≤ x ∧ x ≤ hi) → n + (AOp.observed ops).length ≤ 2 ^ 31 →
    ∃ vs w', AOp.run (WP2.update R.arith) (WP2.evaluate R.arith) WP2.assign w ops = .ok (vs, w') ∧
      Held R lo hi w' ∧ w'.windowSize = W ∧ ∀ v ∈ vs, P v := by
  induction ops with
  | nil => intro w n h hw _ _ _; exact ⟨[], w, rfl, h, hw, by simp⟩
  | cons o ops ih =>
    intro w n h hw hf hx hlen
    cases o with
    | assign k =>
      simp only [AOp.observed] at hx hlen
      exact ih (w := w.assign k) ⟨h.p2, h.lo_prev, h.prev_hi⟩ hw hf hx hlen
    | call o =>
      cases o with
      | update x =>
        simp only [AOp.observed, List.mem_cons, List.length_cons] at hx hlen
        obtain ⟨x1, x2, x3⟩ := hx x (Or.inl rfl)
        obtain ⟨w1, h1, hf1⟩ := update_fits h.hull hf (by omega) x1 x2 x3
        obtain ⟨-, k2, -⟩ := h.hull.update (by omega) x1 x2 x3 h1
        obtain ⟨vs, w', h2, h3⟩ := ih (h.update (by omega) x1 x2 x3 h1) (by omega) hf1
          (fun y hy => hx y (Or.inr hy)) (by omega)
        exact ⟨vs, w', by simp only [AOp.run, h1, Res.ok_bind, h2], h3⟩
      | evaluate =>
        simp only [AOp.observed] at hx hlen
        obtain ⟨v, r, w1, -, h1, h2, h3, -, -, -⟩ := h.hull.evaluate (by omega)
        have e1 : w1.windowSize = w.windowSize := by rw [h3]
        have e2 : w1.previous = w.previous := by rw [h3]
        obtain ⟨vs, w', h4, h5, h6, h7⟩ := ih (w := w1) ⟨h2.p2, by rw [e2]; exact h.lo_prev, by rw [e2]; exact h.prev_hi⟩
          (by omega) (evaluate_fits hf h1) hx hlen
        refine ⟨r :: vs, w', by simp only [AOp.run, h1, Res.ok_bind, h4], h5, h6, ?_⟩
        intro y hy
        rcases List.mem_cons.1 hy with rfl | hy
        · exact hP w h hw _ _ h1
        · exact h7 y hy

theorem Held.new {q lo hi : K} {W : ℕ} {w : WP2 K} (h : WP2.new R.arith q W = .ok w) (hlo : lo ≤ 0) (hhi : 0 ≤ hi) :
    Held R lo hi w ∧ w.windowSize = W := by
  have hh := Hull.new h hlo hhi
  obtain ⟨p, hp, rfl⟩ := WP2.new_eq_ok h
  have e : R.arith.lit 0 = (0 : K) := by
    show R.rnd ((0 : ℚ) : K) = 0
    rw [Rat.cast_zero, R.rnd_zero]
  exact ⟨⟨hh.p2, by show lo ≤ R.arith.lit 0; rw [e]; exact hlo, by show R.arith.lit 0 ≤ hi; rw [e]; exact hhi⟩, rfl⟩

end WP2

/-- **C150**, any rounding: with a window of at least 1 and at most 2^31 observations, every history of updates,
evaluations and assignments to the number of observations is defined. -/
theorem C150_defined (R : Rounding K) (q : K) (W : ℕ) (hW : 0 < W) (w : WP2 K) (hw : WP2.new R.arith q W = .ok w)
    (ops : List (AOp K)) (hx : ∀ x ∈ AOp.observed ops, R.rnd x = x) (hlen : (AOp.observed ops).length ≤ 2 ^ 31) :
    ∃ vs w', AOp.run (WP2.update R.arith) (WP2.evaluate R.arith) WP2.assign w ops = .ok (vs, w') := by
  obtain ⟨b, hb, hl⟩ := exists_bound (AOp.observed ops)
  obtain ⟨h1, h2⟩ := WP2.Held.new hw (lo := -b) (hi := b) (by linarith) hb
  obtain ⟨vs, w', h, -⟩ := WP2.arun_held hW (fun _ => True) (fun _ _ _ _ _ _ => trivial) ops h1 h2 (WP2.fits_new hw)
    (fun x hm => ⟨hx x hm, hl x hm⟩) (by omega)
  exact ⟨vs, w', h⟩

/-- A history in a window of five, on doubles: the count assigned before the first observation and in the middle. -/
example : (do
    let w ← WP2.new b64 (1 / 2) 5
    let r ← AOp.run (WP2.update b64) (WP2.evaluate b64) WP2.assign w
      [.assign 8, .call (.update 3), .call (.update 1), .call .evaluate, .call (.update 4), .assign 0, .call (.update 1),
       .call (.update 5), .call (.update 9), .call .evaluate, .assign 12, .call .evaluate]
    .ok r.1) = .ok [0, 1, 3] := by
  decide +kernel

/-- **C150**, exact arithmetic: every value along such a history is at most `W - 1` interval widths outside any interval
that contains 0 and the observations. -/
theorem C150_bound (q : K) (W : ℕ) (hW : 0 < W) (w : WP2 K) (hw : WP2.new (exact K) q W = .ok w)
    (ops : List (AOp K)) (lo hi : K) (h0 : lo ≤ 0 ∧ 0 ≤ hi) (hx : InRange lo hi (AOp.observed ops))
    (hlen : (AOp.observed ops).length ≤ 2 ^ 31) :
    ∃ vs w', AOp.run (WP2.update (exact K)) (WP2.evaluate (exact K)) WP2.assign w ops = .ok (vs, w') ∧
      ∀ v ∈ vs, lo - (W - 1 : ℕ) * (hi - lo) ≤ v ∧ v ≤ hi + (W - 1 : ℕ) * (hi - lo) := by
  obtain ⟨h1, h2⟩ := WP2.Held.new (R := Rounding.none) hw h0.1 h0.2
  obtain ⟨vs, w', h, -, -, hv⟩ := WP2.arun_held (R := Rounding.none) hW
    (fun v => lo - (W - 1 : ℕ) * (hi - lo) ≤ v ∧ v ≤ hi + (W - 1 : ℕ) * (hi - lo)) (fun w hw1 hw2 r w' hr => by
      obtain ⟨r', w'', e, e1⟩ := hw1.hull.value (by omega)
      rw [show (Rounding.none (K := K)).arith = exact K from rfl, e] at hr
      simp only [Res.ok.injEq, Prod.mk.injEq] at hr
      rw [← hr.1, ← hw2]
      exact e1) ops h1 h2 (WP2.fits_new (R := Rounding.none) hw)
    (fun x hm => ⟨rfl, hx x hm⟩) (by omega)
  exact ⟨vs, w', h, hv⟩

/-- The same history in exact arithmetic; the interval from 0 to 9. -/
example : InRange (0 : ℚ) 9 (AOp.observed [.assign 8, .call (.update 3), .call (.update 1), .call .evaluate,
    .call (.update 4), .assign 0, .call (.update 1), .call (.update 5), .call (.update 9), .call .evaluate]) := by
  norm_num [AOp.observed, InRange]

end Round

/-- **C150**: the bound is attained. Five observations of 1 in a window of ten, then the count assigned 19. -/
theorem C150_attained : ∃ (q : ℚ) (W : ℕ) (w : WP2 ℚ) (ops : List (AOp ℚ)) (w' : WP2 ℚ),
    WP2.new (exact ℚ) q W = .ok w ∧ 1 < W ∧ InRange 0 1 (AOp.observed ops) ∧
    AOp.run (WP2.update (exact ℚ)) (WP2.evaluate (exact ℚ)) WP2.assign w ops = .ok ([1 + (W - 1 : ℕ) * (1 - 0)], w') := by
  refine ⟨1 / 2, 10, ⟨10, 0, P2.blank (1 / 2), 0⟩, [.call (.update 1), .call (.update 1), .call (.update 1),
    .call (.update 1), .call (.update 1), .assign 19, .call .evaluate], ?_, by decide +kernel, by norm_num, by simp [AOp.observed, InRange], ?_⟩
  · exact ⟨10, 19, ⟨1 / 2, ⟨0, 1, 2, 3, 4⟩, ⟨0, 1, 2, 3, 4⟩, ⟨1, 1, 1, 1, 1⟩, 5⟩, 0⟩
  · decide +kernel

end KML
