import Verif.Props.P2Exact

/-! # C40–C45: WindowedP2Quantile and StreamingIQR -/

set_option linter.unusedSectionVars false

namespace KML

open Spec

namespace WP2

variable {F : Type} (A : Arith F)

/-- Value of `evaluate` after feeding `xs`. -/
def valueAfter (w : WP2 F) (xs : List F) : Res F := do
  let w ← updateAll (WP2.update A) w xs
  let (v, _) ← w.evaluate A
  .ok v

theorem new_eq_ok {A : Arith F} {q : F} {W : ℕ} {w : WP2 F} (h : WP2.new A q W = .ok w) :
    ∃ p, P2.new A q = .ok p ∧ w = ⟨W, 0, p, A.lit 0⟩ := by
  unfold WP2.new at h
  obtain ⟨p, hp, h⟩ := Res.bind_eq_ok.1 h
  injection h with h
  exact ⟨p, hp, h.symm⟩

end WP2

/-! ## C40 -/

/-- The full property (exact arithmetic). It is false of the code. -/
def C40_full : Prop := ∀ (q : ℚ) (w : WP2 ℚ) (p : P2 ℚ), WP2.new (exact ℚ) q 0 = .ok w →
  P2.new (exact ℚ) q = .ok p → ∀ xs : List ℚ,
  WP2.valueAfter (exact ℚ) w xs = P2.valueAfter (exact ℚ) p xs

/-- **C40**, the part that holds (any arithmetic): with window 0 the updates keep the estimate over the whole
stream in the inner estimator, but `evaluate` is always an integer division by zero. Missing: the value. -/
theorem C40_updates_partial {F : Type} (A : Arith F) (q : F) (w : WP2 F) (p : P2 F)
    (hw : WP2.new A q 0 = .ok w) (hp : P2.new A q = .ok p) (xs : List F) :
    (updateAll (WP2.update A) w xs).mapOk WP2.p2 = updateAll (P2.update A) p xs ∧
    ∀ w', updateAll (WP2.update A) w xs = .ok w' → w'.evaluate A = .ub .divZero := by
  obtain ⟨p', hp', rfl⟩ := WP2.new_eq_ok hw
  rw [hp] at hp'
  injection hp' with hp'
  subst hp'
  have key : ∀ n, (updateAll (WP2.update A) (⟨0, n, p, A.lit 0⟩ : WP2 F) xs) =
      (updateAll (P2.update A) p xs).mapOk (fun p' => ⟨0, n + xs.length, p', A.lit 0⟩) := by
    clear hw hp
    induction xs generalizing p with
    | nil => intro n; rfl
    | cons x xs ih =>
      intro n
      simp only [updateAll, WP2.update]
      rcases hu : P2.update A p x with p1 | m | u
      · simp only [Res.ok_bind, gt_iff_lt, lt_irrefl, if_false, ih p1 (n + 1), List.length_cons]
        rw [show n + 1 + xs.length = n + (xs.length + 1) by omega]
      · rfl
      · rfl
  rw [key 0]
  rcases updateAll (P2.update A) p xs with p1 | m | u
  · refine ⟨rfl, ?_⟩
    intro w' h
    simp only [Res.mapOk] at h
    injection h with h
    subst h
    simp [WP2.evaluate]
  · exact ⟨rfl, fun w' h => by cases h⟩
  · exact ⟨rfl, fun w' h => by cases h⟩

/-- **C40** is violated: the default-window estimator cannot be evaluated. -/
theorem C40_violated : ¬ C40_full := by
  intro h
  have h1 := h (1 / 2) ⟨0, 0, P2.blank (1 / 2), 0⟩ (P2.blank (1 / 2)) (by decide +kernel) (by decide +kernel)
    [1, 2, 3, 4, 5]
  revert h1
  decide +kernel

/-- Five observations with window 0. -/
example : (do
    let w ← WP2.new b64 (1 / 2) 0
    let w ← updateAll (WP2.update b64) w [3, 1, 4, 1, 5]
    .ok w.p2.heights) = .ok ⟨1, 1, 3, 4, 5⟩ := by
  decide +kernel

/-! ## C41 -/

/-- **C41** (any arithmetic): as long as fewer than `W` observations have been given, any history of `update`
and `evaluate` calls returns exactly what `StreamingP2Quantile` returns. -/
theorem C41_until_full {F : Type} (A : Arith F) (q : F) (W : ℕ) (w : WP2 F) (p : P2 F)
    (hw : WP2.new A q W = .ok w) (hp : P2.new A q = .ok p) (ops : List (SOp F))
    (hlen : (SOp.observations ops).length < W) :
    (SOp.run (WP2.update A) (WP2.evaluate A) w ops).mapOk Prod.fst =
      (SOp.run (P2.update A) (P2.evaluate A) p ops).mapOk Prod.fst := by
  obtain ⟨p', hp', rfl⟩ := WP2.new_eq_ok hw
  rw [hp] at hp'
  injection hp' with hp'
  subst hp'
  have key : ∀ n pv, n + (SOp.observations ops).length < W →
      (SOp.run (WP2.update A) (WP2.evaluate A) (⟨W, n, p, pv⟩ : WP2 F) ops).mapOk Prod.fst =
      (SOp.run (P2.update A) (P2.evaluate A) p ops).mapOk Prod.fst := by
    clear hw hp hlen
    induction ops generalizing p with
    | nil => intro n pv _; rfl
    | cons o ops ih =>
      intro n pv hn
      cases o with
      | update x =>
        simp only [SOp.observations, List.length_cons] at hn
        simp only [SOp.run, WP2.update]
        rcases hu : P2.update A p x with p1 | m | u
        · simp only [Res.ok_bind, gt_iff_lt, show 0 < W by omega, if_true,
            show ¬ ((n + 1) % (W + 1) = 0) by rw [Nat.mod_eq_of_lt (by omega)]; omega, if_false]
          exact ih p1 (n + 1) pv (by omega)
        · rfl
        · rfl
      | evaluate =>
        simp only [SOp.observations] at hn
        simp only [SOp.run, WP2.evaluate, show n < W by omega, if_true]
        rcases hu : P2.evaluate A p with ⟨v, p1⟩ | m | u
        · simp only [Res.ok_bind]
          have := ih p1 n pv hn
          revert this
          rcases SOp.run (WP2.update A) (WP2.evaluate A) ⟨W, n, p1, pv⟩ ops with ⟨a, b⟩ | m | u <;>
            rcases SOp.run (P2.update A) (P2.evaluate A) p1 ops with ⟨c, d⟩ | m' | u' <;>
            simp [Res.mapOk]
        · rfl
        · rfl
  exact key 0 _ (by omega)

/-- Six observations in a window of 10, evaluated twice. -/
example : (do
    let w ← WP2.new b64 (1 / 2) 10
    let r ← SOp.run (WP2.update b64) (WP2.evaluate b64) w
      [.update 3, .update 1, .evaluate, .update 4, .update 1, .update 5, .update 9, .evaluate]
    .ok r.1) = .ok [0, 1] := by
  decide +kernel

section Round

variable {K : Type} [Field K] [LinearOrder K] [IsStrictOrderedRing K] [FloorRing K]

/-! ## Invariants -/

namespace WP2

/-- The inner estimator, and `m_previous` once set, stay in an interval. -/
structure Hull (R : Rounding K) (lo hi : K) (w : WP2 K) : Prop where
  p2 : P2.Hull R lo hi w.p2
  prev : w.windowSize < w.historyCount → lo ≤ w.previous ∧ w.previous ≤ hi

theorem Hull.new {R : Rounding K} {q lo hi : K} {W : ℕ} {w : WP2 K} (h : WP2.new R.arith q W = .ok w)
    (hlo : lo ≤ 0) (hhi : 0 ≤ hi) : Hull R lo hi w := by
  obtain ⟨p, hp, rfl⟩ := WP2.new_eq_ok h
  exact ⟨P2.Hull.new hp hlo hhi, fun h => absurd h (Nat.not_lt_zero _)⟩

theorem Hull.update {R : Rounding K} {lo hi x : K} {w w' : WP2 K} (h : Hull R lo hi w) (hW : 0 < w.windowSize)
    (hx : R.rnd x = x) (hlo : lo ≤ x) (hhi : x ≤ hi) (hu : w.update R.arith x = .ok w') :
    Hull R lo hi w' ∧ w'.windowSize = w.windowSize ∧ w'.historyCount = w.historyCount + 1 := by
  unfold WP2.update at hu
  simp only at hu
  obtain ⟨p1, h1, hu⟩ := Res.bind_eq_ok.1 hu
  have hh := h.p2.update hx hlo hhi h1
  rw [if_pos hW] at hu
  split at hu
  · obtain ⟨⟨v, p2⟩, h2, hu⟩ := Res.bind_eq_ok.1 hu
    injection hu with hu
    subst hu
    obtain ⟨v', p2', e1, e2, e3, e4⟩ := hh.evaluate
    rw [h2] at e1
    simp only [Res.ok.injEq, Prod.mk.injEq] at e1
    obtain ⟨rfl, rfl⟩ := e1
    exact ⟨⟨e4.clear, fun _ => ⟨e2, e3⟩⟩, rfl, rfl⟩
  · rename_i hmod
    injection hu with hu; subst hu
    refine ⟨⟨hh, fun hlt => h.prev ?_⟩, rfl, rfl⟩
    simp only at hlt
    rcases Nat.lt_or_ge w.windowSize w.historyCount with h' | h'
    · exact h'
    · exact absurd (by rw [show w.historyCount + 1 = w.windowSize + 1 by omega, Nat.mod_self]) hmod

theorem Hull.evaluate {R : Rounding K} {lo hi : K} {w : WP2 K} (h : Hull R lo hi w) (hW : 0 < w.windowSize) :
    ∃ v r w', w.p2.evaluate R.arith = .ok (v, w'.p2) ∧ w.evaluate R.arith = .ok (r, w') ∧
      Hull R lo hi w' ∧ w' = { w with p2 := w'.p2 } ∧ lo ≤ v ∧ v ≤ hi ∧
      r = if w.historyCount < w.windowSize then v else
        R.arith.add (R.arith.mul (R.arith.sub (R.arith.lit 1) (R.arith.ofNat (w.historyCount % w.windowSize + 1)))
          w.previous) (R.arith.mul (R.arith.ofNat (w.historyCount % w.windowSize + 1)) v) := by
  obtain ⟨v, p', e1, e2, e3, e4⟩ := h.p2.evaluate
  unfold WP2.evaluate
  by_cases hn : w.historyCount < w.windowSize
  · simp only [hn, if_true, e1, Res.ok_bind]
    exact ⟨v, v, { w with p2 := p' }, rfl, rfl, ⟨e4, h.prev⟩, rfl, e2, e3, rfl⟩
  · simp only [hn, if_false, e1, Res.ok_bind, show ¬ w.windowSize = 0 by omega]
    exact ⟨v, _, { w with p2 := p' }, rfl, rfl, ⟨e4, h.prev⟩, rfl, e2, e3, rfl⟩

/-- Along any history. -/
theorem run_hull (R : Rounding K) {lo hi : K} {w w' : WP2 K} (h : Hull R lo hi w) (hW : 0 < w.windowSize)
    {ops : List (SOp K)} {vs : List K} (hx : ∀ x ∈ SOp.observations ops, R.rnd x = x ∧ lo ≤ x ∧ x ≤ hi)
    (hr : SOp.run (WP2.update R.arith) (WP2.evaluate R.arith) w ops = .ok (vs, w')) :
    Hull R lo hi w' ∧ w'.windowSize = w.windowSize ∧
      w'.historyCount = w.historyCount + (SOp.observations ops).length := by
  induction ops generalizing w vs with
  | nil =>
    simp only [SOp.run] at hr; injection hr with hr; injection hr with _ hr; subst hr
    exact ⟨h, rfl, by simp [SOp.observations]⟩
  | cons o ops ih =>
    cases o with
    | update x =>
      simp only [SOp.observations, List.mem_cons, List.length_cons] at hx ⊢
      simp only [SOp.run] at hr
      obtain ⟨w1, h1, hr⟩ := Res.bind_eq_ok.1 hr
      obtain ⟨x1, x2, x3⟩ := hx x (Or.inl rfl)
      obtain ⟨k1, k2, k3⟩ := h.update hW x1 x2 x3 h1
      obtain ⟨j1, j2, j3⟩ := ih k1 (by omega) (fun y hy => hx y (Or.inr hy)) hr
      exact ⟨j1, by omega, by omega⟩
    | evaluate =>
      simp only [SOp.observations] at hx ⊢
      simp only [SOp.run] at hr
      obtain ⟨v, r, w1, -, h1, h2, h3, -, -, -⟩ := h.evaluate hW
      rw [h1] at hr
      simp only [Res.ok_bind] at hr
      obtain ⟨⟨vs', w2⟩, hr', hr⟩ := Res.bind_eq_ok.1 hr
      simp only [Res.ok.injEq, Prod.mk.injEq] at hr
      obtain ⟨-, rfl⟩ := hr
      have e1 : w1.windowSize = w.windowSize := by rw [h3]
      have e2 : w1.historyCount = w.historyCount := by rw [h3]
      obtain ⟨j1, j2, j3⟩ := ih h2 (by omega) hx hr'
      exact ⟨j1, by omega, by omega⟩

/-- Total number of observations bounds the last marker, so short histories do not overflow. -/
def Fits (w : WP2 K) (n : ℕ) : Prop :=
  max 5 (w.p2.pos.x4 + 1) - (5 - min 5 w.p2.historyCount : ℕ) ≤ n ∨
    (w.p2.pos.x4 = 4 ∧ w.p2.historyCount ≤ n)

theorem evaluate_fits {R : Rounding K} {w w' : WP2 K} {r : K} {n : ℕ} (h : Fits w n)
    (he : w.evaluate R.arith = .ok (r, w')) : Fits w' n := by
  unfold WP2.evaluate at he
  have key : ∀ v p', w.p2.evaluate R.arith = .ok (v, p') →
      p'.pos = w.p2.pos ∧ p'.historyCount = w.p2.historyCount := fun v p' h =>
    ⟨(P2.evaluate_frame h).1, (P2.evaluate_frame h).2.1⟩
  split at he
  · obtain ⟨⟨v, p'⟩, h1, he⟩ := Res.bind_eq_ok.1 he
    simp only [Res.ok.injEq, Prod.mk.injEq] at he
    obtain ⟨-, rfl⟩ := he
    unfold Fits at h ⊢
    simp only [key v p' h1]; exact h
  · split at he
    · cases he
    · obtain ⟨⟨v, p'⟩, h1, he⟩ := Res.bind_eq_ok.1 he
      simp only [Res.ok.injEq, Prod.mk.injEq] at he
      obtain ⟨-, rfl⟩ := he
      unfold Fits at h ⊢
      simp only [key v p' h1]; exact h

theorem update_fits {R : Rounding K} {lo hi x : K} {w : WP2 K} {n : ℕ} (hh : Hull R lo hi w) (h : Fits w n)
    (hn : n < 2 ^ 31) (hx : R.rnd x = x) (hlo : lo ≤ x) (hhi : x ≤ hi) :
    ∃ w', w.update R.arith x = .ok w' ∧ Fits w' (n + 1) := by
  have hu := P2.update_eq (A := R.arith) hh.p2.pos x
  have key : ∃ p', w.p2.update R.arith x = .ok p' ∧
      ((max 5 (p'.pos.x4 + 1) - (5 - min 5 p'.historyCount : ℕ) : ℤ) ≤ n + 1 ∨
        (p'.pos.x4 = 4 ∧ p'.historyCount ≤ n + 1)) ∧ (max 5 (p'.pos.x4 + 1) - 5 : ℤ) ≤ n + 1 := by
    have hp := hh.p2.pos
    obtain ⟨p0, p1, p2, p3, p4⟩ := hp
    by_cases hc : w.p2.historyCount < 5
    · rw [if_pos hc] at hu
      obtain ⟨f1, f2, f3⟩ := P2.updateFirst_frame (A := R.arith) w.p2 x
      refine ⟨_, hu, ?_⟩
      rw [f1, f3]
      unfold Fits at h
      omega
    · rw [if_neg hc] at hu
      unfold Fits at h
      have hle : ¬ P2.intMax ≤ w.p2.pos.x4 := by
        simp only [P2.intMax]
        omega
      rw [if_neg hle] at hu
      obtain ⟨f1, f2, f3, -, -⟩ := P2.updateLater_frame (A := R.arith) w.p2 x
      refine ⟨_, hu, ?_⟩
      rw [f1, f3]
      omega
  obtain ⟨p', h1, h2, h3⟩ := key
  have hh' := hh.p2.update hx hlo hhi h1
  unfold WP2.update
  simp only [h1, Res.ok_bind]
  split
  · split
    · obtain ⟨v, p2, e1, -, -, -⟩ := hh'.evaluate
      rw [e1]
      simp only [Res.ok_bind]
      obtain ⟨g1, g2, -⟩ := P2.evaluate_frame e1
      refine ⟨_, rfl, ?_⟩
      left
      simp only [P2.clear, g1]
      push_cast
      omega
    · exact ⟨_, rfl, by unfold Fits; push_cast; exact h2⟩
  · exact ⟨_, rfl, by unfold Fits; push_cast; exact h2⟩

/-- Histories of at most 2^31 observations are defined for every window size ≥ 1. -/
theorem run_ok (R : Rounding K) {lo hi : K} {w : WP2 K} (h : Hull R lo hi w) (hW : 0 < w.windowSize) {n : ℕ}
    (hf : Fits w n) (ops : List (SOp K))
    (hx : ∀ x ∈ SOp.observations ops, R.rnd x = x ∧ lo ≤ x ∧ x ≤ hi)
    (hlen : n + (SOp.observations ops).length ≤ 2 ^ 31) :
    ∃ vs w', SOp.run (WP2.update R.arith) (WP2.evaluate R.arith) w ops = .ok (vs, w') := by
  induction ops generalizing w n with
  | nil => exact ⟨_, _, rfl⟩
  | cons o ops ih =>
    cases o with
    | update x =>
      simp only [SOp.observations, List.mem_cons, List.length_cons] at hx hlen
      obtain ⟨x1, x2, x3⟩ := hx x (Or.inl rfl)
      obtain ⟨w1, h1, hf1⟩ := update_fits h hf (by omega) x1 x2 x3
      obtain ⟨k1, k2, k3⟩ := h.update hW x1 x2 x3 h1
      obtain ⟨vs, w', h2⟩ := ih k1 (by omega) hf1 (fun y hy => hx y (Or.inr hy)) (by omega)
      exact ⟨vs, w', by simp only [SOp.run, h1, Res.ok_bind, h2]⟩
    | evaluate =>
      simp only [SOp.observations] at hx hlen
      obtain ⟨v, r, w1, -, h1, h2, h3, -, -, -⟩ := h.evaluate hW
      have e1 : w1.windowSize = w.windowSize := by rw [h3]
      obtain ⟨vs, w', h4⟩ := ih h2 (by omega) (evaluate_fits hf h1) hx hlen
      exact ⟨r :: vs, w', by simp only [SOp.run, h1, Res.ok_bind, h4]⟩

theorem fits_new {R : Rounding K} {q : K} {W : ℕ} {w : WP2 K} (h : WP2.new R.arith q W = .ok w) : Fits w 0 := by
  obtain ⟨p, hp, rfl⟩ := WP2.new_eq_ok h
  right
  rw [P2.new_eq_ok hp]
  exact ⟨rfl, le_rfl⟩

end WP2

/-- An interval around 0 containing a list. -/
theorem exists_bound (l : List K) : ∃ b : K, 0 ≤ b ∧ ∀ x ∈ l, -b ≤ x ∧ x ≤ b := by
  induction l with
  | nil => exact ⟨0, le_rfl, by simp⟩
  | cons a l ih =>
    obtain ⟨b, hb, hl⟩ := ih
    refine ⟨max |a| b, hb.trans (le_max_right _ _), fun x hx => ?_⟩
    rcases List.mem_cons.1 hx with rfl | hx
    · have := le_max_left |x| b
      exact abs_le.1 this
    · have h1 := hl x hx
      have := le_max_right |a| b
      exact ⟨by linarith [h1.1], h1.2.trans this⟩

/-! ## C42 -/

namespace WP2

/-- All heights equal `c`. -/
def AllEq (c : K) (v : Five K) : Prop := v = ⟨c, c, c, c, c⟩

theorem updateLater_const {R : Rounding K} {c : K} (hc : R.rnd c = c) {p : P2 K} (h : AllEq c p.heights) :
    AllEq c (P2.updateLater R.arith p c).heights := by
  have hs : p.heights.Sorted := by rw [h]; exact ⟨le_rfl, le_rfl, le_rfl, le_rfl⟩
  have hr : P2.Rep R p.heights := by rw [P2.rep_iff, h]; exact ⟨hc, hc, hc, hc, hc⟩
  obtain ⟨-, s1, s2, s3, s4⟩ := P2.updateLater_sorted hr hs hc
  obtain ⟨-, -, -, f4, f5⟩ := P2.updateLater_frame (A := R.arith) p c
  rw [P2.findK_heights R p.heights c hs, h] at f4 f5
  simp only [min_self, max_self] at f4 f5
  rw [f4] at s1
  rw [f5] at s4
  generalize (P2.updateLater R.arith p c).heights = v at *
  obtain ⟨y0, y1, y2, y3, y4⟩ := v
  simp only at s1 s2 s3 s4 f4 f5
  subst f4
  subst f5
  have e3 : y3 = y4 := le_antisymm s4 ((s1.trans s2).trans s3)
  subst e3
  have e2 : y2 = y3 := le_antisymm s3 (s1.trans s2)
  subst e2
  have e1 : y1 = y2 := le_antisymm s2 s1
  subst e1
  rfl

theorem sort_const (R : Rounding K) {c : K} {v : Five K} (h : AllEq c v) : AllEq c (v.sort R.arith) := by
  have hs : v.Sorted := by rw [h]; exact ⟨le_rfl, le_rfl, le_rfl, le_rfl⟩
  rw [Five.sort_of_sorted R.arith (P2.lt_decide R) hs]; exact h

theorem evaluate_const {R : Rounding K} {c v : K} {p p' : P2 K} (h : AllEq c p.heights)
    (he : p.evaluate R.arith = .ok (v, p')) : v = c ∧ AllEq c p'.heights := by
  unfold P2.evaluate at he
  have hs := sort_const R h
  split at he
  · simp only at he
    split at he
    · cases he
    · split at he
      · rename_i w hw
        simp only [Res.ok.injEq, Prod.mk.injEq] at he
        obtain ⟨rfl, rfl⟩ := he
        refine ⟨?_, hs⟩
        have := List.mem_of_getElem? hw
        rw [hs] at this
        simpa [Five.toList] using this
      · cases he
  · simp only [Res.ok.injEq, Prod.mk.injEq] at he
    obtain ⟨rfl, rfl⟩ := he
    rw [h]
    exact ⟨rfl, rfl⟩

/-- State after `n` observations all equal to `c`. -/
structure Const (R : Rounding K) (c : K) (W n : ℕ) (w : WP2 K) : Prop where
  size : w.windowSize = W
  count : w.historyCount = n
  inner : w.p2.historyCount = n % (W + 1)
  pos : P2.PosInc w.p2.pos
  early : n < 5 → w.p2.heights.toList.take n = List.replicate n c
  late : 5 ≤ n → AllEq c w.p2.heights
  prev : W < n → w.previous = c

theorem Const.update {R : Rounding K} {c : K} (hc : R.rnd c = c) {W n : ℕ} (hW : 4 ≤ W) {w w' : WP2 K}
    (h : Const R c W n w) (hu : w.update R.arith c = .ok w') : Const R c W (n + 1) w' := by
  unfold WP2.update at hu
  simp only at hu
  obtain ⟨p1, h1, hu⟩ := Res.bind_eq_ok.1 hu
  have hpos := P2.update_posInc (P2.sane_round R) h.pos h1
  have hcnt := P2.update_count h1
  have hH : (n + 1 < 5 → p1.heights.toList.take (n + 1) = List.replicate (n + 1) c) ∧
      (5 ≤ n + 1 → AllEq c p1.heights) := by
    rw [P2.update_eq h.pos] at h1
    split at h1
    · rename_i hn
      injection h1 with h1
      have hset : (w.p2.heights.toList.set w.p2.historyCount c).length = 5 := by simp [Five.toList_length]
      constructor
      · intro h5
        have hin : w.p2.historyCount = n := by rw [h.inner, Nat.mod_eq_of_lt (by omega)]
        have := h.early (by omega)
        rw [← h1]
        unfold P2.updateFirst
        simp only [show ¬ (w.p2.historyCount + 1 = 5) by omega, if_false]
        rw [Five.toList_ofList _ hset, hin]
        rw [List.take_add_one, List.getElem?_set_self (by rw [Five.toList_length]; omega)]
        rw [List.take_set_of_le le_rfl, this]
        simp [List.replicate_succ']
      · intro h5
        by_cases hn5 : 5 ≤ n
        · have ha := h.late hn5
          have hof : AllEq c (w.p2.heights.ofList (w.p2.heights.toList.set w.p2.historyCount c)) := by
            apply Five.toList_inj
            rw [Five.toList_ofList _ hset, ha]
            have : w.p2.historyCount < 5 := hn
            interval_cases w.p2.historyCount <;> rfl
          rw [← h1]
          unfold P2.updateFirst
          simp only
          split
          · exact sort_const R hof
          · exact hof
        · have hn4 : n = 4 := by omega
          have hin : w.p2.historyCount = 4 := by rw [h.inner, Nat.mod_eq_of_lt (by omega), hn4]
          have := h.early (by omega)
          rw [hn4] at this
          have hof : AllEq c (w.p2.heights.ofList (w.p2.heights.toList.set w.p2.historyCount c)) := by
            apply Five.toList_inj
            rw [Five.toList_ofList _ hset, hin]
            simp only [Five.toList, List.take_succ_cons, List.take_zero, List.replicate_succ, List.replicate_zero,
              List.cons.injEq, and_true] at this
            simp [Five.toList, this]
          rw [← h1]
          unfold P2.updateFirst
          simp only
          split
          · exact sort_const R hof
          · exact hof
    · rename_i hn
      split at h1
      · cases h1
      · injection h1 with h1
        have hn5 : 5 ≤ n := by
          have := Nat.mod_le n (W + 1); rw [← h.inner] at this; omega
        exact ⟨fun h => by omega, fun _ => h1 ▸ updateLater_const hc (h.late hn5)⟩
  have hWp : 0 < w.windowSize := by rw [h.size]; omega
  rw [if_pos hWp, h.count, h.size] at hu
  split at hu
  · rename_i hmod
    obtain ⟨⟨v, p2⟩, h2, hu⟩ := Res.bind_eq_ok.1 hu
    injection hu with hu
    subst hu
    have hge : W + 1 ≤ n + 1 := Nat.le_of_dvd (by omega) (Nat.dvd_of_mod_eq_zero hmod)
    have ha := hH.2 (by omega)
    obtain ⟨e1, e2⟩ := evaluate_const ha h2
    have e3 := P2.evaluate_frame h2
    exact ⟨rfl, rfl, by simp [P2.clear, hmod], by simp only [P2.clear, e3.1]; exact hpos,
      fun h => by omega, fun _ => e2, fun _ => e1⟩
  · rename_i hmod
    injection hu with hu
    subst hu
    refine ⟨rfl, rfl, ?_, hpos, hH.1, hH.2, ?_⟩
    · simp only [hcnt, h.inner]
      rw [Nat.add_mod n 1 (W + 1), Nat.mod_eq_of_lt (show 1 < W + 1 by omega)] at hmod ⊢
      have hlt := Nat.mod_lt n (show 0 < W + 1 by omega)
      rcases Nat.lt_or_ge (n % (W + 1) + 1) (W + 1) with h' | h'
      · rw [Nat.mod_eq_of_lt h']
      · exact absurd (by rw [show n % (W + 1) + 1 = W + 1 by omega, Nat.mod_self]) hmod
    · intro hW'
      rcases Nat.lt_or_ge W n with h' | h'
      · exact h.prev h'
      · exact absurd (by rw [show n + 1 = W + 1 by omega, Nat.mod_self]) hmod

end WP2

/-- The state after constant observations, under any rounding. -/
theorem WP2.const_run (R : Rounding K) (q c : K) (hc : R.rnd c = c) (W : ℕ) (hW : 4 ≤ W) (w w' : WP2 K)
    (hw : WP2.new R.arith q W = .ok w) (n : ℕ)
    (hu : updateAll (WP2.update R.arith) w (List.replicate n c) = .ok w') :
    WP2.Const R c W n w' ∧ ∃ b, WP2.Hull R (-b) b w' := by
  have hw' := hw
  obtain ⟨p, hp, rfl⟩ := WP2.new_eq_ok hw
  have e := P2.new_eq_ok hp
  have h0 : WP2.Const R c W 0 (⟨W, 0, p, R.arith.lit 0⟩ : WP2 K) := by
    refine ⟨rfl, rfl, by rw [e]; simp, by rw [e]; simp [P2.PosInc], by simp, by simp, by simp⟩
  obtain ⟨b, hb0, hb⟩ := exists_bound [c]
  have hh0 : WP2.Hull R (-b) b (⟨W, 0, p, R.arith.lit 0⟩ : WP2 K) :=
    WP2.Hull.new hw' (by linarith) hb0
  have key : ∀ m (w : WP2 K), WP2.Hull R (-b) b w → ∀ k, WP2.Const R c W k w →
      updateAll (WP2.update R.arith) w (List.replicate m c) = .ok w' →
      WP2.Const R c W (k + m) w' ∧ WP2.Hull R (-b) b w' := by
    intro m
    induction m with
    | zero =>
      intro w hh k hk hu
      simp only [List.replicate_zero, updateAll] at hu
      injection hu with hu; subst hu; exact ⟨hk, hh⟩
    | succ m ih =>
      intro w hh k hk hu
      simp only [List.replicate_succ, updateAll] at hu
      obtain ⟨w1, h1, hu⟩ := Res.bind_eq_ok.1 hu
      have hb' := hb c (by simp)
      have := ih w1 (hh.update (by rw [hk.size]; omega) hc hb'.1 hb'.2 h1).1 (k + 1) (WP2.Const.update hc hW hk h1) hu
      rw [show k + (m + 1) = k + 1 + m by omega]
      exact this
  obtain ⟨h1, h2⟩ := key n _ hh0 0 h0 hu
  rw [Nat.zero_add] at h1
  exact ⟨h1, b, h2⟩

/-- The estimate of a constant stream under any rounding: `c` itself up to `W` observations, afterwards the rounded value of
`(1 - j) c + j c` where `j` is one more than the number of observations modulo `W`. -/
theorem WP2.const_value (R : Rounding K) (q c : K) (hc : R.rnd c = c) (W : ℕ) (hW : 4 ≤ W) (hW' : W ≤ 2 ^ 53)
    (w w' : WP2 K) (hw : WP2.new R.arith q W = .ok w) (n : ℕ) (hn : 5 ≤ n)
    (hu : updateAll (WP2.update R.arith) w (List.replicate n c) = .ok w') :
    ∃ w'', w'.evaluate R.arith = .ok (if n ≤ W then c else
      R.rnd (R.rnd ((1 - ((n % W + 1 : ℕ) : K)) * c) + R.rnd (((n % W + 1 : ℕ) : K) * c)), w'') := by
  obtain ⟨hk, b, hh⟩ := WP2.const_run R q c hc W hW w w' hw n hu
  obtain ⟨v, r, w2, e1, e2, -, -, -, -, e3⟩ := hh.evaluate (by rw [hk.size]; omega)
  have hv : v = c := (WP2.evaluate_const (hk.late hn) e1).1
  refine ⟨w2, ?_⟩
  rw [e2, e3, hv, hk.size, hk.count]
  have hj : n % W + 1 ≤ 2 ^ 53 := (Nat.mod_lt n (by omega)).trans_le hW'
  have k1 : R.arith.ofNat (n % W + 1) = ((n % W + 1 : ℕ) : K) := by
    show R.rnd (((n % W + 1 : ℕ) : ℤ) : K) = _
    rw [Int.cast_natCast]
    exact R.rnd_nat _ hj
  have k2 : R.arith.lit 1 = (1 : K) := by
    show R.rnd ((1 : ℚ) : K) = 1
    rw [Rat.cast_one, R.rnd_one]
  have k3 : R.arith.sub (R.arith.lit 1) (R.arith.ofNat (n % W + 1)) = 1 - ((n % W + 1 : ℕ) : K) := by
    rw [k1, k2]
    show R.rnd (1 - ((n % W + 1 : ℕ) : K)) = _
    have := R.int_exact (1 - ((n % W + 1 : ℕ) : ℤ)) (by rw [abs_le]; constructor <;> push_cast <;> omega)
    rw [Int.cast_sub, Int.cast_one, Int.cast_natCast] at this
    exact this
  by_cases h1 : n < W
  · rw [if_pos h1, if_pos h1.le]
  · rw [if_neg h1, k3, k1]
    by_cases h2 : n ≤ W
    · have : n = W := by omega
      subst this
      rw [if_pos le_rfl, Nat.mod_self]
      simp only [Rounding.arith, Nat.cast_one, sub_self, zero_mul, one_mul, R.rnd_zero, hc, zero_add]
    · rw [if_neg h2, hk.prev (by omega)]
      rfl

/-- **C42**, a part that holds (exact arithmetic): if all of at least five observations equal `c`, and `W ≥ 4`, the estimate
is exactly `c`. -/
theorem C42_exact_partial (q c : K) (W : ℕ) (hW : 4 ≤ W) (w w' : WP2 K) (hw : WP2.new (exact K) q W = .ok w) (n : ℕ)
    (hn : 5 ≤ n) (hu : updateAll (WP2.update (exact K)) w (List.replicate n c) = .ok w') :
    ∃ w'', w'.evaluate (exact K) = .ok (c, w'') := by
  obtain ⟨hc, b, hh⟩ := WP2.const_run Rounding.none q c rfl W hW w w' hw n hu
  obtain ⟨v, r, w2, e1, e2, -, -, -, -, e3⟩ := hh.evaluate (by rw [hc.size]; omega)
  have hv : v = c := (WP2.evaluate_const (hc.late hn) e1).1
  refine ⟨w2, ?_⟩
  rw [show exact K = (Rounding.none (K := K)).arith from rfl, e2, e3, hv, hc.size, hc.count]
  split
  · rfl
  · rename_i hnW
    rcases Nat.lt_or_ge W n with h' | h'
    · rw [hc.prev h']
      simp only [Rounding.arith, Rounding.none, Arith.ofNat, Rat.cast_one]
      congr 2; ring
    · have : n = W := by omega
      subst this
      simp [Rounding.arith, Rounding.none, Arith.ofNat]

/-- Twelve equal observations in a window of five. -/
example : (do
    let w ← WP2.new (exact ℚ) (1 / 3) 5
    WP2.valueAfter (exact ℚ) w (List.replicate 12 7)) = .ok 7 := by
  decide +kernel

/-! ## C43 -/

/-- The full property (exact arithmetic). It is false of the code. -/
def C43_full : Prop := ∀ (q : ℚ) (W : ℕ) (w w' w'' : WP2 ℚ) (v lo hi : ℚ), 0 < W →
  WP2.new (exact ℚ) q W = .ok w → ∀ xs : List ℚ, 5 ≤ xs.length → InRange lo hi xs →
  updateAll (WP2.update (exact ℚ)) w xs = .ok w' → w'.evaluate (exact ℚ) = .ok (v, w'') → lo ≤ v ∧ v ≤ hi

/-- **C43** is violated: the median of 0, 1, 0, 1, 1, 1 in a window of five is reported as -1. -/
theorem C43_violated : ¬ C43_full := by
  intro h
  have h1 := h (1 / 2) 5 ⟨5, 0, P2.blank (1 / 2), 0⟩
    ⟨5, 6, ⟨1 / 2, ⟨0, 5 / 4, 5 / 2, 15 / 4, 5⟩, ⟨0, 1, 2, 3, 5⟩, ⟨0, 0, 1, 1, 1⟩, 0⟩, 1⟩
    ⟨5, 6, ⟨1 / 2, ⟨0, 5 / 4, 5 / 2, 15 / 4, 5⟩, ⟨0, 1, 2, 3, 5⟩, ⟨0, 0, 1, 1, 1⟩, 0⟩, 1⟩ (-1) 0 1 (by norm_num)
    (by decide +kernel) [0, 1, 0, 1, 1, 1] (by simp) (by simp [InRange]) (by decide +kernel) (by decide +kernel)
  exact absurd h1.1 (by norm_num)


/-- While at most `W` observations have been given, the inner estimator has seen exactly those. -/
theorem WP2.updateAll_short {F : Type} (A : Arith F) (W : ℕ) (p : P2 F) (pv : F) (n : ℕ) (xs : List F)
    (h : n + xs.length ≤ W) : updateAll (WP2.update A) (⟨W, n, p, pv⟩ : WP2 F) xs =
      (updateAll (P2.update A) p xs).mapOk (fun p' => ⟨W, n + xs.length, p', pv⟩) := by
  induction xs generalizing p n with
  | nil => rfl
  | cons x xs ih =>
    rw [List.length_cons] at h
    simp only [updateAll, WP2.update]
    rcases hu : P2.update A p x with p1 | m | u
    · simp only [Res.ok_bind, gt_iff_lt, show 0 < W by omega, if_true,
        show ¬ ((n + 1) % (W + 1) = 0) by rw [Nat.mod_eq_of_lt (by omega)]; omega, if_false, List.length_cons]
      rw [ih p1 (n + 1) (by omega), show n + 1 + xs.length = n + (xs.length + 1) by omega]
    · rfl
    · rfl

/-- **C43**, a part that holds (any rounding): from the fifth observation until the window is full, the value
lies between the least and the greatest observation. Missing: every later phase of the window. -/
theorem C43_filling_partial (R : Rounding K) (q : K) (W : ℕ) (w w' : WP2 K) (hw : WP2.new R.arith q W = .ok w)
    (xs : List K) (h5 : 5 ≤ xs.length) (hW : xs.length ≤ W) (hx : ∀ x ∈ xs, R.rnd x = x)
    (hu : updateAll (WP2.update R.arith) w xs = .ok w') :
    ∃ v lo hi, w'.evaluate R.arith = .ok (v, w') ∧ IsMin xs lo ∧ IsMax xs hi ∧ lo ≤ v ∧ v ≤ hi := by
  obtain ⟨p, hp, rfl⟩ := WP2.new_eq_ok hw
  rw [WP2.updateAll_short _ _ _ _ _ _ (by omega)] at hu
  rcases hu' : updateAll (P2.update R.arith) p xs with p' | m | u
  · rw [hu'] at hu
    simp only [Res.mapOk] at hu
    injection hu with hu
    subst hu
    have hs := (P2.Since.start (P2.Hull.new hp le_rfl le_rfl) (by rw [P2.new_eq_ok hp])).updateAll hx hu'
    rw [List.nil_append] at hs
    obtain ⟨s1, s2, s3⟩ := hs.late h5
    obtain ⟨v, e1, e2, e3⟩ := hs.evaluate h5
    refine ⟨v, _, _, ?_, s2, s3, e2, e3⟩
    unfold WP2.evaluate
    simp only [e1, Res.ok_bind, Nat.zero_add]
    split
    · rfl
    · rename_i hlt
      have hWl : xs.length = W := by omega
      rw [if_neg (by omega), hWl, Nat.mod_self]
      have hv : R.rnd v = v := by
        obtain ⟨v', e1', e4⟩ := P2.evaluate_pure (R := R) hs.q0 hs.q1 s1
        rw [e1] at e1'
        simp only [Res.ok.injEq, Prod.mk.injEq] at e1'
        rw [e1'.1]
        exact hs.rep v' e4
      simp [Rounding.arith, Arith.ofNat, R.rnd_one, R.rnd_zero, hv]
  · rw [hu'] at hu; cases hu
  · rw [hu'] at hu; cases hu

/-- Window 6, exactly filled. -/
example : (do
    let w ← WP2.new b64 (1 / 2) 6
    WP2.valueAfter b64 w [3, 1, 4, 1, 5, 9]) = .ok 3 := by
  decide +kernel

namespace WP2

/-- Exact arithmetic: the combination extrapolates by at most `W - 1` times the width of the interval. -/
theorem Hull.value {lo hi : K} {w : WP2 K} (h : Hull Rounding.none lo hi w) (hW : 0 < w.windowSize) :
    ∃ r w', w.evaluate (exact K) = .ok (r, w') ∧
      lo - (w.windowSize - 1 : ℕ) * (hi - lo) ≤ r ∧ r ≤ hi + (w.windowSize - 1 : ℕ) * (hi - lo) := by
  obtain ⟨v, r, w', -, e2, -, -, e4, e5, e6⟩ := h.evaluate hW
  refine ⟨r, w', e2, ?_⟩
  have hd : 0 ≤ hi - lo := by linarith
  have hk0 : (0 : K) ≤ (w.windowSize - 1 : ℕ) := Nat.cast_nonneg _
  have hb := mul_nonneg hk0 hd
  split at e6
  · rw [e6]; constructor <;> linarith
  · rename_i hn
    set m := w.historyCount % w.windowSize with hm
    have hm' : m ≤ w.windowSize - 1 := by have := Nat.mod_lt w.historyCount hW; omega
    have e7 : r = v + (m : K) * (v - w.previous) := by
      rw [e6]
      simp only [Rounding.arith, Rounding.none, Arith.ofNat, Rat.cast_one]
      push_cast
      ring
    have hmk : (m : K) ≤ (w.windowSize - 1 : ℕ) := by exact_mod_cast hm'
    have hm0 : (0 : K) ≤ (m : K) := Nat.cast_nonneg _
    rcases Nat.lt_or_ge w.windowSize w.historyCount with h' | h'
    · obtain ⟨p1, p2⟩ := h.prev h'
      have a1 : (m : K) * (v - w.previous) ≤ (m : K) * (hi - lo) := mul_le_mul_of_nonneg_left (by linarith) hm0
      have a2 : (m : K) * (lo - hi) ≤ (m : K) * (v - w.previous) := mul_le_mul_of_nonneg_left (by linarith) hm0
      have a3 : (m : K) * (hi - lo) ≤ (w.windowSize - 1 : ℕ) * (hi - lo) := mul_le_mul_of_nonneg_right hmk hd
      constructor <;> nlinarith
    · have : m = 0 := by rw [hm, show w.historyCount = w.windowSize by omega, Nat.mod_self]
      rw [e7, this]
      constructor <;> simp <;> linarith

theorem updateAll_hull {R : Rounding K} {lo hi : K} {w w' : WP2 K} (h : Hull R lo hi w) (hW : 0 < w.windowSize)
    {xs : List K} (hx : ∀ x ∈ xs, R.rnd x = x ∧ lo ≤ x ∧ x ≤ hi)
    (hu : updateAll (WP2.update R.arith) w xs = .ok w') :
    Hull R lo hi w' ∧ w'.windowSize = w.windowSize ∧ w'.historyCount = w.historyCount + xs.length := by
  induction xs generalizing w with
  | nil =>
    simp only [updateAll] at hu; injection hu with hu; subst hu
    exact ⟨h, rfl, rfl⟩
  | cons x xs ih =>
    simp only [updateAll] at hu
    obtain ⟨w1, h1, hu⟩ := Res.bind_eq_ok.1 hu
    obtain ⟨x1, x2, x3⟩ := hx x (by simp)
    obtain ⟨k1, k2, k3⟩ := h.update hW x1 x2 x3 h1
    obtain ⟨j1, j2, j3⟩ := ih k1 (by omega) (fun y hy => hx y (by simp [hy])) hu
    exact ⟨j1, by omega, by rw [List.length_cons]; omega⟩

end WP2

/-- **C43**, a bound for every history and every window size ≥ 1 (exact arithmetic): the value is at most
`W - 1` interval widths outside any interval that contains 0 and the data. Missing: staying inside. -/
theorem C43_history_partial (q : K) (W : ℕ) (hW : 0 < W) (w w' : WP2 K) (hw : WP2.new (exact K) q W = .ok w)
    (ops : List (SOp K)) (vs : List K) (lo hi : K) (h0 : lo ≤ 0 ∧ 0 ≤ hi)
    (hx : InRange lo hi (SOp.observations ops))
    (hr : SOp.run (WP2.update (exact K)) (WP2.evaluate (exact K)) w ops = .ok (vs, w')) :
    ∃ r w'', w'.evaluate (exact K) = .ok (r, w'') ∧
      lo - (W - 1 : ℕ) * (hi - lo) ≤ r ∧ r ≤ hi + (W - 1 : ℕ) * (hi - lo) := by
  have hh : WP2.Hull Rounding.none lo hi w := WP2.Hull.new hw h0.1 h0.2
  have hs : w.windowSize = W := by obtain ⟨p, -, rfl⟩ := WP2.new_eq_ok hw; rfl
  obtain ⟨k1, k2, -⟩ := WP2.run_hull Rounding.none hh (by omega) (fun x hx' => ⟨rfl, hx x hx'⟩) hr
  have := k1.value (by omega)
  rw [k2, hs] at this
  exact this

/-- **C43**, the bound in terms of the data alone (exact arithmetic, `W ≥ 4`, five or more observations): at
most `W - 1` data ranges outside the data range. Missing: staying inside. -/
theorem C43_extrapolation_partial (q : K) (W : ℕ) (hW : 4 ≤ W) (w w' : WP2 K)
    (hw : WP2.new (exact K) q W = .ok w) (xs : List K) (h5 : 5 ≤ xs.length) (lo hi : K)
    (hx : InRange lo hi xs) (hu : updateAll (WP2.update (exact K)) w xs = .ok w') :
    ∃ r w'', w'.evaluate (exact K) = .ok (r, w'') ∧
      lo - (W - 1 : ℕ) * (hi - lo) ≤ r ∧ r ≤ hi + (W - 1 : ℕ) * (hi - lo) := by
  obtain ⟨p, hp, rfl⟩ := WP2.new_eq_ok hw
  obtain ⟨a, b, c, d, e, ys, rfl⟩ : ∃ a b c d e ys, xs = [a, b, c, d] ++ ([e] ++ ys) := by
    match xs, h5 with
    | a :: b :: c :: d :: e :: ys, _ => exact ⟨a, b, c, d, e, ys, rfl⟩
  rw [updateAll_append] at hu
  obtain ⟨w4, h4, hu4⟩ := Res.bind_eq_ok.1 hu
  rw [updateAll_append] at hu4
  obtain ⟨w5, h5', hu5⟩ := Res.bind_eq_ok.1 hu4
  rw [WP2.updateAll_short _ _ _ _ _ _ (by simpa using hW)] at h4
  rcases h4' : updateAll (P2.update (exact K)) p [a, b, c, d] with p4 | m | u
  · rw [h4'] at h4
    simp only [Res.mapOk] at h4
    injection h4 with h4
    subst h4
    have s0 := P2.Since.start (R := Rounding.none) (P2.Hull.new (R := Rounding.none) hp le_rfl le_rfl)
      (by rw [P2.new_eq_ok hp])
    have s4 := s0.updateAll (fun _ _ => rfl) h4'
    have hull5 : ∀ p5, P2.update (exact K) p4 e = .ok p5 → P2.Hull Rounding.none lo hi p5 := by
      intro p5 hp5
      have s5 := s4.update rfl hp5
      obtain ⟨t1, t2, t3⟩ := s5.late (by simp)
      refine ⟨s5.q0, s5.q1, s5.pos, s5.rep, ?_, fun _ => t1⟩
      have hlo : lo ≤ p5.heights.x0 := (hx _ (by have := t2.1; simp at this ⊢; tauto)).1
      have hhi : p5.heights.x4 ≤ hi := (hx _ (by have := t3.1; simp at this ⊢; tauto)).2
      obtain ⟨u1, u2, u3, u4⟩ := t1
      intro h hh
      simp only [Five.toList, List.mem_cons, List.not_mem_nil, or_false] at hh
      rcases hh with rfl | rfl | rfl | rfl | rfl <;> constructor <;> linarith
    have hh5 : WP2.Hull Rounding.none lo hi w5 ∧ w5.windowSize = W := by
      simp only [updateAll, WP2.update] at h5'
      obtain ⟨w5', h5a, e5⟩ := Res.bind_eq_ok.1 h5'
      injection e5 with e5
      subst e5
      obtain ⟨p5, hp5, h5b⟩ := Res.bind_eq_ok.1 h5a
      have hull := hull5 p5 hp5
      rw [if_pos (show W > 0 by omega)] at h5b
      split at h5b
      · obtain ⟨⟨v, p2⟩, h2, h5c⟩ := Res.bind_eq_ok.1 h5b
        injection h5c with h5c
        subst h5c
        obtain ⟨v', p2', e1, e2, e3, e4⟩ := hull.evaluate
        rw [show (Rounding.none (K := K)).arith = exact K from rfl, h2] at e1
        simp only [Res.ok.injEq, Prod.mk.injEq] at e1
        obtain ⟨rfl, rfl⟩ := e1
        exact ⟨⟨e4.clear, fun _ => ⟨e2, e3⟩⟩, rfl⟩
      · rename_i hmod
        injection h5b with h5b
        subst h5b
        refine ⟨⟨hull, fun h => ?_⟩, rfl⟩
        simp at h
        have : W = 4 := by omega
        subst this
        simp at hmod
    obtain ⟨k1, k2, -⟩ := WP2.updateAll_hull (R := Rounding.none) hh5.1 (by omega)
      (fun x hx' => ⟨rfl, hx x (by simp [hx'])⟩) hu5
    have := k1.value (by omega)
    rw [k2, hh5.2] at this
    exact this
  · rw [h4'] at h4; cases h4
  · rw [h4'] at h4; cases h4

/-- The C43 witness is one data range below the minimum. -/
example : (do
    let w ← WP2.new (exact ℚ) (1 / 2) 5
    WP2.valueAfter (exact ℚ) w [0, 1, 0, 1, 1, 1]) = .ok (-1) := by
  decide +kernel


end Round

/-! ## C44 -/

/-- The full property (exact arithmetic): every history of calls on a `StreamingIQR`, of any window size, is
defined and returns the differences of the values of the two estimators. It is false of the code. -/
def C44_full : Prop := ∀ (low high : ℚ) (W : ℕ) (i : IQR ℚ) (l h : WP2 ℚ), IQR.new (exact ℚ) low high W = .ok i →
  WP2.new (exact ℚ) low W = .ok l → WP2.new (exact ℚ) high W = .ok h → ∀ ops : List (SOp ℚ),
  ∃ vs vl vh i' l' h', SOp.run (IQR.update (exact ℚ)) (IQR.evaluate (exact ℚ)) i ops = .ok (vs, i') ∧
    SOp.run (WP2.update (exact ℚ)) (WP2.evaluate (exact ℚ)) l ops = .ok (vl, l') ∧
    SOp.run (WP2.update (exact ℚ)) (WP2.evaluate (exact ℚ)) h ops = .ok (vh, h') ∧
    vs = List.zipWith (· - ·) vh vl

/-- **C44** is violated: with the default window 0 the first `evaluate` divides by zero. -/
theorem C44_violated : ¬ C44_full := by
  intro h
  obtain ⟨vs, vl, vh, i', l', h', h1, -⟩ := h (1 / 4) (3 / 4) 0
    ⟨⟨0, 0, P2.blank (1 / 4), 0⟩, ⟨0, 0, P2.blank (3 / 4), 0⟩, 0⟩
    ⟨0, 0, P2.blank (1 / 4), 0⟩ ⟨0, 0, P2.blank (3 / 4), 0⟩ (by decide +kernel) (by decide +kernel)
    (by decide +kernel) [.update 1, .evaluate]
  have h2 : SOp.run (IQR.update (exact ℚ)) (IQR.evaluate (exact ℚ))
    ⟨⟨0, 0, P2.blank (1 / 4), 0⟩, ⟨0, 0, P2.blank (3 / 4), 0⟩, 0⟩ [.update 1, .evaluate] = .ub .divZero := by
    decide +kernel
  rw [h1] at h2
  cases h2

/-- The calls on a `StreamingIQR` go to both estimators. -/
theorem IQR.run_eq {F : Type} (A : Arith F) (i : IQR F) (ops : List (SOp F)) (vs : List F) (i' : IQR F) :
    SOp.run (IQR.update A) (IQR.evaluate A) i ops = .ok (vs, i') ↔
    ∃ vl vh, SOp.run (WP2.update A) (WP2.evaluate A) i.low ops = .ok (vl, i'.low) ∧
      SOp.run (WP2.update A) (WP2.evaluate A) i.high ops = .ok (vh, i'.high) ∧
      vs = List.zipWith A.sub vh vl ∧ vh.length = vl.length ∧
      i'.historyCount = i.historyCount + (SOp.observations ops).length := by
  induction ops generalizing i vs with
  | nil =>
    simp only [SOp.run, Res.ok.injEq, Prod.mk.injEq]
    constructor
    · rintro ⟨rfl, rfl⟩
      exact ⟨[], [], ⟨rfl, rfl⟩, ⟨rfl, rfl⟩, rfl, rfl, rfl⟩
    · rintro ⟨vl, vh, ⟨h1, h2⟩, ⟨h3, h4⟩, h5, -, h7⟩
      subst h1; subst h3
      refine ⟨by rw [h5]; rfl, ?_⟩
      cases i; cases i'
      simp only [SOp.observations, List.length_nil] at h2 h4 h7
      subst h2; subst h4; subst h7
      rfl
  | cons o ops ih =>
    cases o with
    | update x =>
      simp only [SOp.run, IQR.update, SOp.observations, List.length_cons]
      rcases i.low.update A x with l | m | u
      · rcases i.high.update A x with h | m | u
        · simp only [Res.ok_bind]
          rw [ih]
          constructor
          · rintro ⟨vl, vh, h1, h2, h3, h4, h5⟩
            exact ⟨vl, vh, h1, h2, h3, h4, by rw [h5]; simp only; omega⟩
          · rintro ⟨vl, vh, h1, h2, h3, h4, h5⟩
            exact ⟨vl, vh, h1, h2, h3, h4, by rw [h5]; simp only; omega⟩
        · exact ⟨fun h => (by cases h), fun ⟨_, _, _, h, _⟩ => (by cases h)⟩
        · exact ⟨fun h => (by cases h), fun ⟨_, _, _, h, _⟩ => (by cases h)⟩
      · exact ⟨fun h => (by cases h), fun ⟨_, _, h, _⟩ => (by cases h)⟩
      · exact ⟨fun h => (by cases h), fun ⟨_, _, h, _⟩ => (by cases h)⟩
    | evaluate =>
      simp only [SOp.run, IQR.evaluate, SOp.observations]
      rcases i.high.evaluate A with ⟨b, h⟩ | m | u
      · rcases i.low.evaluate A with ⟨a, l⟩ | m | u
        · simp only [Res.ok_bind]
          constructor
          · intro hr
            obtain ⟨⟨vs1, i1⟩, h1, hr⟩ := Res.bind_eq_ok.1 hr
            simp only [Res.ok.injEq, Prod.mk.injEq] at hr
            obtain ⟨rfl, rfl⟩ := hr
            obtain ⟨vl, vh, k1, k2, k3, k4, k5⟩ := (ih _ _).1 h1
            refine ⟨a :: vl, b :: vh, ?_, ?_, by simp [k3], by simp [k4], k5⟩
            · simp only at k1; rw [k1]; rfl
            · simp only at k2; rw [k2]; rfl
          · rintro ⟨vl, vh, k1, k2, k3, k4, k5⟩
            obtain ⟨⟨vl1, l1⟩, e1, k1⟩ := Res.bind_eq_ok.1 k1
            obtain ⟨⟨vh1, h1⟩, e2, k2⟩ := Res.bind_eq_ok.1 k2
            simp only [Res.ok.injEq, Prod.mk.injEq] at k1 k2
            obtain ⟨rfl, rfl⟩ := k1
            obtain ⟨rfl, rfl⟩ := k2
            have := (ih { i with low := l, high := h } (List.zipWith A.sub vh1 vl1)).2
              ⟨vl1, vh1, e1, e2, rfl, by simpa using k4, k5⟩
            rw [this, k3]
            rfl
        · exact ⟨fun h => (by cases h), fun ⟨_, _, h, _⟩ => (by cases h)⟩
        · exact ⟨fun h => (by cases h), fun ⟨_, _, h, _⟩ => (by cases h)⟩
      · exact ⟨fun h => (by cases h), fun ⟨_, _, _, h, _⟩ => (by cases h)⟩
      · exact ⟨fun h => (by cases h), fun ⟨_, _, _, h, _⟩ => (by cases h)⟩

theorem IQR.new_eq_ok {F : Type} {A : Arith F} {low high : F} {W : ℕ} {i : IQR F} :
    IQR.new A low high W = .ok i ↔
      WP2.new A low W = .ok i.low ∧ WP2.new A high W = .ok i.high ∧ i.historyCount = 0 := by
  unfold IQR.new
  rcases WP2.new A low W with l | m | u
  · rcases WP2.new A high W with h | m | u
    · simp only [Res.ok_bind, Res.ok.injEq]
      constructor
      · rintro rfl; exact ⟨rfl, rfl, rfl⟩
      · rintro ⟨h1, h2, h3⟩; cases i; simp only at h1 h2 h3; subst h1; subst h2; subst h3; rfl
    · exact ⟨fun h => (by cases h), fun ⟨_, h, _⟩ => (by cases h)⟩
    · exact ⟨fun h => (by cases h), fun ⟨_, h, _⟩ => (by cases h)⟩
  · exact ⟨fun h => (by cases h), fun ⟨h, _⟩ => (by cases h)⟩
  · exact ⟨fun h => (by cases h), fun ⟨h, _⟩ => (by cases h)⟩

theorem IQR.newDefault_eq {F : Type} (A : Arith F) (W : ℕ) :
    IQR.newDefault A W = IQR.new A (A.lit (1 / 4)) (A.lit (3 / 4)) W := rfl

/-- **C44**, the part that holds (any arithmetic, any window size): a history is defined for a `StreamingIQR`
exactly when it is defined for both estimators, and it then returns the differences. -/
theorem C44_difference_partial {F : Type} (A : Arith F) (low high : F) (W : ℕ) (i : IQR F) (l h : WP2 F)
    (hi : IQR.new A low high W = .ok i) (hl : WP2.new A low W = .ok l) (hh : WP2.new A high W = .ok h)
    (ops : List (SOp F)) (vs : List F) :
    (∃ i', SOp.run (IQR.update A) (IQR.evaluate A) i ops = .ok (vs, i')) ↔
    ∃ vl vh l' h', SOp.run (WP2.update A) (WP2.evaluate A) l ops = .ok (vl, l') ∧
      SOp.run (WP2.update A) (WP2.evaluate A) h ops = .ok (vh, h') ∧ vs = List.zipWith A.sub vh vl ∧
      vh.length = vl.length := by
  obtain ⟨h1, h2, h3⟩ := IQR.new_eq_ok.1 hi
  rw [hl] at h1
  rw [hh] at h2
  injection h1 with h1
  injection h2 with h2
  subst h1; subst h2
  constructor
  · rintro ⟨i', hr⟩
    obtain ⟨vl, vh, k1, k2, k3, k4, -⟩ := (IQR.run_eq A i ops vs i').1 hr
    exact ⟨vl, vh, _, _, k1, k2, k3, k4⟩
  · rintro ⟨vl, vh, l', h', k1, k2, k3, k4⟩
    exact ⟨⟨l', h', i.historyCount + (SOp.observations ops).length⟩,
      (IQR.run_eq A i ops vs _).2 ⟨vl, vh, k1, k2, k3, k4, rfl⟩⟩

section Round

variable {K : Type} [Field K] [LinearOrder K] [IsStrictOrderedRing K] [FloorRing K]

/-- **C44**, definedness (any rounding): for window sizes ≥ 1 every history of at most 2^31 observations is
defined. Missing: window 0, where `evaluate` divides by zero, and longer histories, where a marker position
may overflow. -/
theorem C44_defined_partial (R : Rounding K) (low high : K) (W : ℕ) (hW : 0 < W) (i : IQR K)
    (hi : IQR.new R.arith low high W = .ok i) (ops : List (SOp K))
    (hx : ∀ x ∈ SOp.observations ops, R.rnd x = x) (hlen : (SOp.observations ops).length ≤ 2 ^ 31) :
    ∃ vs i', SOp.run (IQR.update R.arith) (IQR.evaluate R.arith) i ops = .ok (vs, i') := by
  obtain ⟨h1, h2, h3⟩ := IQR.new_eq_ok.1 hi
  obtain ⟨b, hb0, hb⟩ := exists_bound (SOp.observations ops)
  have hx' : ∀ x ∈ SOp.observations ops, R.rnd x = x ∧ -b ≤ x ∧ x ≤ b := fun x h => ⟨hx x h, hb x h⟩
  have hs : ∀ q (w : WP2 K), WP2.new R.arith q W = .ok w → w.windowSize = W := by
    intro q w hw; obtain ⟨p, -, rfl⟩ := WP2.new_eq_ok hw; rfl
  obtain ⟨vl, l', e1⟩ := WP2.run_ok R (WP2.Hull.new h1 (by linarith) hb0) (by rw [hs _ _ h1]; exact hW)
    (WP2.fits_new h1) ops hx' (by omega)
  obtain ⟨vh, h', e2⟩ := WP2.run_ok R (WP2.Hull.new h2 (by linarith) hb0) (by rw [hs _ _ h2]; exact hW)
    (WP2.fits_new h2) ops hx' (by omega)
  refine ⟨_, ⟨l', h', i.historyCount + (SOp.observations ops).length⟩,
    (IQR.run_eq R.arith i ops _ _).2 ⟨vl, vh, e1, e2, rfl, ?_, rfl⟩⟩
  have hlen' : ∀ (ops : List (SOp K)) (w w' : WP2 K) vs, SOp.run (WP2.update R.arith) (WP2.evaluate R.arith) w ops = .ok (vs, w') →
      vs.length = (ops.filter fun o => match o with | .evaluate => true | _ => false).length := by
    clear * -
    intro ops
    induction ops with
    | nil => intro w w' vs h; simp only [SOp.run] at h; injection h with h; injection h with h _; subst h; rfl
    | cons o ops ih =>
      intro w w' vs h
      cases o with
      | update x =>
        simp only [SOp.run] at h
        obtain ⟨w1, -, h⟩ := Res.bind_eq_ok.1 h
        rw [ih _ _ _ h, List.filter_cons_of_neg (by simp)]
      | evaluate =>
        simp only [SOp.run] at h
        obtain ⟨⟨v, w1⟩, -, h⟩ := Res.bind_eq_ok.1 h
        obtain ⟨⟨vs1, w2⟩, h1, h⟩ := Res.bind_eq_ok.1 h
        simp only [Res.ok.injEq, Prod.mk.injEq] at h
        obtain ⟨rfl, -⟩ := h
        rw [List.filter_cons_of_pos (by simp), List.length_cons, List.length_cons, ih _ _ _ h1]
  rw [hlen' _ _ _ _ e1, hlen' _ _ _ _ e2]

/-- A history over a window of three. -/
example : (do
    let i ← IQR.newDefault b64 3
    let r ← SOp.run (IQR.update b64) (IQR.evaluate b64) i
      [.update 1, .update 2, .evaluate, .update 3, .update 4, .update 5, .evaluate, .update 6, .evaluate]
    .ok r.1.length) = .ok 3 := by
  decide +kernel

/-! ## C45 -/

/-- The full property (exact arithmetic, evaluated once enough data are there). It is false of the code. -/
def C45_full : Prop := ∀ (low high : ℚ) (W : ℕ) (i i' i'' : IQR ℚ) (v : ℚ), low ≤ high →
  IQR.new (exact ℚ) low high W = .ok i → ∀ xs : List ℚ, updateAll (IQR.update (exact ℚ)) i xs = .ok i' →
  i'.evaluate (exact ℚ) = .ok (v, i'') → 0 ≤ v

/-- Value of `evaluate` after feeding `xs`. -/
def IQR.valueAfter {F : Type} (A : Arith F) (i : IQR F) (xs : List F) : Res F := do
  let i ← updateAll (IQR.update A) i xs
  let (v, _) ← i.evaluate A
  .ok v

/-- **C45** is violated, even for the default quartiles and before the window fills: after thirteen
observations the 25 % estimate exceeds the 75 % estimate. -/
theorem C45_violated : ¬ C45_full := by
  intro h
  have key : IQR.valueAfter (exact ℚ)
      ⟨⟨20, 0, P2.blank (1 / 4), 0⟩, ⟨20, 0, P2.blank (3 / 4), 0⟩, 0⟩
      [0, 1, 0, 0, -100, 2, -100, 2, 0, 1, 1, 100, 2] = .ok (-4991 / 1215) := by decide +kernel
  unfold IQR.valueAfter at key
  obtain ⟨i', h1, key⟩ := Res.bind_eq_ok.1 key
  obtain ⟨⟨v, i''⟩, h2, key⟩ := Res.bind_eq_ok.1 key
  injection key with key
  have := h (1 / 4) (3 / 4) 20 _ i' i'' v (by norm_num) (by decide +kernel) _ h1 h2
  rw [key] at this
  norm_num at this

/-- The default constructor is the witness's constructor, and doubles cross too. -/
theorem C45_binary64_violated : (IQR.newDefault b64 20 >>= fun i =>
    IQR.valueAfter b64 i [0, 1, 0, 0, -100, 2, -100, 2, 0, 1, 1, 100, 2] >>= fun v =>
    .ok (decide (v < 0))) = .ok true := by
  decide +kernel

namespace IQR

/-- Both estimators have seen the same first five observations. -/
structure Pair (R : Rounding K) (W : ℕ) (i : IQR K) : Prop where
  hl : ∃ lo hi, WP2.Hull R lo hi i.low
  hh : ∃ lo hi, WP2.Hull R lo hi i.high
  sl : i.low.windowSize = W
  sh : i.high.windowSize = W
  count : i.low.historyCount = i.high.historyCount
  cl : i.low.p2.historyCount = i.low.historyCount
  ch : i.high.p2.historyCount = i.low.historyCount
  quant : i.low.p2.quantile ≤ i.high.p2.quantile
  heights : i.low.p2.heights = i.high.p2.heights

theorem evalIndex_mono (R : Rounding K) {p p' : P2 K} (hc : p.historyCount = p'.historyCount)
    (q0 : 0 < p.quantile) (hq : p.quantile ≤ p'.quantile) :
    P2.evalIndex R.arith p ≤ P2.evalIndex R.arith p' := by
  unfold P2.evalIndex
  rw [hc]
  simp only [Rounding.arith, Arith.ofNat]
  generalize R.rnd (R.rnd _ - R.rnd _) = a
  have h0 : 0 ≤ R.rnd (|a| * p.quantile) := R.rnd_nonneg (mul_nonneg (abs_nonneg _) q0.le)
  have h1 : R.rnd (|a| * p.quantile) ≤ R.rnd (|a| * p'.quantile) :=
    R.mono (mul_le_mul_of_nonneg_left hq (abs_nonneg _))
  rw [if_pos h0, if_pos (h0.trans h1)]
  exact Int.floor_mono (by linarith)

/-- While the window fills, `evaluate` returns the inner estimate. -/
theorem _root_.KML.WP2.Hull.evaluate_filling {R : Rounding K} {lo hi : K} {w : WP2 K} (h : WP2.Hull R lo hi w)
    (hW : 0 < w.windowSize) (hn : w.historyCount ≤ w.windowSize) :
    ∃ v w', w.p2.evaluate R.arith = .ok (v, w'.p2) ∧ w.evaluate R.arith = .ok (v, w') ∧
      WP2.Hull R lo hi w' ∧ w' = { w with p2 := w'.p2 } := by
  obtain ⟨v, r, w', e1, e2, e3, e4, -, -, e7⟩ := h.evaluate hW
  suffices r = v by subst this; exact ⟨r, w', e1, e2, e3, e4⟩
  rw [e7]
  split
  · rfl
  · have hv : R.rnd v = v := by
      obtain ⟨v', p', f1, f2, -⟩ := P2.evaluate_spec (R := R) h.p2.q0 h.p2.q1
      rw [e1] at f1
      simp only [Res.ok.injEq, Prod.mk.injEq] at f1
      rw [f1.1]
      exact h.p2.rep v' f2
    rw [show w.historyCount = w.windowSize by omega, Nat.mod_self]
    simp [Rounding.arith, Arith.ofNat, R.rnd_one, R.rnd_zero, hv]

theorem Pair.evaluate {R : Rounding K} {W : ℕ} {i : IQR K} (h : Pair R W i) (hW : 0 < W)
    (h5 : i.low.historyCount ≤ 5) (hn : i.low.historyCount ≤ W) :
    ∃ v i', i.evaluate R.arith = .ok (v, i') ∧ 0 ≤ v ∧ Pair R W i' ∧
      i'.low.historyCount = i.low.historyCount := by
  obtain ⟨lo, hi, hl⟩ := h.hl
  obtain ⟨lo', hi', hh⟩ := h.hh
  obtain ⟨a, l, a1, a2, a3, a4⟩ := hl.evaluate_filling (by rw [h.sl]; exact hW) (by rw [h.sl]; exact hn)
  obtain ⟨b, g, b1, b2, b3, b4⟩ := hh.evaluate_filling (by rw [h.sh]; exact hW)
    (by rw [h.sh, ← h.count]; exact hn)
  obtain ⟨a', p1, c1, -, c2, c3, c4⟩ := P2.evaluate_spec (R := R) hl.p2.q0 hl.p2.q1
  obtain ⟨b', p2, d1, -, d2, d3, d4⟩ := P2.evaluate_spec (R := R) hh.p2.q0 hh.p2.q1
  rw [a1] at c1
  rw [b1] at d1
  simp only [Res.ok.injEq, Prod.mk.injEq] at c1 d1
  obtain ⟨rfl, rfl⟩ := c1
  obtain ⟨rfl, rfl⟩ := d1
  have hcl : i.low.p2.historyCount ≤ 5 := by rw [h.cl]; exact h5
  have hch : i.high.p2.historyCount ≤ 5 := by rw [h.ch]; exact h5
  have e1 := c4 hcl
  have e2 := d4 hch
  rw [← h.heights] at e2
  have hidx := evalIndex_mono R (show i.low.p2.historyCount = i.high.p2.historyCount by rw [h.cl, h.ch])
    hl.p2.q0 h.quant
  have hsort := (Five.sorted_iff _).1 (Five.sort_sorted R.arith (P2.lt_decide R) i.low.p2.heights)
  obtain ⟨k1, e1⟩ := List.getElem?_eq_some_iff.1 e1
  obtain ⟨k2, e2⟩ := List.getElem?_eq_some_iff.1 e2
  have hab : a ≤ b := by
    rw [← e1, ← e2]
    rcases Nat.lt_or_eq_of_le (Int.toNat_le_toNat hidx) with h' | h'
    · exact List.pairwise_iff_getElem.1 hsort _ _ k1 k2 h'
    · simp only [h', le_refl]
  refine ⟨R.rnd (b - a), { i with low := l, high := g }, ?_, R.rnd_nonneg (by linarith), ?_, ?_⟩
  · unfold IQR.evaluate; rw [b2, a2]; rfl
  · have hp1 : l.p2.heights = i.low.p2.heights.sort R.arith := c2.resolve_right (fun h => by omega)
    have hp2 : g.p2.heights = i.high.p2.heights.sort R.arith := d2.resolve_right (fun h => by omega)
    refine ⟨⟨lo, hi, a3⟩, ⟨lo', hi', b3⟩, by rw [a4]; exact h.sl, by rw [b4]; exact h.sh, ?_, ?_, ?_, ?_, ?_⟩
    · rw [a4, b4]; exact h.count
    · simp only; rw [c3, a4]; exact h.cl
    · simp only; rw [d3, a4]; exact h.ch
    · simp only; rw [c3, d3]; exact h.quant
    · simp only; rw [hp1, hp2, h.heights]
  · rw [a4]

theorem Pair.update {R : Rounding K} {W : ℕ} {i i' : IQR K} {x : K} (h : Pair R W i) (hW : 0 < W)
    (hn : i.low.historyCount + 1 ≤ W) (h5 : i.low.historyCount + 1 ≤ 5) (hx : R.rnd x = x)
    (hu : i.update R.arith x = .ok i') : Pair R W i' ∧ i'.low.historyCount = i.low.historyCount + 1 := by
  obtain ⟨lo, hi, hl⟩ := h.hl
  obtain ⟨lo', hi', hh⟩ := h.hh
  have widen : ∀ {lo hi : K} {w : WP2 K}, WP2.Hull R lo hi w → WP2.Hull R (min lo x) (max hi x) w := by
    intro lo hi w hw
    exact ⟨⟨hw.p2.q0, hw.p2.q1, hw.p2.pos, hw.p2.rep,
      fun y hy => ⟨(min_le_left _ _).trans (hw.p2.range y hy).1, (hw.p2.range y hy).2.trans (le_max_left _ _)⟩,
      hw.p2.sorted⟩, fun hy => ⟨(min_le_left _ _).trans (hw.prev hy).1, (hw.prev hy).2.trans (le_max_left _ _)⟩⟩
  unfold IQR.update at hu
  obtain ⟨l, h1, hu1⟩ := Res.bind_eq_ok.1 hu
  obtain ⟨g, h2, hu2⟩ := Res.bind_eq_ok.1 hu1
  injection hu2 with hu2
  subst hu2
  obtain ⟨r1, r2, r3⟩ := (widen hl).update (by rw [h.sl]; exact hW) hx (min_le_right _ _) (le_max_right _ _) h1
  obtain ⟨s1, s2, s3⟩ := (widen hh).update (by rw [h.sh]; exact hW) hx (min_le_right _ _) (le_max_right _ _) h2
  have key : ∀ {w w' : WP2 K}, w.windowSize = W → w.historyCount = i.low.historyCount → P2.PosInc w.p2.pos →
      w.p2.historyCount = i.low.historyCount → w.update R.arith x = .ok w' →
      w'.p2 = P2.updateFirst R.arith w.p2 x := by
    intro w w' k1 k2 k3 k4 k5
    unfold WP2.update at k5
    rw [P2.update_eq k3, if_pos (by omega)] at k5
    simp only [Res.ok_bind, k1, k2] at k5
    rw [if_pos (by omega), if_neg (by rw [Nat.mod_eq_of_lt (by omega)]; omega)] at k5
    injection k5 with k5
    subst k5
    rfl
  have e1 := key h.sl rfl hl.p2.pos h.cl h1
  have e2 := key h.sh h.count.symm hh.p2.pos h.ch h2
  refine ⟨⟨⟨_, _, r1⟩, ⟨_, _, s1⟩, by rw [r2]; exact h.sl, by rw [s2]; exact h.sh, ?_, ?_, ?_, ?_, ?_⟩, r3⟩
  · simp only [r3, s3, h.count]
  · simp only; rw [e1, (P2.updateFirst_frame _ _).1, h.cl, r3]
  · simp only; rw [e2, (P2.updateFirst_frame _ _).1, h.ch, r3]
  · simp only; rw [e1, e2, (P2.updateFirst_frame _ _).2.1, (P2.updateFirst_frame _ _).2.1]; exact h.quant
  · simp only
    rw [e1, e2]
    unfold P2.updateFirst
    simp only [h.heights, h.cl, h.ch]
    split <;> rfl

theorem Pair.run {R : Rounding K} {W : ℕ} (hW : 0 < W) {ops : List (SOp K)} {i i' : IQR K} {vs : List K}
    (h : Pair R W i) (hn : i.low.historyCount + (SOp.observations ops).length ≤ W)
    (h5 : i.low.historyCount + (SOp.observations ops).length ≤ 5)
    (hx : ∀ x ∈ SOp.observations ops, R.rnd x = x)
    (hr : SOp.run (IQR.update R.arith) (IQR.evaluate R.arith) i ops = .ok (vs, i')) : ∀ v ∈ vs, 0 ≤ v := by
  induction ops generalizing i vs with
  | nil => simp only [SOp.run] at hr; injection hr with hr; injection hr with hr _; subst hr; simp
  | cons o ops ih =>
    cases o with
    | update x =>
      simp only [SOp.observations, List.length_cons, List.mem_cons] at hn h5 hx
      simp only [SOp.run] at hr
      obtain ⟨i1, h1, hr1⟩ := Res.bind_eq_ok.1 hr
      obtain ⟨k1, k2⟩ := h.update hW (by omega) (by omega) (hx x (Or.inl rfl)) h1
      exact ih k1 (by omega) (by omega) (fun y hy => hx y (Or.inr hy)) hr1
    | evaluate =>
      simp only [SOp.observations] at hn h5 hx
      simp only [SOp.run] at hr
      obtain ⟨v, i1, k1, k2, k3, k4⟩ := h.evaluate hW (by omega) (by omega)
      rw [k1, Res.ok_bind] at hr
      obtain ⟨⟨vs1, i2⟩, h1, hr1⟩ := Res.bind_eq_ok.1 hr
      simp only [Res.ok.injEq, Prod.mk.injEq] at hr1
      obtain ⟨rfl, rfl⟩ := hr1
      have := ih k3 (by omega) (by omega) hx h1
      intro y hy
      rcases List.mem_cons.1 hy with rfl | hy
      · exact k2
      · exact this y hy

end IQR

/-- **C45**, a part that holds (any rounding): on histories of at most five observations that fit in the window,
every value returned is ≥ 0. Missing: longer histories, where the estimators may cross. -/
theorem C45_five_partial (R : Rounding K) (low high : K) (hlh : low ≤ high) (W : ℕ) (hW : 0 < W) (i i' : IQR K)
    (hi : IQR.new R.arith low high W = .ok i) (ops : List (SOp K)) (h5 : (SOp.observations ops).length ≤ 5)
    (hn : (SOp.observations ops).length ≤ W) (hx : ∀ x ∈ SOp.observations ops, R.rnd x = x) (vs : List K)
    (hr : SOp.run (IQR.update R.arith) (IQR.evaluate R.arith) i ops = .ok (vs, i')) : ∀ v ∈ vs, 0 ≤ v := by
  obtain ⟨h1, h2, h3⟩ := IQR.new_eq_ok.1 hi
  have hl := WP2.Hull.new h1 le_rfl le_rfl
  have hh := WP2.Hull.new h2 le_rfl le_rfl
  obtain ⟨p, hp, e1⟩ := WP2.new_eq_ok h1
  obtain ⟨p', hp', e2⟩ := WP2.new_eq_ok h2
  have f1 := P2.new_eq_ok hp
  have f2 := P2.new_eq_ok hp'
  have hpair : IQR.Pair R W i :=
    ⟨⟨_, _, hl⟩, ⟨_, _, hh⟩, by rw [e1], by rw [e2], by rw [e1, e2], by rw [e1, f1], by rw [e1, e2, f2],
      by rw [e1, e2, f1, f2]; exact hlh, by rw [e1, e2, f1, f2]⟩
  have h0 : i.low.historyCount = 0 := by rw [e1]
  exact hpair.run hW (by omega) (by omega) hx hr

/-- **C45**, a part that holds (any rounding, `4 ≤ W ≤ 2 ^ 53`): on constant streams of at least five observations the
range is exactly 0. -/
theorem C45_constant_partial (R : Rounding K) (low high c : K) (hc : R.rnd c = c) (W : ℕ) (hW : 4 ≤ W) (hW' : W ≤ 2 ^ 53) (i i' : IQR K)
    (hi : IQR.new R.arith low high W = .ok i) (n : ℕ) (hn : 5 ≤ n)
    (hu : updateAll (IQR.update R.arith) i (List.replicate n c) = .ok i') :
    ∃ i'', i'.evaluate R.arith = .ok (0, i'') := by
  obtain ⟨h1, h2, h3⟩ := IQR.new_eq_ok.1 hi
  have key : ∀ (xs : List K) (i : IQR K), updateAll (IQR.update R.arith) i xs = .ok i' →
      updateAll (WP2.update R.arith) i.low xs = .ok i'.low ∧
      updateAll (WP2.update R.arith) i.high xs = .ok i'.high := by
    intro xs
    induction xs with
    | nil => intro i h; simp only [updateAll] at h ⊢; injection h with h; subst h; exact ⟨rfl, rfl⟩
    | cons x xs ih =>
      intro i h
      simp only [updateAll] at h ⊢
      obtain ⟨i1, k1, k2⟩ := Res.bind_eq_ok.1 h
      unfold IQR.update at k1
      obtain ⟨l, k3, k4⟩ := Res.bind_eq_ok.1 k1
      obtain ⟨g, k5, k6⟩ := Res.bind_eq_ok.1 k4
      injection k6 with k6
      subst k6
      rw [k3, k5]
      exact ih _ k2
  obtain ⟨k1, k2⟩ := key _ _ hu
  obtain ⟨l, e1⟩ := WP2.const_value R low c hc W hW hW' _ _ h1 n hn k1
  obtain ⟨h, e2⟩ := WP2.const_value R high c hc W hW hW' _ _ h2 n hn k2
  refine ⟨{ i' with low := l, high := h }, ?_⟩
  unfold IQR.evaluate
  rw [e2, e1]
  simp [Rounding.arith, R.rnd_zero]

/-- The quartile range of 3, 1, 4, 1, 5. -/
example : (do
    let i ← IQR.newDefault b64 6
    IQR.valueAfter b64 i [3, 1, 4, 1, 5]) = .ok 3 := by
  decide +kernel

end Round

end KML
