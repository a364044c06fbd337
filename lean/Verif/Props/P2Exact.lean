import Verif.Props.P2

/-! # C33, C36, C39: marker positions, equivariance and rank tracking of StreamingP2Quantile -/

set_option linter.unusedSectionVars false

namespace KML

open Spec

/-! ## C33 -/

/-- The arithmetic `A` with a poison value: dividing by zero gives `none`, and every operation on `none`
gives `none`. A computation that returns `some` values has not used a quotient by zero. -/
def trap {F : Type} (A : Arith F) (isZero : F → Bool) : Arith (Option F) where
  add a b := do .some (A.add (← a) (← b))
  sub a b := do .some (A.sub (← a) (← b))
  mul a b := do .some (A.mul (← a) (← b))
  div a b := do if isZero (← b) then .none else .some (A.div (← a) (← b))
  abs a := a.map A.abs
  lt a b := match a, b with | .some a, .some b => A.lt a b | _, _ => false
  le a b := match a, b with | .some a, .some b => A.le a b | _, _ => false
  eq a b := match a, b with | .some a, .some b => A.eq a b | _, _ => false
  lit q := .some (A.lit q)
  ofInt n := .some (A.ofInt n)
  round a := match a with | .some a => A.round a | .none => -1

section Sim

/-! A simulation: `φ` carries the arithmetic `A` to `B` as far as one step needs it. -/

variable {F G : Type} (A : Arith F) (B : Arith G) (φ : F → G)

theorem sortList_map (h : ∀ a b, B.lt (φ a) (φ b) = A.lt a b) (l : List F) :
    sortList B (l.map φ) = (sortList A l).map φ := by
  have hi : ∀ x l, insertSorted B (φ x) (l.map φ) = (insertSorted A x l).map φ := by
    intro x l
    induction l with
    | nil => rfl
    | cons y ys ih =>
      simp only [List.map_cons, insertSorted, h]
      split <;> simp [ih]
  induction l with
  | nil => rfl
  | cons x xs ih => simp only [List.map_cons, sortList, ih, hi]

theorem Five.sort_map (h : ∀ a b, B.lt (φ a) (φ b) = A.lt a b) (v : Five F) :
    (v.map φ).sort B = (v.sort A).map φ := by
  unfold Five.sort
  rw [Five.map_toList, sortList_map A B φ h, Five.map_ofList]

theorem P2.findK_map (h : ∀ a b, B.lt (φ a) (φ b) = A.lt a b) (v : Five F) (x : F) :
    P2.findK B (v.map φ) (φ x) = ((P2.findK A v x).1, (P2.findK A v x).2.map φ) := by
  unfold P2.findK
  simp only [Five.map, h]
  split_ifs <;> rfl

end Sim

namespace P2

variable {F : Type} {A : Arith F} {isZero : F → Bool}

theorem parabolic_trap (hz : ∀ n : ℤ, n ≠ 0 → isZero (A.ofInt n) = false) (hm hi hp : F) {nm ni np : ℤ}
    (h1 : nm < ni) (h2 : ni < np) (d : F) :
    parabolic (trap A isZero) (some hm) (some hi) (some hp) nm ni np (some d) =
      some (parabolic A hm hi hp nm ni np d) := by
  have a1 := hz (np - nm) (by omega)
  have a2 := hz (np - ni) (by omega)
  have a3 := hz (ni - nm) (by omega)
  simp [parabolic, trap, a1, a2, a3]

theorem linear_trap (hz : ∀ n : ℤ, n ≠ 0 → isZero (A.ofInt n) = false) (hi hd : F) {ni nd : ℤ}
    (h : nd ≠ ni) (d : F) :
    linear (trap A isZero) (some hi) (some hd) ni nd (some d) = some (linear A hi hd ni nd d) := by
  have a1 := hz (nd - ni) (by omega)
  simp [linear, trap, a1]

theorem adjust_trap (hA : Sane A) (hz : ∀ n : ℤ, n ≠ 0 → isZero (A.ofInt n) = false)
    (des hm hi hp : F) {nm ni np : ℤ} (h1 : nm < ni) (h2 : ni < np) :
    adjust (trap A isZero) (some des) (some hm) (some hi) (some hp) nm ni np =
      (some (adjust A des hm hi hp nm ni np).1, (adjust A des hm hi hp nm ni np).2) := by
  have e1 : ∀ x y, (trap A isZero).sub (some x) (some y) = some (A.sub x y) := fun _ _ => rfl
  have e2 : ∀ x y, (trap A isZero).le (some x) (some y) = A.le x y := fun _ _ => rfl
  have e3 : ∀ x y, (trap A isZero).lt (some x) (some y) = A.lt x y := fun _ _ => rfl
  have e4 : ∀ n, (trap A isZero).ofInt n = some (A.ofInt n) := fun _ => rfl
  have e5 : ∀ n, (trap A isZero).lit n = some (A.lit n) := fun _ => rfl
  have e6 : ∀ x, copysign (trap A isZero) (some x) = copysign A x := fun _ => rfl
  unfold adjust
  simp only [e1, e2, e4, e5, e6]
  split
  · rename_i h
    simp only [Bool.or_eq_true, Bool.and_eq_true, decide_eq_true_eq] at h
    have hs : copysign A (A.sub des (A.ofInt ni)) = 1 ∨ copysign A (A.sub des (A.ofInt ni)) = -1 := by
      rcases h with ⟨ha, hb⟩ | ⟨ha, hb⟩
      · left; simp [copysign, hA.up _ ha]
      · right; simp [copysign, hA.down _ ha]
    simp only [parabolic_trap hz hm hi hp h1 h2, e3]
    split
    · rfl
    · rcases hs with hs | hs
      · simp only [hs, if_true, linear_trap hz hi hp (show np ≠ ni by omega)]
      · simp only [hs, show ¬ ((-1 : ℤ) = 1) by decide, if_false, if_true,
          linear_trap hz hi hm (show nm ≠ ni by omega)]
  · rfl

theorem adjustHeights_trap (hA : Sane A) (hz : ∀ n : ℤ, n ≠ 0 → isZero (A.ofInt n) = false)
    {p : P2 F} (h : PosInc p.pos) (i : ℕ) :
    adjustHeights (trap A isZero) (p.map some) i = (adjustHeights A p i).map some := by
  obtain ⟨h0, h1, h2, h3, h4⟩ := h
  unfold adjustHeights
  split
  · simp only [P2.map, Five.map, adjust_trap hA hz _ _ _ _ h1 h2]
  · simp only [P2.map, Five.map, adjust_trap hA hz _ _ _ _ h2 h3]
  · simp only [P2.map, Five.map, adjust_trap hA hz _ _ _ _ h3 h4]
  · rfl

theorem updateLater_trap (hA : Sane A) (hz : ∀ n : ℤ, n ≠ 0 → isZero (A.ofInt n) = false)
    (h2 : isZero (A.lit 2) = false) {p : P2 F} (h : PosInc p.pos) (x : F) :
    updateLater (trap A isZero) (p.map some) (some x) = (updateLater A p x).map some := by
  have hf := P2.findK_map A (trap A isZero) some (fun _ _ => rfl) p.heights x
  have hd : desiredAt (trap A isZero) (some p.desired.x0) (some p.quantile) p.historyCount =
      (desiredAt A p.desired.x0 p.quantile p.historyCount).map some := by
    simp [desiredAt, trap, Five.map, Arith.ofNat, h2]
  have e5 : ∀ n, (trap A isZero).lit n = some (A.lit n) := fun _ => rfl
  have e2 : ∀ x y, (trap A isZero).le (some x) (some y) = A.le x y := fun _ _ => rfl
  have hp : PosInc (start A p x).pos := bump_posInc h (findK_le _ _)
  have key : start (trap A isZero) (p.map some) (some x) = (start A p x).map some := by
    simp only [start, P2.map, hf]
    rw [show (Five.map some p.desired).x0 = some p.desired.x0 from rfl, hd]
  have fin : finish (trap A isZero) ((start A p x).map some) = (finish A (start A p x)).map some := by
    have a := fun q i (hq : PosInc q.pos) => adjustHeights_trap (isZero := isZero) hA hz (p := q) hq i
    have b := fun q i (hq : PosInc (P2.pos (F := F) q)) => adjustHeights_posInc hA hq i
    unfold finish
    simp only [e5, show ((start A p x).map some).quantile = some (start A p x).quantile from rfl, e2]
    split
    · rw [a _ _ hp, a _ _ (b _ _ hp), a _ _ (b _ _ (b _ _ hp))]
    · rw [a _ _ hp, a _ _ (b _ _ hp), a _ _ (b _ _ (b _ _ hp))]
  rw [updateLater_eq, updateLater_eq, key, fin]
  rfl

theorem updateFirst_map {G : Type} (B : Arith G) (φ : F → G) (h : ∀ a b, B.lt (φ a) (φ b) = A.lt a b)
    (hl : ∀ q, B.lit q = φ (A.lit q)) (hm : ∀ c a, B.mul (B.lit c) (φ a) = φ (A.mul (A.lit c) a))
    (ha : ∀ c a, B.add (B.lit c) (φ a) = φ (A.add (A.lit c) a)) (p : P2 F) (x : F) :
    updateFirst B (p.map φ) (φ x) = (updateFirst A p x).map φ := by
  have e : (p.map φ).heights.ofList ((p.map φ).heights.toList.set (p.map φ).historyCount (φ x)) =
      (p.heights.ofList (p.heights.toList.set p.historyCount x)).map φ := by
    simp only [P2.map, Five.map_toList, ← List.map_set, Five.map_ofList]
  unfold updateFirst
  simp only [e, Five.sort_map A B φ h]
  simp only [show (p.map φ).historyCount = p.historyCount from rfl,
    show (p.map φ).quantile = φ p.quantile from rfl, hm, ha]
  split
  · simp only [P2.map, Five.map, hl]
  · rfl

theorem bumpOverflows_pos {G : Type} (p : P2 F) (φ : F → G) (k : ℕ) :
    bumpOverflows (p.map φ).pos k = bumpOverflows p.pos k := rfl

/-- Lift results. -/
def _root_.KML.Res.mapOk {α β : Type} (f : α → β) : Res α → Res β
  | .ok a => .ok (f a)
  | .throw m => .throw m
  | .ub u => .ub u

theorem update_trap (hA : Sane A) (hz : ∀ n : ℤ, n ≠ 0 → isZero (A.ofInt n) = false)
    (h2 : isZero (A.lit 2) = false) {p : P2 F} (h : PosInc p.pos) (x : F) :
    update (trap A isZero) (p.map some) (some x) = (update A p x).mapOk (P2.map some) := by
  have hf := P2.findK_map A (trap A isZero) some (fun _ _ => rfl) p.heights x
  unfold update
  rw [updateLater_trap hA hz h2 h, updateFirst_map (A := A) (trap A isZero) some (fun _ _ => rfl)
    (fun _ => rfl) (fun _ _ => rfl) (fun _ _ => rfl), bumpOverflows_pos]
  rw [show (p.map some).heights = p.heights.map some from rfl, hf]
  simp only [show (p.map some).historyCount = p.historyCount from rfl]
  split
  · rfl
  · split <;> rfl

theorem evaluate_trap (p : P2 F) :
    evaluate (trap A isZero) (p.map some) =
      (evaluate A p).mapOk (fun r => (some r.1, r.2.map some)) := by
  have e : evalIndex (trap A isZero) (p.map some) = evalIndex A p := rfl
  have e1 : (p.map some).heights.sort (trap A isZero) = (p.heights.sort A).map some :=
    Five.sort_map A (trap A isZero) some (fun _ _ => rfl) p.heights
  unfold evaluate
  simp only [show (p.map some).historyCount = p.historyCount from rfl, e, e1, Five.map_toList, List.getElem?_map]
  split
  · split
    · rfl
    · cases (p.heights.sort A).toList[(evalIndex A p).toNat]? <;> rfl
  · rfl

theorem run_trap (hA : Sane A) (hz : ∀ n : ℤ, n ≠ 0 → isZero (A.ofInt n) = false)
    (h2 : isZero (A.lit 2) = false) {p : P2 F} (h : PosInc p.pos) (ops : List (QOp F)) :
    run (trap A isZero) (p.map some) (ops.map (QOp.map some)) =
      (run A p ops).mapOk (fun r => (r.1.map some, r.2.map some)) := by
  induction ops generalizing p with
  | nil => rfl
  | cons o ops ih =>
    cases o with
    | update x =>
      simp only [List.map_cons, QOp.map, run, step, update_trap hA hz h2 h]
      rcases hu : update A p x with p1 | m | u
      · simp only [Res.mapOk, Res.ok_bind, ih (update_posInc hA h hu)]
        cases run A p1 ops <;> simp
      · rfl
      · rfl
    | evaluate =>
      simp only [List.map_cons, QOp.map, run, step, evaluate_trap]
      rcases hu : evaluate A p with ⟨v, p1⟩ | m | u
      · simp only [Res.mapOk, Res.ok_bind, ih (show PosInc p1.pos by rw [(evaluate_frame hu).1]; exact h)]
        cases run A p1 ops <;> simp
      · rfl
      · rfl
    | clear =>
      simp only [List.map_cons, QOp.map, run, step, Res.ok_bind]
      rw [show (p.map some).clear = p.clear.map (some : F → Option F) from rfl, ih (p := p.clear) h]
      cases run A p.clear ops <;> simp [Res.mapOk]

theorem run_posInc (hA : Sane A) {p p' : P2 F} (h : PosInc p.pos) {ops : List (QOp F)} {vs : List F}
    (hr : run A p ops = .ok (vs, p')) : PosInc p'.pos := by
  induction ops generalizing p vs with
  | nil => simp only [P2.run] at hr; injection hr with hr; injection hr with _ hr; subst hr; exact h
  | cons o ops ih =>
    simp only [P2.run] at hr
    obtain ⟨⟨v1, q⟩, hq, hr⟩ := Res.bind_eq_ok.1 hr
    obtain ⟨⟨v2, q'⟩, hq', hr⟩ := Res.bind_eq_ok.1 hr
    simp only [Res.ok.injEq, Prod.mk.injEq] at hr
    obtain ⟨-, rfl⟩ := hr
    refine ih ?_ hq'
    cases o with
    | update x =>
      simp only [P2.step] at hq
      obtain ⟨p1, he, hq⟩ := Res.bind_eq_ok.1 hq
      injection hq with hq; injection hq with _ hq
      subst hq
      exact update_posInc hA h he
    | evaluate =>
      simp only [P2.step] at hq
      obtain ⟨⟨v, p1⟩, he, hq⟩ := Res.bind_eq_ok.1 hq
      injection hq with hq; injection hq with _ hq
      subst hq
      simp only [(evaluate_frame he).1]; exact h
    | clear =>
      simp only [P2.step] at hq
      injection hq with hq; injection hq with _ hq
      subst hq; exact h

end P2

/-- **C33**, positions (any arithmetic with sane comparisons, NaN included): after any history of `update`,
`evaluate` and `clear` the marker positions are 0 = n0 < n1 < n2 < n3 < n4. -/
theorem C33_positions {F : Type} (A : Arith F) (hA : P2.Sane A) (q : F) (p p' : P2 F)
    (hp : P2.new A q = .ok p) (ops : List (QOp F)) (vs : List F) (hr : P2.run A p ops = .ok (vs, p')) :
    p'.pos.x0 = 0 ∧ p'.pos.x0 < p'.pos.x1 ∧ p'.pos.x1 < p'.pos.x2 ∧ p'.pos.x2 < p'.pos.x3 ∧
      p'.pos.x3 < p'.pos.x4 :=
  P2.run_posInc hA (by rw [P2.new_eq_ok hp]; simp [P2.PosInc]) hr

/-- **C33**, division: a run in the arithmetic that poisons quotients by zero is the ordinary run; no value
returned or kept is ever the result of dividing by zero. -/
theorem C33_no_div_zero {F : Type} (A : Arith F) (hA : P2.Sane A) (isZero : F → Bool)
    (hz : ∀ n : ℤ, n ≠ 0 → isZero (A.ofInt n) = false) (h2 : isZero (A.lit 2) = false) (q : F) (p : P2 F)
    (hp : P2.new A q = .ok p) (ops : List (QOp F)) :
    P2.run (trap A isZero) (p.map some) (ops.map (QOp.map some)) =
      (P2.run A p ops).mapOk (fun r => (r.1.map some, r.2.map some)) :=
  P2.run_trap hA hz h2 (by rw [P2.new_eq_ok hp]; simp [P2.PosInc]) ops

/-- **C33** for every rounding: histories of at most 2^31 observations never leave the markers' array, convert
out of range or overflow (C38), never divide by zero, and keep the positions strictly increasing. -/
theorem C33_rounding {K : Type} [Field K] [LinearOrder K] [IsStrictOrderedRing K] [FloorRing K]
    (R : Rounding K) (q : K) (p : P2 K) (hp : P2.new R.arith q = .ok p) (ops : List (QOp K))
    (hx : ∀ x ∈ QOp.observations ops, R.rnd x = x) (hlen : (QOp.observations ops).length ≤ 2 ^ 31) :
    ∃ vs p', P2.run R.arith p ops = .ok (vs, p') ∧
      P2.run (trap R.arith (fun x => decide (x = 0))) (p.map some) (ops.map (QOp.map some)) =
        .ok (vs.map some, p'.map some) ∧
      p'.pos.x0 = 0 ∧ p'.pos.x0 < p'.pos.x1 ∧ p'.pos.x1 < p'.pos.x2 ∧ p'.pos.x2 < p'.pos.x3 ∧
      p'.pos.x3 < p'.pos.x4 := by
  obtain ⟨b, hb0, hb⟩ : ∃ b : K, 0 ≤ b ∧ ∀ x ∈ QOp.observations ops, |x| ≤ b := by
    generalize QOp.observations ops = l
    clear hx
    induction l with
    | nil => exact ⟨0, le_rfl, by simp⟩
    | cons a l ih =>
      obtain ⟨b, hb, hl⟩ := ih
      refine ⟨max |a| b, hb.trans (le_max_right _ _), fun x hx => ?_⟩
      rcases List.mem_cons.1 hx with rfl | hx
      · exact le_max_left _ _
      · exact (hl x hx).trans (le_max_right _ _)
  obtain ⟨vs, p', v, p'', h1, -, -⟩ := C38_hull R q p hp (-b) b (by linarith) hb0 ops
    (fun x h => ⟨hx x h, (abs_le.1 (hb x h)).1, (abs_le.1 (hb x h)).2⟩) hlen
  have hz : ∀ n : ℤ, n ≠ 0 → (decide (R.arith.ofInt n = 0)) = false := by
    intro n hn
    simp only [decide_eq_false_iff_not]
    rcases lt_or_gt_of_ne hn with h | h
    · have : R.arith.ofInt n ≤ -1 := by
        have h1 : R.rnd ((-1 : ℤ) : K) = -1 := by
          have := R.int_exact (-1) (by norm_num); simpa using this
        rw [← h1]
        exact R.mono (by exact_mod_cast (by omega : n ≤ -1))
      intro h0; rw [h0] at this; linarith
    · have : 1 ≤ R.arith.ofInt n := by
        rw [← R.rnd_one]
        exact R.mono (by exact_mod_cast (by omega : 1 ≤ n))
      intro h0; rw [h0] at this; linarith
  have h2 : (decide (R.arith.lit 2 = 0)) = false := by
    have := hz 2 (by norm_num)
    simpa [Rounding.arith] using this
  refine ⟨vs, p', h1, ?_, C33_positions R.arith (P2.sane_round R) q p p' hp ops vs h1⟩
  rw [C33_no_div_zero R.arith (P2.sane_round R) _ hz h2 q p hp ops, h1]
  rfl

/-- A history with adjustments, evaluations and a `clear`, in the poisoning arithmetic over binary64. -/
example : (do
    let r ← P2.run (trap b64 (fun x => decide (x = 0))) ((P2.blank (1 / 2)).map some)
      [.update (some 3), .evaluate, .update (some 1), .update (some 4), .update (some 1), .update (some 5),
       .update (some 9), .update (some 2), .update (some 6), .evaluate, .clear, .update (some 5)]
    .ok r.1) = .ok [some 0, some 2] := by
  decide +kernel

/-! ## C36 -/

namespace P2

variable {F : Type} {A : Arith F} {φ : F → F}

/-- What a map of observations must respect for the estimator to commute with it. -/
structure Equivariant (A : Arith F) (φ : F → F) : Prop where
  lt : ∀ a b, A.lt (φ a) (φ b) = A.lt a b
  parabolic : ∀ hm hi hp nm ni np d,
    P2.parabolic A (φ hm) (φ hi) (φ hp) nm ni np d = φ (P2.parabolic A hm hi hp nm ni np d)
  linear : ∀ hi hd ni nd d, P2.linear A (φ hi) (φ hd) ni nd d = φ (P2.linear A hi hd ni nd d)

/-- Apply a map to the heights only. -/
def mapHeights (φ : F → F) (p : P2 F) : P2 F := { p with heights := p.heights.map φ }

theorem adjust_equi (h : Equivariant A φ) (des hm hi hp : F) (nm ni np : ℤ) :
    adjust A des (φ hm) (φ hi) (φ hp) nm ni np =
      (φ (adjust A des hm hi hp nm ni np).1, (adjust A des hm hi hp nm ni np).2) := by
  unfold adjust
  simp only [h.parabolic, h.linear, h.lt]
  split
  · congr 1
    split
    · rfl
    · split
      · rfl
      · split <;> rfl
  · rfl

theorem adjustHeights_equi (h : Equivariant A φ) (p : P2 F) (i : ℕ) :
    adjustHeights A (p.mapHeights φ) i = (adjustHeights A p i).mapHeights φ := by
  unfold adjustHeights
  split <;> simp only [mapHeights, Five.map, adjust_equi h]

theorem updateLater_equi (h : Equivariant A φ) (p : P2 F) (x : F) :
    updateLater A (p.mapHeights φ) (φ x) = (updateLater A p x).mapHeights φ := by
  have hf := P2.findK_map A A φ h.lt p.heights x
  have key : start A (p.mapHeights φ) (φ x) = (start A p x).mapHeights φ := by
    simp only [start, mapHeights, hf]
  have fin : finish A ((start A p x).mapHeights φ) = (finish A (start A p x)).mapHeights φ := by
    unfold finish
    simp only [adjustHeights_equi h]
    rw [show ((start A p x).mapHeights φ).quantile = (start A p x).quantile from rfl]
    split <;> rfl
  rw [updateLater_eq, updateLater_eq, key, fin]
  rfl

theorem update_equi (h : Equivariant A φ) (p : P2 F) (hn : 5 ≤ p.historyCount) (x : F) :
    update A (p.mapHeights φ) (φ x) = (update A p x).mapOk (mapHeights φ) := by
  have hf := P2.findK_map A A φ h.lt p.heights x
  unfold update
  rw [updateLater_equi h]
  rw [show (p.mapHeights φ).heights = p.heights.map φ from rfl, hf]
  simp only [show (p.mapHeights φ).historyCount = p.historyCount from rfl,
    show (p.mapHeights φ).pos = p.pos from rfl, if_neg (not_lt.2 hn)]
  split <;> rfl

theorem update_count {p p' : P2 F} {x : F} (h : update A p x = .ok p') :
    p'.historyCount = p.historyCount + 1 := by
  unfold update at h
  split at h
  · injection h with h; subst h; exact (updateFirst_frame p x).1
  · split at h
    · cases h
    · injection h with h; subst h; exact (updateLater_frame p x).1

theorem updateAll_equi (h : Equivariant A φ) (p : P2 F) (hn : 5 ≤ p.historyCount) (xs : List F) :
    updateAll (update A) (p.mapHeights φ) (xs.map φ) = (updateAll (update A) p xs).mapOk (mapHeights φ) := by
  induction xs generalizing p with
  | nil => rfl
  | cons x xs ih =>
    simp only [List.map_cons, updateAll, update_equi h p hn]
    rcases hu : update A p x with p1 | m | u
    · simp only [Res.mapOk, Res.ok_bind]
      exact ih p1 (by rw [update_count hu]; omega)
    · rfl
    · rfl

theorem evaluate_equi (h : Equivariant A φ) (p : P2 F) :
    evaluate A (p.mapHeights φ) = (evaluate A p).mapOk (fun r => (φ r.1, r.2.mapHeights φ)) := by
  have e : evalIndex A (p.mapHeights φ) = evalIndex A p := rfl
  have e1 : (p.mapHeights φ).heights.sort A = (p.heights.sort A).map φ :=
    Five.sort_map A A φ h.lt p.heights
  unfold evaluate
  simp only [show (p.mapHeights φ).historyCount = p.historyCount from rfl, e, e1, Five.map_toList,
    List.getElem?_map]
  split
  · split
    · rfl
    · cases (p.heights.sort A).toList[(evalIndex A p).toNat]? <;> rfl
  · rfl

/-- The estimator commutes with an equivariant map once five observations have been seen. -/
theorem valueAfter_equi (h : Equivariant A φ) (q : F) (p : P2 F) (hp : P2.new A q = .ok p) (xs : List F)
    (h5 : 5 ≤ xs.length) : P2.valueAfter A p (xs.map φ) = (P2.valueAfter A p xs).mapOk φ := by
  have h0 : p.historyCount = 0 := by rw [P2.new_eq_ok hp]
  match xs, h5 with
  | a :: b :: c :: d :: e :: xs, _ =>
    unfold valueAfter
    rw [show a :: b :: c :: d :: e :: xs = [a, b, c, d, e] ++ xs from rfl, List.map_append,
      updateAll_append, updateAll_append, P2.five_updates A p h0]
    rw [show [a, b, c, d, e].map φ = [φ a, φ b, φ c, φ d, φ e] from rfl, P2.five_updates A p h0]
    simp only [Res.ok_bind]
    rw [show (⟨φ a, φ b, φ c, φ d, φ e⟩ : Five F) = Five.map φ ⟨a, b, c, d, e⟩ from rfl,
      Five.sort_map A A φ h.lt]
    set p5 : P2 F := ⟨p.quantile, ⟨A.lit 0, A.mul (A.lit 2) p.quantile, A.mul (A.lit 4) p.quantile,
                  A.add (A.lit 2) (A.mul (A.lit 2) p.quantile), A.lit 4⟩, p.pos,
                  Five.sort A ⟨a, b, c, d, e⟩, 5⟩ with hp5
    rw [show (⟨p.quantile, ⟨A.lit 0, A.mul (A.lit 2) p.quantile, A.mul (A.lit 4) p.quantile,
                  A.add (A.lit 2) (A.mul (A.lit 2) p.quantile), A.lit 4⟩, p.pos,
                  (Five.sort A ⟨a, b, c, d, e⟩).map φ, 5⟩ : P2 F) = p5.mapHeights φ from rfl]
    rw [updateAll_equi h p5 (by simp [hp5])]
    rcases updateAll (update A) p5 xs with p6 | m | u
    · simp only [Res.mapOk, Res.ok_bind, evaluate_equi h]
      rcases evaluate A p6 with ⟨v, p7⟩ | m | u <;> rfl
    · rfl
    · rfl

end P2

section Exact

variable {K : Type} [Field K] [LinearOrder K] [IsStrictOrderedRing K] [FloorRing K]

/-- **C36** (exact arithmetic): replacing every observation `x` by `a*x+b`, `a > 0`, replaces the value of
`evaluate` by its image, for every stream of at least five observations. -/
theorem C36_affine (a b : K) (ha : 0 < a) (q : K) (p : P2 K) (hp : P2.new (exact K) q = .ok p)
    (xs : List K) (h5 : 5 ≤ xs.length) :
    P2.valueAfter (exact K) p (xs.map fun x => a * x + b) =
      (P2.valueAfter (exact K) p xs).mapOk fun v => a * v + b := by
  refine P2.valueAfter_equi ⟨?_, ?_, ?_⟩ q p hp xs h5
  · intro x y
    simp only [exact, decide_eq_decide]
    constructor <;> intro h <;> nlinarith
  · intro hm hi hp nm ni np d
    simp only [P2.parabolic, exact]; ring
  · intro hi hd ni nd d
    simp only [P2.linear, exact]; ring

/-- **C36** in floating point: the same for scalings that commute with rounding, such as powers of two in
53-bit arithmetic. -/
theorem C36_scaling (R : Rounding K) (a : K) (ha : 0 < a) (hR : ∀ x, R.rnd (a * x) = a * R.rnd x) (q : K)
    (p : P2 K) (hp : P2.new R.arith q = .ok p) (xs : List K) (h5 : 5 ≤ xs.length) :
    P2.valueAfter R.arith p (xs.map fun x => a * x) = (P2.valueAfter R.arith p xs).mapOk fun v => a * v := by
  refine P2.valueAfter_equi ⟨?_, ?_, ?_⟩ q p hp xs h5
  · intro x y
    simp only [Rounding.arith, decide_eq_decide]
    constructor <;> intro h <;> nlinarith
  · intro hm hi hp nm ni np d
    have e1 : ∀ c y : K, c * (a * y) = a * (c * y) := fun c y => by ring
    simp only [P2.parabolic, Rounding.arith, ← mul_sub, hR, e1, mul_div_assoc, ← mul_add]
  · intro hi hd ni nd d
    have e1 : ∀ c y : K, c * (a * y) = a * (c * y) := fun c y => by ring
    simp only [P2.linear, Rounding.arith, ← mul_sub, hR, e1, mul_div_assoc, ← mul_add]

/-- Powers of two meet the hypothesis in 53-bit arithmetic. -/
example (k : ℤ) (p : P2 ℚ) (hp : P2.new b53 (1 / 3) = .ok p) (xs : List ℚ) (h5 : 5 ≤ xs.length) :
    P2.valueAfter b53 p (xs.map fun x => pow2 k * x) = (P2.valueAfter b53 p xs).mapOk fun v => pow2 k * v :=
  C36_scaling R53 (pow2 k) (pow2_pos k) (fun x => by
    have := rnd53_scale x k
    rw [mul_comm] at this
    rw [mul_comm (pow2 k) (R53.rnd x)]; exact this) _ p hp xs h5

example : P2.valueAfter (exact ℚ) (P2.blank (1 / 2)) [3, 1, 4, 1, 5, 9, 2, 6] = .ok 3 ∧
    P2.valueAfter (exact ℚ) (P2.blank (1 / 2)) [7, 3, 9, 3, 11, 19, 5, 13] = .ok 7 := by
  decide +kernel

/-! ## C39 -/

namespace P2

/-- Movement of one marker in exact arithmetic. -/
def adjPos (t : K) (nm ni np : ℤ) : ℤ :=
  if 1 ≤ t - ni ∧ 1 < np - ni then ni + 1 else if t - ni ≤ -1 ∧ nm - ni < -1 then ni - 1 else ni

theorem adjust_exact_pos (t hm hi hp : K) (nm ni np : ℤ) :
    (adjust (exact K) t hm hi hp nm ni np).2 = adjPos t nm ni np := by
  have e : (adjust (exact K) t hm hi hp nm ni np).2 =
      if (1 ≤ t - (ni : K) ∧ 1 < np - ni) ∨ (t - (ni : K) ≤ -1 ∧ nm - ni < -1) then
        ni + copysign (exact K) (t - ni) else ni := by
    unfold adjust
    simp only [exact, Bool.or_eq_true, Bool.and_eq_true, decide_eq_true_eq, Rat.cast_one, Rat.cast_neg, gt_iff_lt]
    split <;> rfl
  rw [e]
  unfold adjPos
  simp only [copysign, exact, decide_eq_true_eq, Rat.cast_zero]
  by_cases h1 : 1 ≤ t - (ni : K) ∧ 1 < np - ni
  · rw [if_pos (Or.inl h1), if_pos h1, if_pos (by linarith [h1.1])]
  · by_cases h2 : t - (ni : K) ≤ -1 ∧ nm - ni < -1
    · rw [if_pos (Or.inr h2), if_neg h1, if_pos h2, if_neg (by linarith [h2.1]), if_pos (by linarith [h2.1])]
      rfl
    · rw [if_neg (not_or.2 ⟨h1, h2⟩), if_neg h1, if_neg h2]

/-- The movement of a marker seen from the other end. -/
theorem adjPos_mirror (n : ℤ) (t : K) (nm ni np : ℤ) (h1 : nm < ni) (h2 : ni < np) :
    adjPos ((n : K) - t) (n - np) (n - ni) (n - nm) = n - adjPos t nm ni np := by
  unfold adjPos
  have e : (n : K) - t - ((n - ni : ℤ) : K) = -(t - ni) := by push_cast; ring
  rw [e]
  by_cases ha : 1 ≤ t - (ni : K) ∧ 1 < np - ni
  · rw [if_neg (by rintro ⟨h, -⟩; linarith [ha.1]), if_pos ⟨by linarith [ha.1], by omega⟩, if_pos ha]; omega
  · by_cases hb : t - (ni : K) ≤ -1 ∧ nm - ni < -1
    · rw [if_pos ⟨by linarith [hb.1], by omega⟩, if_neg ha, if_pos hb]; omega
    · rw [if_neg (by rintro ⟨h, h'⟩; exact hb ⟨by linarith, by omega⟩),
        if_neg (by rintro ⟨h, h'⟩; exact ha ⟨by linarith, by omega⟩), if_neg ha, if_neg hb]

/-- One round of adjustments for `q ≥ 1/2` (order 1, 2, 3); `n` is the number of observations before the new
one, `n1 n2 n3` the positions after the increments. -/
theorem rank_step {q : K} (q0 : 1 / 2 ≤ q) (q1 : q < 1) {n : ℤ} (hn : 5 ≤ n) {n1 n2 n3 : ℤ} (h01 : 0 < n1)
    (h12 : n1 < n2) (h23 : n2 < n3) (h3n : n3 < n)
    (a1 : -2 + q / 2 < n * q / 2 - n1) (b1 : n * q / 2 - n1 < 2 + q / 2)
    (a2 : -2 + q < n * q - n2) (b2 : n * q - n2 < 3 + q)
    (a3 : -2 + (1 + q) / 2 < n * (1 + q) / 2 - n3) (b3 : n * (1 + q) / 2 - n3 < 1 + (1 + q) / 2) :
    let m1 := adjPos (n * q / 2) 0 n1 n2
    let m2 := adjPos (n * q) m1 n2 n3
    let m3 := adjPos (n * (1 + q) / 2) m2 n3 n
    (-1 < n * q / 2 - m1 ∧ n * q / 2 - m1 < 2) ∧ (-1 < n * q - m2 ∧ n * q - m2 < 3) ∧
      (-1 < n * (1 + q) / 2 - m3 ∧ n * (1 + q) / 2 - m3 < 1) := by
  intro m1 m2 m3
  have hnK : (5 : K) ≤ n := by exact_mod_cast hn
  have c01 : (1 : K) ≤ n1 := by exact_mod_cast h01
  have c12 : (n1 : K) + 1 ≤ n2 := by exact_mod_cast h12
  have c23 : (n2 : K) + 1 ≤ n3 := by exact_mod_cast h23
  have c3n : (n3 : K) + 1 ≤ n := by exact_mod_cast h3n
  have hnq : 5 / 2 ≤ n * q := by nlinarith
  have hnu : 0 < n * (1 - q) := by nlinarith
  have s1 : -1 < n * q / 2 - (m1 : K) ∧ n * q / 2 - (m1 : K) < 2 ∧ m1 < n2 := by
    simp only [m1, adjPos]
    split_ifs with h h'
    · push_cast; exact ⟨by linarith [h.1], by linarith, by omega⟩
    · push_cast; exact ⟨by linarith, by linarith [h'.1], by omega⟩
    · refine ⟨?_, ?_, h12⟩
      · by_contra hc
        have hc := not_lt.1 hc
        apply h'
        refine ⟨hc, ?_⟩
        by_contra hc2
        have : n1 = 1 := by omega
        rw [this] at hc; push_cast at hc; linarith
      · by_contra hc
        have hc := not_lt.1 hc
        have : n2 = n1 + 1 := by
          by_contra hne
          exact h ⟨by linarith, by omega⟩
        have e : (n2 : K) = n1 + 1 := by exact_mod_cast this
        rw [e] at b2
        -- blocked by marker 2
        rcases le_or_gt 6 (n * q) with h6 | h6 <;> linarith
  have s2 : -1 < n * q - (m2 : K) ∧ n * q - (m2 : K) < 3 ∧ m2 < n3 := by
    simp only [m2, adjPos]
    split_ifs with h h'
    · push_cast; exact ⟨by linarith [h.1], by linarith, by omega⟩
    · push_cast; exact ⟨by linarith, by linarith [h'.1], by omega⟩
    · refine ⟨?_, ?_, h23⟩
      · by_contra hc
        have hc := not_lt.1 hc
        have : n2 = m1 + 1 := by
          by_contra hne
          exact h' ⟨hc, by have := s1.2.2; omega⟩
        have e : (n2 : K) = m1 + 1 := by exact_mod_cast this
        rw [e] at hc
        linarith [s1.1]
      · by_contra hc
        have hc := not_lt.1 hc
        have : n3 = n2 + 1 := by
          by_contra hne
          exact h ⟨by linarith, by omega⟩
        have e : (n3 : K) = n2 + 1 := by exact_mod_cast this
        rw [e] at b3
        linarith
  refine ⟨⟨s1.1, s1.2.1⟩, ⟨s2.1, s2.2.1⟩, ?_⟩
  simp only [m3, adjPos]
  split_ifs with h h'
  · push_cast; exact ⟨by linarith [h.1], by linarith⟩
  · push_cast; exact ⟨by linarith, by linarith [h'.1]⟩
  · constructor
    · by_contra hc
      have hc := not_lt.1 hc
      have : n3 = m2 + 1 := by
        by_contra hne
        exact h' ⟨hc, by have := s2.2.2; omega⟩
      have e : (n3 : K) = m2 + 1 := by exact_mod_cast this
      have s := s2.1
      linarith
    · by_contra hc
      have hc := not_lt.1 hc
      have : n = n3 + 1 := by
        by_contra hne
        exact h ⟨hc, by omega⟩
      have e : (n : K) = n3 + 1 := by exact_mod_cast this
      linarith

/-- Ranks carried by the inner markers compared with their targets after `n` observations. -/
def Tracks (q : K) (n : ℕ) (v : Five ℤ) : Prop :=
  let t : K := ((n - 1 : ℕ) : K)
  if 1 / 2 ≤ q then
    (-1 < t * q / 2 - v.x1 ∧ t * q / 2 - v.x1 < 2) ∧ (-1 < t * q - v.x2 ∧ t * q - v.x2 < 3) ∧
      (-1 < t * (1 + q) / 2 - v.x3 ∧ t * (1 + q) / 2 - v.x3 < 1)
  else
    (-1 < t * q / 2 - v.x1 ∧ t * q / 2 - v.x1 < 1) ∧ (-3 < t * q - v.x2 ∧ t * q - v.x2 < 1) ∧
      (-2 < t * (1 + q) / 2 - v.x3 ∧ t * (1 + q) / 2 - v.x3 < 1)

theorem updateLater_pos_exact (p : P2 K) (x : K) :
    let b := bump p.pos (findK (exact K) p.heights x).1
    let t : K := p.historyCount
    (updateLater (exact K) p x).pos =
      if 1 / 2 ≤ p.quantile then
        let m1 := adjPos (t * p.quantile / 2) b.x0 b.x1 b.x2
        let m2 := adjPos (t * p.quantile) m1 b.x2 b.x3
        let m3 := adjPos (t * (1 + p.quantile) / 2) m2 b.x3 b.x4
        ⟨b.x0, m1, m2, m3, b.x4⟩
      else
        let m3 := adjPos (t * (1 + p.quantile) / 2) b.x2 b.x3 b.x4
        let m2 := adjPos (t * p.quantile) b.x1 b.x2 m3
        let m1 := adjPos (t * p.quantile / 2) b.x0 b.x1 m2
        ⟨b.x0, m1, m2, m3, b.x4⟩ := by
  intro b t
  have hl : (exact K).le ((exact K).lit (1 / 2)) p.quantile = decide (1 / 2 ≤ p.quantile) := by
    simp [exact]
  have e1 : (exact K).div (t * p.quantile) ((exact K).lit 2) = t * p.quantile / 2 := by simp [exact]
  have e2 : (exact K).mul ((exact K).ofNat p.historyCount) p.quantile = t * p.quantile := by
    simp [exact, Arith.ofNat, t]
  have e3 : (exact K).div ((exact K).mul ((exact K).ofNat p.historyCount)
      ((exact K).add ((exact K).lit 1) p.quantile)) ((exact K).lit 2) = t * (1 + p.quantile) / 2 := by
    simp [exact, Arith.ofNat, t]
  unfold updateLater
  simp only [hl, decide_eq_true_eq, desiredAt, e3, e2, e1]
  split <;> simp only [adjustHeights, adjust_exact_pos] <;> rfl

theorem bump_steps (v : Five ℤ) {k : ℕ} (hk : k ≤ 3) :
    (bump v k).x0 = v.x0 ∧ (bump v k).x4 = v.x4 + 1 ∧
    (v.x1 ≤ (bump v k).x1 ∧ (bump v k).x1 ≤ v.x1 + 1) ∧
    (v.x2 ≤ (bump v k).x2 ∧ (bump v k).x2 ≤ v.x2 + 1) ∧
    (v.x3 ≤ (bump v k).x3 ∧ (bump v k).x3 ≤ v.x3 + 1) := by
  simp only [bump]
  refine ⟨trivial, ?_, ?_, ?_, ?_⟩ <;> split_ifs <;> omega

theorem updateLater_tracks {p : P2 K} (q0 : 0 < p.quantile) (q1 : p.quantile < 1) (hpos : PosInc p.pos)
    (h5 : 5 ≤ p.historyCount) (h4 : p.pos.x4 = p.historyCount - 1) (ht : Tracks p.quantile p.historyCount p.pos)
    (x : K) : Tracks p.quantile (p.historyCount + 1) (updateLater (exact K) p x).pos := by
  have hk := findK_le (A := exact K) p.heights x
  have hb := bump_posInc hpos hk
  obtain ⟨z0, z4, ⟨u1, u1'⟩, ⟨u2, u2'⟩, u3, u3'⟩ := bump_steps p.pos hk
  obtain ⟨b0, b1, b2, b3, b4⟩ := hb
  have hp := updateLater_pos_exact p x
  simp only at hp
  rw [hp]
  set b := bump p.pos (findK (exact K) p.heights x).1
  set q := p.quantile
  set v := p.pos
  have hc : ((p.historyCount - 1 : ℕ) : K) = (p.historyCount : K) - 1 := by
    rw [Nat.cast_sub (by omega)]; simp
  have hcz : ((p.historyCount : ℤ) : K) = (p.historyCount : K) := Int.cast_natCast _
  have hx4 : b.x4 = (p.historyCount : ℤ) := by rw [z4, h4]; ring
  have w1 : (v.x1 : K) ≤ b.x1 := by exact_mod_cast u1
  have w1' : (b.x1 : K) ≤ v.x1 + 1 := by exact_mod_cast u1'
  have w2 : (v.x2 : K) ≤ b.x2 := by exact_mod_cast u2
  have w2' : (b.x2 : K) ≤ v.x2 + 1 := by exact_mod_cast u2'
  have w3 : (v.x3 : K) ≤ b.x3 := by exact_mod_cast u3
  have w3' : (b.x3 : K) ≤ v.x3 + 1 := by exact_mod_cast u3'
  unfold Tracks at ht ⊢
  simp only [hc, Nat.add_sub_cancel] at ht ⊢
  by_cases hq : 1 / 2 ≤ q
  · rw [if_pos hq] at ht ⊢
    rw [if_pos hq]
    obtain ⟨⟨t1, t1'⟩, ⟨t2, t2'⟩, t3, t3'⟩ := ht
    have := rank_step (n := p.historyCount) hq q1 (by exact_mod_cast h5) (n1 := b.x1) (n2 := b.x2) (n3 := b.x3)
      (by omega) b2 b3 (by rw [← hx4]; exact b4)
      (by rw [hcz]; linarith) (by rw [hcz]; linarith) (by rw [hcz]; linarith) (by rw [hcz]; linarith)
      (by rw [hcz]; linarith) (by rw [hcz]; linarith)
    simp only [hcz] at this
    rw [b0, hx4]
    exact this
  · rw [if_neg hq] at ht ⊢
    rw [if_neg hq]
    obtain ⟨⟨t1, t1'⟩, ⟨t2, t2'⟩, t3, t3'⟩ := ht
    set n : ℤ := (p.historyCount : ℤ) with hn
    have := rank_step (q := 1 - q) (n := n) (by linarith) (by linarith) (by omega)
      (n1 := n - b.x3) (n2 := n - b.x2) (n3 := n - b.x1) (by omega) (by omega) (by omega) (by omega)
      (by push_cast; rw [hcz]; linarith) (by push_cast; rw [hcz]; linarith) (by push_cast; rw [hcz]; linarith)
      (by push_cast; rw [hcz]; linarith) (by push_cast; rw [hcz]; linarith) (by push_cast; rw [hcz]; linarith)
    simp only at this
    have f3 : (n : K) * (1 - q) / 2 = n - p.historyCount * (1 + q) / 2 := by rw [hcz]; ring
    have f2 : (n : K) * (1 - q) = n - p.historyCount * q := by rw [hcz]; ring
    have f1 : (n : K) * (1 + (1 - q)) / 2 = n - p.historyCount * q / 2 := by rw [hcz]; ring
    rw [f3, f2, f1] at this
    set m3 := adjPos ((p.historyCount : K) * (1 + q) / 2) b.x2 b.x3 b.x4 with hm3
    have g3 : adjPos ((n : K) - p.historyCount * (1 + q) / 2) 0 (n - b.x3) (n - b.x2) = n - m3 := by
      have := adjPos_mirror n ((p.historyCount : K) * (1 + q) / 2) b.x2 b.x3 b.x4 b3 b4
      rw [show n - b.x4 = 0 by omega] at this; exact this
    rw [g3] at this
    have k3 : b.x2 < m3 := by
      simp only [hm3, adjPos]; split_ifs <;> omega
    set m2 := adjPos ((p.historyCount : K) * q) b.x1 b.x2 m3 with hm2
    have g2 : adjPos ((n : K) - p.historyCount * q) (n - m3) (n - b.x2) (n - b.x1) = n - m2 :=
      adjPos_mirror n _ b.x1 b.x2 m3 b2 k3
    rw [g2] at this
    have k2 : b.x1 < m2 := by
      simp only [hm2, adjPos]; split_ifs <;> omega
    set m1 := adjPos ((p.historyCount : K) * q / 2) b.x0 b.x1 m2 with hm1
    have g1 : adjPos ((n : K) - p.historyCount * q / 2) (n - m2) (n - b.x1) n = n - m1 := by
      have := adjPos_mirror n ((p.historyCount : K) * q / 2) b.x0 b.x1 m2 b1 k2
      rw [show n - b.x0 = n by omega] at this; exact this
    rw [g1] at this
    push_cast at this
    obtain ⟨⟨r1, r1'⟩, ⟨r2, r2'⟩, r3, r3'⟩ := this
    refine ⟨⟨?_, ?_⟩, ⟨?_, ?_⟩, ?_, ?_⟩ <;> linarith

end P2

/-- **C39** (exact arithmetic): after any stream of more than five (or exactly five) observations the middle
marker's rank differs from its target (n-1)q by less than 3, and those of the outer two inner markers from
their targets (n-1)q/2 and (n-1)(1+q)/2 by less than 2. -/
theorem C39_ranks (q : K) (p p' : P2 K) (hp : P2.new (exact K) q = .ok p) (xs : List K) (h5 : 5 ≤ xs.length)
    (hu : updateAll (P2.update (exact K)) p xs = .ok p') :
    |((xs.length : K) - 1) * q - p'.pos.x2| < 3 ∧ |((xs.length : K) - 1) * (q / 2) - p'.pos.x1| < 2 ∧
      |((xs.length : K) - 1) * ((1 + q) / 2) - p'.pos.x3| < 2 ∧ p'.pos.x0 = 0 ∧
      (p'.pos.x4 : K) = xs.length - 1 := by
  have hA : P2.Sane (exact K) := P2.sane_round Rounding.none
  obtain ⟨q0, q1⟩ := (P2.new_ok_iff Rounding.none q).1 ⟨p, hp⟩
  have e := P2.new_eq_ok hp
  have hpos : P2.PosInc p.pos := by rw [e]; simp [P2.PosInc]
  have h0 : p.historyCount = 0 := by rw [e]
  have key : ∀ ys : List K, 5 ≤ ys.length → ∀ p', updateAll (P2.update (exact K)) p ys = .ok p' →
      P2.Tracks q ys.length p'.pos := by
    intro ys
    induction ys using List.reverseRecOn with
    | nil => intro h; simp at h
    | append_singleton ys x ih =>
      intro hlen p' hu
      rcases Nat.lt_or_ge ys.length 5 with h | h
      · have h4 : ys.length = 4 := by simp at hlen; omega
        rcases P2.updateAll_ok_iff hA hpos h0 (ys ++ [x]) with ⟨p1, e1, -, -, -, -, -, e7⟩ | ⟨e1, -⟩
        · rw [hu] at e1; injection e1 with e1; subst e1
          rw [e7 (by simp; omega), e]
          simp only [List.length_append, h4, List.length_singleton, P2.Tracks]
          push_cast
          split_ifs with hq
          · refine ⟨⟨?_, ?_⟩, ⟨?_, ?_⟩, ?_, ?_⟩ <;> linarith
          · have hq := not_le.1 hq
            refine ⟨⟨?_, ?_⟩, ⟨?_, ?_⟩, ?_, ?_⟩ <;> linarith
        · rw [hu] at e1; cases e1
      · rw [updateAll_snoc] at hu
        obtain ⟨p1, e1, hu⟩ := Res.bind_eq_ok.1 hu
        have ht := ih h p1 e1
        rcases P2.updateAll_ok_iff hA hpos h0 ys with ⟨p2, g1, g2, g3, g4, g5, -⟩ | ⟨g1, -⟩
        · rw [e1] at g1; injection g1 with g1; subst g1
          have gq : p1.quantile = q := by rw [g4, e]
          have g5' : p1.pos.x4 = p1.historyCount - 1 := by
            rw [g5, g3, e]; simp only; omega
          rw [P2.update_eq g2, if_neg (by omega)] at hu
          split at hu
          · cases hu
          · injection hu with hu
            rw [← hu, List.length_append, List.length_singleton, ← g3, ← gq]
            exact P2.updateLater_tracks (by rw [gq]; exact q0) (by rw [gq]; exact q1) g2 (by omega) g5'
              (by rw [gq, g3]; exact ht) x
        · rw [e1] at g1; cases g1
  have ht := key xs h5 p' hu
  have hend : p'.pos.x0 = 0 ∧ (p'.pos.x4 : K) = xs.length - 1 := by
    rcases P2.updateAll_ok_iff hA hpos h0 xs with ⟨p2, g1, g2, g3, g4, g5, -⟩ | ⟨g1, -⟩
    · rw [hu] at g1; injection g1 with g1; subst g1
      refine ⟨g2.1, ?_⟩
      have : p'.pos.x4 = (xs.length : ℤ) - 1 := by
        rw [g5, e]; simp only; omega
      rw [this]; push_cast; ring
    · rw [hu] at g1; cases g1
  have hc : ((xs.length - 1 : ℕ) : K) = (xs.length : K) - 1 := by
    rw [Nat.cast_sub (by omega)]; simp
  unfold P2.Tracks at ht
  simp only [hc] at ht
  split_ifs at ht
  · obtain ⟨⟨t1, t1'⟩, ⟨t2, t2'⟩, t3, t3'⟩ := ht
    refine ⟨abs_lt.2 ⟨?_, ?_⟩, abs_lt.2 ⟨?_, ?_⟩, abs_lt.2 ⟨?_, ?_⟩, hend⟩ <;> linarith
  · obtain ⟨⟨t1, t1'⟩, ⟨t2, t2'⟩, t3, t3'⟩ := ht
    refine ⟨abs_lt.2 ⟨?_, ?_⟩, abs_lt.2 ⟨?_, ?_⟩, abs_lt.2 ⟨?_, ?_⟩, hend⟩ <;> linarith

/-- Ten observations: ranks 2, 4, 6 against targets 9/4, 9/2, 27/4. -/
example : (do
    let p ← updateAll (P2.update (exact ℚ)) (P2.blank (1 / 2)) [1, 2, 3, 4, 5, 6, 7, 8, 9, 10]
    .ok p.pos) = .ok ⟨0, 2, 4, 6, 9⟩ := by
  decide +kernel

end Exact

end KML
