import Verif.Model.PublicCount
import Verif.Props.P2
import Verif.Props.Mean

/-!
# C145, C146, C147: assigning the number of observations
-/

namespace KML

open Spec

variable {K : Type} [Field K] [LinearOrder K] [IsStrictOrderedRing K] [FloorRing K]

namespace P2

variable {R : Rounding K}

/-- `linear_up` when the heights are in the wrong order. -/
theorem linear_up_rev {hi hp : K} {ni np : ℤ} (r1 : R.rnd hi = hi) (r2 : R.rnd hp = hp) (h : hp ≤ hi) (hn : 1 < np - ni) :
    hp ≤ linear R.arith hi hp ni np (R.arith.ofInt 1) ∧ linear R.arith hi hp ni np (R.arith.ofInt 1) ≤ hi := by
  have one : R.rnd ((1 : ℤ) : K) = 1 := by simpa using R.rnd_one
  have two : R.rnd ((2 : ℤ) : K) = 2 := by
    have := R.int_exact 2 (by norm_num); simpa using this
  have hk : (2 : K) ≤ R.rnd ((np - ni : ℤ) : K) := by
    rw [← two]; apply R.mono; exact_mod_cast hn
  simp only [linear, Rounding.arith, one, one_mul, R.idem]
  set k := R.rnd ((np - ni : ℤ) : K)
  set y := hp - hi with hy
  have y0 : y ≤ 0 := by rw [hy]; linarith
  have d0 : R.rnd y ≤ 0 := by rw [← R.rnd_zero]; exact R.mono y0
  have q0 : R.rnd y / k ≤ 0 := div_nonpos_of_nonpos_of_nonneg d0 (by linarith)
  have q1 : R.rnd y / 2 ≤ R.rnd y / k := by
    have := div_le_div_of_nonneg_left (neg_nonneg.2 d0) (by norm_num) hk
    rw [neg_div, neg_div] at this
    linarith
  have t0 : R.rnd (R.rnd y / k) ≤ 0 := by rw [← R.rnd_zero]; exact R.mono q0
  have ht := R.tiny_nonneg
  have t1 : y ≤ R.rnd (R.rnd y / k) := by
    by_cases hc : -y ≤ 4 * R.tiny
    · have e : R.rnd y = y := R.sub_exact hp hi r2 r1 (by rw [abs_of_nonpos (by rw [← hy]; exact y0)]; exact hc)
      calc y = R.rnd y := e.symm
        _ ≤ R.rnd (R.rnd y / k) := R.mono (by rw [e] at q1 ⊢; linarith)
    · have hc := not_le.1 hc
      have e1 := R.rel y (by rw [abs_of_nonpos y0]; linarith)
      rw [abs_of_nonpos y0] at e1
      have e2 := (abs_le.1 e1).1
      have e3 := R.rel (5 / 8 * y) (by rw [abs_of_nonpos (by linarith)]; linarith)
      rw [abs_of_nonpos (by linarith : 5 / 8 * y ≤ 0)] at e3
      have e4 := (abs_le.1 e3).1
      have e5 : R.rnd (5 / 8 * y) ≤ R.rnd (R.rnd y / k) := R.mono (by linarith)
      linarith
  constructor
  · conv_lhs => rw [← r2]
    exact R.mono (by rw [hy] at t1; linarith)
  · conv_rhs => rw [← r1]
    exact R.mono (by linarith)

/-- `linear_down` when the heights are in the wrong order. -/
theorem linear_down_rev {hi hm : K} {ni nm : ℤ} (r1 : R.rnd hi = hi) (r2 : R.rnd hm = hm) (h : hi ≤ hm)
    (hn : nm - ni < -1) :
    hi ≤ linear R.arith hi hm ni nm (R.arith.ofInt (-1)) ∧
    linear R.arith hi hm ni nm (R.arith.ofInt (-1)) ≤ hm := by
  have mone : R.rnd ((-1 : ℤ) : K) = -1 := by
    have := R.int_exact (-1) (by norm_num); simpa using this
  have mtwo : R.rnd ((-2 : ℤ) : K) = -2 := by
    have := R.int_exact (-2) (by norm_num); simpa using this
  have hk : R.rnd ((nm - ni : ℤ) : K) ≤ -2 := by
    rw [← mtwo]; apply R.mono; exact_mod_cast (by omega : nm - ni ≤ -2)
  simp only [linear, Rounding.arith, mone]
  set k := R.rnd ((nm - ni : ℤ) : K)
  set y := hm - hi with hy
  have y0 : 0 ≤ y := by rw [hy]; linarith
  have d0 : 0 ≤ R.rnd y := R.rnd_nonneg y0
  have e0 : R.rnd (-1 * R.rnd y) ≤ 0 := by rw [← R.rnd_zero]; exact R.mono (by linarith)
  set ε := R.rnd (-1 * R.rnd y)
  have q0 : 0 ≤ ε / k := div_nonneg_of_nonpos e0 (by linarith)
  have q1 : ε / k ≤ -ε / 2 := by
    have h1 : -ε / (-k) ≤ -ε / 2 := div_le_div_of_nonneg_left (by linarith) (by norm_num) (by linarith)
    rwa [neg_div_neg_eq] at h1
  have t0 : 0 ≤ R.rnd (ε / k) := R.rnd_nonneg q0
  have ht := R.tiny_nonneg
  have t1 : R.rnd (ε / k) ≤ y := by
    by_cases hc : y ≤ 4 * R.tiny
    · have f1 : R.rnd y = y := R.sub_exact hm hi r2 r1 (by rw [← hy, abs_of_nonneg y0]; exact hc)
      have f2 : R.rnd (-y) = -y := by
        have := R.sub_exact hi hm r1 r2 (by rw [abs_sub_comm, ← hy, abs_of_nonneg y0]; exact hc)
        rwa [show hi - hm = -y by rw [hy]; ring] at this
      have f3 : ε = -y := by
        simp only [ε]; rw [f1, show (-1 : K) * y = -y by ring, f2]
      rw [f3] at q1 ⊢
      calc R.rnd (-y / k) ≤ R.rnd y := R.mono (by linarith)
        _ = y := f1
    · have hc := not_le.1 hc
      have e1 := R.rel y (by rw [abs_of_nonneg y0]; linarith)
      rw [abs_of_nonneg y0] at e1
      obtain ⟨e2, e2'⟩ := abs_le.1 e1
      have dabs : |-1 * R.rnd y| = R.rnd y := by rw [neg_one_mul, abs_neg, abs_of_nonneg d0]
      have e3 := R.rel (-1 * R.rnd y) (by rw [dabs]; linarith)
      rw [dabs] at e3
      have e4 := (abs_le.1 e3).1
      have e5 : -ε ≤ 25 / 16 * y := by simp only [ε]; linarith
      have e6 := R.rel (25 / 32 * y) (by rw [abs_of_nonneg (by linarith)]; linarith)
      rw [abs_of_nonneg (by linarith : 0 ≤ 25 / 32 * y)] at e6
      have e7 := (abs_le.1 e6).2
      have e8 : R.rnd (ε / k) ≤ R.rnd (25 / 32 * y) := R.mono (by linarith)
      linarith
  constructor
  · conv_lhs => rw [← r1]
    exact R.mono (by linarith)
  · conv_rhs => rw [← r2]
    exact R.mono (by rw [hy] at t1; linarith)

/-- Numbers of the arithmetic between two bounds. -/
def Inside (R : Rounding K) (lo hi x : K) : Prop := R.rnd x = x ∧ lo ≤ x ∧ x ≤ hi

theorem adjust_inside (des : K) {lo hi hm h hp : K} {nm ni np : ℤ} (im : Inside R lo hi hm) (ii : Inside R lo hi h)
    (ip : Inside R lo hi hp) : Inside R lo hi (adjust R.arith des hm h hp nm ni np).1 := by
  have hA := sane_round R
  obtain ⟨rm, m1, m2⟩ := im
  obtain ⟨ri, i1, i2⟩ := ii
  obtain ⟨rp, p1, p2⟩ := ip
  unfold adjust
  simp only
  split
  · rename_i hcond
    simp only [Bool.or_eq_true, Bool.and_eq_true, decide_eq_true_eq] at hcond
    split
    · rename_i hb
      simp only [Rounding.arith, Bool.and_eq_true, decide_eq_true_eq] at hb
      exact ⟨R.idem _, m1.trans hb.1.le, hb.2.le.trans p2⟩
    · rcases hcond with ⟨ha, hb⟩ | ⟨ha, hb⟩
      · have := hA.up _ ha
        simp only [copysign, this, if_true]
        rcases le_total h hp with hle | hle
        · obtain ⟨k1, k2⟩ := linear_up (R := R) ri rp hle hb
          exact ⟨R.idem _, i1.trans k1, k2.trans p2⟩
        · obtain ⟨k1, k2⟩ := linear_up_rev (R := R) ri rp hle hb
          exact ⟨R.idem _, p1.trans k1, k2.trans i2⟩
      · have := hA.down _ ha
        simp only [copysign, this.1, this.2, if_true, Bool.false_eq_true, if_false]
        rw [if_neg (by decide)]
        rcases le_total hm h with hle | hle
        · obtain ⟨k1, k2⟩ := linear_down (R := R) ri rm hle hb
          exact ⟨R.idem _, m1.trans k1, k2.trans i2⟩
        · obtain ⟨k1, k2⟩ := linear_down_rev (R := R) ri rm hle hb
          exact ⟨R.idem _, i1.trans k1, k2.trans m2⟩
  · exact ⟨ri, i1, i2⟩

/-- The invariant without the order of the heights, which an assignment can destroy. -/
structure Unsorted (R : Rounding K) (lo hi : K) (p : P2 K) : Prop where
  q0 : 0 < p.quantile
  q1 : p.quantile < 1
  pos : PosInc p.pos
  inside : ∀ h ∈ p.heights.toList, Inside R lo hi h

theorem five_forall {α : Type} {P : α → Prop} {v : Five α} : (∀ h ∈ v.toList, P h) ↔ P v.x0 ∧ P v.x1 ∧ P v.x2 ∧ P v.x3 ∧ P v.x4 := by
  simp [Five.toList]

theorem adjustHeights_inside {lo hi : K} {p : P2 K} (h : ∀ h ∈ p.heights.toList, Inside R lo hi h) (i : ℕ) :
    ∀ h ∈ (adjustHeights R.arith p i).heights.toList, Inside R lo hi h := by
  rw [five_forall] at h ⊢
  obtain ⟨h0, h1, h2, h3, h4⟩ := h
  unfold adjustHeights
  split
  · exact ⟨h0, adjust_inside _ h0 h1 h2, h2, h3, h4⟩
  · exact ⟨h0, h1, adjust_inside _ h1 h2 h3, h3, h4⟩
  · exact ⟨h0, h1, h2, adjust_inside _ h2 h3 h4, h4⟩
  · exact ⟨h0, h1, h2, h3, h4⟩

theorem Unsorted.update {lo hi x : K} {p : P2 K} (h : Unsorted R lo hi p) (hx : Inside R lo hi x) (hn : p.pos.x4 < intMax) :
    ∃ p', p.update R.arith x = .ok p' ∧ Unsorted R lo hi p' ∧ p'.pos.x4 ≤ p.pos.x4 + 1 := by
  have hu := update_eq (A := R.arith) h.pos x
  rw [if_neg (not_le.2 hn)] at hu
  split at hu
  · refine ⟨_, hu, ?_, ?_⟩
    · obtain ⟨f1, f2, f3⟩ := updateFirst_frame (A := R.arith) p x
      refine ⟨f2 ▸ h.q0, f2 ▸ h.q1, f3 ▸ h.pos, fun y hy => ?_⟩
      rcases updateFirst_mem (A := R.arith) (p := p) x y hy with rfl | hy
      · exact hx
      · exact h.inside y hy
    · rw [(updateFirst_frame (A := R.arith) p x).2.2]; omega
  · refine ⟨_, hu, ⟨?_, ?_, updateLater_posInc (sane_round R) h.pos x, ?_⟩, ?_⟩
    · rw [(updateLater_frame (A := R.arith) p x).2.1]; exact h.q0
    · rw [(updateLater_frame (A := R.arith) p x).2.1]; exact h.q1
    · refine updateLater_cases p x (fun p => ∀ h ∈ p.heights.toList, Inside R lo hi h) ?_
        (fun p i h => adjustHeights_inside h i) (fun _ h => h)
      have hi := h.inside
      simp only
      rw [five_forall] at hi ⊢
      obtain ⟨h0, h1, h2, h3, h4⟩ := hi
      unfold findK
      split_ifs
      · exact ⟨hx, h1, h2, h3, h4⟩
      · exact ⟨h0, h1, h2, h3, h4⟩
      · exact ⟨h0, h1, h2, h3, h4⟩
      · exact ⟨h0, h1, h2, h3, h4⟩
      · exact ⟨h0, h1, h2, h3, h4⟩
      · exact ⟨h0, h1, h2, h3, hx⟩
    · rw [(updateLater_frame (A := R.arith) p x).2.2.1]

theorem Unsorted.evaluate {lo hi : K} {p : P2 K} (h : Unsorted R lo hi p) :
    ∃ v p', p.evaluate R.arith = .ok (v, p') ∧ (lo ≤ v ∧ v ≤ hi) ∧ Unsorted R lo hi p' ∧ p'.pos = p.pos := by
  obtain ⟨v, p', h1, h2, h3, h4, -⟩ := evaluate_spec (R := R) h.q0 h.q1
  refine ⟨v, p', h1, (h.inside v h2).2, ?_, (evaluate_frame h1).1⟩
  rcases h3 with h3 | ⟨-, rfl⟩
  · rw [h4, h3]
    exact ⟨h.q0, h.q1, h.pos, fun y hy => h.inside y ((Five.sort_perm R.arith _).mem_iff.1 hy)⟩
  · exact h

theorem Unsorted.hrun {lo hi : K} (ops : List (HOp K)) : ∀ {p : P2 K}, Unsorted R lo hi p →
    (∀ x ∈ HOp.observations ops, Inside R lo hi x) → p.pos.x4 + (HOp.observations ops).length ≤ intMax →
    ∃ vs p', P2.hrun R.arith p ops = .ok (vs, p') ∧ Unsorted R lo hi p' ∧ ∀ v ∈ vs, lo ≤ v ∧ v ≤ hi := by
  induction ops with
  | nil => exact fun h _ _ => ⟨[], _, rfl, h, by simp⟩
  | cons o ops ih =>
    intro p h hx hn
    rcases o with (x | _ | _) | n
    · simp only [HOp.observations, List.mem_cons, forall_eq_or_imp, List.length_cons] at hx hn
      obtain ⟨p1, e1, e2, e3⟩ := h.update hx.1 (by push_cast at hn; omega)
      obtain ⟨vs, p', f1, f2, f3⟩ := ih e2 hx.2 (by push_cast at hn; omega)
      exact ⟨vs, p', by simp [P2.hrun, P2.step, e1, f1], f2, f3⟩
    · obtain ⟨v, p1, e1, e2, e3, e4⟩ := h.evaluate
      obtain ⟨vs, p', f1, f2, f3⟩ := ih e3 hx (by rw [e4]; exact hn)
      refine ⟨v :: vs, p', by simp [P2.hrun, P2.step, e1, f1], f2, ?_⟩
      simp only [List.mem_cons, forall_eq_or_imp]
      exact ⟨e2, f3⟩
    · obtain ⟨vs, p', f1, f2, f3⟩ := ih (p := p.clear) ⟨h.q0, h.q1, h.pos, h.inside⟩ hx hn
      exact ⟨vs, p', by simp [P2.hrun, P2.step, f1], f2, f3⟩
    · obtain ⟨vs, p', f1, f2, f3⟩ := ih (p := p.assign n) ⟨h.q0, h.q1, h.pos, h.inside⟩ hx hn
      exact ⟨vs, p', by simp [P2.hrun, f1], f2, f3⟩

end P2

/-- **C145** (any rounding): whatever is assigned to `m_historyCount` between calls, with at most 2^31 - 5 observations no call
is undefined and every value lies in any interval containing 0 and the observations. -/
theorem C145_range (R : Rounding K) (q : K) (p : P2 K) (hp : P2.new R.arith q = .ok p) (lo hi : K) (hlo : lo ≤ 0) (hhi : 0 ≤ hi)
    (ops : List (HOp K)) (hx : ∀ x ∈ HOp.observations ops, R.rnd x = x ∧ lo ≤ x ∧ x ≤ hi)
    (hlen : (HOp.observations ops).length ≤ 2 ^ 31 - 5) :
    ∃ vs p' v p'', P2.hrun R.arith p ops = .ok (vs, p') ∧ p'.evaluate R.arith = .ok (v, p'') ∧
      ∀ w ∈ v :: vs, lo ≤ w ∧ w ≤ hi := by
  have hh := P2.Hull.new hp hlo hhi
  have hl : P2.Unsorted R lo hi p := ⟨hh.q0, hh.q1, hh.pos, fun y hy => ⟨hh.rep y hy, hh.range y hy⟩⟩
  have h4 : p.pos.x4 = 4 := by rw [P2.new_eq_ok hp]
  obtain ⟨vs, p', e1, e2, e3⟩ := P2.Unsorted.hrun ops hl hx (by rw [h4]; simp only [P2.intMax]; omega)
  obtain ⟨v, p'', f1, f2, -, -⟩ := e2.evaluate
  refine ⟨vs, p', v, p'', e1, f1, fun w hw => ?_⟩
  rcases List.mem_cons.1 hw with rfl | hw
  · exact f2
  · exact e3 w hw

/-- **C145**: the limit is sharp. If 5 is assigned first, the markers count from the first observation on. -/
theorem C145_limit (R : Rounding K) (q : K) (p : P2 K) (hp : P2.new R.arith q = .ok p) (xs : List K) :
    (P2.hrun R.arith p (.assign 5 :: xs.map fun x => .call (.update x))).IsOk ↔ xs.length ≤ 2 ^ 31 - 5 := by
  have h4 : p.pos = ⟨0, 1, 2, 3, 4⟩ := by rw [P2.new_eq_ok hp]
  have hpos : P2.PosInc (p.assign 5).pos := by simp [P2.assign, h4, P2.PosInc]
  suffices h : ∀ p : P2 K, P2.PosInc p.pos → 5 ≤ p.historyCount → p.pos.x4 ≤ P2.intMax →
      ((P2.hrun R.arith p (xs.map fun x => .call (.update x))).IsOk ↔ p.pos.x4 + xs.length ≤ P2.intMax) by
    have := h (p.assign 5) hpos le_rfl (by simp [P2.assign, h4, P2.intMax])
    simp only [P2.hrun]
    rw [this]
    simp only [P2.assign, h4, P2.intMax]
    omega
  clear hpos h4 hp
  induction xs with
  | nil => intro p _ _ h; exact iff_of_true ⟨_, rfl⟩ (by simpa using h)
  | cons x xs ih =>
    intro p h1 h2 h3
    have hu := P2.update_eq (A := R.arith) h1 x
    rw [if_neg (by omega)] at hu
    by_cases hc : P2.intMax ≤ p.pos.x4
    · rw [if_pos hc] at hu
      refine iff_of_false ?_ (by simp only [List.length_cons]; push_cast; omega)
      rintro ⟨r, hr⟩
      simp [P2.hrun, P2.step, hu] at hr
    · rw [if_neg hc] at hu
      obtain ⟨f1, -, f3, -⟩ := P2.updateLater_frame (A := R.arith) p x
      have := ih (P2.updateLater R.arith p x) (P2.updateLater_posInc (P2.sane_round R) h1 x) (by omega) (by omega)
      rw [f3] at this
      have e : (P2.hrun R.arith p ((x :: xs).map fun x => .call (.update x))).IsOk ↔
          (P2.hrun R.arith (P2.updateLater R.arith p x) (xs.map fun x => .call (.update x))).IsOk := by
        simp only [List.map_cons, P2.hrun, P2.step, hu, Res.ok_bind]
        constructor
        · rintro ⟨r, hr⟩
          obtain ⟨s, hs, -⟩ := Res.bind_eq_ok.1 hr
          exact ⟨s, hs⟩
        · rintro ⟨s, hs⟩
          exact ⟨_, by rw [hs]; rfl⟩
      rw [e, this]
      simp only [List.length_cons]
      push_cast
      omega

/-- After an assignment the heights can be out of order. -/
example : (do
    let p ← P2.new b64 (1 / 2)
    let r ← P2.hrun b64 p ([1, 2, 3, 4, 5, 6].map (fun x => HOp.call (.update x)) ++
      [HOp.assign 3, HOp.call (.update 8), HOp.assign 6])
    let s ← P2.hrun b64 r.2 ([7, 1, 9].map (fun x => HOp.call (.update x)) ++ [HOp.call .evaluate])
    .ok (r.2.heights, s.1)) = .ok (⟨1, 2, 3, 8, 6⟩, [5]) := by
  decide +kernel

/-! ## C146 -/

/-- The calls of a history. -/
def AOp.calls {F : Type} : List (AOp F) → List (SOp F)
  | [] => []
  | .call o :: os => o :: calls os
  | .assign _ :: os => calls os

/-- **C146**, the full claim: whatever is assigned to `m_historyCount`, the value is the mean of the observations (of the last
`W`, with a window). -/
def C146_full : Prop := ∀ (W : ℕ) (ops : List (AOp ℚ)) (vs : List ℚ) (m : Mean ℚ),
  AOp.run (Mean.update (exact ℚ)) (fun m => .ok (m.evaluate (exact ℚ), m)) Mean.assign (Mean.new (exact ℚ) W) ops = .ok (vs, m) →
    SOp.observations (AOp.calls ops) ≠ [] →
    m.evaluate (exact ℚ) = mean (windowOf W (SOp.observations (AOp.calls ops)))

/-- **C146** is violated: 2, 4, assign 1: 6. -/
theorem C146_violated : ¬ C146_full := by
  intro h
  have := h 0 [.call (.update 2), .call (.update 4), .assign 1] [] ⟨0, none, 1, 6⟩ (by decide +kernel) (by decide)
  revert this
  decide +kernel

/-- With a window, 0 is the one value that can be noticed. -/
theorem C146_zero_violated : ¬ ∀ (W : ℕ) (ops : List (AOp ℚ)) (vs : List ℚ) (m : Mean ℚ), 1 ≤ W →
    AOp.run (Mean.update (exact ℚ)) (fun m => .ok (m.evaluate (exact ℚ), m)) Mean.assign (Mean.new (exact ℚ) W) ops = .ok (vs, m) →
    SOp.observations (AOp.calls ops) ≠ [] → m.evaluate (exact ℚ) = mean (windowOf W (SOp.observations (AOp.calls ops))) := by
  intro h
  have := h 3 [.call (.update 2), .call (.update 4), .assign 0] [] ⟨3, some [2, 4], 0, 6⟩ (by decide) (by decide +kernel) (by decide)
  revert this
  decide +kernel

theorem Mean.assign_update {F : Type} (A : Arith F) (m : Mean F) (n : ℕ) (x : F) :
    (m.assign n).update A x = (do let m' ← m.update A x; .ok (m'.assign (n + 1))) := by
  rcases hw : m.window with _ | w
  · simp [Mean.update, Mean.assign, hw]
  · by_cases hl : w.length + 1 > m.windowSize
    · rcases w with _ | ⟨y, w⟩
      · simp only [Mean.update, Mean.assign, hw, if_pos hl]; rfl
      · simp only [Mean.update, Mean.assign, hw, if_pos hl]; rfl
    · simp only [Mean.update, Mean.assign, hw, if_neg hl]; rfl

/-- Everything but the count is as without the assignments (any arithmetic). -/
theorem Mean.arun {F : Type} (A : Arith F) (ops : List (AOp F)) : ∀ (m : Mean F) (vs : List F) (m' : Mean F) (n : ℕ),
    AOp.run (Mean.update A) (fun m => .ok (m.evaluate A, m)) Mean.assign (m.assign n) ops = .ok (vs, m') →
    ∃ m0 k, updateAll (Mean.update A) m (SOp.observations (AOp.calls ops)) = .ok m0 ∧ m' = m0.assign k := by
  induction ops with
  | nil =>
    intro m vs m' n h
    cases h
    exact ⟨m, n, rfl, rfl⟩
  | cons o ops ih =>
    intro m vs m' n h
    rcases o with (x | _) | k
    · obtain ⟨m1, h1, h2⟩ := Res.bind_eq_ok.1 h
      rw [Mean.assign_update] at h1
      obtain ⟨m2, h3, h4⟩ := Res.bind_eq_ok.1 h1
      cases h4
      obtain ⟨m0, k, e1, e2⟩ := ih m2 vs m' (n + 1) h2
      exact ⟨m0, k, by simp [AOp.calls, SOp.observations, updateAll, h3, e1], e2⟩
    · simp only [AOp.run, Res.ok_bind] at h
      obtain ⟨⟨ws, m1⟩, h1, h2⟩ := Res.bind_eq_ok.1 h
      cases h2
      exact ih m ws _ n h1
    · exact ih m vs m' k h

/-- **C146**, partial (any arithmetic): with a window the value is that of the same observations without assignments, unless
the count is 0. -/
theorem C146_window_partial {F : Type} (A : Arith F) (W : ℕ) (hW : 1 ≤ W) (ops : List (AOp F)) (vs : List F) (m : Mean F)
    (h : AOp.run (Mean.update A) (fun m => .ok (m.evaluate A, m)) Mean.assign (Mean.new A W) ops = .ok (vs, m))
    (hn : m.historyCount ≠ 0) (hx : SOp.observations (AOp.calls ops) ≠ []) :
    ∃ m0, updateAll (Mean.update A) (Mean.new A W) (SOp.observations (AOp.calls ops)) = .ok m0 ∧
      m.evaluate A = m0.evaluate A ∧ m.window = m0.window := by
  obtain ⟨m0, k, e1, e2⟩ := Mean.arun A ops (Mean.new A W) vs m 0 h
  refine ⟨m0, e1, ?_, by rw [e2]; rfl⟩
  obtain ⟨r, f1, f2, f3⟩ := C16_mean_window A W (SOp.observations (AOp.calls ops))
  rw [e1] at f1
  cases f1
  have h0 : m0.historyCount ≠ 0 := by rw [f3]; simpa using hx
  rw [if_neg (by omega)] at f2
  subst e2
  unfold Mean.evaluate
  rw [if_neg hn, if_neg h0]
  simp only [Mean.assign, f2]

/-- The number that `m_historyCount` holds after a history. -/
def AOp.count {F : Type} : ℕ → List (AOp F) → ℕ
  | n, [] => n
  | _, .assign k :: os => count k os
  | n, .call (.update _) :: os => count (n + 1) os
  | n, .call .evaluate :: os => count n os

theorem Mean.arun_count {F : Type} (A : Arith F) (ops : List (AOp F)) : ∀ (m : Mean F) (vs : List F) (m' : Mean F),
    AOp.run (Mean.update A) (fun m => .ok (m.evaluate A, m)) Mean.assign m ops = .ok (vs, m') →
    m'.historyCount = AOp.count m.historyCount ops := by
  induction ops with
  | nil => intro m vs m' h; cases h; rfl
  | cons o ops ih =>
    intro m vs m' h
    rcases o with (x | _) | k
    · obtain ⟨m1, h1, h2⟩ := Res.bind_eq_ok.1 h
      have h3 := Mean.assign_update A m m.historyCount x
      rw [show m.assign m.historyCount = m from rfl, h1] at h3
      have h4 : m1.historyCount = m.historyCount + 1 := by
        simp only [Res.ok_bind, Res.ok.injEq] at h3
        rw [h3]; rfl
      rw [ih m1 vs m' h2, h4]; rfl
    · simp only [AOp.run, Res.ok_bind] at h
      obtain ⟨⟨ws, m1⟩, h1, h2⟩ := Res.bind_eq_ok.1 h
      cases h2
      exact ih m ws _ h1
    · exact ih (m.assign k) vs m' h

/-- **C146**, partial (exact): the value after any history. Without a window it is the sum of all observations divided by the
count as assigned. -/
theorem C146_exact_partial (W : ℕ) (ops : List (AOp K)) :
    ∃ vs m, AOp.run (Mean.update (exact K)) (fun m => .ok (m.evaluate (exact K), m)) Mean.assign (Mean.new (exact K) W) ops =
        .ok (vs, m) ∧
      m.evaluate (exact K) = if AOp.count 0 ops = 0 then 0 else
        if W = 0 then (SOp.observations (AOp.calls ops)).sum / (AOp.count 0 ops : K)
        else mean (windowOf W (SOp.observations (AOp.calls ops))) := by
  have tot : ∀ (ops : List (AOp K)) (m m0 : Mean K) (n : ℕ),
      updateAll (Mean.update (exact K)) m (SOp.observations (AOp.calls ops)) = .ok m0 →
      ∃ r, AOp.run (Mean.update (exact K)) (fun m => .ok (m.evaluate (exact K), m)) Mean.assign (m.assign n) ops = .ok r := by
    intro ops
    induction ops with
    | nil => intro m m0 n _; exact ⟨_, rfl⟩
    | cons o ops ih =>
      intro m m0 n h
      rcases o with (x | _) | k
      · obtain ⟨m1, h1, h2⟩ := Res.bind_eq_ok.1 h
        obtain ⟨r, hr⟩ := ih m1 m0 (n + 1) h2
        exact ⟨r, by simp only [AOp.run, Mean.assign_update, h1, Res.ok_bind]; exact hr⟩
      · obtain ⟨r, hr⟩ := ih m m0 n h
        exact ⟨_, by simp only [AOp.run, Res.ok_bind, hr]; rfl⟩
      · exact ih m m0 k h
  obtain ⟨m1, g1, g2, g3⟩ := Mean.run_exact (K := K) W (SOp.observations (AOp.calls ops))
  obtain ⟨⟨vs, m⟩, hr⟩ := tot ops (Mean.new (exact K) W) m1 0 g1
  refine ⟨vs, m, hr, ?_⟩
  have hc := Mean.arun_count _ _ _ _ _ hr
  rw [show ((Mean.new (exact K) W).assign 0).historyCount = 0 from rfl] at hc
  obtain ⟨m0, k, e1, rfl⟩ := Mean.arun _ _ _ _ _ _ hr
  rw [g1] at e1
  cases e1
  by_cases h0 : AOp.count 0 ops = 0
  · rw [if_pos h0]
    unfold Mean.evaluate
    rw [if_pos (by rw [hc, h0])]
    simp [exact]
  · rw [if_neg h0]
    unfold Mean.evaluate
    rw [if_neg (by rw [hc]; exact h0)]
    obtain ⟨m2, f1, f2, f3⟩ := C16_mean_window (exact K) W (SOp.observations (AOp.calls ops))
    rw [g1] at f1
    cases f1
    have hw : (m1.assign k).window = m1.window := rfl
    have hs : (m1.assign k).sum = m1.sum := rfl
    rw [hw, hs, f2, g3, hc]
    by_cases hW : W = 0
    · rw [if_pos hW, if_pos hW]
      simp [exact, Arith.ofNat, windowOf, hW]
    · rw [if_neg hW, if_neg hW]
      simp [exact, Arith.ofNat, windowOf, hW, mean]

/-- Three observations and an assignment, with and without a window. -/
example : AOp.run (Mean.update b64) (fun m => .ok (m.evaluate b64, m)) Mean.assign (Mean.new b64 2)
    [.call (.update 2), .assign 7, .call (.update 4), .call (.update 6), .call .evaluate] = .ok ([5], ⟨2, some [4, 6], 9, 10⟩) ∧
  AOp.run (Mean.update b64) (fun m => .ok (m.evaluate b64, m)) Mean.assign (Mean.new b64 0)
    [.call (.update 2), .assign 7, .call (.update 4), .call (.update 12), .call .evaluate] = .ok ([2], ⟨0, none, 9, 18⟩) := by
  decide +kernel

/-! ## C147 -/

/-- Histories give the same values with and without the assignments, if no call depends on what is assigned. -/
theorem AOp.ignore {σ F : Type} (update : σ → F → Res σ) (evaluate : σ → Res (F × σ)) (assign : σ → ℕ → σ)
    (haa : ∀ s n k, assign (assign s n) k = assign s k)
    (hu : ∀ s n x, ∃ k, update (assign s n) x = (do let s' ← update s x; .ok (assign s' k)))
    (he : ∀ s n, evaluate (assign s n) = (do let (v, s') ← evaluate s; .ok (v, assign s' n)))
    (ops : List (AOp F)) : ∀ (s : σ) (n : ℕ),
    (do let (vs, _) ← AOp.run update evaluate assign (assign s n) ops; .ok vs : Res (List F)) =
      (do let (vs, _) ← SOp.run update evaluate s (AOp.calls ops); .ok vs) := by
  induction ops with
  | nil => intro s n; rfl
  | cons o ops ih =>
    intro s n
    rcases o with (x | _) | k
    · obtain ⟨k, hk⟩ := hu s n x
      simp only [AOp.run, AOp.calls, SOp.run, hk]
      rcases update s x with s' | m | u
      · simpa using ih s' k
      · rfl
      · rfl
    · simp only [AOp.run, AOp.calls, SOp.run, he]
      rcases evaluate s with ⟨v, s'⟩ | m | u
      · have := ih s' n
        simp only [Res.ok_bind]
        rcases h1 : AOp.run update evaluate assign (assign s' n) ops with ⟨vs, s1⟩ | m | u <;>
          rcases h2 : SOp.run update evaluate s' (AOp.calls ops) with ⟨ws, s2⟩ | m' | u' <;>
          rw [h1, h2] at this <;> cases this <;> rfl
      · rfl
      · rfl
    · simp only [AOp.run, AOp.calls, haa]
      exact ih s k

/-- The values of a history are those of its calls alone. -/
def Unnoticed {σ F : Type} (s : σ) (update : σ → F → Res σ) (evaluate : σ → Res (F × σ)) (assign : σ → ℕ → σ) : Prop :=
  ∀ ops : List (AOp F), (do let (vs, _) ← AOp.run update evaluate assign s ops; .ok vs : Res (List F)) =
    (do let (vs, _) ← SOp.run update evaluate s (AOp.calls ops); .ok vs)

/-- **C147** (any arithmetic): from any state, assigning `m_historyCount` of a StreamingVariance, StreamingMAD or StreamingIQR
changes no value and no outcome of any later call. -/
theorem C147_unnoticed {F : Type} (A : Arith F) :
    (∀ v : Variance F, Unnoticed v (Variance.update A) (fun v => .ok (v.evaluate A, v)) Variance.assign) ∧
    (∀ m : Mad F, Unnoticed m (fun m x => .ok (Mad.update A m x)) (fun m => .ok (m.evaluate, m)) Mad.assign) ∧
    (∀ q : IQR F, Unnoticed q (IQR.update A) (IQR.evaluate A) IQR.assign) := by
  refine ⟨fun v ops => ?_, fun m ops => ?_, fun q ops => ?_⟩
  · exact AOp.ignore _ _ Variance.assign (fun _ _ _ => rfl) (fun s n x => ⟨n, by
      unfold Variance.update Variance.assign
      simp⟩) (fun _ _ => rfl) ops v v.historyCount
  · exact AOp.ignore _ _ Mad.assign (fun _ _ _ => rfl) (fun s n x => ⟨n + 1, rfl⟩) (fun _ _ => rfl) ops m m.historyCount
  · exact AOp.ignore _ _ IQR.assign (fun _ _ _ => rfl) (fun s n x => ⟨n + 1, by
      unfold IQR.update IQR.assign
      simp⟩) (fun s n => by
      unfold IQR.evaluate IQR.assign
      simp) ops q q.historyCount

/-- Variance of 1, 3 with an assignment in between. -/
example : AOp.run (Variance.update b64) (fun v => .ok (v.evaluate b64, v)) Variance.assign (Variance.new b64 2)
    [.call (.update 1), .assign 0, .call (.update 3), .call .evaluate] =
    .ok ([1], ⟨some [], 0, ⟨2, some [1, 3], 2, 4⟩, ⟨2, some [1, 9], 2, 10⟩⟩) := by
  decide +kernel

/-- **C147** for StreamingEntropy. -/
theorem C147_entropy {F : Type} (L : LArith F) (e : Entropy F) :
    Unnoticed e (Entropy.update L) (fun e => .ok (e.evaluate, e)) Entropy.assign := by
  have hinc : ∀ (e : Entropy F) (n i : ℕ), (e.assign n).increment L i = (do let e' ← e.increment L i; .ok (e'.assign n)) := by
    intro e n i
    unfold Entropy.increment Entropy.assign
    simp only [Res.bind_assoc]
    congr 1; funext b
    congr 1; funext x1
    congr 1; funext x2
    split <;> rfl
  have hdec : ∀ (e : Entropy F) (n i : ℕ), (e.assign n).decrement L i = (do let e' ← e.decrement L i; .ok (e'.assign n)) := by
    intro e n i
    unfold Entropy.decrement Entropy.assign
    simp only [Res.bind_assoc]
    rfl
  refine fun ops => AOp.ignore _ _ Entropy.assign (fun _ _ _ => rfl) (fun s n x => ⟨n + 1, ?_⟩) (fun _ _ => rfl) ops e e.historyCount
  obtain ⟨W, win, c, h0, ent⟩ := s
  show (⟨W, win, n, h0, ent⟩ : Entropy F).update L x = _
  unfold Entropy.update
  simp only [Res.bind_assoc]
  congr 1; funext index
  rcases win with _ | w
  · rfl
  · simp only
    rcases hw : w ++ [index] with _ | ⟨front, rest⟩
    · rfl
    · simp only
      by_cases hl : (front :: rest).length > W
      · rw [if_pos hl, if_pos hl]
        have hd := hdec ⟨W, some w, c, h0, ent⟩ n front
        simp only [Entropy.assign] at hd
        rw [hd]
        rcases Entropy.decrement L ⟨W, some w, c, h0, ent⟩ front with e1 | m | u
        · simp only [Res.ok_bind, Res.bind_assoc]
          congr 1; funext hist
          exact (congrArg (· >>= _) (hinc ⟨e1.windowSize, some rest, e1.historyCount, hist, e1.entropy⟩ n index)).trans (by
            simp [Entropy.assign])
        · rfl
        · rfl
      · rw [if_neg hl, if_neg hl]
        simp only [Res.ok_bind, Res.bind_assoc]
        congr 1; funext hist
        exact (congrArg (· >>= _) (hinc ⟨W, some (front :: rest), c, hist, ent⟩ n index)).trans (by
          simp [Entropy.assign])

end KML
