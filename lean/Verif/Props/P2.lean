import Verif.Lemmas.P2Fresh
import Verif.Lemmas.Float
import Mathlib.Tactic.IntervalCases

/-! # C29–C32, C34, C35, C37, C38: StreamingP2Quantile -/

set_option linter.unusedSectionVars false

namespace KML

open Spec

/-! ## C29 -/

/-- The full property: over all doubles, accepted exactly inside (0,1) and rejected with an exception
otherwise. It is false of the code. -/
def C29_full : Prop := ∀ q : Dbl,
  ((P2.new Dbl.arith q).IsOk ↔ ∃ r : ℚ, q = .fin r ∧ 0 < r ∧ r < 1) ∧
  ((P2.new Dbl.arith q).IsOk ∨ (P2.new Dbl.arith q).IsThrow)

/-- **C29** is violated: NaN passes both comparisons. -/
theorem C29_violated : ¬ C29_full := by
  intro h
  have h1 := (h .nan).1.1 ⟨⟨.nan, ⟨.fin 0, .fin 0, .fin 0, .fin 0, .fin 0⟩, ⟨0, 1, 2, 3, 4⟩,
    ⟨.fin 0, .fin 0, .fin 0, .fin 0, .fin 0⟩, 0⟩, by decide +kernel⟩
  obtain ⟨r, hr, -⟩ := h1
  cases hr

theorem dbl_lit_zero : Dbl.arith.lit 0 = .fin 0 := by decide +kernel

theorem dbl_lit_one : Dbl.arith.lit 1 = .fin 1 := by decide +kernel

/-- **C29**, the part that holds: every double except NaN is accepted exactly inside (0,1), and everything
else throws. Missing: NaN. -/
theorem C29_constructor_partial (q : Dbl) (hq : q ≠ .nan) :
    ((P2.new Dbl.arith q).IsOk ↔ ∃ r : ℚ, q = .fin r ∧ 0 < r ∧ r < 1) ∧
    ((P2.new Dbl.arith q).IsOk ∨ (P2.new Dbl.arith q).IsThrow) := by
  constructor
  · unfold P2.new
    rw [dbl_lit_zero, dbl_lit_one]
    cases q with
    | nan => exact absurd rfl hq
    | inf s => cases s <;> simp [Dbl.arith, Dbl.le, Dbl.lt, Dbl.eq, Res.IsOk]
    | fin r =>
      rcases le_or_gt r 0 with h0 | h0
      · have : Dbl.arith.le (.fin r) (.fin 0) = true := by
          simp only [Dbl.arith, Dbl.le, Dbl.lt, Dbl.eq, Bool.or_eq_true, decide_eq_true_eq]
          exact lt_or_eq_of_le h0
        simp [this, Res.IsOk, not_lt.2 h0]
      · rcases le_or_gt 1 r with h1 | h1
        · have : Dbl.arith.le (.fin 1) (.fin r) = true := by
            simp only [Dbl.arith, Dbl.le, Dbl.lt, Dbl.eq, Bool.or_eq_true, decide_eq_true_eq]
            exact lt_or_eq_of_le h1
          simp [this, Res.IsOk, not_lt.2 h1]
        · have e0 : Dbl.arith.le (.fin r) (.fin 0) = false := by
            simp [Dbl.arith, Dbl.le, Dbl.lt, Dbl.eq, h0.le, h0.ne']
          have e1 : Dbl.arith.le (.fin 1) (.fin r) = false := by
            simp [Dbl.arith, Dbl.le, Dbl.lt, Dbl.eq, h1.le, h1.ne']
          simp [e0, e1, Res.IsOk, h0, h1]
  · unfold P2.new
    split
    · exact Or.inr ⟨_, rfl⟩
    · exact Or.inl ⟨_, rfl⟩

/-- A quantile inside, and one outside. -/
example : (P2.new Dbl.arith (.fin (1 / 2))).IsOk ∧ (P2.new Dbl.arith (.inf false)).IsThrow :=
  ⟨(C29_constructor_partial (.fin (1 / 2)) (by simp)).1.2 ⟨1 / 2, rfl, by norm_num, by norm_num⟩,
    ⟨"Quantile must be in closed interval (0, 1)", by decide +kernel⟩⟩

/-- Consequence of accepting NaN: the first `evaluate` converts NaN to an index, which is undefined. -/
theorem C29_nan_evaluate : ∃ p, P2.new Dbl.arith .nan = .ok p ∧ (p.evaluate Dbl.arith).IsUB :=
  ⟨⟨.nan, ⟨.fin 0, .fin 0, .fin 0, .fin 0, .fin 0⟩, ⟨0, 1, 2, 3, 4⟩,
    ⟨.fin 0, .fin 0, .fin 0, .fin 0, .fin 0⟩, 0⟩, by decide +kernel, .oob, by decide +kernel⟩

section Round

variable {K : Type} [Field K] [LinearOrder K] [IsStrictOrderedRing K] [FloorRing K]

theorem P2.run_updates {F : Type} (A : Arith F) (p : P2 F) (xs : List F) (ops : List (QOp F)) :
    P2.run A p (xs.map .update ++ ops) = updateAll (P2.update A) p xs >>= fun p => P2.run A p ops := by
  induction xs generalizing p with
  | nil => rfl
  | cons x xs ih =>
    simp only [List.map_cons, List.cons_append, P2.run, P2.step, updateAll]
    cases p.update A x with
    | ok p1 =>
      simp only [Res.ok_bind, ih]
      cases updateAll (P2.update A) p1 xs with
      | ok p2 =>
        simp only [Res.ok_bind]
        cases P2.run A p2 ops <;> simp
      | throw m => rfl
      | ub u => rfl
    | throw m => rfl
    | ub u => rfl

/-! ## C30 -/

/-- **C30**: in any floating point arithmetic, after at least five observations `xs` and then any calls
`ops` other than `clear`, `evaluate` returns a value between the least and the greatest observation,
and these are exactly the outer markers. -/
theorem C30_range (R : Rounding K) (q : K) (p p' : P2 K) (hp : P2.new R.arith q = .ok p)
    (xs : List K) (h5 : 5 ≤ xs.length) (ops : List (QOp K)) (hc : QOp.clear ∉ ops)
    (hx : ∀ x ∈ xs ++ QOp.observations ops, R.rnd x = x) (vs : List K)
    (hr : P2.run R.arith p (xs.map .update ++ ops) = .ok (vs, p')) :
    ∃ v lo hi, p'.evaluate R.arith = .ok (v, p') ∧ lo ≤ v ∧ v ≤ hi ∧
      IsMin (xs ++ QOp.observations ops) lo ∧ IsMax (xs ++ QOp.observations ops) hi ∧
      p'.heights.x0 = lo ∧ p'.heights.x4 = hi := by
  have hs := P2.Since.start (P2.Hull.new hp le_rfl le_rfl) (by rw [P2.new_eq_ok hp])
  rw [P2.run_updates] at hr
  obtain ⟨p1, h1, hr⟩ := Res.bind_eq_ok.1 hr
  have hs1 := hs.updateAll (fun x h => hx x (List.mem_append_left _ h)) h1
  rw [List.nil_append] at hs1
  have hs2 := hs1.run h5 hc (fun x h => hx x (List.mem_append_right _ h)) hr
  have h5' : 5 ≤ (xs ++ QOp.observations ops).length := by simp; omega
  obtain ⟨v, e1, e2, e3⟩ := hs2.evaluate h5'
  obtain ⟨-, m1, m2⟩ := hs2.late h5'
  exact ⟨v, _, _, e1, e2, e3, m1, m2, rfl, rfl⟩

/-- Such a history, in binary64: seven observations with two evaluations. -/
example : (do
    let p ← P2.new b64 (1 / 2)
    let r ← P2.run b64 p ([3, 1, 4, 1, 5].map QOp.update ++
      [QOp.evaluate, QOp.update 9, QOp.evaluate, QOp.update 2])
    .ok r.1) = .ok [3, 3] := by
  decide +kernel

/-! ## C31 -/

/-- **C31**: with exactly five observations `evaluate` returns the one of rank round(4q), whatever their
order (`hq`: 4q is a floating point number, true of every binary quantile, see `C31_binary64`). -/
theorem C31_five (R : Rounding K) (q : K) (hq : R.rnd (4 * q) = 4 * q) (p : P2 K)
    (hp : P2.new R.arith q = .ok p) (xs : List K) (h5 : xs.length = 5) (hx : ∀ x ∈ xs, R.rnd x = x) :
    ∃ p' v, updateAll (P2.update R.arith) p xs = .ok p' ∧ p'.evaluate R.arith = .ok (v, p') ∧
      IsRank xs ⌊4 * q + 1 / 2⌋.toNat v := by
  have hs := P2.Since.start (P2.Hull.new hp le_rfl le_rfl) (by rw [P2.new_eq_ok hp])
  have hpos : P2.PosInc p.pos := hs.pos
  have hpq : p.quantile = q := by rw [P2.new_eq_ok hp]
  rcases P2.updateAll_ok_iff (P2.sane_round R) hpos (by rw [P2.new_eq_ok hp]) xs with
    ⟨p', h1, -, h3, h4, -, -⟩ | ⟨-, -, h⟩
  · have hs1 := hs.updateAll hx h1
    rw [List.nil_append] at hs1
    have hsort := (hs1.late (by omega)).1
    obtain ⟨v, p'', e1, -, e3, e4, e5⟩ := P2.evaluate_spec (R := R) hs1.q0 hs1.q1
    obtain ⟨w, f1, -⟩ := P2.evaluate_pure (R := R) hs1.q0 hs1.q1 hsort
    rw [f1] at e1
    simp only [Res.ok.injEq, Prod.mk.injEq] at e1
    obtain ⟨rfl, rfl⟩ := e1
    refine ⟨p', w, h1, f1, ?_⟩
    have e5 := e5 (by omega)
    rw [P2.evalIndex_eq R hs1.q0 (n := 4) (by omega) le_rfl, h4, hpq] at e5
    push_cast at e5
    rw [hq, Five.sort_of_sorted R.arith (P2.lt_decide R) hsort, hs1.five h5] at e5
    exact IsRank.perm (sortList_perm _ xs) (isRank_of_sorted (sortList_sorted R.arith (P2.lt_decide R) xs) e5)
  · omega

theorem rnd64_four {q : ℚ} (h : rnd64 q = q) : rnd64 (4 * q) = 4 * q := by
  obtain ⟨m, k, hm, hk, e⟩ := rnd64_form q
  rw [h] at e
  have e4 : 4 * q = m * pow2 (k + 2) := by
    rw [e, pow2_add]
    have : pow2 2 = 4 := by decide +kernel
    rw [this]; ring
  rw [e4, rnd64_repr m (k + 2) hm (by omega)]

/-- **C31** for binary64: no side condition beyond the inputs being doubles. -/
theorem C31_binary64 (q : ℚ) (hq : rnd64 q = q) (p : P2 ℚ) (hp : P2.new b64 q = .ok p) (xs : List ℚ)
    (h5 : xs.length = 5) (hx : ∀ x ∈ xs, rnd64 x = x) :
    ∃ p' v, updateAll (P2.update b64) p xs = .ok p' ∧ p'.evaluate b64 = .ok (v, p') ∧
      IsRank xs ⌊4 * q + 1 / 2⌋.toNat v :=
  C31_five R64 q (rnd64_four hq) p hp xs h5 hx

/-- The median of 3, 1, 4, 1, 5 is 3. -/
example : (do
    let p ← P2.new b64 (1 / 2)
    let p ← updateAll (P2.update b64) p [3, 1, 4, 1, 5]
    let r ← p.evaluate b64
    .ok r.1) = .ok 3 := by
  decide +kernel

example : rnd64 (1 / 2) = 1 / 2 ∧ ∀ x ∈ [(3 : ℚ), 1, 4, 1, 5], rnd64 x = x := by decide +kernel

/-! ## C32 -/

/-- A new estimator over the rationals, written out. -/
def P2.blank (q : ℚ) : P2 ℚ := ⟨q, ⟨0, 0, 0, 0, 0⟩, ⟨0, 1, 2, 3, 4⟩, ⟨0, 0, 0, 0, 0⟩, 0⟩

/-- The full property (exact arithmetic). It is false of the code. -/
def C32_full : Prop := ∀ (q : ℚ) (p : P2 ℚ), P2.new (exact ℚ) q = .ok p → ∀ xs : List ℚ, xs ≠ [] →
  xs.length < 5 → ∃ p' v p'', updateAll (P2.update (exact ℚ)) p xs = .ok p' ∧
    p'.evaluate (exact ℚ) = .ok (v, p'') ∧ IsRank xs ⌊((xs.length - 1 : ℕ) : ℚ) * q + 1 / 2⌋.toNat v

/-- **C32** is violated: the median of 5, 6, 7 is reported as 0 (the zero filler takes part in the sort). -/
theorem C32_violated : ¬ C32_full := by
  intro h
  obtain ⟨p', v, p'', h1, h2, h3⟩ := h (1 / 2) (P2.blank (1 / 2)) (by decide +kernel) [5, 6, 7] (by simp) (by simp)
  have key : (updateAll (P2.update (exact ℚ)) (P2.blank (1 / 2)) [5, 6, 7] >>= fun p =>
      p.evaluate (exact ℚ) >>= fun r => .ok r.1) = .ok 0 := by
    decide +kernel
  rw [h1, Res.ok_bind, h2, Res.ok_bind] at key
  simp only [Res.ok.injEq] at key
  subst key
  exact absurd h3.1 (by simp)

/-- **C32**, the part that holds, 1: the value is of rank round((n-1)q) in the observations padded with
zeros to five. Missing: the zeros should not be there. -/
theorem C32_padded_partial (R : Rounding K) (q : K) (p : P2 K) (hp : P2.new R.arith q = .ok p) (xs : List K)
    (hne : xs ≠ []) (h5 : xs.length < 5) (hx : ∀ x ∈ xs, R.rnd x = x) :
    ∃ p' v p'', updateAll (P2.update R.arith) p xs = .ok p' ∧ p'.evaluate R.arith = .ok (v, p'') ∧
      IsRank (xs ++ List.replicate (5 - xs.length) 0)
        ⌊R.rnd (((xs.length - 1 : ℕ) : K) * q) + 1 / 2⌋.toNat v := by
  have hs := P2.Since.start (P2.Hull.new hp le_rfl le_rfl) (by rw [P2.new_eq_ok hp])
  have hpos : P2.PosInc p.pos := hs.pos
  have hpq : p.quantile = q := by rw [P2.new_eq_ok hp]
  have hzero : p.heights.toList = List.replicate 5 0 := by
    rw [P2.new_eq_ok hp]; simp [Five.toList, Rounding.arith, R.rnd_zero, List.replicate]
  have hlen : 0 < xs.length := List.length_pos_of_ne_nil hne
  rcases P2.updateAll_ok_iff (P2.sane_round R) hpos (by rw [P2.new_eq_ok hp]) xs with
    ⟨p', h1, -, h3, h4, -, -⟩ | ⟨-, -, h⟩
  · have hs1 := hs.updateAll hx h1
    rw [List.nil_append] at hs1
    obtain ⟨v, p'', e1, -, e3, e4, e5⟩ := P2.evaluate_spec (R := R) hs1.q0 hs1.q1
    refine ⟨p', v, p'', h1, e1, ?_⟩
    have e5 := e5 (by omega)
    rw [P2.evalIndex_eq R hs1.q0 (n := xs.length - 1) (by omega) (by omega), h4, hpq, Five.sort_toList] at e5
    have e6 := hs1.early h5
    rw [hzero, List.drop_replicate] at e6
    rw [← e6]
    exact IsRank.perm (sortList_perm _ _) (isRank_of_sorted (sortList_sorted R.arith (P2.lt_decide R) _) e5)
  · omega

/-- **C32**, the part that holds, 2: for observations that are all ≤ 0 the property is true. -/
theorem C32_nonpositive_partial (R : Rounding K) (q : K) (p : P2 K) (hp : P2.new R.arith q = .ok p)
    (xs : List K) (hne : xs ≠ []) (h5 : xs.length < 5) (hx : ∀ x ∈ xs, R.rnd x = x) (h0 : ∀ x ∈ xs, x ≤ 0) :
    ∃ p' v p'', updateAll (P2.update R.arith) p xs = .ok p' ∧ p'.evaluate R.arith = .ok (v, p'') ∧
      IsRank xs ⌊R.rnd (((xs.length - 1 : ℕ) : K) * q) + 1 / 2⌋.toNat v := by
  obtain ⟨p', v, p'', h1, h2, h3⟩ := C32_padded_partial R q p hp xs hne h5 hx
  refine ⟨p', v, p'', h1, h2, ?_⟩
  obtain ⟨q0, q1⟩ := (P2.new_ok_iff R q).1 ⟨p, hp⟩
  have hlen : 0 < xs.length := List.length_pos_of_ne_nil hne
  have hk : ⌊R.rnd (((xs.length - 1 : ℕ) : K) * q) + 1 / 2⌋.toNat < xs.length := by
    have hb : R.rnd (((xs.length - 1 : ℕ) : K) * q) ≤ ((xs.length - 1 : ℕ) : K) := by
      conv_rhs => rw [← R.rnd_nat (xs.length - 1) (by omega)]
      apply R.mono
      have : (0 : K) ≤ ((xs.length - 1 : ℕ) : K) := Nat.cast_nonneg _
      nlinarith
    have : ⌊R.rnd (((xs.length - 1 : ℕ) : K) * q) + 1 / 2⌋ < xs.length := by
      rw [Int.floor_lt]
      have : ((xs.length - 1 : ℕ) : K) + 1 = xs.length := by
        rw [← Nat.cast_succ]; congr 1; omega
      push_cast; linarith
    omega
  generalize ⌊R.rnd (((xs.length - 1 : ℕ) : K) * q) + 1 / 2⌋.toNat = k at h3 hk
  obtain ⟨m1, m2, m3⟩ := h3
  have hv0 : v ≤ 0 := by
    rcases List.mem_append.1 m1 with h | h
    · exact h0 v h
    · exact (List.eq_of_mem_replicate h).le
  have hz : (List.replicate (5 - xs.length) (0 : K)).filter (· < v) = [] := by
    rw [List.filter_eq_nil_iff]; intro a ha
    rw [List.eq_of_mem_replicate ha]; simpa using hv0
  rw [List.filter_append, hz, List.append_nil] at m2
  refine ⟨?_, m2, ?_⟩
  · rcases List.mem_append.1 m1 with h | h
    · exact h
    · -- the value is a padding zero: then some observation is zero, or all are below and the rank is too big
      have v0 : v = 0 := List.eq_of_mem_replicate h
      by_contra hn
      have : xs.filter (· < v) = xs := by
        rw [List.filter_eq_self]; intro a ha
        have ha0 := h0 a ha
        have : a ≠ v := fun e => hn (e ▸ ha)
        rw [v0] at this ⊢
        simpa using lt_of_le_of_ne ha0 this
      rw [this] at m2; omega
  · rcases hv0.lt_or_eq with h | h
    · have hz : (List.replicate (5 - xs.length) (0 : K)).filter (· ≤ v) = [] := by
        rw [List.filter_eq_nil_iff]; intro a ha
        rw [List.eq_of_mem_replicate ha]; simpa using h
      rwa [List.filter_append, hz, List.append_nil] at m3
    · have : xs.filter (· ≤ v) = xs := by
        rw [List.filter_eq_self]; intro a ha
        rw [h]; simpa using h0 a ha
      rw [this]; exact hk

/-- Three negative observations. -/
example : (do
    let p ← P2.new b64 (1 / 2)
    let p ← updateAll (P2.update b64) p [-5, -7, -6]
    let r ← p.evaluate b64
    .ok r.1) = .ok (-6) := by
  decide +kernel

/-! ## C34 -/

/-- The full property (any sane arithmetic). It is false of the code. -/
def C34_full {F : Type} (A : Arith F) : Prop := ∀ (q : F) (p : P2 F), P2.new A q = .ok p →
  ∀ xs : List F, (updateAll (P2.update A) p xs).IsOk

/-- **C34**, the part that holds (any arithmetic): exactly the streams of at most 2^31 observations are
accepted. Missing: longer streams, where the marker position overflows `int`. -/
theorem C34_length_partial {F : Type} (A : Arith F) (hA : P2.Sane A) (q : F) (p : P2 F)
    (hp : P2.new A q = .ok p) (xs : List F) :
    ((updateAll (P2.update A) p xs).IsOk ↔ xs.length ≤ 2 ^ 31) ∧
    (2 ^ 31 < xs.length → updateAll (P2.update A) p xs = .ub .intOverflow) := by
  have e := P2.new_eq_ok hp
  have hpos : P2.PosInc p.pos := by rw [e]; simp [P2.PosInc]
  have h4 : p.pos.x4 = 4 := by rw [e]
  have hm : P2.intMax = 2 ^ 31 - 1 := rfl
  rcases P2.updateAll_ok_iff hA hpos (by rw [e]) xs with ⟨p', h1, -, -, -, h5, h6, -⟩ | ⟨h1, h2, h3⟩
  · have hle : xs.length ≤ 2 ^ 31 := by
      rcases h6 with h6 | h6
      · rw [h5, h4, hm] at h6; omega
      · omega
    exact ⟨⟨fun _ => hle, fun _ => ⟨p', h1⟩⟩, fun h => absurd hle (by omega)⟩
  · rw [h4, hm] at h2
    refine ⟨⟨?_, fun h => absurd h2 (by omega)⟩, fun _ => h1⟩
    rintro ⟨p', h⟩
    rw [h] at h1; cases h1

/-- **C34** is violated in every rounding arithmetic. -/
theorem C34_violated (R : Rounding K) : ¬ C34_full R.arith := by
  intro h
  obtain ⟨p, hp⟩ := (P2.new_ok_iff R (1 / 2 : K)).2 ⟨by norm_num, by norm_num⟩
  have h1 := h _ p hp (List.replicate (2 ^ 31 + 1) 0)
  have h2 := (C34_length_partial R.arith (P2.sane_round R) _ p hp _).1.1 h1
  rw [List.length_replicate] at h2
  omega

theorem dbl_lit_mone : Dbl.arith.lit (-1) = .fin (-1) := by decide +kernel

/-- IEEE doubles, NaN and infinities included, are sane. -/
theorem dbl_sane : P2.Sane Dbl.arith := by
  constructor
  · intro d h
    rw [dbl_lit_one] at h
    rw [dbl_lit_zero]
    cases d with
    | nan => simp [Dbl.arith, Dbl.le, Dbl.lt, Dbl.eq] at h
    | inf s => cases s <;> simp [Dbl.arith, Dbl.le, Dbl.lt, Dbl.eq] at h ⊢
    | fin r =>
      simp only [Dbl.arith, Dbl.le, Dbl.lt, Dbl.eq, Bool.or_eq_true, decide_eq_true_eq] at h ⊢
      rcases h with h | h <;> linarith
  · intro d h
    rw [dbl_lit_mone] at h
    rw [dbl_lit_zero]
    cases d with
    | nan => simp [Dbl.arith, Dbl.le, Dbl.lt, Dbl.eq] at h
    | inf s => cases s <;> simp [Dbl.arith, Dbl.le, Dbl.lt, Dbl.eq] at h ⊢
    | fin r =>
      simp only [Dbl.arith, Dbl.le, Dbl.lt, Dbl.eq, Bool.or_eq_true, decide_eq_true_eq,
        decide_eq_false_iff_not] at h ⊢
      constructor <;> rcases h with h | h <;> linarith

/-- IEEE doubles meet the hypothesis. -/
example (p : P2 Dbl) (hp : P2.new Dbl.arith (.fin (1 / 2)) = .ok p) (x : Dbl) :
    (updateAll (P2.update Dbl.arith) p (List.replicate 1000 x)).IsOk :=
  (C34_length_partial _ dbl_sane _ p hp _).1.2 (by rw [List.length_replicate]; omega)

/-! ## C35 -/

/-- Value of a final `evaluate` after a history. -/
def P2.finalValue {F : Type} (A : Arith F) (p : P2 F) (ops : List (QOp F)) : Res F := do
  let (_, p) ← P2.run A p ops
  let (v, _) ← p.evaluate A
  .ok v

/-- The full property (exact arithmetic): dropping all `evaluate` calls changes no later result. It is
false of the code. -/
def C35_full : Prop := ∀ (q : ℚ) (p : P2 ℚ), P2.new (exact ℚ) q = .ok p → ∀ ops : List (QOp ℚ),
  P2.finalValue (exact ℚ) p ops = P2.finalValue (exact ℚ) p (ops.filter (· ≠ .evaluate))

/-- **C35** is violated: evaluating after the first of five observations 5, 5, 5, 5, 5 makes the
10 % quantile 0. -/
theorem C35_violated : ¬ C35_full := by
  intro h
  have h1 := h (1 / 10) (P2.blank (1 / 10)) (by decide +kernel) [.update 5, .evaluate, .update 5, .update 5, .update 5, .update 5]
  revert h1
  decide +kernel

/-- **C35**, the part that holds (any rounding): once five observations have been made since construction,
`evaluate` calls at any points change neither the object nor any other result. Missing: evaluating
before the fifth observation, which reorders the zero filler into the data. -/
theorem C35_pure_partial (R : Rounding K) (q : K) (p : P2 K) (hp : P2.new R.arith q = .ok p)
    (xs : List K) (h5 : 5 ≤ xs.length) (ops : List (QOp K)) (hc : QOp.clear ∉ ops)
    (hx : ∀ x ∈ xs ++ QOp.observations ops, R.rnd x = x) :
    P2.finalValue R.arith p (xs.map .update ++ ops) =
      P2.finalValue R.arith p (xs.map .update ++ ops.filter (· ≠ .evaluate)) := by
  have hs := P2.Since.start (P2.Hull.new hp le_rfl le_rfl) (by rw [P2.new_eq_ok hp])
  unfold P2.finalValue
  rw [P2.run_updates, P2.run_updates]
  rcases he : updateAll (P2.update R.arith) p xs with p1 | m | u
  · have hs1 := hs.updateAll (fun x h => hx x (List.mem_append_left _ h)) he
    rw [List.nil_append] at hs1
    simp only [Res.ok_bind]
    have hx' : ∀ x ∈ QOp.observations ops, R.rnd x = x := fun x h => hx x (List.mem_append_right _ h)
    clear hx he
    induction ops generalizing p1 xs with
    | nil => rfl
    | cons o ops ih =>
      have hc' : QOp.clear ∉ ops := fun hm => hc (by simp [hm])
      cases o with
      | update x =>
        simp only [QOp.observations, List.mem_cons] at hx'
        rw [List.filter_cons_of_pos (by simp)]
        simp only [P2.run, P2.step, Res.bind_assoc, Res.ok_bind]
        rcases hu : P2.update R.arith p1 x with p2 | m | u
        · have hs2 := hs1.update (hx' x (Or.inl rfl)) hu
          simpa [Res.bind_assoc] using ih (xs ++ [x]) (by simp; omega) hc' p2 hs2 (fun y hy => hx' y (Or.inr hy))
        · rfl
        · rfl
      | evaluate =>
        simp only [QOp.observations] at hx'
        rw [List.filter_cons_of_neg (by simp)]
        obtain ⟨v, hv, -⟩ := hs1.evaluate h5
        simp only [P2.run, P2.step, Res.bind_assoc, Res.ok_bind, hv]
        simpa [Res.bind_assoc] using ih xs h5 hc' p1 hs1 hx'
      | clear => simp at hc
  · rfl
  · rfl

/-- A history with three late evaluations. -/
example : P2.finalValue (exact ℚ) (P2.blank (1 / 2))
    ([3, 1, 4, 1, 5].map .update ++ [.evaluate, .update 9, .evaluate, .evaluate, .update 2]) = .ok 3 := by
  decide +kernel

/-! ## C37 -/

/-- Value of `evaluate` after feeding `xs`. -/
def P2.valueAfter {F : Type} (A : Arith F) (p : P2 F) (xs : List F) : Res F := do
  let p ← updateAll (P2.update A) p xs
  let (v, _) ← p.evaluate A
  .ok v

/-- The full property (exact arithmetic): after any history and `clear`, the estimator gives what a new one
gives. It is false of the code. -/
def C37_full : Prop := ∀ (q : ℚ) (p p' : P2 ℚ), P2.new (exact ℚ) q = .ok p → ∀ (ops : List (QOp ℚ)) (vs : List ℚ),
  P2.run (exact ℚ) p ops = .ok (vs, p') → ∀ xs : List ℚ, xs ≠ [] →
  P2.valueAfter (exact ℚ) p'.clear xs = P2.valueAfter (exact ℚ) p xs

/-- **C37** is violated: stale heights. Feed -9 five times, clear, feed 1: the value is still -9. -/
theorem C37_violated : ¬ C37_full := by
  intro h
  have h1 := h (1 / 2) (P2.blank (1 / 2)) ⟨1 / 2, ⟨0, 1, 2, 3, 4⟩, ⟨0, 1, 2, 3, 4⟩, ⟨-9, -9, -9, -9, -9⟩, 5⟩
    (by decide +kernel) [.update (-9), .update (-9), .update (-9), .update (-9), .update (-9)] []
    (by decide +kernel) [1] (by simp)
  revert h1
  decide +kernel

/-- **C37** is violated even when at least five observations follow: stale marker positions. -/
theorem C37_positions_violated : ∃ (xs : List ℚ) (p p' : P2 ℚ), P2.new (exact ℚ) (1 / 2) = .ok p ∧
    5 ≤ xs.length ∧ updateAll (P2.update (exact ℚ)) p [1, 2, 3, 4, 5, 6, 7, 8, 9, 10] = .ok p' ∧
    P2.valueAfter (exact ℚ) p'.clear xs ≠ P2.valueAfter (exact ℚ) p xs := by
  refine ⟨[1, 2, 3, 4, 5, 6, 7, 8, 9], P2.blank (1 / 2),
    ⟨1 / 2, ⟨0, 9 / 4, 9 / 2, 27 / 4, 9⟩, ⟨0, 2, 4, 6, 9⟩, ⟨1, 3, 5, 7, 10⟩, 10⟩,
    by decide +kernel, by simp, by decide +kernel, ?_⟩
  decide +kernel

/-- The object after exactly five observations does not depend on the old heights or desired positions. -/
theorem P2.five_updates {F : Type} (A : Arith F) (p : P2 F) (h0 : p.historyCount = 0) (a b c d e : F) :
    updateAll (P2.update A) p [a, b, c, d, e] = .ok
      { quantile := p.quantile
        desired := ⟨A.lit 0, A.mul (A.lit 2) p.quantile, A.mul (A.lit 4) p.quantile,
                  A.add (A.lit 2) (A.mul (A.lit 2) p.quantile), A.lit 4⟩
        pos := p.pos
        heights := Five.sort A ⟨a, b, c, d, e⟩
        historyCount := 5 } := by
  obtain ⟨q, des, pos, hts, n⟩ := p
  simp only at h0
  subst h0
  simp [updateAll, P2.update, P2.updateFirst, Five.toList, Five.ofList, List.set]

/-- A history of at most five observations does not move the markers. -/
theorem P2.run_pos {F : Type} (A : Arith F) {p p' : P2 F} {ops : List (QOp F)} {vs : List F}
    (hr : P2.run A p ops = .ok (vs, p'))
    (h5 : p.historyCount + (QOp.observations ops).length ≤ 5) : p'.pos = p.pos ∧ p'.quantile = p.quantile := by
  induction ops generalizing p vs with
  | nil => simp only [P2.run] at hr; injection hr with hr; injection hr with _ hr; subst hr; exact ⟨rfl, rfl⟩
  | cons o ops ih =>
    simp only [P2.run] at hr
    obtain ⟨⟨v1, q⟩, hq, hr⟩ := Res.bind_eq_ok.1 hr
    obtain ⟨⟨v2, q'⟩, hq', hr⟩ := Res.bind_eq_ok.1 hr
    simp only [Res.ok.injEq, Prod.mk.injEq] at hr
    obtain ⟨-, rfl⟩ := hr
    cases o with
    | update x =>
      simp only [QOp.observations, List.length_cons] at h5
      simp only [P2.step, P2.update, if_pos (show p.historyCount < 5 by omega), Res.ok_bind] at hq
      injection hq with hq; injection hq with _ hq
      obtain ⟨f1, f2, f3⟩ := P2.updateFirst_frame (A := A) p x
      rw [hq] at f1 f2 f3
      have := ih hq' (by rw [f1]; omega)
      exact ⟨this.1.trans f3, this.2.trans f2⟩
    | evaluate =>
      simp only [P2.step] at hq
      obtain ⟨⟨v, p1⟩, he, hq⟩ := Res.bind_eq_ok.1 hq
      injection hq with hq; injection hq with _ hq
      obtain ⟨f1, f2, f3⟩ := P2.evaluate_frame he
      simp only at hq
      rw [hq] at f1 f2 f3
      have := ih hq' (by rw [f2]; exact h5)
      exact ⟨this.1.trans f1, this.2.trans f3⟩
    | clear =>
      simp only [P2.step] at hq
      injection hq with hq; injection hq with _ hq
      subst hq
      have := ih hq' (by simp only [P2.clear, QOp.observations] at h5 ⊢; omega)
      exact this

/-- **C37**, the part that holds, 1 (any arithmetic): if at most five observations were made before, then from
the fifth observation after `clear` on the object is identical to a fresh one. Missing: longer histories
(stale positions) and fewer than five observations (stale heights). -/
theorem C37_short_partial {F : Type} (A : Arith F) (q : F) (p p' : P2 F) (hp : P2.new A q = .ok p)
    (ops : List (QOp F)) (vs : List F) (hr : P2.run A p ops = .ok (vs, p'))
    (h5 : (QOp.observations ops).length ≤ 5) (xs : List F) (hx : 5 ≤ xs.length) :
    updateAll (P2.update A) p'.clear xs = updateAll (P2.update A) p xs := by
  obtain ⟨hpos, hq⟩ := P2.run_pos A hr (by rw [P2.new_eq_ok hp]; simpa using h5)
  match xs, hx with
  | a :: b :: c :: d :: e :: xs, _ =>
    rw [show a :: b :: c :: d :: e :: xs = [a, b, c, d, e] ++ xs from rfl, updateAll_append, updateAll_append,
      P2.five_updates A _ rfl, P2.five_updates A p (by rw [P2.new_eq_ok hp])]
    simp only [P2.clear, hpos, hq]

theorem P2.run_quantile {F : Type} (A : Arith F) {p p' : P2 F} {ops : List (QOp F)} {vs : List F}
    (hr : P2.run A p ops = .ok (vs, p')) : p'.quantile = p.quantile := by
  induction ops generalizing p vs with
  | nil => simp only [P2.run] at hr; injection hr with hr; injection hr with _ hr; subst hr; rfl
  | cons o ops ih =>
    simp only [P2.run] at hr
    obtain ⟨⟨v1, q⟩, hq, hr⟩ := Res.bind_eq_ok.1 hr
    obtain ⟨⟨v2, q'⟩, hq', hr⟩ := Res.bind_eq_ok.1 hr
    simp only [Res.ok.injEq, Prod.mk.injEq] at hr
    obtain ⟨-, rfl⟩ := hr
    refine (ih hq').trans ?_
    cases o with
    | update x =>
      simp only [P2.step] at hq
      obtain ⟨p1, he, hq⟩ := Res.bind_eq_ok.1 hq
      injection hq with hq; injection hq with _ hq
      subst hq
      unfold P2.update at he
      split at he
      · injection he with he; subst he; exact (P2.updateFirst_frame (A := A) p x).2.1
      · split at he
        · cases he
        · injection he with he; subst he; exact (P2.updateLater_frame (A := A) p x).2.1
    | evaluate =>
      simp only [P2.step] at hq
      obtain ⟨⟨v, p1⟩, he, hq⟩ := Res.bind_eq_ok.1 hq
      injection hq with hq; injection hq with _ hq
      subst hq
      exact (P2.evaluate_frame he).2.2
    | clear =>
      simp only [P2.step] at hq
      injection hq with hq; injection hq with _ hq
      subst hq; rfl

/-- Invariant behind C38 along a whole history; `m` bounds the last marker. -/
theorem P2.run_hull (R : Rounding K) {lo hi : K} {p : P2 K} (h : P2.Hull R lo hi p) (ops : List (QOp K))
    (hx : ∀ x ∈ QOp.observations ops, R.rnd x = x ∧ lo ≤ x ∧ x ≤ hi) :
    (∃ vs p', P2.run R.arith p ops = .ok (vs, p') ∧ (∀ v ∈ vs, lo ≤ v ∧ v ≤ hi) ∧ P2.Hull R lo hi p') ∨
    (P2.run R.arith p ops = .ub .intOverflow ∧
      2 ^ 31 < (max 5 (p.pos.x4 + 1) - (5 - min 5 p.historyCount : ℕ)) + (QOp.observations ops).length) := by
  induction ops generalizing p with
  | nil => exact Or.inl ⟨[], p, rfl, by simp, h⟩
  | cons o ops ih =>
    cases o with
    | update x =>
      simp only [QOp.observations, List.mem_cons, List.length_cons] at hx ⊢
      obtain ⟨x1, x2, x3⟩ := hx x (Or.inl rfl)
      simp only [P2.run, P2.step]
      have hu := P2.update_eq (A := R.arith) h.pos x
      have key : (∃ p', p.update R.arith x = .ok p' ∧ P2.Hull R lo hi p' ∧
          (max 5 (p'.pos.x4 + 1) - (5 - min 5 p'.historyCount : ℕ) : ℤ) ≤
          (max 5 (p.pos.x4 + 1) - (5 - min 5 p.historyCount : ℕ)) + 1) ∨
          (p.update R.arith x = .ub .intOverflow ∧ 5 ≤ p.historyCount ∧ P2.intMax ≤ p.pos.x4) := by
        split at hu
        · rename_i hn
          refine Or.inl ⟨_, hu, h.update x1 x2 x3 hu, ?_⟩
          obtain ⟨f1, f2, f3⟩ := P2.updateFirst_frame (A := R.arith) p x
          rw [f1, f3]; omega
        · split at hu
          · exact Or.inr ⟨hu, by omega, ‹_›⟩
          · refine Or.inl ⟨_, hu, h.update x1 x2 x3 hu, ?_⟩
            obtain ⟨f1, f2, f3, -, -⟩ := P2.updateLater_frame (A := R.arith) p x
            rw [f1, f3]; omega
      rcases key with ⟨p', hu, hh, hle⟩ | ⟨hu, hc, hle⟩
      · rw [hu]
        simp only [Res.ok_bind]
        rcases ih hh (fun y hy => hx y (Or.inr hy)) with ⟨vs, p'', h1, h2, h3⟩ | ⟨h1, h2⟩
        · exact Or.inl ⟨vs, p'', by simp [h1], h2, h3⟩
        · refine Or.inr ⟨by simp [h1], ?_⟩
          push_cast at h2 ⊢; omega
      · refine Or.inr ⟨by simp [hu], ?_⟩
        simp only [P2.intMax] at hle
        push_cast; omega
    | evaluate =>
      simp only [QOp.observations] at hx ⊢
      obtain ⟨v, p', h1, h2, h3, h4⟩ := h.evaluate
      obtain ⟨f1, f2, -⟩ := P2.evaluate_frame h1
      have := ih h4 hx
      rw [f1, f2] at this
      simp only [P2.run, P2.step, h1, Res.ok_bind]
      rcases this with ⟨vs, p'', e1, e2, e3⟩ | ⟨e1, e2⟩
      · exact Or.inl ⟨v :: vs, p'', by simp [e1], by simp only [List.mem_cons, forall_eq_or_imp]; exact ⟨⟨h2, h3⟩, e2⟩, e3⟩
      · exact Or.inr ⟨by simp [e1], e2⟩
    | clear =>
      simp only [QOp.observations] at hx ⊢
      have := ih h.clear hx
      simp only [P2.run, P2.step, Res.ok_bind]
      rcases this with ⟨vs, p'', e1, e2, e3⟩ | ⟨e1, e2⟩
      · exact Or.inl ⟨vs, p'', by simp [e1], e2, e3⟩
      · refine Or.inr ⟨by simp [e1], ?_⟩
        simp only [P2.clear] at e2
        omega

/-- **C37**, the part that holds, 2 (any rounding): after any history and `clear`, at least five observations
`xs` later, `evaluate` lies between the least and greatest of `xs` alone, and with exactly five it is the
one of rank round(4q). -/
theorem C37_range_partial (R : Rounding K) (q : K) (hq : R.rnd (4 * q) = 4 * q) (p p1 p2 : P2 K)
    (hp : P2.new R.arith q = .ok p) (ops : List (QOp K)) (vs : List K)
    (hops : ∀ x ∈ QOp.observations ops, R.rnd x = x) (hr : P2.run R.arith p ops = .ok (vs, p1))
    (xs : List K) (h5 : 5 ≤ xs.length) (hx : ∀ x ∈ xs, R.rnd x = x)
    (hu : updateAll (P2.update R.arith) p1.clear xs = .ok p2) :
    ∃ v lo hi, p2.evaluate R.arith = .ok (v, p2) ∧ IsMin xs lo ∧ IsMax xs hi ∧ lo ≤ v ∧ v ≤ hi ∧
      (xs.length = 5 → IsRank xs ⌊4 * q + 1 / 2⌋.toNat v) := by
  obtain ⟨lo, hlo0, hlo⟩ : ∃ lo : K, lo ≤ 0 ∧ ∀ x ∈ QOp.observations ops, lo ≤ x := by
    generalize QOp.observations ops = l
    clear hops
    induction l with
    | nil => exact ⟨0, le_rfl, by simp⟩
    | cons a l ih =>
      obtain ⟨b, hb, hl⟩ := ih
      refine ⟨min a b, (min_le_right _ _).trans hb, fun x hx => ?_⟩
      rcases List.mem_cons.1 hx with rfl | hx
      · exact min_le_left _ _
      · exact (min_le_right _ _).trans (hl x hx)
  obtain ⟨hi, hhi0, hhi⟩ : ∃ hi : K, 0 ≤ hi ∧ ∀ x ∈ QOp.observations ops, x ≤ hi := by
    generalize QOp.observations ops = l
    clear hops hlo
    induction l with
    | nil => exact ⟨0, le_rfl, by simp⟩
    | cons a l ih =>
      obtain ⟨b, hb, hl⟩ := ih
      refine ⟨max a b, hb.trans (le_max_right _ _), fun x hx => ?_⟩
      rcases List.mem_cons.1 hx with rfl | hx
      · exact le_max_left _ _
      · exact (hl x hx).trans (le_max_right _ _)
  have hh := P2.Hull.new hp hlo0 hhi0
  rcases P2.run_hull R hh ops (fun x h => ⟨hops x h, hlo x h, hhi x h⟩) with ⟨vs', p', e1, -, e3⟩ | ⟨e1, -⟩
  swap
  · rw [hr] at e1; cases e1
  rw [hr] at e1
  simp only [Res.ok.injEq, Prod.mk.injEq] at e1
  obtain ⟨-, rfl⟩ := e1
  have hs := (P2.Since.start e3.clear rfl).updateAll hx hu
  rw [List.nil_append] at hs
  obtain ⟨v, f1, f2, f3⟩ := hs.evaluate h5
  obtain ⟨hsort, m1, m2⟩ := hs.late h5
  refine ⟨v, _, _, f1, m1, m2, f2, f3, fun h5' => ?_⟩
  obtain ⟨w, p'', g1, -, -, -, g5⟩ := P2.evaluate_spec (R := R) hs.q0 hs.q1
  rw [f1] at g1
  simp only [Res.ok.injEq, Prod.mk.injEq] at g1
  obtain ⟨rfl, rfl⟩ := g1
  have hcount := hs.count
  have hquant : p2.quantile = q := by
    rcases P2.updateAll_ok_iff (P2.sane_round R) (p := p1.clear) e3.pos rfl xs with
      ⟨p', h1, -, -, h4, -⟩ | ⟨h1, -⟩
    · rw [hu] at h1; injection h1 with h1; subst h1
      rw [h4]
      exact (P2.run_quantile R.arith hr).trans (by rw [P2.new_eq_ok hp])
    · rw [hu] at h1; cases h1
  have g5 := g5 (by omega)
  rw [P2.evalIndex_eq R hs.q0 (n := 4) (by omega) le_rfl, hquant] at g5
  push_cast at g5
  rw [hq, Five.sort_of_sorted R.arith (P2.lt_decide R) hsort, hs.five h5'] at g5
  exact IsRank.perm (sortList_perm _ xs) (isRank_of_sorted (sortList_sorted R.arith (P2.lt_decide R) xs) g5)

/-- Ten observations, clear, five more. -/
example : (do
    let p ← P2.new b64 (1 / 2)
    let r ← P2.run b64 p ([1, 2, 3, 4, 5, 6, 7, 8, 9, 10].map QOp.update)
    P2.valueAfter b64 r.2.clear [30, 10, 50, 20, 40]) = .ok 30 := by
  decide +kernel

/-! ## C38 -/

/-- **C38**: in any floating point arithmetic and after any history of `update`, `evaluate` and `clear` with at
most 2^31 observations, every value `evaluate` ever returned, and the next one, lies in any interval
containing 0 and the observations; in particular no call is undefined. -/
theorem C38_hull (R : Rounding K) (q : K) (p : P2 K) (hp : P2.new R.arith q = .ok p) (lo hi : K)
    (hlo : lo ≤ 0) (hhi : 0 ≤ hi) (ops : List (QOp K))
    (hx : ∀ x ∈ QOp.observations ops, R.rnd x = x ∧ lo ≤ x ∧ x ≤ hi)
    (hlen : (QOp.observations ops).length ≤ 2 ^ 31) :
    ∃ vs p' v p'', P2.run R.arith p ops = .ok (vs, p') ∧ p'.evaluate R.arith = .ok (v, p'') ∧
      ∀ w ∈ v :: vs, lo ≤ w ∧ w ≤ hi := by
  have hh := P2.Hull.new hp hlo hhi
  rcases P2.run_hull R hh ops hx with ⟨vs, p', e1, e2, e3⟩ | ⟨-, e2⟩
  · obtain ⟨v, p'', f1, f2, f3, -⟩ := e3.evaluate
    refine ⟨vs, p', v, p'', e1, f1, fun w hw => ?_⟩
    rcases List.mem_cons.1 hw with rfl | hw
    · exact ⟨f2, f3⟩
    · exact e2 w hw
  · rw [P2.new_eq_ok hp] at e2
    simp at e2
    omega

/-- A history with early evaluations and a `clear`. -/
example : (do
    let p ← P2.new b64 (1 / 4)
    let r ← P2.run b64 p [.update 3, .evaluate, .update 7, .clear, .update 5, .update 5, .evaluate, .update 8]
    .ok r.1) = .ok [0, 0] := by
  decide +kernel

end Round

end KML
