import Verif.Model.QuantileStrict
import Verif.Props.DoubleFame

/-! # C101: NaN observations -/

namespace KML

open Spec

namespace Dbl

@[simp] theorem lt_nan_left (x : Dbl) : Dbl.arith.lt .nan x = false := rfl

@[simp] theorem lt_nan_right (x : Dbl) : Dbl.arith.lt x .nan = false := by cases x <;> rfl

@[simp] theorem add_nan_left (x : Dbl) : Dbl.arith.add .nan x = .nan := rfl

@[simp] theorem add_nan_right (x : Dbl) : Dbl.arith.add x .nan = .nan := by cases x <;> rfl

@[simp] theorem sub_nan_left (x : Dbl) : Dbl.arith.sub .nan x = .nan := rfl

@[simp] theorem sub_nan_right (x : Dbl) : Dbl.arith.sub x .nan = .nan := by cases x <;> rfl

@[simp] theorem mul_nan_left (x : Dbl) : Dbl.arith.mul .nan x = .nan := rfl

@[simp] theorem div_nan_left (x : Dbl) : Dbl.arith.div .nan x = .nan := rfl

@[simp] theorem abs_nan : Dbl.arith.abs .nan = .nan := rfl

/-- `operator<` is a strict weak ordering of a list of doubles exactly if there is no NaN in it, or no two different
numbers. -/
theorem sortable_iff (l : List Dbl) : sortable Dbl.arith l = true ↔
    (∀ x ∈ l, x ≠ .nan) ∨ ∀ a ∈ l, ∀ b ∈ l, Dbl.arith.lt a b = false := by
  unfold sortable Arith.incomp
  simp only [List.all_eq_true]
  constructor
  · intro h
    by_contra hc
    rw [not_or] at hc
    obtain ⟨h1, h2⟩ := hc
    simp only [not_forall, Bool.not_eq_false] at h1 h2
    obtain ⟨n, hn, h1⟩ := h1
    obtain ⟨a, ha, b, hb, h2⟩ := h2
    rw [not_not] at h1
    subst h1
    have := h a ha
    simp only [Bool.and_eq_true, List.all_eq_true] at this
    have := (this.2 _ hn _ hb).2
    simp [h2] at this
  · rintro (h | h) a ha
    · have na := h a ha
      simp only [Bool.and_eq_true, List.all_eq_true]
      refine ⟨?_, fun b hb c hc => ?_⟩
      · cases a with
        | nan => exact absurd rfl na
        | inf s => cases s <;> rfl
        | fin q => simp [Dbl.arith, Dbl.lt]
      · have nb := h b hb
        have nc := h c hc
        clear ha hb hc h
        cases a with
        | nan => exact absurd rfl na
        | inf s =>
          cases b with
          | nan => exact absurd rfl nb
          | inf t =>
            cases c with
            | nan => exact absurd rfl nc
            | inf u => revert s t u; decide
            | fin u => cases s <;> cases t <;> simp [Dbl.arith, Dbl.lt]
          | fin t =>
            cases c with
            | nan => exact absurd rfl nc
            | inf u => cases s <;> cases u <;> simp [Dbl.arith, Dbl.lt]
            | fin u => cases s <;> simp [Dbl.arith, Dbl.lt]
        | fin s =>
          cases b with
          | nan => exact absurd rfl nb
          | inf t =>
            cases c with
            | nan => exact absurd rfl nc
            | inf u => cases t <;> cases u <;> simp [Dbl.arith, Dbl.lt]
            | fin u => cases t <;> simp [Dbl.arith, Dbl.lt]
          | fin t =>
            cases c with
            | nan => exact absurd rfl nc
            | inf u => cases u <;> simp [Dbl.arith, Dbl.lt]
            | fin u =>
              simp only [Dbl.arith, Dbl.lt, Bool.or_eq_true, Bool.not_eq_true', Bool.and_eq_false_iff, decide_eq_false_iff_not,
                decide_eq_true_eq, Bool.and_eq_true]
              constructor
              · by_cases h1 : s < t
                · by_cases h2 : t < u
                  · exact .inr (h1.trans h2)
                  · exact .inl (.inr h2)
                · exact .inl (.inl h1)
              · by_cases h1 : s < u
                · rcases lt_or_ge s t with h2 | h2
                  · simp [h2]
                  · simp [lt_of_le_of_lt h2 h1]
                · rcases lt_or_ge u s with h3 | h3
                  · rcases lt_or_ge t s with h2 | h2
                    · simp [h2]
                    · simp [lt_of_lt_of_le h3 h2]
                  · simp [h1, not_lt.2 h3]
    · simp only [Bool.and_eq_true, List.all_eq_true]
      refine ⟨by simp [h a ha a ha], fun b hb c hc => ⟨by simp [h a ha b hb], by simp [h a ha c hc, h c hc a ha]⟩⟩

end Dbl

/-! ## StreamingMean and StreamingVariance -/

namespace Mean

theorem nan_update {m m' : Mean Dbl} {x : Dbl} (h : m.sum = .nan) (hu : m.update Dbl.arith x = .ok m') : m'.sum = .nan := by
  unfold Mean.update at hu
  simp only at hu
  split at hu
  · split at hu
    · split at hu
      · cases hu
      · injection hu with hu; subst hu; simp [h]
    · injection hu with hu; subst hu; simp [h]
  · injection hu with hu; subst hu; simp [h]

theorem nan_updateAll {m m' : Mean Dbl} {xs : List Dbl} (h : m.sum = .nan)
    (hu : updateAll (Mean.update Dbl.arith) m xs = .ok m') : m'.sum = .nan := by
  induction xs generalizing m with
  | nil => injection hu with hu; subst hu; exact h
  | cons x xs ih =>
    obtain ⟨m1, h1, h2⟩ := Res.bind_eq_ok.1 hu
    exact ih (nan_update h h1) h2

theorem nan_run (W : ℕ) (xs ys : List Dbl) :
    ∃ m, updateAll (Mean.update Dbl.arith) (Mean.new Dbl.arith W) (xs ++ .nan :: ys) = .ok m ∧ m.sum = .nan ∧
      m.historyCount ≠ 0 := by
  obtain ⟨m, e1, e2⟩ := Mean.run_inv Dbl.arith W (xs ++ .nan :: ys)
  refine ⟨m, e1, ?_, by have := e2.hist; simp at this; omega⟩
  rw [updateAll_append] at e1
  obtain ⟨m1, f1, e1⟩ := Res.bind_eq_ok.1 e1
  obtain ⟨m2, f2, e1⟩ := Res.bind_eq_ok.1 e1
  obtain ⟨n, g1, g2⟩ := Mean.run_inv Dbl.arith W xs
  rw [f1] at g1
  injection g1 with g1
  subst g1
  obtain ⟨n, k1, k2, k3⟩ := Mean.update_spec Dbl.arith g2 .nan
  rw [f2] at k1
  injection k1 with k1
  subst k1
  refine Mean.nan_updateAll ?_ e1
  rw [k3]
  simp

theorem evaluate_nan {m : Mean Dbl} (h : m.sum = .nan) (h0 : m.historyCount ≠ 0) : m.evaluate Dbl.arith = .nan := by
  unfold Mean.evaluate
  rw [if_neg h0, h]
  split <;> simp

end Mean

/-! ## WindowedFAME and StreamingMAD -/

/-- A double as it comes out of an operation: finite ones are representable. -/
def Dbl.Canon : Dbl → Prop
  | .fin q => IsDouble q
  | _ => True

namespace Dbl

theorem canon_ofRat (x : ℚ) : (ofRat x).Canon := by
  unfold ofRat
  simp only
  split
  · trivial
  · rename_i h
    exact ⟨rnd64_idem x, not_lt.1 h⟩

theorem canon_mul (a b : Dbl) : (Dbl.arith.mul a b).Canon := by
  cases a <;> cases b <;> simp only [Dbl.arith, Dbl.mul] <;> first | trivial | exact canon_ofRat _ | (split <;> trivial)

/-- `x * 1` is `x`. -/
theorem mul_one {d : Dbl} (h : d.Canon) : Dbl.arith.mul d (.fin 1) = d := by
  cases d with
  | nan => rfl
  | inf s => cases s <;> rfl
  | fin q =>
    show ofRat (q * 1) = .fin q
    have h : IsDouble q := h
    rw [_root_.mul_one, ofRat, h.1]
    exact if_neg (not_lt.2 h.2)

end Dbl

namespace Fame

/-- Equal except for the number of observations, neither of which is zero. -/
structure Same (f g : Fame Dbl) : Prop where
  median : f.median = g.median
  stepSize : f.stepSize = g.stepSize
  epsilon : f.epsilon = .fin 0
  epsilon' : g.epsilon = .fin 0
  count : f.historyCount ≠ 0
  count' : g.historyCount ≠ 0
  canon : f.stepSize.Canon

theorem one_add_zero : Dbl.arith.add (Dbl.arith.lit 1) (.fin 0) = .fin 1 := by decide +kernel

theorem Same.update {f g : Fame Dbl} (h : Same f g) (x : Dbl) : Same (f.update Dbl.arith x) (g.update Dbl.arith x) := by
  obtain ⟨m, s, e, n⟩ := f
  obtain ⟨m', s', e', n'⟩ := g
  obtain ⟨h1, h2, h3, h4, h5, h6, h7⟩ := h
  simp only at h1 h2 h3 h4 h5 h6
  subst h1 h2 h3 h4
  unfold Fame.update
  simp only [h5, h6, if_false]
  by_cases d1 : Dbl.arith.lt x m = true
  · simp only [d1, if_true]
    by_cases d3 : Dbl.arith.lt (Dbl.arith.abs (Dbl.arith.sub x (Dbl.arith.sub m s))) s = true <;>
      simp [d3, h5, h6] <;> constructor <;> simp [Dbl.canon_mul]
  · by_cases d2 : Dbl.arith.lt m x = true
    · simp only [d1, d2, if_true]
      by_cases d3 : Dbl.arith.lt (Dbl.arith.abs (Dbl.arith.sub x (Dbl.arith.add m s))) s = true <;>
        simp [d3, h5, h6] <;> constructor <;> simp [Dbl.canon_mul]
    · simp only [d1, d2]
      by_cases d3 : Dbl.arith.lt (Dbl.arith.abs (Dbl.arith.sub x m)) s = true <;>
        simp [d3, h5, h6] <;> constructor <;> simp [Dbl.canon_mul]

/-- NaN changes nothing but the count. -/
theorem Same.update_nan {f g : Fame Dbl} (h : Same f g) : Same (f.update Dbl.arith .nan) g := by
  obtain ⟨m, s, e, n⟩ := f
  obtain ⟨h1, h2, h3, h4, h5, h6, h7⟩ := h
  simp only at h1 h2 h3 h5 h7
  unfold Fame.update
  simp only [h5, if_false, Dbl.lt_nan_left, Dbl.lt_nan_right, Dbl.sub_nan_left, Dbl.abs_nan, Bool.false_eq_true,
    Bool.and_false, h3, one_add_zero, Dbl.mul_one h7]
  exact ⟨h1, h2, rfl, h4, by simp, h6, h7⟩

theorem update_epsilon {F : Type} (A : Arith F) (f : Fame F) (x : F) : (f.update A x).epsilon = f.epsilon := by
  unfold Fame.update
  simp only
  split_ifs <;> rfl

theorem update_canon (f : Fame Dbl) (x : Dbl) : (f.update Dbl.arith x).stepSize.Canon := by
  unfold Fame.update
  exact Dbl.canon_mul _ _

theorem update_count {F : Type} (A : Arith F) (f : Fame F) (x : F) : (f.update A x).historyCount = f.historyCount + 1 := by
  have := Fame.run_count A f [x]
  rw [List.foldl_cons, List.foldl_nil] at this
  rw [this]
  simp

theorem Same.first {f : Fame Dbl} (h : f.epsilon = .fin 0) (x : Dbl) : Same (f.update Dbl.arith x) (f.update Dbl.arith x) :=
  ⟨rfl, rfl, by rw [update_epsilon, h], by rw [update_epsilon, h], by rw [update_count]; simp, by rw [update_count]; simp,
    update_canon _ _⟩

theorem Same.run {f g : Fame Dbl} (h : Same f g) (xs : List Dbl) :
    Same (xs.foldl (Fame.update Dbl.arith) f) ((xs.filter (· ≠ .nan)).foldl (Fame.update Dbl.arith) g) := by
  induction xs generalizing f g with
  | nil => exact h
  | cons x xs ih =>
    by_cases hx : x = .nan
    · subst hx
      rw [List.filter_cons_of_neg (by simp), List.foldl_cons]
      exact ih h.update_nan
    · rw [List.filter_cons_of_pos (by simpa using hx), List.foldl_cons, List.foldl_cons]
      exact ih (h.update x)

/-- A NaN estimate stays. -/
theorem nan_update {f : Fame Dbl} (h0 : f.historyCount ≠ 0) (h : f.median = .nan) (x : Dbl) :
    (f.update Dbl.arith x).median = .nan := by
  unfold Fame.update
  simp only [h0, if_false, h, Dbl.lt_nan_left, Dbl.lt_nan_right, Dbl.sub_nan_right, Dbl.abs_nan, Bool.false_eq_true,
    Bool.and_false]

theorem nan_run {f : Fame Dbl} (h0 : f.historyCount ≠ 0) (h : f.median = .nan) (xs : List Dbl) :
    (xs.foldl (Fame.update Dbl.arith) f).median = .nan := by
  induction xs generalizing f with
  | nil => exact h
  | cons x xs ih => exact ih (by rw [update_count]; simp) (nan_update h0 h x)

theorem nan_first {f : Fame Dbl} (h0 : f.historyCount = 0) : (f.update Dbl.arith .nan).median = .nan := by
  unfold Fame.update
  simp only [h0, if_true, Dbl.lt_nan_left, Bool.false_eq_true, if_false, ne_eq, not_true_eq_false, decide_false,
    Bool.false_and]

end Fame


namespace Mad

/-- Score and error medians equal except for the number of observations. -/
structure Same (f g : Mad Dbl) : Prop where
  score : Fame.Same f.scoreMedian g.scoreMedian
  error : Fame.Same f.errorMedian g.errorMedian

theorem Same.update {f g : Mad Dbl} (h : Same f g) (x : Dbl) : Same (f.update Dbl.arith x) (g.update Dbl.arith x) := by
  have hs := h.score.update x
  refine ⟨hs, ?_⟩
  have : (f.scoreMedian.update Dbl.arith x).evaluate = (g.scoreMedian.update Dbl.arith x).evaluate := hs.median
  simp only [Mad.update, this]
  exact h.error.update _

theorem Same.update_nan {f g : Mad Dbl} (h : Same f g) : Same (f.update Dbl.arith .nan) g := by
  refine ⟨h.score.update_nan, ?_⟩
  simp only [Mad.update, Dbl.sub_nan_left, Dbl.abs_nan]
  exact h.error.update_nan

theorem Same.run {f g : Mad Dbl} (h : Same f g) (xs : List Dbl) :
    Same (xs.foldl (Mad.update Dbl.arith) f) ((xs.filter (· ≠ .nan)).foldl (Mad.update Dbl.arith) g) := by
  induction xs generalizing f g with
  | nil => exact h
  | cons x xs ih =>
    by_cases hx : x = .nan
    · subst hx
      rw [List.filter_cons_of_neg (by simp), List.foldl_cons]
      exact ih h.update_nan
    · rw [List.filter_cons_of_pos (by simpa using hx), List.foldl_cons, List.foldl_cons]
      exact ih (h.update x)

theorem new_dbl_eq {m : Mad Dbl} (h : Mad.new Dbl.arith = .ok m) :
    m = ⟨⟨.fin 0, Dbl.arith.lit (1 / 10), .fin 0, 0⟩, ⟨.fin 0, Dbl.arith.lit (1 / 10), .fin 0, 0⟩, 0⟩ := by
  have e : Mad.new Dbl.arith = .ok ⟨⟨.fin 0, Dbl.arith.lit (1 / 10), .fin 0, 0⟩,
    ⟨.fin 0, Dbl.arith.lit (1 / 10), .fin 0, 0⟩, 0⟩ := by decide +kernel
  rw [e] at h
  injection h with h
  exact h.symm

theorem nan_run {m : Mad Dbl} (hs : m.scoreMedian.historyCount ≠ 0) (he : m.errorMedian.historyCount ≠ 0)
    (h1 : m.scoreMedian.median = .nan) (h2 : m.errorMedian.median = .nan) (xs : List Dbl) :
    (xs.foldl (Mad.update Dbl.arith) m).errorMedian.median = .nan := by
  induction xs generalizing m with
  | nil => exact h2
  | cons x xs ih =>
    exact ih (by simp only [Mad.update]; rw [Fame.update_count]; simp) (by simp only [Mad.update]; rw [Fame.update_count]; simp)
      (Fame.nan_update hs h1 x) (Fame.nan_update he h2 _)

end Mad

/-! ## StreamingP2Quantile -/

namespace P2

variable {F : Type} (A : Arith F)

/-- After five observations nothing is sorted any more. -/
theorem updateStrict_later {p : P2 F} (h : 5 ≤ p.historyCount) (x : F) : p.updateStrict A x = p.update A x := by
  unfold updateStrict
  rw [if_neg]
  simp
  omega

theorem update_count_le {p p' : P2 F} {x : F} (h : p.update A x = .ok p') : p'.historyCount = p.historyCount + 1 := by
  unfold update at h
  split at h
  · injection h with h
    subst h
    unfold updateFirst
    simp only
    split <;> rfl
  · split at h
    · cases h
    · injection h with h
      subst h
      unfold updateLater
      simp only
      congr 1
      split <;> rfl

theorem updateAllStrict_later {p : P2 F} (h : 5 ≤ p.historyCount) (xs : List F) :
    updateAll (updateStrict A) p xs = updateAll (update A) p xs := by
  induction xs generalizing p with
  | nil => rfl
  | cons x xs ih =>
    simp only [updateAll, updateStrict_later A h]
    cases hu : p.update A x with
    | ok p' =>
      simp only [Res.ok_bind]
      exact ih (by have := update_count_le A hu; omega)
    | throw m => rfl
    | ub u => rfl

/-- The first five observations of an object that is new or has been cleared: the code is defined exactly if they can be
sorted. -/
theorem updateAllStrict_five {p : P2 F} (h : p.historyCount = 0) (a b c d e : F) (xs : List F) :
    updateAll (updateStrict A) p (a :: b :: c :: d :: e :: xs) =
      if sortable A [a, b, c, d, e] then updateAll (update A) p (a :: b :: c :: d :: e :: xs) else .ub .badSort := by
  obtain ⟨q, des, pos, ⟨h0, h1, h2, h3, h4⟩, n⟩ := p
  simp only at h
  subst h
  by_cases hs : sortable A [a, b, c, d, e] = true
  · simp [updateAll, updateStrict, update, updateFirst, Five.toList, Five.ofList, hs]
    rw [updateAllStrict_later]
    simp
  · simp [updateAll, updateStrict, update, updateFirst, Five.toList, Five.ofList, hs]

theorem updateAllStrict_short {p : P2 F} (xs : List F) (h : p.historyCount + xs.length ≤ 4) :
    updateAll (updateStrict A) p xs = updateAll (update A) p xs := by
  induction xs generalizing p with
  | nil => rfl
  | cons x xs ih =>
    rw [List.length_cons] at h
    have e : p.updateStrict A x = p.update A x := by
      unfold updateStrict
      rw [if_neg]
      simp
      omega
    simp only [updateAll, e]
    cases hu : p.update A x with
    | ok p' =>
      simp only [Res.ok_bind]
      exact ih (by have := update_count_le A hu; omega)
    | throw m => rfl
    | ub u => rfl

end P2


theorem P2.updateAll_ne_badSort {F : Type} (A : Arith F) (p : P2 F) (xs : List F) :
    updateAll (P2.update A) p xs ≠ .ub .badSort := by
  induction xs generalizing p with
  | nil => exact fun h => by cases h
  | cons x xs ih =>
    intro h
    simp only [updateAll] at h
    cases hu : p.update A x with
    | ok p' => rw [hu] at h; exact ih p' h
    | throw m => rw [hu] at h; cases h
    | ub u =>
      rw [hu] at h
      unfold P2.update at hu
      split at hu
      · cases hu
      · split at hu
        · injection hu with hu
          subst hu
          cases h
        · cases hu

/-- Numbers can always be sorted. -/
theorem sortable_arith {K : Type} [Field K] [LinearOrder K] [IsStrictOrderedRing K] [FloorRing K] (R : Rounding K)
    (l : List K) : sortable R.arith l = true := by
  unfold sortable Arith.incomp
  simp only [List.all_eq_true, Bool.and_eq_true]
  intro a _
  refine ⟨by simp [Rounding.arith], fun b _ c _ => ?_⟩
  simp only [Rounding.arith, Bool.or_eq_true, Bool.not_eq_true', Bool.and_eq_false_iff, decide_eq_false_iff_not,
    decide_eq_true_eq, Bool.and_eq_true]
  constructor
  · by_cases h1 : a < b
    · by_cases h2 : b < c
      · exact .inr (h1.trans h2)
      · exact .inl (.inr h2)
    · exact .inl (.inl h1)
  · by_cases h1 : a < c
    · rcases lt_or_ge a b with h2 | h2
      · simp [h2]
      · simp [lt_of_le_of_lt h2 h1]
    · rcases lt_or_ge c a with h3 | h3
      · rcases lt_or_ge b a with h2 | h2
        · simp [h2]
        · simp [lt_of_lt_of_le h3 h2]
      · simp [h1, not_lt.2 h3]

theorem P2.strict_arith {K : Type} [Field K] [LinearOrder K] [IsStrictOrderedRing K] [FloorRing K] (R : Rounding K) :
    P2.updateStrict R.arith = P2.update R.arith ∧ P2.evaluateStrict R.arith = P2.evaluate R.arith := by
  constructor
  · funext p x
    unfold P2.updateStrict
    rw [sortable_arith]
    simp
  · funext p
    unfold P2.evaluateStrict
    rw [sortable_arith]
    simp

theorem P2.runStrict_arith {K : Type} [Field K] [LinearOrder K] [IsStrictOrderedRing K] [FloorRing K] (R : Rounding K)
    (p : P2 K) (ops : List (QOp K)) : P2.runStrict R.arith p ops = P2.run R.arith p ops := by
  induction ops generalizing p with
  | nil => rfl
  | cons o ops ih =>
    have e : p.stepStrict R.arith o = p.step R.arith o := by
      cases o <;> simp only [P2.stepStrict, P2.step, P2.strict_arith R]
    simp only [P2.runStrict, P2.run, e, ih]

theorem sortable_fin (l : List ℚ) : sortable Dbl.arith (l.map .fin) = true :=
  (Dbl.sortable_iff _).2 (.inl (by simp))

theorem P2.updateStrict_dbl (p : P2 ℚ) (x : ℚ) : p.dbl.updateStrict Dbl.arith (.fin x) = p.dbl.update Dbl.arith (.fin x) := by
  have : p.dbl.heights.toList.set 4 (.fin x) = [p.heights.x0, p.heights.x1, p.heights.x2, p.heights.x3, x].map .fin := rfl
  unfold P2.updateStrict
  rw [this, sortable_fin]
  simp

theorem P2.evaluateStrict_dbl (p : P2 ℚ) : p.dbl.evaluateStrict Dbl.arith = p.dbl.evaluate Dbl.arith := by
  have : p.dbl.heights.toList = p.heights.toList.map .fin := rfl
  unfold P2.evaluateStrict
  rw [this, sortable_fin]
  simp

theorem P2.Fit.runStrict {M : ℤ} (hM0 : 0 ≤ M) (hM : M ≤ 980) {p : P2 ℚ} (h : P2.Fit M p) (ops : List (QOp ℚ))
    (hx : ∀ x ∈ QOp.observations ops, rnd64 x = x ∧ |x| ≤ pow2 M) :
    P2.runStrict Dbl.arith p.dbl (ops.map (QOp.map .fin)) = P2.run Dbl.arith p.dbl (ops.map (QOp.map .fin)) := by
  induction ops generalizing p with
  | nil => rfl
  | cons o ops ih =>
    cases o with
    | update x =>
      simp only [QOp.observations, List.mem_cons] at hx
      obtain ⟨e1, e2⟩ := h.update hM0 hM (hx x (.inl rfl)).1 (hx x (.inl rfl)).2
      simp only [List.map_cons, QOp.map, P2.runStrict, P2.stepStrict, P2.run, P2.step, P2.updateStrict_dbl, e1]
      cases hu : p.update b64 x with
      | ok p1 =>
        simp only [Res.ok_bind]
        rw [ih (e2 _ hu) (fun y hy => hx y (.inr hy))]
      | throw m => rfl
      | ub u => rfl
    | evaluate =>
      simp only [QOp.observations] at hx
      simp only [List.map_cons, QOp.map, P2.runStrict, P2.stepStrict, P2.run, P2.step, P2.evaluateStrict_dbl,
        P2.evaluate_dbl h.hull.q0 h.hull.q1]
      cases he : p.evaluate b64 with
      | ok r =>
        obtain ⟨v, p1⟩ := r
        simp only [Res.ok_bind]
        rw [ih (h.evaluate he) hx]
      | throw m => rfl
      | ub u => rfl
    | clear =>
      simp only [QOp.observations] at hx
      simp only [List.map_cons, QOp.map, P2.runStrict, P2.stepStrict, P2.run, P2.step, Res.ok_bind]
      have e : p.dbl.clear = p.clear.dbl := rfl
      rw [e, ih h.clear hx]

/-- Two implementations that agree as long as an invariant holds. -/
theorem SOp.run_congr {σ τ : Type} {upd upd' : τ → Dbl → Res τ} {ev ev' : τ → Res (Dbl × τ)} (f : σ → τ) (Inv : σ → Prop)
    (P : ℚ → Prop) (hu : ∀ s x, Inv s → P x → upd' (f s) (.fin x) = upd (f s) (.fin x) ∧
      ∀ t, upd (f s) (.fin x) = .ok t → ∃ s', t = f s' ∧ Inv s')
    (he : ∀ s, Inv s → ev' (f s) = ev (f s) ∧ ∀ v t, ev (f s) = .ok (v, t) → ∃ s', t = f s' ∧ Inv s')
    {s : σ} (h : Inv s) (ops : List (SOp ℚ)) (hx : ∀ x ∈ SOp.observations ops, P x) :
    SOp.run upd' ev' (f s) (ops.map (SOp.map .fin)) = SOp.run upd ev (f s) (ops.map (SOp.map .fin)) := by
  induction ops generalizing s with
  | nil => rfl
  | cons o ops ih =>
    cases o with
    | update x =>
      simp only [SOp.observations, List.mem_cons] at hx
      obtain ⟨e1, e2⟩ := hu s x h (hx x (.inl rfl))
      simp only [List.map_cons, SOp.map, SOp.run, e1]
      cases hs : upd (f s) (.fin x) with
      | ok t =>
        obtain ⟨s', rfl, hi⟩ := e2 _ hs
        simp only [Res.ok_bind]
        exact ih hi (fun y hy => hx y (.inr hy))
      | throw m => rfl
      | ub u => rfl
    | evaluate =>
      simp only [SOp.observations] at hx
      obtain ⟨e1, e2⟩ := he s h
      simp only [List.map_cons, SOp.map, SOp.run, e1]
      cases hs : ev (f s) with
      | ok r =>
        obtain ⟨v, t⟩ := r
        obtain ⟨s', rfl, hi⟩ := e2 _ _ hs
        simp only [Res.ok_bind]
        rw [ih hi hx]
      | throw m => rfl
      | ub u => rfl

theorem WP2.Fit.updateStrict {M : ℤ} (hM0 : 0 ≤ M) (hM : M ≤ 980) {w : WP2 ℚ} (h : WP2.Fit M w) {x : ℚ} (hx : rnd64 x = x)
    (hxM : |x| ≤ pow2 M) :
    (w.map .fin).updateStrict Dbl.arith (.fin x) = (w.map .fin).update Dbl.arith (.fin x) := by
  obtain ⟨e1, -⟩ := h.p2.update hM0 hM hx hxM
  unfold WP2.updateStrict WP2.update
  have e2 := P2.updateStrict_dbl w.p2 x
  simp only at e2 ⊢
  rw [e2, e1]
  cases w.p2.update b64 x with
  | ok p1 =>
    simp only [Res.ok_bind]
    have := P2.evaluateStrict_dbl p1
    rw [this]
  | throw m => rfl
  | ub u => rfl

theorem WP2.evaluateStrict_dbl (w : WP2 ℚ) : (w.map .fin).evaluateStrict Dbl.arith = (w.map .fin).evaluate Dbl.arith := by
  have := P2.evaluateStrict_dbl w.p2
  unfold WP2.evaluateStrict WP2.evaluate
  simp only at this ⊢
  rw [this]

theorem WP2.Fit.update_next {M : ℤ} (hM0 : 0 ≤ M) (hM : M ≤ 980) {w : WP2 ℚ} (h : WP2.Fit M w) {x : ℚ} (hx : rnd64 x = x)
    (hxM : |x| ≤ pow2 M) (t : WP2 Dbl) (ht : (w.map .fin).update Dbl.arith (.fin x) = .ok t) :
    ∃ w', t = WP2.map .fin w' ∧ WP2.Fit M w' := by
  obtain ⟨e1, e2⟩ := h.update hM0 hM hx hxM
  rw [e1] at ht
  obtain ⟨w', h1, h2⟩ := Res.bind_eq_ok.1 ht
  injection h2 with h2
  exact ⟨w', h2.symm, e2 _ h1⟩

theorem WP2.Fit.evaluate_next {M : ℤ} (hM0 : 0 ≤ M) (hM : M ≤ 955) {w : WP2 ℚ} (h : WP2.Fit M w) (v : Dbl) (t : WP2 Dbl)
    (ht : (w.map .fin).evaluate Dbl.arith = .ok (v, t)) : ∃ w', t = WP2.map .fin w' ∧ WP2.Fit M w' := by
  obtain ⟨e1, e2⟩ := h.evaluate hM0 hM
  rw [e1] at ht
  obtain ⟨⟨v', w'⟩, h1, h2⟩ := Res.bind_eq_ok.1 ht
  injection h2 with h2
  injection h2 with h2 h3
  exact ⟨w', h3.symm, (e2 _ _ h1).1⟩

/-! ## C101 -/

/-- **C101**, full statement: a NaN among the observations is not lost. Whatever is observed before and after it, the
evaluation of every statistic is NaN (or an exception). -/
def C101_full : Prop := ∀ xs ys : List Dbl, (xs ++ Dbl.nan :: ys).length < 2 ^ 31 →
  (∀ W, ∃ m, updateAll (Mean.update Dbl.arith) (Mean.new Dbl.arith W) (xs ++ Dbl.nan :: ys) = .ok m ∧
    m.evaluate Dbl.arith = .nan) ∧
  (∀ W, ∃ v, updateAll (Variance.update Dbl.arith) (Variance.new Dbl.arith W) (xs ++ Dbl.nan :: ys) = .ok v ∧
    v.evaluate Dbl.arith = .nan) ∧
  (∀ s e f, Fame.new Dbl.arith s e = .ok f → ((xs ++ Dbl.nan :: ys).foldl (Fame.update Dbl.arith) f).evaluate = .nan) ∧
  (∀ m, Mad.new Dbl.arith = .ok m → ((xs ++ Dbl.nan :: ys).foldl (Mad.update Dbl.arith) m).evaluate = .nan) ∧
  ∀ q p, P2.new Dbl.arith (.fin q) = .ok p → ∀ r, (do
    let p' ← updateAll (P2.updateStrict Dbl.arith) p (xs ++ Dbl.nan :: ys)
    p'.evaluateStrict Dbl.arith) = r → (∃ p'', r = .ok (Dbl.nan, p'')) ∨ r.IsThrow

/-- **C101** is violated: the median estimate ignores a NaN that is not the first observation. -/
theorem C101_violated : ¬ C101_full := by
  intro h
  have := (h [.fin 1] [] (by simp)).2.2.1 (.fin 1) (.fin 0) ⟨.fin 0, .fin 1, .fin 0, 0⟩ (by decide +kernel)
  have e : (([Dbl.fin 1] ++ Dbl.nan :: []).foldl (Fame.update Dbl.arith) ⟨.fin 0, .fin 1, .fin 0, 0⟩).evaluate = .fin 1 := by
    decide +kernel
  rw [e] at this
  cases this

/-- **C101**, StreamingMean: a NaN is never lost. The mean is NaN for ever, even after the NaN has left the window. -/
theorem C101_mean_partial (W : ℕ) (xs ys : List Dbl) :
    ∃ m, updateAll (Mean.update Dbl.arith) (Mean.new Dbl.arith W) (xs ++ .nan :: ys) = .ok m ∧
      m.evaluate Dbl.arith = .nan := by
  obtain ⟨m, h1, h2, h3⟩ := Mean.nan_run W xs ys
  exact ⟨m, h1, Mean.evaluate_nan h2 h3⟩

/-- **C101**, StreamingVariance: likewise. -/
theorem C101_variance_partial (W : ℕ) (xs ys : List Dbl) :
    ∃ v, updateAll (Variance.update Dbl.arith) (Variance.new Dbl.arith W) (xs ++ .nan :: ys) = .ok v ∧
      v.evaluate Dbl.arith = .nan := by
  obtain ⟨v, h1, h2, h3, -⟩ := Variance.run_eq Dbl.arith W (xs ++ .nan :: ys)
  refine ⟨v, h1, ?_⟩
  obtain ⟨m, k1, k2⟩ := C101_mean_partial W (xs.map fun x => Dbl.arith.mul x x) (ys.map fun x => Dbl.arith.mul x x)
  rw [List.map_append, List.map_cons, Dbl.mul_nan_left, k1] at h3
  injection h3 with h3
  subst h3
  unfold Variance.evaluate
  simp only [k2, Dbl.sub_nan_left]

/-- a NaN observed with a window of one: the following mean of `[5]` is NaN -/
example : ∃ m, updateAll (Mean.update Dbl.arith) (Mean.new Dbl.arith 1) ([.fin 3] ++ .nan :: [.fin 4, .fin 5]) = .ok m ∧
    m.evaluate Dbl.arith = .nan ∧ m.window = some [.fin 5] := by
  obtain ⟨m, h1, h2⟩ := C101_mean_partial 1 [.fin 3] [.fin 4, .fin 5]
  refine ⟨m, h1, h2, ?_⟩
  have : m = ⟨1, some [.fin 5], 4, .nan⟩ := by
    have e : updateAll (Mean.update Dbl.arith) (Mean.new Dbl.arith 1) ([.fin 3] ++ .nan :: [.fin 4, .fin 5]) =
        .ok ⟨1, some [.fin 5], 4, .nan⟩ := by decide +kernel
    rw [e] at h1
    injection h1 with h1
    exact h1.symm
  rw [this]

/-- **C101**, WindowedFAME: a NaN as first observation makes the estimate NaN for ever. -/
theorem C101_fame_first_partial (s e : Dbl) (f : Fame Dbl) (hf : Fame.new Dbl.arith s e = .ok f) (ys : List Dbl) :
    ((Dbl.nan :: ys).foldl (Fame.update Dbl.arith) f).evaluate = .nan := by
  have h0 : f.historyCount = 0 := by
    unfold Fame.new at hf
    split at hf
    · cases hf
    · injection hf with hf; rw [← hf]
  rw [List.foldl_cons]
  exact Fame.nan_run (by rw [Fame.update_count]; simp) (Fame.nan_first h0) ys

/-- **C101**, WindowedFAME with ε = 0 (the default): every later NaN is ignored. The estimate is that of the stream
without its NaNs. -/
theorem C101_fame_ignored_partial (s : Dbl) (f : Fame Dbl) (hf : Fame.new Dbl.arith s (.fin 0) = .ok f) (x : Dbl)
    (xs : List Dbl) : ((x :: xs).foldl (Fame.update Dbl.arith) f).evaluate =
      ((x :: xs.filter (· ≠ .nan)).foldl (Fame.update Dbl.arith) f).evaluate := by
  have he : f.epsilon = .fin 0 := by
    unfold Fame.new at hf
    split at hf
    · cases hf
    · injection hf with hf; rw [← hf]
  exact ((Fame.Same.first he x).run xs).median

/-- **C101**, StreamingMAD: a NaN as first observation makes the estimate NaN for ever; every later NaN is ignored. -/
theorem C101_mad_partial (m : Mad Dbl) (hm : Mad.new Dbl.arith = .ok m) :
    (∀ ys : List Dbl, ((Dbl.nan :: ys).foldl (Mad.update Dbl.arith) m).evaluate = .nan) ∧
    ∀ (x : Dbl) (xs : List Dbl), ((x :: xs).foldl (Mad.update Dbl.arith) m).evaluate =
      ((x :: xs.filter (· ≠ .nan)).foldl (Mad.update Dbl.arith) m).evaluate := by
  have e := Mad.new_dbl_eq hm
  subst e
  constructor
  · intro ys
    rw [List.foldl_cons]
    refine Mad.nan_run (by simp only [Mad.update]; rw [Fame.update_count]; simp)
      (by simp only [Mad.update]; rw [Fame.update_count]; simp) (Fame.nan_first rfl) ?_ ys
    simp only [Mad.update, Dbl.sub_nan_left, Dbl.abs_nan]
    exact Fame.nan_first rfl
  · intro x xs
    exact (Mad.Same.run (f := Mad.update Dbl.arith _ x) (g := Mad.update Dbl.arith _ x)
      ⟨Fame.Same.first rfl x, Fame.Same.first rfl _⟩ xs).error.median

example : Fame.new Dbl.arith (.fin (1 / 2)) (.fin 0) = .ok ⟨.fin 0, .fin (1 / 2), .fin 0, 0⟩ ∧
    ([Dbl.fin 4, .nan, .fin 1, .nan, .nan, .fin 9].foldl (Fame.update Dbl.arith) ⟨.fin 0, .fin (1 / 2), .fin 0, 0⟩).evaluate =
    ([Dbl.fin 4, .fin 1, .fin 9].foldl (Fame.update Dbl.arith) ⟨.fin 0, .fin (1 / 2), .fin 0, 0⟩).evaluate := by
  decide +kernel

/-- **C101**, StreamingP2Quantile: the call of `std::sort` at the fifth observation is defined exactly if there is no NaN
among the first five or all their numbers are equal. -/
theorem C101_quantile_first_partial (q : Dbl) (p : P2 Dbl) (hp : P2.new Dbl.arith q = .ok p) (xs ys : List Dbl)
    (h5 : xs.length = 5) :
    updateAll (P2.updateStrict Dbl.arith) p (xs ++ ys) = .ub .badSort ↔
      .nan ∈ xs ∧ ∃ a ∈ xs, ∃ b ∈ xs, Dbl.arith.lt a b = true := by
  have h0 : p.historyCount = 0 := by
    unfold P2.new at hp
    split at hp
    · cases hp
    · injection hp with hp; rw [← hp]
  obtain ⟨a, b, c, d, e, rfl⟩ : ∃ a b c d e, xs = [a, b, c, d, e] := by
    match xs, h5 with
    | [a, b, c, d, e], _ => exact ⟨a, b, c, d, e, rfl⟩
  show updateAll (P2.updateStrict Dbl.arith) p (a :: b :: c :: d :: e :: ys) = _ ↔ _
  rw [P2.updateAllStrict_five _ h0]
  have hs := Dbl.sortable_iff [a, b, c, d, e]
  split
  · rename_i h
    constructor
    · intro hu
      exact absurd hu (P2.updateAll_ne_badSort _ _ _)
    · rintro ⟨h1, x, hx, y, hy, hl⟩
      rcases hs.1 h with h2 | h2
      · exact absurd rfl (h2 _ h1)
      · rw [h2 x hx y hy] at hl
        cases hl
  · rename_i h
    simp only [true_iff]
    rw [hs, not_or] at h
    obtain ⟨h1, h2⟩ := h
    simp only [not_forall, Bool.not_eq_false] at h1 h2
    obtain ⟨n, hn, h1⟩ := h1
    rw [not_not] at h1
    obtain ⟨x, hx, y, hy, h2⟩ := h2
    exact ⟨h1 ▸ hn, x, hx, y, hy, h2⟩

/-- **C101**, StreamingP2Quantile: the sort in `evaluate` is likewise undefined. -/
theorem C101_quantile_evaluate_partial (p : P2 Dbl) (h5 : p.historyCount ≤ 5) (hn : .nan ∈ p.heights.toList)
    (hd : ∃ a ∈ p.heights.toList, ∃ b ∈ p.heights.toList, Dbl.arith.lt a b = true) :
    p.evaluateStrict Dbl.arith = .ub .badSort := by
  unfold P2.evaluateStrict
  rw [if_pos]
  have : sortable Dbl.arith p.heights.toList = false := by
    rw [← Bool.not_eq_true, Dbl.sortable_iff]
    rintro (h | h)
    · exact h _ hn rfl
    · obtain ⟨a, ha, b, hb, hl⟩ := hd
      rw [h a ha b hb] at hl
      cases hl
  simp [this, h5]

/-- **C101**, WindowedP2Quantile, in its first window or any later one: both sorts of the quantile inside are reached, the one
in `evaluate` and the one at the fifth observation of a window. -/
theorem C101_windowed_partial (w : WP2 Dbl) (hW : 0 < w.windowSize) :
    (w.p2.historyCount ≤ 5 → .nan ∈ w.p2.heights.toList →
      (∃ a ∈ w.p2.heights.toList, ∃ b ∈ w.p2.heights.toList, Dbl.arith.lt a b = true) →
      w.evaluateStrict Dbl.arith = .ub .badSort) ∧
    ∀ x, w.p2.historyCount = 4 → .nan ∈ w.p2.heights.toList.set 4 x →
      (∃ a ∈ w.p2.heights.toList.set 4 x, ∃ b ∈ w.p2.heights.toList.set 4 x, Dbl.arith.lt a b = true) →
      w.updateStrict Dbl.arith x = .ub .badSort := by
  constructor
  · intro h5 hn hd
    have e := C101_quantile_evaluate_partial w.p2 h5 hn hd
    unfold WP2.evaluateStrict
    rw [e]
    split
    · rfl
    · rw [if_neg (by omega)]
      rfl
  · intro x h4 hn ⟨a, ha, b, hb, hl⟩
    have e : w.p2.updateStrict Dbl.arith x = .ub .badSort := by
      unfold P2.updateStrict
      rw [if_pos]
      have : sortable Dbl.arith (w.p2.heights.toList.set 4 x) = false := by
        rw [← Bool.not_eq_true, Dbl.sortable_iff]
        rintro (h | h)
        · exact h _ hn rfl
        · rw [h a ha b hb] at hl
          cases hl
      simp [this, h4]
    unfold WP2.updateStrict
    rw [e]
    rfl

/-- Window 6: seven observations complete the first window; a NaN is the second of the next one, where there still are four
heights of the first. -/
example : (do
    let w ← updateAll (WP2.updateStrict Dbl.arith) ⟨6, 0, (P2.blank (1 / 2)).dbl, .fin 0⟩
      [.fin 1, .fin 2, .fin 3, .fin 4, .fin 5, .fin 6, .fin 7, .fin 8, .nan]
    w.evaluateStrict Dbl.arith) = .ub .badSort ∧
    updateAll (WP2.updateStrict Dbl.arith) ⟨6, 0, (P2.blank (1 / 2)).dbl, .fin 0⟩
      [.fin 1, .fin 2, .fin 3, .fin 4, .fin 5, .fin 6, .fin 7, .fin 8, .nan, .fin 9, .fin 9, .fin 9] = .ub .badSort := by
  decide +kernel

/-- **C101** is violated by undefined behaviour: a NaN among the first five observations of a median. -/
theorem C101_undefined_violated : ∃ p, P2.new Dbl.arith (.fin (1 / 2)) = .ok p ∧
    updateAll (P2.updateStrict Dbl.arith) p [.fin 3, .fin 1, .nan, .fin 2, .fin 5] = .ub .badSort ∧
    (do let p ← updateAll (P2.updateStrict Dbl.arith) p [.fin 3, .nan]; p.evaluateStrict Dbl.arith) = .ub .badSort :=
  ⟨(P2.blank (1 / 2)).dbl, by unfold P2.new; rw [if_neg (by decide +kernel)]; decide +kernel, by decide +kernel,
    by decide +kernel⟩

/-- **C101**, StreamingP2Quantile: a NaN after the first five observations takes the place of the greatest height. -/
theorem C101_quantile_later_partial (p p' : P2 Dbl) (h5 : 5 ≤ p.historyCount) (hu : p.updateStrict Dbl.arith .nan = .ok p') :
    p'.heights.x4 = .nan := by
  rw [P2.updateStrict_later _ h5] at hu
  unfold P2.update at hu
  rw [if_neg (by omega)] at hu
  split at hu
  · cases hu
  · injection hu with hu
    subst hu
    have : P2.findK Dbl.arith p.heights .nan = (3, { p.heights with x4 := .nan }) := by simp [P2.findK]
    unfold P2.updateLater
    rw [this]
    simp only
    split <;> rfl

/-- **C101**: as nothing is less than NaN, the next observation that is not below the other four heights becomes the greatest height, however small it
is compared with earlier observations. -/
theorem C101_maximum_forgotten_partial (p p' : P2 Dbl) (h5 : 5 ≤ p.historyCount) (x : Dbl)
    (hx : ∀ y ∈ p.heights.toList, Dbl.arith.lt x y = false) (hu : p.updateStrict Dbl.arith x = .ok p') :
    p'.heights.x4 = x := by
  rw [P2.updateStrict_later _ h5] at hu
  unfold P2.update at hu
  rw [if_neg (by omega)] at hu
  split at hu
  · cases hu
  · injection hu with hu
    subst hu
    simp only [Five.toList, List.mem_cons, List.not_mem_nil, or_false, forall_eq_or_imp, forall_eq] at hx
    have : P2.findK Dbl.arith p.heights x = (3, { p.heights with x4 := x }) := by simp [P2.findK, hx]
    unfold P2.updateLater
    rw [this]
    simp only
    split <;> rfl

/-- **C101** is violated: after 1, 2, 3, 4, 100, NaN, 5 the first quartile is a number, and the greatest height is 5. -/
theorem C101_maximum_violated : (do
    let p ← updateAll (P2.updateStrict Dbl.arith) (P2.blank (1 / 4)).dbl [.fin 1, .fin 2, .fin 3, .fin 4, .fin 100, .nan, .fin 5]
    .ok p.heights) = .ok ⟨.fin 1, .fin 2, .fin 3, .fin 4, .fin 5⟩ := by decide +kernel

/-- **C101**: on numbers the sorts are defined. In the arithmetics of the theorems about the quantile estimators the strict
functions are the functions of those theorems. -/
theorem C101_numbers_partial {K : Type} [Field K] [LinearOrder K] [IsStrictOrderedRing K] [FloorRing K] (R : Rounding K) :
    P2.updateStrict R.arith = P2.update R.arith ∧ P2.evaluateStrict R.arith = P2.evaluate R.arith ∧
    P2.runStrict R.arith = P2.run R.arith ∧
    WP2.updateStrict R.arith = WP2.update R.arith ∧ WP2.evaluateStrict R.arith = WP2.evaluate R.arith ∧
    IQR.updateStrict R.arith = IQR.update R.arith ∧ IQR.evaluateStrict R.arith = IQR.evaluate R.arith := by
  obtain ⟨h1, h2⟩ := P2.strict_arith R
  have h3 : WP2.updateStrict R.arith = WP2.update R.arith := by
    funext w x; unfold WP2.updateStrict WP2.update; rw [h1, h2]
  have h4 : WP2.evaluateStrict R.arith = WP2.evaluate R.arith := by
    funext w; unfold WP2.evaluateStrict WP2.evaluate; rw [h2]
  refine ⟨h1, h2, funext fun p => funext fun ops => P2.runStrict_arith R p ops, h3, h4, ?_, ?_⟩
  · funext w x; unfold IQR.updateStrict IQR.update; rw [h3]
  · funext w; unfold IQR.evaluateStrict IQR.evaluate; rw [h4]

/-- **C101**: on moderate doubles, whatever is called, no NaN arises that could be sorted: the strict functions agree with
those of C82, including the sort of stale heights after `clear`. -/
theorem C101_moderate_partial (q : ℚ) (p : P2 ℚ) (hp : P2.new b64 q = .ok p) (ops : List (QOp ℚ))
    (hx : ∀ x ∈ QOp.observations ops, IsModerate x) :
    P2.runStrict Dbl.arith (p.map .fin) (ops.map (QOp.map .fin)) = P2.run Dbl.arith (p.map .fin) (ops.map (QOp.map .fin)) := by
  obtain ⟨-, h2⟩ := P2.new_dbl hp (M := 950)
  exact h2.runStrict (by norm_num) (by norm_num) ops hx

/-- **C101**: likewise for the windowed quantile. -/
theorem C101_moderate_windowed_partial (q : ℚ) (W : ℕ) (hW : W < 2 ^ 64) (w : WP2 ℚ) (hw : WP2.new b64 q W = .ok w)
    (ops : List (SOp ℚ)) (hx : ∀ x ∈ SOp.observations ops, IsModerate x) :
    SOp.run (WP2.updateStrict Dbl.arith) (WP2.evaluateStrict Dbl.arith) (w.map .fin) (ops.map (SOp.map .fin)) =
      SOp.run (WP2.update Dbl.arith) (WP2.evaluate Dbl.arith) (w.map .fin) (ops.map (SOp.map .fin)) := by
  obtain ⟨-, h2⟩ := WP2.new_dbl hW hw (M := 950)
  refine SOp.run_congr (WP2.map Dbl.fin) (WP2.Fit 950) IsModerate ?_ ?_ h2 ops hx
  · exact fun s x h hx => ⟨h.updateStrict (by norm_num) (by norm_num) hx.1 hx.2,
      h.update_next (by norm_num) (by norm_num) hx.1 hx.2⟩
  · exact fun s h => ⟨WP2.evaluateStrict_dbl s, h.evaluate_next (by norm_num) (by norm_num)⟩

/-- **C101**: and for the interquartile range. -/
theorem C101_moderate_iqr_partial (low high : ℚ) (W : ℕ) (hW : W < 2 ^ 64) (i : IQR ℚ) (hi : IQR.new b64 low high W = .ok i)
    (ops : List (SOp ℚ)) (hx : ∀ x ∈ SOp.observations ops, IsModerate x) :
    SOp.run (IQR.updateStrict Dbl.arith) (IQR.evaluateStrict Dbl.arith) (i.map .fin) (ops.map (SOp.map .fin)) =
      SOp.run (IQR.update Dbl.arith) (IQR.evaluate Dbl.arith) (i.map .fin) (ops.map (SOp.map .fin)) := by
  obtain ⟨h1, h2, h3⟩ := IQR.new_eq_ok.1 hi
  obtain ⟨-, l2⟩ := WP2.new_dbl hW h1 (M := 950)
  obtain ⟨-, r2⟩ := WP2.new_dbl hW h2 (M := 950)
  refine SOp.run_congr (IQR.map Dbl.fin) (fun i => WP2.Fit 950 i.low ∧ WP2.Fit 950 i.high) IsModerate ?_ ?_ ⟨l2, r2⟩ ops hx
  · rintro s x ⟨hl, hr⟩ hx
    constructor
    · have a := hl.updateStrict (by norm_num) (by norm_num) hx.1 hx.2
      have b := hr.updateStrict (by norm_num) (by norm_num) hx.1 hx.2
      unfold IQR.updateStrict IQR.update
      simp only at a b ⊢
      rw [a, b]
    · intro t ht
      unfold IQR.update at ht
      obtain ⟨l, e1, ht⟩ := Res.bind_eq_ok.1 ht
      obtain ⟨r, e2, ht⟩ := Res.bind_eq_ok.1 ht
      injection ht with ht
      obtain ⟨l', rfl, fl⟩ := hl.update_next (by norm_num) (by norm_num) hx.1 hx.2 _ e1
      obtain ⟨r', rfl, fr⟩ := hr.update_next (by norm_num) (by norm_num) hx.1 hx.2 _ e2
      exact ⟨⟨l', r', s.historyCount + 1⟩, ht.symm, fl, fr⟩
  · rintro s ⟨hl, hr⟩
    constructor
    · have a := WP2.evaluateStrict_dbl s.low
      have b := WP2.evaluateStrict_dbl s.high
      unfold IQR.evaluateStrict IQR.evaluate
      simp only at a b ⊢
      rw [a, b]
    · intro v t ht
      unfold IQR.evaluate at ht
      obtain ⟨⟨v1, r⟩, e1, ht⟩ := Res.bind_eq_ok.1 ht
      obtain ⟨⟨v2, l⟩, e2, ht⟩ := Res.bind_eq_ok.1 ht
      injection ht with ht
      injection ht with _ ht
      obtain ⟨l', rfl, fl⟩ := hl.evaluate_next (by norm_num) (by norm_num) _ _ e2
      obtain ⟨r', rfl, fr⟩ := hr.evaluate_next (by norm_num) (by norm_num) _ _ e1
      exact ⟨⟨l', r', s.historyCount⟩, ht.symm, fl, fr⟩

/-- A history with `clear` and an `evaluate` of stale heights, within the hypotheses. -/
example : (match P2.new b64 (1 / 4) with
    | .ok p => match P2.runStrict Dbl.arith (p.map .fin)
        (([QOp.update 3, .update 1, .evaluate, .update (2 ^ 900), .update 4, .update 1, .update 9, .clear, .evaluate, .update 2] :
          List (QOp ℚ)).map (QOp.map .fin)) with
      | .ok (vs, _) => decide (vs.length = 2)
      | _ => false
    | _ => false) = true := by decide +kernel

/-- Beyond: infinite observations leave a NaN height behind, and after `clear` the sort in `evaluate` is undefined though
no NaN was ever observed. -/
theorem C101_stale_violated :
    P2.runStrict Dbl.arith (P2.blank (1 / 2)).dbl (overflowing.map (fun x => QOp.update (Dbl.fin x)) ++ [.clear, .evaluate]) = .ub .badSort := by
  decide +kernel

end KML
