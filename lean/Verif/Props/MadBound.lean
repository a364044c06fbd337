import Verif.Props.DoubleFame
import Verif.Props.TolerantDouble

/-! # C28 on doubles: how negative StreamingMAD can become -/

namespace KML

/-- The double nearest to 0.1. -/
def tenth : ℚ := rnd64 (1 / 10)

/-- A double that is not a negative number and not minus infinity. -/
def Dbl.Deviation : Dbl → Prop
  | .fin q => 0 ≤ q ∧ rnd64 q = q
  | .inf neg => neg = false
  | .nan => True

/-- State of the estimator of the deviations. While the step is still 0.1 the estimate is 0 or at least 0.1; once it has been
halved the estimate is at least -0.05. -/
structure Fame.Low (f : Fame Dbl) : Prop where
  ex : ∃ v s : ℚ, f.median = .fin v ∧ f.stepSize = .fin s ∧ rnd64 v = v ∧ 0 ≤ s ∧
    (s = tenth ∧ (v = 0 ∨ tenth ≤ v) ∨ s ≤ tenth / 2 ∧ -(tenth / 2) ≤ v)

theorem Dbl.fin_of_ofRat {q w : ℚ} (h : Dbl.ofRat q = .fin w) : w = rnd64 q := by
  unfold Dbl.ofRat at h
  simp only at h
  split at h
  · cases h
  · injection h with h; exact h.symm

theorem Dbl.Deviation.abs_ofRat (q : ℚ) : (Dbl.abs (Dbl.ofRat q)).Deviation := by
  cases h : Dbl.ofRat q with
  | nan => exact trivial
  | inf neg => exact rfl
  | fin w =>
    refine ⟨abs_nonneg w, ?_⟩
    rw [Dbl.fin_of_ofRat h]
    rcases abs_cases (rnd64 q) with ⟨e, -⟩ | ⟨e, -⟩ <;> rw [e]
    · exact rnd64_idem _
    · rw [rnd64_neg, rnd64_idem]

/-- Absolute values of differences of doubles are doubles and not negative. -/
theorem Dbl.Deviation.abs_sub (x y : Dbl) : (Dbl.arith.abs (Dbl.arith.sub x y)).Deviation := by
  show (Dbl.abs (Dbl.sub x y)).Deviation
  cases x <;> cases y <;> first | exact Dbl.Deviation.abs_ofRat _ | exact trivial | exact rfl | skip
  rename_i a b
  cases a <;> cases b <;> first | exact trivial | exact rfl

/-- What one update does to estimate and step, both finite. -/
theorem Fame.update_fin {f : Fame Dbl} {x : Dbl} {v s v' w' : ℚ} (h0 : f.historyCount ≠ 0) (he : f.epsilon = .fin 0)
    (hv : f.median = .fin v) (hs : f.stepSize = .fin s) (s0 : 0 ≤ s) (s1 : s ≤ 1)
    (hv' : (f.update Dbl.arith x).median = .fin v') (hw' : (f.update Dbl.arith x).stepSize = .fin w') :
    (x.lt (.fin v) = true ∧ v' = rnd64 (v - s) ∨ (Dbl.fin v).lt x = true ∧ v' = rnd64 (v + s) ∨ v' = v) ∧
    ((Dbl.arith.abs (Dbl.arith.sub x (.fin v'))).lt (.fin s) = true ∧ w' = rnd64 (s / 2) ∨
     (Dbl.arith.abs (Dbl.arith.sub x (.fin v'))).lt (.fin s) = false ∧ w' = rnd64 s) := by
  have l2 : Dbl.arith.lit 2 = .fin 2 := by simpa using P2.lit_fin 2 (by norm_num)
  have one : Dbl.arith.add (Dbl.arith.lit 1) f.epsilon = .fin 1 := by rw [he]; decide +kernel
  have mul1 : ∀ t w : ℚ, Dbl.arith.mul (.fin t) (.fin 1) = .fin w → w = rnd64 t := fun t w h => by
    have : Dbl.ofRat (t * 1) = .fin w := h
    rw [mul_one] at this
    exact Dbl.fin_of_ofRat this
  have half : Dbl.arith.div (.fin s) (.fin 2) = .fin (rnd64 (s / 2)) := by
    have e : Dbl.arith.div (.fin s) (.fin 2) = Dbl.ofRat (s / 2) := by
      show Dbl.div (.fin s) (.fin 2) = _
      rw [Dbl.div, if_neg (by norm_num)]
    have hb : |rnd64 (s / 2)| ≤ pow2 0 := rnd64_abs_le (by norm_num) (by
      rw [pow2_zero, abs_of_nonneg (by positivity)]
      linarith)
    exact e.trans (Dbl.ofRat_eq (hb.trans (pow2_le.2 (by norm_num))))
  obtain ⟨m, hm⟩ : ∃ m, m = (if Dbl.arith.lt x f.median then { f with median := Dbl.arith.sub f.median f.stepSize }
    else if Dbl.arith.lt f.median x then { f with median := Dbl.arith.add f.median f.stepSize }
    else f) := ⟨_, rfl⟩
  have ms : m.stepSize = .fin s := by rw [hm]; split <;> [skip; split] <;> exact hs
  have me : m.epsilon = f.epsilon := by rw [hm]; split <;> [skip; split] <;> rfl
  have mc : m.historyCount = f.historyCount := by rw [hm]; split <;> [skip; split] <;> rfl
  have mm : m.median = .fin v' := by
    rw [← hv']
    unfold Fame.update
    simp only [h0, if_false]
    rw [← hm]
    split <;> rfl
  refine ⟨?_, ?_⟩
  · rw [hm] at mm
    by_cases d1 : Dbl.arith.lt x f.median = true
    · rw [if_pos d1] at mm
      rw [hv] at d1
      refine .inl ⟨d1, ?_⟩
      simp only [hv, hs] at mm
      rw [sub_eq_add_neg]
      exact Dbl.fin_of_ofRat mm
    · rw [if_neg d1] at mm
      by_cases d3 : Dbl.arith.lt f.median x = true
      · rw [if_pos d3] at mm
        rw [hv] at d3
        refine .inr (.inl ⟨d3, ?_⟩)
        simp only [hv, hs] at mm
        exact Dbl.fin_of_ofRat mm
      · rw [if_neg d3, hv] at mm
        injection mm with mm
        exact .inr (.inr mm.symm)
  · unfold Fame.update at hw'
    simp only [h0, if_false] at hw'
    rw [← hm] at hw'
    by_cases d : (Dbl.arith.abs (Dbl.arith.sub x (.fin v'))).lt (.fin s) = true
    · refine .inl ⟨d, ?_⟩
      have d' : Dbl.arith.lt (Dbl.arith.abs (Dbl.arith.sub x m.median)) m.stepSize = true := by rw [mm, ms]; exact d
      have d'' : (decide (m.historyCount ≠ 0) && Dbl.arith.lt (Dbl.arith.abs (Dbl.arith.sub x m.median)) m.stepSize) = true := by
        rw [d', mc]; simpa using h0
      rw [if_pos d''] at hw'
      simp only [me, one, ms, l2, half] at hw'
      rw [mul1 _ _ hw', rnd64_idem]
    · rw [Bool.not_eq_true] at d
      refine .inr ⟨d, ?_⟩
      have d' : Dbl.arith.lt (Dbl.arith.abs (Dbl.arith.sub x m.median)) m.stepSize = false := by rw [mm, ms]; exact d
      have d'' : ¬ (decide (m.historyCount ≠ 0) && Dbl.arith.lt (Dbl.arith.abs (Dbl.arith.sub x m.median)) m.stepSize) = true := by
        rw [d']; simp
      rw [if_neg d''] at hw'
      simp only [me, one, ms] at hw'
      exact mul1 _ _ hw'

/-- Doubles below a double of at least 1/16 differ from it by 2^-56 at least. -/
theorem gap_tenth {q v : ℚ} (hq : rnd64 q = q) (hv : rnd64 v = v) (h : q < v) (ht : tenth ≤ v) :
    q ≤ v - pow2 (-56) := by
  by_cases hc : q < pow2 (-4)
  · have : pow2 (-4) + pow2 (-56) ≤ tenth := by decide +kernel
    linarith
  · rw [not_lt] at hc
    have p4 := pow2_pos (-4)
    have hq0 : 0 < q := p4.trans_le hc
    obtain ⟨m, n, hm, hn, -⟩ := common_grid hq hv hq0 h.le
    have hu : -56 ≤ ulpExp q := by
      have := le_expo_of_le hq0.ne' (by rwa [abs_of_pos hq0] : pow2 (-4) ≤ |q|)
      unfold ulpExp
      omega
    have hp := pow2_le.2 hu
    have hp0 := pow2_pos (ulpExp q)
    have hmn : m < n := by
      rw [hm, hn] at h
      have := lt_of_mul_lt_mul_right h hp0.le
      exact_mod_cast this
    have h1 : ((m : ℚ) + 1) * pow2 (ulpExp q) ≤ n * pow2 (ulpExp q) := by
      apply mul_le_mul_of_nonneg_right _ hp0.le
      exact_mod_cast hmn
    linarith

theorem Fame.Low.update {n : ℕ} {f : Fame Dbl} (hs : f.Small n) (h : f.Low) {x : Dbl} (hx : x.Deviation) :
    (f.update Dbl.arith x).Low := by
  have hs' := hs.update x
  obtain ⟨h0, he, -, -⟩ := hs
  obtain ⟨v, s, hv, hst, hr, s0, hvs⟩ := h
  obtain ⟨-, -, ⟨v', hv', -⟩, w', hw', w0, -⟩ := hs'
  have ht : rnd64 tenth = tenth := rnd64_idem _
  have t0 : 0 < tenth := by decide +kernel
  have t1 : tenth ≤ 1 := by decide +kernel
  have th : rnd64 (tenth / 2) = tenth / 2 := by decide +kernel
  have th' : rnd64 (-(tenth / 2)) = -(tenth / 2) := by rw [rnd64_neg, th]
  have s1 : s ≤ 1 := by rcases hvs with ⟨e, -⟩ | ⟨e, -⟩ <;> linarith
  obtain ⟨hm, hw⟩ := Fame.update_fin h0 he hv hst s0 s1 hv' hw'
  have hr' : rnd64 v' = v' := by
    rcases hm with ⟨-, rfl⟩ | ⟨-, rfl⟩ | rfl
    · exact rnd64_idem _
    · exact rnd64_idem _
    · exact hr
  refine ⟨v', w', hv', hw', hr', w0, ?_⟩
  -- going down, the observation is a finite double below the estimate
  have down : x.lt (.fin v) = true → ∃ q, x = .fin q ∧ 0 ≤ q ∧ rnd64 q = q ∧ q < v := by
    intro d
    cases x with
    | nan => exact absurd d (by simp [Dbl.lt])
    | inf neg =>
      have : neg = false := hx
      subst this
      exact absurd d (by simp [Dbl.lt])
    | fin q => exact ⟨q, rfl, hx.1, hx.2, by simpa [Dbl.lt] using d⟩
  rcases hvs with ⟨rfl, hv0⟩ | ⟨hs2, hvl⟩
  · -- the step has not been halved before
    have vp : v' = 0 ∨ 0 ≤ v' := by
      right
      rcases hm with ⟨d, rfl⟩ | ⟨-, rfl⟩ | rfl
      · obtain ⟨q, -, q0, -, hqv⟩ := down d
        apply rnd64_nonneg
        rcases hv0 with e | e <;> linarith
      · apply rnd64_nonneg
        rcases hv0 with e | e <;> linarith
      · rcases hv0 with e | e <;> linarith
    have vp : 0 ≤ v' := by rcases vp with e | e <;> linarith
    rcases hw with ⟨-, rfl⟩ | ⟨hnl, rfl⟩
    · right
      rw [th]
      exact ⟨le_rfl, by linarith⟩
    · left
      rw [ht]
      refine ⟨rfl, ?_⟩
      rcases hm with ⟨d, e⟩ | ⟨-, rfl⟩ | rfl
      · right
        obtain ⟨q, rfl, q0, hq, hqv⟩ := down d
        have hvt : tenth ≤ v := by rcases hv0 with e | e <;> linarith
        by_contra hlt
        rw [not_le] at hlt
        have hv2 : v - tenth < tenth := by
          by_contra hc
          rw [not_lt] at hc
          have := rnd64_mono hc
          rw [ht, ← e] at this
          linarith
        have e' : v' = v - tenth := by rw [e]; exact rnd64_sterbenz ht hr t0 hvt (by linarith)
        have key : |rnd64 (q + -v')| < tenth := by
          have g := gap_tenth hq hr hqv hvt
          have h1 : rnd64 (q + -v') ≤ rnd64 (tenth - pow2 (-56)) := rnd64_mono (by linarith)
          have h2 : rnd64 (tenth - pow2 (-56)) < tenth := by decide +kernel
          have h3 : rnd64 (-v') ≤ rnd64 (q + -v') := rnd64_mono (by linarith)
          rw [rnd64_neg, hr'] at h3
          rw [abs_lt]
          constructor <;> linarith
        have hfin : Dbl.arith.sub (.fin q) (.fin v') = .fin (rnd64 (q + -v')) :=
          Dbl.ofRat_eq (key.le.trans (t1.trans (by rw [← pow2_zero]; exact pow2_le.2 (by norm_num))))
        rw [hfin] at hnl
        have : Dbl.lt (.fin |rnd64 (q + -v')|) (.fin tenth) = false := hnl
        simp [Dbl.lt] at this
        linarith
      · right
        conv_lhs => rw [← ht]
        apply rnd64_mono
        rcases hv0 with e | e <;> linarith
      · exact hv0
  · -- the step is at most 0.05
    right
    constructor
    · rcases hw with ⟨-, rfl⟩ | ⟨-, rfl⟩ <;>
      · conv_rhs => rw [← th]
        exact rnd64_mono (by linarith)
    · rcases hm with ⟨d, rfl⟩ | ⟨-, rfl⟩ | rfl
      · obtain ⟨q, -, q0, -, hqv⟩ := down d
        rw [← th']
        exact rnd64_mono (by linarith)
      · rw [← th']
        exact rnd64_mono (by linarith)
      · exact hvl

/-- **C28**, the part that holds on doubles: once the first observation is finite, StreamingMAD is never below -0.05, whatever
follows (infinities and NaN included). Missing: never below 0, which is false (`C28_violated`). -/
theorem C28_bound_partial (d : Mad Dbl) (hd : Mad.new Dbl.arith = .ok d) (x : ℚ) (xs : List Dbl) :
    ∃ v : ℚ, ((.fin x :: xs).foldl (Mad.update Dbl.arith) d).evaluate = .fin v ∧ -(tenth / 2) ≤ v := by
  suffices h : ((.fin x :: xs).foldl (Mad.update Dbl.arith) d).errorMedian.Low ∧
      ((.fin x :: xs).foldl (Mad.update Dbl.arith) d).errorMedian.Small xs.length by
    obtain ⟨⟨v, s, hv, -, -, -, hvs⟩, -⟩ := h
    have t0 : 0 < tenth := by decide +kernel
    refine ⟨v, hv, ?_⟩
    rcases hvs with ⟨-, e | e⟩ | ⟨-, e⟩ <;> linarith
  induction xs using List.reverseRecOn with
  | nil =>
    have e : d = ⟨⟨.fin 0, Dbl.arith.lit (1 / 10), .fin 0, 0⟩, ⟨.fin 0, Dbl.arith.lit (1 / 10), .fin 0, 0⟩, 0⟩ := by
      have : Mad.new Dbl.arith =
        .ok ⟨⟨.fin 0, Dbl.arith.lit (1 / 10), .fin 0, 0⟩, ⟨.fin 0, Dbl.arith.lit (1 / 10), .fin 0, 0⟩, 0⟩ := by decide +kernel
      rw [this] at hd
      injection hd with hd
      exact hd.symm
    rw [List.foldl_cons, List.foldl_nil, e]
    have h1 : (Fame.update Dbl.arith ⟨.fin 0, Dbl.arith.lit (1 / 10), .fin 0, 0⟩ (.fin x)).evaluate = .fin x :=
      (Fame.update_same Dbl.arith (Dbl.lt_irrefl _) (.inr rfl)).1
    have h2 : Dbl.arith.abs (Dbl.arith.sub (.fin x) (.fin x)) = .fin 0 := by
      show Dbl.abs (Dbl.ofRat (x + -x)) = _
      rw [add_neg_cancel]
      decide +kernel
    unfold Mad.update
    simp only [h1, h2]
    exact ⟨⟨0, tenth, by decide +kernel, by decide +kernel, by decide +kernel, by decide +kernel, .inl ⟨rfl, .inl rfl⟩⟩,
      ⟨by decide +kernel, by decide +kernel, ⟨0, by decide +kernel, by simp⟩, b64.lit (1 / 10), by decide +kernel,
      by decide +kernel, by decide +kernel⟩⟩
  | append_singleton xs y ih =>
    rw [List.length_append, List.length_singleton]
    rw [← List.cons_append, List.foldl_append, List.foldl_cons, List.foldl_nil]
    obtain ⟨i1, i2⟩ := ih
    refine ⟨i1.update i2 ?_, i2.update _⟩
    exact Dbl.Deviation.abs_sub _ _

/-- The bound is attained up to two units in the last place: the witness of `C28_violated` gives -0.04999999999999999, and
-0.05 is -3602879701896397 / 2^56. -/
example : (∃ d, Mad.new Dbl.arith = .ok d ∧ ((([0, 1, 1, -10, 0, 0, 0, 0] : List ℚ).map Dbl.fin).foldl (Mad.update Dbl.arith) d).evaluate =
      .fin (-3602879701896395 / 72057594037927936)) ∧ tenth / 2 = 3602879701896397 / 72057594037927936 :=
  ⟨⟨⟨⟨.fin 0, Dbl.arith.lit (1 / 10), .fin 0, 0⟩, ⟨.fin 0, Dbl.arith.lit (1 / 10), .fin 0, 0⟩, 0⟩, by decide +kernel, by decide +kernel⟩,
   by decide +kernel⟩

end KML
