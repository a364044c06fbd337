import Verif.Props.P2

/-!
# C35, continued: what an early `evaluate` does

Before the fifth observation `evaluate` sorts the observations together with the zeros that fill
the vector. Later observations then overwrite the largest entries, whatever they are. So from five
observations on the object is as if the largest observations had been replaced by zeros
(`C35_early_partial`); this changes nothing if all of them are at most 0 (`C35_nonpositive_partial`)
and is visible otherwise (`C35_exact_partial`).
-/

namespace KML

open Spec

namespace P2

section Any

variable {F : Type} {A : Arith F}

/-- The same object but for the entries that the next observations will overwrite. -/
structure Agree (p p' : P2 F) : Prop where
  quantile : p.quantile = p'.quantile
  desired : p.desired = p'.desired
  pos : p.pos = p'.pos
  count : p.historyCount = p'.historyCount
  early : p.historyCount < 5
  kept : p.heights.toList.take p.historyCount = p'.heights.toList.take p.historyCount

theorem toList_inj {α : Type} {v w : Five α} (h : v.toList = w.toList) : v = w := by
  obtain ⟨a, b, c, d, e⟩ := v
  obtain ⟨a', b', c', d', e'⟩ := w
  simpa [Five.toList] using h

theorem take_set {α : Type} {l m : List α} (n : ℕ) (x : α) (hl : n < l.length) (hm : n < m.length)
    (h : l.take n = m.take n) : (l.set n x).take (n + 1) = (m.set n x).take (n + 1) := by
  rw [List.take_add_one, List.take_add_one, List.take_set_of_le (le_refl n),
    List.take_set_of_le (le_refl n), h]
  simp [hl, hm]

theorem Agree.update {p p' : P2 F} (h : Agree p p') (x : F) :
    ∃ s s', p.update A x = .ok s ∧ p'.update A x = .ok s' ∧
      ((p.historyCount < 4 ∧ Agree s s' ∧ s.historyCount = p.historyCount + 1) ∨
        (p.historyCount = 4 ∧ s = s' ∧ s.historyCount = 5)) := by
  obtain ⟨h1, h2, h3, h4, h5, h6⟩ := h
  obtain ⟨q, des, pos, hts, n⟩ := p
  obtain ⟨q', des', pos', hts', n'⟩ := p'
  simp only at h1 h2 h3 h4 h5 h6
  subst h1 h2 h3 h4
  have l1 : hts.toList.length = 5 := rfl
  have l2 : hts'.toList.length = 5 := rfl
  have hk := take_set n x (by omega) (by omega) h6
  have e1 : (hts.ofList (hts.toList.set n x)).toList = hts.toList.set n x :=
    Five.toList_ofList hts (by simp [l1])
  have e2 : (hts'.ofList (hts'.toList.set n x)).toList = hts'.toList.set n x :=
    Five.toList_ofList hts' (by simp [l2])
  refine ⟨_, _, by rw [P2.update, if_pos h5], by rw [P2.update, if_pos h5], ?_⟩
  by_cases hn : n = 4
  · right
    subst hn
    have : hts.ofList (hts.toList.set 4 x) = hts'.ofList (hts'.toList.set 4 x) := by
      apply toList_inj
      rw [e1, e2]
      have t1 : (hts.toList.set 4 x).take 5 = hts.toList.set 4 x := List.take_of_length_le (by simp [l1])
      have t2 : (hts'.toList.set 4 x).take 5 = hts'.toList.set 4 x := List.take_of_length_le (by simp [l2])
      rw [← t1, ← t2]; exact hk
    refine ⟨rfl, ?_, ?_⟩
    · simp only [updateFirst, this]
    · simp [updateFirst]
  · left
    have hn5 : ¬ n + 1 = 5 := by omega
    refine ⟨by simp only; omega, ⟨?_, ?_, ?_, ?_, ?_, ?_⟩, ?_⟩ <;>
      simp only [updateFirst, if_neg hn5]
    · omega
    · rw [e1, e2]; exact hk

/-- Enough further observations and the difference is gone. -/
theorem Agree.updateAll {p p' : P2 F} (h : Agree p p') (ys : List F)
    (h5 : 5 ≤ p.historyCount + ys.length) :
    KML.updateAll (P2.update A) p ys = KML.updateAll (P2.update A) p' ys := by
  induction ys generalizing p p' with
  | nil => have := h.early; simp at h5; omega
  | cons y ys ih =>
    obtain ⟨s, s', e1, e2, h⟩ := h.update (A := A) y
    simp only [List.length_cons] at h5
    simp only [KML.updateAll]
    rw [e1, e2]
    rcases h with ⟨_, h, hc⟩ | ⟨_, h, _⟩
    · exact ih h (by omega)
    · rw [h]

/-- Fewer than five observations are written into the vector, and nothing else happens. -/
theorem updateAll_early (xs : List F) : ∀ (p : P2 F), p.historyCount + xs.length < 5 →
    ∃ h, KML.updateAll (P2.update A) p xs =
        .ok { p with heights := h, historyCount := p.historyCount + xs.length } ∧
      h.toList.take (p.historyCount + xs.length) = p.heights.toList.take p.historyCount ++ xs ∧
      h.toList.drop (p.historyCount + xs.length) =
        p.heights.toList.drop (p.historyCount + xs.length) := by
  induction xs with
  | nil => intro p _; exact ⟨p.heights, rfl, by simp, rfl⟩
  | cons x xs ih =>
    intro p hn
    simp only [List.length_cons] at hn
    have l1 : p.heights.toList.length = 5 := rfl
    have e1 : (p.heights.ofList (p.heights.toList.set p.historyCount x)).toList =
        p.heights.toList.set p.historyCount x := Five.toList_ofList _ (by simp [l1])
    have hu : p.update A x = .ok { p with
        heights := p.heights.ofList (p.heights.toList.set p.historyCount x),
        historyCount := p.historyCount + 1 } := by
      rw [P2.update, if_pos (by omega), updateFirst]
      simp only [if_neg (show ¬ p.historyCount + 1 = 5 by omega)]
    obtain ⟨h, h1, h2, h3⟩ := ih { p with
        heights := p.heights.ofList (p.heights.toList.set p.historyCount x),
        historyCount := p.historyCount + 1 } (by simp only; omega)
    simp only [e1] at h1 h2 h3
    refine ⟨h, ?_, ?_, ?_⟩
    · simp only [KML.updateAll]
      rw [hu, Res.ok_bind, h1, List.length_cons]
      congr 2
      omega
    · rw [List.length_cons, show p.historyCount + (xs.length + 1) = p.historyCount + 1 + xs.length by omega,
        h2, List.take_add_one, List.take_set_of_le (le_refl _)]
      simp [l1, show p.historyCount < 5 by omega]
    · rw [List.length_cons, show p.historyCount + (xs.length + 1) = p.historyCount + 1 + xs.length by omega,
        h3, List.drop_set_of_lt (by omega)]

end Any

end P2

section Round

variable {K : Type} [Field K] [LinearOrder K] [IsStrictOrderedRing K] [FloorRing K]

/-- What is left of the observations `xs` when `evaluate` is called after them: the smallest ones among
them and the zeros that fill the vector of five, as many as there were observations. -/
def Spec.afterEarlyEvaluate (xs : List K) : List K :=
  ((xs ++ List.replicate (5 - xs.length) 0).insertionSort (· ≤ ·)).take xs.length

theorem sortList_eq_insertionSort (R : Rounding K) (l : List K) :
    sortList R.arith l = l.insertionSort (· ≤ ·) :=
  ((sortList_perm R.arith l).trans (List.perm_insertionSort _ l).symm).eq_of_pairwise
    (fun _ _ _ _ h1 h2 => le_antisymm h1 h2) (sortList_sorted R.arith (P2.lt_decide R) l)
    (List.pairwise_insertionSort _ _)

theorem P2.new_heights {R : Rounding K} {q : K} {p : P2 K} (hp : P2.new R.arith q = .ok p) :
    p.heights.toList = List.replicate 5 0 ∧ p.historyCount = 0 := by
  rw [P2.new_eq_ok hp]
  simp [Five.toList, Rounding.arith, R.rnd_zero, List.replicate]

/-- **C35**, what an early `evaluate` does (any rounding). Let `evaluate` be called after `xs`, fewer than
five observations. From the fifth observation on the object is the one that was given
`afterEarlyEvaluate xs` instead of `xs`. -/
theorem C35_early_partial (R : Rounding K) (q : K) (p : P2 K) (hp : P2.new R.arith q = .ok p)
    (xs ys : List K) (hk : xs.length < 5) (h5 : 5 ≤ xs.length + ys.length) :
    ∃ p1 v p2, updateAll (P2.update R.arith) p xs = .ok p1 ∧ p1.evaluate R.arith = .ok (v, p2) ∧
      updateAll (P2.update R.arith) p2 ys =
        updateAll (P2.update R.arith) p (Spec.afterEarlyEvaluate xs ++ ys) := by
  obtain ⟨q0, q1⟩ := (P2.new_ok_iff R q).1 ⟨p, hp⟩
  have hpq : p.quantile = q := by rw [P2.new_eq_ok hp]
  obtain ⟨hz, hc⟩ := P2.new_heights hp
  obtain ⟨h1, e1, t1, d1⟩ := P2.updateAll_early (A := R.arith) xs p (by omega)
  rw [hc, Nat.zero_add] at e1 t1 d1
  rw [hz] at d1
  rw [List.take_zero, List.nil_append] at t1
  have hl : h1.toList = xs ++ List.replicate (5 - xs.length) 0 := by
    rw [← List.take_append_drop xs.length h1.toList, t1, d1, List.drop_replicate]
  obtain ⟨v, p2, e2, -, e3, e4, -⟩ := P2.evaluate_spec (R := R)
    (p := { p with heights := h1, historyCount := xs.length }) (by simpa [hpq]) (by simpa [hpq])
  have e3 : p2.heights = h1.sort R.arith := by
    rcases e3 with h | h
    · exact h
    · simp only at h; omega
  refine ⟨_, v, p2, e1, e2, ?_⟩
  have hlen : (Spec.afterEarlyEvaluate xs).length = xs.length := by
    unfold Spec.afterEarlyEvaluate
    rw [List.length_take, List.length_insertionSort]
    simp
  obtain ⟨h3, e5, t3, d3⟩ := P2.updateAll_early (A := R.arith) (Spec.afterEarlyEvaluate xs) p (by omega)
  rw [hc, Nat.zero_add, hlen] at e5 t3 d3
  rw [List.take_zero, List.nil_append] at t3
  rw [updateAll_append, e5, Res.ok_bind]
  refine P2.Agree.updateAll ⟨?_, ?_, ?_, ?_, ?_, ?_⟩ ys ?_
  · rw [e4]
  · rw [e4]
  · rw [e4]
  · rw [e4]
  · rw [e4]; exact hk
  · rw [e4, e3]
    simp only
    rw [t3, Five.sort_toList, hl, sortList_eq_insertionSort]
    rfl
  · rw [e4]; exact h5

/-- Evaluating after 7, -2, 5, 6: three entries are positive, one zero takes part, so the 7 is lost. -/
example : Spec.afterEarlyEvaluate [(7 : ℚ), -2, 5, 6] = [-2, 0, 5, 6] := by decide +kernel

/-- **C35**, non-positive data (any rounding): if only observations at most 0 have been made whenever
`evaluate` is called before the fifth, `evaluate` calls change no later result. -/
theorem C35_nonpositive_partial (R : Rounding K) (q : K) (p : P2 K) (hp : P2.new R.arith q = .ok p)
    (ops : List (QOp K)) (hc : QOp.clear ∉ ops) (hx : ∀ x ∈ QOp.observations ops, R.rnd x = x)
    (h0 : ∀ a b, ops = a ++ .evaluate :: b → (QOp.observations a).length < 5 →
      ∀ x ∈ QOp.observations a, x ≤ 0) :
    P2.finalValue R.arith p ops = P2.finalValue R.arith p (ops.filter (· ≠ .evaluate)) := by
  -- `p` has been evaluated, `p'` has not
  have key : ∀ (ops : List (QOp K)) (seen : List K) (p p' : P2 K), QOp.clear ∉ ops →
      (∀ x ∈ QOp.observations ops, R.rnd x = x) →
      (∀ a b, ops = a ++ .evaluate :: b → (seen ++ QOp.observations a).length < 5 →
        ∀ x ∈ seen ++ QOp.observations a, x ≤ 0) →
      P2.Since R ⟨0, 0, 0, 0, 0⟩ seen p' →
      (p = p' ∨ (seen.length < 5 ∧ ∃ l h, l.Perm seen ∧ p = { p' with heights := h } ∧
        h.toList = l ++ List.replicate (5 - seen.length) 0)) →
      P2.finalValue R.arith p ops = P2.finalValue R.arith p' (ops.filter (· ≠ .evaluate)) := by
    intro ops
    induction ops with
    | nil =>
      intro seen p p' _ _ _ hs hrel
      rcases hrel with h | ⟨hk, l, h, hl, rfl, hh⟩
      · rw [h]; rfl
      · simp only [P2.finalValue, P2.run, List.filter_nil, Res.ok_bind]
        obtain ⟨v, s, a1, -, -, -, a2⟩ := P2.evaluate_spec (R := R) hs.q0 hs.q1
        obtain ⟨w, t, b1, -, -, -, b2⟩ := P2.evaluate_spec (R := R)
          (p := { p' with heights := h }) hs.q0 hs.q1
        have hn : p'.historyCount ≤ 5 := by rw [hs.count]; omega
        have a2 := a2 hn
        have b2 := b2 hn
        have hsort : (h.sort R.arith).toList = (p'.heights.sort R.arith).toList := by
          rw [Five.sort_toList, Five.sort_toList]
          apply sortList_eq_of_perm R.arith (P2.lt_decide R)
          have : (Five.toList (⟨0, 0, 0, 0, 0⟩ : Five K)) = List.replicate 5 0 := rfl
          rw [hh, hs.early hk, this, List.drop_replicate]
          exact hl.append_right _
        have hi : P2.evalIndex R.arith { p' with heights := h } = P2.evalIndex R.arith p' := rfl
        rw [hi, hsort, a2] at b2
        rw [a1, b1]
        simp only [Res.ok_bind]
        rw [Option.some.inj b2]
    | cons o ops ih =>
      intro seen p p' hc hx h0 hs hrel
      have hc' : QOp.clear ∉ ops := fun hm => hc (by simp [hm])
      cases o with
      | clear => simp at hc
      | update x =>
        simp only [QOp.observations, List.mem_cons] at hx
        rw [List.filter_cons_of_pos (by simp)]
        simp only [P2.finalValue, P2.run, P2.step, Res.bind_assoc, Res.ok_bind]
        have h0' : ∀ a b, ops = a ++ .evaluate :: b → (seen ++ [x] ++ QOp.observations a).length < 5 →
            ∀ y ∈ seen ++ [x] ++ QOp.observations a, y ≤ 0 := by
          intro a b hab hl
          have := h0 (.update x :: a) b (by rw [hab]; rfl) (by simpa [QOp.observations] using hl)
          simpa [QOp.observations] using this
        rcases hrel with rfl | ⟨hk, l, h, hl, rfl, hh⟩
        · rcases hu : P2.update R.arith p x with p2 | m | u
          · have := ih (seen ++ [x]) p2 p2 hc' (fun y hy => hx y (Or.inr hy)) h0'
              (hs.update (hx x (Or.inl rfl)) hu) (Or.inl rfl)
            simpa [P2.finalValue, Res.bind_assoc] using this
          · rfl
          · rfl
        · -- fewer than five observations: both are defined
          have hu' : ∃ s', p'.update R.arith x = .ok s' := by
            rw [P2.update, if_pos (by rw [hs.count]; exact hk)]; exact ⟨_, rfl⟩
          obtain ⟨s', hu'⟩ := hu'
          have hs' := hs.update (hx x (Or.inl rfl)) hu'
          have hll : l.length = seen.length := hl.length_eq
          have e1 : (h.ofList (h.toList.set seen.length x)).toList = h.toList.set seen.length x :=
            Five.toList_ofList _ (by simp [hh, hll]; omega)
          have e2 : h.toList.set seen.length x =
              (l ++ [x]) ++ List.replicate (5 - (seen.length + 1)) 0 := by
            rw [hh, ← hll, List.set_append_right _ _ le_rfl, Nat.sub_self,
              show 5 - l.length = (5 - (l.length + 1)) + 1 by omega, List.replicate_succ]
            simp
          obtain ⟨s, hu, hrel'⟩ : ∃ s, P2.update R.arith { p' with heights := h } x = .ok s ∧
              (s = s' ∨ ((seen ++ [x]).length < 5 ∧ ∃ l h, l.Perm (seen ++ [x]) ∧
                s = { s' with heights := h } ∧
                h.toList = l ++ List.replicate (5 - (seen ++ [x]).length) 0)) := by
            rw [P2.update, if_pos (by rw [hs.count]; exact hk)] at hu'
            simp only [Res.ok.injEq] at hu'
            refine ⟨_, by rw [P2.update, if_pos (by simp only; rw [hs.count]; exact hk)], ?_⟩
            by_cases h4 : seen.length = 4
            · left
              rw [← hu', P2.updateFirst, P2.updateFirst]
              simp only [hs.count, h4, if_true]
              have : Five.sort R.arith (h.ofList (h.toList.set 4 x)) =
                  Five.sort R.arith (p'.heights.ofList (p'.heights.toList.set 4 x)) := by
                apply P2.toList_inj
                rw [Five.sort_toList, Five.sort_toList]
                apply sortList_eq_of_perm R.arith (P2.lt_decide R)
                have e3 : (p'.heights.ofList (p'.heights.toList.set 4 x)).toList =
                    p'.heights.toList.set 4 x := Five.toList_ofList _ (by simp [Five.toList])
                rw [h4] at e1 e2
                rw [e1, e2, e3, hs.early hk, ← h4, P2.set_append_drop _ _ _ (by simp [Five.toList]; omega)]
                rw [h4]
                simp only [Five.toList, List.drop, List.append_nil]
                simpa using hl.append_right [x]
              rw [this]
            · right
              have h5 : ¬ seen.length + 1 = 5 := by omega
              refine ⟨by simp; omega, l ++ [x], h.ofList (h.toList.set seen.length x),
                hl.append_right _, ?_, ?_⟩
              · rw [← hu', P2.updateFirst, P2.updateFirst]
                simp only [hs.count, if_neg h5]
              · rw [e1, e2]; simp
          rw [hu, hu']
          have := ih (seen ++ [x]) s s' hc' (fun y hy => hx y (Or.inr hy)) h0' hs' hrel'
          simpa [P2.finalValue, Res.bind_assoc] using this
      | evaluate =>
        simp only [QOp.observations] at hx
        have h0' : ∀ a b, ops = a ++ .evaluate :: b → (seen ++ QOp.observations a).length < 5 →
            ∀ y ∈ seen ++ QOp.observations a, y ≤ 0 := by
          intro a b hab hl
          have := h0 (.evaluate :: a) b (by rw [hab]; rfl) (by simpa [QOp.observations] using hl)
          simpa [QOp.observations] using this
        rw [List.filter_cons_of_neg (by simp)]
        simp only [P2.finalValue, P2.run, P2.step, Res.bind_assoc, Res.ok_bind]
        by_cases hk : seen.length < 5
        · -- sorting the observations leaves the zeros where they are
          have hrel' : ∃ l h, l.Perm seen ∧ p = { p' with heights := h } ∧
              h.toList = l ++ List.replicate (5 - seen.length) 0 := by
            rcases hrel with rfl | ⟨_, h⟩
            · refine ⟨seen, p.heights, List.Perm.refl _, rfl, ?_⟩
              rw [hs.early hk]
              have : (Five.toList (⟨0, 0, 0, 0, 0⟩ : Five K)) = List.replicate 5 0 := rfl
              rw [this, List.drop_replicate]
            · exact h
          obtain ⟨l, h, hl, rfl, hh⟩ := hrel'
          obtain ⟨v, s, a1, -, a3, a4, -⟩ := P2.evaluate_spec (R := R)
            (p := { p' with heights := h }) hs.q0 hs.q1
          have a3 : s.heights = h.sort R.arith := by
            rcases a3 with h | h
            · exact h
            · have := h.1; simp only [hs.count] at this; omega
          rw [a1]
          simp only [Res.ok_bind]
          have h0l : ∀ y ∈ l, y ≤ 0 := by
            intro y hy
            have := h0 [] ops rfl (by simpa [QOp.observations] using hk)
            simp only [QOp.observations, List.append_nil] at this
            exact this y (hl.mem_iff.mp hy)
          have hsort : sortList R.arith (l ++ List.replicate (5 - seen.length) 0) =
              sortList R.arith l ++ List.replicate (5 - seen.length) 0 := by
            rw [sortList_eq_of_perm R.arith (P2.lt_decide R)
              (((sortList_perm R.arith l).symm).append_right (List.replicate (5 - seen.length) 0))]
            apply sortList_of_sorted R.arith (P2.lt_decide R)
            rw [List.pairwise_append]
            refine ⟨sortList_sorted R.arith (P2.lt_decide R) l, ?_, ?_⟩
            · simp [List.pairwise_replicate]
            · intro a ha b hb
              rw [List.eq_of_mem_replicate hb]
              exact h0l a ((sortList_perm R.arith l).mem_iff.mp ha)
          have := ih seen s p' hc' hx h0' hs (Or.inr ⟨hk, sortList R.arith l, s.heights,
            (sortList_perm R.arith l).trans hl, by rw [a4], by
              rw [a3, Five.sort_toList, hh, hsort]⟩)
          simpa [P2.finalValue, Res.bind_assoc] using this
        · rcases hrel with rfl | ⟨h, _⟩
          · obtain ⟨v, hv, -⟩ := hs.evaluate (by omega)
            rw [hv]
            have := ih seen p p hc' hx h0' hs (Or.inl rfl)
            simpa [P2.finalValue, Res.bind_assoc] using this
          · omega
  have hs := P2.Since.start (P2.Hull.new hp le_rfl le_rfl) (P2.new_heights hp).2
  have hz : p.heights = ⟨0, 0, 0, 0, 0⟩ := P2.toList_inj (by rw [(P2.new_heights hp).1]; rfl)
  rw [hz] at hs
  exact key ops [] p p hc hx (by simpa using h0) hs (Or.inl rfl)

/-- Early evaluations of non-positive data, and what they return. -/
example : P2.run (exact ℚ) (P2.blank (1 / 4))
    [.update (-1), .evaluate, .update (-5), .evaluate, .update 0, .update (-2), .evaluate, .update 9] =
      .ok ([-1, -5, -2], ⟨1 / 4, ⟨0, 1 / 2, 1, 5 / 2, 4⟩, ⟨0, 1, 2, 3, 4⟩, ⟨-5, -2, -1, 0, 9⟩, 5⟩) := by
  decide +kernel

omit [Field K] [IsStrictOrderedRing K] [FloorRing K] in
/-- In a sorted list the elements at most `c` come first. -/
theorem sorted_le_of_lt_count {l : List K} (c : K) (hl : l.Pairwise (· ≤ ·)) :
    ∀ x ∈ l.take (l.filter (· ≤ c)).length, x ≤ c := by
  induction l with
  | nil => simp
  | cons a l ih =>
    rw [List.pairwise_cons] at hl
    by_cases ha : a ≤ c
    · rw [List.filter_cons_of_pos (by simpa using ha), List.length_cons, List.take_succ_cons]
      intro x hx
      rcases List.mem_cons.mp hx with h | h
      · rw [h]; exact ha
      · exact ih hl.2 x h
    · have : (a :: l).filter (· ≤ c) = [] := by
        rw [List.filter_eq_nil_iff]
        intro x hx
        rcases List.mem_cons.mp hx with h | h
        · rw [h]; simpa using ha
        · have := hl.1 x h
          simp only [decide_eq_true_eq, not_le]
          exact lt_of_lt_of_le (not_le.mp ha) this
      rw [this]
      simp

/-- **C35**, exactly when an early `evaluate` is harmless (exact arithmetic): for fewer than five
observations `xs`, calling `evaluate` after them changes no result for any quantile and any further
observations exactly if none of them is positive. -/
theorem C35_exact_partial (xs : List K) (hk : xs.length < 5) :
    (∀ (q : K) (p : P2 K), P2.new (exact K) q = .ok p → ∀ ys : List K,
      P2.finalValue (exact K) p (xs.map .update ++ .evaluate :: ys.map .update) =
        P2.finalValue (exact K) p ((xs ++ ys).map .update)) ↔ ∀ x ∈ xs, x ≤ 0 := by
  have hobs : ∀ l : List K, QOp.observations (l.map QOp.update) = l := by
    intro l
    induction l with
    | nil => rfl
    | cons a l ih => simp [QOp.observations, ih]
  constructor
  · intro H
    by_contra hpos
    push Not at hpos
    obtain ⟨x0, hx0, hx0p⟩ := hpos
    -- a bound above all observations
    obtain ⟨M, hM⟩ : ∃ M, ∀ x ∈ xs, x ≤ M := by
      clear H hk hx0
      induction xs with
      | nil => exact ⟨0, by simp⟩
      | cons a l ih =>
        obtain ⟨M, hM⟩ := ih
        refine ⟨max a M, fun x hx => ?_⟩
        rcases List.mem_cons.mp hx with h | h
        · rw [h]; exact le_max_left _ _
        · exact (hM x h).trans (le_max_right _ _)
    have hMp : 0 < M := lt_of_lt_of_le hx0p (hM x0 hx0)
    obtain ⟨j, hj⟩ : ∃ j, j = (xs.filter (· ≤ 0)).length := ⟨_, rfl⟩
    have hjk : j < xs.length := by
      rw [hj]
      apply lt_of_le_of_ne (List.length_filter_le _ _)
      intro h
      have := List.length_filter_eq_length_iff.mp h x0 hx0
      simp only [decide_eq_true_eq] at this
      exact absurd hx0p (not_lt.mpr this)
    -- a level of rank `j`
    obtain ⟨q, q0, q1, hq⟩ : ∃ q : K, 0 < q ∧ q < 1 ∧ ⌊4 * q + 1 / 2⌋.toNat = j := by
      rcases Nat.eq_zero_or_pos j with h | h
      · refine ⟨1 / 10, by norm_num, by norm_num, ?_⟩
        rw [h]
        have : ⌊4 * (1 / 10 : K) + 1 / 2⌋ = 0 := by
          rw [Int.floor_eq_iff]; norm_num
        rw [this]; rfl
      · have hj3 : (j : K) ≤ 3 := by
          have : j ≤ 3 := by omega
          exact_mod_cast this
        have hj0 : (0 : K) < j := by exact_mod_cast h
        refine ⟨j / 4, by linarith, by linarith, ?_⟩
        have : ⌊4 * ((j : K) / 4) + 1 / 2⌋ = (j : ℤ) := by
          rw [Int.floor_eq_iff]
          push_cast
          constructor <;> linarith
        rw [this]; simp
    obtain ⟨p, hp⟩ := (P2.new_ok_iff (Rounding.none (K := K)) q).2 ⟨q0, q1⟩
    obtain ⟨ys, hys⟩ : ∃ ys, ys = List.replicate (5 - xs.length) M := ⟨_, rfl⟩
    have hlys : xs.length + ys.length = 5 := by rw [hys]; simp; omega
    -- without `evaluate`
    obtain ⟨s1, v1, a1, a2, a3⟩ := C31_five (Rounding.none (K := K)) q rfl p hp (xs ++ ys)
      (by simp [hlys]) (fun _ _ => rfl)
    -- with `evaluate`
    obtain ⟨p1, v, p2, b1, b2, b3⟩ := C35_early_partial (Rounding.none (K := K)) q p hp xs ys hk
      (by omega)
    have hlen : (Spec.afterEarlyEvaluate xs).length = xs.length := by
      unfold Spec.afterEarlyEvaluate
      rw [List.length_take, List.length_insertionSort]
      simp
    obtain ⟨s2, v2, c1, c2, c3⟩ := C31_five (Rounding.none (K := K)) q rfl p hp
      (Spec.afterEarlyEvaluate xs ++ ys) (by simp [hlen, hlys]) (fun _ _ => rfl)
    have h := H q p hp ys
    have e1 : P2.finalValue (exact K) p ((xs ++ ys).map .update) = .ok v1 := by
      have := P2.run_updates (exact K) p (xs ++ ys) []
      rw [List.append_nil] at this
      unfold P2.finalValue
      rw [this]
      erw [a1]
      simp only [Res.ok_bind, P2.run]
      erw [a2]
      rfl
    have e2 : P2.finalValue (exact K) p (xs.map .update ++ .evaluate :: ys.map .update) = .ok v2 := by
      unfold P2.finalValue
      rw [P2.run_updates]
      erw [b1]
      simp only [Res.ok_bind, P2.run, P2.step, Res.bind_assoc]
      erw [b2]
      simp only [Res.ok_bind]
      have := P2.run_updates (exact K) p2 ys []
      rw [List.append_nil] at this
      rw [this]
      erw [b3, c1]
      simp only [Res.ok_bind, P2.run]
      erw [c2]
      rfl
    rw [e1, e2] at h
    simp only [Res.ok.injEq] at h
    rw [hq] at a3 c3
    -- the first value is positive
    have hv1 : 0 < v1 := by
      by_contra hle
      push Not at hle
      have : ((xs ++ ys).filter (· ≤ v1)).length ≤ ((xs ++ ys).filter (· ≤ 0)).length := by
        apply List.Sublist.length_le
        apply List.monotone_filter_right
        intro a ha
        simp only [decide_eq_true_eq] at *
        exact ha.trans hle
      have h2 : ys.filter (· ≤ 0) = [] := by
        rw [List.filter_eq_nil_iff]
        intro y hy
        rw [hys] at hy
        rw [List.eq_of_mem_replicate hy]
        simpa using hMp
      rw [List.filter_append (p := fun x => decide (x ≤ 0)), h2, List.append_nil, ← hj] at this
      have := a3.2.2
      omega
    -- the second is not
    have hv2 : v2 ≤ 0 := by
      by_contra hgt
      push Not at hgt
      obtain ⟨L, hL⟩ : ∃ L, L = (xs ++ List.replicate (5 - xs.length) (0 : K)).insertionSort (· ≤ ·) :=
        ⟨_, rfl⟩
      have hLs : L.Pairwise (· ≤ ·) := by rw [hL]; exact List.pairwise_insertionSort _ _
      have hLc : (L.filter (· ≤ 0)).length = j + (5 - xs.length) := by
        have hperm : L.Perm (xs ++ List.replicate (5 - xs.length) (0 : K)) := by
          rw [hL]; exact List.perm_insertionSort _ _
        rw [(hperm.filter _).length_eq, List.filter_append, List.length_append, ← hj]
        congr 1
        rw [List.filter_eq_self.mpr]
        · simp
        · intro a ha
          rw [List.eq_of_mem_replicate ha]; simp
      have hLl : L.length = 5 := by rw [hL, List.length_insertionSort]; simp; omega
      have hall := sorted_le_of_lt_count 0 hLs
      rw [hLc] at hall
      have hsub : (L.take (j + 1)).Sublist ((Spec.afterEarlyEvaluate xs ++ ys).filter (· < v2)) := by
        have h1 : (L.take (j + 1)).filter (· < v2) = L.take (j + 1) := by
          rw [List.filter_eq_self]
          intro a ha
          have : a ≤ 0 := hall a ((List.take_subset_take_left L (by omega)) ha)
          simpa using lt_of_le_of_lt this hgt
        rw [← h1]
        apply List.Sublist.filter
        apply List.Sublist.trans _ (List.sublist_append_left _ _)
        unfold Spec.afterEarlyEvaluate
        rw [← hL]
        exact List.take_sublist_take_left (by omega)
      have := hsub.length_le
      rw [List.length_take, hLl] at this
      have := c3.2.1
      omega
    rw [← h] at hv1
    exact absurd hv1 (not_lt.mpr hv2)
  · intro h0 q p hp ys
    have h := C35_nonpositive_partial (Rounding.none (K := K)) q p hp
      (xs.map .update ++ .evaluate :: ys.map .update) (by simp) (fun _ _ => rfl) (by
        -- there is only one `evaluate`
        intro a b hab h5
        have ha : a = xs.map .update := by
          clear hk h0 hp h5
          induction xs generalizing a with
          | nil =>
            cases a with
            | nil => rfl
            | cons o a =>
              simp only [List.map_nil, List.nil_append, List.cons_append, List.cons.injEq] at hab
              have : QOp.evaluate ∈ ys.map QOp.update := by rw [hab.2]; simp
              simp at this
          | cons x xs ih =>
            cases a with
            | nil => simp at hab
            | cons o a =>
              simp only [List.map_cons, List.cons_append, List.cons.injEq] at hab ⊢
              exact ⟨hab.1.symm, ih a hab.2⟩
        rw [ha, hobs]
        exact h0)
    have hf : ∀ l : List K, (l.map QOp.update).filter (· ≠ .evaluate) = l.map QOp.update := by
      intro l
      rw [List.filter_eq_self]
      simp
    rw [List.filter_append, List.filter_cons_of_neg (by simp), hf, hf, ← List.map_append] at h
    exact h

/-- Both sides occur: `evaluate()` after -1, 0 changes nothing later; after 1 it does. -/
example : (∀ x ∈ ([-1, 0] : List ℚ), x ≤ 0) ∧ ¬ ∀ x ∈ ([1] : List ℚ), x ≤ 0 := by decide +kernel

end Round
end KML
