import Verif.Lemmas.P2

/-! `StreamingP2Quantile` since its construction or its last `clear`. -/

set_option linter.unusedSectionVars false

namespace KML

open Spec

namespace P2

section Any

variable {F : Type} {A : Arith F}

/-- From a state with no observations, `update` succeeds while the last marker fits an `int`. -/
theorem updateAll_ok_iff (hA : Sane A) {p : P2 F} (hp : PosInc p.pos) (h0 : p.historyCount = 0)
    (xs : List F) :
    (∃ p', updateAll (update A) p xs = .ok p' ∧ PosInc p'.pos ∧ p'.historyCount = xs.length ∧
      p'.quantile = p.quantile ∧ p'.pos.x4 = p.pos.x4 + (xs.length - 5 : ℕ) ∧
      (p'.pos.x4 ≤ intMax ∨ xs.length ≤ 5) ∧ (xs.length ≤ 5 → p'.pos = p.pos)) ∨
    (updateAll (update A) p xs = .ub .intOverflow ∧ intMax < p.pos.x4 + (xs.length - 5 : ℕ) ∧ 5 < xs.length) := by
  induction xs using List.reverseRecOn with
  | nil => exact Or.inl ⟨p, rfl, hp, by simpa using h0, rfl, by simp, by simp, fun _ => rfl⟩
  | append_singleton xs x ih =>
    rw [updateAll_snoc, List.length_append, List.length_singleton]
    rcases ih with ⟨p', h1, h2, h3, h4, h5, h6, h7⟩ | ⟨h1, h2, h3⟩
    · rw [h1, Res.ok_bind, update_eq h2]
      by_cases hn : p'.historyCount < 5
      · rw [if_pos hn]
        obtain ⟨f1, f2, f3⟩ := updateFirst_frame (A := A) p' x
        refine Or.inl ⟨updateFirst A p' x, rfl, by rw [f3]; exact h2, by rw [f1, h3], by rw [f2, h4], ?_,
          Or.inr (by omega), fun _ => by rw [f3]; exact h7 (by omega)⟩
        rw [f3, h5, show xs.length - 5 = 0 by omega, show xs.length + 1 - 5 = 0 by omega]
      · rw [if_neg hn]
        split
        · right; exact ⟨rfl, by omega, by omega⟩
        · rename_i hx
          obtain ⟨f1, f2, f3, -, -⟩ := updateLater_frame (A := A) p' x
          refine Or.inl ⟨updateLater A p' x, rfl, updateLater_posInc hA h2 x, by rw [f1, h3], by rw [f2, h4], ?_,
            Or.inl (by omega), fun h => by omega⟩
          rw [f3, h5]; omega
    · rw [h1]; right; exact ⟨rfl, by omega, by omega⟩

end Any

section Round

variable {K : Type} [Field K] [LinearOrder K] [IsStrictOrderedRing K] [FloorRing K] {R : Rounding K}

/-- The estimator after the observations `seen`, starting from no observations and heights `stale`. -/
structure Since (R : Rounding K) (stale : Five K) (seen : List K) (p : P2 K) : Prop where
  q0 : 0 < p.quantile
  q1 : p.quantile < 1
  pos : PosInc p.pos
  rep : Rep R p.heights
  count : p.historyCount = seen.length
  early : seen.length < 5 → p.heights.toList = seen ++ stale.toList.drop seen.length
  five : seen.length = 5 → p.heights.toList = sortList R.arith seen
  late : 5 ≤ seen.length → p.heights.Sorted ∧ IsMin seen p.heights.x0 ∧ IsMax seen p.heights.x4

theorem Since.start {p : P2 K} {lo hi : K} (h : Hull R lo hi p) (h0 : p.historyCount = 0) :
    Since R p.heights [] p :=
  ⟨h.q0, h.q1, h.pos, h.rep, by simpa using h0, by simp, by simp, by simp⟩

theorem set_append_drop {α : Type} (l s : List α) (x : α) (h : l.length < s.length) :
    (l ++ s.drop l.length).set l.length x = (l ++ [x]) ++ s.drop (l.length + 1) := by
  rw [List.drop_eq_getElem_cons h, List.set_append_right _ _ le_rfl]
  simp only [Nat.sub_self, List.set_cons_zero, List.append_assoc, List.singleton_append]

theorem Since.update {stale : Five K} {seen : List K} {p p' : P2 K} (h : Since R stale seen p) {x : K}
    (hx : R.rnd x = x) (hu : p.update R.arith x = .ok p') : Since R stale (seen ++ [x]) p' := by
  have hpos := update_posInc (sane_round R) h.pos hu
  have hc := h.count
  rw [update_eq h.pos] at hu
  split at hu
  · rename_i hn
    injection hu with hu
    have hmem := fun y => updateFirst_mem (A := R.arith) (p := p) x y
    obtain ⟨f1, f2, f3⟩ := updateFirst_frame (A := R.arith) p x
    have hset : p.heights.toList.set p.historyCount x =
        (seen ++ [x]) ++ stale.toList.drop (seen.length + 1) := by
      rw [h.early (by omega), hc]
      exact set_append_drop _ _ _ (by rw [Five.toList_length]; omega)
    have hlen : (p.heights.toList.set p.historyCount x).length = 5 := by simp [Five.toList_length]
    have hfive : seen.length = 4 → p'.heights.toList = sortList R.arith (seen ++ [x]) := by
      intro h4
      rw [← hu]
      unfold updateFirst
      simp only [show p.historyCount + 1 = 5 by omega, if_true]
      rw [Five.sort_toList, Five.toList_ofList _ hlen, hset, h4]
      simp [Five.toList]
    rw [hu] at hmem f1 f2 f3
    refine ⟨f2 ▸ h.q0, f2 ▸ h.q1, hpos, ?_, by simp [f1, hc], ?_, ?_, ?_⟩
    · intro y hy
      rcases hmem y hy with rfl | hy
      · exact hx
      · exact h.rep y hy
    · intro h5
      simp only [List.length_append, List.length_singleton] at h5 ⊢
      rw [← hu]
      unfold updateFirst
      simp only [show ¬ (p.historyCount + 1 = 5) by omega, if_false]
      rw [Five.toList_ofList _ hlen, hset]
    · intro h5
      exact hfive (by simpa using h5)
    · intro h5
      have h4 : seen.length = 4 := by simp at h5; omega
      have hl := hfive h4
      have hs : p'.heights.Sorted := by
        rw [Five.sorted_iff, hl]; exact sortList_sorted R.arith (lt_decide R) _
      have hm : ∀ y, y ∈ p'.heights.toList ↔ y ∈ seen ++ [x] := fun y => by
        rw [hl]; exact (sortList_perm R.arith _).mem_iff
      obtain ⟨s1, s2, s3, s4⟩ := hs
      refine ⟨⟨s1, s2, s3, s4⟩, ⟨(hm _).1 (by simp [Five.toList]), ?_⟩, (hm _).1 (by simp [Five.toList]), ?_⟩
      · intro y hy
        have := (hm y).2 hy
        simp only [Five.toList, List.mem_cons, List.not_mem_nil, or_false] at this
        rcases this with rfl | rfl | rfl | rfl | rfl <;> linarith
      · intro y hy
        have := (hm y).2 hy
        simp only [Five.toList, List.mem_cons, List.not_mem_nil, or_false] at this
        rcases this with rfl | rfl | rfl | rfl | rfl <;> linarith
  · rename_i hn
    split at hu
    · cases hu
    · injection hu with hu
      obtain ⟨hs, hmin, hmax⟩ := h.late (by omega)
      obtain ⟨k1, k2⟩ := updateLater_sorted h.rep hs hx
      obtain ⟨f1, f2, -, f4, f5⟩ := updateLater_frame (A := R.arith) p x
      rw [findK_heights R p.heights x hs] at f4 f5
      rw [hu] at k1 k2 f1 f2 f4 f5
      simp only at f4 f5
      refine ⟨f2 ▸ h.q0, f2 ▸ h.q1, hpos, k1, by simp [f1, hc], ?_, ?_, fun _ => ⟨k2, ⟨?_, ?_⟩, ?_, ?_⟩⟩
      · intro h5; simp at h5; omega
      · intro h5; simp at h5; omega
      · rw [f4]
        rcases min_choice p.heights.x0 x with e | e <;> rw [e]
        · exact List.mem_append_left _ hmin.1
        · simp
      · intro y hy
        rw [f4]
        rcases List.mem_append.1 hy with hy | hy
        · exact (min_le_left _ _).trans (hmin.2 y hy)
        · rw [List.mem_singleton.1 hy]; exact min_le_right _ _
      · rw [f5]
        rcases max_choice p.heights.x4 x with e | e <;> rw [e]
        · exact List.mem_append_left _ hmax.1
        · simp
      · intro y hy
        rw [f5]
        rcases List.mem_append.1 hy with hy | hy
        · exact (hmax.2 y hy).trans (le_max_left _ _)
        · rw [List.mem_singleton.1 hy]; exact le_max_right _ _

theorem Since.updateAll {stale : Five K} {p p' : P2 K} {seen xs : List K} (h : Since R stale seen p)
    (hx : ∀ x ∈ xs, R.rnd x = x) (hu : updateAll (P2.update R.arith) p xs = .ok p') :
    Since R stale (seen ++ xs) p' := by
  induction xs generalizing p seen with
  | nil => simp only [KML.updateAll] at hu; injection hu with hu; subst hu; simpa using h
  | cons x xs ih =>
    simp only [KML.updateAll] at hu
    obtain ⟨q, hq, hu⟩ := Res.bind_eq_ok.1 hu
    have := ih (h.update (hx x (by simp)) hq) (fun y hy => hx y (by simp [hy])) hu
    simpa using this

/-- `evaluate` changes nothing once five observations have been seen. -/
theorem evaluate_pure {p : P2 K} (q0 : 0 < p.quantile) (q1 : p.quantile < 1) (hs : p.heights.Sorted) :
    ∃ v, p.evaluate R.arith = .ok (v, p) ∧ v ∈ p.heights.toList := by
  obtain ⟨v, p', h1, h2, h3, h4, -⟩ := evaluate_spec (R := R) q0 q1
  refine ⟨v, ?_, h2⟩
  rcases h3 with h3 | ⟨-, rfl⟩
  · rw [Five.sort_of_sorted R.arith (lt_decide R) hs] at h3
    rw [h3] at h4
    rw [h1, h4]
  · exact h1

theorem Since.evaluate {stale : Five K} {seen : List K} {p : P2 K} (h : Since R stale seen p)
    (h5 : 5 ≤ seen.length) :
    ∃ v, p.evaluate R.arith = .ok (v, p) ∧ p.heights.x0 ≤ v ∧ v ≤ p.heights.x4 := by
  obtain ⟨hs, -, -⟩ := h.late h5
  obtain ⟨v, h1, h2⟩ := evaluate_pure (R := R) h.q0 h.q1 hs
  refine ⟨v, h1, ?_⟩
  obtain ⟨s1, s2, s3, s4⟩ := hs
  simp only [Five.toList, List.mem_cons, List.not_mem_nil, or_false] at h2
  rcases h2 with rfl | rfl | rfl | rfl | rfl <;> constructor <;> linarith

/-- A history without `clear`, started once five observations have been seen. -/
theorem Since.run {stale : Five K} {seen : List K} {p p' : P2 K} {ops : List (QOp K)} {vs : List K}
    (h : Since R stale seen p) (h5 : 5 ≤ seen.length) (hc : QOp.clear ∉ ops)
    (hx : ∀ x ∈ QOp.observations ops, R.rnd x = x) (hr : P2.run R.arith p ops = .ok (vs, p')) :
    Since R stale (seen ++ QOp.observations ops) p' := by
  induction ops generalizing p seen vs with
  | nil =>
    simp only [P2.run] at hr; injection hr with hr; injection hr with _ hr; subst hr
    simpa [QOp.observations] using h
  | cons o ops ih =>
    simp only [P2.run] at hr
    obtain ⟨⟨v1, q⟩, hq, hr⟩ := Res.bind_eq_ok.1 hr
    obtain ⟨⟨v2, q'⟩, hq', hr⟩ := Res.bind_eq_ok.1 hr
    simp only [Res.ok.injEq, Prod.mk.injEq] at hr
    obtain ⟨-, rfl⟩ := hr
    have hc' : QOp.clear ∉ ops := fun hm => hc (by simp [hm])
    cases o with
    | update x =>
      simp only [QOp.observations, List.mem_cons] at hx
      simp only [P2.step] at hq
      obtain ⟨r, hup, hq⟩ := Res.bind_eq_ok.1 hq
      injection hq with hq; injection hq with _ hq; subst hq
      have := ih (h.update (hx x (Or.inl rfl)) hup) (by simp; omega) hc' (fun y hy => hx y (Or.inr hy)) hq'
      simpa [QOp.observations] using this
    | evaluate =>
      simp only [QOp.observations] at hx ⊢
      obtain ⟨v, he, -⟩ := h.evaluate h5
      simp only [P2.step, he, Res.ok_bind] at hq
      injection hq with hq; injection hq with _ hq; subst hq
      exact ih h h5 hc' hx hq'
    | clear => simp at hc

/-- Index computed by `evaluate` for at most five observations. -/
theorem evalIndex_eq (R : Rounding K) {p : P2 K} (q0 : 0 < p.quantile) {n : ℕ}
    (hn : p.historyCount = n + 1) (h5 : n ≤ 4) :
    evalIndex R.arith p = ⌊R.rnd (n * p.quantile) + 1 / 2⌋ := by
  have hc : R.rnd (p.historyCount : K) = n + 1 := by
    rw [R.rnd_nat _ (by omega), hn]; push_cast; ring
  have hsub : R.rnd ((n : K) + 1 - 1) = n := by
    rw [add_sub_cancel_right]; exact R.rnd_nat n (by omega)
  simp only [evalIndex, Rounding.arith, Arith.ofNat, Int.cast_natCast, hc, Rat.cast_one, R.rnd_one, hsub]
  rw [abs_of_nonneg (Nat.cast_nonneg n)]
  rw [if_pos (R.rnd_nonneg (mul_nonneg (Nat.cast_nonneg _) q0.le))]

end Round

end P2

end KML
