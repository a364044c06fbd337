import Verif.Model.PublicDeque
import Verif.Props.Mean
import Mathlib.Tactic.LinearCombination

/-!
# C144: editing the window of StreamingMean through getWindow()
-/

namespace KML

open Spec

/-- **C144**, the full claim: the value is the mean of the window that `getWindow()` shows, also after the caller has edited it. -/
def C144_full : Prop :=
  ∀ (W : ℕ) (ops : List (EOp ℚ)) (m : Mean ℚ) (w : List ℚ), updateAll (Mean.estep (exact ℚ)) (Mean.new (exact ℚ) W) ops = .ok m →
    m.window = some w → w ≠ [] → m.historyCount ≠ 0 → m.evaluate (exact ℚ) = mean w

/-- **C144** is violated: after 1, 3, `clear()` and 5 the window is [5] and the value 9. -/
theorem C144_violated : ¬ C144_full := by
  intro h
  have := h 3 [.update 1, .update 3, .edit fun _ => [], .update 5] ⟨3, some [5], 3, 9⟩ [5] (by decide +kernel) rfl (by simp)
    (by simp)
  revert this
  decide +kernel

/-- After `clear()` the value is infinite. -/
theorem C144_empty_violated : (do
    let m ← updateAll (Mean.estep Dbl.arith) (Mean.new Dbl.arith 3) [.update (.fin 1), .update (.fin 3), .edit fun _ => []]
    .ok (m.evaluate Dbl.arith)) = .ok (.inf false) := by
  decide +kernel

/-- **C144**, partial (any arithmetic): no edit leads to undefined behaviour or an exception, then or later. -/
theorem C144_safe_partial {F : Type} (A : Arith F) (W : ℕ) (ops : List (EOp F)) :
    (updateAll (Mean.estep A) (Mean.new A W) ops).IsOk := by
  suffices h : ∀ m : Mean F, m.windowSize = W → (W = 0 → m.window = none) → (updateAll (Mean.estep A) m ops).IsOk from
    h _ rfl (fun h => by simp [Mean.new, h])
  induction ops with
  | nil => exact fun m _ _ => ⟨m, rfl⟩
  | cons o os ih =>
    intro m hm h0
    suffices ∃ m', m.estep A o = .ok m' ∧ m'.windowSize = W ∧ (W = 0 → m'.window = none) by
      obtain ⟨m', e1, e2, e3⟩ := this
      obtain ⟨r, hr⟩ := ih m' e2 e3
      exact ⟨r, by simp [updateAll, e1, hr]⟩
    cases o with
    | edit f => exact ⟨_, rfl, hm, fun h => by simp [Mean.edit, h0 h]⟩
    | update x =>
      rcases hw : m.window with _ | w
      · exact ⟨{ m with historyCount := m.historyCount + 1, sum := A.add m.sum x }, by
          simp [Mean.estep, Mean.update, hw], hm, fun _ => hw⟩
      · have hW : W ≠ 0 := fun h => by rw [h0 h] at hw; cases hw
        by_cases hl : w.length + 1 > m.windowSize
        · rcases w with _ | ⟨y, w⟩
          · simp at hl; omega
          · exact ⟨⟨m.windowSize, some (w ++ [x]), m.historyCount + 1, A.add (A.sub m.sum y) x⟩, by
              simp only [Mean.estep, Mean.update, hw, if_pos hl]; rfl, hm, fun h => absurd h hW⟩
        · exact ⟨⟨m.windowSize, some (w ++ [x]), m.historyCount + 1, A.add m.sum x⟩, by
            simp only [Mean.estep, Mean.update, hw, if_neg hl]; rfl, hm, fun h => absurd h hW⟩

section Exact

variable {K : Type} [Field K] [LinearOrder K] [IsStrictOrderedRing K] [FloorRing K]

theorem Mean.slide (W : ℕ) (hW : 1 ≤ W) (ys : List K) : ∀ (m : Mean K) (w : List K), m.windowSize = W → m.window = some w →
    ∃ m', updateAll (Mean.update (exact K)) m ys = .ok m' ∧
      m'.window = some ((w ++ ys).drop (ys.length - (W - w.length))) ∧ m'.historyCount = m.historyCount + ys.length ∧
      m'.windowSize = W ∧ m'.sum - ((w ++ ys).drop (ys.length - (W - w.length))).sum = m.sum - w.sum := by
  induction ys with
  | nil => intro m w hm hw; exact ⟨m, rfl, by simpa using hw, rfl, hm, by simp⟩
  | cons y ys ih =>
    intro m w hm hw
    by_cases hl : w.length + 1 > m.windowSize
    · rcases w with _ | ⟨z, w⟩
      · simp at hl; omega
      · obtain ⟨m', e1, e2, e3, e5, e4⟩ := ih ⟨m.windowSize, some (w ++ [y]), m.historyCount + 1, m.sum - z + y⟩ (w ++ [y]) hm rfl
        have hu : m.update (exact K) y = .ok ⟨m.windowSize, some (w ++ [y]), m.historyCount + 1, m.sum - z + y⟩ := by
          simp only [Mean.update, hw, if_pos hl]; rfl
        have hd : (z :: w ++ y :: ys).drop ((y :: ys).length - (W - (z :: w).length)) =
            (w ++ [y] ++ ys).drop (ys.length - (W - (w ++ [y]).length)) := by
          simp only [List.length_cons] at hl
          have h1 : (y :: ys).length - (W - (z :: w).length) = ys.length + 1 := by simp; omega
          have h2 : ys.length - (W - (w ++ [y]).length) = ys.length := by simp; omega
          rw [h1, h2]
          simp
        refine ⟨m', by simp [updateAll, hu, e1], by rw [hd]; exact e2, by rw [e3]; simp; omega, e5, ?_⟩
        rw [hd, e4]
        simp
        ring
    · obtain ⟨m', e1, e2, e3, e5, e4⟩ := ih ⟨m.windowSize, some (w ++ [y]), m.historyCount + 1, m.sum + y⟩ (w ++ [y]) hm rfl
      have hu : m.update (exact K) y = .ok ⟨m.windowSize, some (w ++ [y]), m.historyCount + 1, m.sum + y⟩ := by
        simp only [Mean.update, hw, if_neg hl]; rfl
      have hd : (w ++ y :: ys).drop ((y :: ys).length - (W - w.length)) =
          (w ++ [y] ++ ys).drop (ys.length - (W - (w ++ [y]).length)) := by
        have h1 : (y :: ys).length - (W - w.length) = ys.length - (W - (w ++ [y]).length) := by simp; omega
        rw [h1]
        simp
      refine ⟨m', by simp [updateAll, hu, e1], by rw [hd]; exact e2, by rw [e3]; simp; omega, e5, ?_⟩
      rw [hd, e4]
      simp

/-- **C144**, partial (exact): what an edit added to or took from the window is missing from the sum for ever, however many
observations follow. -/
theorem C144_debt_partial (W : ℕ) (hW : 1 ≤ W) (xs ys : List K) (f : List K → List K) :
    ∃ m w, updateAll (Mean.estep (exact K)) (Mean.new (exact K) W) (xs.map .update ++ .edit f :: ys.map .update) = .ok m ∧
      w = (f (lastN W xs) ++ ys).drop (ys.length - (W - (f (lastN W xs)).length)) ∧ m.window = some w ∧
      (xs ++ ys ≠ [] → m.evaluate (exact K) = (w.sum + ((lastN W xs).sum - (f (lastN W xs)).sum)) / w.length) := by
  have lift : ∀ (zs : List K) (m : Mean K), updateAll (Mean.estep (exact K)) m (zs.map .update) =
      updateAll (Mean.update (exact K)) m zs := by
    intro zs
    induction zs with
    | nil => intro m; rfl
    | cons z zs ih => intro m; simp [updateAll, Mean.estep, ih]
  obtain ⟨m0, h0⟩ : ∃ m0 : Mean K, Mean.new (exact K) W = m0 := ⟨_, rfl⟩
  have w0 : m0.window = some [] := by rw [← h0]; simp [Mean.new]; omega
  obtain ⟨m1, e1, e2, e3, hws, e4⟩ := Mean.slide W hW xs m0 [] (by rw [← h0]; rfl) w0
  have hl : (([] : List K) ++ xs).drop (xs.length - (W - ([] : List K).length)) = lastN W xs := by simp [lastN]
  rw [hl] at e2 e4
  have hs : m1.sum = (lastN W xs).sum := by
    have : m0.sum = 0 := by rw [← h0]; simp [Mean.new, exact]
    rw [this] at e4
    simpa [sub_eq_zero] using e4
  obtain ⟨m2, g1, g2, g3, -, g4⟩ := Mean.slide W hW ys (m1.edit f) (f (lastN W xs)) hws (by simp [Mean.edit, e2])
  refine ⟨m2, _, ?_, rfl, g2, fun hne => ?_⟩
  · rw [h0, updateAll_append, lift, e1]
    simp only [Res.ok_bind, updateAll, Mean.estep, lift, g1]
  · have hc : m2.historyCount ≠ 0 := by
      have c1 : (m1.edit f).historyCount = m1.historyCount := rfl
      have c0 : m0.historyCount = 0 := by rw [← h0]; rfl
      rw [g3, c1, e3, c0]
      intro h
      apply hne
      rw [List.append_eq_nil_iff, ← List.length_eq_zero_iff, ← List.length_eq_zero_iff]
      omega
    have hsum : (m1.edit f).sum = (lastN W xs).sum := hs
    rw [hsum] at g4
    unfold Mean.evaluate
    rw [if_neg hc, g2]
    rw [← g4]
    simp [exact, Arith.ofNat]

/-- **C144**, partial (exact): the value is the mean of the window shown exactly if the edit keeps the sum of the window. -/
theorem C144_iff_partial (W : ℕ) (hW : 1 ≤ W) (xs ys : List K) (f : List K → List K) (m : Mean K) (w : List K)
    (h : updateAll (Mean.estep (exact K)) (Mean.new (exact K) W) (xs.map .update ++ .edit f :: ys.map .update) = .ok m)
    (hw : m.window = some w) (hne : w ≠ []) (hx : xs ++ ys ≠ []) :
    m.evaluate (exact K) = mean w ↔ (f (lastN W xs)).sum = (lastN W xs).sum := by
  obtain ⟨m', w', e1, -, e3, e4⟩ := C144_debt_partial W hW xs ys f
  rw [h] at e1
  cases e1
  rw [hw] at e3
  cases e3
  rw [e4 hx]
  have : (w.length : K) ≠ 0 := by simpa using hne
  unfold mean
  rw [div_left_inj' this]
  constructor <;> intro h <;> linear_combination -h

/-- Windows of three: reversing is harmless, `push_back(4)` is not. -/
example : (updateAll (Mean.estep (exact ℚ)) (Mean.new (exact ℚ) 3) [.update 1, .update 2, .update 6, .edit List.reverse, .update 4]) =
    .ok ⟨3, some [2, 1, 4], 4, 7⟩ ∧
  (updateAll (Mean.estep (exact ℚ)) (Mean.new (exact ℚ) 3) [.update 1, .update 2, .edit (· ++ [4]), .update 5, .update 6]) =
    .ok ⟨3, some [4, 5, 6], 4, 11⟩ := by
  decide +kernel

end Exact

end KML
