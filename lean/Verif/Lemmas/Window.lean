import Verif.Spec.Stats
import Mathlib.Data.List.Induction

/-! The batch loop, and how a window evolves. -/

namespace KML

theorem updateAll_append {σ α : Type} (update : σ → α → Res σ) (s : σ) (xs ys : List α) :
    updateAll update s (xs ++ ys) = updateAll update s xs >>= fun s' => updateAll update s' ys := by
  induction xs generalizing s with
  | nil => simp [updateAll]
  | cons x xs ih => simp [updateAll, ih]

theorem updateAll_snoc {σ α : Type} (update : σ → α → Res σ) (s : σ) (xs : List α) (x : α) :
    updateAll update s (xs ++ [x]) = updateAll update s xs >>= fun s' => update s' x := by
  rw [updateAll_append]; congr 1; funext s'
  simp only [updateAll]
  cases update s' x <;> rfl

/-- Invariants of a run: `P` relates the items fed so far and the state. -/
theorem updateAll_induct {σ α : Type} {update : σ → α → Res σ} {s₀ : σ} (P : List α → σ → Prop)
    (h0 : P [] s₀)
    (hstep : ∀ xs s x, P xs s → ∃ s', update s x = .ok s' ∧ P (xs ++ [x]) s') (xs : List α) :
    ∃ s, updateAll update s₀ xs = .ok s ∧ P xs s := by
  induction xs using List.reverseRecOn with
  | nil => exact ⟨s₀, rfl, h0⟩
  | append_singleton xs x ih =>
    obtain ⟨s, hs, hP⟩ := ih
    obtain ⟨s', hs', hP'⟩ := hstep xs s x hP
    exact ⟨s', by rw [updateAll_snoc, hs]; simpa using hs', hP'⟩

namespace Spec

variable {α : Type}

theorem lastN_length (n : ℕ) (l : List α) : (lastN n l).length = min n l.length := by
  simp [lastN]; omega

theorem lastN_snoc_lt {W : ℕ} {l : List α} (x : α) (h : l.length < W) :
    lastN W (l ++ [x]) = lastN W l ++ [x] := by
  simp only [lastN, List.length_append, List.length_singleton]
  rw [Nat.sub_eq_zero_of_le (by omega), Nat.sub_eq_zero_of_le (by omega)]; simp

theorem lastN_snoc_ge {W : ℕ} {l : List α} (x : α) (hW : 0 < W) (h : W ≤ l.length) :
    ∃ a r, lastN W l = a :: r ∧ lastN W (l ++ [x]) = r ++ [x] ∧ l[l.length - W]? = some a := by
  have hi : l.length - W < l.length := by omega
  refine ⟨l[l.length - W], l.drop (l.length - W + 1), ?_, ?_, ?_⟩
  · simp only [lastN]
    exact List.drop_eq_getElem_cons hi
  · simp only [lastN, List.length_append, List.length_singleton]
    rw [List.drop_append_of_le_length (by omega)]
    congr 2; omega
  · simp [List.getElem?_eq_getElem hi]

theorem lastN_self {W : ℕ} {l : List α} (h : l.length ≤ W) : lastN W l = l := by
  simp [lastN, Nat.sub_eq_zero_of_le h]

theorem windowOf_length (W : ℕ) (l : List α) :
    (windowOf W l).length = if W = 0 then l.length else min W l.length := by
  unfold windowOf; split
  · rfl
  · exact lastN_length W l

theorem windowOf_map {β : Type} (f : α → β) (W : ℕ) (l : List α) :
    windowOf W (l.map f) = (windowOf W l).map f := by
  unfold windowOf lastN; split <;> simp

theorem windowOf_subset {W : ℕ} {l : List α} {x : α} (h : x ∈ windowOf W l) : x ∈ l := by
  unfold windowOf lastN at h
  split at h
  · exact h
  · exact List.mem_of_mem_drop h

theorem windowOf_ne_nil {W : ℕ} {l : List α} (h : l ≠ []) : windowOf W l ≠ [] := by
  intro h0
  have := windowOf_length W l
  rw [h0] at this
  have hl : 0 < l.length := List.length_pos_iff.2 h
  simp at this
  split at this <;> omega

end Spec

end KML
