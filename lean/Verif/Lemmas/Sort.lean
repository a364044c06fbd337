import Verif.Model.Quantile
import Mathlib.Data.List.Perm.Basic
import Mathlib.Data.List.Sort

/-! `sortList` sorts. -/

set_option linter.unusedSectionVars false

namespace KML

section Any

variable {F : Type} (A : Arith F)

theorem insertSorted_perm (x : F) (l : List F) : (insertSorted A x l).Perm (x :: l) := by
  induction l with
  | nil => exact List.Perm.refl _
  | cons y ys ih =>
    unfold insertSorted
    split
    · exact (List.Perm.cons y ih).trans (List.Perm.swap x y ys)
    · exact List.Perm.refl _

theorem sortList_perm (l : List F) : (sortList A l).Perm l := by
  induction l with
  | nil => exact List.Perm.refl _
  | cons x xs ih => exact (insertSorted_perm A x _).trans (List.Perm.cons x ih)

theorem Five.toList_ofList (v : Five F) {l : List F} (h : l.length = 5) : (v.ofList l).toList = l := by
  match l, h with
  | [a, b, c, d, e], _ => rfl

theorem Five.toList_length (v : Five F) : v.toList.length = 5 := rfl

theorem Five.toList_inj {v w : Five F} (h : v.toList = w.toList) : v = w := by
  cases v; cases w; simp [Five.toList] at h; simp [h]

theorem Five.sort_toList (v : Five F) : (v.sort A).toList = sortList A v.toList :=
  Five.toList_ofList v (by rw [(sortList_perm A _).length_eq]; rfl)

theorem Five.sort_perm (v : Five F) : (v.sort A).toList.Perm v.toList := by
  rw [Five.sort_toList]; exact sortList_perm A _

end Any

section Order

variable {F : Type} [LinearOrder F] (A : Arith F) (hlt : ∀ a b, A.lt a b = decide (a < b))

include hlt

theorem insertSorted_sorted (x : F) {l : List F} (h : l.Pairwise (· ≤ ·)) :
    (insertSorted A x l).Pairwise (· ≤ ·) := by
  induction l with
  | nil => simp [insertSorted]
  | cons y ys ih =>
    rw [List.pairwise_cons] at h
    unfold insertSorted
    rw [hlt]
    by_cases hy : y < x
    · simp only [hy, decide_true, if_true, List.pairwise_cons]
      refine ⟨fun z hz => ?_, ih h.2⟩
      rcases List.mem_cons.1 ((insertSorted_perm A x ys).mem_iff.1 hz) with rfl | hz
      · exact hy.le
      · exact h.1 z hz
    · simp only [hy, decide_false, Bool.false_eq_true, if_false, List.pairwise_cons]
      refine ⟨fun z hz => ?_, h⟩
      rcases List.mem_cons.1 hz with rfl | hz
      · exact not_lt.1 hy
      · exact (not_lt.1 hy).trans (h.1 z hz)

theorem sortList_sorted (l : List F) : (sortList A l).Pairwise (· ≤ ·) := by
  induction l with
  | nil => exact List.Pairwise.nil
  | cons x xs ih => exact insertSorted_sorted A hlt x ih

theorem sortList_of_sorted {l : List F} (h : l.Pairwise (· ≤ ·)) : sortList A l = l :=
  (sortList_perm A l).eq_of_pairwise (fun _ _ _ _ h1 h2 => le_antisymm h1 h2) (sortList_sorted A hlt l) h

theorem sortList_eq_of_perm {l l' : List F} (h : l.Perm l') : sortList A l = sortList A l' :=
  ((sortList_perm A l).trans (h.trans (sortList_perm A l').symm)).eq_of_pairwise
    (fun _ _ _ _ h1 h2 => le_antisymm h1 h2) (sortList_sorted A hlt l) (sortList_sorted A hlt l')

/-- Five heights in non-decreasing order. -/
def Five.Sorted (v : Five F) : Prop := v.x0 ≤ v.x1 ∧ v.x1 ≤ v.x2 ∧ v.x2 ≤ v.x3 ∧ v.x3 ≤ v.x4

omit hlt in
theorem Five.sorted_iff (v : Five F) : v.Sorted ↔ v.toList.Pairwise (· ≤ ·) := by
  constructor
  · rintro ⟨h1, h2, h3, h4⟩
    simp only [Five.toList, List.pairwise_cons, List.mem_cons, List.not_mem_nil, or_false]
    refine ⟨?_, ?_, ?_, ?_, ?_, List.Pairwise.nil⟩
    · rintro a (rfl | rfl | rfl | rfl)
      · exact h1
      · exact h1.trans h2
      · exact (h1.trans h2).trans h3
      · exact ((h1.trans h2).trans h3).trans h4
    · rintro a (rfl | rfl | rfl)
      · exact h2
      · exact h2.trans h3
      · exact (h2.trans h3).trans h4
    · rintro a (rfl | rfl)
      · exact h3
      · exact h3.trans h4
    · rintro a rfl; exact h4
    · simp
  · intro h
    simp only [Five.toList, List.pairwise_cons, List.mem_cons, List.not_mem_nil, or_false] at h
    exact ⟨h.1 _ (Or.inl rfl), h.2.1 _ (Or.inl rfl), h.2.2.1 _ (Or.inl rfl), h.2.2.2.1 _ rfl⟩

theorem Five.sort_sorted (v : Five F) : (v.sort A).Sorted := by
  rw [Five.sorted_iff, Five.sort_toList]; exact sortList_sorted A hlt _

theorem Five.sort_of_sorted {v : Five F} (h : v.Sorted) : v.sort A = v := by
  apply Five.toList_inj
  rw [Five.sort_toList]; exact sortList_of_sorted A hlt ((Five.sorted_iff v).1 h)

end Order

end KML
