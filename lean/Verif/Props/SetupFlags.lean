import Verif.Model.Setup

/-!
# C140: the flag that `build_extensions` removes

The compile command should reach the compiler without `-Wstrict-prototypes` and with everything
else in its place. `list.remove` takes away one occurrence only.
-/

namespace KML

open Setup

/-- The flag of the comment in setup.py, spelled out. -/
def prototypesFlag : List Char :=
  ['-', 'W', 's', 't', 'r', 'i', 'c', 't', '-', 'p', 'r', 'o', 't', 'o', 't', 'y', 'p', 'e', 's']

theorem strictPrototypes_eq : strictPrototypes = prototypesFlag := by decide +kernel

/-- C140, as one would expect it: the command without the flag, the rest in its order. -/
def C140_full : Prop :=
  ∀ cmd : List (List Char), stripFlag cmd = .ok (cmd.filter fun a => a ≠ prototypesFlag)

/-- The flag given twice, as with `CFLAGS` in the environment, is left once. -/
theorem C140_violated : ¬ C140_full := by
  intro h
  have := h ["gcc".toList, prototypesFlag, "-O3".toList, prototypesFlag]
  revert this
  decide +kernel

theorem listRemove_spec (x : List Char) : ∀ cmd : List (List Char), x ∈ cmd →
    ∃ a b, cmd = a ++ x :: b ∧ x ∉ a ∧ listRemove x cmd = .ok (a ++ b)
  | [], h => by simp at h
  | y :: ys, h => by
    by_cases hy : y = x
    · exact ⟨[], ys, by simp [hy], by simp, by simp [listRemove, hy]⟩
    · have hx : x ∈ ys := by
        rcases List.mem_cons.1 h with h | h
        · exact absurd h.symm hy
        · exact h
      obtain ⟨a, b, rfl, ha, hr⟩ := listRemove_spec x ys hx
      refine ⟨y :: a, b, rfl, ?_, ?_⟩
      · simp only [List.mem_cons, not_or]
        exact ⟨fun e => hy e.symm, ha⟩
      · simp only [listRemove, if_neg hy, hr]
        rfl

/-- Exactly which commands come out right: those with the flag at most once. -/
theorem C140_iff_partial (cmd : List (List Char)) :
    stripFlag cmd = .ok (cmd.filter fun a => a ≠ prototypesFlag) ↔
      cmd.count prototypesFlag ≤ 1 := by
  unfold stripFlag
  rw [strictPrototypes_eq]
  by_cases h : prototypesFlag ∈ cmd
  · rw [if_pos h]
    obtain ⟨a, b, rfl, ha, hr⟩ := listRemove_spec _ _ h
    rw [hr]
    have hfa : a.filter (fun c => decide (c ≠ prototypesFlag)) = a := by
      rw [List.filter_eq_self]
      intro c hc
      simpa using fun e : c = prototypesFlag => ha (e ▸ hc)
    have hca : a.count prototypesFlag = 0 := List.count_eq_zero.2 ha
    simp only [List.filter_append, hfa, List.count_append, hca, List.count_cons_self, zero_add,
      Res.ok.injEq]
    have e : (prototypesFlag :: b).filter (fun c => decide (c ≠ prototypesFlag)) =
        b.filter (fun c => decide (c ≠ prototypesFlag)) := by
      rw [List.filter_cons_of_neg (by simp)]
    rw [e, List.append_cancel_left_eq]
    constructor
    · intro hb
      have : prototypesFlag ∉ b := by
        rw [hb]; simp
      rw [List.count_eq_zero.2 this]
    · intro hb
      have hb0 : b.count prototypesFlag = 0 := by omega
      have hn := List.count_eq_zero.1 hb0
      symm
      rw [List.filter_eq_self]
      intro c hc
      simpa using fun e : c = prototypesFlag => hn (e ▸ hc)
  · rw [if_neg h, List.count_eq_zero.2 h]
    have : cmd.filter (fun c => decide (c ≠ prototypesFlag)) = cmd := by
      rw [List.filter_eq_self]
      intro c hc
      simpa using fun e : c = prototypesFlag => h (e ▸ hc)
    rw [this]
    simp

example : ["gcc".toList, prototypesFlag, "-O3".toList].count prototypesFlag ≤ 1 := by
  decide +kernel

example : stripFlag ["gcc".toList, prototypesFlag, "-O3".toList] =
    .ok ["gcc".toList, "-O3".toList] := by decide +kernel

/-- Whatever the command: no exception, everything but the flag keeps its place, and the flag is
there once less. -/
theorem C140_rest_partial (cmd : List (List Char)) :
    ∃ out, stripFlag cmd = .ok out ∧
      out.filter (fun a => a ≠ prototypesFlag) = cmd.filter (fun a => a ≠ prototypesFlag) ∧
      out.count prototypesFlag = cmd.count prototypesFlag - 1 := by
  unfold stripFlag
  rw [strictPrototypes_eq]
  by_cases h : prototypesFlag ∈ cmd
  · rw [if_pos h]
    obtain ⟨a, b, rfl, ha, hr⟩ := listRemove_spec _ _ h
    refine ⟨a ++ b, hr, ?_, ?_⟩
    · rw [List.filter_append, List.filter_append, List.filter_cons_of_neg (by simp)]
    · rw [List.count_append, List.count_append, List.count_cons_self]
      omega
  · rw [if_neg h]
    exact ⟨cmd, rfl, rfl, by rw [List.count_eq_zero.2 h]⟩

example : stripFlag ["gcc".toList, prototypesFlag, "-O3".toList, prototypesFlag] =
    .ok ["gcc".toList, "-O3".toList, prototypesFlag] := by decide +kernel

end KML
