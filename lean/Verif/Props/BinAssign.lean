import Verif.Model.BinAssign
import Verif.Props.Utils

/-!
# C148: chained assignments of bins
-/

namespace KML

variable {F : Type}

namespace Spec

/-- The variable a chain starts from. -/
def root : BChain → ℕ
  | .var i => i
  | .copy c _ | .move c _ | .plus c _ => root c

/-- The sources of a chain, in order, and whether they are added. -/
def sources : BChain → List (Bool × ℕ)
  | .var _ => []
  | .copy c j | .move c j => sources c ++ [(false, j)]
  | .plus c j => sources c ++ [(true, j)]

/-- One assignment to variable `r` as a statement of its own. -/
def assignTo (add : Bin F → Bin F → Bin F) (r : ℕ) (m : List (Bin F)) (s : Bool × ℕ) : List (Bin F) :=
  match m[r]?, m[s.2]? with
  | some x, some y => m.set r (if s.1 then add x y else y)
  | _, _ => m

/-- The sources up to the first that is added. -/
def upToFirstPlus : List (Bool × ℕ) → List (Bool × ℕ)
  | [] => []
  | s :: ss => if s.1 then [s] else s :: upToFirstPlus ss

end Spec

open Spec

/-- **C148**, the full claim: as for numbers, a chain has the effect of its assignments one after the other. -/
def C148_full : Prop := ∀ (m m' : List (Bin ℚ)) (c : BChain) (t : ℕ), c.eval (exact ℚ) m = .ok (m', t) →
  (∀ s ∈ sources c, s.2 < m.length) → m'.take m.length = (sources c).foldl (assignTo (Bin.add (exact ℚ)) (root c)) m

/-- **C148** is violated: `(a += b) += c` does not add `c`. -/
theorem C148_violated : ¬ C148_full := by
  intro h
  have := h [⟨0, 1, 1⟩, ⟨1, 2, 2⟩, ⟨2, 3, 4⟩] [⟨0, 2, 3⟩, ⟨1, 2, 2⟩, ⟨2, 3, 4⟩, ⟨0, 3, 7⟩, ⟨0, 3, 7⟩] (.plus (.plus (.var 0) 1) 2) 4
    (by decide +kernel) (by decide)
  revert this
  decide +kernel

theorem upToFirstPlus_append_of_mem {l : List (Bool × ℕ)} (h : ∃ s ∈ l, s.1 = true) (s : Bool × ℕ) :
    upToFirstPlus (l ++ [s]) = upToFirstPlus l := by
  induction l with
  | nil => simp at h
  | cons a l ih =>
    simp only [List.cons_append, upToFirstPlus]
    by_cases ha : a.1 = true
    · rw [if_pos ha, if_pos ha]
    · rw [if_neg ha, if_neg ha, ih (by simpa [ha] using h)]

theorem upToFirstPlus_append_of_not {l : List (Bool × ℕ)} (h : ∀ s ∈ l, s.1 = false) (s : Bool × ℕ) :
    upToFirstPlus (l ++ [s]) = l ++ [s] := by
  induction l with
  | nil => simp [upToFirstPlus]
  | cons a l ih =>
    simp only [List.cons_append, upToFirstPlus]
    rw [if_neg (by simp [h a (by simp)]), ih (fun s hs => h s (by simp [hs]))]

theorem upToFirstPlus_of_not {l : List (Bool × ℕ)} (h : ∀ s ∈ l, s.1 = false) : upToFirstPlus l = l := by
  induction l with
  | nil => rfl
  | cons a l ih =>
    simp only [upToFirstPlus]
    rw [if_neg (by simp [h a (by simp)]), ih (fun s hs => h s (by simp [hs]))]

theorem assignTo_length (add : Bin F → Bin F → Bin F) (r : ℕ) (m : List (Bin F)) (s : Bool × ℕ) :
    (assignTo add r m s).length = m.length := by
  unfold assignTo; split <;> simp

theorem foldl_assignTo_length (add : Bin F → Bin F → Bin F) (r : ℕ) (ss : List (Bool × ℕ)) (m : List (Bin F)) :
    (ss.foldl (assignTo add r) m).length = m.length := by
  induction ss generalizing m with
  | nil => rfl
  | cons s ss ih => rw [List.foldl_cons, ih, assignTo_length]

/-- Either nothing was added yet and the chain denotes its root, or it denotes a temporary. -/
theorem BChain.eval_spec (A : Arith F) (m : List (Bin F)) (c : BChain) (hr : root c < m.length)
    (hs : ∀ s ∈ sources c, s.2 < m.length) :
    ∃ m' t, c.eval A m = .ok (m', t) ∧ t < m'.length ∧ m.length ≤ m'.length ∧
      m'.take m.length = (upToFirstPlus (sources c)).foldl (assignTo (Bin.add A) (root c)) m ∧
      (((∀ s ∈ sources c, s.1 = false) ∧ t = root c ∧ m'.length = m.length) ∨
        ((∃ s ∈ sources c, s.1 = true) ∧ m.length ≤ t)) := by
  have copyCase : ∀ (c : BChain) (j : ℕ) (k : BChain), sources k = sources c ++ [(false, j)] → root k = root c →
      k.eval A m = (do let (m, this) ← c.eval A m; let m ← Bin.copyAssign m this j; .ok (m, this)) →
      (∃ m' t, c.eval A m = .ok (m', t) ∧ t < m'.length ∧ m.length ≤ m'.length ∧
      m'.take m.length = (upToFirstPlus (sources c)).foldl (assignTo (Bin.add A) (root c)) m ∧
      (((∀ s ∈ sources c, s.1 = false) ∧ t = root c ∧ m'.length = m.length) ∨
        ((∃ s ∈ sources c, s.1 = true) ∧ m.length ≤ t))) → j < m.length → root c < m.length →
      ∃ m' t, k.eval A m = .ok (m', t) ∧ t < m'.length ∧ m.length ≤ m'.length ∧
      m'.take m.length = (upToFirstPlus (sources k)).foldl (assignTo (Bin.add A) (root k)) m ∧
      (((∀ s ∈ sources k, s.1 = false) ∧ t = root k ∧ m'.length = m.length) ∨
        ((∃ s ∈ sources k, s.1 = true) ∧ m.length ≤ t)) := by
    intro c j k hk1 hk2 hk3 ⟨m1, t, e1, e2, e3, e4, e5⟩ hj hroot
    have hj' : m1[j]? = some m1[j] := List.getElem?_eq_getElem (by omega)
    have hca : Bin.copyAssign m1 t j = .ok (m1.set t m1[j]) := by
      unfold Bin.copyAssign Bin.at
      by_cases h : t = j
      · subst h; simp
      · rw [if_pos h, hj']; rfl
    refine ⟨m1.set t m1[j], t, by rw [hk3, e1]; simp [hca], by simpa using e2, by simpa using e3, ?_, ?_⟩
    · rw [hk1, hk2]
      rcases e5 with ⟨f1, f2, f3⟩ | ⟨f1, f2⟩
      · rw [upToFirstPlus_append_of_not f1, List.foldl_append, ← upToFirstPlus_of_not f1, ← e4, ← f3, List.take_length]
        simp only [List.foldl_cons, List.foldl_nil, assignTo]
        rw [← f2, List.getElem?_eq_getElem e2, hj', List.take_of_length_le (by simp)]
        rfl
      · rw [upToFirstPlus_append_of_mem f1, ← e4, List.take_set_of_le f2]
    · rw [hk1, hk2]
      rcases e5 with ⟨f1, f2, f3⟩ | ⟨⟨s, f0, f1⟩, f2⟩
      · refine Or.inl ⟨fun s h => ?_, f2, by simpa using f3⟩
        rcases List.mem_append.1 h with h | h
        · exact f1 s h
        · simp at h; rw [h]
      · exact Or.inr ⟨⟨s, List.mem_append_left _ f0, f1⟩, f2⟩
  induction c with
  | var i =>
    have : m[i]? = some m[i] := List.getElem?_eq_getElem hr
    exact ⟨m, i, by simp [BChain.eval, Bin.at, this], hr, le_rfl, by simp [sources, upToFirstPlus],
      Or.inl ⟨by simp [sources], rfl, rfl⟩⟩
  | copy c j ih =>
    exact copyCase c j (.copy c j) rfl rfl rfl (ih hr fun s h => hs s (List.mem_append_left _ h)) (hs (false, j) (by simp [sources])) hr
  | move c j ih =>
    exact copyCase c j (.move c j) rfl rfl rfl (ih hr fun s h => hs s (List.mem_append_left _ h)) (hs (false, j) (by simp [sources])) hr
  | plus c j ih =>
    obtain ⟨m1, t, e1, e2, e3, e4, e5⟩ := ih hr fun s h => hs s (List.mem_append_left _ h)
    have hj : j < m.length := hs (true, j) (by simp [sources])
    have hj' : m1[j]? = some m1[j] := List.getElem?_eq_getElem (by omega)
    have ht' : m1[t]? = some m1[t] := List.getElem?_eq_getElem e2
    refine ⟨m1.set t (Bin.add A m1[t] m1[j]) ++ [Bin.add A m1[t] m1[j]], m1.length, ?_, by simp, by simp; omega, ?_, ?_⟩
    · simp only [BChain.eval, e1, Res.ok_bind, Bin.at, ht', hj', Bin.addAssign]
    · rw [List.take_append_of_le_length (by simpa using e3)]
      simp only [sources, root]
      rcases e5 with ⟨f1, f2, f3⟩ | ⟨f1, f2⟩
      · rw [upToFirstPlus_append_of_not f1, List.foldl_append, ← upToFirstPlus_of_not f1, ← e4, ← f3, List.take_length]
        simp only [List.foldl_cons, List.foldl_nil, assignTo]
        rw [← f2, ht', hj', List.take_of_length_le (by simp)]
        rfl
      · rw [upToFirstPlus_append_of_mem f1, ← e4, List.take_set_of_le f2]
    · exact Or.inr ⟨⟨(true, j), by simp [sources], rfl⟩, e3⟩

/-- **C148**, partial (any arithmetic): a chain has the effect of its assignments up to the first `+=`; what follows goes to
temporaries. -/
theorem C148_exact_partial (A : Arith F) (m : List (Bin F)) (c : BChain) (hr : root c < m.length)
    (hs : ∀ s ∈ sources c, s.2 < m.length) :
    ∃ m' t, c.eval A m = .ok (m', t) ∧
      m'.take m.length = (upToFirstPlus (sources c)).foldl (assignTo (Bin.add A) (root c)) m := by
  obtain ⟨m', t, e1, -, -, e4, -⟩ := BChain.eval_spec A m c hr hs
  exact ⟨m', t, e1, e4⟩

/-- **C148**, partial (any arithmetic): the full claim for chains whose only `+=` is the last assignment. -/
theorem C148_last_partial (A : Arith F) (m : List (Bin F)) (c : BChain) (hr : root c < m.length)
    (hs : ∀ s ∈ sources c, s.2 < m.length) (hl : ∀ s ∈ (sources c).dropLast, s.1 = false) :
    ∃ m' t, c.eval A m = .ok (m', t) ∧ m'.take m.length = (sources c).foldl (assignTo (Bin.add A) (root c)) m := by
  obtain ⟨m', t, e1, e2⟩ := C148_exact_partial A m c hr hs
  refine ⟨m', t, e1, ?_⟩
  rw [e2]
  rcases List.eq_nil_or_concat (sources c) with h | ⟨l, s, h⟩
  · rw [h]; rfl
  · rw [List.concat_eq_append] at h
    rw [h, List.dropLast_concat] at hl
    rw [h]
    rw [upToFirstPlus_append_of_not hl]

/-- **C148**, partial (any arithmetic): no variable but the root changes; in particular a bin that was moved from keeps its
value. -/
theorem C148_sources_partial (A : Arith F) (m : List (Bin F)) (c : BChain) (hr : root c < m.length)
    (hs : ∀ s ∈ sources c, s.2 < m.length) (i : ℕ) (hi : i < m.length) (hne : i ≠ root c) :
    ∃ m' t, c.eval A m = .ok (m', t) ∧ m'[i]? = m[i]? := by
  obtain ⟨m', t, e1, e2⟩ := C148_exact_partial A m c hr hs
  refine ⟨m', t, e1, ?_⟩
  have key : ∀ (ss : List (Bool × ℕ)) (m : List (Bin F)), (ss.foldl (assignTo (Bin.add A) (root c)) m)[i]? = m[i]? := by
    intro ss
    induction ss with
    | nil => intro m; rfl
    | cons s ss ih =>
      intro m
      rw [List.foldl_cons, ih]
      unfold assignTo
      split
      · rw [List.getElem?_set_ne (Ne.symm hne)]
      · rfl
  rw [← key (upToFirstPlus (sources c)) m, ← e2, List.getElem?_take_of_lt hi]

/-- `((a = b) += c)` and `((a += b) = c) += a` of three bins. -/
example : (BChain.plus (.copy (.var 0) 1) 2).eval b64 [⟨0, 1, 1⟩, ⟨1, 2, 2⟩, ⟨2, 3, 4⟩] =
    .ok ([⟨1, 3, 6⟩, ⟨1, 2, 2⟩, ⟨2, 3, 4⟩, ⟨1, 3, 6⟩], 3) ∧
  (BChain.plus (.copy (.plus (.var 0) 1) 2) 0).eval b64 [⟨0, 1, 1⟩, ⟨1, 2, 2⟩, ⟨2, 3, 4⟩] =
    .ok ([⟨0, 2, 3⟩, ⟨1, 2, 2⟩, ⟨2, 3, 4⟩, ⟨0, 3, 7⟩, ⟨0, 3, 7⟩], 4) := by
  decide +kernel

end KML
