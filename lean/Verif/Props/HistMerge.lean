import Verif.Lemmas.Histogram
import Mathlib.Tactic.Linarith

/-!
# C76: which bins a histogram merges
-/

namespace KML

open Utils

variable {K : Type} [Field K] [LinearOrder K] [IsStrictOrderedRing K] [FloorRing K]

/-- **C76**, as one would claim it: when a new bin exceeds the budget, the two neighbouring bins whose right
edges are closest are replaced by their sum. -/
def C76_full : Prop :=
  ∀ (numBins windowSize : ℕ) (xs : List ℚ) (h h1 h' : Hist ℚ) (x : ℚ),
    updateAll (Hist.update (exact ℚ)) (Hist.new numBins windowSize) xs = .ok h → h.add (exact ℚ) x = .ok h1 → h.update (exact ℚ) x = .ok h' →
    h1.numBins < h1.bins.length →
    ∃ l1 a b l2, h1.bins = l1 ++ a :: b :: l2 ∧ h'.bins = l1 ++ Bin.add (exact ℚ) a b :: l2 ∧
      ∀ m1 c d m2, h1.bins = m1 ++ c :: d :: m2 → b.right - a.right ≤ d.right - c.right

namespace Hist

/-- No gap is smaller than `g` by more than the tolerance. -/
def Close (g d : K) : Prop := g - d ≤ max |d| |g| * (1 / 10000)

theorem dlt_exact {a b : K} :
    definitelyLessThan (exact K) a b (defaultEps (exact K)) = true ↔ max |a| |b| * (1 / 10000) < b - a := by
  have h1 : defaultEps (exact K) = 1 / 10000 := by simp [defaultEps, exact]
  have h2 : larger (exact K) a b = max |a| |b| := by
    simp only [larger, exact, decide_eq_true_eq]
    split_ifs with h
    · exact (max_eq_right h.le).symm
    · exact (max_eq_left (not_lt.1 h)).symm
  unfold definitelyLessThan
  rw [h1, h2]
  simp only [exact, decide_eq_true_eq]

theorem Close.mono {g g' d : K} (h : Close g' d) (hg : g ≤ g') : Close g d := by
  unfold Close at *
  have : |g'| ≤ |g| + (g' - g) := by
    have := abs_add_le g (g' - g)
    rw [abs_of_nonneg (sub_nonneg.2 hg)] at this
    simpa using this
  rcases le_total |d| |g| with h1 | h1
  · rw [max_eq_right h1]
    rcases le_total |d| |g'| with h2 | h2
    · rw [max_eq_right h2] at h; linarith
    · rw [max_eq_left h2] at h; linarith
  · rw [max_eq_left h1]
    rcases le_total |d| |g'| with h2 | h2
    · rw [max_eq_right h2] at h; linarith
    · rw [max_eq_left h2] at h; linarith

theorem Close.refl (g : K) : Close g g := by
  unfold Close
  rw [sub_self]
  have := le_max_left |g| |g|
  have := abs_nonneg g
  positivity

/-- The index returned by `mergeLoop` is that of a pair to which no pair is preferable, or the initial one if
none was definitely below the initial gap. -/
theorem mergeLoop_close (l : List (Bin K)) (i : ℕ) (md : K) (mi : ℕ) :
    (mergeLoop (exact K) l i md mi = mi ∧ ∀ m1 c d m2, l = m1 ++ c :: d :: m2 → Close md (d.right - c.right)) ∨
    (∃ l1 a b l2, l = l1 ++ a :: b :: l2 ∧ mergeLoop (exact K) l i md mi = i + l1.length ∧
      b.right - a.right < md ∧
      ∀ m1 c d m2, l = m1 ++ c :: d :: m2 → Close (b.right - a.right) (d.right - c.right)) := by
  induction l generalizing i md mi with
  | nil => left; exact ⟨rfl, fun m1 c d m2 h => by simp at h⟩
  | cons a l ih =>
    cases l with
    | nil =>
      left
      refine ⟨rfl, fun m1 c d m2 h => ?_⟩
      have := congrArg List.length h
      simp at this
      omega
    | cons b l =>
      have hsub : (exact K).sub b.right a.right = b.right - a.right := rfl
      have split : ∀ (P : K → Prop), P (b.right - a.right) →
          (∀ m1 c d m2, b :: l = m1 ++ c :: d :: m2 → P (d.right - c.right)) →
          ∀ m1 c d m2, a :: b :: l = m1 ++ c :: d :: m2 → P (d.right - c.right) := by
        intro P h1 h2 m1 c d m2 e
        cases m1 with
        | nil =>
          simp only [List.nil_append, List.cons.injEq] at e
          obtain ⟨rfl, rfl, -⟩ := e
          exact h1
        | cons y m1 =>
          simp only [List.cons_append, List.cons.injEq] at e
          exact h2 m1 c d m2 e.2
      unfold mergeLoop
      simp only [hsub]
      split_ifs with hd
      · rw [dlt_exact] at hd
        have hlt : b.right - a.right < md := by
          have : (0 : K) ≤ max |b.right - a.right| |md| * (1 / 10000) := by
            have := (abs_nonneg (b.right - a.right)).trans (le_max_left _ |md|)
            positivity
          linarith
        right
        rcases ih (i + 1) (b.right - a.right) i with ⟨h1, h2⟩ | ⟨l1, c, d, l2, h1, h2, h3, h4⟩
        · exact ⟨[], a, b, l, rfl, by simpa using h1, hlt, split _ (Close.refl _) h2⟩
        · refine ⟨a :: l1, c, d, l2, by rw [h1]; rfl, by rw [h2]; simp; omega, h3.trans hlt, ?_⟩
          exact split (fun g => Close (d.right - c.right) g) ((Close.refl _).mono h3.le) h4
      · rw [dlt_exact, not_lt, max_comm, ← max_comm |b.right - a.right|] at hd
        have hc : Close md (b.right - a.right) := by unfold Close; exact hd
        rcases ih (i + 1) md mi with ⟨h1, h2⟩ | ⟨l1, c, d, l2, h1, h2, h3, h4⟩
        · exact Or.inl ⟨h1, split _ hc h2⟩
        · right
          refine ⟨a :: l1, c, d, l2, by rw [h1]; rfl, by rw [h2]; simp; omega, h3, ?_⟩
          exact split (fun g => Close (d.right - c.right) g) (hc.mono h3.le) h4

theorem update_of_add {h h1 h' : Hist K} {x : K} (ha : h.add (exact K) x = .ok h1)
    (hu : h.update (exact K) x = .ok h') :
    (h1.bins.length ≤ h1.numBins ∧ h' = h1) ∨
    (h1.numBins < h1.bins.length ∧ ∃ bins, mergeBins (exact K) h1.bins (mergeIndex (exact K) h1.bins)
        (mergeIndex (exact K) h1.bins + 1) = .ok bins ∧
      h' = { h1 with bins := bins, window := h1.window.map fun w =>
        if w = mergeIndex (exact K) h1.bins + 1 then mergeIndex (exact K) h1.bins else w }) := by
  unfold update at hu
  rw [ha, Res.ok_bind] at hu
  split at hu
  · rename_i hlt
    obtain ⟨bins, hb, hu⟩ := Res.bind_eq_ok.1 hu
    injection hu with hu
    exact Or.inr ⟨hlt, bins, hb, hu.symm⟩
  · injection hu with hu
    exact Or.inl ⟨by omega, hu.symm⟩

end Hist

open Hist

/-- C76 fails: of two gaps that differ by less than the tolerance the first is taken, here 1 rather than
0.99995. -/
theorem C76_violated : ¬ C76_full := by
  intro hf
  let h : Hist ℚ := { numBins := 2, windowSize := 9, bins := [⟨0, 0, 1⟩, ⟨1, 1, 1⟩],
                      window := [0, 0, 0, 0, 0, 0, 0, 0, 0, 0, 1], total := 2, historyCount := 2, live := 2 }
  obtain ⟨l1, a, b, l2, e1, e2, e3⟩ := hf 2 9 [0, 1] h
    { numBins := 2, windowSize := 9, bins := [⟨0, 0, 1⟩, ⟨1, 1, 1⟩, ⟨39999 / 20000, 39999 / 20000, 1⟩],
      window := [0, 0, 0, 0, 0, 0, 0, 0, 0, 0, 1, 2], total := 3, historyCount := 3, live := 3 }
    { numBins := 2, windowSize := 9, bins := [⟨0, 1, 2⟩, ⟨39999 / 20000, 39999 / 20000, 1⟩],
      window := [0, 0, 0, 0, 0, 0, 0, 0, 0, 0, 0, 2], total := 3, historyCount := 3, live := 3 }
    (39999 / 20000) (by decide +kernel) (by decide +kernel) (by decide +kernel) (by decide)
  have g1 := e3 [] _ _ _ rfl
  have g2 := e3 [⟨0, 0, 1⟩] _ _ [] rfl
  match l1, e1, e2 with
  | [], e1, e2 =>
    simp only [List.nil_append, List.cons.injEq] at e1
    obtain ⟨rfl, rfl, rfl⟩ := e1
    norm_num at g2
  | [_], e1, e2 =>
    simp only [List.cons_append, List.nil_append, List.cons.injEq] at e1 e2
    obtain ⟨rfl, rfl, rfl, rfl⟩ := e1
    exact absurd e2.1 (by decide)
  | _ :: _ :: l, e1, e2 =>
    have := congrArg List.length e1
    simp at this
    omega

/-- **C76**, partial: the pair merged is one whose gap no other gap undercuts by more than the relative
tolerance 0.0001; the window entries of the second bin become those of the first, and without excess nothing
is merged. Missing from the full claim: exactly the closest pair. -/
theorem C76_tolerance_partial (h h1 h' : Hist K) (x : K) (ha : h.add (exact K) x = .ok h1)
    (hu : h.update (exact K) x = .ok h') :
    (h1.bins.length ≤ h1.numBins → h' = h1) ∧
    (h1.numBins < h1.bins.length → ∃ l1 a b l2, h1.bins = l1 ++ a :: b :: l2 ∧
      h'.bins = l1 ++ Bin.add (exact K) a b :: l2 ∧
      h'.window = h1.window.map (fun w => if w = l1.length + 1 then l1.length else w) ∧
      ∀ m1 c d m2, h1.bins = m1 ++ c :: d :: m2 →
        (b.right - a.right) - (d.right - c.right) ≤
          max |d.right - c.right| |b.right - a.right| * (1 / 10000)) := by
  rcases update_of_add ha hu with ⟨h2, h3⟩ | ⟨h2, bins, h3, h4⟩
  · exact ⟨fun _ => h3, fun h => by omega⟩
  · refine ⟨fun h => by omega, fun _ => ?_⟩
    rcases mergeBins_spec (A := exact K) h1.bins (mergeIndex (exact K) h1.bins) with ⟨-, e⟩ | ⟨l', e, hm⟩
    · rw [h3] at e; cases e
    · rw [h3] at e; injection e with e; subst e
      rcases mergeLoop_close h1.bins 0 ((exact K).lit dblMax) h1.bins.length with
        ⟨g1, -⟩ | ⟨l1, a, b, l2, g1, g2, -, g4⟩
      · have := hm.length.1
        rw [mergeIndex, g1] at this
        omega
      · have hi : mergeIndex (exact K) h1.bins = l1.length := by rw [mergeIndex, g2]; omega
        rw [hi, g1] at hm
        refine ⟨l1, a, b, l2, g1, ?_, ?_, g4⟩
        · rw [h4]
          generalize hl : l1 ++ a :: b :: l2 = l at hm
          generalize hn : l1.length = n at hm
          cases hm with
          | mk k1 k2 c d =>
            obtain ⟨rfl, e⟩ := List.append_inj hl hn
            injection e with e1 e
            injection e with e2 e3
            rw [e1, e2, e3]
        · rw [h4, hi]

/-- **C76**, partial: a pair that is closer than every other pair by more than the tolerance is the one
merged. -/
theorem C76_closest_partial (h h1 h' : Hist K) (x : K) (ha : h.add (exact K) x = .ok h1)
    (hu : h.update (exact K) x = .ok h') (hn : h1.numBins < h1.bins.length)
    (l1 l2 : List (Bin K)) (a b : Bin K) (hs : h1.bins = l1 ++ a :: b :: l2)
    (hclose : ∀ m1 c d m2, h1.bins = m1 ++ c :: d :: m2 → m1.length ≠ l1.length →
      max |b.right - a.right| |d.right - c.right| * (1 / 10000) < (d.right - c.right) - (b.right - a.right)) :
    h'.bins = l1 ++ Bin.add (exact K) a b :: l2 := by
  obtain ⟨m1, c, d, m2, e1, e2, -, e4⟩ := (C76_tolerance_partial h h1 h' x ha hu).2 hn
  by_cases hl : m1.length = l1.length
  · rw [hs] at e1
    obtain ⟨rfl, e⟩ := List.append_inj e1 hl.symm
    injection e with e1 e
    injection e with e3 e5
    rw [e2, e1, e3, e5]
  · have g1 := hclose m1 c d m2 e1 hl
    have g2 := e4 l1 a b l2 hs
    linarith

/-- A histogram of two bins at 0 and 10 takes in 11: the bins at 10 and 11 are merged. -/
example : (do
    let h ← updateAll (Hist.update (exact ℚ)) (Hist.new 2 9) [0, 10, 11]
    .ok h.bins) = .ok [⟨0, 0, 1⟩, ⟨10, 11, 2⟩] := by decide +kernel

/-- A value inside a merged bin makes a bin of its own with a negative gap, which is merged first. -/
example : (do
    let h ← updateAll (Hist.update (exact ℚ)) (Hist.new 2 9) [0, 10, 11, 21 / 2]
    .ok h.bins) = .ok [⟨0, 0, 1⟩, ⟨10, 11, 3⟩] := by decide +kernel

end KML
