import Verif.Model.HistDecay
import Verif.Props.HistMemory
import Verif.Props.Python

/-! # C115: the decay type of the histogram -/

namespace KML

variable {F : Type}

/-- A history of updates and resets. -/
def DHist.runCalls (A : Arith F) : DHist F → List (HistCall F) → Res (DHist F)
  | h, [] => .ok h
  | h, .update x :: cs => do
    let h ← h.update A x
    runCalls A h cs
  | h, .reset :: cs => runCalls A h.reset cs

/-- **C115**, the full property: a histogram constructed with any decay type can be updated with any number. -/
def C115_full : Prop := ∀ (numBins W : ℕ) (d : DecayType) (x : ℚ), 0 < numBins →
  ((DHist.new numBins W d).update (exact ℚ) x).IsOk

/-- **C115**, decay types other than `WINDOW`: construction, queries and `reset` work, and the first `update` writes through a null
pointer, whatever the arithmetic, the parameters and the observation. -/
theorem C115_first_update (A : Arith F) (numBins W : ℕ) (x : F) (cs : List (HistCall F)) (k : ℕ) :
    (DHist.new numBins W .zero).runCalls A (List.replicate k .reset ++ .update x :: cs) = .ub .nullDeref := by
  have key : ∀ k, (DHist.new numBins W .zero).runCalls A (List.replicate k .reset ++ .update x :: cs) =
      (DHist.new numBins W .zero).runCalls A (.update x :: cs) := by
    intro k
    induction k with
    | zero => rfl
    | succ k ih => exact ih
  rw [key]
  have e : (DHist.new numBins W .zero).view.binSearch A x = .ok 0 := by
    simp [Hist.binSearch, Hist.binSearchBin, DHist.view, DHist.new, Hist.searchLoop]
  have : (DHist.new numBins W .zero).update A x = .ub .nullDeref := by
    simp only [DHist.update, DHist.add, e, Res.ok_bind]
    rfl
  simp only [DHist.runCalls, this, Res.ub_bind]

/-- **C115** is violated: `StreamingHistogram(5, 5, static_cast<DecayType>(0))`, then `update`. -/
theorem C115_violated : ¬ C115_full := by
  intro h
  obtain ⟨g, h⟩ := h 5 5 .zero 1 (by norm_num)
  have := C115_first_update (exact ℚ) 5 5 1 [] 0
  simp only [List.replicate, List.nil_append, DHist.runCalls, h] at this
  cases this

/-- **C115**, Python: `PyStreamingHistogram(5, 5, 0)` is constructed, its first `update(1)` is undefined behaviour; a decay type that is
no integer raises. -/
theorem C115_python_violated [Cython] :
    (∃ h, Py.histogramDecay (.int 5) (.int 5) (.int 0) = .ok h ∧
      (PyVal.update PyVal.asDouble (DHist.update Dbl.arith) h (.int 1)).1 = .ub .nullDeref) ∧
    (∀ s, Py.histogramDecay (.int 5) (.int 5) (.str s) = .throw "TypeError") ∧
    Py.histogramDecay (.int 5) (.int 5) .none = .throw "TypeError" :=
  ⟨⟨_, rfl, by decide +kernel⟩, fun _ => rfl, rfl⟩

/-- What the two models have in common. -/
def DHist.Same (g : DHist F) (h : Hist F) : Prop :=
  g.decay = .window ∧ g.numBins = h.numBins ∧ g.windowSize = h.windowSize ∧ g.bins = h.bins ∧ g.window = some h.window ∧
    g.total = h.total ∧ g.historyCount = h.historyCount

theorem DHist.Same.view {g : DHist F} {h : Hist F} (hs : g.Same h) : g.view = { h with live := 0 } := by
  obtain ⟨-, h1, h2, h3, h4, h5, h6⟩ := hs
  simp [DHist.view, h1, h2, h3, h4, h5, h6]

/-- Outcomes related by `P`: both values, or the same exception or undefined behaviour. -/
def Res.Both {α β : Type} (P : α → β → Prop) : Res α → Res β → Prop
  | .ok a, .ok b => P a b
  | .throw m, .throw m' => m = m'
  | .ub u, .ub u' => u = u'
  | _, _ => False

theorem Res.Both.bind {α β α' β' : Type} {P : α → β → Prop} {Q : α' → β' → Prop} {x : Res α} {y : Res β} {f : α → Res α'}
    {g : β → Res β'} (h : Res.Both P x y) (hf : ∀ a b, P a b → Res.Both Q (f a) (g b)) : Res.Both Q (x >>= f) (y >>= g) := by
  cases x <;> cases y <;> first | exact h.elim | skip
  · exact hf _ _ h
  · exact h
  · exact h

theorem DHist.Same.decayCounts {g : DHist F} {h : Hist F} (hs : g.Same h) : Res.Both DHist.Same g.decayCounts h.decayCounts := by
  rcases g with ⟨d, n, W, b, w, t, c⟩
  rcases h with ⟨n', W', b', w', t', c', l⟩
  obtain ⟨h0, h1, h2, h3, h4, h5, h6⟩ := hs
  dsimp only at h0 h1 h2 h3 h4 h5 h6
  subst h0 h1 h2 h3 h4 h5 h6
  unfold DHist.decayCounts Hist.decayCounts
  rw [if_pos rfl]
  dsimp only
  split
  · rcases w' with _ | ⟨del, rest⟩
    · rfl
    · dsimp only
      rcases hb : b[del]? with _ | b
      · rfl
      · exact ⟨rfl, rfl, rfl, rfl, rfl, rfl, rfl⟩
  · exact ⟨rfl, rfl, rfl, rfl, rfl, rfl, rfl⟩

theorem DHist.Same.place {A : Arith F} {g : DHist F} {h : Hist F} (hs : g.Same h) (x : F) (i : ℕ) :
    Res.Both DHist.Same (g.place A x i) (h.place A x i) := by
  rcases g with ⟨d, n, W, b, w, t, c⟩
  rcases h with ⟨n', W', b', w', t', c', l⟩
  obtain ⟨h0, h1, h2, h3, h4, h5, h6⟩ := hs
  dsimp only at h0 h1 h2 h3 h4 h5 h6
  subst h0 h1 h2 h3 h4 h5 h6
  unfold DHist.place Hist.place
  dsimp only
  split
  · exact ⟨rfl, rfl, rfl, rfl, rfl, rfl, rfl⟩
  · split
    · exact ⟨rfl, rfl, rfl, rfl, rfl, rfl, rfl⟩
    · rcases hb : b[i]? with _ | b
      · rfl
      · dsimp only
        split <;> exact ⟨rfl, rfl, rfl, rfl, rfl, rfl, rfl⟩

theorem DHist.Same.update {A : Arith F} {g : DHist F} {h : Hist F} (hs : g.Same h) (x : F) :
    Res.Both DHist.Same (g.update A x) (h.update A x) := by
  unfold DHist.update Hist.update
  refine Res.Both.bind (P := DHist.Same) ?_ ?_
  · unfold DHist.add Hist.add
    rw [hs.view]
    refine Res.Both.bind (P := Eq) ?_ ?_
    · show Res.Both Eq (h.binSearch A x) (h.binSearch A x)
      cases h.binSearch A x <;> exact rfl
    · rintro i _ rfl
      refine Res.Both.bind (hs.place x i) ?_
      rintro g' h' ⟨h0, h1, h2, h3, h4, h5, h6⟩
      rw [h4]
      exact DHist.Same.decayCounts ⟨h0, h1, h2, h3, rfl, by simp [h5], by simp [h6]⟩
  · rintro ⟨d, n, W, b, w, t, c⟩ ⟨n', W', b', w', t', c', l⟩ ⟨h0, h1, h2, h3, h4, h5, h6⟩
    dsimp only at h0 h1 h2 h3 h4 h5 h6
    subst h0 h1 h2 h3 h4 h5 h6
    dsimp only
    split
    · refine Res.Both.bind (P := Eq) ?_ ?_
      · cases Hist.mergeBins A b (Hist.mergeIndex A b) (Hist.mergeIndex A b + 1) <;> exact rfl
      · rintro b _ rfl
        exact ⟨rfl, rfl, rfl, rfl, rfl, rfl, rfl⟩
    · exact ⟨rfl, rfl, rfl, rfl, rfl, rfl, rfl⟩

/-- **C115**, `WINDOW` (any arithmetic, any history of updates and resets): the histogram with its decay type is the histogram all other
theorems are about: the same outcome, and the same bins, window and counts. -/
theorem C115_window_partial (A : Arith F) (numBins W : ℕ) (cs : List (HistCall F)) :
    Res.Both (fun g h => g.bins = h.bins ∧ g.window = some h.window ∧
        (g.numBins, g.windowSize, g.total, g.historyCount) = (h.numBins, h.windowSize, h.total, h.historyCount))
      ((DHist.new numBins W .window).runCalls A cs) ((Hist.new numBins W).runCalls A cs) := by
  have key : ∀ (cs : List (HistCall F)) (g : DHist F) (h : Hist F), g.Same h → Res.Both DHist.Same (g.runCalls A cs) (h.runCalls A cs) := by
    intro cs
    induction cs with
    | nil => intro g h hs; exact hs
    | cons c cs ih =>
      intro g h hs
      cases c with
      | update x => exact Res.Both.bind (hs.update x) fun a b h => ih a b h
      | reset =>
        refine ih _ _ ?_
        obtain ⟨h0, h1, h2, h3, h4, h5, h6⟩ := hs
        exact ⟨h0, h1, h2, rfl, by simp [DHist.reset, Hist.reset, h4], h5, rfl⟩
  have := key cs (DHist.new numBins W .window) (Hist.new numBins W) ⟨rfl, rfl, rfl, rfl, rfl, rfl, rfl⟩
  revert this
  rcases (DHist.new numBins W .window).runCalls A cs with g | m | u <;>
  rcases (Hist.new numBins W).runCalls A cs with h | m' | u' <;> intro hr <;> try exact hr
  obtain ⟨-, h1, h2, h3, h4, h5, h6⟩ := hr
  exact ⟨h3, h4, by rw [h1, h2, h5, h6]⟩

/-- The Python default is `WINDOW`, and with it a histogram of 2 bins merges, decays and is reset as before (the
count of the first bin after a reset is wrong, see C62). -/
example : (match (DHist.new 2 3 .window).runCalls (exact ℚ) [.update 1, .update 5, .update 6, .update 0, .reset, .update 7] with
    | .ok g => decide (g.bins = [⟨7, 7, 0⟩]) && decide (g.historyCount = 1)
    | _ => false) = true := by
  decide +kernel

/-- **C115**, Python: with the default decay type the constructor builds the histogram of `Py.histogram`. -/
theorem C115_python_partial [Cython] (numBins window : PyVal) :
    Res.Both DHist.Same (Py.histogramDecay numBins window (.int 1)) (Py.histogram numBins window) := by
  unfold Py.histogramDecay Py.histogram
  cases numBins.asUInt64 with
  | ok n =>
    cases window.asUInt64 with
    | ok W => exact ⟨rfl, rfl, rfl, rfl, rfl, rfl, rfl⟩
    | _ => exact rfl
  | _ => exact rfl

/-- **C115** Which integers Python can pass as decay type: 1 gives the histogram of the other theorems, 0 the one without window, any other
unsigned 32-bit integer is undefined behaviour, and the rest is refused. -/
theorem C115_arguments_partial [Cython] (numBins W : ℕ) (hn : numBins < 2 ^ 64) (hW : W < 2 ^ 64) (n : ℤ) :
    Py.histogramDecay (.int numBins) (.int W) (.int n) =
      if n < 0 then .throw "OverflowError" else if n = 0 then .ok (DHist.new numBins W .zero)
      else if n = 1 then .ok (DHist.new numBins W .window) else if n < 4294967296 then .ub .badConv else .throw "OverflowError" := by
  have e : ∀ k : ℕ, k < 2 ^ 64 → PyVal.asUInt64 (.int k) = .ok k := by
    intro k hk
    unfold PyVal.asUInt64 PyVal.asInt
    rw [Res.ok_bind, if_pos ⟨Int.natCast_nonneg k, by exact_mod_cast hk⟩, Int.toNat_natCast]
  have p32 : (2 : ℤ) ^ 32 = 4294967296 := by norm_num
  unfold Py.histogramDecay PyVal.asDecayType PyVal.asInt
  rw [e _ hn, e _ hW, p32, Res.ok_bind, Res.ok_bind, Res.ok_bind]
  generalize (4294967296 : ℤ) = b at p32
  have hb1 : 1 < b := by rw [← p32]; norm_num
  by_cases h1 : n = 1
  · subst h1; simp
  · by_cases h0 : n = 0
    · subst h0; simp
    · by_cases hneg : n < 0
      · simp [h1, h0, hneg]
      · by_cases hb : n < b
        · simp [h1, h0, hneg, hb, not_le.mpr hb]
        · simp [h1, h0, hneg, hb, not_lt.mp hb]

/-- All five cases occur -/
example [Cython] : Py.histogramDecay (.int 5) (.int 5) (.int (-1)) = .throw "OverflowError" ∧
    Py.histogramDecay (.int 5) (.int 5) (.int 2) = .ub .badConv ∧
    Py.histogramDecay (.int 5) (.int 5) (.int 4294967296) = .throw "OverflowError" := by
  refine ⟨?_, ?_, ?_⟩
  · exact (C115_arguments_partial 5 5 (by norm_num) (by norm_num) (-1)).trans (by simp)
  · exact (C115_arguments_partial 5 5 (by norm_num) (by norm_num) 2).trans (by simp)
  · exact (C115_arguments_partial 5 5 (by norm_num) (by norm_num) 4294967296).trans (by simp)

end KML
