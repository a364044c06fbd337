import Verif.Props.HistPublic
import Verif.Spec.Quantile

/-! # C152: assigning the window size of a histogram -/

namespace KML

namespace Spec

/-- The window size after a history. -/
def lastWindow {F : Type} : ℕ → List (HWOp F) → ℕ
  | W, [] => W
  | _, .assign n :: os => lastWindow n os
  | W, .call _ :: os => lastWindow W os

/-- The total count after a history: an observation raises a total below the current window, a decay lowers one above it. -/
def tally {F : Type} : (W t : ℕ) → List (HWOp F) → ℕ
  | _, t, [] => t
  | _, t, .assign n :: os => tally n t os
  | W, t, .call .decay :: os => tally W (if t > W then t - 1 else t) os
  | W, t, .call _ :: os => tally W (if t < W then t + 1 else t) os

/-- The calls of a history. -/
def hcalls {F : Type} : List (HWOp F) → List (HCall F)
  | [] => []
  | .assign _ :: os => hcalls os
  | .call c :: os => c :: hcalls os

end Spec

open Spec

/-- **C152**, the full claim: after an update the histogram counts at most as many observations as the window size then says. -/
def C152_full : Prop := ∀ (numBins W : ℕ) (ops : List (HWOp ℚ)) (x : ℚ) (h : Hist ℚ), 0 < numBins →
  updateAll (Hist.wcall (exact ℚ)) (Hist.new numBins W) (ops ++ [.call (.update x)]) = .ok h →
  h.getTotalCount ≤ lastWindow W ops

/-- **C152** is violated: three observations, window size lowered to 1, one more: still three are counted. -/
theorem C152_violated : ¬ C152_full := by
  intro h
  have := h 5 3 [.call (.update 1), .call (.update 2), .call (.update 3), .assign 1] 4
    ⟨5, 1, [⟨1, 1, 0⟩, ⟨2, 2, 1⟩, ⟨3, 3, 1⟩, ⟨4, 4, 1⟩], [0, 0, 0, 1, 2, 3], 3, 4, 4⟩ (by decide) (by decide +kernel)
  revert this
  decide +kernel

namespace Hist

variable {F : Type} {A : Arith F}

/-- Counting facts along a history with assignments; `W0` is the window size given to the constructor. -/
structure Roamed (nb W0 W t n a : ℕ) (h : Hist F) : Prop where
  numBins : h.numBins = nb
  windowSize : h.windowSize = W
  size : h.bins.length ≤ nb + a
  total : h.total = t
  hist : h.historyCount = n
  sum_ge : h.total ≤ sumCounts h.bins
  deque : h.window.length = W0 + t

theorem Roamed.decay {nb W0 W t n a : ℕ} {h h' : Hist F} (hc : Roamed nb W0 W t n a h) (hu : h.decayCounts = .ok h') :
    Roamed nb W0 W (if t > W then t - 1 else t) n a h' := by
  obtain ⟨c1, c2, c3, c4, c5, c6, c7⟩ := hc
  by_cases ht : t > W
  · rw [if_pos ht]
    obtain ⟨d, rest, hw⟩ : ∃ d rest, h.window = d :: rest := by
      rcases hw : h.window with _ | ⟨d, w⟩
      · rw [hw] at c7; simp at c7; omega
      · exact ⟨d, w, rfl⟩
    rcases decay_evict h (by omega) hw with ⟨-, e⟩ | ⟨bins, e, he⟩
    · rw [e] at hu; cases hu
    · rw [e] at hu
      injection hu with hu
      subst hu
      have h1 := he.length
      have h2 := he.sum
      rw [hw, List.length_cons] at c7
      exact ⟨c1, c2, by simp only; omega, by simp only; omega, c5, by simp only; omega, by simp only; omega⟩
  · rw [if_neg ht]
    rw [decay_noop h (by omega)] at hu
    injection hu with hu
    subst hu
    exact ⟨c1, c2, c3, c4, c5, c6, c7⟩

theorem Roamed.add {nb W0 W t n a : ℕ} {h h' : Hist F} {x : F} (hc : Roamed nb W0 W t n a h) (hu : h.add A x = .ok h') :
    Roamed nb W0 W (if t < W then t + 1 else t) (n + 1) (a + 1) h' := by
  obtain ⟨i, b1, live, e1, e2, e3, -⟩ := place_spec (A := A) h x
  unfold Hist.add at hu
  rw [e1, Res.ok_bind, e2, Res.ok_bind] at hu
  have hl := e3.length
  have hs := e3.sum
  have h1 : Roamed nb W0 W (t + 1) (n + 1) (a + 1) ({ { h with bins := b1, live := live } with
      historyCount := h.historyCount + 1, total := h.total + 1, window := h.window ++ [i] } : Hist F) := by
    obtain ⟨c1, c2, c3, c4, c5, c6, c7⟩ := hc
    exact ⟨c1, c2, by simp only; omega, by simp only; omega, by simp only; omega, by simp only; omega,
      by simp only [List.length_append, List.length_singleton]; omega⟩
  have h2 := h1.decay hu
  by_cases ht : t < W
  · rw [if_neg (by omega)] at h2
    rw [if_pos ht]
    exact h2
  · rw [if_pos (by omega)] at h2
    rw [if_neg ht]
    exact h2

theorem Roamed.finish {nb W0 W t n a : ℕ} {h h' : Hist F} (hc : Roamed nb W0 W t n (a + 1) h) (hu : Hist.finish A h = .ok h') :
    Roamed nb W0 W t n a h' := by
  obtain ⟨c1, c2, c3, c4, c5, c6, c7⟩ := hc
  have hwin : h'.window.length = h.window.length := by
    unfold Hist.finish at hu
    split at hu
    · obtain ⟨b, -, e2⟩ := Res.bind_eq_ok.1 hu
      injection e2 with e2
      subst e2
      simp
    · injection hu with hu
      subst hu
      rfl
  obtain ⟨h1, h2, h3, h4, h5⟩ := finish_step hu
  refine ⟨h1.trans c1, h2.trans c2, ?_, h4.trans c4, h3.trans c5, ?_, hwin.trans c7⟩
  · rcases h5 with ⟨l, e⟩ | ⟨l, i, e⟩
    · rw [e]; omega
    · have := e.length; omega
  · rw [h4]
    rcases h5 with ⟨l, e⟩ | ⟨l, i, e⟩
    · rw [e]; exact c6
    · rw [e.sum]; exact c6

theorem Roamed.run {nb W0 : ℕ} (ops : List (HWOp F)) : ∀ {W t n a : ℕ} {h h' : Hist F}, Roamed nb W0 W t n a h →
    updateAll (Hist.wcall A) h ops = .ok h' →
    Roamed nb W0 (lastWindow W ops) (tally W t ops) (n + (items (hcalls ops)).length) (a + adds (hcalls ops)) h' := by
  induction ops with
  | nil =>
    intro W t n a h h' hc hu
    simp only [updateAll] at hu; injection hu with hu; subst hu
    exact hc
  | cons o ops ih =>
    intro W t n a h h' hc hu
    simp only [updateAll] at hu
    obtain ⟨h1, e1, e2⟩ := Res.bind_eq_ok.1 hu
    cases o with
    | assign k =>
      simp only [Hist.wcall] at e1
      injection e1 with e1
      subst e1
      exact ih (h := { h with windowSize := k }) ⟨hc.1, rfl, hc.3, hc.4, hc.5, hc.6, hc.7⟩ e2
    | call c =>
      cases c with
      | update x =>
        have e1 : h.update A x = .ok h1 := e1
        rw [update_eq] at e1
        obtain ⟨g, g1, g2⟩ := Res.bind_eq_ok.1 e1
        have := ih ((hc.add g1).finish g2) e2
        simp only [lastWindow, tally, hcalls, items, adds, List.length_cons]
        rw [show n + ((items (hcalls ops)).length + 1) = n + 1 + (items (hcalls ops)).length by omega]
        exact this
      | add x =>
        have := ih (hc.add e1) e2
        simp only [lastWindow, tally, hcalls, items, adds, List.length_cons]
        rw [show n + ((items (hcalls ops)).length + 1) = n + 1 + (items (hcalls ops)).length by omega,
          show a + (adds (hcalls ops) + 1) = a + 1 + adds (hcalls ops) by omega]
        exact this
      | decay => exact ih (hc.decay e1) e2

theorem Roamed.new (nb W : ℕ) : Roamed nb W W 0 0 0 (Hist.new nb W : Hist F) :=
  ⟨rfl, rfl, Nat.zero_le _, rfl, rfl, Nat.zero_le _, by simp [Hist.new]⟩

end Hist

/-- **C152**, partial (any arithmetic, every history that is defined): exactly how many observations are counted; the counts of
the bins are never fewer; `historyCount` and the number of bins are not affected. Missing: the total may exceed the window. -/
theorem C152_total_partial {F : Type} (A : Arith F) (numBins W : ℕ) (ops : List (HWOp F)) (h : Hist F)
    (hu : updateAll (Hist.wcall A) (Hist.new numBins W) ops = .ok h) :
    h.getTotalCount = tally W 0 ops ∧ h.getTotalCount ≤ (h.bins.map Bin.count).sum ∧
    h.historyCount = (items (hcalls ops)).length ∧ h.size ≤ numBins + adds (hcalls ops) := by
  have hr := Hist.Roamed.run ops (Hist.Roamed.new numBins W) hu
  exact ⟨hr.total, hr.sum_ge, by simpa using hr.hist, by have := hr.size; rw [Nat.zero_add] at this; exact this⟩

/-- A window of 2, raised to 3, lowered to 1; one decay. -/
example : (do
    let h ← updateAll (Hist.wcall b64) (Hist.new 3 2) [.call (.update 1), .call (.add 2), .call (.update 2), .assign 3,
      .call (.update 5), .assign 1, .call (.update 4), .call .decay]
    .ok (h.getTotalCount, h.historyCount, h.window.length)) = .ok (2, 5, 4) := by
  decide +kernel

/-- **C152**, partial: whatever is assigned, a decay never takes from an empty deque. Missing: the index it takes may be of a bin
that is gone (`C55_violated`). -/
theorem C152_deque_partial {F : Type} (A : Arith F) (numBins W : ℕ) (ops : List (HWOp F)) (h : Hist F)
    (hu : updateAll (Hist.wcall A) (Hist.new numBins W) ops = .ok h) :
    h.window.length = W + h.getTotalCount ∧ (h.decayCounts = .ub .oob → ∃ i ∈ h.window, h.size ≤ i) := by
  have hr := Hist.Roamed.run ops (Hist.Roamed.new numBins W) hu
  refine ⟨hr.deque.trans (by rw [← hr.total]; rfl), fun hd => ?_⟩
  by_cases ht : h.windowSize < h.total
  · rcases hw : h.window with _ | ⟨d, rest⟩
    · have := hr.deque
      have h2 := hr.total
      rw [hw] at this
      simp at this
      omega
    · rcases Hist.decay_evict h ht hw with ⟨h1, -⟩ | ⟨bins, e, -⟩
      · exact ⟨d, by simp, h1⟩
      · rw [e] at hd; cases hd
  · rw [Hist.decay_noop h (by omega)] at hd
    cases hd

/-- Four indices left in the deque, two observations counted, a window of two. -/
example : (do
    let h ← updateAll (Hist.wcall b64) (Hist.new 3 2) [.call (.update 1), .call (.update 3), .assign 1]
    let g ← h.decayCounts
    .ok (h.window.length, h.getTotalCount, g.window.length, g.getTotalCount)) = .ok (4, 2, 3, 1) := by
  decide +kernel

theorem Spec.tally_decays {F : Type} (W k : ℕ) : ∀ t, tally W t (List.replicate k (HWOp.call (F := F) .decay)) = max (t - k) (min t W) := by
  induction k with
  | zero => intro t; simp [tally]
  | succ k ih =>
    intro t
    rw [List.replicate_succ, tally, ih]
    split <;> omega

theorem Spec.tally_append {F : Type} (os ps : List (HWOp F)) : ∀ W t, tally W t (os ++ ps) = tally (lastWindow W os) (tally W t os) ps := by
  induction os with
  | nil => intro W t; rfl
  | cons o os ih =>
    intro W t
    cases o with
    | assign n => exact ih n t
    | call c => cases c <;> exact ih _ _

/-- **C152**, partial: after the window size was lowered to `n`, as many calls of `decayCounts` as there are observations too many
bring the total down to `n`, and further calls change nothing of it. Missing: updates do not do so by themselves. -/
theorem C152_decay_partial {F : Type} (A : Arith F) (numBins W n k : ℕ) (ops : List (HWOp F)) (h : Hist F)
    (hk : tally W 0 ops ≤ n + k)
    (hu : updateAll (Hist.wcall A) (Hist.new numBins W) (ops ++ (.assign n :: List.replicate k (.call .decay))) = .ok h) :
    h.getTotalCount = min (tally W 0 ops) n := by
  rw [(C152_total_partial A numBins W _ h hu).1, Spec.tally_append, tally, Spec.tally_decays]
  omega

/-- Three observations, the window size lowered to 1, two decays. -/
example : (do
    let h ← updateAll (Hist.wcall b64) (Hist.new 5 3)
      [.call (.update 1), .call (.update 2), .call (.update 3), .assign 1, .call .decay, .call .decay]
    .ok (h.getTotalCount, h.bins, h.window)) = .ok (1, [⟨1, 1, 0⟩, ⟨2, 2, 1⟩, ⟨3, 3, 1⟩], [0, 0, 1, 2]) := by
  decide +kernel

/-- The window size is never lowered. -/
def Spec.Rising {F : Type} : ℕ → List (HWOp F) → Prop
  | _, [] => True
  | W, .assign n :: os => W ≤ n ∧ Rising n os
  | W, .call _ :: os => Rising W os

theorem Spec.tally_rising {F : Type} (ops : List (HWOp F)) : ∀ W t, t ≤ W → Rising W ops → tally W t ops ≤ lastWindow W ops := by
  induction ops with
  | nil => intro W t h _; exact h
  | cons o ops ih =>
    intro W t h hr
    cases o with
    | assign n => exact ih n t (h.trans hr.1) hr.2
    | call c =>
      cases c with
      | decay => exact ih W _ (by split <;> omega) hr
      | update x => exact ih W _ (by split <;> omega) hr
      | add x => exact ih W _ (by split <;> omega) hr

/-- **C152**, partial: if the window size is only ever raised, the total never exceeds it. Missing: lowering it. -/
theorem C152_rising_partial {F : Type} (A : Arith F) (numBins W : ℕ) (ops : List (HWOp F)) (h : Hist F) (hr : Rising W ops)
    (hu : updateAll (Hist.wcall A) (Hist.new numBins W) ops = .ok h) : h.getTotalCount ≤ lastWindow W ops := by
  rw [(C152_total_partial A numBins W ops h hu).1]
  exact Spec.tally_rising ops W 0 (Nat.zero_le _) hr

/-- Window size 1, raised to 3. -/
example : Rising 1 ([.call (.update 1), .call (.update 2), .assign 3, .call (.update 3), .call (.update 4)] : List (HWOp ℚ)) ∧
    (do
      let h ← updateAll (Hist.wcall b64) (Hist.new 5 1)
        [.call (.update 1), .call (.update 2), .assign 3, .call (.update 3), .call (.update 4)]
      .ok h.getTotalCount) = .ok 3 := by
  refine ⟨by simp [Rising], by decide +kernel⟩

end KML
