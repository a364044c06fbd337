import Verif.Props.HistThreshold
import Verif.Model.HistPublic

/-! # C154: a derived class that changes the deque of indices of a histogram

`getWindow` is protected, so only derived classes (as `StreamingHistogram::update` itself) can do this. -/

namespace KML

open Utils

namespace Spec

/-- The observations of a history. -/
def given {F : Type} : List (HDOp F) → List F
  | [] => []
  | .update x :: os => x :: given os
  | .setWindow _ :: os => given os

@[simp] theorem given_append {F : Type} (os ps : List (HDOp F)) : given (os ++ ps) = given os ++ given ps := by
  induction os with
  | nil => rfl
  | cons o os ih => cases o <;> simp [given, ih]

/-- The deque is emptied before every observation. -/
def emptied {F : Type} : List F → List (HDOp F)
  | [] => []
  | x :: xs => .setWindow [] :: .update x :: emptied xs

end Spec

open Spec

namespace Hist

variable {F : Type} {A : Arith F} {P : F → Prop}

theorem redeque_cases {h h' : Hist F} {o : HDOp F} (e : h.redeque A o = .ok h') :
    (∃ x, o = .update x ∧ h.update A x = .ok h') ∨ ∃ w, o = .setWindow w ∧ h' = { h with window := w } := by
  cases o with
  | update x => exact .inl ⟨x, rfl, e⟩
  | setWindow w => injection e with e; exact .inr ⟨w, rfl, e.symm⟩

/-- What changes of the deque cannot touch. -/
structure Firm (nb W n : ℕ) (P : F → Prop) (h : Hist F) : Prop where
  numBins : h.numBins = nb
  windowSize : h.windowSize = W
  size : h.bins.length ≤ nb
  total : h.total = min n W
  hist : h.historyCount = n
  sum_ge : h.total ≤ sumCounts h.bins
  edges : Edges P h.bins

theorem Firm.update {nb W n : ℕ} {h h' : Hist F} {x : F} (hc : Firm nb W n P h) (hx : P x)
    (hu : h.update A x = .ok h') : Firm nb W (n + 1) P h' := by
  obtain ⟨i, b1, b2, hs⟩ := update_step hu
  have hsz := hs.size (by rw [hc.numBins]; exact hc.size)
  have h1 := hc.numBins
  have h2 := hc.windowSize
  have h3 := hc.total
  have h4 := hc.sum_ge
  have hps := hs.placed.sum
  have hm : sumCounts h'.bins = sumCounts b2 := by
    rcases hs.merge with ⟨-, m⟩ | ⟨-, m⟩
    · rw [m]
    · exact m.sum
  refine ⟨by rw [hs.numBins, h1], by rw [hs.windowSize, h2], by omega, ?_, by rw [hs.count, hc.hist], ?_,
    (hs.edges hx hc.edges).2⟩
  · rcases hs.decay with ⟨h5, -, h6, -⟩ | ⟨h5, h6, -⟩ <;> omega
  · rcases hs.decay with ⟨h5, e, h6, -⟩ | ⟨h5, h6, d, w, -, e, -⟩
    · subst e; omega
    · have := e.sum; omega

theorem Firm.run {nb W : ℕ} {h : Hist F} {ops : List (HDOp F)} (hx : ∀ x ∈ given ops, P x)
    (hu : updateAll (Hist.redeque A) (Hist.new nb W) ops = .ok h) : Firm nb W (given ops).length P h := by
  induction ops using List.reverseRecOn generalizing h with
  | nil =>
    simp only [updateAll] at hu; injection hu with hu; subst hu
    exact ⟨rfl, rfl, Nat.zero_le _, by simp [Hist.new, given], rfl, Nat.zero_le _, by intro b hb; simp [Hist.new] at hb⟩
  | append_singleton ops o ih =>
    rw [updateAll_snoc] at hu
    obtain ⟨h1, e1, e2⟩ := Res.bind_eq_ok.1 hu
    rw [given_append] at hx ⊢
    have hk := ih (fun x h => hx x (by simp [h])) e1
    rcases redeque_cases e2 with ⟨x, rfl, e⟩ | ⟨w, rfl, rfl⟩
    · rw [List.length_append]
      exact hk.update (hx x (by simp [given])) e
    · simp only [given, List.append_nil]
      exact ⟨hk.numBins, hk.windowSize, hk.size, hk.total, hk.hist, hk.sum_ge, hk.edges⟩

/-- A histogram, its deque forgotten. -/
def undequed (h : Hist F) : Hist F := { h with window := [] }

theorem undequed_update {h : Hist F} (ht : h.total < h.windowSize) (x : F) :
    undequed <$> h.undequed.update A x = undequed <$> h.update A x := by
  obtain ⟨i, b1, l1, s1, p1, -⟩ := place_spec (A := A) h x
  have s2 : h.undequed.binSearch A x = .ok i := s1
  have p2 : h.undequed.place A x i = .ok { h.undequed with bins := b1, live := l1 } := by
    have : h.undequed.place A x i = undequed <$> h.place A x i := by
      unfold place undequed
      by_cases h0 : h.total = 0
      · simp [h0]
      by_cases h1 : i = h.bins.length
      · simp [h0, h1]
      simp only [h0, h1, if_false]
      cases hb : h.bins[i]? with
      | none => rfl
      | some b => cases hl : A.le b.left x <;> simp [hl]
    rw [this, p1]
    rfl
  rw [update_eq, update_eq]
  unfold Hist.add
  rw [s1, s2, Res.ok_bind, Res.ok_bind, p1, p2, Res.ok_bind, Res.ok_bind, decay_noop _ (by simp [undequed]; omega),
    decay_noop _ (by simp; omega), Res.ok_bind, Res.ok_bind]
  unfold finish
  simp only [undequed]
  split
  · rcases mergeBins A b1 (mergeIndex A b1) (mergeIndex A b1 + 1) with a | a | a <;> simp [undequed]
  · simp [undequed]

theorem undequed_run {nb W : ℕ} {h : Hist F} {ops : List (HDOp F)} (hn : (given ops).length ≤ W)
    (hu : updateAll (Hist.redeque A) (Hist.new nb W) ops = .ok h) :
    ∃ g, updateAll (Hist.update A) (Hist.new nb W) (given ops) = .ok g ∧ g.undequed = h.undequed := by
  induction ops using List.reverseRecOn generalizing h with
  | nil => simp only [updateAll] at hu; injection hu with hu; subst hu; exact ⟨_, rfl, rfl⟩
  | append_singleton ops o ih =>
    rw [updateAll_snoc] at hu
    obtain ⟨h1, e1, e2⟩ := Res.bind_eq_ok.1 hu
    rw [given_append, List.length_append] at hn
    obtain ⟨g, e3, e4⟩ := ih (by omega) e1
    rw [given_append]
    have hk := Firm.run (P := fun _ => True) (fun _ _ => trivial) e1
    rcases redeque_cases e2 with ⟨x, rfl, e⟩ | ⟨w, rfl, rfl⟩
    · simp only [given, List.length_singleton] at hn ⊢
      rw [updateAll_snoc, e3, Res.ok_bind]
      have h1t : h1.total < h1.windowSize := by have := hk.total; have := hk.windowSize; omega
      have hgt : g.total < g.windowSize := by
        have q1 := congrArg Hist.total e4
        have q2 := congrArg Hist.windowSize e4
        simp only [undequed] at q1 q2
        omega
      have := undequed_update (A := A) hgt x
      rw [e4, undequed_update h1t x, e] at this
      revert this
      rcases g.update A x with a | a | a
      · intro this
        simp only [Res.map_ok] at this
        injection this with this
        exact ⟨a, rfl, this.symm⟩
      · intro this; cases this
      · intro this; cases this
    · exact ⟨g, by simpa [given] using e3, by rw [e4]; rfl⟩

/-- The first index of the deque decides, and of an empty deque the new one. -/
theorem Firm.ok (hc : Mergeable A P) {nb W n : ℕ} (hb : 1 ≤ nb) {h : Hist F} (hk : Firm nb W n P h)
    (hd : ∀ d, h.window.head? = some d → d < max 1 h.bins.length) {x : F} (hx : P x) : (h.update A x).IsOk := by
  rcases hc.update (by rw [hk.numBins]; exact hb) hk.edges hx with ⟨h', i, b1, b2, e', -⟩ | ⟨-, i, b1, hp, -, d', w, hdw, hbd⟩
  · exact ⟨h', e'⟩
  · exfalso
    have hl := hp.length
    cases hw : h.window with
    | nil =>
      rw [hw] at hdw
      simp only [List.nil_append, List.cons.injEq] at hdw
      omega
    | cons d u =>
      rw [hw] at hdw
      simp only [List.cons_append, List.cons.injEq] at hdw
      have := hd d (by rw [hw]; rfl)
      omega

end Hist

/-- **C154**, the full claim: whatever was done to the deque of indices, an observation is processed. -/
def C154_full : Prop := ∀ (numBins W : ℕ) (ops : List (HDOp ℚ)) (x : ℚ) (h : Hist ℚ), 1 ≤ numBins → 1 ≤ W →
  (∀ y ∈ x :: given ops, |y| ≤ 10) → updateAll (Hist.redeque (exact ℚ)) (Hist.new numBins W) ops = .ok h →
  (given ops).length < 2 * W + numBins → (h.update (exact ℚ) x).IsOk

/-- **C154** is violated: window 1, one observation, the index 5 written, another observation. -/
theorem C154_violated : ¬ C154_full := by
  intro h
  obtain ⟨h', e⟩ := h 3 1 [.update 1, .setWindow [5]] 2 ⟨3, 1, [⟨1, 1, 1⟩], [5], 1, 1, 1⟩ (by decide) (by decide)
    (by decide +kernel) (by decide +kernel) (by decide)
  have e2 : Hist.update (exact ℚ) ⟨3, 1, [⟨1, 1, 1⟩], [5], 1, 1, 1⟩ (2 : ℚ) = .ub .oob := by decide +kernel
  rw [e2] at e
  cases e

/-- **C154**, definedness (any arithmetic): if the deque is empty or starts with the index of a bin, the next observation is processed,
however the deque came about. Missing: other first indices, as in `C154_violated`. -/
theorem C154_defined_partial {F : Type} (A : Arith F) (numBins W : ℕ) (hb : 1 ≤ numBins) (ops : List (HDOp F)) (x : F) (h : Hist F)
    (hd : ∀ a ∈ x :: given ops, ∀ b ∈ x :: given ops, definitelyLessThan A (A.sub b a) (A.lit dblMax) (defaultEps A) = true)
    (hu : updateAll (Hist.redeque A) (Hist.new numBins W) ops = .ok h)
    (hw : ∀ d, h.window.head? = some d → d < max 1 h.size) : (h.update A x).IsOk := by
  have hc : Hist.Mergeable A (fun y => y ∈ x :: given ops) := fun a b ha hb => hd a ha b hb
  exact (Hist.Firm.run (fun y hy => List.mem_cons_of_mem _ hy) hu).ok hc hb hw (List.mem_cons_self ..)

/-- The deque emptied after two observations with window 2, then index 1 of two bins put there: the observation 7 is processed. -/
example : ∃ h, updateAll (Hist.redeque (exact ℚ)) (Hist.new 3 2) [.update 1, .update 2, .setWindow [], .setWindow [1]] = .ok h ∧
    (∀ d, h.window.head? = some d → d < max 1 h.size) ∧
    h.update (exact ℚ) 7 = .ok ⟨3, 2, [⟨1, 1, 1⟩, ⟨2, 2, 0⟩, ⟨7, 7, 1⟩], [2], 2, 3, 3⟩ ∧
    ∀ a ∈ [7, 1, 2], ∀ b ∈ [7, 1, 2],
      definitelyLessThan (exact ℚ) ((exact ℚ).sub b a) ((exact ℚ).lit dblMax) (defaultEps (exact ℚ)) = true := by
  refine ⟨⟨3, 2, [⟨1, 1, 1⟩, ⟨2, 2, 1⟩], [1], 2, 2, 2⟩, by decide +kernel, ?_, by decide +kernel, by decide +kernel⟩
  intro d hd
  simp only [List.head?_cons, Option.some.injEq] at hd
  subst hd
  decide

/-- **C154**, undefinedness (any arithmetic): once `W` observations were made, a first index greater than the number of bins makes the
next observation undefined, whatever it is. -/
theorem C154_undefined {F : Type} (A : Arith F) (numBins W : ℕ) (ops : List (HDOp F)) (x : F) (h : Hist F) (d : ℕ)
    (hn : W ≤ (given ops).length) (hu : updateAll (Hist.redeque A) (Hist.new numBins W) ops = .ok h)
    (hw : h.window.head? = some d) (hd : h.size < d) : h.update A x = .ub .oob := by
  have hk := Hist.Firm.run (P := fun _ => True) (fun _ _ => trivial) hu
  rcases Hist.update_cases (A := A) h x with ⟨h', i, b1, b2, -, hs⟩ | ⟨e, -⟩
  · exfalso
    have h1 := hk.total
    have h2 := hk.windowSize
    have h3 := hs.placed.length
    rcases hs.decay with ⟨h4, -⟩ | ⟨-, -, d', w, h4, h5, -⟩
    · omega
    · have h6 := h5.length
      cases hw' : h.window with
      | nil => rw [hw'] at hw; cases hw
      | cons c u =>
        rw [hw'] at hw h4
        simp only [List.head?_cons, Option.some.injEq] at hw
        simp only [List.cons_append, List.cons.injEq] at h4
        unfold Hist.size at hd
        omega
  · exact e

/-- One bin of which the deque says 2. -/
example : ∃ h, updateAll (Hist.redeque (exact ℚ)) (Hist.new 3 2) [.update 1, .update 1, .setWindow [2, 0]] = .ok h ∧
    h.window.head? = some 2 ∧ h.size < 2 := by
  exact ⟨⟨3, 2, [⟨1, 1, 2⟩], [2, 0], 2, 2, 1⟩, by decide +kernel, rfl, by decide⟩

/-- **C154**, exactly when (any arithmetic): with the window full, the observation goes to a bin `i` and the histogram then has `k` bins,
as many as before or one more; it is processed if and only if the first index of the deque, `i` if there is none, is less than `k`. -/
theorem C154_exact {F : Type} (A : Arith F) (numBins W : ℕ) (hb : 1 ≤ numBins) (ops : List (HDOp F)) (x : F) (h : Hist F)
    (hd : ∀ a ∈ x :: given ops, ∀ b ∈ x :: given ops, definitelyLessThan A (A.sub b a) (A.lit dblMax) (defaultEps A) = true)
    (hn : W ≤ (given ops).length) (hu : updateAll (Hist.redeque A) (Hist.new numBins W) ops = .ok h) :
    ∃ i k h1, h.binSearch A x = .ok i ∧ h.place A x i = .ok h1 ∧ h1.size = k ∧ h.size ≤ k ∧ k ≤ h.size + 1 ∧ i < k ∧
      ((h.update A x).IsOk ↔ h.window.head?.getD i < k) := by
  have hc : Hist.Mergeable A (fun y => y ∈ x :: given ops) := fun a b ha hb => hd a ha b hb
  have hk := Hist.Firm.run (P := fun y => y ∈ x :: given ops) (fun y hy => List.mem_cons_of_mem _ hy) hu
  obtain ⟨i, b1, live, e1, e2, hp, -⟩ := Hist.place_spec (A := A) h x
  have hl := hp.length
  refine ⟨i, b1.length, _, e1, e2, rfl, hl.2.1, hl.2.2.1, hl.1, ?_⟩
  have h1 := hk.total
  have h2 := hk.windowSize
  have hfirst : ∀ d w, h.window ++ [i] = d :: w → h.window.head?.getD i = d := by
    intro d w e
    cases hw : h.window with
    | nil => rw [hw] at e; simp only [List.nil_append, List.cons.injEq] at e; simp [e.1]
    | cons c u => rw [hw] at e; simp only [List.cons_append, List.cons.injEq] at e; simp [e.1]
  obtain ⟨d, w, hw⟩ : ∃ d w, h.window ++ [i] = d :: w := by
    cases hh : h.window with
    | nil => exact ⟨i, [], rfl⟩
    | cons d w => exact ⟨d, w ++ [i], rfl⟩
  rw [hfirst d w hw, Hist.update_eq]
  unfold Hist.add
  rw [e1, Res.ok_bind, e2, Res.ok_bind]
  rcases Hist.decay_evict ({ h with
      bins := b1, live := live, historyCount := h.historyCount + 1, total := h.total + 1,
      window := h.window ++ [i] } : Hist F) (by simp only; omega) hw with ⟨h3, he⟩ | ⟨b2, he, hev⟩
  · rw [he]
    constructor
    · rintro ⟨h', e'⟩
      cases e'
    · intro hlt
      simp only at h3
      omega
  · rw [he, Res.ok_bind]
    refine ⟨fun _ => hev.length.1, fun _ => ?_⟩
    unfold Hist.finish
    simp only
    split
    · rename_i h3
      have hE := hev.edges (hp.edges (List.mem_cons_self ..) hk.edges)
      have := hc.merge (by rw [hk.numBins]; exact hb) hE h3
      rcases Hist.mergeBins_spec (A := A) b2 (Hist.mergeIndex A b2) with ⟨hm, -⟩ | ⟨l', hm, -⟩
      · omega
      · rw [hm]; exact ⟨_, rfl⟩
    · exact ⟨_, rfl⟩

/-- Two bins and index 2 at the front: the observation 7 gets a third bin and is processed, the observation 2 does not and is not. -/
example : ∃ h, updateAll (Hist.redeque (exact ℚ)) (Hist.new 5 2) [.update 1, .update 2, .setWindow [2]] = .ok h ∧
    h.update (exact ℚ) 7 = .ok ⟨5, 2, [⟨1, 1, 1⟩, ⟨2, 2, 1⟩, ⟨7, 7, 0⟩], [2], 2, 3, 3⟩ ∧ h.update (exact ℚ) 2 = .ub .oob := by
  exact ⟨⟨5, 2, [⟨1, 1, 1⟩, ⟨2, 2, 1⟩], [2], 2, 2, 2⟩, by decide +kernel, by decide +kernel, by decide +kernel⟩

/-- **C154**, a way out (any arithmetic): a derived class that empties the deque before every observation can go on for ever, while without
that some stream of `2 W + numBins + 1` observations is not survived (C109). The price: with the window full, each new observation is
taken away again at once. -/
theorem C154_emptied {F : Type} (A : Arith F) (numBins W : ℕ) (hb : 1 ≤ numBins) (xs : List F)
    (hd : ∀ a ∈ xs, ∀ b ∈ xs, definitelyLessThan A (A.sub b a) (A.lit dblMax) (defaultEps A) = true) :
    (updateAll (Hist.redeque A) (Hist.new numBins W) (emptied xs)).IsOk := by
  have hc : Hist.Mergeable A (fun y => y ∈ xs) := fun a b ha hb => hd a ha b hb
  have key : ∀ (ys : List F) (n : ℕ) (h : Hist F), (∀ y ∈ ys, y ∈ xs) → Hist.Firm numBins W n (fun y => y ∈ xs) h →
      (updateAll (Hist.redeque A) h (emptied ys)).IsOk := by
    intro ys
    induction ys with
    | nil => intro n h _ _; exact ⟨h, rfl⟩
    | cons y ys ih =>
      intro n h hy hk
      have hk' : Hist.Firm numBins W n (fun y => y ∈ xs) { h with window := [] } :=
        ⟨hk.numBins, hk.windowSize, hk.size, hk.total, hk.hist, hk.sum_ge, hk.edges⟩
      obtain ⟨h', e⟩ := hk'.ok hc hb (by simp) (hy y (by simp))
      obtain ⟨h'', e'⟩ := ih (n + 1) h' (fun z hz => hy z (by simp [hz])) (hk'.update (hy y (by simp)) e)
      refine ⟨h'', ?_⟩
      simp only [emptied, updateAll, Hist.redeque, Res.ok_bind, e]
      exact e'
  exact key xs 0 _ (fun y hy => hy) ⟨rfl, rfl, Nat.zero_le _, by simp [Hist.new], rfl, Nat.zero_le _,
    by intro b hb; simp [Hist.new] at hb⟩

/-- The stream 1, 2, 1, 2 with one bin and window 1, undefined without emptying the deque (`C55_violated`). -/
example : updateAll (Hist.redeque (exact ℚ)) (Hist.new 1 1) (emptied [1, 2, 1, 2]) =
      .ok ⟨1, 1, [⟨1, 1, 1⟩], [], 1, 4, 3⟩ ∧
    updateAll (Hist.update (exact ℚ)) (Hist.new 1 1) [1, 2, 1, 2] = .ub .oob := by
  decide +kernel

/-- **C154**, what changes of the deque cannot touch (any arithmetic): the total count, the number of observations, the limits. -/
theorem C154_untouched_partial {F : Type} (A : Arith F) (numBins W : ℕ) (ops : List (HDOp F)) (h : Hist F)
    (hu : updateAll (Hist.redeque A) (Hist.new numBins W) ops = .ok h) :
    h.getTotalCount = min (given ops).length W ∧ h.historyCount = (given ops).length ∧ h.size ≤ numBins ∧
      h.getTotalCount ≤ (h.bins.map Bin.count).sum := by
  have hk := Hist.Firm.run (P := fun _ => True) (fun _ _ => trivial) hu
  exact ⟨hk.total, hk.hist, hk.size, hk.sum_ge⟩

/-- Three observations with window 2; emptying the deque takes the last one away again. -/
example : updateAll (Hist.redeque (exact ℚ)) (Hist.new 3 2) [.update 1, .update 2, .setWindow [], .update 3] =
    .ok ⟨3, 2, [⟨1, 1, 1⟩, ⟨2, 2, 1⟩, ⟨3, 3, 0⟩], [], 2, 3, 3⟩ := by
  decide +kernel

/-- **C154**, while the window fills (any arithmetic): bins, counts and totals are those of the histogram that was given the
observations alone. Missing: more than `W` observations, where the deque says which bin loses one. -/
theorem C154_filling_partial {F : Type} (A : Arith F) (numBins W : ℕ) (ops : List (HDOp F)) (h : Hist F) (hn : (given ops).length ≤ W)
    (hu : updateAll (Hist.redeque A) (Hist.new numBins W) ops = .ok h) :
    ∃ g, updateAll (Hist.update A) (Hist.new numBins W) (given ops) = .ok g ∧ g.bins = h.bins ∧ g.total = h.total ∧
      g.historyCount = h.historyCount ∧ g.live = h.live := by
  obtain ⟨g, e, hg⟩ := Hist.undequed_run hn hu
  have h1 := congrArg Hist.bins hg
  have h2 := congrArg Hist.total hg
  have h3 := congrArg Hist.historyCount hg
  have h4 := congrArg Hist.live hg
  exact ⟨g, e, h1, h2, h3, h4⟩

/-- The deque filled with wrong indices between two of three observations. -/
example : updateAll (Hist.redeque (exact ℚ)) (Hist.new 3 3) [.update 1, .setWindow [9, 9], .update 2, .update 1] =
      .ok ⟨3, 3, [⟨1, 1, 2⟩, ⟨2, 2, 1⟩], [9, 9, 1, 0], 3, 3, 2⟩ ∧
    updateAll (Hist.update (exact ℚ)) (Hist.new 3 3) [1, 2, 1] =
      .ok ⟨3, 3, [⟨1, 1, 2⟩, ⟨2, 2, 1⟩], [0, 0, 0, 0, 1, 0], 3, 3, 2⟩ := by
  decide +kernel

end KML
