import Verif.Props.HistStreams
import Verif.Props.DoubleHist

/-!
# C109: how long a stream a histogram is sure to survive

With `numBins ≥ 1` bins and window `W ≥ 1` every stream of at most `2 W + numBins` observations is processed. With two
or more bins some stream of `2 W + numBins + 1` observations is not, so this is the exact threshold. One bin with a window
of two or more, or a window of zero, never fails.
-/

set_option linter.unusedSectionVars false

namespace KML

open Utils

namespace Hist

variable {F : Type} {A : Arith F} {P : F → Prop}

/-! ### Edges, sizes and window of one update -/

theorem Placed.edges {x : F} {t0 : Prop} {i : ℕ} {l l' : List (Bin F)} (h : Placed A x t0 i l l') (hx : P x)
    (hl : Edges P l) : Edges P l' := by
  intro c hc
  cases h with
  | push l h1 h2 =>
    rcases List.mem_append.1 hc with hc | hc
    · exact hl c hc
    · simp at hc; subst hc; exact ⟨hx, hx⟩
  | inc l1 l2 b h1 h2 h3 =>
    rcases List.mem_append.1 hc with hc | hc
    · exact hl c (by simp [hc])
    rcases List.mem_cons.1 hc with rfl | hc
    · exact hl b (by simp)
    · exact hl c (by simp [hc])
  | insert l1 l2 b h1 h2 h3 =>
    rcases List.mem_append.1 hc with hc | hc
    · exact hl c (by simp [hc])
    rcases List.mem_cons.1 hc with rfl | hc
    · exact ⟨hx, hx⟩
    · exact hl c (List.mem_append_right _ hc)

theorem Evicted.edges {n i : ℕ} {l l' : List (Bin F)} (h : Evicted n i l l') (hl : Edges P l) : Edges P l' := by
  intro c hc
  cases h with
  | keep l1 l2 b h =>
    rcases List.mem_append.1 hc with hc | hc
    · exact hl c (by simp [hc])
    rcases List.mem_cons.1 hc with rfl | hc
    · rw [(decBin_left b).1, (decBin_left b).2]; exact hl b (by simp)
    · exact hl c (by simp [hc])
  | erase l1 l2 b h1 h2 =>
    rcases List.mem_append.1 hc with hc | hc
    · exact hl c (by simp [hc])
    · exact hl c (by simp [hc])

theorem add_edges {a b : Bin F} (ha : P a.left ∧ P a.right) (hb : P b.left ∧ P b.right) :
    P (Bin.add A a b).left ∧ P (Bin.add A a b).right := by
  unfold Bin.add
  constructor
  · dsimp only; split
    · exact hb.1
    · exact ha.1
  · dsimp only; split
    · exact hb.2
    · exact ha.2

theorem Merged.edges {i : ℕ} {l l' : List (Bin F)} (h : Merged A i l l') (hl : Edges P l) : Edges P l' := by
  intro c hc
  cases h with
  | mk l1 l2 a b =>
    rcases List.mem_append.1 hc with hc | hc
    · exact hl c (by simp [hc])
    rcases List.mem_cons.1 hc with rfl | hc
    · exact add_edges (hl a (by simp)) (hl b (by simp))
    · exact hl c (by simp [hc])

theorem Step.edges {x : F} {h h' : Hist F} {i : ℕ} {b1 b2 : List (Bin F)} (hs : Step A x h h' i b1 b2) (hx : P x)
    (hl : Edges P h.bins) : Edges P b2 ∧ Edges P h'.bins := by
  have h1 := hs.placed.edges hx hl
  have h2 : Edges P b2 := by
    rcases hs.decay with ⟨-, e, -⟩ | ⟨-, -, d, w, -, e, -⟩
    · rw [e]; exact h1
    · exact e.edges h1
  refine ⟨h2, ?_⟩
  rcases hs.merge with ⟨-, e⟩ | ⟨-, e⟩
  · rw [e]; exact h2
  · exact e.edges h2

theorem Step.size {x : F} {h h' : Hist F} {i : ℕ} {b1 b2 : List (Bin F)} (hs : Step A x h h' i b1 b2)
    (hb : h.bins.length ≤ h.numBins) : h'.bins.length = min h.numBins b1.length := by
  obtain ⟨p1, p2, p3, -⟩ := hs.placed.length
  have hd : b2.length = b1.length ∨ h.numBins < b1.length ∧ b2.length + 1 = b1.length := by
    rcases hs.decay with ⟨-, e, -⟩ | ⟨-, -, d, w, -, e, -⟩
    · rw [e]; exact .inl rfl
    · obtain ⟨e1, e2, e3, e4⟩ := e.length; omega
  rcases hs.merge with ⟨m1, m2⟩ | ⟨m1, m2⟩
  · rw [m2]; omega
  · have := m2.length; omega

/-- The window after an update: the index is appended, the oldest one is dropped if the window is full, and indices only
get smaller. -/
theorem Step.window {x : F} {h h' : Hist F} {i : ℕ} {b1 b2 : List (Bin F)} (hs : Step A x h h' i b1 b2) :
    ∃ f w, (∀ j, f j ≤ j) ∧ h'.window = w.map f ∧
      ((h.total < h.windowSize ∧ b2 = b1 ∧ w = h.window ++ [i]) ∨
        (h.windowSize ≤ h.total ∧ ∃ d, h.window ++ [i] = d :: w ∧ Evicted h.numBins d b1 b2)) ∧
      ((b2.length ≤ h.numBins ∧ f = id) ∨
        (h.numBins < b2.length ∧ f = fun j => if j = mergeIndex A b2 + 1 then mergeIndex A b2 else j)) := by
  have key : ∀ w : List ℕ, ∃ f : ℕ → ℕ, (∀ j, f j ≤ j) ∧ (if h.numBins < b2.length then
      w.map (fun j => if j = mergeIndex A b2 + 1 then mergeIndex A b2 else j) else w) = w.map f ∧
      ((b2.length ≤ h.numBins ∧ f = id) ∨
        (h.numBins < b2.length ∧ f = fun j => if j = mergeIndex A b2 + 1 then mergeIndex A b2 else j)) := by
    intro w
    by_cases hn : h.numBins < b2.length
    · refine ⟨fun j => if j = mergeIndex A b2 + 1 then mergeIndex A b2 else j, fun j => ?_, if_pos hn,
        .inr ⟨hn, rfl⟩⟩
      dsimp only
      split <;> omega
    · exact ⟨id, fun j => le_rfl, by rw [if_neg hn]; simp, .inl ⟨by omega, rfl⟩⟩
  rcases hs.decay with ⟨h1, h2, -, w, h3, h4⟩ | ⟨h1, -, d, w, h2, h3, h4⟩
  · obtain ⟨f, f1, f2, f3⟩ := key w
    exact ⟨f, w, f1, h4.trans f2, .inl ⟨h1, h2, h3⟩, f3⟩
  · obtain ⟨f, f1, f2, f3⟩ := key w
    exact ⟨f, w, f1, h4.trans f2, .inr ⟨h1, d, h2, h3⟩, f3⟩

/-- The differences between values satisfying `P` pass the comparison with `DBL_MAX`. -/
def Mergeable (A : Arith F) (P : F → Prop) : Prop := ∀ a b, P a → P b →
  definitelyLessThan A (A.sub b a) (A.lit dblMax) (defaultEps A) = true

theorem Mergeable.merge (hc : Mergeable A P) {n : ℕ} (hn : 1 ≤ n) {l : List (Bin F)} (hl : Edges P l) (h : n < l.length) :
    mergeIndex A l + 1 < l.length := by
  match l, h with
  | [], h => simp at h
  | [_], h => simp at h; omega
  | a :: b :: l, _ => exact mergeIndex_lt (hc _ _ (hl a (by simp)).2 (hl b (by simp)).2)

/-- With enough close values only the eviction can fail. -/
theorem Mergeable.update (hc : Mergeable A P) {h : Hist F} (hn : 1 ≤ h.numBins) (hl : Edges P h.bins) {x : F} (hx : P x) :
    (∃ h' i b1 b2, h.update A x = .ok h' ∧ Step A x h h' i b1 b2) ∨
    (h.update A x = .ub .oob ∧ ∃ i b1, Placed A x (h.total = 0) i h.bins b1 ∧
      h.windowSize ≤ h.total ∧ ∃ d w, h.window ++ [i] = d :: w ∧ b1.length ≤ d) := by
  rcases update_cases (A := A) h x with h1 | ⟨e, i, b1, -, hp, ⟨h1, h2⟩ | ⟨b2, h1, h2, h3⟩⟩
  · exact .inl h1
  · exact .inr ⟨e, i, b1, hp, h1, h2⟩
  · exfalso
    have hb : Edges P b2 := by
      rcases h3 with ⟨rfl, -⟩ | ⟨-, d, w, -, h3⟩
      · exact hp.edges hx hl
      · exact h3.edges (hp.edges hx hl)
    have := hc.merge hn hb h1
    omega

/-! ### The bound -/

/-- After `n` observations: the last `n - numBins` indices in the window are arbitrary, the others are indices of bins. -/
structure Safe (P : F → Prop) (nb n : ℕ) (h : Hist F) : Prop where
  few : h.bins.length ≤ n
  edges : Edges P h.bins
  window : ∃ u v, h.window = u ++ v ∧ v.length ≤ n - nb ∧ ∀ j ∈ u, j < max 1 h.bins.length

theorem Safe.run (hc : Mergeable A P) {nb W : ℕ} (hb : 1 ≤ nb) (hW : 1 ≤ W) (xs : List F) (hx : ∀ x ∈ xs, P x)
    (hn : xs.length ≤ 2 * W + nb) :
    ∃ h, updateAll (Hist.update A) (Hist.new nb W) xs = .ok h ∧ Safe P nb xs.length h := by
  induction xs using List.reverseRecOn with
  | nil =>
    refine ⟨_, rfl, ⟨le_rfl, by intro b hb; simp [Hist.new] at hb, List.replicate W 0, [], by simp [Hist.new], by simp, ?_⟩⟩
    intro j hj
    have := List.eq_of_mem_replicate hj
    omega
  | append_singleton xs x ih =>
    rw [List.length_append, List.length_singleton] at hn
    obtain ⟨h, e, hs⟩ := ih (fun y hy => hx y (by simp [hy])) (by omega)
    have hcn := Counts.run e
    have hlag := C57_window_lag A nb W xs h e
    have hnb := hcn.numBins
    have hws := hcn.windowSize
    have htot := hcn.total
    have hsz := hcn.size
    have hfew := hs.few
    obtain ⟨u, v, hw, hv, hu⟩ := hs.window
    have hux : ∃ d u', u = d :: u' := by
      rcases u with _ | ⟨d, u'⟩
      · exfalso
        rw [hw] at hlag
        simp only [List.nil_append] at hlag
        omega
      · exact ⟨d, u', rfl⟩
    obtain ⟨d, u', rfl⟩ := hux
    have hd := hu d (by simp)
    have hxP : P x := hx x (by simp)
    rw [updateAll_snoc, e, Res.ok_bind]
    rw [List.length_append, List.length_singleton]
    rcases hc.update (by omega) hs.edges hxP with ⟨h', i, b1, b2, e', hst⟩ | ⟨-, i, b1, hp, -, d', w, hdw, hbd⟩
    · refine ⟨h', e', ?_⟩
      have hlen := hst.size (by omega)
      obtain ⟨p1, p2, p3, -⟩ := hst.placed.length
      refine ⟨by omega, (hst.edges hxP hs.edges).2, ?_⟩
      obtain ⟨f, w, f1, hw', hcase, -⟩ := hst.window
      -- the window before the renaming
      have hsplit : ∃ s t, w = s ++ t ∧ t.length ≤ xs.length + 1 - nb ∧ ∀ j ∈ s, j < max 1 h'.bins.length := by
        have hbase : ∀ s, (∀ j ∈ s, j ∈ d :: u') → w = s ++ v ++ [i] →
            ∃ s t, w = s ++ t ∧ t.length ≤ xs.length + 1 - nb ∧ ∀ j ∈ s, j < max 1 h'.bins.length := by
          intro s hs hws
          have hs' : ∀ j ∈ s, j < max 1 h'.bins.length := fun j hj => by have := hu j (hs j hj); omega
          rcases Nat.lt_or_ge xs.length nb with hlt | hge
          · have hv0 : v = [] := List.length_eq_zero_iff.1 (by omega)
            refine ⟨s ++ [i], [], by rw [hws, hv0]; simp, by simp, ?_⟩
            intro j hj
            rcases List.mem_append.1 hj with hj | hj
            · exact hs' j hj
            · simp at hj
              have : i < h'.bins.length := by omega
              omega
          · exact ⟨s, v ++ [i], by rw [hws]; simp, by simp; omega, hs'⟩
        rcases hcase with ⟨-, -, h1⟩ | ⟨-, d', h1, -⟩
        · exact hbase (d :: u') (fun j hj => hj) (by rw [h1, hw])
        · rw [hw] at h1
          simp only [List.cons_append, List.cons.injEq] at h1
          exact hbase u' (fun j hj => List.mem_cons_of_mem _ hj) (by rw [← h1.2])
      obtain ⟨s, t, rfl, ht, hs'⟩ := hsplit
      refine ⟨s.map f, t.map f, by rw [hw', List.map_append], by simpa using ht, ?_⟩
      intro j hj
      obtain ⟨k, hk, rfl⟩ := List.mem_map.1 hj
      exact lt_of_le_of_lt (f1 k) (hs' k hk)
    · exfalso
      rw [hw] at hdw
      simp only [List.cons_append, List.cons.injEq] at hdw
      have := hp.length
      omega

end Hist

/-- **C109**, the bound (any arithmetic): with at least one bin and a window, every stream of at most `2 W + numBins`
observations whose differences pass the comparison with `DBL_MAX` is processed. -/
theorem C109_bound {F : Type} (A : Arith F) (numBins W : ℕ) (hb : 1 ≤ numBins) (hW : 1 ≤ W) (xs : List F)
    (hn : xs.length ≤ 2 * W + numBins)
    (hd : ∀ a ∈ xs, ∀ b ∈ xs, definitelyLessThan A (A.sub b a) (A.lit dblMax) (defaultEps A) = true) :
    (updateAll (Hist.update A) (Hist.new numBins W) xs).IsOk := by
  obtain ⟨h, e, -⟩ := Hist.Safe.run (A := A) (P := fun x => x ∈ xs) (fun a b ha hb => hd a ha b hb) hb hW xs
    (fun x hx => hx) hn
  exact ⟨h, e⟩

/-- **C109**, window zero (any arithmetic): no stream is too long. -/
theorem C109_no_window {F : Type} (A : Arith F) (numBins : ℕ) (hb : 1 ≤ numBins) (xs : List F)
    (hd : ∀ a ∈ xs, ∀ b ∈ xs, definitelyLessThan A (A.sub b a) (A.lit dblMax) (defaultEps A) = true) :
    (updateAll (Hist.update A) (Hist.new numBins 0) xs).IsOk := by
  have hc : Hist.Mergeable A (fun x => x ∈ xs) := fun a b ha hb => hd a ha b hb
  have key : ∀ ys, (∀ y ∈ ys, y ∈ xs) → ∃ h, updateAll (Hist.update A) (Hist.new numBins 0) ys = .ok h ∧
      Hist.Edges (fun x => x ∈ xs) h.bins := by
    intro ys hys
    induction ys using List.reverseRecOn with
    | nil => exact ⟨_, rfl, by intro b hb; simp [Hist.new] at hb⟩
    | append_singleton ys x ih =>
      obtain ⟨h, e, hE⟩ := ih fun y hy => hys y (by simp [hy])
      have hcn := Hist.Counts.run e
      have hlag := C57_window_lag A numBins 0 ys h e
      have hw : h.window = [] := List.length_eq_zero_iff.1 (by omega)
      have hxP := hys x (by simp)
      rw [updateAll_snoc, e, Res.ok_bind]
      rcases hc.update (by have := hcn.numBins; omega) hE hxP with
        ⟨h', i, b1, b2, e', hst⟩ | ⟨-, i, b1, hp, -, d, w, hdw, hbd⟩
      · exact ⟨h', e', (hst.edges hxP hE).2⟩
      · exfalso
        rw [hw] at hdw
        simp only [List.nil_append, List.cons.injEq] at hdw
        have := hp.length
        omega
  obtain ⟨h, e, -⟩ := key xs fun y hy => hy
  exact ⟨h, e⟩

/-- **C109**, one bin (any arithmetic): with a window of two or more no stream is too long. (With window one the stream
1, 2, 1, 2 is, `C55_violated`.) -/
theorem C109_one_bin {F : Type} (A : Arith F) (W : ℕ) (hW : 2 ≤ W) (xs : List F)
    (hd : ∀ a ∈ xs, ∀ b ∈ xs, definitelyLessThan A (A.sub b a) (A.lit dblMax) (defaultEps A) = true) :
    (updateAll (Hist.update A) (Hist.new 1 W) xs).IsOk := by
  have hc : Hist.Mergeable A (fun x => x ∈ xs) := fun a b ha hb => hd a ha b hb
  have key : ∀ ys, (∀ y ∈ ys, y ∈ xs) → ∃ h, updateAll (Hist.update A) (Hist.new 1 W) ys = .ok h ∧
      Hist.Edges (fun x => x ∈ xs) h.bins ∧ ∀ j ∈ h.window, j = 0 := by
    intro ys hys
    induction ys using List.reverseRecOn with
    | nil => exact ⟨_, rfl, by intro b hb; simp [Hist.new] at hb, fun j hj => List.eq_of_mem_replicate hj⟩
    | append_singleton ys x ih =>
      obtain ⟨h, e, hE, hz⟩ := ih fun y hy => hys y (by simp [hy])
      have hcn := Hist.Counts.run e
      have hnb := hcn.numBins
      have hws := hcn.windowSize
      have hsz := hcn.size
      have hlag := C57_window_lag A 1 W ys h e
      have hxP := hys x (by simp)
      have hhead : ∀ {i d w}, h.window ++ [i] = d :: w → d = 0 ∧ ∀ j ∈ w, j = 0 ∨ j = i := by
        intro i d w hw
        rcases hwin : h.window with _ | ⟨a, l⟩
        · rw [hwin] at hlag; simp at hlag; omega
        · rw [hwin] at hw hz
          simp only [List.cons_append, List.cons.injEq] at hw
          refine ⟨by rw [← hw.1]; exact hz a (by simp), ?_⟩
          intro j hj
          rw [← hw.2] at hj
          rcases List.mem_append.1 hj with hj | hj
          · exact .inl (hz j (by simp [hj]))
          · exact .inr (by simpa using hj)
      rw [updateAll_snoc, e, Res.ok_bind]
      rcases hc.update (by omega) hE hxP with
        ⟨h', i, b1, b2, e', hst⟩ | ⟨-, i, b1, hp, -, d, w, hdw, hbd⟩
      · refine ⟨h', e', (hst.edges hxP hE).2, ?_⟩
        obtain ⟨p1, p2, p3, -⟩ := hst.placed.length
        obtain ⟨f, w, f1, hw', hcase, hf⟩ := hst.window
        have hmem : ∀ j ∈ w, j = 0 ∨ j = i := by
          rcases hcase with ⟨-, -, rfl⟩ | ⟨-, d, h1, -⟩
          · intro j hj
            rcases List.mem_append.1 hj with hj | hj
            · exact .inl (hz j hj)
            · exact .inr (by simpa using hj)
          · exact (hhead h1).2
        have hf0 : f i = 0 := by
          rcases Nat.eq_zero_or_pos i with h0 | h0
          · have := f1 i; omega
          have hi1 : i = 1 := by omega
          have hb1 : b1.length = 2 := by omega
          have hb2 : b2.length = 2 := by
            rcases hcase with ⟨-, h2, -⟩ | ⟨h2, d, h3, h4⟩
            · rw [h2, hb1]
            · have hd0 := (hhead h3).1
              subst hd0
              have hsum := hcn.sum_ge
              have htot := hcn.total
              -- the old bin comes first and counts at least two
              obtain ⟨b, hb⟩ : ∃ b, h.bins = [b] := List.length_eq_one_iff.1 (by omega)
              have hbc : 2 ≤ b.count := by
                rw [hb] at hsum
                simp [Hist.sumCounts] at hsum
                omega
              have hb1' : b1 = [b, Hist.unit x] := by
                have hp := hst.placed
                rw [hi1] at hp
                generalize hl : h.bins = l at hp
                generalize hk : 1 = k at hp
                rw [hb] at hl
                cases hp with
                | push h1 h2 => rw [← hl]; rfl
                | inc l1 l2 b' h1 h2 h3 =>
                  have := congrArg List.length hl
                  simp at this; omega
                | insert l1 l2 b' h1 h2 h3 =>
                  have := congrArg List.length hl
                  simp at this; omega
              rw [hb1'] at h4
              generalize hk : 0 = k at h4
              generalize hl : [b, Hist.unit x] = l at h4
              cases h4 with
              | keep l1 l2 b' h =>
                have := congrArg List.length hl
                simpa using this.symm
              | erase l1 l2 b' h1 h2 =>
                exfalso
                have hl1 : l1 = [] := List.length_eq_zero_iff.1 hk.symm
                subst hl1
                simp only [List.nil_append, List.cons.injEq] at hl
                rw [← hl.1, Hist.decBin_count] at h2
                omega
          rcases hf with ⟨hf, -⟩ | ⟨hf, hf'⟩
          · omega
          · have hm := hc.merge (n := 1) le_rfl (hst.edges hxP hE).1 (by omega)
            rw [hf', hi1]
            have hm0 : Hist.mergeIndex A b2 = 0 := by omega
            rw [hm0]; simp
        intro j hj
        rw [hw'] at hj
        obtain ⟨k, hk, rfl⟩ := List.mem_map.1 hj
        rcases hmem k hk with rfl | rfl
        · have := f1 0; omega
        · exact hf0
      · exfalso
        have := (hhead hdw).1
        have := hp.length
        omega
  obtain ⟨h, e, -⟩ := key xs fun y hy => hy
  exact ⟨h, e⟩

/-! ### Sharpness -/

namespace Hist

variable {F : Type} {A : Arith F}

/-- The search order of the bins. -/
abbrev Less (A : Arith F) (a b : F) : Prop := definitelyLessThan A a b (defaultEps A) = true

theorem Placed.above {x : F} {t0 : Prop} {i : ℕ} {l l' : List (Bin F)} (h : Placed A x t0 i l l')
    (hl : ∀ b ∈ l, Less A b.left x) (h0 : t0 → l = []) : i = l.length ∧ l' = l ++ [unit x] := by
  cases h with
  | push _ _ h1 h2 =>
    refine ⟨?_, rfl⟩
    rcases h2 with h2 | h2
    · rw [h0 h2] at h1 ⊢; simpa using h1
    · exact h2.1
  | inc l1 l2 b h1 h2 h3 =>
    have : Bin.lt A b (unit x) = true := hl b (by simp)
    rw [h2] at this; cases this
  | insert l1 l2 b h1 h2 h3 =>
    have : Bin.lt A b (unit x) = true := hl b (by simp)
    rw [h2] at this; cases this

/-- `n` bins, the last of which starts at `y`, the others definitely below. -/
structure Tail (A : Arith F) (y : F) (n : ℕ) (l : List (Bin F)) : Prop where
  length : l.length = n
  split : ∃ l0 b, l = l0 ++ [b] ∧ b.left = y ∧ ∀ c ∈ l0, Less A c.left y

theorem Tail.placed {y : F} {n i : ℕ} {t0 : Prop} {l l' : List (Bin F)} (h : Tail A y n l) (ht : ¬ t0)
    (hyy : ¬ Less A y y) (hle : A.le y y = true) (hp : Placed A y t0 i l l') : Tail A y n l' := by
  obtain ⟨hlen, l0, b, rfl, hb, hc⟩ := h
  have hmem : ∀ {l1 l2 : List (Bin F)} {c : Bin F}, l0 ++ [b] = l1 ++ c :: l2 → Bin.lt A c (unit y) = false →
      l1 = l0 ∧ c = b ∧ l2 = [] := by
    intro l1 l2 c e hf
    rcases List.eq_nil_or_concat l2 with rfl | ⟨l2', a, rfl⟩
    · obtain ⟨e1, e2⟩ := List.append_inj' e rfl
      simp only [List.cons.injEq, and_true] at e2
      exact ⟨e1.symm, e2.symm, rfl⟩
    · exfalso
      have e' : l0 ++ [b] = (l1 ++ c :: l2') ++ [a] := by rw [e]; simp
      obtain ⟨e1, -⟩ := List.append_inj' e' rfl
      have : Bin.lt A c (unit y) = true := hc c (by rw [e1]; simp)
      rw [hf] at this; cases this
  generalize hl : l0 ++ [b] = l at hp
  cases hp with
  | push _ _ h1 h2 =>
    exfalso
    rcases h2 with h2 | ⟨-, h2⟩
    · exact ht h2
    · have : Bin.lt A b (unit y) = true := h2 b (by rw [← hl]; simp)
      unfold Bin.lt at this
      rw [hb] at this
      exact hyy this
  | inc l1 l2 c h1 h2 h3 =>
    obtain ⟨rfl, rfl, rfl⟩ := hmem hl h2
    exact ⟨by simpa using hlen, l1, _, rfl, hb, hc⟩
  | insert l1 l2 c h1 h2 h3 =>
    exfalso
    obtain ⟨rfl, rfl, rfl⟩ := hmem hl h2
    rw [hb, hle] at h3
    cases h3

theorem Evicted.lefts {n i : ℕ} {l l' : List (Bin F)} (h : Evicted n i l l') (hl : l'.length = l.length) :
    l'.map Bin.left = l.map Bin.left ∧ l'.map Bin.right = l.map Bin.right := by
  cases h with
  | keep l1 l2 b h => simp [decBin_left]
  | erase l1 l2 b h1 h2 => simp at hl

theorem Tail.of_lefts {y : F} {n : ℕ} {l : List (Bin F)} {zs : List F} (hl : l.map Bin.left = zs ++ [y])
    (hn : l.length = n) (hz : ∀ z ∈ zs, Less A z y) : Tail A y n l := by
  refine ⟨hn, ?_⟩
  rcases List.eq_nil_or_concat l with rfl | ⟨l0, b, rfl⟩
  · simp at hl
  · simp only [List.concat_eq_append, List.map_append, List.map_cons, List.map_nil] at hl ⊢
    obtain ⟨e1, e2⟩ := List.append_inj' hl rfl
    refine ⟨l0, b, rfl, by simpa using e2, fun c hc => hz _ ?_⟩
    rw [← e1]
    exact List.mem_map_of_mem hc

theorem Tail.lefts {y : F} {n : ℕ} {l : List (Bin F)} (h : Tail A y n l) :
    ∃ zs, l.map Bin.left = zs ++ [y] ∧ ∀ z ∈ zs, Less A z y := by
  obtain ⟨-, l0, b, rfl, hb, hc⟩ := h
  refine ⟨l0.map Bin.left, by simp [hb], ?_⟩
  intro z hz
  obtain ⟨c, hc', rfl⟩ := List.mem_map.1 hz
  exact hc c hc'

theorem Tail.evicted {y : F} {n d : ℕ} {l l' : List (Bin F)} (h : Tail A y n l) (he : Evicted n d l l') :
    Tail A y n l' := by
  have hl := h.length
  have hl' := he.length.2.2.2 (by omega)
  obtain ⟨zs, h1, h2⟩ := h.lefts
  refine Tail.of_lefts (zs := zs) ?_ (by omega) h2
  rw [(he.lefts hl').1, h1]

/-- Increasing values in enough bins: one bin each. -/
theorem rising_run {nb W : ℕ} (hW : 1 ≤ W) (ys : List F) (hinc : ys.Pairwise (Less A)) (hn : ys.length ≤ nb) :
    ∃ h, updateAll (Hist.update A) (Hist.new nb W) ys = .ok h ∧ h.bins.map Bin.left = ys ∧
      h.bins.map Bin.right = ys ∧ ∀ j ∈ h.window, j < max 1 ys.length := by
  induction ys using List.reverseRecOn with
  | nil =>
    refine ⟨_, rfl, rfl, rfl, fun j hj => ?_⟩
    have := List.eq_of_mem_replicate hj
    omega
  | append_singleton ys x ih =>
    rw [List.length_append, List.length_singleton] at hn ⊢
    rw [List.pairwise_append] at hinc
    obtain ⟨h, e, h1, h2, h3⟩ := ih hinc.1 (by omega)
    have hcn := Counts.run e
    have hnb := hcn.numBins
    have hws := hcn.windowSize
    have htot := hcn.total
    have hlen : h.bins.length = ys.length := by rw [← h1]; simp
    have hlt : ∀ b ∈ h.bins, Less A b.left x := fun b hb =>
      hinc.2.2 b.left (by rw [← h1]; exact List.mem_map_of_mem hb) x (by simp)
    have h0 : h.total = 0 → h.bins = [] := fun h0 => List.length_eq_zero_iff.1 (by omega)
    rw [updateAll_snoc, e, Res.ok_bind]
    have hwin : ∀ j ∈ h.window ++ [ys.length], j < ys.length + 1 := by
      intro j hj
      rcases List.mem_append.1 hj with hj | hj
      · have := h3 j hj; omega
      · simp at hj; omega
    rcases update_cases (A := A) h x with ⟨h', i, b1, b2, e', hs⟩ | ⟨-, i, b1, -, hp, hbad⟩
    · obtain ⟨hi, hb1⟩ := hs.placed.above hlt h0
      have hl1 : b1.length = ys.length + 1 := by rw [hb1]; simp [hlen]
      obtain ⟨f, w, -, hw, hcase, hf⟩ := hs.window
      have hb2 : b2.length = b1.length ∧ b2.map Bin.left = b1.map Bin.left ∧ b2.map Bin.right = b1.map Bin.right ∧
          ∀ j ∈ w, j < ys.length + 1 := by
        rw [hi, hlen] at hcase
        rcases hcase with ⟨-, rfl, rfl⟩ | ⟨-, d, hd, hev⟩
        · exact ⟨rfl, rfl, rfl, hwin⟩
        · have hl := hev.length.2.2.2 (by omega)
          exact ⟨hl, (hev.lefts hl).1, (hev.lefts hl).2, fun j hj => hwin j (by rw [hd]; simp [hj])⟩
      have hbins : h'.bins = b2 := by
        rcases hs.merge with ⟨-, e2⟩ | ⟨h4, -⟩
        · exact e2
        · omega
      refine ⟨h', e', ?_, ?_, ?_⟩
      · rw [hbins, hb2.2.1, hb1]; simp [h1]
      · rw [hbins, hb2.2.2.1, hb1]; simp [h2]
      · rcases hf with ⟨-, rfl⟩ | ⟨hf, -⟩
        · rw [hw]
          intro j hj
          have := hb2.2.2.2 j (by simpa using hj)
          omega
        · omega
    · exfalso
      obtain ⟨hi, hb1⟩ := hp.above hlt h0
      have hl1 : b1.length = ys.length + 1 := by rw [hb1]; simp [hlen]
      rcases hbad with ⟨-, d, w, hd, hbd⟩ | ⟨b2, hb2, -, ⟨rfl, -⟩ | ⟨-, d, w, -, hev⟩⟩
      · rw [hi, hlen] at hd
        have := hwin d (by rw [hd]; simp)
        omega
      · omega
      · have := hev.length; omega

/-- The value after the last free bin leaves its index, `numBins`, at the end of the window. -/
theorem overflow_step {n W : ℕ} (hW : 1 ≤ W) (ys : List F) (y : F) (hn : ys.length = n) (hn1 : 1 ≤ n)
    (hinc : (ys ++ [y]).Pairwise (Less A))
    (hm : ∀ bins : List (Bin F), bins.map Bin.right = ys ++ [y] → mergeIndex A bins + 1 ≠ n) :
    updateAll (Hist.update A) (Hist.new n W) (ys ++ [y]) = .ub .oob ∨
    ∃ h, updateAll (Hist.update A) (Hist.new n W) (ys ++ [y]) = .ok h ∧ Tail A y n h.bins ∧
      ∃ u, h.window = u ++ [n] := by
  rw [List.pairwise_append] at hinc
  obtain ⟨h, e, h1, h2, h3⟩ := rising_run (nb := n) hW ys hinc.1 hn.le
  have hcn := Counts.run e
  have hnb := hcn.numBins
  have hws := hcn.windowSize
  have htot := hcn.total
  have hlag := C57_window_lag A n W ys h e
  have hlen : h.bins.length = n := by rw [← hn, ← h1]; simp
  have hys : ∀ z ∈ ys, Less A z y := fun z hz => hinc.2.2 z hz y (by simp)
  have hlt : ∀ b ∈ h.bins, Less A b.left y := fun b hb => hys _ (by rw [← h1]; exact List.mem_map_of_mem hb)
  have h0 : h.total = 0 → h.bins = [] := fun h0 => List.length_eq_zero_iff.1 (by omega)
  rw [updateAll_snoc, e, Res.ok_bind]
  rcases update_cases (A := A) h y with ⟨h', i, b1, b2, e', hs⟩ | ⟨e', -⟩
  swap
  · exact .inl e'
  refine .inr ⟨h', e', ?_⟩
  obtain ⟨hi, hb1⟩ := hs.placed.above hlt h0
  rw [hlen] at hi
  subst hi
  have hb1l : b1.map Bin.left = ys ++ [y] := by rw [hb1]; simp [h1]
  have hb1r : b1.map Bin.right = ys ++ [y] := by rw [hb1]; simp [h2]
  have hl1 : b1.length = i + 1 := by rw [hb1]; simp [hlen]
  obtain ⟨f, w, -, hw, hcase, hf⟩ := hs.window
  -- the end of the window before the renaming, and the bins before the merge
  have key : (∃ u, w = u ++ [i]) ∧ ((b2.length = i + 1 ∧ b2.map Bin.left = ys ++ [y] ∧ b2.map Bin.right = ys ++ [y]) ∨
      (b2.length = i ∧ Tail A y i b2)) := by
    rcases hcase with ⟨-, rfl, rfl⟩ | ⟨-, d, hd, hev⟩
    · exact ⟨⟨_, rfl⟩, .inl ⟨hl1, hb1l, hb1r⟩⟩
    · obtain ⟨a, u, hwin⟩ : ∃ a u, h.window = a :: u := by
        rcases hwin : h.window with _ | ⟨a, u⟩
        · rw [hwin] at hlag; simp at hlag; omega
        · exact ⟨a, u, rfl⟩
      have had := h3 a (by rw [hwin]; simp)
      rw [hwin] at hd
      simp only [List.cons_append, List.cons.injEq] at hd
      obtain ⟨rfl, rfl⟩ := hd
      refine ⟨⟨u, rfl⟩, ?_⟩
      generalize hd : a = d at hev
      rcases Nat.lt_or_ge b2.length b1.length with hless | hge
      · right
        cases hev with
        | keep l1 l2 b h => simp at hless
        | erase l1 l2 b q1 q2 =>
          have hl2 : (l1 ++ l2).length = i := by simp at hl1 ⊢; omega
          refine ⟨hl2, ?_⟩
          rcases List.eq_nil_or_concat l2 with rfl | ⟨l2', c, rfl⟩
          · exfalso; simp at hl1; omega
          · have hb1' : (l1 ++ b :: l2') ++ [c] = h.bins ++ [unit y] := by rw [← hb1]; simp
            obtain ⟨k1, k2⟩ := List.append_inj' hb1' rfl
            simp only [List.cons.injEq, and_true] at k2
            refine ⟨hl2, l1 ++ l2', c, by simp, by rw [k2], fun z hz => hlt z ?_⟩
            rw [← k1]
            rcases List.mem_append.1 hz with hz | hz <;> simp [hz]
      · left
        have hl : b2.length = b1.length := le_antisymm hev.length.2.1 hge
        exact ⟨by omega, by rw [(hev.lefts hl).1, hb1l], by rw [(hev.lefts hl).2, hb1r]⟩
  obtain ⟨⟨u, hwu⟩, hb2⟩ := key
  rcases hb2 with ⟨k1, k2, k3⟩ | ⟨k1, k2⟩
  · -- a merge, not with the last bin
    have hm' := hm b2 k3
    rcases hs.merge with ⟨m1, -⟩ | ⟨-, hmer⟩
    · omega
    rcases hf with ⟨hf, -⟩ | ⟨-, hf⟩
    · omega
    refine ⟨?_, u.map f, ?_⟩
    · generalize hk : mergeIndex A b2 = k at hmer hm'
      generalize hb' : h'.bins = b' at hmer
      cases hmer with
      | mk l1 l2 a b =>
        rcases List.eq_nil_or_concat l2 with rfl | ⟨l2', c, rfl⟩
        · exfalso; simp at k1; omega
        · have e1 : (l1 ++ a :: b :: l2').map Bin.left ++ [c.left] = ys ++ [y] := by rw [← k2]; simp
          obtain ⟨q1, q2⟩ := List.append_inj' e1 rfl
          simp only [List.cons.injEq, and_true] at q2
          have hin : ∀ z ∈ l1 ++ a :: b :: l2', Less A z.left y := fun z hz => hys _ (by
            rw [← q1]; exact List.mem_map_of_mem hz)
          refine ⟨by simp at k1 ⊢; omega, l1 ++ Bin.add A a b :: l2', c, by simp, q2, ?_⟩
          intro z hz
          rcases List.mem_append.1 hz with hz | hz
          · exact hin z (by simp [hz])
          rcases List.mem_cons.1 hz with rfl | hz
          · have ha := hin a (by simp)
            have hb := hin b (by simp)
            unfold Bin.add
            dsimp only
            split
            · exact hb
            · exact ha
          · exact hin z (by simp [hz])
    · rw [hw, hwu, List.map_append]
      congr 1
      rw [hf]
      simp only [List.map_cons, List.map_nil]
      rw [if_neg (by omega)]
  · rcases hs.merge with ⟨-, m1⟩ | ⟨m1, -⟩
    · rcases hf with ⟨-, rfl⟩ | ⟨hf, -⟩
      · exact ⟨by rw [m1]; exact k2, u, by rw [hw, hwu]; simp⟩
      · omega
    · omega

/-- The stale index moves to the front of the window. -/
theorem wait_run {n W : ℕ} (hW : 1 ≤ W) (ys : List F) (y : F) (hn : ys.length = n) (hn1 : 1 ≤ n)
    (hinc : (ys ++ [y]).Pairwise (Less A)) (hyy : ¬ Less A y y) (hle : A.le y y = true)
    (hm : ∀ bins : List (Bin F), bins.map Bin.right = ys ++ [y] → mergeIndex A bins + 1 ≠ n) (j : ℕ)
    (hj : j + 1 ≤ 2 * W) :
    updateAll (Hist.update A) (Hist.new n W) (ys ++ List.replicate (j + 1) y) = .ub .oob ∨
    ∃ h, updateAll (Hist.update A) (Hist.new n W) (ys ++ List.replicate (j + 1) y) = .ok h ∧ Tail A y n h.bins ∧
      ∃ u v, h.window = u ++ n :: v ∧ v.length = j := by
  induction j with
  | zero =>
    rcases overflow_step hW ys y hn hn1 hinc hm with h | ⟨h, e, ht, u, hu⟩
    · exact .inl h
    · exact .inr ⟨h, e, ht, u, [], hu, rfl⟩
  | succ j ih =>
    have happ : ys ++ List.replicate (j + 1 + 1) y = (ys ++ List.replicate (j + 1) y) ++ [y] := by
      rw [List.replicate_succ', List.append_assoc]
    rw [happ, updateAll_snoc]
    rcases ih (by omega) with h | ⟨h, e, ht, u, v, hu, hv⟩
    · left; rw [h]; rfl
    rw [e, Res.ok_bind]
    have hcn := Counts.run e
    have hnb := hcn.numBins
    have hws := hcn.windowSize
    have htot := hcn.total
    have hlag := C57_window_lag A n W _ h e
    simp only [List.length_append, List.length_replicate] at htot hlag
    rcases update_cases (A := A) h y with ⟨h', i, b1, b2, e', hs⟩ | ⟨e', -⟩
    swap
    · exact .inl e'
    refine .inr ⟨h', e', ?_⟩
    have hb1 := ht.placed (by omega) hyy hle hs.placed
    have hl1 := hb1.length
    obtain ⟨f, w, -, hw, hcase, hf⟩ := hs.window
    have hb2 : Tail A y n b2 ∧ ∃ u, w = u ++ n :: (v ++ [i]) := by
      rw [hu] at hcase
      rcases hcase with ⟨-, rfl, rfl⟩ | ⟨hfull, d, hd, hev⟩
      · exact ⟨hb1, u, by simp⟩
      · rw [hnb] at hev
        refine ⟨hb1.evicted hev, ?_⟩
        rcases u with _ | ⟨a, u⟩
        · exfalso
          rw [hu] at hlag
          simp at hlag
          omega
        · simp only [List.cons_append, List.cons.injEq] at hd
          exact ⟨u, by rw [← hd.2]; simp⟩
    have hl2 := hb2.1.length
    rcases hs.merge with ⟨-, m1⟩ | ⟨m1, -⟩
    · rcases hf with ⟨-, rfl⟩ | ⟨hf, -⟩
      · obtain ⟨u', hu'⟩ := hb2.2
        exact ⟨by rw [m1]; exact hb2.1, u', v ++ [i], by rw [hw, hu']; simp, by simp [hv]⟩
      · omega
    · omega

end Hist

/-- **C109**, sharpness (any arithmetic): `numBins + 1` increasing values, then the last one `2 W` times more, is undefined
provided the last two bins are not the ones merged. -/
theorem C109_sharp {F : Type} (A : Arith F) (W : ℕ) (hW : 1 ≤ W) (ys : List F) (y : F) (hn : ys ≠ [])
    (hinc : (ys ++ [y]).Pairwise fun a b => definitelyLessThan A a b (defaultEps A) = true)
    (hyy : definitelyLessThan A y y (defaultEps A) = false) (hle : A.le y y = true)
    (hm : ∀ bins : List (Bin F), bins.map Bin.right = ys ++ [y] → Hist.mergeIndex A bins + 1 ≠ ys.length) :
    updateAll (Hist.update A) (Hist.new ys.length W) (ys ++ List.replicate (2 * W + 1) y) = .ub .oob := by
  have hn1 : 1 ≤ ys.length := List.length_pos_iff.2 hn
  have happ : ys ++ List.replicate (2 * W + 1) y = (ys ++ List.replicate (2 * W - 1 + 1) y) ++ [y] := by
    rw [List.replicate_succ', List.append_assoc]
    congr 3
    omega
  rw [happ, updateAll_snoc]
  rcases Hist.wait_run hW ys y rfl hn1 hinc (by simp [hyy]) hle hm (2 * W - 1) (by omega) with h | ⟨h, e, ht, u, v, hu, hv⟩
  · rw [h]; rfl
  rw [e, Res.ok_bind]
  have hcn := Hist.Counts.run e
  have hnb := hcn.numBins
  have hws := hcn.windowSize
  have htot := hcn.total
  have hlag := C57_window_lag A ys.length W _ h e
  simp only [List.length_append, List.length_replicate] at htot hlag
  rcases Hist.update_cases (A := A) h y with ⟨h', i, b1, b2, e', hs⟩ | ⟨e', -⟩
  swap
  · exact e'
  exfalso
  have hl1 := (ht.placed (by omega) (by simp [hyy]) hle hs.placed).length
  obtain ⟨f, w, -, hw, hcase, hf⟩ := hs.window
  rw [hu] at hcase hlag
  have hu0 : u = [] := List.length_eq_zero_iff.1 (by simp at hlag; omega)
  subst hu0
  rcases hcase with ⟨h1, -⟩ | ⟨-, d, hd, hev⟩
  · omega
  · simp only [List.nil_append, List.cons_append, List.cons.injEq] at hd
    have := hev.length
    omega

/-! ### Concrete streams -/

section Round

variable {K : Type} [Field K] [LinearOrder K] [IsStrictOrderedRing K] [FloorRing K]

theorem Hist.mergeLoop_keep {F : Type} {A : Arith F} {md : F} (l : List (Bin F)) (i mi : ℕ)
    (h : (l.map Bin.right).Pairwise fun a b => definitelyLessThan A (A.sub b a) md (defaultEps A) = false) :
    mergeLoop A l i md mi = mi := by
  induction l generalizing i with
  | nil => rfl
  | cons a l ih =>
    cases l with
    | nil => rfl
    | cons b l =>
      simp only [List.map_cons, List.pairwise_cons] at h
      unfold mergeLoop
      have h1 := h.1 b.right (by simp)
      simp only [h1]
      exact ih (i + 1) (by simpa using h.2)

/-- If no difference is smaller than the first, the first two bins are merged. -/
theorem Hist.mergeIndex_first (R : Rounding K) {bins : List (Bin K)} {z0 z1 : K} {zs : List K}
    (hr : bins.map Bin.right = z0 :: z1 :: zs)
    (h0 : definitelyLessThan R.arith (R.arith.sub z1 z0) (R.arith.lit dblMax) (defaultEps R.arith) = true)
    (hd : (z0 :: z1 :: zs).Pairwise fun a b => z1 - z0 ≤ b - a) : mergeIndex R.arith bins = 0 := by
  match bins, hr with
  | a :: b :: l, hr =>
    simp only [List.map_cons, List.cons.injEq] at hr
    obtain ⟨rfl, rfl, rfl⟩ := hr
    unfold mergeIndex mergeLoop
    simp only [h0, if_true]
    refine mergeLoop_keep _ _ _ ?_
    have hd' := (List.pairwise_cons.1 hd).2
    refine hd'.imp fun {u v} huv => ?_
    by_contra hc
    rw [Bool.not_eq_false, less_iff] at hc
    have he : 0 ≤ defaultEps R.arith := by
      have := R.mono (show (0 : K) ≤ 1 / 10000 by norm_num)
      rw [R.rnd_zero] at this
      simpa [defaultEps, Rounding.arith] using this
    have h1 := tol_nonneg R (R.arith.sub v u) (R.arith.sub b.right a.right) _ he
    have h2 : R.rnd (b.right - a.right) ≤ R.rnd (v - u) := R.mono huv
    have h3 : R.rnd (R.arith.sub b.right a.right - R.arith.sub v u) ≤ R.rnd 0 :=
      R.mono (by show R.rnd _ - R.rnd _ ≤ 0; linarith)
    rw [R.rnd_zero] at h3
    linarith

/-- **C109**, sharpness for a sequence `f 0`, `f 1`, … (any rounding). -/
theorem Hist.sharp_seq (R : Rounding K) (n W : ℕ) (hn : 2 ≤ n) (hW : 1 ≤ W) (f : ℕ → K)
    (hless : ∀ i j, i < j → j ≤ n → definitelyLessThan R.arith (f i) (f j) (defaultEps R.arith) = true)
    (h0 : definitelyLessThan R.arith (R.arith.sub (f 1) (f 0)) (R.arith.lit dblMax) (defaultEps R.arith) = true)
    (hd : ∀ i j, i < j → j ≤ n → f 1 - f 0 ≤ f j - f i) :
    updateAll (Hist.update R.arith) (Hist.new n W) ((List.range n).map f ++ List.replicate (2 * W + 1) (f n)) =
      .ub .oob := by
  have hlen : ((List.range n).map f).length = n := by simp
  have hsnoc : (List.range n).map f ++ [f n] = (List.range (n + 1)).map f := by
    rw [List.range_succ]; simp
  have hpair : ∀ {S : K → K → Prop}, (∀ i j, i < j → j ≤ n → S (f i) (f j)) → ((List.range n).map f ++ [f n]).Pairwise S := by
    intro S hS
    rw [hsnoc, List.pairwise_map]
    refine List.Pairwise.imp_of_mem (fun {a b} ha hb hab => ?_) List.pairwise_lt_range
    exact hS a b hab (by have := List.mem_range.1 hb; omega)
  have he : 0 ≤ defaultEps R.arith := by
    have := R.mono (show (0 : K) ≤ 1 / 10000 by norm_num)
    rw [R.rnd_zero] at this
    simpa [defaultEps, Rounding.arith] using this
  have := C109_sharp R.arith W hW ((List.range n).map f) (f n)
    (by intro h; rw [h] at hlen; simp at hlen; omega) (hpair hless)
    (by
      by_contra hc
      rw [Bool.not_eq_false, less_iff, sub_self, R.rnd_zero] at hc
      have := tol_nonneg R (f n) (f n) _ he
      linarith)
    (by simp [Rounding.arith])
    (by
      intro bins hb
      have hcons : (List.range n).map f ++ [f n] = f 0 :: f 1 :: (List.range' 2 (n - 1)).map f := by
        rw [hsnoc, List.range_eq_range', show n + 1 = (n - 1) + 1 + 1 by omega, List.range'_succ, List.range'_succ]
        simp
      have hidx := Hist.mergeIndex_first R (hb.trans hcons) h0 (by rw [← hcons]; exact hpair hd)
      rw [hidx, hlen]
      omega)
  rwa [hlen] at this

/-- **C109**: the exact threshold (exact arithmetic). With two or more bins and a window, all streams of at most `L`
observations are processed if and only if `L ≤ 2 W + numBins`; the streams that fail may be taken in the unit
interval. -/
theorem C109_threshold (numBins W L : ℕ) (hb : 2 ≤ numBins) (hW : 1 ≤ W) :
    (∀ xs : List K, xs.length ≤ L → (∀ x ∈ xs, 0 ≤ x ∧ x ≤ 1) →
      (updateAll (Hist.update (exact K)) (Hist.new numBins W) xs).IsOk) ↔ L ≤ 2 * W + numBins := by
  have hM : (1 : ℚ) ≤ dblMax / 4 := by decide +kernel
  have hM' : (1 : K) ≤ dblMax / 4 := by
    have : ((1 : ℚ) : K) ≤ ((dblMax / 4 : ℚ) : K) := by exact_mod_cast hM
    simpa using this
  have hR : Hist.Big (Rounding.none (K := K)) := ⟨rfl, rfl, rfl, rfl, by simp [Rounding.none]; norm_num⟩
  constructor
  · intro h
    by_contra hL
    set f : ℕ → K := fun i => 2 ^ i / 2 ^ numBins with hf
    have hpos : ∀ i, 0 < f i := fun i => by positivity
    have hle1 : ∀ i, i ≤ numBins → f i ≤ 1 := fun i hi => by
      rw [hf]; dsimp only
      rw [div_le_one (by positivity)]
      exact pow_le_pow_right₀ (by norm_num) hi
    have hstep : ∀ i j, i < j → 2 * f i ≤ f j := by
      intro i j hij
      rw [hf]; dsimp only
      rw [← mul_div_assoc, ← pow_succ']
      exact div_le_div_of_nonneg_right (pow_le_pow_right₀ (by norm_num) hij) (by positivity)
    have h0le : ∀ i, f 0 ≤ f i := by
      intro i
      rw [hf]; dsimp only
      exact div_le_div_of_nonneg_right (pow_le_pow_right₀ (by norm_num) (Nat.zero_le i)) (by positivity)
    have h1 : f 1 = 2 * f 0 := by rw [hf]; dsimp only; ring
    have hub := Hist.sharp_seq (Rounding.none (K := K)) numBins W hb hW f
      (by
        intro i j hij hj
        rw [← exact_eq_none, less_exact]
        have := hstep i j hij
        have := hpos i
        have := hpos j
        rw [abs_of_pos (hpos i), abs_of_pos (hpos j), max_eq_right (by linarith)]
        have he : defaultEps (exact K) = 1 / 10000 := by simp [defaultEps, exact]
        rw [he]
        linarith)
      (hR.diff (by rw [abs_of_pos (hpos 0)]; exact (hle1 0 (by omega)).trans hM')
        (by rw [abs_of_pos (hpos 1)]; exact (hle1 1 (by omega)).trans hM'))
      (by
        intro i j hij hj
        have := hstep i j hij
        have := h0le i
        linarith)
    obtain ⟨v, hv⟩ := h ((List.range numBins).map f ++ List.replicate (2 * W + 1) (f numBins)) (by simp; omega) (by
      intro x hx
      rcases List.mem_append.1 hx with hx | hx
      · obtain ⟨i, hi, rfl⟩ := List.mem_map.1 hx
        exact ⟨(hpos i).le, hle1 i (by have := List.mem_range.1 hi; omega)⟩
      · rw [List.eq_of_mem_replicate hx]
        exact ⟨(hpos _).le, hle1 _ le_rfl⟩)
    rw [exact_eq_none, hub] at hv
    cases hv
  · intro hL xs hn hx
    have hx' : ∀ x ∈ xs, |x| ≤ dblMax / 4 := fun x h => by
      rw [abs_of_nonneg (hx x h).1]; exact (hx x h).2.trans hM'
    rw [exact_eq_none]
    exact C109_bound _ numBins W (by omega) hW xs (by omega) fun a ha b hb => hR.diff (hx' a ha) (hx' b hb)

end Round

/-- **C109** on doubles: with two to 9000 bins and a window, all streams of at most `L` doubles up to a quarter of the
largest are processed if and only if `L ≤ 2 W + numBins`. The stream that fails is 1, 2, …, `numBins + 1`, then
`numBins + 1` another `2 W` times. -/
theorem C109_threshold_double (numBins W L : ℕ) (hb : 2 ≤ numBins) (hb' : numBins ≤ 9000) (hW : 1 ≤ W) :
    ((∀ xs : List ℚ, xs.length ≤ L → (∀ x ∈ xs, |x| ≤ dblMax / 4) →
      (updateAll (Hist.update Dbl.arith) (Hist.new numBins W) (xs.map .fin)).IsOk) ↔ L ≤ 2 * W + numBins) ∧
    updateAll (Hist.update Dbl.arith) (Hist.new numBins W)
      (((List.range numBins).map fun i => .fin ((i : ℚ) + 1)) ++ List.replicate (2 * W + 1) (.fin (numBins + 1))) =
      .ub .oob := by
  have hM : (10000 : ℚ) ≤ dblMax / 4 := by decide +kernel
  have hR : Hist.Big R64 := ⟨by decide +kernel, by decide +kernel, by decide +kernel, by decide +kernel,
    by decide +kernel⟩
  have hbig : ∀ {x : ℚ}, |x| ≤ dblMax / 4 → |x| ≤ dblMax / 2 := fun h => by
    have := dblMax_pos
    linarith
  set f : ℕ → ℚ := fun i => (i : ℚ) + 1 with hf
  have hub : updateAll (Hist.update b64) (Hist.new numBins W)
      ((List.range numBins).map f ++ List.replicate (2 * W + 1) (f numBins)) = .ub .oob := by
    rw [b64_eq]
    refine Hist.sharp_seq R64 numBins W hb hW f ?_ (hR.diff ?_ ?_) ?_
    · intro i j hij hj
      have hij' : (i : ℚ) + 1 ≤ j := by exact_mod_cast hij
      have hi0 : (0 : ℚ) ≤ i := by positivity
      have hj9 : (j : ℚ) ≤ 9000 := by exact_mod_cast hj.trans hb'
      rw [less_iff, hf]
      dsimp only
      rw [abs_of_nonneg (by linarith), abs_of_nonneg (by linarith), max_eq_right (by linarith)]
      have he : defaultEps R64.arith ≤ 1 / 9500 := by decide +kernel
      have h1 : R64.rnd (((j : ℚ) + 1) * defaultEps R64.arith) ≤ R64.rnd (9001 / 9500) := by
        refine R64.mono ?_
        have := mul_le_mul_of_nonneg_left he (show (0 : ℚ) ≤ (j : ℚ) + 1 by linarith)
        linarith
      have h2 : R64.rnd 1 ≤ R64.rnd ((j : ℚ) + 1 - (i + 1)) := R64.mono (by linarith)
      have h3 : R64.rnd (9001 / 9500) < R64.rnd 1 := by decide +kernel
      linarith
    · rw [hf]; dsimp only
      have : (1 : ℚ) ≤ dblMax / 4 := by linarith
      simpa using this
    · rw [hf]; dsimp only
      have : |((1 : ℕ) : ℚ) + 1| = 2 := by norm_num
      rw [this]
      have : (2 : ℚ) ≤ dblMax / 4 := by linarith
      simpa using this
    · intro i j hij hj
      rw [hf]; dsimp only
      have : (i : ℚ) + 1 ≤ j := by exact_mod_cast hij
      push_cast
      linarith
  have hsmall : ∀ x ∈ (List.range numBins).map f ++ List.replicate (2 * W + 1) (f numBins), |x| ≤ dblMax / 4 := by
    have hfi : ∀ i, i ≤ numBins → |f i| ≤ dblMax / 4 := by
      intro i hi
      have : (i : ℚ) ≤ 9000 := by exact_mod_cast hi.trans hb'
      have h0 : (0 : ℚ) ≤ i := by positivity
      rw [hf]; dsimp only
      rw [abs_of_nonneg (by linarith)]
      linarith
    intro x hx
    rcases List.mem_append.1 hx with hx | hx
    · obtain ⟨i, hi, rfl⟩ := List.mem_map.1 hx
      exact hfi i (by have := List.mem_range.1 hi; omega)
    · rw [List.eq_of_mem_replicate hx]; exact hfi _ le_rfl
  have hubD : updateAll (Hist.update Dbl.arith) (Hist.new numBins W)
      (((List.range numBins).map f ++ List.replicate (2 * W + 1) (f numBins)).map .fin) = .ub .oob := by
    rw [C88_no_overflow_partial numBins W _ fun x hx => hbig (hsmall x hx), hub]
    rfl
  refine ⟨⟨?_, ?_⟩, ?_⟩
  · intro h
    by_contra hL
    obtain ⟨v, hv⟩ := h _ (by simp; omega) hsmall
    rw [hubD] at hv
    cases hv
  · intro hL xs hn hx
    have hok : (updateAll (Hist.update R64.arith) (Hist.new numBins W) xs).IsOk :=
      C109_bound _ numBins W (by omega) hW xs (by omega) fun a ha b hb =>
        hR.diff (by simpa using hx a ha) (by simpa using hx b hb)
    obtain ⟨h, e⟩ := hok
    rw [← b64_eq] at e
    exact ⟨h.map .fin, by rw [C88_no_overflow_partial numBins W xs fun x hx' => hbig (hx x hx'), e]; rfl⟩
  · rw [List.map_append, List.map_map, List.map_replicate] at hubD
    exact hubD

/-- **C109** on doubles, one bin and window one: three observations are the most. -/
theorem C109_smallest_double (L : ℕ) :
    (∀ xs : List ℚ, xs.length ≤ L → (∀ x ∈ xs, |x| ≤ dblMax / 4) →
      (updateAll (Hist.update Dbl.arith) (Hist.new 1 1) (xs.map .fin)).IsOk) ↔ L ≤ 3 := by
  have hR : Hist.Big R64 := ⟨by decide +kernel, by decide +kernel, by decide +kernel, by decide +kernel,
    by decide +kernel⟩
  constructor
  · intro h
    by_contra hL
    obtain ⟨v, hv⟩ := h [1, 2, 1, 2] (by simp; omega) (by decide +kernel)
    have hub : updateAll (Hist.update Dbl.arith) (Hist.new 1 1) (([1, 2, 1, 2] : List ℚ).map .fin) = .ub .oob := by
      decide +kernel
    rw [hub] at hv
    cases hv
  · intro hL xs hn hx
    obtain ⟨h, e⟩ := C109_bound R64.arith 1 1 le_rfl le_rfl xs (by omega) fun a ha b hb =>
      hR.diff (by simpa using hx a ha) (by simpa using hx b hb)
    rw [← b64_eq] at e
    refine ⟨h.map .fin, ?_⟩
    rw [C88_no_overflow_partial 1 1 xs fun x hx' => (hx x hx').trans (by have := dblMax_pos; linarith), e]
    rfl

/-- Three bins, window two: seven observations are always processed, eight may fail. -/
example : (updateAll (Hist.update b64) (Hist.new 3 2) [1, 2, 3, 4, 4, 4, 4]).IsOk ∧
    updateAll (Hist.update b64) (Hist.new 3 2) [1, 2, 3, 4, 4, 4, 4, 4] = .ub .oob := by
  refine ⟨?_, by decide +kernel⟩
  rw [b64_eq]
  exact C109_bound _ 3 2 (by norm_num) (by norm_num) _ (by simp) (by decide +kernel)

/-- The hypotheses of `C109_sharp` on an instance. -/
example : updateAll (Hist.update b64) (Hist.new 3 2) ([1, 2, 3] ++ List.replicate 5 4) = .ub .oob := by
  decide +kernel

/-- One bin, window two; window zero. -/
example : (updateAll (Hist.update b64) (Hist.new 1 2) [1, 2, 1, 2, 3, 1, 2, 1, 3]).IsOk ∧
    (updateAll (Hist.update b64) (Hist.new 2 0) [1, 2, 1, 2, 3, 1, 2, 1, 3]).IsOk :=
  ⟨C109_one_bin _ 2 le_rfl _ (by decide +kernel), C109_no_window _ 2 (by norm_num) _ (by decide +kernel)⟩

end KML
