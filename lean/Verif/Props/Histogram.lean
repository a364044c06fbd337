import Verif.Lemmas.HistOrder
import Verif.Lemmas.Float
import Verif.Spec.Stats

/-! # C50–C63: StreamingHistogram -/

set_option linter.unusedSectionVars false

namespace KML

open Spec

/-! ## C50 -/

/-- **C50**, definedness (any arithmetic, any bins): the search terminates, reads no bin outside the array and
returns a position from 0 to `size()`. -/
theorem C50_defined {F : Type} (A : Arith F) (h : Hist F) (x : F) :
    ∃ i, h.binSearch A x = .ok i ∧ i ≤ h.size := by
  obtain ⟨i, e, hi, -⟩ := Hist.binSearchBin_spec (A := A) h (Hist.unit x)
  exact ⟨i, e, hi⟩

theorem Hist.search_prefix {F : Type} {A : Arith F} {h : Hist F} {x : F} {i : ℕ} (hs : h.binSearch A x = .ok i)
    (hp : h.bins.Pairwise fun a b => Bin.lt A b (Hist.unit x) = true → Bin.lt A a (Hist.unit x) = true) :
    i = (h.bins.filter fun b => Bin.lt A b (Hist.unit x)).length := by
  obtain ⟨j, e, hj, h1, h2⟩ := Hist.binSearchBin_spec (A := A) h (Hist.unit x)
  have : i = j := by
    have : h.binSearch A x = .ok j := e
    rw [hs] at this; injection this
  subst this
  have ht : ∀ b ∈ h.bins.take i, Bin.lt A b (Hist.unit x) = true := by
    intro b hb
    obtain ⟨k, hk, rfl⟩ := List.getElem_of_mem hb
    rw [List.length_take] at hk
    rw [List.getElem_take]
    have hi : i - 1 < h.bins.length := by omega
    have hlast := h1 _ (by omega) (List.getElem?_eq_getElem hi)
    rcases Nat.lt_or_ge k (i - 1) with hlt | hge
    · exact List.pairwise_iff_getElem.1 hp k (i - 1) (by omega) hi hlt hlast
    · have : k = i - 1 := by omega
      subst this; exact hlast
  have hd : ∀ b ∈ h.bins.drop i, Bin.lt A b (Hist.unit x) = false := by
    intro b hb
    obtain ⟨k, hk, rfl⟩ := List.getElem_of_mem hb
    rw [List.length_drop] at hk
    rw [List.getElem_drop]
    have hi : i < h.bins.length := by omega
    have hfirst := h2 _ (List.getElem?_eq_getElem hi)
    rcases Nat.eq_zero_or_pos k with h0 | h0
    · subst h0; exact hfirst
    · by_contra hc
      have hc' : Bin.lt A h.bins[i + k] (Hist.unit x) = true := by simpa using hc
      have := List.pairwise_iff_getElem.1 hp i (i + k) hi (by omega) (by omega) hc'
      rw [this] at hfirst
      cases hfirst
  conv_rhs => rw [← List.take_append_drop i h.bins]
  rw [List.filter_append, List.filter_eq_self.2 ht, List.filter_eq_nil_iff.2 (fun b hb => by simp [hd b hb])]
  simp [hj]

section Round

variable {K : Type} [Field K] [LinearOrder K] [IsStrictOrderedRing K] [FloorRing K]

/-- **C50** (exact arithmetic): with the bins ordered by left edge, the search returns the number of bins whose left
edge is below the item by more than the relative tolerance 0.0001. -/
theorem C50_insertion_point (h : Hist K) (x : K) (hs : h.bins.Pairwise fun a b => a.left ≤ b.left) :
    h.binSearch (exact K) x = .ok (h.bins.filter fun b =>
      decide (max |b.left| |x| * (1 / 10000) < x - b.left)).length := by
  obtain ⟨i, e, -⟩ := C50_defined (exact K) h x
  rw [e]
  congr 1
  have hdec : ∀ b : Bin K, Bin.lt (exact K) b (Hist.unit x) =
      decide (max |b.left| |x| * (1 / 10000) < x - b.left) := by
    intro b
    rw [Bool.eq_iff_iff, decide_eq_true_iff]
    have : Utils.defaultEps (exact K) = 1 / 10000 := by simp [Utils.defaultEps, exact]
    rw [← this]
    exact less_exact _ _ _
  have hmono := Hist.search_prefix e (hs.imp (fun {a b} hab hb => C47_monotone b.left a.left x x _
    (defaultEps_bounds (K := K)).1 (defaultEps_bounds (K := K)).2 hab le_rfl hb))
  rw [hmono]
  simp only [hdec]

/-- Three bins; 2.5 goes in position 2. -/
example : (⟨5, 9, [⟨1, 1, 1⟩, ⟨2, 2, 1⟩, ⟨3, 3, 1⟩], [], 3, 3, 3⟩ : Hist ℚ).binSearch (exact ℚ) (5 / 2) = .ok 2 := by
  decide +kernel

end Round

/-! ## C51–C53: sizes and counts, any arithmetic -/

namespace Hist

variable {F : Type} {A : Arith F}

/-- Counting facts along a run. -/
structure Counts (nb W n : ℕ) (h : Hist F) : Prop where
  numBins : h.numBins = nb
  windowSize : h.windowSize = W
  size : h.bins.length ≤ nb
  total : h.total = min n W
  hist : h.historyCount = n
  sum_ge : h.total ≤ sumCounts h.bins
  sum_eq : n ≤ W → sumCounts h.bins = n

theorem Counts.new (nb W : ℕ) : Counts nb W 0 (Hist.new nb W : Hist F) :=
  ⟨rfl, rfl, Nat.zero_le _, by simp [Hist.new], rfl, Nat.zero_le _, fun _ => rfl⟩

theorem Counts.update {nb W n : ℕ} {h h' : Hist F} {x : F} (hc : Counts nb W n h)
    (hu : h.update A x = .ok h') : Counts nb W (n + 1) h' := by
  obtain ⟨i, b1, b2, hs⟩ := update_step hu
  have hp := hs.placed.length
  have hps := hs.placed.sum
  have hms : sumCounts h'.bins = sumCounts b2 ∧ h'.bins.length ≤ nb ∧ True := by
    rcases hs.merge with ⟨h1, h2⟩ | ⟨h1, h2⟩
    · rw [h2]; exact ⟨rfl, by rw [← hc.numBins]; exact h1, trivial⟩
    · refine ⟨h2.sum, ?_, trivial⟩
      have := h2.length
      have hsz := hc.size
      rcases hs.decay with ⟨-, e, -⟩ | ⟨-, -, d, w, -, e, -⟩
      · rw [e] at this; omega
      · have := e.length; omega
  obtain ⟨m1, m2, -⟩ := hms
  refine ⟨by rw [hs.numBins, hc.numBins], by rw [hs.windowSize, hc.windowSize], m2, ?_,
    by rw [hs.count, hc.hist], ?_, ?_⟩
  · have := hc.total; have := hc.windowSize
    rcases hs.decay with ⟨h1, -, h2, -⟩ | ⟨h1, h2, -⟩ <;> omega
  · have := hc.sum_ge
    rcases hs.decay with ⟨h1, h3, h2, -⟩ | ⟨h1, h2, d, w, -, h3, -⟩
    · rw [m1, h3]; omega
    · have := h3.sum; omega
  · intro hn
    have := hc.sum_eq (by omega)
    have := hc.total; have := hc.windowSize
    rcases hs.decay with ⟨h1, h3, h2, -⟩ | ⟨h1, h2, -⟩
    · rw [m1, h3]; omega
    · omega

theorem Counts.run {nb W : ℕ} {h : Hist F} {xs : List F}
    (hu : updateAll (Hist.update A) (Hist.new nb W) xs = .ok h) : Counts nb W xs.length h := by
  induction xs using List.reverseRecOn generalizing h with
  | nil => simp only [updateAll] at hu; injection hu with hu; subst hu; exact Counts.new nb W
  | append_singleton xs x ih =>
    rw [updateAll_snoc] at hu
    obtain ⟨h1, e1, e2⟩ := Res.bind_eq_ok.1 hu
    rw [List.length_append]
    exact (ih e1).update e2

end Hist

/-- **C51** (any arithmetic): never more bins than the budget. -/
theorem C51_budget {F : Type} (A : Arith F) (numBins W : ℕ) (xs : List F) (h : Hist F)
    (hu : updateAll (Hist.update A) (Hist.new numBins W) xs = .ok h) : h.size ≤ numBins :=
  (Hist.Counts.run hu).size

/-- Five observations in two bins. -/
example : (do
    let h ← updateAll (Hist.update b64) (Hist.new 2 10) [5, 1, 4, 2, 3]
    .ok h.bins) = .ok [⟨1, 3, 3⟩, ⟨4, 5, 2⟩] := by
  decide +kernel

/-- **C52** (any arithmetic). -/
theorem C52_total {F : Type} (A : Arith F) (numBins W : ℕ) (xs : List F) (h : Hist F)
    (hu : updateAll (Hist.update A) (Hist.new numBins W) xs = .ok h) :
    h.getTotalCount = min xs.length W :=
  (Hist.Counts.run hu).total

/-- Four observations, window two. -/
example : (do
    let h ← updateAll (Hist.update b64) (Hist.new 10 2) [1, 2, 3, 4]
    .ok h.getTotalCount) = .ok 2 := by
  decide +kernel

/-! ## C53 -/

/-- The full property (exact arithmetic). It is false of the code. -/
def C53_full : Prop := ∀ (numBins W : ℕ) (xs : List ℚ) (h : Hist ℚ),
  updateAll (Hist.update (exact ℚ)) (Hist.new numBins W) xs = .ok h →
  ∃ cs, h.binCounts = .ok cs ∧ cs.sum = h.getTotalCount

/-- **C53** is violated: 1, 2, 3, 4 with window 2 gets out of sync. -/
theorem C53_violated : ¬ C53_full := by
  intro h
  obtain ⟨cs, h1, -⟩ := h 10 2 [1, 2, 3, 4]
    ⟨10, 2, [⟨1, 1, 0⟩, ⟨2, 2, 1⟩, ⟨3, 3, 1⟩, ⟨4, 4, 1⟩], [0, 1, 2, 3], 2, 4, 4⟩ (by decide +kernel)
  have h2 : (⟨10, 2, [⟨1, 1, 0⟩, ⟨2, 2, 1⟩, ⟨3, 3, 1⟩, ⟨4, 4, 1⟩], [0, 1, 2, 3], 2, 4, 4⟩ : Hist ℚ).binCounts =
    .throw "Counts are somehow out of sync!" := by decide +kernel
  rw [h1] at h2
  cases h2

/-- **C53**, the part that holds (any arithmetic): until the window is full the counts add up, to the number of
observations. Missing: longer streams. -/
theorem C53_filling_partial {F : Type} (A : Arith F) (numBins W : ℕ) (xs : List F) (h : Hist F)
    (hn : xs.length ≤ W) (hu : updateAll (Hist.update A) (Hist.new numBins W) xs = .ok h) :
    ∃ cs, h.binCounts = .ok cs ∧ cs.sum = h.getTotalCount ∧ cs.sum = xs.length ∧ cs.length = h.size := by
  have hc := Hist.Counts.run hu
  have h1 := hc.sum_eq hn
  have h2 := hc.total
  unfold Hist.sumCounts at h1
  refine ⟨h.bins.map Bin.count, ?_, ?_, h1, by simp [Hist.size]⟩
  · unfold Hist.binCounts
    simp only [h1, h2]
    rw [if_neg (by omega)]
  · rw [h1]; unfold Hist.getTotalCount; omega

/-- **C53**, for every stream (any arithmetic): the bins never hold less than the total count. -/
theorem C53_overcount_partial {F : Type} (A : Arith F) (numBins W : ℕ) (xs : List F) (h : Hist F)
    (hu : updateAll (Hist.update A) (Hist.new numBins W) xs = .ok h) :
    h.getTotalCount ≤ (h.bins.map Bin.count).sum :=
  (Hist.Counts.run hu).sum_ge

/-- A filling histogram. -/
example : (do
    let h ← updateAll (Hist.update b64) (Hist.new 3 10) [5, 1, 4, 2, 3, 1]
    h.binCounts) = .ok [4, 1, 1] := by
  decide +kernel

section Round

variable {K : Type} [Field K] [LinearOrder K] [IsStrictOrderedRing K] [FloorRing K]

/-! ## C54 -/

namespace Hist

theorem Ordered.update {R : Rounding K} {nb W : ℕ} (hW : 0 < W) {xs : List K} {h h' : Hist K} {x : K}
    (hc : Counts nb W xs.length h) (ho : Ordered xs h.bins) (hu : h.update R.arith x = .ok h') :
    Ordered (xs ++ [x]) h'.bins := by
  obtain ⟨i, b1, b2, hs⟩ := update_step hu
  have h0 : h.total = 0 → h.bins = [] := by
    intro h0
    have hn : xs.length = 0 := by have := hc.total; omega
    have : xs = [] := List.length_eq_zero_iff.1 hn
    subst this
    rcases hb : h.bins with _ | ⟨b, l⟩
    · rfl
    · have := (ho.mem b (by rw [hb]; simp)).1
      simp at this
  have h1 := ho.placed h0 hs.placed
  have h2 : Ordered (xs ++ [x]) b2 := by
    rcases hs.decay with ⟨-, e, -⟩ | ⟨-, -, d, w, -, e, -⟩
    · rw [e]; exact h1
    · exact h1.evicted e
  rcases hs.merge with ⟨-, e⟩ | ⟨-, e⟩
  · rw [e]; exact h2
  · exact h2.merged e

theorem Ordered.run {R : Rounding K} {nb W : ℕ} (hW : 0 < W) {xs : List K} {h : Hist K}
    (hu : updateAll (Hist.update R.arith) (Hist.new nb W) xs = .ok h) : Ordered xs h.bins := by
  induction xs using List.reverseRecOn generalizing h with
  | nil => simp only [updateAll] at hu; injection hu with hu; subst hu; exact Ordered.nil
  | append_singleton xs x ih =>
    rw [updateAll_snoc] at hu
    obtain ⟨h1, e1, e2⟩ := Res.bind_eq_ok.1 hu
    exact Ordered.update hW (Counts.run e1) (ih e1) e2

theorem mapAssign_last (R : Rounding K) {k : K × K} {v : ℕ} {m : List ((K × K) × ℕ)}
    (h : ∀ e ∈ m, e.1.1 < k.1) : mapAssign R.arith k v m = m ++ [(k, v)] := by
  induction m with
  | nil => rfl
  | cons e m ih =>
    unfold mapAssign
    have : pairLt R.arith e.1 k = true := by
      have := h e (by simp)
      simp [pairLt, Rounding.arith, this]
    rw [if_pos this, ih fun e he => h e (by simp [he])]
    rfl

theorem report_eq (R : Rounding K) {h : Hist K} (hs : h.bins.Pairwise fun a b => a.left < b.left) :
    h.report R.arith = h.bins.map fun b => ((b.left, b.right), b.count) := by
  unfold report
  have key : ∀ (l : List (Bin K)) (m : List ((K × K) × ℕ)), l.Pairwise (fun a b => a.left < b.left) →
      (∀ e ∈ m, ∀ b ∈ l, e.1.1 < b.left) →
      l.foldl (fun m b => mapAssign R.arith (b.left, b.right) b.count m) m =
        m ++ l.map fun b => ((b.left, b.right), b.count) := by
    intro l
    induction l with
    | nil => intro m _ _; simp
    | cons b l ih =>
      intro m hl hm
      rw [List.pairwise_cons] at hl
      rw [List.foldl_cons, mapAssign_last R (fun e he => hm e he b (by simp)), ih _ hl.2]
      · simp
      · intro e he c hc
        rcases List.mem_append.1 he with he | he
        · exact hm e he c (by simp [hc])
        · simp at he; subst he; exact hl.1 c hc
  rw [key _ [] hs (by simp)]
  simp

/-- The order of `std::pair`. -/
def Before (x y : K × K) : Prop := x.1 < y.1 ∨ x.1 = y.1 ∧ x.2 < y.2

theorem pairLt_iff (R : Rounding K) (x y : K × K) : pairLt R.arith x y = true ↔ Before x y := by
  simp only [pairLt, Rounding.arith, Before, Bool.or_eq_true, decide_eq_true_eq, Bool.and_eq_true, Bool.not_eq_true',
    decide_eq_false_iff_not, not_lt]
  constructor
  · rintro (h | ⟨h1, h2⟩)
    · exact .inl h
    · rcases h1.lt_or_eq with h | h
      · exact .inl h
      · exact .inr ⟨h, h2⟩
  · rintro (h | ⟨h1, h2⟩)
    · exact .inl h
    · exact .inr ⟨h1.le, h2⟩

theorem Before.trans {x y z : K × K} (h1 : Before x y) (h2 : Before y z) : Before x z := by
  rcases h1 with h1 | ⟨h1, h1'⟩ <;> rcases h2 with h2 | ⟨h2, h2'⟩
  · exact .inl (h1.trans h2)
  · exact .inl (h2 ▸ h1)
  · exact .inl (h1 ▸ h2)
  · exact .inr ⟨h1.trans h2, h1'.trans h2'⟩

theorem Before.irrefl (x : K × K) : ¬ Before x x := by
  rintro (h | ⟨-, h⟩) <;> exact lt_irrefl _ h

theorem Before.total {x y : K × K} (h1 : ¬ Before x y) (h2 : ¬ Before y x) : x = y := by
  unfold Before at h1 h2
  push Not at h1 h2
  have e : x.1 = y.1 := le_antisymm h2.1 h1.1
  exact Prod.ext e (le_antisymm (h2.2 e.symm) (h1.2 e))

theorem mapAssign_spec (R : Rounding K) (k : K × K) (v : ℕ) : ∀ m : List ((K × K) × ℕ),
    m.Pairwise (fun e f => Before e.1 f.1) → (mapAssign R.arith k v m).Pairwise (fun e f => Before e.1 f.1) ∧
      ∀ k' n, (k', n) ∈ mapAssign R.arith k v m ↔ k' = k ∧ n = v ∨ k' ≠ k ∧ (k', n) ∈ m
  | [], _ => by
    refine ⟨List.pairwise_singleton _ _, fun k' n => ?_⟩
    simp [mapAssign]
  | e :: m, h => by
    rw [List.pairwise_cons] at h
    obtain ⟨i1, i2⟩ := mapAssign_spec R k v m h.2
    unfold mapAssign
    split
    · rename_i h1
      rw [pairLt_iff] at h1
      have hne : e.1 ≠ k := fun h => Before.irrefl k (h ▸ h1)
      refine ⟨List.pairwise_cons.2 ⟨?_, i1⟩, fun k' n => ?_⟩
      · rintro ⟨k', n⟩ hf
        rcases (i2 k' n).1 hf with ⟨rfl, -⟩ | ⟨-, hf⟩
        · exact h1
        · exact h.1 _ hf
      · rw [List.mem_cons, i2, List.mem_cons]
        constructor
        · rintro (rfl | h | h)
          · exact .inr ⟨hne, .inl rfl⟩
          · exact .inl h
          · exact .inr ⟨h.1, .inr h.2⟩
        · rintro (h | ⟨h, h' | h'⟩)
          · exact .inr (.inl h)
          · exact .inl h'
          · exact .inr (.inr ⟨h, h'⟩)
    · rename_i h1
      rw [pairLt_iff] at h1
      split
      · rename_i h2
        rw [pairLt_iff] at h2
        have hall : ∀ f ∈ e :: m, Before k f.1 := by
          intro f hf
          rcases List.mem_cons.1 hf with rfl | hf
          · exact h2
          · exact h2.trans (h.1 f hf)
        refine ⟨List.pairwise_cons.2 ⟨hall, List.pairwise_cons.2 h⟩, fun k' n => ?_⟩
        rw [List.mem_cons, Prod.mk.injEq]
        constructor
        · rintro (h | h)
          · exact .inl h
          · exact .inr ⟨fun e => Before.irrefl k (e ▸ hall _ h), h⟩
        · rintro (h | h)
          · exact .inl h
          · exact .inr h.2
      · rename_i h2
        rw [pairLt_iff] at h2
        have hk : e.1 = k := Before.total h1 h2
        refine ⟨List.pairwise_cons.2 ⟨h.1, h.2⟩, fun k' n => ?_⟩
        rw [List.mem_cons, List.mem_cons, Prod.mk.injEq, hk]
        constructor
        · rintro (h' | h')
          · exact .inl h'
          · exact .inr ⟨fun e' => Before.irrefl k (by have := h.1 _ h'; rw [hk, e'] at this; exact this), .inr h'⟩
        · rintro (h' | ⟨h', rfl | h''⟩)
          · exact .inl h'
          · exact absurd hk h'
          · exact .inr h''

end Hist

/-- **C54** (any rounding, `W ≥ 1`): left edges strictly increase, no bin is inverted, every edge is an
observation, and the report has one entry per bin. -/
theorem C54_ordered (R : Rounding K) (numBins W : ℕ) (hW : 0 < W) (xs : List K) (h : Hist K)
    (hu : updateAll (Hist.update R.arith) (Hist.new numBins W) xs = .ok h) :
    h.bins.Pairwise (fun a b => a.left < b.left) ∧
    (∀ b ∈ h.bins, b.left ≤ b.right ∧ b.left ∈ xs ∧ b.right ∈ xs) ∧
    h.report R.arith = h.bins.map (fun b => ((b.left, b.right), b.count)) := by
  have ho := Hist.Ordered.run hW hu
  exact ⟨ho.sorted, fun b hb => ⟨ho.le b hb, ho.mem b hb⟩, Hist.report_eq R ho.sorted⟩

/-- **C54**, the report of any bins, also of those that are not in order (they need not be with window 0): the entries are in
increasing order of (left, right), one for every pair of edges, with the count of the last bin that has these edges. -/
theorem C54_report (R : Rounding K) (h : Hist K) :
    (h.report R.arith).Pairwise (fun e f => e.1.1 < f.1.1 ∨ e.1.1 = f.1.1 ∧ e.1.2 < f.1.2) ∧
    ∀ l r n, ((l, r), n) ∈ h.report R.arith ↔
      ∃ as b bs, h.bins = as ++ b :: bs ∧ b.left = l ∧ b.right = r ∧ b.count = n ∧ ∀ c ∈ bs, ¬ (c.left = l ∧ c.right = r) := by
  unfold Hist.report
  induction h.bins using List.reverseRecOn with
  | nil => exact ⟨List.Pairwise.nil, fun l r n => by simp⟩
  | append_singleton as b ih =>
    rw [List.foldl_append, List.foldl_cons, List.foldl_nil]
    obtain ⟨i1, i2⟩ := Hist.mapAssign_spec R (b.left, b.right) b.count _ ih.1
    refine ⟨i1, fun l r n => ?_⟩
    rw [i2, ih.2]
    constructor
    · rintro (⟨h1, rfl⟩ | ⟨h1, xs, c, ys, rfl, h2, h3, h4, h5⟩)
      · rw [Prod.mk.injEq] at h1
        exact ⟨as, b, [], rfl, h1.1.symm, h1.2.symm, rfl, by simp⟩
      · refine ⟨xs, c, ys ++ [b], by simp, h2, h3, h4, fun d hd => ?_⟩
        rcases List.mem_append.1 hd with hd | hd
        · exact h5 d hd
        · rw [List.mem_singleton.1 hd]
          rintro ⟨e1, e2⟩
          exact h1 (Prod.ext e1.symm e2.symm)
    · rintro ⟨xs, c, ys, h1, h2, h3, h4, h5⟩
      rcases List.eq_nil_or_concat ys with rfl | ⟨ys, d, rfl⟩
      · obtain ⟨-, e⟩ := List.append_inj' h1 rfl
        injection e with e
        subst e
        exact .inl ⟨Prod.ext h2.symm h3.symm, h4.symm⟩
      · rw [List.concat_eq_append, ← List.cons_append, ← List.append_assoc] at h1
        obtain ⟨e1, e⟩ := List.append_inj' h1 rfl
        injection e with e
        subst e
        refine .inr ⟨fun e => h5 b (by simp) ⟨congrArg Prod.fst e.symm, congrArg Prod.snd e.symm⟩, xs, c, ys, e1, h2, h3, h4,
          fun d hd => h5 d (by simp [hd])⟩

/-- Window 0 places every item at the end: 5 and 1 are not in order, the report is. -/
example : (do
    let h ← updateAll (Hist.update b64) (Hist.new 4 0) [5, 1, 5]
    .ok (h.bins.map Bin.left, h.report b64)) = .ok ([5, 1, 5], [((1, 1), 1), ((5, 5), 0)]) := by
  decide +kernel

/-- Nine observations, four bins, window five. -/
example : (do
    let h ← updateAll (Hist.update b64) (Hist.new 4 5) [3, 1, 4, 1, 5, 9, 2, 6, 5]
    .ok (h.report b64)) = .ok [((3, 4), 1), ((5, 5), 2), ((6, 6), 1), ((9, 9), 1)] := by
  decide +kernel

end Round

end KML
