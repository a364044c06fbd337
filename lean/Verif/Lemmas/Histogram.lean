import Verif.Model.Histogram
import Verif.Lemmas.Window
import Verif.Props.Utils

/-!
# Structure of histogram updates

`Hist.update` is a placement, then a decay, then possibly a merge. Each is described here as a relation
between bin lists; the properties are proved about the relations.
-/

set_option linter.unusedSectionVars false

namespace KML

section Lists

variable {α : Type}

theorem insertIdx_mid (l1 l2 : List α) (a : α) : (l1 ++ l2).insertIdx l1.length a = l1 ++ a :: l2 := by
  induction l1 with
  | nil => simp
  | cons x xs ih => simpa using ih

theorem set_mid (l1 l2 : List α) (a b : α) : (l1 ++ a :: l2).set l1.length b = l1 ++ b :: l2 := by
  induction l1 with
  | nil => simp
  | cons x xs ih => simp

theorem eraseIdx_mid (l1 l2 : List α) (a : α) : (l1 ++ a :: l2).eraseIdx l1.length = l1 ++ l2 := by
  induction l1 with
  | nil => simp
  | cons x xs ih => simpa using ih

theorem split_getElem? {l : List α} {i : ℕ} {a : α} (h : l[i]? = some a) :
    ∃ l1 l2, l = l1 ++ a :: l2 ∧ l1.length = i := by
  obtain ⟨hi, rfl⟩ := List.getElem?_eq_some_iff.1 h
  refine ⟨l.take i, l.drop (i + 1), ?_, by simp [hi.le]⟩
  rw [← List.drop_eq_getElem_cons hi, List.take_append_drop]

end Lists

namespace Hist

variable {F : Type} {A : Arith F}

/-! ### Search -/

/-- The bin `[item, item]` with count 1. -/
abbrev unit (x : F) : Bin F := ⟨x, x, 1⟩

theorem searchLoop_spec (bins : List (Bin F)) (bin : Bin F) (fuel low high index : ℕ)
    (hi : index = (low + high) / 2) (hlh : low ≤ high) (hh : high ≤ bins.length) (hf : high - low ≤ fuel)
    (hl : ∀ b, 0 < low → bins[low - 1]? = some b → Bin.lt A b bin = true)
    (hr : ∀ b, bins[high]? = some b → Bin.lt A b bin = false) :
    ∃ i, searchLoop A bins bin fuel low high index = .ok i ∧ low ≤ i ∧ i ≤ high ∧
      (∀ b, 0 < i → bins[i - 1]? = some b → Bin.lt A b bin = true) ∧
      (∀ b, bins[i]? = some b → Bin.lt A b bin = false) := by
  induction fuel generalizing low high index with
  | zero =>
    have : low = high := by omega
    subst this
    have : index = low := by omega
    subst this
    exact ⟨index, by simp [searchLoop], le_rfl, le_rfl, hl, hr⟩
  | succ fuel ih =>
    unfold searchLoop
    by_cases h : low < high
    · have hlt : index < bins.length := by omega
      rw [if_pos h, List.getElem?_eq_getElem hlt]
      simp only
      split
      · rename_i hb
        obtain ⟨i, e, h1, h2, h3, h4⟩ := ih (index + 1) high _ rfl (by omega) hh (by omega)
          (fun b _ hb' => by
            rw [Nat.add_sub_cancel, List.getElem?_eq_getElem hlt] at hb'
            injection hb' with hb'; rw [← hb']; exact hb) hr
        exact ⟨i, e, by omega, h2, h3, h4⟩
      · rename_i hb
        obtain ⟨i, e, h1, h2, h3, h4⟩ := ih low index _ rfl (by omega) (by omega) (by omega) hl
          (fun b hb' => by
            rw [List.getElem?_eq_getElem hlt] at hb'
            injection hb' with hb'; rw [← hb']; simpa using hb)
        exact ⟨i, e, h1, by omega, h3, h4⟩
    · rw [if_neg h]
      have : low = high := by omega
      subst this
      have : index = low := by omega
      subst this
      exact ⟨index, rfl, le_rfl, le_rfl, hl, hr⟩

theorem binSearchBin_spec (h : Hist F) (bin : Bin F) : ∃ i, h.binSearchBin A bin = .ok i ∧ i ≤ h.bins.length ∧
    (∀ b, 0 < i → h.bins[i - 1]? = some b → Bin.lt A b bin = true) ∧
    (∀ b, h.bins[i]? = some b → Bin.lt A b bin = false) := by
  obtain ⟨i, e, -, h2, h3, h4⟩ := searchLoop_spec (A := A) h.bins bin h.bins.length 0 h.bins.length _ rfl
    (Nat.zero_le _) le_rfl (by omega) (fun _ h => absurd h (lt_irrefl _)) (fun b hb => by simp at hb)
  exact ⟨i, e, h2, h3, h4⟩

/-! ### Placement -/

/-- The bin list after placing `x` at position `i`; `t0`: the total count was 0. -/
inductive Placed (A : Arith F) (x : F) (t0 : Prop) : ℕ → List (Bin F) → List (Bin F) → Prop
  | push (i : ℕ) (l : List (Bin F)) (hi : i ≤ l.length)
      (h : t0 ∨ i = l.length ∧ ∀ b, l.getLast? = some b → Bin.lt A b (unit x) = true) :
      Placed A x t0 i l (l ++ [unit x])
  | inc (l1 l2 : List (Bin F)) (b : Bin F) (h1 : ∀ a, l1.getLast? = some a → Bin.lt A a (unit x) = true)
      (h2 : Bin.lt A b (unit x) = false) (h3 : A.le b.left x = true) :
      Placed A x t0 l1.length (l1 ++ b :: l2) (l1 ++ { b with count := b.count + 1 } :: l2)
  | insert (l1 l2 : List (Bin F)) (b : Bin F) (h1 : ∀ a, l1.getLast? = some a → Bin.lt A a (unit x) = true)
      (h2 : Bin.lt A b (unit x) = false) (h3 : A.le b.left x = false) :
      Placed A x t0 l1.length (l1 ++ b :: l2) (l1 ++ unit x :: b :: l2)

theorem place_spec (h : Hist F) (x : F) : ∃ i bins live, h.binSearch A x = .ok i ∧
    h.place A x i = .ok { h with bins := bins, live := live } ∧ Placed A x (h.total = 0) i h.bins bins ∧
    (live : ℤ) - bins.length = h.live - h.bins.length := by
  obtain ⟨i, e, hi, h1, h2⟩ := binSearchBin_spec (A := A) h (unit x)
  unfold place
  by_cases ht : h.total = 0
  · refine ⟨i, h.bins ++ [unit x], h.live + 1, e, by rw [if_pos ht], .push i _ hi (Or.inl ht), by simp⟩
  · by_cases hl : i = h.bins.length
    · refine ⟨i, h.bins ++ [unit x], h.live + 1, e, by rw [if_neg ht, if_pos hl],
        .push i _ hi (Or.inr ⟨hl, ?_⟩), by simp⟩
      intro b hb
      rw [List.getLast?_eq_getElem?] at hb
      refine h1 b ?_ (by rw [hl]; exact hb)
      rcases Nat.eq_zero_or_pos i with h0 | h0
      · have : h.bins = [] := List.length_eq_zero_iff.1 (by omega)
        rw [this] at hb
        simp at hb
      · exact h0
    · have hlt : i < h.bins.length := by omega
      obtain ⟨l1, l2, hs, hlen⟩ := split_getElem? (List.getElem?_eq_getElem hlt)
      generalize hb : h.bins[i] = b at hs
      have hget : h.bins[i]? = some b := by rw [List.getElem?_eq_getElem hlt, hb]
      have hlast : ∀ a, l1.getLast? = some a → Bin.lt A a (unit x) = true := by
        intro a ha
        rw [List.getLast?_eq_getElem?] at ha
        have hpos : 0 < l1.length := by
          rcases Nat.eq_zero_or_pos l1.length with h0 | h0
          · rw [List.length_eq_zero_iff.1 h0] at ha; simp at ha
          · exact h0
        refine h1 a (by omega) ?_
        rw [hs, ← hlen, List.getElem?_append_left (by omega)]
        exact ha
      by_cases hle : A.le b.left x = true
      · refine ⟨i, l1 ++ { b with count := b.count + 1 } :: l2, h.live, e, ?_, ?_, by rw [hs]; simp⟩
        · simp only [if_neg ht, if_neg hl, hget, if_pos hle]
          congr 2
          rw [hs, ← hlen, set_mid]
        · rw [hs, ← hlen]; exact .inc l1 l2 b hlast (h2 b hget) hle
      · refine ⟨i, l1 ++ unit x :: b :: l2, h.live + 1, e, ?_, ?_, by rw [hs]; simp; ring⟩
        · simp only [if_neg ht, if_neg hl, hget, if_neg hle]
          congr 2
          rw [hs, ← hlen, insertIdx_mid]
        · rw [hs, ← hlen]; exact .insert l1 l2 b hlast (h2 b hget) (by simpa using hle)

theorem Placed.length {x : F} {t0 : Prop} {i : ℕ} {l l' : List (Bin F)} (h : Placed A x t0 i l l') :
    i < l'.length ∧ l.length ≤ l'.length ∧ l'.length ≤ l.length + 1 ∧ l' ≠ [] := by
  cases h with
  | push hi => simp; omega
  | inc => simp
  | insert => simp; omega

/-- Sum of the counts. -/
def sumCounts (l : List (Bin F)) : ℕ := (l.map Bin.count).sum

theorem sumCounts_append (l1 l2 : List (Bin F)) : sumCounts (l1 ++ l2) = sumCounts l1 + sumCounts l2 := by
  simp [sumCounts]

theorem sumCounts_cons (b : Bin F) (l : List (Bin F)) : sumCounts (b :: l) = b.count + sumCounts l := by
  simp [sumCounts]

theorem sumCounts_nil : sumCounts ([] : List (Bin F)) = 0 := rfl

theorem Placed.sum {x : F} {t0 : Prop} {i : ℕ} {l l' : List (Bin F)} (h : Placed A x t0 i l l') :
    sumCounts l' = sumCounts l + 1 := by
  cases h <;> simp only [sumCounts_append, sumCounts_cons, sumCounts_nil] <;> omega

/-! ### Decay -/

/-- A bin with its count decremented if positive. -/
def decBin (b : Bin F) : Bin F := if b.count > 0 then { b with count := b.count - 1 } else b

theorem decBin_left (b : Bin F) : (decBin b).left = b.left ∧ (decBin b).right = b.right := by
  unfold decBin; split <;> exact ⟨rfl, rfl⟩

theorem decBin_count (b : Bin F) : (decBin b).count = b.count - 1 := by
  unfold decBin; split
  · rfl
  · omega

/-- The bin list after an eviction from position `i`. -/
inductive Evicted (numBins : ℕ) : ℕ → List (Bin F) → List (Bin F) → Prop
  | keep (l1 l2 : List (Bin F)) (b : Bin F)
      (h : (l1 ++ b :: l2).length ≤ numBins ∨ (decBin b).count ≠ 0) :
      Evicted numBins l1.length (l1 ++ b :: l2) (l1 ++ decBin b :: l2)
  | erase (l1 l2 : List (Bin F)) (b : Bin F) (h1 : numBins < (l1 ++ b :: l2).length)
      (h2 : (decBin b).count = 0) : Evicted numBins l1.length (l1 ++ b :: l2) (l1 ++ l2)

theorem decay_noop (h : Hist F) (ht : h.total ≤ h.windowSize) : decayCounts h = .ok h := by
  unfold decayCounts; rw [if_neg (by omega)]

theorem decay_evict (h : Hist F) (ht : h.windowSize < h.total) {d : ℕ} {rest : List ℕ}
    (hw : h.window = d :: rest) :
    (h.bins.length ≤ d ∧ decayCounts h = .ub .oob) ∨
    (∃ bins, decayCounts h = .ok { h with bins := bins, window := rest, total := h.total - 1 } ∧
      Evicted h.numBins d h.bins bins) := by
  unfold decayCounts
  rw [if_pos ht, hw]
  simp only
  rcases hg : h.bins[d]? with _ | b
  · left
    exact ⟨List.getElem?_eq_none_iff.1 hg, rfl⟩
  · right
    obtain ⟨l1, l2, hs, hlen⟩ := split_getElem? hg
    simp only
    have hset : h.bins.set d (decBin b) = l1 ++ decBin b :: l2 := by rw [hs, ← hlen, set_mid]
    have hb : (if b.count > 0 then { b with count := b.count - 1 } else b) = decBin b := rfl
    rw [hb, hset]
    by_cases h1 : (l1 ++ decBin b :: l2).length > h.numBins
    · rw [if_pos h1]
      by_cases h2 : (decBin b).count = 0
      · rw [if_pos h2]
        refine ⟨l1 ++ l2, by rw [← hlen, eraseIdx_mid], ?_⟩
        rw [hs, ← hlen]
        exact .erase l1 l2 b (by simpa using h1) h2
      · rw [if_neg h2]
        refine ⟨_, rfl, ?_⟩
        rw [hs, ← hlen]
        exact .keep l1 l2 b (Or.inr h2)
    · rw [if_neg h1]
      refine ⟨_, rfl, ?_⟩
      rw [hs, ← hlen]
      exact .keep l1 l2 b (Or.inl (by simpa using h1))

theorem Evicted.length {n i : ℕ} {l l' : List (Bin F)} (h : Evicted n i l l') :
    i < l.length ∧ l'.length ≤ l.length ∧ l.length ≤ l'.length + 1 ∧ (l.length ≤ n → l'.length = l.length) := by
  cases h with
  | keep => simp
  | erase l1 l2 b h1 h2 => simp at h1 ⊢; omega

theorem Evicted.sum {n i : ℕ} {l l' : List (Bin F)} (h : Evicted n i l l') :
    sumCounts l ≤ sumCounts l' + 1 ∧ sumCounts l' ≤ sumCounts l := by
  cases h with
  | keep l1 l2 b h =>
    simp only [sumCounts_append, sumCounts_cons, decBin_count]; omega
  | erase l1 l2 b h1 h2 =>
    rw [decBin_count] at h2
    simp only [sumCounts_append, sumCounts_cons]; omega

theorem Evicted.sum_eq {n i : ℕ} {l l' : List (Bin F)} (h : Evicted n i l l') :
    ∃ b, l[i]? = some b ∧ sumCounts l' + min 1 b.count = sumCounts l := by
  cases h with
  | keep l1 l2 b h =>
    refine ⟨b, by simp, ?_⟩
    simp only [sumCounts_append, sumCounts_cons, decBin_count]; omega
  | erase l1 l2 b h1 h2 =>
    rw [decBin_count] at h2
    refine ⟨b, by simp, ?_⟩
    simp only [sumCounts_append, sumCounts_cons]; omega

/-! ### Merging -/

/-- The bin list after merging position `i + 1` into `i`. -/
inductive Merged (A : Arith F) : ℕ → List (Bin F) → List (Bin F) → Prop
  | mk (l1 l2 : List (Bin F)) (a b : Bin F) :
      Merged A l1.length (l1 ++ a :: b :: l2) (l1 ++ Bin.add A a b :: l2)

theorem mergeBins_spec (l : List (Bin F)) (i : ℕ) :
    (l.length ≤ i + 1 ∧ mergeBins A l i (i + 1) = .ub .oob) ∨
    (∃ l', mergeBins A l i (i + 1) = .ok l' ∧ Merged A i l l') := by
  unfold mergeBins
  rcases hg : l[i + 1]? with _ | b
  · exact Or.inl ⟨List.getElem?_eq_none_iff.1 hg, rfl⟩
  · right
    obtain ⟨l1', l2, hs, hlen⟩ := split_getElem? hg
    obtain ⟨l1, a, rfl⟩ : ∃ l1 a, l1' = l1 ++ [a] := by
      rcases List.eq_nil_or_concat l1' with h | ⟨l1, a, h⟩
      · rw [h] at hlen; simp at hlen
      · exact ⟨l1, a, by simpa using h⟩
    have hlen' : l1.length = i := by simpa using hlen
    have he : l.eraseIdx (i + 1) = l1 ++ a :: l2 := by
      rw [hs, ← hlen, eraseIdx_mid]; simp
    simp only
    rw [he, ← hlen']
    rw [show (l1 ++ a :: l2)[l1.length]? = some a by simp]
    simp only
    refine ⟨_, rfl, ?_⟩
    rw [set_mid, hs]
    have : l1 ++ [a] ++ b :: l2 = l1 ++ a :: b :: l2 := by simp
    rw [this]
    exact .mk l1 l2 a b

theorem mergeLoop_range (l : List (Bin F)) (i : ℕ) (md : F) (mi : ℕ) :
    mergeLoop A l i md mi = mi ∨ (i ≤ mergeLoop A l i md mi ∧ mergeLoop A l i md mi + 1 < i + l.length) := by
  induction l generalizing i md mi with
  | nil => left; rfl
  | cons a l ih =>
    cases l with
    | nil => left; rfl
    | cons b l =>
      unfold mergeLoop
      simp only
      split
      · right
        rcases ih (i + 1) (A.sub b.right a.right) i with h | ⟨h1, h2⟩
        · rw [h]; simp
        · simp only [List.length_cons] at h2 ⊢
          omega
      · rcases ih (i + 1) md mi with h | ⟨h1, h2⟩
        · left; exact h
        · right; simp only [List.length_cons] at h2 ⊢; omega

/-- If the first difference passes the comparison with `DBL_MAX`, two adjacent bins are chosen. -/
theorem mergeIndex_lt {a b : Bin F} {l : List (Bin F)}
    (h : Utils.definitelyLessThan A (A.sub b.right a.right) (A.lit dblMax) (Utils.defaultEps A) = true) :
    mergeIndex A (a :: b :: l) + 1 < (a :: b :: l).length := by
  unfold mergeIndex mergeLoop
  simp only [h, if_true]
  rcases mergeLoop_range (A := A) (b :: l) (0 + 1) (A.sub b.right a.right) 0 with h | ⟨h1, h2⟩
  · rw [h]; simp
  · simp only [List.length_cons] at h2 ⊢; omega

theorem Merged.length {i : ℕ} {l l' : List (Bin F)} (h : Merged A i l l') :
    i + 1 < l.length ∧ l'.length + 1 = l.length := by
  cases h; simp; omega

theorem Merged.sum {i : ℕ} {l l' : List (Bin F)} (h : Merged A i l l') : sumCounts l' = sumCounts l := by
  cases h
  simp only [sumCounts_append, sumCounts_cons, Bin.add]; omega

/-! ### A whole update -/

/-- One update: placement at `i`, eviction at the front of the window if it is full, merge if there are too
many bins. -/
structure Step (A : Arith F) (x : F) (h h' : Hist F) (i : ℕ) (b1 b2 : List (Bin F)) : Prop where
  search : h.binSearch A x = .ok i
  placed : Placed A x (h.total = 0) i h.bins b1
  decay : (h.total < h.windowSize ∧ b2 = b1 ∧ h'.total = h.total + 1 ∧ ∃ w, w = h.window ++ [i] ∧
      h'.window = (if h.numBins < b2.length then
        w.map (fun j => if j = mergeIndex A b2 + 1 then mergeIndex A b2 else j) else w)) ∨
    (h.windowSize ≤ h.total ∧ h'.total = h.total ∧ ∃ d w, h.window ++ [i] = d :: w ∧
      Evicted h.numBins d b1 b2 ∧
      h'.window = (if h.numBins < b2.length then
        w.map (fun j => if j = mergeIndex A b2 + 1 then mergeIndex A b2 else j) else w))
  merge : (b2.length ≤ h.numBins ∧ h'.bins = b2) ∨
    (h.numBins < b2.length ∧ Merged A (mergeIndex A b2) b2 h'.bins)
  numBins : h'.numBins = h.numBins
  windowSize : h'.windowSize = h.windowSize
  count : h'.historyCount = h.historyCount + 1

/-- Last part of `update`. -/
def finish (A : Arith F) (h : Hist F) : Res (Hist F) :=
  if h.bins.length > h.numBins then do
    let bins ← mergeBins A h.bins (mergeIndex A h.bins) (mergeIndex A h.bins + 1)
    .ok { h with bins := bins,
                 window := h.window.map fun w => if w = mergeIndex A h.bins + 1 then mergeIndex A h.bins else w }
  else .ok h

theorem update_eq (h : Hist F) (x : F) : h.update A x = h.add A x >>= finish A := rfl

/-- What can go wrong: the evicted index is outside the bins, or no pair of bins is chosen for merging. -/
theorem update_cases (h : Hist F) (x : F) :
    (∃ h' i b1 b2, h.update A x = .ok h' ∧ Step A x h h' i b1 b2) ∨
    (h.update A x = .ub .oob ∧ ∃ i b1, h.binSearch A x = .ok i ∧ Placed A x (h.total = 0) i h.bins b1 ∧
      ((h.windowSize ≤ h.total ∧ ∃ d w, h.window ++ [i] = d :: w ∧ b1.length ≤ d) ∨
       (∃ b2, h.numBins < b2.length ∧ b2.length ≤ mergeIndex A b2 + 1 ∧
        (b2 = b1 ∧ h.total < h.windowSize ∨
          h.windowSize ≤ h.total ∧ ∃ d w, h.window ++ [i] = d :: w ∧ Evicted h.numBins d b1 b2)))) := by
  obtain ⟨i, b1, live, e1, e2, hp, -⟩ := place_spec (A := A) h x
  rw [update_eq]
  have hadd : h.add A x = decayCounts { h with
      bins := b1, live := live, historyCount := h.historyCount + 1, total := h.total + 1,
      window := h.window ++ [i] } := by
    unfold add
    rw [e1, Res.ok_bind, e2, Res.ok_bind]
  by_cases ht : h.total < h.windowSize
  · rw [hadd, decay_noop _ (by simp only; omega), Res.ok_bind]
    unfold finish
    simp only
    by_cases hb : b1.length > h.numBins
    · rw [if_pos hb]
      rcases mergeBins_spec (A := A) b1 (mergeIndex A b1) with ⟨hm, he⟩ | ⟨l', he, hm⟩
      · right
        rw [he]
        exact ⟨rfl, i, b1, e1, hp, Or.inr ⟨b1, hb, hm, Or.inl ⟨rfl, ht⟩⟩⟩
      · left
        rw [he]
        refine ⟨_, i, b1, b1, rfl, ?_⟩
        exact ⟨e1, hp, Or.inl ⟨ht, rfl, rfl, _, rfl, by rw [if_pos hb]⟩, Or.inr ⟨hb, hm⟩, rfl, rfl, rfl⟩
    · rw [if_neg hb]
      left
      refine ⟨_, i, b1, b1, rfl, ?_⟩
      exact ⟨e1, hp, Or.inl ⟨ht, rfl, rfl, _, rfl, by rw [if_neg hb]⟩, Or.inl ⟨by omega, rfl⟩, rfl, rfl, rfl⟩
  · obtain ⟨d, w, hw⟩ : ∃ d w, h.window ++ [i] = d :: w := by
      cases hh : h.window with
      | nil => exact ⟨i, [], rfl⟩
      | cons d w => exact ⟨d, w ++ [i], rfl⟩
    rcases decay_evict ({ h with
      bins := b1, live := live, historyCount := h.historyCount + 1, total := h.total + 1,
      window := h.window ++ [i] } : Hist F) (by simp only; omega) hw with ⟨hd, he⟩ | ⟨b2, he, hev⟩
    · right
      rw [hadd, he]
      exact ⟨rfl, i, b1, e1, hp, Or.inl ⟨by omega, d, w, hw, hd⟩⟩
    · rw [hadd, he, Res.ok_bind]
      unfold finish
      simp only at hev ⊢
      by_cases hb : b2.length > h.numBins
      · rw [if_pos hb]
        rcases mergeBins_spec (A := A) b2 (mergeIndex A b2) with ⟨hm, he⟩ | ⟨l', he, hm⟩
        · right
          rw [he]
          exact ⟨rfl, i, b1, e1, hp, Or.inr ⟨b2, hb, hm, Or.inr ⟨by omega, d, w, hw, hev⟩⟩⟩
        · left
          rw [he]
          refine ⟨_, i, b1, b2, rfl, ?_⟩
          exact ⟨e1, hp, Or.inr ⟨by omega, by simp, d, w, hw, hev, by rw [if_pos hb]⟩, Or.inr ⟨hb, hm⟩,
            rfl, rfl, rfl⟩
      · rw [if_neg hb]
        left
        refine ⟨_, i, b1, b2, rfl, ?_⟩
        exact ⟨e1, hp, Or.inr ⟨by omega, by simp, d, w, hw, hev, by rw [if_neg hb]⟩, Or.inl ⟨by omega, rfl⟩,
          rfl, rfl, rfl⟩

theorem update_step {h h' : Hist F} {x : F} (hu : h.update A x = .ok h') :
    ∃ i b1 b2, Step A x h h' i b1 b2 := by
  rcases update_cases (A := A) h x with ⟨h1, i, b1, b2, e, hs⟩ | ⟨e, -⟩
  · rw [hu] at e
    injection e with e
    subst e
    exact ⟨i, b1, b2, hs⟩
  · rw [hu] at e; cases e

end Hist

end KML
