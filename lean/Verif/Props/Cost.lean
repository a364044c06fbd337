import Verif.Props.LowerBound
import Verif.Props.HistPublic
import Verif.Props.HistStreams

/-! # C126: how many steps the searches take and how much an entropy keeps

`fuel` of the loops in the model is the number of passes through the body of the `while` loop that is allowed; a loop that
would need more is `.ub .diverge`. -/

namespace KML

namespace Hist

variable {F : Type} {A : Arith F}

theorem searchLoop_passes (bins : List (Bin F)) (bin : Bin F) (k fuel low high index : ℕ) (hi : index = (low + high) / 2)
    (hlh : low ≤ high) (hk : high - low < 2 ^ k) (hf : high - low ≤ fuel) :
    searchLoop A bins bin k low high index = searchLoop A bins bin fuel low high index := by
  induction k generalizing fuel low high index with
  | zero =>
    obtain rfl : low = high := by omega
    cases fuel <;> simp [searchLoop]
  | succ k ih =>
    by_cases h : low < high
    · obtain ⟨fuel, rfl⟩ : ∃ m, fuel = m + 1 := ⟨fuel - 1, by omega⟩
      unfold searchLoop
      rw [if_pos h, if_pos h]
      rw [pow_succ] at hk
      cases bins[index]? with
      | none => rfl
      | some b =>
        simp only
        split
        · exact ih _ _ _ _ rfl (by omega) (by omega) (by omega)
        · exact ih _ _ _ _ rfl (by omega) (by omega) (by omega)
    · cases fuel <;> simp [searchLoop, h]

/-- A search that always turns left needs every pass. -/
theorem searchLoop_left (bins : List (Bin F)) (bin : Bin F) (hb : ∀ b ∈ bins, Bin.lt A b bin = false) (k low high index : ℕ)
    (hi : index = (low + high) / 2) (hlh : low ≤ high) (hh : high ≤ bins.length) (hk : 2 ^ k ≤ high - low) :
    searchLoop A bins bin k low high index = .ub .diverge := by
  induction k generalizing high index with
  | zero => simp only [searchLoop]; rw [if_pos (by simp at hk; omega)]
  | succ k ih =>
    rw [pow_succ] at hk
    have hp := Nat.one_le_two_pow (n := k)
    have hlt : index < bins.length := by omega
    unfold searchLoop
    rw [if_pos (by omega), List.getElem?_eq_getElem hlt]
    simp only
    rw [if_neg (by rw [hb _ (List.getElem_mem hlt)]; simp)]
    exact ih index _ rfl (by omega) (by omega) (by omega)

theorem lowerBoundLoop_passes (xs : List F) (q : F) (k fuel first len : ℕ) (hk : len < 2 ^ k) (hf : len ≤ fuel) :
    lowerBoundLoop A xs q k first len = lowerBoundLoop A xs q fuel first len := by
  induction k generalizing fuel first len with
  | zero =>
    obtain rfl : len = 0 := by simp at hk; omega
    cases fuel <;> simp [lowerBoundLoop]
  | succ k ih =>
    by_cases h : 0 < len
    · obtain ⟨fuel, rfl⟩ : ∃ m, fuel = m + 1 := ⟨fuel - 1, by omega⟩
      rw [pow_succ] at hk
      unfold lowerBoundLoop
      rw [if_pos h, if_pos h]
      simp only
      cases xs[first + len / 2]? with
      | none => rfl
      | some x =>
        simp only
        split
        · exact ih _ _ _ (by omega) (by omega)
        · exact ih _ _ _ (by omega) (by omega)
    · cases fuel <;> simp [lowerBoundLoop, h]

theorem lowerBoundLoop_left (xs : List F) (q : F) (hx : ∀ x ∈ xs, A.lt x q = false) (k first len : ℕ)
    (hh : first + len ≤ xs.length) (hk : 2 ^ k ≤ len) : lowerBoundLoop A xs q k first len = .ub .diverge := by
  induction k generalizing len with
  | zero => simp only [lowerBoundLoop]; rw [if_pos (by simp at hk; omega)]
  | succ k ih =>
    rw [pow_succ] at hk
    have hp := Nat.one_le_two_pow (n := k)
    have hlt : first + len / 2 < xs.length := by omega
    unfold lowerBoundLoop
    rw [if_pos (by omega)]
    simp only [List.getElem?_eq_getElem hlt]
    rw [if_neg (by rw [hx _ (List.getElem_mem hlt)]; simp)]
    exact ih _ (by omega) (by omega)

end Hist

namespace Entropy

variable {F : Type} {L : LArith F}

theorem increment_keeps {e e' : Entropy F} {i : ℕ} (h : e.increment L i = .ok e') :
    e'.window = e.window ∧ e'.windowSize = e.windowSize ∧ e'.hist = e.hist := by
  unfold increment at h
  obtain ⟨b, -, h⟩ := Res.bind_eq_ok.1 h
  obtain ⟨x1, -, h⟩ := Res.bind_eq_ok.1 h
  obtain ⟨x2, -, h⟩ := Res.bind_eq_ok.1 h
  simp only at h
  split at h <;> · cases h; exact ⟨rfl, rfl, rfl⟩

theorem decrement_keeps {e e' : Entropy F} {i : ℕ} (h : e.decrement L i = .ok e') :
    e'.window = e.window ∧ e'.windowSize = e.windowSize ∧ e'.hist = e.hist := by
  unfold decrement at h
  obtain ⟨b, -, h⟩ := Res.bind_eq_ok.1 h
  obtain ⟨x1, -, h⟩ := Res.bind_eq_ok.1 h
  obtain ⟨x2, -, h⟩ := Res.bind_eq_ok.1 h
  cases h
  exact ⟨rfl, rfl, rfl⟩

/-- What an update does to the window and the histogram. -/
theorem update_keeps {e e' : Entropy F} {x : F} (h : e.update L x = .ok e') :
    ∃ i w, e.window = some w ∧ e'.windowSize = e.windowSize ∧ e.hist.update L.toArith x = .ok e'.hist ∧
      e'.window = some (if e.windowSize < w.length + 1 then (w ++ [i]).tail else w ++ [i]) := by
  unfold update at h
  obtain ⟨i, -, h⟩ := Res.bind_eq_ok.1 h
  cases hw : e.window with
  | none => rw [hw] at h; cases h
  | some w =>
    rw [hw] at h
    simp only at h
    cases hwi : w ++ [i] with
    | nil => simp at hwi
    | cons a t =>
      have hl : (a :: t).length = w.length + 1 := by rw [← hwi]; simp
      rw [hwi] at h
      simp only at h
      refine ⟨i, w, rfl, ?_⟩
      rw [hwi]
      by_cases hc : e.windowSize < w.length + 1
      · rw [if_pos (by omega)] at h
        rw [if_pos hc]
        obtain ⟨e2, h2, h⟩ := Res.bind_eq_ok.1 h
        rw [Res.ok_bind] at h
        obtain ⟨k1, k2, k3⟩ := decrement_keeps h2
        obtain ⟨hh, h3, h⟩ := Res.bind_eq_ok.1 h
        obtain ⟨e3, h4, h⟩ := Res.bind_eq_ok.1 h
        cases h
        obtain ⟨m1, m2, m3⟩ := increment_keeps h4
        simp only at h3 m1 m2 m3 ⊢
        rw [k3] at h3
        exact ⟨by rw [m2, k2], by rw [m3]; exact h3, by rw [m1]; rfl⟩
      · rw [if_neg (by omega)] at h
        rw [if_neg hc]
        rw [Res.ok_bind] at h
        obtain ⟨hh, h3, h⟩ := Res.bind_eq_ok.1 h
        obtain ⟨e3, h4, h⟩ := Res.bind_eq_ok.1 h
        cases h
        obtain ⟨m1, m2, m3⟩ := increment_keeps h4
        simp only at h3 m1 m2 m3 ⊢
        exact ⟨m2, by rw [m3]; exact h3, m1⟩

end Entropy

section

variable {F : Type} (A : Arith F)

/-- **C126**, bin search (any arithmetic, any bins, sorted or not): among `n < 2^k` bins the loop ends within `k` passes,
each of which compares one bin, and finds what it finds with any number of passes allowed. -/
theorem C126_search (h : Hist F) (bin : Bin F) (k : ℕ) (hk : h.size < 2 ^ k) :
    Hist.searchLoop A h.bins bin k 0 h.size (h.size / 2) = h.binSearchBin A bin ∧ (h.binSearchBin A bin).IsOk := by
  refine ⟨?_, ?_⟩
  · unfold Hist.binSearchBin
    rw [Nat.zero_add]
    exact Hist.searchLoop_passes h.bins bin k _ 0 h.size _ (by rw [Nat.zero_add]) (Nat.zero_le _) (by simpa using hk) le_rfl
  · obtain ⟨i, e, -⟩ := Hist.binSearchBin_spec (A := A) h bin
    exact ⟨i, e⟩

/-- **C126**, and no fewer: a value below `2^k` bins or more takes more than `k` passes. So the worst case for `n ≥ 1` bins is
exactly `⌊log2 n⌋ + 1` passes. -/
theorem C126_search_sharp (h : Hist F) (bin : Bin F) (k : ℕ) (hk : 2 ^ k ≤ h.size)
    (hx : ∀ b ∈ h.bins, Bin.lt A b bin = false) :
    Hist.searchLoop A h.bins bin k 0 h.size (h.size / 2) = .ub .diverge :=
  Hist.searchLoop_left h.bins _ hx k 0 _ _ (by rw [Nat.zero_add]) (Nat.zero_le _) le_rfl (by simpa using hk)

/-- **C126**, `std::lower_bound` in `quantile` (any arithmetic, any list, partitioned or not): the same number of passes
suffices. -/
theorem C126_lower_bound (xs : List F) (q : F) (k : ℕ) (hk : xs.length < 2 ^ k) :
    Hist.lowerBoundLoop A xs q k 0 xs.length = Hist.lowerBoundStd A xs q :=
  Hist.lowerBoundLoop_passes xs q k _ 0 _ hk le_rfl

/-- **C126**, and no smaller number does: when nothing in the list is below `q`. -/
theorem C126_lower_bound_sharp (xs : List F) (q : F) (k : ℕ) (hk : 2 ^ k ≤ xs.length) (hx : ∀ x ∈ xs, A.lt x q = false) :
    Hist.lowerBoundLoop A xs q k 0 xs.length = .ub .diverge :=
  Hist.lowerBoundLoop_left xs q hx k 0 _ (by omega) hk

/-- **C126**, every update of a histogram, however long the stream: the search takes at most `⌊log2 numBins⌋ + 1` passes; after
the addition there are at most `numBins + 1` bins for `merge` to look through and `2 * W` entries in the index window to
renumber; after the update there are at most `numBins` bins and `2 * W` entries again. -/
theorem C126_update (numBins W : ℕ) (xs : List F) (h h' : Hist F) (x : F)
    (hu : updateAll (Hist.update A) (Hist.new numBins W) xs = .ok h) (hx : h.update A x = .ok h') :
    Hist.searchLoop A h.bins (Hist.unit x) (Nat.log 2 numBins + 1) 0 h.size (h.size / 2) = h.binSearch A x ∧
    (∃ h1, h.add A x = .ok h1 ∧ h1.size ≤ numBins + 1 ∧ h1.window.length ≤ 2 * W) ∧
    h'.size ≤ numBins ∧ h'.window.length ≤ 2 * W := by
  have hs := C51_budget A numBins W xs h hu
  have hu' : updateAll (Hist.update A) (Hist.new numBins W) (xs ++ [x]) = .ok h' := by
    rw [updateAll_snoc, hu, Res.ok_bind]; exact hx
  have hw := C57_window_lag A numBins W _ h' hu'
  have hw' : h'.window.length ≤ 2 * W := by omega
  refine ⟨(C126_search A h _ _ (lt_of_le_of_lt hs (Nat.lt_pow_succ_log_self (by norm_num) _))).1, ?_,
    C51_budget A numBins W _ h' hu', hw'⟩
  rw [Hist.update_eq] at hx
  obtain ⟨h1, e1, e2⟩ := Res.bind_eq_ok.1 hx
  refine ⟨h1, e1, ?_, ?_⟩
  · obtain ⟨i, b1, p, -, -, -, hc⟩ := Hist.add_step e1
    have hp := p.length
    unfold Hist.size at hs ⊢
    rcases hc with ⟨-, hb, -⟩ | ⟨-, -, d, hd⟩
    · rw [hb]; omega
    · have := hd.length; omega
  · unfold Hist.finish at e2
    split at e2
    · obtain ⟨b, -, e2⟩ := Res.bind_eq_ok.1 e2
      cases e2
      simpa using hw'
    · cases e2
      exact hw'

/-- **C126**, `StreamingEntropy`, any arithmetic: after any stream that it survives it holds at most `windowSize` indices, as
many bins as it was made with and twice `windowSize` indices in its histogram. -/
theorem C126_entropy (L : LArith F) (W n : ℕ) (e e' : Entropy F) (he : Entropy.new L W n = .ok e) (xs : List F)
    (hu : updateAll (Entropy.update L) e xs = .ok e') :
    (∀ w, e'.window = some w → w.length = min W xs.length) ∧ e'.hist.size ≤ e.hist.numBins ∧
    e'.hist.window.length ≤ 2 * W := by
  obtain ⟨bins, he⟩ : ∃ bins, (⟨W, if W > 0 then some [] else none, 0, Hist.new bins W, L.lit 0⟩ : Entropy F) = e := by
    unfold Entropy.new at he
    by_cases hn : n = 0
    · by_cases hW : W = 0
      · simp only [if_pos hn, if_pos hW] at he; cases he
      · simp only [if_pos hn, if_neg hW] at he; injection he with he; exact ⟨_, he⟩
    · simp only [if_neg hn] at he; injection he with he; exact ⟨_, he⟩
  have key : updateAll (Hist.update L.toArith) (Hist.new bins W) xs = .ok e'.hist ∧ e'.windowSize = W ∧
      ∀ w, e'.window = some w → w.length = min W xs.length := by
    induction xs using List.reverseRecOn generalizing e' with
    | nil =>
      simp only [updateAll] at hu ⊢; injection hu with hu; subst hu; subst he
      refine ⟨rfl, rfl, fun w hw => ?_⟩
      simp only at hw
      split at hw
      · cases hw; simp
      · cases hw
    | append_singleton xs x ih =>
      rw [updateAll_snoc] at hu
      obtain ⟨e1, h1, h2⟩ := Res.bind_eq_ok.1 hu
      obtain ⟨k1, k2, k3⟩ := ih e1 h1
      obtain ⟨i, w, m1, m2, m3, m4⟩ := Entropy.update_keeps h2
      refine ⟨by rw [updateAll_snoc, k1, Res.ok_bind]; exact m3, by rw [m2, k2], fun w' hw' => ?_⟩
      have hw := k3 w m1
      rw [m4, k2] at hw'
      injection hw' with hw'
      rw [← hw', List.length_append, List.length_singleton]
      split
      · simp; omega
      · simp; omega
  refine ⟨key.2.2, ?_, ?_⟩
  · have := C51_budget L.toArith bins W xs _ key.1
    rw [← he]; exact this
  · have := C57_window_lag L.toArith bins W xs _ key.1
    omega

/-- Seven bins: three passes find the place of a value, two are not enough for one below all bins. -/
example : (∃ h : Hist ℚ, h.size = 7 ∧
    Hist.searchLoop (exact ℚ) h.bins (Hist.unit 0) 3 0 7 3 = .ok 0 ∧
    Hist.searchLoop (exact ℚ) h.bins (Hist.unit 0) 2 0 7 3 = .ub .diverge) := by
  exact ⟨⟨8, 10, [1, 2, 3, 4, 5, 6, 7].map Hist.unit, [], 7, 7, 7⟩, by decide +kernel⟩

/-- A cumulative distribution of four bins: three passes, not two. -/
example : Hist.lowerBoundLoop (exact ℚ) [1 / 4, 1 / 2, 3 / 4, 1] 0 3 0 4 = .ok 0 ∧
    Hist.lowerBoundLoop (exact ℚ) [1 / 4, 1 / 2, 3 / 4, 1] 0 2 0 4 = .ub .diverge := by decide +kernel

/-- A histogram of two bins and window 3 in a stream of six values; the last update meets the hypotheses. -/
example : (do
    let h ← updateAll (Hist.update b64) (Hist.new 2 3) [5, 1, 4, 2, 3]
    let h ← h.update b64 6
    Res.ok (h.size, h.window.length)) = .ok (2, 6) := by decide +kernel

end

end KML
