import Verif.Model.HistPublic
import Verif.Props.HistMerge
import Verif.Lemmas.HistOrder

/-! # C123: a histogram used through all its public functions -/

namespace KML

open Spec

/-- The observations in the calls. -/
def items {F : Type} : List (HCall F) → List F
  | [] => []
  | .update x :: cs => x :: items cs
  | .add x :: cs => x :: items cs
  | .decay :: cs => items cs

/-- How many of the calls are `add`. -/
def adds {F : Type} : List (HCall F) → ℕ
  | [] => 0
  | .add _ :: cs => adds cs + 1
  | .update _ :: cs => adds cs
  | .decay :: cs => adds cs

theorem items_append {F : Type} (cs ds : List (HCall F)) : items (cs ++ ds) = items cs ++ items ds := by
  induction cs with
  | nil => rfl
  | cons c cs ih => cases c <;> simp [items, ih]

theorem adds_append {F : Type} (cs ds : List (HCall F)) : adds (cs ++ ds) = adds cs + adds ds := by
  induction cs with
  | nil => simp [adds]
  | cons c cs ih => cases c <;> simp [adds, ih]; omega

/-- **C123**, the full claim: whatever public functions are called, there are at most `numBins` bins. -/
def C123_full : Prop := ∀ (numBins W : ℕ) (calls : List (HCall ℚ)) (h : Hist ℚ), 0 < numBins → 0 < W →
  updateAll (Hist.call (exact ℚ)) (Hist.new numBins W) calls = .ok h → h.size ≤ numBins

/-- **C123** is violated: `add` never merges. -/
theorem C123_violated : ¬ C123_full := by
  intro h
  have := h 1 5 [.add 1, .add 2] ⟨1, 5, [⟨1, 1, 1⟩, ⟨2, 2, 1⟩], [0, 0, 0, 0, 0, 0, 1], 2, 2, 2⟩ (by decide) (by decide)
    (by decide +kernel)
  revert this
  decide

/-- **C123**: later updates merge one pair of bins each, so they need not repair it. -/
theorem C123_stays_violated :
    ∃ h, updateAll (Hist.call (exact ℚ)) (Hist.new 1 9) ([.add 1, .add 2, .add 3] ++ [.update 4, .update 5, .update 6]) =
      .ok h ∧ h.numBins = 1 ∧ h.size = 3 :=
  ⟨⟨1, 9, [⟨1, 4, 4⟩, ⟨5, 5, 1⟩, ⟨6, 6, 1⟩], [0, 0, 0, 0, 0, 0, 0, 0, 0, 0, 0, 2, 3, 3, 3], 6, 6, 6⟩, by decide +kernel,
    rfl, rfl⟩

namespace Hist

variable {F : Type} {A : Arith F}

theorem add_step {h h' : Hist F} {x : F} (hu : h.add A x = .ok h') :
    ∃ i b1, Placed A x (h.total = 0) i h.bins b1 ∧ h'.numBins = h.numBins ∧ h'.windowSize = h.windowSize ∧
      h'.historyCount = h.historyCount + 1 ∧
      ((h.total < h.windowSize ∧ h'.bins = b1 ∧ h'.total = h.total + 1) ∨
       (h.windowSize ≤ h.total ∧ h'.total = h.total ∧ ∃ d, Evicted h.numBins d b1 h'.bins)) := by
  obtain ⟨i, b1, live, e1, e2, e3, -⟩ := place_spec (A := A) h x
  unfold add at hu
  rw [e1, Res.ok_bind, e2, Res.ok_bind] at hu
  refine ⟨i, b1, e3, ?_⟩
  by_cases ht : h.total < h.windowSize
  · rw [decay_noop _ (show h.total + 1 ≤ h.windowSize from ht)] at hu
    injection hu with hu
    subst hu
    exact ⟨rfl, rfl, rfl, Or.inl ⟨ht, rfl, rfl⟩⟩
  · obtain ⟨d, rest, hw⟩ : ∃ d rest, h.window ++ [i] = d :: rest := by
      rcases h.window with _ | ⟨d, w⟩
      · exact ⟨i, [], rfl⟩
      · exact ⟨d, w ++ [i], rfl⟩
    rcases decay_evict (F := F) { { h with bins := b1, live := live } with
      historyCount := h.historyCount + 1, total := h.total + 1, window := h.window ++ [i] } (by simp; omega) hw with
      ⟨-, e⟩ | ⟨bins, e, he⟩
    · rw [e] at hu; cases hu
    · rw [e] at hu
      injection hu with hu
      subst hu
      exact ⟨rfl, rfl, rfl, Or.inr ⟨by omega, rfl, d, he⟩⟩

theorem finish_step {h h' : Hist F} (hu : finish A h = .ok h') :
    h'.numBins = h.numBins ∧ h'.windowSize = h.windowSize ∧ h'.historyCount = h.historyCount ∧ h'.total = h.total ∧
      ((h.bins.length ≤ h.numBins ∧ h'.bins = h.bins) ∨
       (h.numBins < h.bins.length ∧ ∃ i, Merged A i h.bins h'.bins)) := by
  unfold finish at hu
  by_cases hl : h.bins.length > h.numBins
  · rw [if_pos hl] at hu
    obtain ⟨b, e1, e2⟩ := Res.bind_eq_ok.1 hu
    injection e2 with e2
    subst e2
    rcases mergeBins_spec (A := A) h.bins (mergeIndex A h.bins) with ⟨-, e⟩ | ⟨l', e, hm⟩
    · rw [e] at e1; cases e1
    · rw [e] at e1
      injection e1 with e1
      subst e1
      exact ⟨rfl, rfl, rfl, rfl, Or.inr ⟨hl, _, hm⟩⟩
  · rw [if_neg hl] at hu
    injection hu with hu
    subst hu
    exact ⟨rfl, rfl, rfl, rfl, Or.inl ⟨by omega, rfl⟩⟩

/-- Counting facts along a run of public calls with `n` observations of which `a` came through `add`. -/
structure Public (nb W n a : ℕ) (h : Hist F) : Prop where
  numBins : h.numBins = nb
  windowSize : h.windowSize = W
  size : h.bins.length ≤ nb + a
  total : h.total = min n W
  hist : h.historyCount = n
  sum_ge : h.total ≤ sumCounts h.bins
  sum_eq : n ≤ W → sumCounts h.bins = n

theorem Public.add {nb W n a : ℕ} {h h' : Hist F} {x : F} (hc : Public nb W n a h) (hu : h.add A x = .ok h') :
    Public nb W (n + 1) (a + 1) h' := by
  obtain ⟨i, b1, hp, h1, h2, h3, h4⟩ := add_step hu
  have hl := hp.length
  have hs := hp.sum
  have k1 := hc.total; have k2 := hc.windowSize; have k3 := hc.size; have k4 := hc.sum_ge
  refine ⟨h1.trans hc.numBins, h2.trans hc.windowSize, ?_, ?_, by rw [h3, hc.hist], ?_, ?_⟩
  · rcases h4 with ⟨-, e, -⟩ | ⟨-, -, d, e⟩
    · rw [e]; omega
    · have := e.length; omega
  · rcases h4 with ⟨g, -, e⟩ | ⟨g, e, -⟩ <;> omega
  · rcases h4 with ⟨g, e1, e⟩ | ⟨g, e, d, e1⟩
    · rw [e1]; omega
    · have := e1.sum; omega
  · intro hn
    have := hc.sum_eq (by omega)
    rcases h4 with ⟨g, e1, e⟩ | ⟨g, e, d, e1⟩
    · rw [e1]; omega
    · omega

theorem Public.update {nb W n a : ℕ} {h h' : Hist F} {x : F} (hc : Public nb W n a h) (hu : h.update A x = .ok h') :
    Public nb W (n + 1) a h' := by
  rw [update_eq] at hu
  obtain ⟨g, e1, e2⟩ := Res.bind_eq_ok.1 hu
  have hg := hc.add e1
  obtain ⟨h1, h2, h3, h4, h5⟩ := finish_step e2
  have k := hg.size; have k' := hg.numBins
  refine ⟨h1.trans hg.numBins, h2.trans hg.windowSize, ?_, h4.trans hg.total, h3.trans hg.hist, ?_, fun hn => ?_⟩
  · rcases h5 with ⟨l, e⟩ | ⟨l, i, e⟩
    · rw [e]; omega
    · have := e.length; omega
  · rw [h4]
    rcases h5 with ⟨l, e⟩ | ⟨l, i, e⟩
    · rw [e]; exact hg.sum_ge
    · rw [e.sum]; exact hg.sum_ge
  · rcases h5 with ⟨l, e⟩ | ⟨l, i, e⟩
    · rw [e]; exact hg.sum_eq hn
    · rw [e.sum]; exact hg.sum_eq hn

theorem Public.decay {nb W n a : ℕ} {h : Hist F} (hc : Public nb W n a h) : h.decayCounts = .ok h :=
  decay_noop h (by rw [hc.total, hc.windowSize]; omega)

theorem Public.run {nb W : ℕ} {h : Hist F} {cs : List (HCall F)}
    (hu : updateAll (Hist.call A) (Hist.new nb W) cs = .ok h) : Public nb W (items cs).length (adds cs) h := by
  induction cs using List.reverseRecOn generalizing h with
  | nil =>
    simp only [updateAll] at hu; injection hu with hu; subst hu
    exact ⟨rfl, rfl, Nat.zero_le _, by simp [Hist.new, items], rfl, Nat.zero_le _, fun _ => rfl⟩
  | append_singleton cs c ih =>
    rw [updateAll_snoc] at hu
    obtain ⟨h1, e1, e2⟩ := Res.bind_eq_ok.1 hu
    have k := ih e1
    rw [items_append, adds_append, List.length_append]
    cases c with
    | update x => exact k.update e2
    | add x => exact k.add e2
    | decay =>
      have e3 : h1.decayCounts = .ok h := e2
      rw [k.decay] at e3
      injection e3 with e3
      rw [← e3]; exact k

end Hist

/-- **C123**, what holds of every sequence of public calls (any arithmetic): the total is the number of observations or the
window, `historyCount` counts the observations, the counts do not fall below the total and add up to it while the window
fills, and there are at most as many bins too many as there were calls of `add`. Missing: there can be that many. -/
theorem C123_counts_partial {F : Type} (A : Arith F) (numBins W : ℕ) (calls : List (HCall F)) (h : Hist F)
    (hu : updateAll (Hist.call A) (Hist.new numBins W) calls = .ok h) :
    h.getTotalCount = min (items calls).length W ∧ h.historyCount = (items calls).length ∧
    h.size ≤ numBins + adds calls ∧ h.getTotalCount ≤ (h.bins.map Bin.count).sum ∧
    ((items calls).length ≤ W → ∃ cs, h.binCounts = .ok cs ∧ cs.sum = (items calls).length) := by
  have hp := Hist.Public.run hu
  refine ⟨hp.total, hp.hist, hp.size, hp.sum_ge, fun hn => ?_⟩
  have h1 := hp.sum_eq hn
  have h2 := hp.total
  unfold Hist.sumCounts at h1
  refine ⟨h.bins.map Bin.count, ?_, h1⟩
  unfold Hist.binCounts
  simp only [h1, h2]
  rw [if_neg (by omega)]

/-- **C123**: an update leaves at most `numBins` bins, or as many as there were. Missing: `add` does not. -/
theorem C123_update_partial {F : Type} (A : Arith F) (h h' : Hist F) (x : F) (hu : h.update A x = .ok h') :
    h'.size ≤ max h.size h.numBins := by
  rw [Hist.update_eq] at hu
  obtain ⟨g, e1, e2⟩ := Res.bind_eq_ok.1 hu
  obtain ⟨i, b1, hp, h1, -, -, h4⟩ := Hist.add_step e1
  obtain ⟨-, -, -, -, h5⟩ := Hist.finish_step e2
  have hl := hp.length
  have hg : g.bins.length ≤ h.bins.length + 1 := by
    rcases h4 with ⟨-, e, -⟩ | ⟨-, -, d, e⟩
    · rw [e]; omega
    · have := e.length; omega
  unfold Hist.size
  rcases h5 with ⟨l, e⟩ | ⟨l, j, e⟩
  · rw [e]; omega
  · have := e.length; omega

/-- **C123**: `decayCounts` by itself never does anything: whoever calls it, at whatever time. -/
theorem C123_decay {F : Type} (A : Arith F) (numBins W : ℕ) (calls : List (HCall F)) (h : Hist F)
    (hu : updateAll (Hist.call A) (Hist.new numBins W) calls = .ok h) : h.call A .decay = .ok h :=
  (Hist.Public.run hu).decay

/-- **C123**: that many bins too many do occur, however many: adding 1, 2, 4, … to a histogram of one bin makes every
number a bin of its own. -/
theorem C123_unbounded_violated (numBins W n : ℕ) (hn : n ≤ W) :
    ∃ h, updateAll (Hist.call (exact ℚ)) (Hist.new numBins W) ((List.range n).map fun i => HCall.add ((2 : ℚ) ^ i)) =
      .ok h ∧ h.size = n := by
  suffices H : ∃ h, updateAll (Hist.call (exact ℚ)) (Hist.new numBins W)
      ((List.range n).map fun i => HCall.add ((2 : ℚ) ^ i)) = .ok h ∧
      h.bins = (List.range n).map fun i => Hist.unit ((2 : ℚ) ^ i) by
    obtain ⟨h, e, hb⟩ := H
    exact ⟨h, e, by simp [Hist.size, hb]⟩
  induction n with
  | zero => exact ⟨_, rfl, rfl⟩
  | succ n ih =>
    obtain ⟨h, e, hb⟩ := ih (by omega)
    have hp := Hist.Public.run e
    have hlen : (items ((List.range n).map fun i => HCall.add ((2 : ℚ) ^ i))).length = n := by
      have : ∀ l : List ℕ, (items (l.map fun i => HCall.add ((2 : ℚ) ^ i))).length = l.length := by
        intro l
        induction l with
        | nil => rfl
        | cons a l ih => simp [items, ih]
      simpa using this (List.range n)
    rw [hlen] at hp
    have hlt : ∀ b ∈ h.bins, Bin.lt (exact ℚ) b (Hist.unit ((2 : ℚ) ^ n)) = true := by
      intro b hm
      rw [hb] at hm
      obtain ⟨k, hk, rfl⟩ := List.mem_map.1 hm
      have hk : k < n := List.mem_range.1 hk
      have h2 : (2 : ℚ) ^ k * 2 ≤ 2 ^ n := by
        rw [← pow_succ]
        exact pow_le_pow_right₀ (by norm_num) hk
      have h3 : (0 : ℚ) < 2 ^ k := by positivity
      exact (Hist.dlt_exact (a := (2 : ℚ) ^ k) (b := 2 ^ n)).2 (by
        rw [abs_of_pos h3, abs_of_pos (by positivity : (0 : ℚ) < 2 ^ n), max_eq_right (by linarith)]
        linarith)
    obtain ⟨i, b1, live, e1, e2, e3, -⟩ := Hist.place_spec (A := exact ℚ) h ((2 : ℚ) ^ n)
    have hb1 : b1 = h.bins ++ [Hist.unit ((2 : ℚ) ^ n)] := by
      generalize hl : h.bins = l at e3 hlt
      cases e3 with
      | push => rfl
      | inc l1 l2 b _ h2 _ => rw [hlt b (by simp)] at h2; cases h2
      | insert l1 l2 b _ h2 _ => rw [hlt b (by simp)] at h2; cases h2
    have hadd : h.add (exact ℚ) ((2 : ℚ) ^ n) = .ok { h with
        bins := b1, live := live, historyCount := h.historyCount + 1, total := h.total + 1, window := h.window ++ [i] } := by
      unfold Hist.add
      rw [e1, Res.ok_bind, e2, Res.ok_bind]
      exact Hist.decay_noop _ (show h.total + 1 ≤ h.windowSize by rw [hp.total, hp.windowSize]; omega)
    refine ⟨{ h with bins := b1, live := live, historyCount := h.historyCount + 1, total := h.total + 1,
                     window := h.window ++ [i] }, ?_, hb1.trans ?_⟩
    · rw [List.range_succ, List.map_append, List.map_singleton, updateAll_snoc, e, Res.ok_bind]
      exact hadd
    · rw [hb, List.range_succ, List.map_append, List.map_singleton]

section

variable {K : Type} [Field K] [LinearOrder K] [IsStrictOrderedRing K] [FloorRing K]

/-- **C123** (any rounding, `W ≥ 1`): the bins stay in order and every edge is an observation. -/
theorem C123_ordered_partial (R : Rounding K) (numBins W : ℕ) (hW : 0 < W) (calls : List (HCall K)) (h : Hist K)
    (hu : updateAll (Hist.call R.arith) (Hist.new numBins W) calls = .ok h) :
    h.bins.Pairwise (fun a b => a.left < b.left) ∧
    ∀ b ∈ h.bins, b.left ≤ b.right ∧ b.left ∈ items calls ∧ b.right ∈ items calls := by
  have key : Hist.Ordered (items calls) h.bins := by
    induction calls using List.reverseRecOn generalizing h with
    | nil => simp only [updateAll] at hu; injection hu with hu; subst hu; exact Hist.Ordered.nil
    | append_singleton cs c ih =>
      rw [updateAll_snoc] at hu
      obtain ⟨h1, e1, e2⟩ := Res.bind_eq_ok.1 hu
      have ho := ih h1 e1
      have hp := Hist.Public.run e1
      have h0 : h1.total = 0 → h1.bins = [] := by
        intro h0
        have hn : (items cs).length = 0 := by have := hp.total; omega
        have hn : items cs = [] := List.length_eq_zero_iff.1 hn
        rcases hb : h1.bins with _ | ⟨b, l⟩
        · rfl
        · have := (ho.mem b (by rw [hb]; simp)).1
          rw [hn] at this
          simp at this
      have hadd : ∀ x g, h1.add R.arith x = .ok g → Hist.Ordered (items cs ++ [x]) g.bins := by
        intro x g e
        obtain ⟨i, b1, hpl, -, -, -, h4⟩ := Hist.add_step e
        have k := ho.placed h0 hpl
        rcases h4 with ⟨-, e, -⟩ | ⟨-, -, d, e⟩
        · rw [e]; exact k
        · exact k.evicted e
      rw [items_append]
      cases c with
      | update x =>
        have e3 : h1.update R.arith x = .ok h := e2
        rw [Hist.update_eq] at e3
        obtain ⟨g, e4, e5⟩ := Res.bind_eq_ok.1 e3
        have k := hadd x g e4
        obtain ⟨-, -, -, -, h5⟩ := Hist.finish_step e5
        rcases h5 with ⟨-, e⟩ | ⟨-, i, e⟩
        · rw [e]; exact k
        · exact k.merged e
      | add x => exact hadd x h e2
      | decay =>
        have e3 : h1.decayCounts = .ok h := e2
        rw [hp.decay] at e3
        injection e3 with e3
        rw [← e3]
        simpa [items] using ho
  exact ⟨key.sorted, fun b hb => ⟨key.le b hb, key.mem b hb⟩⟩

end

/-- A run that calls all three functions: two bins too many. -/
example : ∃ h, updateAll (Hist.call (exact ℚ)) (Hist.new 1 4) [.add 1, .update 2, .decay, .add 3, .add 5] = .ok h ∧
    h.size = 3 ∧ items [HCall.add (1 : ℚ), .update 2, .decay, .add 3, .add 5] = [1, 2, 3, 5] ∧
    adds [HCall.add (1 : ℚ), .update 2, .decay, .add 3, .add 5] = 3 :=
  ⟨⟨1, 4, [⟨1, 2, 2⟩, ⟨3, 3, 1⟩, ⟨5, 5, 1⟩], [0, 0, 0, 0, 0, 0, 1, 2], 4, 4, 4⟩, by decide +kernel, rfl, rfl, rfl⟩

end KML
