import Verif.Props.HistStreams
import Verif.Props.DoubleHist
import Verif.Props.EntropyError

/-! # C99: what the counts of a histogram count -/

set_option linter.unusedSectionVars false

namespace KML

open Spec

/-- **C99**, as one would claim it: while the window is filling the report is a histogram of the observations, that is
disjoint intervals with the number of observations in each. It is false of the code. -/
def C99_full : Prop := ∀ (numBins W : ℕ) (xs : List ℚ) (h : Hist ℚ), 1 ≤ numBins → xs.length ≤ W →
  updateAll (Hist.update (exact ℚ)) (Hist.new numBins W) xs = .ok h → IsHistogram (h.report (exact ℚ)) xs

section Round

variable {K : Type} [Field K] [LinearOrder K] [IsStrictOrderedRing K] [FloorRing K]

namespace Hist

/-- Number of observations from `u` to `v`. -/
def inside (xs : List K) (u v : K) : ℕ := (xs.filter fun x => u ≤ x ∧ x ≤ v).length

theorem inside_snoc (xs : List K) (x u v : K) :
    inside (xs ++ [x]) u v = inside xs u v + if u ≤ x ∧ x ≤ v then 1 else 0 := by
  simp only [inside, List.filter_append, List.length_append]
  congr 1
  by_cases h : u ≤ x ∧ x ≤ v
  · simp [h]
  · rw [if_neg h]
    simp only [List.filter_cons, List.filter_nil]
    rw [if_neg (by simpa using h)]
    rfl

theorem inside_cons (xs : List K) (x u v : K) :
    inside (x :: xs) u v = (if u ≤ x ∧ x ≤ v then 1 else 0) + inside xs u v := by
  unfold inside
  rw [List.filter_cons]
  by_cases h : u ≤ x ∧ x ≤ v
  · rw [if_pos h, if_pos (by simpa using h), List.length_cons]; omega
  · rw [if_neg h, if_neg (by simpa using h)]; omega

theorem inside_join {xs : List K} {u v w z : K} (h1 : u ≤ v) (h2 : v < w) (h3 : w ≤ z)
    (h : ∀ x ∈ xs, x ≤ v ∨ w ≤ x) : inside xs u z = inside xs u v + inside xs w z := by
  induction xs with
  | nil => rfl
  | cons x xs ih =>
    have ih := ih fun y hy => h y (by simp [hy])
    rw [inside_cons, inside_cons, inside_cons]
    rcases h x (by simp) with hx | hx
    · have e1 : ¬ w ≤ x := not_le.2 (hx.trans_lt h2)
      have e2 : x ≤ z := hx.trans (h2.le.trans h3)
      simp only [e1, e2, hx, and_true, if_false]
      omega
    · have e1 : ¬ x ≤ v := not_le.2 (h2.trans_le hx)
      have e2 : u ≤ x := h1.trans (h2.le.trans hx)
      simp only [e1, e2, hx, and_false, true_and, if_false]
      omega

/-- The bins are disjoint, and each counts the observations between its edges. -/
structure Tally (xs : List K) (l : List (Bin K)) : Prop where
  disj : l.Pairwise fun a b => a.right < b.left
  le : ∀ b ∈ l, b.left ≤ b.right
  mem : ∀ b ∈ l, b.left ∈ xs ∧ b.right ∈ xs
  cnt : ∀ b ∈ l, b.count = inside xs b.left b.right
  all : ∀ x ∈ xs, ∃ b ∈ l, b.left ≤ x ∧ x ≤ b.right

theorem Tally.nil : Tally ([] : List K) [] := ⟨List.Pairwise.nil, by simp, by simp, by simp, by simp⟩

/-- An observation between the edges of a bin is counted there. -/
theorem Tally.hit {xs : List K} {l1 l2 : List (Bin K)} {b : Bin K} {x : K} (h : Tally xs (l1 ++ b :: l2))
    (h1 : b.left ≤ x) (h2 : x ≤ b.right) :
    Tally (xs ++ [x]) (l1 ++ { b with count := b.count + 1 } :: l2) := by
  have hd := h.disj
  simp only [List.pairwise_append, List.pairwise_cons, List.mem_cons, forall_eq_or_imp] at hd
  obtain ⟨d1, ⟨d2, d3⟩, d4⟩ := hd
  have hcase : ∀ P : Bin K → Prop, P { b with count := b.count + 1 } → (∀ c ∈ l1, P c) → (∀ c ∈ l2, P c) →
      ∀ c ∈ l1 ++ { b with count := b.count + 1 } :: l2, P c := by
    intro P p1 p2 p3 c hc
    rcases List.mem_append.1 hc with hc | hc
    · exact p2 c hc
    · rcases List.mem_cons.1 hc with rfl | hc
      · exact p1
      · exact p3 c hc
  refine ⟨?_, ?_, ?_, ?_, ?_⟩
  · simp only [List.pairwise_append, List.pairwise_cons, List.mem_cons, forall_eq_or_imp]
    exact ⟨d1, ⟨d2, d3⟩, d4⟩
  · exact hcase _ (h.le b (by simp)) (fun c hc => h.le c (by simp [hc])) fun c hc => h.le c (by simp [hc])
  · have : ∀ c ∈ l1 ++ b :: l2, c.left ∈ xs ++ [x] ∧ c.right ∈ xs ++ [x] := fun c hc => by
      simp [h.mem c hc]
    exact hcase _ (this b (by simp)) (fun c hc => this c (by simp [hc])) fun c hc => this c (by simp [hc])
  · refine hcase _ ?_ (fun c hc => ?_) fun c hc => ?_
    · rw [inside_snoc, if_pos ⟨h1, h2⟩, ← h.cnt b (by simp)]
    · rw [inside_snoc, if_neg, h.cnt c (by simp [hc])]
      · rfl
      · intro hx
        have := (d4 c hc).1
        exact absurd (hx.2.trans_lt this) (not_lt.2 h1)
    · rw [inside_snoc, if_neg, h.cnt c (by simp [hc])]
      · rfl
      · intro hx
        have := d2 c hc
        exact absurd (this.trans_le hx.1) (not_lt.2 h2)
  · intro y hy
    rcases List.mem_append.1 hy with hy | hy
    · obtain ⟨c, hc, hy⟩ := h.all y hy
      rcases List.mem_append.1 hc with hc | hc
      · exact ⟨c, by simp [hc], hy⟩
      · rcases List.mem_cons.1 hc with rfl | hc
        · exact ⟨{ c with count := c.count + 1 }, by simp, hy⟩
        · exact ⟨c, by simp [hc], hy⟩
    · simp only [List.mem_singleton] at hy
      subst hy
      exact ⟨{ b with count := b.count + 1 }, by simp, h1, h2⟩

/-- An observation outside all bins gets one of its own. -/
theorem Tally.gap {xs : List K} {l1 l2 : List (Bin K)} {x : K} (h : Tally xs (l1 ++ l2))
    (h1 : ∀ a ∈ l1, a.right < x) (h2 : ∀ b ∈ l2, x < b.left) : Tally (xs ++ [x]) (l1 ++ unit x :: l2) := by
  have hd := h.disj
  rw [List.pairwise_append] at hd
  obtain ⟨d1, d2, d3⟩ := hd
  have hcase : ∀ P : Bin K → Prop, P (unit x) → (∀ c ∈ l1 ++ l2, P c) → ∀ c ∈ l1 ++ unit x :: l2, P c := by
    intro P p1 p2 c hc
    rcases List.mem_append.1 hc with hc | hc
    · exact p2 c (by simp [hc])
    · rcases List.mem_cons.1 hc with rfl | hc
      · exact p1
      · exact p2 c (by simp [hc])
  have hout : ∀ c ∈ l1 ++ l2, ¬ (c.left ≤ x ∧ x ≤ c.right) := by
    intro c hc hx
    rcases List.mem_append.1 hc with hc | hc
    · exact absurd (h1 c hc) (not_lt.2 hx.2)
    · exact absurd (h2 c hc) (not_lt.2 hx.1)
  have hnot : x ∉ xs := fun hx => by
    obtain ⟨c, hc, hx⟩ := h.all x hx
    exact hout c hc hx
  refine ⟨?_, ?_, ?_, ?_, ?_⟩
  · simp only [List.pairwise_append, List.pairwise_cons, List.mem_cons, forall_eq_or_imp]
    exact ⟨d1, ⟨h2, d2⟩, fun a ha => ⟨h1 a ha, d3 a ha⟩⟩
  · exact hcase _ le_rfl h.le
  · exact hcase _ (by simp) fun c hc => by simp [h.mem c hc]
  · refine hcase _ ?_ fun c hc => ?_
    · have : inside xs x x = 0 := by
        unfold inside
        rw [List.length_eq_zero_iff, List.filter_eq_nil_iff]
        intro y hy hxy
        simp only [decide_eq_true_eq] at hxy
        exact hnot (le_antisymm hxy.1 hxy.2 ▸ hy)
      rw [inside_snoc, this, if_pos ⟨le_rfl, le_rfl⟩]
    · rw [inside_snoc, if_neg (hout c hc), h.cnt c hc]
      rfl
  · intro y hy
    rcases List.mem_append.1 hy with hy | hy
    · obtain ⟨c, hc, hy⟩ := h.all y hy
      refine ⟨c, ?_, hy⟩
      rcases List.mem_append.1 hc with hc | hc <;> simp [hc]
    · simp only [List.mem_singleton] at hy
      subst hy
      exact ⟨unit y, by simp, le_rfl, le_rfl⟩

/-- Two neighbouring bins are joined: there was nothing between them. -/
theorem Tally.join {xs : List K} {l1 l2 : List (Bin K)} {a b c : Bin K} (h : Tally xs (l1 ++ a :: b :: l2))
    (e1 : c.left = a.left) (e2 : c.right = b.right) (e3 : c.count = a.count + b.count) : Tally xs (l1 ++ c :: l2) := by
  have hd := h.disj
  simp only [List.pairwise_append, List.pairwise_cons, List.mem_cons, forall_eq_or_imp] at hd
  obtain ⟨d1, ⟨⟨dab, dal⟩, dbl, d2⟩, d3⟩ := hd
  have ha := h.le a (by simp)
  have hb := h.le b (by simp)
  have hcase : ∀ P : Bin K → Prop, P c → (∀ d ∈ l1 ++ a :: b :: l2, P d) → ∀ d ∈ l1 ++ c :: l2, P d := by
    intro P p1 p2 d hd
    rcases List.mem_append.1 hd with hd | hd
    · exact p2 d (by simp [hd])
    · rcases List.mem_cons.1 hd with rfl | hd
      · exact p1
      · exact p2 d (by simp [hd])
  refine ⟨?_, ?_, ?_, ?_, ?_⟩
  · simp only [List.pairwise_append, List.pairwise_cons, List.mem_cons, forall_eq_or_imp]
    exact ⟨d1, ⟨fun d hd => e2 ▸ dbl d hd, d2⟩, fun d hd => ⟨e1 ▸ (d3 d hd).1, (d3 d hd).2.2⟩⟩
  · exact hcase _ (by rw [e1, e2]; exact ha.trans (dab.le.trans hb)) h.le
  · exact hcase _ (by rw [e1, e2]; exact ⟨(h.mem a (by simp)).1, (h.mem b (by simp)).2⟩) h.mem
  · refine hcase _ ?_ h.cnt
    rw [e1, e2, e3, h.cnt a (by simp), h.cnt b (by simp)]
    refine (inside_join ha dab hb ?_).symm
    intro x hx
    obtain ⟨d, hd, hx1, hx2⟩ := h.all x hx
    rcases List.mem_append.1 hd with hd | hd
    · exact Or.inl (hx2.trans ((d3 d hd).1.le.trans ha))
    · rcases List.mem_cons.1 hd with rfl | hd
      · exact Or.inl hx2
      · rcases List.mem_cons.1 hd with rfl | hd
        · exact Or.inr hx1
        · exact Or.inr (hb.trans ((dbl d hd).le.trans hx1))
  · intro x hx
    obtain ⟨d, hd, hx1, hx2⟩ := h.all x hx
    rcases List.mem_append.1 hd with hd | hd
    · exact ⟨d, by simp [hd], hx1, hx2⟩
    · rcases List.mem_cons.1 hd with rfl | hd
      · exact ⟨c, by simp, e1 ▸ hx1, e2 ▸ hx2.trans (dab.le.trans hb)⟩
      · rcases List.mem_cons.1 hd with rfl | hd
        · exact ⟨c, by simp, e1 ▸ ha.trans (dab.le.trans hx1), e2 ▸ hx2⟩
        · exact ⟨d, by simp [hd], hx1, hx2⟩

/-! ### Which pair is merged when a value falls inside a bin -/

/-- What is needed of a rounding: it is symmetric, and the tolerance of a floating point number is smaller than the
number. -/
structure Neat (R : Rounding K) : Prop where
  odd : ∀ x, R.rnd (-x) = -R.rnd x
  shrink : ∀ p, 0 < p → R.rnd p = p → R.rnd (p * Utils.defaultEps R.arith) < p

theorem Neat.less {R : Rounding K} (hR : Neat R) {g p : K} (hg : g ≤ 0) (hp : 0 < p) (eg : R.rnd g = g)
    (ep : R.rnd p = p) : Utils.definitelyLessThan R.arith g p (Utils.defaultEps R.arith) = true := by
  rw [less_iff]
  have eL : R.rnd (max |g| |p|) = max |g| |p| := by
    rw [abs_of_nonpos hg, abs_of_pos hp]
    rcases max_choice (-g) p with h | h <;> rw [h]
    · rw [hR.odd, eg]
    · exact ep
  have h0 : 0 < max |g| |p| := lt_max_of_lt_right (abs_pos.2 hp.ne')
  refine (hR.shrink _ h0 eL).trans_le ?_
  rw [← eL]
  refine R.mono (max_le ?_ ?_)
  · rw [abs_of_nonpos hg]; linarith
  · rw [abs_of_pos hp]; linarith

/-- The rounded difference of the right edges is positive. -/
def Up (R : Rounding K) (c d : Bin K) : Prop := 0 < R.rnd (d.right - c.right)

theorem mergeLoop_up {R : Rounding K} {l : List (Bin K)} (h : l.Pairwise (Up R)) (i : ℕ) {md : K} (hm : md ≤ 0)
    (mi : ℕ) : mergeLoop R.arith l i md mi = mi := by
  induction l generalizing i with
  | nil => rfl
  | cons a l ih =>
    cases l with
    | nil => rfl
    | cons b l =>
      rw [List.pairwise_cons] at h
      have hab : 0 < R.rnd (b.right - a.right) := h.1 b (by simp)
      unfold mergeLoop
      simp only
      rw [if_neg]
      · exact ih h.2 (i + 1)
      · intro hd
        have : R.rnd (b.right - a.right) < md := dlt_lt (eps_nonneg R).1 hd
        linarith

/-- A pair whose difference is not positive is merged, if it is the only one. -/
theorem mergeLoop_down {R : Rounding K} (hR : Neat R) {l1 l2 : List (Bin K)} {a u : Bin K}
    (h1 : (l1 ++ [a]).Pairwise (Up R)) (h2 : (u :: l2).Pairwise (Up R)) (hau : R.rnd (u.right - a.right) ≤ 0)
    (i : ℕ) {md : K} (hm : 0 < md) (em : R.rnd md = md) (mi : ℕ) :
    mergeLoop R.arith (l1 ++ a :: u :: l2) i md mi = i + l1.length := by
  induction l1 generalizing i md mi with
  | nil =>
    simp only [List.nil_append, List.length_nil, Nat.add_zero]
    unfold mergeLoop
    have hd : Utils.definitelyLessThan R.arith (R.arith.sub u.right a.right) md (Utils.defaultEps R.arith) = true :=
      hR.less hau hm (R.idem _) em
    simp only [hd, if_true]
    exact mergeLoop_up h2 (i + 1) hau i
  | cons c l1 ih =>
    obtain ⟨d, t, hdt⟩ : ∃ d t, l1 ++ a :: u :: l2 = d :: t := by
      cases l1 with
      | nil => exact ⟨_, _, rfl⟩
      | cons d l1 => exact ⟨_, _, rfl⟩
    have hmem : d ∈ l1 ++ [a] := by
      cases l1 with
      | nil => simp at hdt; simp [hdt.1]
      | cons e l1 => simp at hdt; simp [hdt.1]
    rw [List.cons_append, List.pairwise_cons] at h1
    have hcd : 0 < R.rnd (d.right - c.right) := h1.1 d hmem
    have ih' := fun i {md : K} hm em mi => ih h1.2 i (md := md) hm em mi
    rw [List.cons_append, List.length_cons]
    rw [hdt] at ih' ⊢
    unfold mergeLoop
    simp only
    split
    · exact (ih' (i + 1) (md := R.arith.sub d.right c.right) hcd (R.idem _) i).trans (by omega)
    · rw [ih' (i + 1) hm em mi]; omega

/-- The tolerant comparisons tell the observations apart. -/
def Apart (R : Rounding K) (xs : List K) : Prop :=
  ∀ a ∈ xs, ∀ b ∈ xs, a < b → Utils.definitelyLessThan R.arith a b (Utils.defaultEps R.arith) = true

theorem Apart.plus {R : Rounding K} {xs : List K} (h : Apart R xs) {a b : K} (ha : a ∈ xs) (hb : b ∈ xs) (hab : a < b) :
    Utils.definitelyGreaterThan R.arith b a (Utils.plusEps R.arith) = true := by
  have h1 := h a ha b hb hab
  rw [less_iff] at h1
  rw [greater_iff, max_comm]
  refine lt_of_le_of_lt (R.mono ?_) h1
  refine mul_le_mul_of_nonneg_left ?_ (le_max_of_le_left (abs_nonneg a))
  refine R.mono ?_
  have : ((1 / 1000000 : ℚ) : K) ≤ ((1 / 10000 : ℚ) : K) := by exact_mod_cast (by norm_num : (1 / 1000000 : ℚ) ≤ 1 / 10000)
  exact this

theorem Apart.up {R : Rounding K} {xs : List K} (h : Apart R xs) {c d : Bin K} (hc : c.right ∈ xs) (hd : d.right ∈ xs)
    (hcd : c.right < d.right) : Up R c d := by
  have h1 := h _ hc _ hd hcd
  rw [less_iff] at h1
  exact (tol_nonneg R _ _ _ (eps_nonneg R).1).trans_lt h1

theorem Merged.at {A : Arith K} {l1 l2 : List (Bin K)} {a b : Bin K} {l' : List (Bin K)}
    (h : Merged A l1.length (l1 ++ a :: b :: l2) l') : l' = l1 ++ Bin.add A a b :: l2 := by
  generalize hl : l1 ++ a :: b :: l2 = l at h
  generalize hn : l1.length = n at h
  cases h with
  | mk k1 k2 c d =>
    obtain ⟨rfl, e⟩ := List.append_inj hl hn
    injection e with e1 e
    injection e with e2 e3
    rw [e1, e2, e3]

/-- One update within the window. -/
theorem Tally.update {R : Rounding K} (hR : Neat R) {nb W : ℕ} {xs : List K} {h h' : Hist K} {x : K}
    (hW : xs.length < W) (hc : Counts nb W xs.length h) (hap : Apart R (xs ++ [x])) (ht : Tally xs h.bins)
    (hf : (∀ b ∈ h.bins, b.left = b.right) ∨ h.bins.length = nb) (hu : h.update R.arith x = .ok h') :
    Tally (xs ++ [x]) h'.bins ∧ ((∀ b ∈ h'.bins, b.left = b.right) ∨ h'.bins.length = nb) := by
  obtain ⟨i, b1, b2, hs⟩ := update_step hu
  have hlow : h.total < h.windowSize := by have := hc.total; have := hc.windowSize; omega
  have hb2 : b2 = b1 := by
    rcases hs.decay with ⟨-, e, -⟩ | ⟨h2, -⟩
    · exact e
    · omega
  subst hb2
  have hmem : ∀ b ∈ h.bins, b.left ∈ xs ++ [x] ∧ b.right ∈ xs ++ [x] := fun b hb => by simp [ht.mem b hb]
  have hx : x ∈ xs ++ [x] := by simp
  have h0 : h.total = 0 → h.bins = [] := by
    intro h0
    have : xs = [] := List.length_eq_zero_iff.1 (by have := hc.total; omega)
    subst this
    rcases hb : h.bins with _ | ⟨b, l⟩
    · rfl
    · have := (ht.mem b (by rw [hb]; simp)).1
      simp at this
  have hsz := hc.size
  have hsorted : h.bins.Pairwise fun a b => a.left < b.left := by
    refine ht.disj.imp_of_mem fun {a b} ha hb hab => (ht.le a ha).trans_lt hab
  -- a new bin
  have key : ∀ l1 l2, h.bins = l1 ++ l2 → b2 = l1 ++ unit x :: l2 → (∀ a ∈ l1, a.left < x) →
      (∀ b ∈ l2, x < b.left) →
      Tally (xs ++ [x]) h'.bins ∧ ((∀ b ∈ h'.bins, b.left = b.right) ∨ h'.bins.length = nb) := by
    intro l1 l2 e1 e2 hl1 hl2
    have hlen : b2.length = h.bins.length + 1 := by rw [e1, e2]; simp; omega
    by_cases hin : ∀ a ∈ l1, a.right < x
    · have hg : Tally (xs ++ [x]) b2 := by
        rw [e2]; exact (e1 ▸ ht).gap hin hl2
      rcases hs.merge with ⟨hm, e⟩ | ⟨hm, e⟩
      · rw [e]
        refine ⟨hg, Or.inl ?_⟩
        rcases hf with hf | hf
        · rw [e1] at hf
          rw [e2]
          intro b hb
          rcases List.mem_append.1 hb with hb | hb
          · exact hf b (by simp [hb])
          · rcases List.mem_cons.1 hb with rfl | hb
            · rfl
            · exact hf b (by simp [hb])
        · rw [hc.numBins] at hm; omega
      · have hlen' := e.length
        rw [hc.numBins] at hm
        refine ⟨?_, Or.inr (by omega)⟩
        generalize mergeIndex R.arith b2 = j at e
        generalize h'.bins = l' at e ⊢
        clear e2 hlen hlen' hm
        cases e with
        | mk m1 m2 a b =>
          have hd := hg.disj
          simp only [List.pairwise_append, List.pairwise_cons, List.mem_cons, forall_eq_or_imp] at hd
          have hab := hd.2.1.1.1
          have ha := hg.le a (by simp)
          have hb := hg.le b (by simp)
          refine hg.join ?_ ?_ rfl
          · simp only [Bin.add]
            rw [if_neg]
            intro hd
            exact absurd (dlt_lt (eps_nonneg R).2 hd) (not_lt.2 (ha.trans hab.le))
          · simp only [Bin.add]
            rw [if_pos (hap.plus (hg.mem a (by simp)).2 (hg.mem b (by simp)).2 (hab.trans_le hb))]
    · -- the value is inside the last bin before it
      obtain ⟨a, l1', rfl⟩ : ∃ a l1', l1 = l1' ++ [a] := by
        rcases List.eq_nil_or_concat l1 with rfl | ⟨l, a, rfl⟩
        · simp at hin
        · exact ⟨a, l, by simp⟩
      rw [List.append_assoc, List.singleton_append] at e1
      rw [List.append_assoc, List.singleton_append] at e2
      have ht1 : Tally xs (l1' ++ a :: l2) := e1 ▸ ht
      have hd := ht1.disj
      simp only [List.pairwise_append, List.pairwise_cons, List.mem_cons, forall_eq_or_imp] at hd
      obtain ⟨d1, ⟨d2, d3⟩, d4⟩ := hd
      have hal : a.left < x := hl1 a (by simp)
      have har : x ≤ a.right := by
        by_contra hlt
        refine hin fun c hc => ?_
        rcases List.mem_append.1 hc with hc | hc
        · exact (d4 c hc).1.trans hal
        · simp only [List.mem_singleton] at hc
          subst hc
          exact not_le.1 hlt
      have hfull : h.bins.length = nb := by
        rcases hf with hf | hf
        · have := hf a (by rw [e1]; simp)
          rw [← this] at har
          exact absurd hal (not_lt.2 har)
        · exact hf
      have hmm : ∀ c ∈ l1' ++ a :: l2, c.right ∈ xs ++ [x] := fun c hc => (hmem c (by rw [e1]; exact hc)).2
      have hr : (l1' ++ a :: l2).Pairwise fun c d => c.right < d.right :=
        ht1.disj.imp_of_mem fun {c d} hc hd hcd => hcd.trans_le (ht1.le d hd)
      have u1 : (l1' ++ [a]).Pairwise (Up R) := by
        have : (l1' ++ [a]).Sublist (l1' ++ a :: l2) := by
          rw [show l1' ++ a :: l2 = (l1' ++ [a]) ++ l2 by simp]
          exact List.sublist_append_left _ _
        refine (hr.sublist this).imp_of_mem fun {c d} hc hd hcd => ?_
        exact hap.up (hmm c (this.subset hc)) (hmm d (this.subset hd)) hcd
      have u2 : (unit x :: l2).Pairwise (Up R) := by
        rw [List.pairwise_cons]
        have : l2.Sublist (l1' ++ a :: l2) := by
          rw [show l1' ++ a :: l2 = (l1' ++ [a]) ++ l2 by simp]
          exact List.sublist_append_right _ _
        refine ⟨fun d hd => hap.up hx (hmm d (this.subset hd)) ?_, ?_⟩
        · exact (hl2 d hd).trans_le (ht1.le d (this.subset hd))
        · refine (hr.sublist this).imp_of_mem fun {c d} hc hd hcd => ?_
          exact hap.up (hmm c (this.subset hc)) (hmm d (this.subset hd)) hcd
      have u3 : R.rnd ((unit x).right - a.right) ≤ 0 := by
        have := R.mono (show x - a.right ≤ 0 by linarith)
        rwa [R.rnd_zero] at this
      have hM : 0 < R.arith.lit dblMax := by
        have h1 : R.rnd (1 : K) = 1 := by have := R.int_exact 1 (by norm_num); simpa using this
        have h2 : (1 : K) ≤ (dblMax : K) := by
          have : (1 : ℚ) ≤ dblMax := by decide +kernel
          exact_mod_cast this
        have h3 := R.mono h2
        rw [h1] at h3
        exact zero_lt_one.trans_le h3
      have hidx : mergeIndex R.arith b2 = l1'.length := by
        unfold mergeIndex
        rw [e2, mergeLoop_down hR u1 u2 u3 0 hM (R.idem _)]
        omega
      rcases hs.merge with ⟨hm, -⟩ | ⟨-, e⟩
      · rw [hc.numBins] at hm; omega
      · have hlen' := e.length
        refine ⟨?_, Or.inr (by omega)⟩
        rw [hidx, e2] at e
        rw [e.at]
        have hadd : Bin.add R.arith a (unit x) = { a with count := a.count + 1 } := by
          unfold Bin.add
          congr 1
          · rw [if_neg]
            intro hd
            exact absurd (dlt_lt (eps_nonneg R).2 hd) (not_lt.2 hal.le)
          · rw [if_neg]
            intro hd
            exact absurd (dgt_gt (eps_nonneg R).2 hd) (not_lt.2 har)
        rw [hadd]
        exact ht1.hit hal.le har
  have hp := hs.placed
  generalize hl : h.bins = l at hp
  generalize hl' : b2 = l' at hp
  cases hp with
  | push _ _ hi hcs =>
    refine key l [] (by simp [hl]) (by simp [hl']) ?_ (by simp)
    rcases hcs with hcs | ⟨-, hcs⟩
    · rw [← hl, h0 hcs]; simp
    · rw [hl] at hsorted
      exact lt_of_last hsorted fun b hb => binLt_lt (hcs b hb)
  | inc l1 l2 b h1 h2 h3 =>
    have hb : b.left ≤ x := by rw [le_decide] at h3; simpa using h3
    have hbx : b.left = x := by
      rcases hb.lt_or_eq with hlt | he
      · have : Bin.lt R.arith b (unit x) = true := hap _ (hmem b (by rw [hl]; simp)).1 _ hx hlt
        rw [this] at h2; cases h2
      · exact he
    have ht1 : Tally xs (l1 ++ b :: l2) := hl ▸ ht
    have hg := ht1.hit hb (hbx ▸ ht1.le b (by simp))
    rcases hs.merge with ⟨hm, e⟩ | ⟨hm, -⟩
    · rw [e, hl']
      refine ⟨hg, ?_⟩
      rcases hf with hf | hf
      · left
        rw [hl] at hf
        intro c hcm
        rcases List.mem_append.1 hcm with hcm | hcm
        · exact hf c (by simp [hcm])
        · rcases List.mem_cons.1 hcm with rfl | hcm
          · exact hf b (by simp)
          · exact hf c (by simp [hcm])
      · right
        rw [← hf, hl]; simp
    · rw [hc.numBins, hl'] at hm
      rw [hl] at hsz
      simp at hm hsz
      omega
  | insert l1 l2 b h1 h2 h3 =>
    have hb : x < b.left := by rw [le_decide] at h3; simpa using h3
    rw [hl] at hsorted
    rw [List.pairwise_append] at hsorted
    refine key l1 (b :: l2) hl hl' (lt_of_last hsorted.1 fun a ha => binLt_lt (h1 a ha)) ?_
    intro c hcm
    rcases List.mem_cons.1 hcm with rfl | hcm
    · exact hb
    · exact hb.trans ((List.pairwise_cons.1 hsorted.2.1).1 c hcm)

theorem Tally.run {R : Rounding K} (hR : Neat R) {nb W : ℕ} {xs : List K} {h : Hist K} (hW : xs.length ≤ W)
    (hap : Apart R xs) (hu : updateAll (Hist.update R.arith) (Hist.new nb W) xs = .ok h) :
    Tally xs h.bins ∧ ((∀ b ∈ h.bins, b.left = b.right) ∨ h.bins.length = nb) := by
  induction xs using List.reverseRecOn generalizing h with
  | nil =>
    simp only [updateAll] at hu
    injection hu with hu
    subst hu
    exact ⟨Tally.nil, Or.inl (by simp [Hist.new])⟩
  | append_singleton xs x ih =>
    rw [updateAll_snoc] at hu
    obtain ⟨h1, e1, e2⟩ := Res.bind_eq_ok.1 hu
    rw [List.length_append, List.length_singleton] at hW
    obtain ⟨t1, t2⟩ := ih (by omega) (fun a ha b hb => hap a (by simp [ha]) b (by simp [hb])) e1
    exact Tally.update hR (by omega) (Counts.run e1) hap t1 t2 e2

theorem Tally.report {R : Rounding K} {xs : List K} {h : Hist K} (ht : Tally xs h.bins) :
    IsHistogram (h.report R.arith) xs := by
  have hs : h.bins.Pairwise fun a b => a.left < b.left :=
    ht.disj.imp_of_mem fun {a b} ha hb hab => (ht.le a ha).trans_lt hab
  rw [report_eq R hs]
  refine ⟨?_, ?_, ?_⟩
  · rw [List.pairwise_map]; exact ht.disj
  · intro e he
    obtain ⟨b, hb, rfl⟩ := List.mem_map.1 he
    exact ⟨ht.le b hb, (ht.mem b hb).1, (ht.mem b hb).2, ht.cnt b hb⟩
  · intro x hx
    obtain ⟨b, hb, hx⟩ := ht.all x hx
    exact ⟨_, List.mem_map.2 ⟨b, hb, rfl⟩, hx⟩

theorem neat_none : Neat (Rounding.none (K := K)) := by
  refine ⟨fun x => rfl, fun p hp _ => ?_⟩
  have he : Utils.defaultEps (Rounding.none (K := K)).arith = 1 / 10000 := by
    simp [Utils.defaultEps, Rounding.none, Rounding.arith]
  rw [he]
  show p * (1 / 10000) < p
  linarith

theorem neat_R64 : Neat R64 := by
  refine ⟨rnd64_neg, fun p hp ep => ?_⟩
  have ep : rnd64 p = p := ep
  show rnd64 (p * Utils.defaultEps R64.arith) < p
  have h0 := (eps_nonneg R64).1
  have h1 : Utils.defaultEps R64.arith ≤ 1 / 8 := by decide +kernel
  have := Entropy.rnd64_lt_of_double (x := p * Utils.defaultEps R64.arith) (y := p) (mul_nonneg hp.le h0)
    (by have := mul_le_mul_of_nonneg_left h1 hp.le; linarith) (rnd64_grid ep)
  rwa [ep] at this

end Hist

/-- **C99**, the part that holds (any symmetric rounding): while the window is filling, observations that the tolerant
comparison tells apart give a histogram, with any number of bins. Missing: observations closer than the tolerance, and
longer streams. -/
theorem C99_rounded_partial (R : Rounding K) (hR : Hist.Neat R) (numBins W : ℕ) (xs : List K) (h : Hist K)
    (hn : xs.length ≤ W) (hap : Hist.Apart R xs)
    (hu : updateAll (Hist.update R.arith) (Hist.new numBins W) xs = .ok h) : IsHistogram (h.report R.arith) xs :=
  (Hist.Tally.run hR hn hap hu).1.report

/-- **C99**, the part that holds, in exact arithmetic: values separated by more than the relative tolerance 0.0001. -/
theorem C99_separated_partial (numBins W : ℕ) (hb : 1 ≤ numBins) (xs : List K) (hn : xs.length ≤ W)
    (hsep : Separated (1 / 10000 : K) xs) (hx : ∀ x ∈ xs, |x| ≤ dblMax / 4) :
    ∃ h, updateAll (Hist.update (exact K)) (Hist.new numBins W) xs = .ok h ∧ IsHistogram (h.report (exact K)) xs := by
  obtain ⟨h, e⟩ := C55_filling_exact_partial numBins W hb xs hn hx
  refine ⟨h, e, C99_rounded_partial Rounding.none Hist.neat_none numBins W xs h hn (fun a ha b hb hab => ?_) e⟩
  have he : Utils.defaultEps (Rounding.none (K := K)).arith = 1 / 10000 := by
    simp [Utils.defaultEps, Rounding.none, Rounding.arith]
  rw [he]
  exact (less_exact a b _).2 (by have := hsep a ha b hb hab; rwa [mul_comm])

/-- Eight observations of eight values in three bins. -/
example : ∃ h, updateAll (Hist.update (exact ℚ)) (Hist.new 3 8) [3, 9, 1, 4, 8, 2, 5, 7] = .ok h ∧
    IsHistogram (h.report (exact ℚ)) [3, 9, 1, 4, 8, 2, 5, 7] :=
  C99_separated_partial 3 8 (by norm_num) _ (by simp) (by unfold Separated; decide +kernel) (by decide +kernel)

/-! ### The last bin can end far below the largest observation -/

theorem Hist.drift_step {R : Rounding K} (hB : Hist.Big R) (ht : R.tiny ≤ 1 / 1000000) {W m n : ℕ} {h : Hist K}
    (hm : 2000000 ≤ m) (hn : 1 ≤ n) (hW : n < W) (hs : ((m : K) + 1) ≤ dblMax / 4) (hc : Counts 1 W n h)
    (hb : h.bins = [⟨(m : K) + 1, (m : K) + 1, n⟩]) :
    ∃ h', h.update R.arith (m : K) = .ok h' ∧ h'.bins = [⟨(m : K), (m : K), n + 1⟩] := by
  have hm' : (2000000 : K) ≤ m := by exact_mod_cast hm
  have hlow : h.total < h.windowSize := by have := hc.total; have := hc.windowSize; omega
  have hpos : h.total ≠ 0 := by have := hc.total; omega
  have hplace : ∀ {i b1}, Placed R.arith (m : K) (h.total = 0) i h.bins b1 →
      b1 = [unit (m : K), ⟨(m : K) + 1, (m : K) + 1, n⟩] := by
    intro i b1 hp
    generalize hl : h.bins = l at hp
    rw [hb] at hl
    cases hp with
    | push _ _ hi hcs =>
      rcases hcs with hcs | ⟨-, hcs⟩
      · exact absurd hcs hpos
      · have := binLt_lt (hcs ⟨(m : K) + 1, (m : K) + 1, n⟩ (by rw [← hl]; rfl))
        simp only at this
        linarith
    | inc l1 l2 b h1 h2 h3 =>
      have hle : b.left ≤ (m : K) := by rw [le_decide] at h3; simpa using h3
      have : b ∈ [(⟨(m : K) + 1, (m : K) + 1, n⟩ : Bin K)] := by rw [hl]; simp
      rw [List.mem_singleton] at this
      rw [this] at hle
      simp only at hle
      linarith
    | insert l1 l2 b h1 h2 h3 =>
      cases l1 with
      | nil => simp only [List.nil_append] at hl ⊢; rw [← hl]
      | cons c l1 =>
        have := congrArg List.length hl
        simp at this
  have hidx : mergeIndex R.arith [unit (m : K), ⟨(m : K) + 1, (m : K) + 1, n⟩] + 1 < 2 := by
    have h4 : |(m : K)| ≤ dblMax / 4 := by rw [abs_of_nonneg (by linarith)]; linarith
    have h5 : |(m : K) + 1| ≤ dblMax / 4 := by rw [abs_of_nonneg (by linarith)]; exact hs
    exact mergeIndex_lt (A := R.arith) (a := unit (m : K)) (b := ⟨(m : K) + 1, (m : K) + 1, n⟩) (l := [])
      (hB.diff h4 h5)
  rcases update_cases (A := R.arith) h (m : K) with ⟨h', i, b1, b2, e, hs⟩ | ⟨-, i, b1, -, hp, hbad⟩
  · refine ⟨h', e, ?_⟩
    have e1 := hplace hs.placed
    have hb2 : b2 = b1 := by
      rcases hs.decay with ⟨-, e, -⟩ | ⟨h2, -⟩
      · exact e
      · omega
    subst hb2
    rcases hs.merge with ⟨hm, -⟩ | ⟨-, hmg⟩
    · rw [e1, hc.numBins] at hm
      simp at hm
    · have h0 : mergeIndex R.arith b2 = 0 := by rw [e1]; omega
      rw [h0, e1] at hmg
      have := Merged.at (l1 := []) (l2 := []) hmg
      rw [this]
      have h1 : R.rnd (1 : K) = 1 := by have := R.int_exact 1 (by norm_num); simpa using this
      have heps : (3 / 4) * (1 / 1000000) ≤ Utils.plusEps R.arith := by
        have hl : Utils.plusEps R.arith = R.rnd (1 / 1000000) := by
          show R.rnd (((1 / 1000000 : ℚ)) : K) = _
          norm_num
        rw [hl]
        have := R.rel (1 / 1000000 : K) (by rw [abs_of_pos (by norm_num)]; exact ht)
        rw [abs_of_pos (show (0 : K) < 1 / 1000000 by norm_num)] at this
        have := (abs_le.1 this).1
        linarith
      unfold Bin.add
      simp only [List.nil_append]
      rw [if_neg, if_neg, Nat.add_comm]
      · rw [greater_iff, not_lt]
        have e2 : (m : K) + 1 - m = 1 := by ring
        rw [e2]
        refine R.mono ?_
        have h6 : (2000000 : K) ≤ max |(m : K) + 1| |(m : K)| :=
          le_max_of_le_right (by rw [abs_of_nonneg (by linarith)]; exact hm')
        have := mul_le_mul h6 heps (by norm_num) (by linarith)
        linarith
      · intro hd
        have := dlt_lt (eps_nonneg R).2 hd
        linarith
  · exfalso
    have e1 := hplace hp
    rcases hbad with ⟨h2, -⟩ | ⟨b2, h2, h3, ⟨rfl, -⟩ | ⟨h4, -⟩⟩
    · omega
    · rw [e1] at h3
      simp only [List.length_cons, List.length_nil] at h3
      omega
    · omega

theorem Hist.drift {R : Rounding K} (hB : Hist.Big R) (ht : R.tiny ≤ 1 / 1000000) {W m n : ℕ} (hm : 2000000 ≤ m)
    (hn : 1 ≤ n) (hW : n ≤ W) (hs : ((m + n : ℕ) : K) ≤ dblMax / 4) :
    ∃ h, updateAll (Hist.update R.arith) (Hist.new 1 W) ((List.range' m n).reverse.map fun i : ℕ => (i : K)) = .ok h ∧
      h.bins = [⟨(m : K), (m : K), n⟩] := by
  induction n, hn using Nat.le_induction generalizing m with
  | base =>
    have hW' : 1 ≤ W := hW
    show ∃ h, updateAll (Hist.update R.arith) (Hist.new 1 W) [(m : K)] = .ok h ∧ _
    simp only [updateAll]
    rcases update_cases (A := R.arith) (Hist.new 1 W) (m : K) with ⟨h', i, b1, b2, e, hs⟩ | ⟨-, i, b1, -, hp, hbad⟩
    · refine ⟨h', by rw [e]; rfl, ?_⟩
      have hp := hs.placed
      have hb1 : b1 = [unit (m : K)] := by
        generalize hl : (Hist.new 1 W : Hist K).bins = l at hp
        cases hp with
        | push => rw [← hl]; rfl
        | inc l1 l2 => exact absurd hl (by simp [Hist.new])
        | insert l1 l2 => exact absurd hl (by simp [Hist.new])
      have hb2 : b2 = b1 := by
        rcases hs.decay with ⟨-, e, -⟩ | ⟨h2, -⟩
        · exact e
        · exact absurd h2 (by simp [Hist.new]; omega)
      subst hb2
      rcases hs.merge with ⟨-, e⟩ | ⟨h2, -⟩
      · rw [e, hb1]
      · rw [hb1] at h2
        exact absurd h2 (by simp [Hist.new])
    · exfalso
      have hl := hp.length
      have h0 : (Hist.new 1 W : Hist K).bins.length = 0 := rfl
      rcases hbad with ⟨h2, -⟩ | ⟨b2, h2, h3, ⟨rfl, -⟩ | ⟨h4, -⟩⟩
      · exact absurd h2 (by simp [Hist.new]; omega)
      · have : 1 < b2.length := h2
        omega
      · exact absurd h4 (by simp [Hist.new]; omega)
  | succ n hn ih =>
    obtain ⟨h, e, hb⟩ := ih (m := m + 1) (by omega) (by omega) (by rw [show m + 1 + n = m + (n + 1) by omega]; exact hs)
    have hc := Hist.Counts.run e
    rw [List.length_map, List.length_reverse, List.length_range'] at hc
    have hs' : (m : K) + 1 ≤ dblMax / 4 := by
      have : ((m + 1 : ℕ) : K) ≤ ((m + (n + 1) : ℕ) : K) := by exact_mod_cast (by omega)
      push_cast at this hs
      linarith
    obtain ⟨h', e', hb'⟩ := Hist.drift_step hB ht hm hn (by omega) hs' hc (by rw [hb]; push_cast; rfl)
    refine ⟨h', ?_, hb'⟩
    rw [List.range'_succ, List.reverse_cons, List.map_append, List.map_singleton, updateAll_snoc, e, Res.ok_bind, e']

end Round

theorem Hist.big_R64 : Hist.Big R64 :=
  ⟨by decide +kernel, by decide +kernel, by decide +kernel, by decide +kernel, by decide +kernel⟩

/-- C99 fails: 1 and 1.00005 are both counted in the bin from 1 to 1. -/
theorem C99_violated : ¬ C99_full ∧
    (updateAll (Hist.update (exact ℚ)) (Hist.new 4 4) [1, 100005 / 100000]).mapOk Hist.bins = .ok [⟨1, 1, 2⟩] := by
  refine ⟨fun hf => ?_, by decide +kernel⟩
  have := hf 4 4 [1, 100005 / 100000]
    { numBins := 4, windowSize := 4, bins := [⟨1, 1, 2⟩], window := [0, 0, 0, 0, 0, 0], total := 2, historyCount := 2,
      live := 1 } (by norm_num) (by simp) (by decide +kernel)
  revert this
  decide +kernel

/-- C99 fails without limit, on doubles: a stream that descends from `m + n - 1` to `m` in steps of one leaves a single
bin from `m` to `m` with all `n` observations, for every `m` from two million on. -/
theorem C99_violated_drift (W m n : ℕ) (hm : 2000000 ≤ m) (hn : 1 ≤ n) (hW : n ≤ W) (hs : m + n ≤ 2 ^ 53) :
    (updateAll (Hist.update Dbl.arith) (Hist.new 1 W)
      ((List.range' m n).reverse.map fun i : ℕ => .fin (i : ℚ))).mapOk Hist.bins =
      .ok [⟨.fin m, .fin m, n⟩] := by
  have hbig : ((m + n : ℕ) : ℚ) ≤ dblMax / 4 := by
    have h1 : ((m + n : ℕ) : ℚ) ≤ ((2 ^ 53 : ℕ) : ℚ) := by exact_mod_cast hs
    have h2 : ((2 ^ 53 : ℕ) : ℚ) ≤ dblMax / 4 := by decide +kernel
    exact h1.trans h2
  obtain ⟨h, e, hb⟩ := Hist.drift (R := R64) Hist.big_R64 (by decide +kernel) hm hn hW (by simpa using hbig)
  rw [← b64_eq] at e
  have h1 := C88_no_overflow_partial 1 W ((List.range' m n).reverse.map fun i : ℕ => (i : ℚ)) (fun x hx => by
    obtain ⟨i, hi, rfl⟩ := List.mem_map.1 hx
    rw [List.mem_reverse, List.mem_range'_1] at hi
    rw [abs_of_nonneg (by positivity)]
    have h1 : (i : ℚ) ≤ ((m + n : ℕ) : ℚ) := by exact_mod_cast hi.2.le
    have := dblMax_pos
    linarith)
  rw [e, List.map_map] at h1
  have h2 : (updateAll (Hist.update Dbl.arith) (Hist.new 1 W)
      ((List.range' m n).reverse.map fun i : ℕ => Dbl.fin (i : ℚ))) = .ok (h.map .fin) := h1
  rw [h2]
  show Res.ok ((h.bins.map (Bin.map Dbl.fin))) = _
  rw [hb]
  rfl

/-- 2000004, 2000003, …, 2000000: the largest observation is outside every bin. -/
example : (updateAll (Hist.update Dbl.arith) (Hist.new 1 9)
      ((List.range' 2000000 5).reverse.map fun i : ℕ => .fin (i : ℚ))).mapOk Hist.bins =
    .ok [⟨.fin (2000000 : ℕ), .fin (2000000 : ℕ), 5⟩] :=
  C99_violated_drift 9 2000000 5 le_rfl (by norm_num) (by norm_num) (by norm_num)

/-- C99 fails one observation after the window is full, for well separated values: 4 is in two bins. -/
theorem C99_violated_overlap :
    (updateAll (Hist.update (exact ℚ)) (Hist.new 2 3) [1, 3, 4, 4]).mapOk Hist.bins = .ok [⟨3, 4, 2⟩, ⟨4, 4, 1⟩] := by
  decide +kernel

/-- **C99**, the part that holds, on doubles: observations that the tolerant comparison of doubles tells apart. -/
theorem C99_dbl_partial (numBins W : ℕ) (hb : 1 ≤ numBins) (xs : List ℚ) (hn : xs.length ≤ W)
    (hx : ∀ x ∈ xs, |x| ≤ dblMax / 4)
    (hap : ∀ a ∈ xs, ∀ b ∈ xs, a < b →
      Utils.definitelyLessThan Dbl.arith (.fin a) (.fin b) (Utils.defaultEps Dbl.arith) = true) :
    ∃ h : Hist ℚ, updateAll (Hist.update Dbl.arith) (Hist.new numBins W) (xs.map .fin) = .ok (h.map .fin) ∧
      IsHistogram (h.bins.map fun b => ((b.left, b.right), b.count)) xs := by
  obtain ⟨h, e⟩ := C55_filling_b64_partial numBins W hb xs hn hx
  have hx2 : ∀ x ∈ xs, |x| ≤ dblMax / 2 := fun x h => (hx x h).trans (by have := dblMax_pos; linarith)
  refine ⟨h, ?_, ?_⟩
  · rw [C88_no_overflow_partial numBins W xs hx2, e]; rfl
  · rw [b64_eq] at e
    have hap' : Hist.Apart R64 xs := fun a ha b hb hab => by
      have := Hist.sim_dbl.less a b (hx2 a ha) (hx2 b hb)
      rw [← b64_eq, ← this]
      exact hap a ha b hb hab
    have ht := (Hist.Tally.run Hist.neat_R64 hn hap' e).1
    have := ht.report (R := R64)
    rwa [Hist.report_eq R64 (ht.disj.imp_of_mem fun {a b} ha hb hab => (ht.le a ha).trans_lt hab)] at this

/-- Eight doubles in three bins. -/
example : ∃ h : Hist ℚ,
    updateAll (Hist.update Dbl.arith) (Hist.new 3 8) ([3, 9, 1, 4, 8, 1 / 2, 4, 7].map .fin) = .ok (h.map .fin) ∧
      IsHistogram (h.bins.map fun b => ((b.left, b.right), b.count)) [3, 9, 1, 4, 8, 1 / 2, 4, 7] :=
  C99_dbl_partial 3 8 (by norm_num) _ (by simp) (by decide +kernel) (by decide +kernel)

/-- The result for them: three bins, each with several values. -/
example : (updateAll (Hist.update Dbl.arith) (Hist.new 3 8) ([3, 9, 1, 4, 8, 1 / 2, 4, 7].map .fin)).mapOk Hist.bins =
    .ok [⟨.fin (1 / 2), .fin 1, 2⟩, ⟨.fin 3, .fin 4, 3⟩, ⟨.fin 7, .fin 9, 3⟩] := by
  decide +kernel

end KML
