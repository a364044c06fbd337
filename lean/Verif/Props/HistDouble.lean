import Verif.Props.HistStreams
import Verif.Lemmas.Window

/-! # C127: which observations a histogram counts once its window has overflowed -/

set_option linter.unusedSectionVars false

namespace KML

open Spec

/-- Every observation is either one seen before or larger than all before it. -/
def NewMaxima {K : Type} [LT K] (xs : List K) : Prop :=
  ∀ a x b, xs = a ++ x :: b → x ∉ a → ∀ y ∈ a, y < x

theorem NewMaxima.init {K : Type} [LT K] {xs : List K} {x : K} (h : NewMaxima (xs ++ [x])) : NewMaxima xs :=
  fun a y b e => h a y (b ++ [x]) (by rw [e]; simp)

theorem NewMaxima.last {K : Type} [LT K] {xs : List K} {x : K} (h : NewMaxima (xs ++ [x])) (hx : x ∉ xs) :
    ∀ y ∈ xs, y < x := h xs x [] rfl hx

theorem newMaxima_of_decide {K : Type} [LinearOrder K] (xs : List K)
    (h : ∀ n < xs.length, ∀ x ∈ xs[n]?, x ∈ xs.take n ∨ ∀ y ∈ xs.take n, y < x) : NewMaxima xs := by
  intro a x b e hx y hy
  subst e
  have := h a.length (by simp) x (by simp)
  simp only [List.take_left] at this
  exact this.resolve_left hx y hy

section Round

variable {K : Type} [Field K] [LinearOrder K] [IsStrictOrderedRing K] [FloorRing K]

namespace Hist

/-- Left edges and counts of a bin list. -/
def lefts (l : List (Bin K)) : List K := l.map Bin.left

/-- Count of the bin at `j`, 0 if there is none. -/
def cntAt (l : List (Bin K)) (j : ℕ) : ℕ := ((l.map Bin.count)[j]?).getD 0

theorem cntAt_inc (l1 l2 : List (Bin K)) (b c : Bin K) (j : ℕ) (hc : c.count = b.count + 1) :
    cntAt (l1 ++ c :: l2) j = cntAt (l1 ++ b :: l2) j + if j = l1.length then 1 else 0 := by
  unfold cntAt
  rcases Nat.lt_trichotomy j l1.length with h | h | h
  · rw [if_neg (by omega)]
    simp [List.getElem?_append, h]
  · subst h; simp [hc]
  · rw [if_neg (by omega)]
    obtain ⟨k, rfl⟩ : ∃ k, j = l1.length + (k + 1) := ⟨j - l1.length - 1, by omega⟩
    simp [List.getElem?_append]

theorem cntAt_push (l : List (Bin K)) (c : Bin K) (j : ℕ) (hc : c.count = 1) :
    cntAt (l ++ [c]) j = cntAt l j + if j = l.length then 1 else 0 := by
  unfold cntAt
  rcases Nat.lt_trichotomy j l.length with h | h | h
  · rw [if_neg (by omega)]
    simp [List.getElem?_append, h]
  · subst h; simp [hc]
  · rw [if_neg (by omega)]
    rw [List.getElem?_eq_none (by simp; omega), List.getElem?_eq_none (by simp; omega)]
    rfl

theorem cntAt_dec (l1 l2 : List (Bin K)) (b : Bin K) (j : ℕ) :
    cntAt (l1 ++ decBin b :: l2) j = cntAt (l1 ++ b :: l2) j - if j = l1.length then 1 else 0 := by
  unfold cntAt
  rcases Nat.lt_trichotomy j l1.length with h | h | h
  · rw [if_neg (by omega)]
    simp [List.getElem?_append, h]
  · subst h; simp [decBin_count]
  · rw [if_neg (by omega)]
    obtain ⟨k, rfl⟩ : ∃ k, j = l1.length + (k + 1) := ⟨j - l1.length - 1, by omega⟩
    simp [List.getElem?_append]

/-- The state after `xs`. -/
structure Late (W : ℕ) (xs : List K) (h : Hist K) : Prop where
  sorted : (lefts h.bins).Pairwise (· < ·)
  mem : ∀ v, v ∈ lefts h.bins ↔ v ∈ xs
  point : ∀ b ∈ h.bins, b.right = b.left
  window : h.window = (List.replicate W 0 ++ xs.map fun v => (lefts h.bins).idxOf v).drop (xs.length - W)
  later : ∀ j v, 1 ≤ j → (lefts h.bins)[j]? = some v → cntAt h.bins j = (lastN (2 * W) xs).count v
  first : ∀ v, (lefts h.bins)[0]? = some v → cntAt h.bins 0 ≤ (lastN (2 * W) xs).count v ∧
    (lastN (2 * W) xs).count v ≤ cntAt h.bins 0 + min (xs.length - W) W

/-- Where a new observation goes. -/
theorem placed_max {R : Rounding K} {xs : List K} {x : K} {l : List (Bin K)}
    (hs : (lefts l).Pairwise (· < ·)) (hmem : ∀ v, v ∈ lefts l ↔ v ∈ xs) (hpt : ∀ b ∈ l, b.right = b.left)
    (hm : NewMaxima (xs ++ [x])) {t0 : Prop} (h0 : t0 → l = []) {i : ℕ} {b1 : List (Bin K)}
    (hsep : ∀ a ∈ xs, a < x → Utils.definitelyLessThan R.arith a x (Utils.defaultEps R.arith) = true)
    (hp : Placed R.arith x t0 i l b1) :
    (lefts b1).Pairwise (· < ·) ∧ (∀ v, v ∈ lefts b1 ↔ v ∈ xs ++ [x]) ∧ (∀ b ∈ b1, b.right = b.left) ∧
    (∀ v ∈ xs, (lefts b1).idxOf v = (lefts l).idxOf v) ∧ (lefts b1).idxOf x = i ∧
    (∀ j, cntAt b1 j = cntAt l j + if j = i then 1 else 0) ∧
    (∀ j v, (lefts b1)[j]? = some v → (lefts l)[j]? = some v ∨
      j = l.length ∧ v = x ∧ x ∉ xs ∧ cntAt l j = 0) := by
  have hlast : ∀ {l1 l2 : List (Bin K)}, l = l1 ++ l2 →
      (∀ a, l1.getLast? = some a → Bin.lt R.arith a (unit x) = true) → ∀ b ∈ l1, b.left < x := by
    intro l1 l2 e h1
    refine lt_of_last ?_ fun b hb => binLt_lt (h1 b hb)
    have : (l1 ++ l2).Pairwise fun a b => a.left < b.left := by
      rw [← e]; exact List.pairwise_map.1 hs
    exact (List.pairwise_append.1 this).1
  cases hp with
  | push _ _ hi hc =>
    have hall : ∀ b ∈ l, b.left < x := by
      rcases hc with hc | ⟨-, hc⟩
      · rw [h0 hc]; simp
      · exact hlast (l2 := []) (by simp) hc
    have hlt : ∀ v ∈ lefts l, v < x := by
      intro v hv
      obtain ⟨b, hb, rfl⟩ := List.mem_map.1 hv
      exact hall b hb
    have hx : x ∉ lefts l := fun hx => (hlt x hx).false
    have hi' : i = l.length := by
      rcases hc with hc | ⟨hc, -⟩
      · rw [h0 hc] at hi ⊢; simpa using hi
      · exact hc
    have he : lefts (l ++ [unit x]) = lefts l ++ [x] := by simp [lefts, unit]
    refine ⟨?_, ?_, ?_, ?_, ?_, ?_, ?_⟩
    · rw [he, List.pairwise_append]
      exact ⟨hs, by simp, by simpa using hlt⟩
    · intro v; rw [he]; simp [hmem]
    · intro b hb
      rcases List.mem_append.1 hb with hb | hb
      · exact hpt b hb
      · simp at hb; subst hb; rfl
    · intro v hv
      rw [he, List.idxOf_append_of_mem ((hmem v).2 hv)]
    · rw [he, List.idxOf_append_of_notMem hx, hi']; simp [lefts]
    · intro j; rw [hi']; exact cntAt_push _ _ _ rfl
    · intro j v hv
      rw [he, List.getElem?_append] at hv
      split at hv
      · exact Or.inl hv
      · right
        have hj : j = l.length := by
          have := (List.getElem?_eq_some_iff.1 hv).1
          simp [lefts] at *; omega
        subst hj
        simp [lefts] at hv
        exact ⟨rfl, hv.symm, fun h => hx ((hmem x).2 h), by simp [cntAt]⟩
  | inc l1 l2 b h1 h2 h3 =>
    have hb : b.left ≤ x := by rw [le_decide] at h3; simpa using h3
    have hbm : b.left ∈ lefts (l1 ++ b :: l2) := by simp [lefts]
    have hbx : b.left = x := by
      rcases hb.lt_or_eq with hlt | he
      · have : Bin.lt R.arith b (unit x) = true := hsep _ ((hmem _).1 hbm) hlt
        rw [this] at h2; cases h2
      · exact he
    have hx : x ∈ xs := (hmem x).1 (by rw [← hbx]; exact hbm)
    have he : lefts (l1 ++ { b with count := b.count + 1 } :: l2) = lefts (l1 ++ b :: l2) := by simp [lefts]
    have hn : x ∉ lefts l1 := by
      intro hx'
      obtain ⟨c, hc, e⟩ := List.mem_map.1 hx'
      exact (hlast rfl h1 c hc).ne e
    refine ⟨by rw [he]; exact hs, ?_, ?_, fun v _ => by rw [he], ?_, fun j => cntAt_inc l1 l2 b _ j rfl,
      fun j v hv => Or.inl (by rw [← he]; exact hv)⟩
    · intro v; rw [he, hmem]; simp only [List.mem_append, List.mem_singleton]
      exact ⟨Or.inl, fun h => h.elim id fun h => h ▸ hx⟩
    · intro c hc
      rcases List.mem_append.1 hc with hc | hc
      · exact hpt c (by simp [hc])
      · rcases List.mem_cons.1 hc with rfl | hc
        · exact hpt b (by simp)
        · exact hpt c (by simp [hc])
    · have : lefts (l1 ++ { b with count := b.count + 1 } :: l2) = lefts l1 ++ x :: lefts l2 := by
        simp [lefts, hbx]
      rw [this, List.idxOf_append_of_notMem hn, List.idxOf_cons_self]; simp [lefts]
  | insert l1 l2 b h1 h2 h3 =>
    exfalso
    have hb : x < b.left := by rw [le_decide] at h3; simpa using h3
    have hbm : b.left ∈ lefts (l1 ++ b :: l2) := by simp [lefts]
    by_cases hx : x ∈ xs
    · have hx' := (hmem x).2 hx
      obtain ⟨c, hc, e⟩ := List.mem_map.1 hx'
      have hs' : (l1 ++ b :: l2).Pairwise fun a b => a.left < b.left := List.pairwise_map.1 hs
      rw [List.pairwise_append, List.pairwise_cons] at hs'
      rcases List.mem_append.1 hc with hc | hc
      · exact (hlast rfl h1 c hc).ne e
      · rcases List.mem_cons.1 hc with rfl | hc
        · exact hb.ne e.symm
        · exact (hb.trans (hs'.2.1.1 c hc)).ne e.symm
    · exact (hb.trans (hm.last hx _ ((hmem _).1 hbm))).false

theorem lefts_evicted {n d : ℕ} {l l' : List (Bin K)} (h : Evicted n d l l') (hn : l.length ≤ n) :
    lefts l' = lefts l ∧ (∀ j, cntAt l' j = cntAt l j - if j = d then 1 else 0) ∧
      ((∀ b ∈ l, b.right = b.left) → ∀ b ∈ l', b.right = b.left) := by
  cases h with
  | keep l1 l2 b h =>
    refine ⟨by simp [lefts, (decBin_left b).1], fun j => cntAt_dec l1 l2 b j, ?_⟩
    intro hp c hc
    rcases List.mem_append.1 hc with hc | hc
    · exact hp c (by simp [hc])
    · rcases List.mem_cons.1 hc with rfl | hc
      · rw [(decBin_left b).1, (decBin_left b).2]; exact hp b (by simp)
      · exact hp c (by simp [hc])
  | erase l1 l2 b h1 h2 => omega

theorem Late.run {R : Rounding K} {nb W : ℕ} (hW : 1 ≤ W) {xs : List K} {h : Hist K} (hd : distinct xs ≤ nb)
    (hm : NewMaxima xs) (hsep : ∀ a ∈ xs, ∀ b ∈ xs, a < b →
      Utils.definitelyLessThan R.arith a b (Utils.defaultEps R.arith) = true)
    (hu : updateAll (Hist.update R.arith) (Hist.new nb W) xs = .ok h) : Late W xs h := by
  induction xs using List.reverseRecOn generalizing h with
  | nil =>
    simp only [updateAll] at hu
    injection hu with hu
    subst hu
    refine ⟨?_, ?_, ?_, ?_, ?_, ?_⟩ <;> simp [Hist.new, lefts]
  | append_singleton xs x ih =>
    rw [updateAll_snoc] at hu
    obtain ⟨h1, e1, e2⟩ := Res.bind_eq_ok.1 hu
    have hc := Hist.Counts.run e1
    have ht := ih ((Hist.distinct_mono (by simp +contextual)).trans hd) hm.init
      (fun a ha b hb => hsep a (by simp [ha]) b (by simp [hb])) e1
    have ho := Hist.Ordered.run (by omega) e1
    obtain ⟨i, b1, b2, hs⟩ := Hist.update_step e2
    have h0 : h1.total = 0 → h1.bins = [] := by
      intro h0
      have : xs = [] := List.length_eq_zero_iff.1 (by have := hc.total; omega)
      subst this
      simp only [updateAll] at e1
      injection e1 with e1
      subst e1; rfl
    have hlen : b1.length ≤ nb := (ho.placed h0 hs.placed).length_le.trans hd
    obtain ⟨p1, p2, p3, p4, p5, p6, p7⟩ := placed_max ht.sorted ht.mem ht.point hm h0
      (fun a ha hax => hsep a (by simp [ha]) x (by simp) hax) hs.placed
    have hmap : (xs ++ [x]).map (fun v => (lefts b1).idxOf v) =
        xs.map (fun v => (lefts h1.bins).idxOf v) ++ [i] := by
      rw [List.map_append, List.map_singleton, p5]
      congr 1
      exact List.map_congr_left p4
    have hwin := hc.windowSize
    have htot := hc.total
    have hq : h1.window ++ [i] =
        (List.replicate W 0 ++ (xs ++ [x]).map fun v => (lefts b1).idxOf v).drop (xs.length - W) := by
      rw [ht.window, hmap, ← List.append_assoc, List.drop_append_of_le_length (l₂ := [i])]
      simp; omega
    -- counts before the eviction
    have hat : ∀ {v j}, (lefts b1)[j]? = some v → ∀ y, (j = (lefts b1).idxOf y ↔ v = y) := by
      intro v j hv y
      obtain ⟨hj, e⟩ := List.getElem?_eq_some_iff.1 hv
      have hnd : (lefts b1).Nodup := p1.imp fun h => h.ne
      rw [← e]
      constructor
      · intro h; subst h; exact List.getElem_idxOf _
      · intro h; rw [← h]; exact (hnd.idxOf_getElem j hj).symm
    have hx1 : ∀ {v j}, (lefts b1)[j]? = some v → (j = i ↔ v = x) := by
      intro v j hv
      rw [← hat hv x, p5]
    have hcnt : ∀ {v j}, (lefts b1)[j]? = some v →
        (lastN (2 * W) xs ++ [x]).count v = (lastN (2 * W) xs).count v + if j = i then 1 else 0 := by
      intro v j hv
      rw [List.count_append]
      congr 1
      by_cases h : j = i
      · rw [if_pos h, (hx1 hv).1 h]; simp
      · rw [if_neg h]
        have := mt (hx1 hv).2 h
        simp [Ne.symm this]
    have hnew : ∀ {n}, x ∉ xs → (lastN n xs).count x = 0 :=
      fun hx => List.count_eq_zero_of_not_mem fun h => hx (List.mem_of_mem_drop h)
    have hlater : ∀ j v, 1 ≤ j → (lefts b1)[j]? = some v →
        cntAt b1 j = (lastN (2 * W) xs ++ [x]).count v := by
      intro j v hj hv
      rw [p6, hcnt hv]
      congr 1
      rcases p7 j v hv with h | ⟨-, rfl, h, h'⟩
      · exact ht.later j v hj h
      · rw [h', hnew h]
    have hfirst : ∀ v, (lefts b1)[0]? = some v → cntAt b1 0 ≤ (lastN (2 * W) xs ++ [x]).count v ∧
        (lastN (2 * W) xs ++ [x]).count v ≤ cntAt b1 0 + min (xs.length - W) W := by
      intro v hv
      rw [p6, hcnt hv]
      rcases p7 0 v hv with h | ⟨-, rfl, h, h'⟩
      · have := ht.first v h; omega
      · rw [h', hnew h]; omega
    have hno : ∀ {b : List (Bin K)}, b.length = b1.length → ¬ h1.numBins < b.length := by
      intro b hb; rw [hc.numBins]; omega
    rcases hs.decay with ⟨g1, g2, g3, w, rfl, g4⟩ | ⟨g1, g2, d, w, g3, g4, g5⟩
    · -- the window is not full
      have hlt : xs.length < W := by omega
      have hb : h.bins = b1 := by
        rcases hs.merge with ⟨-, e⟩ | ⟨g, -⟩
        · rw [e, g2]
        · exact absurd g (hno (by rw [g2]))
      rw [if_neg (hno (by rw [g2])), hq] at g4
      have hl : lastN (2 * W) (xs ++ [x]) = lastN (2 * W) xs ++ [x] := lastN_snoc_lt x (by omega)
      refine ⟨by rw [hb]; exact p1, by rw [hb]; exact p2, by rw [hb]; exact p3, ?_, ?_, ?_⟩
      · rw [g4, hb]; congr 1; simp; omega
      · rw [hb, hl]; exact hlater
      · rw [hb, hl]
        intro v hv
        have := hfirst v hv
        rw [List.length_append, List.length_singleton]; omega
    · have hge : W ≤ xs.length := by omega
      rw [hc.numBins] at g4
      obtain ⟨q1, q2, q3⟩ := lefts_evicted g4 hlen
      have hb2 : b2.length = b1.length := by simpa [lefts] using congrArg List.length q1
      have hb : h.bins = b2 := by
        rcases hs.merge with ⟨-, e⟩ | ⟨g, -⟩
        · exact e
        · exact absurd g (hno hb2)
      rw [if_neg (hno hb2)] at g5
      rw [hq] at g3
      have hd0 : (List.replicate W 0 ++ (xs ++ [x]).map fun v => (lefts b1).idxOf v)[xs.length - W]? = some d := by
        have := congrArg (fun l => l[0]?) g3
        simpa [List.getElem?_drop] using this
      have hw0 : w = (List.replicate W 0 ++ (xs ++ [x]).map fun v => (lefts b1).idxOf v).drop
          ((xs ++ [x]).length - W) := by
        have := congrArg List.tail g3
        rw [List.tail_drop] at this
        rw [List.tail_cons] at this
        rw [← this]; congr 1; simp; omega
      have hzero : xs.length < 2 * W → d = 0 := by
        intro h2
        rw [List.getElem?_append_left (by simp; omega), List.getElem?_replicate, if_pos (by omega)] at hd0
        exact (Option.some.inj hd0).symm
      have hold : 2 * W ≤ xs.length → ∀ y, xs[xs.length - 2 * W]? = some y → d = (lefts b1).idxOf y := by
        intro h2 y hy
        rw [List.getElem?_append_right (by simp; omega), List.length_replicate, List.getElem?_map,
          List.getElem?_append_left (by omega), show xs.length - W - W = xs.length - 2 * W by omega, hy] at hd0
        exact (Option.some.inj hd0).symm
      have hbase : (lefts b2).Pairwise (· < ·) ∧ (∀ v, v ∈ lefts b2 ↔ v ∈ xs ++ [x]) ∧
          (∀ b ∈ b2, b.right = b.left) := by rw [q1]; exact ⟨p1, p2, q3 p3⟩
      refine ⟨by rw [hb]; exact hbase.1, by rw [hb]; exact hbase.2.1, by rw [hb]; exact hbase.2.2,
        by rw [g5, hb, q1]; exact hw0, ?_, ?_⟩ <;> rw [hb, q1]
      all_goals
        rcases Nat.lt_or_ge xs.length (2 * W) with h2 | h2
      · -- bin 0 is taken from
        have hd' := hzero h2
        rw [lastN_snoc_lt x h2]
        intro j v hj hv
        rw [q2, if_neg (by omega), ← hlater j v hj hv]; rfl
      · obtain ⟨y, r, y1, y2, y3⟩ := lastN_snoc_ge x (by omega) h2
        have hd' := hold h2 y y3
        intro j v hj hv
        have := hlater j v hj hv
        rw [y1, List.cons_append, List.count_cons] at this
        rw [q2, y2, this, hd']
        by_cases hjv : j = (lefts b1).idxOf y
        · rw [if_pos hjv, (hat hv y).1 hjv]; simp
        · rw [if_neg hjv]
          have := mt (hat hv y).2 hjv
          simp [Ne.symm this]
      · have hd' := hzero h2
        rw [lastN_snoc_lt x h2]
        intro v hv
        have := hfirst v hv
        rw [q2, if_pos hd'.symm, List.length_append, List.length_singleton]
        omega
      · obtain ⟨y, r, y1, y2, y3⟩ := lastN_snoc_ge x (by omega) h2
        have hd' := hold h2 y y3
        intro v hv
        have := hfirst v hv
        rw [y1, List.cons_append, List.count_cons] at this
        rw [q2, y2, hd', List.length_append, List.length_singleton]
        have hr : (r ++ [x]).count v ≤ 2 * W := by
          refine List.count_le_length.trans ?_
          rw [← y2, lastN_length]; omega
        by_cases hjv : 0 = (lefts b1).idxOf y
        · rw [if_pos hjv]
          rw [(hat hv y).1 hjv] at this ⊢
          simp only [beq_self_eq_true, if_true] at this
          omega
        · rw [if_neg hjv]
          have hne := mt (hat hv y).2 hjv
          rw [if_neg (by simpa using Ne.symm hne)] at this
          omega

end Hist

/-- **C127** (any rounding): if no value arrives below an earlier one for the first time, and there are bins enough for
the values, which the tolerant comparison tells apart, then every bin but the lowest counts its value among the last
`2 W` observations. The lowest counts at most that, and at most `W` less. -/
theorem C127_double_window (R : Rounding K) (numBins W : ℕ) (hW : 1 ≤ W) (xs : List K)
    (hd : distinct xs ≤ numBins) (hm : NewMaxima xs)
    (hsep : ∀ a ∈ xs, ∀ b ∈ xs, a < b →
      Utils.definitelyLessThan R.arith a b (Utils.defaultEps R.arith) = true) :
    ∃ h, updateAll (Hist.update R.arith) (Hist.new numBins W) xs = .ok h ∧
      (h.bins.map Bin.left).Pairwise (· < ·) ∧ (∀ v, (∃ b ∈ h.bins, b.left = v) ↔ v ∈ xs) ∧
      ∀ b ∈ h.bins, b.right = b.left ∧
        ((∃ y ∈ xs, y < b.left) → b.count = (lastN (2 * W) xs).count b.left) ∧
        b.count ≤ (lastN (2 * W) xs).count b.left ∧
        (lastN (2 * W) xs).count b.left ≤ b.count + min (xs.length - W) W := by
  obtain ⟨h, e, -⟩ := Hist.enough_run R numBins W hW xs hd
  have hl := Hist.Late.run hW hd hm hsep e
  refine ⟨h, e, hl.sorted, fun v => ?_, fun b hb => ⟨hl.point b hb, ?_⟩⟩
  · rw [← hl.mem v]; simp [Hist.lefts]
  · obtain ⟨j, hj, rfl⟩ := List.mem_iff_getElem.1 hb
    have hget : (Hist.lefts h.bins)[j]? = some h.bins[j].left := by simp [Hist.lefts, hj]
    have hcnt : Hist.cntAt h.bins j = h.bins[j].count := by simp [Hist.cntAt, hj]
    rcases Nat.eq_zero_or_pos j with rfl | hpos
    · have := hl.first _ hget
      rw [hcnt] at this
      refine ⟨?_, this.1, this.2⟩
      rintro ⟨y, hy, hlt⟩
      exfalso
      obtain ⟨k, hk, rfl⟩ := List.mem_iff_getElem.1 ((hl.mem y).2 hy)
      have h0 : (Hist.lefts h.bins)[0]'(by omega) = h.bins[0].left := by simp [Hist.lefts]
      rcases Nat.eq_zero_or_pos k with rfl | hk0
      · rw [h0] at hlt; exact hlt.false
      · have := List.pairwise_iff_getElem.1 hl.sorted 0 k (by omega) hk hk0
        rw [h0] at this
        exact (hlt.trans this).false
    · have := hl.later j _ hpos hget
      rw [hcnt] at this
      exact ⟨fun _ => this, by omega, by omega⟩

theorem sum_count {L M : List K} (hL : L.Nodup) (h : ∀ v ∈ M, v ∈ L) : (L.map fun v => M.count v).sum = M.length := by
  induction M with
  | nil => simp
  | cons a M ih =>
    have h1 : ∀ L' : List K, (L'.map fun v => (a :: M).count v).sum =
        (L'.map fun v => M.count v).sum + L'.count a := by
      intro L'
      induction L' with
      | nil => rfl
      | cons b L' ih' =>
        rw [List.map_cons, List.sum_cons, ih', List.map_cons, List.sum_cons, List.count_cons, List.count_cons]
        by_cases hab : a = b
        · subst hab; simp; omega
        · simp [hab, Ne.symm hab]; omega
    rw [h1, ih fun v hv => h v (List.mem_cons_of_mem _ hv),
      List.count_eq_one_of_mem hL (h a List.mem_cons_self), List.length_cons]

/-- **C127** (any rounding): if the smallest value does not occur among the last `2 W` observations, the non-empty bins
are the frequency table of these; the counts add up to twice the total count `W`, and `binCounts()` throws. -/
theorem C127_without_minimum (R : Rounding K) (numBins W : ℕ) (hW : 1 ≤ W) (xs : List K)
    (hd : distinct xs ≤ numBins) (hm : NewMaxima xs)
    (hsep : ∀ a ∈ xs, ∀ b ∈ xs, a < b →
      Utils.definitelyLessThan R.arith a b (Utils.defaultEps R.arith) = true)
    (hlong : 2 * W ≤ xs.length) (m : K) (hmem : m ∈ xs) (hmin : ∀ y ∈ xs, m ≤ y) (hout : m ∉ lastN (2 * W) xs) :
    ∃ h, updateAll (Hist.update R.arith) (Hist.new numBins W) xs = .ok h ∧
      IsFreqTable ((h.bins.filter fun b => b.count ≠ 0).map fun b => (b.left, b.count)) (lastN (2 * W) xs) ∧
      (h.bins.map Bin.count).sum = 2 * W ∧ h.total = W ∧
      h.binCounts = .throw "Counts are somehow out of sync!" := by
  obtain ⟨h, e, h1, h2, h3⟩ := C127_double_window R numBins W hW xs hd hm hsep
  have hcount : ∀ b ∈ h.bins, b.count = (lastN (2 * W) xs).count b.left := by
    intro b hb
    obtain ⟨-, g1, g2, -⟩ := h3 b hb
    rcases (hmin _ ((h2 b.left).1 ⟨b, hb, rfl⟩)).lt_or_eq with hlt | he
    · exact g1 ⟨m, hmem, hlt⟩
    · rw [← he, List.count_eq_zero_of_not_mem hout] at g2
      rw [← he, List.count_eq_zero_of_not_mem hout]; omega
  have hlast : ∀ v ∈ lastN (2 * W) xs, ∃ b ∈ h.bins, b.left = v := fun v hv => (h2 v).2 (List.mem_of_mem_drop hv)
  have hsum : (h.bins.map Bin.count).sum = 2 * W := by
    have e1 : h.bins.map Bin.count = (h.bins.map Bin.left).map fun v => (lastN (2 * W) xs).count v := by
      rw [List.map_map]; exact List.map_congr_left hcount
    rw [e1, sum_count (h1.imp fun h => h.ne) fun v hv => by
      obtain ⟨b, hb, rfl⟩ := hlast v hv; exact List.mem_map_of_mem hb, lastN_length]
    omega
  have htot : h.total = W := by
    rw [(Hist.Counts.run e).total]; omega
  refine ⟨h, e, ⟨?_, fun v c => ⟨?_, ?_⟩⟩, hsum, htot, ?_⟩
  · rw [List.map_map]
    refine List.Pairwise.sublist (List.Sublist.map _ List.filter_sublist) h1
  · intro hv
    obtain ⟨b, hb, hbe⟩ := List.mem_map.1 hv
    injection hbe with g1 g2
    subst g1 g2
    obtain ⟨hb, hb0⟩ := List.mem_filter.1 hb
    refine ⟨?_, hcount b hb⟩
    by_contra hc
    rw [hcount b hb, List.count_eq_zero_of_not_mem hc] at hb0
    simp at hb0
  · rintro ⟨hv, rfl⟩
    obtain ⟨b, hb, rfl⟩ := hlast v hv
    refine List.mem_map.2 ⟨b, List.mem_filter.2 ⟨hb, ?_⟩, by rw [hcount b hb]⟩
    have := List.count_pos_iff.2 hv
    rw [hcount b hb]; simp; omega
  · unfold Hist.binCounts
    simp only
    rw [if_pos (by rw [hsum, htot]; omega)]

/-- **C127** (exact arithmetic): values separated by more than the relative tolerance 0.0001. -/
theorem C127_exact (numBins W : ℕ) (hW : 1 ≤ W) (xs : List K) (hd : distinct xs ≤ numBins) (hm : NewMaxima xs)
    (hsep : Separated (1 / 10000 : K) xs) :
    ∃ h, updateAll (Hist.update (exact K)) (Hist.new numBins W) xs = .ok h ∧
      ∀ b ∈ h.bins, (∃ y ∈ xs, y < b.left) → b.count = (lastN (2 * W) xs).count b.left := by
  obtain ⟨h, e, -, -, h3⟩ := C127_double_window Rounding.none numBins W hW xs hd hm fun a ha b hb hab => by
    have he : Utils.defaultEps (Rounding.none (K := K)).arith = 1 / 10000 := by
      simp [Utils.defaultEps, Rounding.none, Rounding.arith]
    rw [he]
    exact (less_exact a b _).2 (by have := hsep a ha b hb hab; rwa [mul_comm])
  exact ⟨h, e, fun b hb => (h3 b hb).2.1⟩

/-- Eleven observations, window two: 2 and 3 are counted among the last four. -/
example : NewMaxima [(1 : ℚ), 1, 2, 1, 2, 3, 1, 2, 3, 3, 2] ∧
    Separated (1 / 10000) [(1 : ℚ), 1, 2, 1, 2, 3, 1, 2, 3, 3, 2] ∧
    (do
      let h ← updateAll (Hist.update (exact ℚ)) (Hist.new 3 2) [1, 1, 2, 1, 2, 3, 1, 2, 3, 3, 2]
      .ok (h.bins, h.total)) = .ok ([⟨1, 1, 0⟩, ⟨2, 2, 2⟩, ⟨3, 3, 2⟩], 2) := by
  refine ⟨newMaxima_of_decide _ (by decide +kernel), by unfold Separated; decide +kernel, by decide +kernel⟩

/-- The hypotheses of `C127_without_minimum` on doubles: 1 is seen once, then 2 and 3, window two. -/
example : ∃ h, updateAll (Hist.update b64) (Hist.new 3 2) [1, 2, 3, 2, 2, 3] = .ok h ∧
    (h.bins.map Bin.count).sum = 4 ∧ h.total = 2 ∧ h.binCounts = .throw "Counts are somehow out of sync!" := by
  rw [b64_eq]
  obtain ⟨h, e, -, h1, h2, h3⟩ := C127_without_minimum R64 3 2 (by norm_num) [1, 2, 3, 2, 2, 3] (by decide +kernel)
    (newMaxima_of_decide _ (by decide +kernel)) (by decide +kernel) (by decide) 1 (by simp) (by decide +kernel)
    (by decide +kernel)
  exact ⟨h, e, h1, h2, h3⟩

end Round

end KML
