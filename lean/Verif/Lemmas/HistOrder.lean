import Verif.Lemmas.Histogram
import Verif.Spec.Histogram

/-! # Order of the bins, under any rounding -/

set_option linter.unusedSectionVars false

namespace KML

open Spec

namespace Hist

variable {K : Type} [Field K] [LinearOrder K] [IsStrictOrderedRing K] [FloorRing K]

theorem eps_nonneg (R : Rounding K) : 0 ≤ Utils.defaultEps R.arith ∧ 0 ≤ Utils.plusEps R.arith := by
  constructor
  · exact R.rnd_nonneg (by norm_num)
  · exact R.rnd_nonneg (by norm_num)

theorem dlt_lt {R : Rounding K} {a b e : K} (he : 0 ≤ e)
    (h : Utils.definitelyLessThan R.arith a b e = true) : a < b := by
  rw [less_iff] at h
  by_contra hn
  have h1 := tol_nonneg R a b e he
  have h2 : R.rnd (b - a) ≤ 0 := by
    have := R.mono (show b - a ≤ 0 by linarith)
    rwa [R.rnd_zero] at this
  linarith

theorem dgt_gt {R : Rounding K} {a b e : K} (he : 0 ≤ e)
    (h : Utils.definitelyGreaterThan R.arith a b e = true) : b < a := by
  rw [greater_iff] at h
  by_contra hn
  have h1 := tol_nonneg R a b e he
  have h2 : R.rnd (a - b) ≤ 0 := by
    have := R.mono (show a - b ≤ 0 by linarith)
    rwa [R.rnd_zero] at this
  linarith

theorem binLt_lt {R : Rounding K} {b : Bin K} {x : K} (h : Bin.lt R.arith b (unit x) = true) : b.left < x :=
  dlt_lt (eps_nonneg R).1 h

theorem le_decide (R : Rounding K) (a b : K) : R.arith.le a b = decide (a ≤ b) := rfl

/-- Left edges strictly increase, no bin is inverted, and every edge is an observation. -/
structure Ordered (xs : List K) (l : List (Bin K)) : Prop where
  sorted : l.Pairwise (fun a b => a.left < b.left)
  le : ∀ b ∈ l, b.left ≤ b.right
  mem : ∀ b ∈ l, b.left ∈ xs ∧ b.right ∈ xs

theorem Ordered.mono {xs ys : List K} {l : List (Bin K)} (h : Ordered xs l) (hs : ∀ x ∈ xs, x ∈ ys) :
    Ordered ys l :=
  ⟨h.sorted, h.le, fun b hb => ⟨hs _ (h.mem b hb).1, hs _ (h.mem b hb).2⟩⟩

theorem Ordered.nil {xs : List K} : Ordered xs [] := ⟨List.Pairwise.nil, by simp, by simp⟩

theorem lt_of_last {l : List (Bin K)} {x : K} (hs : l.Pairwise (fun a b => a.left < b.left))
    (h : ∀ b, l.getLast? = some b → b.left < x) : ∀ b ∈ l, b.left < x := by
  rcases List.eq_nil_or_concat l with rfl | ⟨l', c, rfl⟩
  · simp
  · rw [List.concat_eq_append] at *
    have hc := h c (by simp)
    intro b hb
    rcases List.mem_append.1 hb with hb | hb
    · rw [List.pairwise_append] at hs
      exact (hs.2.2 b hb c (by simp)).trans hc
    · simp at hb; rw [hb]; exact hc

theorem Ordered.placed {R : Rounding K} {xs : List K} {x : K} {t0 : Prop} {i : ℕ} {l l' : List (Bin K)}
    (h : Ordered xs l) (h0 : t0 → l = []) (hp : Placed R.arith x t0 i l l') : Ordered (xs ++ [x]) l' := by
  have h' : Ordered (xs ++ [x]) l := h.mono (by simp +contextual)
  cases hp with
  | push _ _ hi hc =>
    have hall : ∀ b ∈ l, b.left < x := by
      rcases hc with hc | ⟨-, hc⟩
      · rw [h0 hc]; simp
      · exact lt_of_last h.sorted fun b hb => binLt_lt (hc b hb)
    refine ⟨?_, ?_, ?_⟩
    · rw [List.pairwise_append]
      exact ⟨h.sorted, List.pairwise_singleton _ _, fun a ha b hb => by simp at hb; rw [hb]; exact hall a ha⟩
    · intro b hb
      rcases List.mem_append.1 hb with hb | hb
      · exact h.le b hb
      · simp at hb; rw [hb]
    · intro b hb
      rcases List.mem_append.1 hb with hb | hb
      · exact h'.mem b hb
      · simp at hb; rw [hb]; simp
  | inc l1 l2 b h1 h2 h3 =>
    refine ⟨?_, ?_, ?_⟩
    · have := h.sorted
      simp only [List.pairwise_append, List.pairwise_cons, List.mem_cons, forall_eq_or_imp] at this ⊢
      exact this
    · have := h.le
      simp only [List.mem_append, List.mem_cons] at this ⊢
      rintro c (hc | rfl | hc)
      · exact this c (Or.inl hc)
      · exact this b (Or.inr (Or.inl rfl))
      · exact this c (Or.inr (Or.inr hc))
    · have := h'.mem
      intro c hc
      rcases List.mem_append.1 hc with hc | hc
      · exact this c (List.mem_append.2 (Or.inl hc))
      · rcases List.mem_cons.1 hc with rfl | hc
        · exact this b (by simp)
        · exact this c (by simp [hc])
  | insert l1 l2 b h1 h2 h3 =>
    have hb : x < b.left := by rw [le_decide] at h3; simpa using h3
    have hs := h.sorted
    rw [List.pairwise_append] at hs
    have hall : ∀ a ∈ l1, a.left < x := lt_of_last hs.1 fun a ha => binLt_lt (h1 a ha)
    refine ⟨?_, ?_, ?_⟩
    · simp only [List.pairwise_append, List.pairwise_cons, List.mem_cons, forall_eq_or_imp] at hs ⊢
      refine ⟨hs.1, ⟨⟨hb, fun a ha => hb.trans (hs.2.1.1 a ha)⟩, hs.2.1⟩, fun a ha => ⟨hall a ha, hs.2.2 a ha⟩⟩
    · have := h.le
      intro c hc
      rcases List.mem_append.1 hc with hc | hc
      · exact this c (by simp [hc])
      · rcases List.mem_cons.1 hc with rfl | hc
        · exact le_rfl
        · exact this c (by simp [List.mem_cons.1 hc])
    · have := h'.mem
      intro c hc
      rcases List.mem_append.1 hc with hc | hc
      · exact this c (by simp [hc])
      · rcases List.mem_cons.1 hc with rfl | hc
        · simp
        · exact this c (by simp [List.mem_cons.1 hc])

/-- Replacing one bin by another with the same edges. -/
theorem Ordered.replace {xs : List K} {l1 l2 : List (Bin K)} {b c : Bin K} (h : Ordered xs (l1 ++ b :: l2))
    (hl : c.left = b.left) (hr : c.left ≤ c.right) (hm : c.right ∈ xs) : Ordered xs (l1 ++ c :: l2) := by
  refine ⟨?_, ?_, ?_⟩
  · have := h.sorted
    simp only [List.pairwise_append, List.pairwise_cons, List.mem_cons, forall_eq_or_imp, hl] at this ⊢
    exact this
  · have := h.le
    intro d hd
    rcases List.mem_append.1 hd with hd | hd
    · exact this d (by simp [hd])
    · rcases List.mem_cons.1 hd with rfl | hd
      · exact hr
      · exact this d (by simp [hd])
  · have := h.mem
    intro d hd
    rcases List.mem_append.1 hd with hd | hd
    · exact this d (by simp [hd])
    · rcases List.mem_cons.1 hd with rfl | hd
      · exact ⟨hl ▸ (this b (by simp)).1, hm⟩
      · exact this d (by simp [hd])

theorem Ordered.sublist {xs : List K} {l l' : List (Bin K)} (h : Ordered xs l) (hs : l'.Sublist l) :
    Ordered xs l' :=
  ⟨h.sorted.sublist hs, fun b hb => h.le b (hs.subset hb), fun b hb => h.mem b (hs.subset hb)⟩

theorem Ordered.evicted {xs : List K} {n i : ℕ} {l l' : List (Bin K)} (h : Ordered xs l)
    (he : Evicted n i l l') : Ordered xs l' := by
  cases he with
  | keep l1 l2 b hc =>
    obtain ⟨e1, e2⟩ := decBin_left b
    exact h.replace e1 (by rw [e1, e2]; exact h.le b (by simp)) (by rw [e2]; exact (h.mem b (by simp)).2)
  | erase l1 l2 b h1 h2 => exact h.sublist (by simp)

theorem Ordered.merged {R : Rounding K} {xs : List K} {i : ℕ} {l l' : List (Bin K)} (h : Ordered xs l)
    (hm : Merged R.arith i l l') : Ordered xs l' := by
  cases hm with
  | mk l1 l2 a b =>
    have hab : a.left < b.left := by
      have := h.sorted
      simp only [List.pairwise_append, List.pairwise_cons, List.mem_cons, forall_eq_or_imp] at this
      exact this.2.1.1.1
    have hl : (Bin.add R.arith a b).left = a.left := by
      simp only [Bin.add]
      rw [if_neg]
      intro hd
      exact absurd (dlt_lt (eps_nonneg R).2 hd) (not_lt.2 hab.le)
    have h1 : Ordered xs (l1 ++ a :: l2) := h.sublist (by simp)
    have hr : (Bin.add R.arith a b).right = a.right ∨ (Bin.add R.arith a b).right = b.right := by
      simp only [Bin.add]; split <;> simp
    have ha := h.le a (by simp)
    have hb := h.le b (by simp)
    refine h1.replace hl ?_ ?_
    · rcases hr with hr | hr <;> rw [hl, hr]
      · exact ha
      · exact hab.le.trans hb
    · rcases hr with hr | hr <;> rw [hr]
      · exact (h.mem a (by simp)).2
      · exact (h.mem b (by simp)).2

/-- The bins are no more than the distinct observations. -/
theorem Ordered.length_le {xs : List K} {l : List (Bin K)} (h : Ordered xs l) : l.length ≤ distinct xs := by
  have hn : (l.map Bin.left).Nodup := by
    rw [List.nodup_iff_pairwise_ne, List.pairwise_map]
    exact h.sorted.imp fun hab => hab.ne
  have hsub : l.map Bin.left ⊆ xs.dedup := by
    intro v hv
    obtain ⟨b, hb, rfl⟩ := List.mem_map.1 hv
    exact List.mem_dedup.2 (h.mem b hb).1
  have := (hn.subperm hsub).length_le
  simpa [distinct] using this

theorem distinct_mono {xs ys : List K} (h : ∀ x ∈ xs, x ∈ ys) : distinct xs ≤ distinct ys :=
  ((List.nodup_dedup xs).subperm (fun v hv => List.mem_dedup.2 (h v (List.mem_dedup.1 hv)))).length_le

/-! ### Observations below a bin -/

/-- `s` plus the counts before each bin bounds the observations below its left edge. -/
def Below (xs : List K) : ℕ → List (Bin K) → Prop
  | _, [] => True
  | s, b :: l => below xs b.left ≤ s ∧ Below xs (s + b.count) l

theorem below_append (xs : List K) (s : ℕ) (l1 l2 : List (Bin K)) :
    Below xs s (l1 ++ l2) ↔ Below xs s l1 ∧ Below xs (s + sumCounts l1) l2 := by
  induction l1 generalizing s with
  | nil => simp [Below, sumCounts_nil]
  | cons b l ih => simp only [List.cons_append, Below, ih, sumCounts_cons, and_assoc, Nat.add_assoc]

theorem below_snoc (xs : List K) (x v : K) :
    below (xs ++ [x]) v = below xs v + if x < v then 1 else 0 := by
  simp only [below, List.filter_append, List.length_append]
  congr 1
  by_cases h : x < v <;> simp [h]

theorem Below.le {xs : List K} {x : K} {s : ℕ} {l : List (Bin K)} (h : Below xs s l)
    (hx : ∀ b ∈ l, b.left ≤ x) : Below (xs ++ [x]) s l := by
  induction l generalizing s with
  | nil => trivial
  | cons b l ih =>
    refine ⟨?_, ih h.2 fun c hc => hx c (by simp [hc])⟩
    rw [below_snoc, if_neg (not_lt.2 (hx b (by simp)))]
    exact h.1

theorem Below.shift {xs : List K} {x : K} {s : ℕ} {l : List (Bin K)} (h : Below xs s l) :
    Below (xs ++ [x]) (s + 1) l := by
  induction l generalizing s with
  | nil => trivial
  | cons b l ih =>
    refine ⟨?_, ?_⟩
    · rw [below_snoc]
      have := h.1
      split <;> omega
    · have := ih h.2
      rwa [Nat.add_right_comm] at this

theorem below_le (xs : List K) (v : K) : below xs v ≤ xs.length := List.length_filter_le _ _

theorem below_mono {xs : List K} {v w : K} (h : v ≤ w) : below xs v ≤ below xs w := by
  induction xs with
  | nil => simp [below]
  | cons x xs ih =>
    simp only [below, List.filter_cons] at ih ⊢
    by_cases h1 : x < v
    · simp [h1, h1.trans_le h, ih]
    · by_cases h2 : x < w
      · simp [h1, h2]; omega
      · simp [h1, h2, ih]

theorem Below.placed {R : Rounding K} {xs : List K} {x : K} {t0 : Prop} {i : ℕ} {l l' : List (Bin K)}
    (ho : Ordered xs l) (h : Below xs 0 l) (hsum : sumCounts l = xs.length) (h0 : t0 → l = [])
    (hp : Placed R.arith x t0 i l l') : Below (xs ++ [x]) 0 l' := by
  cases hp with
  | push _ _ hi hc =>
    have hall : ∀ b ∈ l, b.left < x := by
      rcases hc with hc | ⟨-, hc⟩
      · rw [h0 hc]; simp
      · exact lt_of_last ho.sorted fun b hb => binLt_lt (hc b hb)
    rw [below_append]
    refine ⟨h.le fun b hb => (hall b hb).le, ?_, trivial⟩
    rw [below_snoc, if_neg (lt_irrefl _), hsum]
    have := below_le xs x
    simpa using this
  | inc l1 l2 b h1 h2 h3 =>
    have hb : b.left ≤ x := by rw [le_decide] at h3; simpa using h3
    have hs := ho.sorted
    simp only [List.pairwise_append, List.pairwise_cons, List.mem_cons, forall_eq_or_imp] at hs
    rw [below_append] at h ⊢
    refine ⟨h.1.le fun a ha => ((hs.2.2 a ha).1.le).trans hb, ?_⟩
    obtain ⟨-, h5, h6⟩ := h
    refine ⟨?_, ?_⟩
    · simp only
      rw [below_snoc, if_neg (not_lt.2 hb)]; exact h5
    · have := h6.shift (x := x)
      simp only
      rwa [← Nat.add_assoc]
  | insert l1 l2 b h1 h2 h3 =>
    have hb : x < b.left := by rw [le_decide] at h3; simpa using h3
    have hs := ho.sorted
    rw [List.pairwise_append] at hs
    have hall : ∀ a ∈ l1, a.left < x := lt_of_last hs.1 fun a ha => binLt_lt (h1 a ha)
    rw [below_append] at h ⊢
    refine ⟨h.1.le fun a ha => (hall a ha).le, ?_⟩
    refine ⟨?_, ?_⟩
    · rw [below_snoc, if_neg (lt_irrefl _)]
      exact (below_mono hb.le).trans h.2.1
    · exact h.2.shift

theorem Below.merged {R : Rounding K} {xs : List K} {i : ℕ} {l l' : List (Bin K)} (ho : Ordered xs l)
    (h : Below xs 0 l) (hm : Merged R.arith i l l') : Below xs 0 l' := by
  have ho' := ho.merged hm
  cases hm with
  | mk l1 l2 a b =>
    have hab : a.left < b.left := by
      have := ho.sorted
      simp only [List.pairwise_append, List.pairwise_cons, List.mem_cons, forall_eq_or_imp] at this
      exact this.2.1.1.1
    have hl : (Bin.add R.arith a b).left = a.left := by
      simp only [Bin.add]
      rw [if_neg]
      intro hd
      exact absurd (dlt_lt (eps_nonneg R).2 hd) (not_lt.2 hab.le)
    rw [below_append] at h ⊢
    obtain ⟨h1, h2, h3, h4⟩ := h
    refine ⟨h1, by rw [hl]; exact h2, ?_⟩
    simpa [Bin.add, Nat.add_assoc] using h4

theorem Below.get {xs : List K} {s : ℕ} {l : List (Bin K)} (h : Below xs s l) {i : ℕ} {b : Bin K}
    (hb : l[i]? = some b) : below xs b.left ≤ s + ((l.take i).map Bin.count).sum := by
  induction l generalizing s i with
  | nil => simp at hb
  | cons c l ih =>
    cases i with
    | zero => simp at hb; subst hb; simpa using h.1
    | succ i =>
      have := ih h.2 (by simpa using hb)
      simpa [Nat.add_assoc] using this

/-! ### Frequency tables -/

/-- One bin per value, with its multiplicity. -/
structure Table (xs : List K) (l : List (Bin K)) : Prop where
  ord : Ordered xs l
  point : ∀ b ∈ l, b.right = b.left ∧ b.count = xs.count b.left
  all : ∀ v ∈ xs, ∃ b ∈ l, b.left = v

theorem Table.placed {R : Rounding K} {xs : List K} {x : K} {t0 : Prop} {i : ℕ} {l l' : List (Bin K)}
    (h : Table xs l) (h0 : t0 → l = [])
    (hsep : ∀ b ∈ l, b.left < x → Bin.lt R.arith b (unit x) = true)
    (hp : Placed R.arith x t0 i l l') : Table (xs ++ [x]) l' := by
  have ho := h.ord.placed h0 hp
  have hcnt : ∀ v, v ≠ x → (xs ++ [x]).count v = xs.count v := by
    intro v hv
    simp [List.count_append, hv.symm]
  have hx0 : (∀ b ∈ l, b.left ≠ x) → (xs ++ [x]).count x = 1 := by
    intro hb
    have : x ∉ xs := fun hx => by obtain ⟨b, hb1, hb2⟩ := h.all x hx; exact hb b hb1 hb2
    simp [List.count_append, List.count_eq_zero_of_not_mem this]
  refine ⟨ho, ?_, ?_⟩
  · cases hp with
    | push _ _ hi hc =>
      have hall : ∀ b ∈ l, b.left < x := by
        rcases hc with hc | ⟨-, hc⟩
        · rw [h0 hc]; simp
        · exact lt_of_last h.ord.sorted fun b hb => binLt_lt (hc b hb)
      intro b hb
      rcases List.mem_append.1 hb with hb | hb
      · rw [hcnt _ (hall b hb).ne]; exact h.point b hb
      · simp at hb; subst hb
        exact ⟨rfl, (hx0 fun b hb => (hall b hb).ne).symm⟩
    | inc l1 l2 b h1 h2 h3 =>
      have hb : b.left ≤ x := by rw [le_decide] at h3; simpa using h3
      have hbx : b.left = x := by
        rcases hb.lt_or_eq with hlt | he
        · rw [hsep b (by simp) hlt] at h2; cases h2
        · exact he
      have hs := h.ord.sorted
      simp only [List.pairwise_append, List.pairwise_cons, List.mem_cons, forall_eq_or_imp] at hs
      intro c hc
      rcases List.mem_append.1 hc with hc | hc
      · rw [hcnt _ (by rw [← hbx]; exact (hs.2.2 c hc).1.ne)]; exact h.point c (by simp [hc])
      · rcases List.mem_cons.1 hc with rfl | hc
        · have := h.point b (by simp)
          refine ⟨this.1, ?_⟩
          simp only
          rw [this.2, hbx]
          simp [List.count_append]
        · rw [hcnt _ (by rw [← hbx]; exact (hs.2.1.1 c hc).ne')]; exact h.point c (by simp [hc])
    | insert l1 l2 b h1 h2 h3 =>
      have hb : x < b.left := by rw [le_decide] at h3; simpa using h3
      have hs := h.ord.sorted
      simp only [List.pairwise_append, List.pairwise_cons, List.mem_cons, forall_eq_or_imp] at hs
      have hall : ∀ a ∈ l1, a.left < x := lt_of_last hs.1 fun a ha => binLt_lt (h1 a ha)
      have hne : ∀ c ∈ l1 ++ b :: l2, c.left ≠ x := by
        intro c hc
        rcases List.mem_append.1 hc with hc | hc
        · exact (hall c hc).ne
        · rcases List.mem_cons.1 hc with rfl | hc
          · exact hb.ne'
          · exact (hb.trans (hs.2.1.1 c hc)).ne'
      intro c hc
      rcases List.mem_append.1 hc with hc | hc
      · rw [hcnt _ (hall c hc).ne]; exact h.point c (by simp [hc])
      · rcases List.mem_cons.1 hc with rfl | hc
        · exact ⟨rfl, (hx0 hne).symm⟩
        · have hc' : c ∈ l1 ++ b :: l2 := by simp [List.mem_cons.1 hc]
          rw [hcnt _ (hne c hc')]; exact h.point c hc'
  · intro v hv
    have key : (∃ b ∈ l', b.left = x) ∧ ∀ b ∈ l, ∃ c ∈ l', c.left = b.left := by
      cases hp with
      | push _ _ hi hc => exact ⟨⟨unit x, by simp, rfl⟩, fun b hb => ⟨b, by simp [hb], rfl⟩⟩
      | inc l1 l2 b h1 h2 h3 =>
        have hb : b.left ≤ x := by rw [le_decide] at h3; simpa using h3
        have hbx : b.left = x := by
          rcases hb.lt_or_eq with hlt | he
          · rw [hsep b (by simp) hlt] at h2; cases h2
          · exact he
        refine ⟨⟨{ b with count := b.count + 1 }, by simp, hbx⟩, fun c hc => ?_⟩
        rcases List.mem_append.1 hc with hc | hc
        · exact ⟨c, by simp [hc], rfl⟩
        · rcases List.mem_cons.1 hc with rfl | hc
          · exact ⟨{ c with count := c.count + 1 }, by simp, rfl⟩
          · exact ⟨c, by simp [hc], rfl⟩
      | insert l1 l2 b h1 h2 h3 =>
        refine ⟨⟨unit x, by simp, rfl⟩, fun c hc => ⟨c, ?_, rfl⟩⟩
        rcases List.mem_append.1 hc with hc | hc
        · simp [hc]
        · simp [List.mem_cons.1 hc]
    rcases List.mem_append.1 hv with hv | hv
    · obtain ⟨b, hb, rfl⟩ := h.all v hv
      exact key.2 b hb
    · simp at hv; subst hv; exact key.1

end Hist

end KML
