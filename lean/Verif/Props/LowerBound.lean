import Verif.Model.LowerBound
import Verif.Props.EntropyPython
import Verif.Props.DoubleQueries

/-!
# C108: the search in `quantile`
-/

namespace KML

variable {F : Type} {A : Arith F}

/-- The precondition of `std::lower_bound(first, last, q)`: the elements less than `q` come first. -/
def Partitioned (A : Arith F) (xs : List F) (q : F) : Prop := xs.Pairwise fun a b => A.lt b q = true → A.lt a q = true

/-- What the standard promises: the furthermost position such that all elements before it are less than `q`. -/
def IsLowerBound (A : Arith F) (xs : List F) (q : F) (i : ℕ) : Prop :=
  i ≤ xs.length ∧ (∀ x ∈ xs.take i, A.lt x q = true) ∧ ∀ j ≤ xs.length, (∀ x ∈ xs.take j, A.lt x q = true) → j ≤ i

namespace Hist

theorem isLowerBound_unique {xs : List F} {q : F} {i j : ℕ} (hi : IsLowerBound A xs q i) (hj : IsLowerBound A xs q j) :
    i = j := le_antisymm (hj.2.2 i hi.1 hi.2.1) (hi.2.2 j hj.1 hj.2.1)

theorem lowerBound_isLowerBound (xs : List F) (q : F) : IsLowerBound A xs q (lowerBound A xs q) := by
  unfold lowerBound
  have hpre : xs.takeWhile (fun x => A.lt x q) <+: xs := List.takeWhile_prefix _
  refine ⟨hpre.length_le, ?_, ?_⟩
  · intro x hx
    rw [← List.prefix_iff_eq_take.1 hpre] at hx
    have := List.all_takeWhile (p := fun x => A.lt x q) (l := xs)
    exact List.all_eq_true.1 this x hx
  · intro j hj hall
    by_contra hlt
    push Not at hlt
    obtain ⟨h1, -⟩ := lowerBound_dbl A xs q
    have hl : lowerBound A xs q < xs.length := lt_of_lt_of_le hlt hj
    have h2 := h1 xs[lowerBound A xs q] (List.getElem?_eq_getElem hl)
    have : xs[lowerBound A xs q] ∈ xs.take j := by
      rw [List.mem_take_iff_getElem]
      exact ⟨_, by unfold lowerBound at *; omega, rfl⟩
    rw [hall _ this] at h2
    cases h2

theorem lowerBoundLoop_spec {xs : List F} {q : F} (hp : Partitioned A xs q) (fuel : ℕ) : ∀ first len, len ≤ fuel →
    first + len ≤ xs.length → (∀ x ∈ xs.take first, A.lt x q = true) → (∀ x ∈ xs.drop (first + len), A.lt x q = false) →
    ∃ i, lowerBoundLoop A xs q fuel first len = .ok i ∧ i ≤ xs.length ∧ (∀ x ∈ xs.take i, A.lt x q = true) ∧
      ∀ x ∈ xs.drop i, A.lt x q = false := by
  have hmono : ∀ (i j : ℕ) (hi : i < xs.length) (hj : j < xs.length), i ≤ j → A.lt xs[j] q = true → A.lt xs[i] q = true := by
    intro i j hi hj hij h
    rcases hij.eq_or_lt with rfl | hij
    · exact h
    · exact List.pairwise_iff_getElem.1 hp i j hi hj hij h
  induction fuel with
  | zero =>
    intro first len h1 h2 h3 h4
    obtain rfl : len = 0 := by omega
    exact ⟨first, rfl, by omega, h3, by simpa using h4⟩
  | succ fuel ih =>
    intro first len h1 h2 h3 h4
    unfold lowerBoundLoop
    by_cases hl : 0 < len
    · rw [if_pos hl]
      have hlt : first + len / 2 < xs.length := by omega
      simp only [List.getElem?_eq_getElem hlt]
      by_cases hx : A.lt xs[first + len / 2] q = true
      · rw [if_pos hx]
        refine ih _ _ (by omega) (by omega) ?_ ?_
        · intro x hm
          obtain ⟨k, hk, rfl⟩ := List.mem_take_iff_getElem.1 hm
          exact hmono k _ (by omega) hlt (by omega) hx
        · rw [show first + len / 2 + 1 + (len - len / 2 - 1) = first + len by omega]
          exact h4
      · rw [if_neg hx]
        refine ih _ _ (by omega) (by omega) h3 ?_
        intro x hm
        obtain ⟨k, hk, rfl⟩ := List.mem_drop_iff_getElem.1 hm
        by_contra hc
        exact hx (hmono _ (first + len / 2 + k) hlt (by omega) (by omega) (by simpa using hc))
    · rw [if_neg hl]
      obtain rfl : len = 0 := by omega
      exact ⟨first, rfl, by omega, h3, by simpa using h4⟩

end Hist

/-- **C108**, the search (any arithmetic, any range): where the precondition holds, the loop ends without leaving the range, at
the position the standard promises, which is the one used in the model. -/
theorem C108_search (A : Arith F) (xs : List F) (q : F) (hp : Partitioned A xs q) :
    ∃ i, Hist.lowerBoundStd A xs q = .ok i ∧ IsLowerBound A xs q i ∧ i = Hist.lowerBound A xs q := by
  obtain ⟨i, h1, h2, h3, h4⟩ := Hist.lowerBoundLoop_spec hp xs.length 0 xs.length le_rfl (by omega) (by simp) (by simp)
  have hi : IsLowerBound A xs q i := by
    refine ⟨h2, h3, fun j hj hall => ?_⟩
    by_contra hlt
    push Not at hlt
    have hl : i < xs.length := by omega
    have e1 := h4 xs[i] (List.mem_drop_iff_getElem.2 ⟨0, by omega, by simp⟩)
    have e2 := hall xs[i] (List.mem_take_iff_getElem.2 ⟨i, by omega, rfl⟩)
    rw [e1] at e2
    cases e2
  exact ⟨i, h1, hi, Hist.isLowerBound_unique hi (Hist.lowerBound_isLowerBound xs q)⟩

namespace Dbl

/-- A finite value is a double. -/
def Rounded (d : Dbl) : Prop := ∀ x, d = .fin x → rnd64 x = x

theorem ofRat_rounded (x : ℚ) : (ofRat x).Rounded := by
  intro y hy
  unfold ofRat at hy
  simp only at hy
  split at hy
  · cases hy
  · injection hy with hy
    rw [← hy, rnd64_idem]

theorem add_rounded {a b : Dbl} : (add a b).Rounded := by
  rcases a with _ | s | a <;> rcases b with _ | t | b
  case fin.fin => exact ofRat_rounded _
  all_goals
    intro y hy
    simp only [add] at hy
    try split at hy
    all_goals cases hy

theorem div_rounded {a b : Dbl} : (div a b).Rounded := by
  rcases a with _ | s | a <;> rcases b with _ | t | b
  case fin.fin =>
    simp only [div]
    split
    · split <;> intro y hy <;> cases hy
    · exact ofRat_rounded _
  case fin.inf =>
    intro y hy
    simp only [div] at hy
    injection hy with hy
    rw [← hy]
    exact rnd64_zero
  all_goals
    intro y hy
    simp only [div] at hy
    cases hy

/-- Adding what is not negative does not bring a sum below `q` that was not below it. -/
theorem lt_of_add_lt {s x q : Dbl} (hs : s.Rounded) (hn : s.NotNeg) (hx : x.NotNeg) (h : lt (add s x) q = true) :
    lt s q = true := by
  rcases (notNeg_iff x).1 hx with rfl | rfl | ⟨b, rfl, hb⟩
  · rcases s with _ | s | s <;> simp [add, lt] at h
  · rcases (notNeg_iff s).1 hn with rfl | rfl | ⟨a, rfl, ha⟩
    · simp [add, lt] at h
    · simpa [add] using h
    · simp only [add] at h
      rcases q with _ | t | q <;> simp [lt] at h
  · rcases (notNeg_iff s).1 hn with rfl | rfl | ⟨a, rfl, ha⟩
    · simp [add, lt] at h
    · simpa [add] using h
    · simp only [add] at h
      have hr := hs a rfl
      have hm : a ≤ rnd64 (a + b) := by
        calc a = rnd64 a := hr.symm
          _ ≤ rnd64 (a + b) := rnd64_mono (by linarith)
      unfold ofRat at h
      simp only at h
      split at h
      · have : ¬ rnd64 (a + b) < 0 := by linarith
        rw [decide_eq_false this] at h
        rcases q with _ | t | q <;> simp [lt] at h
      · rcases q with _ | t | q
        · simp [lt] at h
        · simpa [lt] using h
        · simp only [lt, decide_eq_true_eq] at h ⊢
          linarith

theorem add_notNeg {a b : Dbl} (ha : a.NotNeg) (hb : b.NotNeg) : (add a b).NotNeg := by
  rcases (notNeg_iff a).1 ha with rfl | rfl | ⟨x, rfl, hx⟩ <;> rcases (notNeg_iff b).1 hb with rfl | rfl | ⟨y, rfl, hy⟩
  case inr.inr.inr.inr => exact ofRat_notNeg (by linarith)
  all_goals simp [add, notNeg_iff]

end Dbl

namespace Hist

theorem partialSumFrom_partitioned (q : Dbl) (l : List Dbl) : ∀ acc : Dbl, acc.Rounded → acc.NotNeg → (∀ x ∈ l, x.NotNeg) →
    Partitioned Dbl.arith (partialSumFrom Dbl.arith acc l) q ∧
      ∀ x ∈ partialSumFrom Dbl.arith acc l, Dbl.lt x q = true → Dbl.lt acc q = true := by
  induction l with
  | nil => intro acc _ _ _; simp [partialSumFrom, Partitioned]
  | cons x l ih =>
    intro acc h1 h2 h3
    have hs : (Dbl.add acc x).NotNeg := Dbl.add_notNeg h2 (h3 x (by simp))
    obtain ⟨i1, i2⟩ := ih (Dbl.add acc x) Dbl.add_rounded hs fun y hy => h3 y (List.mem_cons_of_mem _ hy)
    have step := fun h => Dbl.lt_of_add_lt (q := q) h1 h2 (h3 x (by simp)) h
    refine ⟨List.pairwise_cons.2 ⟨i2, i1⟩, ?_⟩
    intro y hy hlt
    rcases List.mem_cons.1 hy with rfl | hy
    · exact step hlt
    · exact step (i2 y hy hlt)

theorem pdf_good (h : Hist Dbl) (normalize : Bool) :
    ∀ x ∈ h.pdf Dbl.arith normalize false, x.Rounded ∧ x.NotNeg := by
  intro x hx
  unfold pdf at hx
  simp only [Bool.false_eq_true, if_false] at hx
  obtain ⟨b, -, rfl⟩ := List.mem_map.1 hx
  refine ⟨Dbl.div_rounded, Dbl.div_notNeg (Dbl.ofRat_notNeg (by positivity)) ?_⟩
  split
  · exact Dbl.ofRat_notNeg (by norm_num)
  · exact Dbl.ofRat_notNeg (by positivity)

end Hist

/-- **C108**, the precondition (doubles): whatever the bins and the counts, also where they make the cdf NaN or infinite, and
for every level, NaN included, the cdf is partitioned, as `std::lower_bound` demands. -/
theorem C108_partitioned (h : Hist Dbl) (normalize : Bool) (q : Dbl) :
    Partitioned Dbl.arith (h.cdf Dbl.arith normalize) q := by
  have hg := h.pdf_good normalize
  unfold Hist.cdf
  revert hg
  rcases h.pdf Dbl.arith normalize false with _ | ⟨x, l⟩ <;> intro hg
  · simp [Hist.partialSum, Partitioned]
  · obtain ⟨h1, h2⟩ := hg x (by simp)
    obtain ⟨i1, i2⟩ := Hist.partialSumFrom_partitioned q l x h1 h2 fun y hy => (hg y (List.mem_cons_of_mem _ hy)).2
    exact List.pairwise_cons.2 ⟨i2, i1⟩

/-- **C108**, the quantile (doubles): for every histogram and every level `quantile` with the loop of the standard library is
`quantile` as modelled, in particular never outside the conditions of `std::lower_bound`. -/
theorem C108_quantile (h : Hist Dbl) (q : Dbl) : h.quantileStd Dbl.arith q = h.quantile Dbl.arith q := by
  obtain ⟨i, h1, -, h2⟩ := C108_search Dbl.arith _ q (C108_partitioned h true q)
  unfold Hist.quantileStd Hist.quantile
  simp only [h1, Res.ok_bind, h2]
  rfl

/-- A cdf with seven entries; and on a range that is not partitioned the loop goes elsewhere. -/
example : Hist.lowerBoundStd (exact ℚ) [1/7, 2/7, 3/7, 4/7, 5/7, 6/7, 1] (1/2) = .ok 3 ∧
    Hist.lowerBoundStd (exact ℚ) [1, 0, 0] (1/2) = .ok 3 ∧ Hist.lowerBound (exact ℚ) [1, 0, 0] (1/2) = 0 := by
  decide +kernel

/-- A cdf of NaNs: with window size 0 all counts and the total count are 0. -/
example : (match updateAll (Hist.update Dbl.arith) (Hist.new 3 0) [.fin 1, .fin 2] with
    | .ok h => decide (h.cdf Dbl.arith true = [.nan, .nan]) && decide (h.quantileStd Dbl.arith (.fin (1 / 2)) = .ok .nan)
    | _ => false) = true := by
  decide +kernel

end KML
