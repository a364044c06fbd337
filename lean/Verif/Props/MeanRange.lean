import Verif.Props.VarianceFixed

/-! # C114: StreamingMean and the range of its window -/

namespace KML

open Spec

variable {K : Type} [Field K] [LinearOrder K] [IsStrictOrderedRing K] [FloorRing K]

/-- **C114**, the full claim on doubles: the mean lies in every interval that contains the window, and the variance is at most a
quarter of the square of the interval's length. -/
def C114_full : Prop :=
  ∀ (W : ℕ) (xs : List ℚ) (lo hi : ℚ), (∀ x ∈ xs, IsModerate x) → xs ≠ [] → (∀ x ∈ windowOf W xs, lo ≤ x ∧ x ≤ hi) →
    (∀ m, updateAll (Mean.update Dbl.arith) (Mean.new Dbl.arith W) (xs.map .fin) = .ok m →
      ∃ v, m.evaluate Dbl.arith = .fin v ∧ lo ≤ v ∧ v ≤ hi) ∧
    (∀ m, updateAll (Variance.update Dbl.arith) (Variance.new Dbl.arith W) (xs.map .fin) = .ok m →
      ∃ v, m.evaluate Dbl.arith = .fin v ∧ 4 * v ≤ (hi - lo) ^ 2)

/-- Three observations of `0.1` have the mean `0.10000000000000002`. -/
theorem mean_of_tenths :
    updateAll (Mean.update Dbl.arith) (Mean.new Dbl.arith 0) ([rnd64 (1 / 10), rnd64 (1 / 10), rnd64 (1 / 10)].map .fin) =
      .ok ⟨0, none, 3, .fin (rnd64 (1 / 10) + (rnd64 (1 / 10) + (rnd64 (1 / 10) + pow2 (-55))))⟩ := by decide +kernel

/-- **C114** is violated: three observations of `0.1` have a mean one ulp above `0.1`. -/
theorem C114_violated : ¬ C114_full := by
  intro h
  obtain ⟨h, -⟩ := h 0 [rnd64 (1 / 10), rnd64 (1 / 10), rnd64 (1 / 10)] (rnd64 (1 / 10)) (rnd64 (1 / 10))
    (by unfold IsModerate; decide +kernel) (by simp) (by decide +kernel)
  obtain ⟨v, h1, -, h3⟩ := h _ mean_of_tenths
  have e : (⟨0, none, 3, .fin (rnd64 (1 / 10) + (rnd64 (1 / 10) + (rnd64 (1 / 10) + pow2 (-55))))⟩ : Mean Dbl).evaluate Dbl.arith =
      .fin (rnd64 (1 / 10) + pow2 (-56)) := by decide +kernel
  rw [e] at h1
  injection h1 with h1
  rw [← h1] at h3
  have := pow2_pos (-56)
  linarith

/-- **C114**: with a window, observations none of which is negative can have a negative mean, here `-1/2` for a window of
zeros. -/
theorem C114_negative_violated :
    ∃ m, updateAll (Mean.update Dbl.arith) (Mean.new Dbl.arith 2) ([1, 2 ^ 53, 0, 0].map .fin) = .ok m ∧
      m.window = some [.fin 0, .fin 0] ∧ m.evaluate Dbl.arith = .fin (-1 / 2) :=
  ⟨⟨2, some [.fin 0, .fin 0], 4, .fin (-1)⟩, by decide +kernel, rfl, by decide +kernel⟩

/-- **C114**: the variance exceeds a quarter of the squared range, already for a constant stream. -/
theorem C114_variance_violated :
    ∃ m v, updateAll (Variance.update Dbl.arith) (Variance.new Dbl.arith 0)
        ([rnd64 (1 / 10), rnd64 (1 / 10), rnd64 (1 / 10), rnd64 (1 / 10), rnd64 (1 / 10), rnd64 (1 / 10)].map .fin) = .ok m ∧
      m.evaluate Dbl.arith = .fin v ∧ 0 < v := by
  have : (match updateAll (Variance.update Dbl.arith) (Variance.new Dbl.arith 0)
        ([rnd64 (1 / 10), rnd64 (1 / 10), rnd64 (1 / 10), rnd64 (1 / 10), rnd64 (1 / 10), rnd64 (1 / 10)].map .fin) with
      | .ok m => (match m.evaluate Dbl.arith with | .fin v => decide (0 < v) | _ => false)
      | _ => false) = true := by decide +kernel
  split at this
  · split at this
    · exact ⟨_, _, ‹_›, ‹_›, of_decide_eq_true this⟩
    · cases this
  · cases this

/-- The mean of numbers in an interval lies in the interval. -/
theorem Spec.mean_mem {l : List K} {lo hi : K} (hl : l ≠ []) (h : ∀ x ∈ l, lo ≤ x ∧ x ≤ hi) : lo ≤ mean l ∧ mean l ≤ hi := by
  have n0 : (0 : K) < l.length := by exact_mod_cast List.length_pos_of_ne_nil hl
  have key : ∀ l : List K, (∀ x ∈ l, lo ≤ x ∧ x ≤ hi) → l.length * lo ≤ l.sum ∧ l.sum ≤ l.length * hi := by
    intro l
    induction l with
    | nil => simp
    | cons a l ih =>
      intro h
      obtain ⟨h1, h2⟩ := ih fun x hx => h x (List.mem_cons_of_mem _ hx)
      obtain ⟨h3, h4⟩ := h a List.mem_cons_self
      rw [List.length_cons, List.sum_cons]
      push_cast
      constructor <;> linarith
  obtain ⟨h1, h2⟩ := key l h
  unfold mean
  rw [le_div_iff₀ n0, div_le_iff₀ n0]
  constructor <;> linarith

/-- Popoviciu's inequality. -/
theorem Spec.variance_le {l : List K} {lo hi : K} (h : ∀ x ∈ l, lo ≤ x ∧ x ≤ hi) : 4 * variance l ≤ (hi - lo) ^ 2 := by
  rcases eq_or_ne l [] with rfl | hl
  · simpa [variance, mean] using sq_nonneg (hi - lo)
  have n0 : (0 : K) < l.length := by exact_mod_cast List.length_pos_of_ne_nil hl
  -- every observation satisfies `x² ≤ (lo + hi) x - lo hi`
  have key : ∀ l : List K, (∀ x ∈ l, lo ≤ x ∧ x ≤ hi) →
      (l.map fun x => x * x).sum ≤ (lo + hi) * l.sum - l.length * (lo * hi) := by
    intro l
    induction l with
    | nil => simp
    | cons a l ih =>
      intro h
      have h1 := ih fun x hx => h x (List.mem_cons_of_mem _ hx)
      obtain ⟨h3, h4⟩ := h a List.mem_cons_self
      have := mul_nonneg (sub_nonneg.2 h3) (sub_nonneg.2 h4)
      rw [List.length_cons, List.sum_cons, List.map_cons, List.sum_cons]
      push_cast
      nlinarith
  have h1 : mean (l.map fun x => x * x) ≤ (lo + hi) * mean l - lo * hi := by
    unfold mean
    rw [List.length_map, div_le_iff₀ n0]
    have := key l h
    have e : ((lo + hi) * (l.sum / l.length) - lo * hi) * l.length = (lo + hi) * l.sum - l.length * (lo * hi) := by
      field_simp
    rwa [e]
  rw [variance_eq]
  nlinarith [sq_nonneg (2 * mean l - (lo + hi))]

/-- **C114**, exact arithmetic: the mean lies in the range of the window, the variance is at most a quarter of the squared
range. Missing: doubles, where both fail (`C114_violated`, `C114_variance_violated`). -/
theorem C114_exact_partial (W : ℕ) (xs : List K) (lo hi : K) (hne : xs ≠ []) (h : ∀ x ∈ windowOf W xs, lo ≤ x ∧ x ≤ hi) :
    (∃ m, updateAll (Mean.update (exact K)) (Mean.new (exact K) W) xs = .ok m ∧
      lo ≤ m.evaluate (exact K) ∧ m.evaluate (exact K) ≤ hi) ∧
    ∃ v, updateAll (Variance.update (exact K)) (Variance.new (exact K) W) xs = .ok v ∧
      4 * v.evaluate (exact K) ≤ (hi - lo) ^ 2 := by
  refine ⟨?_, ?_⟩
  · obtain ⟨m, h1, h2, h3⟩ := Mean.run_exact (K := K) W xs
    refine ⟨m, h1, ?_⟩
    have e : m.evaluate (exact K) = mean (windowOf W xs) := by
      rw [Mean.evaluate_eq _ h2, if_neg hne, h3]
      simp [exact, Arith.ofNat, mean]
    rw [e]
    exact mean_mem (windowOf_ne_nil hne) h
  · obtain ⟨v, h1, h2⟩ := Variance.run_exact (K := K) W xs
    exact ⟨v, h1, h2 ▸ variance_le h⟩

/-- the bound on the variance is attained -/
example : ∃ v, updateAll (Variance.update (exact ℚ)) (Variance.new (exact ℚ) 2) [7, 1, 3] = .ok v ∧
    4 * v.evaluate (exact ℚ) = (3 - 1) ^ 2 := by
  obtain ⟨v, h1, h2⟩ := Variance.run_exact (K := ℚ) 2 [7, 1, 3]
  exact ⟨v, h1, h2 ▸ by decide +kernel⟩

/-- **C114** on doubles, fixed-point data (as in C84): the mean never leaves the range of the window, however long the stream. -/
theorem C114_fixed_point_partial (k : ℤ) (hk : -1074 ≤ k) (hk2 : k ≤ 890) (B W : ℕ) (ns : List ℤ) (hn : ∀ n ∈ ns, |n| ≤ B)
    (hB : (if W = 0 then ns.length else W) * B ≤ 2 ^ 53) (hne : ns ≠ []) (hW : W ≤ 2 ^ 53) (hlen : ns.length ≤ 2 ^ 52) :
    ∃ d v, updateAll (Mean.update Dbl.arith) (Mean.new Dbl.arith W) (ns.map fun (n : ℤ) => .fin ((n : ℚ) * pow2 k)) = .ok d ∧
      d.evaluate Dbl.arith = .fin v ∧
      (∃ n ∈ windowOf W ns, (n : ℚ) * pow2 k ≤ v) ∧ ∃ n ∈ windowOf W ns, v ≤ (n : ℚ) * pow2 k := by
  obtain ⟨d, h1, h2⟩ := C84_fixed_point k hk hk2 B W ns hn hB hne hW hlen
  refine ⟨d, _, h1, h2, ?_⟩
  have hw : windowOf W ns ≠ [] := windowOf_ne_nil hne
  have hrep : ∀ n ∈ windowOf W ns, rnd64 ((n : ℚ) * pow2 k) = n * pow2 k := by
    intro n h
    have h' := windowOf_subset h
    refine rnd64_repr n k ((hn n h').trans ?_) hk
    have h0 : 0 < ns.length := List.length_pos_of_ne_nil hne
    have : B ≤ (if W = 0 then ns.length else W) * B := by
      refine Nat.le_mul_of_pos_left _ ?_
      split <;> omega
    exact_mod_cast this.trans hB
  rw [windowOf_map]
  generalize windowOf W ns = l at *
  have pk := pow2_pos k
  -- the smallest and the largest observation
  have ex : ∀ l : List ℤ, l ≠ [] → (∃ a ∈ l, ∀ n ∈ l, a ≤ n) ∧ ∃ b ∈ l, ∀ n ∈ l, n ≤ b := by
    intro l
    induction l with
    | nil => simp
    | cons x l ih =>
      intro _
      rcases eq_or_ne l [] with rfl | hl
      · simp
      · obtain ⟨⟨a, ha, ha'⟩, b, hb, hb'⟩ := ih hl
        constructor
        · rcases le_total a x with h | h
          · exact ⟨a, List.mem_cons_of_mem _ ha, by simpa using ⟨h, ha'⟩⟩
          · exact ⟨x, List.mem_cons_self, by simpa using fun n hn => h.trans (ha' n hn)⟩
        · rcases le_total b x with h | h
          · exact ⟨x, List.mem_cons_self, by simpa using fun n hn => (hb' n hn).trans h⟩
          · exact ⟨b, List.mem_cons_of_mem _ hb, by simpa using ⟨h, hb'⟩⟩
  obtain ⟨⟨a, ha, ha'⟩, b, hb, hb'⟩ := ex l hw
  have hm := mean_mem (K := ℚ) (l := l.map fun (n : ℤ) => (n : ℚ) * pow2 k) (lo := a * pow2 k) (hi := b * pow2 k) (by simpa using hw)
    (by
      intro x hx
      obtain ⟨n, hn, rfl⟩ := List.mem_map.1 hx
      exact ⟨mul_le_mul_of_nonneg_right (by exact_mod_cast ha' n hn) pk.le,
        mul_le_mul_of_nonneg_right (by exact_mod_cast hb' n hn) pk.le⟩)
  refine ⟨⟨a, ha, ?_⟩, b, hb, ?_⟩
  · rw [← hrep a ha]; exact R64.mono hm.1
  · rw [← hrep b hb]; exact R64.mono hm.2

/-- a third of 4 + 4 + 3, rounded -/
example : ∃ d v, updateAll (Mean.update Dbl.arith) (Mean.new Dbl.arith 3)
      ([(100 : ℤ), 4, 4, 3].map fun (n : ℤ) => .fin ((n : ℚ) * pow2 0)) = .ok d ∧ d.evaluate Dbl.arith = .fin v ∧ 3 ≤ v ∧ v ≤ 4 := by
  obtain ⟨d, v, h1, h2, ⟨a, ha, h3⟩, b, hb, h4⟩ := C114_fixed_point_partial 0 (by norm_num) (by norm_num) 100 3 [100, 4, 4, 3]
    (by decide) (by norm_num) (by simp) (by norm_num) (by norm_num)
  refine ⟨d, v, h1, h2, ?_, ?_⟩
  · have e : windowOf 3 [(100 : ℤ), 4, 4, 3] = [4, 4, 3] := by decide
    rw [e] at ha
    have : (3 : ℤ) ≤ a := by clear h3; revert a; decide
    have : (3 : ℚ) ≤ a := by exact_mod_cast this
    have p0 : pow2 0 = 1 := rfl
    rw [p0] at h3
    linarith
  · have e : windowOf 3 [(100 : ℤ), 4, 4, 3] = [4, 4, 3] := by decide
    rw [e] at hb
    have : b ≤ (4 : ℤ) := by clear h4; revert b; decide
    have : (b : ℚ) ≤ 4 := by exact_mod_cast this
    have p0 : pow2 0 = 1 := rfl
    rw [p0] at h4
    linarith

/-- **C114** in floating point, before anything leaves the window: observations none of which is negative have a mean that is not
negative, whatever the rounding. (`C114_negative_violated`: not so afterwards.) -/
theorem C114_sign_partial (R : Rounding K) (W : ℕ) (xs : List K) (hx : ∀ x ∈ xs, 0 ≤ x) (hW : W = 0 ∨ xs.length ≤ W) :
    ∃ m, updateAll (Mean.update R.arith) (Mean.new R.arith W) xs = .ok m ∧ 0 ≤ m.evaluate R.arith := by
  have key : ∀ xs : List K, (∀ x ∈ xs, 0 ≤ x) → (W = 0 ∨ xs.length ≤ W) →
      ∃ m, updateAll (Mean.update R.arith) (Mean.new R.arith W) xs = .ok m ∧ Mean.Inv W xs m ∧ 0 ≤ m.sum := by
    intro xs
    induction xs using List.reverseRecOn with
    | nil =>
      intro _ _
      refine ⟨_, rfl, Mean.inv_new _ W, ?_⟩
      show 0 ≤ R.rnd ((0 : ℚ) : K)
      rw [Rat.cast_zero, R.rnd_zero]
    | append_singleton xs x ih =>
      intro h hW
      rw [List.length_append, List.length_singleton] at hW
      obtain ⟨m, h1, h2, h3⟩ := ih (fun y hy => h y (List.mem_append_left _ hy)) (by omega)
      obtain ⟨n, k1, k2, k3⟩ := Mean.update_spec R.arith h2 x
      refine ⟨n, ?_, k2, ?_⟩
      · rw [updateAll_append, h1, Res.ok_bind]
        show (m.update R.arith x >>= _) = _
        rw [k1]; rfl
      · rw [k3]
        rw [if_neg (by omega)]
        exact R.rnd_nonneg (add_nonneg h3 (h x (by simp)))
  obtain ⟨m, h1, h2, h3⟩ := key xs hx hW
  refine ⟨m, h1, ?_⟩
  rw [Mean.evaluate_eq _ h2]
  split
  · show 0 ≤ R.rnd ((0 : ℚ) : K)
    rw [Rat.cast_zero, R.rnd_zero]
  · refine R.rnd_nonneg (div_nonneg h3 (R.rnd_nonneg ?_))
    exact_mod_cast Int.natCast_nonneg _

example : ∃ m, updateAll (Mean.update R64.arith) (Mean.new R64.arith 5) [1, 2 ^ 53, 0, 0] = .ok m ∧ 0 ≤ m.evaluate R64.arith :=
  C114_sign_partial R64 5 _ (by simp) (by simp)

end KML
