import Verif.Lemmas.Variance
import Verif.Props.DoubleQuantile

/-! # C83, C84: StreamingMean and StreamingVariance on real doubles -/

namespace KML

open Spec

/-- Infinite or NaN. -/
def Dbl.NonFinite (d : Dbl) : Prop := ∀ q, d ≠ .fin q

namespace Dbl

theorem nonFinite_nan : NonFinite .nan := fun _ h => by cases h

theorem nonFinite_inf (s : Bool) : NonFinite (.inf s) := fun _ h => by cases h

theorem NonFinite.cases {d : Dbl} (h : NonFinite d) : d = .nan ∨ ∃ s, d = .inf s := by
  cases d with
  | nan => exact .inl rfl
  | inf s => exact .inr ⟨s, rfl⟩
  | fin q => exact absurd rfl (h q)

theorem finite_or (d : Dbl) : (∃ q, d = .fin q) ∨ NonFinite d := by
  cases d with
  | nan => exact .inr nonFinite_nan
  | inf s => exact .inr (nonFinite_inf s)
  | fin q => exact .inl ⟨q, rfl⟩

theorem NonFinite.add_left {d : Dbl} (h : NonFinite d) (e : Dbl) : NonFinite (Dbl.arith.add d e) := by
  rcases h.cases with rfl | ⟨s, rfl⟩
  · exact nonFinite_nan
  · show NonFinite (Dbl.add (.inf s) e)
    cases e with
    | nan => exact nonFinite_nan
    | inf t =>
      show NonFinite (if s = t then .inf s else .nan)
      split
      · exact nonFinite_inf _
      · exact nonFinite_nan
    | fin q => exact nonFinite_inf _

theorem NonFinite.sub_left {d : Dbl} (h : NonFinite d) (e : Dbl) : NonFinite (Dbl.arith.sub d e) :=
  NonFinite.add_left h (Dbl.neg e)

theorem NonFinite.add_right {e : Dbl} (h : NonFinite e) (d : Dbl) : NonFinite (Dbl.arith.add d e) := by
  rcases finite_or d with ⟨q, rfl⟩ | hd
  · rcases h.cases with rfl | ⟨s, rfl⟩
    · exact nonFinite_nan
    · exact nonFinite_inf s
  · exact hd.add_left e

theorem NonFinite.neg {d : Dbl} (h : NonFinite d) : NonFinite (Dbl.neg d) := by
  rcases h.cases with rfl | ⟨s, rfl⟩
  · exact nonFinite_nan
  · exact nonFinite_inf _

theorem NonFinite.sub_right {e : Dbl} (h : NonFinite e) (d : Dbl) : NonFinite (Dbl.arith.sub d e) :=
  NonFinite.add_right h.neg d

theorem NonFinite.div_fin {d : Dbl} (h : NonFinite d) (q : ℚ) : NonFinite (Dbl.arith.div d (.fin q)) := by
  rcases h.cases with rfl | ⟨s, rfl⟩
  · exact nonFinite_nan
  · exact nonFinite_inf _

theorem NonFinite.mul_self {d : Dbl} (h : NonFinite d) : NonFinite (Dbl.arith.mul d d) := by
  rcases h.cases with rfl | ⟨s, rfl⟩
  · exact nonFinite_nan
  · exact nonFinite_inf _

/-- Rounding overflows to infinity or agrees with `rnd64`, within the range of doubles. -/
theorem ofRat_cases (x : ℚ) : NonFinite (ofRat x) ∨ (ofRat x = .fin (rnd64 x) ∧ IsDouble (rnd64 x)) := by
  unfold ofRat
  simp only
  split
  · exact .inl (nonFinite_inf _)
  · rename_i h
    exact .inr ⟨rfl, rnd64_idem x, not_lt.1 h⟩

theorem add_fin_cases (a b : ℚ) : NonFinite (Dbl.arith.add (.fin a) (.fin b)) ∨
    (Dbl.arith.add (.fin a) (.fin b) = .fin (b64.add a b) ∧ IsDouble (b64.add a b)) := ofRat_cases _

theorem sub_fin_cases (a b : ℚ) : NonFinite (Dbl.arith.sub (.fin a) (.fin b)) ∨
    (Dbl.arith.sub (.fin a) (.fin b) = .fin (b64.sub a b) ∧ IsDouble (b64.sub a b)) := by
  have := ofRat_cases (a + -b)
  rw [← sub_eq_add_neg] at this
  show NonFinite (ofRat (a + -b)) ∨ (ofRat (a + -b) = _ ∧ _)
  rw [← sub_eq_add_neg]
  exact this

theorem rnd64_dblMax : rnd64 dblMax = dblMax := by decide +kernel

/-- Dividing a finite double by a positive integer does not overflow. -/
theorem div_nat {s : ℚ} (hs : |s| ≤ dblMax) {n : ℕ} (h1 : 1 ≤ n) (h2 : n < 2 ^ 64) :
    Dbl.arith.div (.fin s) (Dbl.arith.ofNat n) = .fin (b64.div s (b64.ofNat n)) := by
  have i : Is (Dbl.arith.ofNat n) (b64.ofNat n) 64 := Is.ofInt (k := 64) (by norm_num) (by
    rw [abs_of_nonneg (by positivity)]; exact_mod_cast h2.le)
  have o : 1 ≤ |b64.ofNat n| := ofInt_ge_one (by rw [abs_of_nonneg (by positivity)]; exact_mod_cast h1)
  rw [i.eq]
  have h0 : b64.ofNat n ≠ 0 := by intro h; rw [h] at o; norm_num at o
  show Dbl.div (.fin s) (.fin (b64.ofNat n)) = .fin (rnd64 (s / b64.ofNat n))
  rw [Dbl.div, if_neg h0]
  have hle : |s / b64.ofNat n| ≤ dblMax := by
    rw [abs_div]; exact (div_le_self (abs_nonneg _) o).trans hs
  have : |rnd64 (s / b64.ofNat n)| ≤ dblMax := by
    rw [abs_le] at hle ⊢
    constructor
    · have := rnd64_mono hle.1
      rwa [rnd64_neg, rnd64_dblMax] at this
    · have := rnd64_mono hle.2
      rwa [rnd64_dblMax] at this
  exact if_neg (not_lt.2 this)

end Dbl

/-! ## C83 -/

/-- **C83**, full statement: with a window of `W ≥ 1`, whatever was observed before, once the last `W` observations are
moderate doubles the mean is a finite number. -/
def C83_full : Prop := ∀ (W : ℕ) (xs : List Dbl) (ys : List ℚ), 1 ≤ W → W ≤ ys.length → ys.length ≤ 2 ^ 52 →
  (∀ y ∈ ys, IsModerate y) →
  ∃ m v, updateAll (Mean.update Dbl.arith) (Mean.new Dbl.arith W) (xs ++ ys.map .fin) = .ok m ∧
    m.evaluate Dbl.arith = .fin v

/-- **C83** is violated: after one infinite observation the sum is NaN for ever, even with a window of 1. -/
theorem C83_violated : ¬ C83_full := by
  intro h
  obtain ⟨m, v, h1, h2⟩ := h 1 [.inf false] [1, 2, 3] le_rfl (by decide) (by decide) (by unfold IsModerate; decide +kernel)
  have e : (match updateAll (Mean.update Dbl.arith) (Mean.new Dbl.arith 1) ([.inf false] ++ [1, 2, 3].map .fin) with
    | .ok m => decide (m.evaluate Dbl.arith = .nan)
    | _ => false) = true := by decide +kernel
  rw [h1] at e
  simp only [h2] at e
  simp at e

/-- **C83** is violated by finite observations too: two large ones overflow the sum. -/
theorem C83_overflow_violated : ∃ xs : List ℚ, (∀ x ∈ xs, IsDouble x) ∧
    updateAll (Mean.update Dbl.arith) (Mean.new Dbl.arith 2) ((xs ++ [1, 2]).map .fin) =
      .ok ⟨2, some [.fin 1, .fin 2], 4, .inf false⟩ :=
  ⟨[dblMax, dblMax], by unfold IsDouble; decide +kernel, by decide +kernel⟩

namespace Mean

/-- A non-finite sum stays non-finite. -/
theorem nonFinite_update {m m' : Mean Dbl} {x : Dbl} (h : m.sum.NonFinite) (hu : m.update Dbl.arith x = .ok m') :
    m'.sum.NonFinite := by
  unfold Mean.update at hu
  simp only at hu
  split at hu
  · split at hu
    · split at hu
      · cases hu
      · injection hu with hu; subst hu; exact (h.sub_left _).add_left _
    · injection hu with hu; subst hu; exact h.add_left _
  · injection hu with hu; subst hu; exact h.add_left _

theorem nonFinite_updateAll {m m' : Mean Dbl} {xs : List Dbl} (h : m.sum.NonFinite)
    (hu : updateAll (Mean.update Dbl.arith) m xs = .ok m') : m'.sum.NonFinite := by
  induction xs generalizing m with
  | nil => injection hu with hu; subst hu; exact h
  | cons x xs ih =>
    obtain ⟨m1, h1, h2⟩ := Res.bind_eq_ok.1 hu
    exact ih (nonFinite_update h h1) h2

/-- `evaluate` is finite exactly if the sum is. -/
theorem evaluate_nonFinite {W : ℕ} {xs : List Dbl} {m : Mean Dbl} (h : Inv W xs m) (hne : xs ≠ [])
    (hlen : xs.length < 2 ^ 64) (hs : m.sum.NonFinite) : (m.evaluate Dbl.arith).NonFinite := by
  rw [Mean.evaluate_eq _ h, if_neg hne]
  have hl : (windowOf W xs).length < 2 ^ 64 := by
    unfold windowOf
    split
    · exact hlen
    · rw [lastN_length]; omega
  have i := Dbl.Is.ofInt (n := (windowOf W xs).length) (k := 64) (by norm_num) (by
    rw [abs_of_nonneg (by positivity)]; exact_mod_cast hl.le)
  have e : Dbl.arith.ofNat (windowOf W xs).length = .fin (b64.ofInt (windowOf W xs).length) := i.eq
  rw [e]
  exact hs.div_fin _

theorem windowOf_pos {F : Type} {W : ℕ} {xs : List F} (h : xs ≠ []) : 1 ≤ (windowOf W xs).length := by
  have : 0 < xs.length := List.length_pos_of_ne_nil h
  unfold windowOf
  split
  · exact this
  · rw [lastN_length]; omega

theorem evaluate_fin {W : ℕ} {xs : List ℚ} {d : Mean Dbl} {m : Mean ℚ} (hd : Inv W (xs.map .fin) d) (hm : Inv W xs m)
    (hlen : xs.length < 2 ^ 64) (hs : d.sum = .fin m.sum) (hr : |m.sum| ≤ dblMax) :
    d.evaluate Dbl.arith = .fin (m.evaluate b64) := by
  rw [Mean.evaluate_eq _ hd, Mean.evaluate_eq _ hm]
  by_cases hx : xs = []
  · simp only [hx, List.map_nil, if_true]
    exact (Dbl.Is.lit (k := 0) (by norm_num) (by norm_num) (by rw [abs_zero]; exact (pow2_pos _).le)).eq
  · have e : (windowOf W (xs.map Dbl.fin)).length = (windowOf W xs).length := by
      unfold windowOf
      split
      · simp
      · simp [lastN_length]
    have hl : (windowOf W xs).length < 2 ^ 64 := by
      unfold windowOf
      split
      · exact hlen
      · rw [lastN_length]; omega
    rw [if_neg (by simpa using hx), if_neg hx, hs, e]
    exact Dbl.div_nat hr (windowOf_pos hx) hl

end Mean

theorem Dbl.add_eq_fin {d e : Dbl} {s : ℚ} (h : Dbl.arith.add d e = .fin s) : IsDouble s := by
  rcases Dbl.finite_or d with ⟨a, rfl⟩ | hd
  · rcases Dbl.finite_or e with ⟨b, rfl⟩ | he
    · rcases Dbl.add_fin_cases a b with hn | ⟨h1, h2⟩
      · exact absurd h (hn s)
      · rw [h1] at h; injection h with h; rw [← h]; exact h2
    · exact absurd h (he.add_right _ s)
  · exact absurd h (hd.add_left e s)

namespace Mean

/-- A finite sum is a double. -/
theorem run_sum (W : ℕ) (xs : List Dbl) : ∃ m, updateAll (Mean.update Dbl.arith) (Mean.new Dbl.arith W) xs = .ok m ∧
    Inv W xs m ∧ ∀ s, m.sum = .fin s → IsDouble s := by
  refine updateAll_induct (fun xs (m : Mean Dbl) => Inv W xs m ∧ ∀ s, m.sum = .fin s → IsDouble s) ?_ ?_ xs
  · refine ⟨Mean.inv_new _ W, fun s hs => ?_⟩
    have : Dbl.fin s = .fin 0 := hs.symm.trans (by decide +kernel : Dbl.arith.lit 0 = .fin 0)
    injection this with this
    rw [this]
    unfold IsDouble
    decide +kernel
  · rintro xs m x ⟨h, -⟩
    obtain ⟨m', h1, h2, h3⟩ := Mean.update_spec Dbl.arith h x
    exact ⟨m', h1, h2, fun s hs => Dbl.add_eq_fin (h3.symm.trans hs)⟩

theorem evaluate_finite {W : ℕ} {xs : List Dbl} {m : Mean Dbl} (h : Inv W xs m) (hlen : xs.length < 2 ^ 64) {s : ℚ}
    (hs : m.sum = .fin s) (hd : IsDouble s) : ∃ v, m.evaluate Dbl.arith = .fin v := by
  rw [Mean.evaluate_eq _ h]
  split
  · exact ⟨0, by decide +kernel⟩
  · rename_i hx
    have hl : (windowOf W xs).length < 2 ^ 64 := by
      unfold windowOf
      split
      · exact hlen
      · rw [lastN_length]; omega
    rw [hs]
    exact ⟨_, Dbl.div_nat hd.2 (windowOf_pos hx) hl⟩

end Mean

/-- **C83**, what happens instead: a mean that is infinite or NaN stays so for ever, whatever is observed later and whatever
the window. -/
theorem C83_never_recovers_partial (W : ℕ) (xs ys : List Dbl) (m m' : Mean Dbl) (hlen : (xs ++ ys).length < 2 ^ 64)
    (h1 : updateAll (Mean.update Dbl.arith) (Mean.new Dbl.arith W) xs = .ok m)
    (h2 : updateAll (Mean.update Dbl.arith) m ys = .ok m') (hm : (m.evaluate Dbl.arith).NonFinite) :
    (m'.evaluate Dbl.arith).NonFinite := by
  obtain ⟨n, e1, e2⟩ := Mean.run_inv Dbl.arith W (xs ++ ys)
  rw [updateAll_append, h1, Res.ok_bind, h2] at e1
  injection e1 with e1
  subst e1
  obtain ⟨n, e3, e4, e5⟩ := Mean.run_sum W xs
  rw [h1] at e3
  injection e3 with e3
  subst e3
  rw [List.length_append] at hlen
  have hs : m.sum.NonFinite := by
    rcases Dbl.finite_or m.sum with ⟨s, hs⟩ | hs
    · obtain ⟨v, hv⟩ := Mean.evaluate_finite e4 (by omega) hs (e5 s hs)
      exact absurd hv (hm v)
    · exact hs
  refine Mean.evaluate_nonFinite e2 ?_ (by rw [List.length_append]; exact hlen) (Mean.nonFinite_updateAll hs h2)
  rintro h
  obtain ⟨rfl, rfl⟩ := List.append_eq_nil_iff.1 h
  injection h1 with h1
  subst h1
  exact hs _ (by decide +kernel : Dbl.arith.lit 0 = .fin 0)

/-- An infinite observation makes the mean non-finite, and so it stays. -/
theorem C83_infinite_partial (W : ℕ) (xs ys : List Dbl) (x : Dbl) (hx : x.NonFinite) (hlen : (xs ++ x :: ys).length < 2 ^ 64) :
    ∃ m, updateAll (Mean.update Dbl.arith) (Mean.new Dbl.arith W) (xs ++ x :: ys) = .ok m ∧
      (m.evaluate Dbl.arith).NonFinite := by
  obtain ⟨m, e1, e2⟩ := Mean.run_inv Dbl.arith W (xs ++ x :: ys)
  refine ⟨m, e1, Mean.evaluate_nonFinite e2 (by simp) hlen ?_⟩
  rw [updateAll_append] at e1
  obtain ⟨m1, f1, e1⟩ := Res.bind_eq_ok.1 e1
  obtain ⟨m2, f2, e1⟩ := Res.bind_eq_ok.1 e1
  obtain ⟨n, g1, g2⟩ := Mean.run_inv Dbl.arith W xs
  rw [f1] at g1
  injection g1 with g1
  subst g1
  obtain ⟨n, k1, k2, k3⟩ := Mean.update_spec Dbl.arith g2 x
  rw [f2] at k1
  injection k1 with k1
  subst k1
  refine Mean.nonFinite_updateAll ?_ e1
  rw [k3]
  exact hx.add_right _

/-- **C83**: as long as the mean is finite it is the mean computed by `b64`, the arithmetic of C17. -/
theorem C83_finite_partial (W : ℕ) (xs : List ℚ) (hlen : xs.length < 2 ^ 64) :
    ∃ d m, updateAll (Mean.update Dbl.arith) (Mean.new Dbl.arith W) (xs.map .fin) = .ok d ∧
      updateAll (Mean.update b64) (Mean.new b64 W) xs = .ok m ∧
      ((d.evaluate Dbl.arith).NonFinite ∨ d.evaluate Dbl.arith = .fin (m.evaluate b64)) := by
  have key : ∃ m, updateAll (Mean.update b64) (Mean.new b64 W) xs = .ok m ∧ Mean.Inv W xs m ∧
      ∃ d, updateAll (Mean.update Dbl.arith) (Mean.new Dbl.arith W) (xs.map .fin) = .ok d ∧ Mean.Inv W (xs.map .fin) d ∧
        (d.sum.NonFinite ∨ (d.sum = .fin m.sum ∧ IsDouble m.sum)) := by
    clear hlen
    refine updateAll_induct (fun xs (m : Mean ℚ) => Mean.Inv W xs m ∧
      ∃ d, updateAll (Mean.update Dbl.arith) (Mean.new Dbl.arith W) (xs.map .fin) = .ok d ∧ Mean.Inv W (xs.map .fin) d ∧
        (d.sum.NonFinite ∨ (d.sum = .fin m.sum ∧ IsDouble m.sum))) ?_ ?_ xs
    · refine ⟨Mean.inv_new _ W, _, rfl, Mean.inv_new _ W, .inr ?_⟩
      show Dbl.arith.lit 0 = .fin (b64.lit 0) ∧ rnd64 (b64.lit 0) = b64.lit 0 ∧ |b64.lit 0| ≤ dblMax
      decide +kernel
    · rintro xs m x ⟨h, d, g1, g2, g3⟩
      obtain ⟨m', h1, h2, h3⟩ := Mean.update_spec b64 h x
      obtain ⟨d', k1, k2, k3⟩ := Mean.update_spec Dbl.arith g2 (.fin x)
      refine ⟨m', h1, h2, d', by rw [List.map_append, List.map_singleton, updateAll_snoc, g1, Res.ok_bind, k1],
        by rw [List.map_append, List.map_singleton]; exact k2, ?_⟩
      rw [h3, k3]
      simp only [List.length_map, List.getElem?_map]
      rcases g3 with hn | ⟨hs, hd⟩
      · left
        refine Dbl.NonFinite.add_left ?_ _
        split
        · cases xs[xs.length - W]? with
          | none => exact hn
          | some a => exact hn.sub_left _
        · exact hn
      · rw [hs]
        split
        · cases xs[xs.length - W]? with
          | none => exact Dbl.add_fin_cases _ _
          | some a =>
            simp only [Option.map_some]
            rcases Dbl.sub_fin_cases m.sum a with hn | ⟨e, -⟩
            · exact .inl (hn.add_left _)
            · rw [e]; exact Dbl.add_fin_cases _ _
        · exact Dbl.add_fin_cases _ _
  obtain ⟨m, h1, h2, d, h3, h4, h5⟩ := key
  refine ⟨d, m, h3, h1, ?_⟩
  rcases h5 with hn | ⟨hs, hd⟩
  · by_cases hx : xs = []
    · subst hx
      injection h3 with h3
      subst h3
      exact absurd (by decide +kernel : Dbl.arith.lit 0 = .fin 0) (hn 0)
    · exact .inl (Mean.evaluate_nonFinite h4 (by simpa using hx) (by simpa using hlen) hn)
  · exact .inr (Mean.evaluate_fin h4 h2 hlen hs hd.2)

/-! ### Moderate data -/

theorem Dbl.ofRat_mul {x : ℚ} {n : ℕ} {M : ℤ} (hn : n ≤ 2 ^ 53) (h0 : -1074 ≤ M) (hM : M ≤ 970) (h : |x| ≤ n * pow2 M) :
    Dbl.ofRat x = .fin (rnd64 x) ∧ |rnd64 x| ≤ n * pow2 M := by
  have h1 := rnd64_abs_le_mul hn h0 h
  refine ⟨Dbl.ofRat_eq (h1.trans ?_), h1⟩
  have h2 : ((n : ℕ) : ℚ) ≤ pow2 53 := by
    have : pow2 53 = 2 ^ 53 := rfl
    rw [this]; exact_mod_cast hn
  calc (n : ℚ) * pow2 M ≤ pow2 53 * pow2 M := mul_le_mul_of_nonneg_right h2 (pow2_pos _).le
    _ = pow2 (53 + M) := (pow2_add _ _).symm
    _ ≤ pow2 1023 := pow2_le.2 (by omega)

/-- Bounded data and at most `2 ^ 52` observations: no overflow. -/
theorem Mean.run_moderate {M : ℤ} (h0 : -1074 ≤ M) (hM : M ≤ 970) (W : ℕ) (xs : List ℚ) (hx : ∀ x ∈ xs, |x| ≤ pow2 M)
    (hlen : xs.length ≤ 2 ^ 52) :
    ∃ m, updateAll (Mean.update b64) (Mean.new b64 W) xs = .ok m ∧ Mean.Inv W xs m ∧
      ∃ d, updateAll (Mean.update Dbl.arith) (Mean.new Dbl.arith W) (xs.map .fin) = .ok d ∧ Mean.Inv W (xs.map .fin) d ∧
        d.sum = .fin m.sum ∧ |m.sum| ≤ (2 * xs.length : ℕ) * pow2 M := by
  induction xs using List.reverseRecOn with
  | nil =>
    refine ⟨_, rfl, Mean.inv_new _ W, _, rfl, Mean.inv_new _ W, ?_, ?_⟩
    · show Dbl.arith.lit 0 = .fin (b64.lit 0)
      decide +kernel
    · show |b64.lit 0| ≤ _
      have : b64.lit 0 = 0 := by decide +kernel
      rw [this]; simp
  | append_singleton xs x ih =>
    rw [List.length_append, List.length_singleton] at hlen
    obtain ⟨m, g1, g2, d, g3, g4, g5, g6⟩ := ih (fun y hy => hx y (List.mem_append_left _ hy)) (by omega)
    obtain ⟨m', h1, h2, h3⟩ := Mean.update_spec b64 g2 x
    obtain ⟨d', k1, k2, k3⟩ := Mean.update_spec Dbl.arith g4 (.fin x)
    refine ⟨m', by rw [updateAll_snoc, g1, Res.ok_bind, h1], h2, d',
      by rw [List.map_append, List.map_singleton, updateAll_snoc, g3, Res.ok_bind, k1],
      by rw [List.map_append, List.map_singleton]; exact k2, ?_⟩
    rw [h3, k3]
    simp only [List.length_map, List.getElem?_map, g5]
    have hxb := hx x (List.mem_append_right _ (List.mem_singleton_self x))
    have hp := pow2_pos M
    have step : ∀ s : ℚ, |s| ≤ (2 * xs.length + 1 : ℕ) * pow2 M → Dbl.arith.add (.fin s) (.fin x) = .fin (b64.add s x) ∧
        |b64.add s x| ≤ (2 * (xs ++ [x]).length : ℕ) * pow2 M := by
      intro s hs
      refine Dbl.ofRat_mul (by rw [List.length_append, List.length_singleton]; omega) h0 hM ?_
      refine (abs_add_le s x).trans ?_
      rw [List.length_append, List.length_singleton]
      push_cast at hs ⊢
      linarith
    have h6 : |m.sum| ≤ (2 * xs.length + 1 : ℕ) * pow2 M := by push_cast at g6 ⊢; linarith
    split
    · cases hi : xs[xs.length - W]? with
      | none => exact step _ h6
      | some a =>
        have ha := hx a (List.mem_append_left _ (List.mem_of_getElem? hi))
        have : Dbl.arith.sub (.fin m.sum) (.fin a) = .fin (b64.sub m.sum a) ∧
            |b64.sub m.sum a| ≤ (2 * xs.length + 1 : ℕ) * pow2 M := by
          show Dbl.ofRat (m.sum + -a) = .fin (rnd64 (m.sum - a)) ∧ |rnd64 (m.sum - a)| ≤ _
          rw [← sub_eq_add_neg]
          refine Dbl.ofRat_mul (by omega) h0 hM ?_
          refine (abs_sub m.sum a).trans ?_
          push_cast at g6 ⊢
          linarith
        simp only [Option.map_some, this.1]
        exact step _ this.2
    · exact step _ h6

/-- **C83**, moderate data: up to `2 ^ 52` observations of magnitude at most `2 ^ 950`, the mean of doubles is finite and equal
to the mean computed by `b64`. Missing: larger data and longer streams, where the sum can overflow. -/
theorem C83_moderate_partial (W : ℕ) (xs : List ℚ) (hx : ∀ x ∈ xs, IsModerate x) (hlen : xs.length ≤ 2 ^ 52) :
    ∃ d m, updateAll (Mean.update Dbl.arith) (Mean.new Dbl.arith W) (xs.map .fin) = .ok d ∧
      updateAll (Mean.update b64) (Mean.new b64 W) xs = .ok m ∧ d.evaluate Dbl.arith = .fin (m.evaluate b64) := by
  obtain ⟨m, h1, h2, d, h3, h4, h5, h6⟩ := Mean.run_moderate (M := 950) (by norm_num) (by norm_num) W xs
    (fun x h => (hx x h).2) hlen
  obtain ⟨d', e1, -, e3⟩ := Mean.run_sum W (xs.map .fin)
  rw [h3] at e1
  injection e1 with e1
  subst e1
  exact ⟨d, m, h3, h1, Mean.evaluate_fin h4 h2 (by omega) h5 (e3 _ h5).2⟩

/-- **C83**, StreamingVariance on moderate data: up to `2 ^ 52` observations of magnitude at most `2 ^ 450`, the variance of
doubles is finite and equal to the variance computed by `b64`. -/
theorem C83_variance_partial (W : ℕ) (xs : List ℚ) (hx : ∀ x ∈ xs, rnd64 x = x ∧ |x| ≤ pow2 450) (hlen : xs.length ≤ 2 ^ 52) :
    ∃ d v, updateAll (Variance.update Dbl.arith) (Variance.new Dbl.arith W) (xs.map .fin) = .ok d ∧
      updateAll (Variance.update b64) (Variance.new b64 W) xs = .ok v ∧ d.evaluate Dbl.arith = .fin (v.evaluate b64) := by
  obtain ⟨d, d1, d2, d3, -⟩ := Variance.run_eq Dbl.arith W (xs.map .fin)
  obtain ⟨v, v1, v2, v3, -⟩ := Variance.run_eq b64 W xs
  refine ⟨d, v, d1, v1, ?_⟩
  have sq : ∀ x, |x| ≤ pow2 450 → Dbl.Is (Dbl.arith.mul (.fin x) (.fin x)) (b64.mul x x) (450 + 450) := fun x h =>
    Dbl.Is.mul (d := .fin x) (e := .fin x) ⟨rfl, h⟩ ⟨rfl, h⟩ (by norm_num) (by norm_num)
  have hsq : (xs.map Dbl.fin).map (fun x => Dbl.arith.mul x x) = (xs.map fun x => b64.mul x x).map .fin := by
    rw [List.map_map, List.map_map]
    refine List.map_congr_left fun x h => ?_
    exact (sq x (hx x h).2).eq
  have bnd : ∀ (M : ℤ) (ys : List ℚ) (d : Mean Dbl) (m : Mean ℚ), 0 ≤ M → M ≤ 900 → ys.length ≤ 2 ^ 52 →
      (∀ y ∈ ys, |y| ≤ pow2 M) → updateAll (Mean.update Dbl.arith) (Mean.new Dbl.arith W) (ys.map .fin) = .ok d →
      updateAll (Mean.update b64) (Mean.new b64 W) ys = .ok m → Dbl.Is (d.evaluate Dbl.arith) (m.evaluate b64) (53 + M) := by
    intro M ys d m hM0 hM hl hy hd hm
    obtain ⟨m', h1, h2, d', h3, h4, h5, h6⟩ := Mean.run_moderate (M := M) (by omega) (by omega) W ys hy hl
    rw [hm] at h1
    injection h1 with h1
    subst h1
    rw [hd] at h3
    injection h3 with h3
    subst h3
    obtain ⟨d'', e1, -, e3⟩ := Mean.run_sum W (ys.map .fin)
    rw [hd] at e1
    injection e1 with e1
    subst e1
    refine ⟨Mean.evaluate_fin h4 h2 (by omega) h5 (e3 _ h5).2, ?_⟩
    rw [Mean.evaluate_eq _ h2]
    split
    · have : b64.lit 0 = 0 := by decide +kernel
      rw [this, abs_zero]; exact (pow2_pos _).le
    · rename_i hne
      have o : 1 ≤ |b64.ofNat (windowOf W ys).length| := Dbl.ofInt_ge_one (by
        rw [abs_of_nonneg (by positivity)]; exact_mod_cast Mean.windowOf_pos hne)
      refine rnd64_abs_le (by omega) ?_
      rw [abs_div]
      refine (div_le_self (abs_nonneg _) o).trans (h6.trans ?_)
      rw [pow2_add]
      refine mul_le_mul_of_nonneg_right ?_ (pow2_pos _).le
      have : pow2 53 = 2 ^ 53 := rfl
      rw [this]
      have : 2 * ys.length ≤ 2 ^ 53 := by omega
      exact_mod_cast this
  have a := bnd 450 xs d.mean v.mean (by norm_num) (by norm_num) hlen (fun x h => (hx x h).2) d2 v2
  rw [hsq] at d3
  have b := bnd 900 _ d.sumSquared v.sumSquared (by norm_num) (by norm_num) (by simpa using hlen) (by
    intro y hy
    obtain ⟨x, h, rfl⟩ := List.mem_map.1 hy
    exact (sq x (hx x h).2).2) d3 v3
  have c := a.mul a (by norm_num) (by norm_num)
  unfold Variance.evaluate
  exact ((b.mono (l := 1006) (by norm_num)).sub (c.mono (l := 1006) (by norm_num)) (by norm_num) (by norm_num)).eq

example : ∀ x ∈ ([2 ^ 449, -(2 ^ 440), 1 / 2 ^ 1074, 3] : List ℚ), rnd64 x = x ∧ |x| ≤ pow2 450 := by decide +kernel

/-! ## C84 -/

theorem abs_sum_le {l : List ℤ} {B : ℕ} (h : ∀ n ∈ l, |n| ≤ B) : |l.sum| ≤ l.length * B := by
  induction l with
  | nil => simp
  | cons a l ih =>
    rw [List.sum_cons, List.length_cons]
    have h1 := h a (by simp)
    have h2 := ih (fun n hn => h n (by simp [hn]))
    have := abs_add_le a l.sum
    push_cast
    linarith

/-- `b64` sums of fixed-point numbers are exact. -/
theorem Mean.run_fixed {k : ℤ} (hk : -1074 ≤ k) (B W : ℕ) (ns : List ℤ) (hn : ∀ n ∈ ns, |n| ≤ B)
    (hB : (if W = 0 then ns.length else W) * B ≤ 2 ^ 53) :
    ∃ m, updateAll (Mean.update b64) (Mean.new b64 W) (ns.map fun (n : ℤ) => (n : ℚ) * pow2 k) = .ok m ∧
      Mean.Inv W (ns.map fun (n : ℤ) => (n : ℚ) * pow2 k) m ∧ m.sum = ((windowOf W ns).sum : ℤ) * pow2 k := by
  induction ns using List.reverseRecOn with
  | nil =>
    refine ⟨_, rfl, Mean.inv_new _ W, ?_⟩
    show b64.lit 0 = _
    have : b64.lit 0 = 0 := by decide +kernel
    rw [this]
    have : windowOf W ([] : List ℤ) = [] := by unfold windowOf lastN; split <;> simp
    rw [this]; simp
  | append_singleton ns n ih =>
    have hB' : (if W = 0 then ns.length else W) * B ≤ 2 ^ 53 := by
      refine le_trans ?_ hB
      split
      · refine Nat.mul_le_mul_right B ?_
        simp
      · exact le_rfl
    obtain ⟨m, g1, g2, g3⟩ := ih (fun y hy => hn y (List.mem_append_left _ hy)) hB'
    obtain ⟨m', h1, h2, h3⟩ := Mean.update_spec b64 g2 ((n : ℚ) * pow2 k)
    refine ⟨m', by rw [List.map_append, List.map_singleton, updateAll_snoc, g1, Res.ok_bind, h1],
      by rw [List.map_append, List.map_singleton]; exact h2, ?_⟩
    rw [h3, g3]
    simp only [List.length_map, List.getElem?_map]
    have small : ∀ l : List ℤ, (∀ x ∈ l, x ∈ ns ++ [n]) → l.length ≤ (if W = 0 then (ns ++ [n]).length else W) →
        |l.sum| ≤ 2 ^ 53 := by
      intro l hl hlen
      refine (abs_sum_le (fun x hx => hn x (hl x hx))).trans ?_
      have := (Nat.mul_le_mul_right B hlen).trans hB
      exact_mod_cast this
    have add : ∀ a b : ℤ, |a + b| ≤ 2 ^ 53 → b64.add ((a : ℚ) * pow2 k) ((b : ℚ) * pow2 k) = ((a + b : ℤ) : ℚ) * pow2 k := by
      intro a b h
      show rnd64 _ = _
      rw [← add_mul, ← Int.cast_add]
      exact rnd64_repr _ _ h hk
    by_cases hW : W = 0
    · subst hW
      simp only [ne_eq, not_true_eq_false, false_and, if_false]
      have e : ∀ l : List ℤ, windowOf 0 l = l := fun l => rfl
      rw [e, e, List.sum_append, List.sum_singleton]
      refine add _ _ ?_
      have := small (ns ++ [n]) (fun x h => h) (by simp)
      rwa [List.sum_append, List.sum_singleton] at this
    · have e : ∀ l : List ℤ, windowOf W l = lastN W l := fun l => by simp [windowOf, hW]
      rw [e, e]
      by_cases hlt : ns.length < W
      · rw [if_neg (by omega), lastN_snoc_lt n hlt, List.sum_append, List.sum_singleton]
        refine add _ _ ?_
        have := small (lastN W ns ++ [n]) (fun x h => by
          rcases List.mem_append.1 h with h | h
          · exact List.mem_append_left _ (List.mem_of_mem_drop h)
          · exact List.mem_append_right _ h) (by
          rw [List.length_append, lastN_length, List.length_singleton, if_neg hW]; omega)
        rwa [List.sum_append, List.sum_singleton] at this
      · obtain ⟨a, r, r1, r2, r3⟩ := lastN_snoc_ge n (Nat.pos_of_ne_zero hW) (Nat.not_lt.1 hlt)
        have hr : ∀ x ∈ r, x ∈ ns ++ [n] := fun x h => by
          have : x ∈ lastN W ns := by rw [r1]; exact List.mem_cons_of_mem _ h
          exact List.mem_append_left _ (List.mem_of_mem_drop this)
        have hrl : r.length + 1 ≤ W := by
          have := lastN_length W ns
          rw [r1, List.length_cons] at this
          omega
        rw [if_pos ⟨hW, Nat.not_lt.1 hlt⟩, r3, r1, r2, List.sum_append, List.sum_singleton, List.sum_cons]
        simp only [Option.map_some]
        have sub : b64.sub (((a + r.sum : ℤ) : ℚ) * pow2 k) ((a : ℚ) * pow2 k) = ((r.sum : ℤ) : ℚ) * pow2 k := by
          show rnd64 _ = _
          rw [← sub_mul, ← Int.cast_sub, add_sub_cancel_left]
          exact rnd64_repr _ _ (small r hr (by rw [if_neg hW]; omega)) hk
        rw [sub]
        refine add _ _ ?_
        have := small (r ++ [n]) (fun x h => by
          rcases List.mem_append.1 h with h | h
          · exact hr x h
          · exact List.mem_append_right _ h) (by rw [List.length_append, List.length_singleton, if_neg hW]; omega)
        rwa [List.sum_append, List.sum_singleton] at this

/-- **C84**: fixed-point data (integer multiples `n · 2 ^ k` with `|n| ≤ B`; `k = 0` for integers). If `W · B ≤ 2 ^ 53` (without
a window: number of observations times `B`) the running sum of doubles never drifts, however long the stream: the mean is
the exact mean of the window, rounded once. -/
theorem C84_fixed_point (k : ℤ) (hk : -1074 ≤ k) (hk2 : k ≤ 890) (B W : ℕ) (ns : List ℤ) (hn : ∀ n ∈ ns, |n| ≤ B)
    (hB : (if W = 0 then ns.length else W) * B ≤ 2 ^ 53) (hne : ns ≠ []) (hW : W ≤ 2 ^ 53) (hlen : ns.length ≤ 2 ^ 52) :
    ∃ d, updateAll (Mean.update Dbl.arith) (Mean.new Dbl.arith W) (ns.map fun (n : ℤ) => .fin ((n : ℚ) * pow2 k)) = .ok d ∧
      d.evaluate Dbl.arith = .fin (rnd64 (mean (windowOf W (ns.map fun (n : ℤ) => (n : ℚ) * pow2 k)))) := by
  obtain ⟨m, h1, h2, h3⟩ := Mean.run_fixed hk B W ns hn hB
  have hB53 : ∀ n ∈ ns, |n| ≤ 2 ^ 53 := by
    intro n h
    refine (hn n h).trans ?_
    have h0 : 0 < ns.length := List.length_pos_of_ne_nil hne
    have : B ≤ (if W = 0 then ns.length else W) * B := by
      refine Nat.le_mul_of_pos_left _ ?_
      split <;> omega
    exact_mod_cast this.trans hB
  obtain ⟨d, m', e1, e2, e3⟩ := C83_moderate_partial W (ns.map fun (n : ℤ) => (n : ℚ) * pow2 k) (by
    intro x hx
    obtain ⟨n, h, rfl⟩ := List.mem_map.1 hx
    refine ⟨rnd64_repr n k (hB53 n h) hk, ?_⟩
    rw [abs_mul, abs_of_pos (pow2_pos k)]
    have : |(n : ℚ)| ≤ pow2 53 := by
      have e : pow2 53 = 2 ^ 53 := rfl
      rw [e]; exact_mod_cast hB53 n h
    calc |(n : ℚ)| * pow2 k ≤ pow2 53 * pow2 k := mul_le_mul_of_nonneg_right this (pow2_pos _).le
      _ = pow2 (53 + k) := (pow2_add _ _).symm
      _ ≤ pow2 950 := pow2_le.2 (by omega)) (by simpa using hlen)
  rw [List.map_map] at e1
  refine ⟨d, e1, ?_⟩
  rw [h1] at e2
  injection e2 with e2
  subst e2
  rw [e3, Mean.evaluate_eq _ h2, if_neg (by simpa using hne), h3]
  congr 1
  show rnd64 (_ / rnd64 _) = _
  rw [rnd64_int]
  · congr 1
    rw [mean, windowOf_map, List.length_map]
    congr 1
    generalize windowOf W ns = l
    clear * -
    induction l with
    | nil => simp
    | cons a l ih => rw [List.sum_cons, List.map_cons, List.sum_cons, ← ih]; push_cast; ring
  · rw [abs_of_nonneg (by positivity), windowOf_length, List.length_map]
    have : (if W = 0 then ns.length else min W ns.length) ≤ 2 ^ 53 := by split <;> omega
    exact_mod_cast this

/-- a stream of integers up to a million, window 1000 -/
example : (if (1000 : ℕ) = 0 then [999999, -5, 31].length else 1000) * 1000000 ≤ 2 ^ 53 := by norm_num
/-- cents: hundredths are no fixed-point data, sixty-fourths are -/
example : ∃ d, updateAll (Mean.update Dbl.arith) (Mean.new Dbl.arith 2)
      ([(10 : ℤ), 7, 100].map fun (n : ℤ) => .fin ((n : ℚ) * pow2 (-6))) = .ok d ∧
    d.evaluate Dbl.arith = .fin (107 / 128) := by
  obtain ⟨d, h1, h2⟩ := C84_fixed_point (-6) (by norm_num) (by norm_num) 100 2 [10, 7, 100] (by decide) (by norm_num) (by simp)
    (by norm_num) (by norm_num)
  exact ⟨d, h1, h2.trans (by decide +kernel)⟩

end KML
