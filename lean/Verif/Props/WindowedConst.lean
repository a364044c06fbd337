import Verif.Props.Windowed
import Verif.Props.DoubleQuantile

/-! # C42 on doubles: WindowedP2Quantile on constant streams -/

namespace KML

set_option linter.unusedSectionVars false

/-- **C42** as stated, on doubles. -/
def C42_full : Prop := ∀ (q c : ℚ) (W n : ℕ) (d : WP2 Dbl) (v : Dbl), IsDouble c → 4 ≤ W → 5 ≤ n →
  WP2.new Dbl.arith (.fin q) W = .ok d → WP2.valueAfter Dbl.arith d (List.replicate n (.fin c)) = .ok v → v = .fin c

/-- **C42** is false on doubles: after six observations of 0.1 in a window of four the estimate is 0.10000000000000003, because
`-2 * 0.1 + 3 * 0.1` is. -/
theorem C42_violated : ¬ C42_full := by
  intro h
  have h1 := h (1 / 2) (rnd64 (1 / 10)) 4 6 ⟨4, 0, (P2.blank (1 / 2)).dbl, .fin 0⟩
    (.fin (rnd64 (1 / 10) + 1 / 2 ^ 55)) ⟨rnd64_idem _, by decide +kernel⟩ (by norm_num) (by norm_num)
    (by decide +kernel) (by decide +kernel)
  revert h1
  decide +kernel

/-- With the largest double the two products overflow and the estimate is no number at all. -/
theorem C42_overflow_violated : (do
    let w ← WP2.new Dbl.arith (.fin (1 / 2)) 4
    WP2.valueAfter Dbl.arith w (List.replicate 6 (.fin dblMax))) = .ok .nan := by
  decide +kernel

/-- On the grid of the doubles (the integer multiples of `2 ^ -1074`) rounding has a relative error of at most `2 ^ -53`, with
no allowance for underflow. -/
theorem rnd64_rel_grid {x : ℚ} (h : ∃ m : ℤ, x = m * pow2 (-1074)) : |rnd64 x - x| ≤ 1 / 2 ^ 53 * |x| := by
  rcases lt_or_ge (expo x) (-1022) with h1 | h1
  · obtain ⟨m, rfl⟩ := h
    rw [rnd64_sub h1, rndAt_int_mul, sub_self, abs_zero]
    positivity
  · rw [rnd64_normal h1, one_div, inv_mul_eq_div]
    exact rnd53_rel x

/-- The error of `(1 - j) c + j c` in doubles. -/
theorem rnd64_combination {c : ℚ} (hc : rnd64 c = c) {j : ℕ} (h1 : 1 ≤ j) (hj : j ≤ 2 ^ 52) :
    |rnd64 (rnd64 ((1 - (j : ℚ)) * c) + rnd64 ((j : ℚ) * c)) - c| ≤ (2 * j + 1) / 2 ^ 53 * |c| := by
  obtain ⟨m, hm⟩ := rnd64_grid hc
  have j1 : (1 : ℚ) ≤ j := by exact_mod_cast h1
  have j2 : (j : ℚ) ≤ 2 ^ 52 := by exact_mod_cast hj
  have e1 := rnd64_rel_grid (x := (1 - (j : ℚ)) * c) ⟨(1 - j) * m, by rw [hm]; push_cast; ring⟩
  have e2 := rnd64_rel_grid (x := (j : ℚ) * c) ⟨j * m, by rw [hm]; push_cast; ring⟩
  obtain ⟨m1, hm1⟩ := rnd64_grid (rnd64_idem ((1 - (j : ℚ)) * c))
  obtain ⟨m2, hm2⟩ := rnd64_grid (rnd64_idem ((j : ℚ) * c))
  have e3 := rnd64_rel_grid (x := rnd64 ((1 - (j : ℚ)) * c) + rnd64 ((j : ℚ) * c))
    ⟨m1 + m2, by rw [hm1, hm2]; push_cast; ring⟩
  rw [abs_mul, show |1 - (j : ℚ)| = j - 1 by rw [abs_of_nonpos (by linarith)]; ring] at e1
  rw [abs_mul, abs_of_nonneg (show (0 : ℚ) ≤ j by linarith)] at e2
  set a := rnd64 ((1 - (j : ℚ)) * c) with ha
  set b := rnd64 ((j : ℚ) * c) with hb
  have s : |a + b - c| ≤ (2 * j - 1) / 2 ^ 53 * |c| := by
    have : a + b - c = (a - (1 - (j : ℚ)) * c) + (b - j * c) := by ring
    rw [this]
    refine (abs_add_le _ _).trans ?_
    have := add_le_add e1 e2
    refine this.trans (le_of_eq ?_)
    ring
  have s2 : |a + b| ≤ |c| + (2 * j - 1) / 2 ^ 53 * |c| := by
    have : a + b = c + (a + b - c) := by ring
    rw [this]
    exact (abs_add_le _ _).trans (add_le_add le_rfl s)
  have s3 : (2 * (j : ℚ) - 1) / 2 ^ 53 ≤ 1 := by
    rw [div_le_one (by norm_num)]; linarith
  have c0 := abs_nonneg c
  have s4 : |a + b| ≤ 2 * |c| := by
    have := mul_le_mul_of_nonneg_right s3 c0
    linarith
  have : rnd64 (a + b) - c = (rnd64 (a + b) - (a + b)) + (a + b - c) := by ring
  rw [this]
  refine (abs_add_le _ _).trans ?_
  have s5 : 1 / 2 ^ 53 * |a + b| ≤ 1 / 2 ^ 53 * (2 * |c|) := mul_le_mul_of_nonneg_left s4 (by norm_num)
  refine (add_le_add (e3.trans s5) s).trans (le_of_eq ?_)
  ring

/-- **C42**, a part that holds in binary64: up to the window size the estimate is exactly `c`; afterwards it differs from `c`
by at most `(2 W + 1) 2 ^ -53 |c|`, however long the stream. -/
theorem C42_error_partial (q c : ℚ) (hc : rnd64 c = c) (W : ℕ) (hW : 4 ≤ W) (hW' : W ≤ 2 ^ 52) (w w' : WP2 ℚ)
    (hw : WP2.new b64 q W = .ok w) (n : ℕ) (hn : 5 ≤ n)
    (hu : updateAll (WP2.update b64) w (List.replicate n c) = .ok w') :
    ∃ v w'', w'.evaluate b64 = .ok (v, w'') ∧ (n ≤ W → v = c) ∧ |v - c| ≤ (2 * W + 1) / 2 ^ 53 * |c| := by
  obtain ⟨w2, h⟩ := WP2.const_value R64 q c hc W hW (hW'.trans (by norm_num)) w w' hw n hn hu
  refine ⟨_, w2, h, fun h => if_pos h, ?_⟩
  have c0 := abs_nonneg c
  split
  · rw [sub_self, abs_zero]; positivity
  · have hj : n % W + 1 ≤ W := Nat.mod_lt n (by omega)
    refine (rnd64_combination hc (j := n % W + 1) (by omega) (hj.trans hW')).trans ?_
    refine mul_le_mul_of_nonneg_right ?_ c0
    have : ((n % W + 1 : ℕ) : ℚ) ≤ W := by exact_mod_cast hj
    gcongr

/-- **C42**, a part that holds in any rounding: if the products `j c` with `|j| ≤ W` are floating point numbers (for instance
`c` an integer with `W |c| ≤ 2 ^ 53`), the estimate is exactly `c` for every length. -/
theorem C42_short_partial {K : Type} [Field K] [LinearOrder K] [IsStrictOrderedRing K] [FloorRing K] (R : Rounding K)
    (q c : K) (W : ℕ) (hW : 4 ≤ W) (hW' : W ≤ 2 ^ 53) (hc : ∀ j : ℤ, |j| ≤ W → R.rnd (j * c) = j * c) (w w' : WP2 K)
    (hw : WP2.new R.arith q W = .ok w) (n : ℕ) (hn : 5 ≤ n)
    (hu : updateAll (WP2.update R.arith) w (List.replicate n c) = .ok w') :
    ∃ w'', w'.evaluate R.arith = .ok (c, w'') := by
  have c1 : R.rnd c = c := by simpa using hc 1 (by rw [abs_one]; exact_mod_cast (by omega : 1 ≤ W))
  obtain ⟨w2, h⟩ := WP2.const_value R q c c1 W hW hW' w w' hw n hn hu
  refine ⟨w2, h.trans ?_⟩
  congr 2
  split
  · rfl
  · have hj : n % W + 1 ≤ W := Nat.mod_lt n (by omega)
    have h1 := hc (1 - (n % W + 1 : ℕ)) (by rw [abs_le]; omega)
    have h2 := hc (n % W + 1 : ℕ) (by rw [abs_le]; omega)
    rw [Int.cast_sub, Int.cast_one, Int.cast_natCast] at h1
    rw [Int.cast_natCast] at h2
    rw [h1, h2, ← add_mul, sub_add_cancel, one_mul, c1]

/-- Sevens are short. -/
example (j : ℤ) (h : |j| ≤ (5 : ℕ)) : R64.rnd (j * 7) = j * 7 := by
  have := R64.int_exact (j * 7) (by rw [abs_mul]; push_cast at h; norm_num; omega)
  push_cast at this
  exact this

/-- Updates with moderate doubles are the updates of binary64. -/
theorem WP2.Fit.updateAll {M : ℤ} (hM0 : 0 ≤ M) (hM : M ≤ 980) {w : WP2 ℚ} (h : WP2.Fit M w) (xs : List ℚ)
    (hx : ∀ x ∈ xs, rnd64 x = x ∧ |x| ≤ pow2 M) {d : WP2 Dbl}
    (hu : KML.updateAll (WP2.update Dbl.arith) (w.map .fin) (xs.map .fin) = .ok d) :
    ∃ w', KML.updateAll (WP2.update b64) w xs = .ok w' ∧ d = w'.map .fin ∧ WP2.Fit M w' := by
  induction xs generalizing w with
  | nil =>
    simp only [List.map_nil, KML.updateAll] at hu ⊢
    injection hu with hu
    exact ⟨w, rfl, hu.symm, h⟩
  | cons x xs ih =>
    simp only [List.map_cons, KML.updateAll] at hu ⊢
    have hx0 := hx x List.mem_cons_self
    obtain ⟨e1, e2⟩ := h.update hM0 hM hx0.1 hx0.2
    rw [e1] at hu
    rcases hw : w.update b64 x with w1 | m | u
    · rw [hw] at hu
      exact ih (e2 w1 hw) (fun y hy => hx y (List.mem_cons_of_mem _ hy)) hu
    · rw [hw] at hu; exact absurd hu (by simp [Bind.bind, Res.bind])
    · rw [hw] at hu; exact absurd hu (by simp [Bind.bind, Res.bind])

/-- **C42**, a part that holds on doubles: for `|c| ≤ 2 ^ 950` the estimate of a constant stream is a finite double within
`(2 W + 1) 2 ^ -53 |c|` of `c`, and equal to `c` up to the window size. -/
theorem C42_double_partial (q c : ℚ) (hc : IsModerate c) (W : ℕ) (hW : 4 ≤ W) (hW' : W ≤ 2 ^ 52) (hq : ∃ w, WP2.new b64 q W = .ok w)
    (d d' : WP2 Dbl) (hd : WP2.new Dbl.arith (.fin q) W = .ok d) (n : ℕ) (hn : 5 ≤ n)
    (hu : updateAll (WP2.update Dbl.arith) d (List.replicate n (.fin c)) = .ok d') :
    ∃ v d'', d'.evaluate Dbl.arith = .ok (.fin v, d'') ∧ (n ≤ W → v = c) ∧ |v - c| ≤ (2 * W + 1) / 2 ^ 53 * |c| := by
  obtain ⟨w, hw⟩ := hq
  obtain ⟨h1, h2⟩ := WP2.new_dbl (hW'.trans_lt (by norm_num)) hw (M := 950)
  rw [hd] at h1
  injection h1 with h1
  subst h1
  rw [← List.map_replicate] at hu
  obtain ⟨w', hu', rfl, hf⟩ := h2.updateAll (by norm_num) (by norm_num) _
    (fun x hx => by rw [List.eq_of_mem_replicate hx]; exact hc) hu
  obtain ⟨v, w2, e1, e2, e3⟩ := C42_error_partial q c hc.1 W hW hW' w w' hw n hn hu'
  refine ⟨v, w2.map .fin, ?_, e2, e3⟩
  rw [(hf.evaluate (by norm_num) (by norm_num)).1, e1]
  rfl

/-- A window of 300 at the 0.9 quantile can be set up. -/
example : ∃ w, WP2.new b64 (9 / 10) 300 = .ok w := ⟨⟨300, 0, P2.blank (9 / 10), 0⟩, by decide +kernel⟩

end KML
