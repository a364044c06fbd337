import Verif.Props.WindowedConst
import Verif.Props.IqrBound

/-! # C111: WindowedP2Quantile of a window of equal observations -/

namespace KML

set_option linter.unusedSectionVars false

/-- **C111** as stated (exact arithmetic): once the last `W` observations are equal to `c`, the estimate is `c`. -/
def C111_full : Prop := ∀ (q c : ℚ) (W : ℕ) (w : WP2 ℚ) (xs : List ℚ) (v : ℚ), 5 ≤ W → WP2.new (exact ℚ) q W = .ok w →
  WP2.valueAfter (exact ℚ) w (xs ++ List.replicate W c) = .ok v → v = c

/-- **C111** is false: after six zeros and five ones the median over a window of five is 2. -/
theorem C111_violated : ¬ C111_full := by
  intro h
  have h1 := h (1 / 2) 1 5 ⟨5, 0, P2.blank (1 / 2), 0⟩ [0, 0, 0, 0, 0, 0] 2 (by norm_num) (by decide +kernel) (by decide +kernel)
  revert h1
  norm_num

/-- Fourteen equal observations are not enough in a window of seven either: one outlier before them is still visible. -/
theorem C111_late_violated : (do
    let w ← WP2.new (exact ℚ) (9 / 10) 7
    WP2.valueAfter (exact ℚ) w (1000 :: List.replicate 14 1)) = .ok (-5259 / 32) := by
  decide +kernel

/-- When the estimate is looked at after every update, old values survive longer still: after three zeros and 21 ones in a
window of seven the estimate of the 0.1 quantile is not 1. -/
theorem C111_watched_violated : ∃ v : ℚ, v ≠ 1 ∧ (do
    let w ← WP2.new (exact ℚ) (1 / 10) 7
    let r ← SOp.run (WP2.update (exact ℚ)) (WP2.evaluate (exact ℚ)) w
      ((List.replicate 3 0 ++ List.replicate 21 1).flatMap fun x => [SOp.update x, SOp.evaluate])
    .ok (r.1.getLast?.getD 1)) = .ok v := by
  refine ⟨?_, ?_, ?_⟩
  · exact -3
  · norm_num
  · decide +kernel

section Round

variable {K : Type} [Field K] [LinearOrder K] [IsStrictOrderedRing K] [FloorRing K]

namespace WP2

/-- The block structure: the inner estimator has seen the observations since the last multiple of `W + 1`. -/
theorem updateAll_inner {F : Type} (A : Arith F) {w w' : WP2 F} {xs : List F} (hW : 0 < w.windowSize)
    (h : w.p2.historyCount = w.historyCount % (w.windowSize + 1)) (hu : updateAll (WP2.update A) w xs = .ok w') :
    w'.p2.historyCount = w'.historyCount % (w'.windowSize + 1) ∧ w'.windowSize = w.windowSize ∧
      w'.historyCount = w.historyCount + xs.length := by
  induction xs generalizing w with
  | nil =>
    simp only [updateAll] at hu; injection hu with hu; subst hu
    exact ⟨h, rfl, rfl⟩
  | cons x xs ih =>
    simp only [updateAll] at hu
    obtain ⟨w1, h1, hu⟩ := Res.bind_eq_ok.1 hu
    unfold WP2.update at h1
    simp only [gt_iff_lt, hW, if_true] at h1
    obtain ⟨p1, h2, h1⟩ := Res.bind_eq_ok.1 h1
    have hc := P2.update_count h2
    have key : w1.p2.historyCount = w1.historyCount % (w1.windowSize + 1) ∧ w1.windowSize = w.windowSize ∧
        w1.historyCount = w.historyCount + 1 := by
      split at h1
      · rename_i hm
        obtain ⟨⟨v, p2⟩, h3, h1⟩ := Res.bind_eq_ok.1 h1
        injection h1 with h1
        subst h1
        exact ⟨by simp [P2.clear, hm], rfl, rfl⟩
      · rename_i hm
        injection h1 with h1
        subst h1
        refine ⟨?_, rfl, rfl⟩
        simp only [hc, h]
        have hlt := Nat.mod_lt w.historyCount (show 0 < w.windowSize + 1 by omega)
        rw [Nat.add_mod, Nat.mod_eq_of_lt (show 1 < w.windowSize + 1 by omega)] at hm ⊢
        rcases Nat.lt_or_ge (w.historyCount % (w.windowSize + 1) + 1) (w.windowSize + 1) with h' | h'
        · rw [Nat.mod_eq_of_lt h']
        · exact absurd (by rw [show w.historyCount % (w.windowSize + 1) + 1 = w.windowSize + 1 by omega, Nat.mod_self]) hm
    obtain ⟨k1, k2, k3⟩ := key
    obtain ⟨j1, j2, j3⟩ := ih (by omega) k1 hu
    exact ⟨j1, by omega, by rw [List.length_cons]; omega⟩

/-- Updates do not see how many blocks there were before. -/
theorem update_shift {F : Type} (A : Arith F) (w : WP2 F) (m : ℕ) (x : F) :
    WP2.update A { w with historyCount := w.historyCount + m * (w.windowSize + 1) } x =
      (w.update A x).mapOk fun w' => { w' with historyCount := w'.historyCount + m * (w'.windowSize + 1) } := by
  unfold WP2.update
  have e : (w.historyCount + m * (w.windowSize + 1) + 1) % (w.windowSize + 1) =
      (w.historyCount + 1) % (w.windowSize + 1) := by
    rw [show w.historyCount + m * (w.windowSize + 1) + 1 = w.historyCount + 1 + m * (w.windowSize + 1) by ring,
      Nat.add_mul_mod_self_right]
  simp only [e]
  have e2 : w.historyCount + m * (w.windowSize + 1) + 1 = w.historyCount + 1 + m * (w.windowSize + 1) := by ring
  rcases w.p2.update A x with p | s | u
  · simp only [Res.ok_bind]
    split
    · split
      · rcases p.evaluate A with ⟨v, p'⟩ | s | u <;> simp [Res.mapOk, e2, Bind.bind, Res.bind]
      · simp [Res.mapOk, e2]
    · simp [Res.mapOk, e2]
  · rfl
  · rfl

theorem updateAll_shift {F : Type} (A : Arith F) (w : WP2 F) (m : ℕ) (xs : List F) :
    updateAll (WP2.update A) { w with historyCount := w.historyCount + m * (w.windowSize + 1) } xs =
      (updateAll (WP2.update A) w xs).mapOk fun w' => { w' with historyCount := w'.historyCount + m * (w'.windowSize + 1) } := by
  induction xs generalizing w with
  | nil => rfl
  | cons x xs ih =>
    simp only [updateAll]
    rw [update_shift]
    rcases w.update A x with w1 | s | u
    · exact ih w1
    · rfl
    · rfl

/-- Equal observations from a block boundary on. -/
theorem boundary_run (R : Rounding K) {c : K} (hc : R.rnd c = c) {W m : ℕ} (hW : 4 ≤ W) {w w' : WP2 K}
    (hs : w.windowSize = W) (hn : w.historyCount = m * (W + 1)) (hi : w.p2.historyCount = 0) (hpos : P2.PosInc w.p2.pos)
    (k : ℕ) (hu : updateAll (WP2.update R.arith) w (List.replicate k c) = .ok w') :
    w'.windowSize = W ∧ w'.historyCount = m * (W + 1) + k ∧ (5 ≤ k → AllEq c w'.p2.heights) ∧
      (k ≤ W → w'.previous = w.previous) ∧ (W < k → w'.previous = c) := by
  have e0 : w = { ({ w with historyCount := 0 } : WP2 K) with historyCount := 0 + m * (w.windowSize + 1) } := by
    obtain ⟨a, b, p, v⟩ := w
    simp only at hs hn
    subst hs hn
    simp
  rw [e0, updateAll_shift R.arith { w with historyCount := 0 } m] at hu
  have h0 : Const R c W 0 ({ w with historyCount := 0 } : WP2 K) :=
    ⟨hs, rfl, by simpa using hi, hpos, by simp, by simp, by simp⟩
  rcases hv : updateAll (WP2.update R.arith) ({ w with historyCount := 0 } : WP2 K) (List.replicate k c) with w1 | s | u
  · rw [hv] at hu
    simp only [Res.mapOk] at hu
    injection hu with hu
    have key : ∀ k (w : WP2 K) j, Const R c W j w →
        updateAll (WP2.update R.arith) w (List.replicate k c) = .ok w1 → Const R c W (j + k) w1 := by
      intro k
      induction k with
      | zero =>
        intro w j hj hu
        simp only [List.replicate_zero, updateAll] at hu
        injection hu with hu; subst hu; exact hj
      | succ k ih =>
        intro w j hj hu
        simp only [List.replicate_succ, updateAll] at hu
        obtain ⟨w2, h1, hu⟩ := Res.bind_eq_ok.1 hu
        have := ih w2 (j + 1) (Const.update hc hW hj h1) hu
        rw [show j + (k + 1) = j + 1 + k by omega]
        exact this
    have h1 := key k _ 0 h0 hv
    rw [Nat.zero_add] at h1
    subst hu
    refine ⟨h1.size, ?_, h1.late, ?_, h1.prev⟩
    · simp only [h1.size, h1.count]; ring
    · intro hk
      have e : ({ w with historyCount := 0 } : WP2 K) = ⟨W, 0, w.p2, w.previous⟩ := by rw [← hs]
      rw [e, updateAll_short _ _ _ _ _ _ (by simpa using hk)] at hv
      rcases hp : updateAll (P2.update R.arith) w.p2 (List.replicate k c) with p | s | u
      · rw [hp] at hv
        simp only [Res.mapOk] at hv
        injection hv with hv
        rw [← hv]
      · rw [hp] at hv; cases hv
      · rw [hp] at hv; cases hv
  · rw [hv] at hu; cases hu
  · rw [hv] at hu; cases hu

/-- The value when all heights are `c`. -/
theorem value_const {R : Rounding K} {lo hi c : K} {W n : ℕ} (hW : 0 < W) (hW' : W ≤ 2 ^ 53) {w : WP2 K}
    (hh : Hull R lo hi w) (hs : w.windowSize = W) (hn : w.historyCount = n) (hWn : W < n)
    (ha : AllEq c w.p2.heights) :
    ∃ w'', w.evaluate R.arith = .ok (R.rnd (R.rnd ((1 - ((n % W + 1 : ℕ) : K)) * w.previous) +
      R.rnd (((n % W + 1 : ℕ) : K) * c)), w'') := by
  obtain ⟨v, r, w2, e1, e2, -, -, -, -, e3⟩ := hh.evaluate (by omega)
  have hv : v = c := (evaluate_const ha e1).1
  refine ⟨w2, ?_⟩
  rw [e2, e3, hv, hs, hn, if_neg (by omega)]
  have hj : n % W + 1 ≤ 2 ^ 53 := (Nat.mod_lt n hW).trans_le hW'
  have k1 : R.arith.ofNat (n % W + 1) = ((n % W + 1 : ℕ) : K) := by
    show R.rnd (((n % W + 1 : ℕ) : ℤ) : K) = _
    rw [Int.cast_natCast]
    exact R.rnd_nat _ hj
  have k2 : R.arith.lit 1 = (1 : K) := by
    show R.rnd ((1 : ℚ) : K) = 1
    rw [Rat.cast_one, R.rnd_one]
  have k3 : R.arith.sub (R.arith.lit 1) (R.arith.ofNat (n % W + 1)) = 1 - ((n % W + 1 : ℕ) : K) := by
    rw [k1, k2]
    show R.rnd (1 - ((n % W + 1 : ℕ) : K)) = _
    have := R.int_exact (1 - ((n % W + 1 : ℕ) : ℤ)) (by rw [abs_le]; constructor <;> push_cast <;> omega)
    rw [Int.cast_sub, Int.cast_one, Int.cast_natCast] at this
    exact this
  rw [k3, k1]
  rfl

/-- A hull of the whole run. -/
theorem hull_run (R : Rounding K) {q : K} {W : ℕ} (hW : 0 < W) {w w' : WP2 K} (hw : WP2.new R.arith q W = .ok w)
    {xs : List K} (hx : ∀ x ∈ xs, R.rnd x = x) (hu : updateAll (WP2.update R.arith) w xs = .ok w') :
    (∃ b, Hull R (-b) b w') ∧ w'.windowSize = W ∧ w'.historyCount = xs.length ∧
      w'.p2.historyCount = xs.length % (W + 1) := by
  obtain ⟨b, hb0, hb⟩ := exists_bound xs
  have hh : Hull R (-b) b w := Hull.new hw (by linarith) hb0
  obtain ⟨p, hp, rfl⟩ := new_eq_ok hw
  obtain ⟨h1, h2, h3⟩ := updateAll_hull hh hW (fun x h => ⟨hx x h, hb x h⟩) hu
  have e := P2.new_eq_ok hp
  obtain ⟨i1, -, -⟩ := updateAll_inner R.arith (w := ⟨W, 0, p, R.arith.lit 0⟩) hW (by rw [e]; simp) hu
  simp only [Nat.zero_add] at h2 h3
  exact ⟨⟨b, h1⟩, h2, h3, by rw [i1, h2, h3]⟩

/-- Short histories are defined. -/
theorem updateAll_ok {R : Rounding K} {lo hi : K} {w : WP2 K} (h : Hull R lo hi w) (hW : 0 < w.windowSize) {n : ℕ}
    (hf : Fits w n) (xs : List K) (hx : ∀ x ∈ xs, R.rnd x = x ∧ lo ≤ x ∧ x ≤ hi) (hlen : n + xs.length ≤ 2 ^ 31) :
    ∃ w', updateAll (WP2.update R.arith) w xs = .ok w' := by
  induction xs generalizing w n with
  | nil => exact ⟨w, rfl⟩
  | cons x xs ih =>
    rw [List.length_cons] at hlen
    obtain ⟨x1, x2, x3⟩ := hx x List.mem_cons_self
    obtain ⟨w1, h1, hf1⟩ := update_fits h hf (by omega) x1 x2 x3
    obtain ⟨k1, k2, k3⟩ := h.update hW x1 x2 x3 h1
    obtain ⟨w', h2⟩ := ih k1 (by omega) hf1 (fun y hy => hx y (List.mem_cons_of_mem _ hy)) (by omega)
    exact ⟨w', by simp only [updateAll, h1, Res.ok_bind, h2]⟩

end WP2

/-- **C111**, the part that holds (any rounding): whatever was observed before, from `2 W + 1` equal observations on the
estimate is the rounded value of `(1 - j) c + j c`, `j` being one more than the number of observations modulo `W`. -/
theorem C111_rounded_partial (R : Rounding K) (q c : K) (hc : R.rnd c = c) (W : ℕ) (hW : 4 ≤ W) (hW' : W ≤ 2 ^ 53)
    (w w' : WP2 K) (hw : WP2.new R.arith q W = .ok w) (xs : List K) (hx : ∀ x ∈ xs, R.rnd x = x) (k : ℕ)
    (hk : 2 * W + 1 ≤ k) (hu : updateAll (WP2.update R.arith) w (xs ++ List.replicate k c) = .ok w') :
    ∃ w'', w'.evaluate R.arith = .ok (R.rnd (R.rnd ((1 - (((xs.length + k) % W + 1 : ℕ) : K)) * c) +
      R.rnd ((((xs.length + k) % W + 1 : ℕ) : K) * c)), w'') := by
  have hx' : ∀ x ∈ xs ++ List.replicate k c, R.rnd x = x := by
    intro x h
    rcases List.mem_append.1 h with h | h
    · exact hx x h
    · rw [List.eq_of_mem_replicate h]; exact hc
  obtain ⟨⟨b, hh⟩, hs, hn, -⟩ := WP2.hull_run R (by omega) hw hx' hu
  obtain ⟨r, m, hr, hrm⟩ : ∃ r m, r ≤ W ∧ xs.length + r = m * (W + 1) := by
    have h1 := Nat.div_add_mod xs.length (W + 1)
    have h2 := Nat.mod_lt xs.length (show 0 < W + 1 by omega)
    rcases Nat.eq_zero_or_pos (xs.length % (W + 1)) with h0 | h0
    · exact ⟨0, xs.length / (W + 1), by omega, by rw [Nat.mul_comm]; omega⟩
    · refine ⟨W + 1 - xs.length % (W + 1), xs.length / (W + 1) + 1, by omega, ?_⟩
      rw [Nat.add_mul, Nat.mul_comm, one_mul]; omega
  have hsplit : xs ++ List.replicate k c = (xs ++ List.replicate r c) ++ List.replicate (k - r) c := by
    rw [List.append_assoc, ← List.replicate_add, Nat.add_sub_cancel' (by omega)]
  rw [hsplit, updateAll_append] at hu
  obtain ⟨w1, hu1, hu2⟩ := Res.bind_eq_ok.1 hu
  obtain ⟨⟨b1, hh1⟩, s1, n1, i1⟩ := WP2.hull_run R (by omega) hw (fun x h => hx' x (by rw [hsplit]; exact List.mem_append_left _ h)) hu1
  have hl : (xs ++ List.replicate r c).length = m * (W + 1) := by simpa using hrm
  rw [hl] at n1 i1
  rw [Nat.mul_mod_left] at i1
  obtain ⟨t1, t2, t3, -, t5⟩ := WP2.boundary_run R hc hW s1 n1 i1 hh1.p2.pos (k - r) hu2
  have hl' : W < xs.length + k := by omega
  rw [List.length_append, List.length_replicate] at hn
  obtain ⟨w2, h2⟩ := WP2.value_const (R := R) (by omega) hW' hh hs hn hl' (t3 (by omega))
  rw [t5 (by omega)] at h2
  exact ⟨w2, h2⟩

/-- **C111**, the part that holds in exact arithmetic: whatever was observed before, from `2 W + 1` equal observations on the
estimate is that value. Missing: from `W` on. -/
theorem C111_settles_partial (q c : K) (W : ℕ) (hW : 4 ≤ W) (hW' : W ≤ 2 ^ 53)
    (w w' : WP2 K) (hw : WP2.new (exact K) q W = .ok w) (xs : List K) (k : ℕ) (hk : 2 * W + 1 ≤ k)
    (hu : updateAll (WP2.update (exact K)) w (xs ++ List.replicate k c) = .ok w') :
    ∃ w'', w'.evaluate (exact K) = .ok (c, w'') := by
  obtain ⟨w2, h⟩ := C111_rounded_partial Rounding.none q c rfl W hW hW' w w' hw xs (fun _ _ => rfl) k hk hu
  refine ⟨w2, h.trans ?_⟩
  congr 2
  simp only [Rounding.none]
  ring

/-- Fifteen ones in a window of seven are enough. -/
example : (do
    let w ← WP2.new (exact ℚ) (9 / 10) 7
    WP2.valueAfter (exact ℚ) w (1000 :: List.replicate 15 1)) = .ok 1 := by
  decide +kernel

/-- **C111**, StreamingIQR (any rounding): whatever was observed before, from `2 W + 1` equal observations on it is exactly 0. -/
theorem C111_iqr_partial (R : Rounding K) (low high c : K) (hc : R.rnd c = c) (W : ℕ) (hW : 4 ≤ W) (hW' : W ≤ 2 ^ 53)
    (i i' : IQR K) (hi : IQR.new R.arith low high W = .ok i) (xs : List K) (hx : ∀ x ∈ xs, R.rnd x = x) (k : ℕ)
    (hk : 2 * W + 1 ≤ k) (hu : updateAll (IQR.update R.arith) i (xs ++ List.replicate k c) = .ok i') :
    ∃ i'', i'.evaluate R.arith = .ok (0, i'') := by
  obtain ⟨h1, h2, -⟩ := IQR.new_eq_ok.1 hi
  obtain ⟨k1, k2⟩ := IQR.updateAll_parts hu
  obtain ⟨l, e1⟩ := C111_rounded_partial R low c hc W hW hW' _ _ h1 xs hx k hk k1
  obtain ⟨h, e2⟩ := C111_rounded_partial R high c hc W hW hW' _ _ h2 xs hx k hk k2
  refine ⟨{ i' with low := l, high := h }, ?_⟩
  unfold IQR.evaluate
  rw [e2, e1]
  simp [Rounding.arith, R.rnd_zero]

/-- An outlier and fifteen ones in a window of seven; with fourteen the range is not 0. -/
example : (do
    let i ← IQR.new (exact ℚ) (1 / 10) (9 / 10) 7
    IQR.valueAfter (exact ℚ) i (1000 :: List.replicate 15 1)) = .ok 0 ∧ (do
    let i ← IQR.new (exact ℚ) (1 / 10) (9 / 10) 7
    IQR.valueAfter (exact ℚ) i (1000 :: List.replicate 14 1)) = .ok (-5291 / 32) := by
  decide +kernel

/-- **C111**, the response to a jump at a block boundary (any rounding): after `W + 1` observations `a` and `k` observations
`b`, `5 ≤ k ≤ W`, the estimate is `(1 - j) a + j b` with `j = (k + 1) % W + 1`, up to the rounding of the three operations. -/
theorem C111_jump_partial (R : Rounding K) (q a b : K) (ha : R.rnd a = a) (hb : R.rnd b = b) (W : ℕ) (hW : 5 ≤ W)
    (hW' : W ≤ 2 ^ 53) (w w' : WP2 K) (hw : WP2.new R.arith q W = .ok w) (k : ℕ) (hk5 : 5 ≤ k) (hk : k ≤ W)
    (hu : updateAll (WP2.update R.arith) w (List.replicate (W + 1) a ++ List.replicate k b) = .ok w') :
    ∃ w'', w'.evaluate R.arith = .ok (R.rnd (R.rnd ((1 - (((k + 1) % W + 1 : ℕ) : K)) * a) +
      R.rnd ((((k + 1) % W + 1 : ℕ) : K) * b)), w'') := by
  have hx' : ∀ x ∈ List.replicate (W + 1) a ++ List.replicate k b, R.rnd x = x := by
    intro x h
    rcases List.mem_append.1 h with h | h <;> rw [List.eq_of_mem_replicate h]
    · exact ha
    · exact hb
  obtain ⟨⟨B, hh⟩, hs, hn, -⟩ := WP2.hull_run R (by omega) hw hx' hu
  rw [updateAll_append] at hu
  obtain ⟨w1, hu1, hu2⟩ := Res.bind_eq_ok.1 hu
  obtain ⟨hc1, B1, hh1⟩ := WP2.const_run R q a ha W (by omega) w w1 hw (W + 1) hu1
  obtain ⟨t1, t2, t3, t4, -⟩ := WP2.boundary_run R hb (by omega) hc1.size (m := 1) (by rw [hc1.count, one_mul])
    (by rw [hc1.inner, Nat.mod_self]) hh1.p2.pos k hu2
  rw [List.length_append, List.length_replicate, List.length_replicate] at hn
  obtain ⟨w2, h2⟩ := WP2.value_const (R := R) (by omega) hW' hh hs hn (by omega) (t3 hk5)
  rw [t4 hk, hc1.prev (by omega), show W + 1 + k = k + 1 + W by omega, Nat.add_mod_right] at h2
  exact ⟨w2, h2⟩

/-- **C43**, the bound of `C43_extrapolation_partial` is attained for every window of seven or more and every level: after
`W + 1` zeros and `W - 2` ones the estimate is `W`, and after `W + 1` ones and `W - 2` zeros it is `1 - W`. -/
theorem C43_attained_partial (q : K) (W : ℕ) (hW : 7 ≤ W) (hW' : W ≤ 2 ^ 30) (w : WP2 K) (hw : WP2.new (exact K) q W = .ok w) :
    WP2.valueAfter (exact K) w (List.replicate (W + 1) 0 ++ List.replicate (W - 2) 1) = .ok (W : K) ∧
    WP2.valueAfter (exact K) w (List.replicate (W + 1) 1 ++ List.replicate (W - 2) 0) = .ok (1 - (W : K)) := by
  have key : ∀ a b : K, WP2.valueAfter (exact K) w (List.replicate (W + 1) a ++ List.replicate (W - 2) b) =
      .ok ((1 - (W : K)) * a + (W : K) * b) := by
    intro a b
    obtain ⟨B, hB0, hB⟩ := exists_bound (List.replicate (W + 1) a ++ List.replicate (W - 2) b)
    have hh : WP2.Hull Rounding.none (-B) B w := WP2.Hull.new hw (by linarith) hB0
    have hs : w.windowSize = W := by obtain ⟨p, -, rfl⟩ := WP2.new_eq_ok hw; rfl
    obtain ⟨w', hu⟩ := WP2.updateAll_ok hh (by omega) (WP2.fits_new (R := Rounding.none) hw) _ (fun x hx => ⟨rfl, hB x hx⟩)
      (by rw [List.length_append, List.length_replicate, List.length_replicate]; omega)
    obtain ⟨w2, h2⟩ := C111_jump_partial Rounding.none q a b rfl rfl W (by omega) (by omega) w w' hw (W - 2) (by omega)
      (by omega) hu
    rw [show W - 2 + 1 = W - 1 by omega, Nat.mod_eq_of_lt (by omega), show W - 1 + 1 = W by omega] at h2
    unfold WP2.valueAfter
    rw [show exact K = (Rounding.none (K := K)).arith from rfl, hu, Res.ok_bind, h2, Res.ok_bind]
    rfl
  constructor
  · rw [key]; simp
  · rw [key]; simp

/-- Window seven. -/
example : (do
    let w ← WP2.new (exact ℚ) (1 / 2) 7
    WP2.valueAfter (exact ℚ) w (List.replicate 8 0 ++ List.replicate 5 1)) = .ok 7 := by
  decide +kernel

end Round

/-- **C111**, the part that holds on doubles: whatever moderate doubles were observed before, from `2 W + 1` equal observations
on the estimate is a finite double within `(2 W + 1) 2 ^ -53 |c|` of `c`. -/
theorem C111_double_partial (q c : ℚ) (hc : IsModerate c) (W : ℕ) (hW : 4 ≤ W) (hW' : W ≤ 2 ^ 52)
    (hq : ∃ w, WP2.new b64 q W = .ok w) (d d' : WP2 Dbl) (hd : WP2.new Dbl.arith (.fin q) W = .ok d) (xs : List ℚ)
    (hx : ∀ x ∈ xs, IsModerate x) (k : ℕ) (hk : 2 * W + 1 ≤ k)
    (hu : updateAll (WP2.update Dbl.arith) d ((xs ++ List.replicate k c).map .fin) = .ok d') :
    ∃ v d'', d'.evaluate Dbl.arith = .ok (.fin v, d'') ∧ |v - c| ≤ (2 * W + 1) / 2 ^ 53 * |c| := by
  obtain ⟨w, hw⟩ := hq
  obtain ⟨h1, h2⟩ := WP2.new_dbl (hW'.trans_lt (by norm_num)) hw (M := 950)
  rw [hd] at h1
  injection h1 with h1
  subst h1
  obtain ⟨w', hu', rfl, hf⟩ := h2.updateAll (by norm_num) (by norm_num) _
    (fun x hx' => by
      rcases List.mem_append.1 hx' with h | h
      · exact hx x h
      · rw [List.eq_of_mem_replicate h]; exact hc) hu
  obtain ⟨w2, e1⟩ := C111_rounded_partial R64 q c hc.1 W hW (hW'.trans (by norm_num)) w w' hw xs
    (fun x h => (hx x h).1) k hk hu'
  refine ⟨_, w2.map .fin, by rw [(hf.evaluate (by norm_num) (by norm_num)).1]; exact congrArg (Res.mapOk _) e1, ?_⟩
  have j2 : (xs.length + k) % W + 1 ≤ W := Nat.mod_lt _ (by omega)
  refine (rnd64_combination hc.1 (by omega) (j2.trans hW')).trans ?_
  have : (((xs.length + k) % W + 1 : ℕ) : ℚ) ≤ W := by exact_mod_cast j2
  refine mul_le_mul_of_nonneg_right ?_ (abs_nonneg c)
  clear hc hx hu' e1 hf h2 hu
  gcongr

/-- A window of 300 at the 0.9 quantile, after an outlier. -/
example : IsModerate 1000 ∧ ∃ w, WP2.new b64 (9 / 10) 300 = .ok w :=
  ⟨⟨by decide +kernel, by decide +kernel⟩, ⟨300, 0, P2.blank (9 / 10), 0⟩, by decide +kernel⟩

end KML
