import Verif.Props.WindowedJump

/-!
# C43, C45 on doubles: how far WindowedP2Quantile and StreamingIQR leave the range of the data
-/

namespace KML

open Spec

set_option linter.unusedSectionVars false

section Round

variable {K : Type} [Field K] [LinearOrder K] [IsStrictOrderedRing K] [FloorRing K]

namespace WP2

theorem prev_rep {R : Rounding K} {lo hi : K} {w w' : WP2 K} (h : Hull R lo hi w) (hW : 0 < w.windowSize)
    (hp : R.rnd w.previous = w.previous) {xs : List K} (hx : ∀ x ∈ xs, R.rnd x = x ∧ lo ≤ x ∧ x ≤ hi)
    (hu : updateAll (WP2.update R.arith) w xs = .ok w') : R.rnd w'.previous = w'.previous := by
  induction xs generalizing w with
  | nil => simp only [updateAll] at hu; injection hu with hu; subst hu; exact hp
  | cons x xs ih =>
    simp only [updateAll] at hu
    obtain ⟨w1, h1, hu⟩ := Res.bind_eq_ok.1 hu
    obtain ⟨x1, x2, x3⟩ := hx x (by simp)
    obtain ⟨k1, k2, k3⟩ := h.update hW x1 x2 x3 h1
    refine ih k1 (by omega) ?_ (fun y hy => hx y (by simp [hy])) hu
    unfold WP2.update at h1
    obtain ⟨p1, h2, h1⟩ := Res.bind_eq_ok.1 h1
    have hh := h.p2.update x1 x2 x3 h2
    rw [if_pos (show w.windowSize > 0 from hW)] at h1
    split at h1
    · obtain ⟨⟨v, p2⟩, h3, h1⟩ := Res.bind_eq_ok.1 h1
      injection h1 with h1
      subst h1
      obtain ⟨v', p', e1, e2, -⟩ := P2.evaluate_spec (R := R) hh.q0 hh.q1
      rw [h3] at e1
      injection e1 with e1
      injection e1 with e1 _
      subst e1
      exact hh.rep _ e2
    · injection h1 with h1; subst h1; exact hp

/-- From the fifth observation on everything stored lies in the range of the data, which need not contain 0. -/
theorem hull_five (R : Rounding K) (q : K) (W : ℕ) (hW : 4 ≤ W) (w w' : WP2 K)
    (hw : WP2.new R.arith q W = .ok w) (xs : List K) (h5 : 5 ≤ xs.length) (lo hi : K) (hr : ∀ x ∈ xs, R.rnd x = x)
    (hx : InRange lo hi xs) (hu : updateAll (WP2.update R.arith) w xs = .ok w') :
    Hull R lo hi w' ∧ w'.windowSize = W ∧ R.rnd w'.previous = w'.previous := by
  obtain ⟨p, hp, rfl⟩ := WP2.new_eq_ok hw
  obtain ⟨a, b, c, d, e, ys, rfl⟩ : ∃ a b c d e ys, xs = [a, b, c, d] ++ ([e] ++ ys) := by
    match xs, h5 with
    | a :: b :: c :: d :: e :: ys, _ => exact ⟨a, b, c, d, e, ys, rfl⟩
  rw [updateAll_append] at hu
  obtain ⟨w4, h4, hu4⟩ := Res.bind_eq_ok.1 hu
  rw [updateAll_append] at hu4
  obtain ⟨w5, h5', hu5⟩ := Res.bind_eq_ok.1 hu4
  rw [WP2.updateAll_short _ _ _ _ _ _ (by simpa using hW)] at h4
  rcases h4' : updateAll (P2.update R.arith) p [a, b, c, d] with p4 | m | u
  · rw [h4'] at h4
    simp only [Res.mapOk] at h4
    injection h4 with h4
    subst h4
    have s0 := P2.Since.start (R := R) (P2.Hull.new (R := R) hp le_rfl le_rfl) (by rw [P2.new_eq_ok hp])
    have s4 := s0.updateAll (fun x hx' => hr x (List.mem_append_left _ hx')) h4'
    have hull5 : ∀ p5, P2.update R.arith p4 e = .ok p5 → P2.Hull R lo hi p5 := by
      intro p5 hp5
      have s5 := s4.update (hr e (by simp)) hp5
      obtain ⟨t1, t2, t3⟩ := s5.late (by simp)
      refine ⟨s5.q0, s5.q1, s5.pos, s5.rep, ?_, fun _ => t1⟩
      have hlo : lo ≤ p5.heights.x0 := (hx _ (by have := t2.1; simp at this ⊢; tauto)).1
      have hhi : p5.heights.x4 ≤ hi := (hx _ (by have := t3.1; simp at this ⊢; tauto)).2
      obtain ⟨u1, u2, u3, u4⟩ := t1
      intro h hh
      simp only [Five.toList, List.mem_cons, List.not_mem_nil, or_false] at hh
      rcases hh with rfl | rfl | rfl | rfl | rfl <;> constructor <;> linarith
    have l0 : R.rnd (R.arith.lit 0) = R.arith.lit 0 := by
      have : R.arith.lit 0 = 0 := by simp [Rounding.arith, R.rnd_zero]
      rw [this, R.rnd_zero]
    have hh5 : WP2.Hull R lo hi w5 ∧ w5.windowSize = W ∧ R.rnd w5.previous = w5.previous := by
      simp only [updateAll, WP2.update] at h5'
      obtain ⟨w5', h5a, e5⟩ := Res.bind_eq_ok.1 h5'
      injection e5 with e5
      subst e5
      obtain ⟨p5, hp5, h5b⟩ := Res.bind_eq_ok.1 h5a
      have hull := hull5 p5 hp5
      rw [if_pos (show W > 0 by omega)] at h5b
      split at h5b
      · obtain ⟨⟨v, p2⟩, h2, h5c⟩ := Res.bind_eq_ok.1 h5b
        injection h5c with h5c
        subst h5c
        obtain ⟨v', p2', e1, e2, e3, e4⟩ := hull.evaluate
        obtain ⟨v2, p3, f1, f2, -⟩ := P2.evaluate_spec (R := R) hull.q0 hull.q1
        rw [h2] at e1 f1
        simp only [Res.ok.injEq, Prod.mk.injEq] at e1 f1
        obtain ⟨rfl, rfl⟩ := e1
        obtain ⟨rfl, -⟩ := f1
        exact ⟨⟨e4.clear, fun _ => ⟨e2, e3⟩⟩, rfl, hull.rep _ f2⟩
      · rename_i hmod
        injection h5b with h5b
        subst h5b
        refine ⟨⟨hull, fun h => ?_⟩, rfl, l0⟩
        simp at h
        have : W = 4 := by omega
        subst this
        simp at hmod
    have hx5 : ∀ x ∈ ys, R.rnd x = x ∧ lo ≤ x ∧ x ≤ hi := fun x hx' => ⟨hr x (by simp [hx']), hx x (by simp [hx'])⟩
    obtain ⟨k1, k2, -⟩ := WP2.updateAll_hull (R := R) hh5.1 (by omega) hx5 hu5
    exact ⟨k1, k2.trans hh5.2.1, prev_rep hh5.1 (by omega) hh5.2.2 hx5 hu5⟩
  · rw [h4'] at h4; cases h4
  · rw [h4'] at h4; cases h4

end WP2

end Round

/-- The rounding error of the weighted sum. -/
theorem rnd64_extrapolation {p v B : ℚ} (hp : rnd64 p = p) (hv : rnd64 v = v) {j : ℕ} (h1 : 1 ≤ j) (hj : j ≤ 2 ^ 52)
    (hpB : |(1 - (j : ℚ)) * p| ≤ (j - 1) * B) (hvB : |v| ≤ B) :
    |rnd64 (rnd64 ((1 - (j : ℚ)) * p) + rnd64 ((j : ℚ) * v)) - ((1 - (j : ℚ)) * p + j * v)| ≤ 4 * j / 2 ^ 53 * B := by
  obtain ⟨m, hm⟩ := rnd64_grid hp
  obtain ⟨m', hm'⟩ := rnd64_grid hv
  have j1 : (1 : ℚ) ≤ j := by exact_mod_cast h1
  have j2 : (j : ℚ) ≤ 2 ^ 52 := by exact_mod_cast hj
  have e1 := rnd64_rel_grid (x := (1 - (j : ℚ)) * p) ⟨(1 - j) * m, by rw [hm]; push_cast; ring⟩
  have e2 := rnd64_rel_grid (x := (j : ℚ) * v) ⟨j * m', by rw [hm']; push_cast; ring⟩
  obtain ⟨m1, hm1⟩ := rnd64_grid (rnd64_idem ((1 - (j : ℚ)) * p))
  obtain ⟨m2, hm2⟩ := rnd64_grid (rnd64_idem ((j : ℚ) * v))
  have e3 := rnd64_rel_grid (x := rnd64 ((1 - (j : ℚ)) * p) + rnd64 ((j : ℚ) * v))
    ⟨m1 + m2, by rw [hm1, hm2]; push_cast; ring⟩
  have hjB : |(j : ℚ) * v| ≤ j * B := by
    rw [abs_mul, abs_of_nonneg (show (0 : ℚ) ≤ j by linarith)]
    exact mul_le_mul_of_nonneg_left hvB (by linarith)
  have hB : 0 ≤ B := (abs_nonneg v).trans hvB
  clear hm hm' hm1 hm2 hp hv
  generalize rnd64 ((1 - (j : ℚ)) * p) = a at *
  generalize rnd64 ((j : ℚ) * v) = b at *
  generalize rnd64 (a + b) = r at *
  generalize (1 - (j : ℚ)) * p = s at *
  generalize (j : ℚ) * v = t at *
  have a1 : |a - s| ≤ 1 / 2 ^ 53 * ((j - 1) * B) := e1.trans (mul_le_mul_of_nonneg_left hpB (by norm_num))
  have a2 : |b - t| ≤ 1 / 2 ^ 53 * (j * B) := e2.trans (mul_le_mul_of_nonneg_left hjB (by norm_num))
  have a3 : |(a + b) - (s + t)| ≤ 1 / 2 ^ 53 * ((2 * j - 1) * B) := by
    have : (a + b) - (s + t) = (a - s) + (b - t) := by ring
    rw [this]
    refine (abs_add_le _ _).trans ((add_le_add a1 a2).trans (le_of_eq ?_))
    ring
  have a4 : |a + b| ≤ (2 * j - 1) * B + 1 / 2 ^ 53 * ((2 * j - 1) * B) := by
    have : a + b = (s + t) + ((a + b) - (s + t)) := by ring
    rw [this]
    refine (abs_add_le _ _).trans (add_le_add ?_ (by simpa using a3))
    refine (abs_add_le _ _).trans ((add_le_add hpB hjB).trans (le_of_eq ?_))
    ring
  have a5 : 1 / 2 ^ 53 * ((2 * j - 1) * B) ≤ B := by
    have : (2 * (j : ℚ) - 1) / 2 ^ 53 ≤ 1 := by rw [div_le_one (by norm_num)]; linarith
    have := mul_le_mul_of_nonneg_right this hB
    linarith
  have a6 : r - (s + t) = (r - (a + b)) + ((a + b) - (s + t)) := by ring
  rw [a6]
  refine (abs_add_le _ _).trans ((add_le_add (e3.trans (mul_le_mul_of_nonneg_left (a4.trans (add_le_add le_rfl a5)) (by norm_num))) a3).trans ?_)
  have : 4 * (j : ℚ) / 2 ^ 53 * B = 1 / 2 ^ 53 * ((2 * j - 1) * B + B) + 1 / 2 ^ 53 * ((2 * j - 1) * B) + 1 / 2 ^ 53 * B := by ring
  rw [this]
  have : 0 ≤ 1 / 2 ^ 53 * B := by positivity
  linarith

/-- **C43** on doubles, partial: from five moderate observations on the value is finite and leaves the range of the data by at
most `W - 1` ranges and the rounding of the weighted sum. Missing: staying inside. -/
theorem C43_double_partial (q : ℚ) (W : ℕ) (hW : 4 ≤ W) (hW' : W ≤ 2 ^ 52) (d d' : WP2 Dbl)
    (hd : WP2.new Dbl.arith (.fin q) W = .ok d) (xs : List ℚ) (h5 : 5 ≤ xs.length) (hx : ∀ x ∈ xs, IsModerate x) (lo hi : ℚ)
    (hr : InRange lo hi xs) (hu : updateAll (WP2.update Dbl.arith) d (xs.map .fin) = .ok d') :
    ∃ r d'', d'.evaluate Dbl.arith = .ok (.fin r, d'') ∧ rnd64 r = r ∧
      lo - (W - 1) * (hi - lo) - 4 * W / 2 ^ 53 * max |lo| |hi| ≤ r ∧
      r ≤ hi + (W - 1) * (hi - lo) + 4 * W / 2 ^ 53 * max |lo| |hi| := by
  have hq : 0 < q ∧ q < 1 := by
    obtain ⟨p, hp, -⟩ := WP2.new_eq_ok hd
    have l0 : Dbl.arith.lit 0 = .fin 0 := dbl_lit_zero
    have l1 : Dbl.arith.lit 1 = .fin 1 := dbl_lit_one
    unfold P2.new at hp
    split at hp
    · cases hp
    · rename_i hc
      simpa [l0, l1, Dbl.le_fin, b64] using hc
  obtain ⟨p, hp⟩ := (P2.new_ok_iff R64 q).2 hq
  have hw : WP2.new b64 q W = .ok ⟨W, 0, p, b64.lit 0⟩ := by
    unfold WP2.new
    rw [b64_eq, hp]; rfl
  obtain ⟨h1, h2⟩ := WP2.new_dbl (hW'.trans_lt (by norm_num)) hw (M := 950)
  rw [hd] at h1
  injection h1 with h1
  subst h1
  obtain ⟨w', hu', rfl, hf⟩ := h2.updateAll (by norm_num) (by norm_num) xs (fun x h => hx x h) hu
  obtain ⟨k1, k2, k3⟩ := WP2.hull_five R64 q W hW _ w' hw xs h5 lo hi (fun x h => (hx x h).1) hr hu'
  obtain ⟨v, r, w'', e1, e2, e3, e4, e5, e6, e7⟩ := k1.evaluate (by omega)
  have hv : rnd64 v = v := by
    obtain ⟨v', p', f1, f2, -⟩ := P2.evaluate_spec (R := R64) k1.p2.q0 k1.p2.q1
    rw [e1] at f1
    injection f1 with f1
    injection f1 with f1 _
    subst f1
    exact k1.p2.rep _ f2
  have hev := (hf.evaluate (by norm_num) (by norm_num)).1
  rw [b64_eq, e2] at hev
  refine ⟨r, w''.map .fin, hev, ?_⟩
  have hlh : lo ≤ hi := e5.trans e6
  have hd0 : 0 ≤ hi - lo := by linarith
  have hW1 : (4 : ℚ) ≤ W := by exact_mod_cast hW
  have hB : 0 ≤ max |lo| |hi| := (abs_nonneg lo).trans (le_max_left _ _)
  have hin : ∀ z, lo ≤ z → z ≤ hi → |z| ≤ max |lo| |hi| := fun z z1 z2 => by
    rw [abs_le]
    constructor
    · have := neg_abs_le lo
      have := le_max_left |lo| |hi|
      linarith
    · have := le_abs_self hi
      have := le_max_right |lo| |hi|
      linarith
  have hext : 0 ≤ (W - 1 : ℚ) * (hi - lo) := mul_nonneg (by linarith) hd0
  have herr : 0 ≤ 4 * (W : ℚ) / 2 ^ 53 * max |lo| |hi| := by positivity
  by_cases hn : w'.historyCount < w'.windowSize
  · rw [if_pos hn] at e7
    rw [e7]
    exact ⟨hv, by linarith, by linarith⟩
  · rw [if_neg hn, k2] at e7
    generalize hj : w'.historyCount % W + 1 = j at e7
    have hjW : j ≤ W := by
      have := Nat.mod_lt w'.historyCount (show 0 < W by omega)
      omega
    have hj1 : 1 ≤ j := by omega
    have hjq : (j : ℚ) ≤ W := by exact_mod_cast hjW
    have hj1q : (1 : ℚ) ≤ j := by exact_mod_cast hj1
    have i1 : R64.rnd (((j : ℤ) : ℚ)) = (j : ℤ) := R64.int_exact j (by rw [abs_of_nonneg (by positivity)]; exact_mod_cast hjW.trans (hW'.trans (by norm_num)))
    have i2 : R64.rnd (((1 - j : ℤ) : ℚ)) = (1 - j : ℤ) := R64.int_exact (1 - j) (by
      rw [abs_of_nonpos (by omega)]
      have : (j : ℤ) ≤ 2 ^ 52 := by exact_mod_cast hjW.trans hW'
      omega)
    have e8 : r = rnd64 (rnd64 ((1 - (j : ℚ)) * w'.previous) + rnd64 ((j : ℚ) * v)) := by
      rw [e7]
      have r1 : R64.rnd (1 : ℚ) = 1 := R64.rnd_one
      simp only [Rounding.arith, Arith.ofNat, Rat.cast_one, r1, i1]
      rw [show (1 : ℚ) - ((j : ℤ) : ℚ) = ((1 - j : ℤ) : ℚ) by push_cast; ring, i2]
      push_cast
      rfl
    have hprev : |(1 - (j : ℚ)) * w'.previous| ≤ (j - 1) * max |lo| |hi| ∧
        (lo - hi) * (j - 1) ≤ (j - 1) * (v - w'.previous) ∧ (j - 1) * (v - w'.previous) ≤ (j - 1) * (hi - lo) := by
      rcases Nat.lt_or_ge w'.windowSize w'.historyCount with h' | h'
      · obtain ⟨p1, p2⟩ := k1.prev h'
        refine ⟨?_, ?_, ?_⟩
        · rw [abs_mul, abs_of_nonpos (by linarith), neg_sub]
          exact mul_le_mul_of_nonneg_left (hin _ p1 p2) (by linarith)
        · rw [mul_comm]
          exact mul_le_mul_of_nonneg_left (by linarith) (by linarith)
        · exact mul_le_mul_of_nonneg_left (by linarith) (by linarith)
      · have : j = 1 := by
          rw [← hj, show w'.historyCount = W by omega, Nat.mod_self]
        subst this
        norm_num
    obtain ⟨b1, b2, b3⟩ := hprev
    have key := rnd64_extrapolation k3 hv hj1 (hjW.trans hW') b1 (hin v e5 e6)
    rw [← e8] at key
    have key' : |r - ((1 - (j : ℚ)) * w'.previous + j * v)| ≤ 4 * W / 2 ^ 53 * max |lo| |hi| := by
      refine key.trans (mul_le_mul_of_nonneg_right ?_ hB)
      gcongr
    have e9 : (1 - (j : ℚ)) * w'.previous + j * v = v + (j - 1) * (v - w'.previous) := by ring
    rw [e9, abs_le] at key'
    have c1 : (j - 1 : ℚ) * (hi - lo) ≤ (W - 1) * (hi - lo) := mul_le_mul_of_nonneg_right (by linarith) hd0
    refine ⟨by rw [e8]; exact rnd64_idem _, ?_, ?_⟩
    · have : (lo - hi) * (j - 1 : ℚ) = -((j - 1) * (hi - lo)) := by ring
      linarith [key'.1]
    · linarith [key'.2]

/-- 0.1 and 0.2 in a window of five, across the end of the first block: the value is outside of the range of the data. -/
example : (do
    let w ← WP2.new Dbl.arith (.fin (1 / 2)) 5
    let v ← WP2.valueAfter Dbl.arith w ([1 / 10, 2 / 10, 1 / 10, 2 / 10, 2 / 10, 2 / 10].map fun x => .fin (rnd64 x))
    .ok v) = .ok (Dbl.fin 0) := by
  decide +kernel

example : ∀ x ∈ [1 / 10, 2 / 10, 1 / 10, 2 / 10, 2 / 10, 2 / 10].map rnd64, IsModerate x := by
  unfold IsModerate; decide +kernel

/-- **C45** on doubles, partial: from five moderate observations on the value of StreamingIQR is finite, and at most `2 W - 1`
ranges of the data and the rounding of the weighted sums in either direction. Missing: the sign. -/
theorem C45_double_partial (low high : ℚ) (W : ℕ) (hW : 4 ≤ W) (hW' : W ≤ 2 ^ 50) (i i' : IQR Dbl)
    (hi : IQR.new Dbl.arith (.fin low) (.fin high) W = .ok i) (xs : List ℚ) (h5 : 5 ≤ xs.length) (hx : ∀ x ∈ xs, IsModerate x)
    (lo up : ℚ) (hr : InRange lo up xs) (hu : updateAll (IQR.update Dbl.arith) i (xs.map .fin) = .ok i') :
    ∃ r i'', i'.evaluate Dbl.arith = .ok (.fin r, i'') ∧
      |r| ≤ (2 * W - 1) * (up - lo) + 13 * W / 2 ^ 53 * max |lo| |up| := by
  obtain ⟨h1, h2, -⟩ := IQR.new_eq_ok.1 hi
  obtain ⟨k1, k2⟩ := IQR.updateAll_parts hu
  obtain ⟨a, a', e1, e2, e3, e4⟩ := C43_double_partial low W hW (hW'.trans (by norm_num)) _ _ h1 xs h5 hx lo up hr k1
  obtain ⟨b, b', f1, f2, f3, f4⟩ := C43_double_partial high W hW (hW'.trans (by norm_num)) _ _ h2 xs h5 hx lo up hr k2
  have wide : InRange (-pow2 950) (pow2 950) xs := fun x h => abs_le.1 (hx x h).2
  obtain ⟨a2, a3, g1, -, g3, g4⟩ := C43_double_partial low W hW (hW'.trans (by norm_num)) _ _ h1 xs h5 hx _ _ wide k1
  obtain ⟨b2, b3, l1, -, l3, l4⟩ := C43_double_partial high W hW (hW'.trans (by norm_num)) _ _ h2 xs h5 hx _ _ wide k2
  rw [e1] at g1
  rw [f1] at l1
  simp only [Res.ok.injEq, Prod.mk.injEq, Dbl.fin.injEq] at g1 l1
  obtain ⟨rfl, rfl⟩ := g1
  obtain ⟨rfl, rfl⟩ := l1
  have hW1 : (4 : ℚ) ≤ W := by exact_mod_cast hW
  have hW2 : (W : ℚ) ≤ 2 ^ 50 := by exact_mod_cast hW'
  have p1010 : pow2 1010 = 2 ^ 60 * pow2 950 := by decide +kernel
  have p0 : 0 ≤ pow2 950 := by decide +kernel
  have hmax : max |-pow2 950| |pow2 950| = pow2 950 := by
    rw [abs_neg, max_self, abs_of_nonneg p0]
  rw [hmax] at g3 g4 l3 l4
  have big : ∀ z, -pow2 950 - ((W : ℚ) - 1) * (pow2 950 - -pow2 950) - 4 * W / 2 ^ 53 * pow2 950 ≤ z →
      z ≤ pow2 950 + ((W : ℚ) - 1) * (pow2 950 - -pow2 950) + 4 * W / 2 ^ 53 * pow2 950 → |z| ≤ pow2 1010 := by
    rw [p1010]
    generalize pow2 950 = P at p0
    intro z z1 z2
    have c1 : 1 + ((W : ℚ) - 1) * 2 + 4 * W / 2 ^ 53 ≤ 2 ^ 60 := by
      have : 4 * (W : ℚ) / 2 ^ 53 ≤ W := by
        rw [div_le_iff₀ (by norm_num)]
        nlinarith
      linarith
    have c2 := mul_le_mul_of_nonneg_right c1 p0
    rw [abs_le]
    constructor <;> linarith
  have ia : Dbl.Is (.fin a) a 1010 := ⟨rfl, big a g3 g4⟩
  have ib : Dbl.Is (.fin b) b 1010 := ⟨rfl, big b l3 l4⟩
  have hs := (ib.sub ia (by norm_num) (by norm_num)).1
  refine ⟨rnd64 (b - a), { i' with low := a', high := b' }, ?_, ?_⟩
  · unfold IQR.evaluate
    rw [f1, e1]
    simp only [Res.ok_bind, hs]
    rfl
  obtain ⟨m1, hm1⟩ := rnd64_grid e2
  obtain ⟨m2, hm2⟩ := rnd64_grid f2
  have er := rnd64_rel_grid (x := b - a) ⟨m2 - m1, by rw [hm1, hm2]; push_cast; ring⟩
  have hB : 0 ≤ max |lo| |up| := (abs_nonneg lo).trans (le_max_left _ _)
  have hlu : up - lo ≤ 2 * max |lo| |up| := by
    have := neg_abs_le lo
    have := le_abs_self up
    have := le_max_left |lo| |up|
    have := le_max_right |lo| |up|
    linarith
  clear hm1 hm2 e2 f2 ia ib hs g3 g4 l3 l4 big e1 f1 hmax p1010
  generalize max |lo| |up| = B at *
  have d1 : |b - a| ≤ (2 * W - 1) * (up - lo) + 8 * W / 2 ^ 53 * B := by
    rw [abs_le]
    constructor <;> linarith
  have d2 : |b - a| ≤ 5 * W * B := by
    refine d1.trans ?_
    have c1 : (2 * W - 1 : ℚ) * (up - lo) ≤ (2 * W - 1) * (2 * B) := mul_le_mul_of_nonneg_left hlu (by linarith)
    have c2 : 8 * (W : ℚ) / 2 ^ 53 * B ≤ W * B := by
      refine mul_le_mul_of_nonneg_right ?_ hB
      rw [div_le_iff₀ (by norm_num)]
      nlinarith
    linarith
  have d3 : |rnd64 (b - a)| ≤ |b - a| + 1 / 2 ^ 53 * |b - a| := by
    have : rnd64 (b - a) = (b - a) + (rnd64 (b - a) - (b - a)) := by ring
    rw [this]
    exact (abs_add_le _ _).trans (add_le_add le_rfl (by simpa using er))
  have d4 : 1 / 2 ^ 53 * |b - a| ≤ 1 / 2 ^ 53 * (5 * W * B) := mul_le_mul_of_nonneg_left d2 (by norm_num)
  have d5 : 13 * (W : ℚ) / 2 ^ 53 * B = 8 * W / 2 ^ 53 * B + 1 / 2 ^ 53 * (5 * W * B) := by ring
  linarith

/-- The stream of `C45_binary64_violated` meets the hypotheses, and its value is negative. -/
example : (do
    let i ← IQR.new Dbl.arith (.fin (1 / 4)) (.fin (3 / 4)) 20
    let v ← IQR.valueAfter Dbl.arith i ([0, 1, 0, 0, -100, 2, -100, 2, 0, 1, 1, 100, 2].map Dbl.fin)
    .ok (Dbl.arith.lt v (.fin 0))) = .ok true := by
  decide +kernel

example : ∀ x ∈ ([0, 1, 0, 0, -100, 2, -100, 2, 0, 1, 1, 100, 2] : List ℚ), IsModerate x := by
  unfold IsModerate; decide +kernel

end KML
