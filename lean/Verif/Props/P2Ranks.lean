import Verif.Props.P2Exact
import Verif.Props.DoubleQuantile
import Verif.Props.DoubleFame
import Verif.Props.PyStats
import Verif.Props.P2

/-!
# C39 on doubles: the markers track their ranks whatever is observed

The argument of `P2Exact`, with the targets known only up to `δ`: a marker moves up when its computed distance from
the target is at least 1, which tells about the true distance only up to the rounding of the target and of the
subtraction.
-/

namespace KML

namespace P2

/-- Movement of one marker whose target `t` is known up to `δ`. -/
def Move (δ t : ℚ) (nm ni np m : ℤ) : Prop :=
  (m = ni + 1 ∧ 1 - δ ≤ t - ni ∧ 1 < np - ni) ∨ (m = ni - 1 ∧ t - ni ≤ -1 + δ ∧ nm - ni < -1) ∨
    (m = ni ∧ (t - ni < 1 + δ ∨ np - ni ≤ 1) ∧ (-1 - δ < t - ni ∨ -1 ≤ nm - ni))

theorem Move.mirror {δ t : ℚ} {nm ni np m : ℤ} (n : ℤ) (h : Move δ t nm ni np m) :
    Move δ (n - t) (n - np) (n - ni) (n - nm) (n - m) := by
  have e : (n : ℚ) - t - ((n - ni : ℤ) : ℚ) = -(t - ni) := by push_cast; ring
  unfold Move
  rw [e]
  rcases h with ⟨h1, h2, h3⟩ | ⟨h1, h2, h3⟩ | ⟨h1, h2, h3⟩
  · exact Or.inr (Or.inl ⟨by omega, by linarith, by omega⟩)
  · exact Or.inl ⟨by omega, by linarith, by omega⟩
  · refine Or.inr (Or.inr ⟨by omega, ?_, ?_⟩)
    · rcases h3 with h | h
      · exact Or.inl (by linarith)
      · exact Or.inr (by omega)
    · rcases h2 with h | h
      · exact Or.inl (by linarith)
      · exact Or.inr (by omega)

/-- One round of adjustments for `q ≥ 1/2`, as `rank_step`, with targets known up to `δ`. -/
theorem rank_step_near {δ q : ℚ} (d0 : 0 ≤ δ) (q0 : 1 / 2 ≤ q) (q1 : q < 1) {n : ℤ} (hn : 5 ≤ n)
    {n1 n2 n3 m1 m2 m3 : ℤ} (h01 : 0 < n1) (h12 : n1 < n2) (h23 : n2 < n3) (h3n : n3 < n)
    (a1 : -2 - δ + q / 2 < n * q / 2 - n1) (b1 : n * q / 2 - n1 < 2 + δ + q / 2)
    (a2 : -2 - δ + q < n * q - n2) (b2 : n * q - n2 < 3 + δ + q)
    (a3 : -2 - δ + (1 + q) / 2 < n * (1 + q) / 2 - n3) (b3 : n * (1 + q) / 2 - n3 < 1 + δ + (1 + q) / 2)
    (g1 : Move δ (n * q / 2) 0 n1 n2 m1) (g2 : Move δ (n * q) m1 n2 n3 m2)
    (g3 : Move δ (n * (1 + q) / 2) m2 n3 n m3) :
    (-1 - δ < n * q / 2 - m1 ∧ n * q / 2 - m1 < 2 + δ) ∧ (-1 - δ < n * q - m2 ∧ n * q - m2 < 3 + δ) ∧
      (-1 - δ < n * (1 + q) / 2 - m3 ∧ n * (1 + q) / 2 - m3 < 1 + δ) := by
  have hnK : (5 : ℚ) ≤ n := by exact_mod_cast hn
  have c01 : (1 : ℚ) ≤ n1 := by exact_mod_cast h01
  have c12 : (n1 : ℚ) + 1 ≤ n2 := by exact_mod_cast h12
  have c23 : (n2 : ℚ) + 1 ≤ n3 := by exact_mod_cast h23
  have c3n : (n3 : ℚ) + 1 ≤ n := by exact_mod_cast h3n
  have hnq : 5 / 2 ≤ n * q := by nlinarith
  have hnu : 0 < n * (1 - q) := by nlinarith
  have s1 : -1 - δ < n * q / 2 - (m1 : ℚ) ∧ n * q / 2 - (m1 : ℚ) < 2 + δ ∧ m1 < n2 := by
    rcases g1 with ⟨e, h, h'⟩ | ⟨e, h, h'⟩ | ⟨e, h, h'⟩
    · rw [e]; push_cast; exact ⟨by linarith, by linarith, by omega⟩
    · rw [e]; push_cast; exact ⟨by linarith, by linarith, by omega⟩
    · rw [e]; refine ⟨?_, ?_, h12⟩
      · rcases h' with h' | h'
        · exact h'
        · have : n1 = 1 := by omega
          rw [this]; push_cast; linarith
      · rcases h with h | h
        · linarith
        · have e : (n2 : ℚ) = n1 + 1 := by exact_mod_cast (by omega : n2 = n1 + 1)
          rw [e] at b2
          rcases le_or_gt 6 (n * q) with h6 | h6 <;> linarith
  have s2 : -1 - δ < n * q - (m2 : ℚ) ∧ n * q - (m2 : ℚ) < 3 + δ ∧ m2 < n3 := by
    obtain ⟨t1, -, t3⟩ := s1
    rcases g2 with ⟨e, h, h'⟩ | ⟨e, h, h'⟩ | ⟨e, h, h'⟩
    · rw [e]; push_cast; exact ⟨by linarith, by linarith, by omega⟩
    · rw [e]; push_cast; exact ⟨by linarith, by linarith, by omega⟩
    · rw [e]; refine ⟨?_, ?_, h23⟩
      · rcases h' with h' | h'
        · exact h'
        · have e : (n2 : ℚ) = m1 + 1 := by exact_mod_cast (by omega : n2 = m1 + 1)
          rw [e]; linarith
      · rcases h with h | h
        · linarith
        · have e : (n3 : ℚ) = n2 + 1 := by exact_mod_cast (by omega : n3 = n2 + 1)
          rw [e] at b3
          linarith
  refine ⟨⟨s1.1, s1.2.1⟩, ⟨s2.1, s2.2.1⟩, ?_⟩
  obtain ⟨t1, -, t3⟩ := s2
  rcases g3 with ⟨e, h, h'⟩ | ⟨e, h, h'⟩ | ⟨e, h, h'⟩
  · rw [e]; push_cast; exact ⟨by linarith, by linarith⟩
  · rw [e]; push_cast; exact ⟨by linarith, by linarith⟩
  · rw [e]; constructor
    · rcases h' with h' | h'
      · exact h'
      · have e : (n3 : ℚ) = m2 + 1 := by exact_mod_cast (by omega : n3 = m2 + 1)
        rw [e] at c3n ⊢
        by_contra hc
        linarith
    · rcases h with h | h
      · exact h
      · have e : (n : ℚ) = n3 + 1 := by exact_mod_cast (by omega : n = n3 + 1)
        linarith

/-- Ranks carried by the inner markers compared with their targets after `n` observations, up to `δ`. -/
def TracksNear (δ q : ℚ) (n : ℕ) (v : Five ℤ) : Prop :=
  let t : ℚ := (n : ℚ) - 1
  if 1 / 2 ≤ q then
    (-1 - δ < t * q / 2 - v.x1 ∧ t * q / 2 - v.x1 < 2 + δ) ∧ (-1 - δ < t * q - v.x2 ∧ t * q - v.x2 < 3 + δ) ∧
      (-1 - δ < t * (1 + q) / 2 - v.x3 ∧ t * (1 + q) / 2 - v.x3 < 1 + δ)
  else
    (-1 - δ < t * q / 2 - v.x1 ∧ t * q / 2 - v.x1 < 1 + δ) ∧ (-3 - δ < t * q - v.x2 ∧ t * q - v.x2 < 1 + δ) ∧
      (-2 - δ < t * (1 + q) / 2 - v.x3 ∧ t * (1 + q) / 2 - v.x3 < 1 + δ)

/-- A round of adjustments, in the order that the code takes. -/
theorem TracksNear.step {δ q : ℚ} (d0 : 0 ≤ δ) (q0 : 0 < q) (q1 : q < 1) {n : ℕ} (h5 : 5 ≤ n)
    {v : Five ℤ} (hv : PosInc v) (h4 : v.x4 = n - 1) (ht : TracksNear δ q n v) {k : ℕ} (hk : k ≤ 3) (m1 m2 m3 : ℤ)
    (hm : let b := bump v k
      if 1 / 2 ≤ q then Move δ (n * q / 2) b.x0 b.x1 b.x2 m1 ∧ Move δ (n * q) m1 b.x2 b.x3 m2 ∧
        Move δ (n * (1 + q) / 2) m2 b.x3 b.x4 m3
      else Move δ (n * (1 + q) / 2) b.x2 b.x3 b.x4 m3 ∧ Move δ (n * q) b.x1 b.x2 m3 m2 ∧
        Move δ (n * q / 2) b.x0 b.x1 m2 m1) :
    TracksNear δ q (n + 1) ⟨v.x0, m1, m2, m3, v.x4 + 1⟩ := by
  obtain ⟨b0, b1, b2, b3, b4⟩ := bump_posInc hv hk
  obtain ⟨z0, z4, ⟨u1, u1'⟩, ⟨u2, u2'⟩, u3, u3'⟩ := bump_steps v hk
  simp only at hm
  set b := bump v k
  have hx4 : b.x4 = (n : ℤ) := by rw [z4, h4]; ring
  have w1 : (v.x1 : ℚ) ≤ b.x1 := by exact_mod_cast u1
  have w1' : (b.x1 : ℚ) ≤ v.x1 + 1 := by exact_mod_cast u1'
  have w2 : (v.x2 : ℚ) ≤ b.x2 := by exact_mod_cast u2
  have w2' : (b.x2 : ℚ) ≤ v.x2 + 1 := by exact_mod_cast u2'
  have w3 : (v.x3 : ℚ) ≤ b.x3 := by exact_mod_cast u3
  have w3' : (b.x3 : ℚ) ≤ v.x3 + 1 := by exact_mod_cast u3'
  have hcz : ((n : ℤ) : ℚ) = (n : ℚ) := Int.cast_natCast _
  have hn1 : ((n + 1 : ℕ) : ℚ) - 1 = n := by push_cast; ring
  unfold TracksNear at ht ⊢
  simp only [hn1] at ht ⊢
  by_cases hq : 1 / 2 ≤ q
  · rw [if_pos hq] at ht hm ⊢
    obtain ⟨⟨t1, t1'⟩, ⟨t2, t2'⟩, t3, t3'⟩ := ht
    obtain ⟨g1, g2, g3⟩ := hm
    rw [b0] at g1
    rw [hx4] at g3
    have := rank_step_near (n := n) d0 hq q1 (by exact_mod_cast h5) (n1 := b.x1) (n2 := b.x2) (n3 := b.x3)
      (by omega) b2 b3 (by rw [← hx4]; exact b4)
      (by rw [hcz]; linarith) (by rw [hcz]; linarith) (by rw [hcz]; linarith) (by rw [hcz]; linarith)
      (by rw [hcz]; linarith) (by rw [hcz]; linarith) (by rw [hcz]; exact g1) (by rw [hcz]; exact g2)
      (by rw [hcz]; exact g3)
    rw [hcz] at this
    exact this
  · rw [if_neg hq] at ht hm ⊢
    obtain ⟨⟨t1, t1'⟩, ⟨t2, t2'⟩, t3, t3'⟩ := ht
    obtain ⟨g3, g2, g1⟩ := hm
    have g1 := g1.mirror n
    have g2 := g2.mirror n
    have g3 := g3.mirror n
    rw [show (n : ℤ) - b.x0 = n by omega] at g1
    rw [show (n : ℤ) - b.x4 = 0 by omega] at g3
    have f3 : ((n : ℤ) : ℚ) * (1 - q) / 2 = ((n : ℤ) : ℚ) - n * (1 + q) / 2 := by rw [hcz]; ring
    have f2 : ((n : ℤ) : ℚ) * (1 - q) = ((n : ℤ) : ℚ) - n * q := by rw [hcz]; ring
    have f1 : ((n : ℤ) : ℚ) * (1 + (1 - q)) / 2 = ((n : ℤ) : ℚ) - n * q / 2 := by rw [hcz]; ring
    have := rank_step_near (q := 1 - q) (n := n) d0 (by linarith) (by linarith) (by omega)
      (n1 := n - b.x3) (n2 := n - b.x2) (n3 := n - b.x1) (by omega) (by omega) (by omega) (by omega)
      (by push_cast; linarith) (by push_cast; linarith) (by push_cast; linarith)
      (by push_cast; linarith) (by push_cast; linarith) (by push_cast; linarith)
      (f3 ▸ g3) (f2 ▸ g2) (f1 ▸ g1)
    rw [f3, f2, f1] at this
    push_cast at this
    obtain ⟨⟨r1, r1'⟩, ⟨r2, r2'⟩, r3, r3'⟩ := this
    refine ⟨⟨?_, ?_⟩, ⟨?_, ?_⟩, ?_, ?_⟩ <;> linarith

/-! ### The arithmetic of doubles -/

theorem rnd64_ge_one {x : ℚ} (h : 1 ≤ rnd64 x) : 1 - 1 / 2 ^ 53 ≤ x := by
  by_contra hc
  have h1 : rnd64 (((2 ^ 53 - 1 : ℤ) : ℚ) * pow2 (-53)) = ((2 ^ 53 - 1 : ℤ) : ℚ) * pow2 (-53) :=
    rnd64_repr _ _ (by norm_num) (by norm_num)
  have h2 : (((2 ^ 53 - 1 : ℤ) : ℚ) * pow2 (-53)) = 1 - 1 / 2 ^ 53 := by rw [pow2_eq]; norm_num
  have h3 := rnd64_mono (not_le.1 hc).le
  rw [← h2, h1, h2] at h3
  norm_num at h3
  linarith

theorem rnd64_one_le {x : ℚ} (h : 1 ≤ x) : 1 ≤ rnd64 x := by
  have h1 := rnd64_mono h
  have h2 : rnd64 1 = 1 := by simpa using rnd64_int 1 (by norm_num)
  rwa [h2] at h1

/-- The movement of a marker on doubles, whatever the heights are. -/
theorem adjust_dbl_move {d t : ℚ} (hd : |d| ≤ pow2 40) (ht : |d - t| ≤ 1 / 2 ^ 19) (hm hi hp : Dbl) {nm ni np : ℤ}
    (hni : |ni| ≤ 2 ^ 31) :
    Move (1 / 2 ^ 18) t nm ni np (adjust Dbl.arith (.fin d) hm hi hp nm ni np).2 := by
  have iN : Dbl.Is (Dbl.arith.ofInt ni) (b64.ofInt ni) 31 := Dbl.Is.ofInt (k := 31) (by norm_num) hni
  have e0 : b64.ofInt ni = (ni : ℚ) := rnd64_int ni (hni.trans (by norm_num))
  have iS := Dbl.Is.sub (k := 40) ⟨rfl, hd⟩ (iN.mono (by norm_num)) (by norm_num) (by norm_num)
  have eS : Dbl.arith.sub (.fin d) (Dbl.arith.ofInt ni) = .fin (rnd64 (d - ni)) := by
    rw [iS.eq, e0]; rfl
  have l1 : Dbl.arith.lit 1 = .fin 1 := by simpa using lit_fin 1 (by norm_num)
  have l0 : Dbl.arith.lit 0 = .fin 0 := by simpa using lit_fin 0 (by norm_num)
  have lm : Dbl.arith.lit (-1) = .fin (-1) := by simpa using lit_fin (-1) (by norm_num)
  set r := rnd64 (d - ni) with hr
  have c1 : Dbl.arith.le (Dbl.arith.lit 1) (.fin r) = decide (1 ≤ r) := by rw [l1, Dbl.le_fin]; rfl
  have c2 : Dbl.arith.le (.fin r) (Dbl.arith.lit (-1)) = decide (r ≤ -1) := by rw [lm, Dbl.le_fin]; rfl
  have c3 : Dbl.arith.lt (Dbl.arith.lit 0) (.fin r) = decide (0 < r) := by rw [l0, Dbl.lt_fin]; rfl
  have c4 : Dbl.arith.lt (.fin r) (Dbl.arith.lit 0) = decide (r < 0) := by rw [l0, Dbl.lt_fin]; rfl
  have e : (adjust Dbl.arith (.fin d) hm hi hp nm ni np).2 =
      if (1 ≤ r ∧ 1 < np - ni) ∨ (r ≤ -1 ∧ nm - ni < -1) then
        ni + (if 0 < r then 1 else if r < 0 then -1 else 0) else ni := by
    unfold adjust
    simp only [eS, c1, c2, copysign, c3, c4, Bool.or_eq_true, Bool.and_eq_true, decide_eq_true_eq, gt_iff_lt]
    split <;> rfl
  rw [e]
  obtain ⟨t1, t2⟩ := abs_le.1 ht
  have small : (1 : ℚ) / 2 ^ 19 + 1 / 2 ^ 53 ≤ 1 / 2 ^ 18 := by norm_num
  have up : 1 ≤ r → 1 - 1 / 2 ^ 18 ≤ t - ni := fun h => by
    have := rnd64_ge_one h; linarith
  have nup : ¬ 1 ≤ r → t - ni < 1 + 1 / 2 ^ 18 := fun h => by
    by_contra hc
    exact h (rnd64_one_le (by norm_num at hc t1 ⊢; linarith))
  have down : r ≤ -1 → t - ni ≤ -1 + 1 / 2 ^ 18 := fun h => by
    have h' : 1 ≤ rnd64 (-(d - ni)) := by rw [rnd64_neg]; linarith
    have := rnd64_ge_one h'; linarith
  have ndown : ¬ r ≤ -1 → -1 - 1 / 2 ^ 18 < t - ni := fun h => by
    by_contra hc
    apply h
    have := rnd64_one_le (x := -(d - ni)) (by norm_num at hc t2 ⊢; linarith)
    rw [rnd64_neg] at this
    linarith
  by_cases h1 : 1 ≤ r ∧ 1 < np - ni
  · rw [if_pos (Or.inl h1), if_pos (by linarith [h1.1])]
    exact Or.inl ⟨rfl, up h1.1, h1.2⟩
  · by_cases h2 : r ≤ -1 ∧ nm - ni < -1
    · rw [if_pos (Or.inr h2), if_neg (by linarith [h2.1]), if_pos (by linarith [h2.1])]
      exact Or.inr (Or.inl ⟨rfl, down h2.1, h2.2⟩)
    · rw [if_neg (not_or.2 ⟨h1, h2⟩)]
      refine Or.inr (Or.inr ⟨rfl, ?_, ?_⟩)
      · by_cases h : 1 ≤ r
        · exact Or.inr (by by_contra hc; exact h1 ⟨h, by omega⟩)
        · exact Or.inl (nup h)
      · by_cases h : r ≤ -1
        · exact Or.inr (by by_contra hc; exact h2 ⟨h, by omega⟩)
        · exact Or.inl (ndown h)

/-- The targets are computed afresh each time, so their errors do not add up. -/
theorem desiredAt_near {q : ℚ} (q0 : 0 < q) (q1 : q < 1) {n : ℕ} (hn : n ≤ 2 ^ 31) (d0 : Dbl) :
    ∃ a b c : ℚ, (desiredAt Dbl.arith d0 (.fin q) n).x1 = .fin a ∧ (desiredAt Dbl.arith d0 (.fin q) n).x2 = .fin b ∧
      (desiredAt Dbl.arith d0 (.fin q) n).x3 = .fin c ∧ (|a| ≤ pow2 40 ∧ |b| ≤ pow2 40 ∧ |c| ≤ pow2 40) ∧
      |a - n * q / 2| ≤ 1 / 2 ^ 19 ∧ |b - n * q| ≤ 1 / 2 ^ 19 ∧ |c - n * (1 + q) / 2| ≤ 1 / 2 ^ 19 := by
  obtain ⟨e, h1, h2, h3⟩ := desiredAt_is 0 q q0 q1 hn
  have e1 := congrArg Five.x1 e
  have e2 := congrArg Five.x2 e
  have e3 := congrArg Five.x3 e
  refine ⟨_, _, _, e1, e2, e3, ⟨h1, h2, h3⟩, ?_⟩
  have hn' : (n : ℚ) ≤ 2 ^ 31 := by exact_mod_cast hn
  have hn0 : (0 : ℚ) ≤ n := Nat.cast_nonneg n
  have c0 : b64.ofNat n = (n : ℚ) := by
    have := rnd64_int n (by rw [Nat.abs_cast]; exact_mod_cast hn.trans (by norm_num))
    simpa [Arith.ofNat, b64] using this
  have l2 : b64.lit 2 = 2 := by simpa using lit_b64 2 (by norm_num)
  have l1 : b64.lit 1 = 1 := by simpa using lit_b64 1 (by norm_num)
  have m1 : (desiredAt b64 0 q n).x1 = rnd64 (rnd64 (n * q) / 2) := by
    simp only [desiredAt, c0, l2]; rfl
  have m2 : (desiredAt b64 0 q n).x2 = rnd64 (n * q) := by
    simp only [desiredAt, c0]; rfl
  have m3 : (desiredAt b64 0 q n).x3 = rnd64 (rnd64 (n * rnd64 (1 + q)) / 2) := by
    simp only [desiredAt, c0, l2, l1]; rfl
  rw [m1, m2, m3]
  have err : ∀ {x : ℚ} (k : ℕ), |x| ≤ 2 ^ k → |rnd64 x - x| ≤ 2 ^ k / 2 ^ 53 := by
    intro x k hx
    have := rnd64_err (k := k) (by omega) (by rw [pow2_eq]; exact_mod_cast hx)
    rw [pow2_eq, zpow_sub₀ (by norm_num)] at this
    exact_mod_cast this
  have p0 : 0 ≤ (n : ℚ) * q := by positivity
  have p1 : (n : ℚ) * q ≤ 2 ^ 31 := by nlinarith
  have r1 := abs_le.1 (err (x := n * q) 31 (by rw [abs_of_nonneg p0]; exact p1))
  have r2 := abs_le.1 (err (x := 1 + q) 1 (by rw [abs_of_nonneg (by linarith)]; linarith))
  have r3 := abs_le.1 (err (x := rnd64 (n * q) / 2) 31 (by
    rw [abs_le]; constructor <;> norm_num at r1 ⊢ <;> linarith [r1.1, r1.2]))
  set s := rnd64 (1 + q)
  have s1 : |(n : ℚ) * s - n * (1 + q)| ≤ 2 ^ 32 / 2 ^ 53 := by
    rw [← mul_sub, abs_mul, abs_of_nonneg hn0]
    calc (n : ℚ) * |s - (1 + q)| ≤ 2 ^ 31 * (2 ^ 1 / 2 ^ 53) :=
          mul_le_mul hn' (abs_le.2 r2) (abs_nonneg _) (by norm_num)
      _ = 2 ^ 32 / 2 ^ 53 := by norm_num
  have s1 := abs_le.1 s1
  have p2 : (n : ℚ) * (1 + q) ≤ 2 ^ 32 := by nlinarith
  have p3 : 0 ≤ (n : ℚ) * (1 + q) := by positivity
  have r4 := abs_le.1 (err (x := n * s) 33 (by
    rw [abs_le]; constructor <;> norm_num at s1 p2 ⊢ <;> linarith [s1.1, s1.2]))
  have r5 := abs_le.1 (err (x := rnd64 (n * s) / 2) 32 (by
    rw [abs_le]; constructor <;> norm_num at s1 p2 r4 ⊢ <;> linarith [s1.1, s1.2, r4.1, r4.2]))
  norm_num at r1 r3 r4 r5 s1 ⊢
  refine ⟨abs_le.2 ⟨?_, ?_⟩, abs_le.2 ⟨?_, ?_⟩, abs_le.2 ⟨?_, ?_⟩⟩ <;>
    linarith [r1.1, r1.2, r3.1, r3.2, r4.1, r4.2, r5.1, r5.2, s1.1, s1.2]

theorem abs_pos_le {n : ℕ} (hn : n ≤ 2 ^ 31) {i : ℤ} (h0 : 0 ≤ i) (h : i ≤ n) : |i| ≤ 2 ^ 31 := by
  rw [abs_of_nonneg h0]
  have : (n : ℤ) ≤ 2 ^ 31 := by exact_mod_cast hn
  omega

theorem updateLater_near {p : P2 Dbl} {q : ℚ} (hq : p.quantile = .fin q) (q0 : 0 < q) (q1 : q < 1)
    (hpos : PosInc p.pos) (h5 : 5 ≤ p.historyCount) (hn : p.historyCount ≤ 2 ^ 31)
    (h4 : p.pos.x4 = p.historyCount - 1) (ht : TracksNear (1 / 2 ^ 18) q p.historyCount p.pos) (x : Dbl) :
    TracksNear (1 / 2 ^ 18) q (p.historyCount + 1) (updateLater Dbl.arith p x).pos := by
  have hk := findK_le (A := Dbl.arith) p.heights x
  obtain ⟨z0, z4, -⟩ := bump_steps p.pos hk
  obtain ⟨b0, b1, b2, b3, b4⟩ := bump_posInc hpos hk
  obtain ⟨a, b, c, ea, eb, ec, ⟨ba, bb, bc⟩, na, nb, nc⟩ := desiredAt_near q0 q1 hn p.desired.x0
  have hl : Dbl.arith.le (Dbl.arith.lit (1 / 2)) (.fin q) = decide (1 / 2 ≤ q) := by
    have e : b64.lit (1 / 2) = 1 / 2 := by
      have := rnd64_repr 1 (-1) (by norm_num) (by norm_num)
      have e : ((1 : ℤ) : ℚ) * pow2 (-1) = 1 / 2 := by rw [pow2_eq]; norm_num
      rw [e] at this
      simpa [b64, R64, Rounding.arith] using this
    rw [half_fin, Dbl.le_fin, e]; rfl
  have hx4 : (bump p.pos (findK Dbl.arith p.heights x).1).x4 = (p.historyCount : ℤ) := by rw [z4, h4]; ring
  have step := fun m1 m2 m3 => TracksNear.step (δ := 1 / 2 ^ 18) (by norm_num) q0 q1 h5 hpos h4 ht hk m1 m2 m3
  unfold updateLater
  simp only [hq, hl, decide_eq_true_eq]
  by_cases h : 1 / 2 ≤ q
  · rw [if_pos h]
    simp only [adjustHeights, ea, eb, ec, z0, z4]
    refine step _ _ _ ?_
    simp only [if_pos h, z0, z4]
    refine ⟨adjust_dbl_move ba na _ _ _ ?_, adjust_dbl_move bb nb _ _ _ ?_, adjust_dbl_move bc nc _ _ _ ?_⟩ <;>
      exact abs_pos_le hn (by omega) (by omega)
  · rw [if_neg h]
    simp only [adjustHeights, ea, eb, ec, z0, z4]
    refine step _ _ _ ?_
    simp only [if_neg h, z0, z4]
    refine ⟨adjust_dbl_move bc nc _ _ _ ?_, adjust_dbl_move bb nb _ _ _ ?_, adjust_dbl_move ba na _ _ _ ?_⟩ <;>
      exact abs_pos_le hn (by omega) (by omega)

end P2

/-- **C39** (doubles): whatever doubles are observed, infinities and NaN among them, and however many, as long as
`update` is defined: the ranks of the middle marker and of its neighbours stay within 3 and 2 of their targets, up
to 2^-18 (`P2.update` gives some order even when a NaN is among the first five, where C101 shows the
sort to be undefined; the bounds do not depend on the heights).  The targets are recomputed from the count each time, so rounding does not build up. -/
theorem C39_double (q : ℚ) (p p' : P2 Dbl) (hp : P2.new Dbl.arith (.fin q) = .ok p) (xs : List Dbl)
    (h5 : 5 ≤ xs.length) (hu : updateAll (P2.update Dbl.arith) p xs = .ok p') :
    |((xs.length : ℚ) - 1) * q - p'.pos.x2| < 3 + 1 / 2 ^ 18 ∧
      |((xs.length : ℚ) - 1) * (q / 2) - p'.pos.x1| < 2 + 1 / 2 ^ 18 ∧
      |((xs.length : ℚ) - 1) * ((1 + q) / 2) - p'.pos.x3| < 2 + 1 / 2 ^ 18 ∧ p'.pos.x0 = 0 ∧
      (p'.pos.x4 : ℚ) = xs.length - 1 := by
  have hA : P2.Sane Dbl.arith := dbl_sane
  obtain ⟨q0, q1⟩ : 0 < q ∧ q < 1 := by
    rcases (P2.new_dbl_ok_iff (.fin q)).1 ⟨p, hp⟩ with h | ⟨r, h, h'⟩
    · cases h
    · injection h with h; rw [h]; exact h'
  have e := P2.new_eq_ok hp
  have hpos : P2.PosInc p.pos := by rw [e]; simp [P2.PosInc]
  have h0 : p.historyCount = 0 := by rw [e]
  have key : ∀ ys : List Dbl, 5 ≤ ys.length → ∀ p', updateAll (P2.update Dbl.arith) p ys = .ok p' →
      P2.TracksNear (1 / 2 ^ 18) q ys.length p'.pos := by
    intro ys
    induction ys using List.reverseRecOn with
    | nil => intro h; simp at h
    | append_singleton ys x ih =>
      intro hlen p' hu
      rcases Nat.lt_or_ge ys.length 5 with h | h
      · have h4 : ys.length = 4 := by simp at hlen; omega
        rcases P2.updateAll_ok_iff hA hpos h0 (ys ++ [x]) with ⟨p1, e1, -, -, -, -, -, e7⟩ | ⟨e1, -⟩
        · rw [hu] at e1; injection e1 with e1; subst e1
          rw [e7 (by simp; omega), e]
          simp only [List.length_append, h4, List.length_singleton, P2.TracksNear]
          push_cast
          split_ifs with hq
          · refine ⟨⟨?_, ?_⟩, ⟨?_, ?_⟩, ?_, ?_⟩ <;> linarith
          · have hq := not_le.1 hq
            refine ⟨⟨?_, ?_⟩, ⟨?_, ?_⟩, ?_, ?_⟩ <;> linarith
        · rw [hu] at e1; cases e1
      · rw [updateAll_snoc] at hu
        obtain ⟨p1, e1, hu⟩ := Res.bind_eq_ok.1 hu
        have ht := ih h p1 e1
        rcases P2.updateAll_ok_iff hA hpos h0 ys with ⟨p2, g1, g2, g3, g4, g5, -⟩ | ⟨g1, -⟩
        · rw [e1] at g1; injection g1 with g1; subst g1
          have gq : p1.quantile = .fin q := by rw [g4, e]
          have g5' : p1.pos.x4 = p1.historyCount - 1 := by
            rw [g5, g3, e]; simp only; omega
          rw [P2.update_eq g2, if_neg (by omega)] at hu
          split at hu
          · cases hu
          · rename_i hi
            injection hu with hu
            rw [← hu, List.length_append, List.length_singleton, ← g3]
            refine P2.updateLater_near gq q0 q1 g2 (by omega) ?_ g5' (by rw [g3]; exact ht) x
            unfold P2.intMax at hi
            omega
        · rw [e1] at g1; cases g1
  have ht := key xs h5 p' hu
  have hend : p'.pos.x0 = 0 ∧ (p'.pos.x4 : ℚ) = xs.length - 1 := by
    rcases P2.updateAll_ok_iff hA hpos h0 xs with ⟨p2, g1, g2, g3, g4, g5, -⟩ | ⟨g1, -⟩
    · rw [hu] at g1; injection g1 with g1; subst g1
      refine ⟨g2.1, ?_⟩
      have : p'.pos.x4 = (xs.length : ℤ) - 1 := by
        rw [g5, e]; simp only; omega
      rw [this]; push_cast; ring
    · rw [hu] at g1; cases g1
  unfold P2.TracksNear at ht
  simp only at ht
  split_ifs at ht
  · obtain ⟨⟨t1, t1'⟩, ⟨t2, t2'⟩, t3, t3'⟩ := ht
    refine ⟨abs_lt.2 ⟨?_, ?_⟩, abs_lt.2 ⟨?_, ?_⟩, abs_lt.2 ⟨?_, ?_⟩, hend⟩ <;> linarith
  · obtain ⟨⟨t1, t1'⟩, ⟨t2, t2'⟩, t3, t3'⟩ := ht
    refine ⟨abs_lt.2 ⟨?_, ?_⟩, abs_lt.2 ⟨?_, ?_⟩, abs_lt.2 ⟨?_, ?_⟩, hend⟩ <;> linarith

/-- Ten observations with a NaN and both infinities among them, at the level 1/4: ranks 1, 2, 6 against targets
9/8, 9/4, 45/8. -/
example : P2.new Dbl.arith (.fin (1 / 4)) = .ok (P2.blank (1 / 4)).dbl ∧ (do
    let p ← updateAll (P2.update Dbl.arith) (P2.blank (1 / 4)).dbl
      [.fin 1, .fin 7, .fin 3, .inf false, .inf true, .fin 6, .nan, .fin 8, .inf false, .fin 10]
    .ok p.pos) = .ok ⟨0, 1, 2, 6, 9⟩ :=
  ⟨by unfold P2.new; rw [if_neg (by decide +kernel)]; decide +kernel, by decide +kernel⟩

end KML
