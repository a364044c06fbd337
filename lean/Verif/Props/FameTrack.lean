import Verif.Props.FameBound
import Verif.Props.Mad

/-! # C87: WindowedFAME follows a converging stream, and StreamingMAD then vanishes -/

set_option linter.unusedSectionVars false

namespace KML

open Spec

variable {K : Type} [Field K] [LinearOrder K] [IsStrictOrderedRing K] [FloorRing K]

/-- Not too far outside the data for the present step. -/
def FameNear (lo hi m s : K) : Prop := 0 ≤ s ∧ lo - 2 * s ≤ m ∧ m ≤ hi + 2 * s

theorem fameNext_fst {ε m s x : K} :
    (fameNext ε (m, s) x).1 = if x < m then m - s else if m < x then m + s else m := by
  simp only [fameNext]
  rcases lt_trichotomy x m with h | h | h
  · rw [if_pos h, sign_neg (sub_neg.2 h)]; simp; ring
  · subst h; simp
  · rw [if_neg (not_lt.2 h.le), if_pos h, sign_pos (sub_pos.2 h)]; simp

theorem fameNext_snd {ε m s x : K} :
    (fameNext ε (m, s) x).2 = (if |x - (fameNext ε (m, s) x).1| < s then s / 2 else s) * (1 + ε) := rfl

theorem fameNext_pos {ε m s x : K} (h0 : 0 ≤ ε) (hs : 0 < s) : 0 < (fameNext ε (m, s) x).2 := by
  rw [fameNext_snd]
  refine mul_pos ?_ (by linarith)
  split <;> linarith

/-- One update from near: within one step of the data. -/
theorem FameNear.fit {lo hi ε m s x : K} (h : FameNear lo hi m s) (h0 : 0 ≤ ε) (h1 : ε < 1) (hx1 : lo ≤ x) (hx2 : x ≤ hi)
    {S : K} (hS : 2 * s ≤ S) : FameFit lo hi S ε (fameNext ε (m, s) x).1 (fameNext ε (m, s) x).2 := by
  obtain ⟨hs, h2, h3⟩ := h
  have hm : lo - s ≤ (fameNext ε (m, s) x).1 ∧ (fameNext ε (m, s) x).1 ≤ hi + s := by
    rw [fameNext_fst]
    split_ifs <;> constructor <;> linarith
  rw [fameNext_snd]
  split_ifs
  · exact ⟨⟨by positivity, by nlinarith⟩, s, hs, by linarith, hm.1, hm.2, .inr (by ring)⟩
  · exact ⟨⟨by positivity, by nlinarith⟩, s, hs, by linarith, hm.1, hm.2, .inl (by nlinarith)⟩

/-- From far away the estimate comes nearer by one step and the step does not shrink. -/
theorem fame_far {lo hi ε m s x : K} (h0 : 0 ≤ ε) (hs : 0 < s) (hx1 : lo ≤ x) (hx2 : x ≤ hi)
    (h : m < lo - 2 * s ∨ hi + 2 * s < m) :
    s ≤ (fameNext ε (m, s) x).2 ∧
    (m < lo - 2 * s → (fameNext ε (m, s) x).1 = m + s) ∧ (hi + 2 * s < m → (fameNext ε (m, s) x).1 = m - s) := by
  have e := fameNext_fst (ε := ε) (m := m) (s := s) (x := x)
  refine ⟨?_, fun h => ?_, fun h => ?_⟩
  · rw [fameNext_snd, if_neg]
    · nlinarith
    · rw [e, not_lt]
      rcases h with h | h
      · rw [if_neg (by linarith), if_pos (by linarith)]
        exact le_abs.2 (.inl (by linarith))
      · rw [if_pos (by linarith)]
        exact le_abs.2 (.inr (by linarith))
  · rw [e, if_neg (by linarith), if_pos (by linarith)]
  · rw [e, if_pos (by linarith)]

/-- Every state comes near, within a number of observations that does not depend on them. -/
theorem fame_approach {lo hi ε : K} (h0 : 0 ≤ ε) (n : ℕ) : ∀ (m s : K), 0 < s → lo - m ≤ (n + 2) * s → m - hi ≤ (n + 2) * s →
    ∀ ys : List K, InRange lo hi ys → n ≤ ys.length → ∃ k ≤ n, 
      FameNear lo hi ((ys.take k).foldl (fameNext ε) (m, s)).1 ((ys.take k).foldl (fameNext ε) (m, s)).2 ∧
      ((ys.take k).foldl (fameNext ε) (m, s)).2 ≤ s * (1 + ε) ^ k := by
  induction n with
  | zero =>
    intro m s hs h1 h2 ys _ _
    refine ⟨0, le_rfl, ⟨hs.le, ?_, ?_⟩, by simp⟩ <;> simp only [Nat.cast_zero, zero_add, List.take_zero, List.foldl_nil] at * <;>
      linarith
  | succ n ih =>
    intro m s hs h1 h2 ys hy hl
    push_cast at h1 h2
    by_cases hf : m < lo - 2 * s ∨ hi + 2 * s < m
    · cases ys with
      | nil => simp at hl
      | cons x ys =>
        have hx := hy x (by simp)
        obtain ⟨e1, e2, e3⟩ := fame_far h0 hs hx.1 hx.2 hf
        have hle : (fameNext ε (m, s) x).2 ≤ s * (1 + ε) := by
          rw [fameNext_snd]
          refine mul_le_mul_of_nonneg_right ?_ (by linarith)
          split <;> linarith
        have hn : (0 : K) ≤ n := n.cast_nonneg
        have hmul : ((n : K) + 2) * s ≤ (n + 2) * (fameNext ε (m, s) x).2 :=
          mul_le_mul_of_nonneg_left e1 (by linarith)
        have p : 0 ≤ ((n : K) + 2) * s := by positivity
        obtain ⟨k, hk, k1, k2⟩ := ih (fameNext ε (m, s) x).1 (fameNext ε (m, s) x).2 (hs.trans_le e1)
          (by
            rcases hf with h | h
            · rw [e2 h]; linarith
            · rw [e3 h]; linarith)
          (by
            rcases hf with h | h
            · rw [e2 h]; linarith
            · rw [e3 h]; linarith)
          ys (fun y h => hy y (by simp [h])) (by simpa using hl)
        refine ⟨k + 1, by omega, ?_, ?_⟩
        · simpa using k1
        · simp only [List.take_succ_cons, List.foldl_cons]
          refine k2.trans ?_
          rw [pow_succ, ← mul_assoc, mul_right_comm]
          exact mul_le_mul_of_nonneg_right hle (by positivity)
    · rw [not_or, not_lt, not_lt] at hf
      exact ⟨0, by omega, ⟨hs.le, hf.1, hf.2⟩, by simp⟩

/-- Two updates shrink the bound on the steps, down to 5/2 of the width of the data. -/
theorem FameFit.shrink {lo hi S T ε m s : K} (h : FameFit lo hi S ε m s) (h0 : 0 ≤ ε) (h1 : ε < 1)
    (hT1 : S * (1 + ε) ≤ 2 * T) (hT2 : S * (49 / 50) ≤ T) (hT3 : 5 / 2 * (hi - lo) ≤ T) (hTS : T ≤ S) (x y : K)
    (hx1 : lo ≤ x) (hx2 : x ≤ hi) (hy1 : lo ≤ y) (hy2 : y ≤ hi) :
    FameFit lo hi T ε (fameNext ε (fameNext ε (m, s) x) y).1 (fameNext ε (fameNext ε (m, s) x) y).2 := by
  have hR : 0 ≤ hi - lo := by linarith
  have one : ∀ {m s z : K}, FameFit lo hi S ε m s → lo ≤ z → z ≤ hi → (fameNext ε (m, s) z).2 ≤ T := by
    intro m s z h hz1 hz2
    obtain ⟨⟨hs0, hsS⟩, t, ht0, htS, hlo, hhi, ht⟩ := h
    have e := fameNext_fst (ε := ε) (m := m) (s := s) (x := z)
    rw [fameNext_snd]
    split_ifs with hc
    · have : s * (1 + ε) ≤ S * (1 + ε) := mul_le_mul_of_nonneg_right hsS (by linarith)
      linarith
    · rw [not_lt] at hc
      have grow : 2 * s ≤ hi - lo + t → s * (1 + ε) ≤ T := fun hg => by
        rcases ht with h | h
        · have : s ≤ hi - lo := by linarith
          nlinarith
        · have h2 : t * ε ≤ hi - lo := by linarith
          have h3 : 2 * (s * (1 + ε)) = t * (1 + ε) ^ 2 := by rw [← mul_assoc, h]; ring
          rcases le_total ε (2 / 5) with hq | hq
          · have : (1 + ε) ^ 2 ≤ 49 / 25 := by nlinarith
            have := mul_le_mul_of_nonneg_left this ht0
            linarith
          · have : (1 + ε) ^ 2 ≤ 5 * ε := by nlinarith
            have := mul_le_mul_of_nonneg_left this ht0
            linarith
      rw [e] at hc
      split_ifs at hc with c1 c2
      · rcases le_abs.1 hc with hc | hc
        · linarith
        · exact grow (by linarith)
      · rcases le_abs.1 hc with hc | hc
        · exact grow (by linarith)
        · linarith
      · have : z = m := le_antisymm (not_lt.1 c2) (not_lt.1 c1)
        rw [this, sub_self, abs_zero] at hc
        have : s = 0 := le_antisymm hc hs0
        rw [this, zero_mul]
        linarith
  have a := h.next h0 h1 (hT3.trans hTS) hx1 hx2
  have b := a.next h0 h1 (hT3.trans hTS) hy1 hy2
  have ha := one h hx1 hx2
  have hb := one a hy1 hy2
  refine ⟨⟨b.step.1, hb⟩, (fameNext ε (m, s) x).2, a.step.1, ha, ?_⟩
  set m1 := (fameNext ε (m, s) x).1
  set s1 := (fameNext ε (m, s) x).2
  have near : FameNear lo hi m1 s1 := by
    obtain ⟨⟨hs0, -⟩, t, ht0, -, hlo, hhi, ht⟩ := a
    have : t ≤ 2 * s1 := by
      rcases ht with h | h
      · linarith
      · rw [h]; nlinarith
    exact ⟨hs0, by linarith, by linarith⟩
  obtain ⟨hs1, n2, n3⟩ := near
  have hm : lo - s1 ≤ (fameNext ε (m1, s1) y).1 ∧ (fameNext ε (m1, s1) y).1 ≤ hi + s1 := by
    rw [fameNext_fst]
    split_ifs <;> constructor <;> linarith
  refine ⟨hm.1, hm.2, ?_⟩
  show s1 ≤ (fameNext ε (m1, s1) y).2 ∨ 2 * (fameNext ε (m1, s1) y).2 = s1 * (1 + ε)
  rw [fameNext_snd]
  split_ifs
  · exact .inr (by ring)
  · exact .inl (by nlinarith)

theorem FameFit.mono {lo hi S T ε m s : K} (h : FameFit lo hi S ε m s) (hST : S ≤ T) : FameFit lo hi T ε m s := by
  obtain ⟨⟨h1, h2⟩, t, h3, h4, h5⟩ := h
  exact ⟨⟨h1, h2.trans hST⟩, t, h3, h4.trans hST, h5⟩

theorem FameFit.shrinks {lo hi ε κ : K} (h0 : 0 ≤ ε) (h1 : ε < 1) (hκ : κ = max (49 / 50) ((1 + ε) / 2)) (hlh : lo ≤ hi)
    (j : ℕ) : ∀ (S : K) (ms : K × K), FameFit lo hi S ε ms.1 ms.2 → 5 / 2 * (hi - lo) ≤ S → ∀ ys : List K, InRange lo hi ys →
    2 * j ≤ ys.length → FameFit lo hi (max (κ ^ j * S) (5 / 2 * (hi - lo))) ε (ys.foldl (fameNext ε) ms).1
      (ys.foldl (fameNext ε) ms).2 := by
  have hκ0 : 0 ≤ κ := by rw [hκ]; exact le_max_of_le_left (by norm_num)
  have hκ1 : κ ≤ 1 := by rw [hκ]; exact max_le (by norm_num) (by linarith)
  have hκ2 : 49 / 50 ≤ κ := by rw [hκ]; exact le_max_left _ _
  have hκ3 : (1 + ε) / 2 ≤ κ := by rw [hκ]; exact le_max_right _ _
  induction j with
  | zero =>
    intro S ms h hS ys hy _
    rw [pow_zero, one_mul, max_eq_left hS]
    exact FameFit.foldl h0 h1 hS ys hy ms h
  | succ j ih =>
    intro S ms h hS ys hy hl
    match ys, hl with
    | [], hl => simp at hl
    | [_], hl => simp at hl; omega
    | x :: y :: zs, hl =>
      have hx := hy x (by simp)
      have hy' := hy y (by simp)
      have hS0 : 0 ≤ S := h.step.1.trans h.step.2
      have a : FameFit lo hi (max (κ * S) (5 / 2 * (hi - lo))) ε _ _ := h.shrink h0 h1
        (by have := mul_le_mul_of_nonneg_left hκ3 hS0
            have := le_max_left (κ * S) (5 / 2 * (hi - lo))
            linarith)
        (by have := mul_le_mul_of_nonneg_left hκ2 hS0
            have := le_max_left (κ * S) (5 / 2 * (hi - lo))
            linarith) (le_max_right _ _) (max_le (by nlinarith) hS) x y hx.1 hx.2 hy'.1 hy'.2
      have b := ih _ _ a (le_max_right _ _) zs (fun z hz => hy z (by simp [hz])) (by simp at hl; omega)
      simp only [List.foldl_cons]
      refine b.mono ?_
      rw [mul_max_of_nonneg _ _ (pow_nonneg hκ0 j), ← mul_assoc, ← pow_succ]
      have hp : κ ^ j * (5 / 2 * (hi - lo)) ≤ 5 / 2 * (hi - lo) := by
        have := pow_le_one₀ (n := j) hκ0 hκ1
        have : 0 ≤ 5 / 2 * (hi - lo) := by linarith
        nlinarith
      exact max_le (max_le (le_max_left _ _) (hp.trans (le_max_right _ _))) (le_max_right _ _)

/-- From any state, a number of observations that does not depend on them suffices. -/
theorem fame_settles {lo hi ε m s : K} (h0 : 0 ≤ ε) (h1 : ε < 1) (hs : 0 < s) (hlh : lo < hi) :
    ∃ N : ℕ, ∀ ys : List K, InRange lo hi ys → N ≤ ys.length →
      FameFit lo hi (5 / 2 * (hi - lo)) ε (ys.foldl (fameNext ε) (m, s)).1 (ys.foldl (fameNext ε) (m, s)).2 := by
  obtain ⟨n, hn⟩ : ∃ n : ℕ, max (lo - m) (m - hi) ≤ n * s := by
    obtain ⟨n, hn⟩ := exists_nat_gt (max (lo - m) (m - hi) / s)
    exact ⟨n, ((div_lt_iff₀ hs).1 hn).le⟩
  have hR : 0 < 5 / 2 * (hi - lo) := by linarith
  set κ := max (49 / 50) ((1 + ε) / 2) with hκ
  have hκ0 : 0 < κ := lt_max_of_lt_left (by norm_num)
  have hκ1 : κ < 1 := max_lt (by norm_num) (by linarith)
  set S := max (2 * (s * (1 + ε) ^ n)) (5 / 2 * (hi - lo)) with hS
  have hS0 : 0 < S := lt_max_of_lt_right hR
  obtain ⟨j, hj⟩ := exists_pow_lt_of_lt_one (div_pos hR hS0) hκ1
  rw [lt_div_iff₀ hS0] at hj
  refine ⟨n + 1 + 2 * j, fun ys hy hl => ?_⟩
  obtain ⟨k, hk, k1, k2⟩ := fame_approach h0 n m s hs
    (by have := (le_max_left _ _).trans hn; nlinarith) (by have := (le_max_right _ _).trans hn; nlinarith) ys hy (by omega)
  have e : ys = ys.take k ++ ys.drop k := (List.take_append_drop k ys).symm
  rw [e, List.foldl_append]
  set ms := (ys.take k).foldl (fameNext ε) (m, s)
  have hd : InRange lo hi (ys.drop k) := fun y h => hy y (List.mem_of_mem_drop h)
  have hdl : 1 + 2 * j ≤ (ys.drop k).length := by rw [List.length_drop]; omega
  cases hz : ys.drop k with
  | nil => rw [hz] at hdl; simp at hdl
  | cons x zs =>
    rw [hz] at hd hdl
    have hx := hd x (by simp)
    have hpow : (1 + ε) ^ k ≤ (1 + ε) ^ n := pow_le_pow_right₀ (by linarith) hk
    have hpow' := mul_le_mul_of_nonneg_left hpow hs.le
    have a : FameFit lo hi S ε _ _ := k1.fit h0 h1 hx.1 hx.2 (S := S) ((by linarith : _ ≤ _).trans (le_max_left _ _))
    have b := FameFit.shrinks h0 h1 hκ hlh.le j S (fameNext ε ms x) a (le_max_right _ _) zs
      (fun z h => hd z (by simp [h])) (by simp at hdl; omega)
    rw [List.foldl_cons]
    exact b.mono (max_le hj.le le_rfl)

/-- **C87** (exact arithmetic): after any stream `xs`, once sufficiently many further observations lie in `[lo, hi]`, the
estimate is and stays within 5/2 of the width of that range, whatever epsilon. -/
theorem C87_settles (s ε : K) (hs : 0 < s) (f : Fame K) (hf : Fame.new (exact K) s ε = .ok f) (xs : List K) (lo hi : K)
    (hlh : lo < hi) :
    ∃ N : ℕ, ∀ ys : List K, InRange lo hi ys → N ≤ ys.length →
      lo - 5 / 2 * (hi - lo) ≤ ((xs ++ ys).foldl (Fame.update (exact K)) f).evaluate ∧
      ((xs ++ ys).foldl (Fame.update (exact K)) f).evaluate ≤ hi + 5 / 2 * (hi - lo) := by
  obtain ⟨-, h0, h1⟩ := fame_new_eq hf
  have fin : ∀ (ms : K × K), FameFit lo hi (5 / 2 * (hi - lo)) ε ms.1 ms.2 →
      lo - 5 / 2 * (hi - lo) ≤ ms.1 ∧ ms.1 ≤ hi + 5 / 2 * (hi - lo) := fun ms h => by
    obtain ⟨-, t, -, h2, h3, h4, -⟩ := h
    exact ⟨by linarith, by linarith⟩
  have ev : ∀ zs : List K, (zs.foldl (Fame.update (exact K)) f).evaluate = (fame s ε zs).1 := fun zs =>
    congrArg Prod.fst (C77_recursion s ε f hf zs)
  cases xs with
  | cons x xs =>
    have pos : ∀ (zs : List K) (ms : K × K), 0 < ms.2 → 0 < (zs.foldl (fameNext ε) ms).2 := by
      intro zs
      induction zs with
      | nil => exact fun _ h => h
      | cons z zs ih => exact fun ms h => ih _ (fameNext_pos h0 h)
    have hp := pos xs (x, max (|x| / 2) s * (1 + ε)) (mul_pos (lt_max_of_lt_right hs) (by linarith))
    obtain ⟨N, hN⟩ := fame_settles (m := (fame s ε (x :: xs)).1) h0 h1 hp hlh
    refine ⟨N, fun ys hy hl => ?_⟩
    rw [ev, List.cons_append, fame, List.foldl_append]
    exact fin _ (hN ys hy hl)
  | nil =>
    -- the first observation is one of the range
    set B := max |lo| |hi| with hB
    have hB0 : 0 ≤ B := le_max_of_le_left (abs_nonneg _)
    have hR : 0 < 5 / 2 * (hi - lo) := by linarith
    set κ := max (49 / 50) ((1 + ε) / 2) with hκ
    have hκ1 : κ < 1 := max_lt (by norm_num) (by linarith)
    set S := max (max (B / 2) s * (1 + ε)) (5 / 2 * (hi - lo)) with hS
    have hS0 : 0 < S := lt_max_of_lt_right hR
    obtain ⟨j, hj⟩ := exists_pow_lt_of_lt_one (div_pos hR hS0) hκ1
    rw [lt_div_iff₀ hS0] at hj
    refine ⟨1 + 2 * j, fun ys hy hl => ?_⟩
    cases ys with
    | nil => simp at hl
    | cons x zs =>
      have hx := hy x (by simp)
      have hxB : |x| ≤ B := abs_le_max_abs_abs hx.1 hx.2
      have hs0 : 0 ≤ max (|x| / 2) s * (1 + ε) := mul_nonneg (le_max_of_le_right hs.le) (by linarith)
      have hsS : max (|x| / 2) s * (1 + ε) ≤ S :=
        (mul_le_mul_of_nonneg_right (max_le_max (by linarith) le_rfl) (by linarith)).trans (le_max_left _ _)
      have a : FameFit lo hi S ε x (max (|x| / 2) s * (1 + ε)) :=
        ⟨⟨hs0, hsS⟩, 0, le_rfl, hS0.le, by linarith, by linarith, .inl hs0⟩
      have b := FameFit.shrinks h0 h1 hκ hlh.le j S (x, max (|x| / 2) s * (1 + ε)) a (le_max_right _ _) zs
        (fun z h => hy z (by simp [h])) (by simp at hl; omega)
      rw [ev, List.nil_append, fame]
      exact fin _ (b.mono (max_le hj.le le_rfl))

/-- `x` tends to `c`. -/
def Spec.TendsTo (x : ℕ → K) (c : K) : Prop := ∀ δ, 0 < δ → ∃ N, ∀ n, N ≤ n → |x n - c| ≤ δ

/-- The first `n` members. -/
def Spec.firstN (x : ℕ → K) (n : ℕ) : List K := (List.range n).map x

/-- **C87** (exact arithmetic): if the observations converge, the estimate converges to the same limit, whatever epsilon. -/
theorem C87_converges (s ε : K) (hs : 0 < s) (f : Fame K) (hf : Fame.new (exact K) s ε = .ok f) (x : ℕ → K) (c : K)
    (hx : TendsTo x c) : TendsTo (fun n => ((firstN x n).foldl (Fame.update (exact K)) f).evaluate) c := by
  intro δ hδ
  obtain ⟨N1, h1⟩ := hx (δ / 6) (by linarith)
  obtain ⟨N2, h2⟩ := C87_settles s ε hs f hf (firstN x N1) (c - δ / 6) (c + δ / 6) (by linarith)
  refine ⟨N1 + N2, fun n hn => ?_⟩
  have e : firstN x n = firstN x N1 ++ (List.range (n - N1)).map fun i => x (N1 + i) := by
    unfold firstN
    have : n = N1 + (n - N1) := by omega
    conv_lhs => rw [this, List.range_add, List.map_append, List.map_map]
    rfl
  have h3 := h2 ((List.range (n - N1)).map fun i => x (N1 + i)) (by
    intro y hy
    obtain ⟨i, -, rfl⟩ := List.mem_map.1 hy
    have := abs_le.1 (h1 (N1 + i) (by omega))
    exact ⟨by linarith, by linarith⟩) (by simp; omega)
  show |((firstN x n).foldl (Fame.update (exact K)) f).evaluate - c| ≤ δ
  rw [e, abs_le]
  exact ⟨by linarith [h3.1], by linarith [h3.2]⟩

/-- The observations of the error median are the distances from the running median. -/
theorem mad_run (m : Mad K) (x : ℕ → K) (n : ℕ) :
    ((firstN x n).foldl (Mad.update (exact K)) m).scoreMedian = (firstN x n).foldl (Fame.update (exact K)) m.scoreMedian ∧
    ((firstN x n).foldl (Mad.update (exact K)) m).errorMedian =
      (firstN (fun i => |x i - ((firstN x (i + 1)).foldl (Fame.update (exact K)) m.scoreMedian).evaluate|) n).foldl
        (Fame.update (exact K)) m.errorMedian := by
  induction n with
  | zero => exact ⟨rfl, rfl⟩
  | succ n ih =>
    have e : ∀ y : ℕ → K, firstN y (n + 1) = firstN y n ++ [y n] := fun y => by
      unfold firstN; rw [List.range_succ, List.map_append]; rfl
    obtain ⟨h1, h2⟩ := ih
    constructor
    · rw [e, List.foldl_append, List.foldl_append, ← h1]; rfl
    · rw [e x, e, List.foldl_append, List.foldl_append, ← h2]
      simp only [List.foldl_cons, List.foldl_nil]
      rw [e x, List.foldl_append, ← h1]
      rfl

/-- **C87** (exact arithmetic): if the observations converge, StreamingMAD tends to 0. -/
theorem C87_mad_vanishes (m : Mad K) (hm : Mad.new (exact K) = .ok m) (x : ℕ → K) (c : K) (hx : TendsTo x c) :
    TendsTo (fun n => ((firstN x n).foldl (Mad.update (exact K)) m).evaluate) 0 := by
  unfold Mad.new at hm
  obtain ⟨f, hf, hm⟩ := Res.bind_eq_ok.1 hm
  obtain ⟨f', hf', hm⟩ := Res.bind_eq_ok.1 hm
  injection hm with hm
  have hs : (0 : K) < (exact K).lit (1 / 10) := by simp [exact]
  have hc := C87_converges _ _ hs f hf x c hx
  have he : TendsTo (fun i => |x i - ((firstN x (i + 1)).foldl (Fame.update (exact K)) f).evaluate|) 0 := by
    intro δ hδ
    obtain ⟨N1, h1⟩ := hx (δ / 2) (by linarith)
    obtain ⟨N2, h2⟩ := hc (δ / 2) (by linarith)
    refine ⟨max N1 N2, fun n hn => ?_⟩
    have a := h1 n ((le_max_left _ _).trans hn)
    have b : |((firstN x (n + 1)).foldl (Fame.update (exact K)) f).evaluate - c| ≤ δ / 2 :=
      h2 (n + 1) (by have := (le_max_right N1 N2).trans hn; omega)
    rw [sub_zero, abs_abs]
    rw [abs_le] at *
    exact ⟨by linarith, by linarith⟩
  have := C87_converges _ _ hs f' hf' _ 0 he
  intro δ hδ
  obtain ⟨N, h⟩ := this δ hδ
  refine ⟨N, fun n hn => ?_⟩
  have e := (mad_run m x n).2
  rw [← hm] at e ⊢
  show |(((firstN x n).foldl (Mad.update (exact K)) ⟨f, f', 0⟩).errorMedian).evaluate - 0| ≤ δ
  rw [e]
  exact h n hn

/-- A converging stream that is not constant. -/
example : TendsTo (fun n : ℕ => (3 : ℚ) + (1 / 2) ^ n) 3 := by
  intro δ hδ
  obtain ⟨N, hN⟩ := exists_pow_lt_of_lt_one hδ (by norm_num : (1 / 2 : ℚ) < 1)
  refine ⟨N, fun n hn => ?_⟩
  rw [add_sub_cancel_left, abs_of_nonneg (by positivity)]
  exact (pow_le_pow_of_le_one (by norm_num) (by norm_num) hn).trans hN.le

end KML
