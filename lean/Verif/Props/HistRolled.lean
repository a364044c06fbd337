import Verif.Props.DoubleQueries
import Verif.Props.HistCdf
import Verif.Props.HistDouble

/-! # C129: quantiles of a histogram whose window has rolled over -/

namespace KML

open Spec Utils

namespace Hist

/-- The counts add up to no more than the number of observations. -/
theorem sum_le_run {F : Type} {A : Arith F} {nb W : ℕ} {h : Hist F} {xs : List F}
    (hu : updateAll (Hist.update A) (Hist.new nb W) xs = .ok h) : sumCounts h.bins ≤ xs.length := by
  induction xs using List.reverseRecOn generalizing h with
  | nil => simp only [updateAll] at hu; injection hu with hu; subst hu; exact Nat.zero_le _
  | append_singleton xs x ih =>
    rw [updateAll_snoc] at hu
    obtain ⟨h1, e1, e2⟩ := Res.bind_eq_ok.1 hu
    have hi := ih e1
    obtain ⟨i, b1, b2, hs⟩ := update_step e2
    have hps := hs.placed.sum
    have hms : sumCounts h.bins = sumCounts b2 := by
      rcases hs.merge with ⟨-, h2⟩ | ⟨-, h2⟩
      · rw [h2]
      · exact h2.sum
    rw [List.length_append, List.length_singleton, hms]
    rcases hs.decay with ⟨-, h3, -⟩ | ⟨-, -, d, w, -, h3, -⟩
    · rw [h3]; omega
    · have := h3.sum; omega

/-- Running sums of doubles: finite, non-decreasing, and not much below the exact running sum or 1. -/
theorem sums_ge_dbl (ps : List ℚ) (acc a : ℚ) (m : ℕ) (hp : ∀ p ∈ ps, 0 ≤ p ∧ p ≤ 2 ^ 53) (hacc : 0 ≤ acc)
    (hfix : rnd64 acc = acc) (hup : acc ≤ m * pow2 54) (hm : min 1 a - m / 2 ^ 51 ≤ acc) (hlen : m + ps.length ≤ 2 ^ 51) :
    ∃ cs : List ℚ, partialSumFrom Dbl.arith (.fin acc) (ps.map fun p => .fin (rnd64 p)) = cs.map .fin ∧
      cs.length = ps.length ∧ cs.Pairwise (· ≤ ·) ∧ (∀ c ∈ cs, acc ≤ c) ∧
      ∀ i c, cs[i]? = some c → min 1 (a + (ps.take (i + 1)).sum) - ((m + i + 1 : ℕ) : ℚ) / 2 ^ 51 ≤ c := by
  induction ps generalizing acc a m with
  | nil => exact ⟨[], rfl, rfl, List.Pairwise.nil, by simp, by simp⟩
  | cons p ps ih =>
    obtain ⟨hp0, hp1⟩ := hp p (by simp)
    rw [List.length_cons] at hlen
    have r0 := rnd64_nonneg hp0
    have hr1 : rnd64 p ≤ pow2 54 := by
      have h1 := rnd64_mono hp1
      rw [show rnd64 (2 ^ 53) = 2 ^ 53 by decide +kernel] at h1
      have : (2 : ℚ) ^ 53 ≤ pow2 54 := by decide +kernel
      linarith
    have hlo : 0 ≤ acc + rnd64 p := add_nonneg hacc r0
    have hhi : |acc + rnd64 p| ≤ ((m + 1 : ℕ) : ℚ) * pow2 54 := by
      rw [abs_of_nonneg hlo]; push_cast; linarith
    have hm53 : m + 1 ≤ 2 ^ 53 := by
      have : (2 : ℕ) ^ 51 ≤ 2 ^ 53 := by norm_num
      omega
    have hup' := rnd64_abs_le_mul hm53 (by norm_num) hhi
    have hM : ((m + 1 : ℕ) : ℚ) * pow2 54 ≤ dblMax := by
      have h1 : ((m + 1 : ℕ) : ℚ) ≤ 2 ^ 53 := by exact_mod_cast hm53
      have h2 : (2 : ℚ) ^ 53 * pow2 54 ≤ dblMax := by decide +kernel
      exact (mul_le_mul_of_nonneg_right h1 (pow2_pos 54).le).trans h2
    have hadd : Dbl.arith.add (.fin acc) (.fin (rnd64 p)) = .fin (rnd64 (acc + rnd64 p)) :=
      Dbl.ofRat_fin (hhi.trans hM)
    have hmono : acc ≤ rnd64 (acc + rnd64 p) := by
      have := rnd64_mono (show acc ≤ acc + rnd64 p by linarith)
      rwa [hfix] at this
    have hnn := rnd64_nonneg hlo
    rw [abs_of_nonneg hnn] at hup'
    have hnext : min 1 (a + p) - ((m + 1 : ℕ) : ℚ) / 2 ^ 51 ≤ rnd64 (acc + rnd64 p) := by
      have hmin : min 1 (a + p) ≤ 1 := min_le_left _ _
      have hq : (0 : ℚ) ≤ ((m + 1 : ℕ) : ℚ) / 2 ^ 51 := by positivity
      by_cases h1 : 1 ≤ acc + rnd64 p
      · have := rnd64_mono h1
        rw [show rnd64 1 = 1 by decide +kernel] at this
        linarith
      · have hpl : p ≤ 1 := by
          by_contra hc
          have := rnd64_mono (not_le.1 hc).le
          rw [show rnd64 1 = 1 by decide +kernel] at this
          linarith
        have e1 := (abs_le.1 (rnd64_abs_err_one hp0 hpl)).1
        have e2 := (abs_le.1 (rnd64_abs_err_three hlo (by linarith))).1
        have h2 : min 1 (a + p) ≤ min 1 a + p := by
          rcases min_cases 1 a with ⟨h, -⟩ | ⟨h, -⟩ <;> rw [h]
          · linarith
          · exact min_le_right _ _
        push_cast
        rw [add_div]
        linarith
    obtain ⟨cs, c1, c2, c3, c4, c5⟩ := ih (rnd64 (acc + rnd64 p)) (a + p) (m + 1)
      (fun q hq => hp q (by simp [hq])) hnn (rnd64_idem _) hup' hnext (by omega)
    refine ⟨rnd64 (acc + rnd64 p) :: cs, ?_, by simp [c2], List.Pairwise.cons c4 c3, ?_, ?_⟩
    · simp only [List.map_cons, partialSumFrom, hadd, c1]
    · intro c hc
      rcases List.mem_cons.1 hc with rfl | hc
      · exact hmono
      · exact hmono.trans (c4 c hc)
    · intro i c hc
      cases i with
      | zero =>
        simp only [List.getElem?_cons_zero, Option.some.injEq] at hc
        subst hc
        simpa using hnext
      | succ i =>
        rw [List.getElem?_cons_succ] at hc
        have := c5 i c hc
        rw [List.take_succ_cons, List.sum_cons, ← add_assoc]
        refine le_trans (le_of_eq ?_) this
        congr 3
        omega

theorem cdf_ge_dbl {ps : List ℚ} (hp : ∀ p ∈ ps, 0 ≤ p ∧ p ≤ 2 ^ 53) (hlen : ps.length ≤ 2 ^ 51) :
    ∃ cs : List ℚ, partialSum Dbl.arith (ps.map fun p => .fin (rnd64 p)) = cs.map .fin ∧
      cs.length = ps.length ∧ cs.Pairwise (· ≤ ·) ∧ (∀ c ∈ cs, 0 ≤ c) ∧
      ∀ i c, cs[i]? = some c → min 1 (ps.take (i + 1)).sum - ((i + 1 : ℕ) : ℚ) / 2 ^ 51 ≤ c := by
  cases ps with
  | nil => exact ⟨[], rfl, rfl, List.Pairwise.nil, by simp, by simp⟩
  | cons p ps =>
    obtain ⟨hp0, hp1⟩ := hp p (by simp)
    rw [List.length_cons] at hlen
    have hr1 : rnd64 p ≤ ((1 : ℕ) : ℚ) * pow2 54 := by
      have h1 := rnd64_mono hp1
      rw [show rnd64 (2 ^ 53) = 2 ^ 53 by decide +kernel] at h1
      have : (2 : ℚ) ^ 53 ≤ ((1 : ℕ) : ℚ) * pow2 54 := by decide +kernel
      linarith
    have hfirst : min 1 p - ((1 : ℕ) : ℚ) / 2 ^ 51 ≤ rnd64 p := by
      by_cases h1 : p ≤ 1
      · have := (abs_le.1 (rnd64_abs_err_one hp0 h1)).1
        have := min_le_right 1 p
        push_cast
        linarith
      · have := rnd64_mono (not_le.1 h1).le
        rw [show rnd64 1 = 1 by decide +kernel] at this
        have := min_le_left 1 p
        have : (0 : ℚ) ≤ ((1 : ℕ) : ℚ) / 2 ^ 51 := by positivity
        linarith
    obtain ⟨cs, c1, c2, c3, c4, c5⟩ := sums_ge_dbl ps (rnd64 p) p 1 (fun q hq => hp q (by simp [hq])) (rnd64_nonneg hp0)
      (rnd64_idem _) hr1 hfirst (by omega)
    refine ⟨rnd64 p :: cs, ?_, by simp [c2], List.Pairwise.cons c4 c3, ?_, ?_⟩
    · simp only [List.map_cons, partialSum, c1]
    · intro c hc
      rcases List.mem_cons.1 hc with rfl | hc
      · exact rnd64_nonneg hp0
      · exact (rnd64_nonneg hp0).trans (c4 c hc)
    · intro i c hc
      cases i with
      | zero =>
        simp only [List.getElem?_cons_zero, Option.some.injEq] at hc
        subst hc
        simpa using hfirst
      | succ i =>
        rw [List.getElem?_cons_succ] at hc
        have := c5 i c hc
        rw [List.take_succ_cons, List.sum_cons]
        refine le_trans (le_of_eq ?_) this
        congr 3
        omega

theorem ofNat_dbl {m : ℕ} (hm : m ≤ 2 ^ 53) : Dbl.arith.ofNat m = .fin m := by
  have h1 : |((m : ℤ) : ℚ)| ≤ 2 ^ 53 := by
    rw [abs_of_nonneg (by positivity)]; exact_mod_cast hm
  have h2 : rnd64 ((m : ℤ) : ℚ) = ((m : ℤ) : ℚ) := rnd64_int _ (by exact_mod_cast h1)
  show Dbl.ofRat ((m : ℤ) : ℚ) = _
  rw [Dbl.ofRat_fin (h1.trans (by decide +kernel)), h2]
  simp

/-- `pdf` on doubles, whatever the counts add up to. -/
theorem pdf_dbl_any {h : Hist Dbl} (ht : 0 < h.total) (ht' : h.total ≤ 2 ^ 53) (hc : ∀ b ∈ h.bins, b.count ≤ 2 ^ 53) :
    h.pdf Dbl.arith true false = (h.bins.map fun b => (b.count : ℚ) / h.total).map fun p => .fin (rnd64 p) := by
  simp only [pdf, Bool.false_eq_true, if_false, Bool.not_true, List.map_map]
  refine List.map_congr_left fun b hb => ?_
  rw [ofNat_dbl ht', ofNat_dbl (hc b hb)]
  have hn0 : (h.total : ℚ) ≠ 0 := by exact_mod_cast ht.ne'
  have hle : (b.count : ℚ) / h.total ≤ 2 ^ 53 := by
    rw [div_le_iff₀ (by exact_mod_cast ht)]
    have h1 : (b.count : ℚ) ≤ 2 ^ 53 := by exact_mod_cast hc b hb
    have h2 : (1 : ℚ) ≤ h.total := by exact_mod_cast ht
    nlinarith
  show (if (h.total : ℚ) = 0 then _ else Dbl.ofRat ((b.count : ℚ) / h.total)) = _
  rw [if_neg hn0]
  refine Dbl.ofRat_fin ?_
  rw [abs_of_nonneg (by positivity)]
  exact hle.trans (by decide +kernel)

theorem partialSumFrom_zeros {zs : List (Bin Dbl)} (hz : ∀ b ∈ zs, b.count = 0) (t : ℚ) (l : List Dbl) :
    partialSumFrom Dbl.arith (.fin 0) (((zs.map fun b => (b.count : ℚ) / t).map fun p => .fin (rnd64 p)) ++ l) =
      List.replicate zs.length (.fin 0) ++ partialSumFrom Dbl.arith (.fin 0) l := by
  induction zs with
  | nil => rfl
  | cons b zs ih =>
    have e : Dbl.arith.add (.fin 0) (.fin (rnd64 ((b.count : ℚ) / t))) = .fin 0 := by
      rw [hz b (by simp), Nat.cast_zero, zero_div, rnd64_zero]
      decide +kernel
    simp only [List.map_cons, List.cons_append, partialSumFrom, e, List.length_cons, List.replicate_succ]
    rw [ih fun b hb => hz b (by simp [hb])]

/-- Empty bins below the first bin that counts anything: low positive levels are interpolated in the last of the empty
bins, with a division by its count. -/
theorem quantile_inf {h : Hist Dbl} {zs rest : List (Bin Dbl)} {b z : Bin Dbl} {a q : ℚ} (hb : h.bins = zs ++ z :: b :: rest)
    (hz : ∀ c ∈ zs, c.count = 0) (hz0 : z.count = 0) (hl : z.left = .fin a) (hr : z.right = .fin a) (hb1 : 1 ≤ b.count)
    (hcnt : ∀ c ∈ h.bins, c.count ≤ 2 ^ 53) (ht : 0 < h.total) (ht' : h.total ≤ 2 ^ 53) (hn : 1 ≤ h.numBins)
    (hn' : h.numBins ≤ 2 ^ 53) (hq : 0 < q) (hq1 : q ≤ 1) (hqd : rnd64 q = q) (hqb : q < rnd64 ((b.count : ℚ) / h.total)) :
    h.quantile Dbl.arith (.fin q) = .ok (.inf false) := by
  set p := rnd64 ((b.count : ℚ) / h.total) with hp
  obtain ⟨tail, hcdf⟩ : ∃ tail, h.cdf Dbl.arith true = List.replicate (zs.length + 1) (.fin 0) ++ .fin p :: tail := by
    unfold cdf
    rw [pdf_dbl_any ht ht' hcnt, hb]
    have e0 : Dbl.arith.add (.fin 0) (.fin p) = .fin p := by
      have hx : |(0 : ℚ) + p| ≤ dblMax := by
        have h1 : (b.count : ℚ) / h.total ≤ 2 ^ 53 := by
          rw [div_le_iff₀ (by exact_mod_cast ht)]
          have h1 : (b.count : ℚ) ≤ 2 ^ 53 := by exact_mod_cast hcnt b (by rw [hb]; simp)
          have h2 : (1 : ℚ) ≤ h.total := by exact_mod_cast ht
          nlinarith
        have h2 := rnd64_mono h1
        rw [show rnd64 (2 ^ 53) = 2 ^ 53 by decide +kernel] at h2
        rw [zero_add, abs_of_nonneg (by linarith)]
        exact h2.trans (by decide +kernel)
      show Dbl.ofRat (0 + p) = _
      rw [Dbl.ofRat_fin hx, zero_add, hp, rnd64_idem]
    have key : ∀ zs : List (Bin Dbl), (∀ c ∈ zs, c.count = 0) → ∀ l, partialSumFrom Dbl.arith (.fin 0)
        (((zs.map fun b => (b.count : ℚ) / h.total).map fun p => .fin (rnd64 p)) ++ .fin p :: l) =
        List.replicate zs.length (.fin 0) ++ .fin p :: partialSumFrom Dbl.arith (.fin p) l := by
      intro zs hz l
      rw [partialSumFrom_zeros hz, partialSumFrom, e0]
    have hz1 : .fin (rnd64 ((z.count : ℚ) / h.total)) = (Dbl.fin 0) := by
      rw [hz0, Nat.cast_zero, zero_div, rnd64_zero]
    cases zs with
    | nil =>
      simp only [List.nil_append, List.map_cons, partialSum, hz1]
      exact ⟨_, congrArg (Dbl.fin 0 :: ·) (key [] (by simp) _)⟩
    | cons c zs =>
      have hc1 : .fin (rnd64 ((c.count : ℚ) / h.total)) = (Dbl.fin 0) := by
        rw [hz c (by simp), Nat.cast_zero, zero_div, rnd64_zero]
      have := key (zs ++ [z]) (by
        intro d hd
        rcases List.mem_append.1 hd with hd | hd
        · exact hz d (by simp [hd])
        · rw [List.mem_singleton.1 hd, hz0]) ((rest.map fun b => (b.count : ℚ) / h.total).map fun p => .fin (rnd64 p))
      refine ⟨partialSumFrom Dbl.arith (.fin p) ((rest.map fun b => (b.count : ℚ) / h.total).map fun p => .fin (rnd64 p)), ?_⟩
      simp only [List.cons_append, List.map_cons, List.map_append, partialSum, hc1]
      simp only [List.map_append, List.map_cons, List.map_nil, List.append_assoc, List.cons_append,
        List.nil_append, List.length_append, List.length_singleton] at this
      rw [this]
      simp [List.replicate_succ]
  have hlb : lowerBound Dbl.arith (h.cdf Dbl.arith true) (.fin q) = zs.length + 1 := by
    unfold lowerBound
    rw [hcdf, List.takeWhile_append_of_pos]
    · have : Dbl.arith.lt (.fin p) (.fin q) = false := decide_eq_false (not_lt.2 hqb.le)
      simp [this]
    · intro c hc
      rw [List.eq_of_mem_replicate hc]
      exact decide_eq_true hq
  have hi : quantileIndex Dbl.arith (h.cdf Dbl.arith true) (.fin q) = .ok zs.length := by
    unfold quantileIndex
    simp only [hlb]
    rw [hcdf, List.getElem?_append_right (by simp)]
    have : Dbl.arith.lt (.fin q) (.fin p) = true := decide_eq_true hqb
    simp [this]
  have g1 : (h.cdf Dbl.arith true)[zs.length]? = some (.fin 0) := by
    rw [hcdf, List.getElem?_append_left (by simp)]
    simp
  have g2 : (h.cdf Dbl.arith true)[zs.length + 1]? = some (.fin p) := by
    rw [hcdf, List.getElem?_append_right (by simp)]
    simp
  have g3 : h.bins[zs.length]? = some z := by rw [hb]; simp
  have hrange : (Dbl.arith.lt (.fin q) (Dbl.arith.lit 0) || Dbl.arith.lt (Dbl.arith.lit 1) (.fin q)) = false := by
    show (Dbl.lt (.fin q) (Dbl.ofRat 0) || Dbl.lt (Dbl.ofRat 1) (.fin q)) = false
    rw [show Dbl.ofRat 0 = .fin 0 by decide +kernel, show Dbl.ofRat 1 = .fin 1 by decide +kernel]
    show (decide (q < 0) || decide (1 < q)) = false
    simp [hq.le, hq1]
  have hess : essentiallyEqual Dbl.arith (.fin q) (.fin 0) (defaultEps Dbl.arith) = false := by
    rw [essential_fin hq.le le_rfl (by linarith) (by norm_num), sub_zero, hqd, min_eq_right hq.le, zero_mul, rnd64_zero,
      decide_eq_false_iff_not, abs_of_pos hq]
    linarith
  -- the interpolation
  have ht0 : (0 : ℚ) < h.total := by exact_mod_cast ht
  have ht1 : (1 : ℚ) ≤ h.total := by exact_mod_cast ht
  have ht2 : (h.total : ℚ) ≤ 2 ^ 53 := by exact_mod_cast ht'
  have hn0 : (0 : ℚ) < h.numBins := by exact_mod_cast hn
  have hn1 : (1 : ℚ) ≤ h.numBins := by exact_mod_cast hn
  have hn2 : (h.numBins : ℚ) ≤ 2 ^ 53 := by exact_mod_cast hn'
  have fix : ∀ k : ℤ, -1074 ≤ k → rnd64 (pow2 k) = pow2 k := fun k hk => by
    have := rnd64_repr 1 k (by norm_num) hk
    rwa [Int.cast_one, one_mul] at this
  have e53 : pow2 (-53) = 1 / 2 ^ 53 := by decide +kernel
  have hp1 : pow2 (-53) ≤ p ∧ p ≤ pow2 53 := by
    have h1 : pow2 (-53) ≤ (b.count : ℚ) / h.total := by
      rw [e53, div_le_div_iff₀ (by positivity) ht0]
      have : (1 : ℚ) ≤ b.count := by exact_mod_cast hb1
      nlinarith
    have h2 : (b.count : ℚ) / h.total ≤ pow2 53 := by
      rw [div_le_iff₀ ht0, show pow2 53 = 2 ^ 53 by decide +kernel]
      have h1 : (b.count : ℚ) ≤ 2 ^ 53 := by exact_mod_cast hcnt b (by rw [hb]; simp)
      nlinarith
    have h3 := rnd64_mono h1
    have h4 := rnd64_mono h2
    rw [fix _ (by norm_num)] at h3 h4
    exact ⟨h3, h4⟩
  have hp0 : 0 ≤ p := (pow2_pos _).le.trans hp1.1
  have hsub : Dbl.arith.sub (.fin p) (.fin 0) = .fin p := by
    show Dbl.ofRat (p + -0) = _
    rw [neg_zero, add_zero, Dbl.ofRat_fin (by rw [abs_of_nonneg hp0]; exact hp1.2.trans (by decide +kernel)), hp, rnd64_idem]
  have hw0 : Dbl.arith.sub z.right z.left = .fin 0 := by
    rw [hl, hr]
    show Dbl.ofRat (a + -a) = _
    rw [add_neg_cancel]
    decide +kernel
  have hone : Dbl.arith.lit 1 = .fin 1 := by decide +kernel
  have hzero : Dbl.arith.lit 0 = .fin 0 := by decide +kernel
  obtain ⟨w, hw, hw1, hw2⟩ : ∃ w : ℚ, Dbl.arith.div (.fin 1) (Dbl.arith.ofNat h.numBins) = .fin w ∧ pow2 (-53) ≤ w ∧ w ≤ 1 := by
    rw [ofNat_dbl hn']
    have h1 : pow2 (-53) ≤ 1 / (h.numBins : ℚ) := by
      rw [e53, div_le_div_iff₀ (by positivity) hn0]
      linarith
    have h2 : 1 / (h.numBins : ℚ) ≤ 1 := by rw [div_le_one hn0]; exact hn1
    have h3 := rnd64_mono h1
    have h4 := rnd64_mono h2
    rw [fix _ (by norm_num)] at h3
    rw [show rnd64 1 = 1 by decide +kernel] at h4
    refine ⟨rnd64 (1 / (h.numBins : ℚ)), ?_, h3, h4⟩
    show (if (h.numBins : ℚ) = 0 then _ else Dbl.ofRat (1 / (h.numBins : ℚ))) = _
    rw [if_neg hn0.ne']
    refine Dbl.ofRat_fin ?_
    rw [abs_of_nonneg (by positivity)]
    exact h2.trans (by decide +kernel)
  have hw0' : 0 ≤ w := (pow2_pos _).le.trans hw1
  obtain ⟨u, hu, hu1, hu2⟩ : ∃ u : ℚ, Dbl.arith.mul (.fin w) (.fin p) = .fin u ∧ pow2 (-106) ≤ u ∧ u ≤ pow2 53 := by
    have h1 : pow2 (-106) ≤ w * p := by
      rw [show pow2 (-106) = pow2 (-53) * pow2 (-53) by decide +kernel]
      exact mul_le_mul hw1 hp1.1 (pow2_pos _).le hw0'
    have h2 : w * p ≤ pow2 53 := (mul_le_of_le_one_left hp0 hw2).trans hp1.2
    have h3 := rnd64_mono h1
    have h4 := rnd64_mono h2
    rw [fix _ (by norm_num)] at h3 h4
    refine ⟨rnd64 (w * p), Dbl.ofRat_fin ?_, h3, h4⟩
    rw [abs_of_nonneg (mul_nonneg hw0' hp0)]
    exact h2.trans (by decide +kernel)
  have hu0 : 0 ≤ u := (pow2_pos _).le.trans hu1
  obtain ⟨v, hv, hv1⟩ : ∃ v : ℚ, Dbl.arith.mul (.fin u) (Dbl.arith.ofNat h.total) = .fin v ∧ 0 < v := by
    rw [ofNat_dbl ht']
    have h1 : pow2 (-106) ≤ u * h.total := hu1.trans (le_mul_of_one_le_right hu0 ht1)
    have h2 : u * h.total ≤ pow2 106 := by
      rw [show pow2 106 = pow2 53 * 2 ^ 53 by decide +kernel]
      exact mul_le_mul hu2 ht2 ht0.le (pow2_pos _).le
    have h3 := rnd64_mono h1
    rw [fix _ (by norm_num)] at h3
    refine ⟨rnd64 (u * h.total), Dbl.ofRat_fin ?_, (pow2_pos _).trans_le h3⟩
    rw [abs_of_nonneg (mul_nonneg hu0 ht0.le)]
    exact h2.trans (by decide +kernel)
  have hdiv : Dbl.arith.div (.fin v) (Dbl.arith.ofNat z.count) = .inf false := by
    rw [hz0, ofNat_dbl (Nat.zero_le _)]
    show (if ((0 : ℕ) : ℚ) = 0 then (if v = 0 then Dbl.nan else .inf (decide (v < 0))) else
      Dbl.ofRat (v / ((0 : ℕ) : ℚ))) = _
    rw [if_pos Nat.cast_zero, if_neg hv1.ne', decide_eq_false (not_lt.2 hv1.le)]
  have hadd : Dbl.arith.add z.left (.inf false) = .inf false := by rw [hl]; rfl
  have heq0 : Dbl.arith.eq (.fin 0) (.fin 0) = true := by decide +kernel
  rw [hzero, hone] at hrange
  unfold quantile
  simp only [hrange, Bool.false_eq_true, if_false, hi, Res.ok_bind, g1, g2, g3, hess, hsub, hw0, hzero, hone, heq0, if_true,
    hw, hu, hv, hdiv, hadd]

end Hist

/-! ## C129 -/

/-- The full property: on doubles, every level in `[0, 1]` has a finite quantile on a histogram with at least two bins,
whatever the number of (finite, not too large) observations. It is false of the code. -/
def C129_full : Prop := ∀ (numBins W : ℕ) (xs : List ℚ) (h : Hist Dbl) (q : ℚ), 1 ≤ W →
  (∀ x ∈ xs, |x| ≤ 2 ^ 100) → updateAll (Hist.update Dbl.arith) (Hist.new numBins W) (xs.map .fin) = .ok h → 2 ≤ h.size →
  0 ≤ q → q ≤ 1 → rnd64 q = q → ∃ v : ℚ, h.quantile Dbl.arith (.fin q) = .ok (.fin v)

/-- **C129** is violated: after 1, 2, 2 with a window of two the median is infinite. -/
theorem C129_violated : ¬ C129_full ∧ (do
    let h ← updateAll (Hist.update Dbl.arith) (Hist.new 10 2) [.fin 1, .fin 2, .fin 2]
    h.quantile Dbl.arith (.fin (1 / 2))) = .ok (.inf false) := by
  have e : (do
      let h ← updateAll (Hist.update Dbl.arith) (Hist.new 10 2) [.fin 1, .fin 2, .fin 2]
      h.quantile Dbl.arith (.fin (1 / 2))) = .ok (.inf false) := by decide +kernel
  refine ⟨fun hf => ?_, e⟩
  obtain ⟨h, e1, e2⟩ := Res.bind_eq_ok.1 e
  have h2 : 2 ≤ h.size := by
    have : (match updateAll (Hist.update Dbl.arith) (Hist.new 10 2) [.fin 1, .fin 2, .fin 2] with
      | .ok h => decide (2 ≤ h.size)
      | _ => false) = true := by decide +kernel
    rw [e1] at this
    exact of_decide_eq_true this
  obtain ⟨v, hv⟩ := hf 10 2 [1, 2, 2] h (1 / 2) (by norm_num) (by decide +kernel) e1 h2 (by norm_num) (by norm_num)
    (by decide +kernel)
  rw [hv] at e2
  injection e2 with e2
  cases e2

/-- **C129**, the part that holds on doubles: whatever the stream, NaN and infinities included, and however long, with at
least two and at most 2^30 bins every level in `[0, 1]` has a quantile: no undefined behaviour and no exception. Missing:
that the value is finite. -/
theorem C129_defined_partial (numBins W : ℕ) (xs : List Dbl) (h : Hist Dbl) (q : ℚ) (hW : 1 ≤ W) (hN : xs.length ≤ 2 ^ 53)
    (h2 : 2 ≤ h.size) (hs : h.size ≤ 2 ^ 30)
    (hu : updateAll (Hist.update Dbl.arith) (Hist.new numBins W) xs = .ok h) (h0 : 0 ≤ q) (h1 : q ≤ 1) :
    (h.quantile Dbl.arith (.fin q)).IsOk := by
  have hne : xs ≠ [] := by
    rintro rfl
    simp only [updateAll] at hu
    injection hu with hu
    subst hu
    simp [Hist.size, Hist.new] at h2
  have hc := Hist.Counts.run hu
  have hpos := List.length_pos_iff.2 hne
  have htot : 0 < h.total := by rw [hc.total]; omega
  have htot' : h.total ≤ 2 ^ 53 := by rw [hc.total]; omega
  have hn0 : (0 : ℚ) < h.total := by exact_mod_cast htot
  have hcnt : ∀ b ∈ h.bins, b.count ≤ 2 ^ 53 := fun b hb => (Hist.count_le_sum hb).trans ((Hist.sum_le_run hu).trans hN)
  obtain ⟨cs, c1, c2, c3, c4, c5⟩ := Hist.cdf_ge_dbl (ps := h.bins.map fun b => (b.count : ℚ) / h.total)
    (by
      intro p hp
      obtain ⟨b, hb, rfl⟩ := List.mem_map.1 hp
      refine ⟨by positivity, ?_⟩
      rw [div_le_iff₀ hn0]
      have h1 : (b.count : ℚ) ≤ 2 ^ 53 := by exact_mod_cast hcnt b hb
      have h2 : (1 : ℚ) ≤ h.total := by exact_mod_cast htot
      nlinarith)
    (by rw [List.length_map]; exact hs.trans (by norm_num))
  rw [List.length_map] at c2
  have c1 : h.cdf Dbl.arith true = cs.map .fin := by unfold Hist.cdf; rw [Hist.pdf_dbl_any htot htot' hcnt, c1]
  have hsz : h.size = h.bins.length := rfl
  have hM : (3 : ℚ) ≤ dblMax := by decide +kernel
  refine Hist.quantile_isOk ?_ (by rw [c1, List.length_map, c2]) h2 ?_ ?_
  · show (Dbl.lt (.fin q) (Dbl.ofRat 0) || Dbl.lt (Dbl.ofRat 1) (.fin q)) = false
    rw [show Dbl.ofRat 0 = .fin 0 by decide +kernel, show Dbl.ofRat 1 = .fin 1 by decide +kernel]
    show (decide (q < 0) || decide (1 < q)) = false
    simp [h0, h1]
  · intro c hl hlt
    rw [c1, List.getLast?_eq_getElem?, List.length_map, List.getElem?_map] at hl
    obtain ⟨c, hl', rfl⟩ := Option.map_eq_some_iff.1 hl
    have hlt : c < q := of_decide_eq_true hlt
    have hb := c5 _ c hl'
    have hone : (1 : ℚ) ≤ (Hist.sumCounts h.bins : ℕ) / h.total := by
      rw [le_div_iff₀ hn0, one_mul]
      exact_mod_cast hc.sum_ge
    rw [List.take_of_length_le (by rw [List.length_map]; omega), Hist.sum_div_dbl, min_eq_left hone,
      show cs.length - 1 + 1 = h.size by omega] at hb
    have hb2 : (h.size : ℚ) / 2 ^ 51 ≤ 1 / 2 ^ 21 := by
      rw [div_le_div_iff₀ (by positivity) (by positivity)]
      have : (h.size : ℚ) ≤ 2 ^ 30 := by exact_mod_cast hs
      linarith
    have hc0 : 1 / 2 ≤ c := by linarith
    rw [essential_fin h0 (by linarith) (by linarith) (by linarith), decide_eq_true_eq,
      abs_of_nonneg (rnd64_nonneg (by linarith)), min_eq_right hlt.le]
    refine (rnd64_mono (show q - c ≤ 1 / 2 ^ 21 by linarith)).trans ?_
    refine le_trans ?_ (rnd64_mono (mul_le_mul_of_nonneg_right hc0 Dbl.eps_fin.2.2.1))
    decide +kernel
  · intro c _ hget hlt hgt
    rw [c1, List.getElem?_map] at hget
    obtain ⟨c, hget, rfl⟩ := Option.map_eq_some_iff.1 hget
    have hlt : ¬ c < q := of_decide_eq_false hlt
    have hgt : ¬ q < c := of_decide_eq_false hgt
    have : c = q := le_antisymm (not_lt.1 hgt) (not_lt.1 hlt)
    subst this
    rw [essential_fin h0 h0 (by linarith) (by linarith), decide_eq_true_eq, sub_self, rnd64_zero, abs_zero]
    exact rnd64_nonneg (mul_nonneg (le_min h0 h0) Dbl.eps_fin.2.2.1)

/-- **C129**, what happens instead: on streams whose new values are always new maxima, with a bin for each of them and
values the tolerant comparison tells apart, once the least value is not among the last `2 * W` observations every level
below the share of the least value `v` that is (its number of occurrences over `W`) has the quantile `+inf`. -/
theorem C129_infinite (numBins W : ℕ) (hW : 1 ≤ W) (hb : numBins ≤ 2 ^ 53) (xs : List ℚ) (hx : ∀ x ∈ xs, |x| ≤ dblMax / 2)
    (hd : distinct xs ≤ numBins) (hmax : NewMaxima xs)
    (hsep : ∀ a ∈ xs, ∀ b ∈ xs, a < b → definitelyLessThan b64 a b (defaultEps b64) = true)
    (hlong : 2 * W ≤ xs.length) (hN : xs.length ≤ 2 ^ 53) (m v : ℚ) (hmem : m ∈ xs) (hmin : ∀ y ∈ xs, m ≤ y)
    (hout : m ∉ lastN (2 * W) xs) (hv : v ∈ lastN (2 * W) xs) (hvmin : ∀ y ∈ lastN (2 * W) xs, v ≤ y) (q : ℚ) (h0 : 0 < q)
    (h1 : q ≤ 1) (hqd : rnd64 q = q) (hq : q < rnd64 (((lastN (2 * W) xs).count v : ℕ) / (W : ℚ))) :
    ∃ h, updateAll (Hist.update Dbl.arith) (Hist.new numBins W) (xs.map .fin) = .ok h ∧
      h.quantile Dbl.arith (.fin q) = .ok (.inf false) := by
  rw [b64_eq] at hsep
  obtain ⟨h, e, s1, s2, s3⟩ := C127_double_window R64 numBins W hW xs hd hmax hsep
  have hcount : ∀ b ∈ h.bins, b.count = (lastN (2 * W) xs).count b.left := by
    intro b hb
    obtain ⟨-, g1, g2, -⟩ := s3 b hb
    rcases (hmin _ ((s2 b.left).1 ⟨b, hb, rfl⟩)).lt_or_eq with hlt | he
    · exact g1 ⟨m, hmem, hlt⟩
    · rw [← he, List.count_eq_zero_of_not_mem hout] at g2
      rw [← he, List.count_eq_zero_of_not_mem hout]; omega
  have ed := C88_no_overflow_partial numBins W xs hx
  rw [b64_eq, e] at ed
  refine ⟨_, ed, ?_⟩
  have hc := Hist.Counts.run ed
  rw [List.length_map] at hc
  have hvx : v ∈ xs := List.mem_of_mem_drop hv
  have hmv : m < v := lt_of_le_of_ne (hmin v hvx) (by rintro rfl; exact hout hv)
  obtain ⟨bv, hbv, hbl⟩ := (s2 v).2 hvx
  obtain ⟨bm, hbm, hbml⟩ := (s2 m).2 hmem
  obtain ⟨l1, rest, hl⟩ := List.append_of_mem hbv
  rw [hl, List.map_append, List.map_cons, List.pairwise_append, List.pairwise_cons] at s1
  obtain ⟨t1, ⟨t2, t3⟩, t4⟩ := s1
  have hbm1 : bm ∈ l1 := by
    rw [hl] at hbm
    rcases List.mem_append.1 hbm with hh | hh
    · exact hh
    · exfalso
      rcases List.mem_cons.1 hh with hh | hh
      · rw [← hh] at hbl; rw [hbl] at hbml; exact hmv.ne' hbml
      · have := t2 bm.left (List.mem_map_of_mem hh)
        rw [hbl, hbml] at this
        exact absurd this (not_lt.2 hmv.le)
  have hzero : ∀ b ∈ l1, b.count = 0 := by
    intro b hb
    rw [hcount b (by rw [hl]; simp [hb])]
    refine List.count_eq_zero_of_not_mem fun hin => ?_
    have h1 := t4 b.left (List.mem_map_of_mem hb) bv.left (by simp)
    have h2 := hvmin _ hin
    rw [hbl] at h1
    exact absurd h1 (not_lt.2 h2)
  obtain ⟨zs, z, hzs⟩ : ∃ zs z, l1 = zs ++ [z] := ⟨l1.dropLast, l1.getLast (List.ne_nil_of_mem hbm1),
    (List.dropLast_append_getLast _).symm⟩
  subst hzs
  have hbins : (h.map Dbl.fin).bins = zs.map (Bin.map Dbl.fin) ++ z.map Dbl.fin :: bv.map Dbl.fin :: rest.map (Bin.map Dbl.fin) := by
    show h.bins.map (Bin.map Dbl.fin) = _
    rw [hl]; simp
  have hzr : z.right = z.left := (s3 z (by rw [hl]; simp)).1
  have htot : (h.map Dbl.fin).total = W := by rw [hc.total]; omega
  have hbc : (bv.map Dbl.fin).count = (lastN (2 * W) xs).count v := by
    show bv.count = _
    rw [hcount bv hbv, hbl]
  have hnb : (h.map Dbl.fin).numBins = numBins := hc.numBins
  have hone : 1 ≤ numBins := by
    have := hc.size
    rw [hbins] at this
    simp at this
    omega
  have hW53 : W ≤ 2 ^ 53 := by omega
  refine Hist.quantile_inf (a := z.left) hbins ?_ (hzero z (by simp)) rfl ?_ ?_ ?_ (by rw [htot]; exact hW)
    (by rw [htot]; exact hW53) (by rw [hnb]; exact hone) (by rw [hnb]; exact hb) h0 h1 hqd (by rw [hbc, htot]; exact hq)
  · intro c hc
    obtain ⟨d, hd, rfl⟩ := List.mem_map.1 hc
    exact hzero d (by simp [hd])
  · show Dbl.fin z.right = _
    rw [hzr]
  · rw [hbc]; exact List.count_pos_iff.2 hv
  · intro c hc
    have := Hist.sum_le_run ed
    rw [List.length_map] at this
    exact (Hist.count_le_sum hc).trans (this.trans hN)

/-- **C129**: one observation followed by at least `2 * W` equal and distinguishably greater ones: every level above 0 has
the quantile `+inf`. -/
theorem C129_all_infinite (numBins W n : ℕ) (hW : 1 ≤ W) (h2 : 2 ≤ numBins) (hb : numBins ≤ 2 ^ 53) (a b : ℚ)
    (ha : |a| ≤ dblMax / 2) (hb' : |b| ≤ dblMax / 2) (hab : a < b)
    (hsep : definitelyLessThan b64 a b (defaultEps b64) = true) (hn : 2 * W ≤ n) (hn' : n < 2 ^ 53) (q : ℚ) (h0 : 0 < q)
    (h1 : q ≤ 1) (hqd : rnd64 q = q) :
    ∃ h, updateAll (Hist.update Dbl.arith) (Hist.new numBins W) (.fin a :: List.replicate n (.fin b)) = .ok h ∧
      h.quantile Dbl.arith (.fin q) = .ok (.inf false) := by
  have hmem : ∀ x ∈ a :: List.replicate n b, x = a ∨ x = b := by
    intro x hx
    rcases List.mem_cons.1 hx with rfl | hx
    · exact Or.inl rfl
    · exact Or.inr (List.eq_of_mem_replicate hx)
  have hlast : lastN (2 * W) (a :: List.replicate n b) = List.replicate (2 * W) b := by
    unfold lastN
    rw [List.length_cons, List.length_replicate, show n + 1 - 2 * W = (n - 2 * W) + 1 by omega, List.drop_succ_cons,
      List.drop_replicate]
    congr 1
    omega
  have := C129_infinite numBins W hW hb (a :: List.replicate n b)
    (by intro x hx; rcases hmem x hx with rfl | rfl <;> assumption)
    ?_ ?_ ?_ (by rw [List.length_cons, List.length_replicate]; omega) (by rw [List.length_cons, List.length_replicate]; omega)
    a b (by simp) (by intro x hx; rcases hmem x hx with rfl | rfl; exacts [le_rfl, hab.le])
    (by rw [hlast]; intro hc; exact hab.ne (List.eq_of_mem_replicate hc))
    (by rw [hlast]; exact List.mem_replicate.2 ⟨by omega, rfl⟩)
    (by rw [hlast]; intro y hy; rw [List.eq_of_mem_replicate hy]) q h0 h1 hqd ?_
  · simpa using this
  · have hsub : (a :: List.replicate n b).dedup ⊆ [a, b] := by
      intro x hx
      rcases hmem x (List.mem_dedup.1 hx) with rfl | rfl <;> simp
    have := ((List.nodup_dedup (a :: List.replicate n b)).subperm hsub).length_le
    simp only [List.length_cons, List.length_nil] at this
    unfold distinct
    omega
  · intro ys x zs hxs hx y hy
    have hxb : x = b := by
      refine (hmem x (by rw [hxs]; simp)).resolve_left ?_
      rintro rfl
      cases ys with
      | nil => simp at hy
      | cons c ys =>
        injection hxs with hxs
        exact hx (by simp [hxs])
    subst hxb
    rcases hmem y (by rw [hxs]; simp [hy]) with rfl | rfl
    · exact hab
    · exact absurd hy hx
  · intro x hx y hy hxy
    rcases hmem x hx with rfl | rfl <;> rcases hmem y hy with rfl | rfl
    · exact absurd hxy (lt_irrefl _)
    · exact hsep
    · exact absurd hxy (not_lt.2 hab.le)
    · exact absurd hxy (lt_irrefl _)
  · have hW0 : (W : ℚ) ≠ 0 := by
      have : W ≠ 0 := by omega
      exact_mod_cast this
    rw [hlast, List.count_replicate_self, Nat.cast_mul, mul_div_assoc, div_self hW0]
    have : rnd64 (((2 : ℕ) : ℚ) * 1) = 2 := by decide +kernel
    rw [this]
    linarith

/-- **C129** (exact arithmetic): on the same streams the normalised cdf is twice the empirical distribution function of the
last `2 * W` observations. It ends at 2: levels in `[0, 1]` only reach the lower half of these observations. -/
theorem C129_cdf_doubled {K : Type} [Field K] [LinearOrder K] [IsStrictOrderedRing K] [FloorRing K] (numBins W : ℕ)
    (hW : 1 ≤ W) (xs : List K) (hd : distinct xs ≤ numBins) (hmax : NewMaxima xs) (hsep : Separated (1 / 10000 : K) xs)
    (hlong : 2 * W ≤ xs.length) (m : K) (hmem : m ∈ xs) (hmin : ∀ y ∈ xs, m ≤ y) (hout : m ∉ lastN (2 * W) xs) :
    ∃ h, updateAll (Hist.update (exact K)) (Hist.new numBins W) xs = .ok h ∧
      (h.bins.map Bin.left).Pairwise (· < ·) ∧ (∀ v, (∃ b ∈ h.bins, b.left = v) ↔ v ∈ xs) ∧
      h.cdf (exact K) true = h.bins.map fun b => 2 * ecdf (lastN (2 * W) xs) b.left := by
  obtain ⟨h, e, s1, s2, s3⟩ := C127_double_window Rounding.none numBins W hW xs hd hmax fun a ha b hb hab => by
    have he : Utils.defaultEps (Rounding.none (K := K)).arith = 1 / 10000 := by
      simp [Utils.defaultEps, Rounding.none, Rounding.arith]
    rw [he]
    exact (less_exact a b _).2 (by have := hsep a ha b hb hab; rwa [mul_comm])
  refine ⟨h, e, s1, s2, ?_⟩
  set M := lastN (2 * W) xs with hM
  have hlen : M.length = 2 * W := by rw [hM, lastN_length]; omega
  have hcount : ∀ b ∈ h.bins, b.count = M.count b.left := by
    intro b hb
    obtain ⟨-, g1, g2, -⟩ := s3 b hb
    rcases (hmin _ ((s2 b.left).1 ⟨b, hb, rfl⟩)).lt_or_eq with hlt | he
    · exact g1 ⟨m, hmem, hlt⟩
    · rw [← he, List.count_eq_zero_of_not_mem hout] at g2
      rw [← he, List.count_eq_zero_of_not_mem hout]; omega
  have htot : h.total = W := by rw [(Hist.Counts.run e).total]; omega
  have htake : ∀ i b, h.bins[i]? = some b → Hist.sumCounts (h.bins.take (i + 1)) = (M.filter (· ≤ b.left)).length := by
    intro i b hb
    obtain ⟨l1, l2, hl, rfl⟩ := split_getElem? hb
    have ht : h.bins.take (l1.length + 1) = l1 ++ [b] := by
      rw [hl, List.take_append, List.take_of_length_le (by omega)]
      simp
    rw [hl, List.map_append, List.map_cons, List.pairwise_append, List.pairwise_cons] at s1
    obtain ⟨t1, ⟨t2, t3⟩, t4⟩ := s1
    have hle : ∀ c ∈ l1 ++ [b], c.left ≤ b.left := by
      intro c hc
      rcases List.mem_append.1 hc with hc | hc
      · exact (t4 c.left (List.mem_map_of_mem hc) b.left (by simp)).le
      · rw [List.mem_singleton.1 hc]
    have hnd : ((l1 ++ [b]).map Bin.left).Nodup := by
      rw [List.map_append, List.map_cons, List.map_nil]
      refine List.Pairwise.imp (fun h => h.ne) (R := (· < ·)) (List.pairwise_append.2 ⟨t1, by simp, ?_⟩)
      intro x hx y hy
      rw [List.mem_singleton.1 hy]
      exact t4 x hx b.left (by simp)
    rw [ht, ← sum_count hnd (M := M.filter (· ≤ b.left))]
    · unfold Hist.sumCounts
      rw [List.map_map]
      congr 1
      refine List.map_congr_left fun c hc => ?_
      rw [hcount c (by
        rw [hl]
        rcases List.mem_append.1 hc with hc | hc
        · simp [hc]
        · rw [List.mem_singleton.1 hc]; simp)]
      exact (List.count_filter (by simpa using hle c hc)).symm
    · intro v hv
      obtain ⟨hv, hvb⟩ := List.mem_filter.1 hv
      have hvb : v ≤ b.left := by simpa using hvb
      obtain ⟨c, hc, rfl⟩ := (s2 v).2 (List.mem_of_mem_drop hv)
      refine List.mem_map_of_mem ?_
      rw [hl] at hc
      rcases List.mem_append.1 hc with hc | hc
      · simp [hc]
      · rcases List.mem_cons.1 hc with rfl | hc
        · simp
        · exact absurd (t2 c.left (List.mem_map_of_mem hc)) (not_lt.2 hvb)
  obtain ⟨r1, r2⟩ : IsRunningSum (h.pdf (exact K) true false) (h.cdf (exact K) true) := Hist.partialSum_spec _
  refine List.ext_getElem? fun i => ?_
  rw [List.getElem?_map]
  rcases hb : h.bins[i]? with _ | b
  · rw [List.getElem?_eq_none_iff] at hb
    rw [Option.map_none, List.getElem?_eq_none_iff, Hist.cdf_length]
    exact hb
  · have hi : i < (h.cdf (exact K) true).length := by
      rw [Hist.cdf_length]; exact (List.getElem?_eq_some_iff.1 hb).1
    rw [List.getElem?_eq_getElem hi, Option.map_some, r2 i _ (List.getElem?_eq_getElem hi), Hist.pdf_exact,
      ← List.map_take, Hist.sum_div, htake i b hb, htot]
    unfold ecdf
    have hW0 : (W : K) ≠ 0 := by
      have : W ≠ 0 := by omega
      exact_mod_cast this
    rw [hlen]
    congr 1
    push_cast
    field_simp

/-- The hypotheses of `C129_infinite` on doubles:
1, then 2, 3, 2, 2, 3 with a window of two. -/
example : ∃ h, updateAll (Hist.update Dbl.arith) (Hist.new 3 2) ([1, 2, 3, 2, 2, 3].map .fin) = .ok h ∧
    h.quantile Dbl.arith (.fin (1 / 2)) = .ok (.inf false) :=
  C129_infinite 3 2 (by norm_num) (by norm_num) [1, 2, 3, 2, 2, 3] (by decide +kernel) (by decide +kernel)
    (newMaxima_of_decide _ (by decide +kernel)) (by decide +kernel) (by decide) (by decide) 1 2 (by simp) (by decide +kernel)
    (by decide +kernel) (by decide +kernel) (by decide +kernel) (1 / 2) (by norm_num) (by norm_num) (by decide +kernel)
    (by decide +kernel)

/-- The cdf of the same stream ends at 2, and the level 1 has the quantile 2, although 3 is among the last two. -/
example : (do
    let h ← updateAll (Hist.update Dbl.arith) (Hist.new 3 2) ([1, 2, 3, 2, 2, 3].map .fin)
    let a ← h.quantile Dbl.arith (.fin 0)
    let b ← h.quantile Dbl.arith (.fin 1)
    .ok (h.cdf Dbl.arith true, a, b)) = .ok ([.fin 0, .fin 1, .fin 2], .fin 1, .fin 2) := by
  decide +kernel

/-- The hypotheses of `C129_cdf_doubled`. -/
example : ∃ h, updateAll (Hist.update (exact ℚ)) (Hist.new 3 2) [1, 2, 3, 2, 2, 3] = .ok h ∧
    h.cdf (exact ℚ) true = h.bins.map fun b => 2 * ecdf [3, 2, 2, 3] b.left := by
  obtain ⟨h, e, -, -, g⟩ := C129_cdf_doubled (K := ℚ) 3 2 (by norm_num) [1, 2, 3, 2, 2, 3] (by decide +kernel)
    (newMaxima_of_decide _ (by decide +kernel)) (by unfold Separated; decide +kernel) (by decide) 1 (by simp)
    (by decide +kernel) (by decide +kernel)
  exact ⟨h, e, g⟩

end KML
