import Verif.Props.Utils
import Verif.Props.Histogram
import Verif.Props.DoubleHist
import Verif.Props.MeanError
import Verif.Props.WindowedConst

/-! # C105: tolerant comparisons, bin search and bin sums on doubles -/

set_option linter.unusedSectionVars false

namespace KML

open Utils

/-- The unit in the last place of a double. -/
def ulpExp (x : ℚ) : ℤ := max (expo x - 52) (-1074)

theorem rnd64_ulp {x : ℚ} (h : rnd64 x = x) (h0 : x ≠ 0) : ∃ m : ℤ, x = m * pow2 (ulpExp x) ∧ |m| ≤ 2 ^ 53 := by
  have hs := pow2_pos (ulpExp x)
  refine ⟨rne (x / pow2 (ulpExp x)), ?_, ?_⟩
  · rw [rnd64, if_neg h0] at h
    exact h.symm
  · obtain ⟨-, h2⟩ := expo_spec h0
    have h3 : |x| ≤ (2 ^ 53 : ℤ) * pow2 (ulpExp x) := by
      rw [pow2_53] at h2
      have : pow2 (expo x - 52) ≤ pow2 (ulpExp x) := pow2_le.2 (le_max_left _ _)
      have h53 : (0 : ℚ) ≤ ((2 ^ 53 : ℤ) : ℚ) := by norm_num
      nlinarith
    have h4 : |x / pow2 (ulpExp x)| ≤ (2 ^ 53 : ℤ) := by
      rw [abs_div, abs_of_pos hs, div_le_iff₀ hs]; exact h3
    rw [abs_le] at h4
    rw [abs_le]
    constructor
    · have := rne_mono h4.1
      rwa [← Int.cast_neg, rne_int] at this
    · have := rne_mono h4.2
      rwa [rne_int] at this

theorem grid_coarsen {x : ℚ} {k l : ℤ} (hkl : k ≤ l) (h : ∃ m : ℤ, x = m * pow2 l) : ∃ m : ℤ, x = m * pow2 k := by
  obtain ⟨m, rfl⟩ := h
  obtain ⟨j, hj⟩ : ∃ j : ℕ, l = k + j := ⟨(l - k).toNat, by omega⟩
  refine ⟨m * 2 ^ j, ?_⟩
  rw [hj, pow2_add]
  have : pow2 (j : ℤ) = 2 ^ j := by rw [pow2_eq]; simp
  rw [this]; push_cast; ring

theorem ulpExp_mono {x y : ℚ} (hx : x ≠ 0) (h : |x| ≤ |y|) : ulpExp x ≤ ulpExp y := by
  have := expo_mono hx h
  unfold ulpExp
  omega

/-- Two positive doubles `x ≤ y` are multiples of the unit of the smaller. -/
theorem common_grid {x y : ℚ} (hx : rnd64 x = x) (hy : rnd64 y = y) (h0 : 0 < x) (hxy : x ≤ y) :
    ∃ m n : ℤ, x = m * pow2 (ulpExp x) ∧ y = n * pow2 (ulpExp x) ∧ |m| ≤ 2 ^ 53 := by
  obtain ⟨m, hm, hb⟩ := rnd64_ulp hx h0.ne'
  obtain ⟨n, hn, -⟩ := rnd64_ulp hy (h0.trans_le hxy).ne'
  obtain ⟨n', hn'⟩ := grid_coarsen (ulpExp_mono h0.ne' (by rwa [abs_of_pos h0, abs_of_pos (h0.trans_le hxy)])) ⟨n, hn⟩
  exact ⟨m, n', hm, hn', hb⟩

/-- Sterbenz: the difference of doubles within a factor of two of each other is exact. -/
theorem rnd64_sterbenz {x y : ℚ} (hx : rnd64 x = x) (hy : rnd64 y = y) (h0 : 0 < x) (hxy : x ≤ y) (h2 : y ≤ 2 * x) :
    rnd64 (y - x) = y - x := by
  obtain ⟨m, n, hm, hn, hb⟩ := common_grid hx hy h0 hxy
  have hs := pow2_pos (ulpExp x)
  have e : y - x = ((n - m : ℤ) : ℚ) * pow2 (ulpExp x) := by
    push_cast; rw [sub_mul, ← hm, ← hn]
  rw [e]
  refine rnd64_repr _ _ ?_ (le_max_right _ _)
  have h1 : (0 : ℚ) ≤ ((n - m : ℤ) : ℚ) := by
    have : 0 ≤ ((n - m : ℤ) : ℚ) * pow2 (ulpExp x) := by rw [← e]; linarith
    exact nonneg_of_mul_nonneg_left this hs
  have h3 : ((n - m : ℤ) : ℚ) ≤ m := by
    have : ((n - m : ℤ) : ℚ) * pow2 (ulpExp x) ≤ m * pow2 (ulpExp x) := by rw [← e, ← hm]; linarith
    exact le_of_mul_le_mul_right this hs
  have h1' : 0 ≤ n - m := by exact_mod_cast h1
  have h3' : n - m ≤ m := by exact_mod_cast h3
  rw [abs_le] at hb ⊢
  omega

/-- Different doubles are apart. -/
theorem double_gap {x y : ℚ} (hx : rnd64 x = x) (hy : rnd64 y = y) (hxy : x < y) :
    y / 2 ^ 54 ≤ y - x ∧ pow2 (-1074) ≤ y - x := by
  constructor
  · rcases lt_or_ge x (y / 2) with h | h
    · linarith
    · have hx0 : 0 < x := by linarith
      obtain ⟨m, n, hm, hn, -⟩ := common_grid hx hy hx0 hxy.le
      have hs := pow2_pos (ulpExp x)
      have hmn : m < n := by
        rw [hm, hn] at hxy
        have := lt_of_mul_lt_mul_right hxy hs.le
        exact_mod_cast this
      have h1 : pow2 (ulpExp x) ≤ y - x := by
        conv_rhs => rw [hm, hn]
        have : (m : ℚ) + 1 ≤ n := by exact_mod_cast hmn
        nlinarith
      have h2 : pow2 (expo x - 52) ≤ pow2 (ulpExp x) := pow2_le.2 (le_max_left _ _)
      have h3 := (expo_spec hx0.ne').2
      rw [abs_of_pos hx0, pow2_53] at h3
      push_cast at h3
      have : y / 2 ^ 54 ≤ pow2 (expo x - 52) := by
        rw [div_le_iff₀ (by norm_num)]
        linarith
      linarith
  · obtain ⟨m, hm⟩ := rnd64_grid hx
    obtain ⟨n, hn⟩ := rnd64_grid hy
    have hs := pow2_pos (-1074)
    have hmn : m < n := by
      rw [hm, hn] at hxy
      have := lt_of_mul_lt_mul_right hxy hs.le
      exact_mod_cast this
    rw [hm, hn]
    have : (m : ℚ) + 1 ≤ n := by exact_mod_cast hmn
    nlinarith

/-- A small multiple of a double, rounded, grows no faster than the double itself. -/
theorem rnd64_lipschitz {x y e : ℚ} (hx : rnd64 x = x) (hy : rnd64 y = y) (h0 : 0 ≤ x) (hxy : x < y) (he0 : 0 ≤ e)
    (he : e ≤ 1 / 8) : rnd64 (y * e) ≤ rnd64 (x * e) + (y - x) := by
  obtain ⟨g1, g2⟩ := double_gap hx hy hxy
  have y0 : 0 < y := by linarith
  by_cases hz : e = 0
  · subst hz; rw [mul_zero, mul_zero, rnd64_zero]; linarith
  have ep : 0 < e := lt_of_le_of_ne he0 (Ne.symm hz)
  have hye : 0 < y * e := mul_pos y0 ep
  rcases lt_or_ge (expo (y * e)) (-1022) with h | h
  · have e1 := rndAt_err (-1074) (y * e)
    have e2 : |rnd64 (x * e) - x * e| ≤ pow2 (-1074) / 2 := by
      by_cases hx0 : x * e = 0
      · rw [hx0, rnd64_zero, sub_zero, abs_zero]
        have := pow2_pos (-1074); linarith
      · rw [rnd64_sub (lt_of_le_of_lt (expo_mono hx0 ?_) h)]
        · exact rndAt_err _ _
        · rw [abs_of_nonneg (mul_nonneg h0 he0), abs_of_pos hye]
          exact mul_le_mul_of_nonneg_right hxy.le he0
    rw [← rnd64_sub h] at e1
    obtain ⟨m, hm⟩ := rnd64_grid (rnd64_idem (y * e))
    obtain ⟨n, hn⟩ := rnd64_grid (rnd64_idem (x * e))
    obtain ⟨k, hk⟩ := rnd64_grid hx
    obtain ⟨l, hl⟩ := rnd64_grid hy
    have hs := pow2_pos (-1074)
    by_contra hc
    have hc := not_le.1 hc
    -- all terms are multiples of the smallest double
    have h1 : n + (l - k) < m := by
      rw [hm, hn, hk, hl, ← sub_mul, ← add_mul] at hc
      have := lt_of_mul_lt_mul_right hc hs.le
      exact_mod_cast this
    have h2 : rnd64 (x * e) + (y - x) + pow2 (-1074) ≤ rnd64 (y * e) := by
      rw [hm, hn]
      conv_lhs => rw [hk, hl]
      have : ((n : ℚ) + (l - k)) + 1 ≤ m := by exact_mod_cast h1
      nlinarith
    have := (abs_le.1 e1).2
    have := (abs_le.1 e2).1
    have h3 : (y - x) * e ≤ (y - x) * (1 / 8) := mul_le_mul_of_nonneg_left he (by linarith)
    linarith
  · have e1 : |rnd64 (y * e) - y * e| ≤ y * e / 2 ^ 53 := by
      rw [rnd64_normal h]
      have := rnd53_rel (y * e)
      rwa [abs_of_pos hye] at this
    have e2 : |rnd64 (x * e) - x * e| ≤ y * e / 2 ^ 53 := by
      have hle : x * e ≤ y * e := mul_le_mul_of_nonneg_right hxy.le he0
      by_cases hx0 : x * e = 0
      · rw [hx0, rnd64_zero, sub_zero, abs_zero]
        positivity
      rcases lt_or_ge (expo (x * e)) (-1022) with h' | h'
      · rw [rnd64_sub h']
        refine (rndAt_err _ _).trans ?_
        have := (expo_spec hye.ne').1
        rw [abs_of_pos hye] at this
        have h3 : pow2 (-1022) ≤ y * e := (pow2_le.2 h).trans this
        have h4 : pow2 (-1022) / 2 ^ 53 = pow2 (-1074) / 2 := by decide +kernel
        rw [← h4]
        gcongr
      · rw [rnd64_normal h']
        have := rnd53_rel (x * e)
        rw [abs_of_nonneg (mul_nonneg h0 he0)] at this
        refine this.trans ?_
        gcongr
    have := (abs_le.1 e1).2
    have := (abs_le.1 e2).1
    have h3 : (y - x) * e ≤ (y - x) * (1 / 8) := mul_le_mul_of_nonneg_left he (by linarith)
    have h4 : y * e / 2 ^ 53 ≤ (y - x) / 4 := by
      have : y * e ≤ y * (1 / 8) := mul_le_mul_of_nonneg_left he y0.le
      rw [div_le_iff₀ (by norm_num)] at g1 ⊢
      linarith
    linarith

/-- The tolerance of a double is below any difference of at least half of it. -/
theorem tol_lt {y d e : ℚ} (hy : rnd64 y = y) (y0 : 0 < y) (he0 : 0 ≤ e) (he : e ≤ 1 / 8)
    (hd : ∃ m : ℤ, d = m * pow2 (-1074)) (h : y / 2 < d) : rnd64 (y * e) < rnd64 d := by
  have hs := pow2_pos (-1074)
  have d0 : 0 < d := by linarith
  have gy := (double_gap rnd64_zero hy y0).2
  have gd : pow2 (-1074) ≤ d := by
    obtain ⟨m, rfl⟩ := hd
    have : 0 < m := by
      have := pos_of_mul_pos_left d0 hs.le
      exact_mod_cast this
    have : (1 : ℚ) ≤ m := by exact_mod_cast this
    nlinarith
  have r1 := (abs_le.1 (rnd64_rel_grid hd)).1
  rw [abs_of_pos d0] at r1
  have r2 := (abs_le.1 (rnd64_err_two (y * e))).2
  rw [abs_of_nonneg (mul_nonneg y0.le he0)] at r2
  have h75 : pow2 (-1074) / 2 = pow2 (-1075) := by decide +kernel
  rw [← h75] at r2
  have h3 : y * e ≤ y * (1 / 8) := mul_le_mul_of_nonneg_left he y0.le
  linarith

/-- Lowering the left side keeps `definitelyLessThan`. -/
theorem less_lower {a a' x e : ℚ} (ha : rnd64 a = a) (ha' : rnd64 a' = a') (hx : rnd64 x = x) (he0 : 0 ≤ e) (he : e ≤ 1 / 8)
    (h : a' ≤ a) (hl : definitelyLessThan b64 a x e = true) : definitelyLessThan b64 a' x e = true := by
  rw [b64_eq, less_iff] at hl ⊢
  change rnd64 (max |a| |x| * e) < rnd64 (x - a) at hl
  show rnd64 (max |a'| |x| * e) < rnd64 (x - a')
  have hax : a < x := by
    by_contra hc
    have h1 := rnd64_mono (show x - a ≤ 0 by linarith)
    rw [rnd64_zero] at h1
    have := rnd64_nonneg (mul_nonneg (le_max_of_le_left (abs_nonneg a) : (0 : ℚ) ≤ max |a| |x|) he0)
    linarith
  rcases le_or_gt |a'| (max |a| |x|) with hc | hc
  · have h1 : max |a'| |x| ≤ max |a| |x| := max_le hc (le_max_right _ _)
    have h2 := rnd64_mono (mul_le_mul_of_nonneg_right h1 he0)
    have h3 := rnd64_mono (show x - a ≤ x - a' by linarith)
    linarith
  · have hc1 : |a| < |a'| := (le_max_left _ _).trans_lt hc
    have hc2 : |x| < |a'| := (le_max_right _ _).trans_lt hc
    have hneg : a' < 0 := by
      by_contra hn
      rw [abs_of_nonneg (not_lt.1 hn)] at hc1
      have := le_abs_self a
      linarith
    rw [max_eq_left hc2.le, abs_of_neg hneg]
    have hy : rnd64 (-a') = -a' := by rw [rnd64_neg, ha']
    obtain ⟨mx, hmx⟩ := rnd64_grid hx
    obtain ⟨ma, hma⟩ := rnd64_grid ha'
    have hgrid : ∃ m : ℤ, x - a' = m * pow2 (-1074) := ⟨mx - ma, by rw [hmx, hma]; push_cast; ring⟩
    rcases lt_or_ge (-a' / 2) (x - a') with hd | hd
    · exact tol_lt hy (by linarith) he0 he hgrid hd
    · -- both differences are exact
      have hxn : x < 0 := by linarith
      have han : a < 0 := by linarith
      rw [abs_of_neg han, abs_of_neg hxn, max_eq_left (by linarith)] at hl
      rw [abs_of_neg han, abs_of_neg hneg] at hc1
      have hX : rnd64 (-x) = -x := by rw [rnd64_neg, hx]
      have hA : rnd64 (-a) = -a := by rw [rnd64_neg, ha]
      have s1 := rnd64_sterbenz hX hA (by linarith) (by linarith) (by linarith)
      have s2 := rnd64_sterbenz hX hy (by linarith) (by linarith) (by linarith)
      rw [show -a - -x = x - a by ring] at s1
      rw [show -a' - -x = x - a' by ring] at s2
      rw [s1] at hl
      rw [s2]
      have := rnd64_lipschitz hA hy (by linarith) hc1 he0 he
      linarith

/-- Mirror image of `definitelyLessThan`. -/
theorem less_neg (a b e : ℚ) : definitelyLessThan b64 (-b) (-a) e = definitelyLessThan b64 a b e := by
  rw [Bool.eq_iff_iff, b64_eq, less_iff, less_iff, abs_neg, abs_neg, max_comm, show -a - -b = b - a by ring]

/-- Raising the right side keeps `definitelyLessThan`. -/
theorem less_raise {a x x' e : ℚ} (ha : rnd64 a = a) (hx : rnd64 x = x) (hx' : rnd64 x' = x') (he0 : 0 ≤ e) (he : e ≤ 1 / 8)
    (h : x ≤ x') (hl : definitelyLessThan b64 a x e = true) : definitelyLessThan b64 a x' e = true := by
  rw [← less_neg] at hl ⊢
  exact less_lower (by rw [rnd64_neg, hx]) (by rw [rnd64_neg, hx']) (by rw [rnd64_neg, ha]) he0 he (by linarith) hl

theorem less_imp_lt {a x e : ℚ} (he0 : 0 ≤ e) (hl : definitelyLessThan b64 a x e = true) : a < x := by
  rw [b64_eq, less_iff] at hl
  change rnd64 (max |a| |x| * e) < rnd64 (x - a) at hl
  by_contra hc
  have h1 := rnd64_mono (show x - a ≤ 0 by linarith)
  rw [rnd64_zero] at h1
  have := rnd64_nonneg (mul_nonneg (le_max_of_le_left (abs_nonneg a) : (0 : ℚ) ≤ max |a| |x|) he0)
  linarith

theorem Dbl.less_double {a b e : ℚ} (ha : IsDouble a) (hb : IsDouble b) (he0 : 0 ≤ e) (he : e ≤ 1 / 8) :
    definitelyLessThan Dbl.arith (.fin a) (.fin b) (.fin e) = definitelyLessThan b64 a b e :=
  Dbl.less_fin ha.2 hb.2 he0 (he.trans (by norm_num))

/-- **C105**: on finite doubles and tolerances up to 1/8 `definitelyLessThan` implies `<` and is irreflexive and transitive. -/
theorem C105_strict_order (e : ℚ) (he0 : 0 ≤ e) (he : e ≤ 1 / 8) (a b c : ℚ) (ha : IsDouble a) (hb : IsDouble b)
    (hc : IsDouble c) :
    (definitelyLessThan Dbl.arith (.fin a) (.fin b) (.fin e) = true → a < b) ∧
    definitelyLessThan Dbl.arith (.fin a) (.fin a) (.fin e) = false ∧
    (definitelyLessThan Dbl.arith (.fin a) (.fin b) (.fin e) = true →
      definitelyLessThan Dbl.arith (.fin b) (.fin c) (.fin e) = true →
      definitelyLessThan Dbl.arith (.fin a) (.fin c) (.fin e) = true) := by
  rw [Dbl.less_double ha hb he0 he, Dbl.less_double ha ha he0 he, Dbl.less_double hb hc he0 he,
    Dbl.less_double ha hc he0 he]
  refine ⟨less_imp_lt he0, ?_, fun h1 h2 => less_raise ha.1 hb.1 hc.1 he0 he (less_imp_lt he0 h2).le h1⟩
  by_contra h
  exact lt_irrefl a (less_imp_lt he0 (by simpa using h))

/-- **C105**: lowering the left or raising the right side keeps `definitelyLessThan` of finite doubles. -/
theorem C105_monotone (e : ℚ) (he0 : 0 ≤ e) (he : e ≤ 1 / 8) (a a' b b' : ℚ) (ha : IsDouble a) (ha' : IsDouble a')
    (hb : IsDouble b) (hb' : IsDouble b') (h1 : a' ≤ a) (h2 : b ≤ b')
    (h : definitelyLessThan Dbl.arith (.fin a) (.fin b) (.fin e) = true) :
    definitelyLessThan Dbl.arith (.fin a') (.fin b') (.fin e) = true := by
  rw [Dbl.less_double ha hb he0 he] at h
  rw [Dbl.less_double ha' hb' he0 he]
  exact less_lower ha.1 ha'.1 hb'.1 he0 he h1 (less_raise ha.1 hb.1 hb'.1 he0 he h2 h)

/-- Both tolerances used by the code are small enough. -/
example : defaultEps b64 ≤ 1 / 8 ∧ plusEps b64 ≤ 1 / 8 := by decide +kernel

/-- A bin whose edges are finite doubles. -/
def Bin.IsFin (b : Bin Dbl) : Prop := ∃ l r : ℚ, IsDouble l ∧ IsDouble r ∧ b.left = .fin l ∧ b.right = .fin r

/-- **C105**: `operator<` on bins with finite edges is a strict partial order. -/
theorem C105_bins (x y z : Bin Dbl) (hx : x.IsFin) (hy : y.IsFin) (hz : z.IsFin) :
    Bin.lt Dbl.arith x x = false ∧ (Bin.lt Dbl.arith x y = true → Bin.lt Dbl.arith y z = true → Bin.lt Dbl.arith x z = true) := by
  obtain ⟨xl, xr, x1, x2, x3, x4⟩ := hx
  obtain ⟨yl, yr, y1, y2, y3, y4⟩ := hy
  obtain ⟨zl, zr, z1, z2, z3, z4⟩ := hz
  obtain ⟨e1, -, e3, -⟩ := Dbl.eps_fin
  unfold Bin.lt
  rw [x3, y3, z3, e1]
  have := C105_strict_order (defaultEps b64) e3 (by decide +kernel) xl yl zl x1 y1 z1
  exact ⟨this.2.1, this.2.2⟩

/-- **C105**: on a histogram whose bins have finite left edges in ascending order the search returns the number of bins
definitely less than the item. -/
theorem C105_search (h : Hist Dbl) (x : ℚ) (hx : IsDouble x) (ls : List ℚ) (hl : h.bins.map Bin.left = ls.map .fin)
    (hd : ∀ l ∈ ls, IsDouble l) (hs : ls.Pairwise (· ≤ ·)) :
    h.binSearch Dbl.arith (.fin x) = .ok (ls.filter fun l =>
      definitelyLessThan Dbl.arith (.fin l) (.fin x) (defaultEps Dbl.arith)).length := by
  obtain ⟨i, e, -⟩ := C50_defined Dbl.arith h (.fin x)
  obtain ⟨e1, -, e3, -⟩ := Dbl.eps_fin
  rw [e]
  congr 1
  have hp : h.bins.Pairwise fun a b => Bin.lt Dbl.arith b (Hist.unit (.fin x)) = true →
      Bin.lt Dbl.arith a (Hist.unit (.fin x)) = true := by
    have h1 : (h.bins.map Bin.left).Pairwise fun a b =>
        definitelyLessThan Dbl.arith b (.fin x) (defaultEps Dbl.arith) = true →
        definitelyLessThan Dbl.arith a (.fin x) (defaultEps Dbl.arith) = true := by
      rw [hl, List.pairwise_map]
      refine hs.imp_of_mem fun {a b} ha hb hab hlt => ?_
      rw [e1] at hlt ⊢
      exact C105_monotone _ e3 (by decide +kernel) b a x x (hd b hb) (hd a ha) hx hx hab le_rfl hlt
    exact List.pairwise_map.1 h1
  rw [Hist.search_prefix e hp]
  have : ∀ (bs : List (Bin Dbl)) (ls : List ℚ), bs.map Bin.left = ls.map .fin →
      (bs.filter fun b => Bin.lt Dbl.arith b (Hist.unit (.fin x))).length =
      (ls.filter fun l => definitelyLessThan Dbl.arith (.fin l) (.fin x) (defaultEps Dbl.arith)).length := by
    intro bs
    induction bs with
    | nil => intro ls h; cases ls with
      | nil => rfl
      | cons => cases h
    | cons b bs ih => intro ls h; cases ls with
      | nil => cases h
      | cons l ls =>
        simp only [List.map_cons, List.cons.injEq] at h
        have hb : Bin.lt Dbl.arith b (Hist.unit (.fin x)) =
            definitelyLessThan Dbl.arith (.fin l) (.fin x) (defaultEps Dbl.arith) := by
          unfold Bin.lt Hist.unit
          rw [h.1]
        simp only [List.filter_cons, hb]
        split
        · simp only [List.length_cons, ih ls h.2]
        · exact ih ls h.2
  exact this _ _ hl

/-- Three bins; 2.5 goes in position 2. -/
example : (⟨5, 9, [⟨.fin 1, .fin 1, 1⟩, ⟨.fin 2, .fin 2, 1⟩, ⟨.fin 3, .fin 3, 1⟩], [], 3, 3, 3⟩ : Hist Dbl).binSearch
    Dbl.arith (.fin (5 / 2)) = .ok 2 := by
  decide +kernel

/-- If the tolerant comparison does not find `b` greater than `a`, it exceeds `a` by little. -/
theorem near_of_not_less {a b e : ℚ} (ha : rnd64 a = a) (hb : rnd64 b = b) (he0 : 0 ≤ e) (he : e ≤ 1 / 1000000 + 1 / 2 ^ 70)
    (h : definitelyLessThan b64 a b e = false) : b - a ≤ max |a| |b| / 999999 + pow2 (-1074) := by
  have h' : ¬ definitelyLessThan b64 a b e = true := by rw [h]; simp
  rw [b64_eq, less_iff, not_lt] at h'
  change rnd64 (b - a) ≤ rnd64 (max |a| |b| * e) at h'
  have M0 : 0 ≤ max |a| |b| := le_max_of_le_left (abs_nonneg a)
  have hs := pow2_pos (-1074)
  rcases le_or_gt (b - a) 0 with h0 | h0
  · have : 0 ≤ max |a| |b| / 999999 := div_nonneg M0 (by norm_num)
    linarith
  · obtain ⟨m, hm⟩ := rnd64_grid ha
    obtain ⟨n, hn⟩ := rnd64_grid hb
    have r1 := (abs_le.1 (rnd64_rel_grid (x := b - a) ⟨n - m, by rw [hm, hn]; push_cast; ring⟩)).1
    rw [abs_of_pos h0] at r1
    have r2 := (abs_le.1 (rnd64_err_two (max |a| |b| * e))).2
    rw [abs_of_nonneg (mul_nonneg M0 he0)] at r2
    have h75 : pow2 (-1074) / 2 = pow2 (-1075) := by decide +kernel
    rw [← h75] at r2
    have h3 := mul_le_mul_of_nonneg_left he M0
    linarith

/-- **C105**: the sum of two bins with finite edges has finite edges, covers the left operand, covers the right operand up
to the tolerance, and its range is exactly the hull of both ranges when the edges are in order or differ definitely. -/
theorem C105_sum (x y : Bin Dbl) (xl xr yl yr : ℚ) (hxl : IsDouble xl) (hxr : IsDouble xr) (hyl : IsDouble yl)
    (hyr : IsDouble yr) (h1 : x.left = .fin xl) (h2 : x.right = .fin xr) (h3 : y.left = .fin yl) (h4 : y.right = .fin yr) :
    ∃ l r : ℚ, (Bin.add Dbl.arith x y).left = .fin l ∧ (Bin.add Dbl.arith x y).right = .fin r ∧
      l ≤ xl ∧ xr ≤ r ∧
      l ≤ yl + max |yl| |xl| / 999999 + pow2 (-1074) ∧ yr - max |xr| |yr| / 999999 - pow2 (-1074) ≤ r ∧
      (xl ≤ yl ∨ definitelyLessThan Dbl.arith y.left x.left (plusEps Dbl.arith) = true → l = min xl yl) ∧
      (yr ≤ xr ∨ definitelyGreaterThan Dbl.arith y.right x.right (plusEps Dbl.arith) = true → r = max xr yr) := by
  obtain ⟨-, e2, -, -, e5, e6⟩ := Dbl.eps_fin
  have hep : plusEps b64 ≤ 1 / 1000000 + 1 / 2 ^ 70 := by decide +kernel
  have hs := pow2_pos (-1074)
  have k1 : definitelyLessThan Dbl.arith y.left x.left (plusEps Dbl.arith) = definitelyLessThan b64 yl xl (plusEps b64) := by
    rw [h1, h3, e2]; exact Dbl.less_fin hyl.2 hxl.2 e5 e6
  have k2 : definitelyGreaterThan Dbl.arith y.right x.right (plusEps Dbl.arith) =
      definitelyLessThan b64 xr yr (plusEps b64) := by
    rw [h2, h4, e2, Dbl.greater_fin hyr.2 hxr.2 e5 e6, b64_eq]
    exact C46_mirror R64 _ _ _
  rw [k1, k2]
  refine ⟨if definitelyLessThan b64 yl xl (plusEps b64) = true then yl else xl,
    if definitelyLessThan b64 xr yr (plusEps b64) = true then yr else xr, ?_, ?_, ?_⟩
  · show (if _ then y.left else x.left) = _
    rw [k1, h1, h3]; split <;> rfl
  · show (if _ then y.right else x.right) = _
    rw [k2, h2, h4]; split <;> rfl
  have M1 : 0 ≤ max |yl| |xl| / 999999 := div_nonneg (le_max_of_le_left (abs_nonneg _)) (by norm_num)
  have M2 : 0 ≤ max |xr| |yr| / 999999 := div_nonneg (le_max_of_le_left (abs_nonneg _)) (by norm_num)
  have L : ∀ {a b : ℚ}, definitelyLessThan b64 a b (plusEps b64) = true → a < b := less_imp_lt e5
  by_cases c1 : definitelyLessThan b64 yl xl (plusEps b64) = true <;>
    by_cases c2 : definitelyLessThan b64 xr yr (plusEps b64) = true
  · simp only [c1, c2, if_true]
    have := L c1
    have := L c2
    exact ⟨by linarith, by linarith, by linarith, by linarith, fun _ => (min_eq_right (by linarith)).symm,
      fun _ => (max_eq_right (by linarith)).symm⟩
  · have n2 := near_of_not_less hxr.1 hyr.1 e5 hep (by simpa using c2)
    simp only [c1, if_true, if_neg c2]
    have := L c1
    refine ⟨by linarith, by linarith, by linarith, by linarith, fun _ => (min_eq_right (by linarith)).symm, ?_⟩
    rintro (h | h)
    · exact (max_eq_left h).symm
    · exact absurd h c2
  · have n1 := near_of_not_less hyl.1 hxl.1 e5 hep (by simpa using c1)
    simp only [c2, if_true, if_neg c1]
    have := L c2
    refine ⟨by linarith, by linarith, by linarith, by linarith, ?_, fun _ => (max_eq_right (by linarith)).symm⟩
    rintro (h | h)
    · exact (min_eq_left h).symm
    · exact absurd h c1
  · have n1 := near_of_not_less hyl.1 hxl.1 e5 hep (by simpa using c1)
    have n2 := near_of_not_less hxr.1 hyr.1 e5 hep (by simpa using c2)
    simp only [if_neg c1, if_neg c2]
    refine ⟨by linarith, by linarith, by linarith, by linarith, ?_, ?_⟩
    · rintro (h | h)
      · exact (min_eq_left h).symm
      · exact absurd h c1
    · rintro (h | h)
      · exact (max_eq_left h).symm
      · exact absurd h c2

/-- 0.1 + 0.2 and 0.3 are within the tolerance: the sum of the bins keeps the edge of the left operand. -/
example : Bin.add Dbl.arith ⟨Dbl.arith.add (Dbl.ofRat (1 / 10)) (Dbl.ofRat (1 / 5)), .fin 1, 2⟩ ⟨Dbl.ofRat (3 / 10), .fin 2, 3⟩ =
    ⟨Dbl.arith.add (Dbl.ofRat (1 / 10)) (Dbl.ofRat (1 / 5)), .fin 2, 5⟩ := by
  decide +kernel

end KML
