import Verif.Props.EntropyError
import Verif.Props.Notebook
import Verif.Props.Cost

/-!
# C134: rounding of StreamingEntropy once the window is full

While the window fills, C96 compares the entropy on doubles with that of the observations. Once the window is full the
reported number is not the entropy of anything (C66, C97), but what rounding adds to it can be said: one update adds at
most `800 / 2^53` to the change it makes in exact arithmetic. For a constant stream, whose entropy stays 0 in exact
arithmetic, the errors are all there is.
-/

namespace KML

open Spec

namespace Entropy

variable {L : LArith Dbl}

/-- `decrement` in exact arithmetic, for a total count of `n` and a bin with count `c`. -/
noncomputable def decr (n c : ℕ) (H : ℝ) : ℝ :=
  (n : ℝ) / ((n : ℝ) - 1) * (H + g (((c - 1 : ℕ) + 1 : ℕ) / (n : ℝ)) - g (((c - 1 : ℕ) : ℝ) / n)) +
    Real.logb 2 (((n : ℝ) - 1) / n)

/-- `n / (n - 1)` on doubles. -/
theorem ratio_up_dbl {n : ℕ} (h2 : 2 ≤ n) :
    ∃ f : ℚ, Dbl.arith.div (.fin n) (.fin ((n - 1 : ℕ) : ℚ)) = .fin f ∧ |(f : ℝ) - (n : ℝ) / ((n : ℝ) - 1)| ≤ 2 * uu := by
  obtain ⟨m, rfl⟩ : ∃ m, n = m + 1 := ⟨n - 1, by omega⟩
  have hm : (1 : ℝ) ≤ m := by exact_mod_cast (by omega : 1 ≤ m)
  have hm0 : ((m : ℕ) : ℚ) ≠ 0 := by exact_mod_cast (by omega : m ≠ 0)
  have e : (((m + 1 : ℕ) : ℚ) / (m : ℚ) : ℚ) = ((((m + 1 : ℕ) : ℚ) / (m : ℚ) : ℚ)) := rfl
  have hr : ((((m + 1 : ℕ) : ℚ) / (m : ℚ) : ℚ) : ℝ) = ((m + 1 : ℕ) : ℝ) / (((m + 1 : ℕ) : ℝ) - 1) := by
    push_cast; ring
  obtain ⟨f, f1, f2⟩ := ofRat_real (x := ((m + 1 : ℕ) : ℚ) / (m : ℚ)) 1 (by norm_num) (by
    rw [hr]
    push_cast
    rw [add_sub_cancel_right, abs_of_nonneg (by positivity), div_le_iff₀ (by linarith)]
    linarith)
  refine ⟨f, ?_, ?_⟩
  · show (if ((m + 1 - 1 : ℕ) : ℚ) = 0 then _ else Dbl.ofRat (((m + 1 : ℕ) : ℚ) / ((m + 1 - 1 : ℕ) : ℚ))) = _
    rw [Nat.add_sub_cancel, if_neg hm0]
    exact f1
  · rw [hr] at f2
    norm_num at f2 ⊢
    exact f2

/-- One `decrement` on doubles. -/
theorem decrement_dbl (hL : L.Accurate) {e : Entropy Dbl} {i n : ℕ} {b : Bin Dbl} (hb : e.hist.bins[i]? = some b)
    (ht : e.hist.total = n) (hc : b.count ≤ n) (h2 : 2 ≤ n) (hn : n ≤ 2 ^ 40) {v : ℚ} (hv : e.entropy = .fin v)
    (hv1 : |(v : ℝ)| ≤ 15) :
    ∃ v' : ℚ, e.decrement L i = .ok { e with entropy := .fin v' } ∧ |(v' : ℝ) - decr n b.count v| ≤ 380 * uu ∧
      |decr n b.count v| ≤ 37 := by
  have hu := uu_pos
  have hus := uu_small
  have hi : i < e.hist.bins.length := (List.getElem?_eq_some_iff.1 hb).1
  have hg : e.hist.getBin i = .ok b := by
    unfold Hist.getBin
    rw [if_neg (by omega), hb]
  have on : L.ofNat n = .fin n := by rw [hL.arith]; exact ofNat_dbl (by omega)
  have oc : L.ofNat b.count = .fin b.count := by rw [hL.arith]; exact ofNat_dbl (by omega)
  have hsub : L.sub (.fin (n : ℚ)) (L.lit 1) = .fin ((n - 1 : ℕ) : ℚ) := by
    rw [hL.arith, dbl_lit_one]
    show Dbl.ofRat ((n : ℚ) + -1) = _
    have e : (n : ℚ) + -1 = ((n - 1 : ℕ) : ℚ) := by rw [Nat.cast_sub (by omega)]; push_cast; ring
    rw [e]
    exact ofNat_dbl (m := n - 1) (by omega)
  have hadd : ∀ m : ℕ, m + 1 ≤ 2 ^ 53 → L.add (.fin (m : ℚ)) (L.lit 1) = .fin ((m + 1 : ℕ) : ℚ) := by
    intro m hm
    rw [hL.arith, dbl_lit_one]
    show Dbl.ofRat ((m : ℚ) + 1) = _
    have e : (m : ℚ) + 1 = ((m + 1 : ℕ) : ℚ) := by push_cast; ring
    rw [e]
    exact ofNat_dbl hm
  have hn1 : n - 1 + 1 = n := by omega
  set k := b.count - 1 with hk
  have hkn : k + 1 ≤ n := by omega
  obtain ⟨x1, a1, a2⟩ := xlogx_dbl hL hkn (by omega) hn
  obtain ⟨x2, b1, b2⟩ := xlogx_dbl hL (k := k) (by omega) (by omega : 0 < n) hn
  obtain ⟨f, f1, f2⟩ := ratio_up_dbl h2
  obtain ⟨r, l, c1, c2, c3, c4, c5, c6⟩ := ratio_dbl hL h2 hn
  rw [hsub] at c1
  have hn2 : (2 : ℝ) ≤ n := by exact_mod_cast h2
  have g1 := g_bound (p := ((k + 1 : ℕ) : ℝ) / n) (by positivity)
    ((div_le_one (by linarith)).2 (by exact_mod_cast hkn))
  have g2 := g_bound (p := (k : ℝ) / n) (by positivity)
    ((div_le_one (by linarith)).2 (by exact_mod_cast (by omega : k ≤ n)))
  set G1 := g (((k + 1 : ℕ) : ℝ) / n) with hG1
  set G2 := g ((k : ℝ) / n) with hG2
  set F : ℝ := (n : ℝ) / ((n : ℝ) - 1) with hF
  set Q := Real.logb 2 (((n : ℝ) - 1) / n) with hQ
  have hF0 : 0 ≤ F := div_nonneg (by linarith) (by linarith)
  have hF2 : F ≤ 2 := by rw [hF, div_le_iff₀ (by linarith)]; linarith
  have lq : |Q| ≤ 1 := by
    have q2 : 1 / 2 ≤ ((n : ℝ) - 1) / n := by
      rw [div_le_div_iff₀ (by norm_num) (by linarith)]
      linarith
    have a1 : Q ≤ 0 := Real.logb_nonpos (by norm_num) (by linarith) ((div_le_one (by linarith)).2 (by linarith))
    have a2 : -1 ≤ Q := by
      have : Real.logb 2 (1 / 2 : ℝ) = -1 := by
        rw [one_div, Real.logb_inv, Real.logb_self_eq_one (by norm_num)]
      rw [← this]
      exact Real.logb_le_logb_of_le (by norm_num) (by norm_num) q2
    exact abs_le.2 ⟨a2, by linarith⟩
  have hdecr : decr n b.count v = F * ((v : ℝ) + G1 - G2) + Q := rfl
  have near : ∀ {x y d : ℝ}, |x - y| ≤ d → |x| ≤ |y| + d := fun {x y d} h => by
    have : x = (x - y) + y := by ring
    rw [this]
    exact (abs_add_le _ _).trans (by linarith)
  have trans' : ∀ {x y z d d' : ℝ}, |x - y| ≤ d → |y - z| ≤ d' → |x - z| ≤ d + d' := fun {x y z d d'} h h' => by
    have : x - z = (x - y) + (y - z) := by ring
    rw [this]
    exact (abs_add_le _ _).trans (by linarith)
  -- the sum
  have s0 : |((v + x1 : ℚ) : ℝ) - ((v : ℝ) + G1)| ≤ 17 * uu := by
    push_cast
    rw [add_sub_add_left_eq_sub]
    exact a2
  have sA : |(v : ℝ) + G1| ≤ 17 := (abs_add_le _ _).trans (by linarith)
  obtain ⟨s, s1, s2⟩ := ofRat_real (x := v + x1) 5 (by norm_num) ((near s0).trans (by norm_num; linarith))
  have hs : |(s : ℝ) - ((v : ℝ) + G1)| ≤ 49 * uu := (trans' s2 s0).trans (by norm_num; linarith)
  -- the difference
  have d0 : |((s + -x2 : ℚ) : ℝ) - ((v : ℝ) + G1 - G2)| ≤ 66 * uu := by
    push_cast
    have : (s : ℝ) + -x2 - ((v : ℝ) + G1 - G2) = (s - (v + G1)) - (x2 - G2) := by ring
    rw [this]
    exact (abs_sub _ _).trans (by linarith)
  have dA : |(v : ℝ) + G1 - G2| ≤ 18 := by
    have : (v : ℝ) + G1 - G2 = v + (G1 - G2) := by ring
    rw [this]
    exact (abs_add_le _ _).trans (by linarith [abs_sub G1 G2])
  obtain ⟨d, d1, d2⟩ := ofRat_real (x := s + -x2) 5 (by norm_num) ((near d0).trans (by norm_num; linarith))
  have hd : |(d : ℝ) - ((v : ℝ) + G1 - G2)| ≤ 98 * uu := (trans' d2 d0).trans (by norm_num; linarith)
  have hda : |(d : ℝ)| ≤ 19 := (near hd).trans (by linarith)
  -- the product
  have p0 : |((f * d : ℚ) : ℝ) - F * ((v : ℝ) + G1 - G2)| ≤ 234 * uu := by
    push_cast
    have : (f : ℝ) * d - F * ((v : ℝ) + G1 - G2) = F * (d - ((v : ℝ) + G1 - G2)) + (f - F) * d := by ring
    rw [this]
    refine (abs_add_le _ _).trans ?_
    rw [abs_mul, abs_mul, abs_of_nonneg hF0]
    have h1 := mul_le_mul hF2 hd (abs_nonneg _) (by norm_num)
    have h2 := mul_le_mul f2 hda (abs_nonneg _) (by positivity)
    linarith
  have pA : |F * ((v : ℝ) + G1 - G2)| ≤ 36 := by
    rw [abs_mul, abs_of_nonneg hF0]
    have h1 := mul_le_mul hF2 dA (abs_nonneg _) (by norm_num)
    linarith
  obtain ⟨p, p1, p2⟩ := ofRat_real (x := f * d) 6 (by norm_num)
    ((near p0).trans ((by linarith : _ ≤ (64 : ℝ)).trans (by norm_num)))
  have hp : |(p : ℝ) - F * ((v : ℝ) + G1 - G2)| ≤ 298 * uu := (trans' p2 p0).trans (by norm_num; linarith)
  -- the result
  have t0 : |((p + l : ℚ) : ℝ) - (F * ((v : ℝ) + G1 - G2) + Q)| ≤ 308 * uu := by
    push_cast
    have : (p : ℝ) + l - (F * ((v : ℝ) + G1 - G2) + Q) = (p - F * ((v : ℝ) + G1 - G2)) + (l - Q) := by ring
    rw [this]
    exact (abs_add_le _ _).trans (by linarith)
  have tA : |F * ((v : ℝ) + G1 - G2) + Q| ≤ 37 := (abs_add_le _ _).trans (by linarith)
  obtain ⟨t, t1, t2⟩ := ofRat_real (x := p + l) 6 (by norm_num) ((near t0).trans (by norm_num; linarith))
  refine ⟨t, ?_, ?_, by rw [hdecr]; exact tA⟩
  · unfold decrement
    have hmx := max_dbl hL.arith (c := b.count) (by omega)
    have hA := hadd (n - 1) (by omega)
    rw [hn1] at hA
    have hB := hadd k (by omega)
    simp only [Hist.getTotalCount, ht, hg, Res.ok_bind, on, oc, hsub, hmx, ← hk, hA, hB, a1, b1, c1, c2, hv]
    have e1 : L.add (.fin v) (.fin x1) = .fin s := by rw [hL.arith]; exact s1
    have e2 : L.sub (.fin s) (.fin x2) = .fin d := by rw [hL.arith]; exact d1
    have e3 : L.div (.fin (n : ℚ)) (.fin ((n - 1 : ℕ) : ℚ)) = .fin f := by rw [hL.arith]; exact f1
    have e4 : L.mul (.fin f) (.fin d) = .fin p := by rw [hL.arith]; exact p1
    have e5 : L.add (.fin p) (.fin l) = .fin t := by rw [hL.arith]; exact t1
    rw [e1, e2, e3, e4, e5]
  · rw [hdecr]
    exact (trans' t2 t0).trans (by norm_num; linarith)

/-- `decrement` and `increment` together, in exact arithmetic. -/
theorem incr_decr {n c c' : ℕ} (h2 : 2 ≤ n) (H : ℝ) :
    incr n c' (decr n c H) = H + (g (((c - 1 : ℕ) + 1 : ℕ) / (n : ℝ)) - g (((c - 1 : ℕ) : ℝ) / n)) -
      (g ((c' : ℝ) / n) - g (((c' - 1 : ℕ) : ℝ) / n)) := by
  have hn : (2 : ℝ) ≤ n := by exact_mod_cast h2
  unfold incr decr
  rw [if_neg (by omega), add_sub_cancel_right]
  have h1 : (n : ℝ) - 1 ≠ 0 := by linarith
  have h0 : (n : ℝ) ≠ 0 := by linarith
  have e : ((n : ℝ) - 1) / n * ((n : ℝ) / ((n : ℝ) - 1)) = 1 := by field_simp
  rw [← mul_assoc, e]
  ring

/-- The state after observations of `x` only: `k` of them in the window, `m` in all. -/
def sameState (W B k m : ℕ) (x : Dbl) (v : ℚ) : Entropy Dbl :=
  ⟨W, some (List.replicate k 0), m, ⟨B, W, [⟨x, x, k⟩], List.replicate (W + k) 0, k, m, 1⟩, .fin v⟩

theorem same_search {W B k m : ℕ} {x v : ℚ} (hx : |x| ≤ dblMax) :
    (sameState W B k m (.fin x) v).hist.binSearch Dbl.arith (.fin x) = .ok 0 := by
  have hlt := self_not_less hx
  unfold Hist.binSearch Hist.binSearchBin sameState
  simp only [List.length_singleton, Hist.searchLoop]
  simp [Bin.lt, hlt]

theorem same_place {W B k m : ℕ} {x v : ℚ} (hk : 0 < k) :
    (sameState W B k m (.fin x) v).hist.place Dbl.arith (.fin x) 0 =
      .ok ⟨B, W, [⟨.fin x, .fin x, k + 1⟩], List.replicate (W + k) 0, k, m, 1⟩ := by
  have hle : Dbl.arith.le (.fin x) (.fin x) = true := by rw [Dbl.le_fin]; exact decide_eq_true le_rfl
  unfold Hist.place sameState
  rw [if_neg (by simp only; omega)]
  simp [hle]

theorem same_fill {W B k m : ℕ} {x v : ℚ} (hx : |x| ≤ dblMax) (hB : 1 ≤ B) (hk : 0 < k) (hW : k + 1 ≤ W) :
    (sameState W B k m (.fin x) v).hist.update Dbl.arith (.fin x) =
      .ok (sameState W B (k + 1) (m + 1) (.fin x) v).hist := by
  unfold Hist.update Hist.add
  rw [same_search hx, Res.ok_bind, same_place hk, Res.ok_bind]
  unfold Hist.decayCounts
  rw [if_neg (by simp only; omega), Res.ok_bind]
  rw [if_neg (by simp only [List.length_singleton]; omega)]
  unfold sameState
  simp only
  rw [show (List.replicate (W + k) 0 ++ [0] : List ℕ) = List.replicate (W + (k + 1)) 0 from (List.replicate_succ' ..).symm]

theorem same_full {W B m : ℕ} {x v : ℚ} (hx : |x| ≤ dblMax) (hB : 1 ≤ B) (hW : 0 < W) :
    (sameState W B W m (.fin x) v).hist.update Dbl.arith (.fin x) = .ok (sameState W B W (m + 1) (.fin x) v).hist := by
  unfold Hist.update Hist.add
  rw [same_search hx, Res.ok_bind, same_place hW, Res.ok_bind]
  have e : (List.replicate (W + W) 0 ++ [0] : List ℕ) = 0 :: List.replicate (W + W) 0 :=
    (List.replicate_succ' ..).symm.trans (List.replicate_succ ..)
  unfold Hist.decayCounts
  rw [if_pos (by simp only; omega)]
  simp only [e]
  simp only [List.getElem?_cons_zero, Nat.zero_lt_succ, if_true, Nat.add_sub_cancel, List.set_cons_zero, Res.ok_bind,
    List.length_singleton, gt_iff_lt, if_neg (by omega : ¬ B < 1)]
  rfl

/-- The exact entropy of equal observations stays 0. -/
theorem incr_same {n : ℕ} (hn : 0 < n) : incr n n 0 = 0 := by
  have hn' : (n : ℝ) ≠ 0 := by exact_mod_cast hn.ne'
  have g1 : g ((n : ℝ) / n) = 0 := by rw [div_self hn']; simp [g]
  unfold incr
  rcases Nat.eq_or_lt_of_le (Nat.succ_le_of_lt hn) with h | h
  · subst h
    simp [g]
  · rw [if_neg (by omega), g1]
    have e : ((n - 1 : ℕ) : ℝ) = n - 1 := by rw [Nat.cast_sub hn]; simp
    have h0 : ((n : ℝ) - 1) / n ≠ 0 := by
      have : (1 : ℝ) < n := by exact_mod_cast h
      exact div_ne_zero (by linarith) hn'
    rw [e]
    unfold g
    ring

theorem same_first (hL : L.Accurate) {W B : ℕ} {x : ℚ} (hB : 1 ≤ B) (hW : 1 ≤ W) :
    ∃ v : ℚ, (⟨W, some [], 0, Hist.new B W, .fin 0⟩ : Entropy Dbl).update L (.fin x) = .ok (sameState W B 1 1 (.fin x) v) ∧
      |(v : ℝ)| ≤ 800 * uu := by
  have hu := uu_pos
  have hi : (Hist.new B W : Hist Dbl).binSearch L.toArith (.fin x) = .ok 0 := by
    simp [Hist.binSearch, Hist.binSearchBin, Hist.new, Hist.searchLoop]
  have hh : (Hist.new B W : Hist Dbl).update L.toArith (.fin x) = .ok (sameState W B 1 1 (.fin x) 0).hist := by
    unfold Hist.update Hist.add
    rw [hi, Res.ok_bind]
    rw [show (Hist.new B W : Hist Dbl).place L.toArith (.fin x) 0 =
        .ok ⟨B, W, [⟨.fin x, .fin x, 1⟩], List.replicate W 0, 0, 0, 1⟩ from rfl, Res.ok_bind]
    unfold Hist.decayCounts
    rw [if_neg (by simp only; omega), Res.ok_bind]
    rw [if_neg (by simp only [List.length_singleton]; omega)]
    simp only [sameState]
    rw [show (List.replicate W 0 ++ [0] : List ℕ) = List.replicate (W + 1) 0 from (List.replicate_succ' ..).symm]
  obtain ⟨v, i1, i2⟩ := increment_dbl hL
    (e := ⟨W, some ([] ++ [0]), 0, (sameState W B 1 1 (.fin x) 0).hist, .fin 0⟩) (i := 0) (n := 1)
    (b := ⟨.fin x, .fin x, 1⟩) rfl rfl le_rfl (by norm_num) (by norm_num) (v := 0) rfl (H := 0) (ε := 0) (by simp)
    (by simp) (by norm_num)
  refine ⟨v, ?_, ?_⟩
  · rw [update_room hi rfl (by simp only [List.length_nil]; omega)]
    simp only
    rw [hh, Res.ok_bind, i1, Res.ok_bind]
    rfl
  · simp only at i2
    rw [incr_same (by norm_num), sub_zero] at i2
    linarith

/-- One more equal observation while the window fills. -/
theorem same_room (hL : L.Accurate) {W B k m : ℕ} {x v : ℚ} (hx : |x| ≤ dblMax) (hB : 1 ≤ B) (hk : 0 < k) (hW : k + 1 ≤ W)
    (hW40 : W ≤ 2 ^ 40) {ε : ℝ} (hv : |(v : ℝ)| ≤ ε) (hε : ε ≤ 1) :
    ∃ v' : ℚ, (sameState W B k m (.fin x) v).update L (.fin x) = .ok (sameState W B (k + 1) (m + 1) (.fin x) v') ∧
      |(v' : ℝ)| ≤ ε + 800 * uu := by
  have hu := uu_pos
  have hh := same_fill (m := m) (v := v) hx hB hk hW
  have hi := same_search (W := W) (B := B) (k := k) (m := m) (v := v) hx
  rw [← hL.arith] at hh hi
  obtain ⟨v', i1, i2⟩ := increment_dbl hL
    (e := ⟨W, some (List.replicate k 0 ++ [0]), m, (sameState W B (k + 1) (m + 1) (.fin x) v).hist, .fin v⟩) (i := 0)
    (n := k + 1) (b := ⟨.fin x, .fin x, k + 1⟩) rfl rfl le_rfl (by omega) (by omega) (v := v) rfl (H := 0) (ε := ε)
    (by simpa using hv) (by simp) hε
  refine ⟨v', ?_, ?_⟩
  · rw [update_room hi rfl (by show (List.replicate k 0).length < W; rw [List.length_replicate]; omega), hh, Res.ok_bind]
    have : ({ sameState W B k m (.fin x) v with
        window := some (List.replicate k 0 ++ [0]), hist := (sameState W B (k + 1) (m + 1) (.fin x) v).hist } : Entropy Dbl) =
      ⟨W, some (List.replicate k 0 ++ [0]), m, (sameState W B (k + 1) (m + 1) (.fin x) v).hist, .fin v⟩ := rfl
    rw [this, i1, Res.ok_bind]
    unfold sameState
    simp only
    rw [show (List.replicate k 0 ++ [0] : List ℕ) = List.replicate (k + 1) 0 from (List.replicate_succ' ..).symm]
  · simp only at i2
    rw [incr_same (by omega), sub_zero] at i2
    have hf : (((k + 1 : ℕ) : ℝ) - 1) / (k + 1 : ℕ) * ε ≤ ε := by
      refine mul_le_of_le_one_left ((abs_nonneg _).trans hv) ?_
      rw [div_le_one (by positivity)]
      linarith
    linarith

/-- One more equal observation once the window is full. -/
theorem same_evict (hL : L.Accurate) {W B m : ℕ} {x v : ℚ} (hx : |x| ≤ dblMax) (hB : 1 ≤ B) (hW : 2 ≤ W) (hW40 : W ≤ 2 ^ 40)
    {ε : ℝ} (hv : |(v : ℝ)| ≤ ε) (hε : ε ≤ 1) :
    ∃ v' : ℚ, (sameState W B W m (.fin x) v).update L (.fin x) = .ok (sameState W B W (m + 1) (.fin x) v') ∧
      |(v' : ℝ)| ≤ ε + 800 * uu := by
  have hu := uu_pos
  have hus := uu_small
  have hh := same_full (m := m) (v := v) hx hB (by omega : 0 < W)
  have hi := same_search (W := W) (B := B) (k := W) (m := m) (v := v) hx
  rw [← hL.arith] at hh hi
  obtain ⟨v1, d1, d2, d3⟩ := decrement_dbl hL (e := sameState W B W m (.fin x) v) (i := 0) (n := W)
    (b := ⟨.fin x, .fin x, W⟩) rfl rfl le_rfl hW hW40 (v := v) rfl (by linarith)
  obtain ⟨v', i1, i2⟩ := increment_dbl hL
    (e := ⟨W, some (List.replicate W 0), m, (sameState W B W (m + 1) (.fin x) v).hist, .fin v1⟩) (i := 0)
    (n := W) (b := ⟨.fin x, .fin x, W⟩) rfl rfl le_rfl (by omega) hW40 (v := v1) rfl (H := decr W W v) (ε := 380 * uu)
    d2 (d3.trans (by norm_num)) (by linarith)
  refine ⟨v', ?_, ?_⟩
  · obtain ⟨front, rest, hfr, hue⟩ := update_evict (L := L) hi rfl
      (by show W ≤ (List.replicate W 0).length; rw [List.length_replicate])
    have e : (List.replicate W 0 ++ [0] : List ℕ) = 0 :: List.replicate W 0 :=
      (List.replicate_succ' ..).symm.trans (List.replicate_succ ..)
    rw [e] at hfr
    injection hfr with h1 h2
    subst h1 h2
    rw [hue, d1, Res.ok_bind]
    simp only
    rw [hh, Res.ok_bind]
    have : (⟨(sameState W B W m (.fin x) v).windowSize, some (List.replicate W 0), (sameState W B W m (.fin x) v).historyCount,
        (sameState W B W (m + 1) (.fin x) v).hist, .fin v1⟩ : Entropy Dbl) =
      ⟨W, some (List.replicate W 0), m, (sameState W B W (m + 1) (.fin x) v).hist, .fin v1⟩ := rfl
    rw [this, i1, Res.ok_bind]
    rfl
  · simp only at i2
    rw [incr_decr hW] at i2
    have e1 : W - 1 + 1 = W := by omega
    rw [e1] at i2
    have hf : ((W : ℝ) - 1) / W * (380 * uu) ≤ 380 * uu := by
      refine mul_le_of_le_one_left (by positivity) ?_
      rw [div_le_one (by exact_mod_cast (by omega : 0 < W))]
      linarith
    have e2 : (v' : ℝ) = (v' - (v + (g ((W : ℝ) / W) - g (((W - 1 : ℕ) : ℝ) / W)) - (g ((W : ℝ) / W) - g (((W - 1 : ℕ) : ℝ) / W)))) + v := by
      ring
    rw [e2]
    exact (abs_add_le _ _).trans (by linarith)

theorem same_run (hL : L.Accurate) {W B : ℕ} {x : ℚ} (hx : |x| ≤ dblMax) (hB : 1 ≤ B) (hW : 2 ≤ W) (hW40 : W ≤ 2 ^ 40) :
    ∀ m : ℕ, m + 1 ≤ 2 ^ 43 → ∃ v : ℚ,
      updateAll (Entropy.update L) ⟨W, some [], 0, Hist.new B W, .fin 0⟩ (List.replicate (m + 1) (.fin x)) =
        .ok (sameState W B (min (m + 1) W) (m + 1) (.fin x) v) ∧ |(v : ℝ)| ≤ 800 * (m + 1 : ℕ) * uu := by
  intro m
  induction m with
  | zero =>
    intro _
    obtain ⟨v, h1, h2⟩ := same_first hL (x := x) hB (by omega : 1 ≤ W)
    refine ⟨v, ?_, by simpa using h2⟩
    rw [List.replicate_one, Nat.min_eq_left (by omega)]
    show ((_ : Entropy Dbl).update L (.fin x) >>= fun s => .ok s) = _
    rw [h1, Res.ok_bind]
  | succ m ih =>
    intro hm
    obtain ⟨v, h1, h2⟩ := ih (by omega)
    have hε : 800 * ((m + 1 : ℕ) : ℝ) * uu ≤ 1 := by
      have : ((m + 1 : ℕ) : ℝ) ≤ 2 ^ 43 := by exact_mod_cast (by omega : m + 1 ≤ 2 ^ 43)
      unfold uu
      have h3 : 800 * ((m + 1 : ℕ) : ℝ) * (1 / 2 ^ 53) ≤ 800 * 2 ^ 43 * (1 / 2 ^ 53) := by gcongr
      exact h3.trans (by norm_num)
    rw [List.replicate_succ', updateAll_snoc, h1, Res.ok_bind]
    rcases Nat.lt_or_ge (m + 1) W with hl | hl
    · rw [Nat.min_eq_left (by omega), Nat.min_eq_left (by omega)]
      obtain ⟨v', k1, k2⟩ := same_room hL (m := m + 1) hx hB (Nat.succ_pos m) (by omega) hW40 h2 hε
      refine ⟨v', k1, k2.trans (le_of_eq ?_)⟩
      push_cast; ring
    · rw [Nat.min_eq_right hl, Nat.min_eq_right (by omega)]
      obtain ⟨v', k1, k2⟩ := same_evict hL (m := m + 1) hx hB hW hW40 h2 hε
      refine ⟨v', k1, k2.trans (le_of_eq ?_)⟩
      push_cast; ring

end Entropy

/-- **C134** (doubles, `log2` good to a few units in the last place): an update changes the reported
number by the terms of two bins, the one of the index that leaves and the one of the new observation, up to
`800 / 2^53`. Counts can pass the window size (C128) and the number can
drift (C97), hence the hypotheses on both. -/
theorem C134_step (L : LArith Dbl) (hL : L.Accurate) (W numBins : ℕ) (hW : 2 ≤ W) (hW40 : W ≤ 2 ^ 40)
    (e0 e e' : Entropy Dbl) (xs : List Dbl) (x : Dbl) (hn : W ≤ xs.length) (hnew : Entropy.new L W numBins = .ok e0)
    (hrun : updateAll (Entropy.update L) e0 xs = .ok e) (hx : e.update L x = .ok e')
    (hc : ∀ b ∈ e.hist.bins, b.count ≤ W) (hc' : ∀ b ∈ e'.hist.bins, b.count ≤ W) (v : ℚ) (hv : e.evaluate = .fin v)
    (hv1 : |(v : ℝ)| ≤ 15) :
    ∃ (front : ℕ) (rest : List ℕ) (i : ℕ) (bf bi : Bin Dbl) (v' : ℚ), e.window = some (front :: rest) ∧
      e'.window = some (rest ++ [i]) ∧ e.hist.binSearch L.toArith x = .ok i ∧ e.hist.bins[front]? = some bf ∧
      e'.hist.bins[i]? = some bi ∧ e'.evaluate = .fin v' ∧
      |(v' : ℝ) - (v +
        (((((bf.count - 1 : ℕ) : ℝ) + 1) / W) * Real.logb 2 ((((bf.count - 1 : ℕ) : ℝ) + 1) / W) -
          (((bf.count - 1 : ℕ) : ℝ) / W) * Real.logb 2 (((bf.count - 1 : ℕ) : ℝ) / W)) -
        (((bi.count : ℝ) / W) * Real.logb 2 ((bi.count : ℝ) / W) -
          (((bi.count - 1 : ℕ) : ℝ) / W) * Real.logb 2 (((bi.count - 1 : ℕ) : ℝ) / W)))| ≤ 800 / 2 ^ 53 := by
  have hu := Entropy.uu_pos
  have hus := Entropy.uu_small
  have he0 := Entropy.new_form (by omega) hnew
  have hwl := (C126_entropy L W numBins e0 e hnew xs hrun).1
  obtain ⟨r1, r2, -⟩ := Entropy.run_hist hrun
  have hws : e.windowSize = W := by rw [r2, he0]
  have hh0 : e0.hist = Hist.new e0.hist.numBins W := by rw [he0]; rfl
  rw [hh0] at r1
  have ht : e.hist.total = W := by have := (Hist.Counts.run r1).total; omega
  have u1 := (Entropy.update_hist hx).1
  have ht' : e'.hist.total = W := by
    have := ((Hist.Counts.run r1).update u1).total; omega
  obtain ⟨i, hi, -⟩ := C50_defined L.toArith e.hist x
  obtain ⟨-, w, hw, -⟩ := Entropy.update_keeps hx
  have hl := hwl w hw
  obtain ⟨front, rest0, hfr, hue⟩ := Entropy.update_evict (L := L) hi hw (by omega)
  rcases w with _ | ⟨a, rest⟩
  · simp at hl; omega
  obtain ⟨rfl, hrest⟩ : a = front ∧ rest ++ [i] = rest0 := by simpa using hfr
  subst hrest
  have hlast := hx
  rw [hue] at hlast
  obtain ⟨e1, hd, hlast⟩ := Res.bind_eq_ok.1 hlast
  obtain ⟨hist, g1, hlast⟩ := Res.bind_eq_ok.1 hlast
  obtain ⟨e2, hinc, hlast⟩ := Res.bind_eq_ok.1 hlast
  injection hlast with hlast
  obtain ⟨bf, hbf⟩ : ∃ bf, e.hist.bins[a]? = some bf := by
    unfold Entropy.decrement at hd
    obtain ⟨b, hb, -⟩ := Res.bind_eq_ok.1 hd
    unfold Hist.getBin at hb
    split at hb
    · cases hb
    · cases hq : e.hist.bins[a]? with
      | none => rw [hq] at hb; cases hb
      | some b => exact ⟨b, rfl⟩
  obtain ⟨v1, d1, d2, d3⟩ := Entropy.decrement_dbl hL hbf ht (hc bf (List.mem_of_getElem? hbf)) hW hW40 hv hv1
  rw [hd] at d1
  injection d1 with d1
  subst d1
  simp only at g1
  rw [u1] at g1
  injection g1 with g1
  subst g1
  obtain ⟨bi, hbi⟩ : ∃ bi, e'.hist.bins[i]? = some bi := by
    have hinc := hinc
    unfold Entropy.increment at hinc
    obtain ⟨b, hb, -⟩ := Res.bind_eq_ok.1 hinc
    unfold Hist.getBin at hb
    simp only at hb
    split at hb
    · cases hb
    · cases hq : e'.hist.bins[i]? with
      | none => rw [hq] at hb; cases hb
      | some b => exact ⟨b, rfl⟩
  obtain ⟨v', i1, i2⟩ := Entropy.increment_dbl hL
    (e := ⟨e.windowSize, some (rest ++ [i]), e.historyCount, e'.hist, .fin v1⟩) (i := i) (n := W) hbi ht'
    (hc' bi (List.mem_of_getElem? hbi)) (by omega) hW40 (v := v1) rfl d2 (d3.trans (by norm_num)) (by linarith)
  have hinc := i1.symm.trans hinc
  injection hinc with hinc
  subst hinc
  rw [Entropy.incr_decr hW] at i2
  refine ⟨a, rest, i, bf, bi, v', hw, by rw [← hlast], hi, hbf, hbi, by rw [← hlast]; rfl, ?_⟩
  have hf : ((W : ℝ) - 1) / W * (380 * Entropy.uu) ≤ 380 * Entropy.uu := by
    refine mul_le_of_le_one_left (by positivity) ?_
    rw [div_le_one (by exact_mod_cast (by omega : 0 < W))]
    linarith
  have e800 : (800 : ℝ) / 2 ^ 53 = 800 * Entropy.uu := by unfold Entropy.uu; ring
  rw [e800]
  unfold Entropy.g at i2
  push_cast at i2 ⊢
  linarith

/-- **C134**, equal observations (doubles): however many there are, up to `2^43`, and however far past the window, the
entropy reported differs from the true one, 0, by at most `800 n / 2^53`. -/
theorem C134_constant (L : LArith Dbl) (hL : L.Accurate) (W numBins n : ℕ) (hW : 2 ≤ W) (hW40 : W ≤ 2 ^ 40) (x : ℚ)
    (hx : |x| ≤ dblMax) (hn : n ≤ 2 ^ 43) (e0 : Entropy Dbl) (h0 : Entropy.new L W numBins = .ok e0) :
    ∃ (e : Entropy Dbl) (v : ℚ), updateAll (Entropy.update L) e0 (List.replicate n (.fin x)) = .ok e ∧
      e.evaluate = .fin v ∧ |(v : ℝ)| ≤ 800 * n / 2 ^ 53 := by
  have hz : L.lit 0 = .fin 0 := by rw [hL.arith]; exact dbl_lit_zero
  have he0 := Entropy.new_form (by omega) h0
  rw [hz] at he0
  rcases Nat.eq_zero_or_pos n with rfl | hpos
  · exact ⟨e0, 0, rfl, by rw [he0]; rfl, by simp⟩
  obtain ⟨m, rfl⟩ : ∃ m, n = m + 1 := ⟨n - 1, by omega⟩
  have hB : 1 ≤ e0.hist.numBins := by
    unfold Entropy.new at h0
    simp only [if_pos (by omega : W > 0), if_neg (by omega : ¬ W = 0), Res.ok_bind] at h0
    by_cases hb : numBins = 0
    · rw [if_pos hb] at h0
      injection h0 with h0
      rw [← h0]
      exact (Nat.le_add_left 1 _).trans (Nat.le_max_right _ _)
    · rw [if_neg hb] at h0
      injection h0 with h0
      rw [← h0]
      exact Nat.pos_of_ne_zero hb
  obtain ⟨v, h1, h2⟩ := Entropy.same_run hL hx hB hW hW40 m hn
  rw [he0]
  refine ⟨_, v, h1, rfl, h2.trans (le_of_eq ?_)⟩
  unfold Entropy.uu
  ring

/-- Four times 7 in a window of two. -/
example : ∃ (L : LArith Dbl) (e0 e : Entropy Dbl) (v : ℚ), L.Accurate ∧ Entropy.new L 2 1 = .ok e0 ∧
    updateAll (Entropy.update L) e0 (List.replicate 4 (.fin 7)) = .ok e ∧ e.evaluate = .fin v ∧ |(v : ℝ)| ≤ 1 / 10 ^ 12 := by
  obtain ⟨L, hL⟩ := exists_accurate
  obtain ⟨e, v, h1, h2, h3⟩ := C134_constant L hL 2 1 4 le_rfl (by norm_num) 7 (by decide +kernel) (by norm_num) _ rfl
  exact ⟨L, _, e, v, hL, rfl, h1, h2, h3.trans (by norm_num)⟩

/-- A third 7 in a window of two. -/
example : ∃ (L : LArith Dbl) (e0 e e' : Entropy Dbl) (v : ℚ), L.Accurate ∧ Entropy.new L 2 1 = .ok e0 ∧
    updateAll (Entropy.update L) e0 [.fin 7, .fin 7] = .ok e ∧ e.update L (.fin 7) = .ok e' ∧
    (∀ b ∈ e.hist.bins, b.count ≤ 2) ∧ (∀ b ∈ e'.hist.bins, b.count ≤ 2) ∧ e.evaluate = .fin v ∧ |(v : ℝ)| ≤ 15 := by
  obtain ⟨L, hL⟩ := exists_accurate
  have hz : L.lit 0 = .fin 0 := by rw [hL.arith]; exact dbl_lit_zero
  have h7 : |(7 : ℚ)| ≤ dblMax := by decide +kernel
  obtain ⟨v, h1, h2⟩ := Entropy.same_run hL (W := 2) (B := 1) h7 le_rfl le_rfl (by norm_num) 1 (by norm_num)
  have hus := Entropy.uu_small
  have hv : |(v : ℝ)| ≤ 1 := by
    refine h2.trans ?_
    unfold Entropy.uu
    norm_num
  obtain ⟨v', k1, -⟩ := Entropy.same_evict hL (W := 2) (B := 1) (m := 2) h7 le_rfl le_rfl (by norm_num) hv le_rfl
  refine ⟨L, ⟨2, some [], 0, Hist.new 1 2, L.lit 0⟩, _, _, v, hL, rfl, ?_, k1, ?_, ?_, rfl, by linarith⟩
  · rw [hz]; exact h1
  · intro b hb
    simp only [Entropy.sameState, List.mem_singleton] at hb
    subst hb; rfl
  · intro b hb
    simp only [Entropy.sameState, List.mem_singleton] at hb
    subst hb; rfl

end KML
