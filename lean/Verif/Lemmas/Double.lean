import Verif.Lemmas.Float
import Verif.Lemmas.P2

/-!
# When `double` arithmetic is `b64`

`Dbl.Is d q k`: the double `d` is the finite number `q` of magnitude at most `2 ^ k`. The operations preserve it as
long as the exponents stay below 1024, so a computation on such doubles is the computation in `b64`.
-/

namespace KML

theorem rnd64_abs_le {x : ℚ} {k : ℤ} (hk : -1074 ≤ k) (h : |x| ≤ pow2 k) : |rnd64 x| ≤ pow2 k := by
  have e : rnd64 (pow2 k) = pow2 k := by
    have := rnd64_repr 1 k (by norm_num) hk
    simpa using this
  rw [abs_le] at h ⊢
  constructor
  · have := rnd64_mono h.1
    rw [rnd64_neg, e] at this
    exact this
  · have := rnd64_mono h.2
    rwa [e] at this

/-- `n · 2 ^ k` with `n ≤ 2 ^ 53` bounds its rounding too. -/
theorem rnd64_abs_le_mul {x : ℚ} {n : ℕ} {k : ℤ} (hn : n ≤ 2 ^ 53) (hk : -1074 ≤ k) (h : |x| ≤ n * pow2 k) :
    |rnd64 x| ≤ n * pow2 k := by
  have e : rnd64 ((n : ℚ) * pow2 k) = n * pow2 k := by
    have := rnd64_repr n k (by rw [abs_of_nonneg (by positivity)]; exact_mod_cast hn) hk
    simpa using this
  rw [abs_le] at h ⊢
  constructor
  · have := rnd64_mono h.1
    rw [rnd64_neg, e] at this
    exact this
  · have := rnd64_mono h.2
    rwa [e] at this

theorem pow2_zero : pow2 0 = 1 := rfl

namespace Dbl

theorem ofRat_eq {x : ℚ} (h : |rnd64 x| ≤ pow2 1023) : ofRat x = .fin (rnd64 x) := by
  unfold ofRat
  rw [if_neg]
  rw [not_lt]
  have e : pow2 1023 = 2 ^ 52 * 2 ^ 971 := by
    rw [pow2_eq, ← pow_add]; rfl
  have e2 : (2 : ℚ) ^ 52 ≤ 2 ^ 53 - 1 := by norm_num
  rw [e] at h
  exact h.trans (mul_le_mul_of_nonneg_right e2 (by positivity))

/-- The double `d` is the number `q`, and `|q| ≤ 2 ^ k`. -/
def Is (d : Dbl) (q : ℚ) (k : ℤ) : Prop := d = .fin q ∧ |q| ≤ pow2 k

theorem Is.eq {d : Dbl} {q : ℚ} {k : ℤ} (h : Is d q k) : d = .fin q := h.1

theorem Is.mono {d : Dbl} {q : ℚ} {k l : ℤ} (h : Is d q k) (hkl : k ≤ l) : Is d q l :=
  ⟨h.1, h.2.trans (pow2_le.2 hkl)⟩

theorem Is.ofRat {x : ℚ} {k : ℤ} (h0 : -1074 ≤ k) (h1 : k ≤ 1023) (h : |x| ≤ pow2 k) : Is (Dbl.ofRat x) (rnd64 x) k :=
  have := rnd64_abs_le h0 h
  ⟨ofRat_eq (this.trans (pow2_le.2 h1)), this⟩

section
variable {d e : Dbl} {q r : ℚ} {k l : ℤ}

theorem Is.add (hd : Is d q k) (he : Is e r k) (h0 : -1074 ≤ k) (h1 : k < 1023) :
    Is (Dbl.arith.add d e) (b64.add q r) (k + 1) := by
  obtain ⟨rfl, hq⟩ := hd
  obtain ⟨rfl, hr⟩ := he
  refine Is.ofRat (by omega) (by omega) ?_
  rw [pow2_succ]
  have := abs_add_le q r
  linarith

theorem Is.sub (hd : Is d q k) (he : Is e r k) (h0 : -1074 ≤ k) (h1 : k < 1023) :
    Is (Dbl.arith.sub d e) (b64.sub q r) (k + 1) := by
  obtain ⟨rfl, hq⟩ := hd
  obtain ⟨rfl, hr⟩ := he
  show Is (Dbl.ofRat (q + -r)) (rnd64 (q - r)) (k + 1)
  rw [← sub_eq_add_neg]
  refine Is.ofRat (by omega) (by omega) ?_
  rw [pow2_succ]
  have := abs_sub q r
  linarith

theorem Is.mul (hd : Is d q k) (he : Is e r l) (h0 : -1074 ≤ k + l) (h1 : k + l ≤ 1023) :
    Is (Dbl.arith.mul d e) (b64.mul q r) (k + l) := by
  obtain ⟨rfl, hq⟩ := hd
  obtain ⟨rfl, hr⟩ := he
  refine Is.ofRat h0 h1 ?_
  rw [pow2_add, abs_mul]
  exact mul_le_mul hq hr (abs_nonneg _) (pow2_pos _).le

theorem Is.div (hd : Is d q k) (he : e = .fin r) (hr : 1 ≤ |r|) (h0 : -1074 ≤ k) (h1 : k ≤ 1023) :
    Is (Dbl.arith.div d e) (b64.div q r) k := by
  obtain ⟨rfl, hq⟩ := hd
  subst he
  have hr0 : r ≠ 0 := by rintro rfl; norm_num at hr
  show Is (Dbl.div (.fin q) (.fin r)) (rnd64 (q / r)) k
  rw [Dbl.div, if_neg hr0]
  refine Is.ofRat h0 h1 ?_
  rw [abs_div]
  exact (div_le_self (abs_nonneg _) hr).trans hq

theorem Is.abs (hd : Is d q k) : Is (Dbl.arith.abs d) (b64.abs q) k := by
  obtain ⟨rfl, hq⟩ := hd
  exact ⟨rfl, by simpa [b64] using hq⟩

end

theorem lt_fin (a b : ℚ) : Dbl.arith.lt (.fin a) (.fin b) = b64.lt a b := rfl

theorem le_fin (a b : ℚ) : Dbl.arith.le (.fin a) (.fin b) = b64.le a b := by
  show (decide (a < b) || decide (a = b)) = decide (a ≤ b)
  rw [← Bool.decide_or]
  exact decide_eq_decide.2 le_iff_lt_or_eq.symm

theorem eq_fin (a b : ℚ) : Dbl.arith.eq (.fin a) (.fin b) = b64.eq a b := rfl

theorem round_fin (a : ℚ) : Dbl.arith.round (.fin a) = b64.round a := rfl

theorem Is.lit {x : ℚ} {k : ℤ} (h0 : -1074 ≤ k) (h1 : k ≤ 1023) (h : |x| ≤ pow2 k) :
    Is (Dbl.arith.lit x) (b64.lit x) k := Is.ofRat h0 h1 h

theorem Is.ofInt {n : ℤ} {k : ℕ} (h1 : k ≤ 1023) (h : |n| ≤ 2 ^ k) : Is (Dbl.arith.ofInt n) (b64.ofInt n) k := by
  refine Is.ofRat (by omega) (by omega) ?_
  rw [pow2_eq]
  have : |(n : ℚ)| ≤ 2 ^ k := by exact_mod_cast h
  simpa using this

/-- A positive integer stays at least 1 when converted. -/
theorem ofInt_ge_one {n : ℤ} (h : 1 ≤ |n|) : 1 ≤ |b64.ofInt n| := by
  show 1 ≤ |rnd64 n|
  have h1 : rnd64 1 = 1 := by simpa using rnd64_int 1 (by norm_num)
  rcases le_abs'.1 h with h | h
  · have : (n : ℚ) ≤ -1 := by exact_mod_cast h
    have := rnd64_mono this
    rw [rnd64_neg, h1] at this
    exact le_abs'.2 (.inl this)
  · have : (1 : ℚ) ≤ n := by exact_mod_cast h
    have := rnd64_mono this
    rw [h1] at this
    exact le_abs'.2 (.inr this)

end Dbl

/-! ### Quantiles -/

theorem insertSorted_fin (x : ℚ) (l : List ℚ) :
    insertSorted Dbl.arith (.fin x) (l.map .fin) = (insertSorted b64 x l).map .fin := by
  induction l with
  | nil => rfl
  | cons y l ih =>
    simp only [List.map_cons, insertSorted, Dbl.lt_fin, ih]
    split <;> rfl

theorem sortList_fin (l : List ℚ) : sortList Dbl.arith (l.map .fin) = (sortList b64 l).map .fin := by
  induction l with
  | nil => rfl
  | cons y l ih => simp only [List.map_cons, sortList, ih, insertSorted_fin]

theorem Five.sort_fin (v : Five ℚ) : (v.map .fin).sort Dbl.arith = (v.sort b64).map .fin := by
  unfold Five.sort
  rw [Five.map_toList, sortList_fin, Five.map_ofList]

namespace P2

/-- The object holding the same numbers as doubles. -/
abbrev dbl (p : P2 ℚ) : P2 Dbl := p.map .fin

theorem findK_fin (h : Five ℚ) (x : ℚ) :
    findK Dbl.arith (h.map .fin) (.fin x) = ((findK b64 h x).1, (findK b64 h x).2.map .fin) := by
  by_cases c0 : b64.lt x h.x0 = true
  · simp [findK, Five.map, Dbl.lt_fin, c0]
  · by_cases c1 : b64.lt x h.x1 = true
    · simp [findK, Five.map, Dbl.lt_fin, c0, c1]
    · by_cases c2 : b64.lt x h.x2 = true
      · simp [findK, Five.map, Dbl.lt_fin, c0, c1, c2]
      · by_cases c3 : b64.lt x h.x3 = true
        · simp [findK, Five.map, Dbl.lt_fin, c0, c1, c2, c3]
        · by_cases c4 : b64.lt x h.x4 = true <;> simp [findK, Five.map, Dbl.lt_fin, c0, c1, c2, c3, c4]

open Dbl in
theorem parabolic_is {M : ℤ} (hM0 : 0 ≤ M) (hM : M ≤ 980) {hm hi hp d : Dbl} {hm' hi' hp' d' : ℚ} (h1 : Is hm hm' M)
    (h2 : Is hi hi' M) (h3 : Is hp hp' M) (h4 : Is d d' 0) {nm ni np : ℤ} (h5 : nm < ni) (h6 : ni < np)
    (h7 : np - nm ≤ 2 ^ 32) :
    Is (parabolic Dbl.arith hm hi hp nm ni np d) (parabolic b64 hm' hi' hp' nm ni np d') (M + 36) := by
  have a1 : Is (Dbl.arith.ofInt (np - nm)) (b64.ofInt (np - nm)) 32 :=
    Is.ofInt (k := 32) (by norm_num) (by rw [abs_le]; constructor <;> omega)
  have a2 : Is (Dbl.arith.ofInt (ni - nm)) (b64.ofInt (ni - nm)) 32 :=
    Is.ofInt (k := 32) (by norm_num) (by rw [abs_le]; constructor <;> omega)
  have a3 : Is (Dbl.arith.ofInt (np - ni)) (b64.ofInt (np - ni)) 32 :=
    Is.ofInt (k := 32) (by norm_num) (by rw [abs_le]; constructor <;> omega)
  have o1 : 1 ≤ |b64.ofInt (np - nm)| := ofInt_ge_one (le_abs'.2 (.inr (by omega)))
  have o2 : 1 ≤ |b64.ofInt (ni - nm)| := ofInt_ge_one (le_abs'.2 (.inr (by omega)))
  have o3 : 1 ≤ |b64.ofInt (np - ni)| := ofInt_ge_one (le_abs'.2 (.inr (by omega)))
  have d32 := h4.mono (l := 32) (by norm_num)
  have u1 := a2.add d32 (by norm_num) (by norm_num)
  have u2 := a3.sub d32 (by norm_num) (by norm_num)
  have v1 := h3.sub h2 (by omega) (by omega)
  have v2 := h2.sub h1 (by omega) (by omega)
  have w1 := (u1.mul v1 (by omega) (by omega)).div a3.eq o3 (by omega) (by omega)
  have w2 := (u2.mul v2 (by omega) (by omega)).div a2.eq o2 (by omega) (by omega)
  have s := w1.add w2 (by omega) (by omega)
  have t := (h4.div a1.eq o1 (by omega) (by omega)).mul s (by omega) (by omega)
  have := (h2.mono (l := M + 35) (by omega)).add (t.mono (l := M + 35) (by omega)) (by omega) (by omega)
  exact this.mono (by omega)

open Dbl in
theorem linear_is {M : ℤ} (hM0 : 0 ≤ M) (hM : M ≤ 980) {hi hd d : Dbl} {hi' hd' d' : ℚ}
    (h2 : Is hi hi' M) (h3 : Is hd hd' M) (h4 : Is d d' 0) {ni nd : ℤ} (h5 : ni ≠ nd) (h6 : |nd - ni| ≤ 2 ^ 32) :
    Is (linear Dbl.arith hi hd ni nd d) (linear b64 hi' hd' ni nd d') (M + 2) := by
  have a : Is (Dbl.arith.ofInt (nd - ni)) (b64.ofInt (nd - ni)) 32 := Is.ofInt (k := 32) (by norm_num) h6
  have o : 1 ≤ |b64.ofInt (nd - ni)| := ofInt_ge_one (by
    have : 0 < |nd - ni| := abs_pos.2 (by omega)
    omega)
  have v := h3.sub h2 (by omega) (by omega)
  have w := (h4.mul v (by omega) (by omega)).div a.eq o (by omega) (by omega)
  have := (h2.mono (l := M + 1) (by omega)).add (w.mono (l := M + 1) (by omega)) (by omega) (by omega)
  exact this.mono (by omega)

theorem lit_fin (n : ℤ) (h : |n| ≤ 2 ^ 53) : Dbl.arith.lit n = .fin n := by
  have := (Dbl.Is.lit (x := n) (k := 53) (by norm_num) (by norm_num) (by
    rw [pow2_eq]
    have : |(n : ℚ)| ≤ 2 ^ 53 := by exact_mod_cast h
    simpa using this)).eq
  rw [this]
  show Dbl.fin (rnd64 n) = _
  rw [rnd64_int n h]

theorem lit_b64 (n : ℤ) (h : |n| ≤ 2 ^ 53) : b64.lit n = n := rnd64_int n h

open Dbl in
theorem adjust_fin {M : ℤ} (hM0 : 0 ≤ M) (hM : M ≤ 980) {des hm hi hp : ℚ} (h0 : |des| ≤ pow2 40) (h1 : |hm| ≤ pow2 M)
    (h2 : |hi| ≤ pow2 M) (h3 : |hp| ≤ pow2 M) {nm ni np : ℤ} (h4 : 0 ≤ nm) (h5 : nm < ni) (h6 : ni < np)
    (h7 : np ≤ 2 ^ 31) :
    adjust Dbl.arith (.fin des) (.fin hm) (.fin hi) (.fin hp) nm ni np =
      (.fin (adjust b64 des hm hi hp nm ni np).1, (adjust b64 des hm hi hp nm ni np).2) := by
  have i1 : Is (.fin hm) hm M := ⟨rfl, h1⟩
  have i2 : Is (.fin hi) hi M := ⟨rfl, h2⟩
  have i3 : Is (.fin hp) hp M := ⟨rfl, h3⟩
  have n40 : Is (Dbl.arith.ofInt ni) (b64.ofInt ni) 40 :=
    Is.ofInt (k := 40) (by norm_num) (by rw [abs_le]; constructor <;> omega)
  have hd := Is.sub (d := .fin des) ⟨rfl, h0⟩ n40 (by norm_num) (by norm_num)
  have l0 : Dbl.arith.lit 0 = .fin 0 := by simpa using lit_fin 0 (by norm_num)
  have l1 : Dbl.arith.lit 1 = .fin 1 := by simpa using lit_fin 1 (by norm_num)
  have l2 : Dbl.arith.lit (-1) = .fin (-1) := by simpa using lit_fin (-1) (by norm_num)
  have b0 : b64.lit 0 = 0 := by simpa using lit_b64 0 (by norm_num)
  have b1 : b64.lit 1 = 1 := by simpa using lit_b64 1 (by norm_num)
  have b2 : b64.lit (-1) = -1 := by simpa using lit_b64 (-1) (by norm_num)
  have hsgn : copysign Dbl.arith (.fin (b64.sub des (b64.ofInt ni))) = copysign b64 (b64.sub des (b64.ofInt ni)) := by
    unfold copysign
    rw [l0, b0, Dbl.lt_fin, Dbl.lt_fin]
  unfold adjust
  simp only [hd.eq, hsgn, l1, l2, b1, b2, Dbl.le_fin]
  split
  · rename_i hc
    set s := copysign b64 (b64.sub des (b64.ofInt ni)) with hs
    have hs1 : s = 1 ∨ s = -1 := by
      simp only [Bool.or_eq_true, Bool.and_eq_true] at hc
      have sane : Sane b64 := sane_round R64
      rw [hs]; unfold copysign
      rcases hc with ⟨ha, -⟩ | ⟨ha, -⟩
      · left
        rw [if_pos (sane.up _ (by rw [b1]; exact ha))]
      · right
        obtain ⟨k1, k2⟩ := sane.down _ (by rw [b2]; exact ha)
        rw [if_neg (by rw [k2]; simp), if_pos k1]
    have hsd : Is (Dbl.arith.ofInt s) (b64.ofInt s) 0 := by
      apply Is.ofInt (k := 0) (by norm_num)
      rcases hs1 with h | h <;> rw [h] <;> norm_num
    have hp2 := parabolic_is hM0 hM i1 i2 i3 hsd h5 h6 (by omega)
    rw [hp2.eq, Dbl.lt_fin, Dbl.lt_fin]
    split
    · rfl
    · rcases hs1 with h | h
      · have := linear_is hM0 hM i2 i3 hsd (ni := ni) (nd := np) (by omega) (by rw [abs_le]; constructor <;> omega)
        rw [h] at this
        simp only [h, if_true, this.eq]
      · have := linear_is hM0 hM i2 i1 hsd (ni := ni) (nd := nm) (by omega) (by rw [abs_le]; constructor <;> omega)
        rw [h] at this
        simp only [h, this.eq, if_true, show ¬ (-1 : ℤ) = 1 by norm_num, if_false]
  · rfl

/-- What the adjustments need. -/
structure Adj (M : ℤ) (p : P2 ℚ) : Prop where
  rep : Rep R64 p.heights
  sorted : p.heights.Sorted
  lo : -pow2 M ≤ p.heights.x0
  hi : p.heights.x4 ≤ pow2 M
  pos : PosInc p.pos
  top : p.pos.x4 ≤ 2 ^ 31
  des : |p.desired.x1| ≤ pow2 40 ∧ |p.desired.x2| ≤ pow2 40 ∧ |p.desired.x3| ≤ pow2 40

theorem Adj.step {M : ℤ} {p : P2 ℚ} (h : Adj M p) (i : ℕ) : Adj M (adjustHeights b64 p i) := by
  have hs := adjustHeights_sorted h.rep h.sorted i
  obtain ⟨-, -, f3, -, f5, f6, f7⟩ := adjustHeights_frame (A := b64) p i
  rw [← b64_eq] at hs
  exact ⟨hs.1, hs.2, f5 ▸ h.lo, f6 ▸ h.hi, adjustHeights_posInc (sane_round R64) h.pos i, f3 ▸ h.top, f7 ▸ h.des⟩

theorem Adj.fin {M : ℤ} (hM0 : 0 ≤ M) (hM : M ≤ 980) {p : P2 ℚ} (h : Adj M p) (i : ℕ) :
    adjustHeights Dbl.arith p.dbl i = (adjustHeights b64 p i).dbl := by
  obtain ⟨s1, s2, s3, s4⟩ := h.sorted
  obtain ⟨p0, p1, p2, p3, p4⟩ := h.pos
  obtain ⟨d1, d2, d3⟩ := h.des
  have top := h.top
  have lo := h.lo
  have hi := h.hi
  have a0 : |p.heights.x0| ≤ pow2 M := by rw [abs_le]; constructor <;> linarith
  have a1 : |p.heights.x1| ≤ pow2 M := by rw [abs_le]; constructor <;> linarith
  have a2 : |p.heights.x2| ≤ pow2 M := by rw [abs_le]; constructor <;> linarith
  have a3 : |p.heights.x3| ≤ pow2 M := by rw [abs_le]; constructor <;> linarith
  have a4 : |p.heights.x4| ≤ pow2 M := by rw [abs_le]; constructor <;> linarith
  match i with
  | 0 => rfl
  | 1 =>
    simp only [adjustHeights, dbl, P2.map, Five.map]
    rw [adjust_fin hM0 hM d1 a0 a1 a2 (by omega) (by omega) (by omega) (by omega)]
  | 2 =>
    simp only [adjustHeights, dbl, P2.map, Five.map]
    rw [adjust_fin hM0 hM d2 a1 a2 a3 (by omega) (by omega) (by omega) (by omega)]
  | 3 =>
    simp only [adjustHeights, dbl, P2.map, Five.map]
    rw [adjust_fin hM0 hM d3 a2 a3 a4 (by omega) (by omega) (by omega) (by omega)]
  | n + 4 => rfl

theorem half_fin : Dbl.arith.lit (1 / 2) = .fin (b64.lit (1 / 2)) :=
  (Dbl.Is.lit (k := 0) (by norm_num) (by norm_num) (by rw [pow2_zero]; norm_num [abs_le])).eq

theorem Adj.finish {M : ℤ} (hM0 : 0 ≤ M) (hM : M ≤ 980) {p : P2 ℚ} (h : Adj M p) :
    finish Dbl.arith p.dbl = (finish b64 p).dbl := by
  unfold P2.finish
  have e : Dbl.arith.le (Dbl.arith.lit (1 / 2)) p.dbl.quantile = b64.le (b64.lit (1 / 2)) p.quantile := by
    rw [half_fin]; exact Dbl.le_fin _ _
  rw [e]
  split
  · rw [h.fin hM0 hM, (h.step 1).fin hM0 hM, ((h.step 1).step 2).fin hM0 hM]
  · rw [h.fin hM0 hM, (h.step 3).fin hM0 hM, ((h.step 3).step 2).fin hM0 hM]

open Dbl in
theorem desiredAt_is (d0 q : ℚ) (q0 : 0 < q) (q1 : q < 1) {n : ℕ} (hn : n ≤ 2 ^ 31) :
    desiredAt Dbl.arith (.fin d0) (.fin q) n = (desiredAt b64 d0 q n).map .fin ∧
    |(desiredAt b64 d0 q n).x1| ≤ pow2 40 ∧ |(desiredAt b64 d0 q n).x2| ≤ pow2 40 ∧
    |(desiredAt b64 d0 q n).x3| ≤ pow2 40 := by
  have iq : Is (.fin q) q 0 := ⟨rfl, by rw [pow2_zero, abs_le]; constructor <;> linarith⟩
  have ic : Is (Dbl.arith.ofNat n) (b64.ofNat n) 31 := Is.ofInt (k := 31) (by norm_num) (by
    rw [abs_of_nonneg (by positivity)]; exact_mod_cast hn)
  have i1 : Is (Dbl.arith.lit 1) (b64.lit 1) 0 := Is.lit (by norm_num) (by norm_num) (by rw [pow2_zero]; norm_num)
  have i2 : Is (Dbl.arith.lit 2) (b64.lit 2) 1 := Is.lit (by norm_num) (by norm_num) (by rw [pow2_eq]; norm_num)
  have b2 : b64.lit 2 = 2 := by simpa using lit_b64 2 (by norm_num)
  have o2 : 1 ≤ |b64.lit 2| := by rw [b2]; norm_num
  have m := ic.mul iq (by norm_num) (by norm_num)
  have m3 := (ic.mul (i1.add iq (by norm_num) (by norm_num)) (by norm_num) (by norm_num)).div i2.eq o2 (by norm_num)
    (by norm_num)
  have m1 := m.div i2.eq o2 (by norm_num) (by norm_num)
  refine ⟨?_, (m1.mono (by norm_num)).2, (m.mono (by norm_num)).2, (m3.mono (by norm_num)).2⟩
  unfold desiredAt
  simp only [Five.map]
  rw [m1.eq, m.eq, m3.eq, ic.eq]

theorem updateFirst_dbl {p : P2 ℚ} (q0 : 0 < p.quantile) (q1 : p.quantile < 1) (x : ℚ) :
    updateFirst Dbl.arith p.dbl (.fin x) = (updateFirst b64 p x).dbl := by
  have iq : Dbl.Is (.fin p.quantile) p.quantile 0 := ⟨rfl, by rw [pow2_zero, abs_le]; constructor <;> linarith⟩
  have i0 : Dbl.Is (Dbl.arith.lit 0) (b64.lit 0) 0 :=
    Dbl.Is.lit (by norm_num) (by norm_num) (by rw [pow2_zero]; norm_num)
  have i2 : Dbl.Is (Dbl.arith.lit 2) (b64.lit 2) 1 :=
    Dbl.Is.lit (by norm_num) (by norm_num) (by rw [pow2_eq]; norm_num)
  have i4 : Dbl.Is (Dbl.arith.lit 4) (b64.lit 4) 2 :=
    Dbl.Is.lit (by norm_num) (by norm_num) (by rw [pow2_eq]; norm_num)
  have m2 := i2.mul iq (by norm_num) (by norm_num)
  have m4 := i4.mul iq (by norm_num) (by norm_num)
  have m3 := i2.add m2 (by norm_num) (by norm_num)
  have hs : (p.heights.map Dbl.fin).ofList ((p.heights.map Dbl.fin).toList.set p.historyCount (.fin x)) =
      (p.heights.ofList (p.heights.toList.set p.historyCount x)).map .fin := by
    rw [Five.map_toList, ← List.map_set, Five.map_ofList]
  unfold updateFirst
  simp only [dbl, P2.map, hs, Five.sort_fin]
  split
  · rw [m3.eq, m2.eq, m4.eq, i0.eq, i4.eq]; rfl
  · rfl

/-- States reached from observations of magnitude at most `2 ^ M`. -/
structure Fit (M : ℤ) (p : P2 ℚ) : Prop where
  hull : Hull R64 (-pow2 M) (pow2 M) p
  top : p.pos.x4 ≤ intMax
  count : (p.historyCount : ℤ) ≤ p.pos.x4 + 1

theorem Fit.start {M : ℤ} {p : P2 ℚ} (h : Fit M p) {x : ℚ} (hx : rnd64 x = x) (hxM : |x| ≤ pow2 M)
    (h5 : 5 ≤ p.historyCount) (ht : p.pos.x4 < intMax) :
    start Dbl.arith p.dbl (.fin x) = (start b64 p x).dbl ∧ Adj M (start b64 p x) := by
  have hc : p.historyCount ≤ 2 ^ 31 := by
    have := h.count; have := h.top; unfold intMax at *; omega
  obtain ⟨d0, d1, d2, d3⟩ := desiredAt_is p.desired.x0 p.quantile h.hull.q0 h.hull.q1 hc
  have hs := h.hull.sorted h5
  have hk := findK_heights R64 p.heights x hs
  rw [← b64_eq] at hk
  constructor
  · unfold P2.start
    simp only [dbl, P2.map, findK_fin]
    have : (p.desired.map Dbl.fin).x0 = .fin p.desired.x0 := rfl
    rw [this, d0]
  · have hr := rep_iff.1 h.hull.rep
    obtain ⟨r0, r1, r2, r3, r4⟩ := hr
    obtain ⟨s1, s2, s3, s4⟩ := hs
    have hx2 := abs_le.1 hxM
    refine ⟨?_, ?_, ?_, ?_, bump_posInc h.hull.pos (findK_le _ _), ?_, ⟨d1, d2, d3⟩⟩
    · show Rep R64 (findK b64 p.heights x).2
      rw [hk, rep_iff]
      refine ⟨?_, r1, r2, r3, ?_⟩
      · rcases min_choice p.heights.x0 x with h | h <;> simp only [h] <;> assumption
      · rcases max_choice p.heights.x4 x with h | h <;> simp only [h] <;> assumption
    · show ((findK b64 p.heights x).2).Sorted
      rw [hk]
      exact ⟨(min_le_left _ _).trans s1, s2, s3, s4.trans (le_max_left _ _)⟩
    · show _ ≤ ((findK b64 p.heights x).2).x0
      rw [hk]
      exact le_min (h.hull.range _ (by simp [Five.toList])).1 hx2.1
    · show ((findK b64 p.heights x).2).x4 ≤ _
      rw [hk]
      exact max_le (h.hull.range _ (by simp [Five.toList])).2 hx2.2
    · show (bump p.pos _).x4 ≤ _
      unfold bump intMax at *
      simp only
      split_ifs <;> omega

/-- `update` on doubles is `update` in `b64`. -/
theorem Fit.update {M : ℤ} (hM0 : 0 ≤ M) (hM : M ≤ 980) {p : P2 ℚ} (h : Fit M p) {x : ℚ} (hx : rnd64 x = x)
    (hxM : |x| ≤ pow2 M) :
    p.dbl.update Dbl.arith (.fin x) = (do let p' ← p.update b64 x; .ok p'.dbl) ∧
    ∀ p', p.update b64 x = .ok p' → Fit M p' := by
  have hpos : PosInc p.dbl.pos := h.hull.pos
  have hx2 := abs_le.1 hxM
  constructor
  · rw [update_eq hpos, update_eq h.hull.pos]
    show (if p.historyCount < 5 then _ else if intMax ≤ p.pos.x4 then _ else _) = _
    split
    · rw [updateFirst_dbl h.hull.q0 h.hull.q1]; rfl
    · rename_i h5
      split
      · rfl
      · rename_i ht
        obtain ⟨e1, e2⟩ := h.start hx hxM (by omega) (by omega)
        rw [updateLater_eq, e1, e2.finish hM0 hM]
        rfl
  · intro p' hu
    have hh := h.hull.update hx hx2.1 hx2.2 hu
    rw [update_eq h.hull.pos] at hu
    have h1 := h.top
    have h2 := h.count
    split at hu
    · rename_i hn
      injection hu with hu
      obtain ⟨f1, f2, f3⟩ := updateFirst_frame (A := b64) p x
      rw [hu] at f1 f2 f3
      obtain ⟨k0, k1, k2, k3, k4⟩ := h.hull.pos
      exact ⟨hh, f3 ▸ h.top, by rw [f1, f3]; push_cast; omega⟩
    · split at hu
      · cases hu
      · injection hu with hu
        obtain ⟨f1, f2, f3, -⟩ := updateLater_frame (A := b64) p x
        rw [hu] at f1 f2 f3
        exact ⟨hh, by omega, by rw [f1, f3]; push_cast; omega⟩

theorem evalIndex_dbl {p : P2 ℚ} (q0 : 0 < p.quantile) (q1 : p.quantile < 1) (hn : p.historyCount ≤ 5) :
    evalIndex Dbl.arith p.dbl = evalIndex b64 p := by
  have iq : Dbl.Is (.fin p.quantile) p.quantile 0 := ⟨rfl, by rw [pow2_zero, abs_le]; constructor <;> linarith⟩
  have ic : Dbl.Is (Dbl.arith.ofNat p.historyCount) (b64.ofNat p.historyCount) 31 :=
    Dbl.Is.ofInt (k := 31) (by norm_num) (by rw [abs_of_nonneg (by positivity)]; omega)
  have i1 : Dbl.Is (Dbl.arith.lit 1) (b64.lit 1) 31 :=
    (Dbl.Is.lit (k := 0) (by norm_num) (by norm_num) (by rw [pow2_zero]; norm_num)).mono (by norm_num)
  have m := ((ic.sub i1 (by norm_num) (by norm_num)).abs).mul iq (by norm_num) (by norm_num)
  unfold evalIndex
  have : p.dbl.historyCount = p.historyCount := rfl
  have h2 : p.dbl.quantile = .fin p.quantile := rfl
  rw [this, h2, m.eq, Dbl.round_fin]

/-- `evaluate` on doubles is `evaluate` in `b64`. -/
theorem evaluate_dbl {p : P2 ℚ} (q0 : 0 < p.quantile) (q1 : p.quantile < 1) :
    p.dbl.evaluate Dbl.arith = (do let (v, p') ← p.evaluate b64; .ok (.fin v, p'.dbl)) := by
  unfold evaluate
  have h1 : p.dbl.historyCount = p.historyCount := rfl
  have h2 : p.dbl.heights.sort Dbl.arith = (p.heights.sort b64).map .fin := Five.sort_fin _
  rw [h1]
  split
  · rename_i hn
    simp only [h2, evalIndex_dbl q0 q1 hn, Five.map_toList, List.getElem?_map]
    split
    · rfl
    · cases (p.heights.sort b64).toList[(evalIndex b64 p).toNat]? <;> rfl
  · rfl

theorem Fit.evaluate {M : ℤ} {p p' : P2 ℚ} (h : Fit M p) {v : ℚ} (he : p.evaluate b64 = .ok (v, p')) : Fit M p' := by
  obtain ⟨v', p'', h1, -, -, h2⟩ := h.hull.evaluate
  rw [← b64_eq, he] at h1
  injection h1 with h1
  injection h1 with h3 h4
  subst h4
  obtain ⟨e1, e2, e3⟩ := evaluate_frame he
  exact ⟨h2, e1 ▸ h.top, by rw [e1, e2]; exact h.count⟩

theorem Fit.clear {M : ℤ} {p : P2 ℚ} (h : Fit M p) : Fit M p.clear := by
  obtain ⟨k0, k1, k2, k3, k4⟩ := h.hull.pos
  refine ⟨h.hull.clear, h.top, ?_⟩
  show ((0 : ℕ) : ℤ) ≤ p.pos.x4 + 1
  omega

theorem new_dbl {q : ℚ} {p : P2 ℚ} (h : P2.new b64 q = .ok p) {M : ℤ} :
    P2.new Dbl.arith (.fin q) = .ok p.dbl ∧ Fit M p := by
  have l0 : Dbl.arith.lit 0 = .fin 0 := by simpa using lit_fin 0 (by norm_num)
  have l1 : Dbl.arith.lit 1 = .fin 1 := by simpa using lit_fin 1 (by norm_num)
  have b0 : b64.lit 0 = 0 := by simpa using lit_b64 0 (by norm_num)
  have b1 : b64.lit 1 = 1 := by simpa using lit_b64 1 (by norm_num)
  have hp := pow2_pos M
  have hh : Hull R64 (-pow2 M) (pow2 M) p := Hull.new (R := R64) h (by linarith) hp.le
  have e := new_eq_ok h
  constructor
  · unfold new at h ⊢
    rw [l0, l1, Dbl.le_fin, Dbl.le_fin]
    rw [b0, b1] at h
    split at h
    · cases h
    · rename_i hc
      rw [if_neg hc]
      injection h with h
      subst h; rfl
  · refine ⟨hh, ?_, ?_⟩
    · rw [e]; norm_num [intMax]
    · rw [e]; norm_num

end P2

end KML
