import Verif.Lemmas.HistSim
import Verif.Lemmas.Double

/-!
# Running a histogram of doubles in the kernel

Observations that are multiples of `2^-53` in [0, 1): the comparisons a histogram makes in binary64 are decided by comparing
natural numbers, except in rare cases in which the product with the tolerance might round up to the difference; the
functions below then give up. While the window is not full the counts have no influence, so that only the edges are kept.
-/

namespace KML

/-- The histogram after the stream, if every observation is placed among the first `numBins` bins. -/
def Hist.placedBelow {F : Type} (A : Arith F) : Hist F → List F → Option (Hist F)
  | h, [] => some h
  | h, x :: xs => match h.binSearch A x with
    | .ok i => if i < h.numBins then
        match h.update A x with
        | .ok h' => Hist.placedBelow A h' xs
        | _ => none
      else none
    | _ => none

end KML

namespace KML.Fast

open Utils

/-- `n / 2^53`. -/
def val (n : ℕ) : ℚ := (n : ℚ) / 2 ^ 53

/-- `definitelyLessThan` of `a / 2^53` and `b / 2^53` with tolerance `m / 2^k`, or `none` if that is not clear. -/
def less (m k a b : ℕ) : Option Bool :=
  if b ≤ a then some false
  else if b * m ≤ (b - a - 1) * 2 ^ k then some true
  else if (b - a) * 2 ^ k ≤ b * m then some false
  else none

theorem val_rnd {n : ℕ} (h : n ≤ 2 ^ 53) : rnd64 (val n) = val n := by
  have h1 := rnd64_repr n (-53) (by simpa using (by exact_mod_cast h : (n : ℤ) ≤ 2 ^ 53)) (by norm_num)
  have h2 : ((n : ℤ) : ℚ) * pow2 (-53) = val n := by
    have : pow2 (-53) = 1 / 2 ^ 53 := by rw [pow2_eq]; norm_num
    rw [this, val]; push_cast; ring
  rwa [h2] at h1

theorem val_sub {a b : ℕ} (h : a ≤ b) (hb : b ≤ 2 ^ 53) : rnd64 (val b - val a) = val (b - a) := by
  have : val b - val a = val (b - a) := by
    unfold val; rw [Nat.cast_sub h]; ring
  rw [this, val_rnd (by omega)]

theorem val_nonneg (n : ℕ) : 0 ≤ val n := by unfold val; positivity

theorem val_lt {a b : ℕ} : val a < val b ↔ a < b := by
  unfold val
  rw [div_lt_div_iff_of_pos_right (by positivity)]
  exact Nat.cast_lt

theorem larger_val (a b : ℕ) : larger b64 (val a) (val b) = val (max a b) := by
  unfold larger
  show (if decide (|val a| < |val b|) = true then |val b| else |val a|) = _
  rw [abs_of_nonneg (val_nonneg a), abs_of_nonneg (val_nonneg b)]
  by_cases h : a < b
  · rw [if_pos (by simpa using val_lt.2 h), max_eq_right h.le]
  · rw [if_neg (by simpa using fun k => h (val_lt.1 k)), max_eq_left (by omega)]

theorem less_sound {m k a b : ℕ} {v : Bool} (ha : a ≤ 2 ^ 53) (hb : b ≤ 2 ^ 53) (h : less m k a b = some v) :
    decide (rnd64 (val (max a b) * ((m : ℚ) / 2 ^ k)) < rnd64 (val b - val a)) = v := by
  have hm : (0 : ℚ) ≤ (m : ℚ) / 2 ^ k := by positivity
  have h0 : 0 ≤ rnd64 (val (max a b) * ((m : ℚ) / 2 ^ k)) := rnd64_nonneg (mul_nonneg (val_nonneg _) hm)
  unfold less at h
  split at h
  · rename_i hle
    injection h with h
    subst h
    have : rnd64 (val b - val a) ≤ 0 := by
      have h1 : val b - val a = -(val a - val b) := by ring
      rw [h1, rnd64_neg, val_sub hle ha]
      have := val_nonneg (a - b)
      linarith
    exact decide_eq_false (by linarith)
  rename_i hlt
  have hab : a < b := by omega
  rw [max_eq_right hab.le, val_sub hab.le hb]
  split at h
  · rename_i hc
    injection h with h
    subst h
    have : val b * ((m : ℚ) / 2 ^ k) ≤ val (b - a - 1) := by
      unfold val
      have hc : (b : ℚ) * m ≤ ((b - a - 1 : ℕ) : ℚ) * 2 ^ k := by exact_mod_cast hc
      rw [div_mul_div_comm, div_le_div_iff₀ (by positivity) (by positivity)]
      calc (b : ℚ) * m * 2 ^ 53 ≤ (((b - a - 1 : ℕ) : ℚ) * 2 ^ k) * 2 ^ 53 :=
            mul_le_mul_of_nonneg_right hc (by positivity)
        _ = _ := by ring
    have := rnd64_mono this
    rw [val_rnd (by omega)] at this
    exact decide_eq_true (lt_of_le_of_lt this (val_lt.2 (by omega)))
  split at h
  · rename_i hc
    injection h with h
    subst h
    have : val (b - a) ≤ val b * ((m : ℚ) / 2 ^ k) := by
      unfold val
      have hc : ((b - a : ℕ) : ℚ) * 2 ^ k ≤ (b : ℚ) * m := by exact_mod_cast hc
      rw [div_mul_div_comm, div_le_div_iff₀ (by positivity) (by positivity)]
      calc ((b - a : ℕ) : ℚ) * (2 ^ 53 * 2 ^ k) = ((b - a : ℕ) : ℚ) * 2 ^ k * 2 ^ 53 := by ring
        _ ≤ _ := mul_le_mul_of_nonneg_right hc (by positivity)
    have := rnd64_mono this
    rw [val_rnd (by omega)] at this
    exact decide_eq_false (not_lt.2 this)
  · cases h

/-- The tolerances as fractions. -/
theorem eps_eq : defaultEps b64 = ((7378697629483821 : ℕ) : ℚ) / 2 ^ 66 ∧
    plusEps b64 = ((4722366482869645 : ℕ) : ℚ) / 2 ^ 72 := by decide +kernel

/-- The comparison of `IBin::operator<` and of `merge`. -/
def lessD (a b : ℕ) : Option Bool := less 7378697629483821 66 a b

/-- The comparison of `IBin::operator+`. -/
def lessP (a b : ℕ) : Option Bool := less 4722366482869645 72 a b

theorem lessD_sound {a b : ℕ} {v : Bool} (ha : a ≤ 2 ^ 53) (hb : b ≤ 2 ^ 53) (h : lessD a b = some v) :
    definitelyLessThan b64 (val a) (val b) (defaultEps b64) = v := by
  unfold definitelyLessThan
  rw [larger_val, eps_eq.1]
  exact less_sound ha hb h

theorem lessP_sound {a b : ℕ} {v : Bool} (ha : a ≤ 2 ^ 53) (hb : b ≤ 2 ^ 53) (h : lessP a b = some v) :
    definitelyLessThan b64 (val a) (val b) (plusEps b64) = v ∧
      definitelyGreaterThan b64 (val b) (val a) (plusEps b64) = v := by
  unfold definitelyLessThan definitelyGreaterThan
  rw [larger_val, larger_val, eps_eq.2, max_comm b a]
  exact ⟨less_sound ha hb h, less_sound ha hb h⟩

/-- The edges of the bins: numerators of the left and the right edge. -/
abbrev Edge := ℕ × ℕ

/-- The bins have these edges. -/
def Rel (bins : List (Bin ℚ)) (l : List Edge) : Prop :=
  bins.map (fun b => (b.left, b.right)) = l.map (fun e => (val e.1, val e.2))

/-- All edges are at most 1. -/
def Small (l : List Edge) : Prop := ∀ e ∈ l, e.1 ≤ 2 ^ 53 ∧ e.2 ≤ 2 ^ 53

theorem Rel.length {bins : List (Bin ℚ)} {l : List Edge} (h : Rel bins l) : bins.length = l.length := by
  simpa using congrArg List.length h

theorem Rel.get {bins : List (Bin ℚ)} {l : List Edge} (h : Rel bins l) (i : ℕ) :
    (l[i]? = none ∧ bins[i]? = none) ∨
      ∃ e b, l[i]? = some e ∧ bins[i]? = some b ∧ b.left = val e.1 ∧ b.right = val e.2 := by
  have := congrArg (fun t => t[i]?) h
  simp only [List.getElem?_map] at this
  cases hb : bins[i]? with
  | none =>
    rw [hb] at this
    cases hl : l[i]? with
    | none => exact .inl ⟨rfl, rfl⟩
    | some e => rw [hl] at this; cases this
  | some b =>
    rw [hb] at this
    cases hl : l[i]? with
    | none => rw [hl] at this; cases this
    | some e =>
      rw [hl] at this
      simp only [Option.map_some] at this
      injection this with this
      injection this with h1 h2
      exact .inr ⟨e, b, rfl, rfl, h1, h2⟩

/-- `Hist.searchLoop`. -/
def search (l : List Edge) (x : ℕ) : (fuel low high index : ℕ) → Option ℕ
  | 0, low, high, index => if low < high then none else some index
  | fuel + 1, low, high, index =>
    if low < high then
      match l[index]? with
      | none => none
      | some e => match lessD e.1 x with
        | none => none
        | some true => search l x fuel (index + 1) high ((index + 1 + high) / 2)
        | some false => search l x fuel low index ((low + index) / 2)
    else some index

theorem search_sound {bins : List (Bin ℚ)} {l : List Edge} (h : Rel bins l) (hs : Small l) {x : ℕ} (hx : x ≤ 2 ^ 53)
    (c : Bin ℚ) (hc : c.left = val x) {i : ℕ} :
    ∀ {fuel low high index : ℕ}, search l x fuel low high index = some i →
      Hist.searchLoop b64 bins c fuel low high index = .ok i := by
  intro fuel
  induction fuel with
  | zero =>
    intro low high index hf
    unfold search at hf
    unfold Hist.searchLoop
    split at hf
    · cases hf
    · rename_i hlt
      rw [if_neg hlt]
      injection hf with hf
      rw [hf]
  | succ n ih =>
    intro low high index hf
    unfold search at hf
    unfold Hist.searchLoop
    by_cases hlt : low < high
    · rw [if_pos hlt] at hf ⊢
      rcases h.get index with ⟨h1, h2⟩ | ⟨e, b, h1, h2, h3, -⟩
      · rw [h1] at hf; cases hf
      · rw [h1] at hf
        rw [h2]
        simp only at hf ⊢
        have he := hs e (List.mem_of_getElem? h1)
        cases hv : lessD e.1 x with
        | none => rw [hv] at hf; cases hf
        | some v =>
          rw [hv] at hf
          have := lessD_sound he.1 hx hv
          unfold Bin.lt
          rw [h3, hc, this]
          cases v
          · exact ih hf
          · exact ih hf
    · rw [if_neg hlt] at hf ⊢
      injection hf with hf
      rw [hf]

/-- `d / 2^53`, for differences. -/
def zval (d : ℤ) : ℚ := (d : ℚ) / 2 ^ 53

/-- `definitelyLessThan` of two differences. -/
def lessZ (a b : ℤ) : Option Bool :=
  if b ≤ a then some false
  else
    let d := (b - a).toNat
    let m := max a.natAbs b.natAbs
    if 2 ^ 53 < d then none
    else if m * 7378697629483821 ≤ (d - 1) * 2 ^ 66 then some true
    else if d * 2 ^ 66 ≤ m * 7378697629483821 then some false
    else none

theorem zval_rnd {d : ℤ} (h : |d| ≤ 2 ^ 53) : rnd64 (zval d) = zval d := by
  have h1 := rnd64_repr d (-53) h (by norm_num)
  have h2 : (d : ℚ) * pow2 (-53) = zval d := by
    have : pow2 (-53) = 1 / 2 ^ 53 := by rw [pow2_eq]; norm_num
    rw [this, zval]; ring
  rwa [h2] at h1

theorem abs_zval (d : ℤ) : |zval d| = val d.natAbs := by
  unfold zval val
  rw [abs_div, abs_of_pos (by positivity : (0 : ℚ) < 2 ^ 53), Nat.cast_natAbs, Int.cast_abs]

theorem larger_zval (a b : ℤ) : larger b64 (zval a) (zval b) = val (max a.natAbs b.natAbs) := by
  unfold larger
  show (if decide (|zval a| < |zval b|) = true then |zval b| else |zval a|) = _
  rw [abs_zval, abs_zval]
  by_cases h : a.natAbs < b.natAbs
  · rw [if_pos (by simpa using val_lt.2 h), max_eq_right h.le]
  · rw [if_neg (by simpa using fun k => h (val_lt.1 k)), max_eq_left (by omega)]

theorem lessZ_sound {a b : ℤ} {v : Bool} (h : lessZ a b = some v) :
    definitelyLessThan b64 (zval a) (zval b) (defaultEps b64) = v := by
  unfold definitelyLessThan
  rw [larger_zval, eps_eq.1]
  show decide (rnd64 (val (max a.natAbs b.natAbs) * (((7378697629483821 : ℕ) : ℚ) / 2 ^ 66)) < rnd64 (zval b - zval a)) = v
  unfold lessZ at h
  by_cases hle : b ≤ a
  · rw [if_pos hle] at h
    injection h with h
    subst h
    have h1 : rnd64 (zval b - zval a) ≤ 0 := by
      have : zval b - zval a ≤ 0 := by
        unfold zval
        have : (b : ℚ) ≤ a := by exact_mod_cast hle
        have := div_le_div_of_nonneg_right this (by positivity : (0 : ℚ) ≤ 2 ^ 53)
        linarith
      have := rnd64_mono this
      rwa [rnd64_zero] at this
    have h2 : 0 ≤ rnd64 (val (max a.natAbs b.natAbs) * (((7378697629483821 : ℕ) : ℚ) / 2 ^ 66)) :=
      rnd64_nonneg (mul_nonneg (val_nonneg _) (by positivity))
    exact decide_eq_false (by linarith)
  rw [if_neg hle] at h
  have hsub : zval b - zval a = val (b - a).toNat := by
    unfold zval val
    have : (((b - a).toNat : ℕ) : ℚ) = ((b - a : ℤ) : ℚ) := by
      have h1 : (((b - a).toNat : ℕ) : ℤ) = b - a := Int.toNat_of_nonneg (by omega)
      exact_mod_cast congrArg (fun t : ℤ => (t : ℚ)) h1
    rw [this]
    push_cast
    ring
  have hpos : 0 < (b - a).toNat := by omega
  rw [hsub]
  generalize (b - a).toNat = d at *
  generalize max a.natAbs b.natAbs = m at *
  simp only at h
  by_cases hd : 2 ^ 53 < d
  · rw [if_pos hd] at h; cases h
  rw [if_neg hd] at h
  rw [val_rnd (by omega)]
  split at h
  · rename_i hc
    injection h with h
    subst h
    have : val m * (((7378697629483821 : ℕ) : ℚ) / 2 ^ 66) ≤ val (d - 1) := by
      unfold val
      have hc : (m : ℚ) * ((7378697629483821 : ℕ) : ℚ) ≤ ((d - 1 : ℕ) : ℚ) * 2 ^ 66 := by exact_mod_cast hc
      rw [div_mul_div_comm, div_le_div_iff₀ (by positivity) (by positivity)]
      calc (m : ℚ) * ((7378697629483821 : ℕ) : ℚ) * 2 ^ 53 ≤ (((d - 1 : ℕ) : ℚ) * 2 ^ 66) * 2 ^ 53 :=
            mul_le_mul_of_nonneg_right hc (by positivity)
        _ = _ := by ring
    have := rnd64_mono this
    rw [val_rnd (by omega)] at this
    exact decide_eq_true (lt_of_le_of_lt this (val_lt.2 (by omega)))
  split at h
  · rename_i hc
    injection h with h
    subst h
    have : val d ≤ val m * (((7378697629483821 : ℕ) : ℚ) / 2 ^ 66) := by
      unfold val
      have hc : (d : ℚ) * 2 ^ 66 ≤ (m : ℚ) * ((7378697629483821 : ℕ) : ℚ) := by exact_mod_cast hc
      rw [div_mul_div_comm, div_le_div_iff₀ (by positivity) (by positivity)]
      calc (d : ℚ) * (2 ^ 53 * 2 ^ 66) = (d : ℚ) * 2 ^ 66 * 2 ^ 53 := by ring
        _ ≤ _ := mul_le_mul_of_nonneg_right hc (by positivity)
    have := rnd64_mono this
    rw [val_rnd (by omega)] at this
    exact decide_eq_false (not_lt.2 this)
  · cases h

/-- `Hist.mergeLoop`; no least difference yet at first. -/
def mergeLoop : List Edge → (i : ℕ) → (minDiff : Option ℤ) → (minIndex : ℕ) → Option ℕ
  | a :: b :: rest, i, minDiff, minIndex =>
    let diff := Int.subNatNat b.2 a.2
    match minDiff with
    | none => mergeLoop (b :: rest) (i + 1) (some diff) i
    | some m => match lessZ diff m with
      | none => none
      | some true => mergeLoop (b :: rest) (i + 1) (some diff) i
      | some false => mergeLoop (b :: rest) (i + 1) (some m) minIndex
  | _, _, _, minIndex => some minIndex

theorem less_max {d : ℤ} (hd : |d| ≤ 2 ^ 53) :
    definitelyLessThan b64 (zval d) (b64.lit dblMax) (defaultEps b64) = true := by
  have hz : |zval d| ≤ 1 := by
    unfold zval
    rw [abs_div, abs_of_pos (by positivity : (0 : ℚ) < 2 ^ 53), div_le_one (by positivity)]
    exact_mod_cast hd
  have hl : b64.lit dblMax = dblMax := by decide +kernel
  have h1 : (1 : ℚ) < dblMax := by decide +kernel
  have e1 : larger b64 (zval d) dblMax = dblMax := by
    unfold larger
    show (if decide (|zval d| < |dblMax|) = true then |dblMax| else |zval d|) = _
    rw [abs_of_nonneg (show (0 : ℚ) ≤ dblMax by linarith)]
    rw [if_pos]
    simpa using lt_of_le_of_lt hz h1
  unfold definitelyLessThan
  rw [hl, e1]
  show decide (rnd64 (dblMax * defaultEps b64) < rnd64 (dblMax - zval d)) = true
  have h2 : rnd64 (dblMax - 1) ≤ rnd64 (dblMax - zval d) := rnd64_mono (by linarith [(abs_le.1 hz).2])
  have h3 : rnd64 (dblMax * defaultEps b64) < rnd64 (dblMax - 1) := by decide +kernel
  exact decide_eq_true (lt_of_lt_of_le h3 h2)

theorem mergeLoop_sound {k : ℕ} : ∀ {l : List Edge} {bins : List (Bin ℚ)}, Rel bins l → Small l →
    ∀ {i : ℕ} {m : Option ℤ} {mi : ℕ}, mergeLoop l i m mi = some k →
      Hist.mergeLoop b64 bins i (m.elim (b64.lit dblMax) zval) mi = k := by
  intro l
  induction l with
  | nil =>
    intro bins h hs i m mi hf
    have : bins = [] := by simpa using h.length
    subst this
    unfold mergeLoop at hf
    injection hf
  | cons a l ih =>
    intro bins h hs i m mi hf
    rcases bins with _ | ⟨ba, bins⟩
    · have := h.length; simp at this
    rcases l with _ | ⟨b, l⟩
    · have : bins = [] := by simpa using h.length
      subst this
      unfold mergeLoop at hf
      injection hf
    rcases bins with _ | ⟨bb, bins⟩
    · have := h.length; simp at this
    have h' : Rel (bb :: bins) (b :: l) := by
      have := congrArg List.tail h
      exact this
    have ha : ba.right = val a.2 := by
      have := congrArg List.head? h
      simp only [List.map_cons, List.head?_cons] at this
      injection this with this
      injection this
    have hb : bb.right = val b.2 := by
      have := congrArg List.head? h'
      simp only [List.map_cons, List.head?_cons] at this
      injection this with this
      injection this
    have hs' : Small (b :: l) := fun e he => hs e (List.mem_cons_of_mem _ he)
    have hb2 := (hs' b List.mem_cons_self).2
    have ha2 := (hs a List.mem_cons_self).2
    unfold mergeLoop at hf
    unfold Hist.mergeLoop
    simp only [Int.subNatNat_eq_coe] at hf
    have hd53 : |(b.2 : ℤ) - a.2| ≤ 2 ^ 53 := by rw [abs_le]; omega
    have hd : b64.sub bb.right ba.right = zval ((b.2 : ℤ) - a.2) := by
      rw [ha, hb]
      show rnd64 (val b.2 - val a.2) = _
      rw [← zval_rnd hd53]
      congr 1
      unfold val zval
      push_cast
      ring
    generalize (b.2 : ℤ) - a.2 = diff at *
    simp only [hd]
    cases m with
    | none =>
      simp only at hf
      simp only [Option.elim_none, less_max hd53, if_true]
      exact ih h' hs' (m := some diff) hf
    | some m =>
      simp only at hf
      cases hv : lessZ diff m with
      | none => rw [hv] at hf; cases hf
      | some v =>
        rw [hv] at hf
        have := lessZ_sound hv
        simp only [Option.elim_some, this]
        cases v
        · exact ih h' hs' (m := some m) hf
        · exact ih h' hs' (m := some diff) hf

/-- `Bin.add`. -/
def add (x y : Edge) : Option Edge :=
  match lessP y.1 x.1, lessP x.2 y.2 with
  | some u, some v => some (if u then y.1 else x.1, if v then y.2 else x.2)
  | _, _ => none

/-- `Hist.mergeBins`. -/
def mergeBins (l : List Edge) (i : ℕ) : Option (List Edge) :=
  match l[i + 1]? with
  | none => none
  | some r =>
    match (l.eraseIdx (i + 1))[i]? with
    | none => none
    | some a => match add a r with
      | none => none
      | some e => some ((l.eraseIdx (i + 1)).set i e)

theorem mergeBins_sound {bins : List (Bin ℚ)} {l l' : List Edge} (h : Rel bins l) (hs : Small l) {i : ℕ}
    (hf : mergeBins l i = some l') :
    ∃ bins', Hist.mergeBins b64 bins i (i + 1) = .ok bins' ∧ Rel bins' l' ∧ Small l' := by
  unfold mergeBins at hf
  unfold Hist.mergeBins
  rcases h.get (i + 1) with ⟨h1, -⟩ | ⟨r, br, h1, h2, h3, h4⟩
  · rw [h1] at hf; cases hf
  rw [h1] at hf
  rw [h2]
  simp only at hf ⊢
  have he : Rel (bins.eraseIdx (i + 1)) (l.eraseIdx (i + 1)) := by
    unfold Rel
    rw [← List.eraseIdx_map, ← List.eraseIdx_map, h]
  have hse : Small (l.eraseIdx (i + 1)) := fun e hm => hs e (List.mem_of_mem_eraseIdx hm)
  rcases he.get i with ⟨k1, -⟩ | ⟨a, ba, k1, k2, k3, k4⟩
  · rw [k1] at hf; cases hf
  rw [k1] at hf
  rw [k2]
  simp only at hf ⊢
  have sr := hs r (List.mem_of_getElem? h1)
  have sa := hse a (List.mem_of_getElem? k1)
  unfold add at hf
  cases hu : lessP r.1 a.1 with
  | none => rw [hu] at hf; cases hf
  | some u =>
    cases hv : lessP a.2 r.2 with
    | none => rw [hu, hv] at hf; cases hf
    | some v =>
      rw [hu, hv] at hf
      simp only at hf
      injection hf with hf
      subst hf
      have e1 := (lessP_sound sr.1 sa.1 hu).1
      have e2 := (lessP_sound sa.2 sr.2 hv).2
      refine ⟨_, rfl, ?_, ?_⟩
      · unfold Rel
        rw [List.map_set, List.map_set, he]
        congr 1
        unfold Bin.add
        rw [h3, h4, k3, k4, e1, e2]
        cases u <;> cases v <;> rfl
      · intro e hm
        rcases List.mem_or_eq_of_mem_set hm with hm | rfl
        · exact hse e hm
        · cases u <;> cases v
          exacts [⟨sa.1, sa.2⟩, ⟨sa.1, sr.2⟩, ⟨sr.1, sa.2⟩, ⟨sr.1, sr.2⟩]

/-- The part of `Hist.add` that places the item. -/
def place (l : List Edge) (x i : ℕ) : Option (List Edge) :=
  if i = l.length then some (l ++ [(x, x)])
  else match l[i]? with
    | none => none
    | some e => if e.1 ≤ x then some l else some (l.insertIdx i (x, x))

/-- One update, if the item is placed before bin number `numBins`. -/
def step (numBins : ℕ) (l : List Edge) (x : ℕ) : Option (List Edge) :=
  match search l x l.length 0 l.length ((0 + l.length) / 2) with
  | none => none
  | some i =>
    if i < numBins then
      match place l x i with
      | none => none
      | some l1 =>
        if l1.length > numBins then
          match mergeLoop l1 0 none l1.length with
          | none => none
          | some j => mergeBins l1 j
        else some l1
    else none

/-- All updates. -/
def run (numBins : ℕ) : List Edge → List ℕ → Option (List Edge)
  | l, [] => some l
  | l, x :: xs => match step numBins l x with
    | none => none
    | some l' => run numBins l' xs

/-- The histogram has these edges, has room in its window, and no bins only if it is empty. -/
structure Follows (h : Hist ℚ) (l : List Edge) (numBins room : ℕ) : Prop where
  rel : Rel h.bins l
  small : Small l
  bins : h.numBins = numBins
  room : h.total + room ≤ h.windowSize
  empty : h.total = 0 → h.bins = []

theorem search_hist {h : Hist ℚ} {l : List Edge} {numBins room x i : ℕ} (hf : Follows h l numBins room) (hx : x ≤ 2 ^ 53)
    (hs : search l x l.length 0 l.length ((0 + l.length) / 2) = some i) : h.binSearch b64 (val x) = .ok i := by
  unfold Hist.binSearch Hist.binSearchBin
  rw [hf.rel.length]
  exact search_sound hf.rel hf.small hx _ rfl hs

theorem step_sound {h : Hist ℚ} {l l' : List Edge} {numBins room x : ℕ} (hf : Follows h l numBins (room + 1)) (hx : x ≤ 2 ^ 53)
    (hs : step numBins l x = some l') :
    ∃ i h', h.binSearch b64 (val x) = .ok i ∧ i < h.numBins ∧ h.update b64 (val x) = .ok h' ∧ Follows h' l' numBins room := by
  unfold step at hs
  cases hi : search l x l.length 0 l.length ((0 + l.length) / 2) with
  | none => rw [hi] at hs; cases hs
  | some i =>
  rw [hi] at hs
  simp only at hs
  have hi := search_hist hf hx hi
  by_cases hlt : i < numBins
  swap
  · rw [if_neg hlt] at hs; cases hs
  rw [if_pos hlt] at hs
  cases hp : place l x i with
  | none => rw [hp] at hs; cases hs
  | some l1 =>
  rw [hp] at hs
  simp only at hs
  have hplace : ∃ h1, h.place b64 (val x) i = .ok h1 ∧ Rel h1.bins l1 ∧ Small l1 ∧ h1.numBins = h.numBins ∧
      h1.windowSize = h.windowSize ∧ h1.total = h.total ∧ h1.bins ≠ [] := by
    have happ : Rel (h.bins ++ [⟨val x, val x, 1⟩]) (l ++ [(x, x)]) := by
      unfold Rel
      rw [List.map_append, List.map_append, hf.rel]
      rfl
    have hsapp : Small (l ++ [(x, x)]) := by
      intro e he
      rcases List.mem_append.1 he with he | he
      · exact hf.small e he
      · rw [List.mem_singleton.1 he]; exact ⟨hx, hx⟩
    have hlen := hf.rel.length
    unfold place at hp
    unfold Hist.place
    by_cases h0 : h.total = 0
    · have hb := hf.empty h0
      have hl : l = [] := by rw [hb] at hlen; simpa using hlen.symm
      have hi0 : i = l.length := by
        rw [hl]
        have : h.binSearch b64 (val x) = .ok 0 := by
          unfold Hist.binSearch Hist.binSearchBin
          rw [hb]
          rfl
        rw [this] at hi
        injection hi with hi
        exact hi.symm
      rw [if_pos hi0] at hp
      injection hp with hp
      subst hp
      exact ⟨_, if_pos h0, happ, hsapp, rfl, rfl, rfl, by simp⟩
    · by_cases h1 : i = l.length
      · rw [if_pos h1] at hp
        injection hp with hp
        subst hp
        rw [if_neg h0, if_pos (h1.trans hlen.symm)]
        exact ⟨_, rfl, happ, hsapp, rfl, rfl, rfl, by simp⟩
      · rw [if_neg h1] at hp
        simp only [h0, if_false, if_neg (fun k => h1 (k.trans hlen) : ¬ i = h.bins.length)]
        rcases hf.rel.get i with ⟨k1, -⟩ | ⟨e, b, k1, k2, k3, -⟩
        · rw [k1] at hp; cases hp
        rw [k1] at hp
        rw [k2]
        simp only at hp ⊢
        have hle : b64.le b.left (val x) = decide (e.1 ≤ x) := by
          rw [k3]
          show decide (val e.1 ≤ val x) = _
          simp only [← not_lt, val_lt]
        rw [hle]
        by_cases hex : e.1 ≤ x
        · rw [if_pos hex] at hp
          injection hp with hp
          subst hp
          rw [if_pos (by simpa using hex)]
          refine ⟨_, rfl, ?_, hf.small, rfl, rfl, rfl, ?_⟩
          · unfold Rel
            rw [List.map_set]
            refine Eq.trans ?_ hf.rel
            refine List.ext_getElem? fun j => ?_
            rw [List.getElem?_set]
            split
            · rename_i hij
              subst hij
              split
              · rw [List.getElem?_map, k2]; rfl
              · rename_i hno
                rw [List.length_map] at hno
                exact absurd (List.getElem?_eq_some_iff.1 k2).1 hno
            · rfl
          · intro hnil
            have := congrArg List.length hnil
            simp only [List.length_set, List.length_nil] at this
            have := (List.getElem?_eq_some_iff.1 k2).1
            omega
        · rw [if_neg hex] at hp
          injection hp with hp
          subst hp
          rw [if_neg (by simpa using hex)]
          refine ⟨_, rfl, ?_, ?_, rfl, rfl, rfl, ?_⟩
          · unfold Rel
            simp only [List.map_insertIdx]
            rw [hf.rel]
          · intro e' he'
            rcases List.eq_or_mem_of_mem_insertIdx he' with rfl | he'
            · exact ⟨hx, hx⟩
            · exact hf.small e' he'
          · intro hnil
            have := congrArg List.length hnil
            have hib := (List.getElem?_eq_some_iff.1 k2).1
            simp only [List.length_insertIdx, List.length_nil] at this
            split at this <;> omega
  obtain ⟨h1, p1, p2, p3, p4, p5, p6, p7⟩ := hplace
  have hroom := hf.room
  have hadd : h.add b64 (val x) = 
      .ok ⟨h1.numBins, h1.windowSize, h1.bins, h1.window ++ [i], h1.total + 1, h1.historyCount + 1, h1.live⟩ := by
    unfold Hist.add
    rw [hi, Res.ok_bind, p1, Res.ok_bind]
    unfold Hist.decayCounts
    exact if_neg (by simp only; omega)
  refine ⟨i, ?_⟩
  unfold Hist.update
  rw [hadd, Res.ok_bind]
  simp only [p2.length, p4, hf.bins]
  by_cases hgt : l1.length > numBins
  · rw [if_pos hgt] at hs
    cases hj : mergeLoop l1 0 none l1.length with
    | none => rw [hj] at hs; cases hs
    | some j =>
      rw [hj] at hs
      simp only at hs
      have hm : Hist.mergeIndex b64 h1.bins = j := by
        unfold Hist.mergeIndex
        rw [p2.length]
        exact mergeLoop_sound p2 p3 (m := none) hj
      obtain ⟨bins', m1, m2, m3⟩ := mergeBins_sound p2 p3 hs
      rw [if_pos hgt, hm, m1, Res.ok_bind]
      exact ⟨_, hi, hlt, rfl, m2, m3, rfl, by simp only; omega, by simp only; omega⟩
  · rw [if_neg hgt] at hs ⊢
    injection hs with hs
    subst hs
    exact ⟨_, hi, hlt, rfl, p2, p3, rfl, by simp only; omega, by simp only; omega⟩

/-- The histogram on doubles follows the run. -/
theorem run_sound {numBins : ℕ} {xs : List ℕ} (hx : ∀ x ∈ xs, x ≤ 2 ^ 53) : ∀ {h : Hist ℚ} {l l' : List Edge} {room : ℕ},
    Follows h l numBins (room + xs.length) → run numBins l xs = some l' →
    ∃ h', h.placedBelow b64 (xs.map val) = some h' ∧ Follows h' l' numBins room := by
  induction xs with
  | nil =>
    intro h l l' room hf hr
    injection hr with hr
    subst hr
    exact ⟨h, rfl, hf⟩
  | cons x xs ih =>
    intro h l l' room hf hr
    unfold run at hr
    cases hs : step numBins l x with
    | none => rw [hs] at hr; cases hr
    | some l1 =>
      rw [hs] at hr
      obtain ⟨i, h1, k1, k2, k3, k4⟩ := step_sound (room := room + xs.length) (by simpa [Nat.add_assoc] using hf)
        (hx x List.mem_cons_self) hs
      obtain ⟨h', r1, r2⟩ := ih (fun y hy => hx y (List.mem_cons_of_mem _ hy)) k4 hr
      refine ⟨h', ?_, r2⟩
      rw [List.map_cons]
      unfold Hist.placedBelow
      rw [k1]
      simp only [if_pos k2, k3]
      exact r1

end KML.Fast
