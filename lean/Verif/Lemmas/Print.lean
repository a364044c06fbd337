import Verif.Model.Print
import Verif.Lemmas.Float
import Verif.Spec.Decimal
import Mathlib.Data.Nat.Digits.Lemmas
import Mathlib.Tactic.Linarith
import Mathlib.Tactic.Ring
import Mathlib.Tactic.FieldSimp
import Mathlib.Tactic.NormNum

/-! # Reading printed numbers back -/

namespace KML.Print

/-- A digit character. -/
def IsDig (c : Char) : Prop := c ∈ ['0', '1', '2', '3', '4', '5', '6', '7', '8', '9']

instance (c : Char) : Decidable (IsDig c) := by unfold IsDig; infer_instance

/-- If two texts agree and each splits into characters with `P` followed by one without, the parts
agree. -/
theorem split_unique (P : Char → Prop) {a b x y : List Char} (ha : ∀ c ∈ a, P c) (hb : ∀ c ∈ b, P c)
    (hx : ∀ c, x.head? = some c → ¬ P c) (hy : ∀ c, y.head? = some c → ¬ P c)
    (h : a ++ x = b ++ y) : a = b ∧ x = y := by
  induction a generalizing b with
  | nil =>
    cases b with
    | nil => exact ⟨rfl, h⟩
    | cons c b =>
      simp only [List.nil_append, List.cons_append] at h
      exact absurd (hb c (by simp)) (hx c (by rw [h]; rfl))
  | cons c a ih =>
    cases b with
    | nil =>
      simp only [List.nil_append, List.cons_append] at h
      exact absurd (ha c (by simp)) (hy c (by rw [← h]; rfl))
    | cons d b =>
      simp only [List.cons_append, List.cons.injEq] at h
      obtain ⟨h1, h2⟩ := ih (fun c hc => ha c (by simp [hc])) (fun c hc => hb c (by simp [hc])) h.2
      exact ⟨by rw [h.1, h1], h2⟩

theorem digitChar_isDig : ∀ d < 10, IsDig (Nat.digitChar d) := by decide

theorem digitChar_inj : ∀ d < 10, ∀ e < 10, Nat.digitChar d = Nat.digitChar e → d = e := by decide

theorem digitChar_zero : ∀ d < 10, Nat.digitChar d = '0' → d = 0 := by decide

theorem map_digitChar_inj : ∀ {a b : List ℕ}, (∀ d ∈ a, d < 10) → (∀ d ∈ b, d < 10) →
    a.map Nat.digitChar = b.map Nat.digitChar → a = b
  | [], [], _, _, _ => rfl
  | [], _ :: _, _, _, h => by simp at h
  | _ :: _, [], _, _, h => by simp at h
  | x :: a, y :: b, ha, hb, h => by
    simp only [List.map_cons, List.cons.injEq] at h
    rw [digitChar_inj x (ha x (by simp)) y (hb y (by simp)) h.1,
      map_digitChar_inj (fun d hd => ha d (by simp [hd])) (fun d hd => hb d (by simp [hd])) h.2]

theorem dec_isDig (n : ℕ) : ∀ c ∈ dec n, IsDig c := by
  intro c hc
  unfold dec at hc
  split at hc
  · simp at hc; subst hc; decide
  · simp only [List.mem_map, List.mem_reverse] at hc
    obtain ⟨d, hd, rfl⟩ := hc
    exact digitChar_isDig d (Nat.digits_lt_base (by norm_num) hd)

/-- A number other than zero starts with a digit other than zero. -/
theorem dec_head {n : ℕ} (hn : n ≠ 0) : ∃ c s, dec n = c :: s ∧ c ≠ '0' := by
  have hne : Nat.digits 10 n ≠ [] := Nat.digits_ne_nil_iff_ne_zero.mpr hn
  have hl := Nat.getLast_digit_ne_zero 10 hn
  have hlt : (Nat.digits 10 n).getLast hne < 10 :=
    Nat.digits_lt_base (by norm_num) (List.getLast_mem hne)
  refine ⟨Nat.digitChar ((Nat.digits 10 n).getLast hne),
    ((Nat.digits 10 n).dropLast.reverse).map Nat.digitChar, ?_, ?_⟩
  · unfold dec
    rw [if_neg hn]
    conv_lhs => rw [← List.dropLast_append_getLast hne]
    simp
  · exact fun h => hl (digitChar_zero _ hlt h)

theorem dec_inj {n m : ℕ} (h : dec n = dec m) : n = m := by
  by_cases hn : n = 0
  · by_cases hm : m = 0
    · rw [hn, hm]
    · obtain ⟨c, s, hc, hc0⟩ := dec_head hm
      rw [hn, hc] at h
      simp [dec] at h
      exact absurd h.1.symm hc0
  · by_cases hm : m = 0
    · obtain ⟨c, s, hc, hc0⟩ := dec_head hn
      rw [hm, hc] at h
      simp [dec] at h
      exact absurd h.1 hc0
    · unfold dec at h
      rw [if_neg hn, if_neg hm] at h
      have := map_digitChar_inj
        (fun d hd => Nat.digits_lt_base (by norm_num : 1 < 10) (List.mem_reverse.mp hd))
        (fun d hd => Nat.digits_lt_base (by norm_num : 1 < 10) (List.mem_reverse.mp hd)) h
      exact Nat.digits_inj_iff.mp (List.reverse_injective this)

theorem dec_length {m : ℕ} (h1 : 100000 ≤ m) (h2 : m < 1000000) : (dec m).length = 6 := by
  have hm : m ≠ 0 := by omega
  unfold dec
  rw [if_neg hm, List.length_map, List.length_reverse]
  apply le_antisymm
  · exact (Nat.digits_length_le_iff (by norm_num) m).mpr (by norm_num; exact h2)
  · exact (Nat.lt_digits_length_iff (by norm_num) m).mpr (by norm_num; exact h1)

theorem strip_append (s : List Char) :
    s = strip s ++ List.replicate (s.length - (strip s).length) '0' := by
  have h := List.takeWhile_append_dropWhile (p := fun c => decide (c = '0')) (l := s.reverse)
  have ht : s.reverse.takeWhile (fun c => decide (c = '0')) =
      List.replicate (s.reverse.takeWhile (fun c => decide (c = '0'))).length '0' := by
    rw [List.eq_replicate_iff]
    exact ⟨rfl, fun c hc => by simpa using List.all_eq_true.mp List.all_takeWhile c hc⟩
  have hl : s.length = (s.reverse.takeWhile (fun c => decide (c = '0'))).length + (strip s).length := by
    have := congrArg List.length h
    simp only [List.length_append, List.length_reverse] at this
    unfold strip
    rw [List.length_reverse]
    omega
  have e : s.length - (strip s).length = (s.reverse.takeWhile (fun c => decide (c = '0'))).length := by
    omega
  rw [e]
  have h' := congrArg List.reverse h
  rw [List.reverse_append, List.reverse_reverse, ht, List.reverse_replicate] at h'
  exact h'.symm

theorem strip_inj {s t : List Char} (hl : s.length = t.length) (h : strip s = strip t) : s = t := by
  rw [strip_append s, strip_append t, h, hl]

theorem strip_subset {s : List Char} : ∀ c ∈ strip s, c ∈ s := by
  intro c hc
  rw [strip_append s]
  exact List.mem_append_left _ hc

theorem strip_head {c : Char} {s : List Char} (hc : c ≠ '0') : ∃ t, strip (c :: s) = c :: t := by
  have h := strip_append (c :: s)
  cases hs : strip (c :: s) with
  | nil =>
    rw [hs] at h
    simp only [List.nil_append, List.length_nil, Nat.sub_zero, List.length_cons,
      List.replicate_succ, List.cons.injEq] at h
    exact absurd h.1 hc
  | cons d t =>
    rw [hs] at h
    simp only [List.cons_append, List.cons.injEq] at h
    exact ⟨t, by rw [← h.1]⟩

theorem frac_head (s : List Char) : ∀ c, (frac s).head? = some c → c = '.' := by
  intro c h
  unfold frac at h
  split at h
  · simp at h
  · simp at h; exact h.symm

theorem frac_inj {s t : List Char} (h : frac s = frac t) : s = t := by
  unfold frac at h
  split at h <;> split at h <;> simp_all

theorem frac_subset {s : List Char} : ∀ c ∈ frac s, c = '.' ∨ c ∈ s := by
  intro c hc
  unfold frac at hc
  split at hc
  · simp at hc
  · simpa using hc

/-- The digits and the place of the point are recovered from `ddd.ddd`. -/
theorem point_inj {D E : List Char} {k l : ℕ} (hD : ∀ c ∈ D, IsDig c) (hE : ∀ c ∈ E, IsDig c)
    (lD : D.length = 6) (lE : E.length = 6) (hk : k ≤ 6) (hl : l ≤ 6)
    (h : D.take k ++ frac (strip (D.drop k)) = E.take l ++ frac (strip (E.drop l))) :
    k = l ∧ D = E := by
  obtain ⟨h1, h2⟩ := split_unique IsDig (fun c hc => hD c (List.mem_of_mem_take hc))
    (fun c hc => hE c (List.mem_of_mem_take hc))
    (fun c hc => by rw [frac_head _ c hc]; decide) (fun c hc => by rw [frac_head _ c hc]; decide) h
  have hkl : k = l := by
    have := congrArg List.length h1
    simp only [List.length_take, lD, lE] at this
    omega
  subst hkl
  refine ⟨rfl, ?_⟩
  have h3 := strip_inj (by simp [lD, lE]) (frac_inj h2)
  rw [← List.take_append_drop k D, ← List.take_append_drop k E, h1, h3]

theorem expText_inj {e f : ℤ} (h : expText e = expText f) : e = f := by
  unfold expText at h
  simp only [List.cons.injEq] at h
  obtain ⟨hs, hd⟩ := h
  have hn : e.natAbs = f.natAbs := by
    by_cases he : e.natAbs < 10 <;> by_cases hf : f.natAbs < 10
    · rw [if_pos he, if_pos hf] at hd
      exact dec_inj (List.cons.inj hd).2
    · rw [if_pos he, if_neg hf] at hd
      obtain ⟨c, s, hc, hc0⟩ := dec_head (n := f.natAbs) (by omega)
      rw [hc] at hd
      exact absurd (List.cons.inj hd).1.symm hc0
    · rw [if_neg he, if_pos hf] at hd
      obtain ⟨c, s, hc, hc0⟩ := dec_head (n := e.natAbs) (by omega)
      rw [hc] at hd
      exact absurd (List.cons.inj hd).1 hc0
    · rw [if_neg he, if_neg hf] at hd
      exact dec_inj hd
  by_cases h1 : e < 0 <;> by_cases h2 : f < 0 <;> simp [h1, h2] at hs <;> omega

/-- The characters a number is made of. -/
def IsNum (c : Char) : Prop := IsDig c ∨ c = '.' ∨ c = '-' ∨ c = '+' ∨ c = 'e'

theorem expText_isNum (e : ℤ) : ∀ c ∈ expText e, IsNum c := by
  intro c hc
  unfold expText at hc
  rcases List.mem_cons.mp hc with h | h
  · split at h <;> subst h <;> simp [IsNum]
  · split at h
    · rcases List.mem_cons.mp h with h | h
      · subst h; left; decide
      · exact Or.inl (dec_isDig _ c h)
    · exact Or.inl (dec_isDig _ c h)

theorem point_chars (m k : ℕ) :
    ∀ c ∈ (dec m).take k ++ frac (strip ((dec m).drop k)), IsDig c ∨ c = '.' := by
  intro c hc
  rcases List.mem_append.mp hc with h | h
  · exact Or.inl (dec_isDig _ c (List.mem_of_mem_take h))
  · rcases frac_subset c h with h | h
    · exact Or.inr h
    · exact Or.inl (dec_isDig _ c (List.mem_of_mem_drop (strip_subset c h)))

theorem sixText_isNum (m : ℕ) (e : ℤ) : ∀ c ∈ sixText m e, IsNum c := by
  intro c hc
  unfold sixText at hc
  split at hc
  · rcases point_chars m _ c hc with h | h
    · exact Or.inl h
    · exact Or.inr (Or.inl h)
  · split at hc
    · rcases List.mem_cons.mp hc with h | hc
      · subst h; left; decide
      rcases List.mem_cons.mp hc with h | hc
      · subst h; right; left; rfl
      rcases List.mem_append.mp hc with h | h
      · rw [List.mem_replicate] at h
        obtain ⟨_, rfl⟩ := h
        left; decide
      · exact Or.inl (dec_isDig _ c (strip_subset c h))
    · rcases List.mem_append.mp hc with h | h
      · rcases point_chars m _ c h with h | h
        · exact Or.inl h
        · exact Or.inr (Or.inl h)
      · rcases List.mem_cons.mp h with h | h
        · subst h; simp [IsNum]
        · exact expText_isNum e c h

/-- Six digits and the exponent are recovered from the text. -/
theorem sixText_inj {m n : ℕ} {e f : ℤ} (hm : 100000 ≤ m) (hm' : m < 1000000) (hn : 100000 ≤ n)
    (hn' : n < 1000000) (h : sixText m e = sixText n f) : m = n ∧ e = f := by
  have lm := dec_length hm hm'
  have ln := dec_length hn hn'
  obtain ⟨cm, sm, em, zm⟩ := dec_head (n := m) (by omega)
  obtain ⟨cn, sn, en, zn⟩ := dec_head (n := n) (by omega)
  have hnoe : ∀ (m k : ℕ), 'e' ∉ (dec m).take k ++ frac (strip ((dec m).drop k)) := by
    intro m k hc
    rcases point_chars m k _ hc with h | h
    · revert h; decide
    · revert h; decide
  have hnoe0 : ∀ (m j : ℕ), 'e' ∉ '0' :: '.' :: (List.replicate j '0' ++ strip (dec m)) := by
    intro m j hc
    simp only [List.mem_cons, List.mem_append, List.mem_replicate] at hc
    rcases hc with h | h | h | h
    · revert h; decide
    · revert h; decide
    · have := h.2; revert this; decide
    · have := dec_isDig _ _ (strip_subset _ h)
      revert this; decide
  have hsci : ∀ (m k : ℕ) (s : List Char),
      'e' ∈ (dec m).take k ++ frac (strip ((dec m).drop k)) ++ 'e' :: s := by
    intro m k s; simp
  unfold sixText at h
  by_cases a1 : 0 ≤ e ∧ e < 6
  · rw [if_pos a1] at h
    by_cases b1 : 0 ≤ f ∧ f < 6
    · rw [if_pos b1] at h
      obtain ⟨h1, h2⟩ := point_inj (dec_isDig m) (dec_isDig n) lm ln (by omega) (by omega) h
      exact ⟨dec_inj h2, by omega⟩
    · rw [if_neg b1] at h
      by_cases b2 : -4 ≤ f ∧ f < 0
      · rw [if_pos b2, em] at h
        simp only [List.take_succ_cons, List.cons_append, List.cons.injEq] at h
        exact absurd h.1 zm
      · rw [if_neg b2] at h
        exact absurd (h ▸ hsci n 1 _) (hnoe m _)
  · rw [if_neg a1] at h
    by_cases a2 : -4 ≤ e ∧ e < 0
    · rw [if_pos a2] at h
      by_cases b1 : 0 ≤ f ∧ f < 6
      · rw [if_pos b1, en] at h
        simp only [List.take_succ_cons, List.cons_append, List.cons.injEq] at h
        exact absurd h.1.symm zn
      · rw [if_neg b1] at h
        by_cases b2 : -4 ≤ f ∧ f < 0
        · rw [if_pos b2] at h
          simp only [List.cons.injEq, true_and] at h
          have hz : ∀ {x : ℕ} {c : Char} {s : List Char}, dec x = c :: s → c ≠ '0' →
              ∀ d, (strip (dec x)).head? = some d → ¬ d = '0' := by
            intro x c s hx hc d hd
            obtain ⟨t, ht⟩ := strip_head (s := s) hc
            rw [hx, ht] at hd
            simp at hd
            rw [← hd]; exact hc
          obtain ⟨h1, h2⟩ := split_unique (fun c => c = '0')
            (fun c hc => (List.mem_replicate.mp hc).2) (fun c hc => (List.mem_replicate.mp hc).2)
            (hz em zm) (hz en zn) h
          have h3 := congrArg List.length h1
          simp only [List.length_replicate] at h3
          exact ⟨dec_inj (strip_inj (by rw [lm, ln]) h2), by omega⟩
        · rw [if_neg b2] at h
          exact absurd (h ▸ hsci n 1 _) (hnoe0 m _)
    · rw [if_neg a2] at h
      by_cases b1 : 0 ≤ f ∧ f < 6
      · rw [if_pos b1] at h
        exact absurd (h ▸ hsci m 1 _) (hnoe n _)
      · rw [if_neg b1] at h
        by_cases b2 : -4 ≤ f ∧ f < 0
        · rw [if_pos b2] at h
          exact absurd (h ▸ hsci m 1 _) (hnoe0 n _)
        · rw [if_neg b2] at h
          obtain ⟨h1, h2⟩ := split_unique (fun c => c ≠ 'e')
            (fun c hc he => hnoe m 1 (he ▸ hc)) (fun c hc he => hnoe n 1 (he ▸ hc))
            (fun c hc => by simp at hc; simp [← hc]) (fun c hc => by simp at hc; simp [← hc]) h
          obtain ⟨_, h3⟩ := point_inj (dec_isDig m) (dec_isDig n) lm ln (by omega) (by omega) h1
          exact ⟨dec_inj h3, expText_inj (List.cons.inj h2).2⟩

/-- `sixDigits` really gives six digits, and they are the number to half a unit of the sixth. -/
theorem sixDigits_spec {q : ℚ} (hq : 0 < q) :
    100000 ≤ (sixDigits q).1 ∧ (sixDigits q).1 < 1000000 ∧
      |((sixDigits q).1 : ℚ) * (10 : ℚ) ^ ((sixDigits q).2 - 5) - q| ≤ q / 200000 := by
  obtain ⟨e, he⟩ : ∃ e, e = Int.log 10 q := ⟨_, rfl⟩
  have h1 : (10 : ℚ) ^ e ≤ q := by
    have := Int.zpow_log_le_self (R := ℚ) (b := 10) (by norm_num) hq
    rw [he]; exact_mod_cast this
  have h2 : q < (10 : ℚ) ^ (e + 1) := by
    have := Int.lt_zpow_succ_log_self (R := ℚ) (b := 10) (by norm_num) q
    rw [he]; exact_mod_cast this
  obtain ⟨u, hu⟩ : ∃ u, u = (10 : ℚ) ^ (e - 5) := ⟨_, rfl⟩
  have hu0 : 0 < u := by rw [hu]; exact zpow_pos (by norm_num) _
  have e1 : (10 : ℚ) ^ e = 100000 * u := by
    rw [hu, show e = (e - 5) + 5 by ring, zpow_add₀ (by norm_num)]
    norm_num; ring
  have e2 : (10 : ℚ) ^ (e + 1) = 1000000 * u := by
    rw [zpow_add₀ (by norm_num), e1]; norm_num; ring
  have e3 : (10 : ℚ) ^ (e + 1 - 5) = 10 * u := by
    rw [hu, show e + 1 - 5 = (e - 5) + 1 by ring, zpow_add₀ (by norm_num)]
    norm_num; ring
  rw [e1] at h1
  rw [e2] at h2
  obtain ⟨x, hx⟩ : ∃ x, x = q / u := ⟨_, rfl⟩
  have hqx : q = x * u := by rw [hx]; field_simp
  have x1 : (100000 : ℚ) ≤ x := by rw [hx, le_div_iff₀ hu0]; exact h1
  have x2 : x < 1000000 := by rw [hx, div_lt_iff₀ hu0]; exact h2
  have r1 : (100000 : ℤ) ≤ rne x := by
    have := rne_mono (show ((100000 : ℤ) : ℚ) ≤ x by exact_mod_cast x1)
    rwa [rne_int] at this
  have r2 : rne x ≤ (1000000 : ℤ) := by
    have := rne_mono (show x ≤ ((1000000 : ℤ) : ℚ) by exact_mod_cast x2.le)
    rwa [rne_int] at this
  have hr := rne_spec x
  obtain ⟨m, hm⟩ : ∃ m : ℕ, m = (rne x).toNat := ⟨_, rfl⟩
  have hmz : (rne x : ℚ) = (m : ℚ) := by
    have : rne x = (m : ℤ) := by omega
    rw [this]; simp
  rw [hmz] at hr
  have key : |(m : ℚ) * u - q| ≤ q / 200000 := by
    rw [hqx, ← sub_mul, abs_mul, abs_of_pos hu0]
    calc |(m : ℚ) - x| * u ≤ 1 / 2 * u := mul_le_mul_of_nonneg_right hr hu0.le
      _ ≤ x * u / 200000 := by nlinarith
  have hs : sixDigits q = if m = 1000000 then (100000, e + 1) else (m, e) := by
    unfold sixDigits
    simp only [← he, ← hu, ← hx, ← hm]
  rw [hs]
  split
  · rename_i hh
    refine ⟨le_refl _, by norm_num, ?_⟩
    rw [hh] at key
    simp only [e3]
    convert key using 2
    push_cast; ring
  · refine ⟨by simp only; omega, by simp only; omega, ?_⟩
    simp only [← hu]
    exact key

/-! ## The value of the text -/

open Spec

theorem foldl_value (s : List Char) (v : ℕ) :
    s.foldl (fun v c => 10 * v + (c.toNat - '0'.toNat)) v = v * 10 ^ s.length + natValue s := by
  unfold natValue
  induction s generalizing v with
  | nil => simp
  | cons c s ih =>
    rw [List.foldl_cons, List.foldl_cons, ih, ih (10 * 0 + _), List.length_cons]
    ring

theorem natValue_append (a b : List Char) : natValue (a ++ b) = natValue a * 10 ^ b.length + natValue b := by
  rw [← foldl_value b (natValue a)]
  unfold natValue
  rw [List.foldl_append]

theorem natValue_zeros (n : ℕ) : natValue (List.replicate n '0') = 0 := by
  induction n with
  | zero => rfl
  | succ n ih => rw [List.replicate_succ', natValue_append, ih]; rfl

theorem digitChar_value : ∀ d < 10, (Nat.digitChar d).toNat - '0'.toNat = d := by decide

theorem natValue_dec (n : ℕ) : natValue (dec n) = n := by
  unfold dec
  split
  · rename_i h; rw [h]; rfl
  · have key : ∀ l : List ℕ, (∀ d ∈ l, d < 10) → natValue (l.reverse.map Nat.digitChar) = Nat.ofDigits 10 l := by
      intro l
      induction l with
      | nil => intro _; rfl
      | cons d l ih =>
        intro h
        rw [List.reverse_cons, List.map_append, natValue_append, ih (fun e he => h e (by simp [he])), Nat.ofDigits_cons]
        have : natValue (List.map Nat.digitChar [d]) = d := by
          simpa [natValue] using digitChar_value d (h d (by simp))
        rw [this]
        simp
        ring
    rw [key _ fun d hd => Nat.digits_lt_base (by norm_num) hd, Nat.ofDigits_digits]

theorem takeWhile_ne {a b : List Char} {c : Char} (ha : c ∉ a) :
    (a ++ c :: b).takeWhile (· ≠ c) = a ∧ (a ++ c :: b).dropWhile (· ≠ c) = c :: b := by
  induction a with
  | nil => simp
  | cons d a ih =>
    have h1 : d ≠ c := fun h => ha (by simp [h])
    obtain ⟨i1, i2⟩ := ih fun h => ha (by simp [h])
    constructor
    · rw [List.cons_append, List.takeWhile_cons_of_pos (by simpa using h1), i1]
    · rw [List.cons_append, List.dropWhile_cons_of_pos (by simpa using h1), i2]

theorem takeWhile_all {a : List Char} {c : Char} (ha : c ∉ a) :
    a.takeWhile (· ≠ c) = a ∧ a.dropWhile (· ≠ c) = [] := by
  induction a with
  | nil => simp
  | cons d a ih =>
    have h1 : d ≠ c := fun h => ha (by simp [h])
    obtain ⟨i1, i2⟩ := ih fun h => ha (by simp [h])
    constructor
    · rw [List.takeWhile_cons_of_pos (by simpa using h1), i1]
    · rw [List.dropWhile_cons_of_pos (by simpa using h1), i2]

theorem dot_not_dig {s : List Char} (h : ∀ c ∈ s, IsDig c) : '.' ∉ s := fun hc => by
  have := h _ hc
  revert this
  decide

theorem e_not_dig {s : List Char} (h : ∀ c ∈ s, IsDig c) : 'e' ∉ s := fun hc => by
  have := h _ hc
  revert this
  decide

theorem pointValue_frac {i f : List Char} (hi : ∀ c ∈ i, IsDig c) :
    pointValue (i ++ frac f) = natValue i + (natValue f : ℚ) / (10 : ℚ) ^ f.length := by
  unfold pointValue frac
  have h := dot_not_dig hi
  split
  · rename_i hf
    rw [hf, List.append_nil, (takeWhile_all h).1, (takeWhile_all h).2]
    simp [natValue]
  · rw [(takeWhile_ne h).1, (takeWhile_ne h).2]
    simp

theorem natValue_strip (s : List Char) :
    (natValue (strip s) : ℚ) / (10 : ℚ) ^ (strip s).length = (natValue s : ℚ) / (10 : ℚ) ^ s.length := by
  have h := strip_append s
  obtain ⟨k, hk⟩ : ∃ k, k = s.length - (strip s).length := ⟨_, rfl⟩
  rw [← hk] at h
  have hl : s.length = (strip s).length + k := by
    conv_lhs => rw [h]
    simp
  have hv : natValue s = natValue (strip s) * 10 ^ k := by
    conv_lhs => rw [h]
    rw [natValue_append, natValue_zeros]
    simp
  rw [hv, hl, pow_add]
  push_cast
  have : (10 : ℚ) ^ k ≠ 0 := by positivity
  field_simp

theorem pointValue_dec {m k : ℕ} (hm : 100000 ≤ m) (hm' : m < 1000000) (hk : k ≤ 6) :
    pointValue ((dec m).take k ++ frac (strip ((dec m).drop k))) = (m : ℚ) * (10 : ℚ) ^ ((k : ℤ) - 6) := by
  have hd := dec_isDig m
  have hl := dec_length hm hm'
  rw [pointValue_frac fun c hc => hd c (List.mem_of_mem_take hc), natValue_strip]
  have h := natValue_append ((dec m).take k) ((dec m).drop k)
  rw [List.take_append_drop, natValue_dec, List.length_drop, hl] at h
  rw [List.length_drop, hl]
  have hq : (m : ℚ) = natValue ((dec m).take k) * (10 : ℚ) ^ (6 - k) + natValue ((dec m).drop k) := by exact_mod_cast h
  have e : (10 : ℚ) ^ ((k : ℤ) - 6) = ((10 : ℚ) ^ (6 - k))⁻¹ := by
    rw [← zpow_natCast, ← zpow_neg]
    congr 1
    push_cast [hk]
    ring
  rw [e]
  have : (10 : ℚ) ^ (6 - k) ≠ 0 := by positivity
  field_simp
  linarith

theorem expValue_text (e : ℤ) : expValue (expText e) = e := by
  have hz : ∀ n, natValue ('0' :: dec n) = n := by
    intro n
    have := natValue_append ['0'] (dec n)
    rw [natValue_dec] at this
    simpa [natValue] using this
  have hn : (natValue (if e.natAbs < 10 then '0' :: dec e.natAbs else dec e.natAbs) : ℤ) = e.natAbs := by
    split
    · rw [hz]
    · rw [natValue_dec]
  unfold expText
  by_cases he : e < 0
  · rw [if_pos he]
    show -(natValue _ : ℤ) = e
    rw [hn]
    omega
  · rw [if_neg he]
    show (natValue _ : ℤ) = e
    rw [hn]
    omega

theorem scientificValue_sixText {m : ℕ} {e : ℤ} (hm : 100000 ≤ m) (hm' : m < 1000000) :
    scientificValue (sixText m e) = (m : ℚ) * (10 : ℚ) ^ (e - 5) := by
  have hd := dec_isDig m
  have hl := dec_length hm hm'
  have hplain : ∀ k, 'e' ∉ (dec m).take k ++ frac (strip ((dec m).drop k)) := by
    intro k h
    rcases List.mem_append.1 h with h | h
    · exact e_not_dig hd (List.mem_of_mem_take h)
    · rcases frac_subset _ h with h | h
      · revert h; decide
      · exact e_not_dig hd (List.mem_of_mem_drop (strip_subset _ h))
  unfold scientificValue sixText
  split
  · rename_i he
    rw [(takeWhile_all (hplain _)).1, (takeWhile_all (hplain _)).2, pointValue_dec hm hm' (by omega)]
    have : ((e.toNat + 1 : ℕ) : ℤ) - 6 = e - 5 := by
      push_cast
      omega
    rw [this]
    simp [expValue, natValue]
  · split
    · rename_i he
      have h1 : ∀ c ∈ List.replicate ((-e).toNat - 1) '0' ++ strip (dec m), IsDig c := by
        intro c hc
        rcases List.mem_append.1 hc with hc | hc
        · rw [List.eq_of_mem_replicate hc]; decide
        · exact hd c (strip_subset _ hc)
      have h2 : 'e' ∉ '0' :: '.' :: (List.replicate ((-e).toNat - 1) '0' ++ strip (dec m)) := by
        intro h
        rcases List.mem_cons.1 h with h | h
        · revert h; decide
        · rcases List.mem_cons.1 h with h | h
          · revert h; decide
          · exact e_not_dig h1 h
      rw [(takeWhile_all h2).1, (takeWhile_all h2).2]
      have h3 : '0' :: '.' :: (List.replicate ((-e).toNat - 1) '0' ++ strip (dec m)) =
          ['0'] ++ frac (List.replicate ((-e).toNat - 1) '0' ++ strip (dec m)) := by
        obtain ⟨c, s, hc, hc0⟩ := dec_head (n := m) (by omega)
        obtain ⟨t, ht⟩ := strip_head (s := s) hc0
        unfold frac
        rw [if_neg (by rw [hc, ht]; simp)]
        rfl
      rw [h3, pointValue_frac (by decide), natValue_append, natValue_zeros, List.length_append, List.length_replicate,
        zero_mul, zero_add, pow_add]
      have h4 := natValue_strip (dec m)
      rw [natValue_dec, hl] at h4
      have h5 : (natValue (strip (dec m)) : ℚ) / ((10 : ℚ) ^ ((-e).toNat - 1) * (10 : ℚ) ^ (strip (dec m)).length) =
          (m : ℚ) / (10 : ℚ) ^ 6 / (10 : ℚ) ^ ((-e).toNat - 1) := by
        rw [← h4]
        field_simp
      rw [h5]
      have e1 : (10 : ℚ) ^ (e - 5) = ((10 : ℚ) ^ 6)⁻¹ * ((10 : ℚ) ^ ((-e).toNat - 1))⁻¹ := by
        rw [← zpow_natCast, ← zpow_natCast, ← zpow_neg, ← zpow_neg, ← zpow_add₀ (by norm_num)]
        congr 1
        push_cast [show 1 ≤ (-e).toNat by omega]
        omega
      rw [e1]
      simp [expValue, natValue]
      ring
    · rw [(takeWhile_ne (hplain 1)).1, (takeWhile_ne (hplain 1)).2, pointValue_dec hm hm' (by omega), List.drop_one,
        List.tail_cons, expValue_text, mul_assoc, ← zpow_add₀ (by norm_num)]
      congr 2
      push_cast
      ring

end KML.Print
