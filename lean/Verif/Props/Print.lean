import Verif.Lemmas.Print

/-!
# C116: what a printed histogram says

`operator<<` writes the bins as `([l, r] -> n, [l, r] -> n, ...)` and a newline. Read back, the text
gives the number of bins and every count exactly, and every boundary to six significant digits.
It does not give the boundaries themselves: the default precision of a stream is six digits, so
different histograms print alike.
-/

namespace KML

open Print

variable {F : Type}

/-- Two doubles that six significant digits do not tell apart: the same NaN or infinity, or
numbers whose distance is at most 5·10⁻⁶ of the sum of their magnitudes. -/
def Spec.Close6 : Dbl → Dbl → Prop
  | .nan, .nan => True
  | .inf s, .inf t => s = t
  | .fin p, .fin q => |p - q| ≤ (|p| + |q|) / 200000
  | _, _ => False

/-- The histograms of doubles that can be reached by updates. -/
def Spec.Reached (numBins windowSize : ℕ) (xs : List Dbl) (h : Hist Dbl) : Prop :=
  xs.foldlM (fun h x => h.update Dbl.arith x) (Hist.new numBins windowSize) = Res.ok h

/-- The claim: the printed text determines the bins. -/
def C116_full : Prop :=
  ∀ (n w n' w' : ℕ) (xs ys : List Dbl) (h h' : Hist Dbl),
    Spec.Reached n w xs h → Spec.Reached n' w' ys h' →
    Print.hist Print.double h = Print.hist Print.double h' → h.bins = h'.bins

/-- 1 and 1 + 2⁻³⁰ print alike. -/
theorem C116_violated : ¬ C116_full := by
  intro H
  have h := H 5 5 5 5 [.fin 1] [.fin (1073741825 / 1073741824)]
    ⟨5, 5, [⟨.fin 1, .fin 1, 1⟩], [0, 0, 0, 0, 0, 0], 1, 1, 1⟩
    ⟨5, 5, [⟨.fin (1073741825 / 1073741824), .fin (1073741825 / 1073741824), 1⟩], [0, 0, 0, 0, 0, 0], 1, 1, 1⟩
    (by unfold Spec.Reached; decide +kernel) (by unfold Spec.Reached; decide +kernel)
    (by decide +kernel)
  revert h
  decide +kernel

/-- A histogram prints `()` exactly when it has no bins. -/
theorem C116_empty (fmt : F → List Char) (h : Hist F) :
    Print.hist fmt h = "()\n".toList ↔ h.bins = [] := by
  unfold Print.hist
  cases hb : h.bins with
  | nil => simp [binsFrom]
  | cons b rest => simp [binsFrom, Print.bin]

/-- The separators: after every bin but the last. -/
theorem binsFrom_cons (fmt : F → List Char) (i : ℕ) (b : Bin F) (rest : List (Bin F)) :
    binsFrom fmt (i + (b :: rest).length) i (b :: rest) =
      Print.bin fmt b ++ ((if rest = [] then [] else [',', ' ']) ++
        binsFrom fmt (i + 1 + rest.length) (i + 1) rest) := by
  have e : i + (b :: rest).length = i + 1 + rest.length := by simp; omega
  rw [e]
  conv_lhs => unfold binsFrom
  cases rest with
  | nil => simp
  | cons c rest =>
    have : i ≠ i + 1 + (c :: rest).length - 1 := by simp only [List.length_cons]; omega
    rw [if_pos this]
    simp

/-- **C116, any format of numbers.** If the text of a number contains no comma and no bracket, the
printed histogram determines the text of every boundary, every count, and how many bins there
are. -/
theorem C116_text_partial (fmt : F → List Char) (hf : ∀ x, ',' ∉ fmt x ∧ ']' ∉ fmt x) (h h' : Hist F) :
    Print.hist fmt h = Print.hist fmt h' ↔
      h.bins.map (fun b => (fmt b.left, fmt b.right, b.count)) =
        h'.bins.map (fun b => (fmt b.left, fmt b.right, b.count)) := by
  have hd : ∀ (n : ℕ), ∀ c ∈ dec n, IsDig c := dec_isDig
  -- equal text, equal content
  have fwd : ∀ (bs bs' : List (Bin F)) (i i' : ℕ),
      binsFrom fmt (i + bs.length) i bs ++ [')', '\n'] =
        binsFrom fmt (i' + bs'.length) i' bs' ++ [')', '\n'] →
      bs.map (fun b => (fmt b.left, fmt b.right, b.count)) =
        bs'.map (fun b => (fmt b.left, fmt b.right, b.count)) := by
    intro bs
    induction bs with
    | nil =>
      intro bs' i i' h
      cases bs' with
      | nil => rfl
      | cons b' r' => rw [binsFrom_cons] at h; simp [binsFrom, Print.bin] at h
    | cons b r ih =>
      intro bs' i i' h
      cases bs' with
      | nil => rw [binsFrom_cons] at h; simp [binsFrom, Print.bin] at h
      | cons b' r' =>
        rw [binsFrom_cons, binsFrom_cons] at h
        simp only [Print.bin, List.cons_append, List.append_assoc, List.cons.injEq, true_and] at h
        obtain ⟨h1, h⟩ := split_unique (fun c => c ≠ ',') (fun c hc he => (hf b.left).1 (he ▸ hc))
          (fun c hc he => (hf b'.left).1 (he ▸ hc)) (fun c hc => by simp at hc; simp [← hc])
          (fun c hc => by simp at hc; simp [← hc]) h
        simp only [List.cons.injEq, true_and] at h
        obtain ⟨h2, h⟩ := split_unique (fun c => c ≠ ']') (fun c hc he => (hf b.right).2 (he ▸ hc))
          (fun c hc he => (hf b'.right).2 (he ▸ hc)) (fun c hc => by simp at hc; simp [← hc])
          (fun c hc => by simp at hc; simp [← hc]) h
        simp only [List.cons.injEq, true_and] at h
        have hsep : ∀ (r : List (Bin F)) (n i : ℕ) (c : Char),
            ((if r = [] then [] else [',', ' ']) ++ (binsFrom fmt n i r ++ [')', '\n'])).head? =
              some c → ¬ IsDig c := by
          intro r n i c hc
          cases r with
          | nil => simp [binsFrom] at hc; rw [← hc]; decide
          | cons b r => simp at hc; rw [← hc]; decide
        obtain ⟨h3, h⟩ := split_unique IsDig (hd _) (hd _) (hsep _ _ _) (hsep _ _ _) h
        have h4 : r.map (fun b => (fmt b.left, fmt b.right, b.count)) =
            r'.map (fun b => (fmt b.left, fmt b.right, b.count)) := by
          cases r with
          | nil =>
            cases r' with
            | nil => rfl
            | cons c' r' => simp [binsFrom] at h
          | cons c r =>
            cases r' with
            | nil => simp [binsFrom] at h
            | cons c' r' =>
              simp only [reduceCtorEq, if_false, List.cons_append, List.nil_append,
                List.cons.injEq, true_and] at h
              exact ih _ _ _ h
        simp only [List.map_cons, List.cons.injEq, Prod.mk.injEq]
        exact ⟨⟨h1, h2, dec_inj h3⟩, h4⟩
  -- equal content, equal text
  have bwd : ∀ (bs bs' : List (Bin F)) (n i : ℕ),
      bs.map (fun b => (fmt b.left, fmt b.right, b.count)) =
        bs'.map (fun b => (fmt b.left, fmt b.right, b.count)) →
      binsFrom fmt n i bs = binsFrom fmt n i bs' := by
    intro bs
    induction bs with
    | nil => intro bs' n i h; cases bs' with
      | nil => rfl
      | cons _ _ => simp at h
    | cons b r ih =>
      intro bs' n i h
      cases bs' with
      | nil => simp at h
      | cons b' r' =>
        simp only [List.map_cons, List.cons.injEq, Prod.mk.injEq] at h
        obtain ⟨⟨h1, h2, h3⟩, h4⟩ := h
        unfold binsFrom
        rw [ih r' n (i + 1) h4, Print.bin, Print.bin, h1, h2, h3]
  constructor
  · intro he
    unfold Print.hist at he
    have he := (List.cons.inj he).2
    have := fwd h.bins h'.bins 0 0
    simp only [Nat.zero_add] at this
    exact this he
  · intro he
    have hl := congrArg List.length he
    simp only [List.length_map] at hl
    unfold Print.hist
    rw [hl, bwd _ _ _ _ he]

/-- A printed finite number contains only digits, point, signs and `e`. -/
theorem number_isNum (q : ℚ) : ∀ c ∈ number q, IsNum c := by
  intro c hc
  unfold number at hc
  split at hc
  · simp at hc; subst hc; left; decide
  · split at hc
    · rcases List.mem_cons.mp hc with h | h
      · subst h; simp [IsNum]
      · exact sixText_isNum _ _ c h
    · exact sixText_isNum _ _ c hc

theorem not_isNum {c : Char} (h : c = ',' ∨ c = ']' ∨ c = 'n' ∨ c = 'i') : ¬ IsNum c := by
  rcases h with rfl | rfl | rfl | rfl <;> simp [IsNum, IsDig]

/-- No printed double contains a comma or a bracket. -/
theorem double_plain (x : Dbl) : ',' ∉ Print.double x ∧ ']' ∉ Print.double x := by
  cases x with
  | nan => decide
  | inf s => cases s <;> decide
  | fin q =>
    exact ⟨fun h => not_isNum (by simp) (number_isNum q _ h),
      fun h => not_isNum (by simp) (number_isNum q _ h)⟩

/-- The text of a positive number does not start with a minus sign, and is not `0`. -/
theorem sixText_start {m : ℕ} {e : ℤ} (hm : 100000 ≤ m) (hm' : m < 1000000) :
    (∀ s, sixText m e ≠ '-' :: s) ∧ sixText m e ≠ ['0'] := by
  obtain ⟨c, s, hc, hc0⟩ := dec_head (n := m) (by omega)
  have hcd : IsDig c := dec_isDig m c (by rw [hc]; simp)
  have hcm : c ≠ '-' := by rintro rfl; revert hcd; decide
  have hl := dec_length hm hm'
  unfold sixText
  split
  · rw [hc]
    simp [hcm, hc0]
  · split
    · refine ⟨by simp, by simp⟩
    · rw [hc]
      simp [hcm, hc0]

/-- **C116, numbers.** Finite doubles that print alike agree to six significant digits, and are
zero, positive or negative together. -/
theorem C116_number_partial {p q : ℚ} (h : number p = number q) :
    |p - q| ≤ (|p| + |q|) / 200000 ∧ (p = 0 ↔ q = 0) ∧ (p < 0 ↔ q < 0) := by
  -- two positive numbers
  have pos : ∀ {p q : ℚ}, 0 < p → 0 < q →
      sixText (sixDigits p).1 (sixDigits p).2 = sixText (sixDigits q).1 (sixDigits q).2 →
      |p - q| ≤ (p + q) / 200000 := by
    intro p q hp hq h
    obtain ⟨a1, a2, a3⟩ := sixDigits_spec hp
    obtain ⟨b1, b2, b3⟩ := sixDigits_spec hq
    obtain ⟨h1, h2⟩ := sixText_inj a1 a2 b1 b2 h
    rw [h1, h2] at a3
    rw [abs_le] at *
    constructor <;> linarith [a3.1, a3.2, b3.1, b3.2]
  unfold number at h
  rcases lt_trichotomy p 0 with hp | hp | hp
  · rcases lt_trichotomy q 0 with hq | hq | hq
    · rw [if_neg hp.ne, if_neg hq.ne, if_pos hp, if_pos hq] at h
      have := pos (neg_pos.mpr hp) (neg_pos.mpr hq) (List.cons.inj h).2
      refine ⟨?_, by simp [hp.ne, hq.ne], by simp [hp, hq]⟩
      rw [abs_of_neg hp, abs_of_neg hq, abs_sub_comm]
      rwa [show -p - -q = q - p by ring] at this
    · rw [if_neg hp.ne, if_pos hp, if_pos hq] at h
      simp at h
    · rw [if_neg hp.ne, if_pos hp, if_neg hq.ne', if_neg (not_lt.mpr hq.le)] at h
      obtain ⟨b1, b2, _⟩ := sixDigits_spec hq
      exact absurd h.symm ((sixText_start b1 b2).1 _)
  · rcases lt_trichotomy q 0 with hq | hq | hq
    · rw [if_pos hp, if_neg hq.ne, if_pos hq] at h
      simp at h
    · subst hp hq; simp
    · rw [if_pos hp, if_neg hq.ne', if_neg (not_lt.mpr hq.le)] at h
      obtain ⟨b1, b2, _⟩ := sixDigits_spec hq
      exact absurd h.symm (sixText_start b1 b2).2
  · rcases lt_trichotomy q 0 with hq | hq | hq
    · rw [if_neg hp.ne', if_neg (not_lt.mpr hp.le), if_neg hq.ne, if_pos hq] at h
      obtain ⟨b1, b2, _⟩ := sixDigits_spec hp
      exact absurd h ((sixText_start b1 b2).1 _)
    · rw [if_neg hp.ne', if_neg (not_lt.mpr hp.le), if_pos hq] at h
      obtain ⟨b1, b2, _⟩ := sixDigits_spec hp
      exact absurd h (sixText_start b1 b2).2
    · rw [if_neg hp.ne', if_neg (not_lt.mpr hp.le), if_neg hq.ne', if_neg (not_lt.mpr hq.le)] at h
      refine ⟨?_, by simp [hp.ne', hq.ne'], by constructor <;> intro <;> linarith⟩
      rw [abs_of_pos hp, abs_of_pos hq]
      exact pos hp hq h

/-- The hypothesis is met by different numbers. -/
example : number (1 / 3) = number (333333 / 1000000) ∧ (1 / 3 : ℚ) ≠ 333333 / 1000000 := by
  decide +kernel

/-- **C116, the value.** A printed number, read as a decimal number, is the number to half a unit of
its sixth significant digit at most. -/
theorem C116_value_partial (q : ℚ) : |Spec.decimalValue (number q) - q| ≤ |q| / 200000 := by
  have pos : ∀ {q : ℚ}, 0 < q →
      |Spec.scientificValue (sixText (sixDigits q).1 (sixDigits q).2) - q| ≤ q / 200000 := by
    intro q hq
    obtain ⟨a1, a2, a3⟩ := sixDigits_spec hq
    rw [scientificValue_sixText a1 a2]
    exact a3
  rcases lt_trichotomy q 0 with hq | rfl | hq
  · have h := pos (neg_pos.mpr hq)
    unfold number
    rw [if_neg hq.ne, if_pos hq]
    show |-Spec.scientificValue _ - q| ≤ _
    rw [abs_of_neg hq, show -Spec.scientificValue (sixText (sixDigits (-q)).1 (sixDigits (-q)).2) - q =
      -(Spec.scientificValue (sixText (sixDigits (-q)).1 (sixDigits (-q)).2) - -q) by ring, abs_neg]
    exact h
  · decide +kernel
  · have h := pos hq
    obtain ⟨b1, b2, -⟩ := sixDigits_spec hq
    have hs := (sixText_start (e := (sixDigits q).2) b1 b2).1
    unfold number
    rw [if_neg hq.ne', if_neg (not_lt.mpr hq.le), abs_of_pos hq]
    have : Spec.decimalValue (sixText (sixDigits q).1 (sixDigits q).2) =
        Spec.scientificValue (sixText (sixDigits q).1 (sixDigits q).2) := by
      unfold Spec.decimalValue
      split
      · rename_i s h
        exact absurd h (hs s)
      · rfl
    rw [this]
    exact h

/-- What some numbers print as. -/
example : number 0 = "0".toList ∧ number (-5 / 2) = "-2.5".toList ∧ number (1 / 3) = "0.333333".toList ∧
    number (2 / 30000) = "6.66667e-05".toList ∧ number 1234567 = "1.23457e+06".toList ∧
    number (9999997 / 10) = "1e+06".toList := by
  decide +kernel

/-- **C116, the count.** A printed count is the count: digits that stand for it, without zeros in front. -/
theorem C116_count (n : ℕ) : Spec.natValue (dec n) = n ∧ (∀ c ∈ dec n, IsDig c) ∧
    (n ≠ 0 → (dec n).head? ≠ some '0') ∧ (n = 0 → dec n = ['0']) := by
  refine ⟨natValue_dec n, dec_isDig n, fun hn => ?_, fun hn => by rw [hn]; rfl⟩
  obtain ⟨c, s, h, h0⟩ := dec_head hn
  rw [h]
  simpa using h0

/-- **C116, the form of the text.** -/
theorem C116_form (fmt : F → List Char) (h : Hist F) :
    Print.hist fmt h = "(".toList ++ (", ".toList).intercalate (h.bins.map fun b =>
      "[".toList ++ fmt b.left ++ ", ".toList ++ fmt b.right ++ "] -> ".toList ++ dec b.count) ++ ")\n".toList := by
  have key : ∀ (bs : List (Bin F)) (i : ℕ), binsFrom fmt (i + bs.length) i bs =
      (", ".toList).intercalate (bs.map (Print.bin fmt)) := by
    intro bs
    induction bs with
    | nil => intro i; rfl
    | cons b bs ih =>
      intro i
      rw [binsFrom_cons, ih (i + 1)]
      cases bs with
      | nil => simp [List.intercalate]
      | cons c bs => simp [List.intercalate]
  have h0 := key h.bins 0
  rw [Nat.zero_add] at h0
  unfold Print.hist
  rw [h0]
  simp
  rfl

theorem double_close {x y : Dbl} (h : Print.double x = Print.double y) : Spec.Close6 x y := by
  have hn : ∀ q : ℚ, 'n' ∉ Print.double (.fin q) := fun q h => not_isNum (by simp) (number_isNum q _ h)
  have h1 : 'n' ∈ Print.double .nan := by decide
  have h2 : ∀ s, 'n' ∈ Print.double (.inf s) := by decide
  cases x with
  | nan =>
    cases y with
    | nan => trivial
    | inf s => exfalso; revert h; revert s; decide
    | fin q => exact absurd (h ▸ h1) (hn q)
  | inf s =>
    cases y with
    | nan => exfalso; revert h; revert s; decide
    | inf t => show s = t; revert h; revert s t; decide
    | fin q => exact absurd (h ▸ h2 s) (hn q)
  | fin p =>
    cases y with
    | nan => exact absurd (h ▸ h1) (hn p)
    | inf s => exact absurd (h ▸ h2 s) (hn p)
    | fin q => exact (C116_number_partial h).1

/-- **C116, histograms of doubles.** Histograms that print alike have as many bins, the same
counts, and boundaries that agree to six significant digits. Missing from the full claim: the
boundaries themselves (`C116_violated`). -/
theorem C116_partial {h h' : Hist Dbl}
    (he : Print.hist Print.double h = Print.hist Print.double h') :
    List.Forall₂ (fun b b' => Spec.Close6 b.left b'.left ∧ Spec.Close6 b.right b'.right ∧
      b.count = b'.count) h.bins h'.bins := by
  have hm := (C116_text_partial Print.double double_plain h h').mp he
  generalize h.bins = bs at hm
  generalize h'.bins = bs' at hm
  induction bs generalizing bs' with
  | nil => cases bs' with
    | nil => exact .nil
    | cons _ _ => simp at hm
  | cons b r ih =>
    cases bs' with
    | nil => simp at hm
    | cons b' r' =>
      simp only [List.map_cons, List.cons.injEq, Prod.mk.injEq] at hm
      exact .cons ⟨double_close hm.1.1, double_close hm.1.2.1, hm.1.2.2⟩ (ih r' hm.2)

/-- A histogram of two bins and its text. -/
example : Print.hist Print.double
    ⟨5, 5, [⟨.fin 1, .fin (5 / 2), 3⟩, ⟨.fin 1000000, .inf false, 1⟩], [], 4, 0, 2⟩ =
      "([1, 2.5] -> 3, [1e+06, inf] -> 1)\n".toList := by decide +kernel

end KML
