import Verif.Lemmas.Float
import Verif.Model.Python

/-!
# Lemmas about narrowing to `float` and the update loop of the Python wrappers
-/

namespace KML

theorem rnd32_zero : rnd32 0 = 0 := rfl

theorem rnd32_neg (x : ℚ) : rnd32 (-x) = -rnd32 x := by
  unfold rnd32
  by_cases h : x = 0
  · simp [h]
  · simp [h, expo_neg, rndAt_neg]

/-- Numbers with 24 significant bits are not changed. -/
theorem rnd32_repr (m k : ℤ) (hm : |m| < 2 ^ 24) (hk : -149 ≤ k) :
    rnd32 ((m : ℚ) * pow2 k) = m * pow2 k := by
  by_cases h0 : m = 0
  · simp [h0, rnd32]
  have hp := pow2_pos k
  have hx : (m : ℚ) * pow2 k ≠ 0 := mul_ne_zero (by exact_mod_cast h0) hp.ne'
  have he : expo ((m : ℚ) * pow2 k) ≤ k + 23 := by
    apply expo_le_of_lt hx
    have h24 : pow2 (k + 23 + 1) = 2 ^ 24 * pow2 k := by
      rw [show k + 23 + 1 = 24 + k by ring, pow2_add]; congr 1
    have hm' : |(m : ℚ)| < 2 ^ 24 := by exact_mod_cast hm
    rw [abs_mul, abs_of_pos hp, h24]
    exact mul_lt_mul_of_pos_right hm' hp
  rw [rnd32, if_neg hx]
  set g := max (expo ((m : ℚ) * pow2 k) - 23) (-149) with hg
  have hgk : g ≤ k := max_le (by omega) hk
  obtain ⟨j, hj⟩ : ∃ j : ℕ, k = g + j := ⟨(k - g).toNat, by omega⟩
  have : (m : ℚ) * pow2 k = ((m * 2 ^ j : ℤ) : ℚ) * pow2 g := by
    rw [hj, pow2_add]
    have : pow2 (j : ℤ) = 2 ^ j := by rw [pow2_eq]; simp
    rw [this]; push_cast; ring
  rw [this, rndAt_int_mul]

/-- The error of narrowing is at most half a unit in the last place. -/
theorem rnd32_err (x : ℚ) : |rnd32 x - x| ≤ max (|x| / 2 ^ 24) (pow2 (-150)) := by
  by_cases hx : x = 0
  · subst hx
    have := pow2_pos (-150)
    simp [rnd32, this.le]
  rw [rnd32, if_neg hx]
  refine (rndAt_err _ x).trans ?_
  rcases le_total (expo x - 23) (-149) with h | h
  · rw [max_eq_right h]
    refine le_trans (le_of_eq ?_) (le_max_right _ _)
    have := pow2_succ (-150)
    norm_num at this
    rw [this]; ring
  · rw [max_eq_left h]
    refine le_trans ?_ (le_max_left _ _)
    have h1 := (expo_spec hx).1
    have h2 : pow2 (expo x) = 2 ^ 23 * pow2 (expo x - 23) := by
      rw [show expo x = 23 + (expo x - 23) by ring, pow2_add]
      congr 1
      ring_nf
    rw [h2] at h1
    rw [div_le_div_iff₀ (by norm_num) (by norm_num)]
    linarith

/-- Relative error `2 ^ -24` for numbers of magnitude at least `2 ^ -126`. -/
theorem rnd32_rel {x : ℚ} (h : pow2 (-126) ≤ |x|) : |rnd32 x - x| ≤ |x| / 2 ^ 24 := by
  refine (rnd32_err x).trans (max_le le_rfl ?_)
  have : pow2 (-150) = pow2 (-126) / 2 ^ 24 := by
    rw [pow2_eq, pow2_eq]; norm_num
  rw [this]
  exact div_le_div_of_nonneg_right h (by norm_num)

theorem rnd32_form (x : ℚ) : ∃ m k : ℤ, |m| ≤ 2 ^ 24 ∧ -149 ≤ k ∧ rnd32 x = m * pow2 k := by
  by_cases hx : x = 0
  · exact ⟨0, 0, by norm_num, by norm_num, by simp [hx, rnd32]⟩
  set g := max (expo x - 23) (-149) with hg
  refine ⟨rne (x / pow2 g), g, ?_, le_max_right _ _, by simp [rnd32, hx, rndAt, ← hg]⟩
  obtain ⟨-, h2⟩ := expo_spec hx
  have hs := pow2_pos g
  have h3 : |x| ≤ (2 ^ 24 : ℤ) * pow2 g := by
    have h24 : pow2 (expo x + 1) = ((2 ^ 24 : ℤ) : ℚ) * pow2 (expo x - 23) := by
      rw [show expo x + 1 = 24 + (expo x - 23) by ring, pow2_add]
      congr 1
    rw [h24] at h2
    have : pow2 (expo x - 23) ≤ pow2 g := pow2_le.2 (le_max_left _ _)
    have : (0 : ℚ) ≤ ((2 ^ 24 : ℤ) : ℚ) := by norm_num
    nlinarith
  have h4 : |x / pow2 g| ≤ (2 ^ 24 : ℤ) := by
    rw [abs_div, abs_of_pos hs, div_le_iff₀ hs]; exact h3
  rw [abs_le] at h4
  rw [abs_le]
  constructor
  · have := rne_mono h4.1
    rwa [← Int.cast_neg, rne_int] at this
  · have := rne_mono h4.2
    rwa [rne_int] at this

/-- Narrowing twice is narrowing once. -/
theorem rnd32_idem (x : ℚ) : rnd32 (rnd32 x) = rnd32 x := by
  obtain ⟨m, k, hm, hk, h⟩ := rnd32_form x
  rw [h]
  rcases hm.lt_or_eq with hlt | heq
  · exact rnd32_repr m k hlt hk
  · have hm' : m = 2 * (m / 2) := by
      rcases abs_choice m with h | h <;> omega
    have : (m : ℚ) * pow2 k = ((m / 2 : ℤ) : ℚ) * pow2 (k + 1) := by
      conv_lhs => rw [hm']
      rw [pow2_succ]; push_cast; ring
    rw [this]
    refine rnd32_repr _ _ ?_ (by omega)
    rcases abs_choice m with h | h <;> rw [abs_lt] <;> omega

theorem Dbl.narrow_idem (d : Dbl) : d.narrow.narrow = d.narrow := by
  cases d with
  | fin q =>
    by_cases h : fltMax < |rnd32 q| <;> simp [Dbl.narrow, h, rnd32_idem]
  | _ => rfl

section

variable {σ β : Type} {conv : PyVal → Res β} {upd : σ → β → Res σ}

/-- The converted values of the longest prefix that converts. -/
def PyVal.goodPrefix (conv : PyVal → Res β) : List PyVal → List β
  | [] => []
  | v :: vs =>
    match conv v with
    | .ok b => b :: PyVal.goodPrefix conv vs
    | _ => []

theorem PyVal.feed_prefix (s : σ) (vs : List PyVal) {s' : σ}
    (h : (PyVal.goodPrefix conv vs).foldlM upd s = .ok s') : (PyVal.feed conv upd s vs).2 = s' := by
  induction vs generalizing s with
  | nil => injection h
  | cons v vs ih =>
    unfold PyVal.feed
    unfold PyVal.goodPrefix at h
    cases hc : conv v with
    | ok b =>
      rw [hc] at h
      simp only [List.foldlM_cons] at h
      obtain ⟨s1, h1, h2⟩ := Res.bind_eq_ok.1 h
      simp only [h1]
      exact ih s1 h2
    | throw m => rw [hc] at h; injection h
    | ub u => rw [hc] at h; injection h

theorem PyVal.feed_not_ub (s : σ) (vs : List PyVal) {s' : σ}
    (hconv : ∀ v u, conv v ≠ .ub u)
    (h : (PyVal.goodPrefix conv vs).foldlM upd s = .ok s') (u : UB) : (PyVal.feed conv upd s vs).1 ≠ .ub u := by
  induction vs generalizing s with
  | nil => intro h; cases h
  | cons v vs ih =>
    unfold PyVal.feed
    unfold PyVal.goodPrefix at h
    cases hc : conv v with
    | ok b =>
      rw [hc] at h
      simp only [List.foldlM_cons] at h
      obtain ⟨s1, h1, h2⟩ := Res.bind_eq_ok.1 h
      simp only [h1]
      exact ih s1 h2
    | throw m => simp
    | ub u => exact absurd hc (hconv v u)

end

theorem PyVal.asDouble_not_ub (v : PyVal) (u : UB) : v.asDouble ≠ .ub u := by
  unfold PyVal.asDouble
  split <;> try simp
  split <;> simp

theorem PyVal.asFloat_not_ub (v : PyVal) (u : UB) : v.asFloat ≠ .ub u := by
  unfold PyVal.asFloat
  cases h : v.asDouble with
  | ub u => exact absurd h (v.asDouble_not_ub u)
  | _ => simp

end KML
