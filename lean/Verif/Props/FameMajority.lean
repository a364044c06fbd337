import Verif.Props.FameTrack

/-! # C113: WindowedFAME and the median of a stream with a majority value -/

set_option linter.unusedSectionVars false

namespace KML

open Spec

variable {K : Type} [Field K] [LinearOrder K] [IsStrictOrderedRing K] [FloorRing K]

/-- One step of FAME without growth. -/
theorem fameZero (m s x : K) :
    fameNext 0 (m, s) x = (if x < m then m - s else if m < x then m + s else m,
      if |x - (if x < m then m - s else if m < x then m + s else m)| < s then s / 2 else s) := by
  refine Prod.ext fameNext_fst ?_
  rw [fameNext_snd, fameNext_fst]
  simp

theorem fameZero_up {m s x : K} (h : m < x) :
    fameNext 0 (m, s) x = (m + s, if |x - (m + s)| < s then s / 2 else s) := by
  rw [fameZero, if_neg (not_lt.2 h.le), if_pos h]

theorem fameZero_down {m s x : K} (h : x < m) :
    fameNext 0 (m, s) x = (m - s, if |x - (m - s)| < s then s / 2 else s) := by
  rw [fameZero, if_pos h]

theorem fameZero_eq {m s x : K} (hs : 0 < s) (h : m = x) : fameNext 0 (m, s) x = (m, s / 2) := by
  subst h
  rw [fameZero, if_neg (lt_irrefl _), if_neg (lt_irrefl _)]
  simp [hs]

/-- The step never grows, is halved at most, and the estimate moves by at most one step. -/
theorem fameZero_small {m s x : K} (hs : 0 < s) :
    0 < (fameNext 0 (m, s) x).2 ∧ (fameNext 0 (m, s) x).2 ≤ s ∧ |(fameNext 0 (m, s) x).1 - m| ≤ s ∧
    ((fameNext 0 (m, s) x).2 = s ∨ (fameNext 0 (m, s) x).2 = s / 2) := by
  have d : (fameNext 0 (m, s) x).2 = s ∨ (fameNext 0 (m, s) x).2 = s / 2 := by
    rw [fameNext_snd]
    by_cases c : |x - (fameNext 0 (m, s) x).1| < s
    · right; rw [if_pos c]; ring
    · left; rw [if_neg c]; ring
  refine ⟨by rcases d with d | d <;> rw [d] <;> linarith, by rcases d with d | d <;> linarith, ?_, d⟩
  rw [fameNext_fst]
  split_ifs
  · rw [abs_le]; constructor <;> linarith
  · rw [abs_le]; constructor <;> linarith
  · simp [hs.le]

/-- An observation of `v`: the step is halved and the estimate is then within two of the new steps, or the estimate comes one
step nearer. -/
theorem fameZero_hit {m s v : K} (hs : 0 < s) :
    ((fameNext 0 (m, s) v).2 = s / 2 ∧ |v - (fameNext 0 (m, s) v).1| < s) ∨
    ((fameNext 0 (m, s) v).2 = s ∧ |v - (fameNext 0 (m, s) v).1| = |v - m| - s) := by
  rcases lt_trichotomy m v with h | h | h
  · rw [fameZero_up h]
    by_cases c : |v - (m + s)| < s
    · left; simp only [if_pos c]; exact ⟨trivial, c⟩
    · right
      simp only [if_neg c]
      refine ⟨trivial, ?_⟩
      rw [abs_lt, not_and_or] at c
      rw [abs_of_pos (by linarith : 0 < v - m), abs_of_nonneg]
      · ring
      · rcases c with c | c <;> linarith
  · rw [fameZero_eq hs h]
    left
    rw [h]
    simp [hs]
  · rw [fameZero_down h]
    by_cases c : |v - (m - s)| < s
    · left; simp only [if_pos c]; exact ⟨trivial, c⟩
    · right
      simp only [if_neg c]
      refine ⟨trivial, ?_⟩
      rw [abs_lt, not_and_or] at c
      rw [abs_of_neg (by linarith : v - m < 0), abs_of_nonpos]
      · ring
      · rcases c with c | c <;> linarith

/-- A unit of the stream: `v`, or `w` followed by two times `v`. -/
def FameUnit (v w : K) (l : List K) : Prop := l = [v] ∨ l = [w, v, v]

/-- Over a unit the step is halved or the estimate comes one step nearer to `v`. -/
theorem FameUnit.progress {v w m s : K} {l : List K} (hl : FameUnit v w l) (hs : 0 < s) :
    0 < (l.foldl (fameNext 0) (m, s)).2 ∧ (l.foldl (fameNext 0) (m, s)).2 ≤ s ∧
    ((l.foldl (fameNext 0) (m, s)).2 ≤ s / 2 ∨
     ((l.foldl (fameNext 0) (m, s)).2 = s ∧ |v - (l.foldl (fameNext 0) (m, s)).1| ≤ |v - m| - s)) := by
  rcases hl with rfl | rfl
  · simp only [List.foldl_cons, List.foldl_nil]
    obtain ⟨a, b, -, -⟩ := fameZero_small (m := m) (x := v) hs
    refine ⟨a, b, ?_⟩
    rcases fameZero_hit (m := m) (v := v) hs with ⟨h, -⟩ | ⟨h1, h2⟩
    · exact .inl h.le
    · exact .inr ⟨h1, h2.le⟩
  · simp only [List.foldl_cons, List.foldl_nil]
    obtain ⟨a1, b1, c1, d1⟩ := fameZero_small (m := m) (x := w) hs
    generalize fameNext 0 (m, s) w = p1 at *
    obtain ⟨m1, s1⟩ := p1
    obtain ⟨a2, b2, -, -⟩ := fameZero_small (m := m1) (x := v) a1
    have e2 := fameZero_hit (m := m1) (v := v) a1
    generalize fameNext 0 (m1, s1) v = p2 at *
    obtain ⟨m2, s2⟩ := p2
    obtain ⟨a3, b3, -, -⟩ := fameZero_small (m := m2) (x := v) a2
    have e3 := fameZero_hit (m := m2) (v := v) a2
    generalize fameNext 0 (m2, s2) v = p3 at *
    obtain ⟨m3, s3⟩ := p3
    simp only at *
    refine ⟨a3, by linarith, ?_⟩
    rcases d1 with d | d
    · rcases e2 with ⟨e, -⟩ | ⟨e, e'⟩
      · left; linarith
      · rcases e3 with ⟨f, -⟩ | ⟨f, f'⟩
        · left; linarith
        · right
          refine ⟨by linarith, ?_⟩
          have : |v - m1| ≤ |v - m| + s := by
            have := abs_add_le (v - m) (m - m1)
            rw [abs_sub_comm m m1] at this
            have e0 : v - m + (m - m1) = v - m1 := by ring
            rw [e0] at this
            linarith
          linarith
    · left; linarith

/-- The step is small against the distance of the two values, and the estimate well on the side of `v` of `w`. -/
structure FameSafe (v w m s : K) : Prop where
  pos : 0 < s
  small : 3 * s ≤ v - w
  side : w + 2 * s ≤ m

/-- `v` is observed by an estimate at least one step on the right side of `w`. -/
theorem FameSafe.hit {v w m s : K} (hs : 0 < s) (h3 : 3 * s ≤ v - w) (hm : w + s ≤ m) :
    FameSafe v w (fameNext 0 (m, s) v).1 (fameNext 0 (m, s) v).2 := by
  obtain ⟨a, b, -, -⟩ := fameZero_small (m := m) (x := v) hs
  refine ⟨a, by linarith, ?_⟩
  have : w + 2 * s ≤ (fameNext 0 (m, s) v).1 := by
    rw [fameNext_fst]
    split_ifs <;> linarith
  linarith

/-- Safety is kept; when the step is halved the estimate is within three steps of `v`, and that is kept too. -/
theorem FameSafe.unit {v w m s : K} {l : List K} (hl : FameUnit v w l) (h : FameSafe v w m s) :
    FameSafe v w (l.foldl (fameNext 0) (m, s)).1 (l.foldl (fameNext 0) (m, s)).2 ∧
    ((l.foldl (fameNext 0) (m, s)).2 < s ∨ |v - m| ≤ 3 * s →
      |v - (l.foldl (fameNext 0) (m, s)).1| ≤ 3 * (l.foldl (fameNext 0) (m, s)).2) := by
  -- one observation of `v`
  have one : ∀ {m s : K}, 0 < s → |v - m| ≤ 4 * s →
      |v - (fameNext 0 (m, s) v).1| ≤ 3 * (fameNext 0 (m, s) v).2 := by
    intro m s hs hm
    rcases fameZero_hit (m := m) (v := v) hs with ⟨e, e'⟩ | ⟨e, e'⟩ <;> rw [e] <;> linarith
  have one' : ∀ {m s : K}, 0 < s → (fameNext 0 (m, s) v).2 < s →
      |v - (fameNext 0 (m, s) v).1| ≤ 3 * (fameNext 0 (m, s) v).2 := by
    intro m s hs hm
    rcases fameZero_hit (m := m) (v := v) hs with ⟨e, e'⟩ | ⟨e, e'⟩
    · rw [e]; linarith
    · linarith
  obtain ⟨hs, h3, hm⟩ := h
  rcases hl with rfl | rfl
  · simp only [List.foldl_cons, List.foldl_nil]
    refine ⟨FameSafe.hit hs h3 (by linarith), ?_⟩
    rintro (c | c)
    · exact one' hs c
    · exact one hs (by linarith)
  · simp only [List.foldl_cons, List.foldl_nil]
    have ew : fameNext 0 (m, s) w = (m - s, s) := by
      rw [fameZero_down (by linarith), if_neg]
      rw [not_lt, abs_sub_comm]
      exact le_trans (by linarith) (le_abs_self _)
    rw [ew]
    have s1 := FameSafe.hit hs h3 (m := m - s) (by linarith)
    obtain ⟨a1, b1, -, -⟩ := fameZero_small (m := m - s) (x := v) hs
    have o1 := one (m := m - s) hs
    have o1' := one' (m := m - s) hs
    generalize fameNext 0 (m - s, s) v = p1 at *
    obtain ⟨m1, t1⟩ := p1
    simp only at *
    refine ⟨FameSafe.hit s1.pos s1.small (by linarith [s1.side]), ?_⟩
    obtain ⟨a2, b2, -, -⟩ := fameZero_small (m := m1) (x := v) a1
    rintro (c | c)
    · by_cases c1 : t1 < s
      · have := o1' c1
        exact one a1 (by linarith)
      · exact one' a1 (by linarith)
    · refine one a1 ?_
      have : |v - m1| ≤ 3 * t1 := o1 (by
        have := abs_add_le (v - m) s
        have e : v - m + s = v - (m - s) := by ring
        rw [e, abs_of_pos hs] at this
        linarith)
      linarith

/-- On the right side of `w` but close: a unit makes the state safe or doubles the distance in steps. -/
theorem fame_leave {v w m s : K} {l : List K} (hl : FameUnit v w l) (hs : 0 < s) (h3 : 3 * s ≤ v - w) (h0 : w < m)
    (h2 : m < w + 2 * s) :
    FameSafe v w (l.foldl (fameNext 0) (m, s)).1 (l.foldl (fameNext 0) (m, s)).2 ∨
    w < (l.foldl (fameNext 0) (m, s)).1 ∧
      2 * (m - w) * (l.foldl (fameNext 0) (m, s)).2 ≤ ((l.foldl (fameNext 0) (m, s)).1 - w) * s := by
  rcases hl with rfl | rfl
  · simp only [List.foldl_cons, List.foldl_nil]
    rw [fameZero_up (by linarith : m < v)]
    by_cases c : |v - (m + s)| < s
    · left
      simp only [if_pos c]
      exact ⟨by linarith, by linarith, by linarith⟩
    · simp only [if_neg c]
      by_cases c2 : w + 2 * s ≤ m + s
      · exact .inl ⟨hs, h3, c2⟩
      · right
        rw [not_le] at c2
        refine ⟨by linarith, ?_⟩
        exact mul_le_mul_of_nonneg_right (by linarith) hs.le
  · simp only [List.foldl_cons, List.foldl_nil]
    right
    have e1 : fameNext 0 (m, s) w = (m - s, s / 2) := by
      rw [fameZero_down h0, if_pos]
      rw [abs_lt]
      constructor <;> linarith
    have e2 : fameNext 0 (m - s, s / 2) v = (m - s / 2, s / 2) := by
      rw [fameZero_up (by linarith), if_neg]
      · rw [show m - s + s / 2 = m - s / 2 by ring]
      · rw [not_lt]
        exact le_trans (by linarith) (le_abs_self _)
    have e3 : fameNext 0 (m - s / 2, s / 2) v = (m, s / 2) := by
      rw [fameZero_up (by linarith), if_neg]
      · rw [show m - s / 2 + s / 2 = m by ring]
      · rw [not_lt]
        exact le_trans (by linarith) (le_abs_self _)
    rw [e1, e2, e3]
    refine ⟨h0, le_of_eq ?_⟩
    show 2 * (m - w) * (s / 2) = (m - w) * s
    ring

/-- On the wrong side of `w`: a unit brings the estimate one step nearer with the same step, or over to the right side. -/
theorem fame_cross {v w m s : K} {l : List K} (hl : FameUnit v w l) (hs : 0 < s) (h3 : 3 * s ≤ v - w) (h0 : m ≤ w) :
    w < (l.foldl (fameNext 0) (m, s)).1 ∨
    (l.foldl (fameNext 0) (m, s)).2 = s ∧ m + s ≤ (l.foldl (fameNext 0) (m, s)).1 := by
  have far : ∀ {m s : K}, 0 < s → 2 * s ≤ v - m → fameNext 0 (m, s) v = (m + s, s) := by
    intro m s hs h
    rw [fameZero_up (by linarith), if_neg]
    rw [not_lt]
    exact le_trans (by linarith) (le_abs_self _)
  rcases hl with rfl | rfl
  · simp only [List.foldl_cons, List.foldl_nil]
    rw [far hs (by linarith)]
    exact .inr ⟨rfl, le_rfl⟩
  · simp only [List.foldl_cons, List.foldl_nil]
    rcases h0.lt_or_eq with h | h
    · rw [fameZero_up h]
      by_cases c : |w - (m + s)| < s
      · left
        have c' := abs_lt.1 c
        simp only [if_pos c]
        rw [far (m := m + s) (s := s / 2) (by linarith) (by linarith),
          far (m := m + s + s / 2) (s := s / 2) (by linarith) (by linarith)]
        show w < m + s + s / 2 + s / 2
        linarith
      · right
        have c' : m + 2 * s ≤ w := by
          rw [abs_lt, not_and_or] at c
          rcases c with c | c <;> linarith
        simp only [if_neg c]
        rw [far hs (by linarith), far hs (by linarith)]
        exact ⟨rfl, by show m + s ≤ m + s + s + s; linarith⟩
    · rw [fameZero_eq hs h, far (m := m) (s := s / 2) (by linarith) (by linarith),
        far (m := m + s / 2) (s := s / 2) (by linarith) (by linarith)]
      left
      show w < m + s / 2 + s / 2
      linarith

/-! ## A stream of units -/

section Units

variable {v w : K} {u : ℕ → List K} {σ : ℕ → K × K}

/-- `σ` is the state after every unit. -/
structure FameRun (v w : K) (u : ℕ → List K) (σ : ℕ → K × K) : Prop where
  unit : ∀ n, FameUnit v w (u n)
  next : ∀ n, σ (n + 1) = (u n).foldl (fameNext 0) (σ n)
  start : 0 < (σ 0).2

theorem FameRun.pos (h : FameRun v w u σ) (n : ℕ) : 0 < (σ n).2 := by
  induction n with
  | zero => exact h.start
  | succ n ih => rw [h.next]; exact ((h.unit n).progress ih).1

theorem FameRun.anti (h : FameRun v w u σ) {i j : ℕ} (hij : i ≤ j) : (σ j).2 ≤ (σ i).2 := by
  induction j, hij using Nat.le_induction with
  | base => exact le_rfl
  | succ j _ ih =>
    refine le_trans ?_ ih
    rw [h.next]
    exact ((h.unit j).progress (h.pos j)).2.1

/-- Sooner or later the step is halved. -/
theorem FameRun.halves (h : FameRun v w u σ) (n : ℕ) : ∃ k, n ≤ k ∧ (σ (k + 1)).2 ≤ (σ k).2 / 2 ∧ (σ k).2 = (σ n).2 := by
  have key : ∀ N n : ℕ, |v - (σ n).1| < N * (σ n).2 → ∃ k, n ≤ k ∧ (σ (k + 1)).2 ≤ (σ k).2 / 2 ∧ (σ k).2 = (σ n).2 := by
    intro N
    induction N with
    | zero =>
      intro n hn
      have := abs_nonneg (v - (σ n).1)
      simp at hn
      linarith
    | succ N ih =>
      intro n hn
      obtain ⟨-, -, c⟩ := (h.unit n).progress (m := (σ n).1) (h.pos n)
      rw [← h.next n] at c
      rcases c with c | ⟨c1, c2⟩
      · exact ⟨n, le_rfl, c, rfl⟩
      · obtain ⟨k, k1, k2, k3⟩ := ih (n + 1) (by
          rw [c1]
          push_cast at hn
          linarith)
        exact ⟨k, by omega, k2, k3.trans c1⟩
  obtain ⟨N, hN⟩ := exists_nat_gt (|v - (σ n).1| / (σ n).2)
  exact key N n ((div_lt_iff₀ (h.pos n)).1 hN)

/-- The step becomes as small as one likes. -/
theorem FameRun.vanishes (h : FameRun v w u σ) {δ : K} (hδ : 0 < δ) : ∃ N, ∀ n, N ≤ n → (σ n).2 ≤ δ := by
  have key : ∀ j : ℕ, ∃ n, (σ n).2 ≤ (σ 0).2 / 2 ^ j := by
    intro j
    induction j with
    | zero => exact ⟨0, by simp⟩
    | succ j ih =>
      obtain ⟨n, hn⟩ := ih
      obtain ⟨k, -, k2, k3⟩ := h.halves n
      refine ⟨k + 1, k2.trans ?_⟩
      rw [k3, pow_succ, ← div_div]
      linarith
  obtain ⟨j, hj⟩ := pow_unbounded_of_one_lt ((σ 0).2 / δ) (by norm_num : (1 : K) < 2)
  obtain ⟨N, hN⟩ := key j
  refine ⟨N, fun n hn => (h.anti hn).trans (hN.trans ?_)⟩
  rw [div_lt_iff₀ hδ] at hj
  rw [div_le_iff₀ (by positivity)]
  linarith

theorem FameRun.safe_from (h : FameRun v w u σ) {n k : ℕ} (hs : FameSafe v w (σ n).1 (σ n).2) (hk : n ≤ k) :
    FameSafe v w (σ k).1 (σ k).2 := by
  induction k, hk using Nat.le_induction with
  | base => exact hs
  | succ k _ ih => rw [h.next]; exact (ih.unit (h.unit k)).1

/-- Sooner or later the state is safe. -/
theorem FameRun.safe (h : FameRun v w u σ) (hvw : w < v) : ∃ n, FameSafe v w (σ n).1 (σ n).2 := by
  obtain ⟨n0, h0⟩ := h.vanishes (δ := (v - w) / 3) (by linarith)
  have small : ∀ n, n0 ≤ n → 3 * (σ n).2 ≤ v - w := fun n hn => by have := h0 n hn; linarith
  -- on the right side of `w`
  have right : ∀ N n : ℕ, n0 ≤ n → w < (σ n).1 → 2 * (σ n).2 ≤ 2 ^ N * ((σ n).1 - w) →
      ∃ n, FameSafe v w (σ n).1 (σ n).2 := by
    intro N
    induction N with
    | zero => exact fun n hn _ hb => ⟨n, h.pos n, small n hn, by linarith⟩
    | succ N ih =>
      intro n hn ha hb
      by_cases c : w + 2 * (σ n).2 ≤ (σ n).1
      · exact ⟨n, h.pos n, small n hn, c⟩
      · have := fame_leave (h.unit n) (h.pos n) (small n hn) ha (not_le.1 c)
        rw [← h.next n] at this
        rcases this with d | ⟨d1, d2⟩
        · exact ⟨n + 1, d⟩
        · refine ih (n + 1) (by omega) d1 ?_
          have hp := h.pos n
          have hp1 := h.pos (n + 1)
          refine le_of_mul_le_mul_right ?_ hp
          calc 2 * (σ (n + 1)).2 * (σ n).2 = (2 * (σ n).2) * (σ (n + 1)).2 := by ring
            _ ≤ (2 ^ (N + 1) * ((σ n).1 - w)) * (σ (n + 1)).2 := mul_le_mul_of_nonneg_right hb hp1.le
            _ = 2 ^ N * (2 * ((σ n).1 - w) * (σ (n + 1)).2) := by ring
            _ ≤ 2 ^ N * (((σ (n + 1)).1 - w) * (σ n).2) := mul_le_mul_of_nonneg_left d2 (by positivity)
            _ = 2 ^ N * ((σ (n + 1)).1 - w) * (σ n).2 := by ring
  have right' : ∀ n : ℕ, n0 ≤ n → w < (σ n).1 → ∃ n, FameSafe v w (σ n).1 (σ n).2 := by
    intro n hn ha
    obtain ⟨N, hN⟩ := pow_unbounded_of_one_lt (2 * (σ n).2 / ((σ n).1 - w)) (by norm_num : (1 : K) < 2)
    rw [div_lt_iff₀ (by linarith)] at hN
    exact right N n hn ha hN.le
  -- on the wrong side of `w`
  have wrong : ∀ N n : ℕ, n0 ≤ n → w - (σ n).1 < N * (σ n).2 → ∃ n, FameSafe v w (σ n).1 (σ n).2 := by
    intro N
    induction N with
    | zero =>
      intro n hn hb
      simp at hb
      exact right' n hn hb
    | succ N ih =>
      intro n hn hb
      by_cases c : w < (σ n).1
      · exact right' n hn c
      · have := fame_cross (h.unit n) (h.pos n) (small n hn) (not_lt.1 c)
        rw [← h.next n] at this
        rcases this with d | ⟨d1, d2⟩
        · exact right' (n + 1) (by omega) d
        · refine ih (n + 1) (by omega) ?_
          rw [d1]
          push_cast at hb
          linarith
  obtain ⟨N, hN⟩ := exists_nat_gt ((w - (σ n0).1) / (σ n0).2)
  exact wrong N n0 le_rfl ((div_lt_iff₀ (h.pos n0)).1 hN)

/-- The estimate is eventually within three steps of `v`. -/
theorem FameRun.close (h : FameRun v w u σ) (hvw : w < v) : ∃ N, ∀ n, N ≤ n → |v - (σ n).1| ≤ 3 * (σ n).2 := by
  obtain ⟨n, hn⟩ := h.safe hvw
  obtain ⟨k, k1, k2, -⟩ := h.halves n
  refine ⟨k + 1, fun j hj => ?_⟩
  induction j, hj using Nat.le_induction with
  | base =>
    have := ((h.safe_from hn k1).unit (h.unit k)).2
    rw [← h.next k] at this
    exact this (.inl (by have := h.pos k; linarith))
  | succ j hj ih =>
    have := ((h.safe_from hn (by omega : n ≤ j)).unit (h.unit j)).2
    rw [← h.next j] at this
    exact this (.inr ih)

end Units

/-! ## Streams -/

theorem firstN_succ (x : ℕ → K) (n : ℕ) : firstN x (n + 1) = firstN x n ++ [x n] := by
  simp [firstN, List.range_succ]

theorem firstN_cons (x : ℕ → K) (n : ℕ) : firstN x (n + 1) = x 0 :: firstN (fun i => x (i + 1)) n := by
  simp [firstN, List.range_succ_eq_map, Function.comp_def]

/-- State after the first `n` observations, from a given state. -/
def fameAt (ms : K × K) (x : ℕ → K) (n : ℕ) : K × K := (firstN x n).foldl (fameNext 0) ms

theorem fameAt_succ (ms : K × K) (x : ℕ → K) (n : ℕ) : fameAt ms x (n + 1) = fameNext 0 (fameAt ms x n) (x n) := by
  simp [fameAt, firstN_succ]

theorem fameAt_pos {ms : K × K} (h : 0 < ms.2) (x : ℕ → K) (n : ℕ) : 0 < (fameAt ms x n).2 := by
  induction n with
  | zero => exact h
  | succ n ih => rw [fameAt_succ]; exact (fameZero_small (m := (fameAt ms x n).1) ih).1

theorem fameAt_near {ms : K × K} (h : 0 < ms.2) (x : ℕ → K) (n j : ℕ) :
    (fameAt ms x (n + j)).2 ≤ (fameAt ms x n).2 ∧ |(fameAt ms x (n + j)).1 - (fameAt ms x n).1| ≤ j * (fameAt ms x n).2 := by
  induction j with
  | zero => simp
  | succ j ih =>
    obtain ⟨i1, i2⟩ := ih
    have hp := fameAt_pos h x (n + j)
    obtain ⟨-, b, c, -⟩ := fameZero_small (m := (fameAt ms x (n + j)).1) (x := x (n + j)) hp
    rw [← add_assoc, fameAt_succ]
    refine ⟨b.trans i1, ?_⟩
    have := abs_add_le ((fameNext 0 (fameAt ms x (n + j)) (x (n + j))).1 - (fameAt ms x (n + j)).1)
      ((fameAt ms x (n + j)).1 - (fameAt ms x n).1)
    rw [sub_add_sub_cancel] at this
    push_cast
    refine this.trans ?_
    have c' : |(fameNext 0 (fameAt ms x (n + j)) (x (n + j))).1 - (fameAt ms x (n + j)).1| ≤ (fameAt ms x (n + j)).2 := c
    linarith

/-- Only `v` and `w` are observed, and after `w` at least twice `v`. -/
structure Spec.RareValue (v w : K) (x : ℕ → K) : Prop where
  two : ∀ n, x n = v ∨ x n = w
  rare : ∀ n, x n = w → x (n + 1) = v ∧ x (n + 2) = v

/-- Where the units begin. -/
def unitPos (v : K) (x : ℕ → K) : ℕ → ℕ
  | 0 => 0
  | n + 1 => unitPos v x n + if x (unitPos v x n) = v then 1 else 3

/-- The units. -/
def unitAt (v w : K) (x : ℕ → K) (n : ℕ) : List K := if x (unitPos v x n) = v then [v] else [w, v, v]

theorem unitPos_lt (v : K) (x : ℕ → K) (n : ℕ) : unitPos v x n < unitPos v x (n + 1) ∧ unitPos v x (n + 1) ≤ unitPos v x n + 3 := by
  rw [unitPos]
  split <;> omega

theorem unitPos_mono (v : K) (x : ℕ → K) : Monotone (unitPos v x) :=
  monotone_nat_of_le_succ fun n => (unitPos_lt v x n).1.le

theorem unitPos_cover (v : K) (x : ℕ → K) (k : ℕ) : ∃ n, unitPos v x n ≤ k ∧ k < unitPos v x (n + 1) := by
  induction k with
  | zero => exact ⟨0, le_rfl, by have := (unitPos_lt v x 0).1; omega⟩
  | succ k ih =>
    obtain ⟨n, h1, h2⟩ := ih
    by_cases c : k + 1 < unitPos v x (n + 1)
    · exact ⟨n, by omega, c⟩
    · exact ⟨n + 1, by omega, by have := (unitPos_lt v x (n + 1)).1; omega⟩

theorem Spec.RareValue.run {v w : K} {x : ℕ → K} (h : RareValue v w x) {ms : K × K} (hs : 0 < ms.2) :
    FameRun v w (unitAt v w x) (fun n => fameAt ms x (unitPos v x n)) where
  unit n := by unfold unitAt; split <;> simp [FameUnit]
  next n := by
    have hc := h.two (unitPos v x n)
    simp only [unitAt, unitPos]
    by_cases c : x (unitPos v x n) = v
    · rw [if_pos c, if_pos c, fameAt_succ, c]; rfl
    · have c' := hc.resolve_left c
      obtain ⟨r1, r2⟩ := h.rare _ c'
      rw [if_neg c, if_neg c, show unitPos v x n + 3 = unitPos v x n + 2 + 1 from rfl, fameAt_succ, fameAt_succ, fameAt_succ, c',
        r1, r2]
      rfl
  start := hs

/-- The case `w < v`, from any state. -/
theorem Spec.RareValue.converges_lt {v w : K} {x : ℕ → K} (h : RareValue v w x) (hvw : w < v) {ms : K × K} (hs : 0 < ms.2) :
    TendsTo (fun n => (fameAt ms x n).1) v := by
  intro δ hδ
  have hr := h.run hs
  obtain ⟨N1, h1⟩ := hr.close hvw
  obtain ⟨N2, h2⟩ := hr.vanishes (δ := δ / 5) (by linarith)
  refine ⟨unitPos v x (max N1 N2), fun k hk => ?_⟩
  obtain ⟨n, n1, n2⟩ := unitPos_cover v x k
  have hn : max N1 N2 ≤ n := by
    by_contra c
    have := unitPos_mono v x (by omega : n + 1 ≤ max N1 N2)
    omega
  obtain ⟨j, rfl⟩ : ∃ j, k = unitPos v x n + j := ⟨k - unitPos v x n, by omega⟩
  have hj : j ≤ 2 := by have := (unitPos_lt v x n).2; omega
  have e1 := h1 n ((le_max_left _ _).trans hn)
  have e2 := h2 n ((le_max_right _ _).trans hn)
  obtain ⟨-, e3⟩ := fameAt_near hs x (unitPos v x n) j
  have hp := fameAt_pos hs x (unitPos v x n)
  have hj' : (j : K) * (fameAt ms x (unitPos v x n)).2 ≤ 2 * (fameAt ms x (unitPos v x n)).2 :=
    mul_le_mul_of_nonneg_right (by exact_mod_cast hj) hp.le
  have := abs_add_le ((fameAt ms x (unitPos v x n + j)).1 - (fameAt ms x (unitPos v x n)).1)
    ((fameAt ms x (unitPos v x n)).1 - v)
  rw [sub_add_sub_cancel, abs_sub_comm (fameAt ms x (unitPos v x n)).1 v] at this
  show |(fameAt ms x (unitPos v x n + j)).1 - v| ≤ δ
  linarith

theorem fameZero_neg (m s x : K) : fameNext 0 (-m, s) (-x) = (-(fameNext 0 (m, s) x).1, (fameNext 0 (m, s) x).2) := by
  have h1 : (fameNext 0 (-m, s) (-x)).1 = -(fameNext 0 (m, s) x).1 := by
    rw [fameNext_fst, fameNext_fst]
    rcases lt_trichotomy x m with h | h | h
    · rw [if_neg (by simpa using h.le), if_pos (by simpa using h), if_pos h]; ring
    · subst h; simp
    · rw [if_pos (by simpa using h), if_neg (not_lt.2 h.le), if_pos h]; ring
  refine Prod.ext h1 ?_
  rw [fameNext_snd, fameNext_snd, h1]
  have : |-x - -(fameNext 0 (m, s) x).1| = |x - (fameNext 0 (m, s) x).1| := by
    rw [← abs_neg]; congr 1; ring
  rw [this]

theorem fameAt_neg (ms : K × K) (x : ℕ → K) (n : ℕ) :
    fameAt (-ms.1, ms.2) (fun i => -x i) n = (-(fameAt ms x n).1, (fameAt ms x n).2) := by
  induction n with
  | zero => rfl
  | succ n ih => rw [fameAt_succ, ih, fameAt_succ, fameZero_neg]

theorem Spec.RareValue.converges {v w : K} {x : ℕ → K} (h : RareValue v w x) (hvw : w ≠ v) {ms : K × K} (hs : 0 < ms.2) :
    TendsTo (fun n => (fameAt ms x n).1) v := by
  rcases lt_or_gt_of_ne hvw with c | c
  · exact h.converges_lt c hs
  · have h' : RareValue (-v) (-w) (fun i => -x i) :=
      ⟨fun n => by simpa using h.two n, fun n e => by simpa using h.rare n (by simpa using e)⟩
    have := h'.converges_lt (by simpa using c) (ms := (-ms.1, ms.2)) hs
    intro δ hδ
    obtain ⟨N, hN⟩ := this δ hδ
    refine ⟨N, fun n hn => ?_⟩
    have e := hN n hn
    simp only at e
    rw [fameAt_neg, ← abs_neg] at e
    simpa [sub_eq_add_neg, add_comm] using e

/-- The members of a list over and over again. -/
def Spec.repeating (p : List K) (i : ℕ) : K := p.getD (i % p.length) 0

/-- **C113**, the full claim (exact arithmetic, `epsilon = 0`): if one value makes up more than half of a stream that repeats
itself, then the estimate converges to that value, which is the median. -/
def C113_full : Prop := ∀ (s : ℚ) (f : Fame ℚ) (p : List ℚ) (v : ℚ), 0 < s → Fame.new (exact ℚ) s 0 = .ok f →
  p.length < 2 * p.count v →
  TendsTo (fun n => ((firstN (repeating p) n).foldl (Fame.update (exact ℚ)) f).evaluate) v

/-- Five observations of the witness shrink the state by the factor 4 towards the minority value. -/
theorem fame_stuck {a : ℚ} (h0 : 0 < a) (h1 : a ≤ 1 / 8) :
    [3, 2, 3, 2, 3].foldl (fameNext 0) (2 - a, 3 * a) = (2 - a / 4, 3 * (a / 4)) := by
  simp only [List.foldl_cons, List.foldl_nil]
  have e1 : fameNext 0 (2 - a, 3 * a) 3 = (2 + 2 * a, 3 * a) := by
    rw [fameZero_up (by linarith), if_neg]
    · congr 1; ring
    · rw [not_lt]; exact le_trans (by linarith) (le_abs_self _)
  have e2 : fameNext 0 (2 + 2 * a, 3 * a) 2 = (2 - a, 3 * a / 2) := by
    rw [fameZero_down (by linarith), if_pos]
    · congr 1; ring
    · rw [abs_lt]; constructor <;> linarith
  have e3 : fameNext 0 (2 - a, 3 * a / 2) 3 = (2 + a / 2, 3 * a / 2) := by
    rw [fameZero_up (by linarith), if_neg]
    · congr 1; ring
    · rw [not_lt]; exact le_trans (by linarith) (le_abs_self _)
  have e4 : fameNext 0 (2 + a / 2, 3 * a / 2) 2 = (2 - a, 3 * a / 4) := by
    rw [fameZero_down (by linarith), if_pos]
    · congr 1 <;> ring
    · rw [abs_lt]; constructor <;> linarith
  have e5 : fameNext 0 (2 - a, 3 * a / 4) 3 = (2 - a / 4, 3 * (a / 4)) := by
    rw [fameZero_up (by linarith), if_neg]
    · congr 1 <;> ring
    · rw [not_lt]; exact le_trans (by linarith) (le_abs_self _)
  rw [e1, e2, e3, e4, e5]

/-- The repeating stream 3, 2, 3, 2, 3 leads the estimate to 2. -/
theorem fame_stuck_run (k : ℕ) : fame (1 / 10 : ℚ) 0 (firstN (repeating [3, 2, 3, 2, 3]) (5 * (k + 1))) =
    (2 - 1 / 8 / 4 ^ k, 3 * (1 / 8 / 4 ^ k)) := by
  induction k with
  | zero => decide +kernel
  | succ k ih =>
    have e : firstN (repeating ([3, 2, 3, 2, 3] : List ℚ)) (5 * (k + 1 + 1)) =
        firstN (repeating [3, 2, 3, 2, 3]) (5 * (k + 1)) ++ [3, 2, 3, 2, 3] := by
      rw [show 5 * (k + 1 + 1) = 5 * (k + 1) + 1 + 1 + 1 + 1 + 1 by ring]
      simp only [firstN_succ, List.append_assoc, List.cons_append, List.nil_append]
      congr 1
      simp only [repeating, List.length_cons, List.length_nil]
      have m0 : 5 * (k + 1) % 5 = 0 := by omega
      have m1 : (5 * (k + 1) + 1) % 5 = 1 := by omega
      have m2 : (5 * (k + 1) + 1 + 1) % 5 = 2 := by omega
      have m3 : (5 * (k + 1) + 1 + 1 + 1) % 5 = 3 := by omega
      have m4 : (5 * (k + 1) + 1 + 1 + 1 + 1) % 5 = 4 := by omega
      norm_num [m0, m1, m2, m3, m4]
    have hc : firstN (repeating ([3, 2, 3, 2, 3] : List ℚ)) (5 * (k + 1)) =
        3 :: firstN (fun i => repeating [3, 2, 3, 2, 3] (i + 1)) (5 * k + 4) := by
      rw [show 5 * (k + 1) = 5 * k + 4 + 1 by ring, firstN_cons]
      rfl
    rw [e]
    rw [hc] at ih ⊢
    rw [List.cons_append, fame, List.foldl_append]
    rw [fame] at ih
    rw [ih, fame_stuck (by positivity)]
    · rw [pow_succ]
      congr 1 <;> ring
    · have : (1 : ℚ) ≤ 4 ^ k := one_le_pow₀ (by norm_num)
      rw [div_le_iff₀ (by positivity)]
      linarith

/-- **C113** is false of the code: of 3, 2, 3, 2, 3 repeated, three in five observations are 3, but every observation of 2
halves the step, so that the way to 3 is never made and the estimate converges to the minority value 2. -/
theorem C113_violated : ¬ C113_full ∧
    ∃ f, Fame.new (exact ℚ) (1 / 10) 0 = .ok f ∧ ∀ k : ℕ,
      ((firstN (repeating [3, 2, 3, 2, 3]) (5 * (k + 1))).foldl (Fame.update (exact ℚ)) f).evaluate = 2 - 1 / 8 / 4 ^ k := by
  have hf : Fame.new (exact ℚ) (1 / 10) 0 = .ok ⟨0, 1 / 10, 0, 0⟩ := by decide +kernel
  have hk : ∀ k : ℕ, ((firstN (repeating [3, 2, 3, 2, 3]) (5 * (k + 1))).foldl (Fame.update (exact ℚ)) ⟨0, 1 / 10, 0, 0⟩).evaluate =
      2 - 1 / 8 / 4 ^ k := by
    intro k
    have := C77_recursion (1 / 10) 0 _ hf (firstN (repeating [3, 2, 3, 2, 3]) (5 * (k + 1)))
    rw [fame_stuck_run] at this
    exact congrArg Prod.fst this
  refine ⟨fun h => ?_, _, hf, hk⟩
  obtain ⟨N, hN⟩ := h (1 / 10) _ [3, 2, 3, 2, 3] 3 (by norm_num) hf (by decide +kernel) (1 / 2) (by norm_num)
  have := hN (5 * (N + 1)) (by omega)
  simp only at this
  rw [hk, abs_le] at this
  have hp : (0 : ℚ) < 1 / 8 / 4 ^ N := by positivity
  linarith [this.1]

/-- **C113**, the part that holds (exact arithmetic, `epsilon = 0`): after any stream, if from then on only two values are
observed and each observation of the one is followed by two of the other at least, the estimate converges to the other.
Missing: other orders, where it fails (`C113_violated`). -/
theorem C113_rare_partial (s : K) (hs : 0 < s) (f : Fame K) (hf : Fame.new (exact K) s 0 = .ok f) (xs : List K) (v w : K)
    (hvw : w ≠ v) (x : ℕ → K) (hx : RareValue v w x) :
    TendsTo (fun n => ((xs ++ firstN x n).foldl (Fame.update (exact K)) f).evaluate) v := by
  have ev : ∀ l : List K, (l.foldl (Fame.update (exact K)) f).evaluate = (fame s 0 l).1 := fun l =>
    congrArg Prod.fst (C77_recursion s 0 f hf l)
  have fpos : ∀ (l : List K) (ms : K × K), 0 < ms.2 → 0 < (l.foldl (fameNext 0) ms).2 := by
    intro l
    induction l with
    | nil => exact fun ms h => h
    | cons y l ih => exact fun ms h => ih _ (fameZero_small (m := ms.1) h).1
  have start : ∀ y : K, 0 < max (|y| / 2) s * (1 + 0) := fun y => by
    rw [add_zero, mul_one]
    exact lt_max_of_lt_right hs
  cases xs with
  | cons y ys =>
    have := hx.converges hvw (ms := ys.foldl (fameNext 0) (y, max (|y| / 2) s * (1 + 0))) (fpos _ _ (start y))
    intro δ hδ
    obtain ⟨N, hN⟩ := this δ hδ
    refine ⟨N, fun n hn => ?_⟩
    have e := hN n hn
    simp only [fameAt] at e
    show |((y :: ys ++ firstN x n).foldl (Fame.update (exact K)) f).evaluate - v| ≤ δ
    rw [ev, List.cons_append, fame, List.foldl_append]
    exact e
  | nil =>
    have hx' : RareValue v w (fun i => x (i + 1)) := ⟨fun n => hx.two _, fun n e => hx.rare _ e⟩
    have := hx'.converges hvw (ms := (x 0, max (|x 0| / 2) s * (1 + 0))) (start (x 0))
    intro δ hδ
    obtain ⟨N, hN⟩ := this δ hδ
    refine ⟨N + 1, fun n hn => ?_⟩
    obtain ⟨k, rfl⟩ : ∃ k, n = k + 1 := ⟨n - 1, by omega⟩
    have e := hN k (by omega)
    simp only [fameAt] at e
    show |(([] ++ firstN x (k + 1)).foldl (Fame.update (exact K)) f).evaluate - v| ≤ δ
    rw [ev, List.nil_append, firstN_cons, fame]
    exact e

/-- One observation in three is 2, the others 3: the estimate converges to 3 whatever came before. -/
example (xs : List ℚ) : ∃ f, Fame.new (exact ℚ) (1 / 10) 0 = .ok f ∧
    TendsTo (fun n => ((xs ++ firstN (repeating [2, 3, 3]) n).foldl (Fame.update (exact ℚ)) f).evaluate) 3 := by
  refine ⟨⟨0, 1 / 10, 0, 0⟩, by decide +kernel, C113_rare_partial (1 / 10) (by norm_num) _ (by decide +kernel) xs 3 2 (by norm_num) _ ⟨?_, ?_⟩⟩
  · intro n
    rcases (by omega : n % 3 = 0 ∨ n % 3 = 1 ∨ n % 3 = 2) with h | h | h <;> simp [repeating, h]
  · intro n h
    have h0 : n % 3 = 0 := by
      rcases (by omega : n % 3 = 0 ∨ n % 3 = 1 ∨ n % 3 = 2) with c | c | c
      · exact c
      · norm_num [repeating, c] at h
      · norm_num [repeating, c] at h
    have h1 : (n + 1) % 3 = 1 := by omega
    have h2 : (n + 2) % 3 = 2 := by omega
    simp [repeating, h1, h2]

end KML
