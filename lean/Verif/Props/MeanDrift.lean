import Verif.Props.MeanError

/-! # C94: the linear growth of the rounding error of StreamingMean is attained -/

set_option linter.unusedSectionVars false

namespace KML

open Spec

/-- Ten observations after which a window of 5 is full of zeros: one of magnitude `2 ^ 54`, four threes that the sum rounds up
to fours while the large one is in the window, and five zeros that evict the large one and then the threes. -/
def driftCycle : List ℚ := [2 ^ 54, 3, 3, 3, 3, 0, 0, 0, 0, 0]

/-- `k` cycles. -/
def driftStream : ℕ → List ℚ
  | 0 => []
  | k + 1 => driftStream k ++ driftCycle

theorem driftStream_length (k : ℕ) : (driftStream k).length = 10 * k := by
  induction k with
  | zero => rfl
  | succ k ih => simp [driftStream, ih, driftCycle]; ring

theorem driftStream_mem {k : ℕ} {x : ℚ} (h : x ∈ driftStream k) : x = 2 ^ 54 ∨ x = 3 ∨ x = 0 := by
  induction k with
  | zero => cases h
  | succ k ih =>
    rcases List.mem_append.1 h with h | h
    · exact ih h
    · simp only [driftCycle, List.mem_cons, List.not_mem_nil, or_false] at h
      tauto

theorem driftStream_window (k : ℕ) (hk : 0 < k) : windowOf 5 (driftStream k) = [0, 0, 0, 0, 0] := by
  obtain ⟨k, rfl⟩ : ∃ j, k = j + 1 := ⟨k - 1, by omega⟩
  have : driftStream (k + 1) = (driftStream k ++ [2 ^ 54, 3, 3, 3, 3]) ++ [0, 0, 0, 0, 0] := by
    simp [driftStream, driftCycle]
  rw [windowOf, if_neg (by norm_num), lastN, this]
  rw [List.drop_append_of_le_length (by simp)]
  rw [List.drop_of_length_le (by simp)]
  rfl

theorem rnd64_drift_exact (m : ℕ) (h : m ≤ 2 ^ 52) : rnd64 (2 ^ 54 + 4 * (m : ℚ)) = 2 ^ 54 + 4 * m := by
  have := rnd64_repr ((2 ^ 52 + m : ℕ) : ℤ) 2 (by rw [Nat.abs_cast]; norm_num; omega) (by norm_num)
  have e : (((2 ^ 52 + m : ℕ) : ℤ) : ℚ) * pow2 2 = 2 ^ 54 + 4 * m := by
    have : pow2 2 = 4 := by decide +kernel
    rw [this]; push_cast; ring
  rwa [e] at this

theorem rnd64_drift_up (m : ℕ) (h : m < 2 ^ 51) : rnd64 (2 ^ 54 + 4 * (m : ℚ) + 3) = 2 ^ 54 + 4 * ((m + 1 : ℕ) : ℚ) := by
  have hm : (m : ℚ) < 2 ^ 51 := by exact_mod_cast h
  have hm0 : (0 : ℚ) ≤ m := by positivity
  have hpos : (0 : ℚ) < 2 ^ 54 + 4 * (m : ℚ) + 3 := by positivity
  have e1 : pow2 54 = 2 ^ 54 := by decide +kernel
  have e2 : pow2 (54 + 1) = 2 ^ 55 := by decide +kernel
  have he : expo (2 ^ 54 + 4 * (m : ℚ) + 3) = 54 := by
    apply expo_unique
    · rw [abs_of_pos hpos, e1]; linarith
    · rw [abs_of_pos hpos, e2]; linarith
  have h4 : pow2 2 = 4 := by decide +kernel
  have hr : rne ((2 ^ 54 + 4 * (m : ℚ) + 3) / 4) = 2 ^ 52 + m + 1 := by
    have hf : ⌊(2 ^ 54 + 4 * (m : ℚ) + 3) / 4⌋ = 2 ^ 52 + m := by
      rw [Int.floor_eq_iff]
      push_cast
      constructor <;> linarith
    unfold rne
    simp only [hf]
    push_cast
    rw [if_neg (by linarith), if_pos (by linarith)]
  rw [rnd64, if_neg hpos.ne', he]
  show rndAt 2 _ = _
  rw [rndAt, h4, hr]
  push_cast
  ring

/-- One cycle moves the sum by 4 although the window holds the same five zeros before and after. -/
theorem Mean.drift_cycle (m : Mean ℚ) (w : List ℚ) (k : ℕ) (hk : k < 2 ^ 50) (hW : m.windowSize = 5)
    (hw : m.window = some w) (hz : w = [] ∨ w = [0, 0, 0, 0, 0]) (hs : m.sum = 4 * k) :
    updateAll (Mean.update b64) m driftCycle
      = .ok { m with historyCount := m.historyCount + 10, window := some [0, 0, 0, 0, 0], sum := 4 * ((k + 1 : ℕ) : ℚ) } := by
  have z : ∀ x : ℚ, b64.sub x 0 = rnd64 x := fun x => by show rnd64 (x - 0) = _; rw [sub_zero]
  have zz : ∀ x : ℚ, b64.add x 0 = rnd64 x := fun x => by show rnd64 (x + 0) = _; rw [add_zero]
  have i : ∀ n : ℕ, n ≤ 2 ^ 53 → rnd64 (n : ℚ) = n := fun n h => by
    have := rnd64_int n (by rw [Nat.abs_cast]; exact_mod_cast h)
    exact_mod_cast this
  have i4 : rnd64 (4 * (k : ℚ)) = 4 * k := by
    have := i (4 * k) (by omega)
    push_cast at this; exact this
  have x0 := rnd64_drift_exact k (by omega)
  have x1 := rnd64_drift_exact (k + 1) (by omega)
  have x2 := rnd64_drift_exact (k + 2) (by omega)
  have x3 := rnd64_drift_exact (k + 3) (by omega)
  have a0 : b64.add (4 * (k : ℚ)) (2 ^ 54) = 2 ^ 54 + 4 * k := by show rnd64 _ = _; rw [add_comm, x0]
  have a1 : b64.add (2 ^ 54 + 4 * (k : ℚ)) 3 = 2 ^ 54 + 4 * ((k + 1 : ℕ) : ℚ) := rnd64_drift_up k (by omega)
  have a2 : b64.add (2 ^ 54 + 4 * ((k + 1 : ℕ) : ℚ)) 3 = 2 ^ 54 + 4 * ((k + 2 : ℕ) : ℚ) := rnd64_drift_up (k + 1) (by omega)
  have a3 : b64.add (2 ^ 54 + 4 * ((k + 2 : ℕ) : ℚ)) 3 = 2 ^ 54 + 4 * ((k + 3 : ℕ) : ℚ) := rnd64_drift_up (k + 2) (by omega)
  have a4 : b64.add (2 ^ 54 + 4 * ((k + 3 : ℕ) : ℚ)) 3 = 2 ^ 54 + 4 * ((k + 4 : ℕ) : ℚ) := rnd64_drift_up (k + 3) (by omega)
  have s0 : b64.sub (2 ^ 54 + 4 * ((k + 4 : ℕ) : ℚ)) (2 ^ 54) = ((4 * k + 16 : ℕ) : ℚ) := by
    show rnd64 _ = _
    have : 2 ^ 54 + 4 * ((k + 4 : ℕ) : ℚ) - 2 ^ 54 = ((4 * k + 16 : ℕ) : ℚ) := by push_cast; ring
    rw [this, i _ (by omega)]
  have s : ∀ n : ℕ, n + 3 ≤ 2 ^ 53 → b64.sub ((n + 3 : ℕ) : ℚ) 3 = (n : ℚ) := fun n h => by
    show rnd64 _ = _
    have : ((n + 3 : ℕ) : ℚ) - 3 = (n : ℚ) := by push_cast; ring
    rw [this, i _ (by omega)]
  have s1 := s (4 * k + 13) (by omega)
  have s2 := s (4 * k + 10) (by omega)
  have s3 := s (4 * k + 7) (by omega)
  have s4 := s (4 * k + 4) (by omega)
  have j1 := i (4 * k + 16) (by omega)
  have j2 := i (4 * k + 13) (by omega)
  have j3 := i (4 * k + 10) (by omega)
  have j4 := i (4 * k + 7) (by omega)
  have j5 := i (4 * k + 4) (by omega)
  have fin : ((4 * k + 4 : ℕ) : ℚ) = 4 * ((k : ℚ) + 1) := by push_cast; ring
  obtain ⟨W, win, h, sum⟩ := m
  simp only at hW hw hs
  subst hW hw hs
  rcases hz with rfl | rfl <;>
  · simp [driftCycle, updateAll, Mean.update, z, zz]
    simp only [i4, x0, x1, x2, x3, a0, a1, a2, a3, a4, s0, s1, s2, s3, s4, j1, j2, j3, j4]
    rw [j5, fin]

theorem Mean.drift_run (k : ℕ) (hk : k ≤ 2 ^ 50) : ∃ m : Mean ℚ,
    updateAll (Mean.update b64) (Mean.new b64 5) (driftStream k) = .ok m ∧ m.windowSize = 5 ∧
      (∃ w, m.window = some w ∧ (w = [] ∨ w = [0, 0, 0, 0, 0]) ∧ (0 < k → w = [0, 0, 0, 0, 0])) ∧ m.historyCount = 10 * k ∧
      m.sum = 4 * k := by
  induction k with
  | zero =>
    refine ⟨Mean.new b64 5, rfl, rfl, ⟨[], rfl, .inl rfl, fun h => absurd h (by omega)⟩, rfl, ?_⟩
    show b64.lit 0 = _
    rw [Nat.cast_zero, mul_zero]
    decide +kernel
  | succ k ih =>
    obtain ⟨m, h1, h2, ⟨w, h3, h4, -⟩, h5, h6⟩ := ih (by omega)
    refine ⟨{ m with historyCount := m.historyCount + 10, window := some [0, 0, 0, 0, 0], sum := 4 * ((k + 1 : ℕ) : ℚ) }, ?_,
      h2, ⟨_, rfl, .inr rfl, fun _ => rfl⟩, ?_, rfl⟩
    · rw [driftStream, updateAll_append, h1]
      exact Mean.drift_cycle m w k (by omega) h2 h3 h4 h6
    · show m.historyCount + 10 = _
      omega

/-- **C94**: the growth is attained (doubles with overflow). After `k` cycles of ten observations of magnitude at most
`M = 2 ^ 54` the window holds five zeros and the mean is at least `3 / 4 * k`, that is `3 / 80` of a rounding error
(`M / 2 ^ 53`) for each of the `N = 10 * k` observations. No bound free of `N` replaces the one of `C94_mean`. -/
theorem C94_attained (k : ℕ) (hk0 : 0 < k) (hk : k ≤ 2 ^ 48) :
    (∀ x ∈ driftStream k, rnd64 x = x ∧ |x| ≤ 2 ^ 54) ∧ (driftStream k).length = 10 * k ∧
      windowOf 5 (driftStream k) = [0, 0, 0, 0, 0] ∧
      ∃ d a, updateAll (Mean.update Dbl.arith) (Mean.new Dbl.arith 5) ((driftStream k).map .fin) = .ok d ∧
        d.evaluate Dbl.arith = .fin a ∧
        3 / 80 * (driftStream k).length * (2 ^ 54 / 2 ^ 53) ≤ a - mean (windowOf 5 (driftStream k)) := by
  have hx : ∀ x ∈ driftStream k, rnd64 x = x ∧ |x| ≤ 2 ^ 54 := by
    intro x h
    rcases driftStream_mem h with rfl | rfl | rfl <;> decide +kernel
  have hw := driftStream_window k hk0
  refine ⟨hx, driftStream_length k, hw, ?_⟩
  obtain ⟨d, m, h1, h2, h3⟩ := C83_moderate_partial 5 (driftStream k)
    (fun x h => ⟨(hx x h).1, (hx x h).2.trans (by decide +kernel)⟩) (by rw [driftStream_length]; omega)
  refine ⟨d, _, h1, h3, ?_⟩
  obtain ⟨m', g1, g2, ⟨w, g3, -, g4⟩, g5, g6⟩ := Mean.drift_run k (by omega)
  rw [h2] at g1
  injection g1 with g1
  subst g1
  have hm : mean ([0, 0, 0, 0, 0] : List ℚ) = 0 := by decide +kernel
  rw [hw, hm, driftStream_length, Mean.evaluate, if_neg (by omega), g3, g4 hk0]
  show _ ≤ rnd64 (m.sum / rnd64 5) - 0
  have h5 : rnd64 5 = 5 := by decide +kernel
  rw [h5, g6]
  have hmono : rnd64 (((3 * k : ℕ) : ℤ) * pow2 (-2)) ≤ rnd64 (4 * (k : ℚ) / 5) := by
    apply rnd64_mono
    have : pow2 (-2) = 1 / 4 := by decide +kernel
    rw [this]
    push_cast
    have : (0 : ℚ) ≤ k := by positivity
    linarith
  rw [rnd64_repr _ _ (by rw [Nat.abs_cast]; norm_num; omega) (by norm_num)] at hmono
  have : pow2 (-2) = 1 / 4 := by decide +kernel
  rw [this] at hmono
  push_cast at hmono ⊢
  linarith

/-- Three cycles. -/
example : (0 < 3 ∧ 3 ≤ 2 ^ 48) ∧ ((updateAll (Mean.update b64) (Mean.new b64 5) (driftStream 3)).mapOk
    fun m => m.evaluate b64) = .ok (rnd64 (12 / 5)) := by decide +kernel

end KML
