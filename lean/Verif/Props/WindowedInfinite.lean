import Verif.Props.WindowedJump
import Verif.Props.P2Clear

/-!
# C141: infinite observations of WindowedP2Quantile and StreamingIQR
-/

namespace KML

open Spec

/-- **C141**, the full claim: an estimate over a window in which every observation is a double of magnitude up to 2^950 is
finite, whatever was observed before. -/
def C141_full : Prop :=
  ∀ (q : ℚ) (W : ℕ) (w w' w'' : WP2 Dbl) (v : Dbl) (ds : List Dbl) (xs : List ℚ), 4 ≤ W → W < 2 ^ 64 →
    WP2.new Dbl.arith (.fin q) W = .ok w → (∀ x ∈ xs, IsModerate x) → W ≤ xs.length →
    updateAll (WP2.update Dbl.arith) w (ds ++ xs.map .fin) = .ok w' → w'.evaluate Dbl.arith = .ok (v, w'') → ∃ r, v = .fin r

/-- `+∞` and the numbers from 0 to `k - 1`. -/
def risingAfterInf (k : ℕ) : List Dbl := .inf false :: ((List.range k).map fun i => (i : ℚ)).map .fin

/-- After `+∞` and the fourteen numbers from 0 to 13 the median over a window of seven is `-∞`. -/
theorem C141_infinite : (do
    let w ← WP2.new Dbl.arith (.fin (1 / 2)) 7
    WP2.valueAfter Dbl.arith w (risingAfterInf 14)) = .ok (.inf true) := by
  decide +kernel

/-- **C141** is violated: after `+∞` and fourteen finite observations in a window of seven. -/
theorem C141_violated : ¬ C141_full := by
  intro h
  have h1 := C141_infinite
  obtain ⟨w, e1, h1⟩ := Res.bind_eq_ok.1 h1
  unfold WP2.valueAfter at h1
  obtain ⟨w', e2, h1⟩ := Res.bind_eq_ok.1 h1
  obtain ⟨⟨v, w''⟩, e3, h1⟩ := Res.bind_eq_ok.1 h1
  injection h1 with h1
  subst h1
  obtain ⟨r, hr⟩ := h (1 / 2) 7 w w' w'' _ [.inf false] ((List.range 14).map fun i => (i : ℚ)) (by norm_num) (by norm_num) e1
    (by unfold IsModerate; decide +kernel) (by simp) e2 e3
  cases hr

/-- When the estimate is looked at after every update, `2 W + 1` finite observations are not enough either: the 0.1 quantile
over a window of four, after five times `-∞` and nine ones. -/
theorem C141_watched_violated : (do
    let w ← WP2.new Dbl.arith (.fin (1 / 10)) 4
    let r ← SOp.run (WP2.update Dbl.arith) (WP2.evaluate Dbl.arith) w
      ((List.replicate 5 (Dbl.inf true) ++ List.replicate 9 (Dbl.fin 1)).flatMap fun x => [SOp.update x, SOp.evaluate])
    .ok (r.1.getLast?.getD (.fin 0))) = .ok .nan := by
  decide +kernel

namespace P2

/-- What every state has, whatever was observed: the level, and increasing positions. -/
structure Loose (q : ℚ) (p : P2 Dbl) : Prop where
  level : p.quantile = .fin q
  pos : PosInc p.pos
  top : p.pos.x4 ≤ intMax

theorem Loose.update {q : ℚ} {p p' : P2 Dbl} (h : Loose q p) {x : Dbl} (hu : p.update Dbl.arith x = .ok p') : Loose q p' := by
  have hp := update_posInc dbl_sane h.pos hu
  have ht := h.top
  rw [update_eq h.pos] at hu
  split at hu
  · injection hu with hu
    subst hu
    obtain ⟨-, f2, f3⟩ := updateFirst_frame (A := Dbl.arith) p x
    exact ⟨f2.trans h.level, hp, by rw [f3]; exact ht⟩
  · split at hu
    · cases hu
    · injection hu with hu
      subst hu
      obtain ⟨-, f2, f3, -⟩ := updateLater_frame (A := Dbl.arith) p x
      exact ⟨f2.trans h.level, hp, by rw [f3]; omega⟩

theorem Loose.evaluate {q : ℚ} {p p' : P2 Dbl} (h : Loose q p) {v : Dbl} (he : p.evaluate Dbl.arith = .ok (v, p')) :
    Loose q p' := by
  obtain ⟨e1, -, e3⟩ := evaluate_frame he
  exact ⟨e3.trans h.level, by rw [e1]; exact h.pos, by rw [e1]; exact h.top⟩

/-- Five or more observations after `clear` leave nothing of the old heights. -/
theorem updateAll_fresh {F : Type} (A : Arith F) {p r : P2 F} (hp : p.historyCount = 0) (hr : r.historyCount = 0)
    (hq : p.quantile = r.quantile) (hpos : p.pos = r.pos) (xs : List F) (h5 : 5 ≤ xs.length) :
    updateAll (P2.update A) p xs = updateAll (P2.update A) r xs := by
  match xs, h5 with
  | a :: b :: c :: d :: e :: xs, _ =>
    rw [show a :: b :: c :: d :: e :: xs = [a, b, c, d, e] ++ xs from rfl, updateAll_append, updateAll_append,
      five_updates A p hp, five_updates A r hr, hq, hpos]

theorem Loose.twin {q : ℚ} {p : P2 Dbl} (h : Loose q p) (q0 : 0 < q) (q1 : q < 1) (M : ℤ) :
    Fit M (⟨q, ⟨0, 0, 0, 0, 0⟩, p.pos, ⟨0, 0, 0, 0, 0⟩, 0⟩ : P2 ℚ) := by
  have hp := pow2_pos M
  refine ⟨⟨q0, q1, h.pos, ?_, ?_, fun h5 => absurd (show 5 ≤ 0 from h5) (by decide)⟩, h.top, ?_⟩
  · intro x hx
    have : x = 0 := by simpa [Five.toList] using hx
    rw [this]; exact R64.rnd_zero
  · intro x hx
    have : x = 0 := by simpa [Five.toList] using hx
    rw [this]; constructor <;> linarith
  · obtain ⟨k0, k1, k2, k3, k4⟩ := h.pos
    show ((0 : ℕ) : ℤ) ≤ p.pos.x4 + 1
    omega

end P2

namespace WP2

/-- A whole block: the inner estimator sees the block, is evaluated and cleared. -/
theorem updateAll_block {F : Type} (A : Arith F) (W m : ℕ) (p : P2 F) (pv : F) (xs : List F) (hW : 0 < W)
    (hx : xs.length = W + 1) :
    updateAll (WP2.update A) (⟨W, m * (W + 1), p, pv⟩ : WP2 F) xs = (do
      let p' ← updateAll (P2.update A) p xs
      let (v, p'') ← p'.evaluate A
      .ok ⟨W, (m + 1) * (W + 1), p''.clear, v⟩) := by
  have hne : xs ≠ [] := by rintro rfl; simp at hx
  obtain ⟨ys, y, rfl⟩ : ∃ ys y, xs = ys ++ [y] := ⟨xs.dropLast, xs.getLast hne, (List.dropLast_append_getLast hne).symm⟩
  have hy : ys.length = W := by simpa using hx
  have e0 : (⟨W, m * (W + 1), p, pv⟩ : WP2 F) =
      { (⟨W, 0, p, pv⟩ : WP2 F) with historyCount := (⟨W, 0, p, pv⟩ : WP2 F).historyCount + m * ((⟨W, 0, p, pv⟩ : WP2 F).windowSize + 1) } := by
    simp
  rw [updateAll_append, updateAll_append, e0, updateAll_shift, updateAll_short A W p pv 0 ys (by omega), hy]
  rcases updateAll (P2.update A) p ys with p1 | s | u
  · simp only [Res.mapOk, Res.ok_bind, updateAll]
    unfold WP2.update
    have e1 : (0 + W + m * (W + 1) + 1) = (m + 1) * (W + 1) := by ring
    simp only [e1]
    rcases p1.update A y with p2 | s | u
    · simp only [Res.ok_bind]
      rw [if_pos hW, if_pos (Nat.mul_mod_left _ _)]
      rcases p2.evaluate A with ⟨v, p3⟩ | s | u <;> rfl
    · rfl
    · rfl
  · rfl
  · rfl

/-- A block of moderate observations makes everything finite, whatever was there before. -/
theorem block_finite {q : ℚ} {w w' : WP2 Dbl} (h : P2.Loose q w.p2) (q0 : 0 < q) (q1 : q < 1) (hW : 4 ≤ w.windowSize)
    (hW' : w.windowSize < 2 ^ 64) (h0 : w.p2.historyCount = 0) (hn : w.historyCount % (w.windowSize + 1) = 0) (xs : List ℚ)
    (hx : ∀ x ∈ xs, IsModerate x) (hl : xs.length = w.windowSize + 1)
    (hu : updateAll (WP2.update Dbl.arith) w (xs.map .fin) = .ok w') :
    ∃ r : WP2 ℚ, w' = r.map .fin ∧ Fit 950 r := by
  obtain ⟨W, n, p, pv⟩ := w
  dsimp only at *
  obtain ⟨m, rfl⟩ : ∃ m, n = m * (W + 1) := ⟨n / (W + 1), by
    have := Nat.div_add_mod n (W + 1); rw [hn, add_zero, mul_comm] at this; exact this.symm⟩
  have hf : Fit 950 (⟨W, m * (W + 1), ⟨q, ⟨0, 0, 0, 0, 0⟩, p.pos, ⟨0, 0, 0, 0, 0⟩, 0⟩, 0⟩ : WP2 ℚ) :=
    ⟨h.twin q0 q1 950, by simpa using (pow2_pos 950).le, hW'⟩
  have e : updateAll (WP2.update Dbl.arith) ((⟨W, m * (W + 1), ⟨q, ⟨0, 0, 0, 0, 0⟩, p.pos, ⟨0, 0, 0, 0, 0⟩, 0⟩, 0⟩ : WP2 ℚ).map .fin)
      (xs.map .fin) = .ok w' := by
    rw [← hu, updateAll_block Dbl.arith W m p pv _ (by omega) (by simpa using hl)]
    refine (updateAll_block Dbl.arith W m _ _ _ (by omega) (by simpa using hl)).trans ?_
    rw [P2.updateAll_fresh Dbl.arith (p := p) (r := P2.map Dbl.fin ⟨q, ⟨0, 0, 0, 0, 0⟩, p.pos, ⟨0, 0, 0, 0, 0⟩, 0⟩) h0 rfl h.level rfl
      _ (by rw [List.length_map]; omega)]
  obtain ⟨r, -, e2, e3⟩ := hf.updateAll (by norm_num) (by norm_num) xs (fun x hx' => hx x hx') e
  exact ⟨r, e2, e3⟩

theorem loose_updateAll {q : ℚ} {w w' : WP2 Dbl} (h : P2.Loose q w.p2) {ds : List Dbl}
    (hu : updateAll (WP2.update Dbl.arith) w ds = .ok w') : P2.Loose q w'.p2 := by
  induction ds generalizing w with
  | nil => simp only [updateAll] at hu; injection hu with hu; subst hu; exact h
  | cons d ds ih =>
    simp only [updateAll] at hu
    obtain ⟨w1, h1, hu⟩ := Res.bind_eq_ok.1 hu
    refine ih ?_ hu
    unfold WP2.update at h1
    obtain ⟨p1, h2, h1⟩ := Res.bind_eq_ok.1 h1
    have h3 := h.update h2
    split at h1
    · split at h1
      · obtain ⟨⟨v, p2⟩, h4, h1⟩ := Res.bind_eq_ok.1 h1
        injection h1 with h1
        subst h1
        have := h3.evaluate h4
        exact ⟨this.level, this.pos, this.top⟩
      · injection h1 with h1; subst h1; exact h3
    · injection h1 with h1; subst h1; exact h3

/-- After `2 W + 1` moderate observations the state is one of moderate observations. -/
theorem settles_finite {q : ℚ} {W : ℕ} {w w' : WP2 Dbl} (hW : 4 ≤ W) (hW' : W < 2 ^ 64) (hw : WP2.new Dbl.arith (.fin q) W = .ok w)
    (ds : List Dbl) (xs : List ℚ) (hx : ∀ x ∈ xs, IsModerate x) (hl : 2 * W + 1 ≤ xs.length)
    (hu : updateAll (WP2.update Dbl.arith) w (ds ++ xs.map .fin) = .ok w') :
    ∃ r : WP2 ℚ, w' = r.map .fin ∧ Fit 950 r ∧ r.windowSize = W := by
  obtain ⟨p, hp, rfl⟩ := WP2.new_eq_ok hw
  have hq : 0 < q ∧ q < 1 := by
    have l0 : Dbl.arith.lit 0 = .fin 0 := dbl_lit_zero
    have l1 : Dbl.arith.lit 1 = .fin 1 := dbl_lit_one
    unfold P2.new at hp
    split at hp
    · cases hp
    · rename_i hc
      simpa [l0, l1, Dbl.le_fin, b64] using hc
  have hL : P2.Loose q p := by
    rw [P2.new_eq_ok hp]
    exact ⟨rfl, ⟨rfl, show (0 : ℤ) < 1 by decide, show (1 : ℤ) < 2 by decide, show (2 : ℤ) < 3 by decide,
      show (3 : ℤ) < 4 by decide⟩, show (4 : ℤ) ≤ P2.intMax by decide⟩
  have hc0 : p.historyCount = 0 := by rw [P2.new_eq_ok hp]
  -- the observations up to the next block
  obtain ⟨k, hk, hk0⟩ : ∃ k, k ≤ W ∧ (ds.length + k) % (W + 1) = 0 := by
    rcases Nat.eq_zero_or_pos (ds.length % (W + 1)) with h0 | h0
    · exact ⟨0, by omega, by simpa using h0⟩
    · refine ⟨W + 1 - ds.length % (W + 1), by omega, ?_⟩
      have := Nat.mod_lt ds.length (show 0 < W + 1 by omega)
      rw [Nat.add_mod, Nat.mod_eq_of_lt (show W + 1 - ds.length % (W + 1) < W + 1 by omega),
        show ds.length % (W + 1) + (W + 1 - ds.length % (W + 1)) = W + 1 by omega, Nat.mod_self]
  have es : ds ++ xs.map Dbl.fin =
      (ds ++ (xs.take k).map Dbl.fin) ++ (((xs.drop k).take (W + 1)).map Dbl.fin ++ ((xs.drop k).drop (W + 1)).map Dbl.fin) := by
    rw [List.append_assoc, ← List.map_append, ← List.map_append, List.take_append_drop, List.take_append_drop]
  rw [es, updateAll_append] at hu
  obtain ⟨w1, u1, hu⟩ := Res.bind_eq_ok.1 hu
  rw [updateAll_append] at hu
  obtain ⟨w2, u2, hu⟩ := Res.bind_eq_ok.1 hu
  obtain ⟨i1, i2, i3⟩ := updateAll_inner Dbl.arith (show 0 < (⟨W, 0, p, Dbl.arith.lit 0⟩ : WP2 Dbl).windowSize by show 0 < W; omega)
    (by show p.historyCount = 0 % _; rw [hc0, Nat.zero_mod]) u1
  dsimp only at i2 i3
  have hn1 : w1.historyCount % (w1.windowSize + 1) = 0 := by
    rw [i3, i2, List.length_append, List.length_map, List.length_take, min_eq_left (by omega), zero_add]
    exact hk0
  obtain ⟨r, e1, e2⟩ := block_finite (loose_updateAll hL u1) hq.1 hq.2 (by omega) (by omega) (by rw [i1, hn1]) hn1
    ((xs.drop k).take (W + 1)) (fun x h => hx x (List.mem_of_mem_drop (List.mem_of_mem_take h)))
    (by rw [List.length_take, List.length_drop, i2]; omega) u2
  subst e1
  obtain ⟨j1, j2, j3⟩ := updateAll_inner Dbl.arith (by omega) i1 u2
  obtain ⟨r', -, e4, e5⟩ := e2.updateAll (by norm_num) (by norm_num) _
    (fun x h => hx x (List.mem_of_mem_drop (List.mem_of_mem_drop h))) hu
  obtain ⟨k1, k2, k3⟩ := updateAll_inner Dbl.arith (by omega) j1 hu
  refine ⟨r', e4, e5, ?_⟩
  rw [e4] at k2
  exact k2.trans (j2.trans i2)

end WP2

/-- **C141**, the part that holds: whatever was observed before, infinities included, after `2 W + 1` observations of magnitude
up to 2^950 without a call of `evaluate` the value is finite, and it stays so whatever else of that kind is observed. (If `ds`
contains NaN, `std::sort` is called on it, which is undefined, see C101; the statement is about infinities.) -/
theorem C141_forgets_partial (q : ℚ) (W : ℕ) (hW : 4 ≤ W) (hW' : W < 2 ^ 64) (w w' : WP2 Dbl)
    (hw : WP2.new Dbl.arith (.fin q) W = .ok w) (ds : List Dbl) (xs : List ℚ) (hx : ∀ x ∈ xs, IsModerate x)
    (hl : 2 * W + 1 ≤ xs.length) (hu : updateAll (WP2.update Dbl.arith) w (ds ++ xs.map .fin) = .ok w') :
    ∃ r w'', w'.evaluate Dbl.arith = .ok (.fin r, w'') ∧ |r| ≤ pow2 1017 := by
  obtain ⟨s, rfl, hs, hsW⟩ := WP2.settles_finite hW hW' hw ds xs hx hl hu
  obtain ⟨e1, e2⟩ := hs.evaluate (by norm_num) (by norm_num)
  obtain ⟨v, p', e3, -⟩ := hs.p2.hull.evaluate
  rw [← b64_eq] at e3
  obtain ⟨r, s', e4⟩ : ∃ r s', s.evaluate b64 = .ok (r, s') := by
    unfold WP2.evaluate
    rw [e3]
    split
    · exact ⟨_, _, rfl⟩
    · rw [if_neg (by omega)]
      exact ⟨_, _, rfl⟩
  rw [e1, e4]
  exact ⟨r, s'.map .fin, rfl, (e2 r s' e4).2⟩

/-- After `+∞` and the numbers from 0 to 14, one more than in `C141_infinite`. -/
example : ∀ x ∈ (List.range 15).map fun i => (i : ℚ), IsModerate x := by unfold IsModerate; decide +kernel

example : (do
    let w ← WP2.new Dbl.arith (.fin (1 / 2)) 7
    let w ← updateAll (WP2.update Dbl.arith) w (risingAfterInf 15)
    .ok (decide (w.historyCount = 16))) = .ok true := by
  decide +kernel

/-- **C141**, StreamingIQR: the same. -/
theorem C141_iqr_partial (low high : ℚ) (W : ℕ) (hW : 4 ≤ W) (hW' : W < 2 ^ 64) (i i' : IQR Dbl)
    (hi : IQR.new Dbl.arith (.fin low) (.fin high) W = .ok i) (ds : List Dbl) (xs : List ℚ) (hx : ∀ x ∈ xs, IsModerate x)
    (hl : 2 * W + 1 ≤ xs.length) (hu : updateAll (IQR.update Dbl.arith) i (ds ++ xs.map .fin) = .ok i') :
    ∃ r i'', i'.evaluate Dbl.arith = .ok (.fin r, i'') := by
  obtain ⟨h1, h2, -⟩ := IQR.new_eq_ok.1 hi
  obtain ⟨k1, k2⟩ := IQR.updateAll_parts hu
  obtain ⟨a, a', e1, e2⟩ := C141_forgets_partial low W hW hW' _ _ h1 ds xs hx hl k1
  obtain ⟨b, b', f1, f2⟩ := C141_forgets_partial high W hW hW' _ _ h2 ds xs hx hl k2
  have := Dbl.Is.sub (d := .fin b) (e := .fin a) ⟨rfl, f2⟩ ⟨rfl, e2⟩ (by norm_num) (by norm_num)
  unfold IQR.evaluate
  rw [f1]
  simp only [Res.ok_bind]
  rw [e1]
  simp only [Res.ok_bind]
  rw [this.eq]
  exact ⟨_, _, rfl⟩

/-- The quartiles over a window of seven, after `+∞`. -/
example : (do
    let i ← IQR.new Dbl.arith (.fin (1 / 4)) (.fin (3 / 4)) 7
    let i ← updateAll (IQR.update Dbl.arith) i (risingAfterInf 15)
    .ok (decide (i.historyCount = 16))) = .ok true := by
  decide +kernel

end KML
