import Verif.Lemmas.Double
import Verif.Model.Histogram
import Verif.Props.Windowed

/-! # C82: the quantile estimators on real doubles -/

namespace KML

open Spec

/-- A finite double. -/
def IsDouble (q : ℚ) : Prop := rnd64 q = q ∧ |q| ≤ dblMax

/-- A finite double of magnitude at most `2 ^ 950` (about `10 ^ 286`). -/
def IsModerate (q : ℚ) : Prop := rnd64 q = q ∧ |q| ≤ pow2 950

/-- Apply a function to the observation of a call. -/
def SOp.map {α β : Type} (f : α → β) : SOp α → SOp β
  | .update x => .update (f x)
  | .evaluate => .evaluate

/-- **C82**, full statement: whatever finite doubles are observed (five or more, at most 2^31), the estimate is a finite
double between the least and the greatest of them. -/
def C82_full : Prop := ∀ (q : ℚ) (p : P2 Dbl), P2.new Dbl.arith (.fin q) = .ok p → ∀ xs : List ℚ,
  (∀ x ∈ xs, IsDouble x) → 5 ≤ xs.length → xs.length ≤ 2 ^ 31 →
  ∃ p' v lo hi, updateAll (P2.update Dbl.arith) p (xs.map .fin) = .ok p' ∧ p'.evaluate Dbl.arith = .ok (.fin v, p') ∧
    IsMin xs lo ∧ IsMax xs hi ∧ lo ≤ v ∧ v ≤ hi

/-- Ten observations of the largest magnitude after which the estimate is NaN. -/
def overflowing : List ℚ := [-dblMax, -dblMax, -dblMax, dblMax, dblMax, dblMax, -dblMax, dblMax, -dblMax, dblMax]

/-- **C82** is violated: the difference of two heights overflows, and the median becomes infinite or NaN. -/
theorem C82_violated : ¬ C82_full := by
  intro h
  have hn : P2.new Dbl.arith (.fin (1 / 2)) = .ok (P2.blank (1 / 2)).dbl := by
    unfold P2.new; rw [if_neg (by decide +kernel)]; decide +kernel
  have hd : ∀ x ∈ overflowing, IsDouble x := by
    unfold IsDouble; decide +kernel
  obtain ⟨p', v, -, -, h1, h2, -⟩ := h (1 / 2) _ hn overflowing hd (by decide) (by decide)
  have e : (match updateAll (P2.update Dbl.arith) (P2.blank (1 / 2)).dbl (overflowing.map .fin) with
    | .ok p => match p.evaluate Dbl.arith with
      | .ok (v, _) => decide (v = .nan)
      | _ => false
    | _ => false) = true := by decide +kernel
  rw [h1] at e
  simp only [h2] at e
  simp at e

/-! ### StreamingP2Quantile -/

theorem P2.Fit.run {M : ℤ} (hM0 : 0 ≤ M) (hM : M ≤ 980) {p : P2 ℚ} (h : P2.Fit M p) (ops : List (QOp ℚ))
    (hx : ∀ x ∈ QOp.observations ops, rnd64 x = x ∧ |x| ≤ pow2 M) :
    P2.run Dbl.arith p.dbl (ops.map (QOp.map .fin)) =
      (do let (vs, p') ← P2.run b64 p ops; .ok (vs.map .fin, p'.dbl)) := by
  induction ops generalizing p with
  | nil => rfl
  | cons o ops ih =>
    cases o with
    | update x =>
      simp only [QOp.observations, List.mem_cons] at hx
      obtain ⟨e1, e2⟩ := h.update hM0 hM (hx x (.inl rfl)).1 (hx x (.inl rfl)).2
      simp only [List.map_cons, QOp.map, P2.run, P2.step, e1]
      cases hu : p.update b64 x with
      | ok p1 =>
        simp only [Res.ok_bind]
        rw [ih (e2 _ hu) (fun y hy => hx y (.inr hy))]
        cases P2.run b64 p1 ops <;> rfl
      | throw m => rfl
      | ub u => rfl
    | evaluate =>
      simp only [QOp.observations] at hx
      simp only [List.map_cons, QOp.map, P2.run, P2.step, P2.evaluate_dbl h.hull.q0 h.hull.q1]
      cases he : p.evaluate b64 with
      | ok r =>
        obtain ⟨v, p1⟩ := r
        simp only [Res.ok_bind]
        rw [ih (h.evaluate he) hx]
        cases P2.run b64 p1 ops <;> rfl
      | throw m => rfl
      | ub u => rfl
    | clear =>
      simp only [QOp.observations] at hx
      simp only [List.map_cons, QOp.map, P2.run, P2.step, Res.ok_bind]
      have e : p.dbl.clear = p.clear.dbl := rfl
      rw [e, ih h.clear hx]
      cases P2.run b64 p.clear ops <;> rfl

/-- **C82**, StreamingP2Quantile: on moderate doubles nothing overflows. Every history of calls returns exactly the values
of `b64`, the arithmetic of the theorems about this class, so all of them hold of the compiled `double` code. Missing:
doubles beyond `2 ^ 950`. -/
theorem C82_run_partial (q : ℚ) (p : P2 ℚ) (hp : P2.new b64 q = .ok p) (ops : List (QOp ℚ))
    (hx : ∀ x ∈ QOp.observations ops, IsModerate x) :
    ∃ d, P2.new Dbl.arith (.fin q) = .ok d ∧ P2.run Dbl.arith d (ops.map (QOp.map .fin)) =
      (do let (vs, p') ← P2.run b64 p ops; .ok (vs.map .fin, p'.map .fin)) := by
  obtain ⟨h1, h2⟩ := P2.new_dbl hp (M := 950)
  exact ⟨_, h1, h2.run (by norm_num) (by norm_num) ops hx⟩

theorem P2.run_of_updates {F : Type} (A : Arith F) (p : P2 F) (xs : List F) :
    P2.run A p (xs.map .update) = (do let p' ← updateAll (P2.update A) p xs; .ok ([], p')) := by
  have := P2.run_updates A p xs []
  rwa [List.append_nil] at this

/-- **C82**, StreamingP2Quantile: from five moderate doubles on, the estimate is a finite double between the least and the
greatest of them. Missing: doubles beyond `2 ^ 950`. -/
theorem C82_range_partial (q : ℚ) (d : P2 Dbl) (hd : P2.new Dbl.arith (.fin q) = .ok d) (xs : List ℚ)
    (hx : ∀ x ∈ xs, IsModerate x) (h5 : 5 ≤ xs.length) (h31 : xs.length ≤ 2 ^ 31) :
    ∃ d' v lo hi, updateAll (P2.update Dbl.arith) d (xs.map .fin) = .ok d' ∧ d'.evaluate Dbl.arith = .ok (.fin v, d') ∧
      IsMin xs lo ∧ IsMax xs hi ∧ lo ≤ v ∧ v ≤ hi := by
  have hq : 0 < q ∧ q < 1 := by
    have l0 : Dbl.arith.lit 0 = .fin 0 := dbl_lit_zero
    have l1 : Dbl.arith.lit 1 = .fin 1 := dbl_lit_one
    unfold P2.new at hd
    split at hd
    · cases hd
    · rename_i hc
      simpa [l0, l1, Dbl.le_fin, b64] using hc
  obtain ⟨p, hp⟩ := (P2.new_ok_iff R64 q).2 hq
  obtain ⟨h1, h2⟩ := P2.new_dbl (p := p) hp (M := 950)
  rw [hd] at h1
  injection h1 with h1
  subst h1
  have hobs : QOp.observations (xs.map QOp.update) = xs := by
    clear * -
    induction xs with
    | nil => rfl
    | cons x xs ih => simp [QOp.observations, ih]
  have hrun := h2.run (by norm_num) (by norm_num) (xs.map .update) (by rw [hobs]; exact hx)
  have hmap : (xs.map QOp.update).map (QOp.map Dbl.fin) = (xs.map Dbl.fin).map .update := by
    simp [QOp.map, Function.comp_def]
  rw [hmap, P2.run_of_updates, P2.run_of_updates] at hrun
  obtain ⟨vs, p', v', p'', e1, e2, -⟩ := C38_hull R64 q p hp (-pow2 950) (pow2 950) (by linarith [pow2_pos 950])
    (pow2_pos 950).le (xs.map .update) (by
      rw [hobs]
      intro x h
      have := abs_le.1 (hx x h).2
      exact ⟨(hx x h).1, this.1, this.2⟩) (by rw [hobs]; exact h31)
  have e3 := e1
  rw [P2.run_of_updates] at e1
  obtain ⟨p1, e4, e5⟩ := Res.bind_eq_ok.1 e1
  injection e5 with e5
  injection e5 with e5 e6
  subst e5 e6
  obtain ⟨v, lo, hi, f1, f2, f3, f4, f5, -⟩ := C30_range R64 q p p1 hp xs h5 [] (by simp)
    (by simp only [QOp.observations, List.append_nil]; exact fun x h => (hx x h).1) [] (by simpa using e3)
  simp only [QOp.observations, List.append_nil] at f4 f5
  rw [b64_eq, e4] at hrun
  simp only [Res.ok_bind] at hrun
  obtain ⟨d', g1, g2⟩ := Res.bind_eq_ok.1 hrun
  injection g2 with g2
  injection g2 with _ g2
  subst g2
  refine ⟨_, v, lo, hi, g1, ?_, f4, f5, f2, f3⟩
  have q' : 0 < p1.quantile ∧ p1.quantile < 1 := by
    have := P2.run_quantile R64.arith e3
    rw [this, P2.new_eq_ok hp]; exact hq
  have := P2.evaluate_dbl (p := p1) q'.1 q'.2
  rw [b64_eq, f1] at this
  exact this

/-- The hypotheses are met, far outside the range of `float` -/
example : ∀ x ∈ ([10 ^ 20, -(2 ^ 900), 2 ^ 949, 1 / 2 ^ 1074, 3, 0] : List ℚ), IsModerate x := by
  unfold IsModerate; decide +kernel

/-! ### WindowedP2Quantile and StreamingIQR -/

/-- A simulation of histories. -/
theorem SOp.run_map {σ τ : Type} {upd : σ → ℚ → Res σ} {ev : σ → Res (ℚ × σ)} {upd' : τ → Dbl → Res τ}
    {ev' : τ → Res (Dbl × τ)} (f : σ → τ) (Inv : σ → Prop) (P : ℚ → Prop)
    (hu : ∀ s x, Inv s → P x → upd' (f s) (.fin x) = (do let s' ← upd s x; .ok (f s')) ∧
      ∀ s', upd s x = .ok s' → Inv s')
    (he : ∀ s, Inv s → ev' (f s) = (do let (v, s') ← ev s; .ok (.fin v, f s')) ∧
      ∀ v s', ev s = .ok (v, s') → Inv s')
    {s : σ} (h : Inv s) (ops : List (SOp ℚ)) (hx : ∀ x ∈ SOp.observations ops, P x) :
    SOp.run upd' ev' (f s) (ops.map (SOp.map .fin)) =
      (do let (vs, s') ← SOp.run upd ev s ops; .ok (vs.map .fin, f s')) := by
  induction ops generalizing s with
  | nil => rfl
  | cons o ops ih =>
    cases o with
    | update x =>
      simp only [SOp.observations, List.mem_cons] at hx
      obtain ⟨e1, e2⟩ := hu s x h (hx x (.inl rfl))
      simp only [List.map_cons, SOp.map, SOp.run, e1]
      cases hs : upd s x with
      | ok s1 =>
        simp only [Res.ok_bind]
        exact ih (e2 _ hs) (fun y hy => hx y (.inr hy))
      | throw m => rfl
      | ub u => rfl
    | evaluate =>
      simp only [SOp.observations] at hx
      obtain ⟨e1, e2⟩ := he s h
      simp only [List.map_cons, SOp.map, SOp.run, e1]
      cases hs : ev s with
      | ok r =>
        obtain ⟨v, s1⟩ := r
        simp only [Res.ok_bind]
        rw [ih (e2 _ _ hs) hx]
        cases SOp.run upd ev s1 ops <;> rfl
      | throw m => rfl
      | ub u => rfl

namespace WP2

/-- Apply a function to every value. -/
abbrev map {α β : Type} (f : α → β) (w : WP2 α) : WP2 β := ⟨w.windowSize, w.historyCount, w.p2.map f, f w.previous⟩

/-- States reached from observations of magnitude at most `2 ^ M`; the window size is a 64-bit number. -/
structure Fit (M : ℤ) (w : WP2 ℚ) : Prop where
  p2 : P2.Fit M w.p2
  prev : |w.previous| ≤ pow2 M
  size : w.windowSize < 2 ^ 64

theorem Fit.value {M : ℤ} {p p' : P2 ℚ} {v : ℚ} (h : P2.Fit M p) (he : p.evaluate b64 = .ok (v, p')) : |v| ≤ pow2 M := by
  obtain ⟨v', p'', h1, h2, h3, -⟩ := h.hull.evaluate
  rw [← b64_eq, he] at h1
  injection h1 with h1
  injection h1 with h4 h5
  subst h4
  exact abs_le.2 ⟨h2, h3⟩

theorem Fit.update {M : ℤ} (hM0 : 0 ≤ M) (hM : M ≤ 980) {w : WP2 ℚ} (h : Fit M w) {x : ℚ} (hx : rnd64 x = x)
    (hxM : |x| ≤ pow2 M) :
    (w.map .fin).update Dbl.arith (.fin x) = (do let w' ← w.update b64 x; .ok (w'.map .fin)) ∧
    ∀ w', w.update b64 x = .ok w' → Fit M w' := by
  obtain ⟨e1, e2⟩ := h.p2.update hM0 hM hx hxM
  constructor
  · unfold WP2.update
    simp only [WP2.map, e1]
    cases hu : w.p2.update b64 x with
    | ok p1 =>
      have h1 := e2 _ hu
      simp only [Res.ok_bind]
      by_cases hW : w.windowSize > 0
      · by_cases hn : (w.historyCount + 1) % (w.windowSize + 1) = 0
        · rw [if_pos hW, if_pos hn, if_pos hW, if_pos hn, P2.evaluate_dbl h1.hull.q0 h1.hull.q1]
          cases p1.evaluate b64 <;> rfl
        · rw [if_pos hW, if_neg hn, if_pos hW, if_neg hn]; rfl
      · rw [if_neg hW, if_neg hW]; rfl
    | throw m => rfl
    | ub u => rfl
  · intro w' hw
    unfold WP2.update at hw
    obtain ⟨p1, hu, hw⟩ := Res.bind_eq_ok.1 hw
    have h1 := e2 _ hu
    split at hw
    · split at hw
      · obtain ⟨⟨v, p2⟩, he, hw⟩ := Res.bind_eq_ok.1 hw
        injection hw with hw
        subst hw
        exact ⟨(h1.evaluate he).clear, Fit.value h1 he, h.size⟩
      · injection hw with hw
        subst hw
        exact ⟨h1, h.prev, h.size⟩
    · injection hw with hw
      subst hw
      exact ⟨h1, h.prev, h.size⟩

open Dbl in
/-- `evaluate` on doubles is `evaluate` in `b64`. -/
theorem Fit.evaluate {M : ℤ} (hM0 : 0 ≤ M) (hM : M ≤ 955) {w : WP2 ℚ} (h : Fit M w) :
    (w.map .fin).evaluate Dbl.arith = (do let (v, w') ← w.evaluate b64; .ok (.fin v, w'.map .fin)) ∧
    ∀ v w', w.evaluate b64 = .ok (v, w') → Fit M w' ∧ |v| ≤ pow2 (M + 67) := by
  have key : ∀ v, |v| ≤ pow2 M → w.windowSize ≠ 0 →
      Is (Dbl.arith.add (Dbl.arith.mul (Dbl.arith.sub (Dbl.arith.lit 1) (Dbl.arith.ofNat (w.historyCount % w.windowSize + 1)))
        (.fin w.previous)) (Dbl.arith.mul (Dbl.arith.ofNat (w.historyCount % w.windowSize + 1)) (.fin v)))
      (b64.add (b64.mul (b64.sub (b64.lit 1) (b64.ofNat (w.historyCount % w.windowSize + 1))) w.previous)
        (b64.mul (b64.ofNat (w.historyCount % w.windowSize + 1)) v)) (M + 67) := by
    intro v hv hW
    have hlt := Nat.mod_lt w.historyCount (Nat.pos_of_ne_zero hW)
    have hsz := h.size
    have ic : Is (Dbl.arith.ofNat (w.historyCount % w.windowSize + 1)) (b64.ofNat (w.historyCount % w.windowSize + 1)) 64 :=
      Is.ofInt (k := 64) (by norm_num) (by
        rw [abs_of_nonneg (by positivity)]
        have : w.historyCount % w.windowSize + 1 ≤ 2 ^ 64 := by omega
        exact_mod_cast this)
    have i1 : Is (Dbl.arith.lit 1) (b64.lit 1) 64 :=
      (Is.lit (k := 0) (by norm_num) (by norm_num) (by rw [pow2_zero]; norm_num)).mono (by norm_num)
    have a := (i1.sub ic (by norm_num) (by norm_num)).mul (e := .fin w.previous) ⟨rfl, h.prev⟩ (by omega) (by omega)
    have b := ic.mul (e := .fin v) ⟨rfl, hv⟩ (by omega) (by omega)
    exact ((a.mono (l := M + 66) (by omega)).add (b.mono (by omega)) (by omega) (by omega)).mono (by omega)
  constructor
  · unfold WP2.evaluate
    simp only [WP2.map]
    have ee := P2.evaluate_dbl h.p2.hull.q0 h.p2.hull.q1
    by_cases hn : w.historyCount < w.windowSize
    · rw [if_pos hn, if_pos hn, ee]
      cases w.p2.evaluate b64 <;> rfl
    · by_cases hW : w.windowSize = 0
      · rw [if_neg hn, if_neg hn, if_pos hW, if_pos hW]; rfl
      · rw [if_neg hn, if_neg hn, if_neg hW, if_neg hW, ee]
        cases he : w.p2.evaluate b64 with
        | ok r =>
          simp only [Res.ok_bind]
          rw [(key r.1 (Fit.value h.p2 he) hW).eq]
        | throw m => rfl
        | ub u => rfl
  · intro v w' hw
    unfold WP2.evaluate at hw
    split at hw
    · obtain ⟨⟨v1, p1⟩, he, hw⟩ := Res.bind_eq_ok.1 hw
      injection hw with hw
      injection hw with hw1 hw2
      subst hw1 hw2
      exact ⟨⟨h.p2.evaluate he, h.prev, h.size⟩, (Fit.value h.p2 he).trans (pow2_le.2 (by omega))⟩
    · split at hw
      · cases hw
      · rename_i hW
        obtain ⟨⟨v1, p1⟩, he, hw⟩ := Res.bind_eq_ok.1 hw
        injection hw with hw
        injection hw with hw1 hw2
        subst hw1 hw2
        exact ⟨⟨h.p2.evaluate he, h.prev, h.size⟩, (key v1 (Fit.value h.p2 he) hW).2⟩

theorem new_dbl {q : ℚ} {W : ℕ} (hW : W < 2 ^ 64) {w : WP2 ℚ} (h : WP2.new b64 q W = .ok w) {M : ℤ} :
    WP2.new Dbl.arith (.fin q) W = .ok (w.map .fin) ∧ Fit M w := by
  obtain ⟨p, hp, rfl⟩ := WP2.new_eq_ok h
  obtain ⟨h1, h2⟩ := P2.new_dbl hp (M := M)
  have b0 : b64.lit 0 = 0 := by simpa using P2.lit_b64 0 (by norm_num)
  constructor
  · unfold WP2.new
    rw [h1]
    simp only [Res.ok_bind, WP2.map, dbl_lit_zero, b0]
  · refine ⟨h2, ?_, hW⟩
    show |b64.lit 0| ≤ _
    rw [b0, abs_zero]
    exact (pow2_pos _).le

end WP2

/-- **C82**, WindowedP2Quantile: on moderate doubles every history returns exactly the values of `b64`. Missing: doubles
beyond `2 ^ 950`. -/
theorem C82_windowed_partial (q : ℚ) (W : ℕ) (hW : W < 2 ^ 64) (w : WP2 ℚ) (hw : WP2.new b64 q W = .ok w)
    (ops : List (SOp ℚ)) (hx : ∀ x ∈ SOp.observations ops, IsModerate x) :
    ∃ d, WP2.new Dbl.arith (.fin q) W = .ok d ∧
      SOp.run (WP2.update Dbl.arith) (WP2.evaluate Dbl.arith) d (ops.map (SOp.map .fin)) =
      (do let (vs, w') ← SOp.run (WP2.update b64) (WP2.evaluate b64) w ops; .ok (vs.map .fin, w'.map .fin)) := by
  obtain ⟨h1, h2⟩ := WP2.new_dbl hW hw (M := 950)
  refine ⟨_, h1, SOp.run_map (WP2.map Dbl.fin) (WP2.Fit 950) IsModerate ?_ ?_ h2 ops hx⟩
  · exact fun s x h hx => h.update (by norm_num) (by norm_num) hx.1 hx.2
  · intro s h
    obtain ⟨e1, e2⟩ := h.evaluate (by norm_num) (by norm_num)
    exact ⟨e1, fun v s' hs => (e2 v s' hs).1⟩

/-- Apply a function to every value. -/
abbrev IQR.map {α β : Type} (f : α → β) (i : IQR α) : IQR β := ⟨i.low.map f, i.high.map f, i.historyCount⟩

/-- **C82**, StreamingIQR: on moderate doubles every history returns exactly the values of `b64`. Missing: doubles
beyond `2 ^ 950`. -/
theorem C82_iqr_partial (low high : ℚ) (W : ℕ) (hW : W < 2 ^ 64) (i : IQR ℚ) (hi : IQR.new b64 low high W = .ok i)
    (ops : List (SOp ℚ)) (hx : ∀ x ∈ SOp.observations ops, IsModerate x) :
    ∃ d, IQR.new Dbl.arith (.fin low) (.fin high) W = .ok d ∧
      SOp.run (IQR.update Dbl.arith) (IQR.evaluate Dbl.arith) d (ops.map (SOp.map .fin)) =
      (do let (vs, i') ← SOp.run (IQR.update b64) (IQR.evaluate b64) i ops; .ok (vs.map .fin, i'.map .fin)) := by
  obtain ⟨h1, h2, h3⟩ := IQR.new_eq_ok.1 hi
  obtain ⟨l1, l2⟩ := WP2.new_dbl hW h1 (M := 950)
  obtain ⟨r1, r2⟩ := WP2.new_dbl hW h2 (M := 950)
  refine ⟨i.map Dbl.fin, IQR.new_eq_ok.2 ⟨l1, r1, h3⟩,
    SOp.run_map (IQR.map Dbl.fin) (fun i => WP2.Fit 950 i.low ∧ WP2.Fit 950 i.high) IsModerate ?_ ?_ ⟨l2, r2⟩ ops hx⟩
  · rintro s x ⟨hl, hr⟩ hx
    obtain ⟨a1, a2⟩ := hl.update (by norm_num) (by norm_num) hx.1 hx.2
    obtain ⟨b1, b2⟩ := hr.update (by norm_num) (by norm_num) hx.1 hx.2
    constructor
    · simp only [IQR.update, IQR.map, a1, b1]
      cases s.low.update b64 x <;> [skip; rfl; rfl]
      cases s.high.update b64 x <;> rfl
    · intro s' hs
      unfold IQR.update at hs
      obtain ⟨l, e1, hs⟩ := Res.bind_eq_ok.1 hs
      obtain ⟨r, e2, hs⟩ := Res.bind_eq_ok.1 hs
      injection hs with hs
      subst hs
      exact ⟨a2 _ e1, b2 _ e2⟩
  · rintro s ⟨hl, hr⟩
    obtain ⟨a1, a2⟩ := hl.evaluate (by norm_num) (by norm_num)
    obtain ⟨b1, b2⟩ := hr.evaluate (by norm_num) (by norm_num)
    constructor
    · simp only [IQR.evaluate, IQR.map, a1, b1]
      cases er : s.high.evaluate b64 with
      | ok r =>
        cases el : s.low.evaluate b64 with
        | ok l =>
          have := Dbl.Is.sub (d := .fin r.1) (e := .fin l.1) ⟨rfl, (b2 _ _ er).2⟩ ⟨rfl, (a2 _ _ el).2⟩ (by norm_num)
            (by norm_num)
          simp only [Res.ok_bind]
          rw [this.eq]
        | throw m => rfl
        | ub u => rfl
      | throw m => rfl
      | ub u => rfl
    · intro v s' hs
      unfold IQR.evaluate at hs
      obtain ⟨⟨h, sh⟩, e1, hs⟩ := Res.bind_eq_ok.1 hs
      obtain ⟨⟨l, sl⟩, e2, hs⟩ := Res.bind_eq_ok.1 hs
      injection hs with hs
      injection hs with _ hs
      subst hs
      exact ⟨(a2 _ _ e2).1, (b2 _ _ e1).1⟩

/-- the quartiles of six doubles of very different magnitudes, window 3 -/
example : (match IQR.new b64 (1 / 4) (3 / 4) 3 with
    | .ok i => match SOp.run (IQR.update b64) (IQR.evaluate b64) i
        ([10 ^ 20, -(2 ^ 900), 2 ^ 949, 1 / 2 ^ 1074, 3, 0].map .update ++ [.evaluate]) with
      | .ok (vs, _) => decide (vs.length = 1)
      | _ => false
    | _ => false) = true := by decide +kernel

end KML
