import Verif.Lemmas.ArithHom
import Verif.Lemmas.Float
import Verif.Model.HistPublic
import Verif.Model.Signed

/-!
# C124: the sign of a zero and the bits of a NaN do not matter

All other properties are about `Dbl`, in which there is one zero and one NaN. Here the classes run on doubles with signed
zeros and NaNs with bits. What they return is what they return on `Dbl`, up to the sign of a returned zero and the bits of
a returned NaN: no class ever divides by `-0`.
-/

namespace KML

namespace SDbl

/-! ### The operations -/

/-- A sum of doubles is rounded to zero only if it is zero. -/
theorem sum_zero {p q : ℚ} (hp : rnd64 p = p) (hq : rnd64 q = q) (h : rnd64 (p + q) = 0) : p + q = 0 := by
  obtain ⟨m, hm⟩ := rnd64_grid hp
  obtain ⟨n, hn⟩ := rnd64_grid hq
  have e : p + q = ((m + n : ℤ) : ℚ) * pow2 (-1074) := by rw [hm, hn]; push_cast; ring
  have pos : (0 : ℚ) < pow2 (-1074) := by decide +kernel
  have one : rnd64 (pow2 (-1074)) = pow2 (-1074) := by decide +kernel
  rcases lt_trichotomy (m + n) 0 with hl | h0 | hg
  · have h1 : p + q ≤ -pow2 (-1074) := by
      have : ((m + n : ℤ) : ℚ) ≤ -1 := by exact_mod_cast (by omega : m + n ≤ -1)
      rw [e]; nlinarith
    have h2 := rnd64_mono h1
    rw [h, rnd64_neg, one] at h2
    linarith
  · rw [e, h0]; simp
  · have h1 : pow2 (-1074) ≤ p + q := by
      have : (1 : ℚ) ≤ ((m + n : ℤ) : ℚ) := by exact_mod_cast (by omega : 1 ≤ m + n)
      rw [e]; nlinarith
    have h2 := rnd64_mono h1
    rw [h, one] at h2
    linarith

theorem erase_ofRat (s : Bool) (x : ℚ) : (ofRat s x).erase = Dbl.ofRat x := by
  unfold ofRat
  cases h : Dbl.ofRat x with
  | nan => rfl
  | inf t => rfl
  | fin q =>
    by_cases h0 : q = 0
    · simp only [h0, if_true]; rfl
    · simp only [h0, if_false]; rfl

theorem ofRat_false (x : ℚ) : ofRat false x ≠ zero true := by
  unfold ofRat
  cases Dbl.ofRat x with
  | nan => nofun
  | inf t => nofun
  | fin q =>
    by_cases h0 : q = 0
    · simp only [h0, if_true]; nofun
    · simp only [h0, if_false]; nofun

theorem ofRat_int (n : ℤ) : ofRat (decide (n < 0)) n ≠ zero true := by
  by_cases hn : n < 0
  · unfold ofRat Dbl.ofRat
    have h1 : rnd64 (n : ℚ) ≤ -1 := by
      have : (n : ℚ) ≤ ((-1 : ℤ) : ℚ) := by exact_mod_cast (by omega : n ≤ -1)
      have := rnd64_mono this
      rw [rnd64_int (-1) (by norm_num)] at this
      exact_mod_cast this
    have h0 : rnd64 (n : ℚ) ≠ 0 := by intro h; rw [h] at h1; norm_num at h1
    by_cases hb : (2 ^ 53 - 1) * 2 ^ 971 < |rnd64 (n : ℚ)|
    · simp only [hb, if_true]; nofun
    · simp only [hb, if_false, h0]; nofun
  · rw [decide_eq_false hn]
    exact ofRat_false _

variable (pick : Pick)

theorem erase_neg (a : SDbl) : (neg pick a).erase = Dbl.neg a.erase := by
  cases a with
  | zero s => simp [neg, erase, Dbl.neg]
  | _ => rfl

theorem erase_add (a b : SDbl) : (add pick a b).erase = Dbl.add a.erase b.erase := by
  unfold add
  cases ha : a.erase with
  | nan => rfl
  | inf s => cases hb : b.erase with
    | nan => rfl
    | inf t => cases s <;> cases t <;> rfl
    | fin q => rfl
  | fin p => cases hb : b.erase with
    | nan => rfl
    | inf t => rfl
    | fin q => exact erase_ofRat _ _

theorem erase_sub (a b : SDbl) : (sub pick a b).erase = Dbl.sub a.erase b.erase := by
  unfold sub Dbl.sub
  rw [erase_add, erase_neg]

/-- The sign of a number that is not a zero. -/
theorem sign_eq (a : SDbl) (h : a ≠ zero true) : a.sign = a.erase.isNeg := by
  cases a with
  | zero s => cases s with
    | true => exact absurd rfl h
    | false => rfl
  | _ => rfl

theorem erase_mul (a b : SDbl) : (mul pick a b).erase = Dbl.mul a.erase b.erase := by
  unfold mul
  have key : ∀ x y : SDbl, x.erase.isZero = false → x.sign = x.erase.isNeg := by
    intro x _ h
    refine sign_eq x ?_
    rintro rfl
    simp [erase, Dbl.isZero] at h
  cases ha : a.erase with
  | nan => rfl
  | inf s => cases hb : b.erase with
    | nan => rfl
    | inf t =>
      have := key a a (by rw [ha]; rfl)
      have := key b b (by rw [hb]; rfl)
      simp_all [Dbl.isZero, Dbl.mul, erase]
    | fin q =>
      have := key a a (by rw [ha]; rfl)
      by_cases hq : q = 0
      · simp [hq, Dbl.isZero, Dbl.mul, erase]
      · have := key b b (by rw [hb]; simp [Dbl.isZero, hq])
        simp_all [Dbl.isZero, Dbl.mul, erase]
  | fin p => cases hb : b.erase with
    | nan => rfl
    | inf t =>
      have := key b b (by rw [hb]; rfl)
      by_cases hp : p = 0
      · simp [hp, Dbl.isZero, Dbl.mul, erase]
      · have := key a a (by rw [ha]; simp [Dbl.isZero, hp])
        simp_all [Dbl.isZero, Dbl.mul, erase]
    | fin q => exact erase_ofRat _ _

theorem erase_div (a b : SDbl) (h : b ≠ zero true) : (div pick a b).erase = Dbl.div a.erase b.erase := by
  unfold div
  have hs := sign_eq b h
  cases ha : a.erase with
  | nan => rfl
  | inf s =>
    have hs' : a.sign = s := by
      cases a <;> simp_all [erase, sign]
    cases hb : b.erase with
    | nan => rfl
    | inf t => rfl
    | fin q => simp only [hs, hb, hs']; rfl
  | fin p => cases hb : b.erase with
    | nan => rfl
    | inf t => rfl
    | fin q =>
      simp only [Dbl.div]
      by_cases hq : q = 0
      · simp only [hq, if_true]
        by_cases hp : p = 0
        · simp only [hp, if_true]; rfl
        · simp only [hp, if_false]
          have hb' : b.sign = false := by rw [hs, hb, hq]; rfl
          have ha' : a.sign = decide (p < 0) := by
            cases a <;> simp_all [erase, sign]
          simp [hb', ha', erase]
      · simp only [hq, if_false]
        exact erase_ofRat _ _

theorem erase_abs (a : SDbl) : (abs pick a).erase = Dbl.abs a.erase := by
  cases a with
  | zero s => simp [abs, erase, Dbl.abs]
  | _ => rfl

theorem add_ne (a b : SDbl) (h : a ≠ zero true) : add pick a b ≠ zero true := by
  unfold add
  cases ha : a.erase with
  | nan => nofun
  | inf s => cases hb : b.erase with
    | nan => nofun
    | inf t => cases s <;> cases t <;> nofun
    | fin q => nofun
  | fin p => cases hb : b.erase with
    | nan => nofun
    | inf t => nofun
    | fin q =>
      have e : (decide (p = 0) && decide (q = 0) && a.sign && b.sign) = false := by
        rw [sign_eq a h, ha]
        by_cases hp : p = 0
        · simp [hp, Dbl.isNeg]
        · simp [hp]
      simp only [e]
      exact ofRat_false _

theorem mul_ne (n : ℕ) (b : SDbl) (h : Dbl.le b.erase (ofRat (decide ((0 : ℚ) < 0)) 0).erase = false) :
    mul pick (ofRat (decide ((n : ℤ) < 0)) (n : ℤ)) b ≠ zero true := by
  have hs : (ofRat (decide ((n : ℤ) < 0)) (n : ℤ)).sign = false := by
    have h0 : decide ((n : ℤ) < 0) = false := by simp
    have hr : (0 : ℚ) ≤ rnd64 ((n : ℤ) : ℚ) := rnd64_nonneg (by simp)
    rw [h0]
    unfold ofRat Dbl.ofRat
    by_cases hb : (2 ^ 53 - 1) * 2 ^ 971 < |rnd64 ((n : ℤ) : ℚ)|
    · simp only [hb, if_true, sign, decide_eq_false (not_lt.mpr hr)]
    · simp only [hb, if_false]
      by_cases hz : rnd64 ((n : ℤ) : ℚ) = 0
      · simp only [hz, if_true]; rfl
      · simp only [hz, if_false, sign, decide_eq_false (not_lt.mpr hr)]
  have e0 : (ofRat (decide ((0 : ℚ) < 0)) 0).erase = .fin 0 := by rw [erase_ofRat]; decide +kernel
  rw [e0] at h
  generalize ofRat (decide ((n : ℤ) < 0)) (n : ℤ) = a at hs
  unfold mul
  cases ha : a.erase with
  | nan => nofun
  | inf s => cases hb : b.erase with
    | nan => nofun
    | inf t => simp only [Dbl.isZero]; nofun
    | fin q => simp only; split <;> nofun
  | fin p => cases hb : b.erase with
    | nan => nofun
    | inf t => simp only; split <;> nofun
    | fin q =>
      have hq : b.sign = false := by
        rw [hb] at h
        cases b with
        | zero s =>
          simp only [erase, Dbl.fin.injEq] at hb
          subst hb
          simp [Dbl.le, Dbl.lt, Dbl.eq] at h
        | fin r =>
          simp only [erase, Dbl.fin.injEq] at hb
          subst hb
          simp only [Dbl.le, Dbl.lt, Dbl.eq, Bool.or_eq_false_iff, decide_eq_false_iff_not] at h
          simp only [sign, decide_eq_false h.1]
        | _ => cases hb
      simp only [hs, hq]
      exact ofRat_false _

/-- Erasing the sign of zeros and the bits of NaNs respects all operations except division by `-0`. -/
theorem hom : Hom (arith pick) Dbl.arith erase (· ≠ zero true) where
  add := erase_add pick
  sub := erase_sub pick
  mul := erase_mul pick
  div := erase_div pick
  abs := erase_abs pick
  lt _ _ := rfl
  le _ _ := rfl
  eq _ _ := rfl
  lit _ := erase_ofRat _ _
  ofInt _ := erase_ofRat _ _
  round _ := rfl
  dInt := ofRat_int
  dTwo := ofRat_int 2
  dOne := ofRat_int 1
  dAdd := add_ne pick
  dSub a b := add_ne pick a _
  dMul := mul_ne pick
  one_pos := by
    change Dbl.le (ofRat (decide ((1 : ℚ) < 0)) 1).erase (ofRat (decide ((0 : ℚ) < 0)) 0).erase = false
    decide +kernel

end SDbl

open SDbl

variable (pick pick' : Pick)

/-! ### What a history of calls returns -/

/-- Make an object, perform the calls, and collect what the `evaluate` calls return. -/
def outputs {σ F : Type} (make : Res σ) (update : σ → F → Res σ) (evaluate : σ → Res (F × σ)) (ops : List (SOp F)) : Res (List F) := do
  let s ← make
  let (vs, _) ← SOp.run update evaluate s ops
  .ok vs

/-- The same without the signs of zeros and the bits of NaNs. -/
def Res.erase (r : Res (List SDbl)) : Res (List Dbl) := List.map SDbl.erase <$> r

/-- The calls without the signs of zeros and the bits of NaNs. -/
def SOp.erase (ops : List (SOp SDbl)) : List (SOp Dbl) := ops.map (SOp.map SDbl.erase)

theorem outputs_erase {σ τ : Type} {make : Res σ} {make' : Res τ} {upd : σ → SDbl → Res σ} {ev : σ → Res (SDbl × σ)}
    {upd' : τ → Dbl → Res τ} {ev' : τ → Res (Dbl × τ)} (f : σ → τ) (hm : make' = f <$> make)
    (hu : ∀ s x, upd' (f s) x.erase = f <$> upd s x)
    (he : ∀ s, ev' (f s) = (fun r : SDbl × σ => (r.1.erase, f r.2)) <$> ev s) (ops : List (SOp SDbl)) :
    (outputs make upd ev ops).erase = outputs make' upd' ev' (SOp.erase ops) := by
  unfold outputs Res.erase SOp.erase
  rw [hm]
  cases make with
  | throw m => rfl
  | ub u => rfl
  | ok s =>
    simp only [Res.map_ok, Res.ok_bind, Hom.run f hu he]
    cases SOp.run upd ev s ops <;> rfl

/-- StreamingMean -/
def meanOut {F : Type} (A : Arith F) (W : ℕ) : List (SOp F) → Res (List F) :=
  outputs (.ok (Mean.new A W)) (Mean.update A) fun m => .ok (m.evaluate A, m)

/-- StreamingVariance -/
def varianceOut {F : Type} (A : Arith F) (W : ℕ) : List (SOp F) → Res (List F) :=
  outputs (.ok (Variance.new A W)) (Variance.update A) fun m => .ok (m.evaluate A, m)

/-- WindowedFAME -/
def fameOut {F : Type} (A : Arith F) (stepSize epsilon : F) : List (SOp F) → Res (List F) :=
  outputs (Fame.new A stepSize epsilon) (fun m x => .ok (m.update A x)) fun m => .ok (m.evaluate, m)

/-- StreamingMAD -/
def madOut {F : Type} (A : Arith F) : List (SOp F) → Res (List F) :=
  outputs (Mad.new A) (fun m x => .ok (m.update A x)) fun m => .ok (m.evaluate, m)

/-- WindowedP2Quantile -/
def windowedOut {F : Type} (A : Arith F) (quantile : F) (W : ℕ) : List (SOp F) → Res (List F) :=
  outputs (WP2.new A quantile W) (WP2.updateStrict A) (WP2.evaluateStrict A)

/-- StreamingIQR -/
def iqrOut {F : Type} (A : Arith F) (low high : F) (W : ℕ) : List (SOp F) → Res (List F) :=
  outputs (IQR.new A low high W) (IQR.updateStrict A) (IQR.evaluateStrict A)

/-- StreamingEntropy -/
def entropyOut {F : Type} (L : LArith F) (W numBins : ℕ) : List (SOp F) → Res (List F) :=
  outputs (Entropy.new L W numBins) (Entropy.update L) fun e => .ok (e.evaluate, e)

/-- StreamingP2Quantile, with `clear` -/
def p2Out {F : Type} (A : Arith F) (quantile : F) (ops : List (QOp F)) : Res (List F) := do
  let p ← P2.new A quantile
  let (vs, _) ← p.runStrict A ops
  .ok vs

/-- **C124** StreamingMean. -/
theorem C124_mean (W : ℕ) (ops : List (SOp SDbl)) :
    (meanOut (arith pick) W ops).erase = meanOut Dbl.arith W (SOp.erase ops) := by
  refine outputs_erase (Mean.image SDbl.erase) ?_ (hom pick).mean_update ?_ ops
  · rw [Res.map_ok, (hom pick).mean_new]
  · intro m; rw [Res.map_ok, (hom pick).mean_evaluate]

/-- **C124** StreamingVariance. -/
theorem C124_variance (W : ℕ) (ops : List (SOp SDbl)) :
    (varianceOut (arith pick) W ops).erase = varianceOut Dbl.arith W (SOp.erase ops) := by
  refine outputs_erase (Variance.image SDbl.erase) ?_ (hom pick).variance_update ?_ ops
  · rw [Res.map_ok, (hom pick).variance_new]
  · intro m; rw [Res.map_ok, (hom pick).variance_evaluate]

/-- **C124** WindowedFAME. -/
theorem C124_fame (stepSize epsilon : SDbl) (ops : List (SOp SDbl)) :
    (fameOut (arith pick) stepSize epsilon ops).erase = fameOut Dbl.arith stepSize.erase epsilon.erase (SOp.erase ops) := by
  refine outputs_erase (Fame.image SDbl.erase) ((hom pick).fame_new _ _) ?_ ?_ ops
  · intro m x; rw [Res.map_ok, (hom pick).fame_update]
  · intro m; rfl

/-- **C124** StreamingMAD. -/
theorem C124_mad (ops : List (SOp SDbl)) : (madOut (arith pick) ops).erase = madOut Dbl.arith (SOp.erase ops) := by
  refine outputs_erase (Mad.image SDbl.erase) (hom pick).mad_new ?_ ?_ ops
  · intro m x; rw [Res.map_ok, (hom pick).mad_update]
  · intro m; rfl

/-- **C124** StreamingP2Quantile. -/
theorem C124_p2 (quantile : SDbl) (ops : List (QOp SDbl)) :
    (p2Out (arith pick) quantile ops).erase = p2Out Dbl.arith quantile.erase (ops.map (QOp.map SDbl.erase)) := by
  unfold p2Out Res.erase
  rw [(hom pick).p2_new]
  cases P2.new (arith pick) quantile with
  | throw m => rfl
  | ub u => rfl
  | ok p =>
    simp only [Res.map_ok, Res.ok_bind, (hom pick).p2_runStrict]
    cases p.runStrict (arith pick) ops <;> rfl

/-- **C124** WindowedP2Quantile. -/
theorem C124_windowed (quantile : SDbl) (W : ℕ) (ops : List (SOp SDbl)) :
    (windowedOut (arith pick) quantile W ops).erase = windowedOut Dbl.arith quantile.erase W (SOp.erase ops) :=
  outputs_erase (WP2.map SDbl.erase) ((hom pick).wp2_new _ _) (hom pick).wp2_updateStrict (hom pick).wp2_evaluateStrict ops

/-- **C124** StreamingIQR. -/
theorem C124_iqr (low high : SDbl) (W : ℕ) (ops : List (SOp SDbl)) :
    (iqrOut (arith pick) low high W ops).erase = iqrOut Dbl.arith low.erase high.erase W (SOp.erase ops) :=
  outputs_erase (IQR.map SDbl.erase) ((hom pick).iqr_new _ _ _) (hom pick).iqr_updateStrict (hom pick).iqr_evaluateStrict ops

/-- **C124** StreamingEntropy, for any logarithm that does not look at the sign of a zero or the bits of a NaN, except to
choose those of its result. -/
theorem C124_entropy (L : LArith SDbl) (M : LArith Dbl) (hL : L.toArith = arith pick) (hM : M.toArith = Dbl.arith)
    (hlog : ∀ a, (L.log2 a).erase = M.log2 a.erase) (hneg : ∀ a, (L.neg a).erase = M.neg a.erase)
    (hceil : ∀ a, L.ceilNat a = M.ceilNat a.erase) (W numBins : ℕ) (ops : List (SOp SDbl)) :
    (entropyOut L W numBins ops).erase = entropyOut M W numBins (SOp.erase ops) := by
  have H : LHom L M SDbl.erase (· ≠ zero true) := { (by rw [hL, hM]; exact hom pick : Hom L.toArith M.toArith SDbl.erase (· ≠ zero true)) with
    log2 := hlog, neg := hneg, ceilNat := hceil }
  exact outputs_erase (Entropy.image SDbl.erase) (H.entropy_new _ _) H.entropy_update (fun _ => rfl) ops

/-! ### The histogram -/

/-- The call without the signs of zeros and the bits of NaNs. -/
def HCall.erase : HCall SDbl → HCall Dbl
  | .update x => .update x.erase
  | .add x => .add x.erase
  | .decay => .decay

/-- The two histograms give the same answers to all questions, up to signs of zeros and bits of NaNs. -/
structure Hist.Alike (h : Hist SDbl) (d : Hist Dbl) : Prop where
  counts : d.binCounts = h.binCounts
  total : d.getTotalCount = h.getTotalCount
  bins : d.bins = h.bins.map (Bin.map SDbl.erase)
  pdf : ∀ normalize density, d.pdf Dbl.arith normalize density = (h.pdf (arith pick) normalize density).map SDbl.erase
  cdf : ∀ normalize, d.cdf Dbl.arith normalize = (h.cdf (arith pick) normalize).map SDbl.erase
  quantile : ∀ q : SDbl, d.quantile Dbl.arith q.erase = SDbl.erase <$> h.quantile (arith pick) q
  report : d.report Dbl.arith = (h.report (arith pick)).map fun e => ((e.1.1.erase, e.1.2.erase), e.2)
  search : ∀ x : SDbl, d.binSearch Dbl.arith x.erase = h.binSearch (arith pick) x

theorem Hist.alike (h : Hist SDbl) : Hist.Alike pick h (h.map SDbl.erase) where
  counts := Hom.hist_binCounts h
  total := rfl
  bins := rfl
  pdf := (hom pick).hist_pdf h
  cdf := (hom pick).hist_cdf h
  quantile := (hom pick).hist_quantile h
  report := (hom pick).hist_report h
  search := (hom pick).hist_search h

theorem Hist.call_erase (h : Hist SDbl) (c : HCall SDbl) :
    (h.map SDbl.erase).call Dbl.arith c.erase = Hist.map SDbl.erase <$> h.call (arith pick) c := by
  cases c with
  | update x => exact (hom pick).hist_update h x
  | add x => exact (hom pick).hist_add h x
  | decay => exact Hist.decay_map h

theorem Hist.calls_erase (ops : List (HCall SDbl)) (h : Hist SDbl) :
    updateAll (Hist.call Dbl.arith) (h.map SDbl.erase) (ops.map HCall.erase) =
      Hist.map SDbl.erase <$> updateAll (Hist.call (arith pick)) h ops := by
  induction ops generalizing h with
  | nil => rfl
  | cons c ops ih =>
    simp only [List.map_cons, updateAll, Hist.call_erase pick]
    cases h.call (arith pick) c with
    | ok h1 => exact ih h1
    | throw m => rfl
    | ub u => rfl

/-- **C124** StreamingHistogram: after any calls of `update`, `add` and `decayCounts`, the same answers. -/
theorem C124_histogram (numBins W : ℕ) (ops : List (HCall SDbl)) :
    match updateAll (Hist.call (arith pick)) (Hist.new numBins W) ops,
      updateAll (Hist.call Dbl.arith) (Hist.new numBins W) (ops.map HCall.erase) with
    | .ok h, .ok d => Hist.Alike pick h d
    | .throw m, .throw m' => m = m'
    | .ub u, .ub u' => u = u'
    | _, _ => False := by
  have e : updateAll (Hist.call Dbl.arith) (Hist.new numBins W) (ops.map HCall.erase) =
      Hist.map SDbl.erase <$> updateAll (Hist.call (arith pick)) (Hist.new numBins W) ops :=
    Hist.calls_erase pick ops (Hist.new numBins W)
  rw [e]
  cases updateAll (Hist.call (arith pick)) (Hist.new numBins W) ops with
  | ok h => exact Hist.alike pick h
  | throw m => rfl
  | ub u => rfl

/-! ### Comparisons -/

/-- **C124** The comparisons with a tolerance. -/
theorem C124_compare (a b e : SDbl) :
    Utils.definitelyLessThan (arith pick) a b e = Utils.definitelyLessThan Dbl.arith a.erase b.erase e.erase ∧
    Utils.definitelyGreaterThan (arith pick) a b e = Utils.definitelyGreaterThan Dbl.arith a.erase b.erase e.erase ∧
    Utils.approximatelyEqual (arith pick) a b e = Utils.approximatelyEqual Dbl.arith a.erase b.erase e.erase ∧
    Utils.essentiallyEqual (arith pick) a b e = Utils.essentiallyEqual Dbl.arith a.erase b.erase e.erase :=
  ⟨(hom pick).less a b e, (hom pick).greater a b e, (hom pick).approx a b e, (hom pick).essentially a b e⟩

/-! ### Two inputs that differ only in signs of zeros and bits of NaNs, on two machines -/

/-- **C124** Two streams, and two machines that choose the bits of NaNs differently: if the streams differ only in the signs
of zeros and the bits of NaNs, so do the results. -/
theorem C124_same (W : ℕ) (q q' : SDbl) (hq : q.erase = q'.erase) (ops ops' : List (SOp SDbl)) (h : SOp.erase ops = SOp.erase ops') :
    (meanOut (arith pick) W ops).erase = (meanOut (arith pick') W ops').erase ∧
    (varianceOut (arith pick) W ops).erase = (varianceOut (arith pick') W ops').erase ∧
    (madOut (arith pick) ops).erase = (madOut (arith pick') ops').erase ∧
    (fameOut (arith pick) q q ops).erase = (fameOut (arith pick') q' q' ops').erase ∧
    (windowedOut (arith pick) q W ops).erase = (windowedOut (arith pick') q' W ops').erase ∧
    (iqrOut (arith pick) q q W ops).erase = (iqrOut (arith pick') q' q' W ops').erase := by
  refine ⟨?_, ?_, ?_, ?_, ?_, ?_⟩
  · rw [C124_mean, C124_mean, h]
  · rw [C124_variance, C124_variance, h]
  · rw [C124_mad, C124_mad, h]
  · rw [C124_fame, C124_fame, h, hq]
  · rw [C124_windowed, C124_windowed, h, hq]
  · rw [C124_iqr, C124_iqr, h, hq]

/-- Ordered by `operator<`. -/
def SDbl.Sorted (l : List SDbl) : Prop := l.Pairwise fun a b => Dbl.lt b.erase a.erase = false

/-- **C124** `std::sort` may leave `-0` and `+0` in any order: two sorted arrangements of the same numbers agree up to the
signs of zeros. -/
theorem C124_sort (l l' : List SDbl) (hp : l.Perm l') (hs : Sorted l) (hs' : Sorted l') (hn : ∀ a ∈ l, a.erase ≠ .nan) :
    l.map SDbl.erase = l'.map SDbl.erase := by
  have anti : ∀ a b : Dbl, a ≠ .nan → b ≠ .nan → Dbl.lt a b = false → Dbl.lt b a = false → a = b := by
    intro a b ha hb h1 h2
    cases a with
    | nan => exact absurd rfl ha
    | inf s => cases b with
      | nan => exact absurd rfl hb
      | inf t => cases s <;> cases t <;> simp_all [Dbl.lt]
      | fin q => cases s <;> simp_all [Dbl.lt]
    | fin p => cases b with
      | nan => exact absurd rfl hb
      | inf t => cases t <;> simp_all [Dbl.lt]
      | fin q =>
        simp only [Dbl.lt, decide_eq_false_iff_not, not_lt] at h1 h2
        rw [le_antisymm h2 h1]
  refine List.Perm.eq_of_pairwise (le := fun a b : Dbl => Dbl.lt b a = false) ?_ ?_ ?_ (hp.map _)
  · intro a b ha hb h1 h2
    obtain ⟨x, hx, rfl⟩ := List.mem_map.mp ha
    obtain ⟨y, hy, rfl⟩ := List.mem_map.mp hb
    exact anti _ _ (hn x hx) (hn y (hp.mem_iff.mpr hy)) h2 h1
  · exact List.pairwise_map.mpr hs
  · exact List.pairwise_map.mpr hs'

/-- The arrangements of `-0, +0, 1` that are sorted -/
example : Sorted [.zero true, .zero false, .fin 1] ∧ Sorted [.zero false, .zero true, .fin 1] ∧
    List.Perm [zero true, zero false, SDbl.fin 1] [.zero false, .zero true, .fin 1] := by
  refine ⟨?_, ?_, .swap _ _ _⟩ <;> (unfold Sorted; decide +kernel)

/-- The sign of a result can depend on the signs in the data: WindowedFAME returns the zero it was given. (The mean of `-0` is
`+0`, since the sum starts with `+0`.) -/
example : meanOut (arith fun _ => 0) 0 [.update (.zero true), .evaluate] = .ok [.zero false] ∧
    fameOut (arith fun _ => 0) (.fin (1 / 8)) (.zero false) [.update (.zero true), .evaluate] = .ok [.zero true] ∧
    fameOut (arith fun _ => 0) (.fin (1 / 8)) (.zero true) [.update (.zero false), .evaluate] = .ok [.zero false] := by
  decide +kernel

/-- NaN bits: the mean of a NaN has the bits the machine picks. -/
example : meanOut (arith fun _ => 7) 0 [.update (.nan 3), .update (.fin 1), .evaluate] = .ok [.nan 7] ∧
    meanOut (arith fun _ => 8) 0 [.update (.nan 4), .update (.fin 1), .evaluate] = .ok [.nan 8] := by
  decide +kernel

/-- Division by `-0` is the only operation that would tell the zeros apart. -/
example : SDbl.div (fun _ => 0) (.fin 1) (.zero true) = .inf true ∧ SDbl.div (fun _ => 0) (.fin 1) (.zero false) = .inf false := by
  decide +kernel

/-- A logarithm as demanded by `C124_entropy`: it returns `-0` for 1 and a NaN with bits of its own. -/
example : ∃ (L : LArith SDbl) (M : LArith Dbl), L.toArith = arith (fun _ => 0) ∧ M.toArith = Dbl.arith ∧
    (∀ a, (L.log2 a).erase = M.log2 a.erase) ∧ (∀ a, (L.neg a).erase = M.neg a.erase) ∧ (∀ a, L.ceilNat a = M.ceilNat a.erase) ∧
    L.log2 (.fin 1) = .zero true :=
  ⟨{ SDbl.arith fun _ => 0 with
      log2 := fun a => if a = .fin 1 then .zero true else .nan 5, neg := SDbl.neg fun _ => 0, ceilNat := fun _ => 4 },
   { Dbl.arith with
      log2 := fun a => if a = .fin 1 then .fin 0 else .nan, neg := Dbl.neg, ceilNat := fun _ => 4 },
   rfl, rfl, by
    intro a
    cases a with
    | fin q => by_cases h : q = 1 <;> simp [h, SDbl.erase]
    | zero s => simp [SDbl.erase]
    | _ => simp [SDbl.erase], SDbl.erase_neg fun _ => 0, fun _ => rfl, rfl⟩

end KML
