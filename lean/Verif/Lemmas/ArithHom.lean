import Verif.Lemmas.HistSim
import Verif.Lemmas.P2
import Verif.Model.Entropy
import Verif.Model.Stats
import Verif.Model.LowerBound
import Verif.Model.QuantileStrict
import Verif.Props.DoubleQuantile

/-!
# Maps between arithmetics that all classes respect

`Hom A B φ D`: `φ` carries every operation of `A` to `B`; division only by divisors in `D`. Every class divides by such
divisors only, so what it computes in `A` is carried to what it computes in `B`.
-/

set_option linter.unusedSimpArgs false

namespace KML

open Utils

variable {F G : Type}

/-- `φ` respects the operations; `D` are divisors for which it respects division. -/
structure Hom (A : Arith F) (B : Arith G) (φ : F → G) (D : F → Prop) : Prop where
  add : ∀ a b, φ (A.add a b) = B.add (φ a) (φ b)
  sub : ∀ a b, φ (A.sub a b) = B.sub (φ a) (φ b)
  mul : ∀ a b, φ (A.mul a b) = B.mul (φ a) (φ b)
  div : ∀ a b, D b → φ (A.div a b) = B.div (φ a) (φ b)
  abs : ∀ a, φ (A.abs a) = B.abs (φ a)
  lt : ∀ a b, A.lt a b = B.lt (φ a) (φ b)
  le : ∀ a b, A.le a b = B.le (φ a) (φ b)
  eq : ∀ a b, A.eq a b = B.eq (φ a) (φ b)
  lit : ∀ q, φ (A.lit q) = B.lit q
  ofInt : ∀ n, φ (A.ofInt n) = B.ofInt n
  round : ∀ a, A.round a = B.round (φ a)
  dInt : ∀ n, D (A.ofInt n)
  dTwo : D (A.lit 2)
  dOne : D (A.lit 1)
  dAdd : ∀ a b, D a → D (A.add a b)
  dSub : ∀ a b, D a → D (A.sub a b)
  /-- a product of a count and a width -/
  dMul : ∀ (n : ℕ) b, A.le b (A.lit 0) = false → D (A.mul (A.ofInt n) b)
  one_pos : A.le (A.lit 1) (A.lit 0) = false

/-- Apply a function to the value in an outcome. -/
abbrev Res.over {α β : Type} (f : α → β) (r : Res α) : Res β := f <$> r

namespace Hom

variable {A : Arith F} {B : Arith G} {φ : F → G} {D : F → Prop} (H : Hom A B φ D)

include H

theorem ofNat (n : ℕ) : φ (A.ofNat n) = B.ofNat n := H.ofInt n

theorem max (a b : F) : φ (A.max a b) = B.max (φ a) (φ b) := by
  unfold Arith.max
  rw [← H.lt]
  exact apply_ite φ _ _ _

theorem divInt (a : F) (n : ℤ) : φ (A.div a (A.ofInt n)) = B.div (φ a) (B.ofInt n) := by
  rw [H.div _ _ (H.dInt _), H.ofInt]

theorem divNat (a : F) (n : ℕ) : φ (A.div a (A.ofNat n)) = B.div (φ a) (B.ofNat n) := H.divInt a n

theorem divTwo (a : F) : φ (A.div a (A.lit 2)) = B.div (φ a) (B.lit 2) := by rw [H.div _ _ H.dTwo, H.lit]

theorem divOne (a : F) : φ (A.div a (A.lit 1)) = B.div (φ a) (B.lit 1) := by rw [H.div _ _ H.dOne, H.lit]

/-! ### Comparisons with tolerance -/

theorem larger (a b : F) : φ (Utils.larger A a b) = Utils.larger B (φ a) (φ b) := by
  unfold Utils.larger
  rw [← H.abs, ← H.abs, ← H.lt]
  exact apply_ite φ _ _ _

theorem smaller (a b : F) : φ (Utils.smaller A a b) = Utils.smaller B (φ a) (φ b) := by
  unfold Utils.smaller
  rw [← H.abs, ← H.abs, ← H.lt]
  exact apply_ite φ _ _ _

theorem less (a b e : F) : definitelyLessThan A a b e = definitelyLessThan B (φ a) (φ b) (φ e) := by
  unfold definitelyLessThan
  rw [H.lt, H.mul, H.larger, H.sub]

theorem greater (a b e : F) : definitelyGreaterThan A a b e = definitelyGreaterThan B (φ a) (φ b) (φ e) := by
  unfold definitelyGreaterThan
  rw [H.lt, H.mul, H.larger, H.sub]

theorem approx (a b e : F) : approximatelyEqual A a b e = approximatelyEqual B (φ a) (φ b) (φ e) := by
  unfold approximatelyEqual
  rw [H.le, H.abs, H.mul, H.larger, H.sub]

theorem essentially (a b e : F) : essentiallyEqual A a b e = essentiallyEqual B (φ a) (φ b) (φ e) := by
  unfold essentiallyEqual
  rw [H.le, H.abs, H.mul, H.smaller, H.sub]

theorem eps : φ (defaultEps A) = defaultEps B := H.lit _

theorem eps' : φ (plusEps A) = plusEps B := H.lit _

/-! ### StreamingMean and StreamingVariance -/

omit H in
/-- Apply a function to every value. -/
abbrev _root_.KML.Mean.image (f : F → G) (m : Mean F) : Mean G :=
  ⟨m.windowSize, m.window.map (List.map f), m.historyCount, f m.sum⟩

omit H in
/-- Apply a function to every value. -/
abbrev _root_.KML.Variance.image (f : F → G) (v : Variance F) : Variance G :=
  ⟨v.window.map (List.map f), v.historyCount, v.mean.image f, v.sumSquared.image f⟩

theorem mean_new (W : ℕ) : (Mean.new A W).image φ = Mean.new B W := by
  unfold Mean.new Mean.image
  simp only [H.lit]
  split <;> rfl

theorem mean_update (m : Mean F) (x : F) : (m.image φ).update B (φ x) = Mean.image φ <$> m.update A x := by
  obtain ⟨W, w, n, s⟩ := m
  unfold Mean.update
  cases w with
  | none => simp only [Mean.image, Option.map_none, Res.ok_bind, Res.map_ok, H.add]
  | some w =>
    simp only [Option.map_some, List.length_map]
    by_cases hw : w.length + 1 > W
    · cases w with
      | nil => simp only [hw, if_true]; rfl
      | cons a w =>
        simp only [hw, if_true, List.map_cons, Res.ok_bind, Res.map_ok, ← H.add, ← H.sub]
        simp [Mean.image]
    · simp only [hw, if_false, Res.ok_bind, Res.map_ok, ← H.add]
      simp [Mean.image]

theorem mean_evaluate (m : Mean F) : (m.image φ).evaluate B = φ (m.evaluate A) := by
  obtain ⟨W, w, n, s⟩ := m
  unfold Mean.evaluate
  simp only [Mean.image]
  by_cases hn : n = 0
  · simp only [hn, if_true, H.lit]
  · simp only [hn, if_false]
    cases w with
    | none => exact (H.divNat _ _).symm
    | some w => simp only [Option.map_some, List.length_map]; exact (H.divNat _ _).symm

theorem variance_new (W : ℕ) : (Variance.new A W).image φ = Variance.new B W := by
  unfold Variance.new
  simp only [Variance.image, H.mean_new]
  split <;> rfl

theorem variance_update (v : Variance F) (x : F) :
    (v.image φ).update B (φ x) = Variance.image φ <$> v.update A x := by
  unfold Variance.update
  simp only [Variance.image, H.mean_update, ← H.mul]
  cases v.mean.update A x with
  | ok m => cases v.sumSquared.update A (A.mul x x) <;> rfl
  | throw m => rfl
  | ub u => rfl

theorem variance_evaluate (v : Variance F) : (v.image φ).evaluate B = φ (v.evaluate A) := by
  unfold Variance.evaluate
  simp only [Variance.image, H.mean_evaluate, ← H.mul, ← H.sub]

/-! ### WindowedFAME and StreamingMAD -/

omit H in
/-- Apply a function to every value. -/
abbrev _root_.KML.Fame.image (f : F → G) (m : Fame F) : Fame G := ⟨f m.median, f m.stepSize, f m.epsilon, m.historyCount⟩

omit H in
/-- Apply a function to every value. -/
abbrev _root_.KML.Mad.image (f : F → G) (m : Mad F) : Mad G := ⟨m.scoreMedian.image f, m.errorMedian.image f, m.historyCount⟩

theorem fame_new (s e : F) : Fame.new B (φ s) (φ e) = Fame.image φ <$> Fame.new A s e := by
  unfold Fame.new
  simp only [← H.lit, ← H.lt, ← H.le]
  split <;> rfl

theorem fame_update (f : Fame F) (x : F) : (f.image φ).update B (φ x) = (f.update A x).image φ := by
  obtain ⟨m, s, e, n⟩ := f
  have key : ∀ m s : F, Fame.image φ
      (let f : Fame F := ⟨m, s, e, n⟩
       let f := if A.lt x f.median then { f with median := A.sub f.median f.stepSize }
         else if A.lt f.median x then { f with median := A.add f.median f.stepSize }
         else f
       let f := if f.historyCount ≠ 0 && A.lt (A.abs (A.sub x f.median)) f.stepSize then
           { f with stepSize := A.div f.stepSize (A.lit 2) }
         else f
       { f with stepSize := A.mul f.stepSize (A.add (A.lit 1) f.epsilon),
                historyCount := f.historyCount + 1 }) =
      (let f : Fame G := ⟨φ m, φ s, φ e, n⟩
       let f := if B.lt (φ x) f.median then { f with median := B.sub f.median f.stepSize }
         else if B.lt f.median (φ x) then { f with median := B.add f.median f.stepSize }
         else f
       let f := if f.historyCount ≠ 0 && B.lt (B.abs (B.sub (φ x) f.median)) f.stepSize then
           { f with stepSize := B.div f.stepSize (B.lit 2) }
         else f
       { f with stepSize := B.mul f.stepSize (B.add (B.lit 1) f.epsilon),
                historyCount := f.historyCount + 1 }) := by
    intro m s
    simp only [← H.lt]
    have last : ∀ m s : F, Fame.image φ
        (let f : Fame F := ⟨m, s, e, n⟩
         let f := if f.historyCount ≠ 0 && A.lt (A.abs (A.sub x f.median)) f.stepSize then
             { f with stepSize := A.div f.stepSize (A.lit 2) }
           else f
         { f with stepSize := A.mul f.stepSize (A.add (A.lit 1) f.epsilon),
                  historyCount := f.historyCount + 1 }) =
        (let f : Fame G := ⟨φ m, φ s, φ e, n⟩
         let f := if f.historyCount ≠ 0 && B.lt (B.abs (B.sub (φ x) f.median)) f.stepSize then
             { f with stepSize := B.div f.stepSize (B.lit 2) }
           else f
         { f with stepSize := B.mul f.stepSize (B.add (B.lit 1) f.epsilon),
                  historyCount := f.historyCount + 1 }) := by
      intro m s
      simp only [← H.sub, ← H.abs, ← H.lt, ← H.divTwo, ← H.lit 1]
      split
      · simp only [Fame.image, H.mul, H.add]
      · simp only [Fame.image, H.mul, H.add]
    by_cases h3 : A.lt x m
    · simp only [h3, if_true]
      have := last (A.sub m s) s
      simp only [H.sub m s] at this
      exact this
    · by_cases h4 : A.lt m x
      · simp only [h3, h4, if_true, if_false]
        have := last (A.add m s) s
        simp only [H.add m s] at this
        exact this
      · simp only [h3, h4, if_false]
        exact last m s
  unfold Fame.update
  by_cases hn : n = 0
  · subst hn
    have := key x (A.max (A.div (A.abs x) (A.lit 2)) s)
    rw [H.max, H.divTwo, H.abs] at this
    simp only [if_true] at this ⊢
    exact this.symm
  · simp only [hn, if_false]
    exact (key m s).symm

theorem mad_new : Mad.new B = Mad.image φ <$> Mad.new A := by
  unfold Mad.new
  rw [← H.lit, ← H.lit, H.fame_new]
  cases Fame.new A (A.lit (1 / 10)) (A.lit 0) <;> rfl

theorem mad_update (m : Mad F) (x : F) : (m.image φ).update B (φ x) = (m.update A x).image φ := by
  unfold Mad.update
  simp only [Mad.image, H.fame_update, Fame.evaluate, ← H.sub, ← H.abs]

/-! ### The quantile classes -/

theorem p2_new (q : F) : P2.new B (φ q) = P2.map φ <$> P2.new A q := by
  unfold P2.new
  simp only [← H.lit, ← H.le]
  split
  · rfl
  · simp only [Res.map_ok, P2.map, Five.map, H.lit]

theorem sortList (l : List F) : sortList B (l.map φ) = (KML.sortList A l).map φ :=
  sortList_map A B φ (fun a b => (H.lt a b).symm) l

theorem sort (v : Five F) : (v.map φ).sort B = (v.sort A).map φ := Five.sort_map A B φ (fun a b => (H.lt a b).symm) v

theorem p2_adjust (des hm hi hp : F) (nm ni np : ℤ) :
    P2.adjust B (φ des) (φ hm) (φ hi) (φ hp) nm ni np =
      (φ (P2.adjust A des hm hi hp nm ni np).1, (P2.adjust A des hm hi hp nm ni np).2) := by
  have hcs : ∀ a, P2.copysign B (φ a) = P2.copysign A a := by
    intro a; unfold P2.copysign; simp only [← H.lit, ← H.lt]
  have hpar : ∀ d, P2.parabolic B (φ hm) (φ hi) (φ hp) nm ni np (B.ofInt d) =
      φ (P2.parabolic A hm hi hp nm ni np (A.ofInt d)) := by
    intro d
    unfold P2.parabolic
    simp only [H.add, H.mul, H.sub, H.divInt, H.ofInt]
  have hlin : ∀ hd nd d, P2.linear B (φ hi) (φ hd) ni nd (B.ofInt d) = φ (P2.linear A hi hd ni nd (A.ofInt d)) := by
    intro hd nd d
    unfold P2.linear
    simp only [H.add, H.mul, H.sub, H.divInt, H.ofInt]
  unfold P2.adjust
  simp only [hpar, hlin, hcs, ← H.sub, ← H.ofInt ni, ← H.lit, ← H.le, ← H.lt]
  split
  · simp only [H.ofInt, hpar, hlin, ← H.lt]
    split
    · rfl
    · split
      · rfl
      · split <;> rfl
  · rfl

theorem p2_adjustHeights (p : P2 F) (i : ℕ) : P2.adjustHeights B (p.map φ) i = (P2.adjustHeights A p i).map φ := by
  unfold P2.adjustHeights
  split
  · simp only [P2.map, Five.map, H.p2_adjust]
  · simp only [P2.map, Five.map, H.p2_adjust]
  · simp only [P2.map, Five.map, H.p2_adjust]
  · rfl

theorem p2_update (p : P2 F) (x : F) : (p.map φ).update B (φ x) = P2.map φ <$> p.update A x := by
  have hf : P2.findK B (p.heights.map φ) (φ x) = ((P2.findK A p.heights x).1, (P2.findK A p.heights x).2.map φ) :=
    P2.findK_map A B φ (fun a b => (H.lt a b).symm) p.heights x
  unfold P2.update
  simp only [P2.map, hf]
  by_cases h5 : p.historyCount < 5
  · simp only [h5, if_true, Res.map_ok]
    congr 1
    unfold P2.updateFirst
    simp only [P2.map, Five.map_toList, ← List.map_set, Five.map_ofList, H.sort]
    split
    · simp only [Five.map, H.lit, H.mul, H.add, P2.map]
    · rfl
  · simp only [h5, if_false]
    split
    · rfl
    · simp only [Res.map_ok]
      congr 1
      unfold P2.updateLater
      have hd : P2.desiredAt B (φ p.desired.x0) (φ p.quantile) p.historyCount =
          (P2.desiredAt A p.desired.x0 p.quantile p.historyCount).map φ := by
        unfold P2.desiredAt
        simp only [Five.map, H.divTwo, H.mul, H.add, H.lit, H.ofNat]
      have hq : B.le (B.lit (1 / 2)) (φ p.quantile) = A.le (A.lit (1 / 2)) p.quantile := by rw [H.le, H.lit]
      have hp0 : (⟨φ p.quantile, (P2.desiredAt A p.desired.x0 p.quantile p.historyCount).map φ,
          P2.bump p.pos (P2.findK A p.heights x).1, (P2.findK A p.heights x).2.map φ, p.historyCount⟩ : P2 G) =
          P2.map φ ⟨p.quantile, P2.desiredAt A p.desired.x0 p.quantile p.historyCount,
            P2.bump p.pos (P2.findK A p.heights x).1, (P2.findK A p.heights x).2, p.historyCount⟩ := rfl
      simp only [hf]
      simp only [Five.map] at hd hp0 ⊢
      simp only [hd, hp0, hq, H.p2_adjustHeights]
      split <;> rfl

theorem p2_evaluate (p : P2 F) :
    (p.map φ).evaluate B = (fun r : F × P2 F => (φ r.1, r.2.map φ)) <$> p.evaluate A := by
  have hi : P2.evalIndex B (p.map φ) = P2.evalIndex A p := by
    unfold P2.evalIndex
    rw [H.round, H.mul, H.abs, H.sub, H.lit, H.ofNat]
    rfl
  unfold P2.evaluate
  simp only [hi]
  simp only [P2.map, H.sort, Five.map_toList, List.getElem?_map]
  by_cases h5 : p.historyCount ≤ 5
  · simp only [h5, if_true]
    by_cases h0 : P2.evalIndex A p < 0
    · simp only [h0, if_true]; rfl
    · simp only [h0, if_false]
      cases (p.heights.sort A).toList[(P2.evalIndex A p).toNat]? <;> rfl
  · simp only [h5, if_false]; rfl

theorem wp2_new (q : F) (W : ℕ) : WP2.new B (φ q) W = WP2.map φ <$> WP2.new A q W := by
  unfold WP2.new
  rw [H.p2_new, ← H.lit]
  cases P2.new A q <;> rfl

theorem wp2_update (w : WP2 F) (x : F) : (w.map φ).update B (φ x) = WP2.map φ <$> w.update A x := by
  unfold WP2.update
  simp only [WP2.map, H.p2_update]
  cases w.p2.update A x with
  | throw m => rfl
  | ub u => rfl
  | ok p =>
    simp only [Res.map_ok, Res.ok_bind]
    by_cases hW : w.windowSize > 0
    · by_cases hn : (w.historyCount + 1) % (w.windowSize + 1) = 0
      · simp only [hW, hn, if_true, H.p2_evaluate]
        cases p.evaluate A <;> rfl
      · simp only [hW, hn, if_true, if_false]; rfl
    · simp only [hW, if_false]; rfl

theorem wp2_evaluate (w : WP2 F) :
    (w.map φ).evaluate B = (fun r : F × WP2 F => (φ r.1, r.2.map φ)) <$> w.evaluate A := by
  unfold WP2.evaluate
  simp only [WP2.map, H.p2_evaluate]
  by_cases hn : w.historyCount < w.windowSize
  · simp only [hn, if_true]
    cases w.p2.evaluate A <;> rfl
  · by_cases hW : w.windowSize = 0
    · simp only [hn, hW, if_true, if_false]; rfl
    · simp only [hn, hW, if_false]
      cases w.p2.evaluate A with
      | ok r => simp only [Res.map_ok, Res.ok_bind, ← H.lit, ← H.ofNat, ← H.sub, ← H.mul, ← H.add]
      | throw m => rfl
      | ub u => rfl

theorem iqr_new (low high : F) (W : ℕ) : IQR.new B (φ low) (φ high) W = IQR.map φ <$> IQR.new A low high W := by
  unfold IQR.new
  rw [H.wp2_new, H.wp2_new]
  cases WP2.new A low W with
  | ok l => cases WP2.new A high W <;> rfl
  | throw m => rfl
  | ub u => rfl

theorem iqr_newDefault (W : ℕ) : IQR.newDefault B W = IQR.map φ <$> IQR.newDefault A W := by
  unfold IQR.newDefault
  rw [← H.lit, ← H.lit]
  exact H.iqr_new _ _ W

theorem iqr_update (i : IQR F) (x : F) : (i.map φ).update B (φ x) = IQR.map φ <$> i.update A x := by
  unfold IQR.update
  simp only [IQR.map]
  rw [H.wp2_update, H.wp2_update]
  cases i.low.update A x with
  | ok l => cases i.high.update A x <;> rfl
  | throw m => rfl
  | ub u => rfl

theorem iqr_evaluate (i : IQR F) :
    (i.map φ).evaluate B = (fun r : F × IQR F => (φ r.1, r.2.map φ)) <$> i.evaluate A := by
  unfold IQR.evaluate
  simp only [IQR.map]
  rw [H.wp2_evaluate, H.wp2_evaluate]
  cases i.high.evaluate A with
  | ok l => cases i.low.evaluate A with
    | ok r => simp only [Res.map_ok, Res.ok_bind, H.sub]
    | throw m => rfl
    | ub u => rfl
  | throw m => rfl
  | ub u => rfl

/-! ### With the precondition of `std::sort` -/

theorem sortable (l : List F) : sortable B (l.map φ) = KML.sortable A l := by
  unfold KML.sortable Arith.incomp
  simp only [List.all_map, Function.comp_def, ← H.lt]

theorem p2_updateStrict (p : P2 F) (x : F) : (p.map φ).updateStrict B (φ x) = P2.map φ <$> p.updateStrict A x := by
  have h : KML.sortable B ((p.map φ).heights.toList.set 4 (φ x)) = KML.sortable A (p.heights.toList.set 4 x) := by
    rw [← H.sortable, List.map_set]
    simp only [P2.map, Five.map_toList]
  have hn : (p.map φ).historyCount = p.historyCount := rfl
  unfold P2.updateStrict
  rw [h, H.p2_update, hn]
  split <;> rfl

theorem p2_evaluateStrict (p : P2 F) :
    (p.map φ).evaluateStrict B = (fun r : F × P2 F => (φ r.1, r.2.map φ)) <$> p.evaluateStrict A := by
  have h : KML.sortable B (p.map φ).heights.toList = KML.sortable A p.heights.toList := by
    rw [← H.sortable]
    simp only [P2.map, Five.map_toList]
  have hn : (p.map φ).historyCount = p.historyCount := rfl
  unfold P2.evaluateStrict
  rw [h, H.p2_evaluate, hn]
  split <;> rfl

theorem p2_runStrict (ops : List (QOp F)) (p : P2 F) :
    (p.map φ).runStrict B (ops.map (QOp.map φ)) = (fun r : List F × P2 F => (r.1.map φ, r.2.map φ)) <$> p.runStrict A ops := by
  induction ops generalizing p with
  | nil => rfl
  | cons o ops ih =>
    cases o with
    | update x =>
      simp only [List.map_cons, QOp.map, P2.runStrict, P2.stepStrict, H.p2_updateStrict]
      cases p.updateStrict A x with
      | ok p1 =>
        simp only [Res.map_ok, Res.ok_bind, ih]
        cases p1.runStrict A ops <;> rfl
      | throw m => rfl
      | ub u => rfl
    | evaluate =>
      simp only [List.map_cons, QOp.map, P2.runStrict, P2.stepStrict, H.p2_evaluateStrict]
      cases p.evaluateStrict A with
      | ok r =>
        simp only [Res.map_ok, Res.ok_bind, ih]
        cases r.2.runStrict A ops <;> rfl
      | throw m => rfl
      | ub u => rfl
    | clear =>
      have hc : (p.map φ).clear = p.clear.map φ := rfl
      simp only [List.map_cons, QOp.map, P2.runStrict, P2.stepStrict, hc, Res.ok_bind, ih]
      cases p.clear.runStrict A ops <;> rfl

theorem wp2_updateStrict (w : WP2 F) (x : F) : (w.map φ).updateStrict B (φ x) = WP2.map φ <$> w.updateStrict A x := by
  unfold WP2.updateStrict
  simp only [WP2.map, H.p2_updateStrict]
  cases w.p2.updateStrict A x with
  | throw m => rfl
  | ub u => rfl
  | ok p =>
    simp only [Res.map_ok, Res.ok_bind]
    by_cases hW : w.windowSize > 0
    · by_cases hn : (w.historyCount + 1) % (w.windowSize + 1) = 0
      · simp only [hW, hn, if_true, H.p2_evaluateStrict]
        cases p.evaluateStrict A <;> rfl
      · simp only [hW, hn, if_true, if_false]; rfl
    · simp only [hW, if_false]; rfl

theorem wp2_evaluateStrict (w : WP2 F) :
    (w.map φ).evaluateStrict B = (fun r : F × WP2 F => (φ r.1, r.2.map φ)) <$> w.evaluateStrict A := by
  unfold WP2.evaluateStrict
  simp only [WP2.map, H.p2_evaluateStrict]
  by_cases hn : w.historyCount < w.windowSize
  · simp only [hn, if_true]
    cases w.p2.evaluateStrict A <;> rfl
  · by_cases hW : w.windowSize = 0
    · simp only [hn, hW, if_true, if_false]; rfl
    · simp only [hn, hW, if_false]
      cases w.p2.evaluateStrict A with
      | ok r => simp only [Res.map_ok, Res.ok_bind, ← H.lit, ← H.ofNat, ← H.sub, ← H.mul, ← H.add]
      | throw m => rfl
      | ub u => rfl

theorem iqr_updateStrict (i : IQR F) (x : F) : (i.map φ).updateStrict B (φ x) = IQR.map φ <$> i.updateStrict A x := by
  unfold IQR.updateStrict
  simp only [IQR.map]
  rw [H.wp2_updateStrict, H.wp2_updateStrict]
  cases i.low.updateStrict A x with
  | ok l => cases i.high.updateStrict A x <;> rfl
  | throw m => rfl
  | ub u => rfl

theorem iqr_evaluateStrict (i : IQR F) :
    (i.map φ).evaluateStrict B = (fun r : F × IQR F => (φ r.1, r.2.map φ)) <$> i.evaluateStrict A := by
  unfold IQR.evaluateStrict
  simp only [IQR.map]
  rw [H.wp2_evaluateStrict, H.wp2_evaluateStrict]
  cases i.high.evaluateStrict A with
  | ok l => cases i.low.evaluateStrict A with
    | ok r => simp only [Res.map_ok, Res.ok_bind, H.sub]
    | throw m => rfl
    | ub u => rfl
  | throw m => rfl
  | ub u => rfl

/-! ### StreamingHistogram -/

theorem hist : Hist.Sim A B φ (fun _ => True) where
  less a b _ _ := by rw [← H.eps]; exact (H.less a b _).symm
  lessPlus a b _ _ := by rw [← H.eps']; exact (H.less a b _).symm
  greaterPlus a b _ _ := by rw [← H.eps']; exact (H.greater a b _).symm
  le a b _ _ := (H.le a b).symm
  diff a b c d _ _ _ _ := by rw [← H.eps, ← H.sub, ← H.sub]; exact (H.less _ _ _).symm
  diffMax a b _ _ := by rw [← H.eps, ← H.sub, ← H.lit]; exact (H.less _ _ _).symm

omit H in
theorem edges (l : List (Bin F)) : Hist.Edges (fun _ => True) l := fun _ _ => ⟨trivial, trivial⟩

theorem hist_search (h : Hist F) (x : F) : (h.map φ).binSearch B (φ x) = h.binSearch A x := by
  unfold Hist.binSearch Hist.binSearchBin
  rw [List.length_map]
  exact H.hist.search (Hom.edges _) (c := ⟨x, x, 1⟩) trivial _ _ _ _

theorem hist_update (h : Hist F) (x : F) : (h.map φ).update B (φ x) = Hist.map φ <$> h.update A x :=
  (H.hist.update (Hom.edges _) trivial).1

theorem hist_add (h : Hist F) (x : F) : (h.map φ).add B (φ x) = Hist.map φ <$> h.add A x :=
  (H.hist.add (Hom.edges _) trivial).1

theorem hist_pdf (h : Hist F) (normalize density : Bool) :
    (h.map φ).pdf B normalize density = (h.pdf A normalize density).map φ := by
  unfold Hist.pdf
  cases density
  · cases normalize <;>
    · simp only [Bool.false_eq_true, if_false, Bool.not_true, Bool.not_false, if_true, List.map_map]
      refine List.map_congr_left fun b _ => ?_
      simp only [Function.comp_apply, Bin.map]
      first
        | rw [H.divOne, H.ofNat]
        | rw [H.divNat, H.ofNat]
  · simp only [if_true, List.map_map]
    refine List.map_congr_left fun b _ => ?_
    simp only [Function.comp_apply, Bin.map, ← H.sub, ← H.lit, ← H.le]
    have key : ∀ w, A.le w (A.lit 0) = false →
        B.div (B.ofNat b.count) (B.mul (B.ofNat h.total) (φ w)) = φ (A.div (A.ofNat b.count) (A.mul (A.ofNat h.total) w)) := by
      intro w hw
      rw [H.div (A.ofNat b.count) (A.mul (A.ofNat h.total) w) (H.dMul _ _ hw), H.ofNat, H.mul, H.ofNat]
    cases hw : A.le (A.sub b.right b.left) (A.lit 0)
    · simp only [Bool.false_eq_true, if_false]
      exact key _ hw
    · simp only [if_true]
      exact key _ H.one_pos

theorem partialSum (l : List F) : Hist.partialSum B (l.map φ) = (Hist.partialSum A l).map φ := by
  have hf : ∀ (l : List F) (a : F), Hist.partialSumFrom B (φ a) (l.map φ) = (Hist.partialSumFrom A a l).map φ := by
    intro l
    induction l with
    | nil => intro a; rfl
    | cons x l ih => intro a; simp only [List.map_cons, Hist.partialSumFrom, ← H.add, ih]
  cases l with
  | nil => rfl
  | cons x l => simp only [List.map_cons, Hist.partialSum, hf]

theorem hist_cdf (h : Hist F) (normalize : Bool) : (h.map φ).cdf B normalize = (h.cdf A normalize).map φ := by
  unfold Hist.cdf
  rw [H.hist_pdf, H.partialSum]

theorem lowerBound (l : List F) (q : F) : Hist.lowerBound B (l.map φ) (φ q) = Hist.lowerBound A l q := by
  unfold Hist.lowerBound
  rw [List.takeWhile_map, List.length_map]
  congr 2
  funext x
  exact (H.lt x q).symm

theorem quantileIndex (l : List F) (q : F) : Hist.quantileIndex B (l.map φ) (φ q) = Hist.quantileIndex A l q := by
  unfold Hist.quantileIndex
  simp only [H.lowerBound, List.getElem?_map, List.length_map]
  cases l[Hist.lowerBound A l q]? with
  | none => rfl
  | some v => simp only [Option.map_some, ← H.lt]

theorem hist_quantile (h : Hist F) (q : F) : (h.map φ).quantile B (φ q) = φ <$> h.quantile A q := by
  unfold Hist.quantile
  simp only [← H.lit 0, ← H.lit 1, ← H.lt, H.hist_cdf, H.quantileIndex, List.getElem?_map]
  split
  · rfl
  · cases Hist.quantileIndex A (h.cdf A true) q with
    | throw m => rfl
    | ub u => rfl
    | ok i =>
      simp only [Res.ok_bind]
      cases (h.cdf A true)[i]? with
      | none => rfl
      | some c =>
        cases h.bins[i]? with
        | none => rfl
        | some b =>
          simp only [Option.map_some, Bin.map]
          rw [← H.eps, ← H.essentially]
          cases he : essentiallyEqual A q c (defaultEps A)
          case true => simp only [if_true]; rfl
          case false =>
            simp only [Bool.false_eq_true, if_false]
            cases (h.cdf A true)[i + 1]? with
            | none => rfl
            | some c' =>
              simp only [Option.map_some, Res.map_ok]
              congr 1
              have hw : φ (if A.eq (A.sub b.right b.left) (A.lit 0) then A.div (A.lit 1) (A.ofNat h.numBins)
                  else A.sub b.right b.left) =
                  if B.eq (B.sub (φ b.right) (φ b.left)) (φ (A.lit 0)) then B.div (φ (A.lit 1)) (B.ofNat h.numBins)
                  else B.sub (φ b.right) (φ b.left) := by
                rw [← H.sub, ← H.eq, ← H.divNat]
                exact apply_ite φ _ _ _
              rw [H.add, H.divNat, H.mul, H.mul, hw, H.ofNat, H.sub]

theorem hist_report (h : Hist F) :
    (h.map φ).report B = (h.report A).map fun e => ((φ e.1.1, φ e.1.2), e.2) := by
  have hp : ∀ x y : F × F, Hist.pairLt B (φ x.1, φ x.2) (φ y.1, φ y.2) = Hist.pairLt A x y := by
    intro x y; unfold Hist.pairLt; simp only [← H.lt]
  have ha : ∀ (k : F × F) (v : ℕ) (l : List ((F × F) × ℕ)),
      Hist.mapAssign B (φ k.1, φ k.2) v (l.map fun e => ((φ e.1.1, φ e.1.2), e.2)) =
        (Hist.mapAssign A k v l).map fun e => ((φ e.1.1, φ e.1.2), e.2) := by
    intro k v l
    induction l with
    | nil => rfl
    | cons e l ih =>
      simp only [List.map_cons, Hist.mapAssign, hp, ih]
      split
      · rfl
      · split <;> rfl
  have hf : ∀ (bs : List (Bin F)) (l : List ((F × F) × ℕ)),
      (bs.map (Bin.map φ)).foldl (fun m b => Hist.mapAssign B (b.left, b.right) b.count m)
        (l.map fun e => ((φ e.1.1, φ e.1.2), e.2)) =
      (bs.foldl (fun m b => Hist.mapAssign A (b.left, b.right) b.count m) l).map fun e => ((φ e.1.1, φ e.1.2), e.2) := by
    intro bs
    induction bs with
    | nil => intro l; rfl
    | cons b bs ih =>
      intro l
      simp only [List.map_cons, List.foldl_cons]
      rw [← ih, ← ha]
  exact hf h.bins []

omit H in
theorem hist_binCounts (h : Hist F) : (h.map φ).binCounts = h.binCounts := by
  unfold Hist.binCounts
  simp only [List.map_map]
  rfl

omit H in
theorem hist_getBin (h : Hist F) (n : ℕ) : (h.map φ).getBin n = Bin.map φ <$> h.getBin n := by
  unfold Hist.getBin
  simp only [List.length_map, List.getElem?_map]
  split
  · rfl
  · cases h.bins[n]? <;> rfl

omit H in
/-- A history of calls. -/
theorem run {σ τ : Type} {upd : σ → F → Res σ} {ev : σ → Res (F × σ)} {upd' : τ → G → Res τ} {ev' : τ → Res (G × τ)} (f : σ → τ)
    (hu : ∀ s x, upd' (f s) (φ x) = f <$> upd s x) (he : ∀ s, ev' (f s) = (fun r : F × σ => (φ r.1, f r.2)) <$> ev s)
    (ops : List (SOp F)) (s : σ) :
    SOp.run upd' ev' (f s) (ops.map (SOp.map φ)) = (fun r : List F × σ => (r.1.map φ, f r.2)) <$> SOp.run upd ev s ops := by
  induction ops generalizing s with
  | nil => rfl
  | cons o ops ih =>
    cases o with
    | update x =>
      simp only [List.map_cons, SOp.map, SOp.run, hu]
      cases upd s x with
      | ok s1 => exact ih s1
      | throw m => rfl
      | ub u => rfl
    | evaluate =>
      simp only [List.map_cons, SOp.map, SOp.run, he]
      cases ev s with
      | ok r =>
        simp only [Res.map_ok, Res.ok_bind, ih]
        cases SOp.run upd ev r.2 ops <;> rfl
      | throw m => rfl
      | ub u => rfl

end Hom

/-- `φ` also respects the logarithm, the sign change and the number of bins computed from the logarithm. -/
structure LHom (L : LArith F) (M : LArith G) (φ : F → G) (D : F → Prop) : Prop extends Hom L.toArith M.toArith φ D where
  log2 : ∀ a, φ (L.log2 a) = M.log2 (φ a)
  neg : ∀ a, φ (L.neg a) = M.neg (φ a)
  ceilNat : ∀ a, L.ceilNat a = M.ceilNat (φ a)

/-- Apply a function to every value. -/
abbrev Entropy.image (f : F → G) (e : Entropy F) : Entropy G :=
  ⟨e.windowSize, e.window, e.historyCount, e.hist.map f, f e.entropy⟩

namespace LHom

variable {L : LArith F} {M : LArith G} {φ : F → G} {D : F → Prop} (H : LHom L M φ D)

include H

theorem xlogx (a : F) : Utils.xlogx M (φ a) = φ <$> Utils.xlogx L a := by
  unfold Utils.xlogx
  rw [← H.lit, ← H.lt, ← H.eq]
  split
  · rfl
  · split
    · rfl
    · rw [← H.log2, ← H.mul]; rfl

theorem entropy_new (W n : ℕ) : Entropy.new M W n = Entropy.image φ <$> Entropy.new L W n := by
  unfold Entropy.new
  rw [← H.lit, ← H.ofNat, ← H.log2, ← H.ceilNat]
  by_cases hn : n = 0
  · by_cases hW : W = 0
    · simp only [hn, hW, if_true]; rfl
    · simp only [hn, hW, if_true, if_false]; rfl
  · simp only [hn, if_false]; rfl

theorem entropy_increment (e : Entropy F) (i : ℕ) :
    (e.image φ).increment M i = Entropy.image φ <$> e.increment L i := by
  have ht : (e.image φ).hist.total = e.hist.total := rfl
  unfold Entropy.increment Hist.getTotalCount
  rw [ht, Hom.hist_getBin]
  cases e.hist.getBin i with
  | throw m => rfl
  | ub u => rfl
  | ok b =>
    have e1 : M.div (M.ofNat b.count) (M.ofNat e.hist.total) = φ (L.div (L.ofNat b.count) (L.ofNat e.hist.total)) := by
      rw [H.divNat, H.ofNat]
    have e2 : M.div (M.max (M.lit 0) (M.sub (M.ofNat b.count) (M.lit 1))) (M.ofNat e.hist.total) =
        φ (L.div (L.max (L.lit 0) (L.sub (L.ofNat b.count) (L.lit 1))) (L.ofNat e.hist.total)) := by
      rw [H.divNat, H.max, H.sub, H.lit, H.lit, H.ofNat]
    have e3 : M.div (M.sub (M.ofNat e.hist.total) (M.lit 1)) (M.ofNat e.hist.total) =
        φ (L.div (L.sub (L.ofNat e.hist.total) (L.lit 1)) (L.ofNat e.hist.total)) := by
      rw [H.divNat, H.sub, H.lit, H.ofNat]
    have e4 : M.eq (M.lit 1) (M.ofNat e.hist.total) = L.eq (L.lit 1) (L.ofNat e.hist.total) := by
      rw [H.eq, H.lit, H.ofNat]
    simp only [Res.map_ok, Res.ok_bind]
    have e5 : ∀ b : Bin F, (b.map φ).count = b.count := fun _ => rfl
    rw [e5, e4]
    simp only [Res.map_ok, Res.ok_bind, e1, e2, e3, H.xlogx]
    cases Utils.xlogx L (L.div (L.ofNat b.count) (L.ofNat e.hist.total)) with
    | throw m => rfl
    | ub u => rfl
    | ok x1 =>
      cases Utils.xlogx L (L.div (L.max (L.lit 0) (L.sub (L.ofNat b.count) (L.lit 1))) (L.ofNat e.hist.total)) with
      | throw m => rfl
      | ub u => rfl
      | ok x2 =>
        simp only [Res.map_ok, Res.ok_bind]
        by_cases h1 : L.eq (L.lit 1) (L.ofNat e.hist.total) = true
        · simp only [if_pos h1]
          simp only [Res.map_ok, Entropy.image, H.add, H.neg]
        · simp only [if_neg h1]
          simp only [Res.map_ok, Entropy.image, H.add, H.mul, H.sub, H.log2, H.neg]

theorem entropy_decrement (e : Entropy F) (i : ℕ) :
    (e.image φ).decrement M i = Entropy.image φ <$> e.decrement L i := by
  unfold Entropy.decrement
  simp only [Hom.hist_getBin, Hist.getTotalCount]
  cases e.hist.getBin i with
  | throw m => rfl
  | ub u => rfl
  | ok b =>
    have d0 : D (L.sub (L.ofNat e.hist.total) (L.lit 1)) := H.dSub _ _ (H.dInt _)
    have d1 : D (L.add (L.sub (L.ofNat e.hist.total) (L.lit 1)) (L.lit 1)) := H.dAdd _ _ d0
    have hn : M.sub (M.ofNat e.hist.total) (M.lit 1) = φ (L.sub (L.ofNat e.hist.total) (L.lit 1)) := by
      rw [H.sub, H.lit, H.ofNat]
    have hc : M.max (M.lit 0) (M.sub (M.ofNat b.count) (M.lit 1)) = φ (L.max (L.lit 0) (L.sub (L.ofNat b.count) (L.lit 1))) := by
      rw [H.max, H.sub, H.lit, H.lit, H.ofNat]
    simp only [Res.map_ok, Res.ok_bind, hn, hc]
    generalize L.sub (L.ofNat e.hist.total) (L.lit 1) = n at d0 d1
    generalize L.max (L.lit 0) (L.sub (L.ofNat b.count) (L.lit 1)) = c
    rw [← H.lit 1, ← H.add, ← H.add, ← H.div _ _ d1, ← H.div _ _ d1, ← H.div _ _ d1, ← H.div _ _ d0, H.xlogx, H.xlogx]
    cases Utils.xlogx L (L.div (L.add c (L.lit 1)) (L.add n (L.lit 1))) with
    | throw m => rfl
    | ub u => rfl
    | ok x1 =>
      cases Utils.xlogx L (L.div c (L.add n (L.lit 1))) with
      | throw m => rfl
      | ub u => rfl
      | ok x2 => simp only [Res.map_ok, Res.ok_bind, Entropy.image, H.add, H.mul, H.sub, H.log2]

theorem entropy_update (e : Entropy F) (x : F) : (e.image φ).update M (φ x) = Entropy.image φ <$> e.update L x := by
  have key : ∀ (e : Entropy F) (i : ℕ),
      ((do
        let hist ← (e.image φ).hist.update M.toArith (φ x)
        let e2 ← ({ e.image φ with hist := hist } : Entropy G).increment M i
        .ok { e2 with historyCount := e2.historyCount + 1 }) : Res (Entropy G)) =
      Entropy.image φ <$> (do
        let hist ← e.hist.update L.toArith x
        let e2 ← ({ e with hist := hist } : Entropy F).increment L i
        .ok { e2 with historyCount := e2.historyCount + 1 }) := by
    intro e i
    simp only [H.hist_update]
    cases e.hist.update L.toArith x with
    | throw m => rfl
    | ub u => rfl
    | ok h =>
      simp only [Res.map_ok, Res.ok_bind]
      have := H.entropy_increment ⟨e.windowSize, e.window, e.historyCount, h, e.entropy⟩ i
      rw [this]
      cases Entropy.increment L ⟨e.windowSize, e.window, e.historyCount, h, e.entropy⟩ i <;> rfl
  unfold Entropy.update
  simp only [H.hist_search]
  cases e.hist.binSearch L.toArith x with
  | throw m => rfl
  | ub u => rfl
  | ok i =>
    simp only [Res.ok_bind]
    cases hw : e.window with
    | none => rfl
    | some w =>
      simp only
      cases hwi : w ++ [i] with
      | nil => rfl
      | cons a r =>
        simp only
        by_cases hlen : (a :: r).length > e.windowSize
        · simp only [hlen, if_true]
          rw [H.entropy_decrement]
          cases e.decrement L a with
          | throw m => rfl
          | ub u => rfl
          | ok e1 => exact key ⟨e1.windowSize, some r, e1.historyCount, e1.hist, e1.entropy⟩ i
        · simp only [hlen, if_false]
          exact key ⟨e.windowSize, some (a :: r), e.historyCount, e.hist, e.entropy⟩ i

end LHom

end KML
