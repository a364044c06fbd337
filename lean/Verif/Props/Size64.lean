import Verif.Model.Size64
import Verif.Lemmas.Float
import Verif.Props.HistPublic
import Verif.Props.LinkedList
import Verif.Props.RingBuffer
import Verif.Spec.Quantile

/-! # C125: 64-bit sizes -/

namespace KML

open Spec

theorem w64_of_lt {n : ℕ} (h : n < 2 ^ 64) : w64 n = n := Nat.mod_eq_of_lt h

theorem viaDouble_of_le {n : ℕ} (h : n ≤ 2 ^ 53) : viaDouble n = n := by
  have := rnd64_int n (by rw [abs_of_nonneg (by positivity)]; exact_mod_cast h)
  unfold viaDouble
  have e : ((n : ℕ) : ℚ) = ((n : ℤ) : ℚ) := by simp
  rw [e, this]
  exact congrArg Int.toNat (Rat.floor_intCast n)

/-- Two programs that agree as long as an invariant holds, which holds for the first `N` observations. -/
theorem SOp.run_agree {σ F : Type} {u u' : σ → F → Res σ} {e e' : σ → Res (F × σ)} (Inv : ℕ → σ → Prop) (N : ℕ)
    (hu : ∀ n s x, Inv n s → n < N → u' s x = u s x ∧ ∀ s', u s x = .ok s' → Inv (n + 1) s')
    (he : ∀ n s, Inv n s → n ≤ N → e' s = e s ∧ ∀ v s', e s = .ok (v, s') → Inv n s') :
    ∀ (os : List (SOp F)) (n : ℕ) (s : σ), Inv n s → n + (SOp.observations os).length ≤ N →
      SOp.run u' e' s os = SOp.run u e s os
  | [], _, _, _, _ => rfl
  | .update x :: os, n, s, hi, hN => by
    simp only [SOp.observations, List.length_cons] at hN
    obtain ⟨h1, h2⟩ := hu n s x hi (by omega)
    simp only [SOp.run, h1]
    cases hs : u s x with
    | ok s' =>
      simp only [Res.ok_bind]
      exact run_agree Inv N hu he os (n + 1) s' (h2 s' hs) (by omega)
    | throw m => rfl
    | ub k => rfl
  | .evaluate :: os, n, s, hi, hN => by
    simp only [SOp.observations] at hN
    obtain ⟨h1, h2⟩ := he n s hi (by omega)
    simp only [SOp.run, h1]
    cases hs : e s with
    | ok p =>
      obtain ⟨v, s'⟩ := p
      simp only [Res.ok_bind]
      rw [run_agree Inv N hu he os n s' (h2 v s' hs) hN]
    | throw m => rfl
    | ub k => rfl

/-- The same for calls of any kind, `cost` of which count. -/
theorem runCalls_agree {σ ο ρ : Type} {f f' : σ → ο → Res (ρ × σ)} (cost : ο → ℕ) (Inv : ℕ → σ → Prop) (N : ℕ)
    (hf : ∀ n s o, Inv n s → n + cost o ≤ N → f' s o = f s o ∧ ∀ r s', f s o = .ok (r, s') → Inv (n + cost o) s') :
    ∀ (os : List ο) (n : ℕ) (s : σ), Inv n s → n + (os.map cost).sum ≤ N → runCalls f' s os = runCalls f s os
  | [], _, _, _, _ => rfl
  | o :: os, n, s, hi, hN => by
    simp only [List.map_cons, List.sum_cons] at hN
    obtain ⟨h1, h2⟩ := hf n s o hi (by omega)
    simp only [runCalls, h1]
    cases hs : f s o with
    | ok p =>
      obtain ⟨r, s'⟩ := p
      simp only [Res.ok_bind]
      rw [runCalls_agree cost Inv N hf os (n + cost o) s' (h2 r s' hs) (by omega)]
    | throw m => rfl
    | ub k => rfl

theorem updateAll_agree {σ ο : Type} {f f' : σ → ο → Res σ} (cost : ο → ℕ) (Inv : ℕ → σ → Prop) (N : ℕ)
    (hf : ∀ n s o, Inv n s → n + cost o ≤ N → f' s o = f s o ∧ ∀ s', f s o = .ok s' → Inv (n + cost o) s') :
    ∀ (os : List ο) (n : ℕ) (s : σ), Inv n s → n + (os.map cost).sum ≤ N →
      updateAll f' s os = updateAll f s os ∧ ∀ s', updateAll f s os = .ok s' → Inv (n + (os.map cost).sum) s'
  | [], n, s, hi, _ => by
    refine ⟨rfl, fun s' h => ?_⟩
    simp only [updateAll] at h
    injection h with h
    subst h
    simpa using hi
  | o :: os, n, s, hi, hN => by
    simp only [List.map_cons, List.sum_cons] at hN ⊢
    obtain ⟨h1, h2⟩ := hf n s o hi (by omega)
    simp only [updateAll, h1]
    cases hs : f s o with
    | ok s' =>
      simp only [Res.ok_bind]
      have := updateAll_agree cost Inv N hf os (n + cost o) s' (h2 s' hs) (by omega)
      rwa [Nat.add_assoc] at this
    | throw m => exact ⟨rfl, fun s' h => by cases h⟩
    | ub k => exact ⟨rfl, fun s' h => by cases h⟩

variable {F : Type} (A : Arith F)

/-! ## Mean, variance, FAME, MAD -/

/-- Counters of a mean after `n` observations. -/
structure Mean.Small (n : ℕ) (m : Mean F) : Prop where
  hist : m.historyCount ≤ n
  window : ∀ w, m.window = some w → w.length ≤ n

theorem Mean.Small.update64 {n : ℕ} {m : Mean F} (h : m.Small n) (hn : n < 2 ^ 64 - 1) (x : F) :
    m.update64 A x = m.update A x ∧ ∀ m', m.update A x = .ok m' → m'.Small (n + 1) := by
  have h1 := h.hist
  obtain ⟨W, win, hc, s⟩ := m
  simp only at h1
  have e1 : w64 (hc + 1) = hc + 1 := w64_of_lt (by omega)
  rcases win with _ | w
  · simp only [Mean.update64, Mean.update, Res.ok_bind, e1]
    refine ⟨trivial, fun m' e => ?_⟩
    injection e with e
    subst e
    exact ⟨by simpa using h1, fun w e => by simp at e⟩
  · have h2 := h.window w rfl
    have e2 : w64 (w.length + 1) = w.length + 1 := w64_of_lt (by omega)
    simp only [Mean.update64, Mean.update, e2]
    by_cases hl : w.length + 1 > W
    · rw [if_pos hl, if_pos hl]
      rcases w with _ | ⟨a, w⟩
      · exact ⟨rfl, fun m' e => by cases e⟩
      · simp only [Res.ok_bind, e1]
        refine ⟨trivial, fun m' e => ?_⟩
        injection e with e
        subst e
        refine ⟨by simpa using h1, fun w' e => ?_⟩
        injection e with e
        subst e
        simp at h2 ⊢
        omega
    · rw [if_neg hl, if_neg hl]
      simp only [Res.ok_bind, e1]
      refine ⟨trivial, fun m' e => ?_⟩
      injection e with e
      subst e
      refine ⟨by simpa using h1, fun w' e => ?_⟩
      injection e with e
      subst e
      simp
      omega

theorem Mean.Small.new (W : ℕ) : (Mean.new A W).Small 0 := by
  refine ⟨le_rfl, fun w e => ?_⟩
  unfold Mean.new at e
  simp only at e
  split at e
  · injection e with e; subst e; rfl
  · cases e

/-- **C125**: the mean, for every window and fewer than 2^64 observations. -/
theorem C125_mean (W : ℕ) (os : List (SOp F)) (ho : (SOp.observations os).length < 2 ^ 64) :
    SOp.run (Mean.update64 A) (fun m => .ok (m.evaluate A, m)) (Mean.new A W) os =
      SOp.run (Mean.update A) (fun m => .ok (m.evaluate A, m)) (Mean.new A W) os :=
  SOp.run_agree (fun n m => Mean.Small n m) (2 ^ 64 - 1) (fun n m x h hn => h.update64 A hn x)
    (fun n m h _ => ⟨rfl, fun v s' e => by cases e; exact h⟩) os 0 _ (Mean.Small.new A W) (by omega)

example : ∃ m, SOp.run (Mean.update64 (exact ℚ)) (fun m => .ok (m.evaluate (exact ℚ), m)) (Mean.new (exact ℚ) 2)
    [.update 1, .update 2, .update 6, .evaluate] = .ok ([4], m) := ⟨⟨2, some [2, 6], 3, 8⟩, by decide +kernel⟩

/-- **C125**, the bound is the right one: after 2^64 observations the counter is 0 and the mean is reported as 0, whatever
the observations. -/
theorem C125_mean_wraps (W : ℕ) (xs : List F) (hx : xs.length = 2 ^ 64) (m : Mean F)
    (h : updateAll (Mean.update64 A) (Mean.new A W) xs = .ok m) : m.evaluate A = A.lit 0 := by
  have step : ∀ (m m' : Mean F) x, m.update64 A x = .ok m' → m'.historyCount = w64 (m.historyCount + 1) := by
    intro m m' x e
    obtain ⟨W, win, hc, s⟩ := m
    rcases win with _ | w
    · simp only [Mean.update64, Res.ok_bind] at e
      injection e with e
      subst e
      rfl
    · simp only [Mean.update64] at e
      by_cases hl : w64 (w.length + 1) > W
      · rw [if_pos hl] at e
        rcases w with _ | ⟨a, w⟩
        · cases e
        · simp only [Res.ok_bind] at e
          injection e with e
          subst e
          rfl
      · rw [if_neg hl] at e
        simp only [Res.ok_bind] at e
        injection e with e
        subst e
        rfl
  have all : ∀ (xs : List F) (m m' : Mean F), updateAll (Mean.update64 A) m xs = .ok m' →
      m'.historyCount % 2 ^ 64 = (m.historyCount + xs.length) % 2 ^ 64 ∧ (xs ≠ [] → m'.historyCount < 2 ^ 64) := by
    intro xs
    induction xs with
    | nil =>
      intro m m' e
      simp only [updateAll] at e
      injection e with e
      subst e
      simp
    | cons x xs ih =>
      intro m m' e
      obtain ⟨g, e1, e2⟩ := Res.bind_eq_ok.1 e
      have := step _ _ _ e1
      obtain ⟨i1, i2⟩ := ih _ _ e2
      refine ⟨?_, fun _ => ?_⟩
      · rw [i1, this, List.length_cons, w64]
        omega
      · by_cases hx : xs = []
        · subst hx
          simp only [updateAll] at e2
          injection e2 with e2
          subst e2
          rw [this]
          exact Nat.mod_lt _ (by norm_num)
        · exact i2 hx
  obtain ⟨h1, h2⟩ := all xs _ _ h
  have h3 := h2 (by rintro rfl; simp at hx)
  have : m.historyCount = 0 := by
    rw [hx] at h1
    simp only [Mean.new] at h1
    omega
  simp [Mean.evaluate, this]

/-- **C125**: the variance. -/
theorem C125_variance (W : ℕ) (os : List (SOp F)) (ho : (SOp.observations os).length < 2 ^ 64) :
    SOp.run (Variance.update64 A) (fun v => .ok (v.evaluate A, v)) (Variance.new A W) os =
      SOp.run (Variance.update A) (fun v => .ok (v.evaluate A, v)) (Variance.new A W) os := by
  refine SOp.run_agree (fun n v => Mean.Small n v.mean ∧ Mean.Small n v.sumSquared) (2 ^ 64 - 1) (fun n v x h hn => ?_)
    (fun n v h _ => ⟨rfl, fun _ s' e => by cases e; exact h⟩) os 0 _ ⟨Mean.Small.new A W, Mean.Small.new A W⟩ (by omega)
  obtain ⟨h1, h2⟩ := h.1.update64 A hn x
  obtain ⟨h3, h4⟩ := h.2.update64 A hn (A.mul x x)
  unfold Variance.update64 Variance.update
  rw [h1, h3]
  refine ⟨rfl, fun v' e => ?_⟩
  obtain ⟨a, e1, e2⟩ := Res.bind_eq_ok.1 e
  obtain ⟨b, e3, e4⟩ := Res.bind_eq_ok.1 e2
  injection e4 with e4
  subst e4
  exact ⟨h2 _ e1, h4 _ e3⟩

example : ∃ v, SOp.run (Variance.update64 (exact ℚ)) (fun m => .ok (m.evaluate (exact ℚ), m)) (Variance.new (exact ℚ) 2)
    [.update 1, .update 2, .update 6, .evaluate] = .ok ([4], v) :=
  ⟨⟨some [], 0, ⟨2, some [2, 6], 3, 8⟩, ⟨2, some [4, 36], 3, 40⟩⟩, by decide +kernel⟩

theorem Fame.update_historyCount (f : Fame F) (x : F) : (f.update A x).historyCount = f.historyCount + 1 := by
  unfold Fame.update
  simp only
  split_ifs <;> rfl

theorem Fame.update64_eq {f : Fame F} (h : f.historyCount < 2 ^ 64 - 1) (x : F) : f.update64 A x = f.update A x := by
  unfold Fame.update64
  simp only [Fame.update_historyCount, w64_of_lt (show f.historyCount + 1 < 2 ^ 64 by omega)]
  rw [← Fame.update_historyCount A f x]

/-- **C125**: FAME, from every new object. -/
theorem C125_fame (f : Fame F) (hf : f.historyCount = 0) (os : List (SOp F))
    (ho : (SOp.observations os).length < 2 ^ 64) :
    SOp.run (fun f x => .ok (f.update64 A x)) (fun f => .ok (f.evaluate, f)) f os =
      SOp.run (fun f x => .ok (f.update A x)) (fun f => .ok (f.evaluate, f)) f os :=
  SOp.run_agree (fun n f => f.historyCount ≤ n) (2 ^ 64 - 1) (fun n f x h hn => by
    refine ⟨by rw [Fame.update64_eq A (by omega)], fun f' e => ?_⟩
    injection e with e
    subst e
    rw [Fame.update_historyCount]
    omega) (fun n f h _ => ⟨rfl, fun _ s' e => by cases e; exact h⟩) os 0 _ hf.le (by omega)

example : ∃ f, Fame.new (exact ℚ) (1 / 10) 0 = .ok f ∧ f.historyCount = 0 := ⟨_, rfl, rfl⟩

/-- **C125**: MAD, from every new object. -/
theorem C125_mad (m : Mad F) (hm : Mad.new A = .ok m) (os : List (SOp F)) (ho : (SOp.observations os).length < 2 ^ 64) :
    SOp.run (fun m x => .ok (m.update64 A x)) (fun m => .ok (m.evaluate, m)) m os =
      SOp.run (fun m x => .ok (m.update A x)) (fun m => .ok (m.evaluate, m)) m os := by
  have h0 : m.scoreMedian.historyCount ≤ 0 ∧ m.errorMedian.historyCount ≤ 0 ∧ m.historyCount ≤ 0 := by
    unfold Mad.new at hm
    obtain ⟨a, e1, e2⟩ := Res.bind_eq_ok.1 hm
    obtain ⟨b, e3, e4⟩ := Res.bind_eq_ok.1 e2
    have fresh : ∀ g, Fame.new A (A.lit (1 / 10)) (A.lit 0) = .ok g → g.historyCount ≤ 0 := by
      intro g e
      unfold Fame.new at e
      split at e
      · cases e
      · injection e with e; subst e; exact le_rfl
    injection e4 with e4
    subst e4
    exact ⟨fresh _ e1, fresh _ e3, le_rfl⟩
  refine SOp.run_agree (fun n (m : Mad F) => m.scoreMedian.historyCount ≤ n ∧ m.errorMedian.historyCount ≤ n ∧
    m.historyCount ≤ n) (2 ^ 64 - 1) (fun n m x h hn => ?_)
    (fun n f h _ => ⟨rfl, fun _ s' e => by cases e; exact h⟩) os 0 _ h0 (by omega)
  obtain ⟨h1, h2, h3⟩ := h
  have e1 := Fame.update64_eq A (f := m.scoreMedian) (by omega) x
  refine ⟨?_, fun m' e => ?_⟩
  · simp only [Mad.update64, Mad.update, e1, w64_of_lt (show m.historyCount + 1 < 2 ^ 64 by omega)]
    rw [Fame.update64_eq A (by omega)]
  · injection e with e
    subst e
    simp only [Mad.update, Fame.update_historyCount]
    omega

example : ∃ m, Mad.new (exact ℚ) = .ok m := ⟨⟨⟨0, 1 / 10, 0, 0⟩, ⟨0, 1 / 10, 0, 0⟩, 0⟩, by decide +kernel⟩

/-! ## Quantiles -/

theorem P2.update_historyCount {p p' : P2 F} {x : F} (h : p.update A x = .ok p') :
    p'.historyCount = p.historyCount + 1 := by
  unfold P2.update at h
  split_ifs at h
  · injection h with h
    subst h
    unfold P2.updateFirst
    simp only
    split_ifs <;> rfl
  · injection h with h
    subst h
    unfold P2.updateLater
    simp only
    split_ifs <;> rfl

theorem P2.update64_eq {p : P2 F} (h : p.historyCount < 2 ^ 64 - 1) (x : F) : p.update64 A x = p.update A x := by
  unfold P2.update64
  cases hp : p.update A x with
  | ok p' =>
    have := P2.update_historyCount A hp
    simp only [Res.ok_bind, w64_of_lt (show p'.historyCount < 2 ^ 64 by omega)]
  | throw m => rfl
  | ub k => rfl

theorem P2.evaluate_historyCount {p p' : P2 F} {v : F} (h : p.evaluate A = .ok (v, p')) :
    p'.historyCount = p.historyCount := by
  unfold P2.evaluate at h
  split_ifs at h
  · simp only at h
    split_ifs at h
    split at h
    · cases h; rfl
    · cases h
  · cases h; rfl

/-- One call on a quantile with a 64-bit counter. -/
def P2.step64 (p : P2 F) : QOp F → Res (List F × P2 F)
  | .update x => do
    let p ← p.update64 A x
    .ok ([], p)
  | o => p.step A o

/-- The number of observations in a call. -/
def QOp.cost : QOp F → ℕ
  | .update _ => 1
  | _ => 0

/-- **C125**: the quantile, with `clear`, from every new object. -/
theorem C125_p2 (p : P2 F) (hp : p.historyCount = 0) (os : List (QOp F)) (ho : (os.map QOp.cost).sum < 2 ^ 64) :
    runCalls (P2.step64 A) p os = runCalls (P2.step A) p os := by
  refine runCalls_agree QOp.cost (fun n p => p.historyCount ≤ n) (2 ^ 64 - 1) (fun n p o h hn => ?_) os 0 _ hp.le (by omega)
  cases o with
  | update x =>
    simp only [QOp.cost] at hn ⊢
    refine ⟨by simp only [P2.step64, P2.step, P2.update64_eq A (show p.historyCount < 2 ^ 64 - 1 by omega)], ?_⟩
    intro r p' e
    obtain ⟨g, e1, e2⟩ := Res.bind_eq_ok.1 e
    cases e2
    have := P2.update_historyCount A e1
    omega
  | evaluate =>
    refine ⟨rfl, fun r p' e => ?_⟩
    obtain ⟨⟨v, g⟩, e1, e2⟩ := Res.bind_eq_ok.1 e
    cases e2
    have := P2.evaluate_historyCount A e1
    simp only [QOp.cost]
    omega
  | clear =>
    refine ⟨rfl, fun r p' e => ?_⟩
    cases e
    exact Nat.zero_le _

/-- A new quantile. -/
def halfP2 : P2 ℚ := ⟨1 / 2, ⟨0, 0, 0, 0, 0⟩, ⟨0, 1, 2, 3, 4⟩, ⟨0, 0, 0, 0, 0⟩, 0⟩

example : P2.new (exact ℚ) (1 / 2) = .ok halfP2 ∧ halfP2.historyCount = 0 := ⟨by decide +kernel, rfl⟩

/-- Counters of a windowed quantile after `n` observations. -/
structure WP2.Small (W n : ℕ) (w : WP2 F) : Prop where
  size : w.windowSize = W
  hist : w.historyCount ≤ n
  p2 : w.p2.historyCount ≤ n

variable {A}

theorem WP2.Small.update64 {W n : ℕ} {w : WP2 F} (h : w.Small W n) (hW : W < 2 ^ 64 - 1) (hn : n < 2 ^ 64 - 1) (x : F) :
    w.update64 A x = w.update A x ∧ ∀ w', w.update A x = .ok w' → w'.Small W (n + 1) := by
  obtain ⟨h1, h2, h3⟩ := h
  have e1 := P2.update64_eq A (p := w.p2) (by omega) x
  have e2 : w64 (w.windowSize + 1) = w.windowSize + 1 := w64_of_lt (by omega)
  have e3 : w64 (w.historyCount + 1) = w.historyCount + 1 := w64_of_lt (by omega)
  unfold WP2.update64 WP2.update
  rw [e1]
  cases hp : w.p2.update A x with
  | throw m => exact ⟨rfl, fun w' e => by cases e⟩
  | ub k => exact ⟨rfl, fun w' e => by cases e⟩
  | ok p =>
    have k := P2.update_historyCount A hp
    simp only [Res.ok_bind, e2, e3]
    by_cases hz : w.windowSize > 0
    · rw [if_pos hz, if_pos hz, if_neg (by omega)]
      refine ⟨rfl, fun w' e => ?_⟩
      by_cases hm : (w.historyCount + 1) % (w.windowSize + 1) = 0
      · rw [if_pos hm] at e
        obtain ⟨⟨v, g⟩, e1, e2⟩ := Res.bind_eq_ok.1 e
        injection e2 with e2
        subst e2
        exact ⟨h1, by simpa using h2, Nat.zero_le _⟩
      · rw [if_neg hm] at e
        injection e with e
        subst e
        exact ⟨h1, by simpa using h2, by simp only; omega⟩
    · rw [if_neg hz, if_neg hz]
      refine ⟨rfl, fun w' e => ?_⟩
      injection e with e
      subst e
      exact ⟨h1, by simpa using h2, by simp only; omega⟩

theorem WP2.Small.evaluate64 {W n : ℕ} {w : WP2 F} (h : w.Small W n) (hW : W < 2 ^ 64) :
    w.evaluate64 A = w.evaluate A ∧ ∀ v w', w.evaluate A = .ok (v, w') → w'.Small W n := by
  obtain ⟨h1, h2, h3⟩ := h
  unfold WP2.evaluate64 WP2.evaluate
  by_cases hl : w.historyCount < w.windowSize
  · rw [if_pos hl, if_pos hl]
    refine ⟨rfl, fun v w' e => ?_⟩
    obtain ⟨⟨v, g⟩, e1, e2⟩ := Res.bind_eq_ok.1 e
    have := P2.evaluate_historyCount A e1
    cases e2
    exact ⟨h1, h2, by simp only; omega⟩
  · rw [if_neg hl, if_neg hl]
    by_cases hz : w.windowSize = 0
    · rw [if_pos hz, if_pos hz]
      exact ⟨rfl, fun v w' e => by cases e⟩
    · rw [if_neg hz, if_neg hz]
      have : w.historyCount % w.windowSize < w.windowSize := Nat.mod_lt _ (by omega)
      rw [w64_of_lt (by omega)]
      refine ⟨rfl, fun v w' e => ?_⟩
      obtain ⟨⟨v, g⟩, e1, e2⟩ := Res.bind_eq_ok.1 e
      have := P2.evaluate_historyCount A e1
      cases e2
      exact ⟨h1, h2, by simp only; omega⟩

theorem WP2.Small.new {q : F} {W : ℕ} {w : WP2 F} (h : WP2.new A q W = .ok w) : w.Small W 0 := by
  unfold WP2.new at h
  obtain ⟨p, e1, e2⟩ := Res.bind_eq_ok.1 h
  injection e2 with e2
  subst e2
  refine ⟨rfl, le_rfl, ?_⟩
  unfold P2.new at e1
  split at e1
  · cases e1
  · injection e1 with e1; subst e1; exact le_rfl

variable (A)

/-- **C125**, the full claim for windowed quantiles: with every window a `size_t` can hold, the class does what it would
with unbounded sizes. -/
def C125_full : Prop := ∀ (q : ℚ) (W : ℕ) (w : WP2 ℚ) (os : List (SOp ℚ)), W < 2 ^ 64 →
  WP2.new (exact ℚ) q W = .ok w → (SOp.observations os).length < 2 ^ 64 →
  SOp.run (WP2.update64 (exact ℚ)) (WP2.evaluate64 (exact ℚ)) w os =
    SOp.run (WP2.update (exact ℚ)) (WP2.evaluate (exact ℚ)) w os

/-- **C125**: with the largest window, `m_windowSize + 1` is 0 and the first update divides by it. -/
theorem C125_divides_by_zero (q : F) (w : WP2 F) (h : WP2.new A q (2 ^ 64 - 1) = .ok w) (x : F) :
    w.update64 A x = .ub .divZero := by
  have hs := WP2.Small.new h
  have hp : ∃ p, w.p2.update64 A x = .ok p := by
    rw [P2.update64_eq A (by have := hs.p2; omega)]
    unfold P2.update
    rw [if_pos (by have := hs.p2; omega)]
    exact ⟨_, rfl⟩
  obtain ⟨p, hp⟩ := hp
  unfold WP2.update64
  rw [hp]
  simp only [Res.ok_bind, hs.size]
  rfl

/-- **C125**: and the range does likewise. -/
theorem C125_iqr_divides_by_zero (lo hi : F) (q : IQR F) (h : IQR.new A lo hi (2 ^ 64 - 1) = .ok q) (x : F) :
    q.update64 A x = .ub .divZero := by
  unfold IQR.new at h
  obtain ⟨l, e1, e2⟩ := Res.bind_eq_ok.1 h
  obtain ⟨g, e3, e4⟩ := Res.bind_eq_ok.1 e2
  injection e4 with e4
  subst e4
  unfold IQR.update64
  rw [C125_divides_by_zero A _ _ e1]
  rfl

/-- **C125** is violated. -/
theorem C125_violated : ¬ C125_full := by
  intro h
  have h1 := h (1 / 2) (2 ^ 64 - 1) ⟨2 ^ 64 - 1, 0, halfP2, 0⟩ [.update 1] (by norm_num) (by decide +kernel)
    (by simp [SOp.observations])
  revert h1
  decide +kernel

/-- **C125**: the windowed quantile, for every smaller window. -/
theorem C125_windowed_partial (q : F) (W : ℕ) (w : WP2 F) (os : List (SOp F)) (hW : W < 2 ^ 64 - 1)
    (hw : WP2.new A q W = .ok w) (ho : (SOp.observations os).length < 2 ^ 64) :
    SOp.run (WP2.update64 A) (WP2.evaluate64 A) w os = SOp.run (WP2.update A) (WP2.evaluate A) w os :=
  SOp.run_agree (fun n w => WP2.Small W n w) (2 ^ 64 - 1) (fun _ _ x h hn => h.update64 hW hn x)
    (fun _ _ h _ => h.evaluate64 (by omega)) os 0 _ (WP2.Small.new hw) (by omega)

example : ∃ w, WP2.new (exact ℚ) (1 / 2) (2 ^ 64 - 2) = .ok w := ⟨⟨2 ^ 64 - 2, 0, halfP2, 0⟩, by decide +kernel⟩

/-- **C125**: the interquartile range, for every smaller window. -/
theorem C125_iqr_partial (lo hi : F) (W : ℕ) (q : IQR F) (os : List (SOp F)) (hW : W < 2 ^ 64 - 1)
    (hq : IQR.new A lo hi W = .ok q) (ho : (SOp.observations os).length < 2 ^ 64) :
    SOp.run (IQR.update64 A) (IQR.evaluate64 A) q os = SOp.run (IQR.update A) (IQR.evaluate A) q os := by
  have h0 : q.low.Small W 0 ∧ q.high.Small W 0 ∧ q.historyCount ≤ 0 := by
    unfold IQR.new at hq
    obtain ⟨l, e1, e2⟩ := Res.bind_eq_ok.1 hq
    obtain ⟨g, e3, e4⟩ := Res.bind_eq_ok.1 e2
    injection e4 with e4
    subst e4
    exact ⟨WP2.Small.new e1, WP2.Small.new e3, le_rfl⟩
  refine SOp.run_agree (fun n (q : IQR F) => q.low.Small W n ∧ q.high.Small W n ∧ q.historyCount ≤ n) (2 ^ 64 - 1)
    (fun n q x h hn => ?_) (fun n q h hn => ?_) os 0 _ h0 (by omega)
  · obtain ⟨h1, h2, h3⟩ := h
    obtain ⟨e1, f1⟩ := h1.update64 (A := A) hW hn x
    obtain ⟨e2, f2⟩ := h2.update64 (A := A) hW hn x
    unfold IQR.update64 IQR.update
    rw [e1, e2, w64_of_lt (by omega)]
    refine ⟨rfl, fun q' e => ?_⟩
    obtain ⟨l, g1, g2⟩ := Res.bind_eq_ok.1 e
    obtain ⟨r, g3, g4⟩ := Res.bind_eq_ok.1 g2
    injection g4 with g4
    subst g4
    exact ⟨f1 _ g1, f2 _ g3, by simpa using h3⟩
  · obtain ⟨h1, h2, h3⟩ := h
    obtain ⟨e1, f1⟩ := h1.evaluate64 (A := A) (by omega)
    obtain ⟨e2, f2⟩ := h2.evaluate64 (A := A) (by omega)
    unfold IQR.evaluate64 IQR.evaluate
    rw [e1, e2]
    refine ⟨rfl, fun v q' e => ?_⟩
    obtain ⟨⟨a, l⟩, g1, g2⟩ := Res.bind_eq_ok.1 e
    obtain ⟨⟨b, r⟩, g3, g4⟩ := Res.bind_eq_ok.1 g2
    cases g4
    exact ⟨f1 _ _ g3, f2 _ _ g1, h3⟩

example : ∃ q, IQR.new (exact ℚ) (1 / 4) (3 / 4) 100 = .ok q :=
  ⟨⟨⟨100, 0, { halfP2 with quantile := 1 / 4 }, 0⟩, ⟨100, 0, { halfP2 with quantile := 3 / 4 }, 0⟩, 0⟩, by decide +kernel⟩

/-! ## Containers -/

variable {α : Type}

/-- The number of observations in a call. -/
def COp.cost : COp α → ℕ
  | .update _ => 1
  | _ => 0

/-- **C125**: the ring buffer, for every window of at least 1. -/
theorem C125_ring_buffer (W : ℕ) (hW : 1 ≤ W) (hW64 : W < 2 ^ 64) (dflt : α) (os : List (COp α))
    (ho : (os.map COp.cost).sum < 2 ^ 64) :
    runCalls (RingBuffer.step64 dflt) (RingBuffer.new W) os = runCalls (RingBuffer.step dflt) (RingBuffer.new W) os := by
  refine runCalls_agree COp.cost (fun n b => (∃ q, RingBuffer.Rep W b q) ∧ b.historyCount ≤ n) (2 ^ 64 - 1)
    (fun n b o h hn => ?_) os 0 _ ⟨⟨_, RingBuffer.rep_new hW⟩, le_rfl⟩ (by omega)
  obtain ⟨⟨q, hr⟩, hh⟩ := h
  have ht := hr.tail_lt
  have hd : b.head < W := by rw [hr.head]; exact Nat.mod_lt _ (by omega)
  have next : ∀ i, i < W → RingBuffer.next64 b.windowSize i = RingBuffer.next b.windowSize i := fun i hi => by
    unfold RingBuffer.next64 RingBuffer.next
    rw [w64_of_lt (by omega)]
  cases o with
  | update x =>
    simp only [COp.cost] at hn ⊢
    refine ⟨?_, fun r b' e => ?_⟩
    · simp only [RingBuffer.step64, RingBuffer.step, RingBuffer.update64, RingBuffer.update, next _ ht, next _ hd,
        w64_of_lt (show b.historyCount + 1 < 2 ^ 64 by omega)]
    · obtain ⟨b1, e1, e2⟩ := Res.bind_eq_ok.1 e
      obtain ⟨b2, e3, e4, e5⟩ := hr.update x
      rw [e3] at e1
      cases e1
      cases e2
      exact ⟨⟨_, e4⟩, by omega⟩
  | pop =>
    refine ⟨by simp only [RingBuffer.step64, RingBuffer.step, RingBuffer.pop64, RingBuffer.pop, next _ ht], fun r b' e => ?_⟩
    obtain ⟨b1, e1, e2⟩ := hr.step dflt .pop
    refine ⟨?_, ?_⟩
    · rw [e1] at e
      cases e
      exact ⟨_, e2⟩
    · simp only [RingBuffer.step, RingBuffer.pop] at e
      split at e
      · cases e; exact hh
      · obtain ⟨⟨v, c⟩, g1, g2⟩ := Res.bind_eq_ok.1 e
        obtain ⟨y, g3, g4⟩ := Res.bind_eq_ok.1 g1
        obtain ⟨z, g5, g6⟩ := Res.bind_eq_ok.1 g4
        cases g6
        cases g2
        exact hh
  | reset => exact ⟨rfl, fun r b' e => by cases e; exact ⟨⟨_, hr.reset⟩, hh⟩⟩
  | size =>
    refine ⟨?_, fun r b' e => by cases e; exact ⟨⟨_, hr⟩, hh⟩⟩
    have := hr.size64 hW hW64
    simp only [RingBuffer.step64, RingBuffer.step, hr.ws, this]
  | empty => exact ⟨rfl, fun r b' e => by cases e; exact ⟨⟨_, hr⟩, hh⟩⟩
  | full => exact ⟨rfl, fun r b' e => by cases e; exact ⟨⟨_, hr⟩, hh⟩⟩

example : ∃ b, runCalls (RingBuffer.step64 0) (RingBuffer.new 2) [.update 1, .update 2, .update 3, .size, .pop] =
    .ok ([.unit, .unit, .unit, .num 2, .val 2], b) := ⟨⟨2, [some 3, some 2], 1, 0, false, 3⟩, by decide +kernel⟩

/-- **C125**: the linked list, for every window; without one (`windowSize` 0) it grows. -/
theorem C125_linked_list (W : ℕ) (dflt : α) (os : List (COp α)) (ho : (os.map COp.cost).sum < 2 ^ 64) :
    runCalls (LinkedList.step64 dflt) (LinkedList.new W) os = runCalls (LinkedList.step dflt) (LinkedList.new W) os := by
  refine runCalls_agree COp.cost (fun n l => (∃ q lost, LinkedList.Rep W l q lost ∧ q.length ≤ n) ∧ l.historyCount ≤ n)
    (2 ^ 64 - 1) (fun n l o h hn => ?_) os 0 _ ⟨⟨_, _, LinkedList.rep_new, le_rfl⟩, le_rfl⟩ (by omega)
  obtain ⟨⟨q, lost, hr, hq⟩, hh⟩ := h
  cases o with
  | update x =>
    simp only [COp.cost] at hn ⊢
    obtain ⟨l1, e1, r1, e2⟩ := hr.update dflt x
    have hl : (Spec.push (LinkedList.cap W) q x).length ≤ n + 1 := by
      unfold Spec.push
      split
      · simp; omega
      · split
        · simp; omega
        · simp; omega
    have hs := r1.size
    simp only [LinkedList.step64, LinkedList.step, e1, Res.ok_bind, w64_of_lt (show l1.size < 2 ^ 64 by omega),
      w64_of_lt (show l1.historyCount < 2 ^ 64 by omega)]
    refine ⟨trivial, fun r l' e => ?_⟩
    cases e
    exact ⟨⟨_, _, r1, hl⟩, by omega⟩
  | pop =>
    refine ⟨rfl, fun r l' e => ?_⟩
    simp only [LinkedList.step] at e
    rcases q with _ | ⟨x, q⟩
    · rw [hr.pop_nil] at e
      cases e
      exact ⟨⟨_, _, hr, hq⟩, hh⟩
    · obtain ⟨l1, e1, r1, e2⟩ := hr.pop_cons dflt
      rw [e1] at e
      cases e
      refine ⟨⟨_, _, r1, ?_⟩, by simp only [COp.cost]; omega⟩
      simp at hq
      simp only [COp.cost]
      omega
  | reset =>
    refine ⟨rfl, fun r l' e => ?_⟩
    simp only [LinkedList.step] at e
    rcases q with _ | ⟨x, q⟩
    · rw [hr.reset_nil] at e
      cases e
    · obtain ⟨l1, e1, r1, e2⟩ := hr.reset
      rw [e1] at e
      cases e
      exact ⟨⟨_, _, r1, Nat.zero_le _⟩, by simp only [COp.cost]; omega⟩
  | size => exact ⟨rfl, fun r b' e => by cases e; exact ⟨⟨_, _, hr, hq⟩, hh⟩⟩
  | empty => exact ⟨rfl, fun r b' e => by cases e; exact ⟨⟨_, _, hr, hq⟩, hh⟩⟩
  | full => exact ⟨rfl, fun r b' e => by cases e; exact ⟨⟨_, _, hr, hq⟩, hh⟩⟩

example : ∃ l, runCalls (LinkedList.step64 0) (LinkedList.new 2) [.update 1, .update 2, .update 3, .size, .pop] =
    .ok ([.unit, .unit, .unit, .num 2, .val 2], l) := ⟨_, rfl⟩

/-! ## Histogram and entropy -/

namespace Hist

variable {A}

theorem searchLoop64_eq {bins : List (Bin F)} (hl : bins.length < 2 ^ 63) (bin : Bin F) : ∀ (fuel low high index : ℕ),
    low ≤ bins.length → high ≤ bins.length → index ≤ bins.length →
    searchLoop64 A bins bin fuel low high index = searchLoop A bins bin fuel low high index
  | 0, _, _, _, _, _, _ => rfl
  | fuel + 1, low, high, index, h1, h2, h3 => by
    unfold searchLoop64 searchLoop
    rcases hg : bins[index]? with _ | b
    · rfl
    · have hi : index < bins.length := (List.getElem?_eq_some_iff.1 hg).1
      simp only
      rw [w64_of_lt (show index + 1 < 2 ^ 64 by omega), w64_of_lt (show index + 1 + high < 2 ^ 64 by omega),
        w64_of_lt (show low + index < 2 ^ 64 by omega),
        searchLoop64_eq hl bin fuel (index + 1) high _ (by omega) h2 (by omega),
        searchLoop64_eq hl bin fuel low index _ h1 h3 (by omega)]

theorem binSearch64_eq {h : Hist F} (hl : h.bins.length < 2 ^ 63) (x : F) : h.binSearch64 A x = h.binSearch A x := by
  unfold binSearch64 binSearch binSearchBin
  rw [w64_of_lt (by omega), searchLoop64_eq hl _ _ _ _ _ (by omega) le_rfl (by omega)]

theorem decayCounts64_eq (h : Hist F) : h.decayCounts64 = h.decayCounts := by
  unfold decayCounts64 decayCounts
  by_cases ht : h.total > h.windowSize
  · rw [if_pos ht, if_pos ht]
    have e1 : LinkedList.decr h.total = h.total - 1 := if_neg (by omega)
    have e2 : ∀ b : Bin F, (if b.count > 0 then { b with count := LinkedList.decr b.count } else b) =
        if b.count > 0 then { b with count := b.count - 1 } else b := by
      intro b
      by_cases hb : b.count > 0
      · rw [if_pos hb, if_pos hb]
        simp [LinkedList.decr, show b.count ≠ 0 by omega]
      · rw [if_neg hb, if_neg hb]
    rcases h.window with _ | ⟨d, rest⟩
    · rfl
    · rcases hg : h.bins[d]? with _ | b
      · simp only [hg]
      · simp only [hg]
        rw [e1, e2 b]
  · rw [if_neg ht, if_neg ht]

theorem count_le_sum {l : List (Bin F)} {b : Bin F} (h : b ∈ l) : b.count ≤ sumCounts l :=
  List.single_le_sum (by simp) _ (List.mem_map_of_mem h)

/-- Counters of a histogram after `n` observations. -/
structure Small (n : ℕ) (h : Hist F) : Prop where
  size : h.bins.length ≤ n
  sum : sumCounts h.bins ≤ n
  total : h.total ≤ n
  hist : h.historyCount ≤ n

theorem Small.add64 {n : ℕ} {h : Hist F} (hs : h.Small n) (hn : n < 2 ^ 63) (x : F) :
    h.add64 A x = h.add A x ∧ ∀ h', h.add A x = .ok h' → h'.Small (n + 1) := by
  obtain ⟨h1, h2, h3, h4⟩ := hs
  refine ⟨?_, fun h' e => ?_⟩
  · have place : ∀ i, h.place64 A x i = h.place A x i := by
      intro i
      unfold place64 place
      rcases hg : h.bins[i]? with _ | b
      · rfl
      · have hb := count_le_sum (List.mem_of_getElem? hg)
        simp only [w64_of_lt (show b.count + 1 < 2 ^ 64 by omega)]
    unfold Hist.add64 Hist.add
    rw [binSearch64_eq (by omega)]
    obtain ⟨i, b1, live, e1, e2, -⟩ := place_spec (A := A) h x
    rw [e1, Res.ok_bind, Res.ok_bind, place, e2, Res.ok_bind, Res.ok_bind]
    simp only [decayCounts64_eq, w64_of_lt (show h.total + 1 < 2 ^ 64 by omega),
      w64_of_lt (show h.historyCount + 1 < 2 ^ 64 by omega)]
  · obtain ⟨i, b1, hp, e1, e2, e3, e4⟩ := add_step e
    have hl := hp.length
    have hs := hp.sum
    rcases e4 with ⟨g, e4, e5⟩ | ⟨g, e4, d, e5⟩
    · exact ⟨by rw [e4]; omega, by rw [e4]; omega, by omega, by omega⟩
    · have k1 := e5.length; have k2 := e5.sum
      exact ⟨by omega, by omega, by omega, by omega⟩

theorem mergeLoop_le (l : List (Bin F)) : ∀ (i : ℕ) (d : F) (k : ℕ), mergeLoop A l i d k ≤ max k (i + l.length) := by
  induction l with
  | nil => intro i d k; simp [mergeLoop]
  | cons a l ih =>
    intro i d k
    rcases l with _ | ⟨b, l⟩
    · simp [mergeLoop]
    · unfold mergeLoop
      simp only
      split
      · refine (ih _ _ _).trans ?_
        simp
        omega
      · refine (ih _ _ _).trans ?_
        simp
        omega

theorem mergeLoop64_eq (l : List (Bin F)) : ∀ (i : ℕ) (d : F) (k : ℕ), i + l.length ≤ 2 ^ 53 →
    mergeLoop64 A l i d k = mergeLoop A l i d k := by
  induction l with
  | nil => intro i d k _; simp [mergeLoop64, mergeLoop]
  | cons a l ih =>
    intro i d k hi
    rcases l with _ | ⟨b, l⟩
    · simp [mergeLoop64, mergeLoop]
    · simp only [List.length_cons] at hi ih
      unfold mergeLoop64 mergeLoop
      simp only
      rw [w64_of_lt (show i + 1 < 2 ^ 64 by omega), viaDouble_of_le (show i ≤ 2 ^ 53 by omega),
        ih _ _ _ (by omega), ih _ _ _ (by omega)]

theorem Small.finish64 {n : ℕ} {h : Hist F} (hs : h.Small n) (hn : n < 2 ^ 53) :
    (if h.bins.length > h.numBins then do
      let i := mergeIndex64 A h.bins
      let bins ← mergeBins64 A h.bins i (viaDouble (i + 1))
      .ok { h with bins := bins, window := h.window.map fun w => if w = w64 (i + 1) then i else w }
    else .ok h) = finish A h ∧ ∀ h', finish A h = .ok h' → h'.Small n := by
  obtain ⟨h1, h2, h3, h4⟩ := hs
  have e1 : mergeIndex64 A h.bins = mergeIndex A h.bins := by
    unfold mergeIndex64 mergeIndex
    rw [viaDouble_of_le (by omega), mergeLoop64_eq _ _ _ _ (by omega)]
  have hi : mergeIndex A h.bins ≤ h.bins.length := by
    unfold mergeIndex
    simpa using mergeLoop_le (A := A) h.bins 0 (A.lit dblMax) h.bins.length
  refine ⟨?_, fun h' e => ?_⟩
  · unfold finish
    by_cases hl : h.bins.length > h.numBins
    · rw [if_pos hl, if_pos hl]
      simp only [e1]
      generalize mergeIndex A h.bins = i at hi
      rw [viaDouble_of_le (show i + 1 ≤ 2 ^ 53 by omega), w64_of_lt (show i + 1 < 2 ^ 64 by omega)]
      suffices mergeBins64 A h.bins i (i + 1) = mergeBins A h.bins i (i + 1) by rw [this]
      have hm := mergeBins_spec (A := A) h.bins i
      unfold mergeBins64 mergeBins at *
      rcases hr : h.bins[i + 1]? with _ | r
      · rfl
      · rw [hr] at hm
        simp only at hm ⊢
        rcases hg : (h.bins.eraseIdx (i + 1))[i]? with _ | l
        · rfl
        · rw [hg] at hm
          simp only at hm ⊢
          rcases hm with ⟨-, hm⟩ | ⟨l', hm, hM⟩
          · cases hm
          · injection hm with hm
            have hlt := (List.getElem?_eq_some_iff.1 hg).1
            have hb : (Bin.add A l r).count ≤ sumCounts l' :=
              count_le_sum (hm ▸ List.mem_set hlt _)
            rw [hM.sum] at hb
            rw [w64_of_lt (by omega)]
    · rw [if_neg hl, if_neg hl]
  · obtain ⟨k1, k2, k3, k4, k5⟩ := finish_step e
    rcases k5 with ⟨-, e⟩ | ⟨-, i, e⟩
    · exact ⟨by rw [e]; omega, by rw [e]; omega, by omega, by omega⟩
    · have j1 := e.length; have j2 := e.sum
      exact ⟨by omega, by omega, by omega, by omega⟩

theorem Small.update64 {n : ℕ} {h : Hist F} (hs : h.Small n) (hn : n < 2 ^ 53 - 1) (x : F) :
    h.update64 A x = h.update A x ∧ ∀ h', h.update A x = .ok h' → h'.Small (n + 1) := by
  obtain ⟨e1, e2⟩ := hs.add64 (A := A) (by omega) x
  rw [update_eq]
  unfold Hist.update64
  rw [e1]
  cases ha : h.add A x with
  | ok g =>
    obtain ⟨e3, e4⟩ := (e2 g ha).finish64 (A := A) (by omega)
    exact ⟨e3, e4⟩
  | throw m => exact ⟨rfl, fun h' e => by cases e⟩
  | ub k => exact ⟨rfl, fun h' e => by cases e⟩

/-- A call from outside, or (`none`) `reset`, with 64-bit sizes. -/
def anyCall64 (A : Arith F) (h : Hist F) : Option (HCall F) → Res (Hist F)
  | some c => h.call64 A c
  | none => .ok h.reset

/-- A call from outside, or (`none`) `reset`. -/
def anyCall (A : Arith F) (h : Hist F) : Option (HCall F) → Res (Hist F)
  | some c => h.call A c
  | none => .ok h.reset

end Hist

/-- The number of observations in a call. -/
def HCall.cost : Option (HCall F) → ℕ
  | some (.update _) => 1
  | some (.add _) => 1
  | _ => 0

/-- **C125**: the histogram, through all its public functions, for every number of bins and window and fewer than 2^53
observations: the state is that of the unbounded model, and so is the check in `binCounts`. -/
theorem C125_histogram (numBins W : ℕ) (cs : List (Option (HCall F))) (hc : (cs.map HCall.cost).sum < 2 ^ 53) :
    updateAll (Hist.anyCall64 A) (Hist.new numBins W) cs = updateAll (Hist.anyCall A) (Hist.new numBins W) cs ∧
      ∀ h, updateAll (Hist.anyCall A) (Hist.new numBins W) cs = .ok h → h.binCounts64 = h.binCounts := by
  obtain ⟨h1, h2⟩ := updateAll_agree HCall.cost (fun n h => Hist.Small n h) (2 ^ 53 - 1)
    (f := Hist.anyCall A) (f' := Hist.anyCall64 A) (fun n h c hs hn => by
      rcases c with _ | c
      · refine ⟨rfl, fun h' e => ?_⟩
        cases e
        exact ⟨Nat.zero_le _, Nat.zero_le _, hs.total, Nat.zero_le _⟩
      · cases c with
        | update x => exact hs.update64 (by simp only [HCall.cost] at hn; omega) x
        | add x => exact hs.add64 (by simp only [HCall.cost] at hn; omega) x
        | decay =>
          refine ⟨Hist.decayCounts64_eq h, fun h' e => ?_⟩
          change h.decayCounts = .ok h' at e
          change h'.Small n
          by_cases ht : h.total ≤ h.windowSize
          · rw [Hist.decay_noop _ ht] at e
            cases e
            exact hs
          · rcases hw : h.window with _ | ⟨d, rest⟩
            · simp [Hist.decayCounts, show h.total > h.windowSize by omega, hw] at e
            · obtain ⟨k1, k2, k3, k4⟩ := hs
              rcases Hist.decay_evict h (by omega) hw with ⟨-, e1⟩ | ⟨bins, e1, he⟩
              · rw [e1] at e; cases e
              · rw [e1] at e
                cases e
                have j1 := he.length; have j2 := he.sum
                exact ⟨by simp only; omega, by simp only; omega, by simp only; omega, k4⟩) cs 0 (Hist.new numBins W)
    ⟨le_rfl, le_rfl, le_rfl, le_rfl⟩ (by omega)
  refine ⟨h1, fun h e => ?_⟩
  have := (h2 h e).sum
  have : (h.bins.map Bin.count).sum ≤ 0 + (cs.map HCall.cost).sum := this
  unfold Hist.binCounts64 Hist.binCounts
  simp only
  rw [w64_of_lt (by omega)]

example : ∃ h, updateAll (Hist.anyCall64 (exact ℚ)) (Hist.new 2 3)
    [some (.update 1), some (.add 2), some (.update 5), some (.update 6), some .decay] = .ok h ∧ h.size = 2 :=
  ⟨⟨2, 3, [⟨1, 2, 1⟩, ⟨5, 6, 2⟩], [0, 0, 0, 0, 1, 1], 3, 4, 4⟩,
    (C125_histogram (exact ℚ) 2 3 _ (by decide)).1.trans (by decide +kernel), rfl⟩

/-- **C125**: the entropy, for fewer than 2^53 observations. -/
theorem C125_entropy (L : LArith F) (e : Entropy F) (he : e.historyCount = 0) (hb : e.hist.bins = [])
    (ht : e.hist.total = 0) (hh : e.hist.historyCount = 0) (os : List (SOp F))
    (ho : (SOp.observations os).length < 2 ^ 53) :
    SOp.run (Entropy.update64 L) (fun e => .ok (e.evaluate, e)) e os =
      SOp.run (Entropy.update L) (fun e => .ok (e.evaluate, e)) e os := by
  refine SOp.run_agree (fun n (e : Entropy F) => e.hist.Small n ∧ e.historyCount ≤ n) (2 ^ 53 - 1) (fun n e x h hn => ?_)
    (fun n e h _ => ⟨rfl, fun _ s' e => by cases e; exact h⟩) os 0 _
    ⟨⟨by simp [hb], by simp [hb, Hist.sumCounts_nil], ht.le, hh.le⟩, he.le⟩ (by omega)
  obtain ⟨hs, hc⟩ := h
  have hs1 := hs.size
  obtain ⟨u1, u2⟩ := hs.update64 (A := L.toArith) hn x
  have bs := Hist.binSearch64_eq (A := L.toArith) (h := e.hist) (by omega) x
  obtain ⟨i, hi, hil, -⟩ := Hist.binSearchBin_spec (A := L.toArith) e.hist (Hist.unit x)
  have hi' : e.hist.binSearch L.toArith x = .ok i := hi
  have dec : ∀ (g g' : Entropy F) j, g.decrement L j = .ok g' → g'.hist = g.hist ∧ g'.historyCount = g.historyCount := by
    intro g g' j hj
    unfold Entropy.decrement at hj
    obtain ⟨_, -, hj⟩ := Res.bind_eq_ok.1 hj
    obtain ⟨_, -, hj⟩ := Res.bind_eq_ok.1 hj
    obtain ⟨_, -, hj⟩ := Res.bind_eq_ok.1 hj
    injection hj with hj
    subst hj
    exact ⟨rfl, rfl⟩
  have inc : ∀ (g g' : Entropy F) j, g.increment L j = .ok g' → g'.hist = g.hist ∧ g'.historyCount = g.historyCount := by
    intro g g' j hj
    unfold Entropy.increment at hj
    obtain ⟨_, -, hj⟩ := Res.bind_eq_ok.1 hj
    obtain ⟨_, -, hj⟩ := Res.bind_eq_ok.1 hj
    obtain ⟨_, -, hj⟩ := Res.bind_eq_ok.1 hj
    simp only at hj
    split at hj <;> injection hj with hj <;> subst hj <;> exact ⟨rfl, rfl⟩
  unfold Entropy.update64 Entropy.update
  rw [bs, hi', Res.ok_bind, Res.ok_bind, viaDouble_of_le (show i ≤ 2 ^ 53 by omega)]
  rcases e.window with _ | w
  · exact ⟨rfl, fun e' k => by cases k⟩
  · obtain ⟨a, r, hw⟩ : ∃ a r, w ++ [i] = a :: r := by
      rcases w with _ | ⟨a, w⟩
      · exact ⟨i, [], rfl⟩
      · exact ⟨a, w ++ [i], rfl⟩
    simp only [hw]
    have tail : ∀ g : Entropy F, g.hist = e.hist → g.historyCount = e.historyCount →
        (do
          let hist ← g.hist.update64 L.toArith x
          let e ← ({ g with hist := hist } : Entropy F).increment L i
          .ok { e with historyCount := w64 (e.historyCount + 1) } : Res (Entropy F)) =
        (do
          let hist ← g.hist.update L.toArith x
          let e ← ({ g with hist := hist } : Entropy F).increment L i
          .ok { e with historyCount := e.historyCount + 1 } : Res (Entropy F)) ∧
        ∀ e', (do
          let hist ← g.hist.update L.toArith x
          let e ← ({ g with hist := hist } : Entropy F).increment L i
          .ok { e with historyCount := e.historyCount + 1 } : Res (Entropy F)) = .ok e' →
          e'.hist.Small (n + 1) ∧ e'.historyCount ≤ n + 1 := by
      intro g hg1 hg2
      rw [hg1, u1]
      cases hu : e.hist.update L.toArith x with
      | throw m => exact ⟨rfl, fun e' k => by cases k⟩
      | ub k => exact ⟨rfl, fun e' k => by cases k⟩
      | ok h' =>
        simp only [Res.ok_bind]
        cases hv : ({ g with hist := h' } : Entropy F).increment L i with
        | throw m => exact ⟨rfl, fun e' k => by cases k⟩
        | ub k => exact ⟨rfl, fun e' k => by cases k⟩
        | ok g' =>
          obtain ⟨k1, k2⟩ := inc _ _ _ hv
          simp only at k1 k2
          simp only [Res.ok_bind, w64_of_lt (show g'.historyCount + 1 < 2 ^ 64 by omega)]
          refine ⟨trivial, fun e' k => ?_⟩
          cases k
          exact ⟨by rw [k1]; exact u2 _ hu, by simp only; omega⟩
    by_cases hl : (a :: r).length > e.windowSize
    · rw [if_pos hl, if_pos hl]
      cases hd : e.decrement L a with
      | throw m => exact ⟨rfl, fun e' k => by cases k⟩
      | ub k => exact ⟨rfl, fun e' k => by cases k⟩
      | ok g =>
        obtain ⟨k1, k2⟩ := dec _ _ _ hd
        simp only [Res.ok_bind]
        exact tail { g with window := some r } k1 k2
    · rw [if_neg hl, if_neg hl]
      simp only [Res.ok_bind]
      exact tail { e with window := some (a :: r) } rfl rfl

example (L : LArith F) : ∃ e, Entropy.new L 5 4 = .ok e ∧ e.historyCount = 0 ∧ e.hist.bins = [] ∧ e.hist.total = 0 ∧
    e.hist.historyCount = 0 := ⟨_, rfl, rfl, rfl, rfl, rfl⟩

end KML
