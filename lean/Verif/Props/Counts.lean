import Verif.Props.LinkedList
import Verif.Props.RingBuffer
import Verif.Model.Entropy
import Verif.Model.Quantile
import Verif.Model.Stats
import Verif.Model.Float
import Verif.Props.P2Exact

/-!
# C70: every class counts its updates
-/

namespace KML

/-- Feed observations one after another. -/
def feed {σ F : Type} (update : σ → F → Res σ) : σ → List F → Res σ
  | s, [] => .ok s
  | s, x :: xs => do
    let s ← update s x
    feed update s xs

/-- Started with `new`, an object has count `n` after `n` updates, whatever is observed. -/
def Counts {σ F : Type} (new : Res σ) (update : σ → F → Res σ) (count : σ → ℕ) : Prop :=
  ∀ s0, new = .ok s0 → ∀ xs s, feed update s0 xs = .ok s → count s = xs.length

theorem counts_of_step {σ F : Type} {new : Res σ} {update : σ → F → Res σ} {count : σ → ℕ}
    (h0 : ∀ s, new = .ok s → count s = 0) (h1 : ∀ s x s', update s x = .ok s' → count s' = count s + 1) :
    Counts new update count := by
  intro s0 hs xs
  have : ∀ (s0 : σ) s, feed update s0 xs = .ok s → count s = count s0 + xs.length := by
    induction xs with
    | nil => intro s0 s h; injection h with h; subst h; rfl
    | cons x xs ih =>
      intro s0 s h
      obtain ⟨s1, h2, h3⟩ := Res.bind_eq_ok.1 h
      rw [ih s1 s h3, h1 _ _ _ h2, List.length_cons]
      omega
  intro s h
  rw [this s0 s h, h0 s0 hs, Nat.zero_add]

section

variable {F : Type} (A : Arith F)

theorem Mean.count_update (m : Mean F) (x : F) (m' : Mean F) (h : m.update A x = .ok m') :
    m'.historyCount = m.historyCount + 1 := by
  unfold Mean.update at h
  simp only at h
  split at h
  · split at h
    · split at h
      · cases h
      · injection h with h; subst h; rfl
    · injection h with h; subst h; rfl
  · injection h with h; subst h; rfl

theorem P2.count_updateLater (p : P2 F) (x : F) : (p.updateLater A x).historyCount = p.historyCount + 1 := by
  have hadj : ∀ (p : P2 F) i, (p.adjustHeights A i).historyCount = p.historyCount := by
    intro p i; unfold P2.adjustHeights; split <;> rfl
  simp only [P2.updateLater]
  split <;> simp only [hadj]

theorem P2.count_update (p : P2 F) (x : F) (p' : P2 F) (h : p.update A x = .ok p') :
    p'.historyCount = p.historyCount + 1 := by
  unfold P2.update at h
  split at h
  · injection h with h; subst h
    simp only [P2.updateFirst]; split <;> rfl
  · split at h
    · cases h
    · injection h with h; subst h; exact P2.count_updateLater A p x

theorem WP2.count_update (w : WP2 F) (x : F) (w' : WP2 F) (h : w.update A x = .ok w') :
    w'.historyCount = w.historyCount + 1 := by
  unfold WP2.update at h
  obtain ⟨p, -, h⟩ := Res.bind_eq_ok.1 h
  split at h
  · split at h
    · obtain ⟨⟨v, p'⟩, -, h⟩ := Res.bind_eq_ok.1 h
      injection h with h; subst h; rfl
    · injection h with h; subst h; rfl
  · injection h with h; subst h; rfl

theorem Hist.count_update (h : Hist F) (x : F) (h' : Hist F) (hu : h.update A x = .ok h') :
    h'.historyCount = h.historyCount + 1 := by
  unfold Hist.update at hu
  obtain ⟨h1, ha, hu⟩ := Res.bind_eq_ok.1 hu
  have e1 : h1.historyCount = h.historyCount + 1 := by
    unfold Hist.add at ha
    obtain ⟨i, -, ha⟩ := Res.bind_eq_ok.1 ha
    obtain ⟨h2, hp, ha⟩ := Res.bind_eq_ok.1 ha
    have e2 : h2.historyCount = h.historyCount := by
      unfold Hist.place at hp
      simp only at hp
      split at hp
      · injection hp with hp; subst hp; rfl
      · split at hp
        · injection hp with hp; subst hp; rfl
        · split at hp
          · cases hp
          · split at hp <;> (injection hp with hp; subst hp; rfl)
    unfold Hist.decayCounts at ha
    split at ha
    · split at ha
      · cases ha
      · split at ha
        · cases ha
        · injection ha with ha; subst ha; simp only [e2]
    · injection ha with ha; subst ha; simp only [e2]
  split at hu
  · obtain ⟨b, -, hu⟩ := Res.bind_eq_ok.1 hu
    injection hu with hu; subst hu; exact e1
  · injection hu with hu; subst hu; exact e1

theorem Entropy.count_update (L : LArith F) (e : Entropy F) (x : F) (e' : Entropy F) (h : e.update L x = .ok e') :
    e'.historyCount = e.historyCount + 1 := by
  have hinc : ∀ (e : Entropy F) i e', e.increment L i = .ok e' → e'.historyCount = e.historyCount := by
    intro e i e' h
    unfold Entropy.increment at h
    obtain ⟨_, -, h⟩ := Res.bind_eq_ok.1 h
    obtain ⟨_, -, h⟩ := Res.bind_eq_ok.1 h
    obtain ⟨_, -, h⟩ := Res.bind_eq_ok.1 h
    simp only at h
    split at h <;> (injection h with h; subst h; rfl)
  have hdec : ∀ (e : Entropy F) i e', e.decrement L i = .ok e' → e'.historyCount = e.historyCount := by
    intro e i e' h
    unfold Entropy.decrement at h
    obtain ⟨_, -, h⟩ := Res.bind_eq_ok.1 h
    obtain ⟨_, -, h⟩ := Res.bind_eq_ok.1 h
    obtain ⟨_, -, h⟩ := Res.bind_eq_ok.1 h
    injection h with h; subst h; rfl
  unfold Entropy.update at h
  obtain ⟨i, -, h⟩ := Res.bind_eq_ok.1 h
  split at h
  · cases h
  · rename_i w _
    have hrest : ∀ e1 : Entropy F, e1.historyCount = e.historyCount → (do
        let hist ← e1.hist.update L.toArith x
        let e ← ({ e1 with hist := hist } : Entropy F).increment L i
        .ok { e with historyCount := e.historyCount + 1 }) = .ok e' → e'.historyCount = e.historyCount + 1 := by
      intro e1 he h
      obtain ⟨hist, -, h⟩ := Res.bind_eq_ok.1 h
      obtain ⟨e2, h2, h⟩ := Res.bind_eq_ok.1 h
      have := hinc _ _ _ h2
      injection h with h; subst h
      simp only at this ⊢
      rw [this, he]
    simp only at h
    split at h
    · split at h
      · obtain ⟨e3, h3, h⟩ := Res.bind_eq_ok.1 h
        rw [Res.ok_bind] at h
        have e4 := hdec _ _ _ h3
        exact hrest { e3 with window := some _ } e4 h
      · rw [Res.ok_bind] at h
        exact hrest { e with window := some _ } rfl h
    · cases h

/-- The full property for the streaming classes. -/
def C70_full : Prop := ∀ (F : Type) (A : Arith F) (L : LArith F) (W n : ℕ) (q lo hi step eps : F),
  Counts (.ok (Mean.new A W)) (Mean.update A) Mean.historyCount ∧
  Counts (P2.new A q) (P2.update A) P2.historyCount ∧
  Counts (WP2.new A q W) (WP2.update A) WP2.historyCount ∧
  Counts (IQR.new A lo hi W) (IQR.update A) IQR.historyCount ∧
  Counts (IQR.newDefault A W) (IQR.update A) IQR.historyCount ∧
  Counts (Fame.new A step eps) (fun f x => .ok (Fame.update A f x)) Fame.historyCount ∧
  Counts (Mad.new A) (fun f x => .ok (Mad.update A f x)) Mad.historyCount ∧
  Counts (Entropy.new L W n) (Entropy.update L) Entropy.historyCount ∧
  Counts (.ok (Hist.new n W)) (Hist.update A) Hist.historyCount ∧
  Counts (.ok (Variance.new A W)) (Variance.update A) Variance.historyCount

/-- **C70** is violated by `StreamingVariance`, whose `update` does not touch the count. -/
theorem C70_violated : ¬ C70_full := by
  intro h
  have := (h ℚ (exact ℚ) ⟨exact ℚ, id, id, fun _ => 0⟩ 0 0 0 0 0 0 0).2.2.2.2.2.2.2.2.2 _ rfl [1] _ rfl
  exact absurd this (by decide)

/-- ... its count is always 0. -/
theorem C70_variance (W : ℕ) (xs : List F) (v : Variance F)
    (h : feed (Variance.update A) (Variance.new A W) xs = .ok v) : v.historyCount = 0 := by
  have hstep : ∀ (v : Variance F) x v', v.update A x = .ok v' → v'.historyCount = v.historyCount := by
    intro v x v' h
    unfold Variance.update at h
    obtain ⟨_, -, h⟩ := Res.bind_eq_ok.1 h
    obtain ⟨_, -, h⟩ := Res.bind_eq_ok.1 h
    injection h with h; subst h; rfl
  have : ∀ (xs : List F) (v0 : Variance F), feed (Variance.update A) v0 xs = .ok v →
      v.historyCount = v0.historyCount := by
    intro xs
    induction xs with
    | nil => intro v0 h; injection h with h; subst h; rfl
    | cons x xs ih =>
      intro v0 h
      obtain ⟨v1, h1, h2⟩ := Res.bind_eq_ok.1 h
      rw [ih v1 h2, hstep _ _ _ h1]
  exact this xs _ h

/-- **C70**, the classes that do count: mean, quantile, windowed quantile, interquartile range, median, MAD, entropy and
histogram, for every observation sequence, every parameter and every arithmetic. Missing: `StreamingVariance`
(`C70_variance`). -/
theorem C70_statistics_partial (W n : ℕ) (q lo hi step eps : F) (L : LArith F) :
    Counts (.ok (Mean.new A W)) (Mean.update A) Mean.historyCount ∧
    Counts (P2.new A q) (P2.update A) P2.historyCount ∧
    Counts (WP2.new A q W) (WP2.update A) WP2.historyCount ∧
    Counts (IQR.new A lo hi W) (IQR.update A) IQR.historyCount ∧
    Counts (IQR.newDefault A W) (IQR.update A) IQR.historyCount ∧
    Counts (Fame.new A step eps) (fun f x => .ok (Fame.update A f x)) Fame.historyCount ∧
    Counts (Mad.new A) (fun f x => .ok (Mad.update A f x)) Mad.historyCount ∧
    Counts (Entropy.new L W n) (Entropy.update L) Entropy.historyCount ∧
    Counts (.ok (Hist.new n W)) (Hist.update A) Hist.historyCount := by
  have hiqr : ∀ (i : IQR F) x i', i.update A x = .ok i' → i'.historyCount = i.historyCount + 1 := by
    intro i x i' h
    unfold IQR.update at h
    obtain ⟨_, -, h⟩ := Res.bind_eq_ok.1 h
    obtain ⟨_, -, h⟩ := Res.bind_eq_ok.1 h
    injection h with h; subst h; rfl
  refine ⟨?_, ?_, ?_, ?_, ?_, ?_, ?_, ?_, ?_⟩
  · exact counts_of_step (by intro s h; injection h with h; subst h; rfl) (Mean.count_update A)
  · refine counts_of_step (fun s h => ?_) (P2.count_update A)
    unfold P2.new at h
    split at h
    · cases h
    · injection h with h; subst h; rfl
  · refine counts_of_step (fun s h => ?_) (WP2.count_update A)
    obtain ⟨_, -, h⟩ := Res.bind_eq_ok.1 h
    injection h with h; subst h; rfl
  · refine counts_of_step (fun s h => ?_) hiqr
    obtain ⟨_, -, h⟩ := Res.bind_eq_ok.1 h
    obtain ⟨_, -, h⟩ := Res.bind_eq_ok.1 h
    injection h with h; subst h; rfl
  · refine counts_of_step (fun s h => ?_) hiqr
    obtain ⟨_, -, h⟩ := Res.bind_eq_ok.1 h
    obtain ⟨_, -, h⟩ := Res.bind_eq_ok.1 h
    injection h with h; subst h; rfl
  · refine counts_of_step (fun s h => ?_) (fun s x s' h => ?_)
    · unfold Fame.new at h
      split at h
      · cases h
      · injection h with h; subst h; rfl
    · injection h with h; subst h
      unfold Fame.update
      simp only
      split_ifs <;> rfl
  · refine counts_of_step (fun s h => ?_) (fun s x s' h => ?_)
    · unfold Mad.new at h
      obtain ⟨_, -, h⟩ := Res.bind_eq_ok.1 h
      obtain ⟨_, -, h⟩ := Res.bind_eq_ok.1 h
      injection h with h; subst h; rfl
    · injection h with h; subst h; rfl
  · refine counts_of_step (fun s h => ?_) (Entropy.count_update L)
    unfold Entropy.new at h
    simp only at h
    split at h
    · split at h
      · cases h
      · injection h with h; subst h; rfl
    · injection h with h; subst h; rfl
  · exact counts_of_step (by intro s h; injection h with h; subst h; rfl) (Hist.count_update A)

/-- **C70** for the histogram with resets: the count starts again at each `reset`. -/
theorem C70_histogram_reset_partial (h h' : Hist F) (xs : List F)
    (hx : feed (Hist.update A) h.reset xs = .ok h') : h'.historyCount = xs.length := by
  have := counts_of_step (new := .ok h.reset) (count := Hist.historyCount)
    (by intro s h; injection h with h; subst h; rfl) (Hist.count_update A)
  exact this _ rfl xs h' hx

end

/-- Number of `update` calls in a history. -/
def updateCalls {α : Type} (ops : List (COp α)) : ℕ := (ops.filter fun | .update _ => true | _ => false).length

theorem count_of_calls {σ α : Type} {step : σ → COp α → Res (COut α × σ)} {count : σ → ℕ}
    (hu : ∀ s x r s', step s (.update x) = .ok (r, s') → count s' = count s + 1)
    (ho : ∀ s op r s', step s op = .ok (r, s') → (∀ x, op ≠ .update x) → count s' = count s)
    (ops : List (COp α)) : ∀ s outs s', runCalls step s ops = .ok (outs, s') → count s' = count s + updateCalls ops := by
  induction ops with
  | nil => intro s outs s' h; injection h with h; injection h with _ h; subst h; rfl
  | cons o os ih =>
    intro s outs s' h
    obtain ⟨⟨r, s1⟩, h1, h⟩ := Res.bind_eq_ok.1 h
    obtain ⟨⟨rs, s2⟩, h2, h⟩ := Res.bind_eq_ok.1 h
    injection h with h
    injection h with _ h
    subst h
    rw [ih s1 rs s2 h2]
    cases o with
    | update x =>
      rw [hu _ _ _ _ h1]
      simp only [updateCalls, List.filter_cons, if_true, List.length_cons]
      omega
    | _ => rw [ho _ _ _ _ h1 (by simp)]; rfl

/-- **C70** for `RingBuffer`: the count is the number of updates; pops and resets do not change it. -/
theorem C70_ringbuffer {α : Type} (W : ℕ) (dflt : α) (ops : List (COp α)) (outs : List (COut α)) (b : RingBuffer α)
    (h : runCalls (RingBuffer.step dflt) (RingBuffer.new W) ops = .ok (outs, b)) :
    b.historyCount = updateCalls ops := by
  have := count_of_calls (step := RingBuffer.step dflt) (count := RingBuffer.historyCount) ?_ ?_ ops _ _ _ h
  · rw [this]; exact Nat.zero_add _
  · intro s x r s' h
    obtain ⟨b, h1, h⟩ := Res.bind_eq_ok.1 h
    injection h with h; injection h with _ h; subst h
    unfold RingBuffer.update at h1
    obtain ⟨_, -, h1⟩ := Res.bind_eq_ok.1 h1
    simp only at h1
    split at h1
    · obtain ⟨_, -, h1⟩ := Res.bind_eq_ok.1 h1
      obtain ⟨_, -, h1⟩ := Res.bind_eq_ok.1 h1
      injection h1 with h1; subst h1; rfl
    · obtain ⟨_, -, h1⟩ := Res.bind_eq_ok.1 h1
      obtain ⟨_, -, h1⟩ := Res.bind_eq_ok.1 h1
      injection h1 with h1; subst h1; rfl
  · intro s op r s' h hn
    cases op with
    | update x => exact absurd rfl (hn x)
    | pop =>
      obtain ⟨⟨v, b⟩, h1, h⟩ := Res.bind_eq_ok.1 h
      injection h with h; injection h with _ h; subst h
      unfold RingBuffer.pop at h1
      split at h1
      · injection h1 with h1; injection h1 with _ h1; subst h1; rfl
      · obtain ⟨_, -, h1⟩ := Res.bind_eq_ok.1 h1
        obtain ⟨_, -, h1⟩ := Res.bind_eq_ok.1 h1
        injection h1 with h1; injection h1 with _ h1; subst h1; rfl
    | _ => injection h with h; injection h with _ h; subst h; rfl

/-- Histories that meet the hypotheses of the theorems above: a variance of three observations, a histogram used again
after a reset, a ring buffer with other calls in between. -/
example : (∃ v, feed (Variance.update (exact ℚ)) (Variance.new (exact ℚ) 2) [1, 2, 4] = .ok v) ∧
    (∃ h h', feed (Hist.update (exact ℚ)) (Hist.new 2 5) [1, 2, 4] = .ok h ∧
      feed (Hist.update (exact ℚ)) h.reset [7] = .ok h' ∧ h'.historyCount = 1) ∧
    ∃ outs b, runCalls (RingBuffer.step (0 : ℤ)) (RingBuffer.new 2) [.update 1, .size, .update 2, .pop, .update 3] = .ok (outs, b) ∧
      b.historyCount = 3 := by
  refine ⟨?_, ?_, ⟨_, _, rfl, by decide⟩⟩
  · exact ⟨⟨some [], 0, ⟨2, some [2, 4], 3, 6⟩, ⟨2, some [4, 16], 3, 20⟩⟩, by decide +kernel⟩
  · exact ⟨⟨2, 5, [⟨1, 2, 2⟩, ⟨4, 4, 1⟩], [0, 0, 0, 0, 0, 0, 0, 2], 3, 3, 3⟩, _, by decide +kernel, rfl, by decide +kernel⟩

/-- **C70** for `LinkedList`. -/
theorem C70_linkedlist {α : Type} (W : ℕ) (dflt : α) (ops : List (COp α)) (outs : List (COut α)) (l : LinkedList α)
    (h : runCalls (LinkedList.step dflt) (LinkedList.new W) ops = .ok (outs, l)) :
    l.historyCount = updateCalls ops := by
  have hpop : ∀ (l : LinkedList α) v l', l.pop dflt = .ok (v, l') → l'.historyCount = l.historyCount := by
    intro l v l' h1
    unfold LinkedList.pop at h1
    split at h1
    · injection h1 with h1; injection h1 with _ h1; subst h1; rfl
    · obtain ⟨_, -, h1⟩ := Res.bind_eq_ok.1 h1
      obtain ⟨_, -, h1⟩ := Res.bind_eq_ok.1 h1
      injection h1 with h1; injection h1 with _ h1; subst h1; rfl
  have := count_of_calls (step := LinkedList.step dflt) (count := LinkedList.historyCount) ?_ ?_ ops _ _ _ h
  · rw [this]; exact Nat.zero_add _
  · intro s x r s' h
    obtain ⟨l, h1, h⟩ := Res.bind_eq_ok.1 h
    injection h with h; injection h with _ h; subst h
    unfold LinkedList.update at h1
    simp only at h1
    split at h1
    · injection h1 with h1; subst h1; rfl
    · obtain ⟨_, -, h1⟩ := Res.bind_eq_ok.1 h1
      obtain ⟨_, -, h1⟩ := Res.bind_eq_ok.1 h1
      split at h1
      · obtain ⟨⟨v, l2⟩, h2, h1⟩ := Res.bind_eq_ok.1 h1
        have e := hpop _ _ _ h2
        injection h1 with h1; subst h1
        exact congrArg (· + 1) e
      · injection h1 with h1; subst h1; rfl
  · intro s op r s' h hn
    cases op with
    | update x => exact absurd rfl (hn x)
    | pop =>
      obtain ⟨⟨v, l⟩, h1, h⟩ := Res.bind_eq_ok.1 h
      injection h with h; injection h with _ h; subst h
      exact hpop _ _ _ h1
    | reset =>
      obtain ⟨l, h1, h⟩ := Res.bind_eq_ok.1 h
      injection h with h; injection h with _ h; subst h
      unfold LinkedList.reset at h1
      obtain ⟨_, -, h1⟩ := Res.bind_eq_ok.1 h1
      obtain ⟨_, -, h1⟩ := Res.bind_eq_ok.1 h1
      injection h1 with h1; subst h1; rfl
    | _ => injection h with h; injection h with _ h; subst h; rfl

/-- Seven observations through a window of three, in double precision. -/
example : (feed (Mean.update b64) (Mean.new b64 3) [1, 2, 3, 4, 5, 6, 7]).mapOk Mean.historyCount = .ok 7 ∧
    (do let w ← WP2.new b64 (1 / 2) 3; feed (WP2.update b64) w [1, 2, 3, 4, 5, 6, 7]).mapOk
      (fun w : WP2 ℚ => (w.historyCount, w.p2.historyCount)) = .ok (7, 3) := by
  decide +kernel

example : ∃ outs l, runCalls (LinkedList.step (0 : ℤ)) (LinkedList.new 2)
    [.update 1, .pop, .update 2, .update 3, .update 4, .reset] = .ok (outs, l) ∧ l.historyCount = 4 :=
  ⟨_, _, rfl, rfl⟩

end KML
