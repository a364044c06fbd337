import Verif.Lemmas.Float
import Verif.Lemmas.Histogram
import Verif.Lemmas.Variance
import Verif.Model.OutOfMemory

/-! # C121: an update that runs out of memory -/

set_option linter.unusedSectionVars false

namespace KML

open Spec

/-- Whatever calls have been made before, with whatever allocations failing, a call that throws `std::bad_alloc` leaves
the object as it was. -/
def Unchanged {σ ι : Type} (call : σ → ι → Res (Done × σ)) (s₀ : σ) : Prop :=
  ∀ (calls : List ι) (s s' : σ) (i : ι), tryAll call s₀ calls = .ok s → call s i = .ok (.badAlloc, s') → s' = s

/-- **C121**, the full claim. -/
def C121_full : Prop :=
  (∀ W, Unchanged (Mean.updateMem (exact ℚ)) (Mean.new (exact ℚ) W)) ∧
  (∀ W, Unchanged (Variance.updateMem (exact ℚ)) (Variance.new (exact ℚ) W)) ∧
  (∀ nb W, Unchanged (Hist.updateMem (exact ℚ)) (Hist.new nb W)) ∧
  (∀ W, Unchanged (LinkedList.updateMem (0 : ℚ)) (LinkedList.new W)) ∧
  (∀ (L : LArith ℚ) W nb e, Entropy.new L W nb = .ok e → Unchanged (Entropy.updateMem L) e)

/-- **C121** is violated: with a full window `StreamingMean` has already dropped its oldest observation. -/
theorem C121_violated : ¬ C121_full := by
  intro h
  have := h.1 1 [(5, false)] ⟨1, some [5], 1, 5⟩ ⟨1, some [], 1, 0⟩ (7, true) (by decide +kernel) (by decide +kernel)
  revert this
  decide +kernel

/-! ## If no allocation fails -/

section

variable {F : Type} (A : Arith F)

/-- **C121**: if all allocations succeed these calls are the ones of the rest of the model. -/
theorem C121_agrees (L : LArith F) (dflt : F) (x : F) :
    (∀ m : Mean F, m.updateMem A (x, false) = (m.update A x >>= fun m' => .ok (.returned, m'))) ∧
    (∀ v : Variance F, v.updateMem A (x, false, false) = (v.update A x >>= fun v' => .ok (.returned, v'))) ∧
    (∀ l : LinkedList F, l.updateMem dflt (x, false) = (l.update dflt x >>= fun l' => .ok (.returned, l'))) ∧
    (∀ h : Hist F, h.updateMem A (x, fun _ => false) = (h.update A x >>= fun h' => .ok (.returned, h'))) ∧
    (∀ e : Entropy F, e.updateMem L (x, false, fun _ => false) = (e.update L x >>= fun e' => .ok (.returned, e'))) := by
  have hm : ∀ (x : F) (m : Mean F), m.updateMem A (x, false) = (m.update A x >>= fun m' => .ok (.returned, m')) := by
    intro x m
    unfold Mean.updateMem Mean.update Mean.makeRoom
    rcases hw : m.window with _ | w
    · simp [hw]
    · simp only
      by_cases hl : w.length + 1 > m.windowSize
      · rcases w with _ | ⟨f, r⟩
        · simp only [if_pos hl]; rfl
        · simp only [if_pos hl]; rfl
      · simp only [if_neg hl]; rfl
  have hh : ∀ (A : Arith F) (h : Hist F),
      h.updateMem A (x, fun _ => false) = (h.update A x >>= fun h' => .ok (.returned, h')) := by
    intro A h
    unfold Hist.updateMem Hist.update Hist.addMem Hist.add
    simp only [Bool.and_false, Bool.false_eq_true, if_false]
    rcases h.binSearch A x with i | m | u
    · simp only [Res.ok_bind]
      rcases h.place A x i with p | m | u
      · simp only [Res.ok_bind]
        generalize Hist.decayCounts _ = r
        rcases r with g | m | u
        · simp only [Res.ok_bind]
          split
          · rcases Hist.mergeBins A g.bins (Hist.mergeIndex A g.bins) (Hist.mergeIndex A g.bins + 1) with b | s | u <;> rfl
          · rfl
        · rfl
        · rfl
      · rfl
      · rfl
    · rfl
    · rfl
  refine ⟨hm x, ?_, fun l => rfl, hh A, ?_⟩
  · intro v
    unfold Variance.updateMem Variance.update
    simp only [hm]
    rcases v.mean.update A x with a | m | u
    · simp only [Res.ok_bind]
      rcases v.sumSquared.update A (A.mul x x) with b | m | u <;> rfl
    · rfl
    · rfl
  · intro e
    unfold Entropy.updateMem Entropy.update
    rcases e.hist.binSearch L.toArith x with i | m | u
    · simp only [Res.ok_bind]
      rcases e.window with _ | w
      · rfl
      · simp only [Bool.false_eq_true, if_false, Entropy.enter]
        rcases hw : w ++ [i] with _ | ⟨f, r⟩
        · simp at hw
        · simp only
          have key : ∀ e' : Entropy F, (e'.hist.updateMem L.toArith (x, fun _ => false) >>= fun p =>
              Entropy.leave L { e' with hist := p.2 } i p.1) =
              (e'.hist.update L.toArith x >>= fun hist =>
                ({ e' with hist := hist } : Entropy F).increment L i >>= fun e =>
                  .ok { e with historyCount := e.historyCount + 1 }) >>= fun e' => .ok (.returned, e') := by
            intro e'
            rw [hh]
            rcases e'.hist.update L.toArith x with g | m | u
            · simp only [Res.ok_bind, Entropy.leave]
              rcases ({ e' with hist := g } : Entropy F).increment L i with k | m | u <;> rfl
            · rfl
            · rfl
          split
          · rcases e.decrement L f with e' | m | u
            · simp only [Res.ok_bind]
              exact key { e' with window := some r }
            · rfl
            · rfl
          · exact key { e with window := some (f :: r) }
    · rfl
    · rfl

end

/-! ## StreamingMean -/

/-- The observations of the calls that did not run out of memory. -/
def kept {F : Type} (calls : List (F × Bool)) : List F := (calls.filter fun c => !c.2).map Prod.fst

theorem kept_snoc {F : Type} (calls : List (F × Bool)) (x : F) (b : Bool) :
    kept (calls ++ [(x, b)]) = if b then kept calls else kept calls ++ [x] := by
  unfold kept; cases b <;> simp

theorem tryAll_snoc {σ ι : Type} (call : σ → ι → Res (Done × σ)) (s : σ) (is : List ι) (i : ι) :
    tryAll call s (is ++ [i]) = tryAll call s is >>= fun s' => call s' i >>= fun p => .ok p.2 := by
  induction is generalizing s with
  | nil =>
    simp only [List.nil_append, tryAll, Res.ok_bind]
  | cons j js ih =>
    simp only [List.cons_append, tryAll]
    rcases call s j with p | m | u
    · exact ih p.2
    · rfl
    · rfl

theorem tryAll_append {σ ι : Type} (call : σ → ι → Res (Done × σ)) (s : σ) (is js : List ι) :
    tryAll call s (is ++ js) = tryAll call s is >>= fun s' => tryAll call s' js := by
  induction is generalizing s with
  | nil => rfl
  | cons j is ih =>
    simp only [List.cons_append, tryAll]
    rcases call s j with p | m | u
    · exact ih p.2
    · rfl
    · rfl

namespace Mean

section

variable {F : Type} (A : Arith F)

/-- One call on an object with a window. -/
theorem updateMem_spec {m : Mean F} {w : List F} (hw : m.window = some w) (h1 : 1 ≤ m.windowSize)
    (h2 : w.length ≤ m.windowSize) (x : F) (b : Bool) :
    ∃ m' w', m.updateMem A (x, b) = .ok (if b then .badAlloc else .returned, m') ∧ m'.window = some w' ∧
      m'.windowSize = m.windowSize ∧
      ((w.length = m.windowSize ∧ ∃ f r, w = f :: r ∧
        (if b then w' = r ∧ m'.sum = A.sub m.sum f ∧ m'.historyCount = m.historyCount
          else w' = r ++ [x] ∧ m'.sum = A.add (A.sub m.sum f) x ∧ m'.historyCount = m.historyCount + 1)) ∨
       (w.length < m.windowSize ∧
        (if b then m' = m ∧ w' = w
          else w' = w ++ [x] ∧ m'.sum = A.add m.sum x ∧ m'.historyCount = m.historyCount + 1))) := by
  unfold updateMem makeRoom
  rw [hw]
  simp only
  by_cases hl : w.length + 1 > m.windowSize
  · rcases w with _ | ⟨f, r⟩
    · simp at hl; omega
    · simp only [if_pos hl, Res.ok_bind]
      cases b
      · exact ⟨_, _, rfl, rfl, rfl, Or.inl ⟨by omega, f, r, rfl, rfl, rfl, rfl⟩⟩
      · exact ⟨_, _, rfl, rfl, rfl, Or.inl ⟨by omega, f, r, rfl, rfl, rfl, rfl⟩⟩
  · simp only [if_neg hl, Res.ok_bind]
    cases b
    · exact ⟨_, _, rfl, rfl, rfl, Or.inr ⟨by omega, rfl, rfl, rfl⟩⟩
    · exact ⟨_, _, rfl, hw, rfl, Or.inr ⟨by omega, rfl, rfl⟩⟩

end

end Mean

section

variable {F : Type} (A : Arith F)

/-- **C121**, `StreamingMean` with a window, any arithmetic: whatever calls run out of memory, no call is undefined, and
the window holds the last observations of the calls that succeeded, at most one fewer than it should. Missing: it can be
one fewer (`C121_violated`). -/
theorem C121_mean_partial (W : ℕ) (hW : 1 ≤ W) (calls : List (F × Bool)) :
    ∃ m w, tryAll (Mean.updateMem A) (Mean.new A W) calls = .ok m ∧ m.window = some w ∧ w <:+ kept calls ∧
      min (W - 1) (kept calls).length ≤ w.length ∧ w.length ≤ W ∧ m.windowSize = W ∧
      m.historyCount = (kept calls).length := by
  induction calls using List.reverseRecOn with
  | nil => exact ⟨_, [], rfl, by simp [Mean.new]; omega, by simp [kept], by simp [kept], by simp, rfl, rfl⟩
  | append_singleton calls c ih =>
    obtain ⟨m, w, h1, h2, h3, h4, h5, h6, h7⟩ := ih
    obtain ⟨x, b⟩ := c
    obtain ⟨m', w', e1, e2, e3, e4⟩ := Mean.updateMem_spec A h2 (by omega) (by omega) x b
    refine ⟨m', w', by rw [tryAll_snoc, h1, Res.ok_bind, e1, Res.ok_bind], e2, ?_⟩
    rw [kept_snoc]
    rcases e4 with ⟨f1, f, r, rfl, f2⟩ | ⟨f1, f2⟩
    · have hr : r <:+ kept calls := (List.suffix_cons f r).trans h3
      simp only [List.length_cons] at f1 h4 h5
      cases b
      · obtain ⟨rfl, -, f3⟩ := f2
        simp only [Bool.false_eq_true, if_false, List.length_append, List.length_singleton]
        obtain ⟨t, ht⟩ := hr
        exact ⟨⟨t, by rw [← ht]; simp⟩, by omega, by omega, by omega, by omega⟩
      · obtain ⟨rfl, -, f3⟩ := f2
        simp only [if_true]
        exact ⟨hr, by omega, by omega, by omega, by omega⟩
    · cases b
      · obtain ⟨rfl, -, f3⟩ := f2
        simp only [Bool.false_eq_true, if_false, List.length_append, List.length_singleton]
        obtain ⟨t, ht⟩ := h3
        exact ⟨⟨t, by rw [← ht]; simp⟩, by omega, by omega, by omega, by omega⟩
      · obtain ⟨rfl, rfl⟩ := f2
        simp only [if_true]
        exact ⟨h3, h4, h5, h6, h7⟩

end

section Exact

variable {K : Type} [Field K] [LinearOrder K] [IsStrictOrderedRing K] [FloorRing K]

/-- An object whose sum is that of its window. -/
structure Mean.Sound (W : ℕ) (m : Mean K) (w : List K) : Prop where
  ws : m.windowSize = W
  win : m.window = some w
  len : w.length ≤ W
  sum : m.sum = w.sum
  hist : w ≠ [] → m.historyCount ≠ 0

theorem Mean.Sound.step {W : ℕ} (hW : 1 ≤ W) {m : Mean K} {w : List K} (h : m.Sound W w) (x : K) (b : Bool) :
    ∃ m' w', m.updateMem (exact K) (x, b) = .ok (if b then .badAlloc else .returned, m') ∧ m'.Sound W w' ∧
      (b = false → w' = lastN W (w ++ [x])) ∧ (m.historyCount ≤ m'.historyCount) := by
  obtain ⟨h1, h2, h3, h4, h5⟩ := h
  obtain ⟨m', w', e1, e2, e3, e4⟩ := Mean.updateMem_spec (exact K) h2 (by omega) (by omega) x b
  refine ⟨m', w', e1, ?_⟩
  rcases e4 with ⟨f1, f, r, rfl, f2⟩ | ⟨f1, f2⟩
  · have hh := h5 (by simp)
    simp only [List.length_cons] at f1
    cases b
    · obtain ⟨rfl, f3, f4⟩ := f2
      refine ⟨⟨by omega, e2, by simp; omega, ?_, by omega⟩, ?_, by omega⟩
      · rw [f3, h4]; simp [exact]
      · intro _
        have : (f :: r ++ [x]).length - W = 1 := by simp; omega
        unfold lastN
        rw [this]
        rfl
    · obtain ⟨rfl, f3, f4⟩ := f2
      refine ⟨⟨by omega, e2, by omega, ?_, by omega⟩, by simp, by omega⟩
      rw [f3, h4]; simp [exact]
  · cases b
    · obtain ⟨rfl, f3, f4⟩ := f2
      refine ⟨⟨by omega, e2, by simp; omega, ?_, by omega⟩, ?_, by omega⟩
      · rw [f3, h4]; simp [exact]
      · intro _
        rw [lastN_self (by simp; omega)]
    · obtain ⟨rfl, rfl⟩ := f2
      exact ⟨⟨h1, h2, h3, h4, h5⟩, by simp, le_rfl⟩

theorem Mean.Sound.new {W : ℕ} (hW : 1 ≤ W) : (Mean.new (exact K) W).Sound W [] :=
  ⟨rfl, by simp [Mean.new]; omega, by simp, by simp [Mean.new, exact], by simp⟩

theorem Mean.Sound.run {W : ℕ} (hW : 1 ≤ W) (calls : List (K × Bool)) {m : Mean K} {w : List K} (h : m.Sound W w) :
    ∃ m' w', tryAll (Mean.updateMem (exact K)) m calls = .ok m' ∧ m'.Sound W w' := by
  induction calls generalizing m w with
  | nil => exact ⟨m, w, rfl, h⟩
  | cons c calls ih =>
    obtain ⟨m1, w1, e1, s1, -⟩ := h.step hW c.1 c.2
    obtain ⟨m2, w2, e2, s2⟩ := ih s1
    exact ⟨m2, w2, by simp only [tryAll]; rw [e1, Res.ok_bind]; exact e2, s2⟩

/-- After successful calls the window is what a window should be. -/
theorem Mean.Sound.fed {W : ℕ} (hW : 1 ≤ W) (xs : List K) {m : Mean K} {w : List K} (h : m.Sound W w) :
    ∃ m', tryAll (Mean.updateMem (exact K)) m (xs.map fun x => (x, false)) = .ok m' ∧ m'.Sound W (lastN W (w ++ xs)) := by
  induction xs using List.reverseRecOn with
  | nil => exact ⟨m, rfl, by rw [List.append_nil, lastN_self h.len]; exact h⟩
  | append_singleton xs x ih =>
    obtain ⟨m1, e1, s1⟩ := ih
    obtain ⟨m2, w2, e2, s2, h3, -⟩ := s1.step hW x false
    refine ⟨m2, by rw [List.map_append, List.map_singleton, tryAll_snoc, e1, Res.ok_bind, e2, Res.ok_bind], ?_⟩
    rw [h3 rfl] at s2
    have : lastN W (lastN W (w ++ xs) ++ [x]) = lastN W (w ++ (xs ++ [x])) := by
      rw [← List.append_assoc]
      generalize w ++ xs = l
      by_cases hl : l.length < W
      · rw [lastN_self hl.le]
      · simp only [lastN, List.length_append, List.length_drop, List.length_singleton]
        rw [← List.drop_append_of_le_length (by omega), List.drop_drop]
        congr 1
        omega
    rwa [this] at s2

theorem Mean.Sound.evaluate {W : ℕ} {m : Mean K} {w : List K} (h : m.Sound W w) (hne : w ≠ []) :
    m.evaluate (exact K) = mean w := by
  unfold Mean.evaluate
  rw [if_neg (h.hist hne), h.win, h.sum]
  simp [mean, exact, Arith.ofNat]

/-- **C121**, `StreamingMean` with a window, exact arithmetic: whatever calls run out of memory, the result is the mean
of the window, unless the window is empty. Missing: with windowSize 1 it can be empty although there have been
observations, and then the result is 0 / 0 (`C121_nan_violated`). -/
theorem C121_value_partial (W : ℕ) (hW : 1 ≤ W) (calls : List (K × Bool)) :
    ∃ m w, tryAll (Mean.updateMem (exact K)) (Mean.new (exact K) W) calls = .ok m ∧ m.window = some w ∧
      (w ≠ [] → m.evaluate (exact K) = mean w) := by
  obtain ⟨m, w, h1, h2⟩ := Mean.Sound.run hW calls (Mean.Sound.new (K := K) hW)
  exact ⟨m, w, h1, h2.win, h2.evaluate⟩

/-- **C121**, `StreamingMean` with a window, exact arithmetic: `windowSize` successful calls after whatever has failed
before, the result is again the mean of the last `windowSize` observations. -/
theorem C121_mean_recovers_partial (W : ℕ) (hW : 1 ≤ W) (calls : List (K × Bool)) (xs : List K) (hx : W ≤ xs.length) :
    ∃ m, tryAll (Mean.updateMem (exact K)) (Mean.new (exact K) W) (calls ++ xs.map fun x => (x, false)) = .ok m ∧
      m.evaluate (exact K) = mean (lastN W xs) := by
  obtain ⟨m, w, h1, h2⟩ := Mean.Sound.run hW calls (Mean.Sound.new (K := K) hW)
  obtain ⟨m', h3, h4⟩ := h2.fed hW xs
  have hl : lastN W (w ++ xs) = lastN W xs := by
    simp only [lastN, List.length_append]
    rw [show w.length + xs.length - W = w.length + (xs.length - W) by omega, List.drop_append]
    simp
  rw [hl] at h4
  refine ⟨m', by rw [tryAll_append, h1, Res.ok_bind, h3], h4.evaluate ?_⟩
  intro h0
  have := lastN_length W xs
  rw [h0] at this
  simp at this
  omega

end Exact

/-- **C121**, on doubles: `StreamingMean(1)`, one observation, then an update that runs out of memory: the result is
NaN. -/
theorem C121_nan_violated :
    ∃ m, tryAll (Mean.updateMem Dbl.arith) (Mean.new Dbl.arith 1) [(.fin 5, false), (.fin 7, true)] = .ok m ∧
      m.evaluate Dbl.arith = .nan :=
  ⟨⟨1, some [], 1, .fin 0⟩, by decide +kernel, by decide +kernel⟩

/-! ## StreamingVariance -/

section Exact

variable {K : Type} [Field K] [LinearOrder K] [IsStrictOrderedRing K] [FloorRing K]

theorem Variance.updateMem_ok {W : ℕ} (hW : 1 ≤ W) {v : Variance K} {w u : List K} (h1 : v.mean.Sound W w)
    (h2 : v.sumSquared.Sound W u) (call : K × Bool × Bool) :
    ∃ d v' w' u', v.updateMem (exact K) call = .ok (d, v') ∧ v'.mean.Sound W w' ∧ v'.sumSquared.Sound W u' := by
  obtain ⟨x, b, c⟩ := call
  obtain ⟨m, w', e1, s1, -⟩ := h1.step hW x b
  unfold Variance.updateMem
  simp only
  rw [e1, Res.ok_bind]
  cases b
  · obtain ⟨m2, u', e2, s2, -⟩ := h2.step hW ((exact K).mul x x) c
    simp only [Bool.false_eq_true, if_false]
    rw [e2, Res.ok_bind]
    exact ⟨_, _, w', u', rfl, s1, s2⟩
  · exact ⟨_, _, w', u, rfl, s1, h2⟩

theorem Variance.run_mem {W : ℕ} (hW : 1 ≤ W) (calls : List (K × Bool × Bool)) {v : Variance K} {w u : List K}
    (h1 : v.mean.Sound W w) (h2 : v.sumSquared.Sound W u) :
    ∃ v' w' u', tryAll (Variance.updateMem (exact K)) v calls = .ok v' ∧ v'.mean.Sound W w' ∧ v'.sumSquared.Sound W u' := by
  induction calls generalizing v w u with
  | nil => exact ⟨v, w, u, rfl, h1, h2⟩
  | cons c calls ih =>
    obtain ⟨d, v1, w1, u1, e1, s1, s2⟩ := Variance.updateMem_ok hW h1 h2 c
    obtain ⟨v2, w2, u2, e2, s3, s4⟩ := ih s1 s2
    exact ⟨v2, w2, u2, by simp only [tryAll]; rw [e1, Res.ok_bind]; exact e2, s3, s4⟩

theorem Variance.fed (xs : List K) {v : Variance K} {a b : Mean K}
    (h1 : tryAll (Mean.updateMem (exact K)) v.mean (xs.map fun x => (x, false)) = .ok a)
    (h2 : tryAll (Mean.updateMem (exact K)) v.sumSquared ((xs.map fun x => x * x).map fun x => (x, false)) = .ok b) :
    tryAll (Variance.updateMem (exact K)) v (xs.map fun x => (x, false, false)) =
      .ok { v with mean := a, sumSquared := b } := by
  induction xs generalizing v with
  | nil =>
    simp only [List.map_nil, tryAll, Res.ok.injEq] at h1 h2 ⊢
    rw [← h1, ← h2]
  | cons x xs ih =>
    simp only [List.map_cons, tryAll] at h1 h2 ⊢
    obtain ⟨p, e1, e2⟩ := Res.bind_eq_ok.1 h1
    obtain ⟨q, e3, e4⟩ := Res.bind_eq_ok.1 h2
    have hp : v.mean.update (exact K) x = .ok p.2 ∧ p.1 = .returned := by
      rw [(C121_agrees (exact K) ⟨exact K, id, id, fun _ => 0⟩ 0 x).1] at e1
      obtain ⟨m, f1, f2⟩ := Res.bind_eq_ok.1 e1
      simp only [Res.ok.injEq] at f2
      rw [← f2]
      exact ⟨f1, rfl⟩
    have hq : v.sumSquared.update (exact K) (x * x) = .ok q.2 ∧ q.1 = .returned := by
      rw [(C121_agrees (exact K) ⟨exact K, id, id, fun _ => 0⟩ 0 (x * x)).1] at e3
      obtain ⟨m, f1, f2⟩ := Res.bind_eq_ok.1 e3
      simp only [Res.ok.injEq] at f2
      rw [← f2]
      exact ⟨f1, rfl⟩
    have : v.updateMem (exact K) (x, false, false) = .ok (.returned, { v with mean := p.2, sumSquared := q.2 }) := by
      rw [(C121_agrees (exact K) ⟨exact K, id, id, fun _ => 0⟩ 0 x).2.1]
      unfold Variance.update
      rw [hp.1, Res.ok_bind, show (exact K).mul x x = x * x from rfl, hq.1]
      rfl
    rw [this, Res.ok_bind]
    exact ih e2 e4

/-- **C121**, `StreamingVariance` with a window, exact arithmetic: whatever calls run out of memory, no call is undefined,
and `windowSize` successful calls later the result is again the variance of the last `windowSize` observations. Missing:
until then it can be anything, negative included (`C121_negative_violated`). -/
theorem C121_variance_recovers_partial (W : ℕ) (hW : 1 ≤ W) (calls : List (K × Bool × Bool)) (xs : List K)
    (hx : W ≤ xs.length) :
    ∃ v, tryAll (Variance.updateMem (exact K)) (Variance.new (exact K) W)
        (calls ++ xs.map fun x => (x, false, false)) = .ok v ∧ v.evaluate (exact K) = variance (lastN W xs) := by
  obtain ⟨v, w, u, h1, s1, s2⟩ := Variance.run_mem hW calls (v := Variance.new (exact K) W)
    (Mean.Sound.new hW) (Mean.Sound.new hW)
  obtain ⟨a, e1, s3⟩ := s1.fed hW xs
  obtain ⟨b, e2, s4⟩ := s2.fed hW (xs.map fun x => x * x)
  have hl : ∀ w l : List K, W ≤ l.length → lastN W (w ++ l) = lastN W l := by
    intro w l hx
    simp only [lastN, List.length_append]
    rw [show w.length + l.length - W = w.length + (l.length - W) by omega, List.drop_append]
    simp
  have hn : ∀ l : List K, W ≤ l.length → lastN W l ≠ [] := by
    intro l hx h0
    have := lastN_length W l
    rw [h0] at this
    simp at this
    omega
  rw [hl _ _ hx] at s3
  rw [hl _ _ (by simpa using hx)] at s4
  refine ⟨_, by rw [tryAll_append, h1, Res.ok_bind, Variance.fed xs e1 e2], ?_⟩
  have h3 := s3.evaluate (hn _ hx)
  have h4 := s4.evaluate (hn _ (by simpa using hx))
  unfold Variance.evaluate
  simp only
  rw [h3, h4, variance_eq]
  simp [exact, lastN]

end Exact

/-- **C121**: `StreamingVariance(2)`, observations 0 and 10, the second running out of memory in the second mean: the
variance is -25. -/
theorem C121_negative_violated :
    ∃ v, tryAll (Variance.updateMem (exact ℚ)) (Variance.new (exact ℚ) 2) [(0, false, false), (10, false, true)] = .ok v ∧
      v.evaluate (exact ℚ) = -25 :=
  ⟨⟨some [], 0, ⟨2, some [0, 10], 2, 10⟩, ⟨2, some [0], 1, 0⟩⟩, by decide +kernel, by decide +kernel⟩

/-! ## LinkedList -/

/-- **C121** holds for `LinkedList`: the node is allocated first, so nothing has happened when that fails. -/
theorem C121_list_partial {α : Type} (dflt : α) (W : ℕ) : Unchanged (LinkedList.updateMem dflt) (LinkedList.new W) := by
  rintro calls s s' ⟨x, b⟩ - h
  cases b
  · rw [LinkedList.updateMem] at h
    simp only [Bool.false_eq_true, if_false] at h
    obtain ⟨l, -, h2⟩ := Res.bind_eq_ok.1 h
    simp at h2
  · simp only [LinkedList.updateMem, if_true, Res.ok.injEq, Prod.mk.injEq, true_and] at h
    exact h.symm

/-! ## StreamingHistogram -/

section

variable {F : Type} (A : Arith F)

/-- **C121**, `StreamingHistogram`, any arithmetic and any state: an update that fails to allocate the bin leaves
everything as it was; one that fails to make room in `m_bins` leaks the bin and leaves everything else as it was; one
that fails to extend `m_window` has counted the observation, but forgotten its index and neither evicted nor merged
anything. So the counts and their total stay in step. Missing: the last case leaves one bin or one observation too many
(`C121_bins_violated`, `C121_total_violated`). -/
theorem C121_histogram_partial (h : Hist F) (x : F) (fails : Spot → Bool) :
    (fails .bin = true → h.updateMem A (x, fails) = .ok (.badAlloc, h)) ∧
    (fails .window = true → ∃ h', h.updateMem A (x, fails) = .ok (.badAlloc, h')) ∧
    ∀ h', h.updateMem A (x, fails) = .ok (.badAlloc, h') →
      (fails .bin = true ∧ h' = h) ∨ (fails .bins = true ∧ h' = { h with live := h.live + 1 }) ∨
      (fails .window = true ∧ ∃ i bins live, Hist.Placed A x (h.total = 0) i h.bins bins ∧
        h' = { h with bins := bins, live := live, historyCount := h.historyCount + 1, total := h.total + 1 }) := by
  obtain ⟨i, bins, live, e1, e2, e3, -⟩ := Hist.place_spec (A := A) h x
  refine ⟨fun hb => by simp [Hist.updateMem, Hist.addMem, hb], fun hw => ?_, fun h' hh => ?_⟩
  · by_cases hb : fails .bin = true
    · exact ⟨_, by simp only [Hist.updateMem, Hist.addMem, if_pos hb, Res.ok_bind]; rfl⟩
    · simp only [Hist.updateMem, Hist.addMem, if_neg hb, e1, e2, Res.ok_bind, hw, if_true]
      split <;> exact ⟨_, rfl⟩
  · by_cases hb : fails .bin = true
    · simp only [Hist.updateMem, Hist.addMem, if_pos hb, Res.ok_bind, Res.ok.injEq, Prod.mk.injEq, true_and] at hh
      exact Or.inl ⟨hb, hh.symm⟩
    · simp only [Hist.updateMem, Hist.addMem, if_neg hb, e1, e2, Res.ok_bind] at hh
      by_cases hc : (decide (bins.length ≠ h.bins.length) && fails .bins) = true
      · simp only [hc, if_true, Res.ok_bind, Res.ok.injEq, Prod.mk.injEq, true_and] at hh
        simp only [Bool.and_eq_true] at hc
        exact Or.inr (Or.inl ⟨hc.2, hh.symm⟩)
      · simp only [if_neg hc] at hh
        by_cases hw : fails .window = true
        · simp only [hw, if_true, Res.ok_bind, Res.ok.injEq, Prod.mk.injEq, true_and] at hh
          exact Or.inr (Or.inr ⟨hw, i, bins, live, e3, hh.symm⟩)
        · exfalso
          simp only [if_neg hw] at hh
          obtain ⟨⟨d, g⟩, f1, f2⟩ := Res.bind_eq_ok.1 hh
          obtain ⟨g', f3, f4⟩ := Res.bind_eq_ok.1 f1
          simp only [Res.ok.injEq, Prod.mk.injEq] at f4
          obtain ⟨rfl, rfl⟩ := f4
          simp only at f2
          split at f2
          · obtain ⟨b, f5, f6⟩ := Res.bind_eq_ok.1 f2
            simp at f6
          · simp at f2

/-- **C121**: after an update that ran out of memory `binCounts` throws exactly if it did before. -/
theorem C121_counts_partial (h h' : Hist F) (x : F) (fails : Spot → Bool)
    (hh : h.updateMem A (x, fails) = .ok (.badAlloc, h')) :
    (h'.bins.map Bin.count).sum = h'.total ↔ (h.bins.map Bin.count).sum = h.total := by
  rcases (C121_histogram_partial A h x fails).2.2 h' hh with ⟨-, rfl⟩ | ⟨-, rfl⟩ | ⟨-, i, bins, live, hp, rfl⟩
  · exact Iff.rfl
  · exact Iff.rfl
  · have := hp.sum
    unfold Hist.sumCounts at this
    simp only [this]
    omega

end

/-- Only extending `m_window` fails. -/
def windowFails : Spot → Bool := fun s => s == .window

/-- **C121**: a histogram of one bin that runs out of memory has two. -/
theorem C121_bins_violated :
    ∃ h, tryAll (Hist.updateMem (exact ℚ)) (Hist.new 1 5) [(1, fun _ => false), (2, windowFails)] = .ok h ∧
      h.numBins = 1 ∧ h.size = 2 :=
  ⟨⟨1, 5, [⟨1, 1, 1⟩, ⟨2, 2, 1⟩], [0, 0, 0, 0, 0, 0], 2, 2, 2⟩, by decide +kernel, rfl, rfl⟩

/-- **C121**: a histogram with a window of one observation counts two of them, for ever, once it has run out of memory:
here after the observations 1 and 1, the second failing, and any number of successful updates with 1. -/
theorem C121_total_violated (n : ℕ) :
    ∃ h, tryAll (Hist.updateMem (exact ℚ)) (Hist.new 2 1)
        ([(1, fun _ => false), (1, windowFails)] ++ List.replicate n (1, fun _ => false)) = .ok h ∧
      h.windowSize = 1 ∧ h.getTotalCount = 2 := by
  have h1 : tryAll (Hist.updateMem (exact ℚ)) (Hist.new 2 1) [(1, fun _ => false), (1, windowFails)] =
      .ok ⟨2, 1, [⟨1, 1, 2⟩], [0, 0], 2, 2, 1⟩ := by decide +kernel
  have h2 : ∀ n k : ℕ, tryAll (Hist.updateMem (exact ℚ)) ⟨2, 1, [⟨1, 1, 2⟩], [0, 0], 2, k, 1⟩
      (List.replicate n (1, fun _ => false)) = .ok ⟨2, 1, [⟨1, 1, 2⟩], [0, 0], 2, k + n, 1⟩ := by
    intro n
    induction n with
    | zero => intro k; rfl
    | succ n ih =>
      intro k
      have : Hist.updateMem (exact ℚ) ⟨2, 1, [⟨1, 1, 2⟩], [0, 0], 2, k, 1⟩ (1, fun _ => false) =
          .ok (.returned, ⟨2, 1, [⟨1, 1, 2⟩], [0, 0], 2, k + 1, 1⟩) := by
        norm_num [Hist.updateMem, Hist.addMem, Hist.binSearch, Hist.binSearchBin, Hist.searchLoop, Hist.place,
          Hist.decayCounts, Bin.lt, Utils.definitelyLessThan, Utils.larger, Utils.defaultEps, exact]
      rw [List.replicate_succ, tryAll, this, Res.ok_bind]
      simp only
      rw [ih (k + 1)]
      congr 2
      omega
  exact ⟨_, by rw [tryAll_append, h1, Res.ok_bind, h2], rfl, rfl⟩

/-! ## StreamingEntropy -/

namespace Entropy

variable {L : LArith Dbl}

/-- NaN, with at least two observations in the histogram. -/
structure Lost (e : Entropy Dbl) : Prop where
  nan : e.entropy = .nan
  total : 2 ≤ e.hist.total
  window : 2 ≤ e.hist.windowSize

theorem nan_mul (x : Dbl) : Dbl.mul x .nan = .nan := by cases x <;> rfl
theorem nan_mul' (x : Dbl) : Dbl.mul .nan x = .nan := rfl
theorem nan_add (x : Dbl) : Dbl.add .nan x = .nan := rfl
theorem nan_sub (x : Dbl) : Dbl.sub .nan x = .nan := rfl

theorem decrement_lost (hL : L.toArith = Dbl.arith) {e e' : Entropy Dbl} (h : e.Lost) {i : ℕ}
    (he : e.decrement L i = .ok e') : e'.Lost := by
  unfold decrement at he
  obtain ⟨b, -, he⟩ := Res.bind_eq_ok.1 he
  obtain ⟨x1, -, he⟩ := Res.bind_eq_ok.1 he
  obtain ⟨x2, -, he⟩ := Res.bind_eq_ok.1 he
  simp only [Res.ok.injEq] at he
  subst he
  refine ⟨?_, h.total, h.window⟩
  simp only [h.nan, hL]
  simp only [Dbl.arith, nan_add, nan_sub, nan_mul]

theorem not_one (hL : L.toArith = Dbl.arith) {n : ℕ} (hn : 2 ≤ n) : L.eq (L.lit 1) (L.ofNat n) = false := by
  rw [hL]
  show Dbl.eq (Dbl.ofRat 1) (Dbl.ofRat ((n : ℤ) : ℚ)) = false
  have h1 : Dbl.ofRat 1 = .fin 1 := by decide +kernel
  have h2 : rnd64 2 = 2 := by decide +kernel
  have h3 : (2 : ℚ) ≤ rnd64 ((n : ℤ) : ℚ) := by
    rw [← h2]
    exact R64.mono (by exact_mod_cast hn)
  rw [h1]
  unfold Dbl.ofRat
  simp only
  split
  · rfl
  · simp only [Dbl.eq, decide_eq_false_iff_not]
    intro h4
    rw [← h4] at h3
    norm_num at h3

theorem increment_lost (hL : L.toArith = Dbl.arith) {e e' : Entropy Dbl} (h : e.Lost) {i : ℕ}
    (he : e.increment L i = .ok e') : e'.Lost := by
  unfold increment at he
  obtain ⟨b, -, he⟩ := Res.bind_eq_ok.1 he
  obtain ⟨x1, -, he⟩ := Res.bind_eq_ok.1 he
  obtain ⟨x2, -, he⟩ := Res.bind_eq_ok.1 he
  rw [if_neg (by rw [show e.hist.getTotalCount = e.hist.total from rfl, not_one hL h.total]; simp)] at he
  simp only [Res.ok.injEq] at he
  subst he
  refine ⟨?_, h.total, h.window⟩
  simp only [h.nan, hL]
  simp only [Dbl.arith, nan_add, nan_sub, nan_mul]

theorem hist_total {F : Type} {A : Arith F} {h h' : Hist F} {c : F × (Spot → Bool)} {d : Done}
    (he : h.updateMem A c = .ok (d, h')) :
    h'.windowSize = h.windowSize ∧ (h.total ≤ h'.total ∨ h.windowSize ≤ h'.total) := by
  obtain ⟨x, fails⟩ := c
  rcases d with _ | _
  · obtain ⟨i, bins, live, e1, e2, e3, -⟩ := Hist.place_spec (A := A) h x
    unfold Hist.updateMem at he
    obtain ⟨⟨d, g⟩, h1, h2⟩ := Res.bind_eq_ok.1 he
    have hg : g.windowSize = h.windowSize ∧ (h.total ≤ g.total ∨ h.windowSize ≤ g.total) := by
      unfold Hist.addMem at h1
      split at h1
      · simp only [Res.ok.injEq, Prod.mk.injEq] at h1
        rw [← h1.2]; exact ⟨rfl, Or.inl le_rfl⟩
      · rw [e1, Res.ok_bind, e2, Res.ok_bind] at h1
        split at h1
        · simp only [Res.ok.injEq, Prod.mk.injEq] at h1
          rw [← h1.2]; exact ⟨rfl, Or.inl le_rfl⟩
        · simp only at h1
          split at h1
          · simp only [Res.ok.injEq, Prod.mk.injEq] at h1
            rw [← h1.2]; exact ⟨rfl, Or.inl (Nat.le_succ _)⟩
          · obtain ⟨k, h3, h4⟩ := Res.bind_eq_ok.1 h1
            simp only [Res.ok.injEq, Prod.mk.injEq] at h4
            rw [← h4.2]
            unfold Hist.decayCounts at h3
            split at h3
            · split at h3
              · simp at h3
              · split at h3
                · simp at h3
                · simp only [Res.ok.injEq] at h3
                  rw [← h3]
                  exact ⟨rfl, Or.inl (by simp)⟩
            · simp only [Res.ok.injEq] at h3
              rw [← h3]; exact ⟨rfl, Or.inl (by simp)⟩
    rcases d with _ | _
    · simp only at h2
      split at h2
      · obtain ⟨b, -, h4⟩ := Res.bind_eq_ok.1 h2
        simp only [Res.ok.injEq, Prod.mk.injEq, true_and] at h4
        rw [← h4]; exact hg
      · simp only [Res.ok.injEq, Prod.mk.injEq, true_and] at h2
        rw [← h2]; exact hg
    · simp at h2
  · rcases (C121_histogram_partial A h x fails).2.2 h' he with ⟨-, rfl⟩ | ⟨-, rfl⟩ | ⟨-, i, bins, live, hp, rfl⟩
    · exact ⟨rfl, Or.inl le_rfl⟩
    · exact ⟨rfl, Or.inl le_rfl⟩
    · exact ⟨rfl, Or.inl (Nat.le_succ _)⟩

theorem updateMem_lost (hL : L.toArith = Dbl.arith) {e e' : Entropy Dbl} (h : e.Lost)
    {c : Dbl × Bool × (Spot → Bool)} {d : Done} (he : e.updateMem L c = .ok (d, e')) : e'.Lost := by
  unfold updateMem at he
  obtain ⟨i, -, he⟩ := Res.bind_eq_ok.1 he
  rcases hw : e.window with _ | w
  · rw [hw] at he; simp at he
  · rw [hw] at he
    simp only at he
    split at he
    · simp only [Res.ok.injEq, Prod.mk.injEq] at he
      rw [← he.2]; exact h
    · obtain ⟨e1, h1, he⟩ := Res.bind_eq_ok.1 he
      obtain ⟨⟨d1, g⟩, h2, he⟩ := Res.bind_eq_ok.1 he
      have l1 : e1.Lost := by
        unfold enter at h1
        split at h1
        · split at h1
          · obtain ⟨e2, h3, h4⟩ := Res.bind_eq_ok.1 h1
            simp only [Res.ok.injEq] at h4
            have := decrement_lost hL h h3
            rw [← h4]
            exact ⟨this.nan, this.total, this.window⟩
          · simp only [Res.ok.injEq] at h1
            rw [← h1]
            exact ⟨h.nan, h.total, h.window⟩
        · simp at h1
      have ht := hist_total h2
      have l2 : ({ e1 with hist := g } : Entropy Dbl).Lost :=
        ⟨l1.nan, by have := l1.total; have := l1.window; simp only; omega, by rw [ht.1]; exact l1.window⟩
      unfold leave at he
      rcases d1 with _ | _
      · simp only at he
        obtain ⟨e2, h3, h4⟩ := Res.bind_eq_ok.1 he
        simp only [Res.ok.injEq, Prod.mk.injEq] at h4
        have := increment_lost hL l2 h3
        rw [← h4.2]
        exact ⟨this.nan, this.total, this.window⟩
      · simp only [Res.ok.injEq, Prod.mk.injEq] at he
        rw [← he.2]
        exact l2

theorem tryAll_lost (hL : L.toArith = Dbl.arith) {e e' : Entropy Dbl} (h : e.Lost)
    {cs : List (Dbl × Bool × (Spot → Bool))} (he : tryAll (updateMem L) e cs = .ok e') : e'.Lost := by
  induction cs generalizing e with
  | nil =>
    simp only [tryAll, Res.ok.injEq] at he
    rw [← he]; exact h
  | cons c cs ih =>
    simp only [tryAll] at he
    obtain ⟨⟨d, e1⟩, h1, h2⟩ := Res.bind_eq_ok.1 he
    exact ih (updateMem_lost hL h h1) h2

/-- Only allocating a bin fails. -/
def binFails : Spot → Bool := fun s => s == .bin

theorem lost_witness (hL : L.toArith = Dbl.arith) (h1 : L.log2 (.fin 1) = .fin 0)
    (hneg : ∀ q, L.neg (.fin q) = .fin (-q)) :
    ∃ e₀ e, Entropy.new L 2 2 = .ok e₀ ∧ tryAll (updateMem L) e₀
      [(.fin 1, false, fun _ => false), (.fin 2, false, binFails), (.fin 2, false, fun _ => false)] = .ok e ∧
      e.Lost := by
  have x1 : Utils.xlogx L (.fin 1) = .ok (.fin 0) := by
    unfold Utils.xlogx
    rw [h1, hL]
    decide +kernel
  have x0 : Utils.xlogx L (.fin 0) = .ok (.fin 0) := by
    unfold Utils.xlogx
    rw [hL]
    have : Dbl.arith.eq (Dbl.arith.lit 0) (.fin 0) = true := by decide +kernel
    have h2 : Dbl.arith.lt (.fin 0) (Dbl.arith.lit 0) = false := by decide +kernel
    have h3 : Dbl.arith.lit 0 = .fin 0 := by decide +kernel
    rw [this, h2, h3]
    rfl
  have n0 : Entropy.new L 2 2 = .ok ⟨2, some [], 0, Hist.new 2 2, .fin 0⟩ := by
    unfold Entropy.new
    rw [hL]
    have h3 : Dbl.arith.lit 0 = .fin 0 := by decide +kernel
    rw [h3]
    rfl
  have s1 : updateMem L ⟨2, some [], 0, Hist.new 2 2, .fin 0⟩ (.fin 1, false, fun _ => false) =
      .ok (.returned, ⟨2, some [0], 1, ⟨2, 2, [⟨.fin 1, .fin 1, 1⟩], [0, 0, 0], 1, 1, 1⟩, .fin 0⟩) := by
    have b : Hist.binSearch Dbl.arith (Hist.new 2 2) (.fin 1) = .ok 0 := by decide +kernel
    have u : Hist.updateMem Dbl.arith (Hist.new 2 2) (.fin 1, fun _ => false) =
        .ok (.returned, ⟨2, 2, [⟨.fin 1, .fin 1, 1⟩], [0, 0, 0], 1, 1, 1⟩) := by decide +kernel
    have f1 : Dbl.arith.div (Dbl.arith.ofNat 1) (Dbl.arith.ofNat 1) = .fin 1 := by decide +kernel
    have f2 : Dbl.arith.div (Dbl.arith.max (Dbl.arith.lit 0) (Dbl.arith.sub (Dbl.arith.ofNat 1) (Dbl.arith.lit 1)))
        (Dbl.arith.ofNat 1) = .fin 0 := by decide +kernel
    have f3 : Dbl.arith.eq (Dbl.arith.lit 1) (Dbl.arith.ofNat 1) = true := by decide +kernel
    have f4 : Dbl.arith.add (.fin (-0)) (.fin 0) = .fin 0 := by decide +kernel
    simp [updateMem, hL, b, Res.ok_bind, enter, u, leave, increment, Hist.getTotalCount, Hist.getBin, f1, f2, f3, x1,
      x0, hneg]
    simpa using f4
  have s2 : updateMem L ⟨2, some [0], 1, ⟨2, 2, [⟨.fin 1, .fin 1, 1⟩], [0, 0, 0], 1, 1, 1⟩, .fin 0⟩
      (.fin 2, false, binFails) =
      .ok (.badAlloc, ⟨2, some [0, 1], 1, ⟨2, 2, [⟨.fin 1, .fin 1, 1⟩], [0, 0, 0], 1, 1, 1⟩, .fin 0⟩) := by
    have b : Hist.binSearch Dbl.arith ⟨2, 2, [⟨.fin 1, .fin 1, 1⟩], [0, 0, 0], 1, 1, 1⟩ (.fin 2) = .ok 1 := by
      decide +kernel
    have u : Hist.updateMem Dbl.arith ⟨2, 2, [⟨.fin 1, .fin 1, 1⟩], [0, 0, 0], 1, 1, 1⟩ (.fin 2, binFails) =
        .ok (.badAlloc, ⟨2, 2, [⟨.fin 1, .fin 1, 1⟩], [0, 0, 0], 1, 1, 1⟩) := by decide +kernel
    simp [updateMem, hL, b, Res.ok_bind, enter, u, leave]
  have s3 : ∃ e, updateMem L ⟨2, some [0, 1], 1, ⟨2, 2, [⟨.fin 1, .fin 1, 1⟩], [0, 0, 0], 1, 1, 1⟩, .fin 0⟩
      (.fin 2, false, fun _ => false) = .ok (.returned, e) ∧ e.Lost := by
    have b : Hist.binSearch Dbl.arith ⟨2, 2, [⟨.fin 1, .fin 1, 1⟩], [0, 0, 0], 1, 1, 1⟩ (.fin 2) = .ok 1 := by
      decide +kernel
    have u : Hist.updateMem Dbl.arith ⟨2, 2, [⟨.fin 1, .fin 1, 1⟩], [0, 0, 0], 1, 1, 1⟩ (.fin 2, fun _ => false) =
        .ok (.returned, ⟨2, 2, [⟨.fin 1, .fin 1, 1⟩, ⟨.fin 2, .fin 2, 1⟩], [0, 0, 0, 1], 2, 2, 2⟩) := by decide +kernel
    have g1 : Dbl.arith.div (Dbl.arith.add (Dbl.arith.max (Dbl.arith.lit 0) (Dbl.arith.sub (Dbl.arith.ofNat 1)
        (Dbl.arith.lit 1))) (Dbl.arith.lit 1)) (Dbl.arith.add (Dbl.arith.sub (Dbl.arith.ofNat 1) (Dbl.arith.lit 1))
        (Dbl.arith.lit 1)) = .fin 1 := by decide +kernel
    have g2 : Dbl.arith.div (Dbl.arith.max (Dbl.arith.lit 0) (Dbl.arith.sub (Dbl.arith.ofNat 1) (Dbl.arith.lit 1)))
        (Dbl.arith.add (Dbl.arith.sub (Dbl.arith.ofNat 1) (Dbl.arith.lit 1)) (Dbl.arith.lit 1)) = .fin 0 := by
      decide +kernel
    have g3 : Dbl.arith.mul (Dbl.arith.div (Dbl.arith.add (Dbl.arith.sub (Dbl.arith.ofNat 1) (Dbl.arith.lit 1))
        (Dbl.arith.lit 1)) (Dbl.arith.sub (Dbl.arith.ofNat 1) (Dbl.arith.lit 1))) (Dbl.arith.sub (Dbl.arith.add (.fin 0)
        (.fin 0)) (.fin 0)) = .nan := by decide +kernel
    have g4 : ∀ x, Dbl.arith.add .nan x = .nan := nan_add
    have g5 : ∀ x, Dbl.arith.sub .nan x = .nan := nan_sub
    have g6 : ∀ x, Dbl.arith.mul x .nan = .nan := nan_mul
    have f1 : Dbl.arith.div (Dbl.arith.ofNat 1) (Dbl.arith.ofNat 2) = .fin (1 / 2) := by decide +kernel
    have f2 : Dbl.arith.div (Dbl.arith.max (Dbl.arith.lit 0) (Dbl.arith.sub (Dbl.arith.ofNat 1) (Dbl.arith.lit 1)))
        (Dbl.arith.ofNat 2) = .fin 0 := by decide +kernel
    have f3 : Dbl.arith.eq (Dbl.arith.lit 1) (Dbl.arith.ofNat 2) = false := by decide +kernel
    have xh : Utils.xlogx L (.fin (1 / 2)) = .ok (L.mul (.fin (1 / 2)) (L.log2 (.fin (1 / 2)))) := by
      unfold Utils.xlogx
      rw [hL]
      have : Dbl.arith.eq (Dbl.arith.lit 0) (.fin (1 / 2)) = false := by decide +kernel
      have h2 : Dbl.arith.lt (.fin (1 / 2)) (Dbl.arith.lit 0) = false := by decide +kernel
      rw [this, h2]
      rfl
    have d : decrement L ⟨2, some [0, 1], 1, ⟨2, 2, [⟨.fin 1, .fin 1, 1⟩], [0, 0, 0], 1, 1, 1⟩, .fin 0⟩ 0 =
        .ok ⟨2, some [0, 1], 1, ⟨2, 2, [⟨.fin 1, .fin 1, 1⟩], [0, 0, 0], 1, 1, 1⟩, .nan⟩ := by
      have gb : Hist.getBin (⟨2, 2, [⟨.fin 1, .fin 1, 1⟩], [0, 0, 0], 1, 1, 1⟩ : Hist Dbl) 0 =
        .ok ⟨.fin 1, .fin 1, 1⟩ := rfl
      simp only [decrement, hL, gb, Hist.getTotalCount, Res.ok_bind, g1, g2, x1, x0, g3, g4]
    have k : increment L ⟨2, some [1, 1], 1, ⟨2, 2, [⟨.fin 1, .fin 1, 1⟩, ⟨.fin 2, .fin 2, 1⟩], [0, 0, 0, 1], 2, 2, 2⟩,
        .nan⟩ 1 = .ok ⟨2, some [1, 1], 1, ⟨2, 2, [⟨.fin 1, .fin 1, 1⟩, ⟨.fin 2, .fin 2, 1⟩], [0, 0, 0, 1], 2, 2, 2⟩,
        .nan⟩ := by
      have gb : Hist.getBin (⟨2, 2, [⟨.fin 1, .fin 1, 1⟩, ⟨.fin 2, .fin 2, 1⟩], [0, 0, 0, 1], 2, 2, 2⟩ : Hist Dbl) 1 =
        .ok ⟨.fin 2, .fin 2, 1⟩ := rfl
      simp only [increment, hL, gb, Hist.getTotalCount, Res.ok_bind, f1, f2, f3, xh, x0, g4, g5, g6,
        Bool.false_eq_true, if_false]
    refine ⟨⟨2, some [1, 1], 2, ⟨2, 2, [⟨.fin 1, .fin 1, 1⟩, ⟨.fin 2, .fin 2, 1⟩], [0, 0, 0, 1], 2, 2, 2⟩, .nan⟩, ?_,
      rfl, le_rfl, le_rfl⟩
    simp [updateMem, hL, b, Res.ok_bind, enter, d, u, leave, k]
  obtain ⟨e, s3, he⟩ := s3
  refine ⟨_, e, n0, ?_, he⟩
  simp only [tryAll, s1, s2, s3, Res.ok_bind]

end Entropy

/-- **C121**, `StreamingEntropy`, any arithmetic and any state: an update that fails to extend the window of the entropy
itself leaves everything as it was. Missing: one that fails inside the histogram does not (`C121_entropy_violated`). -/
theorem C121_entropy_partial {F : Type} (L : LArith F) (e : Entropy F) (he : e.window ≠ none) (x : F)
    (fails : Spot → Bool) : e.updateMem L (x, true, fails) = .ok (.badAlloc, e) := by
  obtain ⟨i, bins, live, e1, -⟩ := Hist.place_spec (A := L.toArith) e.hist x
  rcases hw : e.window with _ | w
  · exact absurd hw he
  · simp [Entropy.updateMem, e1, Res.ok_bind, hw]

/-- **C121**: on doubles, with any `std::log2` that maps 1 to 0: an entropy with a window of two observations that saw 1,
ran out of memory on 2 and then saw 2 is NaN, and it stays NaN whatever is fed to it later. -/
theorem C121_entropy_violated (L : LArith Dbl) (hL : L.toArith = Dbl.arith) (h1 : L.log2 (.fin 1) = .fin 0)
    (hneg : ∀ q, L.neg (.fin q) = .fin (-q)) :
    ∃ e₀ e, Entropy.new L 2 2 = .ok e₀ ∧ tryAll (Entropy.updateMem L) e₀
        [(.fin 1, false, fun _ => false), (.fin 2, false, Entropy.binFails), (.fin 2, false, fun _ => false)] = .ok e ∧
      ∀ calls e', tryAll (Entropy.updateMem L) e calls = .ok e' → e'.evaluate = .nan := by
  obtain ⟨e₀, e, h2, h3, h4⟩ := Entropy.lost_witness hL h1 hneg
  exact ⟨e₀, e, h2, h3, fun calls e' h5 => (Entropy.tryAll_lost hL h4 h5).nan⟩

/-- Doubles with some logarithm, for the examples. -/
def someLog : LArith Dbl :=
  { Dbl.arith with
    log2 := fun x => if x = .fin 1 then .fin 0 else if x = .fin 2 then .fin 1 else .fin (-1)
    neg := fun x => match x with
      | .fin q => .fin (-q)
      | .inf b => .inf (!b)
      | .nan => .nan
    ceilNat := fun _ => 1 }

/-- The hypotheses of `C121_entropy_violated` can be met, and with them the later calls do return. -/
example : someLog.toArith = Dbl.arith ∧ someLog.log2 (.fin 1) = .fin 0 ∧ (∀ q, someLog.neg (.fin q) = .fin (-q)) ∧
    ∃ e₀ e, Entropy.new someLog 2 2 = .ok e₀ ∧ tryAll (Entropy.updateMem someLog) e₀
        [(.fin 1, false, fun _ => false), (.fin 2, false, Entropy.binFails), (.fin 2, false, fun _ => false),
         (.fin 2, false, fun _ => false)] = .ok e ∧ e.evaluate = .nan :=
  ⟨rfl, rfl, fun _ => rfl, ⟨2, some [], 0, Hist.new 2 2, .fin 0⟩,
    ⟨2, some [1, 1], 3, ⟨2, 2, [⟨.fin 1, .fin 1, 0⟩, ⟨.fin 2, .fin 2, 2⟩], [0, 0, 1, 1], 2, 3, 2⟩, .nan⟩,
    by decide +kernel, by decide +kernel, rfl⟩

/-- Without running out of memory that entropy is not NaN. -/
example : ∃ e₀ e, Entropy.new someLog 2 2 = .ok e₀ ∧ tryAll (Entropy.updateMem someLog) e₀
        [(.fin 1, false, fun _ => false), (.fin 2, false, fun _ => false), (.fin 2, false, fun _ => false)] = .ok e ∧
      e.evaluate ≠ .nan := by
  refine ⟨⟨2, some [], 0, Hist.new 2 2, .fin 0⟩, ?_, by decide +kernel, ?_, ?_⟩
  exact (match tryAll (Entropy.updateMem someLog) ⟨2, some [], 0, Hist.new 2 2, .fin 0⟩
    [(.fin 1, false, fun _ => false), (.fin 2, false, fun _ => false), (.fin 2, false, fun _ => false)] with
    | .ok e => e
    | _ => ⟨2, some [], 0, Hist.new 2 2, .fin 0⟩)
  · decide +kernel
  · decide +kernel

/-- A mean that ran out of memory twice, on a full window, and its window. -/
example : tryAll (Mean.updateMem (exact ℚ)) (Mean.new (exact ℚ) 2)
    [(1, false), (2, false), (3, true), (4, false), (5, true)] = .ok ⟨2, some [4], 3, 4⟩ := by decide +kernel

end KML
