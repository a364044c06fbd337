import Verif.Lemmas.Mean
import Verif.Props.Python

/-!
# C80, C81: the Python statistics and histogram
-/

namespace KML

/-! ## C80: what the Python statistics return -/

/-- The items of an `update` argument: those of an iterable, or the argument itself. -/
def PyVal.items (v : PyVal) : List PyVal := v.elements.getD [v]

/-- The first conversion error of a list of items. -/
def PyVal.firstError : List PyVal → Option String
  | [] => Option.none
  | v :: vs =>
    match v.asDouble with
    | .throw m => some m
    | _ => PyVal.firstError vs

section

variable {σ κ ρ : Type}

/-- The C++ program a Python session stands for: each `update` adds the items that convert, up to the first that does not,
whose error it raises; each other call with convertible arguments is made and its result or exception passed on. -/
def cProgram (upd : σ → Dbl → Res σ) (meth : σ → κ → Res (ρ × σ)) : σ → List (Py.GOp κ) → Res (List (Py.GOut ρ) × σ)
  | s, [] => .ok ([], s)
  | s, .update v :: ops => do
    let s' ← updateAll upd s (PyVal.goodPrefix PyVal.asDouble v.items)
    let (rs, s'') ← cProgram upd meth s' ops
    .ok ((match PyVal.firstError v.items with
      | none => .done
      | some m => .raised m) :: rs, s'')
  | s, .call (.ok c) :: ops =>
    match meth s c with
    | .ok (r, s') => do
      let (rs, s'') ← cProgram upd meth s' ops
      .ok (.value r :: rs, s'')
    | .throw m => do
      let (rs, s'') ← cProgram upd meth s ops
      .ok (.raised m :: rs, s'')
    | .ub u => .ub u
  | s, .call (.throw m) :: ops => do
    let (rs, s'') ← cProgram upd meth s ops
    .ok (.raised m :: rs, s'')
  | _, .call (.ub u) :: _ => .ub u

theorem feed_program {upd : σ → Dbl → Res σ} (P : σ → Prop)
    (hupd : ∀ s x, P s → (∀ m, upd s x ≠ .throw m) ∧ ∀ s', upd s x = .ok s' → P s') (s : σ) (hs : P s) (vs : List PyVal) :
    (∃ s', P s' ∧ updateAll upd s (PyVal.goodPrefix PyVal.asDouble vs) = .ok s' ∧
      PyVal.feed PyVal.asDouble upd s vs =
        ((match PyVal.firstError vs with | none => .ok () | some m => .throw m), s')) ∨
    ∃ u, updateAll upd s (PyVal.goodPrefix PyVal.asDouble vs) = .ub u ∧
      (PyVal.feed PyVal.asDouble upd s vs).1 = .ub u := by
  induction vs generalizing s with
  | nil => exact .inl ⟨s, hs, rfl, rfl⟩
  | cons v vs ih =>
    unfold PyVal.feed PyVal.goodPrefix PyVal.firstError
    cases hc : v.asDouble with
    | throw m => exact .inl ⟨s, hs, rfl, rfl⟩
    | ub u => exact absurd hc (v.asDouble_not_ub u)
    | ok b =>
      simp only
      cases hu : upd s b with
      | throw m => exact absurd hu ((hupd s b hs).1 m)
      | ub u => exact .inr ⟨u, by simp [updateAll, hu], rfl⟩
      | ok s1 =>
        simp only [updateAll, hu, Res.ok_bind]
        exact ih s1 ((hupd s b hs).2 s1 hu)

/-- A session of Python calls does what the C++ program does, if `update` does not throw in any state with the property `P` and
all calls keep `P`. -/
theorem session_of_inv (upd : σ → Dbl → Res σ) (meth : σ → κ → Res (ρ × σ)) (P : σ → Prop)
    (hupd : ∀ s x, P s → (∀ m, upd s x ≠ .throw m) ∧ ∀ s', upd s x = .ok s' → P s')
    (hmeth : ∀ s c r s', P s → meth s c = .ok (r, s') → P s') (s : σ) (hs : P s)
    (ops : List (Py.GOp κ)) : runCalls (Py.gstep upd meth) s ops = cProgram upd meth s ops := by
  induction ops generalizing s with
  | nil => rfl
  | cons o ops ih =>
    cases o with
    | update v =>
      have hv : PyVal.update PyVal.asDouble upd s v = PyVal.feed PyVal.asDouble upd s v.items := by
        unfold PyVal.update PyVal.items
        cases v.elements <;> rfl
      rcases feed_program P hupd s hs v.items with ⟨s', hs', h1, h2⟩ | ⟨u, h1, h2⟩
      · simp only [runCalls, cProgram, Py.gstep, hv, h1, h2, Res.ok_bind]
        cases PyVal.firstError v.items with
        | none => simp only [Res.ok_bind, ih s' hs']
        | some m => simp only [Res.ok_bind, ih s' hs']
      · simp only [runCalls, cProgram, Py.gstep, hv, h1, Res.ub_bind]
        generalize PyVal.feed PyVal.asDouble upd s v.items = r at h2
        obtain ⟨r, s'⟩ := r
        simp only at h2
        subst h2
        rfl
    | call c =>
      cases c with
      | ok c =>
        simp only [runCalls, cProgram, Py.gstep]
        cases hm : meth s c with
        | ok p =>
          obtain ⟨r, s'⟩ := p
          simp only [Res.ok_bind, ih s' (hmeth s c r s' hs hm)]
        | throw m => simp only [Res.ok_bind, ih s hs]
        | ub u => rfl
      | throw m => simp only [runCalls, cProgram, Py.gstep, Res.ok_bind, ih s hs]
      | ub u => rfl

/-- **C80**, every wrapper: a session of Python calls does exactly what the C++ program does: the same results, the same
exceptions, the same object afterwards, undefined behaviour exactly where it has it. (For classes whose C++ `update` does not
throw.) -/
theorem C80_session (upd : σ → Dbl → Res σ) (meth : σ → κ → Res (ρ × σ)) (hupd : ∀ s x m, upd s x ≠ .throw m) (s : σ)
    (ops : List (Py.GOp κ)) : runCalls (Py.gstep upd meth) s ops = cProgram upd meth s ops :=
  session_of_inv upd meth (fun _ => True) (fun s x _ => ⟨hupd s x, fun _ _ => trivial⟩) (fun _ _ _ _ _ _ => trivial) s trivial
    ops

/-- The numbers a session gives to `update`, in order. -/
def given : List (Py.GOp κ) → List Dbl
  | [] => []
  | .update v :: ops => PyVal.goodPrefix PyVal.asDouble v.items ++ given ops
  | .call _ :: ops => given ops

theorem updateAll_append_ok {α : Type} {upd : σ → α → Res σ} {s s1 : σ} {xs ys : List α} (h : updateAll upd s xs = .ok s1) :
    updateAll upd s (xs ++ ys) = updateAll upd s1 ys := by
  induction xs generalizing s with
  | nil => injection h with h; subst h; rfl
  | cons x xs ih =>
    obtain ⟨s2, h1, h2⟩ := Res.bind_eq_ok.1 h
    simp only [List.cons_append, updateAll, h1, Res.ok_bind]
    exact ih h2

theorem updateAll_total {α : Type} {upd : σ → α → Res σ} (P : σ → Prop) (hP : ∀ s x, P s → ∃ s', upd s x = .ok s' ∧ P s')
    (s : σ) (hs : P s) (xs : List α) : ∃ s', updateAll upd s xs = .ok s' ∧ P s' := by
  induction xs generalizing s with
  | nil => exact ⟨s, rfl, hs⟩
  | cons x xs ih =>
    obtain ⟨s1, h1, h2⟩ := hP s x hs
    obtain ⟨s', h3, h4⟩ := ih s1 h2
    exact ⟨s', by simp only [updateAll, h1, Res.ok_bind, h3], h4⟩

/-- A session of a statistic whose calls all succeed and whose `evaluate` changes nothing. -/
theorem stat_session (upd : σ → Dbl → Res σ) (ev : σ → Dbl) (hupd : ∀ s x m, upd s x ≠ .throw m) (P : σ → Prop)
    (hP : ∀ s x, P s → ∃ s', upd s x = .ok s' ∧ P s') (s : σ) (hs : P s) (ops : List (Py.GOp Unit))
    (hops : ∀ u, .call (.ub u) ∉ ops) :
    ∃ outs s', updateAll upd s (given ops) = .ok s' ∧ outs.length = ops.length ∧
      runCalls (Py.gstep upd fun s (_ : Unit) => .ok (ev s, s)) s (ops ++ [.call (.ok ())]) =
        .ok (outs ++ [.value (ev s')], s') := by
  rw [C80_session _ _ hupd]
  induction ops generalizing s with
  | nil => exact ⟨[], s, rfl, rfl, rfl⟩
  | cons o ops ih =>
    have hops' : ∀ u, Py.GOp.call (.ub u) ∉ ops := fun u h => hops u (List.mem_cons_of_mem _ h)
    cases o with
    | update v =>
      obtain ⟨s1, h1, h2⟩ := updateAll_total P hP s hs (PyVal.goodPrefix PyVal.asDouble v.items)
      obtain ⟨outs, s', h3, h4, h5⟩ := ih s1 h2 hops'
      refine ⟨(match PyVal.firstError v.items with
        | none => Py.GOut.done
        | some m => .raised m) :: outs, s', ?_, by simp [h4], ?_⟩
      · rw [given, updateAll_append_ok h1, h3]
      · simp only [List.cons_append, cProgram, h1, Res.ok_bind, h5]
    | call c =>
      obtain ⟨outs, s', h3, h4, h5⟩ := ih s hs hops'
      cases c with
      | ok c => exact ⟨.value (ev s) :: outs, s', h3, by simp [h4], by simp only [List.cons_append, cProgram, h5, Res.ok_bind]⟩
      | throw m => exact ⟨.raised m :: outs, s', h3, by simp [h4], by simp only [List.cons_append, cProgram, h5, Res.ok_bind]⟩
      | ub u => exact absurd List.mem_cons_self (hops u)

end

theorem Mean.update_ne_throw {F : Type} (A : Arith F) (m : Mean F) (x : F) (e : String) : m.update A x ≠ .throw e := by
  unfold Mean.update
  split
  · split
    · split <;> simp
    · simp
  · simp

theorem Variance.update_ne_throw {F : Type} (A : Arith F) (v : Variance F) (x : F) (e : String) :
    v.update A x ≠ .throw e := by
  unfold Variance.update
  cases h : v.mean.update A x with
  | throw e => exact absurd h (Mean.update_ne_throw A _ _ _)
  | ub u => simp
  | ok m =>
    cases h2 : v.sumSquared.update A (A.mul x x) with
    | throw e => exact absurd h2 (Mean.update_ne_throw A _ _ _)
    | ub u => simp
    | ok m => simp

/-- **C80**, PyStreamingMean: `evaluate()` after any session returns the C++ mean of the numbers given so far, in order. -/
theorem C80_mean (W : ℕ) (ops : List (Py.GOp Unit)) (hops : ∀ u, .call (.ub u) ∉ ops) :
    ∃ outs m, updateAll (Mean.update Dbl.arith) (Mean.new Dbl.arith W) (given ops) = .ok m ∧ outs.length = ops.length ∧
      Py.meanRun (Mean.new Dbl.arith W) (ops ++ [.call (.ok ())]) = .ok (outs ++ [.value (m.evaluate Dbl.arith)], m) := by
  refine stat_session _ _ (Mean.update_ne_throw _) (fun m => ∃ xs, Mean.Inv W xs m) ?_ _ ⟨[], Mean.inv_new _ W⟩ ops hops
  rintro m x ⟨xs, h⟩
  obtain ⟨m', h1, h2⟩ := Mean.update_spec Dbl.arith h x
  exact ⟨m', h1, _, h2.1⟩

/-- **C80**, PyStreamingVariance. -/
theorem C80_variance (W : ℕ) (ops : List (Py.GOp Unit)) (hops : ∀ u, .call (.ub u) ∉ ops) :
    ∃ outs v, updateAll (Variance.update Dbl.arith) (Variance.new Dbl.arith W) (given ops) = .ok v ∧
      outs.length = ops.length ∧
      Py.varianceRun (Variance.new Dbl.arith W) (ops ++ [.call (.ok ())]) =
        .ok (outs ++ [.value (v.evaluate Dbl.arith)], v) := by
  refine stat_session _ _ (Variance.update_ne_throw _)
    (fun v => (∃ xs, Mean.Inv W xs v.mean) ∧ ∃ xs, Mean.Inv W xs v.sumSquared) ?_ _
    ⟨⟨[], Mean.inv_new _ W⟩, ⟨[], Mean.inv_new _ W⟩⟩ ops hops
  rintro v x ⟨⟨xs, h⟩, ⟨ys, h'⟩⟩
  obtain ⟨m, h1, h2⟩ := Mean.update_spec Dbl.arith h x
  obtain ⟨m', h3, h4⟩ := Mean.update_spec Dbl.arith h' (Dbl.arith.mul x x)
  exact ⟨{ v with mean := m, sumSquared := m' }, by simp only [Variance.update, h1, h3, Res.ok_bind], ⟨_, h2.1⟩, ⟨_, h4.1⟩⟩

/-- **C80**, PyWindowedFAME. -/
theorem C80_fame (f : Fame Dbl) (ops : List (Py.GOp Unit)) (hops : ∀ u, .call (.ub u) ∉ ops) :
    ∃ outs, outs.length = ops.length ∧ Py.fameRun f (ops ++ [.call (.ok ())]) =
      .ok (outs ++ [.value ((given ops).foldl (Fame.update Dbl.arith) f).evaluate],
        (given ops).foldl (Fame.update Dbl.arith) f) := by
  obtain ⟨outs, f', h1, h2, h3⟩ := stat_session (fun (f : Fame Dbl) x => .ok (f.update Dbl.arith x)) Fame.evaluate
    (by simp) (fun _ => True) (fun f x _ => ⟨_, rfl, trivial⟩) f trivial ops hops
  have key : ∀ (xs : List Dbl) (f : Fame Dbl),
      updateAll (fun (f : Fame Dbl) x => .ok (f.update Dbl.arith x)) f xs = .ok (xs.foldl (Fame.update Dbl.arith) f) := by
    intro xs
    induction xs with
    | nil => intro f; rfl
    | cons x xs ih => intro f; simp only [updateAll, Res.ok_bind, ih, List.foldl_cons]
  rw [key] at h1
  injection h1 with h1
  subst h1
  exact ⟨outs, h2, h3⟩

/-- **C80**, PyStreamingMAD. -/
theorem C80_mad (m : Mad Dbl) (ops : List (Py.GOp Unit)) (hops : ∀ u, .call (.ub u) ∉ ops) :
    ∃ outs, outs.length = ops.length ∧ Py.madRun m (ops ++ [.call (.ok ())]) =
      .ok (outs ++ [.value ((given ops).foldl (Mad.update Dbl.arith) m).evaluate],
        (given ops).foldl (Mad.update Dbl.arith) m) := by
  obtain ⟨outs, f', h1, h2, h3⟩ := stat_session (fun (f : Mad Dbl) x => .ok (f.update Dbl.arith x)) Mad.evaluate
    (by simp) (fun _ => True) (fun f x _ => ⟨_, rfl, trivial⟩) m trivial ops hops
  have key : ∀ (xs : List Dbl) (f : Mad Dbl),
      updateAll (fun (f : Mad Dbl) x => .ok (f.update Dbl.arith x)) f xs = .ok (xs.foldl (Mad.update Dbl.arith) f) := by
    intro xs
    induction xs with
    | nil => intro f; rfl
    | cons x xs ih => intro f; simp only [updateAll, Res.ok_bind, ih, List.foldl_cons]
  rw [key] at h1
  injection h1 with h1
  subst h1
  exact ⟨outs, h2, h3⟩

theorem P2.update_ne_throw {F : Type} (A : Arith F) (p : P2 F) (x : F) (e : String) : p.update A x ≠ .throw e := by
  unfold P2.update
  split
  · simp
  · split <;> simp

theorem P2.evaluate_ne_throw {F : Type} (A : Arith F) (p : P2 F) (e : String) : p.evaluate A ≠ .throw e := by
  unfold P2.evaluate
  split
  · simp only
    split
    · simp
    · split <;> simp
  · simp

theorem WP2.update_ne_throw {F : Type} (A : Arith F) (w : WP2 F) (x : F) (e : String) : w.update A x ≠ .throw e := by
  unfold WP2.update
  cases h : w.p2.update A x with
  | throw e => exact absurd h (P2.update_ne_throw A _ _ _)
  | ub u => simp
  | ok p =>
    simp only [Res.ok_bind]
    split
    · split
      · cases h2 : p.evaluate A with
        | throw e => exact absurd h2 (P2.evaluate_ne_throw A _ _)
        | _ => simp
      · simp
    · simp

theorem IQR.update_ne_throw {F : Type} (A : Arith F) (q : IQR F) (x : F) (e : String) : q.update A x ≠ .throw e := by
  unfold IQR.update
  cases h : q.low.update A x with
  | throw e => exact absurd h (WP2.update_ne_throw A _ _ _)
  | ub u => simp
  | ok l =>
    cases h2 : q.high.update A x with
    | throw e => exact absurd h2 (WP2.update_ne_throw A _ _ _)
    | _ => simp

theorem Hist.searchLoop_ne_throw {F : Type} (A : Arith F) (bins : List (Bin F)) (b : Bin F) (e : String) :
    ∀ fuel low high index, Hist.searchLoop A bins b fuel low high index ≠ .throw e := by
  intro fuel
  induction fuel with
  | zero => intro l h i; unfold Hist.searchLoop; split <;> simp
  | succ n ih =>
    intro l h i
    unfold Hist.searchLoop
    split
    · split
      · simp
      · split
        · exact ih _ _ _
        · exact ih _ _ _
    · simp

theorem Hist.update_ne_throw {F : Type} (A : Arith F) (h : Hist F) (x : F) (e : String) : h.update A x ≠ .throw e := by
  have hadd : h.add A x ≠ .throw e := by
    unfold Hist.add
    cases h1 : h.binSearch A x with
    | throw e => exact absurd h1 (Hist.searchLoop_ne_throw A _ _ _ _ _ _ _)
    | ub u => simp
    | ok i =>
      simp only [Res.ok_bind]
      have : ∀ m, h.place A x i ≠ .throw m := by
        intro m
        unfold Hist.place
        simp only
        repeat' split
        all_goals simp
      cases h2 : h.place A x i with
      | throw e => exact absurd h2 (this e)
      | ub u => simp
      | ok h' =>
        simp only [Res.ok_bind]
        unfold Hist.decayCounts
        split
        · split
          · simp
          · split <;> simp
        · simp
  unfold Hist.update
  cases h1 : h.add A x with
  | throw m => intro h2; rw [Res.throw_bind] at h2; injection h2 with h2; subst h2; exact hadd h1
  | ub u => simp
  | ok h' =>
    simp only [Res.ok_bind]
    split
    · have : ∀ m, Hist.mergeBins A h'.bins (Hist.mergeIndex A h'.bins) (Hist.mergeIndex A h'.bins + 1) ≠ .throw m := by
        intro m
        unfold Hist.mergeBins
        split
        · simp
        · simp only
          split <;> simp
      cases h2 : Hist.mergeBins A h'.bins (Hist.mergeIndex A h'.bins) (Hist.mergeIndex A h'.bins + 1) with
      | throw m => exact absurd h2 (this m)
      | _ => simp
    · simp

/-- **C80**, the quantile estimators (whose `evaluate()` may reorder the first five observations) and the histogram: every
session is the C++ program. -/
theorem C80_quantiles_histogram :
    (∀ (p : P2 Dbl) ops, Py.quantileRun p ops = cProgram (P2.update Dbl.arith) (fun p _ => p.evaluate Dbl.arith) p ops) ∧
    (∀ (p : WP2 Dbl) ops,
      Py.windowedQuantileRun p ops = cProgram (WP2.update Dbl.arith) (fun p _ => p.evaluate Dbl.arith) p ops) ∧
    (∀ (p : IQR Dbl) ops, Py.iqrRun p ops = cProgram (IQR.update Dbl.arith) (fun p _ => p.evaluate Dbl.arith) p ops) ∧
    ∀ (h : Hist Dbl) ops, Py.histRun h ops = cProgram (Hist.update Dbl.arith) Py.histCall h ops :=
  ⟨fun p ops => C80_session _ _ (P2.update_ne_throw _) p ops, fun p ops => C80_session _ _ (WP2.update_ne_throw _) p ops,
    fun p ops => C80_session _ _ (IQR.update_ne_throw _) p ops, fun h ops => C80_session _ _ (Hist.update_ne_throw _) h ops⟩

/-- **C80**, the histogram: what every call of `PyStreamingHistogram` returns and does to the object, in terms of the C++ methods.
Only `reset()` changes it. -/
theorem C80_histogram_calls (h : Hist Dbl) :
    (∀ n d, Py.histRun h [.call (.ok (.pdf n d))] = .ok ([.value (.doubles (h.pdf Dbl.arith n d))], h)) ∧
    (∀ n, Py.histRun h [.call (.ok (.cdf n))] = .ok ([.value (.doubles (h.cdf Dbl.arith n))], h)) ∧
    (∀ q x, h.quantile Dbl.arith q = .ok x → Py.histRun h [.call (.ok (.quantile q))] = .ok ([.value (.double x)], h)) ∧
    (∀ q m, h.quantile Dbl.arith q = .throw m → Py.histRun h [.call (.ok (.quantile q))] = .ok ([.raised m], h)) ∧
    (∀ q u, h.quantile Dbl.arith q = .ub u → Py.histRun h [.call (.ok (.quantile q))] = .ub u) ∧
    (Py.histRun h [.call (.ok .binCounts)] = .ok ([if (h.bins.map Bin.count).sum = h.total then .value (.counts (h.bins.map Bin.count))
      else .raised "Counts are somehow out of sync!"], h)) ∧
    Py.histRun h [.call (.ok .report)] = .ok ([.value (.map (h.report Dbl.arith))], h) ∧
    Py.histRun h [.call (.ok .reset)] = .ok ([.value .none], h.reset) ∧
    Py.histRun h [.call (.ok .empty)] = .ok ([.value (.bool (h.bins.length == 0))], h) ∧
    Py.histRun h [.call (.ok .full)] = .ok ([.value (.bool (h.bins.length != 0))], h) ∧
    Py.histRun h [.call (.ok .size)] = .ok ([.value (.num h.bins.length)], h) := by
  refine ⟨fun _ _ => rfl, fun _ => rfl, ?_, ?_, ?_, ?_, rfl, rfl, rfl, rfl, rfl⟩
  · intro q x hq
    simp [Py.histRun, runCalls, Py.gstep, Py.histCall, hq]
  · intro q m hq
    simp [Py.histRun, runCalls, Py.gstep, Py.histCall, hq]
  · intro q u hq
    simp [Py.histRun, runCalls, Py.gstep, Py.histCall, hq]
  · simp only [Py.histRun, runCalls, Py.gstep, Py.histCall, Hist.binCounts]
    by_cases hs : (h.bins.map Bin.count).sum = h.total
    · simp [hs]
    · simp [hs]

/-- a reset session: the bins are gone, `cdf` without normalization counts -/
example : (match Py.histRun (Hist.new 5 5) [.update (.list [.int 3, .int 1, .int 3]), .call (.ok (.cdf false)), .call (.ok .reset),
      .call (.ok .size)] with
    | .ok (outs, _) => decide (outs = [.done, .value (.doubles [.fin 1, .fin 3]), .value .none, .value (.num 0)])
    | _ => false) = true := by decide +kernel

/-- a mean session with scalars, an iterable with a bad item (4 is not added) and an early `evaluate()` -/
example : ∃ outs m, Py.meanRun (Mean.new Dbl.arith 2)
    ([.update (.int 7), .call (.ok ()), .update (.list [.int 1, .float (.fin 2), .none, .int 4])] ++ [.call (.ok ())]) =
      .ok (outs ++ [.value (.fin (3 / 2))], m) := by
  obtain ⟨outs, m, h1, -, h3⟩ := C80_mean 2
    [.update (.int 7), .call (.ok ()), .update (.list [.int 1, .float (.fin 2), .none, .int 4])] (by simp)
  refine ⟨outs, m, ?_⟩
  rw [h3]
  have hg : given ([.update (.int 7), .call (.ok ()), .update (.list [.int 1, .float (.fin 2), .none, .int 4])] :
      List (Py.GOp Unit)) = [.fin 7, .fin 1, .fin 2] := by decide +kernel
  rw [hg] at h1
  have : (match updateAll (Mean.update Dbl.arith) (Mean.new Dbl.arith 2) [.fin 7, .fin 1, .fin 2] with
      | .ok m => decide (m.evaluate Dbl.arith = .fin (3 / 2))
      | _ => false) = true := by decide +kernel
  rw [h1] at this
  rw [of_decide_eq_true this]

/-- a histogram session: a level that is no number and one outside [0, 1] raise, the session goes on -/
example : (match Py.histRun (Hist.new 5 5) [.update (.list [.int 3, .int 1, .int 3]), .call (.ok .binCounts),
      .call (do let q ← (PyVal.str "a").asDouble; .ok (.quantile q)), .call (.ok (.quantile (.fin 2))), .call (.ok .size)] with
    | .ok (outs, _) => decide (outs = [.done, .value (.counts [1, 2]), .raised "TypeError",
        .raised "Percentile must be in closed range [0, 1]!", .value (.num 2)])
    | _ => false) = true := by decide +kernel

/-! ## C81: which arguments construct an object -/

/-- `v` is a Python number with the value `d` as a `double`. -/
def PyVal.IsNumber (v : PyVal) (d : Dbl) : Prop := v = .float d ∨ ∃ n : ℤ, v = .int n ∧ d = .fin (rnd64 n) ∧ |rnd64 n| ≤ dblMax

/-- Strictly between 0 and 1. -/
def Dbl.IsLevel (d : Dbl) : Prop := ∃ q : ℚ, d = .fin q ∧ 0 < q ∧ q < 1

/-- **C81**, the full property: the constructors succeed exactly for the documented arguments. -/
def C81_full [Cython] : Prop :=
  (∀ v, (Py.quantile v).IsOk ↔ ∃ d, v.IsNumber d ∧ d.IsLevel) ∧
  (∀ v w, (Py.windowedQuantile v w).IsOk ↔ (∃ d, v.IsNumber d ∧ d.IsLevel) ∧ ∃ W, w.IsWindow W) ∧
  (∀ v w, (Py.fame v w).IsOk ↔ (∃ d, v.IsNumber d) ∧ ∃ d, w.IsNumber d ∧ ∃ q : ℚ, d = .fin q ∧ 0 ≤ q ∧ q < 1) ∧
  ∀ L w n, (∃ W, w.IsWindow W) → (∃ N, n.IsWindow N) → (Py.entropy L w n).IsOk

/-- **C81** is violated: NaN is accepted as a quantile. -/
theorem C81_violated [Cython] : ¬ C81_full := by
  rintro ⟨h, -⟩
  obtain ⟨d, h1, q, rfl, -⟩ := (h (.float .nan)).1 (by
    show (P2.new Dbl.arith .nan).IsOk
    unfold P2.new
    rw [if_neg (by decide +kernel)]
    exact ⟨_, rfl⟩)
  rcases h1 with h1 | ⟨n, h1, -⟩
  · injection h1 with h1; cases h1
  · cases h1

theorem PyVal.asDouble_ok {v : PyVal} {d : Dbl} : v.asDouble = .ok d ↔ v.IsNumber d := by
  constructor
  · intro h
    cases v with
    | int n =>
      right
      unfold PyVal.asDouble Dbl.ofRat at h
      simp only at h
      refine ⟨n, rfl, ?_⟩
      by_cases hn : (2 ^ 53 - 1) * 2 ^ 971 < |rnd64 n|
      · rw [if_pos hn] at h; cases h
      · rw [if_neg hn] at h
        injection h with h
        exact ⟨h.symm, not_lt.1 hn⟩
    | float e => injection h with h; subst h; exact .inl rfl
    | _ => cases h
  · rintro (rfl | ⟨n, rfl, rfl, h⟩)
    · rfl
    · unfold PyVal.asDouble Dbl.ofRat
      simp only [dblMax] at h
      simp only [if_neg (not_lt.2 h)]

theorem PyVal.asDouble_cases (v : PyVal) : (∃ d, v.asDouble = .ok d) ∨ ∃ m, v.asDouble = .throw m := by
  cases h : v.asDouble with
  | ok d => exact .inl ⟨d, rfl⟩
  | throw m => exact .inr ⟨m, rfl⟩
  | ub u => exact absurd h (v.asDouble_not_ub u)

/-- `v` is accepted for a parameter annotated `Optional[float]` and has the value `d`: if annotations are checked, integers
are not. -/
def PyVal.IsArgument [Cython] (v : PyVal) (d : Dbl) : Prop := v.IsNumber d ∧ (Cython.checkFloat = true → v = .float d)

theorem PyVal.asDoubleArg_ok [Cython] {v : PyVal} {d : Dbl} : v.asDoubleArg = .ok d ↔ v.IsArgument d := by
  unfold PyVal.IsArgument
  rw [← PyVal.asDouble_ok]
  cases v with
  | int n =>
    unfold PyVal.asDoubleArg
    simp only
    cases Cython.checkFloat <;> simp
  | float e =>
    simp only [PyVal.asDoubleArg, PyVal.asDouble, Res.ok.injEq, PyVal.float.injEq]
    exact ⟨fun h => ⟨h, fun _ => h⟩, And.left⟩
  | _ => simp [PyVal.asDoubleArg, PyVal.asDouble]

theorem PyVal.asDoubleArg_cases [Cython] (v : PyVal) : (∃ d, v.asDoubleArg = .ok d) ∨ ∃ m, v.asDoubleArg = .throw m := by
  unfold PyVal.asDoubleArg
  split
  · split
    · exact .inr ⟨_, rfl⟩
    · exact PyVal.asDouble_cases _
  · exact PyVal.asDouble_cases _

theorem Dbl.ofRat_zero : Dbl.ofRat 0 = .fin 0 := by decide +kernel
theorem Dbl.ofRat_one : Dbl.ofRat 1 = .fin 1 := by decide +kernel

theorem P2.new_dbl_ok_iff (d : Dbl) : (P2.new Dbl.arith d).IsOk ↔ d = .nan ∨ d.IsLevel := by
  have key : (P2.new Dbl.arith d).IsOk ↔
      (Dbl.le d (.fin 0) || Dbl.le (.fin 1) d) = false := by
    show (if (Dbl.le d (Dbl.ofRat 0) || Dbl.le (Dbl.ofRat 1) d) = true then _ else _ : Res (P2 Dbl)).IsOk ↔ _
    rw [Dbl.ofRat_zero, Dbl.ofRat_one]
    split
    · rename_i h; rw [h]; simp [Res.IsOk]
    · rename_i h; simpa [Res.IsOk] using h
  rw [key]
  cases d with
  | nan => simp [Dbl.le, Dbl.lt, Dbl.eq]
  | inf s => cases s <;> simp [Dbl.le, Dbl.lt, Dbl.eq, Dbl.IsLevel]
  | fin q =>
    simp only [Dbl.le, Dbl.lt, Dbl.eq, Dbl.IsLevel, reduceCtorEq, false_or, Dbl.fin.injEq, exists_eq_left',
      Bool.or_eq_false_iff, decide_eq_false_iff_not, not_lt]
    constructor
    · rintro ⟨⟨h1, h2⟩, h3, h4⟩
      exact ⟨lt_of_le_of_ne h1 (Ne.symm h2), lt_of_le_of_ne h3 (Ne.symm h4)⟩
    · rintro ⟨h1, h2⟩
      exact ⟨⟨h1.le, h1.ne'⟩, h2.le, h2.ne'⟩

theorem Fame.new_dbl_ok_iff (s e : Dbl) : (Fame.new Dbl.arith s e).IsOk ↔ e = .nan ∨ ∃ q : ℚ, e = .fin q ∧ 0 ≤ q ∧ q < 1 := by
  have key : (Fame.new Dbl.arith s e).IsOk ↔ (Dbl.lt e (.fin 0) || Dbl.le (.fin 1) e) = false := by
    show (if (Dbl.lt e (Dbl.ofRat 0) || Dbl.le (Dbl.ofRat 1) e) = true then _ else _ : Res (Fame Dbl)).IsOk ↔ _
    rw [Dbl.ofRat_zero, Dbl.ofRat_one]
    split
    · rename_i h; rw [h]; simp [Res.IsOk]
    · rename_i h; simpa [Res.IsOk] using h
  rw [key]
  cases e with
  | nan => simp [Dbl.le, Dbl.lt, Dbl.eq]
  | inf s => cases s <;> simp [Dbl.le, Dbl.lt, Dbl.eq]
  | fin q =>
    simp only [Dbl.le, Dbl.lt, Dbl.eq, reduceCtorEq, false_or, Dbl.fin.injEq, exists_eq_left',
      Bool.or_eq_false_iff, decide_eq_false_iff_not, not_lt]
    constructor
    · rintro ⟨h1, h3, h4⟩
      exact ⟨h1, lt_of_le_of_ne h3 (Ne.symm h4)⟩
    · rintro ⟨h1, h2⟩
      exact ⟨h1, h2.le, h2.ne'⟩

/-- **C81**, PyStreamingP2Quantile: constructed exactly for the numbers strictly between 0 and 1, and NaN. -/
theorem C81_quantile_partial [Cython] (v : PyVal) :
    ((Py.quantile v).IsOk ↔ ∃ d, v.IsArgument d ∧ (d = .nan ∨ d.IsLevel)) ∧ ((Py.quantile v).IsOk ∨ (Py.quantile v).IsThrow) := by
  rcases v.asDoubleArg_cases with ⟨d, h⟩ | ⟨m, h⟩
  · have e : Py.quantile v = P2.new Dbl.arith d := by unfold Py.quantile; rw [h]; rfl
    rw [e, P2.new_dbl_ok_iff]
    constructor
    · refine ⟨fun hd => ⟨d, PyVal.asDoubleArg_ok.1 h, hd⟩, ?_⟩
      rintro ⟨d', h', hd⟩
      rw [PyVal.asDoubleArg_ok.2 h'] at h
      injection h with h; subst h; exact hd
    · rw [← P2.new_dbl_ok_iff]
      unfold P2.new
      split
      · exact .inr ⟨_, rfl⟩
      · exact .inl ⟨_, rfl⟩
  · have e : Py.quantile v = .throw m := by unfold Py.quantile; rw [h]; rfl
    rw [e]
    refine ⟨⟨fun h => (by obtain ⟨_, h⟩ := h; cases h), ?_⟩, .inr ⟨_, rfl⟩⟩
    rintro ⟨d', h', -⟩
    rw [PyVal.asDoubleArg_ok.2 h'] at h; cases h

/-- **C81**, PyWindowedP2Quantile: the same, with an integer window from 0 to `2 ^ 64 - 1`. -/
theorem C81_windowed_partial [Cython] (v w : PyVal) : (Py.windowedQuantile v w).IsOk ↔
    (∃ d, v.IsNumber d ∧ (d = .nan ∨ d.IsLevel)) ∧ ∃ W, w.GivesWindow W := by
  unfold Py.windowedQuantile
  constructor
  · rintro ⟨o, h⟩
    obtain ⟨d, h1, h⟩ := Res.bind_eq_ok.1 h
    obtain ⟨W, h2, h⟩ := Res.bind_eq_ok.1 h
    obtain ⟨p, h3, -⟩ := Res.bind_eq_ok.1 h
    exact ⟨⟨d, PyVal.asDouble_ok.1 h1, (P2.new_dbl_ok_iff d).1 ⟨p, h3⟩⟩, W, PyVal.asUInt64_ok.1 h2⟩
  · rintro ⟨⟨d, h1, h2⟩, W, h3⟩
    obtain ⟨p, hp⟩ := (P2.new_dbl_ok_iff d).2 h2
    rw [PyVal.asDouble_ok.2 h1, PyVal.asUInt64_ok.2 h3]
    simp only [Res.ok_bind, WP2.new, hp]
    exact ⟨_, rfl⟩

/-- **C81**, PyWindowedFAME: any number as step (also zero, negative or NaN), epsilon in [0, 1) or NaN. -/
theorem C81_fame_partial [Cython] (v w : PyVal) : (Py.fame v w).IsOk ↔
    (∃ d, v.IsArgument d) ∧ ∃ d, w.IsArgument d ∧ (d = .nan ∨ ∃ q : ℚ, d = .fin q ∧ 0 ≤ q ∧ q < 1) := by
  unfold Py.fame
  constructor
  · rintro ⟨o, h⟩
    obtain ⟨d, h1, h⟩ := Res.bind_eq_ok.1 h
    obtain ⟨e, h2, h⟩ := Res.bind_eq_ok.1 h
    exact ⟨⟨d, PyVal.asDoubleArg_ok.1 h1⟩, e, PyVal.asDoubleArg_ok.1 h2, (Fame.new_dbl_ok_iff d e).1 ⟨o, h⟩⟩
  · rintro ⟨⟨d, h1⟩, e, h2, h3⟩
    rw [PyVal.asDoubleArg_ok.2 h1, PyVal.asDoubleArg_ok.2 h2]
    exact (Fame.new_dbl_ok_iff d e).2 h3

/-- **C81**, PyStreamingEntropy and PyStreamingHistogram: constructed exactly for integers from 0 to `2 ^ 64 - 1`, except
that the entropy of window 0 with 0 bins is undefined behaviour. -/
theorem C81_entropy_histogram_partial [Cython] (L : LArith Dbl) (v w : PyVal) :
    ((Py.entropy L v w).IsOk ↔ ∃ W N, v.GivesWindow W ∧ w.GivesWindow N ∧ ¬ (W = 0 ∧ N = 0)) ∧
    ((Py.histogram v w).IsOk ↔ ∃ N W, v.GivesWindow N ∧ w.GivesWindow W) := by
  constructor
  · unfold Py.entropy
    constructor
    · rintro ⟨o, h⟩
      obtain ⟨W, h1, h⟩ := Res.bind_eq_ok.1 h
      obtain ⟨N, h2, h⟩ := Res.bind_eq_ok.1 h
      refine ⟨W, N, PyVal.asUInt64_ok.1 h1, PyVal.asUInt64_ok.1 h2, ?_⟩
      rintro ⟨rfl, rfl⟩
      cases h
    · rintro ⟨W, N, h1, h2, h3⟩
      rw [PyVal.asUInt64_ok.2 h1, PyVal.asUInt64_ok.2 h2]
      simp only [Res.ok_bind, Entropy.new]
      by_cases hN : N = 0
      · have hW : W ≠ 0 := fun h => h3 ⟨h, hN⟩
        simp only [hN, hW, if_true, if_false]
        exact ⟨_, rfl⟩
      · simp only [hN, if_false]
        exact ⟨_, rfl⟩
  · unfold Py.histogram
    constructor
    · rintro ⟨o, h⟩
      obtain ⟨N, h1, h⟩ := Res.bind_eq_ok.1 h
      obtain ⟨W, h2, h⟩ := Res.bind_eq_ok.1 h
      exact ⟨N, W, PyVal.asUInt64_ok.1 h1, PyVal.asUInt64_ok.1 h2⟩
    · rintro ⟨N, W, h1, h2⟩
      rw [PyVal.asUInt64_ok.2 h1, PyVal.asUInt64_ok.2 h2]
      exact ⟨_, rfl⟩

/-- **C81**, the arguments are used: an object that was constructed has exactly the parameters it was given, converted, and has
seen nothing. -/
theorem C81_arguments_partial [Cython] (L : LArith Dbl) (v w : PyVal) :
    (∀ p, Py.quantile v = .ok p → v.IsArgument p.quantile ∧ p.historyCount = 0) ∧
    (∀ p, Py.windowedQuantile v w = .ok p → v.IsNumber p.p2.quantile ∧ w.GivesWindow p.windowSize ∧ p.historyCount = 0 ∧
      p.p2.historyCount = 0) ∧
    (∀ f, Py.fame v w = .ok f → v.IsArgument f.stepSize ∧ w.IsArgument f.epsilon ∧ f.historyCount = 0) ∧
    (∀ e, Py.entropy L v w = .ok e → v.GivesWindow e.windowSize ∧ v.GivesWindow e.hist.windowSize ∧
      (w.GivesWindow e.hist.numBins ∨ w.GivesWindow 0 ∧ e.hist.numBins = L.ceilNat (L.log2 (L.ofNat e.windowSize)) + 1) ∧
      e.historyCount = 0 ∧ e.hist.bins = []) ∧
    (∀ h, Py.histogram v w = .ok h → v.GivesWindow h.numBins ∧ w.GivesWindow h.windowSize ∧ h.bins = [] ∧ h.total = 0) ∧
    (∀ b, Py.ringBuffer v = .ok b → v.GivesWindow b.windowSize ∧ b.historyCount = 0) ∧
    (∀ l, Py.linkedList v = .ok l → v.GivesWindow l.windowSize ∧ l.historyCount = 0) ∧
    (∀ m, Py.mean v = .ok m → v.GivesWindow m.windowSize ∧ m.historyCount = 0) ∧
    ∀ m, Py.variance v = .ok m → v.GivesWindow m.mean.windowSize ∧ v.GivesWindow m.sumSquared.windowSize ∧ m.mean.historyCount = 0 := by
  have hP : ∀ {d : Dbl} {p : P2 Dbl}, P2.new Dbl.arith d = .ok p → p.quantile = d ∧ p.historyCount = 0 := by
    intro d p h
    unfold P2.new at h
    split at h
    · cases h
    · injection h with h; subst h; exact ⟨rfl, rfl⟩
  refine ⟨?_, ?_, ?_, ?_, ?_, ?_, ?_, ?_, ?_⟩
  · intro p h
    obtain ⟨d, h1, h⟩ := Res.bind_eq_ok.1 h
    obtain ⟨e1, e2⟩ := hP h
    exact ⟨e1 ▸ PyVal.asDoubleArg_ok.1 h1, e2⟩
  · intro p h
    obtain ⟨d, h1, h⟩ := Res.bind_eq_ok.1 h
    obtain ⟨W, h2, h⟩ := Res.bind_eq_ok.1 h
    obtain ⟨q, h3, h⟩ := Res.bind_eq_ok.1 h
    injection h with h; subst h
    obtain ⟨e1, e2⟩ := hP h3
    exact ⟨e1 ▸ PyVal.asDouble_ok.1 h1, PyVal.asUInt64_ok.1 h2, rfl, e2⟩
  · intro f h
    obtain ⟨d, h1, h⟩ := Res.bind_eq_ok.1 h
    obtain ⟨e, h2, h⟩ := Res.bind_eq_ok.1 h
    unfold Fame.new at h
    split at h
    · cases h
    · injection h with h; subst h
      exact ⟨PyVal.asDoubleArg_ok.1 h1, PyVal.asDoubleArg_ok.1 h2, rfl⟩
  · intro e h
    obtain ⟨W, h1, h⟩ := Res.bind_eq_ok.1 h
    obtain ⟨N, h2, h⟩ := Res.bind_eq_ok.1 h
    simp only [Entropy.new] at h
    split at h
    · rename_i hN
      subst hN
      split at h
      · cases h
      · injection h with h; subst h
        exact ⟨PyVal.asUInt64_ok.1 h1, PyVal.asUInt64_ok.1 h1, .inr ⟨PyVal.asUInt64_ok.1 h2, Nat.max_eq_right (Nat.zero_le _)⟩, rfl, rfl⟩
    · injection h with h; subst h
      exact ⟨PyVal.asUInt64_ok.1 h1, PyVal.asUInt64_ok.1 h1, .inl (PyVal.asUInt64_ok.1 h2), rfl, rfl⟩
  · intro o h
    obtain ⟨N, h1, h⟩ := Res.bind_eq_ok.1 h
    obtain ⟨W, h2, h⟩ := Res.bind_eq_ok.1 h
    injection h with h; subst h
    exact ⟨PyVal.asUInt64_ok.1 h1, PyVal.asUInt64_ok.1 h2, rfl, rfl⟩
  all_goals
    intro o h
    obtain ⟨W, h1, h⟩ := Res.bind_eq_ok.1 h
    injection h with h; subst h
    first
    | exact ⟨PyVal.asUInt64_ok.1 h1, rfl⟩
    | exact ⟨PyVal.asUInt64_ok.1 h1, PyVal.asUInt64_ok.1 h1, rfl⟩

/-- seven bins, window 3 -/
example [Cython] : ∃ h, Py.histogram (.int 7) (.int 3) = .ok h ∧ h.numBins = 7 ∧ h.windowSize = 3 := ⟨_, rfl, rfl, rfl⟩

/-- **C81**: NaN is accepted as epsilon too, and the entropy of window 0 with the default bins is undefined behaviour. -/
theorem C81_others_violated [Cython] (L : LArith Dbl) :
    (Py.fame (.float (.fin 1)) (.float .nan)).IsOk ∧ Py.entropy L (.int 0) (.int 0) = .ub .badConv :=
  ⟨(C81_fame_partial _ _).2 ⟨⟨_, .inl rfl, fun _ => rfl⟩, .nan, ⟨.inl rfl, fun _ => rfl⟩, .inl rfl⟩, rfl⟩

example : PyVal.IsNumber (.int 3) (.fin 3) := PyVal.asDouble_ok.1 (by decide +kernel)
example [Cython] : (Py.quantile (.float (.fin (1 / 2)))).IsOk :=
  (C81_quantile_partial _).1.2 ⟨_, ⟨.inl rfl, fun _ => rfl⟩, .inr ⟨1 / 2, rfl, by norm_num, by norm_num⟩⟩
example [Cython] : (Py.quantile (.int 1)).IsThrow := by
  refine ((C81_quantile_partial (.int 1)).2).resolve_left ?_
  rw [(C81_quantile_partial _).1]
  rintro ⟨d, ⟨h, -⟩, hd⟩
  have : (PyVal.int 1).asDouble = .ok (.fin 1) := by decide +kernel
  rw [PyVal.asDouble_ok.2 h] at this
  injection this with this
  subst this
  rcases hd with hd | ⟨q, hq, -, h1⟩
  · cases hd
  · injection hq with hq; subst hq; exact lt_irrefl _ h1

/-! ## C119: window sizes that are no integers -/

/-- The constructors that take a window size or a number of bins, applied to `v`. -/
def fromWindow [Cython] (L : LArith Dbl) (v : PyVal) : List (Res Unit) :=
  [(Py.ringBuffer v).bind fun _ => .ok (), (Py.linkedList v).bind fun _ => .ok (), (Py.mean v).bind fun _ => .ok (),
    (Py.variance v).bind fun _ => .ok (), (Py.windowedQuantile (.float (.fin (1 / 2))) v).bind fun _ => .ok (),
    (Py.iqr .none .none v).bind fun _ => .ok (), (Py.entropy L v (.int 1)).bind fun _ => .ok (),
    (Py.entropy L (.int 1) v).bind fun _ => .ok (), (Py.histogram v (.int 1)).bind fun _ => .ok (),
    (Py.histogram (.int 1) v).bind fun _ => .ok ()]

/-- **C119**, the full property: a window size or a number of bins that is no integer raises an exception, with every Cython. -/
def C119_full : Prop := ∀ [Cython] (L : LArith Dbl) (v : PyVal), (∀ n, v ≠ .int n) → ∀ r ∈ fromWindow L v, r.IsThrow

/-- **C119** is violated by a Cython that does not check annotations: `PyRingBuffer(2.5)` has room for two items, and
`PyStreamingMean(-0.5)` is a mean with window 0. -/
theorem C119_violated : ¬ C119_full ∧
    (let _ : Cython := ⟨false, false⟩
     Py.ringBuffer (.float (.fin (5 / 2))) = .ok (RingBuffer.new 2) ∧
     Py.mean (.float (.fin (-1 / 2))) = .ok (Mean.new Dbl.arith 0)) := by
  have h2 : @Py.ringBuffer ⟨false, false⟩ (.float (.fin (5 / 2))) = .ok (RingBuffer.new 2) :=
    ((@C71_window_partial ⟨false, false⟩ _).1 2 (.inr ⟨rfl, 5 / 2, rfl, .inl (by norm_num), by norm_num, by norm_num⟩)).1
  refine ⟨?_, h2, ?_⟩
  · intro h
    obtain ⟨m, h⟩ := @h ⟨false, false⟩ ⟨Dbl.arith, id, id, fun _ => 0⟩ (.float (.fin (5 / 2))) (fun n h => by cases h) _
      (List.mem_cons_self ..)
    rw [h2] at h
    cases h
  · exact ((@C71_window_partial ⟨false, false⟩ _).1 0
      (.inr ⟨rfl, -1 / 2, rfl, .inr ⟨rfl, by norm_num⟩, by norm_num, by norm_num⟩)).2.2.1

/-- **C119**, what holds: everything but integers and `float`s raises, and so does a `float` if annotations are checked, or
if it is NaN, infinite, at most -1 or at least `2 ^ 64`. The other `float`s act as their integer part. -/
theorem C119_partial [Cython] (L : LArith Dbl) (v : PyVal) (hv : ∀ n, v ≠ .int n) :
    ((Cython.checkInt = true ∨ ∀ q : ℚ, v = .float (.fin q) → q ≤ -1 ∨ 2 ^ 64 ≤ q) → ∀ r ∈ fromWindow L v, r.IsThrow) ∧
    ∀ q : ℚ, v = .float (.fin q) → Cython.checkInt = false → -1 < q → q < 2 ^ 64 →
      Py.ringBuffer v = Py.ringBuffer (.int ⌊max q 0⌋) ∧ Py.linkedList v = Py.linkedList (.int ⌊max q 0⌋) ∧
      Py.mean v = Py.mean (.int ⌊max q 0⌋) ∧ Py.variance v = Py.variance (.int ⌊max q 0⌋) ∧
      (∀ l, Py.windowedQuantile l v = Py.windowedQuantile l (.int ⌊max q 0⌋)) ∧
      (∀ l h, Py.iqr l h v = Py.iqr l h (.int ⌊max q 0⌋)) ∧
      (∀ w, Py.entropy L v w = Py.entropy L (.int ⌊max q 0⌋) w ∧ Py.entropy L w v = Py.entropy L w (.int ⌊max q 0⌋) ∧
        Py.histogram v w = Py.histogram (.int ⌊max q 0⌋) w ∧ Py.histogram w v = Py.histogram w (.int ⌊max q 0⌋)) := by
  constructor
  · intro h
    obtain ⟨m, hm⟩ : ∃ m, v.asUInt64 = .throw m := by
      rcases v.asUInt64_cases with ⟨W, hW⟩ | h'
      · exfalso
        rcases PyVal.asUInt64_ok.1 hW with ⟨h1, -⟩ | ⟨hc, q, h1, h2, h3, h4⟩
        · exact hv _ h1
        · rcases h with h | h
          · rw [h] at hc; cases hc
          · rcases h q h1 with h | h
            · rcases h2 with h2 | ⟨-, h2⟩
              · have : (0 : ℚ) ≤ W := Nat.cast_nonneg W
                linarith
              · linarith
            · have : ((W + 1 : ℕ) : ℚ) ≤ ((2 ^ 64 : ℕ) : ℚ) := by exact_mod_cast h4
              push_cast at this
              linarith
      · exact h'
    intro r hr
    simp only [fromWindow, Py.ringBuffer, Py.linkedList, Py.mean, Py.variance, Py.windowedQuantile, Py.iqr, Py.entropy,
      Py.histogram, hm] at hr
    simp only [List.mem_cons, List.not_mem_nil, or_false] at hr
    rcases hr with rfl | rfl | rfl | rfl | rfl | rfl | rfl | rfl | rfl | rfl <;> exact ⟨m, rfl⟩
  · rintro q rfl hc h1 h2
    obtain ⟨W, hW⟩ : ∃ W : ℕ, ⌊max q 0⌋ = W := ⟨_, (Int.toNat_of_nonneg (Int.floor_nonneg.2 (le_max_right _ _))).symm⟩
    have hb := Int.floor_eq_iff.1 hW
    push_cast at hb
    have hlt : W < 2 ^ 64 := by
      have : (W : ℚ) < 2 ^ 64 := lt_of_le_of_lt hb.1 (max_lt h2 (by norm_num))
      exact_mod_cast this
    have e1 : (PyVal.float (.fin q)).asUInt64 = .ok W := by
      refine PyVal.asUInt64_ok.2 (.inr ⟨hc, q, rfl, ?_, lt_of_le_of_lt (le_max_left _ _) hb.2, hlt⟩)
      rcases le_total 0 q with h | h
      · rw [max_eq_left h] at hb; exact .inl hb.1
      · rw [max_eq_right h] at hb
        right
        refine ⟨?_, h1⟩
        have : (W : ℚ) ≤ 0 := hb.1
        exact_mod_cast (le_antisymm this (Nat.cast_nonneg W))
    have e2 : (PyVal.int ⌊max q 0⌋).asUInt64 = .ok W := PyVal.asUInt64_ok.2 (.inl ⟨by rw [hW], hlt⟩)
    simp [Py.ringBuffer, Py.linkedList, Py.mean, Py.variance, Py.windowedQuantile, Py.iqr, Py.entropy, Py.histogram, e1, e2]

/-- 7.9 bins are seven bins; infinitely many raise -/
example : (let _ : Cython := ⟨false, false⟩
    Py.histogram (.float (.fin (79 / 10))) (.int 3) = Py.histogram (.int 7) (.int 3)) := by
  have h := ((@C119_partial ⟨false, false⟩ ⟨Dbl.arith, id, id, fun _ => 0⟩ (.float (.fin (79 / 10))) (fun n h => by cases h)).2
    (79 / 10) rfl rfl (by norm_num) (by norm_num)).2.2.2.2.2.2 (.int 3)
  have e : ⌊max (79 / 10 : ℚ) 0⌋ = 7 := by rw [Int.floor_eq_iff]; norm_num
  rw [e] at h
  exact h.2.2.1

example [Cython] (L : LArith Dbl) : ∀ r ∈ fromWindow L (.float (.inf false)), r.IsThrow :=
  (C119_partial L _ (fun n h => by cases h)).1 (.inr fun q h => by cases h)

end KML
