import Verif.Lemmas.Python
import Verif.Props.LinkedList
import Verif.Props.RingBuffer

/-!
# C69, C71–C73: the Python wrappers
-/

namespace KML

/-! ## C69: what the Python containers return -/

/-- The queue operations a Python call stands for, items being added as `conv` converts them. -/
def pyFlat (conv : PyVal → Res Dbl) : Py.Op → List (COp Dbl)
  | .update v =>
    match v.elements with
    | some vs => (PyVal.goodPrefix conv vs).map .update
    | none => (PyVal.goodPrefix conv [v]).map .update
  | .pop => [.pop]
  | .reset => [.reset]
  | .size => [.size]
  | .empty => [.empty]
  | .full => [.full]

/-- The values returned (by `pop`, `size`, `empty` and `full`). -/
def answers (outs : List (COut Dbl)) : List (COut Dbl) := outs.filter (· ≠ .unit)

/-- The values returned, of a session of Python calls. -/
def pyAnswers (outs : List Py.Out) : List (COut Dbl) :=
  answers (outs.filterMap fun o => match o with
    | .value r => some r
    | .raised _ => none)

theorem answers_cons (r : COut Dbl) (rs : List (COut Dbl)) :
    answers (r :: rs) = answers [r] ++ answers rs := by
  simp only [answers, List.filter_cons, List.filter_nil]
  split <;> simp

theorem answers_append (r rs : List (COut Dbl)) : answers (r ++ rs) = answers r ++ answers rs :=
  List.filter_append ..

theorem pyAnswers_value (r : COut Dbl) (rs : List Py.Out) :
    pyAnswers (.value r :: rs) = answers [r] ++ pyAnswers rs := by
  rw [pyAnswers, List.filterMap_cons, answers_cons]; rfl

theorem pyAnswers_raised (m : String) (rs : List Py.Out) : pyAnswers (.raised m :: rs) = pyAnswers rs := by
  rw [pyAnswers, List.filterMap_cons]; rfl

theorem runCalls_append {σ ο ρ : Type} {step : σ → ο → Res (ρ × σ)} {s s' : σ} {l1 l2 : List ο} {rs : List ρ}
    (h : runCalls step s (l1 ++ l2) = .ok (rs, s')) :
    ∃ r1 s1 r2, runCalls step s l1 = .ok (r1, s1) ∧ runCalls step s1 l2 = .ok (r2, s') ∧ rs = r1 ++ r2 := by
  induction l1 generalizing s rs with
  | nil => exact ⟨[], s, rs, rfl, h, rfl⟩
  | cons o os ih =>
    rw [List.cons_append] at h
    obtain ⟨⟨r, s1⟩, h1, h⟩ := Res.bind_eq_ok.1 h
    obtain ⟨⟨rs', s2⟩, h2, h⟩ := Res.bind_eq_ok.1 h
    injection h with h; injection h with ha hb; subst ha; subst hb
    obtain ⟨r1, s3, r2, h3, h4, h5⟩ := ih h2
    refine ⟨r :: r1, s3, r2, ?_, h4, by rw [h5]; rfl⟩
    rw [runCalls, h1]; simp only [Res.ok_bind]; rw [h3]; rfl

theorem updates_run {σ : Type} {cstep : σ → COp Dbl → Res (COut Dbl × σ)}
    (hunit : ∀ s x r s', cstep s (.update x) = .ok (r, s') → r = .unit) (xs : List Dbl) {s s' : σ}
    {rs : List (COut Dbl)} (h : runCalls cstep s (xs.map .update) = .ok (rs, s')) :
    answers rs = [] ∧
      xs.foldlM (fun s x => do let (_, s') ← cstep s (.update x); .ok s') s = Res.ok s' := by
  induction xs generalizing s rs with
  | nil => injection h with h; injection h with ha hb; subst ha; subst hb; exact ⟨rfl, rfl⟩
  | cons x xs ih =>
    obtain ⟨⟨r, s1⟩, h1, h⟩ := Res.bind_eq_ok.1 h
    obtain ⟨⟨rs', s2⟩, h2, h⟩ := Res.bind_eq_ok.1 h
    injection h with h; injection h with ha hb; subst ha; subst hb
    obtain ⟨h3, h4⟩ := ih h2
    have := hunit _ _ _ _ h1
    subst this
    refine ⟨by rw [answers_cons, h3]; rfl, ?_⟩
    rw [List.foldlM_cons]
    simp only [h1, Res.ok_bind]
    exact h4

/-- A Python session on a wrapper does to the C++ object exactly the flattened calls. -/
theorem py_session {σ : Type} {cstep : σ → COp Dbl → Res (COut Dbl × σ)}
    (hunit : ∀ s x r s', cstep s (.update x) = .ok (r, s') → r = .unit) (ops : List Py.Op) {s s' : σ}
    {rs : List (COut Dbl)} (h : runCalls cstep s (ops.flatMap (pyFlat PyVal.asFloat)) = .ok (rs, s')) :
    ∃ outs, runCalls (Py.step cstep) s ops = .ok (outs, s') ∧ pyAnswers outs = answers rs := by
  induction ops generalizing s rs with
  | nil => injection h with h; injection h with ha hb; subst ha; subst hb; exact ⟨[], rfl, rfl⟩
  | cons o os ih =>
    rw [List.flatMap_cons] at h
    obtain ⟨r1, s1, r2, h1, h2, rfl⟩ := runCalls_append h
    obtain ⟨outs, ho, ha⟩ := ih h2
    have simple : ∀ o', pyFlat PyVal.asFloat o = [o'] →
        Py.step cstep s o = (do let (r, s') ← cstep s o'; .ok (.value r, s')) →
        ∃ outs, runCalls (Py.step cstep) s (o :: os) = .ok (outs, s') ∧ pyAnswers outs = answers (r1 ++ r2) := by
      intro o' e1 e2
      rw [e1] at h1
      obtain ⟨⟨r, s2⟩, h3, h4⟩ := Res.bind_eq_ok.1 h1
      injection h4 with h4; injection h4 with hx hy; subst hx; subst hy
      refine ⟨.value r :: outs, ?_, ?_⟩
      · rw [runCalls, e2, h3]; simp only [Res.ok_bind]; rw [ho]; rfl
      · rw [pyAnswers_value, ha, answers_append]
    cases o with
    | update v =>
      obtain ⟨vs, hvs, hup⟩ : ∃ vs, pyFlat PyVal.asFloat (.update v) = (PyVal.goodPrefix PyVal.asFloat vs).map .update ∧
          ∀ upd : σ → Dbl → Res σ, PyVal.update PyVal.asFloat upd s v = PyVal.feed PyVal.asFloat upd s vs := by
        cases hv : v.elements with
        | some vs => exact ⟨vs, by simp only [pyFlat, hv], fun _ => by simp only [PyVal.update, hv]⟩
        | none => exact ⟨[v], by simp only [pyFlat, hv], fun _ => by simp only [PyVal.update, hv]⟩
      rw [hvs] at h1
      obtain ⟨h3, h4⟩ := updates_run hunit _ h1
      have h5 := PyVal.feed_prefix (conv := PyVal.asFloat) s vs h4
      have h6 := PyVal.feed_not_ub (conv := PyVal.asFloat) s vs PyVal.asFloat_not_ub h4
      have key : ∃ o, Py.step cstep s (.update v) = .ok (o, s1) ∧ pyAnswers [o] = [] := by
        unfold Py.step
        simp only
        rw [hup]
        generalize PyVal.feed PyVal.asFloat (fun s x => do let (_, s') ← cstep s (.update x); Res.ok s') s vs = res
          at h5 h6
        obtain ⟨r, s3⟩ := res
        simp only at h5 h6
        subst h5
        cases r with
        | ok _ => exact ⟨_, rfl, rfl⟩
        | throw m => exact ⟨_, rfl, rfl⟩
        | ub u => exact absurd rfl (h6 u)
      obtain ⟨o, hk1, hk2⟩ := key
      refine ⟨o :: outs, ?_, ?_⟩
      · rw [runCalls, hk1]; simp only [Res.ok_bind]; rw [ho]; rfl
      · rw [answers_append, h3, ← ha]
        cases o with
        | value r => rw [pyAnswers_value] at hk2 ⊢; simp only [List.nil_append]
                     rw [show answers [r] = [] by simpa [pyAnswers, answers] using hk2]; rfl
        | raised m => rw [pyAnswers_raised]; rfl
    | pop => exact simple .pop rfl rfl
    | reset => exact simple .reset rfl rfl
    | size => exact simple .size rfl rfl
    | empty => exact simple .empty rfl rfl
    | full => exact simple .full rfl rfl

/-- `d` is the value of a Python `float`. -/
def Dbl.IsDouble : Dbl → Prop
  | .fin q => Dbl.ofRat q = .fin q
  | _ => True

/-- **C69**, the full property: a float put in is the float that comes out. -/
def C69_full : Prop := ∀ (W : ℕ) (d : Dbl), 1 ≤ W → d.IsDouble →
  (∃ b, Py.ringRun (RingBuffer.new W) [.update (.float d), .pop] = .ok ([.value .unit, .value (.val d)], b)) ∧
  (∃ l, Py.listRun (LinkedList.new W) [.update (.float d), .pop] = .ok ([.value .unit, .value (.val d)], l))

/-- **C69** is violated by 0.1: what comes out is 0.1 rounded to 24 bits. -/
theorem C69_violated : ¬ C69_full := by
  intro h
  obtain ⟨⟨b, hb⟩, -⟩ := h 1 (.fin (rnd64 (1 / 10))) le_rfl
    (by show Dbl.ofRat _ = _; decide +kernel)
  have h2 : (Py.ringRun (RingBuffer.new 1) [.update (.float (.fin (rnd64 (1 / 10)))), .pop]).IsOk ∧
      ∀ r, Py.ringRun (RingBuffer.new 1) [.update (.float (.fin (rnd64 (1 / 10)))), .pop] = .ok r →
        r.1 = [.value .unit, .value (.val (.fin (13421773 / 134217728)))] := by
    refine ⟨⟨_, rfl⟩, ?_⟩
    intro r hr
    injection hr with hr
    subst hr
    decide +kernel
  have h3 : ([.value .unit, .value (.val (.fin (rnd64 (1 / 10))))] : List Py.Out) = _ := h2.2 _ hb
  revert h3
  decide +kernel

/-- **C69**, PyRingBuffer: over every session of Python calls (scalars, iterables, conversion errors), the values
returned are those of a queue of capacity `W` holding the given values narrowed to `float`. -/
theorem C69_ring_partial (W : ℕ) (hW : 1 ≤ W) (ops : List Py.Op) :
    ∃ outs b, Py.ringRun (RingBuffer.new W) ops = .ok (outs, b) ∧
      pyAnswers outs = answers (boundedQueueOutputs (.fin 0) W (ops.flatMap (pyFlat PyVal.asFloat))) := by
  obtain ⟨b, h⟩ := C01_ringbuffer_is_bounded_fifo W hW (Dbl.fin 0) (ops.flatMap (pyFlat PyVal.asFloat))
  obtain ⟨outs, h1, h2⟩ := py_session (fun s x r s' h => by
    obtain ⟨_, -, h⟩ := Res.bind_eq_ok.1 h
    injection h with h; injection h with h; exact h.symm) ops h
  exact ⟨outs, b, h1, h2⟩

/-- **C69**, PyLinkedList: the same, for sessions without `reset` of an empty list (which crashes, C10); `full()` is "not
empty" (C12). -/
theorem C69_list_partial (W : ℕ) (ops : List Py.Op)
    (hreset : noEmptyReset (listCap W) [] (ops.flatMap (pyFlat PyVal.asFloat))) :
    ∃ outs l, Py.listRun (LinkedList.new W) ops = .ok (outs, l) ∧
      pyAnswers outs = answers (listOutputs (.fin 0) W [] (ops.flatMap (pyFlat PyVal.asFloat))) := by
  obtain ⟨l, h, -⟩ := ((LinkedList.rep_new (α := Dbl) (W := W)).run (.fin 0) _).1 hreset
  obtain ⟨outs, h1, h2⟩ := py_session (fun s x r s' h => by
    obtain ⟨_, -, h⟩ := Res.bind_eq_ok.1 h
    injection h with h; injection h with h; exact h.symm) ops h
  exact ⟨outs, l, h1, h2⟩

/-- **C69**, values that survive: NaN, infinities, and numbers `m * 2 ^ k` with 24-bit `m` in the range of `float`; in
particular all integers below `2 ^ 24`. -/
theorem C69_exact_partial (m k : ℤ) (hm : |m| < 2 ^ 24) (hk : -149 ≤ k) (hmax : |(m : ℚ) * pow2 k| ≤ fltMax) :
    (Dbl.fin (m * pow2 k)).narrow = .fin (m * pow2 k) ∧ Dbl.nan.narrow = .nan ∧ ∀ s, (Dbl.inf s).narrow = .inf s := by
  refine ⟨?_, rfl, fun _ => rfl⟩
  unfold Dbl.narrow
  simp only [rnd32_repr m k hm hk, if_neg (not_lt.2 hmax)]

/-- **C69**, all others: in the normal range of `float` the value changes by at most one part in `2 ^ 24`, and what comes
out survives another round. -/
theorem C69_error_partial (q : ℚ) (h1 : pow2 (-126) ≤ |q|) (h2 : |rnd32 q| ≤ fltMax) :
    ∃ r, (Dbl.fin q).narrow = .fin r ∧ |r - q| ≤ |q| / 2 ^ 24 ∧ (Dbl.fin r).narrow = .fin r := by
  refine ⟨rnd32 q, ?_, rnd32_rel h1, ?_⟩
  · unfold Dbl.narrow
    simp only [if_neg (not_lt.2 h2)]
  · unfold Dbl.narrow
    simp only [rnd32_idem, if_neg (not_lt.2 h2)]

/-- **C69** for sessions whose values all survive: the values returned are those of a queue of the values as given. -/
theorem C69_ring_exact_partial (W : ℕ) (hW : 1 ≤ W) (ops : List Py.Op)
    (hex : ops.flatMap (pyFlat PyVal.asFloat) = ops.flatMap (pyFlat PyVal.asDouble)) :
    ∃ outs b, Py.ringRun (RingBuffer.new W) ops = .ok (outs, b) ∧
      pyAnswers outs = answers (boundedQueueOutputs (.fin 0) W (ops.flatMap (pyFlat PyVal.asDouble))) := by
  rw [← hex]; exact C69_ring_partial W hW ops

/-- a session with scalars, an iterable with a bad item, wrap-around and pops -/
example : ∃ outs b, Py.ringRun (RingBuffer.new 2)
    [.update (.int 1), .update (.list [.float (.fin (1 / 2)), .int 7, .none, .int 9]), .pop, .size, .pop, .pop] =
      .ok (outs, b) ∧ pyAnswers outs = [.val (.fin (1 / 2)), .num 1, .val (.fin 7), .val (.fin 0)] := by
  obtain ⟨outs, b, h1, h2⟩ := C69_ring_exact_partial 2 (by norm_num)
    [.update (.int 1), .update (.list [.float (.fin (1 / 2)), .int 7, .none, .int 9]), .pop, .size, .pop, .pop]
    (by decide +kernel)
  refine ⟨outs, b, h1, ?_⟩
  rw [h2]
  decide +kernel

example : (Dbl.fin 16777215).narrow = .fin 16777215 := by
  simpa [show pow2 0 = 1 from rfl] using (C69_exact_partial 16777215 0 (by norm_num) (by norm_num)
    (by rw [show pow2 0 = 1 from rfl]; norm_num [fltMax, abs_of_pos])).1

example : ∃ r, (Dbl.fin (1 / 10)).narrow = .fin r ∧ |r - 1 / 10| ≤ |(1 / 10 : ℚ)| / 2 ^ 24 ∧ (Dbl.fin r).narrow = .fin r :=
  C69_error_partial (1 / 10) (by decide +kernel) (by decide +kernel)

/-- `PyLinkedList`: eviction, reset of a non-empty list and reuse -/
example : ∃ outs l, Py.listRun (LinkedList.new 2)
    [.update (.list [.int 1, .int 2, .int 3]), .pop, .reset, .update (.int 5), .pop] = .ok (outs, l) ∧
      pyAnswers outs = [.val (.fin 2), .val (.fin 5)] := by
  obtain ⟨outs, l, h1, h2⟩ := C69_list_partial 2
    [.update (.list [.int 1, .int 2, .int 3]), .pop, .reset, .update (.int 5), .pop]
    (by
      have : ([.update (.list [.int 1, .int 2, .int 3]), .pop, .reset, .update (.int 5), .pop] : List Py.Op).flatMap
          (pyFlat PyVal.asFloat) = [.update (.fin 1), .update (.fin 2), .update (.fin 3), .pop, .reset,
            .update (.fin 5), .pop] := by decide +kernel
      rw [this]
      simp [noEmptyReset, listCap, Spec.push])
  exact ⟨outs, l, h1, by rw [h2]; decide +kernel⟩

/-! ## C71: construction from Python -/

/-- **C71**, the full property: `None`, the documented default window, constructs every class that takes a window. -/
def C71_full [Cython] : Prop :=
  (Py.ringBuffer .none).IsOk ∧ (Py.linkedList .none).IsOk ∧ (Py.mean .none).IsOk ∧ (Py.variance .none).IsOk ∧
    (Py.windowedQuantile (.float (.fin (1 / 2))) .none).IsOk ∧ (Py.iqr .none .none .none).IsOk

/-- **C71** is violated by each of them, with every Cython: `TypeError`. -/
theorem C71_violated [Cython] : ¬ C71_full ∧ Py.ringBuffer .none = .throw "TypeError" ∧ Py.linkedList .none = .throw "TypeError" ∧
    Py.mean .none = .throw "TypeError" ∧ Py.variance .none = .throw "TypeError" ∧
    Py.windowedQuantile (.float (.fin (1 / 2))) .none = .throw "TypeError" ∧
    Py.iqr .none .none .none = .throw "TypeError" := by
  refine ⟨?_, rfl, rfl, rfl, rfl, rfl, rfl⟩
  rintro ⟨⟨_, h⟩, -⟩
  cases h

/-- A window size that C++ receives unchanged. -/
def PyVal.IsWindow (v : PyVal) (W : ℕ) : Prop := v = .int W ∧ W < 2 ^ 64

/-- A `float` whose integer part is `W`. -/
def PyVal.IsFraction (v : PyVal) (W : ℕ) : Prop :=
  ∃ q : ℚ, v = .float (.fin q) ∧ (W ≤ q ∨ W = 0 ∧ -1 < q) ∧ q < W + 1 ∧ W < 2 ^ 64

/-- What is converted to the window size `W`: that integer, and, unless annotations are checked, a `float` with that integer
part. -/
def PyVal.GivesWindow [Cython] (v : PyVal) (W : ℕ) : Prop := v.IsWindow W ∨ Cython.checkInt = false ∧ v.IsFraction W

theorem PyVal.asUInt64_ok [Cython] {v : PyVal} {W : ℕ} : v.asUInt64 = .ok W ↔ v.GivesWindow W := by
  constructor
  · intro h
    obtain ⟨n, h1, h⟩ := Res.bind_eq_ok.1 h
    split at h
    · rename_i hn
      injection h with h
      subst h
      cases v with
      | int m =>
        injection h1 with h1
        subst h1
        exact .inl ⟨by rw [Int.toNat_of_nonneg hn.1], by omega⟩
      | float d =>
        unfold PyVal.asInt at h1
        simp only at h1
        cases hc : Cython.checkInt with
        | true => rw [hc] at h1; cases h1
        | false =>
          rw [hc] at h1
          cases d with
          | nan => cases h1
          | inf s => cases h1
          | fin q =>
            simp only [Bool.false_eq_true, if_false, Res.ok.injEq] at h1
            refine .inr ⟨hc, q, rfl, ?_⟩
            have hcast : ((n.toNat : ℕ) : ℚ) = (n : ℚ) := by exact_mod_cast Int.toNat_of_nonneg hn.1
            rw [hcast]
            split at h1
            · have e : ⌊q⌋ = n := h1
              obtain ⟨e1, e2⟩ := Int.floor_eq_iff.1 e
              exact ⟨.inl e1, e2, by omega⟩
            · rename_i hq
              have e : ⌈q⌉ = n := h1
              obtain ⟨e1, e2⟩ := Int.ceil_eq_iff.1 e
              have : n = 0 := by
                have : (n : ℚ) < 1 := by linarith
                have : n < 1 := by exact_mod_cast this
                omega
              subst this
              exact ⟨.inr ⟨rfl, by simpa using e1⟩, by push_cast; linarith, by simp⟩
      | _ => cases h1
    · cases h
  · have key : ∀ n : ℤ, 0 ≤ n → n < 2 ^ 64 → n.toNat = W → v.asInt = .ok n → v.asUInt64 = .ok W := by
      intro n h0 h1 h2 h
      unfold PyVal.asUInt64
      rw [h]
      simp only [Res.ok_bind]
      rw [if_pos ⟨h0, h1⟩, h2]
    rintro (⟨rfl, h⟩ | ⟨hc, q, rfl, h1, h2, h3⟩)
    · exact key W (by omega) (by exact_mod_cast h) (by simp) rfl
    · have hi : (PyVal.float (.fin q)).asInt = .ok (if 0 ≤ q then ⌊q⌋ else ⌈q⌉) := by
        unfold PyVal.asInt
        simp only [hc, Bool.false_eq_true, if_false, Res.ok.injEq]
        split <;> rfl
      have hn : (if 0 ≤ q then ⌊q⌋ else ⌈q⌉) = (W : ℤ) := by
        split
        · rename_i h0
          rw [Int.floor_eq_iff]
          rcases h1 with h1 | ⟨rfl, h1⟩
          · exact ⟨by exact_mod_cast h1, by exact_mod_cast h2⟩
          · exact ⟨by simpa using h0, by simpa using h2⟩
        · rename_i h0
          rw [Int.ceil_eq_iff]
          rcases h1 with h1 | ⟨rfl, h1⟩
          · exact absurd ((Nat.cast_nonneg W).trans h1) h0
          · exact ⟨by simpa using h1, by simpa using (not_le.1 h0).le⟩
      rw [hn] at hi
      exact key W (by omega) (by exact_mod_cast h3) (by simp) hi

theorem PyVal.asInt_cases [Cython] (v : PyVal) : (∃ n, v.asInt = .ok n) ∨ ∃ m, v.asInt = .throw m := by
  unfold PyVal.asInt
  split
  · exact .inl ⟨_, rfl⟩
  · split
    · exact .inr ⟨_, rfl⟩
    · split
      · exact .inr ⟨_, rfl⟩
      · exact .inr ⟨_, rfl⟩
      · exact .inl ⟨_, rfl⟩
  · exact .inr ⟨_, rfl⟩

theorem PyVal.asUInt64_cases [Cython] (v : PyVal) : (∃ W, v.asUInt64 = .ok W) ∨ ∃ m, v.asUInt64 = .throw m := by
  unfold PyVal.asUInt64
  rcases v.asInt_cases with ⟨n, h⟩ | ⟨m, h⟩
  · rw [h]
    simp only [Res.ok_bind]
    split
    · exact .inl ⟨_, rfl⟩
    · exact .inr ⟨_, rfl⟩
  · rw [h]; exact .inr ⟨_, rfl⟩

/-- **C71**, what holds: the containers, the mean and the variance are constructed exactly for the integers from 0 to
`2 ^ 64 - 1`, with that window (and for `float`s with such an integer part, if annotations are not checked); every other
argument raises an exception. -/
theorem C71_window_partial [Cython] (v : PyVal) :
    (∀ W, v.GivesWindow W → Py.ringBuffer v = .ok (RingBuffer.new W) ∧ Py.linkedList v = .ok (LinkedList.new W) ∧
      Py.mean v = .ok (Mean.new Dbl.arith W) ∧ Py.variance v = .ok (Variance.new Dbl.arith W)) ∧
    ((¬ ∃ W, v.GivesWindow W) → (Py.ringBuffer v).IsThrow ∧ (Py.linkedList v).IsThrow ∧ (Py.mean v).IsThrow ∧
      (Py.variance v).IsThrow) := by
  constructor
  · intro W h
    have := PyVal.asUInt64_ok.2 h
    simp [Py.ringBuffer, Py.linkedList, Py.mean, Py.variance, this]
  · intro h
    obtain ⟨m, hm⟩ : v.asUInt64.IsThrow := by
      rcases v.asUInt64_cases with ⟨W, hW⟩ | h'
      · exact absurd ⟨W, PyVal.asUInt64_ok.1 hW⟩ h
      · exact h'
    simp [Py.ringBuffer, Py.linkedList, Py.mean, Py.variance, hm, Res.IsThrow]

example : PyVal.IsWindow (.int 5) 5 := ⟨rfl, by norm_num⟩
example : ¬ ∃ W, PyVal.IsWindow (.int (-1)) W := by rintro ⟨W, h, -⟩; injection h with h; omega

/-! ## C72: failing updates -/

/-- **C72**, the full property: an `update` that raises leaves the object as it was. -/
def C72_full : Prop := ∀ (b : RingBuffer Dbl) (v : PyVal) (m : String),
  (PyVal.update PyVal.asFloat RingBuffer.update b v).1 = .throw m →
    (PyVal.update PyVal.asFloat RingBuffer.update b v).2 = b

/-- **C72** is violated: `update([1, None])` adds 1 and raises `TypeError`. -/
theorem C72_violated : ¬ C72_full := by
  intro h
  have := h (RingBuffer.new 2) (.list [.int 1, .none]) "TypeError" (by decide +kernel)
  have h2 := congrArg RingBuffer.size this
  revert h2
  decide +kernel

section

variable {σ β : Type} (conv : PyVal → Res β) (upd : σ → β → Res σ)

/-- **C72**, every wrapper: a failing `update` of a single value leaves the object as it was. -/
theorem C72_scalar_partial (s : σ) (v : PyVal) (hv : v.elements = none)
    (h : (PyVal.update conv upd s v).1 ≠ .ok ()) : (PyVal.update conv upd s v).2 = s := by
  unfold PyVal.update at h ⊢
  rw [hv] at h ⊢
  simp only [PyVal.feed] at h ⊢
  cases hc : conv v with
  | ok b =>
    rw [hc] at h
    simp only at h ⊢
    cases hu : upd s b with
    | ok s' => rw [hu] at h; exact absurd rfl h
    | _ => rfl
  | _ => rfl

/-- The calls `update(v)` one at a time, up to the first that fails. -/
def oneByOne : σ → List PyVal → Res Unit × σ
  | s, [] => (.ok (), s)
  | s, v :: vs =>
    match PyVal.update conv upd s v with
    | (.ok _, s') => oneByOne s' vs
    | r => r

/-- **C72**, every wrapper: `update` of an iterable of single values is `update` of each until the first failure, and the
items before the failure stay. -/
theorem C72_iterable_partial (s : σ) (vs : List PyVal) (hv : ∀ v ∈ vs, v.elements = none) :
    PyVal.update conv upd s (.list vs) = oneByOne conv upd s vs := by
  show PyVal.feed conv upd s vs = _
  induction vs generalizing s with
  | nil => rfl
  | cons v vs ih =>
    have h0 := hv v (by simp)
    unfold oneByOne PyVal.update
    rw [h0]
    simp only [PyVal.feed]
    cases hc : conv v with
    | ok b =>
      simp only
      cases hu : upd s b with
      | ok s' => simp only; exact ih s' fun v h => hv v (by simp [h])
      | _ => rfl
    | _ => rfl

/-- **C72**, every wrapper whose C++ `update` succeeds: after a failure the object holds exactly the items before the one
that could not be converted. -/
theorem C72_prefix_partial (s : σ) (pre rest : List PyVal) (bad : PyVal) (bs : List β) (m : String)
    (hpre : pre.map conv = bs.map .ok) (hbad : conv bad = .throw m) {s' : σ} (hupd : bs.foldlM upd s = Res.ok s') :
    PyVal.update conv upd s (.list (pre ++ bad :: rest)) = (.throw m, s') := by
  show PyVal.feed conv upd s (pre ++ bad :: rest) = _
  induction pre generalizing s bs with
  | nil =>
    cases bs with
    | nil => injection hupd with hupd; subst hupd; simp [PyVal.feed, hbad]
    | cons _ _ => simp at hpre
  | cons v vs ih =>
    cases bs with
    | nil => simp at hpre
    | cons b bs =>
      simp only [List.map_cons, List.cons.injEq] at hpre
      rw [List.foldlM_cons] at hupd
      obtain ⟨s1, h1, h2⟩ := Res.bind_eq_ok.1 hupd
      simp only [List.cons_append, PyVal.feed, hpre.1, h1]
      exact ih s1 bs hpre.2 h2

/-- **C72**, every wrapper: a string is an iterable of its characters, none of which is a number. The empty string is accepted and
changes nothing, any other raises `TypeError` and changes nothing. -/
theorem C72_string_partial (s : σ) (t : String) (hconv : ∀ u, conv (.str u) = .throw "TypeError") :
    PyVal.update conv upd s (.str t) = (if t = "" then .ok () else .throw "TypeError", s) := by
  show PyVal.feed conv upd s (t.toList.map fun c => .str (String.singleton c)) = _
  rcases h : t.toList with _ | ⟨c, cs⟩
  · have : t = "" := by simpa using h
    rw [if_pos this]
    rfl
  · have : t ≠ "" := by rintro rfl; simp at h
    rw [if_neg this]
    simp [PyVal.feed, hconv]

end

example : PyVal.update PyVal.asFloat RingBuffer.update (RingBuffer.new 2) (.str "12") = (.throw "TypeError", RingBuffer.new 2) :=
  C72_string_partial _ _ _ "12" fun _ => rfl
example : PyVal.update PyVal.asDouble (Mean.update Dbl.arith) (Mean.new Dbl.arith 2) (.str "") = (.ok (), Mean.new Dbl.arith 2) :=
  C72_string_partial _ _ _ "" fun _ => rfl

/-- a list with two good items, a bad one and another good one -/
example : ∃ b, PyVal.update PyVal.asFloat RingBuffer.update (RingBuffer.new 3)
    (.list ([.int 1, .int 2] ++ .str "x" :: [.int 3])) = (.throw "TypeError", b) ∧ b.size = 2 :=
  ⟨_, C72_prefix_partial _ _ _ [.int 1, .int 2] [.int 3] (.str "x") [.fin 1, .fin 2] "TypeError" (by decide +kernel) rfl rfl,
    by decide +kernel⟩

/-! ## C73: the arguments of `PyStreamingIQR` -/

/-- **C73**, the full property: a quantile that is given is the one used; one that is not given has its default. -/
def C73_full [Cython] : Prop := ∀ (low high : PyVal) (W : ℕ) (i : IQR Dbl), Py.iqr low high (.int W) = .ok i →
  (∀ d, low.asDouble = .ok d → i.low.p2.quantile = d) ∧ (∀ d, high.asDouble = .ok d → i.high.p2.quantile = d)

/-- **C73** is violated: `PyStreamingIQR(low=0.1, window_size=0)` uses 0.25. -/
theorem C73_violated [C : Cython] : ¬ C73_full := by
  intro h
  have hok : (match Py.iqr (.float (.fin (1 / 10))) .none (.int 0) with
      | .ok i => decide (i.low.p2.quantile = .fin (1 / 4))
      | _ => false) = true := by
    clear h
    rcases C with ⟨_ | _, _ | _⟩ <;> decide +kernel
  obtain ⟨i, h1, h2⟩ : ∃ i, Py.iqr (.float (.fin (1 / 10))) .none (.int (0 : ℕ)) = .ok i ∧
      i.low.p2.quantile = .fin (1 / 4) := by
    split at hok
    · rename_i i hi; exact ⟨i, hi, of_decide_eq_true hok⟩
    · cases hok
  have := (h _ _ 0 i h1).1 _ rfl
  rw [h2] at this
  revert this
  decide +kernel

theorem WP2.new_quantile {A : Arith F} {q : F} {W : ℕ} {w : WP2 F} (h : WP2.new A q W = .ok w) :
    w.p2.quantile = q ∧ w.windowSize = W := by
  obtain ⟨p, hp, h⟩ := Res.bind_eq_ok.1 h
  injection h with h; subst h
  unfold P2.new at hp
  split at hp
  · cases hp
  · injection hp with hp; subst hp; exact ⟨rfl, rfl⟩

theorem PyVal.asDouble_of_arg [Cython] {v : PyVal} {d : Dbl} (h : v.asDoubleArg = .ok d) : v.asDouble = .ok d := by
  unfold PyVal.asDoubleArg at h
  split at h
  · split at h
    · cases h
    · exact h
  · exact h

/-- **C73**, what holds: with both quantiles given, both are used, and so is the window. -/
theorem C73_both_partial [Cython] (low high : PyVal) (W : ℕ) (i : IQR Dbl) (hl : low ≠ .none) (hh : high ≠ .none)
    (h : Py.iqr low high (.int W) = .ok i) :
    low.asDouble = .ok i.low.p2.quantile ∧ high.asDouble = .ok i.high.p2.quantile ∧ i.low.windowSize = W ∧
      i.high.windowSize = W := by
  have h' : (do
      let l ← low.asDoubleArg
      let h ← high.asDoubleArg
      let W ← (PyVal.int W).asUInt64
      IQR.new Dbl.arith l h W) = .ok i := by
    rw [← h]
    unfold Py.iqr
    split
    · exact absurd rfl hl
    · exact absurd rfl hh
    · rfl
  obtain ⟨l, h1, h'⟩ := Res.bind_eq_ok.1 h'
  obtain ⟨u, h2, h'⟩ := Res.bind_eq_ok.1 h'
  obtain ⟨w, h3, h'⟩ := Res.bind_eq_ok.1 h'
  have hw : w = W := by
    rcases PyVal.asUInt64_ok.1 h3 with ⟨h3, -⟩ | ⟨-, q, h3, -⟩
    · exact (Nat.cast_inj.1 (PyVal.int.inj h3)).symm
    · cases h3
  obtain ⟨a, h4, h'⟩ := Res.bind_eq_ok.1 h'
  obtain ⟨b, h5, h'⟩ := Res.bind_eq_ok.1 h'
  injection h' with h'; subst h'
  obtain ⟨e1, e2⟩ := WP2.new_quantile h4
  obtain ⟨e3, e4⟩ := WP2.new_quantile h5
  exact ⟨by rw [e1, PyVal.asDouble_of_arg h1], by rw [e3, PyVal.asDouble_of_arg h2], by rw [e2, hw], by rw [e4, hw]⟩

example [C : Cython] : ∃ i, Py.iqr (.float (.fin (1 / 8))) (.float (.fin (1 / 2))) (.int 7) = .ok i := by
  have : (match Py.iqr (.float (.fin (1 / 8))) (.float (.fin (1 / 2))) (.int 7) with
      | .ok _ => true
      | _ => false) = true := by
    rcases C with ⟨_ | _, _ | _⟩ <;> decide +kernel
  split at this
  · rename_i i hi; exact ⟨i, hi⟩
  · cases this

end KML
