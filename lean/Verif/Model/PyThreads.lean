import Verif.Model.Python

/-!
# Python threads

Several Python threads call methods of one wrapped container, statistic or histogram. No method of the wrappers releases
the global interpreter lock (there is no `nogil` in /repo/tools/cython), so each call of a C++ method is one step. `update`
with an iterable is a loop of such calls, and fetching the next item can run Python code (of a generator, say), in which the
lock may go to another thread.
-/

namespace KML.Py

/-- A thread: the calls it still has to make, the items left of the iterable it is passing on, and what its calls did so
far. -/
structure Thread where
  calls : List Op
  items : List PyVal
  outs : List Out

/-- A thread that has not started. -/
def Thread.start (calls : List Op) : Thread := ⟨calls, [], []⟩

/-- A thread that has made all its calls. -/
def Thread.finished (t : Thread) : Prop := t.calls = [] ∧ t.items = []

/-- The thread runs until it may lose the lock: it fetches the next item and passes it on, or makes the next call. An
`update` at first gets as far as the beginning of its loop.
/repo/tools/cython/kml/data_structures/RingBuffer.pyx:45-108, LinkedList.pyx:45-111. -/
def Thread.step {σ : Type} (cstep : σ → COp Dbl → Res (COut Dbl × σ)) (s : σ) (t : Thread) : Res (σ × Thread) :=
  match t.items with
  | v :: vs =>
    match v.asFloat with
    | .throw m => .ok (s, { t with items := [], outs := t.outs ++ [.raised m] })
    | .ub u => .ub u
    | .ok x =>
      match cstep s (.update x) with
      | .throw m => .ok (s, { t with items := [], outs := t.outs ++ [.raised m] })
      | .ub u => .ub u
      | .ok (_, s') =>
        .ok (s', { t with items := vs, outs := if vs.isEmpty then t.outs ++ [.value .unit] else t.outs })
  | [] =>
    match t.calls with
    | [] => .ok (s, t)
    | .update v :: rest =>
      let items := v.elements.getD [v]
      .ok (s, { calls := rest, items := items, outs := if items.isEmpty then t.outs ++ [.value .unit] else t.outs })
    | o :: rest => do
      let (r, s') ← Py.step cstep s o
      .ok (s', { calls := rest, items := [], outs := t.outs ++ [r] })

/-- A run of several threads: the numbers of the threads that get the lock, in that order. -/
def runThreads {σ : Type} (cstep : σ → COp Dbl → Res (COut Dbl × σ)) : List ℕ → σ → List Thread → Res (σ × List Thread)
  | [], s, ts => .ok (s, ts)
  | k :: ks, s, ts =>
    match ts[k]? with
    | none => runThreads cstep ks s ts
    | some t => do
      let (s', t') ← t.step cstep s
      runThreads cstep ks s' (ts.set k t')

/-! ## The statistics and the histogram -/

section

variable {σ κ ρ : Type}

/-- A thread using a statistic or a histogram: the calls it still has to make, the items left of the iterable it is passing
on, and what its calls did so far. -/
structure GThread (κ ρ : Type) where
  calls : List (GOp κ)
  items : List PyVal
  outs : List (GOut ρ)

/-- A thread that has not started. -/
def GThread.start (calls : List (GOp κ)) : GThread κ ρ := ⟨calls, [], []⟩

/-- A thread that has made all its calls. -/
def GThread.finished (t : GThread κ ρ) : Prop := t.calls = [] ∧ t.items = []

/-- The thread runs until it may lose the lock, as in `Thread.step`.
/repo/tools/cython/kml/statistics/summary/StreamingMean.pyx:43-67 and the same methods of the other wrappers (see `gstep`). -/
def GThread.step (upd : σ → Dbl → Res σ) (meth : σ → κ → Res (ρ × σ)) (s : σ) (t : GThread κ ρ) : Res (σ × GThread κ ρ) :=
  match t.items with
  | v :: vs =>
    match v.asDouble with
    | .throw m => .ok (s, { t with items := [], outs := t.outs ++ [.raised m] })
    | .ub u => .ub u
    | .ok x =>
      match upd s x with
      | .throw m => .ok (s, { t with items := [], outs := t.outs ++ [.raised m] })
      | .ub u => .ub u
      | .ok s' => .ok (s', { t with items := vs, outs := if vs.isEmpty then t.outs ++ [.done] else t.outs })
  | [] =>
    match t.calls with
    | [] => .ok (s, t)
    | .update v :: rest =>
      let items := v.elements.getD [v]
      .ok (s, { calls := rest, items := items, outs := if items.isEmpty then t.outs ++ [.done] else t.outs })
    | .call c :: rest => do
      let (r, s') ← gstep upd meth s (.call c)
      .ok (s', { calls := rest, items := [], outs := t.outs ++ [r] })

/-- A run of several threads: the numbers of the threads that get the lock, in that order. -/
def runGThreads (upd : σ → Dbl → Res σ) (meth : σ → κ → Res (ρ × σ)) :
    List ℕ → σ → List (GThread κ ρ) → Res (σ × List (GThread κ ρ))
  | [], s, ts => .ok (s, ts)
  | k :: ks, s, ts =>
    match ts[k]? with
    | none => runGThreads upd meth ks s ts
    | some t => do
      let (s', t') ← t.step upd meth s
      runGThreads upd meth ks s' (ts.set k t')

end

end KML.Py
