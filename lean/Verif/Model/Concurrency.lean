import Verif.Model.Containers
import Mathlib.Logic.Function.Basic

/-!
# Threads

Several threads call the methods of one container. A method is a tree of single memory accesses; a scheduler picks which
thread performs its next access. `std::mutex` and `std::lock_guard` are modelled, data races are detectable
(`Config.Race`). Between accesses memory is sequentially consistent; for race free programs this is what C++ guarantees,
and a race is reported on its own.
-/

namespace KML.Conc

/-- The memory: every location `l` holds a value of type `Val l` (modelling device). -/
abbrev Mem (Loc : Type) (Val : Loc → Type) := (l : Loc) → Val l

/-- The body of a method as single accesses to memory (modelling device). `rmw` is an atomic access, used only for the
allocator, which is thread safe. -/
inductive Code (Loc : Type) (Val : Loc → Type) (ρ : Type) where
  | ret (r : ρ)
  | ub (u : UB)
  | read (l : Loc) (k : Val l → Code Loc Val ρ)
  | write (l : Loc) (v : Val l) (k : Code Loc Val ρ)
  | rmw (l : Loc) (f : Val l → Val l) (k : Val l → Code Loc Val ρ)

namespace Code

variable {Loc : Type} [DecidableEq Loc] {Val : Loc → Type} {ρ σ : Type}

/-- Run without interference. -/
def run : Code Loc Val ρ → Mem Loc Val → Res (ρ × Mem Loc Val)
  | .ret r, m => .ok (r, m)
  | .ub u, _ => .ub u
  | .read l k, m => (k (m l)).run m
  | .write l v k, m => k.run (Function.update m l v)
  | .rmw l f k, m => (k (m l)).run (Function.update m l (f (m l)))

/-- One body after another. -/
def bind : Code Loc Val ρ → (ρ → Code Loc Val σ) → Code Loc Val σ
  | .ret r, f => f r
  | .ub u, _ => .ub u
  | .read l k, f => .read l fun v => (k v).bind f
  | .write l v k, f => .write l v (k.bind f)
  | .rmw l g k, f => .rmw l g fun v => (k v).bind f

/-- The next access of a body: location, is it a write, is it atomic. -/
def access : Code Loc Val ρ → Option (Loc × Bool × Bool)
  | .ret _ => none
  | .ub _ => none
  | .read l _ => some (l, false, false)
  | .write l _ _ => some (l, true, false)
  | .rmw l _ _ => some (l, true, true)

end Code

/-- The methods of a class: the body of each, and whether it holds a `std::lock_guard` on the class's mutex. -/
structure Lib (Op Loc : Type) (Val : Loc → Type) (ρ : Type) where
  code : Op → Code Loc Val ρ
  locked : Op → Bool

/-- A thread: the calls it has still to make, the call it is in with the rest of its body, and the calls it has finished
with their results. -/
structure Thread (Op Loc : Type) (Val : Loc → Type) (ρ : Type) where
  todo : List Op
  cur : Option (Op × Code Loc Val ρ)
  res : List (Op × ρ)

/-- All threads, the memory, the owner of the mutex, the calls in the order in which they started (after taking the
lock, if they take it), and the undefined behaviour met, if any. -/
structure Config (ι Op Loc : Type) (Val : Loc → Type) (ρ : Type) where
  mem : Mem Loc Val
  owner : Option ι
  threads : ι → Thread Op Loc Val ρ
  log : List (ι × Op)
  bad : Option UB

section

variable {ι Op Loc : Type} [DecidableEq ι] [DecidableEq Loc] {Val : Loc → Type} {ρ : Type}

namespace Config

/-- Nothing has started; thread `t` is going to make the calls `prog t`. -/
def init (m : Mem Loc Val) (prog : ι → List Op) : Config ι Op Loc Val ρ where
  mem := m
  owner := none
  threads t := ⟨prog t, none, []⟩
  log := []
  bad := none

/-- Thread `t` performs its next step; `none` if it cannot (finished, waiting for the mutex, or the program is already
undefined). -/
def step (L : Lib Op Loc Val ρ) (c : Config ι Op Loc Val ρ) (t : ι) : Option (Config ι Op Loc Val ρ) :=
  let th := c.threads t
  match c.bad with
  | some _ => none
  | none =>
  match th.cur with
  | none =>
    match th.todo with
    | [] => none
    | op :: todo =>
      if L.locked op then
        match c.owner with
        | some _ => none
        | none => some { c with
            owner := some t
            threads := Function.update c.threads t ⟨todo, some (op, L.code op), th.res⟩
            log := c.log ++ [(t, op)] }
      else some { c with
            threads := Function.update c.threads t ⟨todo, some (op, L.code op), th.res⟩
            log := c.log ++ [(t, op)] }
  | some (op, .ret r) => some { c with
      owner := if L.locked op then none else c.owner
      threads := Function.update c.threads t ⟨th.todo, none, th.res ++ [(op, r)]⟩ }
  | some (_, .ub u) => some { c with bad := some u }
  | some (op, .read l k) => some { c with
      threads := Function.update c.threads t ⟨th.todo, some (op, k (c.mem l)), th.res⟩ }
  | some (op, .write l v k) => some { c with
      mem := Function.update c.mem l v
      threads := Function.update c.threads t ⟨th.todo, some (op, k), th.res⟩ }
  | some (op, .rmw l f k) => some { c with
      mem := Function.update c.mem l (f (c.mem l))
      threads := Function.update c.threads t ⟨th.todo, some (op, k (c.mem l)), th.res⟩ }

/-- Run a schedule. -/
def exec (L : Lib Op Loc Val ρ) : Config ι Op Loc Val ρ → List ι → Option (Config ι Op Loc Val ρ)
  | c, [] => some c
  | c, t :: ts => (c.step L t).bind fun c' => c'.exec L ts

/-- Two threads are both about to access the same location, at least one of them writing and not both atomically: a data
race, undefined behaviour in C++ ([intro.races]). -/
def Race (c : Config ι Op Loc Val ρ) : Prop :=
  ∃ t u o₁ o₂ k₁ k₂ l w₁ w₂ a₁ a₂, t ≠ u ∧ (c.threads t).cur = some (o₁, k₁) ∧ (c.threads u).cur = some (o₂, k₂) ∧
    k₁.access = some (l, w₁, a₁) ∧ k₂.access = some (l, w₂, a₂) ∧ (w₁ || w₂) = true ∧ (a₁ && a₂) = false

/-- Every thread has made all its calls. -/
def Finished (c : Config ι Op Loc Val ρ) : Prop :=
  c.bad = none ∧ ∀ t, (c.threads t).cur = none ∧ (c.threads t).todo = []

end Config

/-- The calls of `log` one at a time, without interference. -/
def serial (L : Lib Op Loc Val ρ) (m : Mem Loc Val) (log : List (ι × Op)) :
    Res (List (ι × Op × ρ) × Mem Loc Val) :=
  runCalls (fun m (o : ι × Op) => do
    let (r, m') ← (L.code o.2).run m
    .ok ((o.1, o.2, r), m')) m log

/-- The calls of a log that hold the lock. -/
def Lib.lockedCalls (L : Lib Op Loc Val ρ) (log : List (ι × Op)) : List (ι × Op) := log.filter fun p => L.locked p.2

/-- The results of calls that hold the lock. -/
def Lib.lockedResults (L : Lib Op Loc Val ρ) (res : List (Op × ρ)) : List (Op × ρ) := res.filter fun p => L.locked p.1

/-- What belongs to thread `t`. -/
def mine {β : Type} (t : ι) (l : List (ι × β)) : List β := (l.filter fun p => p.1 = t).map Prod.snd

end

/-! ## RingBuffer, access by access -/

/-- The memory locations of a `RingBuffer`. /repo/tools/cpp/KML/include/data_structures/RingBuffer.h:75-97,
IDataStructure.h:72. `m_windowSize` is never written and is a parameter of the code. -/
inductive RLoc where
  | head
  | tail
  | full
  | count
  | cell (i : ℕ)
  deriving DecidableEq, Repr

/-- What they hold. -/
abbrev RVal (α : Type) : RLoc → Type
  | .head => ℕ
  | .tail => ℕ
  | .full => Bool
  | .count => ℕ
  | .cell _ => Option α

namespace Ring

variable {α : Type}

abbrev RCode (α ρ : Type) := Code RLoc (RVal α) ρ

/-- The array element `i`. -/
def cell (m : Mem RLoc (RVal α)) (i : ℕ) : Option α := m (.cell i)

/-- The object in memory, as in the sequential model. -/
def view (W : ℕ) (m : Mem RLoc (RVal α)) : RingBuffer α where
  windowSize := W
  buf := (List.range W).map (cell m)
  head := m .head
  tail := m .tail
  full := m .full
  historyCount := m .count

/-- Memory after construction. /repo/tools/cpp/KML/include/data_structures/RingBuffer.tcc:11-17. -/
def fresh : Mem RLoc (RVal α)
  | .head => (0 : ℕ)
  | .tail => (0 : ℕ)
  | .full => false
  | .count => (0 : ℕ)
  | .cell _ => (none : Option α)

/-- `x = (x + 1) % m_windowSize` for the member at `l`. -/
def advance {ρ : Type} (W : ℕ) (l : RLoc) (hl : RVal α l = ℕ) (k : RCode α ρ) : RCode α ρ :=
  .read l fun i =>
    if W = 0 then .ub .divZero else .write l (cast hl.symm ((cast hl i + 1) % W)) k

/-- `update`. /repo/tools/cpp/KML/include/data_structures/RingBuffer.tcc:19-37. -/
def updateCode (W : ℕ) (item : α) : RCode α (COut α) :=
  -- m_buffer[m_head] = item
  .read .head fun (h : ℕ) =>
  if h < W then
  .write (.cell h) (some item) <|
  -- if (m_full) m_tail = (m_tail + 1) % m_windowSize
  .read .full fun (f : Bool) =>
  let rest : RCode α (COut α) :=
    -- m_head = (m_head + 1) % m_windowSize
    advance W .head rfl <|
    -- m_full = m_head == m_tail
    .read .head fun (h : ℕ) => .read .tail fun (t : ℕ) =>
    .write .full (h == t) <|
    -- m_historyCount++
    .read .count fun (n : ℕ) => .write .count (n + 1 : ℕ) <|
    .ret .unit
  if f then advance W .tail rfl rest else rest
  else .ub .oob

/-- `empty`. /repo/tools/cpp/KML/include/data_structures/RingBuffer.tcc:47-51. -/
def emptyCode {ρ : Type} (k : Bool → RCode α ρ) : RCode α ρ :=
  .read .full fun (f : Bool) =>
  if f then k false
  else .read .head fun (h : ℕ) => .read .tail fun (t : ℕ) => k (h == t)

/-- `pop`. /repo/tools/cpp/KML/include/data_structures/RingBuffer.tcc:77-95. -/
def popCode (W : ℕ) (dflt : α) : RCode α (COut α) :=
  emptyCode fun e =>
  if e then .ret (.val dflt)
  else
    -- auto l_item = m_buffer[m_tail]
    .read .tail fun (t : ℕ) =>
    if t < W then
      .read (.cell t) fun (v : Option α) =>
      match v with
      | none => .ub .uninit
      | some v =>
        .write .full false <|
        advance W .tail rfl <|
        .ret (.val v)
    else .ub .oob

/-- `reset`. /repo/tools/cpp/KML/include/data_structures/RingBuffer.tcc:39-45. -/
def resetCode : RCode α (COut α) :=
  .read .tail fun (t : ℕ) => .write .head (t : ℕ) <| .write .full false <| .ret .unit

/-- `size`, in `size_t` arithmetic. /repo/tools/cpp/KML/include/data_structures/RingBuffer.tcc:59-75. Every mention of a
member is one read. -/
def sizeCode (W : ℕ) : RCode α (COut α) :=
  .read .full fun (f : Bool) =>
  if f then .ret (.num W)
  else
    .read .head fun (h : ℕ) => .read .tail fun (t : ℕ) =>
    if h ≥ t then
      .read .head fun (h : ℕ) => .read .tail fun (t : ℕ) => .ret (.num ((2 ^ 64 + h - t) % 2 ^ 64))
    else
      .read .head fun (h : ℕ) => .read .tail fun (t : ℕ) => .ret (.num ((2 ^ 64 + W + h - t) % 2 ^ 64))

/-- `full`. /repo/tools/cpp/KML/include/data_structures/RingBuffer.tcc:53-57. -/
def fullCode : RCode α (COut α) := .read .full fun (f : Bool) => .ret (.bool f)

/-- `RingBuffer`: `update`, `reset` and `pop` hold a `std::lock_guard` (RingBuffer.tcc:22, 42, 80), the others do not. -/
def lib (W : ℕ) (dflt : α) : Lib (COp α) RLoc (RVal α) (COut α) where
  code
    | .update x => updateCode W x
    | .pop => popCode W dflt
    | .reset => resetCode
    | .size => sizeCode W
    | .empty => emptyCode fun e => .ret (.bool e)
    | .full => fullCode
  locked
    | .update _ => true
    | .pop => true
    | .reset => true
    | _ => false

end Ring

/-! ## LinkedList, access by access -/

/-- The memory locations of a `LinkedList` and its nodes. `brk` is the allocator's next address, `alive a` says whether
address `a` is a node that has not been deleted. /repo/tools/cpp/KML/include/data_structures/LinkedList.h:105-115,
Node.h:17-41, IDataStructure.h:72. -/
inductive LLoc where
  | head
  | tail
  | size
  | count
  | brk
  | alive (a : ℕ)
  | value (a : ℕ)
  | next (a : ℕ)
  | previous (a : ℕ)
  deriving DecidableEq, Repr

/-- What they hold. -/
abbrev LVal (α : Type) : LLoc → Type
  | .head => Option ℕ
  | .tail => Option ℕ
  | .size => ℕ
  | .count => ℕ
  | .brk => ℕ
  | .alive _ => Bool
  | .value _ => α
  | .next _ => Option ℕ
  | .previous _ => Option ℕ

namespace LList

variable {α : Type}

abbrev LCode (α ρ : Type) := Code LLoc (LVal α) ρ

/-- Is address `a` a node? -/
def isAlive (m : Mem LLoc (LVal α)) (a : ℕ) : Bool := m (.alive a)

/-- The node at address `a`. -/
def node (m : Mem LLoc (LVal α)) (a : ℕ) : Option (Node α) :=
  if isAlive m a then some ⟨m (.value a), m (.next a), m (.previous a)⟩ else none

/-- The object in memory, as in the sequential model. -/
def view (W : ℕ) (m : Mem LLoc (LVal α)) : LinkedList α where
  windowSize := W
  head := m .head
  tail := m .tail
  size := m .size
  historyCount := m .count
  heap := (List.range (m .brk : ℕ)).map (node m)

/-- Memory after construction. /repo/tools/cpp/KML/include/data_structures/LinkedList.tcc:11-16. -/
def fresh (dflt : α) : Mem LLoc (LVal α)
  | .head => (none : Option ℕ)
  | .tail => (none : Option ℕ)
  | .size => (0 : ℕ)
  | .count => (0 : ℕ)
  | .brk => (0 : ℕ)
  | .alive _ => false
  | .value _ => dflt
  | .next _ => (none : Option ℕ)
  | .previous _ => (none : Option ℕ)

/-- Dereference a pointer: continue with its address. -/
def deref {ρ : Type} (p : Option ℕ) (k : ℕ → LCode α ρ) : LCode α ρ :=
  match p with
  | none => .ub .nullDeref
  | some a => .read (.alive a) fun (b : Bool) => if b then k a else .ub .useAfterFree

/-- `pop`. /repo/tools/cpp/KML/include/data_structures/LinkedList.tcc:103-117. -/
def popCode (dflt : α) : LCode α (COut α) :=
  .read .head fun (h : Option ℕ) =>
  if h = none then .ret (.val dflt)
  else
    -- Node<T> *l_next = m_head->m_next
    .read .head fun (h : Option ℕ) => deref h fun a => .read (.next a) fun (n : Option ℕ) =>
    -- T l_value = m_head->m_value
    .read .head fun (h : Option ℕ) => deref h fun a => .read (.value a) fun (v : α) =>
    -- delete m_head
    .read .head fun (h : Option ℕ) =>
    let rest : LCode α (COut α) :=
      -- m_head = l_next
      .write .head n <|
      -- m_size--
      .read .size fun (s : ℕ) => .write .size (LinkedList.decr s) <|
      .ret (.val v)
    match h with
    | none => rest
    | some _ => deref h fun a => .write (.alive a) false rest

/-- `update`. /repo/tools/cpp/KML/include/data_structures/LinkedList.tcc:31-54. -/
def updateCode (W : ℕ) (dflt item : α) : LCode α (COut α) :=
  -- new Node<T>(item)
  .rmw .brk (fun (n : ℕ) => (n + 1 : ℕ)) fun (node : ℕ) =>
  .write (.value node) item <|
  .write (.next node) (none : Option ℕ) <|
  .write (.previous node) (none : Option ℕ) <|
  .write (.alive node) true <|
  let rest : LCode α (COut α) :=
    -- m_size++; m_historyCount++
    .read .size fun (s : ℕ) => .write .size (s + 1 : ℕ) <|
    .read .count fun (n : ℕ) => .write .count (n + 1 : ℕ) <|
    .ret .unit
  -- if (empty())
  .read .head fun (h : Option ℕ) =>
  if h = none then
    .write .head (some node) <| .write .tail (some node) rest
  else
    -- m_tail->m_next = l_node
    .read .tail fun (t : Option ℕ) => deref t fun a => .write (.next a) (some node) <|
    -- l_node->m_previous = m_tail
    .read .tail fun (t : Option ℕ) => deref (some node) fun a => .write (.previous a) t <|
    -- m_tail = l_node
    .write .tail (some node) <|
    -- if (m_size == m_windowSize) pop()
    .read .size fun (s : ℕ) =>
    if s = W then (popCode dflt).bind fun _ => rest else rest

/-- The calls considered (`reset` and the destructor are left out). -/
inductive Op (α : Type) where
  | update (x : α)
  | pop
  | size
  | empty
  | full
  deriving DecidableEq, Repr

/-- The same call in the sequential model. -/
def Op.toCOp : Op α → COp α
  | .update x => .update x
  | .pop => .pop
  | .size => .size
  | .empty => .empty
  | .full => .full

/-- `LinkedList`: none of these takes the mutex (LinkedList.tcc:31-54, 73-89, 103-117), so the class is
`lib W dflt false`. `lib W dflt true` is the class with a guard around every call. -/
def lib (W : ℕ) (dflt : α) (guard : Bool) : Lib (Op α) LLoc (LVal α) (COut α) where
  code
    | .update x => updateCode W dflt x
    | .pop => popCode dflt
    | .size => .read .size fun (s : ℕ) => .ret (.num s)
    | .empty => .read .head fun (h : Option ℕ) => .ret (.bool (h == none))
    | .full => .read .head fun (h : Option ℕ) => .ret (.bool (h != none))
  locked _ := guard

end LList

end KML.Conc
