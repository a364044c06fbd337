import Verif.Model.Base

/-!
# RingBuffer and LinkedList
-/

namespace KML

/-- `IDataStructure<T>::update(const std::vector<T>&)` and `IStreaming<T>::update(const std::vector<T>&)`:
walk the vector with an iterator, updating with each element.
/repo/tools/cpp/KML/include/data_structures/IDataStructure.tcc:18-25,
/repo/tools/cpp/KML/include/IStreaming.tcc:23-30.
The loop is modelled by recursion on the remaining elements; a failing `update` ends the call. -/
def updateAll {σ α : Type} (update : σ → α → Res σ) : σ → List α → Res σ
  | s, [] => .ok s
  | s, x :: xs => do
    let s' ← update s x
    updateAll update s' xs

/-! ## RingBuffer -/

/-- Members of `RingBuffer<T>`. /repo/tools/cpp/KML/include/data_structures/RingBuffer.h:75-97,
IDataStructure.h:67-72. `buf` is the array of `windowSize` elements; `none` is an element whose value
is indeterminate because `new T[windowSize]` default-initialises. `size_t` members are `Nat`. -/
structure RingBuffer (α : Type) where
  windowSize : ℕ
  buf : List (Option α)
  head : ℕ
  tail : ℕ
  full : Bool
  historyCount : ℕ
  deriving DecidableEq, Repr

namespace RingBuffer

variable {α : Type}

/-- Constructor. /repo/tools/cpp/KML/include/data_structures/RingBuffer.tcc:11-17, RingBuffer.h:86-97. -/
def new (windowSize : ℕ) : RingBuffer α where
  windowSize := windowSize
  buf := List.replicate windowSize none
  head := 0
  tail := 0
  full := false
  historyCount := 0

/-- `(i + 1) % windowSize`, undefined when `windowSize` is 0.
/repo/tools/cpp/KML/include/data_structures/RingBuffer.tcc:28, 31, 92. -/
def next (windowSize i : ℕ) : Res ℕ :=
  if windowSize = 0 then .ub .divZero else .ok ((i + 1) % windowSize)

/-- `m_buffer[i] = item`. /repo/tools/cpp/KML/include/data_structures/RingBuffer.tcc:25. -/
def store (buf : List (Option α)) (i : ℕ) (item : α) : Res (List (Option α)) :=
  if i < buf.length then .ok (buf.set i (some item)) else .ub .oob

/-- `m_buffer[i]` as a value. /repo/tools/cpp/KML/include/data_structures/RingBuffer.tcc:86. -/
def load (buf : List (Option α)) (i : ℕ) : Res α :=
  match buf[i]? with
  | none => .ub .oob
  | some none => .ub .uninit
  | some (some v) => .ok v

/-- `update`. /repo/tools/cpp/KML/include/data_structures/RingBuffer.tcc:19-37. -/
def update (b : RingBuffer α) (item : α) : Res (RingBuffer α) := do
  let buf ← store b.buf b.head item
  let tail ← if b.full then next b.windowSize b.tail else .ok b.tail
  let head ← next b.windowSize b.head
  .ok { b with buf := buf, tail := tail, head := head, full := head == tail,
               historyCount := b.historyCount + 1 }

/-- `reset`. /repo/tools/cpp/KML/include/data_structures/RingBuffer.tcc:39-45. -/
def reset (b : RingBuffer α) : RingBuffer α := { b with head := b.tail, full := false }

/-- `empty`. /repo/tools/cpp/KML/include/data_structures/RingBuffer.tcc:47-51. -/
def isEmpty (b : RingBuffer α) : Bool := !b.full && (b.head == b.tail)

/-- `full`. /repo/tools/cpp/KML/include/data_structures/RingBuffer.tcc:53-57. -/
def isFull (b : RingBuffer α) : Bool := b.full

/-- `size`. /repo/tools/cpp/KML/include/data_structures/RingBuffer.tcc:59-75. Natural-number
subtraction; the 64-bit version is `sizeBV`. -/
def size (b : RingBuffer α) : ℕ :=
  if !b.full then
    if b.head ≥ b.tail then b.head - b.tail else b.windowSize + b.head - b.tail
  else b.windowSize

/-- `size` in `size_t` arithmetic modulo 2^64.
/repo/tools/cpp/KML/include/data_structures/RingBuffer.tcc:59-75. -/
def sizeBV (windowSize head tail : BitVec 64) (full : Bool) : BitVec 64 :=
  if !full then
    if head ≥ tail then head - tail else windowSize + head - tail
  else windowSize

/-- `pop`; `dflt` is `T()`. /repo/tools/cpp/KML/include/data_structures/RingBuffer.tcc:77-95. -/
def pop (dflt : α) (b : RingBuffer α) : Res (α × RingBuffer α) :=
  if b.isEmpty then .ok (dflt, b)
  else do
    let item ← load b.buf b.tail
    let tail ← next b.windowSize b.tail
    .ok (item, { b with full := false, tail := tail })

end RingBuffer

/-! ## LinkedList -/

/-- `Node<T>`. /repo/tools/cpp/KML/include/data_structures/Node.h:17-41. Pointers are addresses. -/
structure Node (α : Type) where
  value : α
  next : Option ℕ
  previous : Option ℕ
  deriving DecidableEq, Repr

/-- The heap of nodes: cell `a` is the node at address `a`, or `none` after `delete`. Addresses are
never reused (modelling device: a stale pointer stays detectable). -/
abbrev Heap (α : Type) := List (Option (Node α))

namespace Heap

variable {α : Type}

/-- `new Node<T>(item)`. /repo/tools/cpp/KML/include/data_structures/LinkedList.tcc:34, Node.tcc:11-15,
Node.h:35-40. Allocation failure is left to Model/OutOfMemory.lean. -/
def alloc (h : Heap α) (item : α) : Heap α × ℕ := (h ++ [some ⟨item, none, none⟩], h.length)

/-- `*p` for a node pointer: null and freed nodes are undefined behaviour. -/
def deref (h : Heap α) (p : Option ℕ) : Res (ℕ × Node α) :=
  match p with
  | none => .ub .nullDeref
  | some a =>
    match h[a]? with
    | some (some n) => .ok (a, n)
    | _ => .ub .useAfterFree

/-- `delete p` for a non-null pointer. -/
def free (h : Heap α) (a : ℕ) : Res (Heap α) :=
  match h[a]? with
  | some (some _) => .ok (h.set a none)
  | _ => .ub .useAfterFree

/-- Number of nodes allocated and not deleted (observer, no source). -/
def live (h : Heap α) : ℕ := h.countP Option.isSome

end Heap

/-- Members of `LinkedList<T>`, plus the heap its nodes live in.
/repo/tools/cpp/KML/include/data_structures/LinkedList.h:105-115, IDataStructure.h:67-72. -/
structure LinkedList (α : Type) where
  windowSize : ℕ
  head : Option ℕ
  tail : Option ℕ
  size : ℕ
  historyCount : ℕ
  heap : Heap α
  deriving DecidableEq, Repr

namespace LinkedList

variable {α : Type}

/-- Constructor. /repo/tools/cpp/KML/include/data_structures/LinkedList.tcc:11-16, LinkedList.h:105-115. -/
def new (windowSize : ℕ) : LinkedList α where
  windowSize := windowSize
  head := none
  tail := none
  size := 0
  historyCount := 0
  heap := []

/-- `empty`. /repo/tools/cpp/KML/include/data_structures/LinkedList.tcc:73-77. -/
def isEmpty (l : LinkedList α) : Bool := l.head == none

/-- `full`. /repo/tools/cpp/KML/include/data_structures/LinkedList.tcc:79-83. -/
def isFull (l : LinkedList α) : Bool := l.head != none

/-- `m_size--` on `size_t`: wraps at 0. /repo/tools/cpp/KML/include/data_structures/LinkedList.tcc:115. -/
def decr (n : ℕ) : ℕ := if n = 0 then 2 ^ 64 - 1 else n - 1

/-- `pop`; `dflt` is `T()`. /repo/tools/cpp/KML/include/data_structures/LinkedList.tcc:103-117. -/
def pop (dflt : α) (l : LinkedList α) : Res (α × LinkedList α) :=
  if l.isEmpty then .ok (dflt, l)
  else do
    let (a, n) ← l.heap.deref l.head
    let heap ← l.heap.free a
    .ok (n.value, { l with heap := heap, head := n.next, size := decr l.size })

/-- `update`. /repo/tools/cpp/KML/include/data_structures/LinkedList.tcc:31-54. The value returned by the
inner `pop()` is discarded; `dflt` is the `T()` it would return on an empty list. -/
def update (dflt : α) (l : LinkedList α) (item : α) : Res (LinkedList α) := do
  let (heap, node) := l.heap.alloc item
  let l := { l with heap := heap }
  let l ← if l.isEmpty then
      .ok { l with head := some node, tail := some node }
    else do
      -- m_tail->m_next = l_node
      let (t, tn) ← l.heap.deref l.tail
      let heap := l.heap.set t (some { tn with next := some node })
      -- l_node->m_previous = m_tail
      let (_, nn) ← Heap.deref heap (some node)
      let heap := heap.set node (some { nn with previous := l.tail })
      -- m_tail = l_node
      let l := { l with heap := heap, tail := some node }
      if l.size = l.windowSize then do
        let (_, l) ← l.pop dflt
        .ok l
      else .ok l
  .ok { l with size := l.size + 1, historyCount := l.historyCount + 1 }

/-- The loop of `reset` and of the destructor: it walks the list and `delete`s `m_previous` only when
that pointer is null, i.e. deletes nothing.
/repo/tools/cpp/KML/include/data_structures/LinkedList.tcc:22-28, 60-66.
`fuel` bounds the walk (a cyclic list would loop for ever: `ub .diverge`). -/
def sweep (h : Heap α) : (fuel : ℕ) → Option ℕ → Res (Heap α)
  | _, none => .ok h
  | 0, some _ => .ub .diverge
  | fuel + 1, some p => do
    let (_, n) ← h.deref (some p)
    -- if (!l_next->m_previous) delete l_next->m_previous;   (delete of a null pointer: no effect)
    sweep h fuel n.next

/-- `reset`. /repo/tools/cpp/KML/include/data_structures/LinkedList.tcc:56-71. -/
def reset (l : LinkedList α) : Res (LinkedList α) := do
  let (_, n) ← l.heap.deref l.head
  let heap ← sweep l.heap l.heap.length n.next
  .ok { l with heap := heap, size := 0, head := none, tail := none }

/-- `~LinkedList`: returns the heap that remains after destruction.
/repo/tools/cpp/KML/include/data_structures/LinkedList.tcc:18-29. -/
def destroy (l : LinkedList α) : Res (Heap α) := do
  let (_, n) ← l.heap.deref l.head
  sweep l.heap l.heap.length n.next

/-- The walk of `display`: the values printed, in order.
/repo/tools/cpp/KML/include/data_structures/LinkedList.tcc:91-101. Printing itself is not modelled. -/
def walk (h : Heap α) : (fuel : ℕ) → Option ℕ → Res (List α)
  | _, none => .ok []
  | 0, some _ => .ub .diverge
  | fuel + 1, some p => do
    let (_, n) ← h.deref (some p)
    let rest ← walk h fuel n.next
    .ok (n.value :: rest)

/-- `display`. /repo/tools/cpp/KML/include/data_structures/LinkedList.tcc:91-101. -/
def display (l : LinkedList α) : Res (List α) := walk l.heap l.heap.length l.head

end LinkedList

/-! ## Calls of either container -/

/-- A call on a container (public interface of `IDataStructure` plus `pop`). -/
inductive COp (α : Type) where
  | update (x : α)
  | pop
  | reset
  | size
  | empty
  | full
  deriving DecidableEq, Repr

/-- What a call returns. -/
inductive COut (α : Type) where
  | unit
  | val (x : α)
  | num (n : ℕ)
  | bool (b : Bool)
  deriving DecidableEq, Repr

/-- One call on a `RingBuffer`. /repo/tools/cpp/KML/include/data_structures/RingBuffer.tcc:19-95. -/
def RingBuffer.step {α : Type} (dflt : α) (b : RingBuffer α) : COp α → Res (COut α × RingBuffer α)
  | .update x => do let b' ← b.update x; .ok (.unit, b')
  | .pop => do let (v, b') ← b.pop dflt; .ok (.val v, b')
  | .reset => .ok (.unit, b.reset)
  | .size => .ok (.num b.size, b)
  | .empty => .ok (.bool b.isEmpty, b)
  | .full => .ok (.bool b.isFull, b)

/-- One call on a `LinkedList`. /repo/tools/cpp/KML/include/data_structures/LinkedList.tcc:31-117. -/
def LinkedList.step {α : Type} (dflt : α) (l : LinkedList α) : COp α → Res (COut α × LinkedList α)
  | .update x => do let l' ← l.update dflt x; .ok (.unit, l')
  | .pop => do let (v, l') ← l.pop dflt; .ok (.val v, l')
  | .reset => do let l' ← l.reset; .ok (.unit, l')
  | .size => .ok (.num l.size, l)
  | .empty => .ok (.bool l.isEmpty, l)
  | .full => .ok (.bool l.isFull, l)

/-- A history of calls: results in order, and the final object. -/
def runCalls {σ ο ρ : Type} (step : σ → ο → Res (ρ × σ)) : σ → List ο → Res (List ρ × σ)
  | s, [] => .ok ([], s)
  | s, o :: os => do
    let (r, s') ← step s o
    let (rs, s'') ← runCalls step s' os
    .ok (r :: rs, s'')

end KML
