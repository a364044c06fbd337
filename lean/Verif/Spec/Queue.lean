import Verif.Model.Containers

/-!
# Specification: a plain queue

A list, oldest item first. `cap = none` is an unbounded queue. Nothing here mentions heads, tails,
buffers or nodes.
-/

namespace KML.Spec

variable {α : Type}

/-- Append `x`; if that exceeds the capacity, drop the oldest item. -/
def push (cap : Option ℕ) (q : List α) (x : α) : List α :=
  match cap with
  | none => q ++ [x]
  | some W => if q.length < W then q ++ [x] else (q ++ [x]).tail

/-- One call on a queue of capacity `cap`; `fullFn` says what `full()` returns. -/
def qstep (dflt : α) (cap : Option ℕ) (fullFn : List α → Bool) (q : List α) :
    COp α → COut α × List α
  | .update x => (.unit, push cap q x)
  | .pop => match q with
    | [] => (.val dflt, [])
    | x :: xs => (.val x, xs)
  | .reset => (.unit, [])
  | .size => (.num q.length, q)
  | .empty => (.bool q.isEmpty, q)
  | .full => (.bool (fullFn q), q)

/-- A history of calls. -/
def qrun (dflt : α) (cap : Option ℕ) (fullFn : List α → Bool) :
    List α → List (COp α) → List (COut α) × List α
  | q, [] => ([], q)
  | q, o :: os =>
    let (r, q') := qstep dflt cap fullFn q o
    let (rs, q'') := qrun dflt cap fullFn q' os
    (r :: rs, q'')

/-- The last `n` elements of a list. -/
def lastN (n : ℕ) (l : List α) : List α := l.drop (l.length - n)

/-- The window of a streaming statistic: the last `W` items, or everything if `W = 0`. -/
def windowOf (W : ℕ) (l : List α) : List α := if W = 0 then l else lastN W l

end KML.Spec
