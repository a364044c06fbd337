import Verif.Model.Concurrency

/-!
# `LinkedList::reset` in the concurrent model

`reset` is the only call of `LinkedList` besides the destructor that takes the mutex.
-/

namespace KML.Conc.LList

variable {α : Type}

/-- The loop of `reset`: `m_previous` is tested and, being null, deleted without effect; then `m_next` is followed.
/repo/tools/cpp/KML/include/data_structures/LinkedList.tcc:61-66. -/
def sweepCode (rest : LCode α (COut α)) : (fuel : ℕ) → Option ℕ → LCode α (COut α)
  | _, none => rest
  | 0, some _ => .ub .diverge
  | fuel + 1, some p =>
    -- if (!l_next->m_previous)
    deref (some p) fun a => .read (.previous a) fun (_ : Option ℕ) =>
    -- l_next = l_next->m_next
    deref (some p) fun a => .read (.next a) fun (n : Option ℕ) => sweepCode rest fuel n

/-- `reset` after taking the mutex. /repo/tools/cpp/KML/include/data_structures/LinkedList.tcc:56-71.
Modelling device: as in the sequential model the walk is bounded by the number of nodes allocated when it begins; the access
that finds the bound changes nothing. -/
def resetCode : LCode α (COut α) :=
  .rmw .brk (fun (n : ℕ) => (n : ℕ)) fun (fuel : ℕ) =>
  -- Node<T> *l_next = m_head->m_next
  .read .head fun (h : Option ℕ) => deref h fun a => .read (.next a) fun (n : Option ℕ) =>
  sweepCode (
    -- m_size = 0; m_head = nullptr; m_tail = nullptr
    .write .size (0 : ℕ) <| .write .head (none : Option ℕ) <| .write .tail (none : Option ℕ) <| .ret .unit) fuel n

/-- The calls of `Op`, and `reset`. -/
inductive ROp (α : Type) where
  | call (op : Op α)
  | reset
  deriving DecidableEq, Repr

/-- The same call in the sequential model. -/
def ROp.toCOp : ROp α → COp α
  | .call op => op.toCOp
  | .reset => .reset

/-- `LinkedList` with `reset`, which locks the mutex (LinkedList.tcc:59); the other calls do not (`guard` false), or do in a
repaired class (`guard` true). -/
def resetLib (W : ℕ) (dflt : α) (guard : Bool) : Lib (ROp α) LLoc (LVal α) (COut α) where
  code
    | .call op => (lib W dflt guard).code op
    | .reset => resetCode
  locked
    | .call _ => guard
    | .reset => true

end KML.Conc.LList
