import Mathlib.Algebra.Order.Field.Basic
import Mathlib.Algebra.Order.Floor.Defs
import Mathlib.Algebra.Order.Floor.Ring
import Mathlib.Data.Rat.Floor
import Mathlib.Data.Rat.Cast.Order

/-!
# Shared vocabulary of the model

`Res` makes C++ undefined behaviour and exceptions distinct outcomes;
`Arith` is the floating point arithmetic the statistics are computed in.
-/

set_option linter.unusedSectionVars false

namespace KML

/-- Kinds of C++ undefined behaviour the model distinguishes (no source: modelling device). -/
inductive UB
  /-- access outside a vector/deque/array -/
  | oob
  /-- integer `%` or `/` by zero -/
  | divZero
  /-- dereference of a null pointer -/
  | nullDeref
  /-- access to, or second `delete` of, a freed object -/
  | useAfterFree
  /-- read of an indeterminate (never written) value -/
  | uninit
  /-- signed integer overflow -/
  | intOverflow
  /-- conversion of an out-of-range floating value to an integer type -/
  | badConv
  /-- `std::sort` with a comparison that is not a strict weak ordering of the elements -/
  | badSort
  /-- a loop that never ends -/
  | diverge
  deriving DecidableEq, Repr

/-- Outcome of a C++ call: a value, an exception (its `what()` text), or undefined behaviour
(no source: modelling device). -/
inductive Res (α : Type) where
  | ok (a : α)
  | throw (msg : String)
  | ub (u : UB)
  deriving DecidableEq, Repr

namespace Res

variable {α β γ : Type}

/-- Sequencing: the first exception or undefined behaviour ends the call. -/
def bind (x : Res α) (f : α → Res β) : Res β :=
  match x with
  | ok a => f a
  | throw m => throw m
  | ub u => ub u

instance : Monad Res where
  pure := ok
  bind := bind

@[simp] theorem pure_eq (a : α) : (pure a : Res α) = ok a := rfl
@[simp] theorem ok_bind (a : α) (f : α → Res β) : (ok a >>= f) = f a := rfl
@[simp] theorem throw_bind (m : String) (f : α → Res β) : ((throw m : Res α) >>= f) = throw m := rfl
@[simp] theorem ub_bind (u : UB) (f : α → Res β) : ((ub u : Res α) >>= f) = ub u := rfl
@[simp] theorem map_ok (f : α → β) (a : α) : (f <$> (ok a : Res α)) = ok (f a) := rfl
@[simp] theorem map_throw (f : α → β) (m : String) : (f <$> (throw m : Res α)) = throw m := rfl
@[simp] theorem map_ub (f : α → β) (u : UB) : (f <$> (ub u : Res α)) = ub u := rfl

theorem bind_assoc (x : Res α) (f : α → Res β) (g : β → Res γ) :
    (x >>= f) >>= g = x >>= fun a => f a >>= g := by
  cases x <;> rfl

theorem bind_eq_ok {x : Res α} {f : α → Res β} {b : β} :
    (x >>= f) = ok b ↔ ∃ a, x = ok a ∧ f a = ok b := by
  cases x <;> simp

instance : LawfulMonad Res := LawfulMonad.mk'
  (id_map := fun x => by cases x <;> rfl)
  (pure_bind := fun _ _ => rfl)
  (bind_assoc := fun x _ _ => by cases x <;> rfl)

/-- The call returns normally. -/
def IsOk (x : Res α) : Prop := ∃ a, x = ok a

/-- The call is undefined behaviour. -/
def IsUB (x : Res α) : Prop := ∃ u, x = ub u

/-- The call throws. -/
def IsThrow (x : Res α) : Prop := ∃ m, x = throw m

end Res

/-- Floating point arithmetic as the C++ code uses it (`double` operators, `std::fabs`,
comparisons, literals, conversions from `size_t`/`int`, `std::round` followed by the cast to `int`).
Comparisons are `Bool`-valued and independent, because for NaN `a < b` and `b <= a` are both false. -/
structure Arith (F : Type) where
  add : F → F → F
  sub : F → F → F
  mul : F → F → F
  div : F → F → F
  abs : F → F
  lt : F → F → Bool
  le : F → F → Bool
  eq : F → F → Bool
  /-- decimal literals such as `0.0001`, and `DBL_MAX` -/
  lit : ℚ → F
  /-- `static_cast<double>` of an integer -/
  ofInt : ℤ → F
  /-- `static_cast<int>(std::round(x))` -/
  round : F → ℤ

namespace Arith

variable {F : Type}

/-- `std::max(a, b)` is `(a < b) ? b : a`. -/
def max (A : Arith F) (a b : F) : F := if A.lt a b then b else a

/-- conversion of an unsigned integer -/
def ofNat (A : Arith F) (n : ℕ) : F := A.ofInt n

end Arith

section Rounding

variable (K : Type) [Field K] [LinearOrder K] [IsStrictOrderedRing K] [FloorRing K]

/-- A rounding discipline on an ordered field: what the model assumes of IEEE rounding as long as no
operation overflows. `rnd x = x` means "`x` is a floating point number". Gradual underflow is allowed:
below `tiny` the relative error of a result is unconstrained, but differences are exact there. -/
structure Rounding where
  rnd : K → K
  mono : ∀ {x y : K}, x ≤ y → rnd x ≤ rnd y
  idem : ∀ x : K, rnd (rnd x) = rnd x
  /-- integers up to 2^53 are floating point numbers -/
  int_exact : ∀ n : ℤ, |n| ≤ 2 ^ 53 → rnd (n : K) = n
  /-- the underflow threshold; 0 if there is no underflow -/
  tiny : K
  tiny_nonneg : 0 ≤ tiny
  /-- the relative error of one operation is at most 1/4 (binary64: 2^-51 at worst) -/
  rel : ∀ x : K, tiny ≤ |x| → |rnd x - x| ≤ |x| / 4
  /-- small differences of floating point numbers are floating point numbers -/
  sub_exact : ∀ a b : K, rnd a = a → rnd b = b → |a - b| ≤ 4 * tiny → rnd (a - b) = a - b

variable {K}

/-- Arithmetic in which each operation is followed by one rounding. -/
def Rounding.arith (R : Rounding K) : Arith K where
  add a b := R.rnd (a + b)
  sub a b := R.rnd (a - b)
  mul a b := R.rnd (a * b)
  div a b := R.rnd (a / b)
  abs a := |a|
  lt a b := decide (a < b)
  le a b := decide (a ≤ b)
  eq a b := decide (a = b)
  lit q := R.rnd (q : K)
  ofInt n := R.rnd (n : K)
  round x := if 0 ≤ x then ⌊x + 1 / 2⌋ else ⌈x - 1 / 2⌉

/-- No rounding at all. -/
def Rounding.none : Rounding K where
  rnd x := x
  mono h := h
  idem _ := rfl
  int_exact _ _ := rfl
  tiny := 0
  tiny_nonneg := le_rfl
  rel x _ := by simpa using div_nonneg (abs_nonneg x) zero_le_four
  sub_exact _ _ _ _ _ := rfl

/-- Exact arithmetic on an ordered field: the algorithm without rounding error. -/
def exact (K : Type) [Field K] [LinearOrder K] [IsStrictOrderedRing K] [FloorRing K] : Arith K where
  add a b := a + b
  sub a b := a - b
  mul a b := a * b
  div a b := a / b
  abs a := |a|
  lt a b := decide (a < b)
  le a b := decide (a ≤ b)
  eq a b := decide (a = b)
  lit q := (q : K)
  ofInt n := (n : K)
  round x := if 0 ≤ x then ⌊x + 1 / 2⌋ else ⌈x - 1 / 2⌉

theorem Rounding.rnd_zero (R : Rounding K) : R.rnd 0 = 0 := by
  simpa using R.int_exact 0 (by simp)

theorem Rounding.rnd_nat (R : Rounding K) (n : ℕ) (h : n ≤ 2 ^ 53) : R.rnd (n : K) = n := by
  have := R.int_exact n (by rw [Nat.abs_cast]; exact_mod_cast h)
  simpa using this

theorem Rounding.rnd_one (R : Rounding K) : R.rnd 1 = 1 := by
  simpa using R.rnd_nat 1 (by decide)

theorem Rounding.rnd_nonneg (R : Rounding K) {x : K} (h : 0 ≤ x) : 0 ≤ R.rnd x := by
  rw [← R.rnd_zero]; exact R.mono h

theorem exact_eq_none : exact K = (Rounding.none (K := K)).arith := rfl

end Rounding

end KML
