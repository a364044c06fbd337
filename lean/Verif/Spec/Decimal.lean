import Mathlib.Data.Rat.Defs
import Mathlib.Data.List.Basic
import Mathlib.Algebra.Order.Field.Rat

/-!
# The number a decimal text stands for

Independent of how numbers are printed: digits, optionally a point with more digits, optionally `e`
and an exponent, with an optional sign in front and in the exponent.
-/

namespace KML.Spec

/-- The value of a string of digits. -/
def natValue (s : List Char) : ℕ := s.foldl (fun v c => 10 * v + (c.toNat - '0'.toNat)) 0

/-- Digits with at most one point. -/
def pointValue (s : List Char) : ℚ :=
  let int := s.takeWhile (· ≠ '.')
  let frac := (s.dropWhile (· ≠ '.')).drop 1
  natValue int + (natValue frac : ℚ) / (10 : ℚ) ^ frac.length

/-- An exponent with an optional sign. -/
def expValue : List Char → ℤ
  | '-' :: s => -(natValue s : ℤ)
  | '+' :: s => natValue s
  | s => natValue s

/-- A number without sign: what is before `e`, times ten to what is after it. -/
def scientificValue (s : List Char) : ℚ :=
  pointValue (s.takeWhile (· ≠ 'e')) * (10 : ℚ) ^ expValue ((s.dropWhile (· ≠ 'e')).drop 1)

/-- A number. -/
def decimalValue : List Char → ℚ
  | '-' :: s => -scientificValue s
  | s => scientificValue s

/-- -1.25e+02 and 0.001. -/
example : decimalValue "-1.25e+02".toList = -125 ∧ decimalValue "0.001".toList = 1 / 1000 := by
  decide +kernel

end KML.Spec
