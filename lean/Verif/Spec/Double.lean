import Mathlib.Algebra.Order.Field.Basic
import Mathlib.Algebra.Field.Rat
import Mathlib.Algebra.Order.Ring.Rat
import Mathlib.Algebra.Ring.Parity

/-!
# Binary floating point formats (IEEE 754), independently of how a program computes with them
-/

namespace KML.IEEE

/-- The numbers `m * 2 ^ k` with a significand of `p` binary digits and smallest exponent `emin`; the exponent is not
bounded above. -/
def InFormat (p : ℕ) (emin : ℤ) (x : ℚ) : Prop := ∃ m k : ℤ, |m| < 2 ^ p ∧ emin ≤ k ∧ x = m * (2 : ℚ) ^ k

/-- The last digit of the significand is 0. The significand is normalised: it has `p` digits, unless the exponent is the
smallest one. -/
def LastDigitEven (p : ℕ) (emin : ℤ) (x : ℚ) : Prop :=
  ∃ m k : ℤ, Even m ∧ |m| < 2 ^ p ∧ emin ≤ k ∧ (k = emin ∨ 2 ^ (p - 1) ≤ |m|) ∧ x = m * (2 : ℚ) ^ k

/-- `r` is `x` rounded to the nearest number of the format; of two nearest ones, the one with an even last digit
(`roundTiesToEven`). -/
def RoundTo (p : ℕ) (emin : ℤ) (x r : ℚ) : Prop :=
  InFormat p emin r ∧ (∀ y, InFormat p emin y → |x - r| ≤ |x - y|) ∧
    ∀ y, InFormat p emin y → y ≠ r → |x - y| = |x - r| → LastDigitEven p emin r

end KML.IEEE
