import Verif.Model.Base

/-!
# Concrete floating point arithmetic

No source in /repo: this is what the C++ type `double` means (IEEE 754 binary64, round to nearest, ties
to even), used for counterexamples and to show that `Rounding` is inhabited by real rounding.
-/

namespace KML

/-- `2 ^ e` as a rational, computed by cases so that the kernel evaluates it quickly. -/
def pow2 : ℤ → ℚ
  | .ofNat n => ((2 ^ n : ℕ) : ℚ)
  | .negSucc n => mkRat 1 (2 ^ (n + 1))

/-- The exponent of `x ≠ 0`: `2 ^ expo x ≤ |x| < 2 ^ (expo x + 1)` (`expo_spec`). -/
def expo (x : ℚ) : ℤ :=
  let e : ℤ := (Nat.log2 x.num.natAbs : ℤ) - (Nat.log2 x.den : ℤ)
  if pow2 e ≤ |x| then e else e - 1

/-- Nearest integer, ties to even. -/
def rne (q : ℚ) : ℤ :=
  let f := ⌊q⌋
  let r := q - f
  if r < 1 / 2 then f else if 1 / 2 < r then f + 1 else if f % 2 = 0 then f else f + 1

/-- Nearest multiple of `2 ^ k`, ties to even. -/
def rndAt (k : ℤ) (x : ℚ) : ℚ := (rne (x / pow2 k) : ℚ) * pow2 k

/-- Round to 53 significant bits (unbounded exponent range). -/
def rnd53 (x : ℚ) : ℚ := if x = 0 then 0 else rndAt (expo x - 52) x

/-- 53-bit arithmetic with unbounded exponent: binary64 without overflow and underflow. -/
def b53 : Arith ℚ where
  add a b := rnd53 (a + b)
  sub a b := rnd53 (a - b)
  mul a b := rnd53 (a * b)
  div a b := rnd53 (a / b)
  abs a := |a|
  lt a b := decide (a < b)
  le a b := decide (a ≤ b)
  eq a b := decide (a = b)
  lit q := rnd53 q
  ofInt n := rnd53 n
  round x := if 0 ≤ x then ⌊x + 1 / 2⌋ else ⌈x - 1 / 2⌉

/-- Round to the nearest multiple of the unit in the last place, subnormals included (exponent unbounded
above). -/
def rnd64 (x : ℚ) : ℚ := if x = 0 then 0 else rndAt (max (expo x - 52) (-1074)) x

/-- Binary64 arithmetic, gradual underflow included, without overflow. -/
def b64 : Arith ℚ where
  add a b := rnd64 (a + b)
  sub a b := rnd64 (a - b)
  mul a b := rnd64 (a * b)
  div a b := rnd64 (a / b)
  abs a := |a|
  lt a b := decide (a < b)
  le a b := decide (a ≤ b)
  eq a b := decide (a = b)
  lit q := rnd64 q
  ofInt n := rnd64 n
  round x := if 0 ≤ x then ⌊x + 1 / 2⌋ else ⌈x - 1 / 2⌉

/-- The values of a `double` (the two zeros are identified, as are all NaNs; C124 justifies this). -/
inductive Dbl
  | nan
  | inf (neg : Bool)
  | fin (q : ℚ)
  deriving DecidableEq, Repr

namespace Dbl

/-- Round a real result: overflow to infinity. -/
def ofRat (x : ℚ) : Dbl :=
  let r := rnd64 x
  if (2 ^ 53 - 1) * 2 ^ 971 < |r| then .inf (decide (r < 0)) else .fin r

/-- sign bit (of a non-NaN) -/
def isNeg : Dbl → Bool
  | nan => false
  | inf s => s
  | fin q => decide (q < 0)

def isZero : Dbl → Bool
  | fin q => decide (q = 0)
  | _ => false

def neg : Dbl → Dbl
  | nan => nan
  | inf s => inf !s
  | fin q => fin (-q)

def add : Dbl → Dbl → Dbl
  | nan, _ => nan
  | _, nan => nan
  | inf s, inf t => if s = t then inf s else nan
  | inf s, fin _ => inf s
  | fin _, inf s => inf s
  | fin a, fin b => ofRat (a + b)

def sub (a b : Dbl) : Dbl := add a (neg b)

def mul : Dbl → Dbl → Dbl
  | nan, _ => nan
  | _, nan => nan
  | fin a, fin b => ofRat (a * b)
  | a, b => if a.isZero || b.isZero then nan else inf (a.isNeg != b.isNeg)

/-- `x / 0` gets the sign of `x` (the zero counts as positive; no class divides by `-0`, C124). -/
def div : Dbl → Dbl → Dbl
  | nan, _ => nan
  | _, nan => nan
  | inf _, inf _ => nan
  | inf s, b => inf (s != b.isNeg)
  | fin _, inf _ => fin 0
  | fin a, fin b => if b = 0 then (if a = 0 then nan else inf (decide (a < 0))) else ofRat (a / b)

def abs : Dbl → Dbl
  | nan => nan
  | inf _ => inf false
  | fin q => fin |q|

def lt : Dbl → Dbl → Bool
  | nan, _ => false
  | _, nan => false
  | inf s, inf t => s && !t
  | inf s, fin _ => s
  | fin _, inf s => !s
  | fin a, fin b => decide (a < b)

def eq : Dbl → Dbl → Bool
  | nan, _ => false
  | _, nan => false
  | inf s, inf t => s == t
  | fin a, fin b => decide (a = b)
  | _, _ => false

def le (a b : Dbl) : Bool := lt a b || eq a b

/-- `static_cast<int>(std::round(x))`; out of range values are undefined in C++ and mapped to `-1`, which
no caller of the model accepts as an index. -/
def round : Dbl → ℤ
  | fin x => if 0 ≤ x then ⌊x + 1 / 2⌋ else ⌈x - 1 / 2⌉
  | _ => -1

/-- IEEE binary64. -/
def arith : Arith Dbl where
  add := add
  sub := sub
  mul := mul
  div := div
  abs := abs
  lt := lt
  le := le
  eq := eq
  lit q := ofRat q
  ofInt n := ofRat n
  round := round

end Dbl

end KML
