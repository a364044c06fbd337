import Verif.Model.Entropy
import Verif.Model.Float

/-!
# Doubles with the sign of zero and the bits of NaN

`Dbl` identifies the two zeros and all NaNs. Here both are kept, following IEEE 754 with rounding to nearest.
Which NaN an operation returns is left to the machine (`pick`).
-/

namespace KML

/-- A double. `fin q` stands for the nonzero double of value `q`. -/
inductive SDbl
  | nan (bits : ℕ)
  | inf (neg : Bool)
  | zero (neg : Bool)
  | fin (q : ℚ)
  deriving DecidableEq, Repr

namespace SDbl

/-- The value, without the sign of a zero and the bits of a NaN. -/
def erase : SDbl → Dbl
  | nan _ => .nan
  | inf s => .inf s
  | zero _ => .fin 0
  | fin q => .fin q

/-- The sign bit of a number. -/
def sign : SDbl → Bool
  | nan _ => false
  | inf s => s
  | zero s => s
  | fin q => decide (q < 0)

/-- Round a real result; a result that is rounded to zero has the sign `neg`. -/
def ofRat (neg : Bool) (x : ℚ) : SDbl :=
  match Dbl.ofRat x with
  | .nan => .nan 0
  | .inf s => .inf s
  | .fin q => if q = 0 then .zero neg else .fin q

/-- Which bits the NaN has that an operation returns for these operands. -/
abbrev Pick := List SDbl → ℕ

variable (pick : Pick)

def neg : SDbl → SDbl
  | nan b => nan (pick [nan b])
  | inf s => inf !s
  | zero s => zero !s
  | fin q => fin (-q)

/-- A sum of zero is `+0` except for `-0 + -0`. (A sum of doubles is rounded to zero only if it is zero, `SDbl.sum_zero`.) -/
def add (a b : SDbl) : SDbl :=
  match a.erase, b.erase with
  | .nan, _ => nan (pick [a, b])
  | _, .nan => nan (pick [a, b])
  | .inf s, .inf t => if s = t then inf s else nan (pick [a, b])
  | .inf s, .fin _ => inf s
  | .fin _, .inf s => inf s
  | .fin p, .fin q => ofRat (p = 0 && q = 0 && a.sign && b.sign) (p + q)

def sub (a b : SDbl) : SDbl := add pick a (neg pick b)

def mul (a b : SDbl) : SDbl :=
  match a.erase, b.erase with
  | .nan, _ => nan (pick [a, b])
  | _, .nan => nan (pick [a, b])
  | .fin p, .fin q => ofRat (a.sign != b.sign) (p * q)
  | p, q => if p.isZero || q.isZero then nan (pick [a, b]) else inf (a.sign != b.sign)

def div (a b : SDbl) : SDbl :=
  match a.erase, b.erase with
  | .nan, _ => nan (pick [a, b])
  | _, .nan => nan (pick [a, b])
  | .inf _, .inf _ => nan (pick [a, b])
  | .inf _, .fin _ => inf (a.sign != b.sign)
  | .fin _, .inf _ => zero (a.sign != b.sign)
  | .fin p, .fin q =>
    if q = 0 then (if p = 0 then nan (pick [a, b]) else inf (a.sign != b.sign))
    else ofRat (a.sign != b.sign) (p / q)

def abs : SDbl → SDbl
  | nan b => nan (pick [nan b])
  | inf _ => inf false
  | zero _ => zero false
  | fin q => fin |q|

/-- IEEE binary64 with signed zeros. Comparisons ignore the sign of a zero; a literal or converted integer 0 is `+0`. -/
def arith : Arith SDbl where
  add := add pick
  sub := sub pick
  mul := mul pick
  div := div pick
  abs := abs pick
  lt a b := Dbl.lt a.erase b.erase
  le a b := Dbl.le a.erase b.erase
  eq a b := Dbl.eq a.erase b.erase
  lit q := ofRat (decide (q < 0)) q
  ofInt n := ofRat (decide (n < 0)) n
  round a := Dbl.round a.erase

end SDbl

end KML
