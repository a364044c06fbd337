import Verif.Model.Histogram
import Verif.Model.Float
import Mathlib.Data.Nat.Digits.Defs
import Mathlib.Data.Int.Log

/-!
# Printing a bin and a histogram

`operator<<` of `IBin` and of `IStreamingHistogram`. Text is a list of characters. The numbers are
written by `std::ostream`, whose default format for a double is `%g` with six significant digits
([ostream.formatted], 6 being the default precision) and for a `size_t` plain decimal.

Simplification: the stream is in its default state (no locale grouping, no manipulators, no
failure bit); as everywhere in the model the sign of zero is not kept, so zero prints `0`.
-/

namespace KML.Print

/-- Plain decimal, as `os << size_t` writes it. -/
def dec (n : ℕ) : List Char :=
  if n = 0 then ['0'] else (Nat.digits 10 n).reverse.map Nat.digitChar

/-- Drop the zeros at the end, as `%g` does. -/
def strip (s : List Char) : List Char := (s.reverse.dropWhile (· = '0')).reverse

/-- A decimal point and the digits after it, nothing if there are none. -/
def frac (s : List Char) : List Char := if s = [] then [] else '.' :: s

/-- The exponent of `%g`: sign and at least two digits. -/
def expText (e : ℤ) : List Char :=
  (if e < 0 then '-' else '+') :: (if e.natAbs < 10 then '0' :: dec e.natAbs else dec e.natAbs)

/-- `%g` of the number `m * 10^(e-5)`, where `m` has six digits: the fixed notation for
`-4 ≤ e < 6`, the scientific one otherwise. -/
def sixText (m : ℕ) (e : ℤ) : List Char :=
  if 0 ≤ e ∧ e < 6 then
    (dec m).take (e.toNat + 1) ++ frac (strip ((dec m).drop (e.toNat + 1)))
  else if -4 ≤ e ∧ e < 0 then
    '0' :: '.' :: (List.replicate ((-e).toNat - 1) '0' ++ strip (dec m))
  else (dec m).take 1 ++ frac (strip ((dec m).drop 1)) ++ 'e' :: expText e

/-- Six significant digits of a positive number: the mantissa and the decimal exponent. The
mantissa is rounded to nearest, ties to even; a mantissa of 10^6 becomes 10^5 with the next
exponent. -/
def sixDigits (q : ℚ) : ℕ × ℤ :=
  let e := Int.log 10 q
  let m := (rne (q / (10 : ℚ) ^ (e - 5))).toNat
  if m = 1000000 then (100000, e + 1) else (m, e)

/-- `os << x` for a finite double. -/
def number (q : ℚ) : List Char :=
  if q = 0 then ['0']
  else if q < 0 then '-' :: sixText (sixDigits (-q)).1 (sixDigits (-q)).2
  else sixText (sixDigits q).1 (sixDigits q).2

/-- `os << x` for a double. -/
def double : Dbl → List Char
  | .nan => ['n', 'a', 'n']
  | .inf true => ['-', 'i', 'n', 'f']
  | .inf false => ['i', 'n', 'f']
  | .fin q => number q

/-- `operator<<(std::ostream&, const IBin<T>&)`, `fmt` being `os << T`.
/repo/tools/cpp/KML/include/data_structures/histograms/IBin.tcc:102-107. -/
def bin {F : Type} (fmt : F → List Char) (b : Bin F) : List Char :=
  '[' :: (fmt b.left ++ ',' :: ' ' :: (fmt b.right ++ ']' :: ' ' :: '-' :: '>' :: ' ' :: dec b.count))

/-- The loop over the bins: a separator after every bin but the last.
/repo/tools/cpp/KML/include/data_structures/histograms/IStreamingHistogram.tcc:95-99. `n` is
`hist.m_bins.size()`. -/
def binsFrom {F : Type} (fmt : F → List Char) (n : ℕ) : (i : ℕ) → List (Bin F) → List Char
  | _, [] => []
  | i, b :: rest => bin fmt b ++ (if i ≠ n - 1 then [',', ' '] else []) ++ binsFrom fmt n (i + 1) rest

/-- `operator<<(std::ostream&, const IStreamingHistogram<T>&)`.
/repo/tools/cpp/KML/include/data_structures/histograms/IStreamingHistogram.tcc:91-102. -/
def hist {F : Type} (fmt : F → List Char) (h : Hist F) : List Char :=
  '(' :: (binsFrom fmt h.bins.length 0 h.bins ++ [')', '\n'])

end KML.Print
