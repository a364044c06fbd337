import Mathlib.Algebra.Order.Field.Basic
import Mathlib.Data.Fin.VecNotation
import Mathlib.Data.List.Sort

/-!
# Specification: the P² algorithm as published

R. Jain and I. Chlamtac, "The P² algorithm for dynamic calculation of quantiles and histograms without
storing observations", Communications of the ACM 28 (10), 1985, Box 1. Nothing here refers to the model.
Markers are numbered 0 to 4 (1 to 5 in the paper); marker positions count from 1 as in the paper.
-/

namespace KML

namespace Spec

namespace Paper

variable {K : Type} [Field K] [LinearOrder K]

/-- The five markers: heights and actual positions. -/
structure Markers (K : Type) where
  height : Fin 5 → K
  pos : Fin 5 → ℤ

/-- Fractions of the sample below the five markers for the quantile `p` (A of Box 1: dn'). -/
def fraction (p : K) : Fin 5 → K := ![0, p / 2, p, (1 + p) / 2, 1]

/-- The desired position of marker `i` after `n` observations: 1 + (n-1) dn'. -/
def desired (p : K) (n : ℕ) (i : Fin 5) : K := 1 + ((n : K) - 1) * fraction p i

/-- The line through `(a, u)` and `(b, v)`, at `t`. -/
def line (a u b v t : K) : K := u + (v - u) * (t - a) / (b - a)

/-- The parabola through `(a, u)`, `(b, v)` and `(c, w)`, at `t` (Lagrange's formula). -/
def parabola (a u b v c w t : K) : K :=
  u * ((t - b) * (t - c)) / ((a - b) * (a - c)) + v * ((t - a) * (t - c)) / ((b - a) * (b - c)) +
    w * ((t - a) * (t - b)) / ((c - a) * (c - b))

/-- Box 1, B.1 and B.2: the extreme markers take in the observation, and the markers above it move up one
position. A marker other than the extremes is above the observation when its height exceeds it. -/
def observe (m : Markers K) (x : K) : Markers K where
  height := ![min (m.height 0) x, m.height 1, m.height 2, m.height 3, max (m.height 4) x]
  pos i := if i = 0 then m.pos 0 else if i = 4 then m.pos 4 + 1
    else if x < m.height i then m.pos i + 1 else m.pos i

/-- Marker `i`, whose neighbours are `l` and `r`, moves by `s` (1 or -1): the new height is that of the
parabola through the three markers at the new position, if this lies strictly between the neighbours'
heights, and otherwise that of the line through the marker and its neighbour in the direction of the
move. -/
def move (m : Markers K) (l i r : Fin 5) (s : ℤ) : Markers K where
  height := Function.update m.height i <|
    let t : K := (m.pos i + s : ℤ)
    let c := parabola (m.pos l : K) (m.height l) (m.pos i : K) (m.height i) (m.pos r : K) (m.height r) t
    if m.height l < c ∧ c < m.height r then c
    else if s = 1 then line (m.pos i : K) (m.height i) (m.pos r : K) (m.height r) t
    else line (m.pos i : K) (m.height i) (m.pos l : K) (m.height l) t
  pos := Function.update m.pos i (m.pos i + s)

/-- Box 1, B.3: marker `i` is off its desired position by one or more, and there is room to move it. -/
def settle (p : K) (n : ℕ) (m : Markers K) : Fin 5 × Fin 5 × Fin 5 → Markers K
  | (l, i, r) =>
    if 1 ≤ desired p n i - m.pos i ∧ m.pos i + 1 < m.pos r then move m l i r 1
    else if desired p n i - m.pos i ≤ -1 ∧ m.pos l + 1 < m.pos i then move m l i r (-1)
    else m

/-- The middle markers with their neighbours, in the order of Box 1. -/
def ascending : List (Fin 5 × Fin 5 × Fin 5) := [(0, 1, 2), (1, 2, 3), (2, 3, 4)]

/-- The middle markers in the opposite order. -/
def descending : List (Fin 5 × Fin 5 × Fin 5) := [(2, 3, 4), (1, 2, 3), (0, 1, 2)]

/-- Box 1, B: one observation; `n` counts it. -/
def step (order : List (Fin 5 × Fin 5 × Fin 5)) (p : K) (n : ℕ) (m : Markers K) (x : K) : Markers K :=
  order.foldl (settle p n) (observe m x)

/-- Box 1, A: the markers after the first five observations. -/
def start (first : List K) : Markers K where
  height i := (first.insertionSort (· ≤ ·)).getD i 0
  pos i := i + 1

/-- The markers after the observations `rest` that follow the first `n`. -/
def steps (order : List (Fin 5 × Fin 5 × Fin 5)) (p : K) : ℕ → Markers K → List K → Markers K
  | _, m, [] => m
  | n, m, x :: rest => steps order p (n + 1) (step order p (n + 1) m x) rest

/-- The markers after the observations `xs`, of which there are at least five. -/
def markers (order : List (Fin 5 × Fin 5 × Fin 5)) (p : K) (xs : List K) : Markers K :=
  steps order p 5 (start (xs.take 5)) (xs.drop 5)

/-- The estimate of the `p`-quantile of `xs`: the height of the middle marker, the middle markers being
adjusted in the given order. -/
def estimate (order : List (Fin 5 × Fin 5 × Fin 5)) (p : K) (xs : List K) : K :=
  (markers order p xs).height 2

end Paper

end Spec

end KML
