# Formal model of shkevin/KML in Lean 4 — design

This document was written before the proofs and is kept current. It says what is
modelled, how, what each property's proof strategy is, and what is trusted.

## 1. What KML is and where the semantics lives

KML (`/repo/tools/cpp/KML`) is a small C++ library of streaming statistics and
bounded containers, with thin Cython wrappers. All semantics lives in about 1,100
lines: `RingBuffer`, `LinkedList`, `IBin`/`StreamingHistogram`, `Utils`,
`StreamingMean`, `StreamingVariance`, `WindowedFAME`, `StreamingMAD`,
`StreamingP2Quantile`, `WindowedP2Quantile`, `StreamingIQR`, `StreamingEntropy`.

## 2. Modelling conventions

* **Undefined behaviour is an outcome.** `Res α` is `ok a | throw msg | ub kind`.
  Out-of-range vector/deque access, null dereference, use after free, reads of
  indeterminate values, integer division by zero and signed overflow are `ub`.
  "Safe" theorems show `ub` is unreachable; violations are shown by reaching it.
* **Arithmetic is a parameter.** Every function that computes with `double` takes an
  `Arith F`: add, sub, mul, div, abs, <, <=, ==, literals, int conversion, `round`.
  Instances:
  `Rounding.arith R` is an ordered field `K` with each operation followed by a rounding
  `R.rnd`. A `Rounding` is monotone, idempotent, exact on integers up to 2^53, has relative
  error at most 1/4 above a threshold `tiny`, and small differences are exact (gradual
  underflow). `exact K` is the rounding that does nothing (`K` = ℚ or ℝ).
  `b53` is round to nearest even with 53 bits and unbounded exponent, `b64` adds subnormals;
  both are proved to be `Rounding`s (`R53`, `R64`). `Dbl` is finite | ±inf | NaN with
  overflow; the two zeros are identified, and so are all NaNs (C124: on `SDbl`, where they are
  not, every class returns the same up to such signs and bits). That this is IEEE 754 arithmetic is proved against an
  independent statement of the standard (`Spec/Double.lean`, C110).
  `trap A isZero` (C33) is `A` with every quotient by zero poisoned.
  A theorem stated for every `Arith` holds for real IEEE doubles too; one stated for every
  `Rounding` holds for IEEE doubles as long as no operation overflows or yields NaN; one
  stated for `exact` says what the algorithm computes without rounding error, and is
  labelled so.
  For moderate magnitudes the second kind is transferred to `Dbl` itself (C82, C83):
  `Lemmas/Double` bounds every intermediate value below the overflow threshold and shows that
  the run on `Dbl` is the run of `b64`, so all `Rounding` theorems hold there unconditionally.
  `LArith` adds `log2`, negation and the ceiling for StreamingEntropy; `realL` is the
  instance over ℝ with the real logarithm. C67 (Sturges' number of bins) is about `realL`: a
  `std::log2` that is off by one unit in the last place at a power of two would give one
  bin more or less.
* **Mutation is state passing.** Methods are functions on structures that mirror the
  C++ members; `std::vector`/`std::deque` are lists; pointers in `LinkedList` are
  addresses into an explicit heap with allocate/free, so leaks and dangling pointers
  are visible.
* **`size_t` is `Nat`** except where wrap-around is the property (C07, BitVec 64; C125). C125
  repeats the functions that compute with sizes modulo 2^64 and shows that they agree for fewer
  than 2^64 observations (2^53 where indices are stored in doubles) and every window but 2^64-1. `int` marker positions of
  P2 are `Int` with an explicit overflow check to `ub` (C34).
* **Threads.** A method body is a tree of single memory accesses (`Code`): read, write,
  atomic read-modify-write (only for the allocator). A configuration holds the memory, the
  owner of the mutex and each thread's remaining calls; a schedule is any list of thread
  ids. Memory is sequentially consistent. C++ guarantees that for programs without data
  races, and `Config.Race` says when two threads are about to make conflicting accesses.
  C05 proves there is no race among the locking calls; for the calls without lock the races
  are theorems (C06_race, C13_race) and the further consequences shown (torn size, lost
  items, double delete) happen even under the most benign reading of the race.
  `alive` and `brk` are ghost locations: `delete` checks `alive` and then clears it in a
  separate step, so two deletes of one node can overlap. LinkedList's `reset` and destructor
  are not part of the concurrent model.
* **Lifetime.** `Life` is code over a set of allocated blocks with exceptions. An object is
  represented by what its destructor does. `new` and base classes follow the C++ rules for
  a throwing constructor. What the standard containers allocate is a parameter (`Library`), and
  any allocation may be refused (C79 assumes that none is, C122 does not).
* **Python.** `PyVal` is None, int, float, str or an iterable. Conversions raise TypeError
  or OverflowError. `float` narrowing is `Dbl.narrow` (round to nearest even at 24 bits,
  subnormals from 2^-149, overflow to infinity). Objects with `__float__`/`__int__` and
  generators with side effects are not modelled. pyproject.toml leaves the Cython version open;
  whether annotations `int` and `Optional[float]` are enforced is a parameter (`class Cython`,
  two flags), and everything is proved for all four choices. Without enforcement a float given
  as a window is truncated by `__int__` (as in code generated by Cython 3.0.11). A session is a list of update and method
  calls; a raised exception ends the call, not the session.

## 3. Files

`lean/Verif/Model/*.lean` the model, function by function, with source citations.
`lean/Verif/Spec/*.lean` small independent specifications (bounded queue, last-n, mean,
variance, order statistic, entropy, frequency table, the published P² algorithm).
`lean/Verif/Lemmas/*.lean` helper lemmas. `lean/Verif/Props/*.lean` the property theorems,
named `C<nn>_...`, next to `example`s showing that their hypotheses are met by
non-trivial cases.

## 4. Properties: model and proof plan

| id | model | proof |
|----|-------|-------|
| C01, C02, C04 | RingBuffer state machine with `Option` cells (none = indeterminate) | refinement to a list queue by a representation relation, induction over calls |
| C03 | same | false at W=0 (witness: first update is out of range); partial: W>=1 |
| C05 | micro-step threads + mutex | general theorem: lock-delimited blocks are atomic; instantiated to RingBuffer |
| C06 | micro-step size() | false: witness interleaving; partial: without interference |
| C07 | BitVec 64 size() | bit-vector/Nat arithmetic |
| C08, C09, C11 | LinkedList over explicit heap | refinement to list queue; chain invariant; live-node accounting (leak on reset: witness + exact leak count) |
| C10, C12, C13 | same | false: witnesses; partial theorems for the safe part |
| C14 | batch loop in `Res` monad | induction, for any update function |
| C15–C17 | StreamingMean | running-sum invariant; error-bound induction; b64 witness for the windowed bound |
| C18–C21 | StreamingVariance | algebra on C15; b64 witness for negativity; witness for C21 |
| C22–C26 | WindowedFAME | direct; hull invariant; convergence by potential argument; simulation for equivariance; NaN witness |
| C27, C28 | StreamingMAD | "median is a natural multiple of the step" invariant (exact); b64 witness |
| C29–C39 | StreamingP2Quantile | invariant: positions strictly increasing, heights sorted, outer heights = min/max; simulation for affine maps; rank-tracking invariant for C39, on doubles with an error of 2^-18 that does not build up; witnesses for C32, C35, C37 |
| C40–C45 | WindowedP2Quantile, StreamingIQR | built on P2; witnesses for C40, C42 (doubles), C43, C45; error bound of the constant stream for C42; C43, C45 bounds carried to doubles with an explicit rounding error (WindowedDouble) |
| C46–C49 | Utils, IBin | ordered-field algebra, for any odd rounding where stated |
| C50–C63 | histogram | binary-search loop invariant; structural invariants for any arithmetic; ordering invariants in exact arithmetic; witnesses for the window, reset, quantile and getBin defects |
| C64–C68 | StreamingEntropy over ℝ with log2 | entropy recurrence; Jensen for the upper bound; witnesses for stale indices |
| C69 | Cython wrapper: narrowing to float32 then C++ container | refinement + witness 0.1 |
| C70 | all | induction; false for StreamingVariance |
| C71–C73 | Cython constructors and update loops | case analysis on arguments; induction over the items; witnesses |
| C74 | ghost count of live bins | accounting invariant over updates and resets; witness |
| C75 | StreamingP2Quantile | simulation against the published algorithm (`Spec/P2Paper`: Lagrange parabola, 1-based positions); witness for q < 1/2 |
| C76 | histogram `merge` | loop invariant: nothing seen undercuts the current minimum by more than the tolerance; witness; on doubles (`Props/HistMergeDouble.lean`) the comparison is a strict order on the gaps (C105) |
| C77 | WindowedFAME | refinement of the recursion; closed form of the step; potential argument with geometric sums |
| C78 | RingBuffer access by access | each locked call writes each index at most once, so every value read is one of a moment of rest; witness for `empty()` |
| C79 | allocation and release (`Life`): exceptions, base classes, members | compositional rules for `new`, base classes and members; witnesses |
| C80 | Cython statistics and histogram: sessions of calls | induction over the session, for any update and any method |
| C81 | Cython constructors | case analysis on the argument; witnesses |
| C82 | P2, WindowedP2, IQR on `Dbl` | simulation `Dbl` / `b64` with magnitude bounds on every intermediate value; witness ±largest double |
| C83 | StreamingMean, StreamingVariance on `Dbl` | "the sum is not finite" is invariant; simulation with `b64`; witnesses |
| C84 | StreamingMean on `Dbl` | the sum stays a multiple of 2^k below 2^53, hence exact |
| C85 | WindowedFAME step bound, exact | invariant: distance outside the data at most t, step at most S - t unless about to halve |
| C86 | WindowedFAME, StreamingMAD on `Dbl` | simulation `Dbl` / `b64` with magnitudes; "not finite" is invariant; witness near the largest double; with epsilon 0 any length (`Props/FameDefault.lean`) |
| C87 | WindowedFAME, StreamingMAD limits, exact | the step bound contracts by a fixed factor every second observation |
| C88 | StreamingHistogram on `Dbl` | simulation `Dbl` / `b64` of whole histogram runs (`Hist.Sim`); witness near the largest double |
| C89 | histogram and scaling, exact | `Hist.Sim` between the two runs; quantile witness |
| C90 | entropy and scaling, exact reals | the same simulation carried through `Entropy` |
| C91 | StreamingMAD and scaling, exact | witness; negation through C25; invariant on the error step |
| C92 | histogram pdf, cdf and quantile on `Dbl` | induction on the running sum with an absolute error per rounding; generic definedness of `quantile` |
| C93 | every unit test as a term of the model | kernel evaluation; two entropy tests by the error bound of C96; for StreamingEntropy the control flow is proved independent of the logarithm (`Lemmas/EntropySkel`) |
| C94 | StreamingMean, StreamingVariance on `Dbl` | error recurrence per operation with the size of the window sum; transfer from `b64` by C83 |
| C95 | WindowedFAME, StreamingMAD on `Dbl` | `Frozen` states are invariant under every observation (rounding is monotone); halving bounds by powers of two; a double plus a quarter of its spacing rounds back |
| C96 | StreamingEntropy on `Dbl` with an abstract accurate `log2` | `LArith.Accurate`; histogram simulated in rounded rationals (C88); error recurrence `e' = (n-1)/n e + 400u`; `x log2 x` bounded by 3/2 |
| C97 | StreamingEntropy over ℝ and on `Dbl` | `Entropy.Small`: arithmetic exact on small halves; one periodic histogram orbit proved symbolically in the history count, induction on the number of rounds |
| C98 | StreamingP2Quantile and StreamingIQR, exact; one binary64 witness | simulation: the second estimator is the first seen from the other end (`P2.Mirror`), adjustments i and 4 - i exchanged; `Untied` uses the markers of the paper |
| C99 | StreamingHistogram while filling, any symmetric rounding, doubles | invariant `Hist.Tally` with "all bins are points or the budget is used up"; a value inside a bin gives the only non-positive gap, which `merge` picks (`mergeLoop_down`) |
| C100 | StreamingHistogram::cdf while filling, exact and doubles | from `Hist.Tally`: joining bins from the left keeps the counts exact (`Tally.join`, `Tally.sum`); rounding bound from C92 |
| C101 | NaN in StreamingMean, StreamingVariance, WindowedFAME, StreamingMAD, StreamingP2Quantile; precondition of std::sort | NaN absorbs sums; streams with and without NaN related by `Fame.Same`/`Mad.Same`; `sortable` characterised on doubles; strict functions of `Model/QuantileStrict.lean` equal to the plain ones on numbers |
| C102 | StreamingMean, WindowedFAME, StreamingP2Quantile on pointwise ordered streams | relational induction over two runs; order statistics are monotone (`IsRank.mono`); witnesses; fixed-point data on doubles from C84 (`Props/P2Clear.lean`) |
| C103 | the statistics and the histogram on a permuted stream | permutation invariance of the specifications; uniqueness of the element of a rank and of the frequency table; witnesses |
| C104 | the statistics and the histogram on data times a power of two | every operation is homogeneous, so runs commute with scaling; sums of doubles never underflow inexactly |
| C105 | Utils, IBin, binSearch on doubles | exact differences of neighbouring doubles (Sterbenz), a Lipschitz bound for the rounded tolerance, mirror symmetry |
| C106 | StreamingEntropy: getBin and xlogx never throw | size of the bins after every path of the histogram update; sign of the fractions on doubles |
| C107 | StreamingHistogram with pointers (`Model/HistHeap.lean`) | ownership invariant (`Owns`), simulation with the by-value model, frame for other objects |
| C108 | `std::lower_bound` as a loop (`Model/LowerBound.lean`) | loop invariant; adding what is not negative never crosses the level downwards (monotone rounding) |
| C109 | length a histogram survives (`Props/HistThreshold.lean`) | all but the last `n - numBins` window indices stay valid; the index pushed by value `numBins + 1` is never renamed and reaches the front after 2 W more |
| C110 | the doubles of the model (`Spec/Double.lean`, `Props/Ieee.lean`) | `RoundTo` has a unique solution: numbers of the format near x are multiples of its last place, ties are consecutive multiples |
| C111 | WindowedP2Quantile and StreamingIQR on streams that end in equal observations (`Props/WindowedJump.lean`) | updates do not see the number of complete blocks (`updateAll_shift`), so the constant-stream invariant holds from every block boundary on |
| C112 | StreamingVariance on fixed-point doubles (`Props/VarianceFixed.lean`) | both running sums are exact (C84); integers that are not all equal have n S2 - S1^2 >= n - 1 (Cauchy-Schwarz), more than the three roundings can hide |
| C113 | WindowedFAME on streams of two values (`Props/FameMajority.lean`) | units `v` or `w v v`; every unit halves the step or brings the estimate one step nearer; the distance from `w` in steps doubles until it is safe |
| C114 | range of StreamingMean and StreamingVariance (`Props/MeanRange.lean`) | Popoviciu: each observation satisfies x² ≤ (lo+hi)x − lo·hi; rounding is monotone, so one rounding does not leave the range |
| C115 | decay type of StreamingHistogram (`Model/HistDecay.lean`, `Props/HistDecay.lean`) | the decay type and the nullable window pointer added; simulation step by step |
| C116 | printing (`Model/Print.lean`, `Lemmas/Print.lean`, `Props/Print.lean`) | `%g` with six digits defined on rationals; unique reading: text splits at characters no number contains; digits and exponent recovered by cases of the notation |
| C117 | setup.py (`Model/Setup.lean`, `Props/Setup.lean`) | mutual induction on the tree; replacing characters there and back |
| C118 | setup.py (`Model/Setup.lean`, `Props/Setup.lean`) | induction over the arguments |
| C119 | Cython constructors (`Props/PyStats.lean`) | case analysis on the argument, floor and ceiling |
| C120 | references into the own window or bins (`Model/Alias.lean`, `Props/Alias.lean`) | elements with addresses; every read of the reference is a read of memory; simulation with the by-value model |
| C121 | running out of memory in `update` (`Model/OutOfMemory.lean`, `Props/OutOfMemory.lean`) | one flag per allocation of a call, the caller catches and goes on; invariants over all such runs; `C121_agrees` ties the calls to the ordinary ones |
| C122 | constructors that run out of memory (`Model/Lifetime.lean`, `Props/ConstructorMemory.lean`) | the heap carries the set of refused allocations, the standard containers are a parameter; the rules of C79 with and without refusal |
| C123 | public `add` and `decayCounts` (`Model/HistPublic.lean`, `Props/HistPublic.lean`) | invariant over lists of calls |
| C124 | `Model/Signed.lean`, `Lemmas/ArithHom.lean`, `Props/SignedZero.lean` | erasing signs and bits is a homomorphism except for division by -0, and every divisor is shown not to be -0 |
| C125 | `Model/Size64.lean`, `Props/Size64.lean` | the functions that compute with sizes are repeated modulo 2^64; invariants bounding every counter by the number of observations |
| C126 | `Props/Cost.lean` | fuel as pass count; the interval halves; a search that always goes left needs every pass; bin budget C51 and window length C57 |
| C127 | `Props/HistDouble.lean` | indices are stable when only new maxima get new bins, so the queue is the list of indices of the last observations; counts follow by induction |
| C128 | `Props/HistOvercount.lean` | a stream in rounds (`2W` times the third value, `W` times the first, `W+1` times the second) after which one bin has gained `W`; a round of four for a window of one |
| C129 | `Props/HistRolled.lean` | the sum of the counts is at least the total, so the cdf reaches 1 up to rounding; the bins below the least value among the last `2W` observations are empty |
| C130 | `Props/Notebook.lean`, `Lemmas/NotebookData.lean`, `Lemmas/HistFast.lean` | MT19937 and its first 262 doubles by the kernel; the histogram on them by integer comparisons proved to decide the comparisons of binary64; C106; the two products cancel exactly |
| C131 | `Props/EntropyMerged.lean` | `n H` grows by `D(n) - D(c)`, `D` nonnegative and increasing by convexity of `x log x`; minima at three times the distance are never merged on arrival; entropy of m counts at most log2 m |
| C132 | `Props/SetupVersion.lean` | the last line found by induction over the text before it; a printed item is read back by the parser; `decide +kernel` for whole files |
| C133 | `Props/PyThreads.lean` | one turn of a thread is a history of at most one operation; induction over the turns builds the common history; then C01 and C08 |
| C134 | `Props/EntropyFull.lean` | `decrement` on doubles adds at most `380u`; its factor `W/(W-1)` cancels the one of `increment` (C96), so errors add up instead of growing |
| C135 | `Props/ConcReset.lean` | `reset` joins the calls of C13; schedules for the negations; under the mutex by the same invariant and the sequential refinement of C09 |
| C136 | `Props/PyStatThreads.lean` | one turn of a thread is a history of at most one C++ call; induction over the turns; the numbers of the history are a permutation of those given, then C84 |
| C137 | `Props/FameDefault.lean` | with epsilon 0 the step is kept or halved; rounding is monotone and idempotent, so the estimate stays between the rounded ends; a difference that overflows compares as the exact one does |
| C138 | `Props/HistInfinite.lean` | a tolerant comparison with an infinity or NaN is false, so the search ends at the first bin and `merge` skips the difference to it |
| C139 | `Props/P2Infinite.lean` | the adjustment of a height adds to it a multiple of a difference with its neighbours, so NaN and infinities spread and stay |
| C140 | `Props/SetupFlags.lean` | induction over the list: `remove` splits the command at the first occurrence |
| C141 | `Props/WindowedInfinite.lean` | five observations after `clear` leave nothing of the old heights, and the positions increase whatever is observed; from there on the simulation of C82 |
| C142 | `Model/PublicWindow.lean`, `Props/PublicWindow.lean` | invariant: head and tail lie in the buffer of the constructor; simulation by a buffer with the shorter array |
| C143 | `Props/PublicWindow.lean` | `update` sees the window size only in one comparison, so a list is an unbounded list except at equality |
| C144 | `Props/PublicDeque.lean` | the difference of sum and window is invariant under `update` |
| C145 | `Props/PublicCount.lean` | `linear` rounds towards the segment between two heights in either order, so no order of the heights is needed for the range |
| C146 | `Props/PublicCount.lean` | sum and window of StreamingMean do not depend on the count |
| C147 | `Props/PublicCount.lean` | calls commute with assignments of the count, by induction on the history |
| C148 | `Props/BinAssign.lean` | induction on the chain: it denotes its root until the first `+=`, a temporary afterwards |
| C149 | `Props/TestMain.lean` | a filter that removes whole bracket kinds keeps nesting, by induction with the stack of open brackets |
| C150 | `Props/PublicCountWindowed.lean` | the previous estimate lies in the interval whatever the count, so the combination extrapolates by at most W - 1 widths |
| C151 | `Props/PublicCountFame.lean` | two states that differ in non-zero counts behave alike; the median within one largest step of the interval |
| C152 | `Props/HistPublicWindow.lean` | the total count as a function of the calls and assignments alone; the deque is always the constructor's window longer than the total |
| C153 | `Props/HistEdit.lean` | writes through the pointer of `getBin`: definedness up to the threshold of C109, the sum of the counts, counts do not influence edges while the window fills |
| C154 | `Props/HistDeque.lean` | a derived class changes the deque that the protected `getWindow` returns: the first index decides; no influence while the window fills |

Properties that the unchanged code violates keep their full statement as a
`def C.._full : Prop`; the file proves its negation from a concrete reachable witness and
proves a `_partial` theorem describing exactly the part that holds.

## 5. Trusted base

* Lean 4.33.0's kernel. Axioms: at most `propext`, `Classical.choice`, `Quot.sound`.
  No `native_decide`, no `bv_decide`, no own axioms.
* The reading of the C++ and Cython source into the model (citations on every definition).
* Simplifications, each also stated at the definition: `size_t` is `Nat` (C125 says when this is
  right: not for `m_windowSize + 1` with the largest window); `std::lower_bound` on a sorted
  range is "number of leading smaller elements" (C108 proves it equal to the loop, and its precondition on doubles); `std::sort` is insertion sort; its
  precondition (undefined with NaN among different numbers) is checked in the strict functions of
  `Model/QuantileStrict.lean`, which C101 proves equal to the plain ones on numbers; histogram bins are kept by value with a ghost count of
  live bins (C107 proves this equal to `Model/HistHeap.lean`, where `m_bins` holds pointers into a heap); a bin index stored in a `deque<double>` converts back unchanged (C125); the sign of a zero is
  ignored (C124 shows that it does not matter); the operands of `evaluate` in StreamingIQR are evaluated in a fixed order (they
  are independent objects); arguments passed by `const` reference are values (C120 says when that is right).
* Not modelled: `std::bad_alloc` outside of constructors and `update` (for those see C121 and C122), weak memory, stream state (locale, manipulators), the copy/move
  members that do not compile if used, `ITransformer`/`AdaptiveNormalizer`/`IOptimizer`
  (stubs without behaviour), of the build script the options of the compiler.

## 6. Where the code and its documentation disagree

Each line is a theorem `C.._violated` with a concrete reachable witness; the rest of the
property is proved as `_partial`.

| id | what happens |
|----|--------------|
| C03 | RingBuffer(0): the first `update` writes out of range |
| C06 | `size()` without lock can return 2^64-1 while another thread updates |
| C10 | LinkedList: `reset()` and the destructor of an empty list dereference null |
| C11 | LinkedList: `reset()` and the destructor free nothing |
| C12, C63 | `full()` of LinkedList and of the histogram means "not empty" |
| C13 | LinkedList takes no lock: lost items, double delete, use after free |
| C17 | StreamingMean: cancellation leaves an error that the window cannot bound |
| C19, C28 | variance and MAD can be negative in binary64 (MAD down to -0.05 and never below) |
| C21, C70 | StreamingVariance: history count stays 0, window stays empty |
| C26, C29 | NaN passes the range checks of WindowedFAME and StreamingP2Quantile |
| C32 | StreamingP2Quantile: unused zeros take part before five observations |
| C34 | StreamingP2Quantile: `int` positions overflow after 2^31 observations |
| C35 | StreamingP2Quantile: an early `evaluate()` reorders the data and later loses some |
| C37 | StreamingP2Quantile: `clear()` keeps heights and positions |
| C40, C44 | WindowedP2Quantile and StreamingIQR with the default window 0 divide by zero |
| C42 | WindowedP2Quantile of a constant stream is off by rounding once the window has slid, and NaN for the largest double |
| C43 | WindowedP2Quantile: weights outside [0,1] |
| C45 | StreamingIQR can be negative |
| C48 | tolerant bin comparison: ties are not transitive |
| C53, C55, C57 | histogram: the index queue starts with W zeros, so evictions hit wrong or missing bins |
| C60, C61 | histogram `quantile`: reads past the end; not monotone; the median of a 0 and n ones is n/numBins |
| C62 | histogram `reset()` keeps the total count; reset after the window was full, it never counts anything again (every observation is evicted as soon as it is placed) |
| C66 | StreamingEntropy: stale indices, wrong value or out-of-range bin after eviction |
| C69 | the Python containers narrow to 32-bit float |
| C71 | Python: the documented default window None raises TypeError |
| C72 | Python: a failing `update(iterable)` keeps the items before the failure |
| C73 | Python: PyStreamingIQR ignores `low` when `high` is missing |
| C74 | histogram: every bin ever allocated leaks |
| C75 | StreamingP2Quantile below 1/2 adjusts the markers in the opposite order to the paper |
| C76 | histogram `merge`: of gaps equal within 1e-4 the first is taken, not the smallest |
| C78 | RingBuffer `empty()`: can return true while the buffer always holds something, if an update happens during the call |
| C79 | `StreamingIQR(low, high)` leaks the low quantile object if `high` is rejected; `StreamingEntropy` never deletes its histogram; PyRingBuffer, PyLinkedList and PyStreamingHistogram never delete their C++ object |
| C81 | Python: NaN is accepted as a quantile and as epsilon; PyStreamingEntropy(0, 0) converts an infinite value to an integer |
| C82 | StreamingP2Quantile: finite doubles near the largest overflow; the estimate becomes NaN |
| C83 | StreamingMean: one infinity, or an overflow of the sum, is never forgotten although the window moves on |
| C86 | WindowedFAME: two finite doubles near the largest make the estimate infinite for ever |
| C88 | StreamingHistogram: with one bin, {0, largest double} finds no pair to merge and reads a bin past the end |
| C89 | quantiles of bins of width 0 use the width 1/numBins whatever the unit of the data |
| C91 | StreamingMAD: the deviation moves by 0.1 at most per observation whatever the unit of the data |
| C92 | `cdf()` on doubles: ten bins with one observation each end at 0.9999999999999999; `quantile(NaN)` is not rejected |
| C93 | the unit test TestUniformEntropyWithDecrement (C++ and Python) reads a bin past the end of the vector; it passes because the stale pointer is still there |
| C95 | WindowedFAME, default parameters: 56 observations of 10, then the result is 10 for ever even if only 1000 is observed; StreamingMAD likewise 0 for ever |
| C97 | `StreamingEntropy(2)`: 1, 1, 2 repeated k+2 times gives exactly -k bits (an entropy is never negative); 1, 1, 2, 2, 3 repeated with 3 bins grows by half a bit per round |
| C98 | the median of 0, 8, 9, 10, 6, 3, 4 is reported as 19/3, that of the negated numbers as -8 (adjustment order is ascending for every level from 1/2 on); ties with a marker and half-integer ranks of five also break the symmetry |
| C99 | the union of two bins ignores a right edge less than 10^-6 larger, so a slowly descending stream is reported as one bin at its minimum (2000004, …, 2000000 gives [2000000, 2000000] with count 5); after the window is full bins can overlap |
| C100 | the cdf of a slowly descending stream is 1 at its minimum |
| C101 | std::sort of NaN is undefined; later NaNs are ignored (FAME, MAD) or replace the maximum (P²) |
| C102 | raising one observation can lower the estimate of WindowedFAME, of StreamingP2Quantile and of the windowed mean of doubles |
| C103 | the median and quantile estimates, and the histogram once bins are merged, depend on the order of the observations; so does the mean of doubles |
| C104 | scaling the data by a power of two is not exact among subnormal numbers |
| C111 | a jump in the data makes the windowed quantile overshoot by up to windowSize - 1 times its height; an outlier stays visible for 2 windows |
| C113 | the stream 3, 2, 3, 2, 3 repeated: the median estimate converges to 2 |
| C114 | 0.1, 0.1, 0.1: the mean is 0.10000000000000002; 1, 2^53, 0, 0 with window 2: the mean is -1/2 |
| C115 | StreamingHistogram(5, 5, DecayType(0)): the first update writes through a null pointer |
| C116 | the printed boundaries have six digits: histograms of 1 and of 1 + 2^-30 print alike |
| C117 | setup.py looks for kml/fast.mean.pyx as kml/fast/mean.pyx |
| C118 | `setup.py build_ext --build-lib out` uses a directory called `--build-lib` |
| C119 | a fractional window size is truncated: `PyRingBuffer(2.5)` holds two items, `PyStreamingMean(-0.5)` has window 0 |
| C120 | `mean.update(mean.getWindow()->front())` with a full window reads the element it has just removed |
| C121 | an `update` that throws `bad_alloc` has already changed the object: the mean loses its oldest observation (NaN for a window of one), the variance can be negative, a histogram keeps one bin or one observation too many, the entropy is NaN for ever |
| C122 | `StreamingVariance`, `StreamingIQR` and `StreamingMAD` leak their first member if allocating the second throws |
| C123 | the public `add` never merges: the number of bins is unbounded and is not repaired by `update`; the public `decayCounts` does nothing |
| C125 | the windowed quantile and the interquartile range divide by zero on the first update if the window is 2^64-1 |
| C127 | An observation is evicted `2 * windowSize` updates after it came, not `windowSize` (C127) |
| C128 | The bin counts can exceed the total count without limit, so normalised pdf and cdf values are unbounded too (C128) |
| C129 | `quantile` divides by the count of the bin it interpolates in (IStreamingHistogram.tcc:242), and a bin emptied by evictions stays in the vector: 1, 2, 2 with a window of two has the median +inf (C129) |
| C130 | The notebook StreamingEntropy.ipynb itself executes undefined behaviour: its 262nd uniform number makes `getBin` read past the end of the bins (C130). The value it records, 7.3305..., is more than log2 of its 100 bins, 6.6438... |
| C131 | A merge of two bins leaves the entropy unchanged although the entropy of the counts drops, so `evaluate` can exceed log2 of the number of bins by any amount (C131); the notebook shows 7.33 with 100 bins |
| C132 | `get_version` documents a quoted version on the last line but returns three of its characters for one; it works for the tuple `setuptools_scm` writes, and drops the development mark of a three-part version (C132) |
| C133 | The Python wrappers keep the interpreter lock during C++ calls but not during a whole `update` with an iterable, so updates of two threads can mix (C133) |
| C135 | `LinkedList::reset` locks a mutex that no other call takes: an `update` under way leaves an empty list of `size()` 1, a `pop` lets the walk read a deleted node |
| C136 | The mean of doubles depends, by rounding, on how Python threads took turns |
| C137 | The step of `WindowedFAME` on doubles can exceed the bound that holds in exact arithmetic (C85), since a difference that rounds away is not seen |
| C138 | `StreamingHistogram` counts `+∞` in its lowest bin; after a first `-∞` all observations are counted in that bin (C138) |
| C139 | one infinite observation makes `StreamingP2Quantile` infinite or NaN for good soon after (C139) |
| C140 | `setup.py` removes `-Wstrict-prototypes` once only |
| C141 | one `+infinity` can make the windowed median `-infinity` for up to two windows |
| C142 | a larger `m_windowSize` (public) makes RingBuffer write out of range |
| C143 | a smaller `m_windowSize` (public) makes LinkedList grow without bound |
| C144 | editing the deque of StreamingMean through `getWindow()` falsifies its value for ever |
| C145 | assigning `m_historyCount` of a StreamingP2Quantile can unsort its heights; the range of the values survives |
| C146 | without a window StreamingMean divides by the public `m_historyCount` |
| C147 | the counts of StreamingVariance (never incremented), StreamingMAD, StreamingIQR and StreamingEntropy have no influence on values |
| C148 | `(a += b) += c` on bins loses `c`: `operator+=` returns by value |
| C149 | the comment in tests/main.cc says that everything is turned off; only the environment is |
| C150 | an assigned count can make WindowedP2Quantile extrapolate from the initial previous estimate 0, before any window was closed (five ones reported as 10) |
| C151 | a nonzero count assigned before the first observation skips the initialisation of WindowedFAME, which then walks from 0 with the given step |
| C152 | lowering m_windowSize of a histogram never takes effect through updates; the caller must call decayCounts once per observation too many (C152_violated, C152_decay_partial) |
| C153 | getBin returns a pointer to a mutable bin; a caller's write can make binCounts throw or the next update undefined (C153_violated, C153_violated_undefined) |
| C154 | the protected getWindow gives derived classes the deque of bin indices itself; a written index beyond the bins makes the next update undefined (C154_violated, C154_undefined) |

## 7. Testing the theorems

`seeded/LOG.jsonl` records wrong programs: one edit of a model definition each, the claim it
falsifies, the manifest theorems that then fail (an error in the theorem or in a lemma it
uses), and what was tightened where a wrong program got through. They are run in a copy
outside this repository; failing lemmas are replaced by `sorry` there so that later files
still build, and a theorem counts as failed if it errs or depends on `sorryAx`.

### Comparison with recorded outputs

The real program is not run here, but the repository records two of its results in StreamingEntropy.ipynb (C130): `0.0` for a
thousand ones and `7.330546350478285` for a thousand uniform numbers. Outside the proofs the model was evaluated on the same
data with the machine's `double` as arithmetic (`Arith Float`). It gives 0.0 for the ones. On the uniform numbers it reports an
out-of-range read at the observations 261, 390, 441, 446, 475, 499, 518, 531 and 847 (counted from 0); if each of these reads
is given what the vector's storage still holds there, the bin that was just pushed and then moved down by `merge` (count 1), the result is
7.330546350478285, equal to the recorded one in all bits. So the model of the histogram and of the entropy agrees with the
compiled program on this run, undefined reads included.
