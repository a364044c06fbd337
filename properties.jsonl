{"id": "C01", "title": "RingBuffer is a bounded FIFO that overwrites the oldest item", "statement": "For a RingBuffer built with windowSize W >= 1, any sequence of update, pop, reset, size, empty and full calls returns exactly what a plain queue of capacity W returns: update appends and, when W items are held, drops the oldest; pop removes and returns the oldest item, or T() on an empty buffer; reset empties it.", "quantifier": "every windowSize >= 1, every element type and every finite sequence of calls", "why_tests_cant": "The head/tail indices wrap; every phase of wrap-around combined with every pop/reset position would have to be tried.", "anchors": ["tools/cpp/KML/include/data_structures/RingBuffer.tcc: RingBuffer::update, pop, reset, size, empty, full"]}
{"id": "C02", "title": "RingBuffer never touches memory it should not", "statement": "With windowSize >= 1 no sequence of calls reads or writes outside the allocated array, reads an element that was never written, or divides by zero.", "quantifier": "every windowSize >= 1 and every finite sequence of calls", "why_tests_cant": "Absence of undefined behaviour on all histories cannot be sampled; an uninitialised read usually looks like a plausible value.", "anchors": ["tools/cpp/KML/include/data_structures/RingBuffer.tcc: RingBuffer::update, pop"]}
{"id": "C03", "title": "RingBuffer accepts every documented window size, including 0", "statement": "The documented range of windowSize is [0, ..): every method is defined for every window size in it.", "quantifier": "every windowSize >= 0 and every call", "why_tests_cant": "Undefined behaviour at the boundary is not observable by a passing test.", "anchors": ["tools/cpp/KML/include/data_structures/IDataStructure.h: constructor doc", "tools/cpp/KML/include/data_structures/RingBuffer.tcc: RingBuffer::update"]}
{"id": "C04", "title": "RingBuffer size, empty and full agree", "statement": "At every point of every history size() <= windowSize, full() is true exactly when size() == windowSize, empty() exactly when size() == 0, and size() is the number of items that successive pops would return.", "quantifier": "every windowSize >= 1 and every history of calls", "why_tests_cant": "The size formula has three branches depending on the relative order of two wrapping indices.", "anchors": ["tools/cpp/KML/include/data_structures/RingBuffer.tcc: RingBuffer::size, full, empty"]}
{"id": "C05", "title": "RingBuffer update, pop and reset are thread safe", "statement": "When any number of threads call update, pop and reset concurrently, every execution is equivalent to running the same calls one at a time in the order in which they took the lock: same return values, same final buffer.", "quantifier": "every number of threads, every program of calls per thread and every interleaving of their individual memory accesses", "why_tests_cant": "The number of interleavings is astronomically large and the scheduler is not controllable from a test.", "anchors": ["tools/cpp/KML/include/data_structures/RingBuffer.tcc: std::lock_guard in update, pop, reset"]}
{"id": "C06", "title": "RingBuffer size() stays within the window under concurrency", "statement": "A call of size() that runs concurrently with update/pop never returns more than windowSize.", "quantifier": "every interleaving of size() with concurrent updates", "why_tests_cant": "Needs a specific preemption between two reads of the same field.", "anchors": ["tools/cpp/KML/include/data_structures/RingBuffer.tcc: RingBuffer::size (takes no lock)"]}
{"id": "C07", "title": "RingBuffer size is exact in 64-bit unsigned arithmetic", "statement": "The wrap-around computation of size() in size_t arithmetic gives the true number of items even where windowSize + head exceeds 2^64.", "quantifier": "every windowSize < 2^64 and all head, tail below it", "why_tests_cant": "The failing magnitudes cannot be allocated in a test.", "anchors": ["tools/cpp/KML/include/data_structures/RingBuffer.tcc: RingBuffer::size"]}
{"id": "C08", "title": "LinkedList is a windowed FIFO", "statement": "A LinkedList with windowSize W >= 1 behaves, for any sequence of update, pop, size and empty calls and of reset calls made on a non-empty list, like a queue that keeps the last W items; pop returns the oldest, or T() if the list is empty. With windowSize 0 it is an unbounded queue. Walking the list from head shows the items oldest first.", "quantifier": "every windowSize, every element type, every such sequence of calls", "why_tests_cant": "Pointer manipulation on every combination of empty, singleton and full lists.", "anchors": ["tools/cpp/KML/include/data_structures/LinkedList.tcc: update, pop, size, empty, display"]}
{"id": "C09", "title": "LinkedList update and pop never use freed or null nodes", "statement": "No sequence of update, pop, size, empty and display calls (and reset on non-empty lists) dereferences a null or freed node or frees a node twice.", "quantifier": "every windowSize and every such history", "why_tests_cant": "Use-after-free frequently goes unnoticed in a run.", "anchors": ["tools/cpp/KML/include/data_structures/LinkedList.tcc: update, pop, reset, display; tools/cpp/KML/include/data_structures/Node.h"]}
{"id": "C10", "title": "LinkedList reset and destruction are safe on every list", "statement": "reset() and the destructor can be called on any list, including an empty one.", "quantifier": "every reachable list", "why_tests_cant": "Undefined behaviour on null is not a defined test outcome.", "anchors": ["tools/cpp/KML/include/data_structures/LinkedList.tcc: reset, ~LinkedList"]}
{"id": "C11", "title": "LinkedList memory use is bounded by its window", "statement": "The number of allocated nodes always equals size(): eviction, pop, reset and destruction release the nodes they remove.", "quantifier": "every history of calls", "why_tests_cant": "Leaks have no functional symptom.", "anchors": ["tools/cpp/KML/include/data_structures/LinkedList.tcc: pop, reset, ~LinkedList"]}
{"id": "C12", "title": "LinkedList full() means the window is full", "statement": "full() is true exactly when size() == windowSize, and is never true for an unbounded list (windowSize 0).", "quantifier": "every windowSize and every history", "why_tests_cant": "The existing test only checks the state where both readings agree.", "anchors": ["tools/cpp/KML/include/data_structures/LinkedList.tcc: full", "tools/cython/kml/data_structures/LinkedList.pyx: full doc"]}
{"id": "C13", "title": "LinkedList may be updated from several threads", "statement": "Concurrent update calls lose no item: after they finish the list contains every item (window permitting) and size() equals the number of reachable nodes.", "quantifier": "every interleaving of the individual memory accesses of concurrent updates", "why_tests_cant": "A lost update needs one particular preemption.", "anchors": ["tools/cpp/KML/include/data_structures/LinkedList.tcc: update (does not take m_mutex)", "tools/cpp/KML/include/data_structures/LinkedList.h: m_mutex doc"]}
{"id": "C14", "title": "Batch update equals item-by-item update", "statement": "update(vector) leaves the object in the same state as calling update on each element in order, stopping with the same failure at the same element if one fails; splitting a batch anywhere makes no difference.", "quantifier": "every class with an update, every batch and every split", "why_tests_cant": "Needs all batches, including those that fail part way.", "anchors": ["tools/cpp/KML/include/IStreaming.tcc: update", "tools/cpp/KML/include/data_structures/IDataStructure.tcc: update"]}
{"id": "C15", "title": "StreamingMean is the mean of the last windowSize observations", "statement": "In exact arithmetic evaluate() equals the arithmetic mean of the last windowSize observations (of all observations when windowSize is 0 or fewer have been seen), and 0 before any.", "quantifier": "every windowSize and every finite stream", "why_tests_cant": "The running sum depends on every earlier eviction.", "anchors": ["tools/cpp/KML/src/statistics/summary/StreamingMean.cc: update, evaluate"]}
{"id": "C16", "title": "StreamingMean keeps exactly the last windowSize observations", "statement": "getWindow() holds the last min(n, windowSize) observations, oldest first, so memory never exceeds windowSize; it is null when windowSize is 0; and m_historyCount is the number of updates.", "quantifier": "every windowSize and every finite stream, in any arithmetic", "why_tests_cant": "Needs all stream lengths relative to the window.", "anchors": ["tools/cpp/KML/src/statistics/summary/StreamingMean.cc: update", "tools/cpp/KML/include/IStreaming.tcc: IStreaming, getWindow"]}
{"id": "C17", "title": "StreamingMean rounding error is controlled by the data", "statement": "In floating point with relative error u per operation, the running sum differs from the exact sum by at most ((1+u)^k - 1) times the sum of magnitudes involved, k the number of operations; for a windowed mean that error is bounded in terms of the current window only.", "quantifier": "every stream, every windowSize and every rounding with relative error u", "why_tests_cant": "Error accumulation depends on the whole history and magnitude mix.", "anchors": ["tools/cpp/KML/src/statistics/summary/StreamingMean.cc: update, evaluate"]}
{"id": "C18", "title": "StreamingVariance is the population variance of the window", "statement": "In exact arithmetic evaluate() equals the mean squared deviation from the mean of the last windowSize observations (all when windowSize is 0), and 0 before any.", "quantifier": "every windowSize and every finite stream", "why_tests_cant": "Universal over streams.", "anchors": ["tools/cpp/KML/src/statistics/summary/StreamingVariance.cc: update, evaluate"]}
{"id": "C19", "title": "StreamingVariance is never negative", "statement": "evaluate() >= 0, and it is 0 exactly when the windowed observations are all equal.", "quantifier": "every windowSize, every finite stream, every arithmetic the code runs in", "why_tests_cant": "Negative results come only from particular cancellations.", "anchors": ["tools/cpp/KML/src/statistics/summary/StreamingVariance.cc: evaluate"]}
{"id": "C20", "title": "StreamingVariance is shift invariant and scales quadratically", "statement": "Adding a constant to every observation leaves evaluate() unchanged; multiplying by k multiplies it by k^2 (exact arithmetic).", "quantifier": "every stream, shift, factor and windowSize", "why_tests_cant": "Metamorphic relation over all streams.", "anchors": ["tools/cpp/KML/src/statistics/summary/StreamingVariance.cc: evaluate"]}
{"id": "C21", "title": "StreamingVariance exposes the observations and count it has seen", "statement": "As for every streaming class, m_historyCount is the number of updates and getWindow() holds the last windowSize observations.", "quantifier": "every stream", "why_tests_cant": "Universal over streams.", "anchors": ["tools/cpp/KML/src/statistics/summary/StreamingVariance.cc: update (does not touch m_historyCount or m_window)", "tools/cpp/KML/include/IStreaming.h: m_historyCount, getWindow doc"]}
{"id": "C22", "title": "WindowedFAME is exact on the first observation and on constant streams", "statement": "After one observation evaluate() returns it; while all observations equal c, evaluate() returns c after every update; before any observation it is 0. Holds in any arithmetic.", "quantifier": "every step size, epsilon, value and stream length, any arithmetic", "why_tests_cant": "Universal over lengths and parameters.", "anchors": ["tools/cpp/KML/src/statistics/summary/WindowedFAME.cc: update, evaluate"]}
{"id": "C23", "title": "WindowedFAME never leaves the data range by more than one step", "statement": "After every update evaluate() lies between the smallest observation minus the step in force and the largest plus it, both computed in the arithmetic of the code; with epsilon 0 that step never exceeds max(|first|/2, stepSize).", "quantifier": "every stream, every non-negative stepSize and epsilon in [0,1)", "why_tests_cant": "Universal over streams.", "anchors": ["tools/cpp/KML/src/statistics/summary/WindowedFAME.cc: update"]}
{"id": "C24", "title": "WindowedFAME converges when the stream settles", "statement": "If from some point on all observations equal c, then for any history, positive step and epsilon in [0,1) the estimate converges to c: after finitely many observations, bounded by the initial distance over the step, the error is below the step and from then on shrinks at least by the factor (1+epsilon)/2 per observation.", "quantifier": "exact arithmetic (doubles: C95); every history, step size, epsilon in [0,1), target c and number of further observations", "why_tests_cant": "Convergence is a statement about infinitely many steps.", "anchors": ["tools/cpp/KML/src/statistics/summary/WindowedFAME.cc: update"]}
{"id": "C25", "title": "WindowedFAME is equivariant under scaling and negation", "statement": "Multiplying stepSize and all observations by k > 0 multiplies evaluate() by k; negating all observations negates it (exact arithmetic).", "quantifier": "every stream, k > 0, parameters", "why_tests_cant": "Metamorphic relation over all streams.", "anchors": ["tools/cpp/KML/src/statistics/summary/WindowedFAME.cc: update"]}
{"id": "C26", "title": "WindowedFAME rejects every epsilon outside [0, 1)", "statement": "The constructor throws invalid_argument exactly when epsilon is not in [0,1), and keeps the step size positive for ever after a positive start.", "quantifier": "every double epsilon, including NaN and infinities; every stream", "why_tests_cant": "The interesting value is NaN, plus all streams for positivity.", "anchors": ["tools/cpp/KML/src/statistics/summary/WindowedFAME.cc: WindowedFAME::WindowedFAME, update"]}
{"id": "C27", "title": "StreamingMAD of a constant stream is zero", "statement": "evaluate() is 0 before any observation, after the first observation, and after every prefix of a constant stream, in any arithmetic.", "quantifier": "every constant and every length", "why_tests_cant": "Universal over lengths.", "anchors": ["tools/cpp/KML/src/metrics/StreamingMAD.cc: update, evaluate"]}
{"id": "C28", "title": "StreamingMAD is never negative", "statement": "evaluate() >= 0 after every stream.", "quantifier": "every finite stream, in the arithmetic the code runs in", "why_tests_cant": "Needs a specific sequence of deviations.", "anchors": ["tools/cpp/KML/src/metrics/StreamingMAD.cc: evaluate", "tools/cpp/KML/src/statistics/summary/WindowedFAME.cc: update"]}
{"id": "C29", "title": "StreamingP2Quantile accepts exactly the quantiles in (0,1)", "statement": "The constructor throws invalid_argument exactly for quantiles not strictly between 0 and 1.", "quantifier": "every double, including NaN and infinities", "why_tests_cant": "All doubles.", "anchors": ["tools/cpp/KML/src/statistics/summary/StreamingP2Quantile.cc: StreamingP2Quantile::StreamingP2Quantile"]}
{"id": "C30", "title": "StreamingP2Quantile stays within the data range", "statement": "After n >= 5 observations without clear() (and with no evaluate() before the fifth, see C35), evaluate() lies between the smallest and largest observation, and the outer markers are exactly that minimum and maximum; this holds in floating point (any monotone rounding) as well as exactly.", "quantifier": "every quantile in (0,1), every stream of length >= 5, every monotone rounding", "why_tests_cant": "The parabolic formula can overshoot; only the invariant over all histories excludes it.", "anchors": ["tools/cpp/KML/src/statistics/summary/StreamingP2Quantile.cc: update, adjustHeights, parabolic, linear, findK, evaluate"]}
{"id": "C31", "title": "StreamingP2Quantile is the sample quantile of exactly five observations", "statement": "With exactly five observations evaluate() is the element of rank round(4q) of the sorted observations, whatever their order.", "quantifier": "every quantile and every five observations in every order", "why_tests_cant": "All orders and ties.", "anchors": ["tools/cpp/KML/src/statistics/summary/StreamingP2Quantile.cc: update, evaluate"]}
{"id": "C32", "title": "StreamingP2Quantile with fewer than five observations is the sample quantile", "statement": "With 1 <= n < 5 observations evaluate() is the element of rank round((n-1)q) of the sorted observations.", "quantifier": "every quantile and every 1-4 observations", "why_tests_cant": "Depends on the sign of the data relative to the zero filler.", "anchors": ["tools/cpp/KML/src/statistics/summary/StreamingP2Quantile.cc: evaluate"]}
{"id": "C33", "title": "StreamingP2Quantile never divides by zero", "statement": "Marker positions stay strictly increasing through any history of update, evaluate and clear, so no interpolation divides by zero and no index leaves the five markers.", "quantifier": "every history", "why_tests_cant": "Universal over histories.", "anchors": ["tools/cpp/KML/src/statistics/summary/StreamingP2Quantile.cc: adjustHeights, parabolic, linear, evaluate"]}
{"id": "C34", "title": "StreamingP2Quantile handles streams of any length", "statement": "update() is defined after any number of observations.", "quantifier": "every stream length", "why_tests_cant": "The failure needs 2^31 observations.", "anchors": ["tools/cpp/KML/src/statistics/summary/StreamingP2Quantile.cc: m_markerPosition is vector<int>"]}
{"id": "C35", "title": "StreamingP2Quantile evaluate() is a pure observer", "statement": "Calling evaluate() any number of times at any points never changes any later result.", "quantifier": "every placement of evaluate() calls in every stream", "why_tests_cant": "All placements.", "anchors": ["tools/cpp/KML/src/statistics/summary/StreamingP2Quantile.cc: evaluate sorts the mutable m_heights"]}
{"id": "C36", "title": "StreamingP2Quantile is equivariant under positive affine maps", "statement": "Replacing every observation x by a*x+b with a > 0 replaces evaluate() by a*evaluate()+b once five observations have been seen (exact arithmetic).", "quantifier": "every stream of length >= 5, a > 0, b, q", "why_tests_cant": "Metamorphic relation over all streams.", "anchors": ["tools/cpp/KML/src/statistics/summary/StreamingP2Quantile.cc: update, evaluate"]}
{"id": "C37", "title": "StreamingP2Quantile clear() starts afresh", "statement": "After clear() the estimator behaves like a newly constructed one.", "quantifier": "every history before clear and every stream after", "why_tests_cant": "All histories.", "anchors": ["tools/cpp/KML/src/statistics/summary/StreamingP2Quantile.cc: clear"]}
{"id": "C38", "title": "StreamingP2Quantile stays in the hull of everything it has been given", "statement": "After any history of update, evaluate and clear calls evaluate() lies between the least and greatest element of the observations ever given together with 0, and its index computation is in range.", "quantifier": "every history including clear and early evaluate, every monotone rounding", "why_tests_cant": "Universal over histories.", "anchors": ["tools/cpp/KML/src/statistics/summary/StreamingP2Quantile.cc: update, evaluate, clear"]}
{"id": "C39", "title": "StreamingP2Quantile markers track their target ranks", "statement": "After every update beyond the fifth (no clear) the rank carried by the middle marker differs from the target rank (n-1)q by less than 3, and those of the quartile-side markers from theirs by less than 2, for every stream.", "quantifier": "every quantile in (0,1), every stream, every length (exact arithmetic)", "why_tests_cant": "Requires all sequences of marker cells at all lengths.", "anchors": ["tools/cpp/KML/src/statistics/summary/StreamingP2Quantile.cc: update, adjustHeights"]}
{"id": "C40", "title": "WindowedP2Quantile with window 0 covers the whole stream", "statement": "With the documented default windowSize 0 evaluate() returns the quantile estimate over the entire stream.", "quantifier": "every quantile and stream", "why_tests_cant": "Division by zero is undefined behaviour.", "anchors": ["tools/cpp/KML/src/statistics/summary/WindowedP2Quantile.cc: evaluate"]}
{"id": "C41", "title": "WindowedP2Quantile equals StreamingP2Quantile until the window fills", "statement": "While fewer than windowSize observations have been given, evaluate() equals that of a StreamingP2Quantile fed the same calls.", "quantifier": "every quantile, windowSize and history shorter than it", "why_tests_cant": "Universal over histories.", "anchors": ["tools/cpp/KML/src/statistics/summary/WindowedP2Quantile.cc: update, evaluate"]}
{"id": "C42", "title": "WindowedP2Quantile is exact on constant streams", "statement": "If all observations equal c, evaluate() is c once five have been seen (windowSize >= 4), for every length.", "quantifier": "every quantile, windowSize >= 4, c and length >= 5", "why_tests_cant": "Universal over lengths.", "anchors": ["tools/cpp/KML/src/statistics/summary/WindowedP2Quantile.cc: update, evaluate"]}
{"id": "C43", "title": "WindowedP2Quantile stays within the data range", "statement": "evaluate() lies between the least and greatest observation once five have been seen.", "quantifier": "every stream and windowSize", "why_tests_cant": "Only particular phases of the window extrapolate.", "anchors": ["tools/cpp/KML/src/statistics/summary/WindowedP2Quantile.cc: evaluate (weights w1, w2)"]}
{"id": "C44", "title": "StreamingIQR is the difference of its two quantile estimates", "statement": "evaluate() equals the high quantile estimate minus the low one over the same calls, and is defined for every window size including the default 0.", "quantifier": "every windowSize, low, high and history", "why_tests_cant": "Universal over histories.", "anchors": ["tools/cpp/KML/src/statistics/summary/StreamingIQR.cc: update, evaluate"]}
{"id": "C45", "title": "StreamingIQR is never negative", "statement": "For low <= high evaluate() >= 0.", "quantifier": "every stream", "why_tests_cant": "The two estimators run independently and may cross only on particular streams.", "anchors": ["tools/cpp/KML/src/statistics/summary/StreamingIQR.cc: evaluate"]}
{"id": "C46", "title": "Tolerant comparisons are a trichotomy", "statement": "For finite a, b and epsilon >= 0 exactly one of approximatelyEqual(a,b), definitelyGreaterThan(a,b), definitelyLessThan(a,b) holds; greater and less are mirror images; approximate and essential equality are symmetric and reflexive and the essential one implies the approximate one. Holds under any sign-symmetric rounding.", "quantifier": "all finite a, b, epsilon >= 0, every odd monotone rounding", "why_tests_cant": "All pairs of doubles.", "anchors": ["tools/cpp/KML/src/utils/Utils.cc: approximatelyEqual, essentiallyEqual, definitelyGreaterThan, definitelyLessThan"]}
{"id": "C47", "title": "Tolerant less-than is a strict order compatible with <", "statement": "For 0 <= epsilon < 1 definitelyLessThan implies <, is irreflexive and transitive, is preserved when the left side decreases or the right side increases, and is invariant under positive scaling (exact arithmetic).", "quantifier": "all a, b, c, epsilon in [0,1)", "why_tests_cant": "All triples.", "anchors": ["tools/cpp/KML/src/utils/Utils.cc: definitelyLessThan", "tools/cpp/KML/include/data_structures/histograms/IBin.tcc: operator<"]}
{"id": "C48", "title": "Tolerant comparisons sort bins consistently", "statement": "IBin's operator< is a strict weak ordering, as sorted containers and algorithms require; operator== compares both edges, is reflexive and symmetric, and equal bins are not ordered by operator<.", "quantifier": "all triples of bins", "why_tests_cant": "Needs a triple straddling the tolerance.", "anchors": ["tools/cpp/KML/include/data_structures/histograms/IBin.tcc: operator<, operator=="]}
{"id": "C49", "title": "Adding bins adds counts and covers both ranges", "statement": "a + b has the sum of the counts; its edges are edges of a or b; its range covers both ranges up to the comparison tolerance, exactly covers them when the edges differ by more than the tolerance, and a += b stores the same bin.", "quantifier": "all bins", "why_tests_cant": "All pairs.", "anchors": ["tools/cpp/KML/include/data_structures/histograms/IBin.tcc: operator+, operator+="]}
{"id": "C50", "title": "Histogram bin search returns the insertion point", "statement": "On any histogram whose bins are ordered by left edge, binSearch(item) returns the number of bins whose left edge is definitely less than item; it terminates and never reads outside the bin array, whatever the order of the bins.", "quantifier": "every number of bins, edges and item", "why_tests_cant": "All sizes of binary search.", "anchors": ["tools/cpp/KML/include/data_structures/histograms/IStreamingHistogram.tcc: binSearch"]}
{"id": "C51", "title": "Histogram never exceeds its bin budget", "statement": "After every update size() <= numBins, in any arithmetic.", "quantifier": "every numBins, windowSize and stream on which updates are defined", "why_tests_cant": "Universal over streams.", "anchors": ["tools/cpp/KML/include/data_structures/histograms/StreamingHistogram.tcc: update, merge", "tools/cpp/KML/include/data_structures/histograms/IStreamingHistogram.tcc: add, decayCounts"]}
{"id": "C52", "title": "Histogram total count is min(n, windowSize)", "statement": "After n updates getTotalCount() == min(n, windowSize), in any arithmetic.", "quantifier": "every numBins, windowSize and stream on which updates are defined", "why_tests_cant": "Universal over streams.", "anchors": ["tools/cpp/KML/include/data_structures/histograms/IStreamingHistogram.tcc: add, decayCounts, getTotalCount"]}
{"id": "C53", "title": "Histogram bin counts add up to the total count", "statement": "binCounts() never reports 'out of sync': the bin counts sum to getTotalCount().", "quantifier": "every numBins, windowSize and stream", "why_tests_cant": "The failure needs the window to overflow with particular bin indices.", "anchors": ["tools/cpp/KML/include/data_structures/histograms/IStreamingHistogram.tcc: binCounts, decayCounts"]}
{"id": "C54", "title": "Histogram bins stay ordered with observed edges", "statement": "After every update left edges are strictly increasing, each left edge <= its right edge, every edge is one of the observations, and report() therefore has one entry per bin.", "quantifier": "every windowSize >= 1 and every stream (exact arithmetic)", "why_tests_cant": "Universal over streams.", "anchors": ["tools/cpp/KML/include/data_structures/histograms/IStreamingHistogram.tcc: add, report", "tools/cpp/KML/include/data_structures/histograms/StreamingHistogram.tcc: merge", "tools/cpp/KML/include/data_structures/histograms/IBin.tcc: operator+"]}
{"id": "C55", "title": "Histogram updates are defined for every stream", "statement": "update never touches memory outside the bin array for any numBins >= 1, windowSize >= 1 and stream of moderate values.", "quantifier": "every numBins, windowSize and stream", "why_tests_cant": "Out-of-range vector reads rarely crash.", "anchors": ["tools/cpp/KML/include/data_structures/histograms/IStreamingHistogram.tcc: decayCounts, mergeBins", "tools/cpp/KML/include/data_structures/histograms/StreamingHistogram.tcc: merge"]}
{"id": "C56", "title": "Histogram is the exact frequency table when the bins suffice", "statement": "If at most windowSize observations have been given and they take at most numBins values pairwise separated by more than the tolerance, the histogram has exactly one bin [v,v] per value v, in increasing order, with its multiplicity.", "quantifier": "every such stream in every order", "why_tests_cant": "All orders and multiplicities.", "anchors": ["tools/cpp/KML/include/data_structures/histograms/IStreamingHistogram.tcc: add", "tools/cpp/KML/include/data_structures/histograms/StreamingHistogram.tcc: update"]}
{"id": "C57", "title": "Histogram reflects only the last windowSize observations", "statement": "With enough bins, the histogram after n > windowSize observations is that of the last windowSize observations.", "quantifier": "every stream longer than the window", "why_tests_cant": "Needs evictions of specific indices after insertions.", "anchors": ["tools/cpp/KML/include/data_structures/histograms/IStreamingHistogram.tcc: decayCounts, add"]}
{"id": "C58", "title": "Histogram pdf and cdf are a distribution", "statement": "With at least one and at most windowSize observations, pdf(normalize, no density) is non-negative and sums to 1, pdf(density) integrates to 1 over the bin widths, and cdf is its running sum, non-decreasing and ending at 1; unnormalised they give the counts.", "quantifier": "exact arithmetic (doubles: C92); every histogram reachable by 1..windowSize updates", "why_tests_cant": "Universal over streams.", "anchors": ["tools/cpp/KML/include/data_structures/histograms/IStreamingHistogram.tcc: pdf, cdf"]}
{"id": "C59", "title": "Histogram first bin starts at the minimum", "statement": "After 1..windowSize updates the first left edge is the smallest observation and every observation is counted in a bin whose left edge is not above it: the number of observations below the left edge of bin i is at most the sum of the counts of bins before i.", "quantifier": "every such stream", "why_tests_cant": "Universal over streams.", "anchors": ["tools/cpp/KML/include/data_structures/histograms/IStreamingHistogram.tcc: add", "tools/cpp/KML/include/data_structures/histograms/StreamingHistogram.tcc: merge"]}
{"id": "C60", "title": "Histogram quantile is defined and rejects bad levels", "statement": "quantile(q) throws for q outside [0,1] and returns a value for every q in [0,1] on every non-empty histogram.", "quantifier": "every reachable non-empty histogram and every q", "why_tests_cant": "Out-of-range vector reads rarely crash.", "anchors": ["tools/cpp/KML/include/data_structures/histograms/IStreamingHistogram.tcc: quantile"]}
{"id": "C61", "title": "Histogram quantile is a quantile function", "statement": "quantile is non-decreasing in q and stays between the smallest and largest observation.", "quantifier": "every histogram, all q", "why_tests_cant": "All pairs of q.", "anchors": ["tools/cpp/KML/include/data_structures/histograms/IStreamingHistogram.tcc: quantile"]}
{"id": "C62", "title": "Histogram reset starts afresh", "statement": "After reset() the histogram behaves like a newly constructed one.", "quantifier": "every history before and after", "why_tests_cant": "All histories.", "anchors": ["tools/cpp/KML/include/data_structures/histograms/IStreamingHistogram.tcc: reset"]}
{"id": "C63", "title": "Histogram bin access is bounds checked; full() means full", "statement": "getBin(i) throws for every i >= size(); full() is true exactly when windowSize observations are held.", "quantifier": "every histogram and index", "why_tests_cant": "Boundary index reads out of range silently.", "anchors": ["tools/cpp/KML/include/data_structures/histograms/IStreamingHistogram.tcc: getBin, full, empty"]}
{"id": "C64", "title": "StreamingEntropy is the Shannon entropy of the observations", "statement": "While at most windowSize observations have been given, taking at most numBins separated values, evaluate() is the base-2 Shannon entropy of their empirical distribution.", "quantifier": "every such stream in every order (exact real arithmetic)", "why_tests_cant": "All streams.", "anchors": ["tools/cpp/KML/src/statistics/summary/StreamingEntropy.cc: update, increment"]}
{"id": "C65", "title": "StreamingEntropy lies between 0 and log2 of the number of values", "statement": "Under the same conditions 0 <= evaluate() <= log2(number of distinct values); it is 0 for a constant stream and maximal for a uniform one.", "quantifier": "every such stream", "why_tests_cant": "All streams.", "anchors": ["tools/cpp/KML/src/statistics/summary/StreamingEntropy.cc: evaluate"]}
{"id": "C66", "title": "StreamingEntropy follows its window and is always defined", "statement": "After more than windowSize observations, or more values than bins, evaluate() is still the entropy of the (binned) last windowSize observations and no update is undefined.", "quantifier": "every stream", "why_tests_cant": "Stale indices matter only for particular insert orders.", "anchors": ["tools/cpp/KML/src/statistics/summary/StreamingEntropy.cc: update, decrement; tools/cpp/KML/include/data_structures/histograms/IStreamingHistogram.tcc: getBin"]}
{"id": "C67", "title": "StreamingEntropy picks Sturges' number of bins", "statement": "With numBins 0 and windowSize W >= 1 the histogram uses ceil(log2 W) + 1 bins; a non-zero numBins is used as given.", "quantifier": "every windowSize >= 1 and numBins", "why_tests_cant": "All sizes.", "anchors": ["tools/cpp/KML/src/statistics/summary/StreamingEntropy.cc: StreamingEntropy::StreamingEntropy"]}
{"id": "C68", "title": "xlogx is safe at zero and rejects negatives", "statement": "xlogx throws exactly for negative inputs, is 0 at 0 and x*log2(x) elsewhere; it is <= 0 on [0,1] and continuous at 0.", "quantifier": "all non-NaN inputs", "why_tests_cant": "All reals.", "anchors": ["tools/cpp/KML/src/utils/Utils.cc: xlogx"]}
{"id": "C69", "title": "The Python containers return what was put in", "statement": "PyRingBuffer and PyLinkedList pop return exactly the floats given to update.", "quantifier": "every Python float", "why_tests_cant": "Depends on whether the value survives narrowing to 32-bit float.", "anchors": ["tools/cython/kml/data_structures/RingBuffer.pyx: RingBuffer[float]", "tools/cython/kml/data_structures/LinkedList.pyx: LinkedList[float]"]}
{"id": "C70", "title": "Every streaming class counts its updates", "statement": "m_historyCount equals the number of update calls since construction (or since the last clear/reset where those reset it).", "quantifier": "every class and every history", "why_tests_cant": "Universal over histories.", "anchors": ["tools/cpp/KML/include/IStreaming.h: m_historyCount", "tools/cpp/KML/include/data_structures/IDataStructure.h: m_historyCount"]}
{"id": "C71", "title": "Python constructors accept the documented default window", "statement": "Every wrapper class that documents window_size as optional with default None can be constructed without it, and with any window size its C++ class accepts.", "quantifier": "every Python argument", "why_tests_cant": "All integers, and all argument types; the wrappers' tests always pass a small window.", "anchors": ["tools/cython/kml/data_structures/RingBuffer.pyx: __cinit__", "tools/cython/kml/data_structures/LinkedList.pyx: __cinit__", "tools/cython/kml/statistics/summary/StreamingMean.pyx: __cinit__", "tools/cython/kml/statistics/summary/StreamingVariance.pyx: __cinit__"]}
{"id": "C72", "title": "A Python update that fails changes nothing", "statement": "If update(item) of a wrapper raises an exception, the object is as it was before the call; otherwise updating with an iterable is updating with its items in order.", "quantifier": "every wrapper, object state and Python argument", "why_tests_cant": "Needs arguments with a bad item at every position.", "anchors": ["tools/cython/kml/data_structures/RingBuffer.pyx: update", "tools/cython/kml/data_structures/LinkedList.pyx: update", "tools/cython/kml/statistics/summary/StreamingMean.pyx: update"]}
{"id": "C73", "title": "PyStreamingIQR uses the quantiles it is given", "statement": "A quantile passed to PyStreamingIQR is the one used; a quantile not passed has its documented default.", "quantifier": "every combination of arguments", "why_tests_cant": "Four combinations of given and missing arguments times all values.", "anchors": ["tools/cython/kml/statistics/summary/StreamingIQR.pyx: __cinit__"]}
{"id": "C74", "title": "A histogram frees its bins", "statement": "After a StreamingHistogram is destroyed no bin it allocated is still allocated.", "quantifier": "every history of updates and resets", "why_tests_cant": "Leaks are invisible to tests of values; depends on merges, evictions and resets in the history.", "anchors": ["tools/cpp/KML/include/data_structures/histograms/IStreamingHistogram.tcc: ~IStreamingHistogram, reset, decayCounts, mergeBins", "tools/cpp/KML/include/data_structures/histograms/StreamingHistogram.tcc: ~StreamingHistogram"]}
{"id": "C75", "title": "StreamingP2Quantile is the published P2 algorithm", "statement": "After more than five observations evaluate() is the estimate of the algorithm of Jain and Chlamtac (CACM 28(10), 1985, Box 1), and the five markers have its heights and positions.", "quantifier": "every quantile and every stream (exact arithmetic)", "why_tests_cant": "The published tables are one stream for one quantile; the order of the marker adjustments matters only for some streams.", "anchors": ["tools/cpp/KML/src/statistics/summary/StreamingP2Quantile.cc: update, findK, adjustHeights, parabolic, linear"]}
{"id": "C76", "title": "A full histogram merges its closest bins", "statement": "When an update exceeds the bin budget, the two neighbouring bins whose right edges are closest are replaced by their sum and the window entries of the second become those of the first; otherwise nothing is merged.", "quantifier": "every reachable histogram and every observation (exact arithmetic)", "why_tests_cant": "All configurations of gaps, including negative ones from values inside merged bins.", "anchors": ["tools/cpp/KML/include/data_structures/histograms/StreamingHistogram.tcc: update, merge", "tools/cpp/KML/include/data_structures/histograms/IStreamingHistogram.tcc: mergeBins"]}
{"id": "C77", "title": "WindowedFAME follows the FAME recursion and epsilon speeds up tracking", "statement": "Each observation moves the estimate one step towards it, halves the step if it is then less than a step away and multiplies the step by 1+epsilon; the step is therefore s0(1+epsilon)^n/2^h, and after a jump the distance is covered by exponentially growing steps.", "quantifier": "every stream, step and epsilon (exact arithmetic)", "why_tests_cant": "Universal over streams and jump sizes.", "anchors": ["tools/cpp/KML/src/statistics/summary/WindowedFAME.cc: update"]}
{"id": "C78", "title": "empty() and full() report a state the ring buffer had", "statement": "While other threads update, pop and reset a RingBuffer, empty() and full() return what is true of its contents at some moment of the call at which no other call is under way.", "quantifier": "every number of threads, programs and interleavings", "why_tests_cant": "Interleavings at the granularity of single memory accesses; the wrong answer needs an update between two particular reads.", "anchors": ["tools/cpp/KML/include/data_structures/RingBuffer.tcc: empty, full, update, pop, reset"]}
{"id": "C79", "title": "Objects release the memory they allocate", "statement": "Destroying an object releases every block allocated by its construction, exactly once; a constructor that throws leaves nothing allocated. The same holds for the Python objects.", "quantifier": "every class, every constructor argument, every heap", "why_tests_cant": "Leaks do not change any value; needs every throwing constructor argument.", "anchors": ["tools/cpp/KML/include/IStreaming.tcc: IStreaming, ~IStreaming", "tools/cpp/KML/src/statistics/summary/StreamingIQR.cc: StreamingIQR, ~StreamingIQR", "tools/cpp/KML/src/statistics/summary/StreamingEntropy.cc: StreamingEntropy", "tools/cpp/KML/src/statistics/summary/WindowedP2Quantile.cc: WindowedP2Quantile, ~WindowedP2Quantile", "tools/cpp/KML/src/statistics/summary/StreamingVariance.cc: StreamingVariance, ~StreamingVariance", "tools/cpp/KML/src/metrics/StreamingMAD.cc: StreamingMAD, ~StreamingMAD", "tools/cython/kml/data_structures/RingBuffer.pyx: __cinit__"]}
{"id": "C80", "title": "The Python statistics return what the C++ statistics return", "statement": "A session of update (numbers or iterables) and evaluate calls on PyStreamingMean, PyStreamingVariance, PyStreamingP2Quantile, PyWindowedP2Quantile, PyStreamingIQR, PyWindowedFAME, PyStreamingMAD or PyStreamingEntropy, or of any calls on PyStreamingHistogram, returns exactly what the C++ object returns for the same numbers in the same order; an item that is no number raises and ends that update, and a C++ exception is raised in Python.", "quantifier": "every session of calls and every Python argument", "why_tests_cant": "All sequences of calls with bad items at all positions.", "anchors": ["tools/cython/kml/statistics/summary/StreamingMean.pyx: update, evaluate", "tools/cython/kml/statistics/summary/StreamingP2Quantile.pyx: update, evaluate", "tools/cython/kml/metrics/StreamingMAD.pyx: update, evaluate", "tools/cython/kml/statistics/summary/StreamingEntropy.pyx: update, evaluate", "tools/cython/kml/data_structures/histograms/StreamingHistogram.pyx: update, pdf, cdf, quantile, bin_counts, report, reset, empty, full, size"]}
{"id": "C81", "title": "Python constructors accept exactly the documented arguments", "statement": "PyStreamingP2Quantile and PyWindowedP2Quantile are constructed exactly for quantiles strictly between 0 and 1, PyWindowedFAME exactly for epsilon in [0,1), PyStreamingEntropy and PyStreamingHistogram for all window sizes and bin counts; anything else raises.", "quantifier": "every Python argument", "why_tests_cant": "All argument types and values, including NaN and integers beyond 64 bits.", "anchors": ["tools/cython/kml/statistics/summary/StreamingP2Quantile.pyx: __cinit__", "tools/cython/kml/statistics/summary/WindowedP2Quantile.pyx: __cinit__", "tools/cython/kml/statistics/summary/WindowedFAME.pyx: __cinit__", "tools/cython/kml/statistics/summary/StreamingEntropy.pyx: __cinit__", "tools/cython/kml/data_structures/histograms/StreamingHistogram.pyx: __cinit__"]}
{"id": "C82", "title": "Quantiles of finite doubles are finite and in range", "statement": "From five finite doubles on, StreamingP2Quantile returns a finite double between the least and the greatest observation; likewise no finite data make WindowedP2Quantile or StreamingIQR overflow.", "quantifier": "every quantile, every finite stream of doubles up to 2^31, every history of calls", "why_tests_cant": "The overflow needs particular magnitudes; the positive half is about every stream of doubles below 2^950.", "anchors": ["tools/cpp/KML/src/statistics/summary/StreamingP2Quantile.cc: update, evaluate", "tools/cpp/KML/src/statistics/summary/WindowedP2Quantile.cc: update, evaluate", "tools/cpp/KML/src/statistics/summary/StreamingIQR.cc: update, evaluate"]}
{"id": "C83", "title": "The window of StreamingMean forgets infinities and overflow", "statement": "Once W moderate finite observations have been made, StreamingMean with window W returns a finite double, whatever came before them.", "quantifier": "every window size, every earlier stream of doubles including infinities and NaN, every later stream of moderate doubles", "why_tests_cant": "The failure is permanent and needs one infinite or a few huge observations; the positive half is about all streams.", "anchors": ["tools/cpp/KML/src/statistics/summary/StreamingMean.cc: update, evaluate", "tools/cpp/KML/src/statistics/summary/StreamingVariance.cc: update, evaluate"]}
{"id": "C84", "title": "StreamingMean of fixed-point data is the window mean rounded once", "statement": "If all observations are integer multiples of one power of two 2^k with |n| at most B, and the window size (or the number of observations, if the window is 0) times B is at most 2^53, then StreamingMean returns the double nearest to the exact mean of the window, on real doubles, for any length of stream.", "quantifier": "every power of two, every bound, every window, every stream of up to 2^52 such observations", "why_tests_cant": "Exactness for every stream of every length.", "anchors": ["tools/cpp/KML/src/statistics/summary/StreamingMean.cc: update, evaluate"]}
{"id": "C85", "title": "The step of WindowedFAME stays bounded by the spread of the data", "statement": "In exact arithmetic, if all observations lie in [lo, hi], the step of WindowedFAME never exceeds the larger of its value after the first observation and 5/2 (hi - lo), and the estimate never leaves [lo, hi] by more than that, whatever the window.", "quantifier": "every positive step, every epsilon in [0,1), every stream in the range, of any length", "why_tests_cant": "A bound for streams of every length; growth by 1 + epsilon per update suggests it might fail.", "anchors": ["tools/cpp/KML/src/statistics/summary/WindowedFAME.cc: update, evaluate"]}
{"id": "C86", "title": "WindowedFAME and StreamingMAD of finite doubles are finite", "statement": "Whatever finite doubles are observed, WindowedFAME and StreamingMAD return finite doubles.", "quantifier": "every step and epsilon, every stream of finite doubles", "why_tests_cant": "The overflow needs magnitudes near the largest double; the positive half is about every stream.", "anchors": ["tools/cpp/KML/src/statistics/summary/WindowedFAME.cc: update, evaluate", "tools/cpp/KML/src/metrics/StreamingMAD.cc: update, evaluate"]}
{"id": "C87", "title": "WindowedFAME follows a converging stream; StreamingMAD then vanishes", "statement": "In exact arithmetic, after any earlier stream, once enough observations lie in [lo, hi] the estimate of WindowedFAME is and stays within 5/2 (hi - lo) of that interval, so the estimate of a converging stream converges to its limit; StreamingMAD of a converging stream converges to 0.", "quantifier": "every positive step, every epsilon in [0,1), every earlier stream, every later stream in the range", "why_tests_cant": "A statement about limits of infinite streams.", "anchors": ["tools/cpp/KML/src/statistics/summary/WindowedFAME.cc: update, evaluate", "tools/cpp/KML/src/metrics/StreamingMAD.cc: update, evaluate"]}
{"id": "C88", "title": "StreamingHistogram of finite doubles", "statement": "Every stream of finite doubles that fits the window is processed by a histogram with at least one bin; overflow of a difference never matters.", "quantifier": "every number of bins >= 1, every window, every stream of finite doubles no longer than the window", "why_tests_cant": "The failure needs magnitudes near the largest double; the positive half is about every stream.", "anchors": ["tools/cpp/KML/include/data_structures/histograms/StreamingHistogram.tcc: update, merge", "tools/cpp/KML/include/data_structures/histograms/IStreamingHistogram.tcc: add"]}
{"id": "C89", "title": "Histogram does not depend on the unit of measurement", "statement": "Scaling all observations by k > 0 scales the edges and the quantiles of the histogram and keeps all counts.", "quantifier": "every k > 0, every number of bins, window and stream (magnitudes up to a quarter of the largest double)", "why_tests_cant": "A relation between two runs for every stream and every factor.", "anchors": ["tools/cpp/KML/include/data_structures/histograms/StreamingHistogram.tcc: update, merge", "tools/cpp/KML/include/data_structures/histograms/IStreamingHistogram.tcc: add, quantile, pdf, cdf"]}
{"id": "C90", "title": "StreamingEntropy does not depend on the unit of measurement", "statement": "In exact arithmetic, scaling all observations by k > 0 does not change the entropy.", "quantifier": "every k > 0, every number of bins, window and stream (magnitudes up to a quarter of the largest double)", "why_tests_cant": "A relation between two runs for every stream and every factor.", "anchors": ["tools/cpp/KML/src/statistics/summary/StreamingEntropy.cc: update, increment, decrement, evaluate"]}
{"id": "C91", "title": "StreamingMAD scales with the data", "statement": "Scaling all observations by k > 0 scales the deviation by k; negating them does not change it.", "quantifier": "every k > 0 and every stream", "why_tests_cant": "A relation between two runs for every stream and every factor.", "anchors": ["tools/cpp/KML/src/metrics/StreamingMAD.cc: StreamingMAD, update, evaluate"]}
{"id": "C92", "title": "Histogram pdf, cdf and quantile on doubles", "statement": "For every stream of doubles the normalised pdf consists of correctly rounded frequencies, the normalised cdf is non-decreasing and ends at 1, every level in [0,1] has a quantile on a histogram with at least two bins, and every other level is rejected.", "quantifier": "every stream of doubles that fits the window, every level", "why_tests_cant": "Rounding of the running sum decides whether the last entry is reached; the levels concerned lie within a few ulps of 1.", "anchors": ["tools/cpp/KML/include/data_structures/histograms/IStreamingHistogram.tcc: pdf, cdf, quantile"]}
{"id": "C93", "title": "The library's unit tests", "statement": "Every unit test of the library runs without undefined behaviour and passes.", "quantifier": "all C++ and Python tests, every log2", "why_tests_cant": "A test that reads past the end of a vector still passes when the stale memory holds the expected bytes.", "anchors": ["tools/cpp/tests: all files", "tools/python/tests: all files"]}
{"id": "C94", "title": "Rounding errors of StreamingMean and StreamingVariance grow at most linearly", "statement": "After N doubles of magnitude at most M, whatever the window, the mean is within 4 N rounding errors of M of the mean of the window, and the variance within 21 N rounding errors of M^2 of the population variance; a negative variance is no further below zero than that. The growth is attained: a stream of period ten makes the mean drift by a fixed amount per period.", "quantifier": "every window, every stream of at most 2^50 doubles of magnitude up to 2^950 (variance: 2^450)", "why_tests_cant": "An error bound over all streams; the drift only shows after very long streams.", "anchors": ["tools/cpp/KML/src/statistics/summary/StreamingMean.cc: update, evaluate", "tools/cpp/KML/src/statistics/summary/StreamingVariance.cc: update, evaluate"]}
{"id": "C95", "title": "WindowedFAME on doubles follows a stream that settles", "statement": "On doubles, once the observations settle at a value, WindowedFAME's result ends up near it, whatever was observed before.", "quantifier": "every step, every epsilon in [0,1), every history of finite doubles of magnitude up to 2^900, every value", "why_tests_cant": "C24 proves this in exact arithmetic; on doubles the step can become too small to move the estimate, after which no later input shows it.", "anchors": ["tools/cpp/KML/src/statistics/summary/WindowedFAME.cc: update, evaluate", "tools/cpp/KML/src/metrics/StreamingMAD.cc: update, evaluate"]}
{"id": "C96", "title": "Rounding error of StreamingEntropy while the window fills", "statement": "On doubles, with a log2 accurate to 2^-51 of its value, after n observations that fit the window, with no more different values than bins, StreamingEntropy's result differs by at most 200(n+1)/2^53 from the entropy of the bin fractions, and, when different values are more than 1/4999 apart relative to the larger magnitude, from the Shannon entropy of the observations.", "quantifier": "every accurate log2, window, number of bins, non-empty stream of at most 2^40 doubles of magnitude up to half the largest double", "why_tests_cant": "C64 is about real arithmetic; the incremental formula feeds its own rounded result back n times, and only a proof bounds the accumulated error for every stream.", "anchors": ["tools/cpp/KML/src/statistics/summary/StreamingEntropy.cc: update, increment, evaluate", "tools/cpp/KML/src/utils/Utils.cc: xlogx"]}
{"id": "C97", "title": "StreamingEntropy stays bounded after its window is full", "statement": "With enough bins for the values, StreamingEntropy's result stays bounded for ever (as the entropy of the window does, between 0 and log2 of the window size).", "quantifier": "every window of at least 2, every number of bins, every stream with no more different values than bins", "why_tests_cant": "The drift is a fraction of a bit per round; a finite test sees a plausible value unless it runs a periodic stream for long and compares with the entropy of the window.", "anchors": ["tools/cpp/KML/src/statistics/summary/StreamingEntropy.cc: update, increment, decrement, evaluate", "tools/cpp/KML/include/data_structures/histograms/IStreamingHistogram.tcc: add, decayCounts"]}
{"id": "C98", "title": "StreamingP2Quantile treats negated data symmetrically", "statement": "For every level q strictly between 0 and 1 and every sequence of at least five observations, a StreamingP2Quantile of level 1-q that is given the negated observations returns the negated value of a StreamingP2Quantile of level q that is given the observations.", "quantifier": "all levels q, all sequences of at least five observations", "why_tests_cant": "The upper and the lower quantiles are computed by different code (the order of the three adjustments depends on the level, and the search for the cell compares strictly from below); the unit tests look at one level of one data set at a time and never at the reflected data.", "anchors": ["tools/cpp/KML/src/statistics/summary/StreamingP2Quantile.cc:33-75", "tools/cpp/KML/src/statistics/summary/StreamingP2Quantile.cc:77-89", "tools/cpp/KML/src/statistics/summary/StreamingP2Quantile.cc:91-154"]}
{"id": "C99", "title": "Each histogram bin counts the observations between its edges", "statement": "For every number of bins (at least one) and every sequence of observations that fits the window, the report of a StreamingHistogram is a histogram of the observations: the intervals are disjoint and in increasing order, their ends are observations, each count is the number of observations in the closed interval, and every observation lies in one of the intervals.", "quantifier": "all numbers of bins, all window sizes, all sequences of observations no longer than the window", "why_tests_cant": "Bins are created, incremented and merged under two different tolerances (0.0001 for the search, 0.000001 for the union of two bins), and an observation inside a wide bin first makes a bin of its own that overlaps it; whether the overlap is always undone depends on the whole history of merges. The unit tests compare sizes and total counts for a few data sets.", "anchors": ["tools/cpp/KML/include/data_structures/histograms/IStreamingHistogram.tcc:169-193", "tools/cpp/KML/include/data_structures/histograms/IStreamingHistogram.tcc:246-286", "tools/cpp/KML/include/data_structures/histograms/IStreamingHistogram.tcc:308-318", "tools/cpp/KML/include/data_structures/histograms/StreamingHistogram.tcc:32-75", "tools/cpp/KML/include/data_structures/histograms/IBin.tcc:65-80"]}
{"id": "C100", "title": "The histogram cdf is the empirical distribution function at the bin edges", "statement": "For every number of bins (at least one) and every non-empty sequence of observations that fits the window, entry i of the normalised cdf of a StreamingHistogram is the fraction of the observations that are at most the right edge of bin i.", "quantifier": "all numbers of bins, all window sizes, all sequences of observations no longer than the window", "why_tests_cant": "The cdf is a running sum of counts that survived merges; that it agrees with the empirical distribution at the edges needs every bin to count exactly the observations between its edges. The unit tests only look at cdf values of one small histogram.", "anchors": ["tools/cpp/KML/include/data_structures/histograms/IStreamingHistogram.tcc:132-167", "tools/cpp/KML/include/data_structures/histograms/IStreamingHistogram.tcc:246-286", "tools/cpp/KML/include/data_structures/histograms/StreamingHistogram.tcc:32-75"]}
{"id": "C101", "title": "A NaN observation is not lost", "statement": "Whatever is observed before and after it, a NaN observation makes the evaluation of StreamingMean, StreamingVariance, WindowedFAME, StreamingMAD and StreamingP2Quantile NaN or an exception; no update or evaluate is undefined because of it.", "quantifier": "all sequences of doubles (NaN and infinities included), all positions of the NaN, all window sizes, step sizes and quantiles", "why_tests_cant": "No unit test contains a NaN. Every comparison with NaN is false, so each branch of each class has to be followed through all later observations; std::sort with NaN is undefined behaviour that usually goes unnoticed.", "anchors": ["tools/cpp/KML/src/statistics/summary/StreamingP2Quantile.cc:33-125", "tools/cpp/KML/src/statistics/summary/StreamingMean.cc:16-43", "tools/cpp/KML/src/statistics/summary/StreamingVariance.cc:24-34", "tools/cpp/KML/src/statistics/summary/WindowedFAME.cc:24-49", "tools/cpp/KML/src/metrics/StreamingMAD.cc:25-32"]}
{"id": "C102", "title": "Larger observations never lower an estimate of location", "statement": "If every observation of one stream is at least the corresponding observation of another, then the value of StreamingMean, WindowedFAME and StreamingP2Quantile after the first stream is at least the value after the second.", "quantifier": "all pairs of streams ordered pointwise, all window sizes, step sizes and quantiles", "why_tests_cant": "It compares two executions that may take different branches; a unit test looks at one execution with one expected value.", "anchors": ["tools/cpp/KML/src/statistics/summary/StreamingMean.cc:16-43", "tools/cpp/KML/src/statistics/summary/WindowedFAME.cc:24-49", "tools/cpp/KML/src/statistics/summary/StreamingP2Quantile.cc:33-89"]}
{"id": "C103", "title": "The order of the observations does not matter", "statement": "While nothing has left the window, feeding the same observations in another order leaves StreamingMean, StreamingVariance, WindowedFAME, StreamingP2Quantile, StreamingHistogram and StreamingEntropy with the same result.", "quantifier": "all streams and all permutations of them, all window sizes, bin counts and quantiles", "why_tests_cant": "It quantifies over all permutations of a stream and compares two executions; a unit test feeds one order.", "anchors": ["tools/cpp/KML/src/statistics/summary/StreamingMean.cc:16-43", "tools/cpp/KML/src/statistics/summary/WindowedFAME.cc:24-49", "tools/cpp/KML/src/statistics/summary/StreamingP2Quantile.cc:33-89", "tools/cpp/KML/include/data_structures/histograms/StreamingHistogram.tcc:33-83"]}
{"id": "C104", "title": "Rescaling by a power of two is exact in floating point", "statement": "Multiplying all observations (and the step size of WindowedFAME) by a power of two that keeps them representable multiplies the result of StreamingMean, WindowedFAME, StreamingP2Quantile, WindowedP2Quantile and StreamingIQR by exactly that power, and that of StreamingVariance by its square; a histogram keeps its counts and scales its edges.", "quantifier": "all streams of doubles, all exponents, window sizes, quantiles and bin counts", "why_tests_cant": "It compares two executions bit by bit for every stream and exponent; a unit test compares one execution with a rounded expected value.", "anchors": ["tools/cpp/KML/src/statistics/summary/StreamingMean.cc:16-43", "tools/cpp/KML/src/statistics/summary/StreamingVariance.cc:24-34", "tools/cpp/KML/src/statistics/summary/WindowedFAME.cc:24-49", "tools/cpp/KML/src/statistics/summary/StreamingP2Quantile.cc:33-89", "tools/cpp/KML/src/statistics/summary/WindowedP2Quantile.cc:22-46", "tools/cpp/KML/src/statistics/summary/StreamingIQR.cc:30-37"]}
{"id": "C105", "title": "Tolerant comparison, bin search and bin sum on doubles", "statement": "On finite doubles definitelyLessThan (tolerance at most 1/8, in particular both tolerances the library uses) implies <, is irreflexive and transitive and is kept when the left side is lowered or the right side raised, rounding and overflow of the difference included; hence binSearch on bins with ascending left edges returns the number of bins definitely less than the item, and the sum of two bins covers the left operand, covers the right one up to the tolerance, and is the exact hull when the edges differ definitely.", "quantifier": "all finite doubles, all tolerances in [0,1/8], all bins with finite edges, every number of bins", "why_tests_cant": "Monotonicity of a rounded comparison could fail for a single pair of neighbouring doubles; all exponents, subnormals included, have to be covered.", "anchors": ["tools/cpp/KML/src/utils/Utils.cc:29-37", "tools/cpp/KML/include/data_structures/histograms/IBin.tcc:65-100", "tools/cpp/KML/include/data_structures/histograms/IStreamingHistogram.tcc: binSearch"]}
{"id": "C106", "title": "StreamingEntropy never throws, and when an update is undefined", "statement": "On doubles, whatever was observed before (NaN and infinities included) and whatever std::log2 returns, no update of a StreamingEntropy throws: the checks in getBin and xlogx never fire. With a window, every index waiting in it is the index of a bin, and an update is undefined exactly if the update of the histogram is undefined or the observation is placed after numBins bins, whose bin getBin then reads past the end.", "quantifier": "all streams of doubles, all window sizes and numbers of bins, any log2", "why_tests_cant": "The checks could fire for one combination of stale index, bin count and rounding only.", "anchors": ["tools/cpp/KML/src/statistics/summary/StreamingEntropy.cc: update, increment, decrement", "tools/cpp/KML/include/data_structures/histograms/IStreamingHistogram.tcc:364-374", "tools/cpp/KML/src/utils/Utils.cc: xlogx"]}
{"id": "C107", "title": "The pointers of StreamingHistogram: no sharing, no dangling, no double delete", "statement": "With m_bins as a vector of pointers into a heap and any allocator: after every sequence of updates and resets the pointers are pairwise different, each points to an allocated bin of this histogram, no other object has been touched, no bin is read, written or deleted after its deletion, and the histogram behaves exactly as if it held its bins by value; the number of bins allocated is the ghost count the leak theorem (C74) speaks about.", "quantifier": "every arithmetic, every allocator, every heap of other objects, every sequence of updates and resets", "why_tests_cant": "Aliasing or a use after free shows only for particular allocator behaviour and merge or eviction orders.", "anchors": ["tools/cpp/KML/include/data_structures/histograms/IStreamingHistogram.tcc:81-130", "tools/cpp/KML/include/data_structures/histograms/IStreamingHistogram.tcc:246-286", "tools/cpp/KML/include/data_structures/histograms/IStreamingHistogram.tcc:376-383", "tools/cpp/KML/include/data_structures/histograms/StreamingHistogram.tcc:26-82"]}
{"id": "C108", "title": "The binary search in quantile meets its precondition and finds the right entry", "statement": "On doubles the cdf of every histogram, also one whose counts make it NaN or infinite, is partitioned with respect to every level, NaN included, which std::lower_bound requires; the loop of std::lower_bound then ends inside the range at the furthermost position all of whose predecessors are less than the level, so quantile with that loop is exactly the modelled quantile.", "quantifier": "every state of the histogram, every level; the search itself for every arithmetic and every range", "why_tests_cant": "A single rounding that made the cdf decrease would make the call undefined.", "anchors": ["tools/cpp/KML/include/data_structures/histograms/IStreamingHistogram.tcc:159-167", "tools/cpp/KML/include/data_structures/histograms/IStreamingHistogram.tcc:195-244"]}
{"id": "C109", "title": "Exact length of stream a histogram survives", "statement": "With at least two bins and a window of W >= 1 every stream of at most L values is processed without touching memory outside the bin array if and only if L <= 2 W + numBins. One bin with a window of one survives exactly three values; one bin with a window of two or more, or any number of bins with window zero, survives every stream.", "quantifier": "every numBins, windowSize and L; values in the unit interval (exact arithmetic), up to a quarter of the largest double (doubles, at most 9000 bins)", "why_tests_cant": "The failing stream grows with the histogram, and the out-of-range access rarely crashes.", "anchors": ["tools/cpp/KML/include/data_structures/histograms/IStreamingHistogram.tcc:104-130", "tools/cpp/KML/include/data_structures/histograms/IStreamingHistogram.tcc:246-286", "tools/cpp/KML/include/data_structures/histograms/StreamingHistogram.tcc:32-75"]}
{"id": "C110", "title": "The doubles of the model are IEEE 754 doubles", "statement": "The arithmetic in which the claims about double are proved is IEEE 754 binary64 arithmetic: every operation on finite doubles yields the unique nearest double to the exact result, of two nearest ones that with an even last digit, subnormal numbers included, and an infinity if that exceeds (2 - 2^-52) 2^1023; NaN and infinities propagate as the standard says; every comparison with NaN is false; std::round goes to the nearest integer, ties away from zero; conversion to float likewise rounds to nearest even at 24 digits.", "quantifier": "all pairs of doubles and all exact values", "why_tests_cant": "It validates the model, not the program: without it a theorem about doubles may be about a different arithmetic.", "anchors": ["tools/cpp/KML/src/utils/Utils.cc:17-52", "tools/cpp/KML/src/statistics/summary/StreamingP2Quantile.cc:83-84", "tools/cython/kml/data_structures/RingBuffer.pyx:45-59"]}
{"id": "C111", "title": "A windowed quantile forgets what left its window", "statement": "Once the last windowSize observations are all equal to c, WindowedP2Quantile returns c (and StreamingIQR 0), whatever was observed before them.", "quantifier": "all levels, window sizes of at least 5 and streams", "why_tests_cant": "The tests feed at most one window of data; the value c must come out for every earlier history and every phase of the two nested counters.", "anchors": ["tools/cpp/KML/src/statistics/summary/WindowedP2Quantile.cc:22-46", "tools/cpp/KML/src/statistics/summary/StreamingP2Quantile.cc:59-64"]}
{"id": "C112", "title": "StreamingVariance of fixed-point data is right on doubles", "statement": "If all observations are integer multiples of 2^k (|k| <= 400) of magnitude at most B 2^k with windowSize * B^2 <= 2^53 (without a window: number of observations times B^2), then however long the stream StreamingVariance of doubles is finite, differs from the variance of the window by at most 7 * 2^-53 times the mean square of the window, and is 0 if all observations in the window are equal; if windowSize * B^2 <= 2^49 it is never negative and 0 only if they are all equal.", "quantifier": "all streams of up to 2^52 such observations and all window sizes", "why_tests_cant": "C19 shows that the sign and the zeros of the double variance are wrong in general; where exactly integer data are safe depends on the rounding of two running sums over the whole history.", "anchors": ["tools/cpp/KML/src/statistics/summary/StreamingVariance.cc:24-34", "tools/cpp/KML/src/statistics/summary/StreamingMean.cc:16-43"]}
{"id": "C113", "title": "WindowedFAME settles at the value that most observations take", "statement": "If a stream repeats itself and one value makes up more than half of each period, the estimate of WindowedFAME (epsilon 0) converges to that value, the median of the stream.", "quantifier": "all repeating streams with a majority value, all positive initial steps", "why_tests_cant": "The test compares one stream with a loose tolerance; convergence is a statement about unbounded streams, and whether it happens depends on the order of the observations.", "anchors": ["tools/cpp/KML/src/statistics/summary/WindowedFAME.cc:24-51"]}
{"id": "C114", "title": "StreamingMean stays within the range of its window", "statement": "StreamingMean of doubles lies between the smallest and the largest observation of its window, and StreamingVariance is at most a quarter of the squared difference of the two.", "quantifier": "all window sizes, all streams of moderate doubles (magnitude at most 2^950)", "why_tests_cant": "Tests average a few small integers, for which every operation is exact; the violations come from rounding and from what evicted observations leave behind.", "anchors": ["tools/cpp/KML/src/statistics/summary/StreamingMean.cc:16-43", "tools/cpp/KML/src/statistics/summary/StreamingVariance.cc:24-34"]}
{"id": "C115", "title": "A histogram can be used with every decay type it accepts", "statement": "A StreamingHistogram constructed with any value of DecayType can be updated; with WINDOW (the default) it is the histogram of the other claims.", "quantifier": "all decay types, bin counts, window sizes, histories of updates and resets, every arithmetic; all Python arguments", "why_tests_cant": "Every test uses the default decay type.", "anchors": ["tools/cpp/KML/include/data_structures/histograms/IStreamingHistogram.tcc:20-29", "tools/cpp/KML/include/data_structures/histograms/IStreamingHistogram.tcc:246-286", "tools/cpp/KML/include/data_structures/histograms/StreamingHistogram.tcc:32-54", "tools/cython/kml/data_structures/histograms/StreamingHistogram.pyx:51-53"]}
{"id": "C116", "title": "What a printed histogram says", "statement": "The text that operator<< writes for a histogram determines its bins: how many there are, every count and every boundary.", "quantifier": "all histograms of doubles (NaN and infinities included); the structure for any format of numbers", "why_tests_cant": "No test looks at the printed text.", "anchors": ["tools/cpp/KML/include/data_structures/histograms/IBin.tcc:102-107", "tools/cpp/KML/include/data_structures/histograms/IStreamingHistogram.tcc:91-102"]}
{"id": "C117", "title": "Every Cython file becomes one extension built from it", "statement": "For every directory tree, the extensions that setup.py builds are the Cython files of the package, one each, with that file as source and a name of its own.", "quantifier": "all directory trees, all file and directory names, all places of the repository", "why_tests_cant": "The tests only ever see the eleven files of the package.", "anchors": ["setup.py:146-169", "setup.py:172-193"]}
{"id": "C118", "title": "The build directory given on the command line is used", "statement": "setup.py passes to cythonize the directory the user gave to build_ext with --build-lib or -b, and ./build if none was given.", "quantifier": "all command lines", "why_tests_cant": "There is no test of setup.py.", "anchors": ["setup.py:75-98"]}
{"id": "C119", "title": "A window size that is no integer is refused", "statement": "A constructor of a wrapper class raises an exception if the window size or the number of bins is not an integer.", "quantifier": "every Python argument and every version of Cython (whether annotations are checked or not)", "why_tests_cant": "The tests pass small integers only.", "anchors": ["tools/cython/kml/data_structures/RingBuffer.pyx:42-43", "tools/cython/kml/statistics/summary/StreamingMean.pyx:40-41", "tools/cython/kml/statistics/summary/StreamingEntropy.pyx:45-47", "tools/cython/kml/data_structures/histograms/StreamingHistogram.pyx:51-53", "pyproject.toml:4"]}
{"id": "C120", "title": "An object may be given one of its own values", "statement": "update(x) with x a reference to a value that the object itself holds - mean.update((*mean.getWindow())[i]), hist.update(hist.getBin(i)->m_left) - does what update with a copy of that value does.", "quantifier": "every StreamingMean reached by calls with values and own elements and every element of its window; every StreamingHistogram, allocator, bin and edge; any arithmetic", "why_tests_cant": "The tests pass temporaries only; the dangling read usually finds the old value.", "anchors": ["tools/cpp/KML/src/statistics/summary/StreamingMean.cc:16-30", "tools/cpp/KML/include/IStreaming.tcc:32-36", "tools/cpp/KML/include/data_structures/histograms/IStreamingHistogram.tcc:246-286"]}
{"id": "C121", "title": "An update that runs out of memory changes nothing", "statement": "If update throws std::bad_alloc - whichever of the allocations it makes fails - the object is left as it was before the call, so that a caller who catches the exception goes on with the observations that were accepted.", "quantifier": "StreamingMean, StreamingVariance, LinkedList, StreamingHistogram and StreamingEntropy, every window size and bin number; every sequence of calls with any of the allocations failing in any of them", "why_tests_cant": "The tests never run out of memory.", "anchors": ["tools/cpp/KML/src/statistics/summary/StreamingMean.cc:16-30", "tools/cpp/KML/src/statistics/summary/StreamingVariance.cc:19-24", "tools/cpp/KML/include/IStreaming.tcc:32-36", "tools/cpp/KML/include/data_structures/linked_lists/LinkedList.tcc:21-47", "tools/cpp/KML/include/data_structures/histograms/IStreamingHistogram.tcc:246-286", "tools/cpp/KML/src/statistics/summary/StreamingEntropy.cc:35-49"]}
{"id": "C122", "title": "A constructor that throws leaves nothing allocated", "statement": "If a constructor throws - because an argument is rejected or because any of the allocations it makes is refused - every block it had allocated is released again.", "quantifier": "every class and Python wrapper, all arguments; every heap, every set of refused allocations, every standard library whose containers are sound in this respect; any arithmetic", "why_tests_cant": "The tests never run out of memory, and a leak is invisible to them.", "anchors": ["tools/cpp/KML/src/statistics/summary/StreamingVariance.cc:11-22", "tools/cpp/KML/src/statistics/summary/StreamingIQR.cc:11-28", "tools/cpp/KML/src/metrics/StreamingMAD.cc:13-23", "tools/cpp/KML/include/IStreaming.tcc:7-21", "tools/cpp/KML/src/statistics/summary/StreamingP2Quantile.cc:18-31", "tools/cpp/KML/src/statistics/summary/StreamingEntropy.cc:22-33"]}
{"id": "C123", "title": "A histogram used through all its public functions keeps its bounds", "statement": "However update, add and decayCounts - all public - are called on a histogram, it has at most numBins bins, in order and with observed edges, and its total and counts agree with the number of observations.", "quantifier": "all sequences of the three calls, all numBins and window sizes; any arithmetic (the order: any rounding)", "why_tests_cant": "The tests only call update; add skips the merge and decayCounts can be called at any time.", "anchors": ["tools/cpp/KML/include/data_structures/histograms/IStreamingHistogram.h:124-150", "tools/cpp/KML/include/data_structures/histograms/IStreamingHistogram.tcc:104-130", "tools/cpp/KML/include/data_structures/histograms/IStreamingHistogram.tcc:246-286", "tools/cpp/KML/include/data_structures/histograms/StreamingHistogram.tcc:32-54"]}
{"id": "C124", "title": "The sign of a zero and the bits of a NaN change nothing but such signs and bits", "statement": "On doubles with signed zeros and NaNs with bits every class returns, up to the sign of a returned zero and the bits of a returned NaN, what it returns when all zeros and all NaNs are taken to be the same: no class ever divides by a negative zero or orders by the sign of a zero.", "quantifier": "all classes, all histories of calls with arbitrary doubles (NaN and infinities included), all parameters, any choice of NaN bits by the machine", "why_tests_cant": "-0.0 compares equal to 0.0, so assertions on results do not tell them apart, but 1/-0.0 is -inf; which divisors can be -0.0 is a question about all streams.", "anchors": ["tools/cpp/KML/src/statistics/summary/StreamingP2Quantile.cc:33-168", "tools/cpp/KML/src/statistics/summary/StreamingMean.cc:14-45", "tools/cpp/KML/src/statistics/summary/WindowedFAME.cc:24-49", "tools/cpp/KML/include/data_structures/histograms/IStreamingHistogram.tcc:104-318", "tools/cpp/KML/src/statistics/summary/StreamingEntropy.cc:14-83"]}
{"id": "C125", "title": "64-bit sizes and indices kept in doubles never wrap or lose anything", "statement": "With size_t taken modulo 2^64 and indices rounded when they are stored in a double, every class does what it does with unbounded sizes, for every window a size_t can hold and every stream of fewer than 2^64 observations (histogram and entropy: 2^53).", "quantifier": "all classes, all windows below 2^64, all histories of calls with fewer than 2^64 (2^53) observations", "why_tests_cant": "The wrapping values are far outside any test: the largest window and streams of 2^53 observations or more.", "anchors": ["tools/cpp/KML/src/statistics/summary/WindowedP2Quantile.cc:22-46", "tools/cpp/KML/src/statistics/summary/StreamingMean.cc:16-43", "tools/cpp/KML/include/data_structures/RingBuffer.tcc:19-95", "tools/cpp/KML/include/data_structures/LinkedList.tcc:31-117", "tools/cpp/KML/include/data_structures/histograms/IStreamingHistogram.tcc:104-306", "tools/cpp/KML/include/data_structures/histograms/StreamingHistogram.tcc:32-79", "tools/cpp/KML/src/statistics/summary/StreamingEntropy.cc:35-49"]}
{"id": "C126", "title": "Searches take logarithmically many steps and memory stays bounded", "statement": "Among n bins the bin search, and the std::lower_bound of quantile over n cumulative values, end within floor(log2 n)+1 passes and for some input need that many; however long the stream, an update of a histogram searches at most numBins bins, merges among at most numBins+1, and keeps at most numBins bins and 2*windowSize window entries; an entropy keeps min(windowSize, observations) indices besides.", "quantifier": "all arithmetics, all histograms (sorted or not), all values, all streams", "why_tests_cant": "A test sees neither the number of passes nor every stream; unsorted bins and NaN could make a search loop for longer.", "anchors": ["tools/cpp/KML/include/data_structures/histograms/IStreamingHistogram.tcc:168-193", "tools/cpp/KML/include/data_structures/histograms/IStreamingHistogram.tcc:195-215", "tools/cpp/KML/include/data_structures/histograms/StreamingHistogram.tcc:32-79", "tools/cpp/KML/src/statistics/summary/StreamingEntropy.cc:35-49"]}
{"id": "C127", "title": "A full histogram counts the last two windows, not one", "statement": "If values appear for the first time in increasing order, there are bins enough for them and the tolerant comparison tells them apart, then after any number of observations every bin but the lowest counts how often its value occurs among the last 2*windowSize observations; the lowest counts at most that, and at most windowSize less. If the lowest value is not among the last 2*windowSize observations, the non-empty bins are their frequency table, the counts add up to twice getTotalCount(), and binCounts() throws.", "quantifier": "all roundings, numBins, windowSize >= 1 and streams with these properties, of any length", "why_tests_cant": "It needs streams of more than two windows and an independent count of what is held.", "anchors": ["tools/cpp/KML/include/data_structures/histograms/IStreamingHistogram.tcc:104-130", "tools/cpp/KML/include/data_structures/histograms/IStreamingHistogram.tcc:246-286", "tools/cpp/KML/include/data_structures/histograms/IStreamingHistogram.tcc:288-306"]}
{"id": "C128", "title": "By how much the bin counts exceed the total count", "statement": "With at least two bins and a window of at least one, the bin counts can exceed getTotalCount() by any amount, already on streams over numBins+1 values. With one bin and a window they always agree. Without a window the total count stays 0, no bin counts more than one, and the excess is at most numBins. So exactly the histograms with one bin and a window, and those without bins, never throw from binCounts().", "quantifier": "all numBins and windowSize; unbounded excess on exact numbers in the unit interval and on doubles 1 to numBins+1 for up to 9000 bins; agreement and the bound without a window in any arithmetic", "why_tests_cant": "A test can show an excess, not that there is no limit to it.", "anchors": ["tools/cpp/KML/include/data_structures/histograms/IStreamingHistogram.tcc:104-130", "tools/cpp/KML/include/data_structures/histograms/IStreamingHistogram.tcc:246-306", "tools/cpp/KML/include/data_structures/histograms/StreamingHistogram.tcc:32-54"]}
{"id": "C129", "title": "Histogram quantiles after the window has rolled over", "statement": "On doubles, on a StreamingHistogram with at least two bins, quantile(q) is a finite value for every level q in [0,1], however many observations have been made.", "quantifier": "every window of at least one, every number of bins, every stream of finite doubles of any length, every level", "why_tests_cant": "Evictions hit the wrong bin once the window is full (C53, C57), so a bin may have count 0 and the counts add up to more than the total; only streams that run past the window with few of the smallest value left show what quantile then divides by.", "anchors": ["tools/cpp/KML/include/data_structures/histograms/IStreamingHistogram.tcc:195-244", "tools/cpp/KML/include/data_structures/histograms/IStreamingHistogram.tcc:104-130"]}
{"id": "C130", "title": "The runs recorded in StreamingEntropy.ipynb are defined", "statement": "PyStreamingEntropy(1000, 100) processes the thousand uniform numbers of the notebook StreamingEntropy.ipynb, and a constant stream leaves its entropy exactly 0.", "quantifier": "the data of the notebook (NumPy's MT19937 with seed 42), every std::log2; for constant streams every finite double, window, number of bins and length up to the window", "why_tests_cant": "An out-of-range read of the vector of bins usually finds the pointer that was there before, so the notebook shows a number; the constant case needs the cancellation of two rounded products for every length.", "anchors": ["tools/python/kml/notebooks/statistics/summary/StreamingEntropy.ipynb", "tools/cpp/KML/src/statistics/summary/StreamingEntropy.cc:35-67", "tools/cpp/KML/include/data_structures/histograms/IStreamingHistogram.tcc:364-374"]}
{"id": "C131", "title": "StreamingEntropy reports the entropy of its bins", "statement": "While the window of a StreamingEntropy fills, evaluate() is the entropy of the counts of its bins, also after bins have been merged; in particular it is at most log2 of the number of bins.", "quantifier": "every window, number of bins and stream of reals whose processing is defined and that fits the window, exact arithmetic", "why_tests_cant": "The value depends on which bins the histogram merged at every step; the error needs merges away from the new item, and no test knows the bins' own entropy.", "anchors": ["tools/cpp/KML/src/statistics/summary/StreamingEntropy.cc:35-67", "tools/cpp/KML/src/statistics/summary/StreamingEntropy.cc:84-124", "tools/cpp/KML/include/data_structures/histograms/StreamingHistogram.tcc:32-75"]}
{"id": "C132", "title": "get_version returns the version on the last line of _version.py", "statement": "If the last line of _version.py defines the version as a text in single quotes, as the documentation of get_version assumes, get_version returns that version.", "quantifier": "every text before the last line and every version text without quotes, backslashes, line ends and equals signs", "why_tests_cant": "setup.py has no tests; the file is generated at build time and its last line depends on the release of setuptools_scm and on the state of the git checkout.", "anchors": ["setup.py:54-71"]}
{"id": "C133", "title": "Calls of several Python threads on one container take effect one after another", "statement": "If several Python threads call methods of one PyRingBuffer or PyLinkedList, every call takes effect as a whole, before or after every other call.", "quantifier": "every window size, every number of threads, every list of calls per thread with every argument, and every order in which the interpreter lock is handed over", "why_tests_cant": "which thread gets the interpreter lock, and when, cannot be chosen by a test; a generator that sleeps between its items is needed to see updates mix.", "anchors": ["tools/cython/kml/data_structures/RingBuffer.pyx:45-108", "tools/cython/kml/data_structures/LinkedList.pyx:45-111"]}
{"id": "C134", "title": "Rounding error of StreamingEntropy once the window is full", "statement": "On doubles, with a log2 accurate to 2^-51 of its value and a full window of W observations, an update changes the reported number by the exact change of the terms of two bins (the one of the index that leaves, before, and the one of the new observation, after) up to 800/2^53, as long as no bin counts more than W and the number reported is at most 15 in magnitude. For n equal observations the number reported is within 800 n/2^53 of 0, the true entropy, however far past the window.", "quantifier": "every accurate log2, window of 2 to 2^40, number of bins and stream; for equal observations every finite double and every n up to 2^43", "why_tests_cant": "decrement divides by (W-1)/W and increment multiplies by it, on rounded numbers that are fed back for ever; a test sees one stream and cannot tell drift from rounding.", "anchors": ["tools/cpp/KML/src/statistics/summary/StreamingEntropy.cc: update, increment, decrement, evaluate", "tools/cpp/KML/src/utils/Utils.cc: xlogx"]}
{"id": "C135", "title": "LinkedList::reset while other threads use the list leaves the list in order", "statement": "When threads call update, pop, size, empty, full and reset on one LinkedList and all calls have returned, what the list shows can be shown and size() is the number of items shown. If reset's mutex were held by every call, a run would be free of races, undefined only where a reset comes when the list is empty (C09), and would amount to its calls made one at a time, in the order in which they got the mutex, on a bounded queue.", "quantifier": "every number of threads, window, program of calls and interleaving of single memory accesses", "why_tests_cant": "reset is the one call of the class that locks, which looks like protection; that nothing else takes the mutex only shows under particular interleavings.", "anchors": ["tools/cpp/KML/include/data_structures/LinkedList.tcc: reset, update, pop, size, empty, full"]}
{"id": "C136", "title": "A Python statistic shared by threads does not depend on how they take turns", "statement": "When several Python threads call the methods of one statistic or histogram wrapper and all are done, every number they gave has been used exactly once, the numbers of each thread in their order; every call ends as it would in a single thread; and the mean of data that fit in the window does not depend on how the threads took turns.", "quantifier": "every number of threads, program of calls with any Python arguments, and order in which the threads get the interpreter lock", "why_tests_cant": "the order of turns is chosen by the interpreter and hardly ever changes between test runs.", "anchors": ["tools/cython/kml/statistics/summary/StreamingMean.pyx: update, evaluate", "tools/cython/kml/statistics/summary/StreamingVariance.pyx, StreamingP2Quantile.pyx, WindowedP2Quantile.pyx, StreamingIQR.pyx, WindowedFAME.pyx, StreamingEntropy.pyx, metrics/StreamingMAD.pyx", "tools/cython/kml/data_structures/histograms/StreamingHistogram.pyx"]}
{"id": "C137", "title": "On doubles too the step of WindowedFAME stays bounded by the spread of the data", "statement": "On doubles the step of WindowedFAME never exceeds the larger of its value after the first observation and 5/2 of the width of the data.", "quantifier": "every positive step, every epsilon in [0,1), every stream of doubles in a range, of any length", "why_tests_cant": "C85 holds in exact arithmetic; the failure needs an observation so close to the estimate that the step hides the difference.", "anchors": ["tools/cpp/KML/src/statistics/summary/WindowedFAME.cc: update"]}
{"id": "C138", "title": "StreamingHistogram puts an infinite observation at its own end of the range", "statement": "After some finite observations that fit the window, +infinity becomes the right end of the last bin of a StreamingHistogram and -infinity the left end of the first bin.", "quantifier": "every number of bins, every window, every stream of doubles up to a quarter of the largest that fits the window", "why_tests_cant": "Tests observe finite numbers; whether the tolerant comparison orders an infinity depends on inf * epsilon and inf - inf, which no finite example reaches.", "anchors": ["tools/cpp/KML/include/data_structures/histograms/IStreamingHistogram.tcc: binSearch, add", "tools/cpp/KML/src/utils/Utils.cc: definitelyLessThan"]}
{"id": "C139", "title": "One infinite observation does not make the StreamingP2Quantile estimate infinite or NaN", "statement": "If one observation after the first five is infinite and all others are doubles of magnitude up to 2^950, every later value of StreamingP2Quantile is finite.", "quantifier": "every quantile, every stream of doubles up to 2^950 with one infinity after the first five, either sign", "why_tests_cant": "Tests observe finite numbers; how an infinite marker height spreads to its neighbours depends on when the markers move.", "anchors": ["tools/cpp/KML/src/statistics/summary/StreamingP2Quantile.cc: update, adjustHeights, parabolic, linear"]}
{"id": "C140", "title": "The extensions are compiled without -Wstrict-prototypes", "statement": "build_extensions removes -Wstrict-prototypes from the compile command and keeps every other argument in its place.", "quantifier": "every compile command", "why_tests_cant": "Whether and how often the flag occurs depends on the Python installation and the environment of the build; one build sees one command.", "anchors": ["setup.py: my_build_ext.build_extensions"]}
{"id": "C141", "title": "A windowed quantile forgets an infinite observation once it has left the window", "statement": "If the last windowSize observations are doubles of magnitude up to 2^950, the values of WindowedP2Quantile and StreamingIQR are finite, whatever was observed before.", "quantifier": "every quantile, every window of at least 4, every stream", "why_tests_cant": "Tests feed finite numbers; how long an infinity stays in the marker heights and the previous estimate depends on the phase of the window.", "anchors": ["tools/cpp/KML/src/statistics/summary/WindowedP2Quantile.cc: update, evaluate", "tools/cpp/KML/src/statistics/summary/StreamingIQR.cc: update, evaluate", "tools/cpp/KML/src/statistics/summary/StreamingP2Quantile.cc: update, clear"]}
{"id": "C142", "title": "The public window size of a RingBuffer can be changed", "statement": "m_windowSize is a public member. Whatever positive values are assigned to it between calls, a RingBuffer is a queue of that capacity which keeps the newest items that fit.", "quantifier": "every window size of the constructor, every element type, every history of calls and assignments", "why_tests_cant": "Tests never assign the member; whether an assignment goes wrong depends on where head and tail are.", "anchors": ["tools/cpp/KML/include/data_structures/IDataStructure.h: m_windowSize", "tools/cpp/KML/include/data_structures/RingBuffer.tcc: update, pop, size"]}
{"id": "C143", "title": "The public window size of a LinkedList can be changed", "statement": "m_windowSize is a public member. Whatever is assigned to it between calls, a LinkedList is a queue of that capacity (0: unbounded) which keeps the newest items that fit.", "quantifier": "every window size, every element type, every history of calls and assignments (reset and full: see C10, C12)", "why_tests_cant": "Tests never assign the member; an eviction test by equality goes wrong only when the size was exceeded before.", "anchors": ["tools/cpp/KML/include/data_structures/IDataStructure.h: m_windowSize", "tools/cpp/KML/include/data_structures/LinkedList.tcc: update"]}
{"id": "C144", "title": "Editing the window of a StreamingMean", "statement": "getWindow() hands out the deque itself. Whatever the caller does to it, evaluate() is the mean of the window that getWindow() then shows, and no call is undefined.", "quantifier": "every window size, every history of updates and edits of the deque; the exact claims for one edit between any observations", "why_tests_cant": "Tests only read the window; the value goes wrong only after an edit that changes the sum, and stays wrong.", "anchors": ["tools/cpp/KML/include/IStreaming.tcc: getWindow", "tools/cpp/KML/src/statistics/summary/StreamingMean.cc: update, evaluate"]}
{"id": "C145", "title": "Assigning the number of observations of StreamingP2Quantile", "statement": "m_historyCount is a public member. Whatever is assigned to it between calls, with at most 2^31 - 5 observations no call is undefined and every value lies between the extremes of 0 and the observations; the limit is sharp.", "quantifier": "every monotone rounding, every quantile in (0, 1), every history of update, evaluate, clear and assignments", "why_tests_cant": "Tests never assign the member; the heights can then be out of order, a state the algorithm is not made for.", "anchors": ["tools/cpp/KML/include/IStreaming.h: m_historyCount", "tools/cpp/KML/src/statistics/summary/StreamingP2Quantile.cc: update, evaluate, adjustHeights, linear"]}
{"id": "C146", "title": "Assigning the number of observations of StreamingMean", "statement": "m_historyCount is a public member. Whatever is assigned to it between calls, evaluate() is the mean of the observations, of the last W with a window.", "quantifier": "every window size, every history of update, evaluate and assignments", "why_tests_cant": "Tests never assign the member; with a window it is used only in a comparison with 0.", "anchors": ["tools/cpp/KML/include/IStreaming.h: m_historyCount", "tools/cpp/KML/src/statistics/summary/StreamingMean.cc: update, evaluate"]}
{"id": "C147", "title": "The number of observations of StreamingVariance, StreamingMAD, StreamingIQR and StreamingEntropy is for information only", "statement": "Assigning the public m_historyCount of a StreamingVariance, StreamingMAD, StreamingIQR or StreamingEntropy changes neither the value nor the outcome of any later call.", "quantifier": "every arithmetic, every state, every history of update, evaluate and assignments", "why_tests_cant": "Noninterference over all histories: a test would have to compare every pair of histories that differ in assignments.", "anchors": ["tools/cpp/KML/include/IStreaming.h: m_historyCount", "tools/cpp/KML/src/statistics/summary/StreamingVariance.cc: update, evaluate", "tools/cpp/KML/src/metrics/StreamingMAD.cc: update, evaluate", "tools/cpp/KML/src/statistics/summary/StreamingIQR.cc: update, evaluate", "tools/cpp/KML/src/statistics/summary/StreamingEntropy.cc: update, evaluate"]}
{"id": "C148", "title": "Chained assignments of bins", "statement": "As for numbers, a chain such as ((a = b) += c) += d has the effect of its assignments to a one after the other, and changes no other bin.", "quantifier": "every arithmetic, every memory, every left-nested chain of copy assignment, move assignment and += from variables", "why_tests_cant": "Tests use += as a statement; whether it returns the object or a copy shows only in a chain.", "anchors": ["tools/cpp/KML/include/data_structures/histograms/IBin.tcc: operator=, operator+=", "tools/cpp/KML/include/data_structures/histograms/IBin.h: operator+="]}
{"id": "C149", "title": "The listener of the test program", "statement": "The listener in tests/main.cc forwards events of the run only, each at most once and in order, never loses a failed assertion, and shows every start with its end; as set by main it hides exactly the events of the environment.", "quantifier": "every setting of the five switches, every sequence of events", "why_tests_cant": "The listener decides what of the other tests is seen; it has no tests itself.", "anchors": ["tools/cpp/tests/main.cc: ConfigurableEventListener, main"]}
{"id": "C150", "title": "WindowedP2Quantile tolerates any assigned number of observations", "statement": "With a window of at least 1 and at most 2^31 observations, no history of updates, evaluations and assignments to the public m_historyCount of a WindowedP2Quantile throws or is undefined. In exact arithmetic every value stays within W - 1 interval widths of any interval that contains 0 and the observations, and this bound is attained.", "quantifier": "every representation of numbers (for definedness; exact arithmetic for the bound), every quantile accepted by the constructor, every W >= 1, every history of update, evaluate and assignments", "why_tests_cant": "Which observation closes a window and how the two estimates are weighted depend on the count; a test can try only a few assigned counts at a few moments.", "anchors": ["tools/cpp/KML/include/IStreaming.h: m_historyCount", "tools/cpp/KML/src/statistics/summary/WindowedP2Quantile.cc: update, evaluate"]}
{"id": "C151", "title": "WindowedFAME asks only whether the number of observations is zero", "statement": "Of the numbers assigned to the public m_historyCount of a WindowedFAME only zero or not matters to the values. After 0 is assigned the next observation is the value, even if the median was infinite or not a number. With epsilon 0, in exact arithmetic, every value stays within one largest step of any interval that contains 0 and the observations, whatever is assigned.", "quantifier": "every arithmetic for the first claim, every state on doubles with infinities and NaN for the second, every step size >= 0 and every history of update, evaluate and assignments for the third", "why_tests_cant": "Noninterference and bounds over all histories with assignments; a test tries a few.", "anchors": ["tools/cpp/KML/include/IStreaming.h: m_historyCount", "tools/cpp/KML/src/statistics/summary/WindowedFAME.cc: update, evaluate"]}
{"id": "C152", "title": "The public window size of a histogram can be changed", "statement": "After every update a StreamingHistogram counts at most as many observations as its public m_windowSize then says, whatever was assigned to it before.", "quantifier": "every arithmetic, every numBins, window and history of update, add, decayCounts and assignments to m_windowSize", "why_tests_cant": "Two state variables (total count and window size) drift apart over histories with assignments; a test fixes a few.", "anchors": ["tools/cpp/KML/include/data_structures/IDataStructure.h: m_windowSize", "tools/cpp/KML/include/data_structures/histograms/IStreamingHistogram.tcc: add, decayCounts", "tools/cpp/KML/include/data_structures/histograms/StreamingHistogram.tcc: update"]}
{"id": "C153", "title": "Writing into the bins of a histogram", "statement": "getBin() hands out the bin itself, not a copy. Whatever the caller writes into it, an observation that the histogram would be sure to survive without such writes is processed, and binCounts() does not throw.", "quantifier": "every arithmetic, every numBins, window and history of update and writes to m_left, m_right and m_count of bins", "why_tests_cant": "The bins, their number and the total count drift apart over histories with arbitrary writes; a test fixes a few.", "anchors": ["tools/cpp/KML/include/data_structures/histograms/IStreamingHistogram.tcc: getBin, binCounts, add, decayCounts, mergeBins", "tools/cpp/KML/include/data_structures/histograms/IBin.h: m_left, m_right, m_count", "tools/cpp/KML/include/data_structures/histograms/StreamingHistogram.tcc: update, merge"]}
{"id": "C154", "title": "A derived class that changes the deque of indices of a histogram", "statement": "The protected getWindow() gives a class derived from the histogram the deque of bin indices. Whatever the derived class does to it between updates, no observation is undefined that would not be so without, and the totals stay right.", "quantifier": "every arithmetic, every numBins, window and history of update and changes to the deque", "why_tests_cant": "The deque decides which bin loses an observation; its contents and the bins interact over whole histories.", "anchors": ["tools/cpp/KML/include/data_structures/histograms/IStreamingHistogram.tcc: getWindow, add, decayCounts", "tools/cpp/KML/include/data_structures/histograms/StreamingHistogram.tcc: update"]}
