{"id": "C01", "title": "Site index survives a trip through coordinates", "statement": "For every list of positive extents whose product fits in size_t and every index i below that product, index_to_array(i) succeeds, gives one coordinate per extent (in range if the extents are at most 2^63), and array_to_index of those coordinates is i again.", "quantifier": "every number of dimensions, every list of extents, every valid index", "why_tests_cant": "The set of (extents, index) pairs is unbounded in dimension and astronomically large in size; tests use 3x4.", "anchors": ["include/bwsl/MathUtils.hpp:index_to_array", "include/bwsl/MathUtils.hpp:array_to_index", "include/bwsl/HyperCubicGrid.hpp:GetCoordinates", "include/bwsl/HyperCubicGrid.hpp:GetIndex"]}
{"id": "C02", "title": "Coordinates survive a trip through the site index", "statement": "For every list of positive extents whose product fits in size_t and every coordinate vector with 0 <= c_k < size_k, array_to_index gives an index below the product and index_to_array of it returns the same vector. Hence distinct sites get distinct indices and, if the extents are at most 2^63, every index is that of a site.", "quantifier": "every number of dimensions, every list of extents, every on-grid coordinate vector of longs", "why_tests_cant": "Same unbounded domain; injectivity is a statement about all pairs.", "anchors": ["include/bwsl/MathUtils.hpp:array_to_index", "include/bwsl/MathUtils.hpp:index_to_array", "include/bwsl/HyperCubicGrid.hpp:GetIndex", "include/bwsl/HyperCubicGrid.hpp:GetCoordinates"]}
{"id": "C03", "title": "Indices enumerate the grid in row-major (lexicographic) order", "statement": "For two on-grid coordinate vectors, array_to_index(a) < array_to_index(b) exactly when a precedes b lexicographically.", "quantifier": "every grid and every pair of its sites", "why_tests_cant": "A statement about all pairs of sites of all grids.", "anchors": ["include/bwsl/MathUtils.hpp:array_to_index"]}
{"id": "C04", "title": "Index conversion is free of undefined behaviour exactly on representable grids", "statement": "index_to_array(i, size) is free of undefined behaviour (no division by zero) if and only if size is empty, or every extent is nonzero and the exact product of the extents fits in size_t. In particular a grid whose site count wraps around size_t always divides by zero.", "quantifier": "every list of size_t extents and every size_t index", "why_tests_cant": "The overflow cases need grids with 2^64 sites; no test can build one per extents vector.", "anchors": ["include/bwsl/MathUtils.hpp:index_to_array", "include/bwsl/MathUtils.hpp:accumulate_product"]}
{"id": "C05", "title": "Pair index is a bijection", "statement": "For n <= 2^32 and a, b < n, GetPairIndex(a,b,n) is below n*n and GetPair of it is (a,b); every k < n*n is the index of GetPair(k). For n < 2^32, GetNumPairs(n) is n*n; the grid's GetPairIndex/GetIndividualIndices are inverse in the same way.", "quantifier": "every n up to 2^32 and all pairs", "why_tests_cant": "2^64 pairs.", "anchors": ["include/bwsl/Pairs.hpp:GetPairIndex", "include/bwsl/Pairs.hpp:GetPair", "include/bwsl/Pairs.hpp:GetNumPairs", "include/bwsl/HyperCubicGrid.hpp:GetPairIndex", "include/bwsl/HyperCubicGrid.hpp:GetIndividualIndices"]}
{"id": "C06", "title": "EnforceBoundaries folds any coordinates into a closed grid", "statement": "On a closed grid with positive extents below 2^63, EnforceBoundaries terminates for every coordinate vector, and leaves each coordinate equal to the unique value in [0, size_k) congruent to it modulo size_k; it is idempotent. On an open grid it changes nothing.", "quantifier": "every grid, every coordinate vector of longs", "why_tests_cant": "Termination and the congruence for all longs cannot be sampled.", "anchors": ["include/bwsl/HyperCubicGrid.hpp:EnforceBoundaries", "include/bwsl/Lattice.hpp:EnforceBoundaries"]}
{"id": "C07", "title": "EnforceBoundaries never returns on a closed grid with an empty direction", "statement": "On a closed grid having an extent equal to 0, EnforceBoundaries does not return for any coordinate vector.", "quantifier": "every grid with a zero extent, every coordinate vector; extents below 2^63", "why_tests_cant": "Non-termination is not observable by a test.", "anchors": ["include/bwsl/HyperCubicGrid.hpp:EnforceBoundaries"]}
{"id": "C08", "title": "GetMappedSite and GetUnMappedSite are inverse translations on closed grids", "statement": "On a closed grid with extents of at most 2^62, for all valid sites a, b: GetMappedSite(a,b) is a valid site, GetUnMappedSite(GetMappedSite(a,b), a) = b, GetMappedSite(a, GetUnMappedSite(i,a)) = i, GetMappedSite(a,a) = 0 and GetMappedSite(0,b) = b.", "quantifier": "every closed grid, all pairs of sites", "why_tests_cant": "All pairs of sites of all grids.", "anchors": ["include/bwsl/HyperCubicGrid.hpp:GetMappedSite", "include/bwsl/HyperCubicGrid.hpp:GetUnMappedSite"]}
{"id": "C09", "title": "Translations compose", "statement": "On a closed grid GetMappedSite is translation invariant and additive: shifting a and b by the same site leaves GetMappedSite(a,b) unchanged, and GetUnMappedSite is commutative and associative (sites form the group Z_s1 x ... x Z_sd).", "quantifier": "every closed grid, all triples of sites; extents of at most 2^62", "why_tests_cant": "All triples of sites of all grids.", "anchors": ["include/bwsl/HyperCubicGrid.hpp:GetMappedSite", "include/bwsl/HyperCubicGrid.hpp:GetUnMappedSite"]}
{"id": "C10", "title": "GetMappedSite gives a valid site on open grids too", "statement": "On an open grid, GetMappedSite(a,b) is a valid site for all valid a, b. (Expected by GetDistance and GetVector, which use it as a subscript; the code returns b-a modulo 2^64, so this fails whenever b < a.)", "quantifier": "every open grid, all pairs of sites", "why_tests_cant": "All pairs of sites of all grids.", "anchors": ["include/bwsl/HyperCubicGrid.hpp:GetMappedSite", "include/bwsl/Lattice.hpp:GetDistance", "include/bwsl/Lattice.hpp:GetVector"]}
{"id": "C11", "title": "GetJump is the minimum-image displacement", "statement": "On a closed grid with extents in [1, 2^32), each component of GetJump(a,b) is congruent to the coordinate difference modulo the extent s, lies in (-s/2, s/2], and so has the least absolute value among all congruent integers. On an open grid it is the plain coordinate difference.", "quantifier": "every grid, all pairs of sites", "why_tests_cant": "All pairs of sites of all grids.", "anchors": ["include/bwsl/HyperCubicGrid.hpp:GetJump"]}
{"id": "C12", "title": "Winding numbers of closed walks are exact", "statement": "For every closed walk a_0, a_1, ..., a_n = a_0 of valid sites on a closed grid, the accumulated GetJump is divisible by the extent in every direction, and GetWinding of it times the extent gives it back.", "quantifier": "every closed grid and every closed walk of any length (accumulated sum within long); extents below 2^32", "why_tests_cant": "Unbounded histories of hops.", "anchors": ["include/bwsl/HyperCubicGrid.hpp:GetJump", "include/bwsl/Lattice.hpp:GetWinding", "include/bwsl/MathUtils.hpp:sum_into"]}
{"id": "C13", "title": "IsOnGrid decides exactly the coordinates of the valid sites", "statement": "IsOnGrid(c) holds if and only if c is GetCoordinates(i) for some valid i.", "quantifier": "every grid with representable site count and extents below 2^63, every coordinate vector of longs", "why_tests_cant": "Infinite set of coordinate vectors.", "anchors": ["include/bwsl/HyperCubicGrid.hpp:IsOnGrid", "include/bwsl/HyperCubicGrid.hpp:GetCoordinates"]}
{"id": "C14", "title": "cbinomial is the binomial coefficient or overflows", "statement": "For 0 <= k <= n, with m = min(k, n-k): if C(n,m)*m fits in long then cbinomial(n,k) computes exactly C(n,k) (every division is exact), otherwise signed overflow occurs; for k > n it is 0.", "quantifier": "every pair of longs with k nonnegative", "why_tests_cant": "Exactness of every intermediate division for all n, k.", "anchors": ["include/bwsl/MathUtils.hpp:cbinomial"]}
{"id": "C15", "title": "cbinomial of a negative k is zero", "statement": "cbinomial(n, k) is 0 for negative k. (The code returns 1.)", "quantifier": "every n >= 0, k < 0", "why_tests_cant": "Infinite range.", "anchors": ["include/bwsl/MathUtils.hpp:cbinomial"]}
{"id": "C16", "title": "get_gcd terminates with the greatest common divisor up to sign", "statement": "get_gcd(a,b) terminates for all longs and its absolute value is gcd(|a|,|b|); the only undefined cases are the two orders of (LONG_MIN, -1).", "quantifier": "every pair of longs", "why_tests_cant": "2^128 inputs; termination.", "anchors": ["include/bwsl/MathUtils.hpp:get_gcd"]}
{"id": "C17", "title": "get_gcd is nonnegative", "statement": "get_gcd of two longs, not both zero, is positive, as callers that divide by it expect. (The code returns negative values, for instance for (-3, 6).)", "quantifier": "every pair of longs", "why_tests_cant": "Sign behaviour over all inputs.", "anchors": ["include/bwsl/MathUtils.hpp:get_gcd", "include/bwsl/RationalNum.hpp:Simplify"]}
{"id": "C18", "title": "absdiff and signeddiff are exact differences", "statement": "absdiff of two unsigned values is |a-b|; signeddiff of two size_t is a-b as a long whenever |a-b| < 2^63, and is undefined when b-a is exactly 2^63.", "quantifier": "every pair of size_t", "why_tests_cant": "2^128 inputs.", "anchors": ["include/bwsl/MathUtils.hpp:absdiff", "include/bwsl/MathUtils.hpp:signeddiff"]}
{"id": "C19", "title": "max and min return an extremal element", "statement": "max(v) (min(v)) of a nonempty container is an element of v and no element is greater (smaller); on an empty container the call is undefined.", "quantifier": "every container over a linear order", "why_tests_cant": "Unbounded containers.", "anchors": ["include/bwsl/MathUtils.hpp:max", "include/bwsl/MathUtils.hpp:min"]}
{"id": "C20", "title": "choose_between picks index i exactly on the i-th probability interval", "statement": "For nonnegative weights with positive total and a draw r in [0,total), choose_between returns i < size with r in [w_0+..+w_{i-1}, w_0+..+w_i); hence an index of weight zero is never returned and the set of draws selecting i has length w_i.", "quantifier": "every weight list and every draw", "why_tests_cant": "Every real draw and every weight vector.", "anchors": ["include/bwsl/MathUtils.hpp:choose_between", "include/bwsl/MathUtils.hpp:choose_between_psums"]}
{"id": "C21", "title": "choose_with_probability respects certain and impossible events", "statement": "With a draw in [0,1): probability 0 or less is never chosen, 1 or more is always chosen, and the draws that choose p are exactly those below p (so a larger probability is chosen whenever a smaller one is).", "quantifier": "every probability and every draw", "why_tests_cant": "Every draw.", "anchors": ["include/bwsl/MathUtils.hpp:choose_with_probability"]}
{"id": "C22", "title": "sum_into and subtract_into undo each other", "statement": "If neither overflows, subtract_into after sum_into (and the reverse) restores the left container; both act element by element, keep its size, and, unless an overflow comes first, read out of bounds exactly when the right container is shorter. Inverting twice is the identity.", "quantifier": "all containers of longs", "why_tests_cant": "Unbounded containers.", "anchors": ["include/bwsl/MathUtils.hpp:sum_into", "include/bwsl/MathUtils.hpp:subtract_into", "include/bwsl/MathUtils.hpp:invert", "include/bwsl/MathUtils.hpp:get_inverted"]}
{"id": "C23", "title": "bwsl::upper_bound agrees with std::upper_bound on sorted ranges", "statement": "For every sorted range, bwsl::upper_bound returns the position of the first element greater than the value. (Where the code compiles at all -- for iterators such as raw pointers that do not drag in std::upper_bound by argument-dependent lookup -- it calls itself with the same arguments and never returns on ranges of at most 10000 elements, and on longer ranges it returns the wrong position for a repeated first element and can read past the end; whenever it returns on distinct elements, the position is right.)", "quantifier": "every sorted range and value", "why_tests_cant": "Non-termination and unbounded ranges.", "anchors": ["include/bwsl/MathUtils.hpp:upper_bound"]}
{"id": "C24", "title": "lerp interpolates", "statement": "In exact arithmetic lerp(a,b,0)=a, lerp(a,b,1)=b, the result lies between a and b for t in [0,1], it is monotone in t when a<=b, and lerpi(i,j,a,b) for i=0..j visits a first and b last.", "quantifier": "all real a, b, t and all integers 0<=i<=j, j>0", "why_tests_cant": "Infinite domain.", "anchors": ["include/bwsl/MathUtils.hpp:lerp", "include/bwsl/MathUtils.hpp:lerpi"]}
{"id": "C25", "title": "Container sums and products do not depend on element order", "statement": "accumulate_sum and accumulate_product over size_t equal the exact sum and product modulo 2^64, and are unchanged by reordering the container.", "quantifier": "every container and permutation", "why_tests_cant": "All permutations.", "anchors": ["include/bwsl/MathUtils.hpp:accumulate_sum", "include/bwsl/MathUtils.hpp:accumulate_product"]}
{"id": "C26", "title": "A rational is stored in lowest terms with its value unchanged", "statement": "Whenever the constructor RationalNum(p,q) with q != 0 completes without undefined behaviour, the result denotes p/q exactly and its numerator and denominator are coprime; it does complete whenever p and q differ from LONG_MIN and are not both zero (RationalNum(LONG_MIN,5) overflows).", "quantifier": "every pair of longs", "why_tests_cant": "2^128 inputs.", "anchors": ["include/bwsl/RationalNum.hpp:RationalNum", "include/bwsl/RationalNum.hpp:Simplify"]}
{"id": "C27", "title": "The stored denominator is positive", "statement": "RationalNum(p,q) with q > 0 stores a positive denominator. (It does not: RationalNum(-1,2) is stored as 1//-2.)", "quantifier": "every pair of longs", "why_tests_cant": "All inputs.", "anchors": ["include/bwsl/RationalNum.hpp:Simplify", "include/bwsl/MathUtils.hpp:get_gcd"]}
{"id": "C28", "title": "Rational arithmetic is exact", "statement": "Each of + - * / between two rationals or a rational and an integer (either order) denotes the exact rational result, in lowest terms, whenever no intermediate product overflows and the divisor is nonzero.", "quantifier": "all operands with nonzero denominators", "why_tests_cant": "All operands.", "anchors": ["include/bwsl/RationalNum.hpp:operator+", "include/bwsl/RationalNum.hpp:operator-", "include/bwsl/RationalNum.hpp:operator*", "include/bwsl/RationalNum.hpp:operator/"]}
{"id": "C29", "title": "Equality of rationals is equality of values", "statement": "For rationals with nonzero denominators (in any representation), a == b if and only if they denote the same number, provided the cross products do not overflow; != is its negation.", "quantifier": "all pairs", "why_tests_cant": "All pairs.", "anchors": ["include/bwsl/RationalNum.hpp:operator<", "include/bwsl/RelationalUtils.hpp:TEMPLATEOVERLOADRELATIONAL"]}
{"id": "C30", "title": "Ordering of rationals is the ordering of values", "statement": "a < b if and only if the value of a is less than the value of b. (True when the two denominators have the same sign; otherwise the answer is that of the reversed comparison, and the constructor does produce negative denominators.)", "quantifier": "all pairs of constructed rationals", "why_tests_cant": "All pairs.", "anchors": ["include/bwsl/RationalNum.hpp:operator<", "include/bwsl/RelationalUtils.hpp:TEMPLATEOVERLOADRELATIONAL"]}
{"id": "C31", "title": "Comparing a rational with an integer compares the values", "statement": "r < n, n < r and r == n hold exactly when they hold of the denoted numbers. (The code truncates r first: RationalNum(1,2) == 0 is true.)", "quantifier": "all rationals and integers", "why_tests_cant": "All pairs.", "anchors": ["include/bwsl/RationalNum.hpp:operator<"]}
{"id": "C32", "title": "Printing then parsing a rational gives it back", "statement": "FromString(ToString(r)) stores exactly the numerator and denominator of r, for every r.", "quantifier": "every rational over long", "why_tests_cant": "2^128 values.", "anchors": ["include/bwsl/RationalNum.hpp:operator<<", "include/bwsl/RationalNum.hpp:operator>>", "include/bwsl/RationalNum.hpp:FromString", "include/bwsl/RationalNum.hpp:ToString"]}
{"id": "C33", "title": "Unparseable text is rejected", "statement": "FromString throws BadParsing exactly when the text is not (optional blanks) integer (blanks) / (blanks) / (blanks) integer with both integers in the range of long; text after the second integer is ignored.", "quantifier": "every string", "why_tests_cant": "All strings.", "anchors": ["include/bwsl/RationalNum.hpp:FromString", "include/bwsl/RationalNum.hpp:operator>>"]}
{"id": "C34", "title": "IsInt and integer conversion agree", "statement": "IsInt() holds exactly when the denoted value is an integer, and then the conversion to the integer type is exact; in general the conversion truncates towards zero.", "quantifier": "every rational with nonzero denominator, except LONG_MIN over -1 (whose division overflows)", "why_tests_cant": "All values.", "anchors": ["include/bwsl/RationalNum.hpp:IsInt", "include/bwsl/RationalNum.hpp:operator T"]}
{"id": "C35", "title": "Counts and resets of accumulators", "statement": "After any sequence of Add and Reset calls, Count() of every accumulator is the number of measurements added since the last Reset (for WestAccumulator: of positive weight) modulo 2^64, and an accumulator after Reset behaves exactly like a fresh one.", "quantifier": "every history of operations", "why_tests_cant": "Unbounded histories.", "anchors": ["include/bwsl/accumulators/KahanAccumulator.hpp", "include/bwsl/accumulators/NeumaierAccumulator.hpp", "include/bwsl/accumulators/KnuthWelfordAccumulator.hpp", "include/bwsl/accumulators/WestAccumulator.hpp", "include/bwsl/accumulators/NaiveIntegerAccumulator.hpp"]}
{"id": "C36", "title": "Compensated sums are exact in exact arithmetic, and for doubles when partial sums are representable", "statement": "Kahan and Neumaier Sum() equal the sum of the values added since reset in exact arithmetic, and also in binary64 arithmetic whenever every partial sum is representable (e.g. integers below 2^53); Mean() is that sum divided by the count.", "quantifier": "every sequence of values", "why_tests_cant": "Unbounded sequences.", "anchors": ["include/bwsl/accumulators/KahanAccumulator.hpp:Add", "include/bwsl/accumulators/NeumaierAccumulator.hpp:Add"]}
{"id": "C37", "title": "Neumaier loses nothing but the rounding of its correction", "statement": "In binary64 round-to-nearest arithmetic without overflow, after every Add the running sum plus the exact rounding errors fed to the correction equals the exact sum of the inputs: each correction term is computed without error.", "quantifier": "every sequence of finite doubles without overflow", "why_tests_cant": "Rounding behaviour over all doubles.", "anchors": ["include/bwsl/accumulators/NeumaierAccumulator.hpp:Add"]}
{"id": "C38", "title": "Neumaier error bound", "statement": "In binary64 arithmetic without overflow, |Sum() - exact sum| <= u |exact sum| + gamma_{n-1}^2 * (sum of |x_i|), u = 2^-53, so the error does not grow with n at first order.", "quantifier": "every sequence of n finite doubles", "why_tests_cant": "Unbounded sequences of doubles.", "anchors": ["include/bwsl/accumulators/NeumaierAccumulator.hpp:Add", "include/bwsl/accumulators/NeumaierAccumulator.hpp:Sum"]}
{"id": "C39", "title": "KnuthWelford computes the textbook mean and variance", "statement": "In exact arithmetic, after adding x_1..x_n: Mean = (sum x)/n, Sum = sum x, ScaledVariance = sum (x-mean)^2, Variance = that over n (or n-1 when corrected); all nonnegative where applicable and independent of the order of insertion.", "quantifier": "every sequence of values", "why_tests_cant": "Unbounded sequences.", "anchors": ["include/bwsl/accumulators/KnuthWelfordAccumulator.hpp"]}
{"id": "C40", "title": "Statistics of too few samples are not numbers", "statement": "Variance, ScaledVariance, StandardDeviation and Error of KnuthWelford (and the three variances of West) are NaN when fewer than two (positive-weight) samples were added.", "quantifier": "every history of operations", "why_tests_cant": "Unbounded histories including resets.", "anchors": ["include/bwsl/accumulators/KnuthWelfordAccumulator.hpp", "include/bwsl/accumulators/WestAccumulator.hpp"]}
{"id": "C41", "title": "West computes the weighted mean and variance", "statement": "In exact arithmetic, Mean = sum w x / sum w and PopulationVariance = sum w (x-mean)^2 / sum w over the samples with positive weight, other samples being ignored; with unit weights it agrees with KnuthWelford; repeating a sample k times equals giving it weight k.", "quantifier": "every sequence of weighted values", "why_tests_cant": "Unbounded sequences.", "anchors": ["include/bwsl/accumulators/WestAccumulator.hpp"]}
{"id": "C42", "title": "NaiveInteger sum and mean are exact", "statement": "NaiveInteger::Sum() is the exact sum and Mean() the exact mean of the added integers, as long as neither the sum nor the sum of squares leaves the range of long.", "quantifier": "every sequence of longs", "why_tests_cant": "Unbounded sequences.", "anchors": ["include/bwsl/accumulators/NaiveIntegerAccumulator.hpp"]}
{"id": "C43", "title": "NaiveInteger variance is the variance", "statement": "NaiveInteger::Variance is the (corrected) variance of the added integers. (The code computes (sum x^2 - (sum x)^2)/(n(n-1)), which for n >= 2 is the variance only if every sample is zero, and can be negative.)", "quantifier": "every sequence of at least two integers", "why_tests_cant": "All sequences.", "anchors": ["include/bwsl/accumulators/NaiveIntegerAccumulator.hpp:Variance", "include/bwsl/accumulators/NaiveIntegerAccumulator.hpp:ScaledVariance"]}
{"id": "C44", "title": "Checked accumulators refuse to overflow and stay intact", "statement": "With BWSL_ACCUMULATORS_CHECKS, Add on an accumulator holding 2^64-1 samples throws AccumulatorOverflow and changes nothing; otherwise it succeeds.", "quantifier": "every state", "why_tests_cant": "2^64 additions are out of reach of a test.", "anchors": ["include/bwsl/accumulators/KahanAccumulator.hpp:Add", "include/bwsl/accumulators/NeumaierAccumulator.hpp:Add", "include/bwsl/accumulators/KnuthWelfordAccumulator.hpp:Add", "include/bwsl/accumulators/WestAccumulator.hpp:Add"]}
{"id": "C45", "title": "Checked NaiveInteger accepts in-range samples", "statement": "With BWSL_ACCUMULATORS_CHECKS, NaiveInteger::Add(x) succeeds when sums stay in range. (The code's chained comparison makes it throw for every x.)", "quantifier": "every state and sample", "why_tests_cant": "All states.", "anchors": ["include/bwsl/accumulators/NaiveIntegerAccumulator.hpp:Add"]}
{"id": "C46", "title": "Saving and loading restores the object", "statement": "For every accumulator, HistAccumulator, MoveStats and ObservableGroup, loading what was saved into any object of the class reproduces all observable state of the saved one (MoveStats: except its name, which stays that of the target).", "quantifier": "every reachable state and every target", "why_tests_cant": "All states.", "anchors": ["include/bwsl/accumulators/KahanAccumulator.hpp:serialize", "include/bwsl/accumulators/NeumaierAccumulator.hpp:serialize", "include/bwsl/accumulators/KnuthWelfordAccumulator.hpp:serialize", "include/bwsl/accumulators/WestAccumulator.hpp:serialize", "include/bwsl/accumulators/NaiveIntegerAccumulator.hpp:serialize", "include/bwsl/HistAccumulator.hpp:serialize", "include/bwsl/mcutils/MoveStats.hpp:serialize", "include/bwsl/ObservableGroup.hpp:serialize"]}
{"id": "C47", "title": "A histogram conserves counts", "statement": "After any sequence of Add, ForceAdd and Reset, the per-bin counts add up to GetCount(), and the number of bins is the number of stored accumulators; each bin's count is the number of measurements addressed to it.", "quantifier": "every history of operations", "why_tests_cant": "Unbounded histories.", "anchors": ["include/bwsl/HistAccumulator.hpp"]}
{"id": "C48", "title": "Histogram results are normalised bin sums", "statement": "In exact arithmetic GetResult(i) is (sum of values added to bin i)/(total number of measurements); for unitary measurements the results of all bins are nonnegative and sum to 1 after at least one measurement.", "quantifier": "every history of operations", "why_tests_cant": "Unbounded histories.", "anchors": ["include/bwsl/HistAccumulator.hpp:GetResult", "include/bwsl/HistAccumulator.hpp:GetResults"]}
{"id": "C49", "title": "ForceAdd grows the histogram and disturbs nothing else", "statement": "ForceAdd(i) leaves max(nbins, i+1) bins, adds to bin i only, and new bins are empty; Add on a missing bin is undefined.", "quantifier": "every histogram and index", "why_tests_cant": "Unbounded indices.", "anchors": ["include/bwsl/HistAccumulator.hpp:ForceAdd", "include/bwsl/HistAccumulator.hpp:Add"]}
{"id": "C50", "title": "GetResults(i) divides every bin by bin i", "statement": "GetResults(i)[j] is GetResult(j)/GetResult(i) for every j. (The code divides in place, so every bin after i is divided by 1 instead.)", "quantifier": "every histogram, i and j", "why_tests_cant": "All histograms.", "anchors": ["include/bwsl/HistAccumulator.hpp:GetResults"]}
{"id": "C51", "title": "Resize keeps the surviving bins", "statement": "Resize(n) leaves n bins; the first min(n, old) keep their contents, extra ones are empty, and the total count is not adjusted, so after a shrink the results sum to at most 1.", "quantifier": "every histogram and size", "why_tests_cant": "All states.", "anchors": ["include/bwsl/HistAccumulator.hpp:Resize"]}
{"id": "C52", "title": "MoveStats enforces propose / resolve alternation", "statement": "A sequence of Propose, Accept, Reject, Impossible calls on a fresh MoveStats completes without exception exactly when proposals and resolutions alternate starting with a proposal; any call out of turn throws MoveInvalidSequence and leaves the object unchanged.", "quantifier": "every sequence of calls", "why_tests_cant": "Unbounded call sequences.", "anchors": ["include/bwsl/mcutils/MoveStats.hpp"]}
{"id": "C53", "title": "MoveStats counters balance", "statement": "After any sequence of calls (including failing ones and resets) proposed = accepted + rejected + impossible + (1 if a proposal is pending); hence the three ratios are in [0,1] and sum to 1 when a move was proposed and none is pending.", "quantifier": "every sequence of calls (fewer than 2^64)", "why_tests_cant": "Unbounded call sequences.", "anchors": ["include/bwsl/mcutils/MoveStats.hpp"]}
{"id": "C54", "title": "MoveStats::Add is propose followed by the outcome", "statement": "Add(result) on an object with no pending proposal counts one proposal and one outcome of the result's kind; with a pending proposal it throws and changes nothing. The average probability is the mean of the probabilities given, impossible moves counting as 0 even if the result carries another probability.", "quantifier": "every history and every result", "why_tests_cant": "Unbounded histories.", "anchors": ["include/bwsl/mcutils/MoveStats.hpp:Add", "include/bwsl/mcutils/MoveResult.hpp"]}
{"id": "C55", "title": "The ratios of a MoveStats without proposals", "statement": "Before any proposal every ratio is a number. (GetAcceptedRatio is 0 but GetRejectedRatio, GetImpossibleRatio and GetAverageProbability are 0/0, NaN.)", "quantifier": "every state without proposals", "why_tests_cant": "All such states.", "anchors": ["include/bwsl/mcutils/MoveStats.hpp"]}
{"id": "C56", "title": "Each printed row averages exactly the measurements since the previous one", "statement": "In exact arithmetic, each row written by PrintAndReset holds, per observable in key order, the mean of the values measured for it since the previous PrintAndReset (NaN if none), then the number of measurements of the first observable; rows written earlier are never changed. A precision that does not fit int throws before anything is written or reset.", "quantifier": "every history of calls", "why_tests_cant": "Unbounded histories.", "anchors": ["include/bwsl/ObservableGroup.hpp"]}
{"id": "C57", "title": "Unknown observables are rejected without side effects", "statement": "Measure on a key that was never added throws and leaves the group unchanged; AddObservable on a known key changes nothing.", "quantifier": "every state and key", "why_tests_cant": "All states.", "anchors": ["include/bwsl/ObservableGroup.hpp:Measure", "include/bwsl/ObservableGroup.hpp:AddObservable"]}
{"id": "C58", "title": "Rows line up with headers", "statement": "If no observable is added after PrintHeaders, every later row has exactly as many columns as the header line, in the same key order; printing a group without observables is undefined.", "quantifier": "every history of calls", "why_tests_cant": "Unbounded histories.", "anchors": ["include/bwsl/ObservableGroup.hpp:PrintHeaders", "include/bwsl/ObservableGroup.hpp:PrintAndReset"]}
{"id": "C59", "title": "Enum/string conversion round-trips", "statement": "For every enumerator list with distinct names, FromString(ToString(v)) = v for each enumerator v; FromString of any other text throws and leaves the target unchanged; ToString of any value outside the enumeration is the fixed unknown marker.", "quantifier": "every enumerator list, value and string", "why_tests_cant": "All strings and enumerations.", "anchors": ["include/bwsl/EnumString.hpp"]}
{"id": "C60", "title": "Derived relational operators are coherent", "statement": "From any strict weak order '<' the generated ==, !=, <=, >, >= satisfy: exactly one of <, ==, > holds; <= is < or ==; >= is > or ==; == is an equivalence compatible with <.", "quantifier": "every type with a strict weak order", "why_tests_cant": "All types and values.", "anchors": ["include/bwsl/RelationalUtils.hpp"]}
{"id": "C61", "title": "Approx comparisons are coherent", "statement": "In exact arithmetic and for finite doubles alike: == is symmetric in its arguments, true at the value itself, widened by larger tolerances, != is its negation, <= and >= together mean ==, and at least one of them holds.", "quantifier": "every value, tolerance and number", "why_tests_cant": "Infinite domain.", "anchors": ["include/bwsl/Approx.hpp"]}
{"id": "C62", "title": "Approx of an infinity equals that infinity", "statement": "x == Approx(x) for every double that is not NaN. (For infinities the difference is NaN and the comparison is false.)", "quantifier": "every non-NaN double", "why_tests_cant": "Special values.", "anchors": ["include/bwsl/Approx.hpp"]}
{"id": "C63", "title": "LinSpace generates an arithmetic progression", "statement": "In exact arithmetic the k-th value generated is first + k (last-first)/n for every k; the n-th is last; values strictly increase; Collect(m) returns the next m values without advancing the object.", "quantifier": "every interval, step count and k", "why_tests_cant": "Unbounded sequences.", "anchors": ["include/bwsl/LinSpace.hpp"]}
{"id": "C64", "title": "LogSpace generates a geometric progression", "statement": "In exact arithmetic with 0 < first < last, the k-th value is first (last/first)^(k/n); the n-th is last; values strictly increase; iterating from begin() to end() yields exactly n values.", "quantifier": "every interval, step count and k", "why_tests_cant": "Unbounded sequences.", "anchors": ["include/bwsl/LogSpace.hpp"]}
{"id": "C65", "title": "compare_files decides equality of contents", "statement": "compare_files is true exactly when both files can be opened and hold the same bytes; it never reads past the end of either.", "quantifier": "every pair of files", "why_tests_cant": "All contents.", "anchors": ["include/bwsl/FileUtils.hpp"]}
{"id": "C66", "title": "Real-space embedding is linear and translation invariant", "statement": "GetRealSpace is additive and GetVector(a,b) depends only on b-a, is antisymmetric and composes: GetVector(a,b)+GetVector(b,c)=GetVector(a,c).", "quantifier": "every Bravais lattice and coordinates, exact arithmetic", "why_tests_cant": "Infinite domain.", "anchors": ["include/bwsl/Bravais.hpp"]}
{"id": "C67", "title": "Bravais distance is a metric", "statement": "GetDistance is nonnegative, symmetric, satisfies the triangle inequality, and (for linearly independent primitive vectors) vanishes only between equal points; GetDistanceVector agrees with GetDistance and GetVector.", "quantifier": "every Bravais lattice, all points, exact arithmetic", "why_tests_cant": "Infinite domain.", "anchors": ["include/bwsl/Bravais.hpp"]}
{"id": "C68", "title": "Neighbour directions come in opposite pairs", "statement": "GetNeighbor(GetNeighbor(p,2k),2k+1) = p and conversely, for every k below half the coordination number.", "quantifier": "every Bravais lattice and point (no overflow)", "why_tests_cant": "Infinite domain.", "anchors": ["include/bwsl/Bravais.hpp:GetNeighbor"]}
{"id": "C69", "title": "Listed neighbours are exactly the nearest lattice points", "statement": "On the chain, square, cubic and triangular lattices a point q satisfies GetDistance(p,q) = 1 exactly when q is GetNeighbor(p,k) for some k < GetGamma(), and no distinct point is closer than 1.", "quantifier": "all points of the four lattices", "why_tests_cant": "Infinite lattices.", "anchors": ["include/bwsl/Bravais.hpp:ChainLattice", "include/bwsl/Bravais.hpp:SquareLattice", "include/bwsl/Bravais.hpp:CubicLattice", "include/bwsl/Bravais.hpp:TriangularLattice"]}
{"id": "C70", "title": "Reciprocal vectors are dual to lattice vectors", "statement": "GetRealSpace(n) . GetReciprocalSpace(m) = 2 pi (n . m) for all integer coordinates, on all four predefined lattices.", "quantifier": "all coordinates", "why_tests_cant": "Infinite domain.", "anchors": ["include/bwsl/Bravais.hpp:GetReciprocalSpace"]}
{"id": "C71", "title": "GetInverseVector inverts GetRealSpace", "statement": "GetInverseVector(GetRealSpace(c)) = c. (The code uses the wrong component; it holds for chain, square and cubic but fails for the triangular lattice.)", "quantifier": "all coordinates", "why_tests_cant": "Infinite domain.", "anchors": ["include/bwsl/Bravais.hpp:GetInverseVector"]}
{"id": "C72", "title": "Neighbourhood is symmetric", "statement": "On every lattice, open or closed, b is listed among the neighbours of a exactly as many times as a among those of b; in particular AreNeighbors(a,b) = AreNeighbors(b,a).", "quantifier": "every Bravais lattice with even coordination, every grid, all pairs of sites; extents of at most 2^62 whose product is below 2^64", "why_tests_cant": "All lattices.", "anchors": ["include/bwsl/Lattice.hpp:ComputeNeighbors", "include/bwsl/Lattice.hpp:AreNeighbors"]}
{"id": "C73", "title": "Neighbour lists are valid and complete", "statement": "Every listed neighbour is a valid site. On a closed lattice every site has GetGamma() neighbours; on an open one b is a neighbour of a exactly when its coordinates are those of a displaced by a neighbour direction.", "quantifier": "every lattice and site; extents of at most 2^62 whose product is below 2^64", "why_tests_cant": "All lattices.", "anchors": ["include/bwsl/Lattice.hpp:ComputeNeighbors", "include/bwsl/Lattice.hpp:GetCoordination"]}
{"id": "C74", "title": "Distances on closed orthogonal lattices are minimum-image distances", "statement": "On closed chain, square and cubic lattices GetDistance(a,b) is the least distance between a and any periodic image of b (over all images, not only the first shell), hence symmetric and a metric.", "quantifier": "all grids, all pairs of sites, exact arithmetic; extents of at most 2^62 whose product is below 2^64", "why_tests_cant": "All lattices, infinitely many images.", "anchors": ["include/bwsl/Lattice.hpp:ComputeVectors", "include/bwsl/Lattice.hpp:GetDistance"]}
{"id": "C75", "title": "Distances on closed triangular lattices are minimum-image distances", "statement": "On a closed triangular lattice GetDistance(a,b) is the least distance over all periodic images, hence symmetric. (True in particular when neither extent exceeds twice the other; with s the smaller and g the larger extent it is true exactly when g <= 2s+6 and not (s,g)=(1,8), or g = 2s+7 and s >= 14. On 2x12 GetDistance is not even symmetric.)", "quantifier": "all grids, all pairs of sites, exact arithmetic; extents of at most 2^62 whose product is below 2^64", "why_tests_cant": "All lattices, infinitely many images.", "anchors": ["include/bwsl/Lattice.hpp:ComputeVectors", "include/bwsl/Bravais.hpp:TriangularLattice"]}
{"id": "C76", "title": "GetVector connects the two sites up to periodic images", "statement": "GetVector(a,b) on a closed lattice is the real-space displacement from a to some periodic image of b, and its length is GetDistance(a,b); GetPosition(i) is the real-space point of i's coordinates.", "quantifier": "every lattice and pair of sites, exact arithmetic; extents of at most 2^62 whose product is below 2^64", "why_tests_cant": "All lattices.", "anchors": ["include/bwsl/Lattice.hpp:GetVector", "include/bwsl/Lattice.hpp:GetPosition"]}
{"id": "C77", "title": "Distances on open lattices are real-space distances", "statement": "On an open lattice GetDistance(a,b) is the distance between the two sites. (The code subscripts with (b-a) mod 2^64: it reads out of bounds when b < a, and may return the distance of another pair otherwise; it is right when b dominates a coordinate-wise.)", "quantifier": "every open lattice, all pairs; extents of at most 2^62 whose product is below 2^64", "why_tests_cant": "All lattices.", "anchors": ["include/bwsl/Lattice.hpp:GetDistance", "include/bwsl/HyperCubicGrid.hpp:GetMappedSite"]}
{"id": "C78", "title": "Momenta are allowed momenta", "statement": "On a closed lattice each GetMomentum(i) satisfies k . (L_j a_j) in 2 pi Z for every direction j. (True for chain, square, cubic and for triangular with equal extents; false for triangular with unequal extents.) Momenta of an open lattice are undefined.", "quantifier": "every lattice and site; extents of at most 2^62 whose product is below 2^64", "why_tests_cant": "All lattices.", "anchors": ["include/bwsl/Lattice.hpp:ComputeMomenta", "include/bwsl/Lattice.hpp:GetMomentum"]}
{"id": "C79", "title": "Structure factor is nonnegative, normalised and additive", "statement": "In exact arithmetic ComputeSk gives one nonnegative value per site (for mult >= 0), zero for open lattices; at the zero momentum it is mult*(sum of occupations / N)^2; AccumulateSk adds ComputeSk to its accumulator.", "quantifier": "every lattice and occupation vector; fewer than 2^32 sites", "why_tests_cant": "All lattices and occupations.", "anchors": ["include/bwsl/Lattice.hpp:ComputeSk", "include/bwsl/Lattice.hpp:AccumulateSk"]}
{"id": "C80", "title": "Structure factor sum rule", "statement": "On closed chain, square and cubic lattices, and on any closed lattice with equal extents (the triangular one included), the structure factor values sum to mult * (sum of squared occupations)/N.", "quantifier": "every grid and occupation vector, exact arithmetic; fewer than 2^32 sites", "why_tests_cant": "All lattices and occupations.", "anchors": ["include/bwsl/Lattice.hpp:ComputeSk"]}
{"id": "C81", "title": "Structure factor is translation invariant", "statement": "On closed chain, square and cubic lattices, and on any closed lattice with equal extents, translating all occupations by a site does not change ComputeSk.", "quantifier": "every grid, occupation vector and translation, exact arithmetic; fewer than 2^32 sites", "why_tests_cant": "All lattices and occupations.", "anchors": ["include/bwsl/Lattice.hpp:ComputeSk"]}
{"id": "C82", "title": "Saved tables are rectangular and complete", "statement": "SavePositions, SaveDistances, SaveMomenta and SavePairs write a header and one line per site (pair), each with the same number of comma separated fields as the header, numbered consecutively from 0. (On open lattices SaveMomenta, and SavePairs with two or more sites, read out of bounds.)", "quantifier": "every lattice", "why_tests_cant": "All lattices.", "anchors": ["include/bwsl/Lattice.hpp:SavePositions", "include/bwsl/Lattice.hpp:SaveDistances", "include/bwsl/Lattice.hpp:SaveMomenta", "include/bwsl/Lattice.hpp:SavePairs"]}
{"id": "C83", "title": "Random generator state survives serialization", "statement": "Loading a saved Mersenne twister into any engine reproduces the saved state, hence the same future draws; malformed text throws.", "quantifier": "every engine state and target", "why_tests_cant": "All states.", "anchors": ["include/bwsl/RNGUtils.hpp"]}
{"id": "C84", "title": "Closed lattices have at most 40 dimensions", "statement": "Constructing a closed Lattice in more than 40 dimensions is undefined behaviour (a division by zero: the number 3^d of images wraps around), on every grid with positive extents.", "quantifier": "every grid with 41 or more directions and every Bravais lattice", "why_tests_cant": "41-dimensional lattices.", "anchors": ["include/bwsl/Lattice.hpp:ComputeVectors", "include/bwsl/MathUtils.hpp:index_to_array"]}
{"id": "C85", "title": "A lattice can be built from every Bravais object", "statement": "Every Bravais object that the constructor accepts yields a Lattice. (False when the coordination number is odd: ComputeNeighbors then always reads past the end of the list of directions.)", "quantifier": "every Bravais object and grid", "why_tests_cant": "All coordination numbers.", "anchors": ["include/bwsl/Lattice.hpp:ComputeNeighbors", "include/bwsl/Bravais.hpp:GetNeighbor"]}
{"id": "C86", "title": "Kahan summation has a bounded rounding error", "statement": "In IEEE 754 double precision, after adding finite values x_1..x_n (n <= 2^49) with a finite Sum(), |Sum() - sum x_i| <= u |sum x_i| + (2u + 12 n u^2) sum |x_i| where u = 2^-53; the bound is essentially independent of n.", "quantifier": "every list of at most 2^49 finite doubles, in any order", "why_tests_cant": "All lists of doubles.", "anchors": ["include/bwsl/accumulators/KahanAccumulator.hpp:Add", "include/bwsl/accumulators/KahanAccumulator.hpp:Sum"]}
{"id": "C87", "title": "Welford mean stays in the range of the data and variances are not negative", "statement": "In IEEE 754 double precision, whenever Mean() of a KnuthWelfordAccumulator is finite it lies between the smallest and the largest value added since the last reset, and Variance, ScaledVariance, StandardDeviation and Error are nonnegative (never negative, never NaN) once two values were added. (When a difference of two values overflows, Mean() is not finite and the variance can be -infinity.)", "quantifier": "every list of fewer than 2^64 finite doubles", "why_tests_cant": "All lists of doubles.", "anchors": ["include/bwsl/accumulators/KnuthWelfordAccumulator.hpp:Add", "include/bwsl/accumulators/KnuthWelfordAccumulator.hpp:Mean", "include/bwsl/accumulators/KnuthWelfordAccumulator.hpp:Variance"]}
{"id": "C88", "title": "Move statistics describe the moves resolved since the last reset", "statement": "After any history of calls (those out of turn included, their exceptions being caught) the counters are the numbers of accepted, rejected and impossible moves resolved since the last Reset, the number of proposals exceeds their sum by one exactly if a proposal is pending, and GetAverageProbability is the mean of the probabilities of these moves (0 for impossible ones), in [0,1] if they are; after Reset an object cannot be told from a new one of the same name.", "quantifier": "every history of fewer than 2^64 calls", "why_tests_cant": "All histories.", "anchors": ["include/bwsl/mcutils/MoveStats.hpp:Reset", "include/bwsl/mcutils/MoveStats.hpp:GetAverageProbability", "include/bwsl/mcutils/MoveStats.hpp:Add"]}
{"id": "C89", "title": "Histograms of unitary measurements are relative frequencies", "statement": "After any unitary measurements (Add(i), ForceAdd(i)) GetCount() is their number, GetCount(i) the number that went to bin i, GetResult(i) the ratio of the two (exact arithmetic), in [0,1], and the results sum to 1.", "quantifier": "every sequence of unitary measurements", "why_tests_cant": "All sequences.", "anchors": ["include/bwsl/HistAccumulator.hpp:Add", "include/bwsl/HistAccumulator.hpp:ForceAdd", "include/bwsl/HistAccumulator.hpp:GetResult"]}
{"id": "C90", "title": "apply_accumulator adds a range in order", "statement": "apply_accumulator(begin, end, acc) leaves acc as after calling Add on each element in order (Kahan, Neumaier, KnuthWelford and NaiveInteger accumulators); on two ranges in succession it equals applying it to their concatenation; with the overflow checks the elements that fit have been added when the exception is thrown.", "quantifier": "every range and every state of the accumulator", "why_tests_cant": "All ranges and states.", "anchors": ["include/bwsl/Accumulators.hpp:apply_accumulator"]}
{"id": "C91", "title": "dumpmt prints a loadable freshly seeded generator", "statement": "With an argument that starts with a number fitting int, dumpmt succeeds and prints the state of a 64-bit Mersenne twister seeded with it (modulo 2^64), which the RNGUtils loader accepts in place of any engine; different numbers give different outputs. Without argument it fails and prints nothing; text that is not a number counts as 0; numbers that do not fit int are undefined behaviour.", "quantifier": "every argument list", "why_tests_cant": "All seeds.", "anchors": ["applications/dumpmt.cpp", "include/bwsl/RNGUtils.hpp:load"]}
{"id": "C92", "title": "Rationals convert to the nearest double", "statement": "static_cast<double>(r) is the double nearest to num/den when both have at most 53 bits (and then keeps the order of rationals), is exact for integers, and has a relative error of at most 4*2^-53 for all numerators and denominators; it is always finite.", "quantifier": "every numerator and nonzero denominator", "why_tests_cant": "All pairs of longs.", "anchors": ["include/bwsl/RationalNum.hpp:operator double"]}
{"id": "C93", "title": "square and cube are exact or flagged", "statement": "square and cube on long give the exact power and are undefined exactly when it does not fit; on size_t they are powers modulo 2^64; on double squares are never negative, squares are even and cubes odd functions (infinities and NaN included), and integer results up to 2^53 are exact.", "quantifier": "every argument", "why_tests_cant": "All values.", "anchors": ["include/bwsl/MathUtils.hpp:square", "include/bwsl/MathUtils.hpp:cube"]}
{"id": "C94", "title": "Printed move statistics can be read back", "statement": "operator<< prints name(accepted = a, rejected = r, impossible = i, probability = p); the name and the four printed figures are determined by the line, for any name (parentheses and commas included); exceptions for calls out of turn name the move.", "quantifier": "every state and name, any number format without commas and parentheses", "why_tests_cant": "All names and states.", "anchors": ["include/bwsl/mcutils/MoveStats.hpp:operator<<", "include/bwsl/mcutils/MoveStats.hpp:MoveInvalidSequence"]}
{"id": "C95", "title": "Closed lattices are homogeneous", "statement": "On a closed lattice translating two sites by the same site (GetUnMappedSite) changes neither GetDistance nor GetVector, and the neighbours of a translated site are the translated neighbours in the same order.", "quantifier": "every closed lattice, translation and pair of sites, any arithmetic; extents of at most 2^62 whose product is below 2^64", "why_tests_cant": "All lattices and translations.", "anchors": ["include/bwsl/Lattice.hpp:GetDistance", "include/bwsl/Lattice.hpp:GetVector", "include/bwsl/Lattice.hpp:GetNeighbors", "include/bwsl/HyperCubicGrid.hpp:GetUnMappedSite"]}
{"id": "C96", "title": "Neighbours are the sites at distance 1", "statement": "On a closed chain, square, cubic or triangular lattice with at least two sites in each direction, b is in GetNeighbors(a) (AreNeighbors(a,b) holds) exactly if GetDistance(a,b) is 1, whatever the aspect ratio. (With one site in a direction a site is its own neighbour, at distance 0.)", "quantifier": "every such lattice and pair of sites, exact arithmetic; extents of at most 2^62 whose product is below 2^64", "why_tests_cant": "All lattices and pairs.", "anchors": ["include/bwsl/Lattice.hpp:AreNeighbors", "include/bwsl/Lattice.hpp:GetNeighbors", "include/bwsl/Lattice.hpp:GetDistance"]}
{"id": "C97", "title": "Lattices are connected", "statement": "On the chain, square, cubic and triangular lattices (and any lattice whose directions include the coordinate axes), open or closed, every site can be reached from every other by following GetNeighbors.", "quantifier": "every lattice and pair of sites, any arithmetic; extents of at most 2^62 whose product is below 2^64", "why_tests_cant": "All lattices and pairs; paths of any length.", "anchors": ["include/bwsl/Lattice.hpp:GetNeighbors", "include/bwsl/Lattice.hpp:ComputeNeighbors"]}
{"id": "C98", "title": "Step functions", "statement": "heaviside(x) is 1 for x >= 0 and 0 for x < 0; heaviside2(x) is 1/2 at 0, 1 after and 0 before; infinities count as their sign and NaN gives 0; heaviside2(x) + heaviside2(-x) is 1 for every finite x, and so is heaviside(x) + heaviside(-x) except at 0.", "quantifier": "every value, NaN and infinities included, in binary64 and in exact arithmetic", "why_tests_cant": "All values.", "anchors": ["include/bwsl/MathUtils.hpp:heaviside", "include/bwsl/MathUtils.hpp:heaviside2"]}
{"id": "C99", "title": "l2norm is the Euclidean norm", "statement": "In exact arithmetic sum_squared is the sum of squares and l2norm its root: definite, homogeneous, subadditive and independent of the order of the components. In IEEE 754 double precision l2norm of finite components is never NaN and never negative, is not below any component of at least 2^-511 in absolute value, is the exact absolute value for a single component between 2^-511 and 2^511, and its square has a relative error factor within (1+-2^-53)^(n+3) for components that are zero or at least 2^-511 unless it overflows. Outside that range accuracy is lost: {2^-600} has norm 0 and {2^600} has norm infinity. For long components whose squares sum to a perfect square of at most 2^53 the norm is exact.", "quantifier": "every container of finite components", "why_tests_cant": "All containers, rounding included.", "anchors": ["include/bwsl/MathUtils.hpp:sum_squared", "include/bwsl/MathUtils.hpp:l2norm"]}
{"id": "C100", "title": "Sums and products of longs are exact or flagged", "statement": "accumulate_sum and accumulate_product over long are the exact sum and product if all sums and products of leading elements fit, and are undefined (signed overflow) otherwise; whether they are defined depends on the order of the elements, the value does not. sum_squared over long is exact if the sum of squares fits and undefined otherwise, in any order.", "quantifier": "every container of longs", "why_tests_cant": "All containers.", "anchors": ["include/bwsl/MathUtils.hpp:accumulate_sum", "include/bwsl/MathUtils.hpp:accumulate_product", "include/bwsl/MathUtils.hpp:sum_squared"]}
{"id": "C101", "title": "Messages of exceptions can be read", "statement": "what() of every exception the library throws returns text that can be read while the exception is alive: BadParsing, AccumulatorOverflow and MoveInvalidSequence give their fixed texts, the last with the name of the move, which it determines. (Violated by the exceptions of BWSL_DEFINE_ENUM_WITH_STRING_CONVERSIONS, whose what() returns a pointer into a destroyed local string.)", "quantifier": "every exception", "why_tests_cant": "Reading a dangling pointer often appears to work.", "anchors": ["include/bwsl/EnumString.hpp:what", "include/bwsl/Exceptions.hpp:BadParsing", "include/bwsl/accumulators/AccumulatorsExceptions.hpp:AccumulatorOverflow", "include/bwsl/mcutils/MoveStats.hpp:MoveInvalidSequence"]}
{"id": "C102", "title": "Structure factor bounds and symmetries", "statement": "ComputeSk never exceeds mult*(sum of |occupation| / N)^2; for nonnegative occupations it is largest at the zero momentum; opposite momenta have equal values; scaling the occupations by c scales it by c^2; a single occupied site of weight w gives mult*(w/N)^2 at every momentum. On closed chain, square and cubic lattices and any with equal extents a uniform occupation gives 0 at every momentum except zero. (On a 4 by 1 triangular lattice it does not, and the sum rule fails too.)", "quantifier": "every closed lattice, occupation vector and mult >= 0, exact arithmetic; fewer than 2^32 sites", "why_tests_cant": "All lattices and occupations.", "anchors": ["include/bwsl/Lattice.hpp:ComputeSk", "include/bwsl/Lattice.hpp:AccumulateSk", "include/bwsl/Lattice.hpp:GetMomentum"]}
{"id": "C103", "title": "Momenta are distinct and complete", "statement": "Different sites have different GetMomentum. On closed chain, square and cubic lattices and on any lattice with equal extents every momentum allowed by the boundaries has the same phases on the lattice as the momentum of exactly one site. With odd extents the opposite of every momentum is a momentum.", "quantifier": "every closed lattice and allowed momentum, exact arithmetic; extents of at most 2^62 whose product is below 2^64", "why_tests_cant": "All lattices and momenta.", "anchors": ["include/bwsl/Lattice.hpp:GetMomentum", "include/bwsl/Lattice.hpp:ComputeMomenta"]}
{"id": "C104", "title": "RationalInt agrees with RationalLong where it is defined", "statement": "Constructing, adding, subtracting, multiplying, dividing, comparing and converting RationalInt (RationalNum<int>) gives the result of RationalLong whenever it is defined. Constructors and operators give the value of the fraction with both members in int, and are defined whenever the cross products lie strictly between INT_MIN and 2^31; comparisons are undefined exactly when a cross product leaves int (65536/1 == 1/65536 is). INT_MIN and -1 are undefined in get_gcd. FromString accepts exactly the texts RationalLong accepts whose two numbers fit int and throws BadParsing otherwise; printing round-trips. Conversion to double is always the nearest double.", "quantifier": "every pair of int, rational and text", "why_tests_cant": "All ints, texts and the boundary of overflow.", "anchors": ["include/bwsl/RationalNum.hpp:RationalInt", "include/bwsl/MathUtils.hpp:get_gcd", "include/bwsl/RationalNum.hpp:operator+", "include/bwsl/RationalNum.hpp:operator<", "include/bwsl/RationalNum.hpp:FromString"]}
{"id": "C105", "title": "Distances on closed orthogonal lattices are correctly rounded", "statement": "In IEEE 754 double precision, on a closed chain, square or cubic lattice (any lattice with integer primitive vectors along the axes) of moderate size (2 * extent <= 2^53 and the sum of (2 * extent)^2 below 2^52), GetVector and GetPosition are exact, GetDistance is the double nearest to the least distance to a periodic image, is symmetric, orders pairs of sites exactly as the true distances do, and is 1 exactly for neighbours.", "quantifier": "every such lattice and every pair of sites, rounding included", "why_tests_cant": "All lattices and pairs.", "anchors": ["include/bwsl/Lattice.hpp:GetDistance", "include/bwsl/Lattice.hpp:GetVector", "include/bwsl/Lattice.hpp:GetPosition", "include/bwsl/Bravais.hpp:GetDistance", "include/bwsl/Bravais.hpp:GetRealSpace"]}
{"id": "C106", "title": "Equidistant sites of triangular lattices have equal distances", "statement": "In IEEE 754 double precision, on a closed triangular lattice with extents up to 2^22, GetDistance orders pairs of sites as the true distances do, with equal values for equal distances, and in particular is 1 for all neighbours. (Violated: two of six neighbours are at 1, the other four at 1 - 2^-53. If neither extent is more than twice the other the distance is accurate to eight roundings of its square and sites at different distances are ordered correctly.)", "quantifier": "every such lattice and every pair of sites, rounding included", "why_tests_cant": "All lattices and pairs; tests compare with a tolerance.", "anchors": ["include/bwsl/Lattice.hpp:GetDistance", "include/bwsl/Bravais.hpp:TriangularLattice", "include/bwsl/Bravais.hpp:GetDistance"]}
{"id": "C107", "title": "Hops between sites", "statement": "The least number of steps from neighbour to neighbour (GetNeighbors) leading from a to b is, on open and closed chain, square and cubic lattices, the sum of the absolute values of the components of GetJump(a,b); on an open triangular lattice it is max(|u|,|v|,|u+v|) for GetJump (u,v), on a closed one the least such value over all periodic images of the displacement.", "quantifier": "every lattice and pair of sites, paths of any length, any arithmetic", "why_tests_cant": "All lattices, pairs and paths.", "anchors": ["include/bwsl/Lattice.hpp:GetNeighbors", "include/bwsl/HyperCubicGrid.hpp:GetJump"]}
{"id": "C108", "title": "Assertions state the preconditions", "statement": "The assertions of Bravais (numbers of components), HyperCubicGrid (numbers of components, valid sites), Lattice (valid sites), LinSpace and LogSpace (non-empty intervals, NaN excluded) fail exactly for the arguments that violate them; no other assertion fails on the way. Bravais::GetVector and GetDistance of points with too many components ignore the surplus and never assert; AreNeighbors asserts its first argument only and is false if the second is not a site; GetMappedSite never asserts.", "quantifier": "every object and argument, any arithmetic", "why_tests_cant": "All arguments, the loops of EnforceBoundaries included.", "anchors": ["include/bwsl/Bravais.hpp:GetRealSpace", "include/bwsl/HyperCubicGrid.hpp:EnforceBoundaries", "include/bwsl/Lattice.hpp:GetDistance", "include/bwsl/Lattice.hpp:AreNeighbors", "include/bwsl/LinSpace.hpp:LinSpace", "include/bwsl/LogSpace.hpp:LogSpace"]}
{"id": "C109", "title": "Default-constructed grids are empty", "statement": "A default-constructed HyperCubicGrid has no dimensions, sites or pairs and open boundaries: no index is valid, GetJump fails its assertions for every pair and GetIndividualIndices divides by zero. Its only coordinates are the empty ones; GetIndex maps them to 0, which is not a valid index, and IsOnGrid accepts them. A grid constructed from no extents is different: it has exactly one site and one pair, and all functions agree on it.", "quantifier": "every index, pair and coordinate vector", "why_tests_cant": "All indices and coordinates.", "anchors": ["include/bwsl/HyperCubicGrid.hpp:HyperCubicGrid", "include/bwsl/HyperCubicGrid.hpp:IndexIsValid", "include/bwsl/HyperCubicGrid.hpp:IsOnGrid"]}
{"id": "C110", "title": "Linearly spaced values in double precision", "statement": "Constructed from (a,b,n), LinSpace<double> yields b after n increments, and never a value above b. What holds in double precision: the value after k <= n increments is finite and differs from x = a+k(b-a)/n by at most (|x|+4k(b-a)/n)/2^53; it equals x, and b for k = n, if b-a, the step, the multiple and x are doubles. Violated: LinSpace(0,7,25) ends at 7+2^-50 and LinSpace(0,1,49) at 1-2^-53.", "quantifier": "every pair of doubles of magnitude at most 2^1020, 1 <= n <= 2^53 with a step of at least 2^-1021, every k from 1 to n", "why_tests_cant": "All intervals and numbers of steps; a few tested ones reach the end exactly.", "anchors": ["include/bwsl/LinSpace.hpp:operator++", "include/bwsl/LinSpace.hpp:LinSpace"]}
{"id": "C111", "title": "Jumps on grids of any extent", "statement": "GetJump is the displacement to the nearest image on every closed grid. It is for extents below 2^32 (C11). What holds for every extent below 2^63: half the extent is reduced to the range of int; if this is -2^31 for some direction the function is undefined, otherwise each component is the coordinate difference folded with that value, and is congruent to the difference modulo the extent. Violated: on every ring of 2^32 or more sites some jump is undefined or not the shortest; on a ring of a multiple of 2^33 sites GetJump(a,a) is the number of sites for every a.", "quantifier": "every closed grid with extents below 2^63 and all pairs of its sites", "why_tests_cant": "Grids this large are never tested.", "anchors": ["include/bwsl/HyperCubicGrid.hpp:GetJump"]}
{"id": "C112", "title": "Histograms: subscripts, default construction and moves", "statement": "A default-constructed HistAccumulator equals HistAccumulator(0). GetCount(i) and GetResult(i) are defined exactly for i < GetNbins(); GetResults(i) exactly for those and for histograms without bins. A moved-to histogram equals the original; the moved-from one keeps GetNbins() and GetCount() but has no bins: every access is out of bounds and ForceAdd beyond the bins violates the assertion, until Resize.", "quantifier": "every histogram and subscript, with and without checks", "why_tests_cant": "All states and subscripts.", "anchors": ["include/bwsl/HistAccumulator.hpp:GetResults", "include/bwsl/HistAccumulator.hpp:GetCount", "include/bwsl/HistAccumulator.hpp:ForceAdd"]}
{"id": "C113", "title": "Logarithmically spaced values in double precision", "statement": "Constructed from (a,b,n), LogSpace<double> increases and yields b after n increments. What holds in double precision with correctly rounded log and pow: the value v after k <= n increments is finite and positive, |log v - log(a(b/a)^(k/n))| <= (5k+7(|log a|+|log b|))/2^53, and the values never decrease. Violated: LogSpace(1,1+2^-52,2) stays at 1.", "quantifier": "every pair of doubles between 2^-400 and 2^400, 1 <= n <= 2^50, every k up to n", "why_tests_cant": "All intervals and numbers of steps.", "anchors": ["include/bwsl/LogSpace.hpp:operator++", "include/bwsl/LogSpace.hpp:LogSpace"]}
{"id": "C114", "title": "Linearly spaced integers", "statement": "LinSpace<long>(a,b,n) is defined exactly if a < b, b-a is a long and n is not 0. For n < 2^63 the value after k <= n increments is a+k*floor((b-a)/n), within [a,b] and without overflow; Collect(m) returns the first m of them. After n increments it is b-(b-a) mod n, so it is b exactly if n divides b-a, while *end() is always b. With n > b-a every value is a. With n = 2^64-1 the values decrease.", "quantifier": "all longs a and b and every n and k", "why_tests_cant": "All intervals and numbers of steps.", "anchors": ["include/bwsl/LinSpace.hpp:LinSpace", "include/bwsl/LinSpace.hpp:operator++", "include/bwsl/LinSpace.hpp:Collect", "include/bwsl/LinSpace.hpp:end"]}
{"id": "C115", "title": "Histograms and move ratios in double precision", "statement": "In double precision, a HistAccumulator whose bins hold values with representable partial sums (for example unitary measurements), after N <= 2^53 measurements, has GetResult(i) equal to the exact quotient of the bin sum by N rounded once. For unitary measurements the results are in [0,1], 0 exactly for bins without measurements, 1 exactly when all measurements went to that bin, they are ordered like the counts, and their exact sum differs from 1 by at most 2^-53. The three ratios of MoveStats are the ratios of the counters rounded once, 1 exactly if all proposals had that outcome and 0 exactly if none had.", "quantifier": "all numbers of bins, all sequences of Add/ForceAdd/Reset that address existing or created bins, all values with representable partial sums, all counters up to 2^53", "why_tests_cant": "The test suite compares a few results with a tolerance; correct rounding, strictness at 0 and 1 and normalisation to half an ulp concern all fractions c/N with N up to 2^53.", "anchors": ["include/bwsl/HistAccumulator.hpp:GetResult", "include/bwsl/HistAccumulator.hpp:GetResults", "include/bwsl/HistAccumulator.hpp:Add", "include/bwsl/mcutils/MoveStats.hpp:GetAcceptedRatio", "include/bwsl/mcutils/MoveStats.hpp:GetRejectedRatio", "include/bwsl/mcutils/MoveStats.hpp:GetImpossibleRatio", "include/bwsl/HistAccumulator.hpp:GetResults"]}
{"id": "C116", "title": "Range, order and scale of weighted means", "statement": "For WestAccumulator: in exact arithmetic the mean lies between the smallest and the largest value added with positive weight since the last reset, the order of the samples changes nothing that can be observed, and a common positive factor of the weights changes neither mean nor population variance nor reliability variance. In double precision, for whatever weights and values up to 2^1020, the mean is a finite double within 2^-51 of the largest magnitude from that range, and for equal values it is exactly that value with population variance 0. It is not always within the range: two samples are given for which the mean exceeds both values and the population variance is negative.", "quantifier": "all sequences of additions and resets, all values and weights (finite doubles for the double-precision part), no bound on their number", "why_tests_cant": "Tests compare the mean and variance of a few data sets with a tolerance; the range holds for every sequence only up to a rounding margin, and whether errors build up with the number of samples cannot be seen on short sequences.", "anchors": ["include/bwsl/accumulators/WestAccumulator.hpp:Add", "include/bwsl/accumulators/WestAccumulator.hpp:Mean", "include/bwsl/accumulators/WestAccumulator.hpp:PopulationVariance", "include/bwsl/accumulators/WestAccumulator.hpp:SampleReliabilityVariance", "include/bwsl/accumulators/WestAccumulator.hpp:Sum"]}
{"id": "C117", "title": "Binomial coefficients and gcd of unsigned numbers", "statement": "cbinomial<size_t>(n,k) returns for all arguments: 0 for k>n, the binomial coefficient when C(n,m)*m < 2^64 with m=min(k,n-k), and otherwise the quotients of the products taken modulo 2^64, for instance a wrong number for C(63,31) although that is below 2^60. It is symmetric in k and n-k. The double returned by cbinomial is the nearest double to that integer, exactly the coefficient up to 2^53. get_gcd<size_t> terminates for all arguments and is the greatest common divisor.", "quantifier": "all n, k, a, b of type size_t (and long for the conversion)", "why_tests_cant": "The silent wrap depends on intermediate products; tests with small n never reach it, and the set of arguments is far too large to enumerate.", "anchors": ["include/bwsl/MathUtils.hpp:cbinomial", "include/bwsl/MathUtils.hpp:get_gcd"]}
{"id": "C118", "title": "Output files that do not exist, cannot be opened or cannot be written to the end", "statement": "After ObservableGroup::PrintHeaders, PrintAndReset or Lattice::Save* returns normally, the file named holds the text that was to be printed: for the headers and the Save functions exactly that, for PrintAndReset at the end of what it held before, a file that did not exist being created; no other file is touched, and a precision that fmt rejects changes neither group nor contents. This holds, for every history of calls, for files that can be opened for writing. It is violated for other files: all of these functions return normally and write nothing, and PrintAndReset resets the accumulators, so that the measurements are lost. It is also violated when the disk is full before the end of the text: all of them return normally, the file ends with a beginning of the text, and PrintAndReset resets the accumulators and leaves a row without its end of line.", "quantifier": "all groups, lattices, disks, file names, precisions and histories of calls", "why_tests_cant": "The test suite writes to files that can be opened; the silent loss only shows with a missing directory, missing permissions or a full disk.", "anchors": ["include/bwsl/ObservableGroup.hpp:PrintHeaders", "include/bwsl/ObservableGroup.hpp:PrintAndReset", "include/bwsl/Lattice.hpp:SavePositions", "include/bwsl/Lattice.hpp:SaveDistances", "include/bwsl/Lattice.hpp:SaveMomenta", "include/bwsl/Lattice.hpp:SavePairs"]}
{"id": "C119", "title": "Calls that throw change nothing", "statement": "A call of Hist::Add, Hist::ForceAdd, ObservableGroup::Measure or a member of MoveStats that throws leaves the object as it was. This holds for histograms, for groups of observables and for calls of MoveStats out of turn. It is violated by the outcomes of a proposed move when the accumulators check for overflow and 2^64-1 probabilities have been added: Accept, Reject, Impossible and Add throw AccumulatorOverflow although the outcome has been counted and the proposal is gone.", "quantifier": "all histograms, groups, move statistics, values and settings of the checks", "why_tests_cant": "No test adds 2^64-1 probabilities; the other half is about every state of the objects.", "anchors": ["include/bwsl/HistAccumulator.hpp:Add", "include/bwsl/HistAccumulator.hpp:ForceAdd", "include/bwsl/ObservableGroup.hpp:Measure", "include/bwsl/mcutils/MoveStats.hpp:Propose", "include/bwsl/mcutils/MoveStats.hpp:Accept", "include/bwsl/mcutils/MoveStats.hpp:Reject", "include/bwsl/mcutils/MoveStats.hpp:Add"]}
{"id": "C120", "title": "Results of moves", "statement": "MoveResult::Accept and Reject give results of that status with the probability given, Impossible and the default constructor an impossible move of probability zero. The three predicates exclude each other, hold one at a time for the three statuses and no other, and together with the probability determine the result.", "quantifier": "all probabilities and results", "why_tests_cant": "Tests build results with a few literal probabilities; determination by the observers is a statement about all pairs of results.", "anchors": ["include/bwsl/mcutils/MoveResult.hpp:MoveResult", "include/bwsl/mcutils/MoveResult.hpp:IsAccepted", "include/bwsl/mcutils/MoveResult.hpp:IsRejected", "include/bwsl/mcutils/MoveResult.hpp:IsImpossible"]}
{"id": "C121", "title": "Random choices for every number a random engine can return", "statement": "With an engine of uniform 64-bit numbers (or pairs of 32-bit numbers), in double precision: choose_between on nonnegative finite weights returns an index of positive weight for every number the engine can return, and chooses index i for a fraction w_i/(w_0+...+w_{n-1}) of the 2^64 numbers, within (n+4)/2^52; choose_with_probability(p) is true for a fraction p of them, within 2^-52+2^-64, always for p >= 1 and never for p <= 0. This holds for weights whose computed total is finite and above 2^-1022. It is violated for smaller totals (the largest random number gives the index n, out of range), for weights that are all zero and for weights whose sum overflows (every random number gives the index n).", "quantifier": "all lists of nonnegative doubles, all probabilities, all 2^64 numbers (all pairs of 32-bit numbers)", "why_tests_cant": "The tests draw a few thousand numbers from one seed and compare frequencies to a percent; the out-of-range index shows for the largest number or for degenerate weights, and a bias below 1e-3 is invisible to them.", "anchors": ["include/bwsl/MathUtils.hpp:choose_between", "include/bwsl/MathUtils.hpp:choose_between_psums", "include/bwsl/MathUtils.hpp:choose_with_probability"]}
{"id": "C122", "title": "Numbers drawn from Mersenne twisters, seeded, saved and loaded", "statement": "For every std::mersenne_twister_engine with the parameters of std::mt19937, std::mt19937_64 or others in the usual relations: the numbers drawn from an engine are the outputs for the terms of the sequence of the C++ standard that starts with the words of the engine, from its position on; there is exactly one such sequence; all numbers are below 2^w and the engine stays proper. Engines that draw the same n numbers in a row draw the same for ever. Engines of different seeds modulo 2^w differ within their first n numbers. An engine saved by RNGUtils at any time and loaded into any engine of the same kind is the saved engine and draws the same numbers from then on, and what dumpmt prints is the engine of its seed. With any such engine choose_between always returns the index of a positive weight (totals above 2^-1022).", "quantifier": "all engine parameters with the relations, all engine states, seeds and numbers of draws", "why_tests_cant": "A test can save and load at a few points of one stream; that no state and no pair of seeds collides, and that the array updated in place follows the recurrence for ever, is beyond testing.", "anchors": ["include/bwsl/RNGUtils.hpp:save", "include/bwsl/RNGUtils.hpp:load", "applications/dumpmt.cpp", "include/bwsl/MathUtils.hpp:choose_between"]}
{"id": "C123", "title": "Approximate comparison in double precision", "statement": "For finite doubles x and v, x == Approx(v) with the default tolerances if and only if |x - v| is at most 100/2^52 |v| rounded to a double: the rounding of the difference never matters. So for |v| >= 2^-970 doubles within 99/2^52 |v| compare equal and doubles further than 101/2^52 |v| do not; for |v| <= 2^-1030 only v itself compares equal. With any finite tolerances the comparison is that of the rounded difference with the larger of the absolute and the rounded relative tolerance, and it is that of the exact difference if this is at most |v|/4.", "quantifier": "all finite doubles x and v, and all finite tolerances", "why_tests_cant": "The comparison is about the last bits of the numbers; tests try a few pairs, none at the boundary of the tolerance and none near the ends of the exponent range.", "anchors": ["include/bwsl/Approx.hpp"]}
{"id": "C124", "title": "Linear interpolation in double precision", "statement": "In double precision lerp(a, b, 0) is a and lerp(a, b, 1) is b for all finite a and b. For t in [0,1] and ends of at most 2^1022 in modulus no step overflows, the value is monotone in a and in b, and it differs from (1-t)a + tb by at most 4/2^53 of the larger modulus plus 2^-1073. lerpi(i, j, a, b) with 0 <= i <= j and 0 < j <= 2^53 is a at i = 0, b at i = j, and within 6/2^53 of the larger modulus plus 2^-1073 of a + (i/j)(b - a). The value lies between a and b.", "quantifier": "all finite doubles a, b, all doubles t in [0,1], all integers i and j in the range", "why_tests_cant": "Rounding errors depend on all the bits of the three arguments; that the value can leave the interval shows only for particular last bits.", "anchors": ["include/bwsl/MathUtils.hpp:lerp", "include/bwsl/MathUtils.hpp:lerpi"]}
{"id": "C125", "title": "Moved and swapped grids and lattices", "statement": "A grid, Bravais lattice or lattice that is move-constructed or move-assigned equals the original, std::swap exchanges two of them and leaves an object swapped with itself as it was, and move assignment of an object to itself leaves it as if moved from. The object moved from keeps its numbers of dimensions, sites and pairs and its boundaries, and considers the same sites valid, but has lost its vectors: IsOnGrid reads out of bounds unless the first component is negative, EnforceBoundaries and GetJump between valid sites read out of bounds with closed boundaries and return the vector and nothing with open ones, EnforceBoundaries of the lattice reads out of bounds, GetIndex, GetMappedSite, GetUnMappedSite, GetDistance, GetVector and AreNeighbors abort, and GetNeighbors, GetCoordination, GetPosition, GetMomentum, the structure factor and the saved files read out of bounds. GetGrid of an open lattice enforces boundaries differently from the lattice: it keeps vectors outside as they are where the lattice folds them back.", "quantifier": "all grids, Bravais lattices and lattices of positive dimension, all sites and vectors", "why_tests_cant": "No test uses an object after it was moved from; the sites it still considers valid are the trap.", "anchors": ["include/bwsl/HyperCubicGrid.hpp:GetGrid", "include/bwsl/HyperCubicGrid.hpp:IsOnGrid", "include/bwsl/Lattice.hpp:EnforceBoundaries", "include/bwsl/Bravais.hpp:GetNeighbor"]}
{"id": "C126", "title": "Accuracy of Welford's algorithm in double precision", "statement": "After any history in which n <= 2^48 doubles of modulus at most M <= 2^400 were added to a KnuthWelfordAccumulator since the last Reset, no step overflows and, with u = M/2^53 + 2^-1075: Mean() is within (n+11)/2 u of their mean; ScaledVariance() is within M(2n^2+45n)u + 2n/2^1075 of the sum of their squared deviations; Variance(false) is within M(2n+47)u + 4/2^1075 of their population variance and Variance(true) within M(4n+94)u + 8/2^1075 of their sample variance (for n >= 2).", "quantifier": "all histories and all finite sequences of doubles within the bounds", "why_tests_cant": "Rounding errors accumulate over arbitrarily many additions and depend on all of the data; tests compare a few sequences with a tolerance.", "anchors": ["include/bwsl/accumulators/KnuthWelfordAccumulator.hpp"]}
{"id": "C127", "title": "Accuracy of West's weighted algorithm in double precision", "statement": "After any history in which the pairs of positive weight added to a WestAccumulator since the last Reset are n <= 2^48 pairs of doubles, of total weight W <= 2^128 and values of modulus at most M <= 2^400, no step overflows and, with u = M/2^53 + 2^-1075: Mean() is within (3n+9)u of their weighted mean; Sum() is within W(5n+11)u + 2^-1075 of their weighted sum; for n >= 2, PopulationVariance() is within M(15n+60)u + n(6M+4)/(2^1075 W) + 2/2^1075 of their weighted variance.", "quantifier": "all histories and all finite sequences of pairs of doubles within the bounds; weights may differ by any factor", "why_tests_cant": "Rounding errors accumulate in the sum of the weights, the mean and the sum of squares over arbitrarily many additions and depend on all the data; tests compare a few sequences with a tolerance.", "anchors": ["include/bwsl/accumulators/WestAccumulator.hpp"]}
{"id": "C128", "title": "Numbers printed with a given number of digits can be read back", "statement": "What fmt's documentation says {:.Ne} prints for a finite double x (PrintAndReset with N = precision, the line of MoveStats with N = 3) is a decimal numeral that stands for exactly one number v with |v - x| <= |x|/(2*10^N); the order of numbers is preserved; with N >= 16 the double nearest to v is x itself; the text has no comma, parenthesis, space or newline, also for infinities and NaN. Hence in every row printed by an ObservableGroup (exact arithmetic) the column below an observable is nan if it was not measured since the last print and otherwise a numeral within 10^-N/2, relatively, of the mean of its measurements; and the ratios in the line of MoveStats (double precision, up to 2^53 proposals) are within 1/1999, relatively, of the ratios of the counters. With the default of ten digits different doubles can be printed alike.", "quantifier": "all doubles, precisions, histories and counters", "why_tests_cant": "Rounding to N digits carries through arbitrarily many nines and depends on every bit of the number; tests print a few numbers.", "anchors": ["include/bwsl/ObservableGroup.hpp:PrintAndReset", "include/bwsl/mcutils/MoveStats.hpp:operator<<"]}
{"id": "C129", "title": "Saved tables of lattices determine the numbers", "statement": "Let {} print a double with as few digits as identify it, as fmt documents. Then the text of a finite double is a decimal numeral that stands for one number, and the double nearest to that is the printed one; texts of different doubles, infinities and NaN differ and have no separators; at most 17 digits are printed and no numeral with fewer reads back; integers below 2^53 are printed as integers. All the numbers in the tables of a Lattice built in double precision are doubles, infinities or NaN. Hence two lattices whose files from SavePositions (SaveDistances; SaveMomenta with closed boundaries) are equal have the same number of dimensions and sites and the same positions (vectors from site 0; momenta). For chain, square and cubic lattices with extents whose doubled squares add up to less than 2^52, each line of the file from SavePositions holds the number and the coordinates of a site as integers.", "quantifier": "all doubles; all lattices and pairs of lattices, sizes and boundaries; every choice of shortest digits; with or without the .0 that versions of fmt before 8 print after integers", "why_tests_cant": "Whether a text identifies a double depends on all its bits; tests compare a few files, if any.", "anchors": ["include/bwsl/Lattice.hpp:SavePositions", "include/bwsl/Lattice.hpp:SaveDistances", "include/bwsl/Lattice.hpp:SaveMomenta"]}
{"id": "C130", "title": "Momenta in double precision", "statement": "On closed chain, square and cubic lattices whose extents are at most 2^49, in double precision with the nearest double to pi: every component of GetMomentum(i) is a finite number within a relative error of 2^-51 of 2 pi n / L, where L is the extent and n the coordinate of site i minus L/2 rounded down. Sites with larger coordinates have strictly larger components, so that components are equal exactly where coordinates are and different sites have different momenta, bit for bit. A component is zero exactly in the middle of the axis, and components at coordinates on opposite sides of the middle are exactly opposite.", "quantifier": "all such lattices, all sites, pairs of sites and axes", "why_tests_cant": "Accuracy for all extents cannot be tested, and that no two of very many momenta collide after rounding needs an argument about gaps.", "anchors": ["include/bwsl/Lattice.hpp:GetMomentum", "include/bwsl/Lattice.hpp:ComputeMomenta", "include/bwsl/Bravais.hpp:GetReciprocalSpace"]}
{"id": "C131", "title": "Structure factors in double precision", "statement": "On closed chain, square and cubic lattices with extents at most L whose doubled squares add up to less than 2^52, n < 2^32 sites, occupations at most M and a multiplicity at most W (both between 2^-40 and 2^40) in absolute value, and sines and cosines off by at most 2^-52: ComputeSk returns finite numbers within W M^2 (L/2^41 + n/2^46) of the exact structure factor of the occupations at the exact momenta, and none is negative if the multiplicity is not. If sine is odd and cosine even, sites with opposite momenta have equal structure factors bit for bit, for any occupations, infinities and NaN included. For whole numbers of particles and multiplicity 1, the value at zero momentum is the square of the density rounded once, as long as there are at most 2^26 particles and sites. AccumulateSk adds to each element what ComputeSk returns, rounding once.", "quantifier": "all such lattices, occupations and multiplicities; all sites", "why_tests_cant": "The error comes from three nested loops and from every rounding in them; tests compare a few lattices with a tolerance.", "anchors": ["include/bwsl/Lattice.hpp:ComputeSk", "include/bwsl/Lattice.hpp:AccumulateSk"]}
{"id": "C132", "title": "Compensated means and printed rows in double precision", "statement": "For every list of at most 2^49 finite doubles whose absolute values add up to at most 2^1020: the Kahan and Neumaier accumulators end with finite Sum() and Mean(); Kahan's sum is off by at most 4/2^53 of the sum of the absolute values, and its mean by at most 6/2^53 of the mean of the absolute values plus half the smallest positive double, however long the list; Neumaier's mean is off by at most 3/2^53 of the size of the mean plus 2 (n/2^53)^2 of the mean of the absolute values, plus half the smallest positive double. Consequently, after any history of at most 2^49 calls on an ObservableGroup, PrintAndReset(p) appends a row with one field per added observable, in increasing order of the keys, and the number of values of the first one; the field of an observable not measured since the previous print is nan, and any other is a numeral whose value differs from the mean of the values measured since then by at most 9/2^53 + 10^-p/2 of the mean of their absolute values plus the smallest positive double.", "quantifier": "all lists of such doubles; all histories of calls on a group, all precisions that fit int", "why_tests_cant": "Absence of overflow in the compensations and the accuracy of a mean of up to 2^49 values cannot be sampled, and the last digits of printed rows depend on every step from measuring to formatting.", "anchors": ["include/bwsl/ObservableGroup.hpp:PrintAndReset", "include/bwsl/ObservableGroup.hpp:Measure", "include/bwsl/accumulators/KahanAccumulator.hpp:Add", "include/bwsl/accumulators/KahanAccumulator.hpp:Mean", "include/bwsl/accumulators/NeumaierAccumulator.hpp:Add", "include/bwsl/accumulators/NeumaierAccumulator.hpp:Mean"]}
{"id": "C133", "title": "MathUtils at every integer type", "statement": "For each of the eight integer types of 8, 16, 32 and 64 bits and all of its values: square, cube, accumulate_sum, accumulate_product, sum_squared, absdiff, sum_into, subtract_into and invert return the exact value if it, and every intermediate result, is in the type. accumulate_sum, sum_into, subtract_into and invert never have undefined behaviour at types of less than 32 bits and at unsigned ones and are then congruent to the exact value modulo 2^bits, and invert twice restores the contents; accumulate_product likewise, except at unsigned short. square of an unsigned short is undefined exactly from 46341 on, that of a shorter type or of a short never. absdiff is the distance for all values of an unsigned type. signeddiff from any unsigned to any signed type is the difference if its absolute value is in the result type; otherwise it is congruent to it, or undefined if the result type has 32 or 64 bits and the difference is minus an odd multiple of half of 2^bits. cbinomial(n,k) with 0 <= k <= n and m the smaller of k and n-k is C(n,k) if m = 0 or if C(n,m) m is in the type and n+1 is no overflow; at signed types of 32 and 64 bits it is undefined otherwise; at the types with safe products it always returns. get_gcd at the types of 32 and 64 bits, the only ones for which it compiles, terminates and is the greatest common divisor up to sign, the sign being determined by the parity of the number of divisions; only the smallest value and -1 are undefined, at signed types. index_to_array with coordinates of any type that has all numbers below the extents is the site with that row-major offset, and array_to_index, which does not depend on the type, leads back.", "quantifier": "all eight integer types, all values, all lists, all grids", "why_tests_cant": "The rules of integral promotion make the undefined and the wrapping cases differ from type to type, and they lie at isolated values of large domains.", "anchors": ["include/bwsl/MathUtils.hpp:square", "include/bwsl/MathUtils.hpp:cube", "include/bwsl/MathUtils.hpp:accumulate_product", "include/bwsl/MathUtils.hpp:accumulate_sum", "include/bwsl/MathUtils.hpp:sum_squared", "include/bwsl/MathUtils.hpp:absdiff", "include/bwsl/MathUtils.hpp:signeddiff", "include/bwsl/MathUtils.hpp:cbinomial", "include/bwsl/MathUtils.hpp:get_gcd", "include/bwsl/MathUtils.hpp:sum_into", "include/bwsl/MathUtils.hpp:subtract_into", "include/bwsl/MathUtils.hpp:invert", "include/bwsl/MathUtils.hpp:array_to_index", "include/bwsl/MathUtils.hpp:index_to_array"]}
{"id": "C134", "title": "Rationals over every integer type", "statement": "For T of 32 or 64 bits, signed or unsigned (the class does not compile for narrower ones), and all values: RationalNum<T>(p,q) with q not 0 stores p/q in lowest terms, dividing by the greatest common divisor with the sign that get_gcd gives it, except that it is undefined if T is signed, p or q is the smallest value and that divisor is -1; 0/0 divides by zero, and any other p/0 becomes 1/0. The four operations and those with a T return the exact result in lowest terms if the intermediate products and sums are in T and the constructor does not overflow. If they are not, they are undefined for signed T; for unsigned T they are always defined and simplify the numerator and denominator reduced modulo 2^bits, so that a - b with a < b exceeds the difference by 2^bits / (den(a) den(b)). == and != are those of the numbers if the cross products are in T; the order is right for denominators of equal sign, always the case for unsigned T, and reversed otherwise. Conversion to T truncates, IsInt is exact, and comparisons with a T compare the truncated number. At long and int all of this is the model of C26 to C34 and C104.", "quantifier": "all four types, all numerators and denominators", "why_tests_cant": "The undefined and wrapping cases depend on the type and on the parity of the number of steps of Euclid's algorithm.", "anchors": ["include/bwsl/RationalNum.hpp:RationalNum", "include/bwsl/RationalNum.hpp:Simplify", "include/bwsl/RationalNum.hpp:operator+", "include/bwsl/RationalNum.hpp:operator-", "include/bwsl/RationalNum.hpp:operator*", "include/bwsl/RationalNum.hpp:operator/", "include/bwsl/RationalNum.hpp:operator<", "include/bwsl/RationalNum.hpp:IsInt", "include/bwsl/MathUtils.hpp:get_gcd"]}
{"id": "C135", "title": "Sums and products with a result type of their own", "statement": "accumulate_sum and accumulate_product with the result type given explicitly and different from that of the elements, all integer types of 8 to 64 bits: a sum that returns is the sum of the elements reduced into the result type, hence the exact sum whenever that fits; it returns if all partial sums fit the result type, and always if the usual arithmetic conversions of the two types give an unsigned type. With a result type wide enough for the number of elements the sum is exact, however the elements are chosen (e.g. up to 2^32 values of int into a long). With equal types it is the plain sum. Products convert each element to the result type first and then are the products of C133.", "quantifier": "all pairs of integer types, all lists of elements", "why_tests_cant": "Which of the two types the additions are carried out in depends on both, and overflow of one of them on the order of the elements.", "anchors": ["include/bwsl/MathUtils.hpp:accumulate_sum", "include/bwsl/MathUtils.hpp:accumulate_product"]}
{"id": "C136", "title": "Engine states that are cut off", "statement": "The text of an engine written by save (or dumpmt) and cut off anywhere before its last number is refused by load with invalid_argument by every engine of the same kind. Cut off inside the last number it should be refused too, but is accepted: the engine loaded has the last number divided by the power of ten of the digits that are lost (with libstdc++, whose last number is the position, 312 becomes 31 or 3, and other random numbers are drawn). dumpmt should not exit with success if its output could not be written, but always does; what it wrote is a beginning of its output, and all of it if there was room.", "quantifier": "all engines, all places to cut, all arguments and all sizes of the output medium", "why_tests_cant": "A test of truncated files tries a few lengths; that every length before the last number is noticed, and which of the others are not, needs all.", "anchors": ["include/bwsl/RNGUtils.hpp:load", "include/bwsl/RNGUtils.hpp:save", "applications/dumpmt.cpp"]}
{"id": "C137", "title": "Rationals over every integer type as text", "statement": "RationalNum<T>::FromString and operator>> with T any integer type of 32 or 64 bits, signed or not: on a text that starts with two numerals joined by two slashes (blanks allowed in between) that can be read into T they store exactly those numbers, whatever the object held; on every other text FromString throws the parsing exception. What has been parsed fits T, and printing then parsing gives every number back. For long and int this is C33 and C104. An unsigned T takes numerals with a minus sign as their residues: the text of a negative fraction is accepted and read as a large positive one.", "quantifier": "all integer types of 32 and 64 bits, all texts, all numbers", "why_tests_cant": "The texts are unbounded and the limits differ by type.", "anchors": ["include/bwsl/RationalNum.hpp:operator>>", "include/bwsl/RationalNum.hpp:FromString", "include/bwsl/RationalNum.hpp:operator<<"]}
{"id": "C138", "title": "Means in double precision: histograms, move probabilities, integers", "statement": "In double precision: (a) after any history of a HistAccumulator with at most 2^49 measurements, GetResult of a bin whose values are finite and add up, in absolute value, to at most 2^1020 is finite, and differs from the sum of the values over the number of all measurements by at most 3*2^-53 of that quotient, plus 3 (k 2^-53)^2 of the quotient with absolute values for k values in the bin, plus half the smallest positive double; (b) after any history of a MoveStats with probabilities in [0,1], GetAverageProbability is within a relative 6*2^-53 of the mean of the probabilities of the moves resolved since the last reset (at most 2^49), impossible moves counting as 0; (c) Mean of NaiveIntegerAccumulator is within a relative 4*2^-53 of the mean of any integers whose sums fit long, and correctly rounded if sum and count are at most 2^53; Variance evaluates its formula to the same accuracy.", "quantifier": "all histories, all finite double values, all lists of integers within the stated bounds", "why_tests_cant": "Rounding errors depend on all the values and their order; the bounds hold for all of them.", "anchors": ["include/bwsl/HistAccumulator.hpp:GetResult", "include/bwsl/mcutils/MoveStats.hpp:GetAverageProbability", "include/bwsl/accumulators/NaiveIntegerAccumulator.hpp:Mean", "include/bwsl/accumulators/NaiveIntegerAccumulator.hpp:Variance"]}
{"id": "C139", "title": "Linearly spaced numbers of every integer type", "statement": "For every integer type T of 8 to 64 bits, LinSpace<T>(a,b,n) fails an assertion unless a < b, overflows exactly if T is a signed type of 32 or 64 bits and b-a is not a T, divides by zero if n is a multiple of 2^bits, and is defined otherwise. For 0 < n <= max(T) the value after k <= n increments (s++ returns the old state, s() the old value) is a+k*floor((b-a)/n), within [a,b], even if the step size does not fit in T; Collect(m) returns the first m values; after n increments the value is b-(b-a) mod n. For unsigned types of 32 and 64 bits any number of increments is defined and the value is reduced modulo 2^bits; for signed ones k increments overflow exactly if k*floor((b-a)/n) or its sum with a is not a T. Numbers of steps that agree modulo 2^bits give the same values.", "quantifier": "every integer type, all values a and b of it and all n and k", "why_tests_cant": "All types, intervals, numbers of steps and increments.", "anchors": ["include/bwsl/LinSpace.hpp:LinSpace", "include/bwsl/LinSpace.hpp:operator++", "include/bwsl/LinSpace.hpp:operator()", "include/bwsl/LinSpace.hpp:Collect", "include/bwsl/LinSpace.hpp:begin", "include/bwsl/LinSpace.hpp:end"]}
{"id": "C140", "title": "Vectors and distances of Bravais lattices in double precision", "statement": "In IEEE double precision, for a Bravais lattice of any dimension: (1) GetDistance(x, y) is l2norm of GetVector(x, y), and GetDistanceVector returns both, in any arithmetic; (2) whatever the primitive vectors are - infinities and NaN included - GetVector(y, x) is the exact opposite of GetVector(x, y) and GetDistance(y, x) is bit for bit GetDistance(x, y); GetRealSpace and GetReciprocalSpace of opposite coordinates are exact opposites; (3) GetDistance is never negative, and it is not NaN when the components of GetVector are finite; a point is at distance exactly 0 from itself if the primitive vectors are finite; (4) if no component of a primitive vector is subnormal, each finite component of GetVector differs from the exact one by at most ((1+u)^(d+2) - 1) times the sum of the absolute values of its terms, where u = 2^-53 and d is the dimension; (5) if moreover no component underflows when squared (each is 0 or at least 2^-511 in absolute value), a finite GetDistance differs from the exact distance by at most ((1+u)^(2d+5) - 1) times the length of the vector of those sums; (6) nothing overflows if that length is at most 2^509.", "quantifier": "all dimensions, all primitive vectors (finite and not subnormal for the error bounds), all pairs of points whose coordinate differences are longs, all executions in binary64 with the square root correctly rounded", "why_tests_cant": "Symmetry of distances is relied on when bonds are looked up from either end; a test checks a few points of the predefined lattices, whose vectors have exact components, and neither shows that rounding is symmetric for arbitrary primitive vectors nor bounds the error for all dimensions and coordinates.", "anchors": ["include/bwsl/Bravais.hpp:Bravais::GetVector", "include/bwsl/Bravais.hpp:Bravais::GetDistance", "include/bwsl/Bravais.hpp:Bravais::GetDistanceVector", "include/bwsl/Bravais.hpp:Bravais::GetRealSpace", "include/bwsl/Bravais.hpp:Bravais::GetReciprocalSpace"]}
{"id": "C141", "title": "Logarithmically spaced numbers of every integer type", "statement": "In exact arithmetic, for every integer type T of 8 to 64 bits: LogSpace<T>(a,b,n) fails an assertion unless a < b, converts a number to T that has no such whole part (undefined) if a <= 0 or n = 0, and is defined otherwise. The factor is the largest whole number g with a*g^n <= b, and the value after k <= n increments (s++ returns the old state, s() the old value) is a*g^k, within [a,b]; so the last value is b exactly if b/a is the n-th power of a whole number, and all values are a if b < a*2^n. Collect(m) returns the first m values for m <= n; Collect(n+1) does too unless a*g^(n+1) overflows in arithmetic of T, which is undefined although that value is not returned. A range-based for visits the first n values from any position up to the n-th. The constructor from exponents is undefined for a negative start and if base^stop is not a T, and otherwise the one from the powers.", "quantifier": "every integer type, all values a and b of it and all n", "why_tests_cant": "Truncation of a root to a whole number depends on all three arguments, and the overflow of the last increment is not visible in the values.", "anchors": ["include/bwsl/LogSpace.hpp:LogSpace::LogSpace", "include/bwsl/LogSpace.hpp:LogSpace::operator++", "include/bwsl/LogSpace.hpp:LogSpace::Collect"]}
{"id": "C142", "title": "The factor of logarithmically spaced integers in double precision", "statement": "LogSpace<T>(a,b,n) for an integer type T, with the logarithms and the power computed in IEEE double precision and 0 < a < b <= 2^53, 0 < n <= 2^50, should have the factor g of C141, the largest whole number with a*g^n <= b. It has if a*(g(1+2^-42))^n <= b and b(1+2^-42)^n < a*(g+1)^n, that is if the root is not very close to a whole number. In general, for b <= 2^41, the constructor is defined and the factor is at least 1 and differs from g by at most 1.", "quantifier": "every integer type, all values a and b of it with 0 < a < b and all n up to 2^50; log and pow correctly rounded", "why_tests_cant": "Whether rounding moves a root across a whole number depends on the last bit of three library calls.", "anchors": ["include/bwsl/LogSpace.hpp:LogSpace::LogSpace", "include/bwsl/LogSpace.hpp:LogSpace::operator++"]}
{"id": "C143", "title": "The sign of zero does not matter", "statement": "IEEE arithmetic has two zeros, and division by them differs. For arithmetic with signed zeros and for arithmetic with a single zero, called with the same numbers: all accumulators after any calls, HistAccumulator after any calls, MoveStats, groups of observables, heaviside, lerp, sum_squared, l2norm, upper_bound, the random choices, Approx, LinSpace, LogSpace, Bravais and Lattice (construction, neighbours, positions, vectors, distances, momenta, structure factors) return the same numbers up to the sign of zeros, the same indices and truth values, and throw the same exceptions. There are two exceptions: GetResults(idx) of a HistAccumulator whose bin idx has the result -0.0, where a quotient can be the infinity of the opposite sign, which happens (a negative sum that underflows when divided by the number of measurements); and LogSpace from exponents with the base -0.0.", "quantifier": "all calls and all numbers including zeros of both signs, infinities and NaN; every rounding that keeps signs, binary64 in particular", "why_tests_cant": "A test compares with ==, which does not distinguish the zeros, and a sign of zero shows only after a division much later.", "anchors": ["include/bwsl/accumulators/KahanAccumulator.hpp:KahanAccumulator", "include/bwsl/accumulators/NeumaierAccumulator.hpp:NeumaierAccumulator", "include/bwsl/accumulators/KnuthWelfordAccumulator.hpp:KnuthWelfordAccumulator", "include/bwsl/accumulators/WestAccumulator.hpp:WestAccumulator", "include/bwsl/HistAccumulator.hpp:GetResults", "include/bwsl/mcutils/MoveStats.hpp:MoveStats", "include/bwsl/ObservableGroup.hpp:Measure", "include/bwsl/Bravais.hpp:Bravais::GetVector", "include/bwsl/Lattice.hpp:Lattice", "include/bwsl/LogSpace.hpp:LogSpace::LogSpace", "include/bwsl/LinSpace.hpp:LinSpace", "include/bwsl/Approx.hpp:operator==", "include/bwsl/MathUtils.hpp:upper_bound"]}
{"id": "C144", "title": "Results that are never negative zero", "statement": "Whatever is added, zeros of both signs, infinities and NaN included, the Sum of KahanAccumulator and NeumaierAccumulator and the Mean of KnuthWelfordAccumulator are never -0.0; the Mean of the first two and the result of a bin of a HistAccumulator are -0.0 only if the sum is negative and underflows. sum_squared, l2norm, all components of positions, vectors and reciprocal vectors of Bravais lattices and of positions and vectors of Lattice, all distances and the results of ComputeSk are never -0.0, for any primitive vectors and occupations.", "quantifier": "all calls, all primitive vectors, sizes, boundaries and occupations; every rounding that keeps signs, binary64 in particular", "why_tests_cant": "Files written by the library would contain -0; a comparison in a test does not distinguish the zeros.", "anchors": ["include/bwsl/accumulators/KahanAccumulator.hpp:Sum", "include/bwsl/accumulators/NeumaierAccumulator.hpp:Sum", "include/bwsl/accumulators/KnuthWelfordAccumulator.hpp:Mean", "include/bwsl/HistAccumulator.hpp:GetResult", "include/bwsl/Bravais.hpp:Bravais::GetRealSpace", "include/bwsl/Lattice.hpp:GetPosition", "include/bwsl/Lattice.hpp:ComputeSk", "include/bwsl/MathUtils.hpp:l2norm"]}
{"id": "C145", "title": "How often the loops and recursions run", "statement": "The two loops of EnforceBoundaries on a closed grid or lattice run, for a coordinate c in a direction with s sites, |floor(c/s)| times in total; so at most once when sites are translated by GetMappedSite and GetUnMappedSite, if the extents are at most 2^62, and 2^63 times for the coordinate -2^63 in a direction with one site.  get_gcd(a, b) that returns has called itself n times with Fibonacci(n+1) <= |b| unless n is 0, hence at most 91 times for long, 92 for unsigned long, 45 for int and 46 for unsigned, and 91 is reached by two consecutive Fibonacci numbers.  cbinomial(n, k) with k <= n that returns has run its loop max(0, min(k, n-k)) times.  ForceAdd(idx, x) that returns appends max(0, idx + 1 - GetNbins()) bins, one per pass of its loop.", "quantifier": "all coordinates in the range of long, all numbers of sites below 2^63, all arguments of get_gcd at the four wide standard integer types, all arguments of cbinomial of type long, all histograms and indices", "why_tests_cant": "Tests see results and not counts, and the worst cases (Fibonacci numbers, far coordinates) are not met by accident; a call that takes 2^63 passes cannot be run at all.", "anchors": ["include/bwsl/HyperCubicGrid.hpp:EnforceBoundaries", "include/bwsl/Lattice.hpp:EnforceBoundaries", "include/bwsl/HyperCubicGrid.hpp:GetMappedSite", "include/bwsl/HyperCubicGrid.hpp:GetUnMappedSite", "include/bwsl/MathUtils.hpp:get_gcd", "include/bwsl/MathUtils.hpp:cbinomial", "include/bwsl/HistAccumulator.hpp:ForceAdd"]}
{"id": "C146", "title": "Contraction of products and sums by the compiler", "statement": "A compiler may compute x*y + z with one rounding (fused multiply-add) at any place of the source. In double precision, whichever places are chosen: where x*y is itself a double, or infinities or NaNs are multiplied, nothing changes (in exact arithmetic, never); KnuthWelfordAccumulator has the same Count() and Mean() as without, after any calls, and for two or more finite values with a finite mean its variances are not negative, and they have the error bounds of C126; lerp is exact at both ends, monotone in the ends and has the error bound of C124; LinSpace starts at its first end and never decreases; l2norm of finite numbers is never NaN or negative and for integers up to 2^26 is the same as without; positions and distances of Bravais lattices with integer vectors, for integer coordinates of moderate size, are the same as without. Other values do change: lerp(3/2, 3/2, 3/2^54) is 3/2 if the first product is fused and 3/2 - 2^-52 if none is.", "quantifier": "every choice of the places that are fused, all sequences of calls with any number of values, all arguments in the stated ranges", "why_tests_cant": "A test runs one binary, built with one choice of contraction; whether the guarantees survive on another processor or with other flags cannot be seen from it.", "anchors": ["include/bwsl/accumulators/KnuthWelfordAccumulator.hpp:Add", "include/bwsl/accumulators/KnuthWelfordAccumulator.hpp:Mean", "include/bwsl/accumulators/KnuthWelfordAccumulator.hpp:Variance", "include/bwsl/MathUtils.hpp:lerp", "include/bwsl/MathUtils.hpp:l2norm", "include/bwsl/LinSpace.hpp:operator++", "include/bwsl/Bravais.hpp:GetRealSpace", "include/bwsl/Bravais.hpp:GetDistance"]}
{"id": "C147", "title": "LinSpace, lerp and heaviside for float, double and long double", "statement": "In every binary floating-point format (float, double, the long double of x86 and of other processors), with p significant bits: LinSpace accepts exactly first < last, begins with the first end, never decreases, and for up to 2^p steps the value after k increments is within (its magnitude + 4 k (last-first)/n) / 2^p of first + k (last-first)/n. Beyond 2^p increments (16777216 for float) every value with an odd number is equal to one of its neighbours. lerp is exact at both ends, monotone in both ends, and its error is at most 4/2^p of the larger end plus twice the smallest positive number; lerpi is exact at both ends for any number of steps; heaviside and heaviside2 return exactly 0, 1/2 and 1, and 0 for NaN.", "quantifier": "all formats with at least 11 significant bits, all finite ends up to a quarter (error of LinSpace: a sixteenth) of the range, all step counts below 2^64, all parameters in [0,1]", "why_tests_cant": "Tests use one type and a few step counts; the repetition of values needs more than 2^24 increments.", "anchors": ["include/bwsl/LinSpace.hpp:LinSpace::operator++", "include/bwsl/LinSpace.hpp:LinSpace::LinSpace", "include/bwsl/MathUtils.hpp:lerp", "include/bwsl/MathUtils.hpp:lerpi", "include/bwsl/MathUtils.hpp:heaviside", "include/bwsl/MathUtils.hpp:heaviside2"]}
{"id": "C148", "title": "MathUtils containers of floating-point values", "statement": "In every binary floating-point format: sgn is the sign, 0 for NaN. absdiff is the rounded distance, symmetric also for infinities and NaN, and zero for equal finite arguments only. max and min return an element that is not NaN and bounds all elements that are not NaN, unless the first element is NaN, which is then returned; they are undefined for empty containers. accumulate_sum of n values is within 2 n 2^-p of the sum, relative to the sum of the absolute values, and exact for whole numbers whose absolute values add up to at most 2^p; accumulate_product is exact for whole numbers with a product of absolute values (zeros left out) up to 2^p. sum_into and subtract_into work element by element and read past the end of a shorter right side. invert changes signs, and twice restores every container.", "quantifier": "all formats with at least 11 significant bits, containers of all lengths (error of the sum: 4n at most 2^p, absolute values adding up to at most a quarter of the range), NaN and infinities included where said", "why_tests_cant": "Rounding errors, NaN positions and underflow of differences cannot be enumerated.", "anchors": ["include/bwsl/MathUtils.hpp:sgn", "include/bwsl/MathUtils.hpp:absdiff", "include/bwsl/MathUtils.hpp:max", "include/bwsl/MathUtils.hpp:min", "include/bwsl/MathUtils.hpp:accumulate_sum", "include/bwsl/MathUtils.hpp:accumulate_product", "include/bwsl/MathUtils.hpp:sum_into", "include/bwsl/MathUtils.hpp:subtract_into", "include/bwsl/MathUtils.hpp:invert", "include/bwsl/MathUtils.hpp:get_inverted"]}
{"id": "C149", "title": "accumulate_sum in any order; subtract_into undoes sum_into, for floating-point values", "statement": "The result of accumulate_sum does not depend on the order of the elements, and subtract_into with the same right side restores what sum_into changed. For floating-point values both fail in every format, float, double and long double alike: three numbers have the sum 0 or 1 depending on their order, and adding 2^(p+1) to 1 and subtracting it again leaves 0. They hold for whole numbers whose absolute values add up to at most 2^p, and where every sum is a value of the format.", "quantifier": "all formats with at least 11 significant bits, containers of all lengths", "why_tests_cant": "Small values in tests are summed exactly.", "anchors": ["include/bwsl/MathUtils.hpp:accumulate_sum", "include/bwsl/MathUtils.hpp:sum_into", "include/bwsl/MathUtils.hpp:subtract_into"]}
{"id": "C150", "title": "WestAccumulator with fused products", "statement": "A compiler may fuse, at each of lines 121, 123 and 124 of WestAccumulator.hpp, the product with the sum it is added to, so that it is rounded once. Whichever of the three are fused, in double precision: Count() is the same; Mean() is finite and in the range of the values of positive weight added since the last Reset(), up to 2^-51 of the largest absolute value; equal values give that value as mean and a population variance of 0; Mean(), Sum() and PopulationVariance() are within the error bounds of C127 of the weighted mean, sum and variance. Fusing the squares of the weights changes neither Mean(), Sum(), PopulationVariance() nor SampleFrequencyVariance(). In exact arithmetic fusing changes nothing.", "quantifier": "all eight choices of fused products, all sequences of Add and Reset, all values and weights within the stated bounds, all numbers of samples up to 2^48 (error bounds) or without bound (range, constants)", "why_tests_cant": "A test binary is compiled with one choice of contraction, for one processor.", "anchors": ["include/bwsl/accumulators/WestAccumulator.hpp:WestAccumulator::Add", "include/bwsl/accumulators/WestAccumulator.hpp:WestAccumulator::Mean", "include/bwsl/accumulators/WestAccumulator.hpp:WestAccumulator::Sum", "include/bwsl/accumulators/WestAccumulator.hpp:WestAccumulator::PopulationVariance"]}
{"id": "C151", "title": "Structure factors and momenta with fused products", "statement": "A compiler may fuse the products of Lattice.hpp lines 407-412 (phase, sums of sines and of cosines, one of the two squares) and of GetReciprocalSpace and GetInverseVector with the sums they are added to. Whichever are fused, in double precision: the structure factors of closed chain, square and cubic lattices are within the error bound of C131 of the exact ones, not negative for a multiplicity that is not, equal bit for bit at opposite momenta (sine odd, cosine even), and at zero momentum the square of the density rounded once for at most 2^26 particles and sites; AccumulateSk adds what ComputeSk returns. Fusing the products of GetReciprocalSpace and GetInverseVector changes nothing for reciprocal vectors with components 0, 1 and -1. In exact arithmetic fusing changes nothing.", "quantifier": "all choices of fused products, all lattices, occupations and multiplicities within the bounds of C131, all sites", "why_tests_cant": "A test binary is compiled with one choice of contraction, for one processor.", "anchors": ["include/bwsl/Lattice.hpp:ComputeSk", "include/bwsl/Lattice.hpp:AccumulateSk", "include/bwsl/Bravais.hpp:GetReciprocalSpace", "include/bwsl/Bravais.hpp:GetInverseVector"]}
{"id": "C152", "title": "Random choices with fused products", "statement": "A compiler may fuse the products of std::generate_canonical and of std::uniform_real_distribution (libstdc++) with the sums they are added to. In double precision this changes no result of choose_between, choose_between_psums and choose_with_probability: for every number that a 64-bit engine returns, and every pair from a 32-bit engine, for all weights, partial sums and probabilities, infinities and NaN included.", "quantifier": "all choices of fused products, all numbers returned by the engine, all lists of weights and all probabilities", "why_tests_cant": "A test binary is compiled with one choice of contraction and draws a few thousand numbers.", "anchors": ["include/bwsl/MathUtils.hpp:choose_between", "include/bwsl/MathUtils.hpp:choose_between_psums", "include/bwsl/MathUtils.hpp:choose_with_probability"]}
{"id": "C153", "title": "Momenta of triangular lattices in double precision", "statement": "On closed triangular lattices of L by M sites with extents at most 2^49, in double precision with a correctly rounded square root and the nearest double to pi: GetMomentum(i) is a pair of finite numbers. With a and b the coordinates of site i minus L/2 and M/2 rounded down, the first is within a relative error of 2^-51 of 2 pi a / L, and the second within 2^-49 times 2 pi (|a| + 2|b|) / (sqrt(3) M) of 2 pi (2b - a) / (sqrt(3) M). With extents at most 2^46, different sites have different momenta, bit for bit. On any Bravais lattice in any dimension, sites whose coordinates add up to twice the middle of each axis have exactly opposite momenta.", "quantifier": "all such lattices and sites; for opposite momenta all Bravais lattices with vectors of any doubles, infinities and NaN included", "why_tests_cant": "The second component adds two products of rounded irrational numbers that may cancel; no sample shows a bound for all extents or that no two of very many momenta collide.", "anchors": ["include/bwsl/Lattice.hpp:GetMomentum", "include/bwsl/Lattice.hpp:ComputeMomenta", "include/bwsl/Bravais.hpp:GetReciprocalSpace", "include/bwsl/Bravais.hpp:TriangularLattice"]}
{"id": "C154", "title": "Structure factors of triangular lattices in double precision", "statement": "On closed triangular lattices of L by L sites with n = L^2 < 2^32, occupations at most M and a multiplicity at most W (both between 2^-40 and 2^40) in absolute value, and sines and cosines off by at most 2^-52: ComputeSk returns finite numbers within W M^2 (L/2^41 + n/2^46) of the exact structure factor of occupations of the points of the triangular lattice at momenta that the boundary conditions allow, and none is negative if the multiplicity is not; this holds whether or not the compiler fuses products with sums. On any Bravais lattice, if sine is odd and cosine even, sites with opposite momenta have equal structure factors bit for bit, fused or not.", "quantifier": "all such lattices, occupations and multiplicities; all sites; all choices of fused products", "why_tests_cant": "The displacements and momenta contain rounded square roots, and displacements are those of images chosen by rounded distances; that the choice and the roundings are harmless on every lattice is not seen from samples.", "anchors": ["include/bwsl/Lattice.hpp:ComputeSk", "include/bwsl/Lattice.hpp:AccumulateSk", "include/bwsl/Bravais.hpp:TriangularLattice"]}
{"id": "C155", "title": "Logarithmically spaced values of float and long double", "statement": "LogSpace<T>(a,b,n) for a floating-point T, with correctly rounded log and pow, whether these are the functions for double only or the overloads for T: the constructor accepts exactly a < b; the value v after k <= n increments is a finite positive T, |log v - log(a(b/a)^(k/n))| <= (14k+9(|log a|+|log b|))/2^p where p is the smaller of 53 and the precision of T; the first value is a and the values never decrease. Collect(m) returns the values after 0,...,m-1 increments, and a range-based for visits those after 0,...,n-1 from any position. The constructor from exponents is the one from the powers of the base, computed in double and converted to T.", "quantifier": "all floating-point formats of at least 11 bits, all bounds that are normal numbers away from overflow, all numbers of steps with 14n+9(|log a|+|log b|) <= 2^(p-1), both choices of the functions; Collect and loops: all arithmetics", "why_tests_cant": "The result depends on rounding in two formats at once and on which overloads the headers make visible; tests use double only.", "anchors": ["include/bwsl/LogSpace.hpp:LogSpace", "include/bwsl/LogSpace.hpp:operator++", "include/bwsl/LogSpace.hpp:Collect"]}
{"id": "C156", "title": "Random choices with weights of float and long double", "statement": "choose_between, choose_between_psums and choose_with_probability with weights of a floating-point type T of precision p, for an engine with w-bit outputs: the count of outputs drawn is the least k with wk >= p; the number in [0,1) is that of the wk-bit number of which they are the digits, rounded to T, within 2^-p of its fraction of 2^(wk), and at most 1-2^-p. With nonnegative weights whose sums do not overflow and a total above the smallest normal T, the index of a positive weight is returned whatever the outputs; index i is returned for a fraction w_i/(w_0+...+w_(n-1)) of all sequences of outputs, within (2n+8)/2^p. Probability P is chosen for a fraction P of the sequences within 3/2^p, always for P >= 1 and never for P <= 0.", "quantifier": "all floating-point formats with room for 64-bit integers, such as float, double, long double and binary128; all engines with 1 to 64 bits; all weights, all outputs", "why_tests_cant": "The frequencies are exact counts over all sequences of outputs of the engine; tests draw a few numbers, of double only.", "anchors": ["include/bwsl/MathUtils.hpp:choose_between", "include/bwsl/MathUtils.hpp:choose_between_psums", "include/bwsl/MathUtils.hpp:choose_with_probability"]}
{"id": "C157", "title": "Squares, cubes and norms of float and long double", "statement": "For a floating-point type T of precision p: square(x) is x*x rounded, never negative or NaN, and within 2^-p of x^2 where that is normal; square is even and cube odd, for infinities and NaN too; cube(x) is within (2u+u^2)|x|^3, u=2^-p, of x^3 where square and cube are normal; both are exact for whole numbers with results up to 2^p. sum_squared of n numbers is never negative or NaN and, unless it overflows, within a factor (1+-u)^(n+1) of the sum of squares, exact for whole numbers up to 2^p, and with another result type it is that of the converted elements. l2norm, for every choice of the overload of sqrt, is never negative or NaN; unless it overflows its square is within (1+-u)^(n+5) of the sum of squares, p being the smaller precision of T and double; it is exact when the elements are whole and the sum is a perfect square up to 2^p, and with the overload of sqrt for T the norm of a single element is its absolute value.", "quantifier": "all floating-point formats for the elements and for the result, all containers of finite numbers, of any size", "why_tests_cant": "Bounds for every size and every value in every format; the tests use double only.", "anchors": ["include/bwsl/MathUtils.hpp:square", "include/bwsl/MathUtils.hpp:cube", "include/bwsl/MathUtils.hpp:sum_squared", "include/bwsl/MathUtils.hpp:l2norm"]}
{"id": "C158", "title": "Binomial coefficients with floating-point arguments", "statement": "cbinomial<T>(n, k) at a floating-point type T of precision p, for whole numbers 0 <= k <= n < 2^p and with m = min(k, n-k): the number computed in T and returned as a double is infinite or within a factor (1+-2^-p)^(2m) of C(n,k), and at least 1; it is finite if m C(n,k), times that factor, is at most half of the range of T; it is exactly C(n,k) if m C(n,k) is at most 2^p and C(n,k) fits in a double; cbinomial(n,k) and cbinomial(n,n-k) are the same. For k > n it is 0.", "quantifier": "all floating-point formats with at least 11 bits, all whole n and k below 2^p for the values; all numbers, infinities and NaN for the rest", "why_tests_cant": "An error bound for all arguments in all formats, and loops that do not end.", "anchors": ["include/bwsl/MathUtils.hpp:cbinomial"]}
{"id": "C159", "title": "MathUtils at bool", "statement": "At bool, square and cube return their argument, sgn is 0 or 1, absdiff is whether the arguments differ, signeddiff is the difference. accumulate_product, and min, of a nonempty container is whether all elements are true, max whether any is. accumulate_sum and sum_squared with an integer result type count the true elements, if the count is in the type. sum_into is the disjunction element by element and subtract_into whether elements differ, and both read past the end of a shorter right side; invert changes nothing; index_to_array and array_to_index are inverse on grids with at most two sites in every direction.", "quantifier": "all containers of bool of all sizes, all integer types for the counts, all formats of the result of l2norm, all grids", "why_tests_cant": "No test instantiates the templates at bool; the statements hold for containers of every size.", "anchors": ["include/bwsl/MathUtils.hpp:square", "include/bwsl/MathUtils.hpp:accumulate_sum", "include/bwsl/MathUtils.hpp:accumulate_product", "include/bwsl/MathUtils.hpp:sum_squared", "include/bwsl/MathUtils.hpp:l2norm", "include/bwsl/MathUtils.hpp:absdiff", "include/bwsl/MathUtils.hpp:signeddiff", "include/bwsl/MathUtils.hpp:sum_into", "include/bwsl/MathUtils.hpp:subtract_into", "include/bwsl/MathUtils.hpp:invert", "include/bwsl/MathUtils.hpp:array_to_index", "include/bwsl/MathUtils.hpp:index_to_array"]}
{"id": "C160", "title": "LogSpace of float and long double leaves its start", "statement": "LogSpace<T>(a,b,n) for a floating-point T has, after n increments, a value closer to b than to a. Violated: LogSpace<float>(1,1+2^-23,8) stays at 1, and so does LogSpace<long double>(1,1+2^-54,n) for every n with the functions for double, although 511 values of T lie in between.", "quantifier": "counterexamples: all arithmetics rounding to the format, both choices of the functions; for long double all numbers of steps", "why_tests_cant": "The failing cases need neighbouring bounds, and for long double depend on which overloads of log and pow are visible.", "anchors": ["include/bwsl/LogSpace.hpp:LogSpace::LogSpace", "include/bwsl/LogSpace.hpp:LogSpace::operator++"]}
{"id": "C161", "title": "choose_between with floating-point weights returns an index", "statement": "choose_between with non-negative weights of a floating-point type T returns an index below their number, whatever the engine returns. Violated: with a positive total up to the smallest normal T there are outputs for which the number of weights is returned, and so it is for all outputs when all weights are zero or their sum overflows, which for float it does from 2^128.", "quantifier": "all formats of at least 11 bits with room for the engine's numbers, all lists of weights with such a total", "why_tests_cant": "Totals this small or large are not tried, and for small ones only the engine's largest numbers show it.", "anchors": ["include/bwsl/MathUtils.hpp:choose_between"]}
{"id": "C162", "title": "l2norm is right whenever the norm is a double", "statement": "l2norm of a container of a floating-point T is positive and finite whenever an element is not zero and the norm is in the range of double, and for one element is its absolute value. Violated: the norm of {2^e} is 0 when 2^(2e) is below half the smallest number of T, and infinity when 2^(2e) is not below the range of T, for float from 2^64 although the result is a double; without the overload of sqrt, {2^512} of long double has norm infinity and {1+2^-23} of float a norm below its element.", "quantifier": "all formats and all exponents e in these ranges; the two single counterexamples for all arithmetics rounding to the formats", "why_tests_cant": "Elements in these ranges are not tried, and the overload chosen depends on the headers included elsewhere.", "anchors": ["include/bwsl/MathUtils.hpp:l2norm", "include/bwsl/MathUtils.hpp:sum_squared"]}
{"id": "C163", "title": "cbinomial with floating-point arguments returns the coefficient or 0", "statement": "cbinomial(n,k) with floating-point arguments returns for all arguments, and returns 0 for negative k. Violated: for k < 1 that is not above n, so for negative and fractional k, and for k = NaN, it is 1. For 2^p <= k <= n/2 (16777216 for float) and for infinite n and k it never returns, because the counter of the loop cannot pass 2^p.", "quantifier": "all formats, all arguments in these ranges", "why_tests_cant": "A call that never returns is not a test, and negative k are not tried.", "anchors": ["include/bwsl/MathUtils.hpp:cbinomial"]}
{"id": "C164", "title": "Sums, norms and coordinates of type bool count", "statement": "For containers of bool accumulate_sum counts the true elements, l2norm is the root of that count, subtract_into undoes sum_into, and index_to_array distinguishes sites. Violated: accumulate_sum of two true elements is 1, l2norm of four is 1, index_to_array merges sites 1 and 2 of three. subtract_into undoes sum_into exactly if no element is true on both sides.", "quantifier": "undoing: all pairs of containers, the right one not shorter; the others by counterexample", "why_tests_cant": "The result type follows the element type silently, and one true element does not show the difference.", "anchors": ["include/bwsl/MathUtils.hpp:accumulate_sum", "include/bwsl/MathUtils.hpp:l2norm", "include/bwsl/MathUtils.hpp:sum_into", "include/bwsl/MathUtils.hpp:subtract_into", "include/bwsl/MathUtils.hpp:index_to_array"]}
{"id": "C165", "title": "Measurements of other types than double", "statement": "HistAccumulator::Add and ForceAdd, and apply_accumulator with a compensated sum or a variance, accept values of any arithmetic type and behave as if the value had been converted to double first, in every state, with and without the checks. The conversion keeps bool (as 0 and 1), float, infinities, NaN and integers up to 2^53, and gives the nearest double for other integers up to 64 bits and for long double values up to 2^1023. So a histogram of float values is that of the same numbers; a bin of integers with values and partial sums up to 2^53 has the correctly rounded result; and a bin with k values of any type has a result within (5/2^53 + 4(k/2^53)^2) of the mean of the absolute values, up to 2^-1073.", "quantifier": "all histories of Add, ForceAdd and Reset with valid subscripts, all values; at most 2^53 measurements for the exact results and 2^49, with sums up to 2^1018, for the bound", "why_tests_cant": "The conversion is implicit and its rounding shows only for values beyond 53 bits; tests add doubles and small integers.", "anchors": ["include/bwsl/HistAccumulator.hpp:Add", "include/bwsl/HistAccumulator.hpp:ForceAdd", "include/bwsl/Accumulators.hpp:apply_accumulator"]}
{"id": "C166", "title": "Measurements count with their values", "statement": "The sum in an accumulator or histogram is that of the values added, whatever their type. Violated: one measurement of 2^53+1 in a histogram has the result 2^53; apply_accumulator with a NaiveInteger, whose Add takes a long, adds the whole parts of floating-point values, so that two halves have the sum 0, is undefined for values with no whole part in long, and adds unsigned values from 2^63 on as negative ones. For whole parts in long it is exactly the accumulator of the whole parts, and for unsigned values below 2^63 that of the values.", "quantifier": "all values and ranges; the sums of halves and 2^53+1 are counterexamples", "why_tests_cant": "The narrowing conversion is silent, and means of truncated values look plausible.", "anchors": ["include/bwsl/HistAccumulator.hpp:Add", "include/bwsl/Accumulators.hpp:apply_accumulator", "include/bwsl/accumulators/NaiveIntegerAccumulator.hpp:Add"]}
{"id": "C167", "title": "FromString stores a rational in lowest terms, or nothing", "statement": "After FromString(s, r) the rational r is in lowest terms with a nonzero denominator, like every constructed one, or the call has thrown and r is unchanged. Violated: 2//4 is stored as it is, 1//0 is accepted, after which IsInt and the conversion to an integer divide by zero; and a text that is refused changes r: 5/2 leaves the numerator 5, x the numerator 0, 5//x the denominator 0. What holds: what has been parsed is in lowest terms exactly if the text was, and Simplify makes it what the constructor makes of the two numbers. When the call throws, the denominator is the old one, 0 or a limit of long; the numerator is the number with which the text begins, and if there is none, the denominator is the old one and the numerator the old one, 0 or a limit of long; a blank text changes nothing.", "quantifier": "all texts, all objects; for the object after a refused text also every integer type of at least 32 bits", "why_tests_cant": "The object after a refused text is not looked at, and a fraction that is not reduced compares equal to the reduced one.", "anchors": ["include/bwsl/RationalNum.hpp:FromString", "include/bwsl/RationalNum.hpp:operator>>", "include/bwsl/RationalNum.hpp:Simplify"]}
{"id": "C168", "title": "A lattice has the dimension of its Bravais lattice", "statement": "The constructor of Lattice accepts a Bravais object only if its dimension is the number of directions of the grid. (For a Bravais object of more dimensions it reads past the end of the coordinates. For one of fewer dimensions a closed lattice violates the assertion in GetReciprocalSpace, but an open lattice is accepted: it consists of copies of the lattice on the first directions, one for each site of the remaining ones. The copies lie on top of each other, so that different sites have the same position and distance 0, and every neighbour of a site is in the same copy.)", "quantifier": "every Bravais object with consistent lists, every grid with extents of at most 2^62 whose product is below 2^64, at most 40 directions for closed boundaries", "why_tests_cant": "The relation between the two lattices holds for all extents and dimensions, and the accepted object shows no error in any single call.", "anchors": ["include/bwsl/Lattice.hpp:ComputePositions", "include/bwsl/Lattice.hpp:ComputeVectors", "include/bwsl/Lattice.hpp:ComputeNeighbors", "include/bwsl/Lattice.hpp:ComputeMomenta", "include/bwsl/Bravais.hpp:GetVector"]}
{"id": "C169", "title": "Reciprocal vectors and momenta of any Bravais lattice in double precision", "statement": "In double precision each finite component of Bravais::GetReciprocalSpace(c) differs from 2*pi*sum_j c_j*Q_j by at most d+4 roundings (factors 1+2^-53) of the sum of the absolute values of its terms, where Q are the stored inverse vectors; it is finite if these sums are at most 2^1021, and exactly 0 for c = 0. The momentum of a site of a closed Lattice is that vector for the coordinates counted from the middle, divided by the extents, up to d+7 roundings and 2^-1075; the site in the middle has momentum exactly 0.", "quantifier": "every Bravais object with finite inverse vectors without subnormal entries, all coordinates whose doubles fit in a long, every dimension with d*d below 2^64, every grid with extents of at most 2^62 whose product is below 2^64", "why_tests_cant": "A bound on rounding errors has to hold for every dimension and every set of doubles stored in the object.", "anchors": ["include/bwsl/Bravais.hpp:GetReciprocalSpace", "include/bwsl/Lattice.hpp:ComputeMomenta", "include/bwsl/Lattice.hpp:GetMomentum"]}
{"id": "C170", "title": "Functions with two vectors can be called with the same vector twice", "statement": "sum_into(v, v), subtract_into(v, v) and Lattice::AccumulateSk(v, v, mult) do the same as with a copy of v as the vector that is only read. (True for sum_into and subtract_into, so that the former doubles each element or overflows, and the latter sets every element to 0. On closed lattices of two or more sites AccumulateSk adds to the vector while it is still reading it: only the first structure factor is right; with one particle at site 0 of n sites the second is too large by the factor (1+mult/n^2)^2.)", "quantifier": "all vectors of every integer and floating-point type for sum_into and subtract_into; every closed lattice of fewer than 2^32 sites and all vectors of at least as many elements for AccumulateSk, in exact arithmetic", "why_tests_cant": "The signatures do not forbid it, each call returns normally, and the difference is present for every lattice size and multiplier.", "anchors": ["include/bwsl/MathUtils.hpp:sum_into", "include/bwsl/MathUtils.hpp:subtract_into", "include/bwsl/Lattice.hpp:AccumulateSk"]}
{"id": "C171", "title": "Distances on closed lattices with oblique primitive vectors", "statement": "On a closed lattice with two linearly independent primitive vectors, of any lengths and at any angle, GetDistance(a,b) is the least distance between a and any periodic image of b, hence symmetric and a metric, provided that the two vectors spanning the lattice (extent times primitive vector) have a scalar product of at most the square of each of them. In any dimension it is so if, for each spanning vector, twice the sum of the absolute scalar products with the others is at most its square.", "quantifier": "all primitive vectors and all grids that satisfy the condition, all pairs of sites, exact arithmetic; extents of at most 2^62 whose product is below 2^64", "why_tests_cant": "The lattices form a continuum and each site has infinitely many images; the code compares 3^d of them.", "anchors": ["include/bwsl/Lattice.hpp:ComputeVectors", "include/bwsl/Lattice.hpp:GetDistance", "include/bwsl/Bravais.hpp:GetVector"]}
{"id": "C172", "title": "Distances on closed lattices with any primitive vectors in double precision", "statement": "On a closed lattice with d primitive vectors under the condition of C171, GetDistance(a,b) is finite and differs from the least distance over all periodic images by at most 2d + 5 roundings of the extent of the lattice, and GetVector(a,b) is, up to d + 2 roundings of the sums of absolute values, the vector to an image whose distance exceeds the least one by at most twice this error. Without the condition the same holds with the images next to the lattice (translated by at most one period in each direction) in place of all images.", "quantifier": "all primitive vectors whose components are doubles that are zero or at least 2^-459, all grids with extents of at most 2^62 whose product is below 2^64 and whose extent (the length of the vector of sums of absolute components of the spanning vectors, twice) is at most 2^509, all pairs of sites, IEEE binary64", "why_tests_cant": "The rounding errors can change which image is taken; the bound covers all lattices, angles and extents.", "anchors": ["include/bwsl/Lattice.hpp:ComputeVectors", "include/bwsl/Lattice.hpp:ComputeDistances", "include/bwsl/Lattice.hpp:GetDistance", "include/bwsl/Lattice.hpp:GetVector", "include/bwsl/Bravais.hpp:GetDistanceVector"]}
{"id": "C173", "title": "The sample variances of West's accumulator in double precision", "statement": "After any history in which two or more samples of positive weight follow the last Reset, with n of them, total weight W, values of modulus at most M, and a unit of M/2^53 + 2^-1075: SampleFrequencyVariance() is finite and, if W is at least 2, within M(35n + 115) units of the weighted sum of squared deviations divided by W - 1. With D = W - (sum of squared weights)/W and W at most kappa D, SampleReliabilityVariance() is finite and within kappa^2 M (20n + 62) units of that sum divided by D. Underflow adds n(6M + 4)/2^1075, divided by the denominator, and 2/2^1075. The bounds hold whichever products a compiler fuses with sums. Without the condition on D nothing holds: after two samples of weights 1 and at most 2^-54, SampleReliabilityVariance() is never finite.", "quantifier": "all histories of Add and Reset, all doubles of modulus at most M <= 2^400 as values, all positive, zero, negative weights with a total of the positive ones of at most 2^128 (and at least 2^-128 for the reliability variance), n up to 2^48, kappa n up to 2^46, IEEE binary64", "why_tests_cant": "The denominators are differences of rounded sums; that they do not cancel depends on the weights of the whole history.", "anchors": ["include/bwsl/accumulators/WestAccumulator.hpp:SampleFrequencyVariance", "include/bwsl/accumulators/WestAccumulator.hpp:SampleReliabilityVariance", "include/bwsl/accumulators/WestAccumulator.hpp:Add"]}
{"id": "C174", "title": "Structure factors of closed lattices of any shape in double precision", "statement": "On a closed lattice whose d extents all equal L, with any primitive vectors of components at most p and any stored inverse vectors of components at most q whose scalar products with the primitive vectors differ from 0 and 1 by at most t, ComputeSk is finite and differs from the structure factor of the integer coordinates of the sites at the momenta 2 pi c/L (c the coordinates counted from the middle) by at most W M^2 (R/2^41 + N/2^46), for any R between 1 and 2^26 with L d^2 (p q (4 d^2 + 15 d) + 2^53 t) <= 64 R, whether or not the compiler fuses products with sums. If the inverse vectors are exactly dual this is the structure factor of the points of the lattice at the momenta of the reciprocal lattice.", "quantifier": "all d <= 40, all L, all lattices of fewer than 2^32 sites, all primitive vectors with components that are zero or of size 2^-459 to 2^400, all inverse vectors without subnormal components up to 2^400, all occupations of size at most M, multipliers of size at most W, M and W between 2^-40 and 2^40, sine and cosine within 2^-52 before rounding, IEEE binary64", "why_tests_cant": "The error comes from the displacements, the momenta, the phases, the sums and the inexact duality at once, and which periodic image is taken depends on rounding; tests see a handful of shapes.", "anchors": ["include/bwsl/Lattice.hpp:AccumulateSk", "include/bwsl/Lattice.hpp:ComputeSk", "include/bwsl/Lattice.hpp:ComputeMomenta", "include/bwsl/Lattice.hpp:ComputeVectors", "include/bwsl/Bravais.hpp:GetReciprocalSpace"]}
{"id": "C175", "title": "Structure factors accumulated over many configurations in double precision", "statement": "For a multiplier that is not negative, no entry of ComputeSk in double precision is negative, and AccumulateSk never turns a finite entry into a smaller finite number. Called for K configurations in turn on entries that start at zero, on the closed lattices of C174 or on closed chains, square and cubic lattices with different extents, it leaves each entry within K e + K^2 W M^2/2^51 of the exact sum of the K structure factors, where e is the error bound of one configuration (W M^2 (R/2^41 + N/2^46), with R the largest extent for chains, square and cubic lattices), whether or not the compiler fuses products with sums.", "quantifier": "no sign: all lattices, occupations (finite or not) and multipliers that are not negative; accuracy: all K <= 2^50, all configurations of size at most M, all multipliers of size at most W, W M^2 <= 2^98, lattices as in C174 and C131; IEEE binary64", "why_tests_cant": "Long runs accumulate millions of configurations; how the rounding of the running sums grows with their number cannot be seen from a few calls.", "anchors": ["include/bwsl/Lattice.hpp:AccumulateSk", "include/bwsl/Lattice.hpp:ComputeSk"]}
{"id": "C176", "title": "What infinities and NaN do to the accumulators", "statement": "After any calls on a NeumaierAccumulator, Sum and Mean are NaN if a value added since the last Reset was infinite or NaN, and a NaN sum stays NaN until the next Reset. After any calls on a KahanAccumulator, Sum is infinite or NaN if such a value was added, and Sum and Mean are NaN if it was not the last value; a sum that is not finite, from an overflow for instance, is NaN after every further Add. After any calls on a KnuthWelfordAccumulator, Mean is infinite or NaN if such a value was added, Mean and Sum are NaN if it was not the last value, and Variance, ScaledVariance, StandardDeviation and Error are NaN; a mean that is not finite is NaN after every further Add. After any calls on a WestAccumulator, Mean is infinite or NaN and the three variances are NaN if such a value was added with a positive weight or any value with an infinite weight. In a histogram only the bins that were given such a value are affected.", "quantifier": "all sequences of Add and Reset, all values including NaN and infinities, all arithmetics that keep signs (any arithmetic at all for Kahan, Neumaier and histograms), double precision among them", "why_tests_cant": "One bad measurement in a long run must not disappear silently from a sum, a mean or an error bar; only a proof covers every position in every history.", "anchors": ["include/bwsl/accumulators/KahanAccumulator.hpp:Add", "include/bwsl/accumulators/NeumaierAccumulator.hpp:Add", "include/bwsl/accumulators/KnuthWelfordAccumulator.hpp:Add", "include/bwsl/accumulators/WestAccumulator.hpp:Add", "include/bwsl/accumulators/KnuthWelfordAccumulator.hpp:Variance", "include/bwsl/accumulators/WestAccumulator.hpp:SampleReliabilityVariance"]}
{"id": "C177", "title": "Sums with an infinity and means of large values", "statement": "The sum of values one of which is an infinity and the others are finite is that infinity, and the mean of two equal values is that value.", "quantifier": "all lists of an infinity followed by finite values; all doubles", "why_tests_cant": "A test adds moderate numbers; the cases that break are an infinity followed by anything and values in the upper half of the range of double.", "anchors": ["include/bwsl/accumulators/KahanAccumulator.hpp:Add", "include/bwsl/accumulators/NeumaierAccumulator.hpp:Add", "include/bwsl/accumulators/NeumaierAccumulator.hpp:Sum", "include/bwsl/accumulators/KahanAccumulator.hpp:Mean", "include/bwsl/accumulators/NeumaierAccumulator.hpp:Mean", "include/bwsl/accumulators/KnuthWelfordAccumulator.hpp:Add"]}
{"id": "C178", "title": "What negating all the values does", "statement": "An accumulator that is given the opposite of every value it would otherwise be given reports the opposite Sum and Mean and the same count; KnuthWelfordAccumulator then reports the same Variance, ScaledVariance, StandardDeviation and Error, and WestAccumulator, with the same weights, the same three variances. A histogram reports the opposite result in every bin. lerp between the opposite values is the opposite of lerp, and l2norm does not depend on the signs of the components.", "quantifier": "all sequences of Add and Reset, all values including NaN and infinities, all weights, all arithmetics whose rounding is odd (double precision among them), products fused with sums or not", "why_tests_cant": "A compensated sum that treats positive and negative corrections differently passes tests with data of one sign; only a proof covers every history and every rounding.", "anchors": ["include/bwsl/accumulators/KahanAccumulator.hpp:Add", "include/bwsl/accumulators/NeumaierAccumulator.hpp:Add", "include/bwsl/accumulators/KnuthWelfordAccumulator.hpp:Add", "include/bwsl/accumulators/WestAccumulator.hpp:Add", "include/bwsl/HistAccumulator.hpp:Add", "include/bwsl/MathUtils.hpp:lerp", "include/bwsl/MathUtils.hpp:l2norm"]}
{"id": "C179", "title": "Opposite momenta on lattices of any shape", "statement": "On a closed lattice of any shape and any number of dimensions, two sites that lie opposite each other with respect to the site in the middle have exactly opposite momenta, component by component; ComputeSk returns exactly the same structure factor for them, and AccumulateSk keeps equal entries equal, for any occupations and multiplicity. A site has an opposite one exactly if its coordinate along every even extent is not 0.", "quantifier": "all Bravais lattices, all extents and dimensions, all pairs of opposite sites, all occupations including NaN and infinities, double precision with an odd sine and an even cosine, products fused with sums or not", "why_tests_cant": "The equality must survive every rounding in the reciprocal vectors, the phases and the two sums; a test sees a few lattices with exactly representable vectors.", "anchors": ["include/bwsl/Lattice.hpp:ComputeMomenta", "include/bwsl/Lattice.hpp:GetMomentum", "include/bwsl/Lattice.hpp:AccumulateSk", "include/bwsl/Lattice.hpp:ComputeSk", "include/bwsl/Bravais.hpp:GetReciprocalSpace"]}
{"id": "C180", "title": "Fused products in every floating-point type", "statement": "With any choice of which products are fused with the sums they are added to: the values of LinSpace<T> start at the first end, never decrease and have the error bound of C147, and beyond 2^p steps every odd-numbered value is the one before or after it; lerp is exact at both ends, monotone in the ends, odd, and within 4 M/2^p (and twice the smallest positive number) of the exact value for ends up to M; sum_squared and l2norm are never NaN or negative for finite elements, have the error bounds of C157, do not depend on the signs of the elements and do not change for whole numbers with squares up to 2^p; choose_between, choose_between_psums and choose_with_probability do not change at all.", "quantifier": "float, double, long double and every other binary format; all choices of fused products; all ends, counts, containers and engine outputs in the stated ranges", "why_tests_cant": "A compiler decides about fused operations by its flags and the processor; a test runs with one choice and one type.", "anchors": ["include/bwsl/LinSpace.hpp:operator++", "include/bwsl/MathUtils.hpp:lerp", "include/bwsl/MathUtils.hpp:sum_squared", "include/bwsl/MathUtils.hpp:l2norm", "include/bwsl/MathUtils.hpp:choose_between", "include/bwsl/MathUtils.hpp:choose_between_psums", "include/bwsl/MathUtils.hpp:choose_with_probability"]}
{"id": "C181", "title": "Multiplying all values by a power of two", "statement": "Let every value be multiplied by 2^k. As long as nothing overflows, the sums of KahanAccumulator and NeumaierAccumulator, the values of a LinSpace, linear interpolation and l2norm are exactly 2^k times what they were, sum_squared 4^k times, and the counts are the same; so are the means and the results of histogram bins if they are above the smallest normal value. choose_between returns the same index when all the weights are multiplied, for every output of the engine. If the scaled computation is finite, so is the original one.", "quantifier": "float, double, long double and every other binary format; all k; all histories, containers, ends, weights and engine outputs in the stated ranges (products, steps and totals in the normal range)", "why_tests_cant": "A change of units must not change results. Tests compare with a tolerance and use values of one magnitude; that the compensation terms and comparisons scale exactly needs all histories.", "anchors": ["include/bwsl/accumulators/KahanAccumulator.hpp:Add", "include/bwsl/accumulators/KahanAccumulator.hpp:Mean", "include/bwsl/accumulators/NeumaierAccumulator.hpp:Add", "include/bwsl/accumulators/NeumaierAccumulator.hpp:Sum", "include/bwsl/accumulators/NeumaierAccumulator.hpp:Mean", "include/bwsl/HistAccumulator.hpp:Add", "include/bwsl/HistAccumulator.hpp:GetResult", "include/bwsl/LinSpace.hpp:operator++", "include/bwsl/MathUtils.hpp:lerp", "include/bwsl/MathUtils.hpp:sum_squared", "include/bwsl/MathUtils.hpp:l2norm", "include/bwsl/MathUtils.hpp:choose_between"]}
{"id": "C182", "title": "Another unit of length gives the same lattice", "statement": "Multiply the primitive vectors of a Bravais lattice by 2^k and divide the inverse vectors by it. A Lattice can be built from the one exactly when it can be built from the other; GetPosition, GetVector and GetDistance return exactly 2^k times the former values, GetMomentum exactly the former values divided by 2^k, GetNeighbors, AreNeighbors and GetCoordination the same, and AccumulateSk and ComputeSk the same numbers to the last bit.", "quantifier": "all Bravais lattices of any dimension up to 2^32 whose components are zero or between 2^-400 and 2^400 before and after; all k; all extents below 2^64, open and closed boundaries; all sites, coordinates, occupations, conversions, multipliers; in double with correctly rounded square roots, whatever sin and cos are", "why_tests_cant": "The choice of the nearest image compares rounded distances, and momenta and positions are rounded separately; that none of this depends on the unit can be tested only for some lattices and units, and with a tolerance.", "anchors": ["include/bwsl/Lattice.hpp:ComputeVectors", "include/bwsl/Lattice.hpp:ComputePositions", "include/bwsl/Lattice.hpp:ComputeDistances", "include/bwsl/Lattice.hpp:ComputeNeighbors", "include/bwsl/Lattice.hpp:ComputeMomenta", "include/bwsl/Lattice.hpp:AccumulateSk", "include/bwsl/Lattice.hpp:ComputeSk", "include/bwsl/Bravais.hpp:GetRealSpace", "include/bwsl/Bravais.hpp:GetReciprocalSpace", "include/bwsl/Bravais.hpp:GetVector", "include/bwsl/Bravais.hpp:GetDistance"]}
{"id": "C183", "title": "Statistics and approximate comparisons in other units", "statement": "Multiply all values given to a KnuthWelfordAccumulator by 2^k: the count is the same, Mean, StandardDeviation and Error are exactly 2^k times, ScaledVariance and Variance exactly 4^k times the former results. The same holds for Mean and PopulationVariance of a WestAccumulator, whose sums of weights do not change. Multiplying all weights by 2^j instead leaves Mean and PopulationVariance the same to the last bit. An Approx whose value and absolute tolerance are multiplied by 2^k compares with the multiplied number as before: ==, !=, <= and >= on both sides.", "quantifier": "all histories of Add and Reset, all finite values and weights, all k and j, all tolerances; as long as no product or quotient underflows in the old unit and nothing overflows in the new one", "why_tests_cant": "Tests use values of one magnitude and compare with a tolerance; that no bit of a variance depends on the unit needs all histories and all magnitudes.", "anchors": ["include/bwsl/accumulators/KnuthWelfordAccumulator.hpp:Add", "include/bwsl/accumulators/KnuthWelfordAccumulator.hpp:Variance", "include/bwsl/accumulators/KnuthWelfordAccumulator.hpp:ScaledVariance", "include/bwsl/accumulators/KnuthWelfordAccumulator.hpp:StandardDeviation", "include/bwsl/accumulators/KnuthWelfordAccumulator.hpp:Error", "include/bwsl/accumulators/WestAccumulator.hpp:Add", "include/bwsl/accumulators/WestAccumulator.hpp:Mean", "include/bwsl/accumulators/WestAccumulator.hpp:PopulationVariance", "include/bwsl/Approx.hpp:operator=="]}
{"id": "C184", "title": "A lattice does not depend on which products are fused", "statement": "A compiler may fuse a product and the addition that follows (fma) in any of the loops behind the constructor of Lattice: positions, vectors, images, distances, momenta. Whatever it chooses, Lattice(bravais, size, boundaries) succeeds or fails exactly as without fusing, with the same sites, the same neighbours and the same numbers of positions, vectors, distances, momenta and their components. For integer primitive vectors and reciprocal vectors of 0, 1 and -1 the lattice is the very same in every bit; so ChainLattice, SquareLattice and CubicLattice do not depend on compiler flags.", "quantifier": "all choices of what is fused, all Bravais lattices, extents and boundaries, every arithmetic (shape); all integer primitive vectors and extents whose coordinates have squared lengths below 2^52, all boundaries (same bits)", "why_tests_cant": "A test runs one binary, with one choice of fused operations; the statement is about all binaries a compiler may make.", "anchors": ["include/bwsl/Lattice.hpp:Lattice", "include/bwsl/Lattice.hpp:ComputePositions", "include/bwsl/Lattice.hpp:ComputeVectors", "include/bwsl/Lattice.hpp:ComputeDistances", "include/bwsl/Lattice.hpp:ComputeMomenta", "include/bwsl/Bravais.hpp:GetVector", "include/bwsl/Bravais.hpp:GetDistanceVector"]}
{"id": "C185", "title": "The structure factor of multiplied occupations", "statement": "Multiply all occupations, whole numbers, by 2^k and the multiplicity by 2^j: every entry of ComputeSk is multiplied by exactly 4^k 2^j, to the last bit, and so is what AccumulateSk adds. Both calls end alike. This holds with and without fused products, unless something overflows with the larger numbers or a sum over the sites is so small that its square underflows; a sum can be that small only if the sine or cosine of the phase of an occupied site is not 0 and below 2^-298.", "quantifier": "all lattices, all whole-number occupations of any number type, all k and j, all multiplicities that are 0 or at least 2^-60, all choices of what is fused", "why_tests_cant": "A test compares one configuration within a tolerance; exact proportionality for all lattices, occupations and powers of two is beyond examples.", "anchors": ["include/bwsl/Lattice.hpp:AccumulateSk", "include/bwsl/Lattice.hpp:ComputeSk"]}
{"id": "C186", "title": "Another unit of length changes no digit, whatever products are fused", "statement": "Take a Bravais lattice and the same with all primitive vectors multiplied by 2^k and the reciprocal vectors divided by it. Suppose the compiler fuses products with additions (fma) in any of the loops of Lattice and of the structure factor, the same ones for both. Then Lattice can be built from both or from neither; both have the same sites and neighbours; positions, vectors and distances are multiplied by exactly 2^k and momenta divided by exactly 2^k; AccumulateSk and ComputeSk give the same bits for all occupations.", "quantifier": "all choices of what is fused, all k, all Bravais lattices of dimension up to 2^32 whose components lie between 2^-400 and 2^400 or are 0 in both units, all positive extents below 2^64, all boundaries, all occupations", "why_tests_cant": "A test runs one binary and one unit; the statement is about all binaries and all powers of two.", "anchors": ["include/bwsl/Lattice.hpp:Lattice", "include/bwsl/Lattice.hpp:ComputeVectors", "include/bwsl/Lattice.hpp:ComputeDistances", "include/bwsl/Lattice.hpp:ComputeMomenta", "include/bwsl/Bravais.hpp:GetDistanceVector", "include/bwsl/Lattice.hpp:ComputeSk"]}
{"id": "C187", "title": "Statistics in other units, whatever products are fused", "statement": "Give KnuthWelfordAccumulator or WestAccumulator 2^k times every value, after any history of Add and Reset, in a binary in which any of the products of Add is fused with its addition (fma). The count and sums of weights are the same, the mean is exactly 2^k times the former and the sum of squares and variances exactly 4^k times. WestAccumulator with all weights multiplied by 2^j has the same mean and population variance to the last bit. A product of deviations of the same sign that does not underflow by itself does not underflow when fused.", "quantifier": "all binary floating-point formats, all choices of what is fused, all k and j, all sequences of values and weights for which nothing underflows before and nothing overflows after", "why_tests_cant": "Rounding errors in units that are not tested cannot be excluded by tests with tolerances, and a test runs one binary.", "anchors": ["include/bwsl/accumulators/KnuthWelfordAccumulator.hpp:Add", "include/bwsl/accumulators/WestAccumulator.hpp:Add", "include/bwsl/accumulators/KnuthWelfordAccumulator.hpp:Variance", "include/bwsl/accumulators/KnuthWelfordAccumulator.hpp:ScaledVariance", "include/bwsl/accumulators/WestAccumulator.hpp:Mean", "include/bwsl/accumulators/WestAccumulator.hpp:PopulationVariance"]}
{"id": "C188", "title": "A new value moves the mean towards it", "statement": "Whatever was added to a KnuthWelfordAccumulator or WestAccumulator before, a value not below Mean() does not lower the mean, a value not above it does not raise it, and adding Mean() itself leaves every bit as it is. A larger last value never gives a smaller mean, nor a smaller Sum() of a KahanAccumulator. If all values are equal, the mean of KnuthWelfordAccumulator is that value and ScaledVariance, Variance and StandardDeviation are exactly 0.", "quantifier": "all histories of Add and Reset, all finite values and weights for which the means are finite, fewer than 2^64 values, every binary floating-point format, with or without fused products", "why_tests_cant": "Each statement is about rounding in all states that can be reached and all values; a test sees a few of them.", "anchors": ["include/bwsl/accumulators/KnuthWelfordAccumulator.hpp:Add", "include/bwsl/accumulators/KnuthWelfordAccumulator.hpp:Variance", "include/bwsl/accumulators/KnuthWelfordAccumulator.hpp:StandardDeviation", "include/bwsl/accumulators/WestAccumulator.hpp:Add", "include/bwsl/accumulators/KahanAccumulator.hpp:Add"]}
{"id": "C189", "title": "What one more move or measurement does to the ratios", "statement": "After any history of a MoveStats without a pending proposal, Add of an accepted move never lowers GetAcceptedRatio and never raises GetRejectedRatio or GetImpossibleRatio; likewise for rejected and impossible moves. Propose alone raises none of the three. Another unitary measurement in a Histogram never lowers GetResults of its bin and never raises that of another bin.", "quantifier": "all histories of calls, including refused ones and resets, with at least one and fewer than 2^53 proposals; all outcomes and probabilities; all histograms with at least one and fewer than 2^53 unitary measurements, by Add and ForceAdd; in double precision", "why_tests_cant": "The ratios are rounded quotients of counters; that rounding never reverses the trend has to hold for all pairs of counters.", "anchors": ["include/bwsl/mcutils/MoveStats.hpp:Add", "include/bwsl/mcutils/MoveStats.hpp:Propose", "include/bwsl/mcutils/MoveStats.hpp:GetAcceptedRatio", "include/bwsl/mcutils/MoveStats.hpp:GetRejectedRatio", "include/bwsl/mcutils/MoveStats.hpp:GetImpossibleRatio", "include/bwsl/HistAccumulator.hpp:GetResults"]}
{"id": "C190", "title": "Choices in other units with fused draws and weights of any sign", "statement": "choose_between and choose_between_psums return the same result if all the weights, or all the partial sums, are multiplied by 2^k and the engine returns the same numbers, whether or not the operations of the draw are fused, as long as the sums and the draw are finite in the new units and the draw does not underflow in the old ones. The weights may be negative and the sums need not be sorted.", "quantifier": "all lists of weights or sums, all k, all outputs of the engine, all formats, fused or not", "why_tests_cant": "The result depends on comparisons of rounded sums with a rounded draw; that none of them changes has to hold for all weights and all outputs of the engine.", "anchors": ["include/bwsl/MathUtils.hpp:choose_between", "include/bwsl/MathUtils.hpp:choose_between_psums"]}
{"id": "C191", "title": "How much the order of accumulate_sum matters, and how far subtract_into is from undoing sum_into", "statement": "accumulate_sum of the same n floating-point values in two orders gives finite results within 4 n 2^-p of each other, relative to the sum of the absolute values, where p is the precision. After sum_into and subtract_into with the same right side, an element a that b was added to is, if finite, within 2^-p (|a| + (1 + 2^-p) |a + b|) of what it was.", "quantifier": "all formats; for the order all lists of n finite values, 4 n at most 2^p, with absolute values adding up to at most a quarter of the range; for undoing all containers of values of the format, including subnormal ones", "why_tests_cant": "The error depends on all the roundings; a bound has to hold for all values and orders.", "anchors": ["include/bwsl/MathUtils.hpp:accumulate_sum", "include/bwsl/MathUtils.hpp:sum_into", "include/bwsl/MathUtils.hpp:subtract_into"]}
{"id": "C192", "title": "The error of accumulate_product", "statement": "If accumulate_product of n floating-point values is finite and none of the products on the way underflows, it is the exact product times a factor between (1 - 2^-p)^n and (1 + 2^-p)^n, where p is the precision. So it has the sign of the exact product and is zero only if one of the values is. The results of two orders of the values differ at most by the quotient of the two bounds. Products of zeros and values of absolute value at least 1 never underflow. Where a product does underflow, the result can be 0 though all the values are positive.", "quantifier": "all formats, lists of all lengths", "why_tests_cant": "Every multiplication rounds; a bound has to hold for all values and lengths.", "anchors": ["include/bwsl/MathUtils.hpp:accumulate_product"]}
{"id": "C193", "title": "What inverting a container does to the other functions of MathUtils", "statement": "For containers of floating-point values, accumulate_sum of get_inverted(c) is the opposite of accumulate_sum(c); accumulate_product is the same or, if the number of elements is odd, the opposite; max of the inverted container is the opposite of min and min the opposite of max, or undefined behaviour for both if it is empty; subtract_into has the same effect as sum_into with the inverted right side; sgn of the opposite value is the opposite; absdiff of two opposite values is absdiff of the values.", "quantifier": "all formats, containers of all sizes, all values including NaN and infinities", "why_tests_cant": "Rounding and overflow have to be symmetric and NaN has to be treated alike in both directions, for all values.", "anchors": ["include/bwsl/MathUtils.hpp:get_inverted", "include/bwsl/MathUtils.hpp:invert", "include/bwsl/MathUtils.hpp:accumulate_sum", "include/bwsl/MathUtils.hpp:accumulate_product", "include/bwsl/MathUtils.hpp:max", "include/bwsl/MathUtils.hpp:min", "include/bwsl/MathUtils.hpp:subtract_into", "include/bwsl/MathUtils.hpp:sum_into", "include/bwsl/MathUtils.hpp:sgn", "include/bwsl/MathUtils.hpp:absdiff"]}
{"id": "C194", "title": "Larger elements never give smaller sums, products or extremes", "statement": "If no element of a container of floating-point values is larger than the element of another container at the same place, then accumulate_sum, max and min of the first container are not larger than those of the second. The same holds for accumulate_product if no element is negative. After sum_into no element is larger than the corresponding one after sum_into with larger left and right sides. Sums and products that are NaN are excepted; an empty container is undefined behaviour for max and min in both cases.", "quantifier": "all formats, containers of all sizes, all values including infinities", "why_tests_cant": "Every addition rounds and can overflow; that the order survives has to hold for all values and lengths.", "anchors": ["include/bwsl/MathUtils.hpp:accumulate_sum", "include/bwsl/MathUtils.hpp:accumulate_product", "include/bwsl/MathUtils.hpp:max", "include/bwsl/MathUtils.hpp:min", "include/bwsl/MathUtils.hpp:sum_into"]}
{"id": "C195", "title": "Zeros in sums and ones in products", "statement": "For floating-point values, a zero anywhere in the container does not change accumulate_sum and a one anywhere does not change accumulate_product, also where there are NaN, infinities or overflows. A zero makes accumulate_product zero if the product of the elements before it does not overflow and the elements after it are finite, even if the product without it would overflow. sum_into and subtract_into with a right side of zeros change nothing.", "quantifier": "all formats, containers of all sizes, all places in them, all values including NaN and infinities", "why_tests_cant": "Each addition of a zero is rounded too; that no sum is changed by it has to hold for all values.", "anchors": ["include/bwsl/MathUtils.hpp:accumulate_sum", "include/bwsl/MathUtils.hpp:accumulate_product", "include/bwsl/MathUtils.hpp:sum_into", "include/bwsl/MathUtils.hpp:subtract_into"]}
{"id": "C196", "title": "Adding zero does not change a compensated sum", "statement": "Add(0) at any time does not change any later Sum of a NeumaierAccumulator or a KahanAccumulator. It holds for NeumaierAccumulator. It fails for KahanAccumulator: after Add(2^50-6) and Add(2^54+4), Add(0) changes Sum from 19140298416324608 to 19140298416324604. It holds for KahanAccumulator right after an Add whose correction was exact, in particular, in double precision, if the value less the previous correction was not larger than the previous Sum and nothing overflowed.", "quantifier": "all histories of Add and Reset, all values including NaN and infinities, all formats; the counterexample and the condition on sizes in double precision", "why_tests_cant": "Random data rarely hit the two ties in a row that make the sum change.", "anchors": ["include/bwsl/accumulators/NeumaierAccumulator.hpp:Add", "include/bwsl/accumulators/NeumaierAccumulator.hpp:Sum", "include/bwsl/accumulators/KahanAccumulator.hpp:Add", "include/bwsl/accumulators/KahanAccumulator.hpp:Sum"]}
{"id": "C197", "title": "Another value never lowers ScaledVariance", "statement": "If ScaledVariance of a KnuthWelfordAccumulator is finite, and still is after another Add, then it is not smaller than before: despite rounding the new mean never passes the new value, so what is added to the sum of squares is never negative.", "quantifier": "all histories of Add and Reset, all finite values, all formats, with or without a fused multiplication; fewer than 2^64 values", "why_tests_cant": "A product of the wrong sign would come from a mean that rounding pushed past the value, which tests with ordinary data do not produce.", "anchors": ["include/bwsl/accumulators/KnuthWelfordAccumulator.hpp:Add", "include/bwsl/accumulators/KnuthWelfordAccumulator.hpp:ScaledVariance"]}
{"id": "C198", "title": "Weighted means and variances if no weight is larger than the first", "statement": "If no weight added to a WestAccumulator since the last Reset is larger than the first positive one, for example if all weights are equal, then a finite Mean lies between the smallest and the largest value and a finite PopulationVariance is not negative, without any rounding margin; nor is a finite SampleFrequencyVariance if the first weight is at least 1. (With a larger later weight neither is true, see C116.)", "quantifier": "all histories of Add and Reset whose last part starts with a positive weight, all finite values and weights, all formats, whatever products are fused; no bound on their number", "why_tests_cant": "Whether rounding can push the mean out of the range of the data depends on the weights in a way that a sample of data sets does not show.", "anchors": ["include/bwsl/accumulators/WestAccumulator.hpp:Add", "include/bwsl/accumulators/WestAccumulator.hpp:Mean", "include/bwsl/accumulators/WestAccumulator.hpp:PopulationVariance", "include/bwsl/accumulators/WestAccumulator.hpp:SampleFrequencyVariance"]}
{"id": "C199", "title": "Equal weights give the statistics without weights", "statement": "A WestAccumulator given every value with the same positive weight reports the Count and Mean of a KnuthWelfordAccumulator given the same values, its PopulationVariance is Variance(false), its SampleReliabilityVariance is Variance(true) and, for weights 1, so is its SampleFrequencyVariance. This holds in exact arithmetic. In double precision it fails: for 0, 0 and 5 with weights 1 the means differ in the last bit; they are always within (7n+29)u/2 of each other, with u = M/2^53 + 2^-1075 for n values up to M, and PopulationVariance is within M(17n+107)u + ((6M+4)/w + 6)/2^1075 of Variance(false) for weights w and n >= 2.", "quantifier": "all histories of Add and Reset, fewer than 2^64 values; the bound for at most 2^48 doubles up to 2^400 and a total weight up to 2^128", "why_tests_cant": "Tests compare with a tolerance on a few data sets; the bound is for every sequence.", "anchors": ["include/bwsl/accumulators/WestAccumulator.hpp:Add", "include/bwsl/accumulators/WestAccumulator.hpp:Mean", "include/bwsl/accumulators/WestAccumulator.hpp:PopulationVariance", "include/bwsl/accumulators/WestAccumulator.hpp:SampleReliabilityVariance", "include/bwsl/accumulators/WestAccumulator.hpp:SampleFrequencyVariance", "include/bwsl/accumulators/KnuthWelfordAccumulator.hpp:Mean", "include/bwsl/accumulators/KnuthWelfordAccumulator.hpp:Variance"]}
