{
"C01": "Round trip for all representable grids; coordinates in range when extents are at most 2^63.",
"C02": "Exact domain; includes coordinates outside of the grid (undefined or aliased). Extents above 2^63 are covered as long as the coordinates are longs.",
"C06": "Also gives the exact domain (extents in [1,2^63)) and covers Lattice::EnforceBoundaries.",
"C08": "GetUnMappedSite needs extents of at most 2^62 because it adds two coordinates in long (witness C08_unmapped_overflow).",
"C09": "Extents of at most 2^62, as for C08.",
"C10": "Violated by the code on open grids (C10_violated); C10_open_value gives the value computed, C10_open_valid_iff_partial the exact domain.",
"C11": "Closed grids with extents below 2^32 (C11_large_extent shows the bound is needed).",
"C12": "C12_no_overflow: walks shorter than 2^32 steps never overflow.",
"C14": "Exact domain of the computation in long, including n = LONG_MAX.",
"C15": "Violated for k < 0 (returns 1).",
"C16": "Two argument pairs are undefined (C16_gcd_undefined).",
"C17": "Violated: get_gcd can be negative. C17_value_partial gives the value for all arguments: the sign is that of the first or second argument by the parity of the number of divisions.",
"C20": "Weights nonnegative, draw in [0,total); a generator is represented by the number it draws. C20_binary64 covers rounding of the partial sums.",
"C21": "A generator is represented by the number it draws from [0,1).",
"C22": "Elements are long; exact domain of definition and the kind of undefined behaviour outside of it.",
"C23": "Violated: on 1 to 10000 elements the function calls itself with the same range forever, on longer ranges repeated elements give a wrong position and values near the last element a read past the end. C23_sound_partial: on distinct elements, whenever it returns, the answer is right; C23_ends_partial: it returns for values at or beyond the ends.",
"C24": "Exact arithmetic.",
"C26": "Conditional correctness for every pair of longs, plus the domain of definition and the two failures.",
"C27": "Violated (RationalNum(-1,2)); holds for p >= 0, q > 0; C27_sign_partial is the exact condition for all p and q.",
"C28": "Exactness whenever the operation returns; C28_defined gives sufficient ranges.",
"C30": "Violated by constructed rationals. C30_exactly_partial: the order comparisons of two rationals are right exactly if the denominators have the same sign or the numbers are equal; C30_constructed_partial says this in terms of the arguments of the constructors.",
"C31": "Violated: the comparisons use the truncated value. C31_exactly_partial: each of the twelve comparisons is wrong exactly if the integer is the rational rounded towards zero and the two differ (in the direction that matters to the operator).",
"C33": "Acceptance and rejection together characterise the accepted language; the grammar is Spec.IsRationalText.",
"C35": "All five accumulators, for every history of Add and Reset; counts are modulo 2^64.",
"C36": "Exact arithmetic and binary64 (values and partial sums representable).",
"C37": "binary64 with gradual underflow; histories that do not overflow.",
"C38": "binary64, any number of finite doubles, whenever Sum() is finite.",
"C39": "Exact arithmetic, fewer than 2^64 samples.",
"C40": "Every floating-point arithmetic of the model.",
"C41": "Exact arithmetic.",
"C42": "Exact domain: partial sums and the sum of squares in the range of long.",
"C43": "Violated: the code computes (sum x^2 - (sum x)^2)/(n(n-1)), which is the variance only if all samples are zero (C43_correct_iff_partial).",
"C44": "Kahan, Neumaier, KnuthWelford, West.",
"C45": "Violated for every state and every sample: the checked Add never returns normally.",
"C46": "All five accumulators, HistAccumulator, MoveStats, ObservableGroup; archives as sequences of primitive values that are read back unchanged.",
"C47": "Histories of Add, ForceAdd and Reset; C47_defined gives the exact domain.",
"C48": "Exact arithmetic.",
"C49": "Also gives the two undefined cases.",
"C50": "Violated: the divisor is overwritten when the loop passes bin i. C50_value_partial gives the value for every bin; the property holds for the bins up to i, and for a later bin exactly if its result is zero or the divisor is one (C50_iff_partial, exact arithmetic). In double precision the later bins are not divided at all (C50_later_partial).",
"C51": "Sums in exact arithmetic.",
"C52": "With and without BWSL_ACCUMULATORS_CHECKS.",
"C53": "Fewer than 2^64 calls; ratios in exact arithmetic and bounds in binary64.",
"C54": "All outcomes, and statuses outside of the enumeration.",
"C55": "Violated: GetAcceptedRatio is 0 without proposals, the other two ratios are NaN.",
"C56": "Histories with measurements of known keys, fewer than 2^64 of them per row; the text of a number is a parameter.",
"C57": "Every state.",
"C58": "The texts of keys and numbers are parameters without commas and line breaks.",
"C59": "Enumerators 0, 1, 2, ... with distinct names.",
"C60": "Types deriving from the operator templates, for any lessthan/equal of the derived class.",
"C61": "Any rounding that is monotone; the sign of zero is not modelled.",
"C62": "Violated: inf - inf is NaN; C62_binary64_partial: in double precision x == Approx(x) exactly if x is finite.",
"C63": "Exact arithmetic for the values; end points in binary64.",
"C64": "Exact real arithmetic; M_E is e.",
"C65": "Regular files that are not changed while they are read.",
"C66": "Exact real arithmetic.",
"C67": "Exact real arithmetic, lattices with linearly independent primitive vectors for d(x,y)=0 iff x=y.",
"C68": "Integer arithmetic with the range of long.",
"C69": "The four predefined lattices, exact real arithmetic.",
"C70": "The four predefined lattices, exact real arithmetic.",
"C71": "Violated for the triangular lattice: GetInverseVector uses component i of the vector in all the terms of a sum. C71_orthogonal_partial covers the chain, square and cubic lattices, C71_double_partial these in double precision for coordinates up to 2^53. C71_exactly_partial and C71_diagonal_partial say for which lattices it inverts: with dual inverse vectors, exactly those whose primitive vectors point along their own axes.",
"C72": "Every Bravais object with even coordination, closed and open boundaries.",
"C73": "Every Bravais object with even coordination, closed and open boundaries; multiplicities included.",
"C74": "Exact real arithmetic; every lattice with orthogonal primitive vectors, any dimension up to 40.",
"C75": "Violated for 2x12 (distances not minimal and not symmetric); C75_triangular_iff_partial decides every pair of extents: with s the smaller and g the larger, the property holds exactly when g <= 2s+6 and not (s,g)=(1,8), or g = 2s+7 and s >= 14.",
"C76": "Exact real arithmetic, every closed lattice.",
"C77": "Violated: GetMappedSite on an open grid names another pair or no site at all. C77_value_partial is what the code computes. C77_vector_iff_partial: with independent primitive vectors the vector is right exactly if the second site dominates the first. C77_distance_iff_partial, C77_square_iff_partial and C77_triangular_iff_partial say for exactly which pairs the distance is right.",
"C78": "Violated: each Cartesian component is divided by an extent. C78_axis_aligned_partial, C78_orthogonal_partial and C78_equal_extents_partial are the cases in which momenta are allowed; C78_iff_partial is the exact condition for any lattice, C78_triangular_iff_partial the exact condition for the triangular lattice. On open lattices GetMomentum reads out of bounds.",
"C79": "Exact real arithmetic, closed lattices with fewer than 2^32 sites (beyond that square(n) wraps).",
"C80": "Exact real arithmetic, closed lattices with orthogonal primitive vectors or equal extents and fewer than 2^32 sites.",
"C81": "As C80.",
"C82": "Holds for SavePositions and SaveDistances, and for SaveMomenta and SavePairs on closed lattices; violated by the last two on open lattices (out of bounds reads). The text of a double is a parameter without commas and line breaks.",
"C83": "An engine is represented by the numbers its operator<< writes; the recurrence of the generator is a parameter. An archive is the list of values written to it.",
"C84": "3^41 images exceed the range of size_t, and the conversion of an image number to coordinates divides by zero.",
"C85": "Violated: an odd coordination is accepted by the Bravais constructor but ComputeNeighbors reads past the end of the neighbour list; C85_even_partial covers even coordinations.",
"C86": "Binary64 rounding as defined in Cxx/Float.lean; the constant of the second-order term is not optimal.",
"C87": "Binary64 rounding as defined in Cxx/Float.lean; C87_overflow exhibits the excluded case (differences that overflow).",
"C88": "Without BWSL_ACCUMULATORS_CHECKS (with them a full accumulator throws, C44). The average is in exact arithmetic.",
"C89": "Exact arithmetic for the results; the counts hold for any arithmetic.",
"C90": "Kahan, Neumaier, KnuthWelford and NaiveInteger accumulators; the West accumulator has no Add of one argument of type double. C90_append is for any Add.",
"C91": "atoi and the seeding of mt19937_64 follow the standards; what operator<< writes besides the words of the state is a parameter; writing to the standard output does not fail.",
"C92": "T = long. Binary64 rounding as defined in Cxx/Float.lean.",
"C93": "Instances at long, size_t and double.",
"C94": "What fmt prints for a double with {:.3e} is a parameter.",
"C95": "Extents of at most 2^62, total below 2^64.",
"C96": "Exact real arithmetic.",
"C97": "Extents of at most 2^62, total below 2^64.",
"C98": "Literals 1 and 1/2 are represented exactly (shown for binary64).",
"C99": "In binary64 sqrt is correctly rounded, as IEEE 754 requires.",
"C101": "Violated for failed enumeration conversions (dangling pointer); holds for all other exceptions.",
"C102": "Exact real arithmetic, closed lattices with fewer than 2^32 sites.",
"C103": "Exact real arithmetic; distinctness for any lattice whose reciprocal vectors are dual to its primitive vectors.",
"C104": "int is 32 bits wide. Constructor and operators of both types relate for all arguments; definedness is sufficient for arithmetic and exact for comparisons.",
"C105": "Binary64 with correctly rounded square root. Sizes whose squared diameter is below 2^52.",
"C106": "Violated for equal distances: on every closed triangular lattice with extents from 2 to 2^22 neighbours in the second direction are at 1 - 2^-53 and not at 1. Error bound and order of different distances are proved for extents neither more than twice the other.",
"C107": "Closed orthogonal lattices with extents below 2^32 (C11).",
"C108": "A failed assertion is an outcome of the model; with NDEBUG the behaviour afterwards is undefined.",
"C109": "The members set by the default constructor follow from the defaults in the class.",
"C110": "Partial because the end is missed in general; the error bound and the exact case are what is proved. The value before the first increment is a itself (C63).",
"C111": "Partial because the conversion to int violates the claim from 2^32 on.",
"C112": "The standard leaves a vector that was moved from by construction empty; the same is assumed for move assignment.",
"C113": "Partial because the end is missed in general. M_E is the rounded constant; log and pow are assumed correctly rounded, which the C++ standard does not demand.",
"C114": "At T = long; C63 and C110 are at T = double.",
"C115": "Values whose partial sums are not representable are covered by C38 (error bound) and C48 (exact arithmetic).",
"C116": "The margin does not grow with the number of samples. No error bound is proved for the variance in double precision.",
"C117": "cbinomial at long is C14/C15, get_gcd at long is C17.",
"C118": "Proved for files that can be opened for writing and written to the end; for others the claim is false (C118_*_violated describe exactly what happens). Of a text that is not written to the end, the characters that reach the file are taken to be the first ones.",
"C119": "Proved for histograms, groups and calls out of turn; false for the outcome of a proposed move on a full accumulator (C119_full_violated, C119_add_violated describe the state left behind).",
"C120": "",
"C121": "Proved for finite totals above 2^-1022; false for the others (C121_tiny_violated, C121_index_violated, C121_zero_violated, C121_overflow_violated). The distributions of libstdc++ (up to GCC 14) are modelled; that the engine's numbers are uniform is an assumption on the engine.",
"C122": "The engine is that of libstdc++ (the three loops of _M_gen_rand written as one with wrapping indices). The model gives the 10000th numbers required by the C++ standard (tools/conformance).",
"C123": "Relative to binary64 rounding to nearest, ties to even, without wider intermediate results.",
"C124": "All proved but the last sentence, which is violated: lerp(1.5, 1.5, 3/2^54) is 1.5 - 2^-52 (C124_outside_violated). C124_between: it lies between a and b up to the error bound.",
"C125": "A moved vector is empty afterwards, and so is one that was move-assigned to itself, as in libstdc++.",
"C126": "Absolute bounds, in terms of the largest modulus, not of the spread of the data.",
"C127": "Absolute bounds in terms of the largest modulus. The sample variances, whose denominators can cancel, are the subject of C173.",
"C128": "fmt itself is not part of the repository; the text is that of its documentation: N+1 significant digits, nearest, ties to even, exponent of at least two digits.",
"C129": "fmt itself is not part of the repository; the digits are any that its documentation allows (shortest that read back), shown to exist. SaveMomenta on open lattices is undefined (C82).",
"C130": "Products and quotients are evaluated in the order of the code with one rounding each; extended precision and contraction are excluded, as everywhere in this model.",
"C131": "The library's sin and cos are not correctly rounded; the theorem asks for an absolute error of at most 2^-52 and for exact values at zero.",
"C132": "The format {:.{}e} is the one of C128: correctly rounded decimal digits.",
"C133": "Integral promotion, modular conversion and undefined signed overflow are modelled in Cxx/IntTypes.lean; C133_long and C133_size relate the functions to the separate models at long and size_t.",
"C134": "The stream operators are modelled at long and int only (C32, C33, C104). get_gcd(b, a % b) has arguments of different types for T narrower than int, so that the template argument cannot be deduced.",
"C135": "Model in Model/MathMixed.lean over Cxx/IntTypes.lean.",
"C136": "The two violations (C136_status_violated, C136_position_violated; C136_accepted gives the exact behaviour) are behaviours of the code; the rest is proved.",
"C137": "Reading of unsigned numerals as in libstdc++ (the magnitude has to fit the type).",
"C138": "Over the rounding of binary64 (round to nearest even). C43 says what the formula of Variance is worth.",
"C139": "At T = long the model is proved equal to the one of C114 (C139_long). C139_signed asks k to be a value of T: C139_around shows that the increment after the largest value can lead to the smallest one without an overflow.",
"C140": "C140_norm: GetDistance and GetDistanceVector in terms of GetVector and l2norm, in any arithmetic. C140_symmetric, C140_opposite: bit-for-bit symmetry. C140_nonneg, C140_same: signs, NaN and the zero distance. C140_components, C140_distance: error bounds in binary64. C140_finite: no overflow.",
"C141": "In exact arithmetic; C142 is about the factor in double precision. C141_last and C141_constant describe what the truncated factor does to the values.",
"C142": "Violated when the root is a whole number: C142_two_violated shows that LogSpace<T>(1,2,1) has the factor 1, so that 2 is never reached. C142_exact_partial and C142_close_partial give the factor away from whole numbers and up to one.",
"C143": "The arithmetic with signed zeros is Cxx/SignedZero.lean; the theorems say that forgetting the signs commutes with every function, so that what is proved for `Num A` holds of it. C143_exception and C143_exception_occurs are about the exception for GetResults(idx).",
"C144": "In the arithmetic with signed zeros of Cxx/SignedZero.lean.",
"C145": "Spec.Runs counts the passes of a loop and Spec.Calls the nested calls of get_gcd; both are defined apart from the model.",
"C146": "Contracted variants of the functions are in Model/Contracted.lean; C146_plain shows that with nothing fused they are the functions of the other properties. WestAccumulator is in C150, structure factors in C151, random choices in C152.",
"C147": "Operations are rounded to T to nearest, without contraction or excess precision. The error of LinSpace is stated for ends whose step is at least 2^(emin+p), where emin is the exponent of the smallest positive number.",
"C148": "Containers are lists. The standard requires a strict weak ordering for max_element and min_element, so NaN elements are formally outside their contract; the model makes the comparisons of libstdc++ and libc++ in order.",
"C149": "Violated for floating-point values (C149_sum_order_violated, C149_undo_violated). What holds is C149_sum_order_partial and C149_undo_partial.",
"C150": "The variant with fused products is in Model/Contracted.lean. The compiler is assumed to make the same choice in every call; error bounds of the sample variances are not covered.",
"C151": "The variants with fused products are in Model/Contracted.lean; C151_plain shows that with nothing fused they are the functions of C79 and C131. The compiler is assumed to make the same choice at each passage of the loops.",
"C152": "For draws from an interval that starts at 0, as in the library.",
"C153": "For L different from M the second component is not the one the boundary conditions require (see C78); the theorem states what is computed.",
"C154": "As in C131, sin and cos need an absolute error of at most 2^-52. Lattices with different extents are left out because their momenta are not the allowed ones.",
"C155": "The bounds on the error and monotonicity are proved; reaching the last value, increasing strictly and the precision of long double are violated by examples.",
"C156": "Index, frequencies and bounds are proved under the stated conditions on the total; tiny, zero and overflowing totals are violated.",
"C157": "sqrt is correctly rounded; squares are zero or normal numbers for the error bounds",
"C158": "",
"C159": "cbinomial, get_gcd, and for std::vector<bool> invert, get_inverted and l2norm, do not compile at bool; random choices with weights of type bool are undefined by the standard",
"C160": "refuted by counterexamples; the error bound that does hold, for bounds far enough apart, is C155",
"C161": "refuted by counterexamples; for totals above the smallest normal number it holds, C156",
"C162": "refuted by counterexamples; the error bound for squares in the normal range is C157",
"C163": "refuted; for whole arguments with products below 2^p the value is exact, C158",
"C164": "refuted by counterexamples, except for the exact condition for undoing; what the functions do compute is C159",
"C165": "values that are neither arithmetic nor convertible to double do not compile",
"C166": "refuted by counterexamples; what the code does is stated exactly",
"C167": "refuted by counterexamples; C167_left_partial describes the object after every refused text, C167_simplify_partial after every accepted one; C167_types_partial is the same at every integer type, whose range the fields keep (C167_range)",
"C168": "violated for open boundaries (C168_open_violated gives the object exactly, C168_apart_violated the consequences); C168_larger_partial and C168_closed_partial are the other cases",
"C169": "C169_components, C169_finite, C169_zero for the Bravais object; C169_momentum, C169_middle for the lattice",
"C170": "violated by AccumulateSk (C170_sk_violated; C170_sk_value is what it computes, C170_sk_first_partial and C170_sk_open_partial the cases that are right); proved for sum_into and subtract_into (C170_into, C170_into_types, C170_into_float, C170_double)",
"C171": "",
"C172": "",
"C173": "",
"C174": "Extents that differ are excluded: the momenta of such a lattice are not those the boundary conditions allow unless the inverse vectors are diagonal (C78).",
"C175": "Proved for any sequence of configurations with their own multipliers.",
"C176": "Proved for all sequences of calls; the versions with BWSL_ACCUMULATORS_CHECKS differ only on full accumulators (C44).",
"C177": "Violated: NeumaierAccumulator reports NaN for every list of an infinity followed by finite values, KahanAccumulator for every such list of two values or more, where adding one by one gives the infinity; for two equal values of at least 2^1023 the mean is infinite with KahanAccumulator and NaN with NeumaierAccumulator. KnuthWelfordAccumulator reports the right mean of two equal values.",
"C178": "Proved for all sequences of calls; equality of numbers, the two zeros being identified (what the sign of a zero can change is the subject of C143).",
"C179": "Proved; extends C131 and C151, which state this for the chain, square and cubic lattices.",
"C180": "Proved; extends C146 and C152, which are for `double`, with C147, C156 and C157.",
"C181": "Proved, with and without fused products for LinSpace and l2norm.",
"C182": "Proved in binary64 without contraction, for powers of two.",
"C183": "Proved for every binary floating-point format (StandardDeviation and Error for double); the absence of underflow is a condition on each step of the history.",
"C184": "The choice is made per place in the source, not per iteration; the bound 2^52 is that of C106.",
"C185": "The bound on sines and cosines is on computed values, since nothing is assumed about the accuracy of std::sin near multiples of pi.",
"C186": "With binary64 arithmetic and a correctly rounded square root; the unfused case is C182. The choice is made per place in the source.",
"C187": "The unfused case is C183. A variance that is not in the normal range is reported but not claimed to be 4^k times the former.",
"C188": "West's mean may still overshoot the value (C116); Welford's does not (C87). Variances of equal values in West's accumulator are in C116.",
"C189": "Before the first proposal two of the ratios are NaN (C55).",
"C190": "C181 is the case of nonnegative weights without fusing, where a lower bound on the total takes the place of the conditions on the draw.",
"C191": "C149 shows that the results need not be equal.",
"C192": "",
"C193": "The two zeros count as the same value here: the sum of no elements is +0 in both cases.",
"C194": "",
"C195": "The two zeros count as the same value here.",
"C196": "Violated by KahanAccumulator (C196_kahan_violated). C196_neumaier is the claim for NeumaierAccumulator; for KahanAccumulator C196_kahan_partial and C196_kahan_ordered_partial hold.",
"C197": "Histories may hold NaN and infinities, as long as both results are finite.",
"C198": "Weights that are not positive are ignored by Add and may appear after the first.",
"C199": "Violated in double precision by one unit in the last place (C199_violated); C199_exact_partial holds in exact arithmetic, C199_close_partial bounds the difference of the means and C199_variance_partial that of the variances."
}
