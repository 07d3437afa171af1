# Formal model of galvanixer/bwsl in Lean 4

bwsl is a header-only C++17 library.  This directory holds a model of it in Lean 4 and machine-checked proofs
of the properties in `properties.jsonl`.

## Layout

* `lean/Verif/Cxx/` C++ semantics used by the model: outcomes, 64-bit integers, floating point, text
  streams, archives.
* `lean/Verif/Model/` the model of the code, one file per header or group of headers.  Every definition cites
  file and lines of /repo.
* `lean/Verif/Spec/` small specifications written without reference to the model's helpers.
* `lean/Verif/Lemmas/` auxiliary lemmas.
* `lean/Verif/Props/` the property theorems (`Bwsl.Cnn_…`) with non-vacuity examples beside them.
* `MANIFEST.json` maps property ids to theorem names; `AXIOMS.md` lists the axioms of each theorem;
  `seeded/LOG.jsonl` records the mutation tests.
* `tools/conformance/` tests of the model itself (not proofs, not part of the Lake project): `RepoTests.txt` evaluates
  the assertions of /repo/test in the model, `Floats.txt` compares the binary64 arithmetic of the model with the
  `double`s of the machine.
* `tools/` scripts: `props.py` writes `properties.jsonl`, `manifest.py` writes `MANIFEST.json` (from the theorem names
  and `notes.json`), `axioms.py` writes `AXIOMS.md`, `mutate.py` runs mutation tests from a list,
  `automutate.py` makes systematic small edits at the definitions of the model.

## Trusted base

* Lean's kernel (Lean 4.33.0) and the statements of the theorems.
* Axioms: only `propext`, `Classical.choice` and `Quot.sound`, the three of Lean's core library.  `AXIOMS.md`
  gives the set for every theorem in the manifest.  There are no other axioms, no `sorry`, no `native_decide`
  and no `bv_decide`.
* Mathlib, as a library of definitions (ordered fields, ℝ, ℂ, finite sums, `Int.log`, floor); its theorems are
  checked by the same kernel.
* The reading of the C++ source: nothing ties the model to the code except the citations and the evaluation of the
  assertions of /repo/test in the model (`tools/conformance`).  The code has not been compiled or run.
* The assumptions on the platform and on other libraries in the next section.

## Semantics chosen for C++

* Outcome (`Res`): `ok a`, `throws e`, `ub kind`, `diverges`.  Undefined behaviour is a distinct outcome: signed
  overflow, division by zero (and LONG_MIN / -1), out-of-bounds access, dereferencing an end iterator, reading
  through a dangling pointer, conversion of a floating-point number to an integer type without such a whole part,
  violated `assert` (an abort in debug builds, undefined afterwards with NDEBUG).
* `long` is an `Int`; each signed operation is checked against [-2^63, 2^63).  `size_t` and `unsigned long` are
  `Nat` with explicit reduction modulo 2^64.  Conversions between them are modular (LP64, two's complement; what
  GCC and Clang do in C++17 and what C++20 mandates).
* `while` loops whose termination is a property are least fixed points (`partial_fixpoint`), so `diverges` is a
  theorem and not an assumption.  Counting loops are structural recursions.
* A mutating method is a function from state to outcome and state (`Call`).  Methods that can throw return the
  state at the throw, so "the object is unchanged" is proved, not built in.
* Floating point: the model is written once, over any type with the operations of `CxxFloat F`.  `Num A` implements
  them in the manner of IEEE 754: NaN, infinities and finite values in an ordered field `K`, each operation being
  the exact one followed by a rounding `A.rnd : K → Option K`.  Theorems are stated for
  `A.IsExact` (no rounding), `A.IsReal` (exact real arithmetic with the real elementary functions),
  `A.IsBinary64` (53 bits, round to nearest even, gradual underflow, overflow to infinity), `A.Mono` (any monotone
  rounding), or for every `CxxFloat`.  Simplifications: one zero (C143 compares with the two zeros of IEEE 754), one NaN, default rounding mode, no extended
  precision and no fused operations (C146, C150-C152 and C180 allow them in all functions of the library in which a product is added), correctly rounded elementary functions and constants `M_PI`, `M_E`.
* Text: `istream`/`ostream` operators in the "C" locale with default flags, on lists of characters.  What `fmt`
  prints for a floating-point number or a key is a parameter of most theorems; for integers it is the decimal numeral.
  Printing.lean is a model of `{:.Ne}` and `{}` for `double` after the documentation of `fmt`, whose source is not in
  /repo; C128 and C129 are about it.
* Archives (boost.serialization): the list of primitive values in the order of `ar &`; they are read back
  unchanged.  No versions, tracking or textual formats.
* Files can be opened and written, contents by name.  Memory does not run out.
* `std::map` is the list of its elements by increasing key; keys are totally ordered.
* Random generators: distributions appear through the number drawn, and `uniform_real_distribution` also as the function of
  the engine's numbers that libstdc++ (up to GCC 14) computes; a Mersenne twister appears through the numbers its
  `operator<<` writes, its seeding and the numbers it draws, as in libstdc++ (Twister.lean; proved equal to the sequence of
  the C++ standard).

## What is modelled

| Source | Model | Not modelled |
| --- | --- | --- |
| HyperCubicGrid.hpp | Grid.lean, Containers.lean, Moves.lean | |
| Pairs.hpp | Grid.lean, Containers.lean | |
| Lattice.hpp | Lattice.lean, Grid.lean, Disk.lean, Moves.lean, Printing.lean, Aliased.lean (one vector as both arguments) | |
| Bravais.hpp | Bravais.lean, Moves.lean | |
| MathUtils.hpp | MathUtils.lean, Containers.lean, MathFloat.lean, MathUnsigned.lean, MathTypes.lean (all integer types), MathMixed.lean (sums and products with another result type), Draw.lean, DrawFormats.lean (random choices with weights of any floating-point type), MathFloatContainers.lean (containers of floating-point values), NormFloat.lean (norms of floating-point values of any type), MathBool.lean (`bool`), BinomialFloat.lean (binomial coefficients with floating-point arguments) | random choices with weights of type `bool` or of an integer type (`std::uniform_real_distribution` requires a floating-point type: libstdc++ does not compile it) |
| RationalNum.hpp | Rational.lean (`T = long`), RationalInt.lean (`T = int`), RationalTypes.lean (any `T` of at least 32 bits) | narrower `T`, which does not compile once constructed |
| RelationalUtils.hpp | Relational.lean | |
| accumulators/*.hpp, Accumulators.hpp | Accumulators.lean, Measured.lean | |
| HistAccumulator.hpp | Hist.lean, Measured.lean (measurements of other types) | |
| mcutils/*.hpp, MonteCarloUtils.hpp | MoveStats.lean | the exception class `InvalidProbability` (never thrown) |
| ObservableGroup.hpp | ObservableGroup.lean, StdMap.lean, Disk.lean, Printing.lean | |
| EnumString.hpp | EnumString.lean, Exceptions.lean | |
| Approx.hpp | Approx.lean | `operator<`, `operator>` (declared, not defined in the source) |
| KnuthWelfordAccumulator.hpp, WestAccumulator.hpp, `lerp`, `l2norm`, LinSpace.hpp, Bravais.hpp, the constructor of `Lattice`, `AccumulateSk`, `ComputeSk`, random draws with fused products | Contracted.lean, NormContracted.lean, LatticeContracted.lean | - |
| LinSpace.hpp, LogSpace.hpp | Spaces.lean (`T = double`; LinSpace at `float` and `long double` in C147), LinSpaceLong.lean (`T = long`), LinSpaceTypes.lean, LogSpaceTypes.lean (all integer types), LogSpaceFloat.lean (LogSpace at `float` and `long double`, with either choice of the overloads of `log` and `pow`) | `LinSpace` comparison (does not link, see below) |
| FileUtils.hpp | FileUtils.lean | directories, special files |
| RNGUtils.hpp | Rng.lean, Twister.lean | |
| Exceptions.hpp and `what()` of all exceptions | `Exn`, Exceptions.lean | |
| applications/dumpmt.cpp | Dumpmt.lean (with an output that is cut short), Rng.lean, Twister.lean | - |
| test/, templates/, libs/ | | all |

## Properties and how they are proved

* C01-C05, C13: mixed-radix arithmetic on lists, induction over the extents; the wrap-around cases by comparison of
  the exact and the modular product.
* C06-C07: the two `while` loops as least fixed points; strong induction for termination, fixpoint induction for
  divergence.
* C08-C12: grid operations reduced to componentwise arithmetic modulo the extents; walks by induction.
* C14-C17: loop invariant `res = C(n,i)`; Euclid by well-founded recursion on |b|.
* C18-C25: case analysis and list induction; `std::upper_bound` is the standard binary search,
  `bwsl::upper_bound` a least fixed point.
* C26-C34: interpretation into ℚ; text parsing over character lists.
* C35-C45: one polymorphic model; invariants in exact arithmetic by induction on the samples; binary64 facts from a
  formalisation of round-to-nearest-even (Fast2Sum exactness, error bound of compensated summation).
* C46: `serialize` is one definition used with an output and an input archive; round trips field by field.
* C47-C58: state machines with histories; invariants by induction on operations, refinement to lists of
  measurements.
* C59-C65: case analysis, iteration.
* C66-C71: finite sums over ℝ; quadratic forms x²+y² and x²+xy+y² over ℤ.
* C72-C78: site arithmetic from C01-C09 combined with the Bravais lemmas; minimum image per component (orthogonal) or by
  a case analysis of the quadratic form (triangular).
* C79-C81: Fourier sums over ℂ, orthogonality of characters (Parseval).
* C82: tables as lists of lines and fields.
* C83: text round trip of the state words.
* C84-C85: the domain of the constructor of `Lattice`.
* C86-C87: rounding analysis: relative errors of `rn` for Kahan summation (induction on the samples with an explicit
  bound), monotone rounding for the Welford mean.
* C88-C90: histories as lists of operations, as C47-C58.
* C91: `atoi`, the seeding recurrence of the twister as wrap-around arithmetic; injectivity from the first state word.
* C92-C93: binary64 rounding of quotients of integers, of squares and of cubes.
* C94: the printed line as a list of characters, split from both ends.
* C95-C97: C09 carried over to distances and neighbours; integer quadratic forms with minimum 1; induction on the sum of
  the coordinates.
* C102, C103: triangle inequality for the transform; the translation argument of the sum rule; labels recovered by duality.
* C101: pointers to characters that are or are not alive after the call.
* C104: a refinement from 32 to 64 bits, function by function.
* C105, C106: exactness of integer arithmetic below 2^53; separation of roots of integers under rounding; interval bounds
  around √3/2 for the triangular lattice.
* C107: a norm on displacements that each step changes by at most one and some step decreases; induction on paths.
* C108: a predicate on outcomes closed under sequencing, loops and fixed points.
* C109: evaluation of the definitions.
* C110: relative errors of the four roundings, none of which underflows; the counterexamples by exact rounding.
* C111: the loop body evaluated by cases on the reduced half extent.
* C112: evaluation of the definitions.
* C113: errors on a logarithmic scale add up; the counterexample by bounds on log, exp and the constant e.
* C114: induction on the number of increments.
* representable partial sums make Neumaier's sum exact (C36), so that only the division rounds; fractions of counts are never subnormal.
* C116: in double precision each step moves the mean by a rounded fraction w/W <= 1 of a rounded difference, and monotone rounding keeps the result on the near side of the value up to one rounding.
* C117: the loop invariant is that after m steps the result is the wrapped coefficient C(n,m); while C(n,m)*m stays below 2^64 no step wraps.
* C118: the disk model is related to the file model of C56-C58 by forgetting which files exist; simulation by induction over the history.
* C119: the guarded accumulators return their state unchanged; writing it back to its place is the identity.
* C120: by cases on the status.
* C121: the canonical number is the 64-bit number rounded to 53 bits; the largest one is 1-2^-53, and its product with b rounds below b because a double lies in (b-b/2^52, b); frequencies by counting initial segments of the 2^64 numbers.
* C122: loop invariant of the update in place (words before k belong to the next block of the sequence); tempering, twisting and seeding are injective bit by bit; the words are recovered backwards from the numbers.
* C123: Sterbenz's lemma makes the difference exact whenever it matters; rounding is monotone.
* C124: standard error analysis with underflow; monotonicity of rounding; the counterexample uses two ties to even.
* C125: evaluation of the definitions on the objects left behind.
* C126: n times the error of the mean grows by at most (n+5)u in each step; the error of the sum of squares by at most M(4n+43)u.
* C127: the error of the mean is a convex combination of the previous one and of 3n+7 units, plus 17/16 units for the last rounding; the relative error of the sum of the weights is at most 9/8 n/2^53; the error of the sum of squares is W M (13n+50) u plus underflow.
* C128: a decimal grammar with unique readings; the error of rounding to N+1 digits is half a unit of the last place; doubles that differ do so by at least 2^-53 of their size.
* C129: the reading of the text digit by digit; of two numbers with few digits near an integer below 2^53 only the integer rounds to it; every operation in double precision returns a double.
* C130: at most one term of each sum differs from zero, so that a component is two roundings away from 2 n pi / L with the nearest double to pi; neighbouring values are further apart than the errors.
* C131: an error bound for plain sums of bounded terms, applied to the phases and to the sums of sines and cosines, and the Lipschitz bounds of sine and cosine; displacements are integers, and images have the same exact phase; negation commutes with every rounding.
* C132: the invariants of C86 and C38 bound all intermediate results by a multiple of the sum of the absolute values, so that nothing overflows; the division adds one rounding and the printing another.
* C133: every operation followed by a store is the reduced exact value or undefined (store_eq), proved for the eight types; folds and loops follow by induction.
* C134: the constructor from the signed greatest common divisor of C133; operations by cases on whether each intermediate result is in the type; at long and int the definitions coincide.
* C135: the reduction of a sum depends only on the residues, and the common type is at least as wide as the result type; induction over the list.
* C136: a beginning of a printed number is that number divided by a power of ten; induction over the numbers for the rest.
* C137: as C33, with the limits of the type.
* C138: C132 for the sums, one more rounding for the quotient; conversions of 64-bit integers round once.
* C139: induction on the increments; congruence modulo 2^bits for the types narrower than `int`, exact bounds for the others.
* C140: Negation commutes with rounding, products and sums, so that the accumulations of opposite coordinates are opposite term by term, and the squares of opposite components are equal. For the error: one rounding converts a coordinate difference, one the product, and one each addition; sums of doubles are exact below the smallest normal number, so that additions have relative error u in any case. By induction the k-th partial sum is within ((1+u)^(k+2) - 1) of the sum of the absolute values. The norm adds d + 3 roundings (C99_error), and the triangle inequality combines the two.
* C141: the whole part of a real root is the integer root; induction on the increments.
* C142: the bound of C113 on the computed factor; for the counterexample, rational enclosures of e and log 2 that determine their roundings.
* C143: a map between two implementations of `CxxFloat` that commutes with the operations (division and powers only for good divisors and bases) commutes with every function of the model (Lemmas/FloatHomModel.lean); forgetting the signs of zeros is such a map, and the divisors in the code are good.
* C144: a sum that starts with +0.0 is not -0.0, by induction on the loops.
* C145: a relation counts the passes of a loop, and holds of every loop that ends; the counts follow by induction on it, and Lame's bound by induction on the nested calls.
* C146: the fused operation rounds an exact value once, so it is monotone, keeps signs and agrees with two roundings when the first is exact; invariants as for C87, C124 and C63.
* C147: the rounding of a format with p bits is monotone, nearest and exact on its values, as for binary64; errors of the single operations are added up.
* C148, C149: induction over the container with the error so far; a difference of two values is a multiple of the smallest positive number, so its rounding error is relative; twice 2^p absorbs a 1.
* C150: the proofs of C116 and C127 with the rounding of the product optional: one underflow per sum and product, whichever operation it is in.
* C151: a fused and a rounded product are both within the relative error of one rounding plus an underflow, so the estimates of C131 hold for either; oddness in the momentum and exactness at zero momentum hold for either operation.
* C152: the products in generate_canonical are exact, and adding 0 to a product that has been rounded does not round again.
* C153: relative errors in units of 2^-53 are propagated through products, inverses and roundings (`Lemmas/Close.lean`); the sum of two doubles has a relative rounding error even when it is subnormal, and the division by the extent is bounded against the sum of the absolute values. Gaps between momenta exceed the errors, which gives injectivity; opposite momenta follow from the symmetry of rounding.
* C154: whichever image `ComputeVectors` chooses, the exact phase differs by a multiple of 2 pi because the exact momenta are allowed; the computed phase is within L/2^44 of it, and the argument of C131 (`fourier_core`, `finish_double`) does the rest.
* C155: every rounding is bounded by u|x|+u^2 with u=2^-p, which covers underflow because the smallest positive number is below u^2; the error of the logarithms, their difference, the quotient, the base e and the power are added on a logarithmic scale; induction over the increments; the examples use monotone rounding.
* C156: all sums in generate_canonical but the last are exact, since the digits before the last have fewer than p bits in total; scaling by 2^-wk is exact; no value of T lies between 1-2^-p and 1, nor above b-2b/2^p and below b by less than half a unit; sequences of outputs correspond to the numbers below 2^(wk), of which initial segments are counted.
* C157: one rounding per operation of relative size u for normal squares; sums of values of a format have relative errors u also among subnormals; the root of a positive value is always normal; the root of a rounded normal square rounds back to the number.
* C158: loop invariant with two roundings per pass, the quotients never fall below 1 and so are normal numbers; exact products and quotients as in C14; a tie to even keeps the counter at 2^p.
* C159: integral promotion followed by the test for zero, case by case; containers by induction; the counts from C133 and C135, the sites from C133.
* C160: the start and the step are computed from rounded logarithms, which do not distinguish the two bounds.
* C161: the product of the largest canonical number and the total rounds to the total; zero and infinite totals are never below a partial sum.
* C162: the square is rounded in T before the root, and the root in the type of the overload chosen.
* C163: the loop is not entered for k < 1; 2^p + 1 rounds to 2^p, so that the condition of the loop stays true.
* C164: from the values in C159.
* C165: the histogram of the converted values (C47, C115), and the error of the conversions added to C138.
* C166: the whole part as floor and ceiling; 2^53+1 is a tie that rounds to even.
* C167: case by case over the reads that fail, from the lemmas for C33.
* C168: the digits of a site are those of its quotient and remainder by the number of sites of the remaining directions; every loop over the Bravais dimension reads the first coordinates only.
* C169: products and roundings compose as powers of 1 + 2^-53; additions of doubles never underflow, so a sum adds one factor per term; only the last division can underflow.
* C170: the loop over one vector with writes in place, compared with the function of two vectors by induction; for `AccumulateSk` a recursion over the momenta in exact arithmetic.
* C171: in the plane a positive quadratic form attains its minimum over the images, and at the minimum six translations bound both coordinates by the extents; in any dimension a translation along the relatively longest coordinate brings no image farther and shortens the translation vector.
* C172: components are multiples of 2^-511, so that their squares do not underflow and C140 applies to every image; the loop keeps the least computed distance, which is within the error of the least distance from both sides.
* C173: the sum of squared weights has a relative error of 9/8 (n+1)/2^53 and 2n underflows; the denominator of the reliability variance has an absolute error of (4n+5) W/2^53; a quotient by a denominator of relative error at most 1/12.
* C174: `phase_any` bounds a scalar product of perturbed components, `nearly_dual` the defect of the duality; the displacements are those of C172, the momenta those of C169, and whichever image is taken the exact phase differs by a multiple of 2 pi; the rest is the argument of C154 (`sk_core`).
* C175: the sign by following each operation on numbers that are not negative; the accuracy by induction on the configurations, each call being a rounded sum of the entry and the structure factor of one configuration (C131, C174).
* C176: by following the correction term (Neumaier), the pair of sum and correction (Kahan) and the pair of mean and m2 (Welford, West) through the operations on infinities and NaN; the fraction a weight is of the total is never negative.
* C177: by computing the states.
* C178: negation of the state commutes with Add and Reset, since every operation on numbers, NaN and infinities included, commutes with negation when rounding does.
* C179: opposite labels have opposite reciprocal vectors bit for bit (C140), division by the extent, the phases and the sine keep that, and the sum of squares forgets the sign.
* C180: the fused operation rounds the exact value once, so the proofs of C147 and C157 go through with one error less; numbers of the engine are multiplied by powers of two, which is exact.
* C181: rounding commutes with 2^k for multiples of the smallest number (sums and differences of values) and for numbers in the normal range; a finite result has finite operands, so the relation 'if this is finite, it is 2^k times that' is kept by every operation.
* C182: the two constructions are compared step by step: every intermediate value is a multiple of 2^-904 and below 2^1022, so each rounding commutes with the factor; comparisons of distances are unchanged, and the products of momenta and vectors in the structure factor are the same reals.
* C183: the relation 'if this is finite, it is 2^k times that' of C181 is kept by products and quotients that do not underflow; the quotient of a weight and the sum of the weights is the same real in both units of weight.
* C184: fused and unfused computations go the same way (RelRes), since no branch that can fail depends on a double; with integer vectors every product is an integer below 2^53, so it is exact and C146 makes fusing harmless.
* C185: the phases do not depend on the occupations; a product of a double and a whole number never underflows, so the relation 'if this is finite, it is 2^k times that' of C181 is kept by every step, fused or not.
* C186: a fused step rounds x*y+z once. The products are multiples of 2^-904 or more and sums stay below 2^1022, so no step underflows or overflows in either unit and rounding commutes with 2^k. The phases k.x are sums of the same real products in both units.
* C187: a fused step rounds x*y+z once and commutes with the powers of two unless that sum underflows; induction over the values added since the last Reset.
* C188: rounding is monotone and keeps the numbers of the format, so the rounded step has the sign of the difference; equal values by induction on their number.
* C189: the ratios are correctly rounded quotients of the counters (C115), rounding is monotone, and n/p <= (n+1)/(p+1) for n <= p.
* C190: the sums and the draw are scaled exactly, so the comparisons of the binary search have the same results.
* C191: two applications of the bound of C148, and the relative errors of the two roundings of each element.
* C192: the relative errors of the roundings, multiplied.
* C193: rounding to nearest is odd and the comparisons of opposite values are the reversed comparisons.
* C194: rounding is monotone, also where it overflows.
* C195: what was rounded once is not changed by rounding again.
* C196: with an exact correction the sum less the correction is what was rounded before, so rounding gives the same again.
* C197: the step of the mean is at most the power of two below the distance to the value, so the two differences have the same sign; rounding is monotone and the sum of squares is in the format.
* C198: the share of a weight is at most one half, so the rounded step of the mean is at most the power of two below the distance to the value; the two differences in the sum of squares then have the same sign.
* C199: by induction both keep the same mean and the sum of squares of one is the weight times that of the other; the bound from C126 and C127.
* C98-C100: case analysis; relative and monotone rounding of sums of squares; folds of range-checked operations.

A property that the code violates keeps its full statement in `properties.jsonl`; a theorem with the suffix
`_violated` proves the negation with a witness (or for every state), and theorems with the suffix `_partial` give
the domain on which it holds or the value that is computed instead.  The notes in `MANIFEST.json` say what is
missing.

## Findings

Disagreements between the code and what a user would expect, all of them theorems unless marked "read":

* `HyperCubicGrid::GetMappedSite` on open grids can return a number that is not a site, or another site
  (C10); `Lattice::GetDistance` and `GetVector` on open lattices then read out of bounds or describe another
  pair (C77).
* `GetMomentum`, `SaveMomenta` and `SavePairs` read out of bounds on open lattices (C78, C82).
* `EnforceBoundaries` does not return on a closed grid with an empty direction (C07); constructing a lattice with an
  empty direction is undefined.
* `GetUnMappedSite` overflows for extents above 2^62 (C08); `GetJump` is wrong for extents of 2^32 and more (C11).
* `cbinomial(n, k)` is 1 for negative k (C15).
* `get_gcd` can be negative (C17), so that rationals can have negative denominators (C27) and compare the wrong way
  round (C30); comparisons with integers truncate (C31).
* `bwsl::upper_bound` does not return on ranges of 1 to 10000 elements, is wrong on longer ranges with repeated
  elements, and reads past the end for values near the last element, e.g. for n - 5/4 in 0, 1, …, n - 1 (C23).
* `NaiveInteger::Variance` computes Σx² - (Σx)² without the factor n (C43); with the overflow checks its `Add` always
  throws (C45).
* `HistAccumulator::GetResults(i)` divides the bins after i by 1 (C50).
* `GetRejectedRatio` and `GetImpossibleRatio` are NaN without proposals while `GetAcceptedRatio` is 0 (C55).
* `Approx(inf) == inf` is false (C62).
* `Bravais::GetInverseVector` is wrong on the triangular lattice, and on every lattice with a primitive vector that does not
  point along its own axis (C71).
* Distances on closed triangular lattices with one extent `g` sufficiently larger than twice the other, `s`, are not
  minimal: exactly when `g ≥ 2s+8`, or `g = 2s+7` with `s ≤ 13`, or `s = 1`, `g = 8`.  On 2×12 they are not symmetric
  either (C75).
* In double precision two of the six neighbours of a site of a triangular lattice are at distance 1 and four at
  0.9999999999999999 (C106).
* Momenta divide Cartesian components by extents, so that on triangular lattices with different extents they are
  in general not allowed momenta (C78).
* `AccumulateSk` normalises by `square(n)` in `size_t`, which wraps for n ≥ 2^32 (hypothesis of C79-C81).
* A Bravais object with odd coordination is accepted, but building a lattice from it reads out of bounds (C85).  A
  closed lattice in more than 40 dimensions divides by zero (C84).
* `MoveStats::serialize` does not save the name (C46: the name of the target is kept).
* The variance of `KnuthWelfordAccumulator` can be -infinity when a difference of two values overflows (C87).
* `dumpmt` takes seeds through `atoi`: text counts as 0, numbers that do not fit `int` are undefined (C91); it does not
  include `<cstdlib>` (read).
* With one site in a direction of a closed lattice a site is its own neighbour, at distance 0 (C96).
* On triangular lattices with unequal extents the structure factor of a uniform occupation has spurious values at nonzero momenta (C102).
* `what()` of the exceptions of enumeration conversions returns a pointer into a local string that no longer exists (C101).
* `l2norm` does not scale: components below 2^-538 vanish and components from 2^512 on overflow (C99).
* Sums of `long`s that fit can be undefined because an intermediate sum overflows (C100).
* On a default-constructed grid `IsOnGrid({})` is true and `GetIndex({})` is 0, although `IndexIsValid(0)` is false (C109).
* `LinSpace<double>(0,7,25)` ends at 7+2^-50, outside the interval, and `(0,1,49)` at 1-2^-53 (C110).
* `GetJump` converts half the extent to `int`: from 2^32 sites on it is wrong for some pair, and on rings of 2^33 k sites `GetJump(a,a)` is 2^33 k (C111).
* A histogram that was moved from reports its old number of bins but has none (C112).
* `LogSpace<double>(1, 1+2^-52, 2)` never leaves 1 (C113).
* `LinSpace<long>` divides the interval by truncating integer division: `*end()` is never reached unless the number of steps divides the length (C114).
* In double precision the mean of `WestAccumulator` can lie outside the range of the data and its variance can be negative (C116).
* `cbinomial<size_t>(63, 31)` is silently wrong: an intermediate product wraps although the coefficient is below 2^60 (C117).
* `PrintAndReset` on a file that cannot be opened returns normally, writes nothing and drops the measurements; `PrintHeaders` and the `Save` functions of `Lattice` silently write nothing (C118). On a full disk they all return normally too, and the next row continues the broken one.
* On a full accumulator with overflow checks, `MoveStats::Accept`, `Reject`, `Impossible` and `Add` throw after the outcome was counted and the proposal cleared (C119).
* `choose_between` returns an index out of range when all weights are zero, when their sum overflows, and with the largest random number when the total is at most 2^-1022 (C121).
* In double precision `lerp(a, b, t)` can leave [a, b] and is not monotone in t: `lerp(1.5, 1.5, 3/2^54)` is 1.5 - 2^-52 (C124).
* A grid that was moved from still has its number of sites, but its loops over the dimensions read extents that are gone; on a lattice that was moved from, reading anything of its valid sites is undefined (C125).
* `square<unsigned short>(x)` is undefined behaviour for x >= 46341, because the product is computed in int (C133_square_narrow).
* `absdiff` of signed char or short values further apart than the largest value is negative (C133_absdiff).
* `index_to_array` with a coordinate type smaller than the extents silently returns negative coordinates that do not lead back (C133_index_narrow).
* `get_gcd` and hence `RationalNum` do not compile for types narrower than int, because the recursive call deduces two different types.
* The difference of unsigned rationals is wrong without notice if the second one is greater (C134_unsigned_difference).
* A saved engine that lacks its last characters can load without an error as a different engine, since nothing marks the end of the last number; `dumpmt` does not look at the state of `std::cout` and exits with success on a full disk (C136).
* `RationalNum` over an unsigned type reads negative fractions without an error, as positive ones (C137).
* `LinSpace<T>` converts the number of steps to `T`: `LinSpace<int>(0, 10, 1UL << 32)` divides by zero, and 65537 steps of a `short` are a single one (C139).
* `LogSpace<T>` with an integer `T` truncates its factor to a whole number: from 1 to 1000 in 9 steps it stops at 512, and with more steps than log2(last/first) all values are `first` (C141). Zero steps or a first value that is not positive convert NaN or an infinity to an integer. `LogSpace<int>(1, 1 << 30, 30).Collect(31)` overflows in an increment whose value is not returned.
* Rounding can make the factor of a `LogSpace<T>` of integers one too small: the powers of two from 1 to 2 in one step are 1, 1, because the `double` nearest to e, to the power of the `double` nearest to log 2, is less than 2 (C142_two_violated).
* `HistAccumulator::GetResults(idx)` gives infinities of the wrong sign if the result of bin `idx` is a negative number that underflowed to -0.0 (C143).
* EnforceBoundaries takes time proportional to the distance of a coordinate, up to 2^63 passes (C145_far).
* Contraction changes the value of lerp (C146_lerp_differs).
* `LinSpace<float>` repeats values beyond 16777216 increments, because the count is converted to `float` (C147_linspace_repeats).
* `max` and `min` return NaN for a container that begins with NaN and skip it elsewhere (C148_max, C148_min).
* For floating-point containers `accumulate_sum` depends on the order and `subtract_into` does not undo `sum_into` (C149).
* `LogSpace<long double>` calls `log` and `pow` without `std::`; where only the functions for `double` are visible it has the precision of `double`: from 1 to 1+2^-54 all values are 1 (C160_long_double_violated).
* `choose_between` with `float` weights returns an index out of range when their sum reaches 2^128, and with the largest random number when the total is at most 2^-126 (C161).
* l2norm of a container of float overflows from elements of 2^64 and vanishes below 2^-75 although it returns a double; sums and squares are computed in the type of the elements.
* l2norm of a container of float or long double depends on whether an overload of sqrt for that type is visible in the global namespace: without it the norm of {2^512L} is infinite and that of {1+2^-23f} is not its element.
* cbinomial<float>(n, k) with 16777216 <= k <= n/2 never returns, since ++i does not change 16777216.0f; likewise for double from 2^53 and for infinite arguments.
* cbinomial at a floating-point type returns 1 for negative and fractional k below 1, and for NaN.
* accumulate_sum of a container of bool is the disjunction, not the count, unless the type of the result is given; l2norm of a container of bool is 0 or 1.
* apply_accumulator with a NaiveInteger and a range of doubles adds the whole parts without a warning: the mean of {0.5, 0.5} is 0 (C166).
* FromString does not call Simplify and accepts a zero denominator; a refused text overwrites the numerator, and possibly the denominator by 0 (C167).
* An open `Lattice` accepts a Bravais object of fewer dimensions than the grid: `Lattice(ChainLattice, {3,2}, open)` has three pairs of sites at distance 0 and falls into two parts that are not connected (C168).
* `AccumulateSk(v, v)` compiles for vectors of `double` and uses elements that it has already changed (C170).
* `WestAccumulator::SampleReliabilityVariance()` divides by a difference that cancels when one weight dominates: after two samples of weights 1 and at most 2^-54 it is infinite or not a number (C173_absorbed).
* KahanAccumulator and NeumaierAccumulator turn a sum with an infinity into NaN, since the correction subtracts the infinity from itself; NeumaierAccumulator also reports NaN when a sum of finite values overflows (C177).
* KahanAccumulator: Add(0) can change Sum by one unit in the last place if the value before was larger than the sum (C196).
* WestAccumulator with weights 1 and KnuthWelfordAccumulator can report means that differ in the last bit (C199).
* `InvalidProbability` is declared and never thrown (read).
* `LinSpace`'s `==` and `!=` are declared as non-template friends and defined as templates, so that using them does
  not link (read).
* `compare_files` is not `inline`: including the header in two translation units breaks the one-definition rule
  (read).
* RNGUtils.hpp uses `std::invalid_argument` without including `<stdexcept>`; with libstdc++ a failing load leaves
  the engine partly overwritten (C83, read).
