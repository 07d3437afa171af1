{
 "claims": [
  {
   "property": "C01",
   "status": "proved",
   "theorems": [
    "Bwsl.C01_index_roundtrip",
    "Bwsl.C01_grid_roundtrip"
   ],
   "note": "Round trip for all representable grids; coordinates in range when extents are at most 2^63."
  },
  {
   "property": "C02",
   "status": "proved",
   "theorems": [
    "Bwsl.C02_coords_roundtrip",
    "Bwsl.C02_injective",
    "Bwsl.C02_surjective"
   ],
   "note": "Exact domain; includes coordinates outside of the grid (undefined or aliased). Extents above 2^63 are covered as long as the coordinates are longs."
  },
  {
   "property": "C03",
   "status": "proved",
   "theorems": [
    "Bwsl.C03_lexicographic"
   ],
   "note": ""
  },
  {
   "property": "C04",
   "status": "proved",
   "theorems": [
    "Bwsl.C04_defined_iff",
    "Bwsl.C04_wrap"
   ],
   "note": ""
  },
  {
   "property": "C05",
   "status": "proved",
   "theorems": [
    "Bwsl.C05_pair_roundtrip",
    "Bwsl.C05_index_roundtrip",
    "Bwsl.C05_num_pairs",
    "Bwsl.C05_grid"
   ],
   "note": ""
  },
  {
   "property": "C06",
   "status": "proved",
   "theorems": [
    "Bwsl.C06_enforce_closed",
    "Bwsl.C06_enforce_open",
    "Bwsl.C06_defined_iff",
    "Bwsl.C06_lattice_enforce",
    "Bwsl.C06_lattice_short",
    "Bwsl.C06_lattice_long"
   ],
   "note": "Also gives the exact domain (extents in [1,2^63)) and covers Lattice::EnforceBoundaries."
  },
  {
   "property": "C07",
   "status": "proved",
   "theorems": [
    "Bwsl.C07_zero_extent_diverges"
   ],
   "note": ""
  },
  {
   "property": "C08",
   "status": "proved",
   "theorems": [
    "Bwsl.C08_unmap_map",
    "Bwsl.C08_map_unmap",
    "Bwsl.C08_mapped_site",
    "Bwsl.C08_unmapped_overflow"
   ],
   "note": "GetUnMappedSite needs extents of at most 2^62 because it adds two coordinates in long (witness C08_unmapped_overflow)."
  },
  {
   "property": "C09",
   "status": "proved",
   "theorems": [
    "Bwsl.C09_translation_invariant",
    "Bwsl.C09_unmapped_comm",
    "Bwsl.C09_unmapped_assoc",
    "Bwsl.C09_mapped_chain",
    "Bwsl.C09_unit_inverse"
   ],
   "note": "Extents of at most 2^62, as for C08."
  },
  {
   "property": "C10",
   "status": "partial",
   "theorems": [
    "Bwsl.C10_open_value",
    "Bwsl.C10_open_valid_iff_partial",
    "Bwsl.C10_violated"
   ],
   "note": "Violated by the code on open grids (C10_violated); C10_open_value gives the value computed, C10_open_valid_iff_partial the exact domain."
  },
  {
   "property": "C11",
   "status": "proved",
   "theorems": [
    "Bwsl.C11_jump_closed",
    "Bwsl.C11_jump_open",
    "Bwsl.C11_large_extent"
   ],
   "note": "Closed grids with extents below 2^32 (C11_large_extent shows the bound is needed)."
  },
  {
   "property": "C12",
   "status": "proved",
   "theorems": [
    "Bwsl.C12_winding",
    "Bwsl.C12_no_overflow"
   ],
   "note": "C12_no_overflow: walks shorter than 2^32 steps never overflow."
  },
  {
   "property": "C13",
   "status": "proved",
   "theorems": [
    "Bwsl.C13_isOnGrid",
    "Bwsl.C13_index_valid",
    "Bwsl.C13_iff"
   ],
   "note": ""
  },
  {
   "property": "C14",
   "status": "proved",
   "theorems": [
    "Bwsl.C14_cbinomial",
    "Bwsl.C14_cbinomial_above",
    "Bwsl.C14_overflow_witness"
   ],
   "note": "Exact domain of the computation in long, including n = LONG_MAX."
  },
  {
   "property": "C15",
   "status": "partial",
   "theorems": [
    "Bwsl.C15_negative_k",
    "Bwsl.C15_violated"
   ],
   "note": "Violated for k < 0 (returns 1)."
  },
  {
   "property": "C16",
   "status": "proved",
   "theorems": [
    "Bwsl.C16_gcd",
    "Bwsl.C16_gcd_undefined"
   ],
   "note": "Two argument pairs are undefined (C16_gcd_undefined)."
  },
  {
   "property": "C17",
   "status": "partial",
   "theorems": [
    "Bwsl.C17_value_partial",
    "Bwsl.C17_gcd_sign_partial",
    "Bwsl.C17_violated"
   ],
   "note": "Violated: get_gcd can be negative. C17_value_partial gives the value for all arguments: the sign is that of the first or second argument by the parity of the number of divisions."
  },
  {
   "property": "C18",
   "status": "proved",
   "theorems": [
    "Bwsl.C18_absdiff",
    "Bwsl.C18_signeddiff",
    "Bwsl.C18_absdiff_long",
    "Bwsl.C18_sgn"
   ],
   "note": ""
  },
  {
   "property": "C19",
   "status": "proved",
   "theorems": [
    "Bwsl.C19_max",
    "Bwsl.C19_min"
   ],
   "note": ""
  },
  {
   "property": "C20",
   "status": "proved",
   "theorems": [
    "Bwsl.C20_psums",
    "Bwsl.C20_empty",
    "Bwsl.C20_interval",
    "Bwsl.C20_positive",
    "Bwsl.C20_binary64"
   ],
   "note": "Weights nonnegative, draw in [0,total); a generator is represented by the number it draws. C20_binary64 covers rounding of the partial sums."
  },
  {
   "property": "C21",
   "status": "proved",
   "theorems": [
    "Bwsl.C21_iff",
    "Bwsl.C21_extremes",
    "Bwsl.C21_monotone"
   ],
   "note": "A generator is represented by the number it draws from [0,1)."
  },
  {
   "property": "C22",
   "status": "proved",
   "theorems": [
    "Bwsl.C22_subtract_sum",
    "Bwsl.C22_sum_subtract",
    "Bwsl.C22_sum_into",
    "Bwsl.C22_subtract_into",
    "Bwsl.C22_sum_ub",
    "Bwsl.C22_subtract_ub",
    "Bwsl.C22_invert"
   ],
   "note": "Elements are long; exact domain of definition and the kind of undefined behaviour outside of it."
  },
  {
   "property": "C23",
   "status": "partial",
   "theorems": [
    "Bwsl.C23_empty_violated",
    "Bwsl.C23_step_partial",
    "Bwsl.C23_diverges_violated",
    "Bwsl.C23_repeated_violated",
    "Bwsl.C23_ends_partial",
    "Bwsl.C23_sound_partial",
    "Bwsl.C23_out_of_bounds_violated",
    "Bwsl.C23_out_of_bounds_binary64_violated"
   ],
   "note": "Violated: on 1 to 10000 elements the function calls itself with the same range forever, on longer ranges repeated elements give a wrong position and values near the last element a read past the end. C23_sound_partial: on distinct elements, whenever it returns, the answer is right; C23_ends_partial: it returns for values at or beyond the ends."
  },
  {
   "property": "C24",
   "status": "proved",
   "theorems": [
    "Bwsl.C24_ends",
    "Bwsl.C24_between",
    "Bwsl.C24_monotone",
    "Bwsl.C24_lerpi"
   ],
   "note": "Exact arithmetic."
  },
  {
   "property": "C25",
   "status": "proved",
   "theorems": [
    "Bwsl.C25_sum",
    "Bwsl.C25_product",
    "Bwsl.C25_perm"
   ],
   "note": ""
  },
  {
   "property": "C26",
   "status": "proved",
   "theorems": [
    "Bwsl.C26_value_lowest_terms",
    "Bwsl.C26_defined",
    "Bwsl.C26_long_min_undefined",
    "Bwsl.C26_zero_zero"
   ],
   "note": "Conditional correctness for every pair of longs, plus the domain of definition and the two failures."
  },
  {
   "property": "C27",
   "status": "partial",
   "theorems": [
    "Bwsl.C27_sign_partial",
    "Bwsl.C27_positive_denominator_partial",
    "Bwsl.C27_violated"
   ],
   "note": "Violated (RationalNum(-1,2)); holds for p >= 0, q > 0; C27_sign_partial is the exact condition for all p and q."
  },
  {
   "property": "C28",
   "status": "proved",
   "theorems": [
    "Bwsl.C28_add",
    "Bwsl.C28_sub",
    "Bwsl.C28_mul",
    "Bwsl.C28_div",
    "Bwsl.C28_mixed",
    "Bwsl.C28_defined"
   ],
   "note": "Exactness whenever the operation returns; C28_defined gives sufficient ranges."
  },
  {
   "property": "C29",
   "status": "proved",
   "theorems": [
    "Bwsl.C29_eq"
   ],
   "note": ""
  },
  {
   "property": "C30",
   "status": "partial",
   "theorems": [
    "Bwsl.C30_lt_partial",
    "Bwsl.C30_violated",
    "Bwsl.C30_exactly_partial",
    "Bwsl.C30_constructed_partial"
   ],
   "note": "Violated by constructed rationals. C30_exactly_partial: the order comparisons of two rationals are right exactly if the denominators have the same sign or the numbers are equal; C30_constructed_partial says this in terms of the arguments of the constructors."
  },
  {
   "property": "C31",
   "status": "partial",
   "theorems": [
    "Bwsl.C31_mixed_partial",
    "Bwsl.C31_agreement_partial",
    "Bwsl.C31_violated",
    "Bwsl.C31_exactly_partial"
   ],
   "note": "Violated: the comparisons use the truncated value. C31_exactly_partial: each of the twelve comparisons is wrong exactly if the integer is the rational rounded towards zero and the two differ (in the direction that matters to the operator)."
  },
  {
   "property": "C32",
   "status": "proved",
   "theorems": [
    "Bwsl.C32_text_shape",
    "Bwsl.C32_round_trip"
   ],
   "note": ""
  },
  {
   "property": "C33",
   "status": "proved",
   "theorems": [
    "Bwsl.C33_accepts",
    "Bwsl.C33_rejects"
   ],
   "note": "Acceptance and rejection together characterise the accepted language; the grammar is Spec.IsRationalText."
  },
  {
   "property": "C34",
   "status": "proved",
   "theorems": [
    "Bwsl.C34_conversion",
    "Bwsl.C34_isInt"
   ],
   "note": ""
  },
  {
   "property": "C35",
   "status": "proved",
   "theorems": [
    "Bwsl.C35_kahan",
    "Bwsl.C35_neumaier",
    "Bwsl.C35_knuthWelford",
    "Bwsl.C35_west",
    "Bwsl.C35_reset",
    "Bwsl.C35_integer"
   ],
   "note": "All five accumulators, for every history of Add and Reset; counts are modulo 2^64."
  },
  {
   "property": "C36",
   "status": "proved",
   "theorems": [
    "Bwsl.C36_exact",
    "Bwsl.C36_mean_exact",
    "Bwsl.C36_binary64",
    "Bwsl.C36_integers"
   ],
   "note": "Exact arithmetic and binary64 (values and partial sums representable)."
  },
  {
   "property": "C37",
   "status": "proved",
   "theorems": [
    "Bwsl.C37_error_free",
    "Bwsl.C37_two_values",
    "Bwsl.C37_history"
   ],
   "note": "binary64 with gradual underflow; histories that do not overflow."
  },
  {
   "property": "C38",
   "status": "proved",
   "theorems": [
    "Bwsl.C38_error_bound",
    "Bwsl.C38_error_bound_gamma"
   ],
   "note": "binary64, any number of finite doubles, whenever Sum() is finite."
  },
  {
   "property": "C39",
   "status": "proved",
   "theorems": [
    "Bwsl.C39_statistics",
    "Bwsl.C39_mean",
    "Bwsl.C39_nonneg",
    "Bwsl.C39_zero_iff",
    "Bwsl.C39_order",
    "Bwsl.C39_deviation"
   ],
   "note": "Exact arithmetic, fewer than 2^64 samples."
  },
  {
   "property": "C40",
   "status": "proved",
   "theorems": [
    "Bwsl.C40_nan",
    "Bwsl.C40_nan_west",
    "Bwsl.C40_nan_history",
    "Bwsl.C40_nan_integer"
   ],
   "note": "Every floating-point arithmetic of the model."
  },
  {
   "property": "C41",
   "status": "proved",
   "theorems": [
    "Bwsl.C41_statistics",
    "Bwsl.C41_unit_weights",
    "Bwsl.C41_repetition"
   ],
   "note": "Exact arithmetic."
  },
  {
   "property": "C42",
   "status": "proved",
   "theorems": [
    "Bwsl.C42_sum",
    "Bwsl.C42_sum_conv",
    "Bwsl.C42_mean"
   ],
   "note": "Exact domain: partial sums and the sum of squares in the range of long."
  },
  {
   "property": "C43",
   "status": "partial",
   "theorems": [
    "Bwsl.C43_value_partial",
    "Bwsl.C43_scaled_partial",
    "Bwsl.C43_deviation_partial",
    "Bwsl.C43_deviation_root_partial",
    "Bwsl.C43_correct_iff_partial",
    "Bwsl.C43_violated"
   ],
   "note": "Violated: the code computes (sum x^2 - (sum x)^2)/(n(n-1)), which is the variance only if all samples are zero (C43_correct_iff_partial)."
  },
  {
   "property": "C44",
   "status": "proved",
   "theorems": [
    "Bwsl.C44_checked",
    "Bwsl.C44_checked_west",
    "Bwsl.C44_unchecked"
   ],
   "note": "Kahan, Neumaier, KnuthWelford, West."
  },
  {
   "property": "C45",
   "status": "partial",
   "theorems": [
    "Bwsl.C45_violated",
    "Bwsl.C45_outcome_partial"
   ],
   "note": "Violated for every state and every sample: the checked Add never returns normally."
  },
  {
   "property": "C46",
   "status": "proved",
   "theorems": [
    "Bwsl.C46_accumulators",
    "Bwsl.C46_histogram",
    "Bwsl.C46_moves",
    "Bwsl.C46_group",
    "Bwsl.C46_sequence"
   ],
   "note": "All five accumulators, HistAccumulator, MoveStats, ObservableGroup; archives as sequences of primitive values that are read back unchanged."
  },
  {
   "property": "C47",
   "status": "proved",
   "theorems": [
    "Bwsl.C47_defined",
    "Bwsl.C47_counts",
    "Bwsl.C47_conservation"
   ],
   "note": "Histories of Add, ForceAdd and Reset; C47_defined gives the exact domain."
  },
  {
   "property": "C48",
   "status": "proved",
   "theorems": [
    "Bwsl.C48_results",
    "Bwsl.C48_result",
    "Bwsl.C48_normalised"
   ],
   "note": "Exact arithmetic."
  },
  {
   "property": "C49",
   "status": "proved",
   "theorems": [
    "Bwsl.C49_forceAdd",
    "Bwsl.C49_undefined"
   ],
   "note": "Also gives the two undefined cases."
  },
  {
   "property": "C50",
   "status": "partial",
   "theorems": [
    "Bwsl.C50_value_partial",
    "Bwsl.C50_violated",
    "Bwsl.C50_iff_partial",
    "Bwsl.C50_later_partial"
   ],
   "note": "Violated: the divisor is overwritten when the loop passes bin i. C50_value_partial gives the value for every bin; the property holds for the bins up to i, and for a later bin exactly if its result is zero or the divisor is one (C50_iff_partial, exact arithmetic). In double precision the later bins are not divided at all (C50_later_partial)."
  },
  {
   "property": "C51",
   "status": "proved",
   "theorems": [
    "Bwsl.C51_resize",
    "Bwsl.C51_sum_after_resize"
   ],
   "note": "Sums in exact arithmetic."
  },
  {
   "property": "C52",
   "status": "proved",
   "theorems": [
    "Bwsl.C52_out_of_turn",
    "Bwsl.C52_alternation"
   ],
   "note": "With and without BWSL_ACCUMULATORS_CHECKS."
  },
  {
   "property": "C53",
   "status": "proved",
   "theorems": [
    "Bwsl.C53_balance",
    "Bwsl.C53_ratios",
    "Bwsl.C53_ratios_binary64"
   ],
   "note": "Fewer than 2^64 calls; ratios in exact arithmetic and bounds in binary64."
  },
  {
   "property": "C54",
   "status": "proved",
   "theorems": [
    "Bwsl.C54_add",
    "Bwsl.C54_add_eq",
    "Bwsl.C54_history",
    "Bwsl.C54_other_status",
    "Bwsl.C54_average"
   ],
   "note": "All outcomes, and statuses outside of the enumeration."
  },
  {
   "property": "C55",
   "status": "partial",
   "theorems": [
    "Bwsl.C55_violated",
    "Bwsl.C55_fresh",
    "Bwsl.C55_after_proposal_partial"
   ],
   "note": "Violated: GetAcceptedRatio is 0 without proposals, the other two ratios are NaN."
  },
  {
   "property": "C56",
   "status": "proved",
   "theorems": [
    "Bwsl.C56_row",
    "Bwsl.C56_precision",
    "Bwsl.C56_append_only",
    "Bwsl.C56_constructor",
    "Bwsl.C56_mean"
   ],
   "note": "Histories with measurements of known keys, fewer than 2^64 of them per row; the text of a number is a parameter."
  },
  {
   "property": "C57",
   "status": "proved",
   "theorems": [
    "Bwsl.C57_unknown",
    "Bwsl.C57_known"
   ],
   "note": "Every state."
  },
  {
   "property": "C58",
   "status": "proved",
   "theorems": [
    "Bwsl.C58_header",
    "Bwsl.C58_columns",
    "Bwsl.C58_empty"
   ],
   "note": "The texts of keys and numbers are parameters without commas and line breaks."
  },
  {
   "property": "C59",
   "status": "proved",
   "theorems": [
    "Bwsl.C59_round_trip",
    "Bwsl.C59_from_string",
    "Bwsl.C59_unknown"
   ],
   "note": "Enumerators 0, 1, 2, ... with distinct names."
  },
  {
   "property": "C60",
   "status": "proved",
   "theorems": [
    "Bwsl.C60_defined",
    "Bwsl.C60_trichotomy",
    "Bwsl.C60_le_ge",
    "Bwsl.C60_equivalence",
    "Bwsl.C60_compatible"
   ],
   "note": "Types deriving from the operator templates, for any lessthan/equal of the derived class."
  },
  {
   "property": "C61",
   "status": "proved",
   "theorems": [
    "Bwsl.C61_symmetric",
    "Bwsl.C61_reflexive",
    "Bwsl.C61_antisymmetric",
    "Bwsl.C61_total",
    "Bwsl.C61_widened",
    "Bwsl.C61_exact",
    "Bwsl.C61_tolerances",
    "Bwsl.C61_defaults"
   ],
   "note": "Any rounding that is monotone; the sign of zero is not modelled."
  },
  {
   "property": "C62",
   "status": "partial",
   "theorems": [
    "Bwsl.C62_binary64_partial",
    "Bwsl.C62_violated",
    "Bwsl.C62_finite_partial"
   ],
   "note": "Violated: inf - inf is NaN; C62_binary64_partial: in double precision x == Approx(x) exactly if x is finite."
  },
  {
   "property": "C63",
   "status": "proved",
   "theorems": [
    "Bwsl.C63_kth",
    "Bwsl.C63_increasing",
    "Bwsl.C63_collect",
    "Bwsl.C63_begin_call",
    "Bwsl.C63_end",
    "Bwsl.C63_zero_steps",
    "Bwsl.C63_monotone"
   ],
   "note": "Exact arithmetic for the values; end points in binary64."
  },
  {
   "property": "C64",
   "status": "proved",
   "theorems": [
    "Bwsl.C64_kth",
    "Bwsl.C64_powers",
    "Bwsl.C64_increasing",
    "Bwsl.C64_collect",
    "Bwsl.C64_states",
    "Bwsl.C64_visit"
   ],
   "note": "Exact real arithmetic; M_E is e."
  },
  {
   "property": "C65",
   "status": "proved",
   "theorems": [
    "Bwsl.C65_compare",
    "Bwsl.C65_symmetric"
   ],
   "note": "Regular files that are not changed while they are read."
  },
  {
   "property": "C66",
   "status": "proved",
   "theorems": [
    "Bwsl.C66_constructor",
    "Bwsl.C66_real_space",
    "Bwsl.C66_additive",
    "Bwsl.C66_vector",
    "Bwsl.C66_translation",
    "Bwsl.C66_antisymmetric",
    "Bwsl.C66_composes"
   ],
   "note": "Exact real arithmetic."
  },
  {
   "property": "C67",
   "status": "proved",
   "theorems": [
    "Bwsl.C67_distance",
    "Bwsl.C67_metric",
    "Bwsl.C67_definite"
   ],
   "note": "Exact real arithmetic, lattices with linearly independent primitive vectors for d(x,y)=0 iff x=y."
  },
  {
   "property": "C68",
   "status": "proved",
   "theorems": [
    "Bwsl.C68_neighbor",
    "Bwsl.C68_opposite",
    "Bwsl.C68_further"
   ],
   "note": "Integer arithmetic with the range of long."
  },
  {
   "property": "C69",
   "status": "proved",
   "theorems": [
    "Bwsl.C69_nearest"
   ],
   "note": "The four predefined lattices, exact real arithmetic."
  },
  {
   "property": "C70",
   "status": "proved",
   "theorems": [
    "Bwsl.C70_any_dual",
    "Bwsl.C70_dual"
   ],
   "note": "The four predefined lattices, exact real arithmetic."
  },
  {
   "property": "C71",
   "status": "partial",
   "theorems": [
    "Bwsl.C71_orthogonal_partial",
    "Bwsl.C71_triangular_violated",
    "Bwsl.C71_exactly_partial",
    "Bwsl.C71_diagonal_partial",
    "Bwsl.C71_double_partial"
   ],
   "note": "Violated for the triangular lattice: GetInverseVector uses component i of the vector in all the terms of a sum. C71_orthogonal_partial covers the chain, square and cubic lattices, C71_double_partial these in double precision for coordinates up to 2^53. C71_exactly_partial and C71_diagonal_partial say for which lattices it inverts: with dual inverse vectors, exactly those whose primitive vectors point along their own axes."
  },
  {
   "property": "C72",
   "status": "proved",
   "theorems": [
    "Bwsl.C72_symmetric",
    "Bwsl.C72_are_neighbors"
   ],
   "note": "Every Bravais object with even coordination, closed and open boundaries."
  },
  {
   "property": "C73",
   "status": "proved",
   "theorems": [
    "Bwsl.C73_valid",
    "Bwsl.C73_closed",
    "Bwsl.C73_coordination",
    "Bwsl.C73_open",
    "Bwsl.C73_defined"
   ],
   "note": "Every Bravais object with even coordination, closed and open boundaries; multiplicities included."
  },
  {
   "property": "C74",
   "status": "proved",
   "theorems": [
    "Bwsl.C74_orthogonal",
    "Bwsl.C74_predefined"
   ],
   "note": "Exact real arithmetic; every lattice with orthogonal primitive vectors, any dimension up to 40."
  },
  {
   "property": "C75",
   "status": "partial",
   "theorems": [
    "Bwsl.C75_triangular_partial",
    "Bwsl.C75_triangular_violated",
    "Bwsl.C75_triangular_iff_partial"
   ],
   "note": "Violated for 2x12 (distances not minimal and not symmetric); C75_triangular_iff_partial decides every pair of extents: with s the smaller and g the larger, the property holds exactly when g <= 2s+6 and not (s,g)=(1,8), or g = 2s+7 and s >= 14."
  },
  {
   "property": "C76",
   "status": "proved",
   "theorems": [
    "Bwsl.C76_vector",
    "Bwsl.C76_position"
   ],
   "note": "Exact real arithmetic, every closed lattice."
  },
  {
   "property": "C77",
   "status": "partial",
   "theorems": [
    "Bwsl.C77_vector_iff_partial",
    "Bwsl.C77_distance_iff_partial",
    "Bwsl.C77_square_iff_partial",
    "Bwsl.C77_triangular_iff_partial",
    "Bwsl.C77_value_partial",
    "Bwsl.C77_dominated_partial",
    "Bwsl.C77_backwards_violated",
    "Bwsl.C77_other_pair_violated"
   ],
   "note": "Violated: GetMappedSite on an open grid names another pair or no site at all. C77_value_partial is what the code computes. C77_vector_iff_partial: with independent primitive vectors the vector is right exactly if the second site dominates the first. C77_distance_iff_partial, C77_square_iff_partial and C77_triangular_iff_partial say for exactly which pairs the distance is right."
  },
  {
   "property": "C78",
   "status": "partial",
   "theorems": [
    "Bwsl.C78_axis_aligned_partial",
    "Bwsl.C78_orthogonal_partial",
    "Bwsl.C78_equal_extents_partial",
    "Bwsl.C78_triangular_iff_partial",
    "Bwsl.C78_triangular_violated",
    "Bwsl.C78_open_violated",
    "Bwsl.C78_iff_partial"
   ],
   "note": "Violated: each Cartesian component is divided by an extent. C78_axis_aligned_partial, C78_orthogonal_partial and C78_equal_extents_partial are the cases in which momenta are allowed; C78_iff_partial is the exact condition for any lattice, C78_triangular_iff_partial the exact condition for the triangular lattice. On open lattices GetMomentum reads out of bounds."
  },
  {
   "property": "C79",
   "status": "proved",
   "theorems": [
    "Bwsl.C79_value",
    "Bwsl.C79_nonneg",
    "Bwsl.C79_zero_momentum",
    "Bwsl.C79_zero_momentum_exists",
    "Bwsl.C79_additive",
    "Bwsl.C79_open"
   ],
   "note": "Exact real arithmetic, closed lattices with fewer than 2^32 sites (beyond that square(n) wraps)."
  },
  {
   "property": "C80",
   "status": "proved",
   "theorems": [
    "Bwsl.C80_orthogonal",
    "Bwsl.C80_equal_extents"
   ],
   "note": "Exact real arithmetic, closed lattices with orthogonal primitive vectors or equal extents and fewer than 2^32 sites."
  },
  {
   "property": "C81",
   "status": "proved",
   "theorems": [
    "Bwsl.C81_allowed",
    "Bwsl.C81_orthogonal",
    "Bwsl.C81_equal_extents"
   ],
   "note": "As C80."
  },
  {
   "property": "C82",
   "status": "partial",
   "theorems": [
    "Bwsl.C82_positions",
    "Bwsl.C82_distances",
    "Bwsl.C82_momenta_partial",
    "Bwsl.C82_pairs_partial",
    "Bwsl.C82_open_momenta_violated",
    "Bwsl.C82_open_pairs_violated"
   ],
   "note": "Holds for SavePositions and SaveDistances, and for SaveMomenta and SavePairs on closed lattices; violated by the last two on open lattices (out of bounds reads). The text of a double is a parameter without commas and line breaks."
  },
  {
   "property": "C83",
   "status": "proved",
   "theorems": [
    "Bwsl.C83_accepts",
    "Bwsl.C83_rejects",
    "Bwsl.C83_round_trip",
    "Bwsl.C83_draws",
    "Bwsl.C83_serialize"
   ],
   "note": "An engine is represented by the numbers its operator<< writes; the recurrence of the generator is a parameter. An archive is the list of values written to it."
  },
  {
   "property": "C84",
   "status": "proved",
   "theorems": [
    "Bwsl.C84_dimensions"
   ],
   "note": "3^41 images exceed the range of size_t, and the conversion of an image number to coordinates divides by zero."
  },
  {
   "property": "C85",
   "status": "partial",
   "theorems": [
    "Bwsl.C85_odd_violated",
    "Bwsl.C85_even_partial"
   ],
   "note": "Violated: an odd coordination is accepted by the Bravais constructor but ComputeNeighbors reads past the end of the neighbour list; C85_even_partial covers even coordinations."
  },
  {
   "property": "C86",
   "status": "proved",
   "theorems": [
    "Bwsl.C86_kahan_error"
   ],
   "note": "Binary64 rounding as defined in Cxx/Float.lean; the constant of the second-order term is not optimal."
  },
  {
   "property": "C87",
   "status": "proved",
   "theorems": [
    "Bwsl.C87_mean_in_range",
    "Bwsl.C87_variance_nonneg",
    "Bwsl.C87_mean_finite",
    "Bwsl.C87_overflow"
   ],
   "note": "Binary64 rounding as defined in Cxx/Float.lean; C87_overflow exhibits the excluded case (differences that overflow)."
  },
  {
   "property": "C88",
   "status": "proved",
   "theorems": [
    "Bwsl.C88_history",
    "Bwsl.C88_reset",
    "Bwsl.C88_average",
    "Bwsl.C88_unit_interval"
   ],
   "note": "Without BWSL_ACCUMULATORS_CHECKS (with them a full accumulator throws, C44). The average is in exact arithmetic."
  },
  {
   "property": "C89",
   "status": "proved",
   "theorems": [
    "Bwsl.C89_frequencies"
   ],
   "note": "Exact arithmetic for the results; the counts hold for any arithmetic."
  },
  {
   "property": "C90",
   "status": "proved",
   "theorems": [
    "Bwsl.C90_apply",
    "Bwsl.C90_apply_checked",
    "Bwsl.C90_append",
    "Bwsl.C90_apply_integer"
   ],
   "note": "Kahan, Neumaier, KnuthWelford and NaiveInteger accumulators; the West accumulator has no Add of one argument of type double. C90_append is for any Add."
  },
  {
   "property": "C91",
   "status": "proved",
   "theorems": [
    "Bwsl.C91_usage",
    "Bwsl.C91_dump",
    "Bwsl.C91_not_a_number",
    "Bwsl.C91_undefined",
    "Bwsl.C91_injective"
   ],
   "note": "atoi and the seeding of mt19937_64 follow the standards; what operator<< writes besides the words of the state is a parameter; writing to the standard output does not fail."
  },
  {
   "property": "C92",
   "status": "proved",
   "theorems": [
    "Bwsl.C92_exact",
    "Bwsl.C92_nearest",
    "Bwsl.C92_integer",
    "Bwsl.C92_mono",
    "Bwsl.C92_error"
   ],
   "note": "T = long. Binary64 rounding as defined in Cxx/Float.lean."
  },
  {
   "property": "C93",
   "status": "proved",
   "theorems": [
    "Bwsl.C93_long",
    "Bwsl.C93_unsigned",
    "Bwsl.C93_square_nonneg",
    "Bwsl.C93_parity",
    "Bwsl.C93_exact"
   ],
   "note": "Instances at long, size_t and double."
  },
  {
   "property": "C94",
   "status": "proved",
   "theorems": [
    "Bwsl.C94_line",
    "Bwsl.C94_readable",
    "Bwsl.C94_message",
    "Bwsl.C94_new"
   ],
   "note": "What fmt prints for a double with {:.3e} is a parameter."
  },
  {
   "property": "C95",
   "status": "proved",
   "theorems": [
    "Bwsl.C95_distance",
    "Bwsl.C95_neighbors"
   ],
   "note": "Extents of at most 2^62, total below 2^64."
  },
  {
   "property": "C96",
   "status": "proved",
   "theorems": [
    "Bwsl.C96_distance",
    "Bwsl.C96_single"
   ],
   "note": "Exact real arithmetic."
  },
  {
   "property": "C97",
   "status": "proved",
   "theorems": [
    "Bwsl.C97_connected",
    "Bwsl.C97_predefined"
   ],
   "note": "Extents of at most 2^62, total below 2^64."
  },
  {
   "property": "C98",
   "status": "proved",
   "theorems": [
    "Bwsl.C98_heaviside",
    "Bwsl.C98_heaviside2",
    "Bwsl.C98_reflection"
   ],
   "note": "Literals 1 and 1/2 are represented exactly (shown for binary64)."
  },
  {
   "property": "C99",
   "status": "proved",
   "theorems": [
    "Bwsl.C99_value",
    "Bwsl.C99_norm",
    "Bwsl.C99_order",
    "Bwsl.C99_nonneg",
    "Bwsl.C99_component",
    "Bwsl.C99_single",
    "Bwsl.C99_range",
    "Bwsl.C99_error",
    "Bwsl.C99_integers"
   ],
   "note": "In binary64 sqrt is correctly rounded, as IEEE 754 requires."
  },
  {
   "property": "C100",
   "status": "proved",
   "theorems": [
    "Bwsl.C100_sum",
    "Bwsl.C100_product",
    "Bwsl.C100_order",
    "Bwsl.C100_squares"
   ],
   "note": ""
  },
  {
   "property": "C101",
   "status": "partial",
   "theorems": [
    "Bwsl.C101_readable_partial",
    "Bwsl.C101_texts_partial",
    "Bwsl.C101_violated"
   ],
   "note": "Violated for failed enumeration conversions (dangling pointer); holds for all other exceptions."
  },
  {
   "property": "C102",
   "status": "proved",
   "theorems": [
    "Bwsl.C102_bound",
    "Bwsl.C102_peak",
    "Bwsl.C102_opposite",
    "Bwsl.C102_scale",
    "Bwsl.C102_single",
    "Bwsl.C102_uniform_orthogonal",
    "Bwsl.C102_uniform_equal_extents",
    "Bwsl.C102_unequal_extents"
   ],
   "note": "Exact real arithmetic, closed lattices with fewer than 2^32 sites."
  },
  {
   "property": "C103",
   "status": "proved",
   "theorems": [
    "Bwsl.C103_distinct",
    "Bwsl.C103_complete_orthogonal",
    "Bwsl.C103_complete_equal_extents",
    "Bwsl.C103_opposite"
   ],
   "note": "Exact real arithmetic; distinctness for any lattice whose reciprocal vectors are dual to its primitive vectors."
  },
  {
   "property": "C104",
   "status": "proved",
   "theorems": [
    "Bwsl.C104_gcd",
    "Bwsl.C104_gcd_undefined",
    "Bwsl.C104_agrees",
    "Bwsl.C104_compares",
    "Bwsl.C104_constructor",
    "Bwsl.C104_constructor_defined",
    "Bwsl.C104_arithmetic",
    "Bwsl.C104_mixed",
    "Bwsl.C104_defined",
    "Bwsl.C104_comparison_domain",
    "Bwsl.C104_narrow",
    "Bwsl.C104_text",
    "Bwsl.C104_round_trip",
    "Bwsl.C104_conversion",
    "Bwsl.C104_double"
   ],
   "note": "int is 32 bits wide. Constructor and operators of both types relate for all arguments; definedness is sufficient for arithmetic and exact for comparisons."
  },
  {
   "property": "C105",
   "status": "proved",
   "theorems": [
    "Bwsl.C105_orthogonal",
    "Bwsl.C105_compare",
    "Bwsl.C105_position",
    "Bwsl.C105_symmetric",
    "Bwsl.C105_predefined",
    "Bwsl.C105_predefined_compare",
    "Bwsl.C105_neighbours"
   ],
   "note": "Binary64 with correctly rounded square root. Sizes whose squared diameter is below 2^52."
  },
  {
   "property": "C106",
   "status": "partial",
   "theorems": [
    "Bwsl.C106_error_partial",
    "Bwsl.C106_compare_partial",
    "Bwsl.C106_neighbours_violated",
    "Bwsl.C106_bravais_violated"
   ],
   "note": "Violated for equal distances: on every closed triangular lattice with extents from 2 to 2^22 neighbours in the second direction are at 1 - 2^-53 and not at 1. Error bound and order of different distances are proved for extents neither more than twice the other."
  },
  {
   "property": "C107",
   "status": "proved",
   "theorems": [
    "Bwsl.C107_jump",
    "Bwsl.C107_open",
    "Bwsl.C107_open_triangular",
    "Bwsl.C107_triangular"
   ],
   "note": "Closed orthogonal lattices with extents below 2^32 (C11)."
  },
  {
   "property": "C108",
   "status": "proved",
   "theorems": [
    "Bwsl.C108_bravais",
    "Bwsl.C108_bravais_points",
    "Bwsl.C108_grid",
    "Bwsl.C108_jump",
    "Bwsl.C108_mapped",
    "Bwsl.C108_lattice",
    "Bwsl.C108_neighbors",
    "Bwsl.C108_spaces"
   ],
   "note": "A failed assertion is an outcome of the model; with NDEBUG the behaviour afterwards is undefined."
  },
  {
   "property": "C109",
   "status": "proved",
   "theorems": [
    "Bwsl.C109_empty",
    "Bwsl.C109_origin",
    "Bwsl.C109_translations",
    "Bwsl.C109_point"
   ],
   "note": "The members set by the default constructor follow from the defaults in the class."
  },
  {
   "property": "C110",
   "status": "partial",
   "theorems": [
    "Bwsl.C110_error_partial",
    "Bwsl.C110_exact_partial",
    "Bwsl.C110_end_violated"
   ],
   "note": "Partial because the end is missed in general; the error bound and the exact case are what is proved. The value before the first increment is a itself (C63)."
  },
  {
   "property": "C111",
   "status": "partial",
   "theorems": [
    "Bwsl.C111_outcome_partial",
    "Bwsl.C111_minimum_violated",
    "Bwsl.C111_self_violated"
   ],
   "note": "Partial because the conversion to int violates the claim from 2^32 on."
  },
  {
   "property": "C112",
   "status": "proved",
   "theorems": [
    "Bwsl.C112_default",
    "Bwsl.C112_subscripts",
    "Bwsl.C112_divided",
    "Bwsl.C112_move"
   ],
   "note": "The standard leaves a vector that was moved from by construction empty; the same is assumed for move assignment."
  },
  {
   "property": "C113",
   "status": "partial",
   "theorems": [
    "Bwsl.C113_error_partial",
    "Bwsl.C113_monotone_partial",
    "Bwsl.C113_end_violated"
   ],
   "note": "Partial because the end is missed in general. M_E is the rounded constant; log and pow are assumed correctly rounded, which the C++ standard does not demand."
  },
  {
   "property": "C114",
   "status": "proved",
   "theorems": [
    "Bwsl.C114_defined",
    "Bwsl.C114_kth",
    "Bwsl.C114_end",
    "Bwsl.C114_collect",
    "Bwsl.C114_ends",
    "Bwsl.C114_negative"
   ],
   "note": "At T = long; C63 and C110 are at T = double."
  },
  {
   "property": "C115",
   "status": "proved",
   "theorems": [
    "Bwsl.C115_result",
    "Bwsl.C115_frequencies",
    "Bwsl.C115_ratios"
   ],
   "note": "Values whose partial sums are not representable are covered by C38 (error bound) and C48 (exact arithmetic)."
  },
  {
   "property": "C116",
   "status": "proved",
   "theorems": [
    "Bwsl.C116_range",
    "Bwsl.C116_order",
    "Bwsl.C116_scale",
    "Bwsl.C116_near_range",
    "Bwsl.C116_constant",
    "Bwsl.C116_overshoot"
   ],
   "note": "The margin does not grow with the number of samples. No error bound is proved for the variance in double precision."
  },
  {
   "property": "C117",
   "status": "proved",
   "theorems": [
    "Bwsl.C117_value",
    "Bwsl.C117_exact",
    "Bwsl.C117_wraps",
    "Bwsl.C117_symmetric",
    "Bwsl.C117_gcd",
    "Bwsl.C117_double",
    "Bwsl.C117_double_unsigned"
   ],
   "note": "cbinomial at long is C14/C15, get_gcd at long is C17."
  },
  {
   "property": "C118",
   "status": "partial",
   "theorems": [
    "Bwsl.C118_headers_partial",
    "Bwsl.C118_row_partial",
    "Bwsl.C118_headers_violated",
    "Bwsl.C118_lost_violated",
    "Bwsl.C118_precision",
    "Bwsl.C118_history_partial",
    "Bwsl.C118_untouched",
    "Bwsl.C118_save_partial",
    "Bwsl.C118_save_violated",
    "Bwsl.C118_room_partial",
    "Bwsl.C118_full_violated",
    "Bwsl.C118_full_save_violated"
   ],
   "note": "Proved for files that can be opened for writing and written to the end; for others the claim is false (C118_*_violated describe exactly what happens). Of a text that is not written to the end, the characters that reach the file are taken to be the first ones."
  },
  {
   "property": "C119",
   "status": "partial",
   "theorems": [
    "Bwsl.C119_hist_partial",
    "Bwsl.C119_force_partial",
    "Bwsl.C119_group_partial",
    "Bwsl.C119_moves_partial",
    "Bwsl.C119_full_violated",
    "Bwsl.C119_add_violated"
   ],
   "note": "Proved for histograms, groups and calls out of turn; false for the outcome of a proposed move on a full accumulator (C119_full_violated, C119_add_violated describe the state left behind)."
  },
  {
   "property": "C120",
   "status": "proved",
   "theorems": [
    "Bwsl.C120_builders",
    "Bwsl.C120_default",
    "Bwsl.C120_exclusive"
   ],
   "note": ""
  },
  {
   "property": "C121",
   "status": "partial",
   "theorems": [
    "Bwsl.C121_canonical",
    "Bwsl.C121_halves",
    "Bwsl.C121_unit",
    "Bwsl.C121_draw",
    "Bwsl.C121_below",
    "Bwsl.C121_tiny_violated",
    "Bwsl.C121_choice",
    "Bwsl.C121_index_violated",
    "Bwsl.C121_zero_violated",
    "Bwsl.C121_overflow_violated",
    "Bwsl.C121_distribution",
    "Bwsl.C121_probability",
    "Bwsl.C121_certain",
    "Bwsl.C121_frequency_sums",
    "Bwsl.C121_total",
    "Bwsl.C121_frequency"
   ],
   "note": "Proved for finite totals above 2^-1022; false for the others (C121_tiny_violated, C121_index_violated, C121_zero_violated, C121_overflow_violated). The distributions of libstdc++ (up to GCC 14) are modelled; that the engine's numbers are uniform is an assumption on the engine."
  },
  {
   "property": "C122",
   "status": "proved",
   "theorems": [
    "Bwsl.C122_unique",
    "Bwsl.C122_sequence",
    "Bwsl.C122_range",
    "Bwsl.C122_proper",
    "Bwsl.C122_same",
    "Bwsl.C122_seeds",
    "Bwsl.C122_first",
    "Bwsl.C122_saved",
    "Bwsl.C122_dump",
    "Bwsl.C122_choice64",
    "Bwsl.C122_choice32"
   ],
   "note": "The engine is that of libstdc++ (the three loops of _M_gen_rand written as one with wrapping indices). The model gives the 10000th numbers required by the C++ standard (tools/conformance)."
  },
  {
   "property": "C123",
   "status": "proved",
   "theorems": [
    "Bwsl.C123_iff",
    "Bwsl.C123_exact",
    "Bwsl.C123_default",
    "Bwsl.C123_close",
    "Bwsl.C123_tiny"
   ],
   "note": "Relative to binary64 rounding to nearest, ties to even, without wider intermediate results."
  },
  {
   "property": "C124",
   "status": "partial",
   "theorems": [
    "Bwsl.C124_value",
    "Bwsl.C124_ends",
    "Bwsl.C124_ends_all",
    "Bwsl.C124_monotone",
    "Bwsl.C124_error",
    "Bwsl.C124_between",
    "Bwsl.C124_outside_violated",
    "Bwsl.C124_lerpi"
   ],
   "note": "All proved but the last sentence, which is violated: lerp(1.5, 1.5, 3/2^54) is 1.5 - 2^-52 (C124_outside_violated). C124_between: it lies between a and b up to the error bound."
  },
  {
   "property": "C125",
   "status": "proved",
   "theorems": [
    "Bwsl.C125_grid",
    "Bwsl.C125_grid_moved",
    "Bwsl.C125_lattice",
    "Bwsl.C125_lattice_saved",
    "Bwsl.C125_lattice_sk",
    "Bwsl.C125_bravais",
    "Bwsl.C125_swap",
    "Bwsl.C125_getGrid",
    "Bwsl.C125_itself"
   ],
   "note": "A moved vector is empty afterwards, and so is one that was move-assigned to itself, as in libstdc++."
  },
  {
   "property": "C126",
   "status": "proved",
   "theorems": [
    "Bwsl.C126_mean",
    "Bwsl.C126_scaled",
    "Bwsl.C126_variance"
   ],
   "note": "Absolute bounds, in terms of the largest modulus, not of the spread of the data."
  },
  {
   "property": "C127",
   "status": "proved",
   "theorems": [
    "Bwsl.C127_mean",
    "Bwsl.C127_sum",
    "Bwsl.C127_variance"
   ],
   "note": "Absolute bounds in terms of the largest modulus. The sample variances, whose denominators can cancel, are the subject of C173."
  },
  {
   "property": "C128",
   "status": "proved",
   "theorems": [
    "Bwsl.C128_reads",
    "Bwsl.C128_round_trip",
    "Bwsl.C128_order",
    "Bwsl.C128_clean",
    "Bwsl.C128_default_precision",
    "Bwsl.C128_row",
    "Bwsl.C128_stats",
    "Bwsl.C128_ratios"
   ],
   "note": "fmt itself is not part of the repository; the text is that of its documentation: N+1 significant digits, nearest, ties to even, exponent of at least two digits."
  },
  {
   "property": "C129",
   "status": "proved",
   "theorems": [
    "Bwsl.C129_round_trip",
    "Bwsl.C129_injective",
    "Bwsl.C129_digits",
    "Bwsl.C129_integers",
    "Bwsl.C129_clean",
    "Bwsl.C129_doubles",
    "Bwsl.C129_positions",
    "Bwsl.C129_distances",
    "Bwsl.C129_momenta",
    "Bwsl.C129_coordinates"
   ],
   "note": "fmt itself is not part of the repository; the digits are any that its documentation allows (shortest that read back), shown to exist. SaveMomenta on open lattices is undefined (C82)."
  },
  {
   "property": "C130",
   "status": "proved",
   "theorems": [
    "Bwsl.C130_accurate",
    "Bwsl.C130_order",
    "Bwsl.C130_injective",
    "Bwsl.C130_opposite"
   ],
   "note": "Products and quotients are evaluated in the order of the code with one rounding each; extended precision and contraction are excluded, as everywhere in this model."
  },
  {
   "property": "C131",
   "status": "proved",
   "theorems": [
    "Bwsl.C131_accurate",
    "Bwsl.C131_nonneg",
    "Bwsl.C131_accumulate",
    "Bwsl.C131_opposite",
    "Bwsl.C131_zero_momentum"
   ],
   "note": "The library's sin and cos are not correctly rounded; the theorem asks for an absolute error of at most 2^-52 and for exact values at zero."
  },
  {
   "property": "C132",
   "status": "proved",
   "theorems": [
    "Bwsl.C132_finite",
    "Bwsl.C132_mean",
    "Bwsl.C132_relative",
    "Bwsl.C132_neumaier",
    "Bwsl.C132_row"
   ],
   "note": "The format {:.{}e} is the one of C128: correctly rounded decimal digits."
  },
  {
   "property": "C133",
   "status": "proved",
   "theorems": [
    "Bwsl.C133_square",
    "Bwsl.C133_square_narrow",
    "Bwsl.C133_cube",
    "Bwsl.C133_sum",
    "Bwsl.C133_product",
    "Bwsl.C133_absdiff",
    "Bwsl.C133_signeddiff",
    "Bwsl.C133_cbinomial",
    "Bwsl.C133_cbinomial_total",
    "Bwsl.C133_cbinomial_overflow",
    "Bwsl.C133_cbinomial_negative",
    "Bwsl.C133_gcd",
    "Bwsl.C133_gcd_unsigned",
    "Bwsl.C133_gcd_undefined",
    "Bwsl.C133_into",
    "Bwsl.C133_reduces",
    "Bwsl.C133_invert",
    "Bwsl.C133_array_to_index",
    "Bwsl.C133_index_to_array",
    "Bwsl.C133_index_narrow",
    "Bwsl.C133_sum_squared",
    "Bwsl.C133_long",
    "Bwsl.C133_long_containers",
    "Bwsl.C133_size"
   ],
   "note": "Integral promotion, modular conversion and undefined signed overflow are modelled in Cxx/IntTypes.lean; C133_long and C133_size relate the functions to the separate models at long and size_t."
  },
  {
   "property": "C134",
   "status": "proved",
   "theorems": [
    "Bwsl.C134_constructor",
    "Bwsl.C134_constructor_undefined",
    "Bwsl.C134_constructor_unsigned",
    "Bwsl.C134_operations",
    "Bwsl.C134_values",
    "Bwsl.C134_overflow",
    "Bwsl.C134_unsigned",
    "Bwsl.C134_unsigned_difference",
    "Bwsl.C134_mixed",
    "Bwsl.C134_mixed_values",
    "Bwsl.C134_compare",
    "Bwsl.C134_integer",
    "Bwsl.C134_instances",
    "Bwsl.C134_instances_mixed",
    "Bwsl.C134_instances_compare",
    "Bwsl.C134_unsigned_witness"
   ],
   "note": "The stream operators are modelled at long and int only (C32, C33, C104). get_gcd(b, a % b) has arguments of different types for T narrower than int, so that the template argument cannot be deduced."
  },
  {
   "property": "C135",
   "status": "proved",
   "theorems": [
    "Bwsl.C135_sum",
    "Bwsl.C135_sum_defined",
    "Bwsl.C135_sum_wide",
    "Bwsl.C135_sum_same",
    "Bwsl.C135_product"
   ],
   "note": "Model in Model/MathMixed.lean over Cxx/IntTypes.lean."
  },
  {
   "property": "C136",
   "status": "partial",
   "theorems": [
    "Bwsl.C136_rejected",
    "Bwsl.C136_accepted",
    "Bwsl.C136_status_violated",
    "Bwsl.C136_room",
    "Bwsl.C136_position_violated"
   ],
   "note": "The two violations (C136_status_violated, C136_position_violated; C136_accepted gives the exact behaviour) are behaviours of the code; the rest is proved."
  },
  {
   "property": "C137",
   "status": "proved",
   "theorems": [
    "Bwsl.C137_accepts",
    "Bwsl.C137_rejects",
    "Bwsl.C137_round_trip",
    "Bwsl.C137_range",
    "Bwsl.C137_instances",
    "Bwsl.C137_negative"
   ],
   "note": "Reading of unsigned numerals as in libstdc++ (the magnitude has to fit the type)."
  },
  {
   "property": "C138",
   "status": "proved",
   "theorems": [
    "Bwsl.C138_histogram",
    "Bwsl.C138_probability",
    "Bwsl.C138_integers",
    "Bwsl.C138_formula"
   ],
   "note": "Over the rounding of binary64 (round to nearest even). C43 says what the formula of Variance is worth."
  },
  {
   "property": "C139",
   "status": "proved",
   "theorems": [
    "Bwsl.C139_defined",
    "Bwsl.C139_kth",
    "Bwsl.C139_increments",
    "Bwsl.C139_end",
    "Bwsl.C139_collect",
    "Bwsl.C139_unsigned",
    "Bwsl.C139_signed",
    "Bwsl.C139_around",
    "Bwsl.C139_steps",
    "Bwsl.C139_long"
   ],
   "note": "At T = long the model is proved equal to the one of C114 (C139_long). C139_signed asks k to be a value of T: C139_around shows that the increment after the largest value can lead to the smallest one without an overflow."
  },
  {
   "property": "C140",
   "status": "proved",
   "theorems": [
    "Bwsl.C140_norm",
    "Bwsl.C140_symmetric",
    "Bwsl.C140_opposite",
    "Bwsl.C140_nonneg",
    "Bwsl.C140_same",
    "Bwsl.C140_components",
    "Bwsl.C140_distance",
    "Bwsl.C140_finite"
   ],
   "note": "C140_norm: GetDistance and GetDistanceVector in terms of GetVector and l2norm, in any arithmetic. C140_symmetric, C140_opposite: bit-for-bit symmetry. C140_nonneg, C140_same: signs, NaN and the zero distance. C140_components, C140_distance: error bounds in binary64. C140_finite: no overflow."
  },
  {
   "property": "C141",
   "status": "proved",
   "theorems": [
    "Bwsl.C141_defined",
    "Bwsl.C141_kth",
    "Bwsl.C141_increments",
    "Bwsl.C141_last",
    "Bwsl.C141_constant",
    "Bwsl.C141_collect",
    "Bwsl.C141_visit",
    "Bwsl.C141_powers"
   ],
   "note": "In exact arithmetic; C142 is about the factor in double precision. C141_last and C141_constant describe what the truncated factor does to the values."
  },
  {
   "property": "C142",
   "status": "partial",
   "theorems": [
    "Bwsl.C142_exact_partial",
    "Bwsl.C142_close_partial",
    "Bwsl.C142_two_violated"
   ],
   "note": "Violated when the root is a whole number: C142_two_violated shows that LogSpace<T>(1,2,1) has the factor 1, so that 2 is never reached. C142_exact_partial and C142_close_partial give the factor away from whole numbers and up to one."
  },
  {
   "property": "C143",
   "status": "proved",
   "theorems": [
    "Bwsl.C143_kahan",
    "Bwsl.C143_neumaier",
    "Bwsl.C143_welford",
    "Bwsl.C143_west",
    "Bwsl.C143_checks",
    "Bwsl.C143_naive",
    "Bwsl.C143_hist",
    "Bwsl.C143_moves",
    "Bwsl.C143_groups",
    "Bwsl.C143_math",
    "Bwsl.C143_choose",
    "Bwsl.C143_upper_bound",
    "Bwsl.C143_approx",
    "Bwsl.C143_linspace",
    "Bwsl.C143_logspace",
    "Bwsl.C143_bravais",
    "Bwsl.C143_lattice",
    "Bwsl.C143_exception",
    "Bwsl.C143_signs",
    "Bwsl.C143_exception_occurs"
   ],
   "note": "The arithmetic with signed zeros is Cxx/SignedZero.lean; the theorems say that forgetting the signs commutes with every function, so that what is proved for `Num A` holds of it. C143_exception and C143_exception_occurs are about the exception for GetResults(idx)."
  },
  {
   "property": "C144",
   "status": "proved",
   "theorems": [
    "Bwsl.C144_kahan",
    "Bwsl.C144_neumaier",
    "Bwsl.C144_welford",
    "Bwsl.C144_hist",
    "Bwsl.C144_norms",
    "Bwsl.C144_bravais",
    "Bwsl.C144_lattice"
   ],
   "note": "In the arithmetic with signed zeros of Cxx/SignedZero.lean."
  },
  {
   "property": "C145",
   "status": "proved",
   "theorems": [
    "Bwsl.C145_enforce",
    "Bwsl.C145_enforce_lattice",
    "Bwsl.C145_translate",
    "Bwsl.C145_far",
    "Bwsl.C145_gcd",
    "Bwsl.C145_gcd_types",
    "Bwsl.C145_gcd_reached",
    "Bwsl.C145_cbinomial",
    "Bwsl.C145_grow"
   ],
   "note": "Spec.Runs counts the passes of a loop and Spec.Calls the nested calls of get_gcd; both are defined apart from the model."
  },
  {
   "property": "C146",
   "status": "proved",
   "theorems": [
    "Bwsl.C146_exact",
    "Bwsl.C146_special",
    "Bwsl.C146_welford_mean",
    "Bwsl.C146_welford_variance",
    "Bwsl.C146_linspace",
    "Bwsl.C146_welford_error",
    "Bwsl.C146_lerp_value",
    "Bwsl.C146_lerp_ends",
    "Bwsl.C146_lerp_error",
    "Bwsl.C146_lerp_differs",
    "Bwsl.C146_norm",
    "Bwsl.C146_position",
    "Bwsl.C146_distance",
    "Bwsl.C146_plain",
    "Bwsl.C146_no_rounding"
   ],
   "note": "Contracted variants of the functions are in Model/Contracted.lean; C146_plain shows that with nothing fused they are the functions of the other properties. WestAccumulator is in C150, structure factors in C151, random choices in C152."
  },
  {
   "property": "C147",
   "status": "proved",
   "theorems": [
    "Bwsl.C147_linspace_monotone",
    "Bwsl.C147_linspace_error",
    "Bwsl.C147_linspace_repeats",
    "Bwsl.C147_lerp_value",
    "Bwsl.C147_lerp_ends",
    "Bwsl.C147_lerpi_ends",
    "Bwsl.C147_lerp_monotone",
    "Bwsl.C147_lerp_error",
    "Bwsl.C147_heaviside"
   ],
   "note": "Operations are rounded to T to nearest, without contraction or excess precision. The error of LinSpace is stated for ends whose step is at least 2^(emin+p), where emin is the exponent of the smallest positive number."
  },
  {
   "property": "C148",
   "status": "proved",
   "theorems": [
    "Bwsl.C148_sgn",
    "Bwsl.C148_absdiff",
    "Bwsl.C148_absdiff_symm",
    "Bwsl.C148_absdiff_zero",
    "Bwsl.C148_max",
    "Bwsl.C148_min",
    "Bwsl.C148_sum_error",
    "Bwsl.C148_sum_exact",
    "Bwsl.C148_product_exact",
    "Bwsl.C148_into",
    "Bwsl.C148_invert"
   ],
   "note": "Containers are lists. The standard requires a strict weak ordering for max_element and min_element, so NaN elements are formally outside their contract; the model makes the comparisons of libstdc++ and libc++ in order."
  },
  {
   "property": "C149",
   "status": "partial",
   "theorems": [
    "Bwsl.C149_sum_order_violated",
    "Bwsl.C149_sum_order_partial",
    "Bwsl.C149_undo_violated",
    "Bwsl.C149_undo_partial"
   ],
   "note": "Violated for floating-point values (C149_sum_order_violated, C149_undo_violated). What holds is C149_sum_order_partial and C149_undo_partial."
  },
  {
   "property": "C150",
   "status": "proved",
   "theorems": [
    "Bwsl.C150_count",
    "Bwsl.C150_squares",
    "Bwsl.C150_no_rounding",
    "Bwsl.C150_near_range",
    "Bwsl.C150_constant",
    "Bwsl.C150_error"
   ],
   "note": "The variant with fused products is in Model/Contracted.lean. The compiler is assumed to make the same choice in every call; error bounds of the sample variances are not covered."
  },
  {
   "property": "C151",
   "status": "proved",
   "theorems": [
    "Bwsl.C151_accurate",
    "Bwsl.C151_nonneg",
    "Bwsl.C151_accumulate",
    "Bwsl.C151_opposite",
    "Bwsl.C151_zero_momentum",
    "Bwsl.C151_reciprocal",
    "Bwsl.C151_plain",
    "Bwsl.C151_no_rounding"
   ],
   "note": "The variants with fused products are in Model/Contracted.lean; C151_plain shows that with nothing fused they are the functions of C79 and C131. The compiler is assumed to make the same choice at each passage of the loops."
  },
  {
   "property": "C152",
   "status": "proved",
   "theorems": [
    "Bwsl.C152_draw",
    "Bwsl.C152_choice",
    "Bwsl.C152_plain"
   ],
   "note": "For draws from an interval that starts at 0, as in the library."
  },
  {
   "property": "C153",
   "status": "proved",
   "theorems": [
    "Bwsl.C153_accurate",
    "Bwsl.C153_injective",
    "Bwsl.C153_opposite"
   ],
   "note": "For L different from M the second component is not the one the boundary conditions require (see C78); the theorem states what is computed."
  },
  {
   "property": "C154",
   "status": "proved",
   "theorems": [
    "Bwsl.C154_accurate",
    "Bwsl.C154_allowed",
    "Bwsl.C154_opposite"
   ],
   "note": "As in C131, sin and cos need an absolute error of at most 2^-52. Lattices with different extents are left out because their momenta are not the allowed ones."
  },
  {
   "property": "C155",
   "status": "proved",
   "theorems": [
    "Bwsl.C155_accepts",
    "Bwsl.C155_error",
    "Bwsl.C155_monotone",
    "Bwsl.C155_exponents",
    "Bwsl.C155_collect",
    "Bwsl.C155_visit"
   ],
   "note": "The bounds on the error and monotonicity are proved; reaching the last value, increasing strictly and the precision of long double are violated by examples."
  },
  {
   "property": "C156",
   "status": "proved",
   "theorems": [
    "Bwsl.C156_outputs",
    "Bwsl.C156_count",
    "Bwsl.C156_unit",
    "Bwsl.C156_canonical",
    "Bwsl.C156_draw",
    "Bwsl.C156_below",
    "Bwsl.C156_psums",
    "Bwsl.C156_choice",
    "Bwsl.C156_distribution",
    "Bwsl.C156_probability",
    "Bwsl.C156_certain",
    "Bwsl.C156_frequency_sums",
    "Bwsl.C156_total",
    "Bwsl.C156_frequency"
   ],
   "note": "Index, frequencies and bounds are proved under the stated conditions on the total; tiny, zero and overflowing totals are violated."
  },
  {
   "property": "C157",
   "status": "proved",
   "theorems": [
    "Bwsl.C157_square",
    "Bwsl.C157_parity",
    "Bwsl.C157_cube",
    "Bwsl.C157_integers",
    "Bwsl.C157_sum",
    "Bwsl.C157_sum_integers",
    "Bwsl.C157_sum_converted",
    "Bwsl.C157_nonneg",
    "Bwsl.C157_double",
    "Bwsl.C157_error",
    "Bwsl.C157_norm_integers",
    "Bwsl.C157_single"
   ],
   "note": "sqrt is correctly rounded; squares are zero or normal numbers for the error bounds"
  },
  {
   "property": "C158",
   "status": "proved",
   "theorems": [
    "Bwsl.C158_error",
    "Bwsl.C158_exact",
    "Bwsl.C158_symmetric",
    "Bwsl.C158_above"
   ],
   "note": ""
  },
  {
   "property": "C159",
   "status": "proved",
   "theorems": [
    "Bwsl.C159_values",
    "Bwsl.C159_sums",
    "Bwsl.C159_count",
    "Bwsl.C159_max_min",
    "Bwsl.C159_l2norm",
    "Bwsl.C159_into",
    "Bwsl.C159_index"
   ],
   "note": "cbinomial, get_gcd, and for std::vector<bool> invert, get_inverted and l2norm, do not compile at bool; random choices with weights of type bool are undefined by the standard"
  },
  {
   "property": "C160",
   "status": "partial",
   "theorems": [
    "Bwsl.C160_long_double_violated",
    "Bwsl.C160_end_violated"
   ],
   "note": "refuted by counterexamples; the error bound that does hold, for bounds far enough apart, is C155"
  },
  {
   "property": "C161",
   "status": "partial",
   "theorems": [
    "Bwsl.C161_tiny_violated",
    "Bwsl.C161_index_violated",
    "Bwsl.C161_zero_violated",
    "Bwsl.C161_overflow_violated"
   ],
   "note": "refuted by counterexamples; for totals above the smallest normal number it holds, C156"
  },
  {
   "property": "C162",
   "status": "partial",
   "theorems": [
    "Bwsl.C162_small_violated",
    "Bwsl.C162_large_violated",
    "Bwsl.C162_overload_violated",
    "Bwsl.C162_single_violated"
   ],
   "note": "refuted by counterexamples; the error bound for squares in the normal range is C157"
  },
  {
   "property": "C163",
   "status": "partial",
   "theorems": [
    "Bwsl.C163_below_violated",
    "Bwsl.C163_stuck_violated"
   ],
   "note": "refuted; for whole arguments with products below 2^p the value is exact, C158"
  },
  {
   "property": "C164",
   "status": "partial",
   "theorems": [
    "Bwsl.C164_sum_violated",
    "Bwsl.C164_l2norm_violated",
    "Bwsl.C164_undo_partial",
    "Bwsl.C164_index_violated"
   ],
   "note": "refuted by counterexamples, except for the exact condition for undoing; what the functions do compute is C159"
  },
  {
   "property": "C165",
   "status": "proved",
   "theorems": [
    "Bwsl.C165_histogram",
    "Bwsl.C165_apply",
    "Bwsl.C165_conversions",
    "Bwsl.C165_float",
    "Bwsl.C165_integers",
    "Bwsl.C165_error",
    "Bwsl.C165_sums"
   ],
   "note": "values that are neither arithmetic nor convertible to double do not compile"
  },
  {
   "property": "C166",
   "status": "partial",
   "theorems": [
    "Bwsl.C166_whole_partial",
    "Bwsl.C166_fractions_violated",
    "Bwsl.C166_range_violated",
    "Bwsl.C166_long_violated"
   ],
   "note": "refuted by counterexamples; what the code does is stated exactly"
  },
  {
   "property": "C167",
   "status": "partial",
   "theorems": [
    "Bwsl.C167_left_partial",
    "Bwsl.C167_simplify_partial",
    "Bwsl.C167_lowest_violated",
    "Bwsl.C167_unchanged_violated",
    "Bwsl.C167_types_partial",
    "Bwsl.C167_range"
   ],
   "note": "refuted by counterexamples; C167_left_partial describes the object after every refused text, C167_simplify_partial after every accepted one; C167_types_partial is the same at every integer type, whose range the fields keep (C167_range)"
  },
  {
   "property": "C168",
   "status": "partial",
   "theorems": [
    "Bwsl.C168_open_violated",
    "Bwsl.C168_apart_violated",
    "Bwsl.C168_larger_partial",
    "Bwsl.C168_closed_partial"
   ],
   "note": "violated for open boundaries (C168_open_violated gives the object exactly, C168_apart_violated the consequences); C168_larger_partial and C168_closed_partial are the other cases"
  },
  {
   "property": "C169",
   "status": "proved",
   "theorems": [
    "Bwsl.C169_components",
    "Bwsl.C169_finite",
    "Bwsl.C169_momentum",
    "Bwsl.C169_zero",
    "Bwsl.C169_middle"
   ],
   "note": "C169_components, C169_finite, C169_zero for the Bravais object; C169_momentum, C169_middle for the lattice"
  },
  {
   "property": "C170",
   "status": "partial",
   "theorems": [
    "Bwsl.C170_into",
    "Bwsl.C170_into_types",
    "Bwsl.C170_into_float",
    "Bwsl.C170_double",
    "Bwsl.C170_sk_open_partial",
    "Bwsl.C170_sk_value",
    "Bwsl.C170_sk_first_partial",
    "Bwsl.C170_sk_violated"
   ],
   "note": "violated by AccumulateSk (C170_sk_violated; C170_sk_value is what it computes, C170_sk_first_partial and C170_sk_open_partial the cases that are right); proved for sum_into and subtract_into (C170_into, C170_into_types, C170_into_float, C170_double)"
  },
  {
   "property": "C171",
   "status": "proved",
   "theorems": [
    "Bwsl.C171_plane",
    "Bwsl.C171_dominant"
   ],
   "note": ""
  },
  {
   "property": "C172",
   "status": "proved",
   "theorems": [
    "Bwsl.C172_plane",
    "Bwsl.C172_dominant",
    "Bwsl.C172_shell"
   ],
   "note": ""
  },
  {
   "property": "C173",
   "status": "proved",
   "theorems": [
    "Bwsl.C173_frequency",
    "Bwsl.C173_reliability",
    "Bwsl.C173_fused",
    "Bwsl.C173_absorbed"
   ],
   "note": ""
  },
  {
   "property": "C174",
   "status": "proved",
   "theorems": [
    "Bwsl.C174_accurate",
    "Bwsl.C174_physical"
   ],
   "note": "Extents that differ are excluded: the momenta of such a lattice are not those the boundary conditions allow unless the inverse vectors are diagonal (C78)."
  },
  {
   "property": "C175",
   "status": "proved",
   "theorems": [
    "Bwsl.C175_nonneg",
    "Bwsl.C175_grows",
    "Bwsl.C175_any",
    "Bwsl.C175_orthogonal",
    "Bwsl.C175_plain"
   ],
   "note": "Proved for any sequence of configurations with their own multipliers."
  },
  {
   "property": "C176",
   "status": "proved",
   "theorems": [
    "Bwsl.C176_neumaier",
    "Bwsl.C176_neumaier_stays",
    "Bwsl.C176_kahan_stays",
    "Bwsl.C176_kahan",
    "Bwsl.C176_welford",
    "Bwsl.C176_welford_stays",
    "Bwsl.C176_west",
    "Bwsl.C176_histogram"
   ],
   "note": "Proved for all sequences of calls; the versions with BWSL_ACCUMULATORS_CHECKS differ only on full accumulators (C44)."
  },
  {
   "property": "C177",
   "status": "partial",
   "theorems": [
    "Bwsl.C177_neumaier_violated",
    "Bwsl.C177_kahan_violated",
    "Bwsl.C177_overflow_violated",
    "Bwsl.C177_welford_partial"
   ],
   "note": "Violated: NeumaierAccumulator reports NaN for every list of an infinity followed by finite values, KahanAccumulator for every such list of two values or more, where adding one by one gives the infinity; for two equal values of at least 2^1023 the mean is infinite with KahanAccumulator and NaN with NeumaierAccumulator. KnuthWelfordAccumulator reports the right mean of two equal values."
  },
  {
   "property": "C178",
   "status": "proved",
   "theorems": [
    "Bwsl.C178_kahan",
    "Bwsl.C178_neumaier",
    "Bwsl.C178_welford",
    "Bwsl.C178_west",
    "Bwsl.C178_histogram",
    "Bwsl.C178_lerp",
    "Bwsl.C178_l2norm",
    "Bwsl.C178_plain"
   ],
   "note": "Proved for all sequences of calls; equality of numbers, the two zeros being identified (what the sign of a zero can change is the subject of C143)."
  },
  {
   "property": "C179",
   "status": "proved",
   "theorems": [
    "Bwsl.C179_momentum",
    "Bwsl.C179_accumulate",
    "Bwsl.C179_compute",
    "Bwsl.C179_plain",
    "Bwsl.C179_exists"
   ],
   "note": "Proved; extends C131 and C151, which state this for the chain, square and cubic lattices."
  },
  {
   "property": "C180",
   "status": "proved",
   "theorems": [
    "Bwsl.C180_linspace_monotone",
    "Bwsl.C180_linspace_error",
    "Bwsl.C180_linspace_repeats",
    "Bwsl.C180_lerp_value",
    "Bwsl.C180_lerp_ends",
    "Bwsl.C180_lerp_monotone",
    "Bwsl.C180_lerp_error",
    "Bwsl.C180_norm_nonneg",
    "Bwsl.C180_norm_error",
    "Bwsl.C180_sum",
    "Bwsl.C180_integers",
    "Bwsl.C180_same",
    "Bwsl.C180_negated",
    "Bwsl.C180_draw",
    "Bwsl.C180_choice"
   ],
   "note": "Proved; extends C146 and C152, which are for `double`, with C147, C156 and C157."
  },
  {
   "property": "C181",
   "status": "proved",
   "theorems": [
    "Bwsl.C181_kahan",
    "Bwsl.C181_neumaier",
    "Bwsl.C181_histogram",
    "Bwsl.C181_linspace",
    "Bwsl.C181_lerp",
    "Bwsl.C181_norm",
    "Bwsl.C181_choice"
   ],
   "note": "Proved, with and without fused products for LinSpace and l2norm."
  },
  {
   "property": "C182",
   "status": "proved",
   "theorems": [
    "Bwsl.C182_built",
    "Bwsl.C182_position",
    "Bwsl.C182_vector",
    "Bwsl.C182_distance",
    "Bwsl.C182_momentum",
    "Bwsl.C182_neighbors",
    "Bwsl.C182_structure_factor",
    "Bwsl.C182_bravais"
   ],
   "note": "Proved in binary64 without contraction, for powers of two."
  },
  {
   "property": "C183",
   "status": "proved",
   "theorems": [
    "Bwsl.C183_welford",
    "Bwsl.C183_west",
    "Bwsl.C183_weights",
    "Bwsl.C183_approx",
    "Bwsl.C183_deviation"
   ],
   "note": "Proved for every binary floating-point format (StandardDeviation and Error for double); the absence of underflow is a condition on each step of the history."
  },
  {
   "property": "C184",
   "status": "proved",
   "theorems": [
    "Bwsl.C184_shape",
    "Bwsl.C184_plain",
    "Bwsl.C184_same",
    "Bwsl.C184_predefined"
   ],
   "note": "The choice is made per place in the source, not per iteration; the bound 2^52 is that of C106."
  },
  {
   "property": "C185",
   "status": "proved",
   "theorems": [
    "Bwsl.C185_accumulate",
    "Bwsl.C185_compute",
    "Bwsl.C185_plain",
    "Bwsl.C185_clear",
    "Bwsl.C185_first_site"
   ],
   "note": "The bound on sines and cosines is on computed values, since nothing is assumed about the accuracy of std::sin near multiples of pi."
  },
  {
   "property": "C186",
   "status": "proved",
   "theorems": [
    "Bwsl.C186_lattice",
    "Bwsl.C186_structure_factor"
   ],
   "note": "With binary64 arithmetic and a correctly rounded square root; the unfused case is C182. The choice is made per place in the source."
  },
  {
   "property": "C187",
   "status": "proved",
   "theorems": [
    "Bwsl.C187_welford",
    "Bwsl.C187_west",
    "Bwsl.C187_weights",
    "Bwsl.C187_fused_quieter"
   ],
   "note": "The unfused case is C183. A variance that is not in the normal range is reported but not claimed to be 4^k times the former."
  },
  {
   "property": "C188",
   "status": "proved",
   "theorems": [
    "Bwsl.C188_welford",
    "Bwsl.C188_welford_last",
    "Bwsl.C188_constant",
    "Bwsl.C188_west",
    "Bwsl.C188_west_last",
    "Bwsl.C188_kahan_last"
   ],
   "note": "West's mean may still overshoot the value (C116); Welford's does not (C87). Variances of equal values in West's accumulator are in C116."
  },
  {
   "property": "C189",
   "status": "proved",
   "theorems": [
    "Bwsl.C189_add",
    "Bwsl.C189_propose",
    "Bwsl.C189_histogram"
   ],
   "note": "Before the first proposal two of the ratios are NaN (C55)."
  },
  {
   "property": "C190",
   "status": "proved",
   "theorems": [
    "Bwsl.C190_psums",
    "Bwsl.C190_choice"
   ],
   "note": "C181 is the case of nonnegative weights without fusing, where a lower bound on the total takes the place of the conditions on the draw."
  },
  {
   "property": "C191",
   "status": "proved",
   "theorems": [
    "Bwsl.C191_order",
    "Bwsl.C191_undo"
   ],
   "note": "C149 shows that the results need not be equal."
  },
  {
   "property": "C192",
   "status": "proved",
   "theorems": [
    "Bwsl.C192_product",
    "Bwsl.C192_calm",
    "Bwsl.C192_sign",
    "Bwsl.C192_order",
    "Bwsl.C192_underflow"
   ],
   "note": ""
  },
  {
   "property": "C193",
   "status": "proved",
   "theorems": [
    "Bwsl.C193_sum",
    "Bwsl.C193_product",
    "Bwsl.C193_extremes",
    "Bwsl.C193_subtract",
    "Bwsl.C193_sgn"
   ],
   "note": "The two zeros count as the same value here: the sum of no elements is +0 in both cases."
  },
  {
   "property": "C194",
   "status": "proved",
   "theorems": [
    "Bwsl.C194_sum",
    "Bwsl.C194_into",
    "Bwsl.C194_extremes",
    "Bwsl.C194_product"
   ],
   "note": ""
  },
  {
   "property": "C195",
   "status": "proved",
   "theorems": [
    "Bwsl.C195_sum",
    "Bwsl.C195_product",
    "Bwsl.C195_zero",
    "Bwsl.C195_into"
   ],
   "note": "The two zeros count as the same value here."
  },
  {
   "property": "C196",
   "status": "partial",
   "theorems": [
    "Bwsl.C196_neumaier",
    "Bwsl.C196_kahan_partial",
    "Bwsl.C196_kahan_violated",
    "Bwsl.C196_kahan_ordered_partial"
   ],
   "note": "Violated by KahanAccumulator (C196_kahan_violated). C196_neumaier is the claim for NeumaierAccumulator; for KahanAccumulator C196_kahan_partial and C196_kahan_ordered_partial hold."
  },
  {
   "property": "C197",
   "status": "proved",
   "theorems": [
    "Bwsl.C197_grows"
   ],
   "note": "Histories may hold NaN and infinities, as long as both results are finite."
  },
  {
   "property": "C198",
   "status": "proved",
   "theorems": [
    "Bwsl.C198_range",
    "Bwsl.C198_frequency",
    "Bwsl.C198_equal"
   ],
   "note": "Weights that are not positive are ignored by Add and may appear after the first."
  },
  {
   "property": "C199",
   "status": "partial",
   "theorems": [
    "Bwsl.C199_exact_partial",
    "Bwsl.C199_close_partial",
    "Bwsl.C199_variance_partial",
    "Bwsl.C199_violated"
   ],
   "note": "Violated in double precision by one unit in the last place (C199_violated); C199_exact_partial holds in exact arithmetic, C199_close_partial bounds the difference of the means and C199_variance_partial that of the variances."
  }
 ]
}