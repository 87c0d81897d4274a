{
 "claims": [
  {
   "property": "C01",
   "status": "proved",
   "theorems": [
    "R1CS.C01_integer_agreement",
    "R1CS.C01_ring_laws"
   ],
   "note": "All four operators as ring operations on representatives."
  },
  {
   "property": "C02",
   "status": "proved",
   "theorems": [
    "R1CS.C02_inverse",
    "R1CS.C02_zero",
    "R1CS.C02_order_two"
   ],
   "note": ""
  },
  {
   "property": "C03",
   "status": "proved",
   "theorems": [
    "R1CS.C03_exponentiation"
   ],
   "note": ""
  },
  {
   "property": "C04",
   "status": "proved",
   "theorems": [
    "R1CS.C04_gcd"
   ],
   "note": ""
  },
  {
   "property": "C05",
   "status": "partial",
   "theorems": [
    "R1CS.C05_is_prime_partial",
    "R1CS.C05_is_prime_small_partial",
    "R1CS.C05_is_prime_refuted",
    "R1CS.C05_zero_one_refuted",
    "R1CS.C05_is_prime_exact_partial",
    "R1CS.C05_is_prime_one_mod_four_partial",
    "R1CS.C05_is_prime_shipped_partial",
    "R1CS.C05_below_two_partial"
   ],
   "note": "False as stated: is_prime squares its divisor in the field, so it wraps around (C05_is_prime_refuted), and 0 and 1 are reported prime (C05_zero_one_refuted; in the fields of order 2 and 3 see C05_below_two_partial). Exactly the primes above all squares of the field are taken to be composite (C05_is_prime_exact_partial); there are none if the order is 1 modulo 4, so in both shipped fields is_prime is right about all numbers but 0 and 1 (C05_is_prime_shipped_partial)."
  },
  {
   "property": "C06",
   "status": "proved",
   "theorems": [
    "R1CS.C06_bits"
   ],
   "note": ""
  },
  {
   "property": "C07",
   "status": "proved",
   "theorems": [
    "R1CS.C07_orders_prime"
   ],
   "note": "By certificates checked in the kernel."
  },
  {
   "property": "C08",
   "status": "proved",
   "theorems": [
    "R1CS.C08_from",
    "R1CS.C08_shl",
    "R1CS.C08_mul_div_nat"
   ],
   "note": ""
  },
  {
   "property": "C09",
   "status": "proved",
   "theorems": [
    "R1CS.C09_linear",
    "R1CS.C09_sum",
    "R1CS.C09_constructors",
    "R1CS.C09_literals"
   ],
   "note": ""
  },
  {
   "property": "C10",
   "status": "proved",
   "theorems": [
    "R1CS.C10_canonical",
    "R1CS.C10_equality"
   ],
   "note": ""
  },
  {
   "property": "C11",
   "status": "proved",
   "theorems": [
    "R1CS.C11_reads",
    "R1CS.C11_every_dependency_matters"
   ],
   "note": ""
  },
  {
   "property": "C12",
   "status": "partial",
   "theorems": [
    "R1CS.C12_as_constant_partial",
    "R1CS.C12_as_constant_sound",
    "R1CS.C12_as_constant_refuted"
   ],
   "note": "False as stated: as_constant of the zero expression is None (C12_as_constant_refuted); holds for every other canonical expression."
  },
  {
   "property": "C13",
   "status": "partial",
   "theorems": [
    "R1CS.C13_sum_of_wires_partial",
    "R1CS.C13_sum_of_wires_dedup",
    "R1CS.C13_sum_of_wires_refuted"
   ],
   "note": "False as stated: repeated wires are counted once (C13_sum_of_wires_refuted); C13_sum_of_wires_dedup says what is computed, the partial theorem covers lists without repetition."
  },
  {
   "property": "C14",
   "status": "proved",
   "theorems": [
    "R1CS.C14_write_once",
    "R1CS.C14_second_set_panics",
    "R1CS.C14_default",
    "R1CS.C14_panics_iff",
    "R1CS.C14_values",
    "R1CS.C14_boolean_values",
    "R1CS.C14_binary_values"
   ],
   "note": ""
  },
  {
   "property": "C15",
   "status": "proved",
   "theorems": [
    "R1CS.C15_evaluate",
    "R1CS.C15_from_value",
    "R1CS.C15_truncate",
    "R1CS.C15_pad",
    "R1CS.C15_concat",
    "R1CS.C15_add_most_significant",
    "R1CS.C15_chunks",
    "R1CS.C15_write_read"
   ],
   "note": ""
  },
  {
   "property": "C16",
   "status": "proved",
   "theorems": [
    "R1CS.C16_join"
   ],
   "note": ""
  },
  {
   "property": "C17",
   "status": "partial",
   "theorems": [
    "R1CS.C17_join_allowing_overflow_partial",
    "R1CS.C17_join_allowing_overflow_refuted"
   ],
   "note": "False as stated: join_allowing_overflow panics beyond max_bits even though the sum is well defined (C17_join_allowing_overflow_refuted); the partial theorem covers all lengths up to max_bits."
  },
  {
   "property": "C18",
   "status": "proved",
   "theorems": [
    "R1CS.C18_fresh_wires",
    "R1CS.C18_fresh_later",
    "R1CS.C18_counter_limit"
   ],
   "note": "The 32-bit counter limit is stated separately in C18_counter_limit."
  },
  {
   "property": "C19",
   "status": "proved",
   "theorems": [
    "R1CS.C19_execute_decides",
    "R1CS.C19_accept_satisfies"
   ],
   "note": ""
  },
  {
   "property": "C20",
   "status": "proved",
   "theorems": [
    "R1CS.C20_order_independent",
    "R1CS.C20_no_missing_inputs"
   ],
   "note": ""
  },
  {
   "property": "C21",
   "status": "proved",
   "theorems": [
    "R1CS.C21_terminates",
    "R1CS.C21_exactly_once",
    "R1CS.C21_panics"
   ],
   "note": ""
  },
  {
   "property": "C22",
   "status": "proved",
   "theorems": [
    "R1CS.C22_inputs_preserved",
    "R1CS.C22_library"
   ],
   "note": ""
  },
  {
   "property": "C23",
   "status": "proved",
   "theorems": [
    "R1CS.C23_appends",
    "R1CS.C23_stays_enforced",
    "R1CS.C23_still_computed",
    "R1CS.C23_composes"
   ],
   "note": ""
  },
  {
   "property": "C24",
   "status": "proved",
   "theorems": [
    "R1CS.C24_product_enforced",
    "R1CS.C24_product_computed",
    "R1CS.C24_product_folds",
    "R1CS.C24_product_never_panics"
   ],
   "note": ""
  },
  {
   "property": "C25",
   "status": "proved",
   "theorems": [
    "R1CS.C25_exponentiation_enforced",
    "R1CS.C25_exponentiation_computed"
   ],
   "note": ""
  },
  {
   "property": "C26",
   "status": "proved",
   "theorems": [
    "R1CS.C26_inverse_enforced",
    "R1CS.C26_quotient_enforced",
    "R1CS.C26_inverse_computed",
    "R1CS.C26_quotient_computed",
    "R1CS.C26_inverse_panics",
    "R1CS.C26_quotient_panics"
   ],
   "note": ""
  },
  {
   "property": "C27",
   "status": "proved",
   "theorems": [
    "R1CS.C27_inverse_or_zero_computed",
    "R1CS.C27_order_two"
   ],
   "note": "Order 2 is C27_order_two: Element::from(2) panics there."
  },
  {
   "property": "C28",
   "status": "partial",
   "theorems": [
    "R1CS.C28_inverse_or_zero_enforced_partial",
    "R1CS.C28_inverse_or_zero_refuted",
    "R1CS.C28_not_enforced_refuted"
   ],
   "note": "False as stated: at x = 0 the constraints admit every value for the result (C28_inverse_or_zero_refuted); the partial theorem covers x != 0."
  },
  {
   "property": "C29",
   "status": "proved",
   "theorems": [
    "R1CS.C29_quotient_unsafe_computed",
    "R1CS.C29_quotient_unsafe_panics",
    "R1CS.C29_order_two"
   ],
   "note": "Order 2 is C29_order_two."
  },
  {
   "property": "C30",
   "status": "partial",
   "theorems": [
    "R1CS.C30_quotient_unsafe_refuted",
    "R1CS.C30_not_enforced_refuted"
   ],
   "note": "False as stated: quotient_unsafe adds no constraint at all, so the result is free in every circuit (C30_quotient_unsafe_refuted)."
  },
  {
   "property": "C31",
   "status": "proved",
   "theorems": [
    "R1CS.C31_tests_enforced",
    "R1CS.C31_tests_computed",
    "R1CS.C31_order_two"
   ],
   "note": "Order 2 is C31_order_two."
  },
  {
   "property": "C32",
   "status": "proved",
   "theorems": [
    "R1CS.C32_assertions_satisfiable",
    "R1CS.C32_negative_assertions_satisfiable",
    "R1CS.C32_assertions_computed"
   ],
   "note": "Over order 2 assert_nonzero always panics in executions (C26_inverse_panics)."
  },
  {
   "property": "C33",
   "status": "proved",
   "theorems": [
    "R1CS.C33_selection_enforced",
    "R1CS.C33_selection_computed"
   ],
   "note": ""
  },
  {
   "property": "C34",
   "status": "proved",
   "theorems": [
    "R1CS.C34_connectives_enforced",
    "R1CS.C34_connectives_computed",
    "R1CS.C34_order_two"
   ],
   "note": "Order 2 is C34_order_two."
  },
  {
   "property": "C35",
   "status": "proved",
   "theorems": [
    "R1CS.C35_split_bounded",
    "R1CS.C35_split",
    "R1CS.C35_split_allowing_ambiguity"
   ],
   "note": ""
  },
  {
   "property": "C36",
   "status": "proved",
   "theorems": [
    "R1CS.C36_split_bounded_computed",
    "R1CS.C36_split_computed",
    "R1CS.C36_split_allowing_ambiguity_computed"
   ],
   "note": "split needs a field of at least 4 bits (otherwise the comparison with the order panics, see C41)."
  },
  {
   "property": "C37",
   "status": "proved",
   "theorems": [
    "R1CS.C37_assert_lt_enforced",
    "R1CS.C37_assert_gt_enforced",
    "R1CS.C37_assert_lt_binary_enforced",
    "R1CS.C37_assert_gt_binary_enforced"
   ],
   "note": ""
  },
  {
   "property": "C38",
   "status": "partial",
   "theorems": [
    "R1CS.C38_assert_le_unconstrained_refuted",
    "R1CS.C38_assert_le_binary_unconstrained_refuted",
    "R1CS.C38_assert_le_refuted",
    "R1CS.C38_assert_le_partial"
   ],
   "note": "False as stated: an all-zero mask satisfies the constraints of assert_le and assert_ge for every pair of operands (C38_assert_le_unconstrained_refuted, C38_assert_le_refuted). The partial theorem covers assignments produced by the generators."
  },
  {
   "property": "C39",
   "status": "partial",
   "theorems": [
    "R1CS.C39_comparisons_partial",
    "R1CS.C39_binary_comparisons_partial",
    "R1CS.C39_comparisons_refuted",
    "R1CS.C39_lt_refuted"
   ],
   "note": "False as stated: lt/gt can always be 0 and le/ge always be 1 (C39_comparisons_refuted, C39_lt_refuted). The partial theorems give the directions that are enforced."
  },
  {
   "property": "C40",
   "status": "proved",
   "theorems": [
    "R1CS.C40_comparisons_computed",
    "R1CS.C40_binary_comparisons_computed",
    "R1CS.C40_assertions_decide",
    "R1CS.C40_binary_assertions_decide"
   ],
   "note": "For the binary forms: equal non-zero lengths and a chunk size leaving a spare bit (C41); otherwise building panics."
  },
  {
   "property": "C41",
   "status": "proved",
   "theorems": [
    "R1CS.C41_chunk_bits_optimal",
    "R1CS.C41_chunk_bits_admissible",
    "R1CS.C41_chunk_bits_admissible_short",
    "R1CS.C41_panics_exactly",
    "R1CS.C41_split_panics_exactly",
    "R1CS.C41_binary_panics_exactly"
   ],
   "note": ""
  },
  {
   "property": "C42",
   "status": "proved",
   "theorems": [
    "R1CS.C42_modulus_computed",
    "R1CS.C42_divides_computed"
   ],
   "note": "Fields of at least 4 bits."
  },
  {
   "property": "C43",
   "status": "partial",
   "theorems": [
    "R1CS.C43_modulus_partial",
    "R1CS.C43_divides_partial",
    "R1CS.C43_modulus_any_refuted",
    "R1CS.C43_divides_any_refuted",
    "R1CS.C43_modulus_refuted"
   ],
   "note": "False as stated: the quotient is not range checked, so every number below the divisor is accepted as the remainder (C43_modulus_any_refuted, C43_divides_any_refuted, C43_modulus_refuted)."
  },
  {
   "property": "C44",
   "status": "partial",
   "theorems": [
    "R1CS.C44_summation_enforced",
    "R1CS.C44_sum_enforced",
    "R1CS.C44_ignoring_overflow_enforced",
    "R1CS.C44_sum_ignoring_overflow_enforced",
    "R1CS.C44_asserting_no_overflow_enforced",
    "R1CS.C44_sum_asserting_no_overflow_enforced",
    "R1CS.C44_summation_computed",
    "R1CS.C44_too_long",
    "R1CS.C44_width_refuted",
    "R1CS.C44_width_partial",
    "R1CS.C44_width_exact_partial",
    "R1CS.C44_sum_width_exact_partial"
   ],
   "note": "Values, modular and overflow-asserting variants are proved. The documented width is false for a single operand and for an empty operand of binary_sum (C44_width_refuted); C44_width_partial covers at least two non-empty operands, and C44_width_exact_partial and C44_sum_width_exact_partial say exactly when the result is longer than the longest operand, and by how much at most."
  },
  {
   "property": "C45",
   "status": "proved",
   "theorems": [
    "R1CS.C45_assert_zero_enforced",
    "R1CS.C45_assert_zero_computed"
   ],
   "note": ""
  },
  {
   "property": "C46",
   "status": "proved",
   "theorems": [
    "R1CS.C46_bitwise_enforced",
    "R1CS.C46_bitwise_computed",
    "R1CS.C46_lengths_differ"
   ],
   "note": ""
  },
  {
   "property": "C47",
   "status": "partial",
   "theorems": [
    "R1CS.C47_rotations",
    "R1CS.C47_shifts",
    "R1CS.C47_shift_dec_refuted",
    "R1CS.C47_rotate_inverse",
    "R1CS.C47_shift_dec_exact_partial"
   ],
   "note": "bitwise_shift_dec_significance panics exactly when the amount exceeds a non-zero length (C47_shift_dec_refuted, C47_shift_dec_exact_partial); everything else is proved for all lengths and amounts."
  },
  {
   "property": "C48",
   "status": "proved",
   "theorems": [
    "R1CS.C48_random_access_enforced",
    "R1CS.C48_random_access_computed",
    "R1CS.C48_prohibited_enforced",
    "R1CS.C48_prohibited_computed"
   ],
   "note": "For lists of up to 2^(max_bits-1) items; longer ones panic in split_bounded."
  },
  {
   "property": "C49",
   "status": "partial",
   "theorems": [
    "R1CS.C49_out_of_range_partial",
    "R1CS.C49_out_of_range_refuted",
    "R1CS.C49_position_partial",
    "R1CS.C49_position_computed_partial"
   ],
   "note": "False as stated (C49_out_of_range_refuted): the result is always one of the items; indices beyond the next power of two are rejected (C49_out_of_range_partial). Which item it is is said exactly (C49_position_partial, and C49_position_computed_partial for honest execution): the one at the largest position whose binary digits are all digits of the index."
  },
  {
   "property": "C50",
   "status": "proved",
   "theorems": [
    "R1CS.C50_assert_permutation"
   ],
   "note": ""
  },
  {
   "property": "C51",
   "status": "proved",
   "theorems": [
    "R1CS.C51_assert_permutation_accepts"
   ],
   "note": ""
  },
  {
   "property": "C52",
   "status": "proved",
   "theorems": [
    "R1CS.C52_bimap_from_lists",
    "R1CS.C52_bimap_from_lists_panics"
   ],
   "note": "BTreeMap<T, Vec<usize>> is modelled as a function; C104_indices shows that the map gives the same. The bimap crate is modelled as a list of pairs."
  },
  {
   "property": "C53",
   "status": "proved",
   "theorems": [
    "R1CS.C53_sort_ascending_computed",
    "R1CS.C53_sort_descending_computed",
    "R1CS.C53_sort_empty_panics"
   ],
   "note": "Fields of at least 4 bits; an empty list panics (C53_sort_empty_panics)."
  },
  {
   "property": "C54",
   "status": "partial",
   "theorems": [
    "R1CS.C54_sort_any_order_refuted",
    "R1CS.C54_sort_ascending_refuted",
    "R1CS.C54_sort_partial"
   ],
   "note": "False as stated: every rearrangement of the inputs is accepted (C54_sort_any_order_refuted, C54_sort_ascending_refuted). The partial theorem gives the multiset."
  },
  {
   "property": "C55",
   "status": "partial",
   "theorems": [
    "R1CS.C55_new",
    "R1CS.C55_new_order_two_refuted",
    "R1CS.C55_permute",
    "R1CS.C55_inverse_enforced",
    "R1CS.C55_inverse_computed_partial",
    "R1CS.C55_inverse_exponent_one_refuted"
   ],
   "note": "False for the exponent 1, whose inverse panics (C55_inverse_exponent_one_refuted), and over the field of order 2, where the exponent 0 is accepted (C55_new_order_two_refuted). Everything else is proved, including termination of the search for the inverse exponent."
  },
  {
   "property": "C56",
   "status": "proved",
   "theorems": [
    "R1CS.C56_inverse_permutation_computed",
    "R1CS.C56_inverse_permutation_enforced",
    "R1CS.C56_zero_refuted"
   ],
   "note": "Enforced for non-zero inputs, as stated; for zero see C56_zero_refuted."
  },
  {
   "property": "C57",
   "status": "proved",
   "theorems": [
    "R1CS.C57_new",
    "R1CS.C57_encrypt",
    "R1CS.C57_decrypt_enforced",
    "R1CS.C57_decrypt_computed",
    "R1CS.C57_inverse_enforced",
    "R1CS.C57_inverse_computed",
    "R1CS.C57_permutation"
   ],
   "note": "Round constants are arbitrary; for the computation of the recommended number of rounds see C81 and C89."
  },
  {
   "property": "C58",
   "status": "proved",
   "theorems": [
    "R1CS.C58_davies_meyer",
    "R1CS.C58_miyaguchi_preneel"
   ],
   "note": ""
  },
  {
   "property": "C59",
   "status": "proved",
   "theorems": [
    "R1CS.C59_hash_enforced",
    "R1CS.C59_hash_computed",
    "R1CS.C59_collision",
    "R1CS.C59_binding"
   ],
   "note": "Messages shorter than the order; longer ones panic when the length is converted (C59_hash_computed)."
  },
  {
   "property": "C60",
   "status": "proved",
   "theorems": [
    "R1CS.C60_path_new",
    "R1CS.C60_root_enforced",
    "R1CS.C60_root_computed",
    "R1CS.C60_membership_enforced",
    "R1CS.C60_membership_computed",
    "R1CS.C60_honest_paths",
    "R1CS.C60_position_binding",
    "R1CS.C60_tree_binding"
   ],
   "note": ""
  },
  {
   "property": "C61",
   "status": "proved",
   "theorems": [
    "R1CS.C61_sponge_enforced",
    "R1CS.C61_sponge_computed",
    "R1CS.C61_no_padding"
   ],
   "note": "The permutation gadget is assumed to preserve the width (otherwise an assertion panics). There is no padding (C61_no_padding)."
  },
  {
   "property": "C62",
   "status": "partial",
   "theorems": [
    "R1CS.C62_product_computes_partial",
    "R1CS.C62_product_partial",
    "R1CS.C62_product_refuted"
   ],
   "note": "False as stated: row i gives the i-th entry times the sum of row i (C62_product_refuted); C62_product_partial shows it is the product exactly for diagonal matrices."
  },
  {
   "property": "C63",
   "status": "partial",
   "theorems": [
    "R1CS.C63_poseidon_enforced_partial",
    "R1CS.C63_poseidon_computed_partial",
    "R1CS.C63_poseidon_inverse_refuted",
    "R1CS.C63_rescue_enforced_partial",
    "R1CS.C63_rescue_computed_partial",
    "R1CS.C63_diffusion_refuted",
    "R1CS.C63_diffusion_circuit_refuted",
    "R1CS.C63_zero_fixed"
   ],
   "note": "Enforced and computed as the round function with the product of C62, for the power S-boxes; with the inverse S-box the output is forgeable (C63_poseidon_inverse_refuted). There is no diffusion (C63_diffusion_refuted) and zero is a fixed point (C63_zero_fixed)."
  },
  {
   "property": "C64",
   "status": "proved",
   "theorems": [
    "R1CS.C64_point_new",
    "R1CS.C64_expression_enforced",
    "R1CS.C64_expression_computed"
   ],
   "note": ""
  },
  {
   "property": "C65",
   "status": "proved",
   "theorems": [
    "R1CS.C65_add_computed",
    "R1CS.C65_double_computed",
    "R1CS.C65_denominators",
    "R1CS.C65_complete_curve",
    "R1CS.C65_doubling"
   ],
   "note": ""
  },
  {
   "property": "C66",
   "status": "partial",
   "theorems": [
    "R1CS.C66_add_refuted",
    "R1CS.C66_scalar_refuted",
    "R1CS.C66_jubjub_refuted",
    "R1CS.C66_mul_boolean_partial"
   ],
   "note": "False as stated: quotient_unsafe adds no constraint, so the result of an addition, a doubling or a scalar multiplication can be anything (C66_add_refuted, C66_scalar_refuted, C66_jubjub_refuted). Only the selection in mul_boolean_expression is enforced."
  },
  {
   "property": "C67",
   "status": "proved",
   "theorems": [
    "R1CS.C67_scalar_multiplication",
    "R1CS.C67_complete_curve"
   ],
   "note": "In honest executions; what is enforced is C66."
  },
  {
   "property": "C68",
   "status": "partial",
   "theorems": [
    "R1CS.C68_constants",
    "R1CS.C68_generator_order_refuted",
    "R1CS.C68_generator_order_partial"
   ],
   "note": "Primality, completeness and the generator being on the curve are proved. False for the order: the shipped generator has order 8r, so JubJubPrimeSubgroup is not of prime order (C68_generator_order_refuted); 8 times the generator has the prime order r."
  },
  {
   "property": "C69",
   "status": "partial",
   "theorems": [
    "R1CS.C69_hash_enforced",
    "R1CS.C69_verify_computed",
    "R1CS.C69_honest_signatures",
    "R1CS.C69_field_signature_refuted",
    "R1CS.C69_forgery_refuted"
   ],
   "note": "Honest executions decide the verification equation, and signatures computed modulo the order of the generator verify. False for signatures computed in the base field, as in the crate's own test, which is rejected (C69_field_signature_refuted), and the constraints accept forgeries (C69_forgery_refuted)."
  },
  {
   "property": "C70",
   "status": "partial",
   "theorems": [
    "R1CS.C70_full_period",
    "R1CS.C70_draw_range",
    "R1CS.C70_biguint_range",
    "R1CS.C70_biguint_terminates_partial",
    "R1CS.C70_element_terminates",
    "R1CS.C70_biguint_refuted",
    "R1CS.C70_biguint_limits_partial",
    "R1CS.C70_biguint_exact_partial",
    "R1CS.C70_biguint_never_refuted",
    "R1CS.C70_new_returns"
   ],
   "note": "Period, ranges and termination over the shipped fields are proved. False for some limits: next_biguint(2^96+1) never returns after an odd number of draws (C70_biguint_refuted); C70_biguint_terminates_partial gives a sufficient condition on the limit. C70_biguint_limits_partial decides it for every limit and state by the topmost words, and C70_biguint_exact_partial where these are equal: it returns exactly if the smallest draw, which is identified, is in range; C70_biguint_never_refuted names the limits for which there is a state from which it never returns. From a new generator it returns for every limit, and any number of elements of any field can be drawn (C70_new_returns)."
  },
  {
   "property": "C71",
   "status": "proved",
   "theorems": [
    "R1CS.C71_block_cipher",
    "R1CS.C71_compression_function",
    "R1CS.C71_permutation",
    "R1CS.C71_multi_permutation",
    "R1CS.C71_hash_function",
    "R1CS.C71_library"
   ],
   "note": ""
  },
  {
   "property": "C72",
   "status": "proved",
   "theorems": [
    "R1CS.C72_network_size",
    "R1CS.C72_lengths"
   ],
   "note": ""
  },
  {
   "property": "C73",
   "status": "proved",
   "theorems": [
    "R1CS.C73_wire_order",
    "R1CS.C73_operators"
   ],
   "note": ""
  },
  {
   "property": "C74",
   "status": "partial",
   "theorems": [
    "R1CS.C74_smallest_alpha_partial",
    "R1CS.C74_smallest_alpha_refuted",
    "R1CS.C74_rounds",
    "R1CS.C74_build",
    "R1CS.C74_calls"
   ],
   "note": "False for the field of order 7, where the search returns the exponent 1 and permute panics (C74_smallest_alpha_refuted); every other order above 3 is proved."
  },
  {
   "property": "C75",
   "status": "proved",
   "theorems": [
    "R1CS.C75_build",
    "R1CS.C75_default_sbox",
    "R1CS.C75_calls"
   ],
   "note": ""
  },
  {
   "property": "C76",
   "status": "proved",
   "theorems": [
    "R1CS.C76_cmp_binary_size",
    "R1CS.C76_cmp_binary_bound",
    "R1CS.C76_split_size",
    "R1CS.C76_cmp_size",
    "R1CS.C76_shipped_sizes"
   ],
   "note": "Exact for operands whose bits are wires not mentioned by the other operand, and an upper bound for all operands."
  },
  {
   "property": "C77",
   "status": "partial",
   "theorems": [
    "R1CS.C77_fixed_sizes",
    "R1CS.C77_size",
    "R1CS.C77_product_size",
    "R1CS.C77_bounds",
    "R1CS.C77_exponentiation_size",
    "R1CS.C77_exponentiation_bound",
    "R1CS.C77_summation_size",
    "R1CS.C77_assert_zero_size",
    "R1CS.C77_bitwise_bound",
    "R1CS.C77_bitwise_size",
    "R1CS.C77_quotient_unsafe_refuted",
    "R1CS.C77_edwards_add_refuted",
    "R1CS.C77_edwards_bound",
    "R1CS.C77_edwards_mul_bound"
   ],
   "note": "False for quotient_unsafe, which adds no constraint (C77_quotient_unsafe_refuted), and for the addition of points, which adds 5 (C77_edwards_add_refuted); a product with the constant zero costs a constraint. The other sizes are proved."
  },
  {
   "property": "C78",
   "status": "proved",
   "theorems": [
    "R1CS.C78_permutation_size",
    "R1CS.C78_permutation_bound",
    "R1CS.C78_switches",
    "R1CS.C78_sort_size",
    "R1CS.C78_random_access_size",
    "R1CS.C78_random_access_bound"
   ],
   "note": ""
  },
  {
   "property": "C79",
   "status": "partial",
   "theorems": [
    "R1CS.C79_cube",
    "R1CS.C79_inverse",
    "R1CS.C79_hash_refuted",
    "R1CS.C79_hash_partial",
    "R1CS.C79_hash_exact_partial"
   ],
   "note": "The cube and the inverse are proved. The hash panics over both shipped fields, where cubing is not a permutation (C79_hash_refuted); C79_hash_partial covers the fields where it is one, and C79_hash_exact_partial says that these are all. The README calls builder.exp, which does not exist; the model uses exponentiation."
  },
  {
   "property": "C80",
   "status": "proved",
   "theorems": [
    "R1CS.C80_secure_rounds",
    "R1CS.C80_defaults",
    "R1CS.C80_full_rounds"
   ],
   "note": "Over the real numbers; for the rounding of f64 see C89. The search over full rounds never gets past its first candidate for widths of at least 2 (C80_full_rounds). Width 0 panics."
  },
  {
   "property": "C81",
   "status": "partial",
   "theorems": [
    "R1CS.C81_recommended_rounds",
    "R1CS.C81_default_partial",
    "R1CS.C81_default_exact_partial",
    "R1CS.C81_default_refuted"
   ],
   "note": "Over the real numbers; for the rounding of f64 see C89. The default instance has one round more than recommended and panics over both shipped fields (C81_default_refuted); C81_default_partial covers the fields where cubing is a permutation, and C81_default_exact_partial says that these are all."
  },
  {
   "property": "C82",
   "status": "partial",
   "theorems": [
    "R1CS.C82_round_trip",
    "R1CS.C82_from_str_refuted",
    "R1CS.C82_from_str_error",
    "R1CS.C82_from_str_exact",
    "R1CS.C82_concat",
    "R1CS.C82_join_partial",
    "R1CS.C82_join_refuted",
    "R1CS.C82_wire_injective",
    "R1CS.C82_expression_injective",
    "R1CS.C82_boolean_injective",
    "R1CS.C82_constraint_injective"
   ],
   "note": "Round trip, injectivity of expressions and constraints, and concat are proved, and exactly which strings from_str accepts, rejects and panics on (C82_from_str_exact). False for numerals of numbers not below the order, which panic (C82_from_str_refuted), and for join when the first string is empty (C82_join_refuted; otherwise C82_join_partial). from_str and decimal display of BigUint are modelled after the num crate, version 0.2."
  },
  {
   "property": "C83",
   "status": "proved",
   "theorems": [
    "R1CS.C83_mimc_encrypt_size",
    "R1CS.C83_mimc_decrypt_size",
    "R1CS.C83_mimc_encrypt_bound",
    "R1CS.C83_mimc_decrypt_bound",
    "R1CS.C83_compress_size",
    "R1CS.C83_compress_bound",
    "R1CS.C83_hash_size",
    "R1CS.C83_hash_bound",
    "R1CS.C83_merkle_bound",
    "R1CS.C83_merkle_size",
    "R1CS.C83_poseidon_size",
    "R1CS.C83_poseidon_bound",
    "R1CS.C83_rescue_size",
    "R1CS.C83_rescue_bound",
    "R1CS.C83_sponge_bound",
    "R1CS.C83_sponge_size"
   ],
   "note": "Exact numbers for expressions that are not folded as constants (Merkle-Damgard hashes and Merkle paths: with MiMC under Davies-Meyer; sponges: for permutations always adding the same number); for arbitrary expressions and compression functions they are upper bounds."
  },
  {
   "property": "C84",
   "status": "proved",
   "theorems": [
    "R1CS.C84_primitives",
    "R1CS.C84_arithmetic",
    "R1CS.C84_comparisons",
    "R1CS.C84_binary_and_lists",
    "R1CS.C84_permutations",
    "R1CS.C84_traits",
    "R1CS.C84_curves_and_examples",
    "R1CS.C84_composition"
   ],
   "note": "Tidy for every gadget, by a judgement tracking which wires a call owns; trait parameters are hypotheses."
  },
  {
   "property": "C85",
   "status": "proved",
   "theorems": [
    "R1CS.C85_in_context",
    "R1CS.C85_arithmetic",
    "R1CS.C85_division",
    "R1CS.C85_tests",
    "R1CS.C85_booleans",
    "R1CS.C85_splitting",
    "R1CS.C85_comparisons",
    "R1CS.C85_modulus",
    "R1CS.C85_sorting",
    "R1CS.C85_functions"
   ],
   "note": "From completeness (honest executions) and C84: the values of the wires of a call are determined by the values below it. General theorem C85_in_context, with instances."
  },
  {
   "property": "C86",
   "status": "proved",
   "theorems": [
    "R1CS.C86_arithmetic",
    "R1CS.C86_tests",
    "R1CS.C86_booleans",
    "R1CS.C86_assertions",
    "R1CS.C86_splitting",
    "R1CS.C86_comparisons",
    "R1CS.C86_asserted_comparisons",
    "R1CS.C86_modulus",
    "R1CS.C86_lists",
    "R1CS.C86_random_access",
    "R1CS.C86_summation",
    "R1CS.C86_binary_comparisons",
    "R1CS.C86_bitwise",
    "R1CS.C86_curves",
    "R1CS.C86_signatures",
    "R1CS.C86_functions"
   ],
   "note": "Both directions for every gadget, from the soundness lemmas and from assignments constructed with the forging logic; it shows exactly how far the refuted properties fail."
  },
  {
   "property": "C87",
   "status": "proved",
   "theorems": [
    "R1CS.C87_complete",
    "R1CS.C87_accepts",
    "R1CS.C87_decides",
    "R1CS.C87_sound",
    "R1CS.C87_exact"
   ],
   "note": "Code is a deep embedding (Spec/Language.lean): lists of gadget calls with operands by position; loops and branches of the surrounding Rust code, which only choose the calls, are unrolled. Soundness excludes the 23 gadgets whose constraints admit other results (C86); acceptance covers all."
  },
  {
   "property": "C88",
   "status": "proved",
   "theorems": [
    "R1CS.C88_meaning",
    "R1CS.C88_returns",
    "R1CS.C88_panics",
    "R1CS.C88_outcome"
   ],
   "note": "The outcome (Spec/Outcome.lean) refines the meaning of C87 (C88_meaning). assert_boolean is excluded from C88_panics and C88_outcome only: it returns false and goes on with a boolean expression which is not a truth value."
  },
  {
   "property": "C89",
   "status": "proved",
   "theorems": [
    "R1CS.C89_rounding",
    "R1CS.C89_poseidon_rounds",
    "R1CS.C89_poseidon_close",
    "R1CS.C89_mimc_rounds",
    "R1CS.C89_mimc_rounds_close",
    "R1CS.C89_binary64",
    "R1CS.C89_exponents",
    "R1CS.C89_poseidon_binary64",
    "R1CS.C89_mimc_binary64"
   ],
   "note": "Every operation rounds to nearest, ties to even, with 53 bits, first with unbounded exponents and then with those of IEEE 754, which C89_exponents shows to make no difference (C89_binary64: the rounding is to the nearest number of the format); ln and log2 are arbitrary functions with a relative error of at most 2^-50 for arguments of at least 2 (structure Libm; instance: correctly rounded logarithms)."
  },
  {
   "property": "C90",
   "status": "proved",
   "theorems": [
    "R1CS.C90_arithmetic",
    "R1CS.C90_assertions",
    "R1CS.C90_tests",
    "R1CS.C90_splitting",
    "R1CS.C90_comparisons",
    "R1CS.C90_asserted_comparisons",
    "R1CS.C90_binary_comparisons",
    "R1CS.C90_modulus",
    "R1CS.C90_switch",
    "R1CS.C90_networks",
    "R1CS.C90_networks_doubtful",
    "R1CS.C90_networks_three",
    "R1CS.C90_networks_identity",
    "R1CS.C90_sorting",
    "R1CS.C90_points",
    "R1CS.C90_signatures",
    "R1CS.C90_digits",
    "R1CS.C90_permutations",
    "R1CS.C90_hashes",
    "R1CS.C90_circuits",
    "R1CS.C90_free_wires",
    "R1CS.C90_unique"
   ],
   "note": "For networks of any size the condition speaks of settings of the switches, TwoRoutes; for two and three elements it is worked out, and a sufficient condition on the values alone (Doubtful) is given for all sizes. Conditions are equivalences: where they fail two different witnesses are shown to exist."
  },
  {
   "property": "C91",
   "status": "proved",
   "theorems": [
    "R1CS.C91_doubling",
    "R1CS.C91_group",
    "R1CS.C91_signature",
    "R1CS.C91_membership"
   ],
   "note": "The instructions themselves are covered by C87 (edwardsNew, edwardsAdd, edwardsDouble, edwardsMulBoolean, edwardsMulScalar, schnorrVerify, merkleRoot, assertMembership in Spec/Language.lean), the outcomes by C88. Nothing is claimed about other satisfying assignments of the circuit for signatures: they exist, see C66, C69 and C86."
  },
  {
   "property": "C92",
   "status": "proved",
   "theorems": [
    "R1CS.C92_passes",
    "R1CS.C92_one_pass",
    "R1CS.C92_nothing_pending",
    "R1CS.C92_enough",
    "R1CS.C92_functions",
    "R1CS.C92_needs",
    "R1CS.C92_exact"
   ],
   "note": "By timetables: every generator gets a pass in which its inputs have values at the latest (Spec/Passes.lean). The bound of a function given as a parameter is a hypothesis (Punctual); C92_functions proves it for those of the crate. That the bound is attained is C92_needs for single calls in any surroundings and C92_exact for code; there the operands of networks and sorts are other than two, and for a function given as a parameter the lower bound is a hypothesis (Lasts), proved for decryption and Rescue by C92_needs."
  },
  {
   "property": "C93",
   "status": "proved",
   "theorems": [
    "R1CS.C93_builds",
    "R1CS.C93_forms",
    "R1CS.C93_size",
    "R1CS.C93_values",
    "R1CS.C93_append",
    "R1CS.C93_functions"
   ],
   "note": "The calculation is Circuit.plan (Spec/Plan.lean). The count is an upper bound: operands which are constants are folded (C76, C77); C76-C78 and C83 give exact counts for single gadgets, and an example attains the bound. Functions and hashes used as parameters are assumed never to panic (Known); C93_functions proves it for MiMC in both directions, both compression functions, Merkle-Damgard hashes, Poseidon, Rescue and sponges."
  },
  {
   "property": "C94",
   "status": "proved",
   "theorems": [
    "R1CS.C94_every",
    "R1CS.C94_exact",
    "R1CS.C94_honest",
    "R1CS.C94_sound_iff",
    "R1CS.C94_unpinned",
    "R1CS.C94_blocks",
    "R1CS.C94_strict_asserted",
    "R1CS.C94_vacuous",
    "R1CS.C94_le_asserted",
    "R1CS.C94_inverse_asserted",
    "R1CS.C94_sort_asserted",
    "R1CS.C94_split_asserted"
   ],
   "note": "The relation is Circuit.admits (Spec/Admission.lean). Functions and hashes given as parameters are those of C87: enforced, computed and tidy. C94_unpinned leaves out signatures, where it depends on the hash whether the admitted results include wrong ones (C69)."
  },
  {
   "property": "C95",
   "status": "proved",
   "theorems": [
    "R1CS.C95_columnwise",
    "R1CS.C95_rescue_linear",
    "R1CS.C95_rescue_enforced",
    "R1CS.C95_rescue_additive",
    "R1CS.C95_poseidon_monomial",
    "R1CS.C95_poseidon_enforced",
    "R1CS.C95_poseidon_inverse",
    "R1CS.C95_sponge_state",
    "R1CS.C95_sponge_capacity",
    "R1CS.C95_second_preimage",
    "R1CS.C95_preimage",
    "R1CS.C95_preimage_shipped",
    "R1CS.C95_rescue_sponge",
    "R1CS.C95_rescue_sponge_enforced",
    "R1CS.C95_poseidon_collision"
   ],
   "note": "The closed forms are about the functions which C63 shows the circuits to implement; C95_rescue_enforced, C95_poseidon_enforced, C95_rescue_sponge_enforced and C95_poseidon_collision put them on circuits. With the inverse as S-box only honest execution follows the function (C63_poseidon_inverse_refuted). That the constructions as published have none of these properties is not part of the claim."
  },
  {
   "property": "C96",
   "status": "proved",
   "theorems": [
    "R1CS.C96_extension",
    "R1CS.C96_extension_circuit",
    "R1CS.C96_inner_leaves",
    "R1CS.C96_inner_accepted",
    "R1CS.C96_only_inner",
    "R1CS.C96_inner_binding",
    "R1CS.C96_fixed_point",
    "R1CS.C96_insertion",
    "R1CS.C96_repeated_block"
   ],
   "note": "Complements C59 and C60. That circuits should fix the depth of trees, or tell leaves from nodes, follows from C96_inner_accepted; the crate does neither by itself."
  },
  {
   "property": "C97",
   "status": "proved",
   "theorems": [
    "R1CS.C97_second_coordinate",
    "R1CS.C97_scalars",
    "R1CS.C97_scalars_private",
    "R1CS.C97_twin",
    "R1CS.C97_weak_key",
    "R1CS.C97_small_order",
    "R1CS.C97_other_key"
   ],
   "note": "Answers the question left open in src/curves/edwards.rs about compressing to the y-coordinate. About honest executions; for what the constraints enforce and what can be forged see C66, C69 and C86. C97_scalars gives both directions, the converse for hashes injective in the point."
  },
  {
   "property": "C98",
   "status": "proved",
   "theorems": [
    "R1CS.C98_low_bits",
    "R1CS.C98_determined",
    "R1CS.C98_following",
    "R1CS.C98_constant_bits",
    "R1CS.C98_seven",
    "R1CS.C98_distinct",
    "R1CS.C98_distinct_shipped",
    "R1CS.C98_initial_value"
   ],
   "note": "C98_distinct counts the attempts in range within a period; its bound, the number of leading chunks below that of the order, is not claimed to be the best."
  },
  {
   "property": "C99",
   "status": "proved",
   "theorems": [
    "R1CS.C99_static",
    "R1CS.C99_preset",
    "R1CS.C99_twice",
    "R1CS.C99_check",
    "R1CS.C99_gadgets",
    "R1CS.C99_constructions",
    "R1CS.C99_composition",
    "R1CS.C99_language",
    "R1CS.C99_language_twice",
    "R1CS.C99_preset_refuted"
   ],
   "note": "C99_preset_refuted shows why networks are left out of the first part: the claim itself says so."
  },
  {
   "property": "C100",
   "status": "proved",
   "theorems": [
    "R1CS.C100_arithmetic",
    "R1CS.C100_logic",
    "R1CS.C100_comparisons",
    "R1CS.C100_binary",
    "R1CS.C100_permutations",
    "R1CS.C100_hashing",
    "R1CS.C100_curves",
    "R1CS.C100_circuits",
    "R1CS.C100_execute",
    "R1CS.C100_satisfied",
    "R1CS.C100_placement",
    "R1CS.C100_continuation",
    "R1CS.C100_scoped",
    "R1CS.C100_scoped_circuits"
   ],
   "note": "Renumberings are strictly increasing because expressions keep their terms in the order of wires; decreasing ones would give expressions of the same value listed in another order. Hash functions, groups and foreign functions given as parameters are assumed to have the property; all those of the crate do (C100_hashing, C100_curves)."
  },
  {
   "property": "C101",
   "status": "proved",
   "theorems": [
    "R1CS.C101_panics",
    "R1CS.C101_panics_inputs",
    "R1CS.C101_joined",
    "R1CS.C101_order",
    "R1CS.C101_alone",
    "R1CS.C101_calls",
    "R1CS.C101_circuits",
    "R1CS.C101_inputs"
   ],
   "note": "The parts may share inputs, which neither writes. For gadgets in general, if one part rejects and the other panics while its constraints are checked, both together may reject rather than panic (checks stop at the first violated constraint), so C101_calls and C101_circuits speak of panics of the generators only; C101_panics, for circuits of the language, whose constraints never panic (C111), is exact. That all calls of the crate are tidy is C84 and C87. In C101_circuits the second circuit is compared with the one built straight after the inputs."
  },
  {
   "property": "C102",
   "status": "proved",
   "theorems": [
    "R1CS.C102_outcome",
    "R1CS.C102_execute",
    "R1CS.C102_index_bits",
    "R1CS.C102_is_prime",
    "R1CS.C102_smallest_alpha",
    "R1CS.C102_next_biguint",
    "R1CS.C102_root_search",
    "R1CS.C102_root_exponent",
    "R1CS.C102_root_search_ends",
    "R1CS.C102_squeeze",
    "R1CS.C102_chunks",
    "R1CS.C102_route",
    "R1CS.C102_scan",
    "R1CS.C102_network",
    "R1CS.C102_poseidon",
    "R1CS.C102_poseidon_floats"
   ],
   "note": "Ends and Forever (Spec/Loops.lean) say what it is to run the body of a loop again and again; the bodies are transcribed from the code apart from the model's bounded versions, an inner loop being shown to end on its own before it is used in an outer one (except in smallest_alpha, where both are one loop with two kinds of states). Loops of the form `for` and gcd, which is by well-founded recursion, have no bound in the model. C102_outcome says that ending and going on forever exclude each other, and that nothing else can happen."
  },
  {
   "property": "C103",
   "status": "proved",
   "theorems": [
    "R1CS.C103_bitwise",
    "R1CS.C103_rotate_dec",
    "R1CS.C103_rotate_dec_unchecked",
    "R1CS.C103_random_access",
    "R1CS.C103_comparisons",
    "R1CS.C103_networks",
    "R1CS.C103_sponge",
    "R1CS.C103_rescue",
    "R1CS.C103_poseidon",
    "R1CS.C103_poseidon_search",
    "R1CS.C103_wires",
    "R1CS.C103_wires_unchecked"
   ],
   "note": "Model/Words.lean has the functions once more with checked or wrapping arithmetic on words of any size. The hypotheses on lengths (at most 16 times the length below 2^bits is needed) are weaker than what Rust guarantees of vectors of expressions. Memory is not modelled: a sponge of a gigantic capacity could not be evaluated. The search for Poseidon's rounds is in real numbers and for positive widths. Big integers (BigUint) do not overflow; numbers of bits of the order are small."
  },
  {
   "property": "C104",
   "status": "proved",
   "theorems": [
    "R1CS.C104_range",
    "R1CS.C104_operators",
    "R1CS.C104_elements",
    "R1CS.C104_expression_operators",
    "R1CS.C104_expressions",
    "R1CS.C104_values",
    "R1CS.C104_values_unique",
    "R1CS.C104_execute",
    "R1CS.C104_product",
    "R1CS.C104_matrices",
    "R1CS.C104_indices",
    "R1CS.C104_literals"
   ],
   "note": "Model/Raw.lean is the second transcription. Expressions are compared with the operations of the model, which C09 to C13 say are those of linear combinations; that expressions are canonical when the code builds them is C10_canonical. C104_execute is about any gadget whose generators agree with those of the model; C104_product shows it for one generator, C105 for all. What BigUint does is assumed."
  },
  {
   "property": "C105",
   "status": "proved",
   "theorems": [
    "R1CS.C105_closures",
    "R1CS.C105_arithmetic",
    "R1CS.C105_logic",
    "R1CS.C105_digits",
    "R1CS.C105_hashing",
    "R1CS.C105_curves",
    "R1CS.C105_circuits",
    "R1CS.C105_execute",
    "R1CS.C105_complete",
    "R1CS.C105_decides"
   ],
   "note": "Model/RawGens.lean holds the transcriptions; `slice::sort` is a merge sort by `cmp`. The functions, compression functions and group operations handed to an instruction must add closures of the crate only (Given), as those of the crate do (C105_hashing, C105_curves)."
  },
  {
   "property": "C106",
   "status": "proved",
   "theorems": [
    "R1CS.C106_matrices",
    "R1CS.C106_zero",
    "R1CS.C106_solvable",
    "R1CS.C106_execute",
    "R1CS.C106_entries",
    "R1CS.C106_circuits",
    "R1CS.C106_every"
   ],
   "note": "Scoping of circuits (hence C106_circuits) needs that foreign functions, trees and signature schemes handed to instructions do the same on renumbered wires (Alike.Given), as those of the crate do (C100). C106_every is code a client could write; it needs no generators."
  },
  {
   "property": "C107",
   "status": "proved",
   "theorems": [
    "R1CS.C107_readable",
    "R1CS.C107_typed",
    "R1CS.C107_evaluate",
    "R1CS.C107_accepted",
    "R1CS.C107_cast"
   ],
   "note": "C107_typed is about all satisfying assignments, C107_evaluate about executions on the inputs alone, C107_cast is the exception. C107_readable covers code with rejected casts and other starting values; functions given as parameters must have a timetable (Punctual), as those of the crate do (C92_functions)."
  },
  {
   "property": "C108",
   "status": "proved",
   "theorems": [
    "R1CS.C108_number_of_points",
    "R1CS.C108_every_point",
    "R1CS.C108_subgroups",
    "R1CS.C108_membership",
    "R1CS.C108_every_key",
    "R1CS.C108_doubles",
    "R1CS.C108_generator_no_double"
   ],
   "note": "No bound of Hasse is needed: the order of the generator (C68) leaves the indices 1 and 2, since there are at most two points for each y; index 2 is excluded because only one point has order 2 and the generator is not the double of a point (C108_generator_no_double)."
  },
  {
   "property": "C109",
   "status": "proved",
   "theorems": [
    "R1CS.C109_boolean",
    "R1CS.C109_scalar",
    "R1CS.C109_both_occur",
    "R1CS.C109_with_split",
    "R1CS.C109_verify",
    "R1CS.C109_verify_exact",
    "R1CS.C109_checked_curve",
    "R1CS.C109_checked_verify",
    "R1CS.C109_jubjub_ambiguous"
   ],
   "note": "About the provided methods of the trait and verify for any implementation; the curves of the repository do not fulfil the hypothesis (C66). checkedOps, with quotient for quotient_unsafe, and fieldOps are not code of the repository but show that the hypothesis can be fulfilled."
  },
  {
   "property": "C110",
   "status": "proved",
   "theorems": [
    "R1CS.C110_double_size",
    "R1CS.C110_mul_size",
    "R1CS.C110_mul_constant_size",
    "R1CS.C110_verify_size",
    "R1CS.C110_jubjub_sizes"
   ],
   "note": "The constant point must have coordinates other than 0, and a second one other than 1."
  },
  {
   "property": "C111",
   "status": "proved",
   "theorems": [
    "R1CS.C111_gadgets",
    "R1CS.C111_all_wires",
    "R1CS.C111_panics",
    "R1CS.C111_functions"
   ],
   "note": "For functions given as parameters the theorems ask for the same (SetsOwn.Given) and for generators in order (Timed) and invariance under renumbering (Alike.Given); C111_functions, C92_functions and C100_hashing show this for those of the crate."
  },
  {
   "property": "C112",
   "status": "proved",
   "theorems": [
    "R1CS.C112_gadgets",
    "R1CS.C112_order",
    "R1CS.C112_circuits",
    "R1CS.C112_constraints",
    "R1CS.C112_schedules",
    "R1CS.C112_functions"
   ],
   "note": "Unlike C20 this is about the gadgets of the crate as they are, whose generators may panic, and about values which may already be there. Functions given as parameters must have wires of their own too (Apiece.Given), as those of the crate do (C112_functions). That the order of constraints does not matter (C112_constraints) needs the constant and the inputs among the values, and the conditions of C111: with values missing, checks which stop at the first violated constraint can depend on it."
  },
  {
   "property": "C113",
   "status": "proved",
   "theorems": [
    "R1CS.C113_stages",
    "R1CS.C113_earlier"
   ],
   "note": "Functions given as parameters must fulfil the conditions of C111 and C112 (Timed, SetsOwn.Given, Alike.Given, Apiece.Given), as those of the crate do; examples beside C111 and C112 show these conditions for the code used in the examples here."
  },
  {
   "property": "C114",
   "status": "proved",
   "theorems": [
    "R1CS.C114_other_values"
   ],
   "note": "No condition on the values. Functions given as parameters must have wires of their own (Apiece.Given) and not depend on the numbers of wires (Alike.Given), as those of the crate do (C112_functions, C100_hashing)."
  }
 ]
}
