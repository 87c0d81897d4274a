import Verif.Props.Admission
import Verif.Props.AnyOrder
import Verif.Props.Arithmetic
import Verif.Props.Binary
import Verif.Props.BinaryOps
import Verif.Props.Builder
import Verif.Props.Columns
import Verif.Props.Comparisons
import Verif.Props.Composite
import Verif.Props.Costs
import Verif.Props.CurveCosts
import Verif.Props.Curves
import Verif.Props.Execute
import Verif.Props.Expression
import Verif.Props.Field
import Verif.Props.Floats
import Verif.Props.Foreign
import Verif.Props.Generator
import Verif.Props.HashBuilders
import Verif.Props.HashCosts
import Verif.Props.HashStructure
import Verif.Props.Hashes
import Verif.Props.Ieee
import Verif.Props.Instance
import Verif.Props.JubJubGroup
import Verif.Props.Language
import Verif.Props.Lcg
import Verif.Props.LcgLimits
import Verif.Props.Loops
import Verif.Props.Matrices
import Verif.Props.Missing
import Verif.Props.OrderTwo
import Verif.Props.OutOfRange
import Verif.Props.Outcome
import Verif.Props.PanicsApart
import Verif.Props.Parallel
import Verif.Props.Passes
import Verif.Props.Permutation
import Verif.Props.Permutations
import Verif.Props.Plan
import Verif.Props.Primality
import Verif.Props.Primes
import Verif.Props.Raw
import Verif.Props.RawGens
import Verif.Props.Readable
import Verif.Props.Readme
import Verif.Props.Relations
import Verif.Props.Remainders
import Verif.Props.Renumber
import Verif.Props.Rigid
import Verif.Props.Rounds
import Verif.Props.Schnorr
import Verif.Props.Setters
import Verif.Props.Setting
import Verif.Props.SignatureStructure
import Verif.Props.SoundGroups
import Verif.Props.Stages
import Verif.Props.Strict
import Verif.Props.SumWidth
import Verif.Props.Text
import Verif.Props.Tidy
import Verif.Props.Typed
import Verif.Props.Words

/-!
# The axioms of the theorems named in MANIFEST.json

Generated by `tools/gen_audit.py`.  Each line must report at most `propext`, `Classical.choice` and
`Quot.sound`.
-/

#print axioms R1CS.C01_integer_agreement
#print axioms R1CS.C01_ring_laws
#print axioms R1CS.C02_inverse
#print axioms R1CS.C02_zero
#print axioms R1CS.C02_order_two
#print axioms R1CS.C03_exponentiation
#print axioms R1CS.C04_gcd
#print axioms R1CS.C05_is_prime_partial
#print axioms R1CS.C05_is_prime_small_partial
#print axioms R1CS.C05_is_prime_refuted
#print axioms R1CS.C05_zero_one_refuted
#print axioms R1CS.C05_is_prime_exact_partial
#print axioms R1CS.C05_is_prime_one_mod_four_partial
#print axioms R1CS.C05_is_prime_shipped_partial
#print axioms R1CS.C05_below_two_partial
#print axioms R1CS.C06_bits
#print axioms R1CS.C07_orders_prime
#print axioms R1CS.C08_from
#print axioms R1CS.C08_shl
#print axioms R1CS.C08_mul_div_nat
#print axioms R1CS.C09_linear
#print axioms R1CS.C09_sum
#print axioms R1CS.C09_constructors
#print axioms R1CS.C09_literals
#print axioms R1CS.C10_canonical
#print axioms R1CS.C10_equality
#print axioms R1CS.C11_reads
#print axioms R1CS.C11_every_dependency_matters
#print axioms R1CS.C12_as_constant_partial
#print axioms R1CS.C12_as_constant_sound
#print axioms R1CS.C12_as_constant_refuted
#print axioms R1CS.C13_sum_of_wires_partial
#print axioms R1CS.C13_sum_of_wires_dedup
#print axioms R1CS.C13_sum_of_wires_refuted
#print axioms R1CS.C14_write_once
#print axioms R1CS.C14_second_set_panics
#print axioms R1CS.C14_default
#print axioms R1CS.C14_panics_iff
#print axioms R1CS.C14_values
#print axioms R1CS.C14_boolean_values
#print axioms R1CS.C14_binary_values
#print axioms R1CS.C15_evaluate
#print axioms R1CS.C15_from_value
#print axioms R1CS.C15_truncate
#print axioms R1CS.C15_pad
#print axioms R1CS.C15_concat
#print axioms R1CS.C15_add_most_significant
#print axioms R1CS.C15_chunks
#print axioms R1CS.C15_write_read
#print axioms R1CS.C16_join
#print axioms R1CS.C17_join_allowing_overflow_partial
#print axioms R1CS.C17_join_allowing_overflow_refuted
#print axioms R1CS.C18_fresh_wires
#print axioms R1CS.C18_fresh_later
#print axioms R1CS.C18_counter_limit
#print axioms R1CS.C19_execute_decides
#print axioms R1CS.C19_accept_satisfies
#print axioms R1CS.C20_order_independent
#print axioms R1CS.C20_no_missing_inputs
#print axioms R1CS.C21_terminates
#print axioms R1CS.C21_exactly_once
#print axioms R1CS.C21_panics
#print axioms R1CS.C22_inputs_preserved
#print axioms R1CS.C22_library
#print axioms R1CS.C23_appends
#print axioms R1CS.C23_stays_enforced
#print axioms R1CS.C23_still_computed
#print axioms R1CS.C23_composes
#print axioms R1CS.C24_product_enforced
#print axioms R1CS.C24_product_computed
#print axioms R1CS.C24_product_folds
#print axioms R1CS.C24_product_never_panics
#print axioms R1CS.C25_exponentiation_enforced
#print axioms R1CS.C25_exponentiation_computed
#print axioms R1CS.C26_inverse_enforced
#print axioms R1CS.C26_quotient_enforced
#print axioms R1CS.C26_inverse_computed
#print axioms R1CS.C26_quotient_computed
#print axioms R1CS.C26_inverse_panics
#print axioms R1CS.C26_quotient_panics
#print axioms R1CS.C27_inverse_or_zero_computed
#print axioms R1CS.C27_order_two
#print axioms R1CS.C28_inverse_or_zero_enforced_partial
#print axioms R1CS.C28_inverse_or_zero_refuted
#print axioms R1CS.C28_not_enforced_refuted
#print axioms R1CS.C29_quotient_unsafe_computed
#print axioms R1CS.C29_quotient_unsafe_panics
#print axioms R1CS.C29_order_two
#print axioms R1CS.C30_quotient_unsafe_refuted
#print axioms R1CS.C30_not_enforced_refuted
#print axioms R1CS.C31_tests_enforced
#print axioms R1CS.C31_tests_computed
#print axioms R1CS.C31_order_two
#print axioms R1CS.C32_assertions_satisfiable
#print axioms R1CS.C32_negative_assertions_satisfiable
#print axioms R1CS.C32_assertions_computed
#print axioms R1CS.C33_selection_enforced
#print axioms R1CS.C33_selection_computed
#print axioms R1CS.C34_connectives_enforced
#print axioms R1CS.C34_connectives_computed
#print axioms R1CS.C34_order_two
#print axioms R1CS.C35_split_bounded
#print axioms R1CS.C35_split
#print axioms R1CS.C35_split_allowing_ambiguity
#print axioms R1CS.C36_split_bounded_computed
#print axioms R1CS.C36_split_computed
#print axioms R1CS.C36_split_allowing_ambiguity_computed
#print axioms R1CS.C37_assert_lt_enforced
#print axioms R1CS.C37_assert_gt_enforced
#print axioms R1CS.C37_assert_lt_binary_enforced
#print axioms R1CS.C37_assert_gt_binary_enforced
#print axioms R1CS.C38_assert_le_unconstrained_refuted
#print axioms R1CS.C38_assert_le_binary_unconstrained_refuted
#print axioms R1CS.C38_assert_le_refuted
#print axioms R1CS.C38_assert_le_partial
#print axioms R1CS.C39_comparisons_partial
#print axioms R1CS.C39_binary_comparisons_partial
#print axioms R1CS.C39_comparisons_refuted
#print axioms R1CS.C39_lt_refuted
#print axioms R1CS.C40_comparisons_computed
#print axioms R1CS.C40_binary_comparisons_computed
#print axioms R1CS.C40_assertions_decide
#print axioms R1CS.C40_binary_assertions_decide
#print axioms R1CS.C41_chunk_bits_optimal
#print axioms R1CS.C41_chunk_bits_admissible
#print axioms R1CS.C41_chunk_bits_admissible_short
#print axioms R1CS.C41_panics_exactly
#print axioms R1CS.C41_split_panics_exactly
#print axioms R1CS.C41_binary_panics_exactly
#print axioms R1CS.C42_modulus_computed
#print axioms R1CS.C42_divides_computed
#print axioms R1CS.C43_modulus_partial
#print axioms R1CS.C43_divides_partial
#print axioms R1CS.C43_modulus_any_refuted
#print axioms R1CS.C43_divides_any_refuted
#print axioms R1CS.C43_modulus_refuted
#print axioms R1CS.C44_summation_enforced
#print axioms R1CS.C44_sum_enforced
#print axioms R1CS.C44_ignoring_overflow_enforced
#print axioms R1CS.C44_sum_ignoring_overflow_enforced
#print axioms R1CS.C44_asserting_no_overflow_enforced
#print axioms R1CS.C44_sum_asserting_no_overflow_enforced
#print axioms R1CS.C44_summation_computed
#print axioms R1CS.C44_too_long
#print axioms R1CS.C44_width_refuted
#print axioms R1CS.C44_width_partial
#print axioms R1CS.C44_width_exact_partial
#print axioms R1CS.C44_sum_width_exact_partial
#print axioms R1CS.C45_assert_zero_enforced
#print axioms R1CS.C45_assert_zero_computed
#print axioms R1CS.C46_bitwise_enforced
#print axioms R1CS.C46_bitwise_computed
#print axioms R1CS.C46_lengths_differ
#print axioms R1CS.C47_rotations
#print axioms R1CS.C47_shifts
#print axioms R1CS.C47_shift_dec_refuted
#print axioms R1CS.C47_rotate_inverse
#print axioms R1CS.C47_shift_dec_exact_partial
#print axioms R1CS.C48_random_access_enforced
#print axioms R1CS.C48_random_access_computed
#print axioms R1CS.C48_prohibited_enforced
#print axioms R1CS.C48_prohibited_computed
#print axioms R1CS.C49_out_of_range_partial
#print axioms R1CS.C49_out_of_range_refuted
#print axioms R1CS.C49_position_partial
#print axioms R1CS.C49_position_computed_partial
#print axioms R1CS.C50_assert_permutation
#print axioms R1CS.C51_assert_permutation_accepts
#print axioms R1CS.C52_bimap_from_lists
#print axioms R1CS.C52_bimap_from_lists_panics
#print axioms R1CS.C53_sort_ascending_computed
#print axioms R1CS.C53_sort_descending_computed
#print axioms R1CS.C53_sort_empty_panics
#print axioms R1CS.C54_sort_any_order_refuted
#print axioms R1CS.C54_sort_ascending_refuted
#print axioms R1CS.C54_sort_partial
#print axioms R1CS.C55_new
#print axioms R1CS.C55_new_order_two_refuted
#print axioms R1CS.C55_permute
#print axioms R1CS.C55_inverse_enforced
#print axioms R1CS.C55_inverse_computed_partial
#print axioms R1CS.C55_inverse_exponent_one_refuted
#print axioms R1CS.C56_inverse_permutation_computed
#print axioms R1CS.C56_inverse_permutation_enforced
#print axioms R1CS.C56_zero_refuted
#print axioms R1CS.C57_new
#print axioms R1CS.C57_encrypt
#print axioms R1CS.C57_decrypt_enforced
#print axioms R1CS.C57_decrypt_computed
#print axioms R1CS.C57_inverse_enforced
#print axioms R1CS.C57_inverse_computed
#print axioms R1CS.C57_permutation
#print axioms R1CS.C58_davies_meyer
#print axioms R1CS.C58_miyaguchi_preneel
#print axioms R1CS.C59_hash_enforced
#print axioms R1CS.C59_hash_computed
#print axioms R1CS.C59_collision
#print axioms R1CS.C59_binding
#print axioms R1CS.C60_path_new
#print axioms R1CS.C60_root_enforced
#print axioms R1CS.C60_root_computed
#print axioms R1CS.C60_membership_enforced
#print axioms R1CS.C60_membership_computed
#print axioms R1CS.C60_honest_paths
#print axioms R1CS.C60_position_binding
#print axioms R1CS.C60_tree_binding
#print axioms R1CS.C61_sponge_enforced
#print axioms R1CS.C61_sponge_computed
#print axioms R1CS.C61_no_padding
#print axioms R1CS.C62_product_computes_partial
#print axioms R1CS.C62_product_partial
#print axioms R1CS.C62_product_refuted
#print axioms R1CS.C63_poseidon_enforced_partial
#print axioms R1CS.C63_poseidon_computed_partial
#print axioms R1CS.C63_poseidon_inverse_refuted
#print axioms R1CS.C63_rescue_enforced_partial
#print axioms R1CS.C63_rescue_computed_partial
#print axioms R1CS.C63_diffusion_refuted
#print axioms R1CS.C63_diffusion_circuit_refuted
#print axioms R1CS.C63_zero_fixed
#print axioms R1CS.C64_point_new
#print axioms R1CS.C64_expression_enforced
#print axioms R1CS.C64_expression_computed
#print axioms R1CS.C65_add_computed
#print axioms R1CS.C65_double_computed
#print axioms R1CS.C65_denominators
#print axioms R1CS.C65_complete_curve
#print axioms R1CS.C65_doubling
#print axioms R1CS.C66_add_refuted
#print axioms R1CS.C66_scalar_refuted
#print axioms R1CS.C66_jubjub_refuted
#print axioms R1CS.C66_mul_boolean_partial
#print axioms R1CS.C67_scalar_multiplication
#print axioms R1CS.C67_complete_curve
#print axioms R1CS.C68_constants
#print axioms R1CS.C68_generator_order_refuted
#print axioms R1CS.C68_generator_order_partial
#print axioms R1CS.C69_hash_enforced
#print axioms R1CS.C69_verify_computed
#print axioms R1CS.C69_honest_signatures
#print axioms R1CS.C69_field_signature_refuted
#print axioms R1CS.C69_forgery_refuted
#print axioms R1CS.C70_full_period
#print axioms R1CS.C70_draw_range
#print axioms R1CS.C70_biguint_range
#print axioms R1CS.C70_biguint_terminates_partial
#print axioms R1CS.C70_element_terminates
#print axioms R1CS.C70_biguint_refuted
#print axioms R1CS.C70_biguint_limits_partial
#print axioms R1CS.C70_biguint_exact_partial
#print axioms R1CS.C70_biguint_never_refuted
#print axioms R1CS.C70_new_returns
#print axioms R1CS.C71_block_cipher
#print axioms R1CS.C71_compression_function
#print axioms R1CS.C71_permutation
#print axioms R1CS.C71_multi_permutation
#print axioms R1CS.C71_hash_function
#print axioms R1CS.C71_library
#print axioms R1CS.C72_network_size
#print axioms R1CS.C72_lengths
#print axioms R1CS.C73_wire_order
#print axioms R1CS.C73_operators
#print axioms R1CS.C74_smallest_alpha_partial
#print axioms R1CS.C74_smallest_alpha_refuted
#print axioms R1CS.C74_rounds
#print axioms R1CS.C74_build
#print axioms R1CS.C74_calls
#print axioms R1CS.C75_build
#print axioms R1CS.C75_default_sbox
#print axioms R1CS.C75_calls
#print axioms R1CS.C76_cmp_binary_size
#print axioms R1CS.C76_cmp_binary_bound
#print axioms R1CS.C76_split_size
#print axioms R1CS.C76_cmp_size
#print axioms R1CS.C76_shipped_sizes
#print axioms R1CS.C77_fixed_sizes
#print axioms R1CS.C77_size
#print axioms R1CS.C77_product_size
#print axioms R1CS.C77_bounds
#print axioms R1CS.C77_exponentiation_size
#print axioms R1CS.C77_exponentiation_bound
#print axioms R1CS.C77_summation_size
#print axioms R1CS.C77_assert_zero_size
#print axioms R1CS.C77_bitwise_bound
#print axioms R1CS.C77_bitwise_size
#print axioms R1CS.C77_quotient_unsafe_refuted
#print axioms R1CS.C77_edwards_add_refuted
#print axioms R1CS.C77_edwards_bound
#print axioms R1CS.C77_edwards_mul_bound
#print axioms R1CS.C78_permutation_size
#print axioms R1CS.C78_permutation_bound
#print axioms R1CS.C78_switches
#print axioms R1CS.C78_sort_size
#print axioms R1CS.C78_random_access_size
#print axioms R1CS.C78_random_access_bound
#print axioms R1CS.C79_cube
#print axioms R1CS.C79_inverse
#print axioms R1CS.C79_hash_refuted
#print axioms R1CS.C79_hash_partial
#print axioms R1CS.C79_hash_exact_partial
#print axioms R1CS.C80_secure_rounds
#print axioms R1CS.C80_defaults
#print axioms R1CS.C80_full_rounds
#print axioms R1CS.C81_recommended_rounds
#print axioms R1CS.C81_default_partial
#print axioms R1CS.C81_default_exact_partial
#print axioms R1CS.C81_default_refuted
#print axioms R1CS.C82_round_trip
#print axioms R1CS.C82_from_str_refuted
#print axioms R1CS.C82_from_str_error
#print axioms R1CS.C82_from_str_exact
#print axioms R1CS.C82_concat
#print axioms R1CS.C82_join_partial
#print axioms R1CS.C82_join_refuted
#print axioms R1CS.C82_wire_injective
#print axioms R1CS.C82_expression_injective
#print axioms R1CS.C82_boolean_injective
#print axioms R1CS.C82_constraint_injective
#print axioms R1CS.C83_mimc_encrypt_size
#print axioms R1CS.C83_mimc_decrypt_size
#print axioms R1CS.C83_mimc_encrypt_bound
#print axioms R1CS.C83_mimc_decrypt_bound
#print axioms R1CS.C83_compress_size
#print axioms R1CS.C83_compress_bound
#print axioms R1CS.C83_hash_size
#print axioms R1CS.C83_hash_bound
#print axioms R1CS.C83_merkle_bound
#print axioms R1CS.C83_merkle_size
#print axioms R1CS.C83_poseidon_size
#print axioms R1CS.C83_poseidon_bound
#print axioms R1CS.C83_rescue_size
#print axioms R1CS.C83_rescue_bound
#print axioms R1CS.C83_sponge_bound
#print axioms R1CS.C83_sponge_size
#print axioms R1CS.C84_primitives
#print axioms R1CS.C84_arithmetic
#print axioms R1CS.C84_comparisons
#print axioms R1CS.C84_binary_and_lists
#print axioms R1CS.C84_permutations
#print axioms R1CS.C84_traits
#print axioms R1CS.C84_curves_and_examples
#print axioms R1CS.C84_composition
#print axioms R1CS.C85_in_context
#print axioms R1CS.C85_arithmetic
#print axioms R1CS.C85_division
#print axioms R1CS.C85_tests
#print axioms R1CS.C85_booleans
#print axioms R1CS.C85_splitting
#print axioms R1CS.C85_comparisons
#print axioms R1CS.C85_modulus
#print axioms R1CS.C85_sorting
#print axioms R1CS.C85_functions
#print axioms R1CS.C86_arithmetic
#print axioms R1CS.C86_tests
#print axioms R1CS.C86_booleans
#print axioms R1CS.C86_assertions
#print axioms R1CS.C86_splitting
#print axioms R1CS.C86_comparisons
#print axioms R1CS.C86_asserted_comparisons
#print axioms R1CS.C86_modulus
#print axioms R1CS.C86_lists
#print axioms R1CS.C86_random_access
#print axioms R1CS.C86_summation
#print axioms R1CS.C86_binary_comparisons
#print axioms R1CS.C86_bitwise
#print axioms R1CS.C86_curves
#print axioms R1CS.C86_signatures
#print axioms R1CS.C86_functions
#print axioms R1CS.C87_complete
#print axioms R1CS.C87_accepts
#print axioms R1CS.C87_decides
#print axioms R1CS.C87_sound
#print axioms R1CS.C87_exact
#print axioms R1CS.C88_meaning
#print axioms R1CS.C88_returns
#print axioms R1CS.C88_panics
#print axioms R1CS.C88_outcome
#print axioms R1CS.C89_rounding
#print axioms R1CS.C89_poseidon_rounds
#print axioms R1CS.C89_poseidon_close
#print axioms R1CS.C89_mimc_rounds
#print axioms R1CS.C89_mimc_rounds_close
#print axioms R1CS.C89_binary64
#print axioms R1CS.C89_exponents
#print axioms R1CS.C89_poseidon_binary64
#print axioms R1CS.C89_mimc_binary64
#print axioms R1CS.C90_arithmetic
#print axioms R1CS.C90_assertions
#print axioms R1CS.C90_tests
#print axioms R1CS.C90_splitting
#print axioms R1CS.C90_comparisons
#print axioms R1CS.C90_asserted_comparisons
#print axioms R1CS.C90_binary_comparisons
#print axioms R1CS.C90_modulus
#print axioms R1CS.C90_switch
#print axioms R1CS.C90_networks
#print axioms R1CS.C90_networks_doubtful
#print axioms R1CS.C90_networks_three
#print axioms R1CS.C90_networks_identity
#print axioms R1CS.C90_sorting
#print axioms R1CS.C90_points
#print axioms R1CS.C90_signatures
#print axioms R1CS.C90_digits
#print axioms R1CS.C90_permutations
#print axioms R1CS.C90_hashes
#print axioms R1CS.C90_circuits
#print axioms R1CS.C90_free_wires
#print axioms R1CS.C90_unique
#print axioms R1CS.C91_doubling
#print axioms R1CS.C91_group
#print axioms R1CS.C91_signature
#print axioms R1CS.C91_membership
#print axioms R1CS.C92_passes
#print axioms R1CS.C92_one_pass
#print axioms R1CS.C92_nothing_pending
#print axioms R1CS.C92_enough
#print axioms R1CS.C92_functions
#print axioms R1CS.C92_needs
#print axioms R1CS.C92_exact
#print axioms R1CS.C93_builds
#print axioms R1CS.C93_forms
#print axioms R1CS.C93_size
#print axioms R1CS.C93_values
#print axioms R1CS.C93_append
#print axioms R1CS.C93_functions
#print axioms R1CS.C94_every
#print axioms R1CS.C94_exact
#print axioms R1CS.C94_honest
#print axioms R1CS.C94_sound_iff
#print axioms R1CS.C94_unpinned
#print axioms R1CS.C94_blocks
#print axioms R1CS.C94_strict_asserted
#print axioms R1CS.C94_vacuous
#print axioms R1CS.C94_le_asserted
#print axioms R1CS.C94_inverse_asserted
#print axioms R1CS.C94_sort_asserted
#print axioms R1CS.C94_split_asserted
#print axioms R1CS.C95_columnwise
#print axioms R1CS.C95_rescue_linear
#print axioms R1CS.C95_rescue_enforced
#print axioms R1CS.C95_rescue_additive
#print axioms R1CS.C95_poseidon_monomial
#print axioms R1CS.C95_poseidon_enforced
#print axioms R1CS.C95_poseidon_inverse
#print axioms R1CS.C95_sponge_state
#print axioms R1CS.C95_sponge_capacity
#print axioms R1CS.C95_second_preimage
#print axioms R1CS.C95_preimage
#print axioms R1CS.C95_preimage_shipped
#print axioms R1CS.C95_rescue_sponge
#print axioms R1CS.C95_rescue_sponge_enforced
#print axioms R1CS.C95_poseidon_collision
#print axioms R1CS.C96_extension
#print axioms R1CS.C96_extension_circuit
#print axioms R1CS.C96_inner_leaves
#print axioms R1CS.C96_inner_accepted
#print axioms R1CS.C96_only_inner
#print axioms R1CS.C96_inner_binding
#print axioms R1CS.C96_fixed_point
#print axioms R1CS.C96_insertion
#print axioms R1CS.C96_repeated_block
#print axioms R1CS.C97_second_coordinate
#print axioms R1CS.C97_scalars
#print axioms R1CS.C97_scalars_private
#print axioms R1CS.C97_twin
#print axioms R1CS.C97_weak_key
#print axioms R1CS.C97_small_order
#print axioms R1CS.C97_other_key
#print axioms R1CS.C98_low_bits
#print axioms R1CS.C98_determined
#print axioms R1CS.C98_following
#print axioms R1CS.C98_constant_bits
#print axioms R1CS.C98_seven
#print axioms R1CS.C98_distinct
#print axioms R1CS.C98_distinct_shipped
#print axioms R1CS.C98_initial_value
#print axioms R1CS.C99_static
#print axioms R1CS.C99_preset
#print axioms R1CS.C99_twice
#print axioms R1CS.C99_check
#print axioms R1CS.C99_gadgets
#print axioms R1CS.C99_constructions
#print axioms R1CS.C99_composition
#print axioms R1CS.C99_language
#print axioms R1CS.C99_language_twice
#print axioms R1CS.C99_preset_refuted
#print axioms R1CS.C100_arithmetic
#print axioms R1CS.C100_logic
#print axioms R1CS.C100_comparisons
#print axioms R1CS.C100_binary
#print axioms R1CS.C100_permutations
#print axioms R1CS.C100_hashing
#print axioms R1CS.C100_curves
#print axioms R1CS.C100_circuits
#print axioms R1CS.C100_execute
#print axioms R1CS.C100_satisfied
#print axioms R1CS.C100_placement
#print axioms R1CS.C100_continuation
#print axioms R1CS.C100_scoped
#print axioms R1CS.C100_scoped_circuits
#print axioms R1CS.C101_panics
#print axioms R1CS.C101_panics_inputs
#print axioms R1CS.C101_joined
#print axioms R1CS.C101_order
#print axioms R1CS.C101_alone
#print axioms R1CS.C101_calls
#print axioms R1CS.C101_circuits
#print axioms R1CS.C101_inputs
#print axioms R1CS.C102_outcome
#print axioms R1CS.C102_execute
#print axioms R1CS.C102_index_bits
#print axioms R1CS.C102_is_prime
#print axioms R1CS.C102_smallest_alpha
#print axioms R1CS.C102_next_biguint
#print axioms R1CS.C102_root_search
#print axioms R1CS.C102_root_exponent
#print axioms R1CS.C102_root_search_ends
#print axioms R1CS.C102_squeeze
#print axioms R1CS.C102_chunks
#print axioms R1CS.C102_route
#print axioms R1CS.C102_scan
#print axioms R1CS.C102_network
#print axioms R1CS.C102_poseidon
#print axioms R1CS.C102_poseidon_floats
#print axioms R1CS.C103_bitwise
#print axioms R1CS.C103_rotate_dec
#print axioms R1CS.C103_rotate_dec_unchecked
#print axioms R1CS.C103_random_access
#print axioms R1CS.C103_comparisons
#print axioms R1CS.C103_networks
#print axioms R1CS.C103_sponge
#print axioms R1CS.C103_rescue
#print axioms R1CS.C103_poseidon
#print axioms R1CS.C103_poseidon_search
#print axioms R1CS.C103_wires
#print axioms R1CS.C103_wires_unchecked
#print axioms R1CS.C104_range
#print axioms R1CS.C104_operators
#print axioms R1CS.C104_elements
#print axioms R1CS.C104_expression_operators
#print axioms R1CS.C104_expressions
#print axioms R1CS.C104_values
#print axioms R1CS.C104_values_unique
#print axioms R1CS.C104_execute
#print axioms R1CS.C104_product
#print axioms R1CS.C104_matrices
#print axioms R1CS.C104_indices
#print axioms R1CS.C104_literals
#print axioms R1CS.C105_closures
#print axioms R1CS.C105_arithmetic
#print axioms R1CS.C105_logic
#print axioms R1CS.C105_digits
#print axioms R1CS.C105_hashing
#print axioms R1CS.C105_curves
#print axioms R1CS.C105_circuits
#print axioms R1CS.C105_execute
#print axioms R1CS.C105_complete
#print axioms R1CS.C105_decides
#print axioms R1CS.C106_matrices
#print axioms R1CS.C106_zero
#print axioms R1CS.C106_solvable
#print axioms R1CS.C106_execute
#print axioms R1CS.C106_entries
#print axioms R1CS.C106_circuits
#print axioms R1CS.C106_every
#print axioms R1CS.C107_readable
#print axioms R1CS.C107_typed
#print axioms R1CS.C107_evaluate
#print axioms R1CS.C107_accepted
#print axioms R1CS.C107_cast
#print axioms R1CS.C108_number_of_points
#print axioms R1CS.C108_every_point
#print axioms R1CS.C108_subgroups
#print axioms R1CS.C108_membership
#print axioms R1CS.C108_every_key
#print axioms R1CS.C108_doubles
#print axioms R1CS.C108_generator_no_double
#print axioms R1CS.C109_boolean
#print axioms R1CS.C109_scalar
#print axioms R1CS.C109_both_occur
#print axioms R1CS.C109_with_split
#print axioms R1CS.C109_verify
#print axioms R1CS.C109_verify_exact
#print axioms R1CS.C109_checked_curve
#print axioms R1CS.C109_checked_verify
#print axioms R1CS.C109_jubjub_ambiguous
#print axioms R1CS.C110_double_size
#print axioms R1CS.C110_mul_size
#print axioms R1CS.C110_mul_constant_size
#print axioms R1CS.C110_verify_size
#print axioms R1CS.C110_jubjub_sizes
#print axioms R1CS.C111_gadgets
#print axioms R1CS.C111_all_wires
#print axioms R1CS.C111_panics
#print axioms R1CS.C111_functions
#print axioms R1CS.C112_gadgets
#print axioms R1CS.C112_order
#print axioms R1CS.C112_circuits
#print axioms R1CS.C112_constraints
#print axioms R1CS.C112_schedules
#print axioms R1CS.C112_functions
#print axioms R1CS.C113_stages
#print axioms R1CS.C113_earlier
#print axioms R1CS.C114_other_values
