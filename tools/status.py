STATUS = {
"C01": ("proved", "All four operators as ring operations on representatives."),
"C02": ("proved", ""),
"C03": ("proved", ""),
"C04": ("proved", ""),
"C05": ("partial", "False as stated: is_prime squares its divisor in the field, so it wraps around (C05_is_prime_refuted), and 0 and 1 are reported prime (C05_zero_one_refuted; in the fields of order 2 and 3 see C05_below_two_partial). Exactly the primes above all squares of the field are taken to be composite (C05_is_prime_exact_partial); there are none if the order is 1 modulo 4, so in both shipped fields is_prime is right about all numbers but 0 and 1 (C05_is_prime_shipped_partial)."),
"C06": ("proved", ""),
"C08": ("proved", ""),
"C09": ("proved", ""),
"C10": ("proved", ""),
"C11": ("proved", ""),
"C12": ("partial", "False as stated: as_constant of the zero expression is None (C12_as_constant_refuted); holds for every other canonical expression."),
"C13": ("partial", "False as stated: repeated wires are counted once (C13_sum_of_wires_refuted); C13_sum_of_wires_dedup says what is computed, the partial theorem covers lists without repetition."),
"C14": ("proved", ""),
"C19": ("proved", ""),
"C20": ("proved", ""),
"C21": ("proved", ""),
"C22": ("proved", ""),
"C73": ("proved", ""),
"C18": ("proved", "The 32-bit counter limit is stated separately in C18_counter_limit."),
"C23": ("proved", ""),
"C24": ("proved", ""),
"C25": ("proved", ""),
"C26": ("proved", ""),
"C27": ("proved", "Order 2 is C27_order_two: Element::from(2) panics there."),
"C28": ("partial", "False as stated: at x = 0 the constraints admit every value for the result (C28_inverse_or_zero_refuted); the partial theorem covers x != 0."),
"C29": ("proved", "Order 2 is C29_order_two."),
"C30": ("partial", "False as stated: quotient_unsafe adds no constraint at all, so the result is free in every circuit (C30_quotient_unsafe_refuted)."),
"C31": ("proved", "Order 2 is C31_order_two."),
"C32": ("proved", "Over order 2 assert_nonzero always panics in executions (C26_inverse_panics)."),
"C33": ("proved", ""),
"C34": ("proved", "Order 2 is C34_order_two."),
"C15": ("proved", ""),
"C16": ("proved", ""),
"C17": ("partial", "False as stated: join_allowing_overflow panics beyond max_bits even though the sum is well defined (C17_join_allowing_overflow_refuted); the partial theorem covers all lengths up to max_bits."),
"C35": ("proved", ""),
"C36": ("proved", "split needs a field of at least 4 bits (otherwise the comparison with the order panics, see C41)."),
"C37": ("proved", ""),
"C38": ("partial", "False as stated: an all-zero mask satisfies the constraints of assert_le and assert_ge for every pair of operands (C38_assert_le_unconstrained_refuted, C38_assert_le_refuted). The partial theorem covers assignments produced by the generators."),
"C39": ("partial", "False as stated: lt/gt can always be 0 and le/ge always be 1 (C39_comparisons_refuted, C39_lt_refuted). The partial theorems give the directions that are enforced."),
"C40": ("proved", "For the binary forms: equal non-zero lengths and a chunk size leaving a spare bit (C41); otherwise building panics."),
"C41": ("proved", ""),
"C42": ("proved", "Fields of at least 4 bits."),
"C43": ("partial", "False as stated: the quotient is not range checked, so every number below the divisor is accepted as the remainder (C43_modulus_any_refuted, C43_divides_any_refuted, C43_modulus_refuted)."),
"C44": ("partial", "Values, modular and overflow-asserting variants are proved. The documented width is false for a single operand and for an empty operand of binary_sum (C44_width_refuted); C44_width_partial covers at least two non-empty operands, and C44_width_exact_partial and C44_sum_width_exact_partial say exactly when the result is longer than the longest operand, and by how much at most."),
"C45": ("proved", ""),
"C46": ("proved", ""),
"C47": ("partial", "bitwise_shift_dec_significance panics exactly when the amount exceeds a non-zero length (C47_shift_dec_refuted, C47_shift_dec_exact_partial); everything else is proved for all lengths and amounts."),
"C48": ("proved", "For lists of up to 2^(max_bits-1) items; longer ones panic in split_bounded."),
"C49": ("partial", "False as stated (C49_out_of_range_refuted): the result is always one of the items; indices beyond the next power of two are rejected (C49_out_of_range_partial). Which item it is is said exactly (C49_position_partial, and C49_position_computed_partial for honest execution): the one at the largest position whose binary digits are all digits of the index."),
"C50": ("proved", ""),
"C51": ("proved", ""),
"C52": ("proved", "BTreeMap<T, Vec<usize>> is modelled as a function; C104_indices shows that the map gives the same. The bimap crate is modelled as a list of pairs."),
"C53": ("proved", "Fields of at least 4 bits; an empty list panics (C53_sort_empty_panics)."),
"C54": ("partial", "False as stated: every rearrangement of the inputs is accepted (C54_sort_any_order_refuted, C54_sort_ascending_refuted). The partial theorem gives the multiset."),
"C72": ("proved", ""),
"C55": ("partial", "False for the exponent 1, whose inverse panics (C55_inverse_exponent_one_refuted), and over the field of order 2, where the exponent 0 is accepted (C55_new_order_two_refuted). Everything else is proved, including termination of the search for the inverse exponent."),
"C56": ("proved", "Enforced for non-zero inputs, as stated; for zero see C56_zero_refuted."),
"C57": ("proved", "Round constants are arbitrary; for the computation of the recommended number of rounds see C81 and C89."),
"C58": ("proved", ""),
"C59": ("proved", "Messages shorter than the order; longer ones panic when the length is converted (C59_hash_computed)."),
"C60": ("proved", ""),
"C61": ("proved", "The permutation gadget is assumed to preserve the width (otherwise an assertion panics). There is no padding (C61_no_padding)."),
"C71": ("proved", ""),
"C62": ("partial", "False as stated: row i gives the i-th entry times the sum of row i (C62_product_refuted); C62_product_partial shows it is the product exactly for diagonal matrices."),
"C63": ("partial", "Enforced and computed as the round function with the product of C62, for the power S-boxes; with the inverse S-box the output is forgeable (C63_poseidon_inverse_refuted). There is no diffusion (C63_diffusion_refuted) and zero is a fixed point (C63_zero_fixed)."),
"C74": ("partial", "False for the field of order 7, where the search returns the exponent 1 and permute panics (C74_smallest_alpha_refuted); every other order above 3 is proved."),
"C75": ("proved", ""),
"C70": ("partial", "Period, ranges and termination over the shipped fields are proved. False for some limits: next_biguint(2^96+1) never returns after an odd number of draws (C70_biguint_refuted); C70_biguint_terminates_partial gives a sufficient condition on the limit. C70_biguint_limits_partial decides it for every limit and state by the topmost words, and C70_biguint_exact_partial where these are equal: it returns exactly if the smallest draw, which is identified, is in range; C70_biguint_never_refuted names the limits for which there is a state from which it never returns. From a new generator it returns for every limit, and any number of elements of any field can be drawn (C70_new_returns)."),
"C07": ("proved", "By certificates checked in the kernel."),
"C64": ("proved", ""),
"C65": ("proved", ""),
"C66": ("partial", "False as stated: quotient_unsafe adds no constraint, so the result of an addition, a doubling or a scalar multiplication can be anything (C66_add_refuted, C66_scalar_refuted, C66_jubjub_refuted). Only the selection in mul_boolean_expression is enforced."),
"C67": ("proved", "In honest executions; what is enforced is C66."),
"C68": ("partial", "Primality, completeness and the generator being on the curve are proved. False for the order: the shipped generator has order 8r, so JubJubPrimeSubgroup is not of prime order (C68_generator_order_refuted); 8 times the generator has the prime order r."),
"C69": ("partial", "Honest executions decide the verification equation, and signatures computed modulo the order of the generator verify. False for signatures computed in the base field, as in the crate's own test, which is rejected (C69_field_signature_refuted), and the constraints accept forgeries (C69_forgery_refuted)."),
"C76": ("proved", "Exact for operands whose bits are wires not mentioned by the other operand, and an upper bound for all operands."),
"C77": ("partial", "False for quotient_unsafe, which adds no constraint (C77_quotient_unsafe_refuted), and for the addition of points, which adds 5 (C77_edwards_add_refuted); a product with the constant zero costs a constraint. The other sizes are proved."),
"C78": ("proved", ""),
"C79": ("partial", "The cube and the inverse are proved. The hash panics over both shipped fields, where cubing is not a permutation (C79_hash_refuted); C79_hash_partial covers the fields where it is one, and C79_hash_exact_partial says that these are all. The README calls builder.exp, which does not exist; the model uses exponentiation."),
"C80": ("proved", "Over the real numbers; for the rounding of f64 see C89. The search over full rounds never gets past its first candidate for widths of at least 2 (C80_full_rounds). Width 0 panics."),
"C81": ("partial", "Over the real numbers; for the rounding of f64 see C89. The default instance has one round more than recommended and panics over both shipped fields (C81_default_refuted); C81_default_partial covers the fields where cubing is a permutation, and C81_default_exact_partial says that these are all."),
"C82": ("partial", "Round trip, injectivity of expressions and constraints, and concat are proved, and exactly which strings from_str accepts, rejects and panics on (C82_from_str_exact). False for numerals of numbers not below the order, which panic (C82_from_str_refuted), and for join when the first string is empty (C82_join_refuted; otherwise C82_join_partial). from_str and decimal display of BigUint are modelled after the num crate, version 0.2."),
"C83": ("proved", "Exact numbers for expressions that are not folded as constants (Merkle-Damgard hashes and Merkle paths: with MiMC under Davies-Meyer; sponges: for permutations always adding the same number); for arbitrary expressions and compression functions they are upper bounds."),
"C84": ("proved", "Tidy for every gadget, by a judgement tracking which wires a call owns; trait parameters are hypotheses."),
"C85": ("proved", "From completeness (honest executions) and C84: the values of the wires of a call are determined by the values below it. General theorem C85_in_context, with instances."),
"C86": ("proved", "Both directions for every gadget, from the soundness lemmas and from assignments constructed with the forging logic; it shows exactly how far the refuted properties fail."),
"C87": ("proved", "Code is a deep embedding (Spec/Language.lean): lists of gadget calls with operands by position; loops and branches of the surrounding Rust code, which only choose the calls, are unrolled. Soundness excludes the 23 gadgets whose constraints admit other results (C86); acceptance covers all."),
"C88": ("proved", "The outcome (Spec/Outcome.lean) refines the meaning of C87 (C88_meaning). assert_boolean is excluded from C88_panics and C88_outcome only: it returns false and goes on with a boolean expression which is not a truth value."),
"C89": ("proved", "Every operation rounds to nearest, ties to even, with 53 bits, first with unbounded exponents and then with those of IEEE 754, which C89_exponents shows to make no difference (C89_binary64: the rounding is to the nearest number of the format); ln and log2 are arbitrary functions with a relative error of at most 2^-50 for arguments of at least 2 (structure Libm; instance: correctly rounded logarithms)."),
"C90": ("proved", "For networks of any size the condition speaks of settings of the switches, TwoRoutes; for two and three elements it is worked out, and a sufficient condition on the values alone (Doubtful) is given for all sizes. Conditions are equivalences: where they fail two different witnesses are shown to exist."),
"C91": ("proved", "The instructions themselves are covered by C87 (edwardsNew, edwardsAdd, edwardsDouble, edwardsMulBoolean, edwardsMulScalar, schnorrVerify, merkleRoot, assertMembership in Spec/Language.lean), the outcomes by C88. Nothing is claimed about other satisfying assignments of the circuit for signatures: they exist, see C66, C69 and C86."),
"C92": ("proved", "By timetables: every generator gets a pass in which its inputs have values at the latest (Spec/Passes.lean). The bound of a function given as a parameter is a hypothesis (Punctual); C92_functions proves it for those of the crate. That the bound is attained is C92_needs for single calls in any surroundings and C92_exact for code; there the operands of networks and sorts are other than two, and for a function given as a parameter the lower bound is a hypothesis (Lasts), proved for decryption and Rescue by C92_needs."),
"C93": ("proved", "The calculation is Circuit.plan (Spec/Plan.lean). The count is an upper bound: operands which are constants are folded (C76, C77); C76-C78 and C83 give exact counts for single gadgets, and an example attains the bound. Functions and hashes used as parameters are assumed never to panic (Known); C93_functions proves it for MiMC in both directions, both compression functions, Merkle-Damgard hashes, Poseidon, Rescue and sponges."),
"C94": ("proved", "The relation is Circuit.admits (Spec/Admission.lean). Functions and hashes given as parameters are those of C87: enforced, computed and tidy. C94_unpinned leaves out signatures, where it depends on the hash whether the admitted results include wrong ones (C69)."),
"C95": ("proved", "The closed forms are about the functions which C63 shows the circuits to implement; C95_rescue_enforced, C95_poseidon_enforced, C95_rescue_sponge_enforced and C95_poseidon_collision put them on circuits. With the inverse as S-box only honest execution follows the function (C63_poseidon_inverse_refuted). That the constructions as published have none of these properties is not part of the claim."),
"C96": ("proved", "Complements C59 and C60. That circuits should fix the depth of trees, or tell leaves from nodes, follows from C96_inner_accepted; the crate does neither by itself."),
"C97": ("proved", "Answers the question left open in src/curves/edwards.rs about compressing to the y-coordinate. About honest executions; for what the constraints enforce and what can be forged see C66, C69 and C86. C97_scalars gives both directions, the converse for hashes injective in the point."),
"C98": ("proved", "C98_distinct counts the attempts in range within a period; its bound, the number of leading chunks below that of the order, is not claimed to be the best."),
"C99": ("proved", "C99_preset_refuted shows why networks are left out of the first part: the claim itself says so."),
"C100": ("proved", "Renumberings are strictly increasing because expressions keep their terms in the order of wires; decreasing ones would give expressions of the same value listed in another order. Hash functions, groups and foreign functions given as parameters are assumed to have the property; all those of the crate do (C100_hashing, C100_curves)."),
"C101": ("proved", "The parts may share inputs, which neither writes. For gadgets in general, if one part rejects and the other panics while its constraints are checked, both together may reject rather than panic (checks stop at the first violated constraint), so C101_calls and C101_circuits speak of panics of the generators only; C101_panics, for circuits of the language, whose constraints never panic (C111), is exact. That all calls of the crate are tidy is C84 and C87. In C101_circuits the second circuit is compared with the one built straight after the inputs."),
"C102": ("proved", "Ends and Forever (Spec/Loops.lean) say what it is to run the body of a loop again and again; the bodies are transcribed from the code apart from the model's bounded versions, an inner loop being shown to end on its own before it is used in an outer one (except in smallest_alpha, where both are one loop with two kinds of states). Loops of the form `for` and gcd, which is by well-founded recursion, have no bound in the model. C102_outcome says that ending and going on forever exclude each other, and that nothing else can happen."),
"C103": ("proved", "Model/Words.lean has the functions once more with checked or wrapping arithmetic on words of any size. The hypotheses on lengths (at most 16 times the length below 2^bits is needed) are weaker than what Rust guarantees of vectors of expressions. Memory is not modelled: a sponge of a gigantic capacity could not be evaluated. The search for Poseidon's rounds is in real numbers and for positive widths. Big integers (BigUint) do not overflow; numbers of bits of the order are small."),
"C104": ("proved", "Model/Raw.lean is the second transcription. Expressions are compared with the operations of the model, which C09 to C13 say are those of linear combinations; that expressions are canonical when the code builds them is C10_canonical. C104_execute is about any gadget whose generators agree with those of the model; C104_product shows it for one generator, C105 for all. What BigUint does is assumed."),
"C105": ("proved", "Model/RawGens.lean holds the transcriptions; `slice::sort` is a merge sort by `cmp`. The functions, compression functions and group operations handed to an instruction must add closures of the crate only (Given), as those of the crate do (C105_hashing, C105_curves)."),
"C106": ("proved", "Scoping of circuits (hence C106_circuits) needs that foreign functions, trees and signature schemes handed to instructions do the same on renumbered wires (Alike.Given), as those of the crate do (C100). C106_every is code a client could write; it needs no generators."),
"C107": ("proved", "C107_typed is about all satisfying assignments, C107_evaluate about executions on the inputs alone, C107_cast is the exception. C107_readable covers code with rejected casts and other starting values; functions given as parameters must have a timetable (Punctual), as those of the crate do (C92_functions)."),
"C108": ("proved", "No bound of Hasse is needed: the order of the generator (C68) leaves the indices 1 and 2, since there are at most two points for each y; index 2 is excluded because only one point has order 2 and the generator is not the double of a point (C108_generator_no_double)."),
"C109": ("proved", "About the provided methods of the trait and verify for any implementation; the curves of the repository do not fulfil the hypothesis (C66). checkedOps, with quotient for quotient_unsafe, and fieldOps are not code of the repository but show that the hypothesis can be fulfilled."),
"C110": ("proved", "The constant point must have coordinates other than 0, and a second one other than 1."),
"C111": ("proved", "For functions given as parameters the theorems ask for the same (SetsOwn.Given) and for generators in order (Timed) and invariance under renumbering (Alike.Given); C111_functions, C92_functions and C100_hashing show this for those of the crate."),
"C112": ("proved", "Unlike C20 this is about the gadgets of the crate as they are, whose generators may panic, and about values which may already be there. Functions given as parameters must have wires of their own too (Apiece.Given), as those of the crate do (C112_functions). That the order of constraints does not matter (C112_constraints) needs the constant and the inputs among the values, and the conditions of C111: with values missing, checks which stop at the first violated constraint can depend on it."),
"C113": ("proved", "Functions given as parameters must fulfil the conditions of C111 and C112 (Timed, SetsOwn.Given, Alike.Given, Apiece.Given), as those of the crate do; examples beside C111 and C112 show these conditions for the code used in the examples here."),
"C114": ("proved", "No condition on the values. Functions given as parameters must have wires of their own (Apiece.Given) and not depend on the numbers of wires (Alike.Given), as those of the crate do (C112_functions, C100_hashing)."),
}
