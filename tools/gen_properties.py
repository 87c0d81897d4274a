#!/usr/bin/env python3
"""Writes /verif/properties.jsonl.  One call of P per property."""
import json, os
out = []
def P(id, title, statement, quantifier, why, anchors):
    out.append(dict(id=id, title=title, statement=statement, quantifier=quantifier,
                    why_tests_cant=why, anchors=anchors))

P("C01", "Element arithmetic is exact prime-field arithmetic",
  "For every prime order, the operators +, -, unary -, * on Element never panic, always return a value in [0, order), agree with integer arithmetic modulo the order, and satisfy the commutative-ring laws.",
  "every prime order, every pair/triple of elements",
  "255-bit operand space; wrap-around at the modulus hits only a vanishing fraction of random inputs.",
  ["src/field.rs: Add, Sub, Mul, Neg for Element", "src/field.rs: From<BigUint>"])
P("C02", "Multiplicative inverse and division",
  "For every prime order greater than 2 and every non-zero x, multiplicative_inverse returns y with x*y = 1 and y / x is the unique z with z*x = y; on zero multiplicative_inverse (and division) panics while multiplicative_inverse_or_zero returns 0. For order 2 the inverse of 1 also panics, because 2 is not an element.",
  "every prime order, every element",
  "Fermat inversion is correct only if the exponent is exactly order-2 for every field; tests sample a few elements of one field.",
  ["src/field.rs: multiplicative_inverse, multiplicative_inverse_or_zero, Div"])
P("C03", "Field exponentiation",
  "x.exponentiation(k) is the k-fold product of x for every exponent element k, with x^0 = 1 (including 0^0 = 1), and never panics.",
  "every prime order, every base, every exponent",
  "Exponents range over 2^255 values.",
  ["src/field.rs: exponentiation"])
P("C04", "Element gcd terminates with the greatest common divisor",
  "a.gcd(b) terminates for every pair of elements and returns the greatest common divisor of their integer representatives; it never panics.",
  "every prime order, every pair of elements",
  "Termination and maximality are for-all statements over an unbounded recursion.",
  ["src/field.rs: gcd, integer_modulus"])
P("C05", "is_prime decides primality of the representative",
  "x.is_prime() returns true exactly when the integer representative of x is a prime number.",
  "every prime order, every element",
  "The loop squares the trial divisor inside the field, so it may wrap; whether wrapping ever matters depends on all (order, x) pairs.",
  ["src/field.rs: is_prime"])
P("C06", "Bit access on elements is exact",
  "bit(i) is the i-th binary digit of the representative (false past the end), bits() is the least b with x < 2^b, max_bits() bounds bits() of every element and is attained; summing bit(i)*2^i over i < bits() gives back x.",
  "every prime order, every element, every bit index",
  "Universally quantified over bit positions and elements.",
  ["src/field.rs: bits, bit, max_bits, largest_element"])
P("C07", "The shipped field orders are prime",
  "The orders of Bn128 and Bls12_381 are prime numbers, as the Field trait requires.",
  "the two shipped fields (a fact over all potential divisors)",
  "Trial division of 254-bit numbers is infeasible.",
  ["src/field.rs: Bn128::order, Bls12_381::order"])
P("C08", "Conversions and shifts never wrap silently",
  "Element::from(n) succeeds exactly when n < order and then represents n; x << k succeeds exactly when x*2^k < order and then represents x*2^k; multiplication and division by a u128 succeed only when that u128 is an element (and, for division, non-zero).",
  "every prime order, every natural number n, every element and shift amount",
  "Boundary is at the order, which differs per field.",
  ["src/field.rs: From<BigUint>, Shl, Mul<u128>, Div<u128>"])
P("C09", "Expressions evaluate as linear combinations",
  "For all expressions e, f, every field element c and every assignment of wires: e+f, e-f, -e, e*c, e/c and sum_of_expressions evaluate to the corresponding sum, difference, negation, multiple and quotient of the operands' values.",
  "every prime order, all expressions, all assignments",
  "Expression values depend on merging of maps of arbitrary size with cancellation.",
  ["src/expression.rs: Add, Sub, Neg, Mul, Div, sum_of_expressions, evaluate"])
P("C10", "Expressions stay canonical",
  "Every expression obtainable through the public constructors and operators lists each wire once, in wire order (the constant wire last), and never stores a zero coefficient; consequently two such expressions are structurally equal exactly when they evaluate equally on every assignment.",
  "every prime order, all finite sequences of expression-building operations",
  "Quantifies over all histories of operations.",
  ["src/expression.rs: Expression::new, Add, Mul, PartialEq", "src/wire.rs: Ord for Wire"])
P("C11", "dependencies() is exactly what evaluation reads",
  "evaluate(values) panics if and only if some wire in dependencies() has no value, and its result is determined by the values of exactly those wires: two value maps agreeing on dependencies() give the same result, and changing a single dependency changes the result.",
  "every expression, every pair of (partial) value maps",
  "Needs all partial maps.",
  ["src/expression.rs: dependencies, evaluate", "src/wire_values.rs: get"])
P("C12", "as_constant recognises constants",
  "as_constant() returns Some(c) exactly when the expression is the constant c, i.e. evaluates to c under every assignment.",
  "every canonical expression",
  "For-all over assignments on one side, for-all over expressions on the other.",
  ["src/expression.rs: as_constant"])
P("C13", "sum_of_wires is the sum of the listed wires",
  "sum_of_wires(ws) evaluates to the sum of the values of ws, counting repeated wires repeatedly.",
  "every list of wires, every assignment",
  "Lists of arbitrary length, with and without repetitions.",
  ["src/expression.rs: sum_of_wires"])
P("C14", "Wire values are write-once and the constant wire is 1",
  "Starting from WireValues::new(), after any sequence of set / set_boolean / set_binary_unsigned calls that does not panic: the constant wire still reads 1, every wire reads the unique value it was given, and no call ever changes an already-present value (a second set of a wire panics). The calls panic exactly if a wire is given a value twice, the constant wire is given one, or a number does not fit its digits. The macros values!, boolean_values! and binary_unsigned_values! panic in exactly these cases, and otherwise return exactly the listed values.",
  "every finite sequence of set operations",
  "Quantifies over all histories.",
  ["src/wire_values.rs: new, set, set_boolean, set_binary_unsigned, get, contains, values!, boolean_values!, binary_unsigned_values!"])
P("C15", "Binary expressions denote little-endian integers",
  "from(value), truncate, pad, concat, chunks, evaluate and set_binary_unsigned are mutually consistent: from(v) evaluates to v, truncate(l) to v mod 2^l, padding preserves the value, concat to the shifted sum, chunks partitions the digits, and writing v to a binary wire then evaluating it gives v (write panics exactly when v does not fit or a bit is already set).",
  "every bit-length, every value, every boolean assignment of the bits",
  "Unbounded bit-length.",
  ["src/expression.rs: BinaryExpression", "src/wire_values.rs: set_binary_unsigned"])
P("C16", "join is the field value of the bits and never overflows",
  "join() succeeds only when every value representable with that many bits is below the order, and then evaluates to exactly the integer denoted by the bits.",
  "every prime order, every bit-length, every boolean assignment",
  "Boundary bit-lengths depend on the order.",
  ["src/expression.rs: join"])
P("C17", "join_allowing_overflow accepts any length",
  "join_allowing_overflow() works for binary expressions of any size and evaluates to the denoted integer modulo the order.",
  "every prime order, every bit-length, every boolean assignment",
  "Lengths above the field size are not exercised by tests.",
  ["src/expression.rs: join_allowing_overflow"])
P("C18", "Fresh wires",
  "Every wire handed out by a builder is different from the constant wire and from every wire handed out before by that builder, whatever gadgets were called in between (as long as fewer than 2^32-1 wires are allocated); beyond that limit the counter overflows.",
  "every sequence of builder calls",
  "Quantifies over all programs.",
  ["src/gadget_builder.rs: wire, wires, boolean_wire, binary_wire"])
P("C19", "execute decides the constraint system",
  "If execute returns, the result is true exactly when every constraint a*b = c of the gadget holds for the final wire values.",
  "every gadget (any constraints, any generators), every initial values map",
  "All gadgets, all inputs.",
  ["src/gadget.rs: execute", "src/constraint.rs: evaluate"])
P("C20", "execute does not depend on the order of generators",
  "For a gadget whose generators read only their declared inputs and write their own distinct wires, any reordering of the generators leads execute to the same final values and the same verdict; if generators can be ordered so that inputs are produced before they are needed, execute never panics for lack of inputs.",
  "all generator lists, all permutations of the list, all initial values",
  "n! schedules.",
  ["src/gadget.rs: execute", "src/witness_generator.rs"])
P("C21", "execute terminates and runs every generator exactly once",
  "execute performs at most (number of generators + 1) passes; on return every generator ran exactly once, at a time when all its declared inputs had values; it panics with 'never received inputs' exactly when some generator can never become ready.",
  "every gadget, every initial values map",
  "Loop termination for arbitrary generator sets.",
  ["src/gadget.rs: execute"])
P("C22", "execute never changes given inputs",
  "Whatever generators do through the WireValues interface, a value present before execute is unchanged after it.",
  "every gadget whose generators only use the WireValues interface, every initial map",
  "All generator programs.",
  ["src/gadget.rs: execute", "src/wire_values.rs: set"])
P("C23", "Gadget calls compose",
  "Calling any gadget on a builder only appends constraints and generators: whatever an earlier call enforced stays enforced, and whatever an earlier call computed in an honest execution is still computed with the same values, for any later calls.",
  "all programs (sequences of gadget calls), all inputs",
  "All histories of calls.",
  ["src/gadget_builder.rs", "all gadget methods"])
P("C24", "product is enforced and computed",
  "In every satisfying assignment product(x,y) equals x*y; an honest execution succeeds and yields x*y; constants are folded without changing the meaning; it never panics.",
  "every builder state, all expressions x,y, all assignments",
  "All expressions including constants, zero and shared wires.",
  ["src/field_arithmetic.rs: product"])
P("C25", "exponentiation gadget",
  "In every satisfying assignment exponentiation(x,k) equals x^k and honest execution computes it, for every exponent element k.",
  "every builder state, every x, every exponent, all assignments",
  "Exponents up to the field order.",
  ["src/field_arithmetic.rs: exponentiation"])
P("C26", "inverse and quotient are enforced",
  "inverse(x) (quotient(x,y)) is satisfiable only if x (y) is non-zero, and then the output is the inverse (the quotient); honest execution computes it and panics when the divisor is zero.",
  "every builder state, all expressions, all assignments; executions over every prime order above 2",
  "For-all assignments (malicious prover).",
  ["src/field_arithmetic.rs: inverse, quotient"])
P("C27", "inverse_or_zero computes the inverse or zero",
  "An honest execution of inverse_or_zero(x) succeeds and gives 1/x for x != 0 and 0 for x = 0.",
  "every prime order above 2, every builder state, every expression, all inputs; over the field of order 2 executions return only for zero",
  "All inputs.",
  ["src/field_arithmetic.rs: inverse_or_zero"])
P("C28", "inverse_or_zero is enforced",
  "In every satisfying assignment inverse_or_zero(x) equals 1/x for x != 0 and 0 for x = 0.",
  "every builder state, all assignments",
  "Tests only execute the honest generators; they never search for malicious assignments.",
  ["src/field_arithmetic.rs: inverse_or_zero"])
P("C29", "quotient_unsafe is computed",
  "An honest execution of quotient_unsafe(x,y) yields x/y for y != 0 (and panics for y = 0).",
  "every prime order above 2, every builder state, all inputs; over the field of order 2 every execution panics",
  "All inputs.",
  ["src/field_arithmetic.rs: quotient_unsafe"])
P("C30", "quotient_unsafe is enforced when the divisor is non-zero",
  "In every satisfying assignment with y != 0, quotient_unsafe(x,y) equals x/y (the documentation promises one constraint).",
  "every builder state, all assignments",
  "Needs malicious assignments.",
  ["src/field_arithmetic.rs: quotient_unsafe"])
P("C31", "equal / zero / nonzero tests are enforced and computed",
  "In every satisfying assignment zero(x), nonzero(x), equal(x,y) are 1 or 0 according to x = 0, x != 0, x = y; honest execution computes the same.",
  "every builder state, all expressions, all assignments; executions over every prime order above 2 (over order 2 they return only if the test finds a zero)",
  "Malicious auxiliary wires.",
  ["src/gadget_builder.rs: equal, zero, nonzero"])
P("C32", "Basic assertions mean what they say",
  "assert_product, assert_boolean, assert_equal, assert_zero, assert_nonzero, assert_nonequal, assert_true, assert_false: the added constraints are satisfiable by extending an assignment exactly when the asserted relation holds, and an honest execution then returns true.",
  "every builder state, all expressions, all assignments; executions of assert_nonzero and assert_nonequal over every prime order above 2",
  "If-and-only-if over all assignments.",
  ["src/gadget_builder.rs: assert_*"])
P("C33", "selection",
  "With a 0/1 selector, selection(c,x,y) equals x when c = 1 and y when c = 0 in every satisfying assignment, and honest execution computes it.",
  "every builder state, all expressions, all assignments with boolean c",
  "All assignments.",
  ["src/gadget_builder.rs: selection"])
P("C34", "Boolean connectives",
  "On boolean inputs not, and, or, xor (and their use in equal/zero) produce 0/1 values equal to the logical connective in every satisfying assignment, and honest execution computes them.",
  "every builder state, all boolean expressions, all assignments; executions of xor over every prime order above 2 (over order 2 it cannot be built unless an operand is constant)",
  "All assignments; constants are folded.",
  ["src/boolean_algebra.rs"])
P("C35", "Bounded and canonical splitting is enforced",
  "split_bounded(x,b) is satisfiable only if x < 2^b and then the bits are the binary digits of x; split(x) forces the bits to be the canonical digits of x (all assignments); split_allowing_ambiguity forces the bits to denote x or x + order.",
  "every prime order for which the call does not panic, every x, all assignments",
  "Non-canonical decompositions are exactly what honest tests never produce.",
  ["src/splitting.rs"])
P("C36", "Splitting is computed",
  "An honest execution of split, split_allowing_ambiguity and split_bounded (when x fits) succeeds and yields the binary digits of x.",
  "every prime order >= 11, every builder state, every x",
  "All inputs.",
  ["src/splitting.rs"])
P("C37", "assert_lt / assert_gt are enforced",
  "In every satisfying assignment of assert_lt(x,y) (assert_gt(x,y)) the representatives satisfy x < y (x > y); likewise for the _binary variants on boolean digit strings.",
  "every prime order for which the call does not panic, all x,y, all assignments",
  "Malicious masks and digit choices.",
  ["src/comparisons.rs: assert_lt, assert_gt, assert_lt_binary, assert_gt_binary, cmp, cmp_binary, cmp_subtractive"])
P("C38", "assert_le / assert_ge are enforced",
  "In every satisfying assignment of assert_le(x,y) (assert_ge(x,y)) the representatives satisfy x <= y (x >= y); likewise for the _binary variants.",
  "every prime order, all x,y, all assignments",
  "Only malicious prover choices distinguish.",
  ["src/comparisons.rs: assert_le, assert_ge, assert_le_binary, assert_ge_binary"])
P("C39", "Comparison results are enforced",
  "In every satisfying assignment lt, le, gt, ge (and the _binary variants) are 1 if the comparison holds and 0 if it does not.",
  "every prime order, all x,y, all assignments",
  "Malicious prover.",
  ["src/comparisons.rs: lt, le, gt, ge, lt_binary, le_binary, gt_binary, ge_binary"])
P("C40", "Comparisons are computed",
  "In an honest execution lt, le, gt, ge and their _binary forms return the correct truth value for all inputs, and the assert_ forms make execute return true exactly when the relation holds.",
  "every prime order >= 11, every builder state, all x,y",
  "The chunked comparison has many cases (position of the differing chunk); 2^510 input pairs.",
  ["src/comparisons.rs"])
P("C41", "The automatic chunk size is admissible",
  "For every field of at least 4 bits the chunk size picked for comparing field elements is optimal for the documented cost formula and small enough that the comparison never panics; in smaller fields every comparison panics. A comparison of digit strings panics exactly if their lengths differ, they are empty, or no chunk size leaving a spare bit is as cheap as the largest one.",
  "every field size",
  "For-all over field sizes.",
  ["src/comparisons.rs: cmp_chunk_bits, cmp_constraints, cmp_subtractive"])
P("C42", "modulus and divides are computed",
  "An honest execution of modulus(x,y) with y != 0 gives the integer remainder, and divides(x,y) tells whether x divides y.",
  "every prime order >= 11, every builder state, all x and non-zero y",
  "All inputs.",
  ["src/field_arithmetic.rs: modulus, divides"])
P("C43", "modulus and divides are enforced",
  "In every satisfying assignment modulus(x,y) equals the integer remainder of x by y, and divides(x,y) is the divisibility of y by x.",
  "every prime order, all assignments",
  "Malicious quotient.",
  ["src/field_arithmetic.rs: modulus, divides"])
P("C44", "Binary summation",
  "binary_summation / binary_sum equal the integer sum of the operands in every satisfying assignment, ignoring_overflow gives the sum modulo 2^(longest operand), asserting_no_overflow is satisfiable only if the sum fits; honest execution computes them; result lengths are as documented.",
  "every prime order, any number of operands of any lengths, all assignments",
  "Unbounded operand counts and lengths.",
  ["src/binary_arithmetic.rs"])
P("C45", "binary_assert_zero",
  "Satisfiable exactly when every bit is zero, for any length.",
  "every odd prime order, every bit-length, all assignments",
  "Chunking boundary.",
  ["src/binary_arithmetic.rs: binary_assert_zero"])
P("C46", "Bitwise logic",
  "bitwise_not/and/or/xor act on every bit position (hence on the denoted integers as the machine operations) in every satisfying assignment and in honest execution; operands of different length panic.",
  "every builder state, all lengths, all assignments",
  "Unbounded lengths.",
  ["src/bitwise_operations.rs"])
P("C47", "Rotations and shifts",
  "rotate_inc/dec by n and shift_inc/dec by n implement rotation and shift of the denoted integer for every length and every n, and rotate_dec undoes rotate_inc.",
  "all lengths, all shift amounts, all assignments",
  "Unbounded.",
  ["src/bitwise_operations.rs: bitwise_rotate_*, bitwise_shift_*"])
P("C48", "random_access returns the indexed item",
  "For every non-empty list and in-range index, random_access(index, items) equals items[index] in every satisfying assignment and in honest execution. With a separate assert_lt of the index and the length, as the documentation suggests, every satisfying assignment has the index in range.",
  "every list length, every index, all assignments",
  "Layered selection with odd layers; all lengths.",
  ["src/random_access.rs"])
P("C49", "random_access returns 0 out of range",
  "random_access(index, items) is 0 when the index is out of range, as documented.",
  "every list length, every index >= length",
  "Needs all (length, index) pairs.",
  ["src/random_access.rs"])
P("C50", "assert_permutation is enforced",
  "In every satisfying assignment of assert_permutation(a,b) the values of b are a rearrangement (as multisets) of the values of a, for any length.",
  "every length, all assignments",
  "n! permutations, recursive network, arbitrary switch settings.",
  ["src/verify_permutation.rs"])
P("C51", "assert_permutation accepts every permutation",
  "If the values of b are a rearrangement of those of a (repetitions allowed), the honest execution routes the network without panic and all constraints hold.",
  "every length, every permutation, every multiset of values",
  "n! permutations; the routing loop has panics guarding 'impossible' conflicts.",
  ["src/verify_permutation.rs: route, route_switch, enqueue_other_side", "src/bimap_util.rs"])
P("C52", "bimap_from_lists",
  "For equal-length lists it returns a bijection of indices matching equal values if the lists are rearrangements of each other, and panics otherwise.",
  "all pairs of lists",
  "All lists with repetitions.",
  ["src/bimap_util.rs: bimap_from_lists"])
P("C53", "Sorting is computed",
  "Honest execution of sort_ascending / sort_descending on n >= 1 expressions yields the same multiset in non-decreasing / non-increasing order and all constraints hold.",
  "every prime order >= 11, every n >= 1, all values",
  "All lists.",
  ["src/sorting.rs"])
P("C54", "Sorting is enforced",
  "In every satisfying assignment of sort_ascending the outputs are the sorted rearrangement of the inputs.",
  "every n >= 1, all assignments",
  "Malicious prover.",
  ["src/sorting.rs"])
P("C55", "Monomial permutations",
  "MonomialPermutation::new(n) succeeds exactly when x -> x^n is a permutation of the field; its inverse gadget terminates, is the unique n-th root in every satisfying assignment, and honest execution computes it.",
  "every prime order, every exponent, all assignments",
  "Root-exponent search loop; all fields.",
  ["src/permutations.rs: MonomialPermutation"])
P("C56", "Inverse permutation",
  "InversePermutation maps x to 1/x (0 to 0) and its inverse gadget undoes it, in honest execution; for non-zero inputs also in every satisfying assignment.",
  "every prime order > 2, all assignments",
  "All inputs.",
  ["src/permutations.rs: InversePermutation"])
P("C57", "MiMC decrypt inverts encrypt",
  "For every field where cubing is a permutation, any round constants, key and block: encrypt and decrypt are enforced and computed as the MiMC round function and its inverse; decrypt(k, encrypt(k, x)) = x.",
  "every admissible prime order, every constant list, key and block, all assignments",
  "All keys/blocks.",
  ["src/mimc.rs"])
P("C58", "Davies-Meyer and Miyaguchi-Preneel",
  "The compression gadgets equal E_y(x)+x and E_x(y)+x+y for the underlying cipher gadget's function E, in every satisfying assignment and in honest execution.",
  "every block cipher gadget, all inputs, all assignments",
  "Quantifies over ciphers.",
  ["src/davies_meyer.rs", "src/miyaguchi_preneel.rs"])
P("C59", "Merkle-Damgard",
  "hash(blocks) is the left fold of the compression function over the blocks and a final length block; two different messages with the same digest yield a collision of the compression function among the inputs it is given while the two are hashed (or the lengths are equal modulo the order).",
  "every compression function, all messages of any length",
  "Unbounded messages.",
  ["src/merkle_damgard.rs"])
P("C60", "Merkle trees",
  "merkle_tree_root computes the root along the path; assert_merkle_tree_membership is satisfiable only if the recomputed root equals the given one; for a binary tree built from leaves, honest paths verify, and two different leaves verifying at the same position give a collision of the compression function among the inputs it is given on the two paths (or on the path and in the tree).",
  "every compression function, all depths, all paths, all assignments",
  "Unbounded depth.",
  ["src/merkle_trees.rs"])
P("C61", "Sponge",
  "evaluate absorbs and squeezes as the sponge specification for any permutation, rate, input length and output length; result has the requested length.",
  "every permutation gadget, rate >= 1, all lengths",
  "Unbounded.",
  ["src/sponge.rs"])
P("C62", "Matrix-vector product",
  "The product of a matrix and a vector of expressions is the mathematical matrix-vector product (row i gives the inner product of row i with the vector).",
  "every matrix, every vector",
  "The shipped tests only check dimensions/values that do not distinguish.",
  ["src/matrices.rs: Mul for &ElementMatrix / &MdsMatrix"])
P("C63", "Poseidon and Rescue permutations",
  "permute is enforced and computed as the round function given by the parameters; every output coordinate depends on every input coordinate (diffusion).",
  "every parameter set, all inputs, all assignments",
  "All inputs.",
  ["src/poseidon.rs: permute", "src/rescue.rs: permute", "src/matrices.rs"])
P("C64", "Curve point construction",
  "EdwardsPoint::new panics exactly off the curve; an EdwardsExpression created from expressions is constrained to the curve in every satisfying assignment.",
  "all coordinates, all assignments",
  "All coordinates.",
  ["src/curves/edwards.rs: EdwardsPoint::new, EdwardsExpression::new"])
P("C65", "Edwards addition and doubling are computed",
  "Honest execution of add / double yields the Edwards sum / double, which is again a curve point, whenever the denominators do not vanish; on JubJub they never vanish. The denominators of a doubling vanish on no curve on which neither d nor a d is a square.",
  "all pairs of curve points",
  "Group of size 2^252.",
  ["src/curves/edwards.rs", "src/curves/jubjub.rs"])
P("C66", "Edwards addition is enforced",
  "In every satisfying assignment the result of adding two curve points is their sum.",
  "all assignments",
  "Malicious prover.",
  ["src/curves/edwards.rs: add_expressions, double_expression", "src/field_arithmetic.rs: quotient_unsafe"])
P("C67", "Scalar multiplication is computed",
  "Honest execution of mul_scalar_expression(P, s) yields s times P (s = canonical representative) for every scalar and point.",
  "all scalars, all points",
  "2^255 scalars.",
  ["src/group.rs: mul_scalar_expression, mul_boolean_expression"])
P("C68", "JubJub constants",
  "The JubJub base field order is prime, a = -1 is a square and d is a non-square (so the addition law is complete), and the shipped generator lies on the curve and generates a subgroup of the expected prime order.",
  "the shipped constants (facts over all field elements)",
  "Non-squareness quantifies over the field.",
  ["src/curves/jubjub.rs"])
P("C69", "Schnorr signature verification",
  "Honestly produced signatures (s = k - x*e) verify in honest execution; assert_valid_signature is satisfiable only if the recomputed hash equals e.",
  "all keys, nonces, messages",
  "All keys.",
  ["src/signature.rs"])
P("C70", "LCG is full-period, in-range",
  "next_u32 cycles through all 2^32 states before repeating; next_biguint(limit) and next_element return values below the limit; sequences are deterministic.",
  "all states, all limits",
  "2^32 period.",
  ["src/lcg.rs"])
P("C71", "Stand-alone evaluate helpers agree with the gadgets",
  "compress_evaluate, encrypt_evaluate, permute_evaluate, hash_evaluate etc. return the same value as the gadget computes in an honest execution.",
  "all inputs, all gadgets",
  "All inputs.",
  ["src/gadget_traits.rs"])
P("C72", "Permutation network size",
  "assert_permutation on n items uses exactly sum_{i=1}^{n} ceil(log2 i) switches (the AS-Waksman optimum).",
  "every n",
  "All n.",
  ["src/verify_permutation.rs"])
P("C73", "Wire order",
  "The order on wires is a total order in which the constant wire is larger than every other wire and other wires compare by index.",
  "all wires",
  "All pairs/triples.",
  ["src/wire.rs: Ord for Wire"])
P("C74", "Default exponent and round number of Rescue",
  "In every field of order above 3 the default exponent of Rescue is the smallest odd prime for which the power map is a permutation; the default number of rounds is at least 10 and twice the attack bound. The builder panics for width zero, without a matrix, and if a number of rounds and a security level are both given; after any sequence of calls of its setters it keeps the settings given last and otherwise takes the defaults, at 128 bits of security unless told otherwise.",
  "all field orders above 3, all widths and security levels",
  "All primes p, all widths.",
  ["src/rescue.rs: RescueBuilder::build, smallest_alpha, secure_num_rounds"])
P("C75", "Default S-box of Poseidon",
  "In every field of order above 3 the default S-box of Poseidon is a permutation of the field, and the cheapest of cubing, fifth power and inverse that is one. The builder panics without a matrix and if numbers of rounds and a security level are both given; after any sequence of calls of its setters it keeps the settings given last and otherwise takes the defaults, at 128 bits of security unless told otherwise.",
  "all field orders",
  "All primes p.",
  ["src/poseidon.rs: PoseidonSbox::default, PoseidonBuilder::build"])
P("C76", "Comparison size estimate",
  "The number of constraints which comparisons.rs estimates when it chooses a chunk size (cmp_constraints) is the number of constraints a strict comparison of bits adds, a non-strict comparison adds two more, and split and the comparisons of field elements add fixed numbers determined by it, whatever the operands.",
  "every field, every bit length, all operands",
  "Depends on the bit length of the field and on the operands; tests count nothing.",
  ["src/comparisons.rs: cmp_binary, cmp_constraints, cmp", "src/splitting.rs: split"])
P("C77", "Documented sizes of the elementary gadgets",
  "The gadgets add the numbers of constraints that their comments state or imply: a product one unless a factor is constant, an inverse and a non-zero assertion one, a zero test two, quotient_unsafe one, an Edwards addition seven, a power one per squaring and product, bitwise operations one per bit.",
  "all operands and builders",
  "Quantifies over operands; tests check values, not sizes.",
  ["src/field_arithmetic.rs", "src/boolean_algebra.rs", "src/binary_arithmetic.rs", "src/bitwise_operations.rs", "src/curves/edwards.rs: add_expressions"])
P("C78", "Sizes of permutation, sorting and random access circuits",
  "A permutation check of n expressions adds two constraints per switch of the network and one per item, with n ceil(log n) - 2^ceil(log n) + 1 switches; sorting adds that, one split per item and one comparison per neighbouring pair; random access adds ceil(log n) + n constraints.",
  "every length, all distinct expressions; upper bounds for arbitrary ones",
  "All lengths.",
  ["src/verify_permutation.rs", "src/sorting.rs", "src/random_access.rs", "README.md"])
P("C79", "Examples of the README",
  "The three examples of the README do what they say: the cube gadget computes and enforces the cube, the custom inverse gadget enforces and computes the inverse of non-zero values, and the hash example computes the Merkle-Damgard hash of its blocks.",
  "all inputs, all numbers of blocks, all fields",
  "The README is not compiled or run; quantifies over fields and inputs.",
  ["README.md:44-45", "README.md:86-94", "README.md:112-132"])
P("C80", "Numbers of rounds of Poseidon",
  "For every S-box, width and security level the search for the numbers of rounds terminates, starts from at least 6 and an even number of full rounds, returns the numbers resisting the attacks of the paper with the fewest S-boxes, and padding them keeps them secure.",
  "all fields, S-boxes, positive widths and security levels",
  "Infinitely many widths and levels; optimality quantifies over all alternatives.",
  ["src/poseidon.rs: secure_num_rounds_padded, secure_num_rounds_unpadded, secure_partial_rounds_unpadded, is_attackable, num_sboxes"])
P("C81", "Number of rounds of MiMC",
  "The number of rounds recommended for MiMC is the least r with 3^r at least 2^n for an order of n bits, and the default instance exists and is, under every key, a polynomial of degree exceeding the order.",
  "all fields, all keys",
  "All fields and keys; degree of a polynomial.",
  ["src/mimc.rs: mimc_recommended_rounds, Default for MiMCBlockCipher"])
P("C82", "Text forms are unambiguous",
  "Parsing the text of an element gives the element back, and parsing any other text gives an element or an error; the text of an expression and of a constraint determines it; the helpers join and concat behave like the standard ones they replace.",
  "all elements, strings, expressions and constraints",
  "All strings and all expressions; injectivity relates pairs.",
  ["src/field.rs: FromStr for Element, Display for Element", "src/expression.rs: Display for Expression", "src/constraint.rs: Display for Constraint", "src/wire.rs: Display for Wire", "src/util.rs: concat, join"])

P("C83", "Sizes of ciphers, hashes and permutations",
  "MiMC encryption adds two constraints per round and decryption three; turning a cipher into a compression function is free; a Merkle-Damgard hash costs one compression per block and one for the length, a Merkle path one selection and one compression per level; Poseidon costs one S-box per item in full rounds and one per partial round, Rescue two powers and one equation per item and round; a sponge permutes once per started group of bitrate inputs and once per further group of outputs.",
  "all fields, round constants, numbers of rounds, matrices, ciphers, messages, paths and builders",
  "Sizes for every number of rounds, blocks and levels; constant folding makes the number depend on the expressions.",
  ["src/mimc.rs: MiMCBlockCipher::encrypt, decrypt", "src/davies_meyer.rs: compress", "src/miyaguchi_preneel.rs: compress", "src/merkle_damgard.rs: hash", "src/merkle_trees.rs: merkle_tree_root, assert_merkle_tree_membership", "src/poseidon.rs: permute", "src/rescue.rs: permute", "src/sponge.rs: evaluate"])

P("C84", "Gadgets mind their own wires",
  "The generators which any gadget of the library adds set only wires which the same call allocated, only wires without a value, and depend only on the wires they declare as inputs and on the wires of the same call. Gadgets taking an implementation of a trait do so if that implementation does, and so do all compositions.",
  "every gadget of the library, all fields, operands and builders",
  "A generator reading an undeclared wire works or panics depending on the rest of the circuit; tests see only the circuits tried.",
  ["src/gadget_builder.rs: generator, wire", "src/witness_generator.rs: WitnessGenerator", "src/gadget.rs: execute", "src/field_arithmetic.rs", "src/splitting.rs", "src/comparisons.rs", "src/verify_permutation.rs", "src/sorting.rs"])
P("C85", "Gadgets compute their results in every circuit",
  "In every circuit made of gadgets that mind their own wires, whenever an execution returns, accepting or not, the result of each call has the value it should have for the final values of the operands: products, powers, quotients, tests, selections, connectives, splits, comparisons, remainders, sorted lists, hash values. In particular an execution that returns has not divided by zero.",
  "all circuits of such parts, all values supplied for the other wires, whether or not the constraints hold, all fields of at least 4 bits (less for some gadgets)",
  "Quantifies over all surrounding circuits and over executions that violate constraints elsewhere.",
  ["src/gadget.rs: execute", "src/field_arithmetic.rs", "src/boolean_algebra.rs", "src/splitting.rs", "src/comparisons.rs", "src/sorting.rs"])

P("C86", "The relation defined by the constraints of each gadget",
  "For every gadget the values which its result can take in a satisfying assignment extending a given one are determined exactly, whether or not they are the intended ones: e.g. lt admits 0 always and 1 exactly if x < y; a remainder by y may be any number below y; splits admit the digits of the value (allowing ambiguity: or of the value plus the order); a sorted list may be any rearrangement; random access with index i yields the last item whose index has only binary digits of i; a Schnorr signature is admitted iff e is the hash of the message with some element.",
  "all fields (of at least 4 bits for comparisons), operands, builder states and satisfying assignments of them",
  "An equivalence between the existence of a satisfying assignment and a relation, for all operands and circuits; the witness generators, which tests run, play no role.",
  ["src/field_arithmetic.rs", "src/gadget_builder.rs: nonzero", "src/splitting.rs", "src/comparisons.rs", "src/binary_arithmetic.rs", "src/bitwise_operations.rs", "src/random_access.rs", "src/verify_permutation.rs", "src/sorting.rs", "src/curves/edwards.rs", "src/signature.rs"])

P("C87", "Circuits calculate what their code says",
  "Straight-line code calling the gadgets of the library on field elements, booleans and digit strings means a calculation with numbers, truth values and digits, which may be undefined (division by zero, failing assertion, value out of range). The circuit can be built and an execution on the inputs alone is accepted exactly if that calculation is defined, and then every object of the code has the value calculated. If the code only uses gadgets which pin their results down, the same holds for every assignment satisfying the constraints: they can be satisfied for given inputs exactly if the calculation is defined, and give every object its value.",
  "all lists of instructions over 79 gadgets (and any function with a sound and complete implementation), all inputs, all fields of at least 4 bits",
  "Quantifies over all programs written with the library and all inputs; tests run one program on one input and never look at other satisfying assignments.",
  ["src/gadget_builder.rs: build", "src/gadget.rs: execute", "src/field_arithmetic.rs", "src/boolean_algebra.rs", "src/splitting.rs", "src/comparisons.rs", "src/binary_arithmetic.rs", "src/bitwise_operations.rs", "src/random_access.rs", "src/verify_permutation.rs", "src/sorting.rs", "src/curves/edwards.rs", "src/group.rs", "src/signature.rs", "src/merkle_trees.rs"])

P("C88", "How executions of circuits end",
  "For straight-line code as in C87 (without assert_boolean) and given inputs, it can be read off the code whether building and executing its circuit panics, returns false or returns true: equalities, products, truth, comparisons, the absence of overflow and of nonzero digits, and permutations of single elements are reported by returning false; a zero divisor, a failing inequality, an element out of range of a bounded split or an index, two longer lists which are not permutations of each other, and operands of wrong lengths panic. Even when false is returned, every object of the code has the value calculated, those after the failing assertion included.",
  "all lists of instructions over 79 gadgets (and any function with a sound and complete implementation), all inputs, all fields of at least 4 bits",
  "Quantifies over all programs and all inputs; tells failures apart which users see as a panic or as a result.",
  ["src/gadget_builder.rs: build", "src/gadget.rs: execute", "src/field_arithmetic.rs", "src/splitting.rs", "src/comparisons.rs", "src/binary_arithmetic.rs", "src/random_access.rs", "src/verify_permutation.rs"])

P("C89", "Rounding errors in the numbers of rounds",
  "Calculated in floating point instead of exactly, with every operation rounded to the nearest number of the format binary64 of IEEE 754 and logarithms accurate to 8 units in the last place, the numbers of rounds remain right: the search of Poseidon terminates, differs from the exact one by at most one partial round, takes at most one S-box more than any secure choice, and after padding resists the attacks exactly; the number of rounds of MiMC is exactly the least r with 3^r at least 2^n. No intermediate result overflows or underflows.",
  "all fields, S-boxes, positive widths and security levels summing to at most 2^40, all implementations of the logarithms of that accuracy; for MiMC orders of at most 4096 bits (up to one round: 2^40 bits)",
  "Quantifies over all roundings allowed to the mathematical library, which differs between platforms; comparisons near a tie cannot be found by testing.",
  ["src/poseidon.rs: secure_num_rounds_padded, secure_num_rounds_unpadded, secure_partial_rounds_unpadded, is_attackable", "src/mimc.rs: mimc_recommended_rounds"])

P("C90", "Uniqueness of the witness",
  "Exactly when the values of the operands determine every wire a gadget allocates, auxiliary ones included: always for arithmetic, assertions, booleans, digits, strict asserted comparisons, access to lists, MiMC, Poseidon with powers, Rescue and the hash constructions on them; for tests against zero exactly off zero; for ambiguous splitting, comparisons, remainders and switches under exactly stated conditions; for permutation networks exactly if no two settings of the switches carry the given values to their places, which fails for three or more elements left in order; for sorting exactly with at most one element; never for adding, doubling and multiplying points by scalars; for verifying signatures exactly if the constraints cannot be satisfied; and straight-line code from gadgets of the first kinds has exactly one witness for inputs if no test finds a zero, and several otherwise.",
  "all fields (of at least 4 bits for comparisons, sorting and circuits, of order above 2 for points), builders, satisfying assignments, operands, circuits and inputs",
  "Speaks of all assignments satisfying the constraints, not of the one that witness generation finds; a second witness, the means to alter a proof without altering what it proves, shows in no test.",
  ["src/field_arithmetic.rs: product, exponentiation, inverse, inverse_or_zero, quotient, quotient_unsafe, modulus, divides", "src/gadget_builder.rs: nonzero, zero, equal, selection, assert_product", "src/boolean_algebra.rs: and, or, xor", "src/comparisons.rs: lt, le, assert_lt, assert_le, cmp_binary", "src/splitting.rs: split, split_bounded, split_allowing_ambiguity", "src/verify_permutation.rs: assert_permutation_2x2, assert_permutation, assert_permutation_recursive, create_switch", "src/sorting.rs: sort_ascending, sort_descending", "src/random_access.rs: random_access", "src/merkle_trees.rs: merkle_tree_root", "src/curves/edwards.rs: add_expressions, double_expression", "src/group.rs: mul_scalar_expression, mul_boolean_expression", "src/signature.rs: verify"])

P("C91", "Signatures and Merkle paths in circuits",
  "Points, signatures and Merkle paths are instructions of the straight-line code of C87, C88 and C90. On a complete curve those for points calculate in the group of the curve and never panic; doubling and adding agree on the curve. A circuit verifying a signature with a public key returns whether the hash of the second coordinate of s g + e Y and the message is e if the key is on the curve, and never true otherwise. A circuit checking a Merkle path of any length panics if the index is too large for the path, otherwise returns whether hashing along the path leads to the root; its constraints can be satisfied for exactly the inputs for which it returns true, and by one witness only if the hash function determines its wires.",
  "all complete curves, points, scalars, messages, hash functions with sound and complete implementation, paths with fewer siblings than field elements have digits, all inputs, all fields of at least 4 bits",
  "Quantifies over curves, hash functions and paths of any length; covers panics and, for paths, all satisfying assignments.",
  ["src/curves/edwards.rs: EdwardsExpression::new, add_expressions, double_expression", "src/group.rs: mul_scalar_expression", "src/signature.rs: verify", "src/merkle_trees.rs: assert_merkle_tree_membership, merkle_tree_root", "src/splitting.rs: split_bounded", "src/gadget.rs: execute"])

P("C92", "Number of passes over the pending generators",
  "Executing straight-line code (C87) takes few passes over the pending generators, however long the code is: if the last pass needed by its worst instruction is d, all generators have run after at most d + 1 passes, and the loop ends after one more. d is 0 for all gadgets except modulus, divides, decryption and Rescue (1), checking a permutation of n elements (the logarithm of n rounded up) and sorting (one more). No generator is left waiting for inputs, so the assertion after the loop of execute never fails, and stopping the loop after d + 2 passes makes no difference. The bound is attained: modulus, divides, roots, decryption and Rescue need a second pass, a permutation network of n elements needs all its passes (of two elements, if their difference is not constant) and sorting one more, whatever else the circuit contains and whatever values other wires have; code whose worst instruction is one of these takes exactly d + 1 passes on all inputs on which it returns.",
  "all straight-line code over all gadgets of C87, all hash functions and ciphers with the stated bound, all starting values including the constant and the inputs, all fields",
  "Quantifies over code of any length, over lists of any length and all values; the order of generators shows in running time only, so no test of results notices it (a comment in the code asks for a better enumeration).",
  ["src/gadget.rs: execute", "src/field_arithmetic.rs: modulus", "src/verify_permutation.rs: assert_permutation", "src/sorting.rs: sort_ascending", "src/permutations.rs: inverse", "src/comparisons.rs: cmp_binary", "src/rescue.rs: permute", "src/mimc.rs: decrypt"])

P("C93", "Panics while building, results and sizes from forms",
  "Whether building straight-line code (C87) panics, the kinds of its objects, the lengths of its digit strings and a bound on the number of constraints can be calculated from the kinds of the operands and the lengths of digit strings alone. Building panics exactly if that calculation fails, on every builder; otherwise the objects are as calculated, and at most the calculated number of constraints is added. If executing the code returns for some inputs, the values have the calculated kinds and lengths; the numbers for two pieces of code add up. The ciphers, compression functions and hashes of the crate meet the conditions asked of functions used as parameters.",
  "all straight-line code over all gadgets of C87, all builders, all functions and hashes which never panic and have a bound on their constraints, all inputs, all fields of order above 8",
  "Quantifies over code and operands of any length and all builders; a panic which depends on the length of a digit string or list is met only by tests with that length.",
  ["src/gadget_builder.rs: GadgetBuilder", "src/comparisons.rs: cmp_binary, cmp_constraints", "src/splitting.rs: split, split_bounded", "src/binary_arithmetic.rs: binary_summation", "src/bitwise_operations.rs: bitwise_and, bitwise_shift_dec_significance", "src/random_access.rs: random_access", "src/verify_permutation.rs: assert_permutation", "src/sorting.rs: sort_ascending", "src/group.rs: mul_scalar_expression", "src/merkle_trees.rs: MerklePath::new", "src/poseidon.rs: permute"])

P("C94", "Exactly what the constraints of any code admit",
  "For straight-line code calling any gadgets of C87, also those which do not pin their results down, the values which an assignment satisfying the constraints can give to the objects are exactly those described gadget by gadget by a relation between values: every satisfying assignment gives admitted values, and all admitted values can be had. What the code means is admitted; code is sound if and only if it admits nothing else, and every gadget regarded as not pinning its result down admits something else. Sound code can be put together from blocks which leave no choice: a strict comparison whose result is asserted, inverse_or_zero and quotient_unsafe with their defining equation asserted, sorting with strictly ascending results asserted, ambiguous splitting with digits asserted to be below the order. Asserting the result of a non-strict comparison, or denying a strict one, can be satisfied whatever the operands.",
  "all straight-line code over all gadgets of C87, all numbers of inputs, all inputs, all values, all satisfying assignments, all fields of order above 8",
  "Quantifies over code, all assignments satisfying its constraints and all values an adversarial prover might choose; tests run the honest witness generators only.",
  ["src/gadget_builder.rs: GadgetBuilder", "src/field_arithmetic.rs: inverse_or_zero, quotient_unsafe, modulus, divides", "src/comparisons.rs: lt, le, gt, ge, cmp, assert_lt, assert_le", "src/splitting.rs: split_allowing_ambiguity", "src/sorting.rs: sort_ascending, sort_descending", "src/curves/edwards.rs: add_expressions, double_expression", "src/group.rs: mul_scalar_expression", "src/signature.rs: verify"])

P("C95", "Rescue, Poseidon and sponges over them in closed form",
  "With the matrix product that the code computes (C62) both permutations treat every position separately. Rescue is linear: output i is input i times a constant, the product of the sum of row i and its root, to the number of rounds. Output i of Poseidon with the S-box x^3 or x^5 is a constant times a power of input i; with the inverse as S-box and row sums other than zero, a constant times input i or a constant divided by it. In a sponge over such a permutation the capacity never changes; a digest over Rescue is a linear function of the message with known coefficients; for every message of two chunks or more and every other first chunk there is a second chunk giving the same digest of any length, whatever S-box and matrix; and if no row sum is zero and the S-box is onto (as that of Rescue is) every digest of one block has a preimage of one chunk. The circuits enforce these formulas.",
  "all prime fields above 2, all S-boxes, matrices, numbers of rounds, rates and capacities, messages of all lengths, all lengths of digests, all satisfying assignments",
  "Quantifies over all parameters and messages; a test vector of a permutation shows a value, not that other inputs collide or that the function is linear.",
  ["src/rescue.rs: permute, pi_1, pi_2", "src/poseidon.rs: permute, sbox_permute", "src/matrices.rs: Mul", "src/sponge.rs: evaluate"])
P("C96", "What the hash constructions allow without collisions",
  "The digest of a message followed by its length and further blocks is calculated from the digest and length of the message alone (length extension), also on circuits. The root of a Merkle tree is the root of the shallower tree which has the nodes of some depth as leaves, and assert_merkle_tree_membership accepts the hash at any inner node with a path of that length; nothing else can be confused: a path shorter than the tree is deep proves only the hash at the node its turns lead to, unless there is a collision among the calls on the path and in the tree. Davies-Meyer over MiMC has exactly one chaining value which a given block leaves unchanged, found by decryption; such a block can be inserted any number of times, changing only the block for the length.",
  "all compression functions (fixed points: all MiMC instances), messages, numbers of blocks, depths, leaves, positions, all satisfying assignments",
  "Attacks on the construction, and the absence of others, for all messages and depths.",
  ["src/merkle_damgard.rs: hash", "src/merkle_trees.rs: merkle_tree_root, assert_merkle_tree_membership", "src/davies_meyer.rs: compress", "src/mimc.rs: encrypt, decrypt"])

P("C97", "What a Schnorr signature fixes",
  "The second coordinate, by which points are represented in hashes (edwards.rs leaves open whether that is valid), determines a point of an Edwards curve exactly up to its sign. With the rest of an accepted signature unchanged, verify accepts every other scalar s' which gives the same point or its negative, and no others if the hash is injective in the point: in terms of the private key x, those congruent to s or to -s - 2xe modulo the order of the generator. On JubJub every signature with a scalar small enough has a twin with s + 8r. Under a public key of order n, everything with a hash divisible by n can be signed without a private key; the neutral point and a point of order 2 are on every curve. A signature does not fix the key: for every point, scalar and message there is a key accepting it as long as the hash is invertible modulo the order of the difference.",
  "all complete Edwards curves, compression functions with a specification, signatures, messages, keys and honest executions",
  "Malleability is a matter of all scalars for all signatures.",
  ["src/signature.rs: verify", "src/curves/edwards.rs: compressed_element, compressed", "src/curves/jubjub.rs"])

P("C98", "The constants drawn from the generator",
  "The last k bits of the states have period 2^k. In fields of at least 32 bits, an element determines the state it leaves the generator in, hence all elements drawn later; the last k bits of all elements drawn are the same if 2^k divides the number of 32-bit chunks; over both shipped fields every element drawn from the initial state is 7 modulo 8; elements drawn are pairwise different up to a bound given by the order, which is above a hundred million for the shipped fields. The default initial value of a Merkle-Damgard hash is the first round constant of the default MiMC cipher over the same field.",
  "all field orders, generator states, numbers of elements, including any number of rejected attempts",
  "The period of 2^32 states and the number of rejected attempts are out of reach of testing.",
  ["src/lcg.rs: next_u32, next_element, next_biguint, next_biguint_bits", "src/mimc.rs: default", "src/merkle_damgard.rs: new_defaults"])

P("C99", "Values given in advance, and executing twice",
  "The generators of all gadgets except permutation networks and sorts set the same wires in every execution. For a circuit of such gadgets there is a fixed list of wires, for straight-line code exactly the wires after the inputs, such that every execution which returns was given a value for none of them, gives a value to each, and changes nothing else; so execute panics if a calculated wire is given in advance, even with the right value. No execution which calculated anything can be repeated on its result; this includes networks and sorts. Executing the constraints without the generators on the result returns it with the same verdict. Permutation networks do accept some switches set in advance.",
  "all programs from these gadgets (any functions with the same properties as parts), all values handed to execute, accepting and rejecting executions",
  "A test gives the inputs and nothing else, once.",
  ["src/gadget.rs: execute", "src/wire_values.rs: set, set_boolean, set_binary_unsigned", "src/gadget_builder.rs: generator", "src/verify_permutation.rs: route, assert_permutation", "src/sorting.rs: sort_ascending"])

P("C100", "Circuits do not depend on the numbers of their wires",
  "Called with renumbered operands on a builder whose next wire has the new number, every gadget allocates the renumbered wires, adds the renumbered constraints and generators which do the same on them, returns the renumbered results, or panics when it would panic otherwise; it does not look at what else the builder holds. So do calls one after another, all constructions with parts of this kind, and straight-line code. Renumbered constraints are satisfied by the same values, and executing renumbered circuits is executing the circuit: the same values, verdicts and panics, other wires left alone. So a circuit put into a builder with other wires, constraints and generators adds exactly the circuit it is in a new builder, with the numbers of wires shifted. A call names only wires allocated before and its own: its results, constraints and generators concern no other wires.",
  "all strictly increasing renumberings which keep the constant wire, all builders, operands, assignments and values handed to execute",
  "Tests use a builder of their own, starting from the first wire.",
  ["src/gadget_builder.rs: wire, wires, boolean_wire, binary_wire, generator, assert_product, build", "src/gadget.rs: execute", "src/expression.rs: Expression, BooleanExpression, BinaryExpression", "src/field_arithmetic.rs", "src/comparisons.rs", "src/verify_permutation.rs", "src/merkle_trees.rs", "src/group.rs", "src/signature.rs"])

P("C101", "Parts which do not use one another do not disturb one another",
  "Two gadgets whose generators write different wires, and neither of which names wires of the other, execute together as they do apart: if each returns then so do both together, every wire has the value which its own part gives it, and the verdict is that both accept; both together accept only if each accepts. The order of the parts makes no difference. So a call made after another one whose result it does not use adds what it would add without it, in shifted wires, and circuits over the same inputs, built one after the other, are satisfied by an assignment, or accept values, if and only if each of them does, in either order. They panic together if and only if one of them panics by itself, and otherwise the verdict is that both accept; neither depends on which of them is built first.",
  "all gadgets apart from each other, all tidy calls which do not depend on the numbers of wires, all straight-line circuits, all values handed to execute",
  "Tests build one circuit per builder and never compare a circuit with its parts.",
  ["src/gadget.rs: execute", "src/gadget_builder.rs: build, wires, generator", "src/wire_values.rs"])

P("C102", "Every loop of the crate ends, or it is known when it does not",
  "The loops of execute, is_prime, smallest_alpha, random_access, Sponge::evaluate, route and the search for Poseidon's rounds end from every state, sensible or not, with a result or a panic, and the recursion of assert_permutation comes down to lists of at most two items. The loop of next_biguint goes on forever exactly when a whole period of the generator holds no number in range, and the search for the exponent of an n-th root goes on forever exactly when n is not coprime to p - 1; otherwise it takes fewer than n iterations, and one for a cube root. The bounds on iterations which the model carries, Lean's functions being total, are never what decides: a loop of the model and the same loop without a bound have the same outcome.",
  "all states of all loops, including unreachable ones; all fields; all permutations inside a sponge; all widths and security levels for the rounds in real numbers, those adding up to at most 2^40 for rounded numbers",
  "A test which does not end says nothing about why; no test can show that a loop ends for all inputs, or that it never does.",
  ["src/gadget.rs: execute", "src/field.rs: is_prime", "src/rescue.rs: smallest_alpha", "src/lcg.rs: next_biguint", "src/permutations.rs: inverse", "src/sponge.rs: evaluate", "src/verify_permutation.rs: route, assert_permutation", "src/random_access.rs: random_access", "src/poseidon.rs: secure_num_rounds_unpadded, secure_partial_rounds_unpadded"])

P("C103", "Machine integers",
  "With the integers of the machine in the place of natural numbers, and lists accessed by index as in the code, rotations towards more significant bits, shifts, random access, comparisons, permutation networks with their routing, and sorting do the same for all operands which fit into memory, with or without overflow checks. Four functions can overflow, depending on an argument which is not the length of a list: rotations towards less significant bits, Sponge::new, the number of rounds of Rescue, and Poseidon. With overflow checks they panic exactly then; without, a rotation is wrong unless the number of bits is a power of two, a sponge may get a bitrate larger than its width, Rescue may get the minimum of 10 rounds for any security level, and a Poseidon permutation may do nothing. A program whose wires come from a 32-bit counter does what the program with an unbounded counter does until the counter overflows, and with overflow checks does nothing else; without, the next wires are the constant wire and old wires.",
  "all word sizes, both settings of overflow checks, all operands, all distances and parameters, all programs over a builder",
  "Operands close to 2^64 are in no test, and tests run in debug builds only, where overflows panic.",
  ["src/bitwise_operations.rs", "src/random_access.rs", "src/comparisons.rs: cmp_constraints, cmp_chunk_bits, cmp_subtractive", "src/verify_permutation.rs", "src/sorting.rs: sort_ascending", "src/sponge.rs: new", "src/rescue.rs: secure_num_rounds, integer_division_ceil", "src/poseidon.rs", "src/gadget_builder.rs: wire"])

P("C104", "Stored data",
  "On the data which the code stores (bare numbers whose range is checked whenever an element is built or cloned, sorted maps built by insertions), every implementation of an operator on elements and on expressions - for owned and borrowed operands, for u128 operands, and in place - has the value of the operation modulo the order, and panics exactly when an operand given as u128 is not below the order, a divisor is zero (or the order is 2), or a shifted number is not below the order. For any order, prime or not, no operation returns an element out of range. The maps of wire values behave like partial functions, of which they are the only representation; indices of equal elements are paired in the same way; executions on them panic, reject and accept like those of the model and end with the same values. The decimal literals of the crate denote the numbers of the model.",
  "all prime orders (range: all orders), all elements, numbers, canonical expressions, maps, and gadgets with generators which agree",
  "There are more than 70 implementations of operators, most of which no test calls; a swapped operand in one of them shows up only in code which uses this one.",
  ["src/field.rs", "src/expression.rs", "src/wire_values.rs", "src/matrices.rs", "src/constraint.rs: evaluate", "src/gadget.rs: execute", "src/bimap_util.rs: bimap_from_lists", "src/curves/jubjub.rs"])

P("C105", "Executions on the stored data",
  "On a map of wire values, each of the thirteen closures which the crate hands to witness generators - transcribed statement by statement, on bare numbers and sorted maps - declares the inputs which the generator of the model declares, panics exactly when it does, and else leaves a map which holds the same values. Whatever gadgets, straight-line code and compositions of calls are built from, they add only such closures. So the gadget of straight-line code, executed on the map in which the inputs have been set one after the other, panics, rejects and accepts like the model: it is accepted if and only if the code has a meaning for the inputs, and then every object evaluates on the final map to its value.",
  "all primes (meanings: of at least 4 bits), all circuits, inputs, maps and values, and all calls composed of those of the crate",
  "The closures run only in executions, and their order of writes, reversed loops and index arithmetic matter only on some inputs; tests execute few gadgets on few inputs.",
  ["src/field_arithmetic.rs", "src/gadget_builder.rs: nonzero", "src/splitting.rs", "src/comparisons.rs", "src/binary_arithmetic.rs", "src/verify_permutation.rs: route", "src/sorting.rs", "src/permutations.rs", "src/gadget.rs: execute"])

P("C106", "Gadgets are rank-1 constraint systems",
  "The documentation defines an instance by three matrices A, B, C over a prime field and asks for a witness vector w with Aw o Bw = Cw. With the coefficients of the constraints as rows, the assignments satisfying the constraints of a gadget are the solutions of such an instance whose entry for the constant wire is 1, and an execution which returns says true exactly if its final values solve the instance. For circuits, all constraints mention allocated wires only, a solution with given inputs exists exactly if the code admits them, and executing the gadget on inputs for which the code has a meaning extends them to a solution. Conversely every instance is that of a gadget which can be built. (Without the constant, the zero vector would solve every instance.)",
  "all primes (circuits: of at least 4 bits), gadgets, assignments, executions, circuits, inputs and matrices",
  "Matrices are never formed by the crate; backends form them from the constraints, and whether they state the same problem is about all assignments.",
  ["src/constraint.rs", "src/gadget.rs: execute", "src/gadget_builder.rs: assert_product", "src/expression.rs"])

P("C107", "Booleans are 0 or 1 and results can be read",
  "A boolean expression has been constrained in such a way that it can only equal 0 or 1, and a binary expression is a vector of such: in every assignment satisfying the constraints of a circuit, whatever gadgets it calls and whatever the inputs, every boolean expression and every digit which the code got is 0 or 1. An execution which returns has given values to all wires of the circuit and no others, and evaluating any object of the code returns the value calculated for it without a panic, even if the execution returned false; the exception is a rejected assert_boolean, after which evaluating the boolean expression panics. Even then, and on whatever further values execute was called, evaluating any expression the code got returns, and evaluating a boolean expression or digit panics only if it has a value other than 0 and 1.",
  "all circuits over 79 gadgets, all inputs, all assignments, all fields of at least 4 bits",
  "The types are enforced by constraints, not by the compiler: a missing constraint shows only for a dishonest witness, and a wire without a value only where that result is read.",
  ["src/expression.rs: evaluate", "src/gadget_builder.rs: assert_boolean", "src/gadget.rs: execute", "src/wire_values.rs"])

P("C108", "The points of JubJub",
  "JubJub has exactly 8 r points, r being the prime which jubjub.rs has in mind. The point given as generator of the prime subgroup generates the whole curve: every point of the curve is what mul_scalar_element makes of the generator and a scalar, and of only one scalar below 8 r. The points of the subgroup of prime order are those which r annihilates, or what is the same, the multiples of 8; there are r of them, and multiplying by the scalar r tells them from the others. Eight points are annihilated by 8. Every point of the curve is a public key with a private key: for every nonce and message there is exactly one s below 8 r with which the signature verifies.",
  "all points of the curve, scalars, keys, nonces, messages and compression functions",
  "The curve has about 2^255 points and the code has no test of the generator at all, only a TODO; the number of points is a statement about all of them.",
  ["src/curves/jubjub.rs", "src/curves/edwards.rs", "src/group.rs: mul_scalar_element", "src/signature.rs: verify"])
P("C109", "Groups whose additions are constrained",
  "Let the additions and doublings of an implementation of Group be constrained: every satisfying assignment gives their results the coordinates of the sum. Then the result of mul_boolean_expression is constrained to the element or the identity, and the result of mul_scalar_expression to the multiple by the scalar, or by the scalar plus the order of the field if that has no more bits than the order minus one. Both cases occur, unless the order of the field annihilates the element or the scalar is split by split; on JubJub the multiple of the generator by a scalar of value zero need not be the identity. An assignment satisfying verify gives e the hash of the message and of s g + e Y, for one of the two representatives of s and of e, and whenever e is such a hash the constraints can be satisfied. With quotient in the place of quotient_unsafe every complete Edwards curve is such a group, and still computes its operations.",
  "all groups, implementations with constrained additions, elements, booleans, scalars, signatures, messages, keys and satisfying assignments",
  "Tests execute honestly and never search for other assignments; the second representative of a scalar never occurs in an honest execution.",
  ["src/group.rs: mul_boolean_expression, mul_scalar_expression", "src/signature.rs: verify", "src/curves/edwards.rs: add_expressions"])

P("C110", "Sizes of scalar multiplications and signature verification",
  "Doubling a point whose coordinates are not constant adds 3 constraints. Multiplying it by a scalar adds 11 constraints for each bit of the order, less one, whatever the scalar; multiplying a constant point, such as a generator, saves only 5 of these, since already its double is no constant. Verifying a signature adds 22 constraints for each bit of the order, less one, and those of the compression function. On JubJub these are 2804, 2799 and 5609 constraints.",
  "all curves and fields of odd order, all scalars, points, signatures, messages and builders",
  "The numbers depend on which expressions product recognises as constants in which round, for every length of the scalar; a test counts the constraints of one circuit.",
  ["src/group.rs: mul_scalar_expression, mul_boolean_expression", "src/curves/edwards.rs", "src/signature.rs: verify", "src/field_arithmetic.rs: product"])

P("C111", "Every gadget gives values to its own wires",
  "Every wire which a gadget takes is set by one of the generators which the same call adds, whenever that generator returns. So after an execution which returns, true or false, exactly the wires of the circuit have values, besides those which had values before; and execute panics for one reason only: a generator panics although its inputs have values. No generator is left without inputs and no constraint meets a wire without a value, on whatever values execute is called as long as the constant and the inputs are among them.",
  "all straight-line code over the crate's gadgets, also with casts to booleans which turn out wrong; all initial values with the constant and the inputs among them; all parameters",
  "A forgotten wire (a switch which the routing skips, a mask bit beyond the last chunk) matters only for some sizes and values; a test runs a few executions which succeed.",
  ["src/gadget.rs: execute", "src/gadget_builder.rs: wire, generator", "src/field_arithmetic.rs", "src/splitting.rs", "src/comparisons.rs: cmp_binary", "src/verify_permutation.rs: assert_permutation_recursive, route", "src/sorting.rs", "src/permutations.rs: inverse"])
P("C112", "The order in which generators run does not matter, panics included",
  "The generators which a gadget adds have wires of their own: each sets only its own wires, keeps all values there are, and what it does, panicking included, depends on its declared inputs and its own wires only; no wire belongs to two of them. So execute with the generators of a circuit in any other order does the same on every map of values: it panics exactly when execute does and otherwise returns the same values and the same verdict. Nor does it matter which of the generators that are ready runs next: whoever runs generators one by one, each once and when its inputs have values (for instance with the queue which a comment in execute plans), comes to the result of execute. With the constant and the inputs among the values, the order of the constraints does not matter either.",
  "all straight-line code over the crate's gadgets, and every program whose generators have wires of their own; all permutations and schedules; all values, also those on which execute panics",
  "n! orders, and values on which several generators panic; tests run the one order there is.",
  ["src/gadget.rs: execute", "src/gadget_builder.rs: build, generator", "src/witness_generator.rs", "src/field_arithmetic.rs", "src/splitting.rs", "src/comparisons.rs: cmp_binary", "src/verify_permutation.rs: assert_permutation_recursive, route", "src/sorting.rs", "src/permutations.rs: inverse"])
P("C113", "Circuits may be executed in stages; later code leaves earlier code as it is",
  "Executing a circuit is executing the first part of its code and then, on the values which that leaves, the constraints and generators which the rest of the code adds: it panics if and only if one of the two panics, the values are those of the second execution, and the verdict is that both accept. So code which follows neither rescues nor disturbs what comes before it: if the first part panics then so does the whole, if the first part rejects then the whole does not accept, and the wires of the first part have the same values in the whole.",
  "all straight-line code over the crate's gadgets and every place to divide it; all values with the constant and the inputs among them, also those on which execute panics or rejects",
  "Tests execute whole gadgets; that generators added later run between earlier ones, in the same passes, is not observed.",
  ["src/gadget.rs: execute", "src/gadget_builder.rs: build, generator", "src/witness_generator.rs", "src/wire_values.rs"])
P("C114", "Other values in the same map do not matter to an execution",
  "Whether execute panics, what it returns and which values it gives to the wires of a circuit depends on the values of these wires only: on two maps which agree on the wires of the circuit (of those some, all or none may have values), executions panic alike, return the same verdict and give the same values to the wires of the circuit, and the values of all other wires stay as they were.",
  "all straight-line code over the crate's gadgets, all pairs of maps which agree on its wires",
  "A generator or constraint which reads a wire by a wrong number goes unnoticed as long as that wire has no value or a harmless one.",
  ["src/gadget.rs: execute", "src/gadget_builder.rs: wire, build, generator", "src/witness_generator.rs", "src/wire_values.rs"])

here = os.path.dirname(os.path.abspath(__file__))
with open(os.path.join(here, "..", "properties.jsonl"), "w") as f:
    for o in out:
        f.write(json.dumps(o) + "\n")
print(len(out))
