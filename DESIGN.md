# r1cs: formal model and proofs in Lean 4

Subject: the Rust crate in `/repo` (R1CS gadget builder).  Everything here is under
`/verif/lean/Verif`.  `properties.jsonl` lists the properties (written by
`tools/gen_properties.py`), `MANIFEST.json` maps each property to theorems
(`tools/status.py`, `tools/gen_manifest.py`), `seeded/LOG.jsonl` records the experiments with
wrong programs (`seeded/mutants.json`, `tools/mutate.py`, `tools/log_mutants.py`).

## 1. Trusted base

* Lean 4.33.0's kernel.  No axioms are added.  Theorems depend at most on `propext`,
  `Classical.choice`, `Quot.sound`: `Verif/Audit.lean` (written by `tools/gen_audit.py`) prints the
  axioms of every theorem named in the manifest while it is built.  No `sorry`, `admit`,
  `native_decide`, `bv_decide`.  `decide` and `decide +kernel` are used for concrete examples,
  refutations at concrete points, and for checking certificates (primality, curve points); they are
  evaluated by the kernel.
* Mathlib for algebra (ZMod, finite fields, permutations of lists, logarithms).
* The transcription Rust -> Lean.  Every definition in `Verif/Model` cites file and lines, and says
  so where it simplifies.  `tools/coverage.py` lists the functions of the crate that no definition
  cites.
* Third-party crates are modelled by their documented behaviour: `num::BigUint` is `ℕ`
  (`modpow` is `b^e % m`, `bits` is `Nat.size`), `BTreeMap` is a sorted association list
  (or a partial function where iteration order is not used), `bimap::BiMap` a list of pairs.

## 2. Modelling decisions

| Rust | Lean |
|---|---|
| `F: Field` with `F::order()` | a natural number `p` with `Fact p.Prime`; that the two shipped orders are prime is proved (C07) |
| `Element<F>` with `n < order` | `Elem p` (`n : ℕ`, `n < p`), operators transcribed on `ℕ` and *proved* to be the field of order `p`.  That the check of the range in `Element::from` makes this a type is C104 |
| panic / failed assertion / overflow | `none` in `Option` (debug-build semantics for integer overflow) |
| `Wire { index: u32 }` | its index as `ℕ`; `Wire::ONE` is `0`.  The u32 limit is treated separately (C18, and for all programs C103) |
| `usize`, `u64` counters | `ℕ`.  The functions which calculate with them are modelled a second time with words of a fixed size, with and without overflow checks, and list accesses by index (`Model/Words.lean`); C103 compares the two |
| `Expression` | list of `(wire, coefficient)` kept in wire order |
| `WireValues` | `Wire → Option (Elem p)`; the map itself is in `Model/Raw.lean` (C104) |
| `GadgetBuilder` | record of next index, constraint list, generator list; builder methods live in the state-and-failure monad `B p` |
| generator closure | declared inputs and a function `WireValues → Option WireValues`; the closures on the stored maps are in `Model/RawGens.lean` (C105) |
| `Gadget::execute` | the same pass structure (`retain` loop) with explicit fuel, proved to change nothing (C102) |
| `while`/`loop`/recursion on lengths | structural recursion, or recursion with fuel, proved to give what the loop without fuel gives, from any state (C102, bodies of the loops in `Spec/Loops.lean`) |
| routing in `verify_permutation.rs` | the same two-colouring with partner maps; `BTreeMap<T, Vec<usize>>` as a function (the map itself in `Model/Raw.lean`, C104), `BiMap` as a list of pairs |
| traits (`CompressionFunction`, `BlockCipher`, `Permutation`, `Group`, ...) | records of functions; theorems about constructions are parametric in the record |
| randomness of the LCG | its 32-bit state, transcribed with wrapping arithmetic |
| operator overloads for references, `u128`, `*_assign`, `clone` of elements, maps and expressions | one definition for all variants; all of them one by one in `Model/Raw.lean`, with the calls they make, and compared in C104 |
| setters of `PoseidonBuilder` and `RescueBuilder` | records and updates (`Model/Setters.lean`), sequences of calls in C74, C75; elsewhere the options of `build` |
| other `clone`s, getters | left out: the field itself |
| floats (`mimc_recommended_rounds`, the attack inequalities of Poseidon) | three times: real numbers (`Model/Rounds.lean`), real numbers rounded after every operation to 53 bits, ties to even, with unbounded exponent (`Model/Floats.lean`), and the same with the exponents of `binary64`, infinite results being arbitrary numbers (`Model/Ieee.lean`), where `ln` and `log2` are arbitrary functions with a relative error of at most 2^-50 (`Libm`; assumed of the platform); elsewhere the number of rounds is a parameter |
| `Display` of elements, wires, expressions and constraints, `FromStr` of elements, `util::join` | lists of characters (`Model/Text.lean`) |
| the examples of `README.md` | `Model/Readme.lean` |
| `curves/montgomery.rs`, `curves/weierstrass.rs` | not modelled (they declare traits and structs only) |
| `Debug` (except of boolean expressions), `Hash` (the crate has no hashed collections), `test_util` | not modelled |

Readings of a gadget that are proved separately:

* **enforced** (soundness, `Enforces`, `Spec/Basic.lean`): *every* assignment of the wires with the
  constant wire equal to 1 that satisfies the constraints gives the output the claimed meaning.
  This is a Hoare-style judgement on builder programs, so that it composes over all histories of
  calls.
* **computed** (completeness, `Computes`, `Spec/Honest.lean`): for every builder state that is
  *honest* (all its generators can be scheduled and produce a satisfying witness `W` from the
  inputs), calling the gadget does not panic, the new builder state is again honest, and the output
  evaluates to the claimed value.  A separate theorem (C19-C22) shows that `execute` on an honest
  state, started on just the inputs, terminates without panic, fills in exactly `W`, and returns
  `true`, whatever the order of the generators: a wire's index is a rank for the dependencies.
* **rejected / decided** (`Rejects`, `Decides`): an honest execution of an assertion which does not
  hold fills in the wires and returns `false`.
* **forgeable** (`Can`, `Spec/Forge.lean`): from every builder state and every satisfying
  assignment of it, the gadget's constraints can be satisfied with the output taking a value that
  the property forbids.  `Can.not_enforces` turns that into the negation of `Enforces`.
* **locally** (`Locally`, `Spec/Tidy.lean`): in every circuit with tidy parts, whenever an execution
  returns, accepting or not, the result of the call is related to the final values as stated.
* **admitted** (`Admits`, `AdmitsIf`, `AdmitsWhen`, `Spec/Relations.lean`): exactly which results the
  constraints admit, given a satisfying assignment of the wires before the call.
* **meaning** (`Circuit.meaning`, `Spec/Language.lean`): what straight-line code calling the gadgets
  calculates, with numbers, truth values and digits instead of wires.
* **outcome** (`Circuit.outcome`, `Spec/Outcome.lean`): the same, telling panics from executions which
  return `false`.
* **determined** (`Rigid`, `Determined`, `RigidIff`, `Spec/Rigid.lean`): whether, or exactly when, the
  wires before a call determine all wires the call allocates.
* **passes** (`InPasses`, `Timely`, `Needs`, `Spec/Passes.lean`): how often the loop of `execute` goes through
  the pending generators, the pass in which a generator runs at the latest, and which calls need it.
* **plans** (`Form`, `Op.plan`, `Circuit.plan`, `Spec/Plan.lean`): what can be calculated about code from the
  kinds of operands and the lengths of digit strings: whether building panics, the forms of the results, a
  bound on the number of constraints.
* **admission** (`Op.admits`, `Circuit.admits`, `Circuit.SealedAt`, `Spec/Admission.lean`): which values
  the constraints of code leave possible, as a relation between values; which blocks leave no choice.
* **instance** (`Solves`, `Gadget.matrix`, `Spec/Instance.lean`): `Aw ∘ Bw = Cw` for the matrices of the coefficients;
  **read** (`ReadsAs`, `Spec/Typed.lean`): what `evaluate` returns after an execution.
* **renumbered** (`Renumbering`, `Alike`, `Spec/Renumber.lean`): two calls on two builders do the same up to
  new numbers for the wires.
* **costs** (`AddsExactly`, `AddsAtMost`, `Spec/Costs.lean`): the number of constraints added.

`Prog` (`Spec/Programs.lean`) is the class of builder programs that only allocate wires, assert,
add generators and panic, independently of what the builder already contains; success of such a
program depends only on the wire counter.

Where the code violates a property the negation is proved (`..._refuted`), and the part that is
true is proved under the name `..._partial`.

### Layout

* `Model/` the transcription: `Field`, `Wire`, `Macros`, `Expression`, `Builder` (builder, `execute`, field
  and boolean gadgets), `Comparisons` (splitting, comparisons, modulus), `BinaryOps` (binary
  arithmetic, bitwise operations, random access), `Permutation` (networks, routing, sorting),
  `Permutations` (monomial and inverse permutations, MiMC), `Traits`, `Hashes` (Davies-Meyer,
  Miyaguchi-Preneel, Merkle-Damgård, Merkle trees, sponges), `Matrices` (matrices, Poseidon,
  Rescue), `Lcg`, `Curves` (groups, Edwards curves, Schnorr), `JubJub`, `Rounds` (numbers of rounds), `Floats` (the same with rounding),
  `Text` (printing and parsing), `Readme`, `Words` (machine integers), `Raw`, `RawGens` (stored data), `Setters`.
* `Spec/` vocabulary used by the statements.
* `Lemmas/` helper lemmas.
* `Props/` the property theorems, named `Cnn_...`, each with an `example` that meets its hypotheses.
* `Validation/` the unit tests of the crate, transcribed and run on the model.  They prove nothing,
  but they check the transcription: all assertions of the crate's tests hold of the model.  `Small`
  is evaluated by the kernel, `Large` by `#guard`, that is by the compiled definitions.  Left out:
  the tests without assertions `subgroup_check`, `matrix_vector_multiplication` (empty),
  `mul_scalar` and `verify` (slow; both were run by hand: `mul_scalar` does not panic and `verify`
  rejects its own signature, see F-t).

## 3. How the properties are proved

C01-C08 `Elem` operations over `ℕ`; field instance through `ZMod p`; Fermat; Euclid by strong induction;
C05 is false (wrap-around in `divisor*divisor`, and 0, 1 are reported prime): refutation at (order 7, x = 5) and `_partial`
theorems for x whose square-root search stays below the order, and for all x of at least 2: exactly the primes above all squares of the field are misjudged (`Props/Primality.lean`).  C07 by Pratt certificates checked by the kernel.
C09-C13 structural induction on association lists; C10 as an invariant over an inductive closure of all public operations;
C12 is false for the zero expression, C13 is false with repeated wires: refutations and `_partial`.
C14 induction on histories of `set` calls, in both directions; the macros are such histories.  C15-C17 induction on bit lists; C17 false for lengths above `max_bits`: refutation and `_partial`.
C18 invariant of the builder; u32 counter as a separate model.
C19-C22 induction over the pass structure of `execute`, with the wire index as rank of the schedule.
C23 the judgements compose: bind rules.
C24-C34 field gadgets: Hoare rules + field algebra.  C28 false at x = 0, C30 false: explicit forging assignments for every builder state.
C35-C41 digit-string arithmetic.  C38, C39 false (all-zero mask; non-canonical digits): forging assignments for every pair of inputs.
C42 honest; C43 false (quotient not range-checked): forging assignments.
C44-C47 digit-string arithmetic.  Width claims false for empty operands, `shift_dec` panics for n > length: refuted; exact widths in Props/SumWidth.lean, exact panics in Props/OutOfRange.lean.
C48 induction on layers; C49 false: explicit witness; what is returned instead is the item at the largest position whose binary digits are digits of the index (Props/OutOfRange.lean).
C50 strong induction on the length (multiset of wires through a switch network).
C51 invariant of the routing loop (2-colouring of the constraint graph), termination measure, strong induction on length.
C52 induction with multiset invariants.  C53 from C36, C40, C51.  C54 false for the order, `_partial` for the rearrangement.
C55-C57 Fermat / coprimality; root exponent search by modular arithmetic.
C58-C61 judgements parametric in the underlying gadget.
C62, C63 (diffusion) false: the product scales coordinate i by the sum of row i; refutation and `_partial` (what is computed).
C64-C69 curve algebra (group law of complete twisted Edwards curves, projective coordinates for the kernel computations on JubJub); C66, C68 (order), C69 (forgeries, field signatures) false.
C70 Hull-Dobell argument for the concrete modulus by induction on bits; termination false for some limits; Props/LcgLimits.lean decides it from the topmost word of the limit and the number of words, all states reachable in steps of k being those which agree modulo the power of two in k, and where the topmost words are equal, from the second one, which identifies the smallest draw; from the new generator, whose state is 0, every limit is fine, so that C79 and C81 need no condition on the generator.
C71 from the honest-execution theorem.  C72 recurrence for the switch count.  C73 case analysis.
C74, C75 search for the exponent by number theory (existence of a small prime not dividing p-1).
C76-C78 a cost logic (`Cost`, `AtMost`) with bind rules; exact counts need that operands are not constant, which is tracked by exhibiting two assignments on which they differ.

C79 evaluation of the README's gadgets for all inputs; C80, C81 logarithms over the reals; C82 uniqueness of decimal numerals and of separators.
C83 the cost logic for ciphers and hash functions.
C84 a judgement (`Own`) tracking which wires a call allocates, with rules for every generator closure.
C85 metatheorem: an honest state in which all earlier wires are supplied with the final values of an arbitrary execution determines the wires of the call; then every completeness lemma applies.
C86 one direction from soundness, the other by constructing the assignment (completeness where the honest one gives the result, forging otherwise).
C87 a deep embedding of straight-line code; three laws per gadget (`OpLaw`: completeness, soundness for the gadgets which pin their result down, acceptance only where the meaning is defined), composed by induction on the code; acceptance for unsound gadgets goes through C85.
C88 states with witnesses which need not satisfy the constraints (`Run`); per gadget, what it leaves behind (`Outs`: from completeness, or directly for the assertions which add a constraint) and that executions do not return where it panics (`Safe`: from C85 or from the generator which panics); induction on the code.
C89 relative errors through every operation (`Rel`); attacked and secure thresholds 2^-45 apart; for MiMC a table of gaps between powers of 2 and 3.
C90 a judgement (`Det`) composing by bind rules, where earlier constraints may be used for later wires; several witnesses by constructing two assignments (`Forks`); for permutation networks both by following settings of the switches through the recursion (`TwoRoutes`, `RigidNetwork.lean`, `RigidRoutes.lean`); for circuits by induction on the code, with the soundness laws of C87.
C91 a judgement (`Tells`, `Lemmas/Tells.lean`) with one bind rule for all three laws of C87 and the outcomes of C88 at once, for gadgets composed of others; group law of complete curves for the meaning.
C92 timetables for generators (`Timely`, `Lemmas/Passes*.lean`): a judgement with a bind rule and a rule for code standing before the generator it waits for; induction over the passes. Lower bounds (`Lemmas/PassesLate.lean`, `PassesNeeds.lean`, `PassesExact.lean`): a run of the passes gives every generator the pass in which it runs; a generator which reads a wire set only by a later one in the list runs in a later pass; along a network by induction on its depth, following one wire through the switches.
C93 a judgement (`Fits`, `Lemmas/Plan*.lean`) of never panicking, a bound on constraints and the lengths of results at once, with bind rules; per gadget against its plan (`Follows`); induction on the code.
C94 per gadget, soundness lemmas bound the results (`Bounds`) and forging reaches all of them (`Reaches`); gadgets which pin their results down by the laws of C87; induction on the code in both directions.
C95 functions treating positions separately (`Columnwise`, `Spec/Columns.lean`) compose; induction on rounds for the closed forms and on chunks for the states of sponges; C61, C63 for the circuits.
C96 unfolding of folds and perfect trees, induction on the depth of the shallower tree; C59, C60 for circuits, bijectivity of MiMC (C57) for fixed points.
C97 the curve equation determines x² from y; C69 for circuits; orders of points.
C98 the last digit of a draw is a state; counting the attempts in range within a period (full period, C70).
C99 each closure sets a fixed list of wires, all without values (`Exact`); lists of generators with such a property are closed under joining, gadget by gadget; for networks, some 2x2 switch insists.
C100 expressions are sorted lists, so strictly increasing maps commute with every operation on them; a judgement relating two calls on two builders (`Alike`, `Lemmas/Renumber*.lean`) with a bind rule, gadget by gadget, closure by closure; induction over passes for executions. That a call names no other wires follows by renumbering those beyond its own (`C100_scoped`).
C101 pass by pass: the joined loop is the two loops, one of them possibly idling; regions of the parts from `Tidy` (C84), what they name from C100; panics from the same theorem without constraints, and C111.
C102 each bounded loop follows the unbounded one step by step (`ends_of`); a quantity which every iteration lowers, below the bound (generators pending, switches unset and not yet scanned, outputs missing, distance of a divisor from the order), or periodicity (generator, residues of exponents) for the loops which may not end.
C103 no calculation on indices overflows below the lengths in question: equality of programs, function by function; runs of a program with bounded and unbounded counter side by side (`Same32`, `Spec/Words.lean`).
C104 operator by operator; maps by induction on sorted lists (collecting a sorted list gives the list); executions pass by pass (`Holds`, `Agree`, `Spec/Raw.lean`).
C105 closure by closure; gadget by gadget that only these closures are added (`AddsClosures`, `Spec/RawGens.lean`); then C104_execute and C87.
C106 row by row: a product of a row with the vector is the value of the expression (`Spec/Instance.lean`, matrices and `ZMod` of Mathlib); then C94, C87 and the scoping of C100.
C107 from C94_every, and from the state which an execution leaves behind (`Circuit.returns`); `Spec/Typed.lean`.
  Code with rejected casts: from the timetables of C92, `Props/Readable.lean`.
C108 at most two points for each y, so the generator's subgroup (C68) has index 1 or 2; the index is odd because there is one point of order 2 only and the generator is no double: of doubles, (a - d)(1 - y²) is a square (`Lemmas/JubJubGroup.lean`).
C109 soundness of `selectAll`, then induction on the bits in `mulLoop`, with the two cases of `split_allowing_ambiguity` (C35); the second multiple by running the loop honestly on the other bits (`Lemmas/SoundGroups.lean`).  `checkedOps` and `fieldOps` in `Spec/SoundGroups.lean` are hypothetical implementations of `Group`, not code of the repository.
C110 counting through the loop of `mul_scalar_expression`: in the first round the sum is the identity and the point may be constant, in the others both are wires (`Props/CurveCosts.lean`).
C111 a judgement on the wires still to be set (`Owes`, `Lemmas/SetsOwn.lean`) with a bind rule: `wire` adds a wire, `generator` must cover all of them; gadget by gadget, then over the code; with C92 (nothing pending) and C100 (constraints mention the circuit's wires only) for `execute` (`Props/Missing.lean`).
C112 what closures read and write, by taking away all other values (`Co`, `Lemmas/Masked.lean`), a judgement on the wires which still have no generator (`Shares`, `Lemmas/Apiece.lean`), gadget by gadget, then over the code; two generators which are ready can be exchanged (`diamond`), so there is one end of all schedules (`Ends.unique`, `Lemmas/Confluence.lean`), panics included; `Props/AnyOrder.lean`.
C113 from C112_schedules: the generators of the first part run first, in the order of their own execution (C21), then the others; C111 excludes panics of constraints, C84-like confinement (`Apiece`) keeps the values of the first part (`Props/Stages.lean`).
C114 generators do not see values above the circuit (`Foreign.Blind`, from `Minds` of C112 and the scoping of C100), so passes, the loop and the check of constraints go in step on both maps (`Props/Foreign.lean`).

## 4. Disagreements between code and documentation

* F-a `quotient_unsafe` adds no constraint at all although its doc comment promises one; the Edwards curve gadgets rely on it (C30, C66, C77).
* F-b `cmp_binary` accepts the all-zero mask whatever the operands are: `le`/`ge` can be forged to true, `lt`/`gt` to false (C38, C39).
* F-c the operand split allowing ambiguity makes comparison *results* (not strict assertions) forgeable (a TODO in the code admits it).
* F-d `inverse_or_zero` leaves its output free for input 0 (C28); so do Poseidon's inverse S-box (C63) and `InversePermutation` (C56).
* F-e `modulus` does not bound the quotient: every remainder below the divisor is accepted (C43).
* F-f `random_access` returns an item, not 0, for out-of-range indices below the next power of two (C49).
* F-g matrix times vector multiplies coordinate i by the sum of row i (C62), so Poseidon and Rescue have no diffusion and, without round constants, map zeros to zeros (C63). Rescue is a diagonal linear map, Poseidon's outputs are monomials, and second preimages of sponges over either are explicit (C95).
* F-h `sum_of_wires` collapses repeated wires (C13).
* F-i `as_constant` returns `None` for the zero expression (C12), so multiplying by the constant 0 costs a constraint (C77).
* F-j `join_allowing_overflow` panics beyond `max_bits` bits (C17).
* F-k `binary_sum` is not one bit longer when an operand is empty, `binary_summation` of one term neither (C44).
* F-l `is_prime` squares in the field; wrong for 5 in the field of order 7, and in general for the primes above all squares of the field, of which the shipped fields have none; true for 0 and 1, where it does not panic as it does over the fields of order 2 and, on 1, of order 3 (C05).
* F-m `MonomialPermutation::new(1)` succeeds but its `inverse` panics; over the field of order 2 the exponent 0 is accepted (C55).
* F-n comparisons and `split` panic for orders below 11 (C41).
* F-o `bitwise_shift_dec_significance` panics when shifting by more than the length; `sort_ascending(&[])` panics (C47, C53).
* F-p sponges do not pad: messages that differ in trailing zeros collide (C61).
* F-q `LCG::next_biguint(2^96+1)` never returns after an odd number of draws; the same happens from some state for every limit whose number of 32-bit words is divisible by 2 to the number of bits of its topmost word, unless that word is made of ones (C70).
* F-r Rescue's `smallest_alpha` over the field of order 7 returns 1, for which `permute` panics (C74).
* F-s the constant of `jubjub.rs` given as generator of the prime subgroup has order 8r (C68) and generates all points of the curve (C108).
* F-t the signature of the crate's own Schnorr test is rejected by an honest execution; the test does not check the result (C69).  Schnorr verification is forgeable, since the curve gadgets are unconstrained.
* F-u comments on sizes: `add_expressions` of Edwards curves "uses 7 constraints" but adds 5; `cmp_constraints` is 2 short for non-strict comparisons (C76, C77).
* F-v `sort_ascending`/`sort_descending` accept any rearrangement of their inputs (C54), a consequence of F-b.
* F-w the hash of the README panics over both shipped fields, where cubing is not a permutation, and its `builder.exp` does not exist (C79).
* F-x MiMC's default panics over both shipped fields, and has one round more than recommended elsewhere (C81).
* F-y Poseidon's search for the number of full rounds never gets past its first candidate for width at least 2, so it always proposes 8 full rounds; width 0 panics (C80).
* F-z `Element::from_str` panics on numerals that are not below the order instead of returning an error; `util::join` drops the separator after an empty first string (C82).
* F-aa in release builds (no overflow checks) `bitwise_rotate_dec_significance` by a distance close to 2^64 is no rotation unless the number of bits is a power of two, `Sponge::new` accepts bitrates larger than the width, `secure_num_rounds` of Rescue may fall back to 10 rounds for gigantic security levels, and Poseidon with 2^64 rounds has none (C103).
* F-ab the comment on `double_expression` of Edwards curves asks for points of odd order; on complete curves such as JubJub every point can be doubled (C65).
* F-ac constraining the divisions in the additions of Edwards curves would not suffice: `mul_scalar_expression` splits the scalar with `split_allowing_ambiguity`, so that on JubJub the multiple by the scalar plus the order of the field can be had instead (C109).
