import Verif.Model.Builder

/-!
# Model of `src/splitting.rs`, `src/comparisons.rs`, and `modulus`/`divides` of
`src/field_arithmetic.rs`
-/

namespace R1CS

variable {p : ℕ} [hp : Fact p.Prime]

namespace B

/-- `for i in 0..bits { values.set_boolean(binary_wire.bits[i], value.bit(i)) }`
(src/splitting.rs:45-47), from bit `i` on. -/
def setBitsOf (x : Elem p) : ℕ → List BooleanWire → WireValues p → Option (WireValues p)
  | _, [], v => some v
  | i, w :: ws, v => do
    let v' ← v.setBoolean w (x.bit i)
    setBitsOf x (i + 1) ws v'

/-- The closure of `split_without_range_check` (src/splitting.rs:42-48). -/
def splitGen (x : Expression p) (bits : ℕ) (w : BinaryWire) (v : WireValues p) :
    Option (WireValues p) := do
  let xv ← x.evaluate v
  if xv.bits ≤ bits then setBitsOf xv 0 w.bits v else none

/-- `split_without_range_check` (src/splitting.rs:33-52). -/
def splitWithoutRangeCheck (x : Expression p) (bits : ℕ) : B p (BinaryExpression p) := do
  let w ← binaryWire bits
  let weightedSum ← ofOption (BinaryExpression.ofWire w).joinAllowingOverflow
  assertEqual x weightedSum
  generator x.dependencies (splitGen x bits w)
  return BinaryExpression.ofWire w

/-- `split_allowing_ambiguity` (src/splitting.rs:21-23). -/
def splitAllowingAmbiguity (x : Expression p) : B p (BinaryExpression p) :=
  splitWithoutRangeCheck x (Elem.maxBits p)

/-- `split_bounded` (src/splitting.rs:28-31). -/
def splitBounded (x : Expression p) (bits : ℕ) : B p (BinaryExpression p) := do
  require (bits < Elem.maxBits p)
  splitWithoutRangeCheck x bits

end B

/-- `cmp_constraints` (src/comparisons.rs:223-226). -/
def cmpConstraints (operandBits chunkBits : ℕ) : ℕ :=
  let chunks := (operandBits + chunkBits - 1) / chunkBits
  3 * chunks + 2 + chunkBits

/-- The loop of `cmp_chunk_bits` (src/comparisons.rs:232-238) with `r` iterations left, at
`chunk_bits = c`. -/
def cmpChunkBitsLoop (operandBits : ℕ) : ℕ → ℕ → ℕ → ℕ → ℕ
  | 0, _, best, _ => best
  | r + 1, c, best, bestConstraints =>
    let constraints := cmpConstraints operandBits c
    if constraints < bestConstraints then cmpChunkBitsLoop operandBits r (c + 1) c constraints
    else cmpChunkBitsLoop operandBits r (c + 1) best bestConstraints

/-- `cmp_chunk_bits` (src/comparisons.rs:229-240); `maxBits` is `Element::<F>::max_bits()`. -/
def cmpChunkBits (maxBits operandBits : ℕ) : ℕ :=
  cmpChunkBitsLoop operandBits (maxBits - 2) 2 1 (cmpConstraints operandBits 1)

namespace B

/-- `cmp_subtractive` (src/comparisons.rs:208-220). -/
def cmpSubtractive (diff : Expression p) (less strict : Bool) (bits : ℕ) :
    B p (BooleanExpression p) := do
  let pow ← ofOption ((1 : Elem p).shl bits)
  let base : Expression p := Expression.ofElem (pow - Elem.ofBool strict)
  let z := base + (if less then -diff else diff)
  let s ← splitBounded z (bits + 1)
  ofOption s.bits[bits]?

/-- The closure of `cmp_binary` (src/comparisons.rs:164-174), on the chunks in reverse order:
`(mask wire, x chunk, y chunk)`. -/
def maskGen : List (Wire × Expression p × Expression p) → Bool → WireValues p →
    Option (WireValues p)
  | [], _, v => some v
  | (m, x, y) :: rest, seenDiff, v => do
    let xv ← x.evaluate v
    let yv ← y.evaluate v
    let diff := decide (xv ≠ yv)
    let v' ← v.set m (Elem.ofBool (diff && !seenDiff))
    maskGen rest (seenDiff || diff) v'

/-- `for &m in &mask { self.assert_boolean(..) }` (src/comparisons.rs:152-154). -/
def assertBooleans : List Wire → B p Unit
  | [] => return ()
  | m :: ms => do
    let _ ← assertBoolean (Expression.ofWire m)
    assertBooleans ms

/-- The fold computing `diff_chunk` (src/comparisons.rs:179-180). -/
def maskedSum : List (Wire × Expression p × Expression p) → Expression p → B p (Expression p)
  | [], sum => return sum
  | (m, x, y) :: rest, sum => do
    let t ← product (Expression.ofWire m) (x - y)
    maskedSum rest (sum + t)

/-- The loop over the more significant chunks (src/comparisons.rs:185-192). -/
def assertMoreSignificantEqual :
    List (Wire × Expression p × Expression p) → Expression p → B p Unit
  | [], _ => return ()
  | (m, x, y) :: rest, diffSeen => do
    assertProduct diffSeen (x - y) 0
    assertMoreSignificantEqual rest (diffSeen + Expression.ofWire m)

/-- The part of `cmp_binary` after its witness generator (src/comparisons.rs:178-204).  `mask[0]`
panics when there are no chunks. -/
def cmpTail (zipped : List (Wire × Expression p × Expression p)) (diffExists : BooleanExpression p)
    (less strict : Bool) (chunkBits : ℕ) : B p (BooleanExpression p) := do
  let diffChunk ← maskedSum zipped 0
  match zipped with
  | [] => panic
  | (m0, _) :: rest =>
    assertMoreSignificantEqual rest (Expression.ofWire m0)
    let () ← (if strict then pure () else do
      let nz ← selection diffExists diffChunk 1
      assertNonzero nz)
    cmpSubtractive diffChunk less strict chunkBits

/-- `cmp_binary` (src/comparisons.rs:130-205).  The index expressions `x_chunks[i]`,
`y_chunks[i]`, `mask[i]` for `i < chunks` are a zip of the three lists, which have equal
length. -/
def cmpBinary (xBits yBits : BinaryExpression p) (less strict : Bool) :
    B p (BooleanExpression p) := do
  require (xBits.len = yBits.len)
  let operandBits := xBits.len
  let chunkBits := cmpChunkBits (Elem.maxBits p) operandBits
  let xc ← ofOption (xBits.chunks chunkBits)
  let xChunks ← ofOption (xc.mapM BinaryExpression.join)
  let yc ← ofOption (yBits.chunks chunkBits)
  let yChunks ← ofOption (yc.mapM BinaryExpression.join)
  let mask ← wires xChunks.length
  assertBooleans mask
  let diffExists ← assertBoolean (Expression.sumOfWires mask)
  let zipped := mask.zip (xChunks.zip yChunks)
  generator (xBits.dependencies ++ yBits.dependencies) (maskGen zipped.reverse false)
  cmpTail zipped diffExists less strict chunkBits

/-- `lt_binary` (src/comparisons.rs:85-89). -/
def ltBinary (x y : BinaryExpression p) : B p (BooleanExpression p) := cmpBinary x y true true

/-- `le_binary` (src/comparisons.rs:92-96). -/
def leBinary (x y : BinaryExpression p) : B p (BooleanExpression p) := cmpBinary x y true false

/-- `gt_binary` (src/comparisons.rs:99-103). -/
def gtBinary (x y : BinaryExpression p) : B p (BooleanExpression p) := cmpBinary x y false true

/-- `ge_binary` (src/comparisons.rs:106-110). -/
def geBinary (x y : BinaryExpression p) : B p (BooleanExpression p) := cmpBinary x y false false

/-- `assert_lt_binary` (src/comparisons.rs:40-43). -/
def assertLtBinary (x y : BinaryExpression p) : B p Unit := do
  let r ← ltBinary x y
  assertTrue r

/-- `assert_le_binary` (src/comparisons.rs:46-49). -/
def assertLeBinary (x y : BinaryExpression p) : B p Unit := do
  let r ← leBinary x y
  assertTrue r

/-- `assert_gt_binary` (src/comparisons.rs:52-55). -/
def assertGtBinary (x y : BinaryExpression p) : B p Unit := do
  let r ← gtBinary x y
  assertTrue r

/-- `assert_ge_binary` (src/comparisons.rs:58-62). -/
def assertGeBinary (x y : BinaryExpression p) : B p Unit := do
  let r ← geBinary x y
  assertTrue r

/-- `split` (src/splitting.rs:10-14). -/
def split (x : Expression p) : B p (BinaryExpression p) := do
  let result ← splitWithoutRangeCheck x (Elem.maxBits p)
  assertLtBinary result (BinaryExpression.ofNat p)
  return result

/-- `cmp` (src/comparisons.rs:112-126). -/
def cmp (x y : Expression p) (less strict : Bool) : B p (BooleanExpression p) :=
  if less then do
    let xBin ← splitAllowingAmbiguity x
    let yBin ← split y
    cmpBinary xBin yBin less strict
  else do
    let xBin ← split x
    let yBin ← splitAllowingAmbiguity y
    cmpBinary xBin yBin less strict

/-- `lt` (src/comparisons.rs:65-67). -/
def lt (x y : Expression p) : B p (BooleanExpression p) := cmp x y true true

/-- `le` (src/comparisons.rs:70-72). -/
def le (x y : Expression p) : B p (BooleanExpression p) := cmp x y true false

/-- `gt` (src/comparisons.rs:75-77). -/
def gt (x y : Expression p) : B p (BooleanExpression p) := cmp x y false true

/-- `ge` (src/comparisons.rs:80-82). -/
def ge (x y : Expression p) : B p (BooleanExpression p) := cmp x y false false

/-- `assert_lt` (src/comparisons.rs:16-19). -/
def assertLt (x y : Expression p) : B p Unit := do
  let r ← lt x y
  assertTrue r

/-- `assert_le` (src/comparisons.rs:22-25). -/
def assertLe (x y : Expression p) : B p Unit := do
  let r ← le x y
  assertTrue r

/-- `assert_gt` (src/comparisons.rs:28-31). -/
def assertGt (x y : Expression p) : B p Unit := do
  let r ← gt x y
  assertTrue r

/-- `assert_ge` (src/comparisons.rs:34-37). -/
def assertGe (x y : Expression p) : B p Unit := do
  let r ← ge x y
  assertTrue r

/-- The closure of `modulus` (src/field_arithmetic.rs:145-150). -/
def modulusGen (x y : Expression p) (q r : Wire) (v : WireValues p) : Option (WireValues p) := do
  let xv ← x.evaluate v
  let yv ← y.evaluate v
  let qv ← xv.integerDivision yv
  let v' ← v.set q qv
  let rv ← xv.integerModulus yv
  v'.set r rv

/-- `modulus` (src/field_arithmetic.rs:130-155). -/
def modulus (x y : Expression p) : B p (Expression p) := do
  let q ← wire
  let r ← wire
  assertProduct y (Expression.ofWire q) (x - Expression.ofWire r)
  assertLt (Expression.ofWire r) y
  generator (x.dependencies ++ y.dependencies) (modulusGen x y q r)
  return Expression.ofWire r

/-- `divides` (src/field_arithmetic.rs:158-161). -/
def divides (x y : Expression p) : B p (BooleanExpression p) := do
  let m ← modulus y x
  zero m

end B

end R1CS
