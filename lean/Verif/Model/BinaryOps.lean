import Verif.Model.Comparisons

/-!
# Model of `src/binary_arithmetic.rs`, `src/bitwise_operations.rs` and `src/random_access.rs`
-/

namespace R1CS

variable {p : ℕ} [hp : Fact p.Prime]

namespace B

/-! ## src/binary_arithmetic.rs -/

omit hp in
/-- `max_sum` (src/binary_arithmetic.rs:39-43). -/
def maxSum (terms : List (BinaryExpression p)) : ℕ :=
  terms.foldl (fun s t => s + ((1 <<< t.len) - 1)) 0

/-- The closure of `binary_summation` (src/binary_arithmetic.rs:60-64). -/
def summationGen (sumOfTerms : Expression p) (w : BinaryWire) (v : WireValues p) :
    Option (WireValues p) := do
  let s ← sumOfTerms.evaluate v
  v.setBinaryUnsigned w s.n

/-- `binary_summation` (src/binary_arithmetic.rs:35-68). -/
def binarySummation (terms : List (BinaryExpression p)) : B p (BinaryExpression p) := do
  let sumBits := (maxSum terms).size
  require (sumBits < Elem.maxBits p)
  let sumWire ← binaryWire sumBits
  let sum := BinaryExpression.ofWire sumWire
  let joined ← ofOption (terms.mapM BinaryExpression.join)
  let sumOfTerms := Expression.sumOfExpressions joined
  let sumJoined ← ofOption sum.join
  assertEqual sumOfTerms sumJoined
  generator sumOfTerms.dependencies (summationGen sumOfTerms sumWire)
  return sum

/-- `binary_sum` (src/binary_arithmetic.rs:13-17). -/
def binarySum (x y : BinaryExpression p) : B p (BinaryExpression p) := binarySummation [x, y]

omit hp in
/-- `input_bits` (src/binary_arithmetic.rs:73, 82). -/
def inputBits (terms : List (BinaryExpression p)) : ℕ := terms.foldl (fun x y => max x y.len) 0

/-- `binary_summation_ignoring_overflow` (src/binary_arithmetic.rs:71-77). -/
def binarySummationIgnoringOverflow (terms : List (BinaryExpression p)) :
    B p (BinaryExpression p) := do
  let sum ← binarySummation terms
  ofOption (sum.truncated (inputBits terms))

/-- `binary_sum_ignoring_overflow` (src/binary_arithmetic.rs:20-24). -/
def binarySumIgnoringOverflow (x y : BinaryExpression p) : B p (BinaryExpression p) :=
  binarySummationIgnoringOverflow [x, y]

/-- The loop of `binary_assert_zero` (src/binary_arithmetic.rs:96-98). -/
def assertZeros : List (BinaryExpression p) → B p Unit
  | [] => return ()
  | c :: cs => do
    let j ← ofOption c.join
    assertZero j
    assertZeros cs

/-- `binary_assert_zero` (src/binary_arithmetic.rs:91-99).  `max_bits() - 1` cannot underflow. -/
def binaryAssertZero (x : BinaryExpression p) : B p Unit := do
  let cs ← ofOption (x.chunks (Elem.maxBits p - 1))
  assertZeros cs

/-- `binary_summation_asserting_no_overflow` (src/binary_arithmetic.rs:80-88): the slice
`sum.bits[input_bits..]` panics when the sum is shorter than that. -/
def binarySummationAssertingNoOverflow (terms : List (BinaryExpression p)) :
    B p (BinaryExpression p) := do
  let sum ← binarySummation terms
  require (inputBits terms ≤ sum.len)
  let carry : BinaryExpression p := ⟨sum.bits.drop (inputBits terms)⟩
  binaryAssertZero carry
  ofOption (sum.truncated (inputBits terms))

/-- `binary_sum_asserting_no_overflow` (src/binary_arithmetic.rs:27-31). -/
def binarySumAssertingNoOverflow (x y : BinaryExpression p) : B p (BinaryExpression p) :=
  binarySummationAssertingNoOverflow [x, y]

/-! ## src/bitwise_operations.rs -/

/-- `x.bits.iter().map(|w| self.not(w))` (src/bitwise_operations.rs:11-13). -/
def notBits : List (BooleanExpression p) → B p (List (BooleanExpression p))
  | [] => return []
  | b :: bs => do
    let c ← not b
    let cs ← notBits bs
    return c :: cs

/-- `bitwise_not` (src/bitwise_operations.rs:10-15). -/
def bitwiseNot (x : BinaryExpression p) : B p (BinaryExpression p) := do
  let bits ← notBits x.bits
  return ⟨bits⟩

/-- `(0..l).map(|i| op(&x.bits[i], &y.bits[i]))` (src/bitwise_operations.rs:23-25 and alike), for
operands of equal length. -/
def zipBits (op : BooleanExpression p → BooleanExpression p → B p (BooleanExpression p)) :
    List (BooleanExpression p) → List (BooleanExpression p) → B p (List (BooleanExpression p))
  | b :: bs, c :: cs => do
    let d ← op b c
    let ds ← zipBits op bs cs
    return d :: ds
  | _, _ => return []

/-- `bitwise_and` (src/bitwise_operations.rs:18-27). -/
def bitwiseAnd (x y : BinaryExpression p) : B p (BinaryExpression p) := do
  require (x.len = y.len)
  let bits ← zipBits and x.bits y.bits
  return ⟨bits⟩

/-- `bitwise_or` (src/bitwise_operations.rs:30-39). -/
def bitwiseOr (x y : BinaryExpression p) : B p (BinaryExpression p) := do
  require (x.len = y.len)
  let bits ← zipBits or x.bits y.bits
  return ⟨bits⟩

/-- `bitwise_xor` (src/bitwise_operations.rs:42-51); its two type parameters are unused. -/
def bitwiseXor (x y : BinaryExpression p) : B p (BinaryExpression p) := do
  require (x.len = y.len)
  let bits ← zipBits xor x.bits y.bits
  return ⟨bits⟩

omit hp in
/-- `bitwise_rotate_inc_significance` (src/bitwise_operations.rs:55-65); an index out of range
panics. -/
def rotateInc (x : BinaryExpression p) (n : ℕ) : Option (BinaryExpression p) := do
  let l := x.len
  let bits ← (List.range l).mapM fun i => x.bits[(l + i - n % l) % l]?
  return ⟨bits⟩

omit hp in
/-- `bitwise_rotate_dec_significance` (src/bitwise_operations.rs:69-78). -/
def rotateDec (x : BinaryExpression p) (n : ℕ) : Option (BinaryExpression p) := do
  let l := x.len
  let bits ← (List.range l).mapM fun i => x.bits[(i + n) % l]?
  return ⟨bits⟩

/-- `bitwise_shift_inc_significance` (src/bitwise_operations.rs:83-95). -/
def shiftInc (x : BinaryExpression p) (n : ℕ) : Option (BinaryExpression p) := do
  let bits ← (List.range x.len).mapM fun i =>
    if i < n then some BooleanExpression.false else x.bits[i - n]?
  return ⟨bits⟩

/-- `bitwise_shift_dec_significance` (src/bitwise_operations.rs:100-113): `l - n` is evaluated for
every `i` and underflows for `n > l`.  With overflow checks that panics; without, the condition is
true and the index `i + n` is out of range, which panics too. -/
def shiftDec (x : BinaryExpression p) (n : ℕ) : Option (BinaryExpression p) := do
  let l := x.len
  let bits ← (List.range l).mapM fun i =>
    if n ≤ l then
      if i < l - n then x.bits[i + n]? else some BooleanExpression.false
    else none
  return ⟨bits⟩

/-! ## src/random_access.rs -/

/-- `while 1 << bits < items.len() { bits += 1 }` (src/random_access.rs:24-26); the fuel is the
number of items, which bounds the number of iterations. -/
def indexBitsLoop (len : ℕ) : ℕ → ℕ → ℕ
  | 0, bits => bits
  | fuel + 1, bits => if 1 <<< bits < len then indexBitsLoop len fuel (bits + 1) else bits

/-- The number of index bits (src/random_access.rs:23-26). -/
def indexBits (len : ℕ) : ℕ := indexBitsLoop len len 0

/-- One layer of the selection tree (src/random_access.rs:53-65): pairs from the left, an unpaired
last item is kept. -/
def parentLayer (lsb : BooleanExpression p) : List (Expression p) → B p (List (Expression p))
  | left :: right :: rest => do
    let parent ← selection lsb right left
    let parents ← parentLayer lsb rest
    return parent :: parents
  | items => return items

/-- `random_access_binary` (src/random_access.rs:33-68): `index_bits.remove(0)` panics when there
are no bits left. -/
def randomAccessBinary : List (BooleanExpression p) → List (Expression p) → B p (Expression p)
  | [], [item] => return item
  | [], _ => panic
  | _ :: _, [_] => panic
  | lsb :: bits, items => do
    let parents ← parentLayer lsb items
    randomAccessBinary bits parents

/-- `random_access` (src/random_access.rs:17-30). -/
def randomAccess (items : List (Expression p)) (index : Expression p) : B p (Expression p) := do
  let indexBinary ← splitBounded index (indexBits items.length)
  randomAccessBinary indexBinary.bits items

end B

end R1CS
