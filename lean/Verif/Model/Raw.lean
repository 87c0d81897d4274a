import Verif.Model.Expression
import Verif.Model.Matrices
import Verif.Model.Text
import Verif.Model.Permutation

/-!
# The stored data of `src/field.rs`, `src/expression.rs`, `src/wire_values.rs` and `src/matrices.rs`

A second transcription of these files which is closer to the code than the rest of the model.  An element
is the bare number it stores: each time the code builds an element, the number is compared with the order,
and a failure of this check is a panic.  Cloning an element is such a place.  The map of `WireValues` is an
association list.  Every iterator which is collected into a map goes through insertions.  All the
implementations of the arithmetic operators (for owned and borrowed operands, for `u128`, and in place) are
transcribed one by one, each by the calls it makes.  An operation in place returns the new value.
`q` is `F::order()`, any number: that it is prime is not assumed here.

In the names of operators, `V` stands for an owned operand, `R` for a borrowed one, `N` for a `u128`.
-/

namespace R1CS.Raw

/-! ## `num::BigUint` -/

/-- Subtraction of `BigUint`s: panics if the result would be negative. -/
def bigSub (a b : ℕ) : Option ℕ := if b ≤ a then some (a - b) else none

/-- Division of `BigUint`s: panics for the divisor zero. -/
def bigDiv (a b : ℕ) : Option ℕ := if b = 0 then none else some (a / b)

/-- The remainder of `BigUint`s: panics for the divisor zero. -/
def bigRem (a b : ℕ) : Option ℕ := if b = 0 then none else some (a % b)

/-- `BigUint::modpow`: panics for the modulus zero. -/
def bigModpow (a e m : ℕ) : Option ℕ := if m = 0 then none else some (a ^ e % m)

/-! ## src/field.rs -/

/-- `From<BigUint>` (src/field.rs:151-156). -/
def ofBig (q n : ℕ) : Option ℕ := if n < q then some n else none

/-- `From<usize>`, `From<u128>`, `From<u64>`, `From<u32>`, `From<u16>`, `From<u8>`
(src/field.rs:158-192). -/
def ofWord (q n : ℕ) : Option ℕ := ofBig q n

/-- `From<bool>` (src/field.rs:194-198). -/
def ofBool (q : ℕ) (b : Bool) : Option ℕ := ofWord q (if b then 1 else 0)

/-- `Element::zero` (src/field.rs:55-57). -/
def zero (q : ℕ) : Option ℕ := ofBig q 0

/-- `Element::one` (src/field.rs:59-61). -/
def one (q : ℕ) : Option ℕ := ofBig q 1

/-- `largest_element` (src/field.rs:63-65). -/
def largestElement (q : ℕ) : Option ℕ := do ofBig q (← bigSub q 1)

/-- `to_biguint` (src/field.rs:67-69). -/
def toBig (a : ℕ) : ℕ := a

/-- `is_zero` (src/field.rs:71-73). -/
def isZero (a : ℕ) : Bool := toBig a == 0

/-- `is_nonzero` (src/field.rs:75-77). -/
def isNonzero (a : ℕ) : Bool := !(toBig a == 0)

/-- `is_one` (src/field.rs:79-81). -/
def isOne (a : ℕ) : Bool := toBig a == 1

/-- `eq` (src/field.rs:208-212). -/
def eq (a b : ℕ) : Bool := toBig a == toBig b

/-- `clone` (src/field.rs:216-220): the number is checked again. -/
def clone (q a : ℕ) : Option ℕ := ofBig q (toBig a)

/-- `cmp` (src/field.rs:228-232). -/
def cmp (a b : ℕ) : Ordering := compare a b

/-- `partial_cmp` (src/field.rs:234-238). -/
def partialCmp (a b : ℕ) : Option Ordering := some (cmp a b)

/-- `Neg for &Element` (src/field.rs:248-258). -/
def negR (q a : ℕ) : Option ℕ :=
  if isZero a then zero q else do ofBig q (← bigSub q (toBig a))

/-- `Neg for Element` (src/field.rs:240-246). -/
def negV (q a : ℕ) : Option ℕ := negR q a

/-- `Add<&Element> for &Element` (src/field.rs:284-290). -/
def addRR (q a b : ℕ) : Option ℕ := do ofBig q (← bigRem (toBig a + toBig b) q)

/-- `Add<Element> for &Element` (src/field.rs:276-282). -/
def addRV (q a b : ℕ) : Option ℕ := addRR q a b

/-- `Add<&Element> for Element` (src/field.rs:268-274). -/
def addVR (q a b : ℕ) : Option ℕ := addRR q a b

/-- `Add<Element> for Element` (src/field.rs:260-266). -/
def addVV (q a b : ℕ) : Option ℕ := addRR q a b

/-- `AddAssign<&Element>` (src/field.rs:298-302). -/
def addAssignR (q a b : ℕ) : Option ℕ := addRR q a b

/-- `AddAssign` (src/field.rs:292-296). -/
def addAssignV (q a b : ℕ) : Option ℕ := addAssignR q a b

/-- `Sub<&Element> for &Element` (src/field.rs:328-334). -/
def subRR (q a b : ℕ) : Option ℕ := do addRV q a (← negR q b)

/-- `Sub<Element> for &Element` (src/field.rs:320-326). -/
def subRV (q a b : ℕ) : Option ℕ := subRR q a b

/-- `Sub<&Element> for Element` (src/field.rs:312-318). -/
def subVR (q a b : ℕ) : Option ℕ := subRR q a b

/-- `Sub<Element> for Element` (src/field.rs:304-310). -/
def subVV (q a b : ℕ) : Option ℕ := subRR q a b

/-- `SubAssign<&Element>` (src/field.rs:342-346). -/
def subAssignR (q a b : ℕ) : Option ℕ := subRR q a b

/-- `SubAssign` (src/field.rs:336-340). -/
def subAssignV (q a b : ℕ) : Option ℕ := subAssignR q a b

/-- `Mul<&Element> for &Element` (src/field.rs:372-378). -/
def mulRR (q a b : ℕ) : Option ℕ := do ofBig q (← bigRem (toBig a * toBig b) q)

/-- `Mul<Element> for &Element` (src/field.rs:364-370). -/
def mulRV (q a b : ℕ) : Option ℕ := mulRR q a b

/-- `Mul<&Element> for Element` (src/field.rs:356-362). -/
def mulVR (q a b : ℕ) : Option ℕ := mulRR q a b

/-- `Mul<Element> for Element` (src/field.rs:348-354). -/
def mulVV (q a b : ℕ) : Option ℕ := mulRR q a b

/-- `Mul<u128> for &Element` (src/field.rs:388-394). -/
def mulRN (q a k : ℕ) : Option ℕ := do mulRV q a (← ofWord q k)

/-- `Mul<u128> for Element` (src/field.rs:380-386). -/
def mulVN (q a k : ℕ) : Option ℕ := mulRN q a k

/-- `MulAssign<&Element>` (src/field.rs:402-406). -/
def mulAssignR (q a b : ℕ) : Option ℕ := do mulVR q (← clone q a) b

/-- `MulAssign` (src/field.rs:396-400). -/
def mulAssignV (q a b : ℕ) : Option ℕ := mulAssignR q a b

/-- `MulAssign<u128>` (src/field.rs:408-412). -/
def mulAssignN (q a k : ℕ) : Option ℕ := do mulVN q (← clone q a) k

/-- `exponentiation` (src/field.rs:101-103). -/
def exponentiation (q a e : ℕ) : Option ℕ := do ofBig q (← bigModpow (toBig a) (toBig e) q)

/-- `multiplicative_inverse` (src/field.rs:83-89). -/
def inverse (q a : ℕ) : Option ℕ :=
  if isZero a then none else do
    let two ← ofWord q 2
    let e ← negV q two
    exponentiation q a e

/-- `multiplicative_inverse_or_zero` (src/field.rs:93-99). -/
def inverseOrZero (q a : ℕ) : Option ℕ := if isZero a then zero q else inverse q a

/-- `Div<&Element> for &Element` (src/field.rs:438-445). -/
def divRR (q a b : ℕ) : Option ℕ := do mulRV q a (← inverse q b)

/-- `Div<Element> for &Element` (src/field.rs:430-436). -/
def divRV (q a b : ℕ) : Option ℕ := divRR q a b

/-- `Div<&Element> for Element` (src/field.rs:422-428). -/
def divVR (q a b : ℕ) : Option ℕ := divRR q a b

/-- `Div<Element> for Element` (src/field.rs:414-420). -/
def divVV (q a b : ℕ) : Option ℕ := divRR q a b

/-- `Div<u128> for &Element` (src/field.rs:455-461). -/
def divRN (q a k : ℕ) : Option ℕ := do divRV q a (← ofWord q k)

/-- `Div<u128> for Element` (src/field.rs:447-453). -/
def divVN (q a k : ℕ) : Option ℕ := divRN q a k

/-- `DivAssign<&Element>` (src/field.rs:469-473). -/
def divAssignR (q a b : ℕ) : Option ℕ := do divVR q (← clone q a) b

/-- `DivAssign` (src/field.rs:463-467). -/
def divAssignV (q a b : ℕ) : Option ℕ := divAssignR q a b

/-- `DivAssign<u128>` (src/field.rs:475-479). -/
def divAssignN (q a k : ℕ) : Option ℕ := do divVN q (← clone q a) k

/-- `Shl<usize> for &Element` (src/field.rs:489-495). -/
def shlR (q a k : ℕ) : Option ℕ := ofBig q (toBig a <<< k)

/-- `Shl<usize> for Element` (src/field.rs:481-487). -/
def shlV (q a k : ℕ) : Option ℕ := shlR q a k

/-- `integer_division` (src/field.rs:105-107). -/
def integerDivision (q a b : ℕ) : Option ℕ := do ofBig q (← bigDiv (toBig a) (toBig b))

/-- `integer_modulus` (src/field.rs:109-111). -/
def integerModulus (q a b : ℕ) : Option ℕ := do ofBig q (← bigRem (toBig a) (toBig b))

theorem integerModulus_lt {q a b r : ℕ} (h : integerModulus q a b = some r) : r < b := by
  unfold integerModulus bigRem ofBig toBig at h
  by_cases h0 : b = 0
  · rw [if_pos h0] at h
    cases h
  · rw [if_neg h0, Option.bind_eq_bind, Option.bind_some] at h
    have := Nat.mod_lt a (Nat.pos_of_ne_zero h0)
    split at h
    · cases h
      exact this
    · cases h

/-- `gcd` (src/field.rs:113-120). -/
def gcd (q a b : ℕ) : Option ℕ :=
  if isZero b then clone q a
  else
    match _h : integerModulus q a b with
    | none => none
    | some r => gcd q b r
termination_by b
decreasing_by exact integerModulus_lt _h

/-- The loop of `is_prime` (src/field.rs:124-131), bounded like `Elem.isPrimeLoop`. -/
def isPrimeLoop (q : ℕ) : ℕ → ℕ → ℕ → Option Bool
  | 0, _, _ => none
  | fuel + 1, x, divisor => do
    let square ← mulRR q divisor divisor
    let x' ← clone q x
    if partialCmp square x' = some .lt ∨ partialCmp square x' = some .eq then
      let r ← integerModulus q x divisor
      if isZero r then return false
      let divisor ← addAssignV q divisor (← one q)
      isPrimeLoop q fuel x divisor
    else return true

/-- `is_prime` (src/field.rs:122-132). -/
def isPrime (q x : ℕ) : Option Bool := do
  let two ← ofWord q 2
  isPrimeLoop q (q + 1) x two

/-- `bits` (src/field.rs:140-142). -/
def bits (a : ℕ) : ℕ := (toBig a).size

/-- `max_bits` (src/field.rs:135-137). -/
def maxBits (q : ℕ) : Option ℕ := do return bits (← largestElement q)

/-- `bit` (src/field.rs:146-148). -/
def bit (a i : ℕ) : Bool := (toBig a >>> i) &&& 1 == 1

/-- `from_str` (src/field.rs:200-206): `none` is a panic, `some none` an error. -/
def fromStr (q : ℕ) (s : List Char) : Option (Option ℕ) :=
  match parseBigUint s with
  | none => some none
  | some n => (ofBig q n).map some

/-! ## src/wire.rs -/

/-- `partial_cmp` of wires (src/wire.rs:35-39). -/
def wirePartialCmp (a b : Wire) : Option Ordering := some (Wire.cmp a b)

/-! ## src/wire_values.rs -/

/-- The field `values` of `WireValues` (src/wire_values.rs:14-17), also returned by `as_map` (26-28). -/
abbrev Values := BMap Wire ℕ

/-- `WireValues::new` (src/wire_values.rs:20-24). -/
def newValues (q : ℕ) : Option Values := do return BMap.insert Wire.cmp ONE (← one q) []

/-- `contains` (src/wire_values.rs:58-60). -/
def contains (m : Values) (w : Wire) : Bool := (BMap.get Wire.cmp w m).isSome

/-- `get` (src/wire_values.rs:30-33). -/
def get (m : Values) (w : Wire) : Option ℕ :=
  if contains m w then BMap.get Wire.cmp w m else none

/-- `set` (src/wire_values.rs:39-42): `insert` returns the old value. -/
def set (m : Values) (w : Wire) (x : ℕ) : Option Values :=
  let old := BMap.get Wire.cmp w m
  let m' := BMap.insert Wire.cmp w x m
  if old.isNone then some m' else none

/-- `set_boolean` (src/wire_values.rs:44-46). -/
def setBoolean (q : ℕ) (m : Values) (w : BooleanWire) (b : Bool) : Option Values := do
  set m w.wire (← ofBool q b)

/-- `set_binary_unsigned` (src/wire_values.rs:48-56). -/
def setBinaryUnsigned (q : ℕ) (m : Values) (w : BinaryWire) (value : ℕ) : Option Values :=
  if value.size ≤ w.len then
    (List.range w.len).foldlM (fun m i => do
      let b ← w.bits[i]?
      setBoolean q m b ((value >>> i) &&& 1 == 1)) m
  else none

/-- `contains_boolean` (src/wire_values.rs:62-64). -/
def containsBoolean (m : Values) (w : BooleanWire) : Bool := contains m w.wire

/-- `contains_all` (src/wire_values.rs:66-68). -/
def containsAll (m : Values) (ws : List Wire) : Bool := ws.all fun w => contains m w

/-- Cloning a map of elements, as in `clone` (src/wire_values.rs:71-75) and src/expression.rs:106-110: each
element is cloned. -/
def cloneMap (q : ℕ) (m : BMap Wire ℕ) : Option (BMap Wire ℕ) :=
  m.mapM fun kv => do return (kv.1, ← clone q kv.2)

/-! ## src/expression.rs -/

/-- The field `coefficients` of `Expression` (src/expression.rs:28-33), also returned by `coefficients`
(44-46). -/
abbrev Expr := BMap Wire ℕ

/-- `Expression::new` (src/expression.rs:37-42). -/
def new (m : BMap Wire ℕ) : Expr := BMap.ofList Wire.cmp (m.filter fun kv => isNonzero kv.2)

/-- `sum_of_wires` (src/expression.rs:49-55). -/
def sumOfWires (q : ℕ) (wires : List Wire) : Option Expr := do
  let l ← wires.mapM fun w => do return (w, ← one q)
  return BMap.ofList Wire.cmp l

/-- `*merged_coefficients.entry(wire).or_insert_with(Element::zero) += coefficient`, where `f` is the
operator in place (src/expression.rs:63, 227). -/
def addEntry (f : ℕ → ℕ → Option ℕ) (q : ℕ) (m : BMap Wire ℕ) (kv : Wire × ℕ) : Option (BMap Wire ℕ) := do
  let old ← match BMap.get Wire.cmp kv.1 m with
    | some x => some x
    | none => zero q
  return BMap.insert Wire.cmp kv.1 (← f old kv.2) m

/-- `sum_of_expressions` (src/expression.rs:59-67). -/
def sumOfExpressions (q : ℕ) (es : List Expr) : Option Expr := do
  let m ← es.foldlM (fun m e => e.foldlM (addEntry (addAssignR q) q) m) []
  return new m

/-- `Expression::zero` (src/expression.rs:69-71). -/
def zeroExpr : Expr := []

/-- `From<Element>` (src/expression.rs:125-130). -/
def exprOfElement (q c : ℕ) : Option Expr := do return new (BMap.ofList Wire.cmp [(ONE, ← clone q c)])

/-- `From<&Element>` (src/expression.rs:132-136). -/
def exprOfElementR (q c : ℕ) : Option Expr := do exprOfElement q (← clone q c)

/-- `From<Wire>` (src/expression.rs:112-117), `From<&Wire>` (119-123). -/
def exprOfWire (q : ℕ) (w : Wire) : Option Expr := do
  let o ← one q
  return new (BMap.ofList Wire.cmp [(w, ← clone q o)])

/-- `From<usize>`, `From<u128>`, `From<u64>`, `From<u32>`, `From<u16>`, `From<u8>`
(src/expression.rs:138-172). -/
def exprOfWord (q n : ℕ) : Option Expr := do exprOfElement q (← ofWord q n)

/-- `From<bool>` (src/expression.rs:174-178). -/
def exprOfBool (q : ℕ) (b : Bool) : Option Expr := do exprOfElement q (← ofBool q b)

/-- `Expression::one` (src/expression.rs:73-75). -/
def oneExpr (q : ℕ) : Option Expr := exprOfWord q 1

/-- `num_terms` (src/expression.rs:82-84). -/
def numTerms (e : Expr) : ℕ := e.length

/-- `as_constant` (src/expression.rs:87-93): `none` is a panic; the element is cloned. -/
def asConstant (q : ℕ) (e : Expr) : Option (Option ℕ) :=
  if numTerms e = 1 then
    match BMap.get Wire.cmp ONE e with
    | none => some none
    | some c => (clone q c).map some
  else some none

/-- `dependencies` (src/expression.rs:96-98). -/
def dependencies (e : Expr) : List Wire := e.map (·.1)

/-- `evaluate` (src/expression.rs:100-103). -/
def evaluate (q : ℕ) (e : Expr) (m : Values) : Option ℕ := do
  let z ← zero q
  e.foldlM (fun sum kv => do
    let x ← get m kv.1
    addVV q sum (← mulRR q x kv.2)) z

/-- `Mul<&Element> for &Expression` (src/expression.rs:314-323). -/
def scaleRR (q : ℕ) (e : Expr) (c : ℕ) : Option Expr := do
  let l ← e.mapM fun kv => do return (kv.1, ← mulRR q kv.2 c)
  return new (BMap.ofList Wire.cmp l)

/-- `Mul<Element> for &Expression` (src/expression.rs:306-312). -/
def scaleRV (q : ℕ) (e : Expr) (c : ℕ) : Option Expr := scaleRR q e c

/-- `Mul<&Element> for Expression` (src/expression.rs:298-304). -/
def scaleVR (q : ℕ) (e : Expr) (c : ℕ) : Option Expr := scaleRR q e c

/-- `Mul<Element> for Expression` (src/expression.rs:290-296). -/
def scaleVV (q : ℕ) (e : Expr) (c : ℕ) : Option Expr := scaleRR q e c

/-- `Mul<u128> for &Expression` (src/expression.rs:333-342). -/
def scaleRN (q : ℕ) (e : Expr) (k : ℕ) : Option Expr := do
  let l ← e.mapM fun kv => do return (kv.1, ← mulRN q kv.2 k)
  return new (BMap.ofList Wire.cmp l)

/-- `Mul<u128> for Expression` (src/expression.rs:325-331). -/
def scaleVN (q : ℕ) (e : Expr) (k : ℕ) : Option Expr := scaleRN q e k

/-- `MulAssign<&Element> for Expression` (src/expression.rs:350-354). -/
def scaleAssignR (q : ℕ) (e : Expr) (c : ℕ) : Option Expr := do scaleVR q (← cloneMap q e) c

/-- `MulAssign<Element> for Expression` (src/expression.rs:344-348). -/
def scaleAssignV (q : ℕ) (e : Expr) (c : ℕ) : Option Expr := scaleAssignR q e c

/-- `MulAssign<u128> for Expression` (src/expression.rs:356-360). -/
def scaleAssignN (q : ℕ) (e : Expr) (k : ℕ) : Option Expr := do scaleVN q (← cloneMap q e) k

/-- `Div<&Element> for &Expression` (src/expression.rs:386-395). -/
def divideRR (q : ℕ) (e : Expr) (c : ℕ) : Option Expr := do
  let l ← e.mapM fun kv => do return (kv.1, ← divRR q kv.2 c)
  return new (BMap.ofList Wire.cmp l)

/-- `Div<Element> for &Expression` (src/expression.rs:378-384). -/
def divideRV (q : ℕ) (e : Expr) (c : ℕ) : Option Expr := divideRR q e c

/-- `Div<&Element> for Expression` (src/expression.rs:370-376). -/
def divideVR (q : ℕ) (e : Expr) (c : ℕ) : Option Expr := divideRR q e c

/-- `Div<Element> for Expression` (src/expression.rs:362-368). -/
def divideVV (q : ℕ) (e : Expr) (c : ℕ) : Option Expr := divideRR q e c

/-- `Div<u128> for &Expression` (src/expression.rs:405-414). -/
def divideRN (q : ℕ) (e : Expr) (k : ℕ) : Option Expr := do
  let l ← e.mapM fun kv => do return (kv.1, ← divRN q kv.2 k)
  return new (BMap.ofList Wire.cmp l)

/-- `Div<u128> for Expression` (src/expression.rs:397-403). -/
def divideVN (q : ℕ) (e : Expr) (k : ℕ) : Option Expr := divideRN q e k

/-- `DivAssign<&Element> for Expression` (src/expression.rs:422-427). -/
def divideAssignR (q : ℕ) (e : Expr) (c : ℕ) : Option Expr := divideRR q e c

/-- `DivAssign<Element> for Expression` (src/expression.rs:416-420). -/
def divideAssignV (q : ℕ) (e : Expr) (c : ℕ) : Option Expr := divideAssignR q e c

/-- `DivAssign<u128> for Expression` (src/expression.rs:429-434). -/
def divideAssignN (q : ℕ) (e : Expr) (k : ℕ) : Option Expr := divideRN q e k

/-- `Neg for &Expression` (src/expression.rs:180-186). -/
def negExprR (q : ℕ) (e : Expr) : Option Expr := do
  let o ← one q
  scaleRV q e (← negV q o)

/-- `Neg for Expression` (src/expression.rs:188-194). -/
def negExprV (q : ℕ) (e : Expr) : Option Expr := negExprR q e

/-- `neg_one` (src/expression.rs:78-80). -/
def negOneExpr (q : ℕ) : Option Expr := do negExprV q (← oneExpr q)

/-- `Add<&Expression> for &Expression` (src/expression.rs:220-231). -/
def addExprRR (q : ℕ) (a b : Expr) : Option Expr := do
  let merged ← cloneMap q a
  let l ← cloneMap q b
  let m ← l.foldlM (addEntry (addAssignV q) q) merged
  return new m

/-- `Add<Expression> for &Expression` (src/expression.rs:212-218). -/
def addExprRV (q : ℕ) (a b : Expr) : Option Expr := addExprRR q a b

/-- `Add<&Expression> for Expression` (src/expression.rs:204-210). -/
def addExprVR (q : ℕ) (a b : Expr) : Option Expr := addExprRR q a b

/-- `Add<Expression> for Expression` (src/expression.rs:196-202). -/
def addExprVV (q : ℕ) (a b : Expr) : Option Expr := addExprRR q a b

/-- `AddAssign<&Expression>` (src/expression.rs:239-244). -/
def addExprAssignR (q : ℕ) (a b : Expr) : Option Expr := do addExprVR q (← cloneMap q a) b

/-- `AddAssign` (src/expression.rs:233-237). -/
def addExprAssignV (q : ℕ) (a b : Expr) : Option Expr := addExprAssignR q a b

/-- `Sub<&Expression> for &Expression` (src/expression.rs:270-276). -/
def subExprRR (q : ℕ) (a b : Expr) : Option Expr := do addExprRV q a (← negExprR q b)

/-- `Sub<Expression> for &Expression` (src/expression.rs:262-268). -/
def subExprRV (q : ℕ) (a b : Expr) : Option Expr := subExprRR q a b

/-- `Sub<&Expression> for Expression` (src/expression.rs:254-260). -/
def subExprVR (q : ℕ) (a b : Expr) : Option Expr := subExprRR q a b

/-- `Sub<Expression> for Expression` (src/expression.rs:246-252). -/
def subExprVV (q : ℕ) (a b : Expr) : Option Expr := subExprRR q a b

/-- `SubAssign<&Expression>` (src/expression.rs:284-288). -/
def subExprAssignR (q : ℕ) (a b : Expr) : Option Expr := subExprRR q a b

/-- `SubAssign` (src/expression.rs:278-282). -/
def subExprAssignV (q : ℕ) (a b : Expr) : Option Expr := subExprAssignR q a b

/-- `BooleanExpression::evaluate` (src/expression.rs:489-495), of the field `expression`, which is returned by
`expression` (481-483). -/
def evaluateBoolean (q : ℕ) (e : Expr) (m : Values) : Option Bool := do
  let x ← evaluate q e m
  if isZero x then return false
  else if isOne x then return true
  else none

/-- `get_boolean` (src/wire_values.rs:35-37). -/
def getBoolean (q : ℕ) (m : Values) (w : BooleanWire) : Option Bool := do
  evaluateBoolean q (← exprOfWire q w.wire) m

/-- The fold of `join_allowing_overflow` (src/expression.rs:600-603), from bit `i` on. -/
def joinFrom (q : ℕ) : ℕ → Expr → List Expr → Option Expr
  | _, sum, [] => some sum
  | i, sum, b :: bs => do
    let o ← one q
    let c ← shlV q o i
    let t ← scaleRV q b c
    let sum ← addExprVV q sum t
    joinFrom q (i + 1) sum bs

/-- `join_allowing_overflow` (src/expression.rs:600-603), of the field `bits`. -/
def joinAllowingOverflow (q : ℕ) (bits : List Expr) : Option Expr := joinFrom q 0 zeroExpr bits

/-! ## src/constraint.rs -/

/-- `Constraint::evaluate` (src/constraint.rs:17-22). -/
def evaluateConstraint (q : ℕ) (a b c : Expr) (m : Values) : Option Bool := do
  let x ← evaluate q a m
  let y ← evaluate q b m
  let z ← evaluate q c m
  return eq (← mulVV q x y) z

/-! ## src/witness_generator.rs, src/gadget.rs -/

/-- `WitnessGenerator` (src/witness_generator.rs:10-38). -/
structure RawGenerator where
  inputs : List Wire
  generate : Values → Option Values

/-- `Gadget` (src/gadget.rs:9-15); a constraint is the list of its three expressions. -/
structure RawGadget where
  constraints : List (Expr × Expr × Expr)
  witnessGenerators : List RawGenerator

/-- One `retain` pass (src/gadget.rs:32-41). -/
def pass : List RawGenerator → Values → Option (List RawGenerator × Values × Bool)
  | [], m => some ([], m, false)
  | g :: gs, m =>
    if containsAll m g.inputs then do
      let m' ← g.generate m
      let r ← pass gs m'
      return (r.1, r.2.1, true)
    else do
      let r ← pass gs m
      return (g :: r.1, r.2.1, r.2.2)

/-- The `loop` of `execute` (src/gadget.rs:31-46), bounded like `Gadget.loop`. -/
def loop : ℕ → List RawGenerator → Values → Option (List RawGenerator × Values)
  | 0, _, _ => none
  | fuel + 1, gs, m => do
    let r ← pass gs m
    if r.2.2 then loop fuel r.1 r.2.1 else return (r.1, r.2.1)

/-- `self.constraints.iter().all(..)` (src/gadget.rs:50). -/
def checkAll (q : ℕ) : List (Expr × Expr × Expr) → Values → Option Bool
  | [], _ => some true
  | c :: cs, m => do
    let ok ← evaluateConstraint q c.1 c.2.1 c.2.2 m
    if ok then checkAll q cs m else return false

/-- `execute` (src/gadget.rs:24-51). -/
def execute (q : ℕ) (g : RawGadget) (m : Values) : Option (Values × Bool) := do
  let r ← loop (g.witnessGenerators.length + 1) g.witnessGenerators m
  if r.1.length = 0 then do
    let ok ← checkAll q g.constraints r.2
    return (r.2, ok)
  else none

/-- The closure of `product` (src/field_arithmetic.rs:28-31), as an example of a generator. -/
def productGen (q : ℕ) (x y : Expr) (w : Wire) (m : Values) : Option Values := do
  let xv ← evaluate q x m
  let yv ← evaluate q y m
  set m w (← mulVV q xv yv)

/-! ## src/matrices.rs -/

/-- `Mul<&[Element]> for &ElementMatrix` (src/matrices.rs:31-40), and through it the other matrices of
elements: src/matrices.rs:53-59, 91-97 and 107-113. -/
def matrixElements (q : ℕ) (rows : List (List ℕ)) (rhs : List ℕ) : Option (List ℕ) :=
  (rows.zip rhs).mapM fun rv => do
    let z ← zero q
    rv.1.foldlM (fun sum c => do addVV q sum (← mulRR q rv.2 c)) z

/-- `Mul<&[Expression]> for &ElementMatrix` (src/matrices.rs:42-51), and through it the other matrices of
elements: src/matrices.rs:61-67, 99-105 and 115-121. -/
def matrixExpressions (q : ℕ) (rows : List (List ℕ)) (rhs : List Expr) : Option (List Expr) :=
  (rows.zip rhs).mapM fun rv =>
    rv.1.foldlM (fun sum c => do addExprVV q sum (← scaleRR q rv.2 c)) zeroExpr

/-! ## src/bimap_util.rs -/

/-- The first loop of `bimap_from_lists` (src/bimap_util.rs:22-25) with the map it builds; the end of a vector
is the end of the list. -/
def pushIndices : ℕ → List ℕ → BMap ℕ (List ℕ) → BMap ℕ (List ℕ)
  | _, [], m => m
  | i, x :: xs, m => pushIndices (i + 1) xs (BMap.upsert cmp x [] (fun v => v ++ [i]) m)

/-- The second loop of `bimap_from_lists` (src/bimap_util.rs:27-34): `pop` takes the last index away. -/
def popIndices : ℕ → List ℕ → BMap ℕ (List ℕ) → BiMap → Option BiMap
  | _, [], _, r => some r
  | i, x :: xs, m, r =>
    match (BMap.get cmp x m).bind List.getLast? with
    | none => none
    | some j => popIndices (i + 1) xs (BMap.upsert cmp x [] List.dropLast m) (r.insert i j)

/-- `bimap_from_lists` (src/bimap_util.rs:19-37) on lists of elements. -/
def bimapFromLists (a b : List ℕ) : Option BiMap :=
  if a.length = b.length then popIndices 0 a (pushIndices 0 b []) [] else none

/-! ## Literals -/

/-- The literal in `Bn128::order` (src/field.rs:24-30). -/
def bn128Literal : List Char :=
  "21888242871839275222246405745257275088548364400416034343698204186575808495617".toList

/-- The literal in `Bls12_381::order` (src/field.rs:36-42). -/
def bls12_381Literal : List Char :=
  "52435875175126190479447740508185965837690552500527637822603658699938581184513".toList

/-- The literal in `JubJub::d` (src/curves/jubjub.rs:14-18). -/
def jubjubDLiteral : List Char :=
  "19257038036680949359750312669786877991949435402254120286184196891950884077233".toList

/-- The literal for `x` in `JubJub::generator_element` (src/curves/jubjub.rs:23-25). -/
def jubjubXLiteral : List Char :=
  "11076627216317271660298050606127911965867021807910416450833192264015104452986".toList

/-- The literal for `y` in `JubJub::generator_element` (src/curves/jubjub.rs:26-28). -/
def jubjubYLiteral : List Char :=
  "44412834903739585386157632289020980010620626017712148233229312325549216099227".toList

end R1CS.Raw
