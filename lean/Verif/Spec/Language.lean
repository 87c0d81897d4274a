import Verif.Spec.Gadgets
import Verif.Spec.Tidy
import Verif.Spec.Hashes
import Verif.Spec.Edwards
import Verif.Model.BinaryOps
import Verif.Model.Permutation
import Verif.Model.Hashes
import Verif.Model.Curves

/-!
# Specification vocabulary: circuits as programs

A user of the crate writes straight-line code: allocate wires, call gadgets on the objects at hand
(expressions, boolean expressions, digit strings), keep the results.  Here such code is a list of
instructions, each a gadget applied to objects named by their positions.  It has two readings:
`build` runs the code on a builder, and `meaning` calculates with numbers, truth values and digits,
without wires, constraints or generators.
-/

namespace R1CS

variable {p : ℕ} [hp : Fact p.Prime]

/-- An object of a circuit: `Expression`, `BooleanExpression` or `BinaryExpression`. -/
inductive Obj (p : ℕ) [Fact p.Prime] where
  | expr (e : Expression p)
  | bool (e : BooleanExpression p)
  | bin (e : BinaryExpression p)

/-- A value: a field element, a truth value or a string of binary digits, lowest first. -/
inductive Val (p : ℕ) [Fact p.Prime] where
  | elem (x : Elem p)
  | bool (b : Bool)
  | bits (l : List Bool)
  deriving DecidableEq

/-- The object has the value under the assignment. -/
def Means (W : Assign p) : Obj p → Val p → Prop
  | .expr e, .elem x => e.eval W = x
  | .bool e, .bool b => e.eval W = Elem.ofBool b
  | .bin e, .bits l => (e.bits.map fun b => b.eval W) = l.map Elem.ofBool
  | _, _ => False

/-- The objects have the values, one by one. -/
def MeansAll (W : Assign p) : List (Obj p) → List (Val p) → Prop := List.Forall₂ (Means W)

/-- The wires of the object exist. -/
def Obj.Scoped (n : ℕ) : Obj p → Prop
  | .expr e => e.Scoped n
  | .bool e => e.Scoped n
  | .bin e => e.Scoped n

namespace Language

/-! ## Operands and results -/

/-- The object as an expression. -/
def expr? : Obj p → Option (Expression p)
  | .expr e => some e
  | _ => none

/-- The object as a boolean expression. -/
def bool? : Obj p → Option (BooleanExpression p)
  | .bool e => some e
  | _ => none

/-- The object as a digit string. -/
def bin? : Obj p → Option (BinaryExpression p)
  | .bin e => some e
  | _ => none

/-- The value as a field element. -/
def elem? : Val p → Option (Elem p)
  | .elem x => some x
  | _ => none

/-- The value as a truth value. -/
def truth? : Val p → Option Bool
  | .bool b => some b
  | _ => none

/-- The value as digits. -/
def bits? : Val p → Option (List Bool)
  | .bits l => some l
  | _ => none

/-- A call with operands of one kind.  (Operands of a wrong kind are a compile-time error in Rust;
here the call panics.) -/
def onAll {α β : Type} (kind : Obj p → Option α) (f : List α → B p β) (os : List (Obj p)) :
    B p β := do
  let as ← B.ofOption (os.mapM kind)
  f as

/-- Exactly one operand. -/
def call1 {α β : Type} (f : α → B p β) : List α → B p β
  | [x] => f x
  | _ => B.panic

/-- Exactly two operands. -/
def call2 {α β : Type} (f : α → α → B p β) : List α → B p β
  | [x, y] => f x y
  | _ => B.panic

/-- Exactly three operands. -/
def call3 {α β : Type} (f : α → α → α → B p β) : List α → B p β
  | [x, y, z] => f x y z
  | _ => B.panic

/-- One operand followed by a list. -/
def callList {α β : Type} (f : α → List α → B p β) : List α → B p β
  | x :: xs => f x xs
  | [] => B.panic

/-- Exactly four operands. -/
def call4 {α β : Type} (f : α → α → α → α → B p β) : List α → B p β
  | [x, y, z, t] => f x y z t
  | _ => B.panic

/-- Exactly five operands. -/
def call5 {α β : Type} (f : α → α → α → α → α → B p β) : List α → B p β
  | [x, y, z, t, u] => f x y z t u
  | _ => B.panic

/-- Exactly one value. -/
def fun1 {α β : Type} (f : α → Option β) : List α → Option β
  | [x] => f x
  | _ => none

/-- Exactly two values. -/
def fun2 {α β : Type} (f : α → α → Option β) : List α → Option β
  | [x, y] => f x y
  | _ => none

/-- Exactly three values. -/
def fun3 {α β : Type} (f : α → α → α → Option β) : List α → Option β
  | [x, y, z] => f x y z
  | _ => none

/-- One value followed by a list. -/
def funList {α β : Type} (f : α → List α → Option β) : List α → Option β
  | x :: xs => f x xs
  | [] => none

/-- Exactly four values. -/
def fun4 {α β : Type} (f : α → α → α → α → Option β) : List α → Option β
  | [x, y, z, t] => f x y z t
  | _ => none

/-- Exactly five values. -/
def fun5 {α β : Type} (f : α → α → α → α → α → Option β) : List α → Option β
  | [x, y, z, t, u] => f x y z t u
  | _ => none

/-- The coordinates of a point and a boolean expression. -/
def callPointBool {β : Type} (f : Expression p → Expression p → BooleanExpression p → B p β) :
    List (Obj p) → B p β
  | [.expr x, .expr y, .bool b] => f x y b
  | _ => B.panic

/-- An expression, digits, and further expressions. -/
def callPath {β : Type} (f : Expression p → BinaryExpression p → List (Expression p) → B p β) :
    List (Obj p) → B p β
  | .expr x :: .bin l :: os => onAll expr? (f x l) os
  | _ => B.panic

/-- Two expressions, digits, and further expressions. -/
def callPath2 {β : Type} (f : Expression p → Expression p → BinaryExpression p →
    List (Expression p) → B p β) : List (Obj p) → B p β
  | .expr x :: .expr y :: .bin l :: os => onAll expr? (f x y l) os
  | _ => B.panic

/-- Two elements and a truth value. -/
def funPointBool {β : Type} (f : Elem p → Elem p → Bool → Option β) : List (Val p) → Option β
  | [.elem x, .elem y, .bool b] => f x y b
  | _ => none

/-- An element, digits, and further elements. -/
def funPath {β : Type} (f : Elem p → List Bool → List (Elem p) → Option β) :
    List (Val p) → Option β
  | .elem x :: .bits l :: vs => vs.mapM elem? >>= f x l
  | _ => none

/-- Two elements, digits, and further elements. -/
def funPath2 {β : Type} (f : Elem p → Elem p → List Bool → List (Elem p) → Option β) :
    List (Val p) → Option β
  | .elem x :: .elem y :: .bits l :: vs => vs.mapM elem? >>= f x y l
  | _ => none

/-- The result is an expression. -/
def retExpr (m : B p (Expression p)) : B p (List (Obj p)) := do return [.expr (← m)]

/-- The result is a list of expressions. -/
def retExprs (m : B p (List (Expression p))) : B p (List (Obj p)) := do return (← m).map .expr

/-- The result is a boolean expression. -/
def retBool (m : B p (BooleanExpression p)) : B p (List (Obj p)) := do return [.bool (← m)]

/-- The result is a digit string. -/
def retBin (m : B p (BinaryExpression p)) : B p (List (Obj p)) := do return [.bin (← m)]

/-- The results are the coordinates of a point. -/
def retPoint (m : B p (EdwardsExpression p)) : B p (List (Obj p)) := do
  let P ← m
  return [.expr P.x, .expr P.y]

/-- There is no result. -/
def retNone {α : Type} (m : B p α) : B p (List (Obj p)) := do
  let _ ← m
  return []

/-- The lowest `k` binary digits of a number. -/
def bitsOf (k n : ℕ) : List Bool := (List.range k).map n.testBit

/-- The number with the given binary digits. -/
def natOf : List Bool → ℕ
  | [] => 0
  | b :: l => b.toNat + 2 * natOf l

/-- The number of digits of the largest possible sum of strings of the given lengths. -/
def sumWidth (ls : List (List Bool)) : ℕ := 
  (ls.map fun l : List Bool => 2 ^ l.length - 1).sum.size

/-- The length of the longest string. -/
def maxLength (ls : List (List Bool)) : ℕ := (ls.map List.length).foldr max 0

/-- The order relations. -/
inductive Cmp where
  | lt
  | le
  | gt
  | ge
  deriving DecidableEq

/-- Whether the numbers are in the relation. -/
def Cmp.holds : Cmp → ℕ → ℕ → Bool
  | lt, a, b => decide (a < b)
  | le, a, b => decide (a ≤ b)
  | gt, a, b => decide (a > b)
  | ge, a, b => decide (a ≥ b)

/-- The digit strings can be compared in a field with elements of `N` bits: they have the same
positive length, and some chunk size leaving a spare bit is as cheap as the largest one (C41). -/
def Comparable (N : ℕ) (l k : List Bool) : Prop :=
  l.length = k.length ∧ l ≠ [] ∧ ∃ c, c < N - 1 ∧ 1 ≤ c ∧
    3 * ((l.length + c - 1) / c) + c ≤ 3 * ((l.length + (N - 1) - 1) / (N - 1)) + (N - 1)

instance (N : ℕ) (l k : List Bool) : Decidable (Comparable N l k) := by
  unfold Comparable; infer_instance

instance (a d x y : Elem p) : Decidable (Edwards.OnCurve a d x y) :=
  inferInstanceAs (Decidable (_ = _))

/-- The sum of two pairs of coordinates by the formulas of twisted Edwards curves, unless a
denominator is zero. -/
def pointSum (C : EdwardsCurve p) (P Q : Elem p × Elem p) : Option (Elem p × Elem p) :=
  if 1 + C.d * P.1 * Q.1 * P.2 * Q.2 = 0 ∨ 1 - C.d * P.1 * Q.1 * P.2 * Q.2 = 0 then none
  else some (Edwards.sumX C.d P.1 P.2 Q.1 Q.2, Edwards.sumY C.a C.d P.1 P.2 Q.1 Q.2)

/-- Doubling by the formulas which do without `d`, unless a denominator is zero.  For points of the
curve they agree with `pointSum` (C91). -/
def pointDouble (C : EdwardsCurve p) (P : Elem p × Elem p) : Option (Elem p × Elem p) :=
  if C.a * P.1 ^ 2 + P.2 ^ 2 = 0 ∨ 2 - (C.a * P.1 ^ 2 + P.2 ^ 2) = 0 then none
  else some (2 * P.1 * P.2 / (C.a * P.1 ^ 2 + P.2 ^ 2),
    (P.2 ^ 2 - C.a * P.1 ^ 2) / (2 - (C.a * P.1 ^ 2 + P.2 ^ 2)))

/-- Double and add: `Q` plus the number with the given digits times `P`. -/
def pointLadder (C : EdwardsCurve p) : List Bool → Elem p × Elem p → Elem p × Elem p →
    Option (Elem p × Elem p)
  | [], Q, _ => some Q
  | b :: l, Q, P => do
    let Q' ← pointSum C Q (if b then P else (0, 1))
    let P' ← pointDouble C P
    pointLadder C l Q' P'

/-- A number times a point, by double and add with all the digits which field elements can have. -/
def pointMultiple (C : EdwardsCurve p) (k : Elem p) (P : Elem p × Elem p) :
    Option (Elem p × Elem p) :=
  pointLadder C (bitsOf (Elem.maxBits p) k.n) (0, 1) P

/-- Verification of a signature `(s, e)` of the message `m` with the public key `P`: the hash of the
second coordinate of `s • G + e • P` and the message has to be `e`. -/
def signatureCheck (C : EdwardsCurve p) (G : Elem p × Elem p) (h : Elem p → Elem p → Elem p)
    (s e m : Elem p) (P : Elem p × Elem p) : Option Bool := do
  let Q ← pointMultiple C s G
  let R ← pointMultiple C e P
  let T ← pointSum C Q R
  return decide (h T.2 m = e)

end Language

/-- A compression function whose implementation is known to be sound and complete (as those of C58). -/
structure PairHash (p : ℕ) [Fact p.Prime] where
  code : CompressionFunction p
  value : Elem p → Elem p → Elem p
  sound : Enforced2 code.compress value
  complete : Computed2 code.compress value
  tidy : ∀ x y, Tidy (code.compress x y)

open Language

/-- The gadgets of the language. -/
inductive Op (p : ℕ) [Fact p.Prime] where
  -- constants (src/expression.rs)
  | const (c : Elem p)
  | constBool (b : Bool)
  | constBits (n : ℕ)
  -- linear operations on expressions (src/expression.rs)
  | add
  | sub
  | neg
  | scale (c : Elem p)
  -- src/field_arithmetic.rs, src/gadget_builder.rs, src/boolean_algebra.rs
  | product
  | exp (k : Elem p)
  | inverse
  | quotient
  | inverseOrZero
  | quotientUnsafe
  | nonzero
  | zero
  | equal
  | assertEqual
  | assertNonequal
  | assertZero
  | assertNonzero
  | assertProduct
  | assertBoolean
  -- src/comparisons.rs
  | lt
  | le
  | gt
  | ge
  | assertLt
  | assertLe
  | assertGt
  | assertGe
  -- src/field_arithmetic.rs
  | modulus
  | divides
  -- src/splitting.rs, src/expression.rs
  | split
  | splitAllowingAmbiguity
  | splitBounded (k : ℕ)
  | join
  | joinAllowingOverflow
  -- src/comparisons.rs: lt_binary, le_binary, gt_binary, ge_binary, and assert_lt_binary and so on
  | cmpBinary (r : Cmp)
  | assertCmpBinary (r : Cmp)
  -- src/boolean_algebra.rs, src/gadget_builder.rs
  | not
  | and
  | or
  | xor
  | assertTrue
  | assertFalse
  | select
  -- the contents of a boolean expression, a digit string from its digits and back
  | toExpr
  | pack
  | unpack
  -- src/bitwise_operations.rs
  | bitwiseNot
  | bitwiseAnd
  | bitwiseOr
  | bitwiseXor
  | rotateInc (k : ℕ)
  | rotateDec (k : ℕ)
  | shiftInc (k : ℕ)
  | shiftDec (k : ℕ)
  -- src/binary_arithmetic.rs
  | binarySum
  | binarySumIgnoringOverflow
  | binarySumAssertingNoOverflow
  | binaryAssertZero
  -- src/random_access.rs: the index, then the items
  | randomAccess
  -- src/verify_permutation.rs: the first `k` operands against the others
  | assertPermutation (k : ℕ)
  -- src/sorting.rs
  | sortAscending
  | sortDescending
  -- any implementation `m` of a function `f` of `k` elements which is known to be sound and complete,
  -- such as the ciphers, hash functions and permutations of the crate (C56, C58-C61)
  | function (k : ℕ) (m : List (Expression p) → B p (List (Expression p)))
      (f : List (Elem p) → List (Elem p)) (sound : EnforcedList k m f)
      (complete : ComputedList k m f) (tidy : ∀ xs, Tidy (m xs))
  -- src/curves/edwards.rs, src/group.rs: points are pairs of operands; a boolean or a scalar comes last
  | edwardsNew (C : EdwardsCurve p)
  | edwardsAdd (C : EdwardsCurve p)
  | edwardsDouble (C : EdwardsCurve p)
  | edwardsMulBoolean (C : EdwardsCurve p)
  | edwardsMulScalar (C : EdwardsCurve p)
  -- src/signature.rs, with the generator `G`: the two parts of the signature, the message, the
  -- coordinates of the public key
  | schnorrVerify (C : EdwardsCurve p) (G : EdwardsPoint p) (h : PairHash p)
  -- src/merkle_trees.rs: the leaf, (for membership) the root, the path bits, the siblings
  | merkleRoot (h : PairHash p)
  | assertMembership (h : PairHash p)

namespace Op

/-- Calling the gadget on a builder. -/
def run : Op p → List (Obj p) → B p (List (Obj p))
  | const c, _ => return [.expr (Expression.ofElem c)]
  | constBool b, _ => return [.bool (BooleanExpression.ofBool b)]
  | constBits n, _ => return [.bin (BinaryExpression.ofNat n)]
  | add, os => onAll expr? (call2 fun x y => retExpr (return x + y)) os
  | sub, os => onAll expr? (call2 fun x y => retExpr (return x - y)) os
  | neg, os => onAll expr? (call1 fun x => retExpr (return -x)) os
  | scale c, os => onAll expr? (call1 fun x => retExpr (return x.mulElem c)) os
  | product, os => onAll expr? (call2 fun x y => retExpr (B.product x y)) os
  | exp k, os => onAll expr? (call1 fun x => retExpr (B.exponentiation x k)) os
  | inverse, os => onAll expr? (call1 fun x => retExpr (B.inverse x)) os
  | quotient, os => onAll expr? (call2 fun x y => retExpr (B.quotient x y)) os
  | inverseOrZero, os => onAll expr? (call1 fun x => retExpr (B.inverseOrZero x)) os
  | quotientUnsafe, os => onAll expr? (call2 fun x y => retExpr (B.quotientUnsafe x y)) os
  | nonzero, os => onAll expr? (call1 fun x => retBool (B.nonzero x)) os
  | zero, os => onAll expr? (call1 fun x => retBool (B.zero x)) os
  | equal, os => onAll expr? (call2 fun x y => retBool (B.equal x y)) os
  | assertEqual, os => onAll expr? (call2 fun x y => retNone (B.assertEqual x y)) os
  | assertNonequal, os => onAll expr? (call2 fun x y => retNone (B.assertNonequal x y)) os
  | assertZero, os => onAll expr? (call1 fun x => retNone (B.assertZero x)) os
  | assertNonzero, os => onAll expr? (call1 fun x => retNone (B.assertNonzero x)) os
  | assertProduct, os => onAll expr? (call3 fun x y z => retNone (B.assertProduct x y z)) os
  | assertBoolean, os => onAll expr? (call1 fun x => retBool (B.assertBoolean x)) os
  | lt, os => onAll expr? (call2 fun x y => retBool (B.lt x y)) os
  | le, os => onAll expr? (call2 fun x y => retBool (B.le x y)) os
  | gt, os => onAll expr? (call2 fun x y => retBool (B.gt x y)) os
  | ge, os => onAll expr? (call2 fun x y => retBool (B.ge x y)) os
  | assertLt, os => onAll expr? (call2 fun x y => retNone (B.assertLt x y)) os
  | assertLe, os => onAll expr? (call2 fun x y => retNone (B.assertLe x y)) os
  | assertGt, os => onAll expr? (call2 fun x y => retNone (B.assertGt x y)) os
  | assertGe, os => onAll expr? (call2 fun x y => retNone (B.assertGe x y)) os
  | modulus, os => onAll expr? (call2 fun x y => retExpr (B.modulus x y)) os
  | divides, os => onAll expr? (call2 fun x y => retBool (B.divides x y)) os
  | split, os => onAll expr? (call1 fun x => retBin (B.split x)) os
  | splitAllowingAmbiguity, os => onAll expr? (call1 fun x => retBin (B.splitAllowingAmbiguity x)) os
  | splitBounded k, os => onAll expr? (call1 fun x => retBin (B.splitBounded x k)) os
  | join, os => onAll bin? (call1 fun x => retExpr (B.ofOption x.join)) os
  | joinAllowingOverflow, os =>
    onAll bin? (call1 fun x => retExpr (B.ofOption x.joinAllowingOverflow)) os
  | cmpBinary .lt, os => onAll bin? (call2 fun x y => retBool (B.ltBinary x y)) os
  | cmpBinary .le, os => onAll bin? (call2 fun x y => retBool (B.leBinary x y)) os
  | cmpBinary .gt, os => onAll bin? (call2 fun x y => retBool (B.gtBinary x y)) os
  | cmpBinary .ge, os => onAll bin? (call2 fun x y => retBool (B.geBinary x y)) os
  | assertCmpBinary .lt, os => onAll bin? (call2 fun x y => retNone (B.assertLtBinary x y)) os
  | assertCmpBinary .le, os => onAll bin? (call2 fun x y => retNone (B.assertLeBinary x y)) os
  | assertCmpBinary .gt, os => onAll bin? (call2 fun x y => retNone (B.assertGtBinary x y)) os
  | assertCmpBinary .ge, os => onAll bin? (call2 fun x y => retNone (B.assertGeBinary x y)) os
  | not, os => onAll bool? (call1 fun x => retBool (B.not x)) os
  | and, os => onAll bool? (call2 fun x y => retBool (B.and x y)) os
  | or, os => onAll bool? (call2 fun x y => retBool (B.or x y)) os
  | xor, os => onAll bool? (call2 fun x y => retBool (B.xor x y)) os
  | assertTrue, os => onAll bool? (call1 fun x => retNone (B.assertTrue x)) os
  | assertFalse, os => onAll bool? (call1 fun x => retNone (B.assertFalse x)) os
  | select, [.bool c, .expr x, .expr y] => retExpr (B.selection c x y)
  | select, _ => B.panic
  | toExpr, os => onAll bool? (call1 fun x => retExpr (return x.expression)) os
  | pack, os => onAll bool? (fun xs => retBin (return ⟨xs⟩)) os
  | unpack, os => onAll bin? (call1 fun x => return x.bits.map .bool) os
  | bitwiseNot, os => onAll bin? (call1 fun x => retBin (B.bitwiseNot x)) os
  | bitwiseAnd, os => onAll bin? (call2 fun x y => retBin (B.bitwiseAnd x y)) os
  | bitwiseOr, os => onAll bin? (call2 fun x y => retBin (B.bitwiseOr x y)) os
  | bitwiseXor, os => onAll bin? (call2 fun x y => retBin (B.bitwiseXor x y)) os
  | rotateInc k, os => onAll bin? (call1 fun x => retBin (B.ofOption (B.rotateInc x k))) os
  | rotateDec k, os => onAll bin? (call1 fun x => retBin (B.ofOption (B.rotateDec x k))) os
  | shiftInc k, os => onAll bin? (call1 fun x => retBin (B.ofOption (B.shiftInc x k))) os
  | shiftDec k, os => onAll bin? (call1 fun x => retBin (B.ofOption (B.shiftDec x k))) os
  | binarySum, os => onAll bin? (fun xs => retBin (B.binarySummation xs)) os
  | binarySumIgnoringOverflow, os =>
    onAll bin? (fun xs => retBin (B.binarySummationIgnoringOverflow xs)) os
  | binarySumAssertingNoOverflow, os =>
    onAll bin? (fun xs => retBin (B.binarySummationAssertingNoOverflow xs)) os
  | binaryAssertZero, os => onAll bin? (call1 fun x => retNone (B.binaryAssertZero x)) os
  | randomAccess, os => onAll expr? (callList fun i xs => retExpr (B.randomAccess xs i)) os
  | assertPermutation k, os =>
    onAll expr? (fun xs => retNone (B.assertPermutation (xs.take k) (xs.drop k))) os
  | sortAscending, os => onAll expr? (fun xs => retExprs (B.sortAscending xs)) os
  | sortDescending, os => onAll expr? (fun xs => retExprs (B.sortDescending xs)) os
  | function k m _ _ _ _, os => onAll expr? (fun xs => do
      B.require (xs.length = k)
      retExprs (m xs)) os
  | edwardsNew C, os => onAll expr? (call2 fun x y => retPoint (EdwardsExpression.new C x y)) os
  | edwardsAdd C, os => onAll expr? (call4 fun x y x' y' =>
      retPoint (EdwardsGroup.addExpressions C ⟨x, y⟩ ⟨x', y'⟩)) os
  | edwardsDouble C, os => onAll expr? (call2 fun x y =>
      retPoint (EdwardsGroup.doubleExpression C ⟨x, y⟩)) os
  | edwardsMulBoolean C, os => callPointBool (fun x y b =>
      retPoint ((EdwardsGroup.ops C).mulBooleanExpression ⟨x, y⟩ b)) os
  | edwardsMulScalar C, os => onAll expr? (call3 fun x y k =>
      retPoint ((EdwardsGroup.ops C).mulScalarExpression ⟨x, y⟩ k)) os
  | schnorrVerify C G h, os => onAll expr? (call5 fun s e m x y =>
      retNone (R1CS.schnorrVerify (cyclicSubgroup (EdwardsGroup.ops C) (some G)) h.code ⟨s, e⟩ m
        ⟨x, y⟩)) os
  | merkleRoot h, os => callPath (fun x l xs => do
      let path ← B.ofOption (MerklePath.new l xs)
      retExpr (B.merkleTreeRoot x path h.code)) os
  | assertMembership h, os => callPath2 (fun x r l xs => do
      let path ← B.ofOption (MerklePath.new l xs)
      retNone (B.assertMerkleTreeMembership x r path h.code)) os

/-- The meaning of a test. -/
def check (c : Prop) [Decidable c] : Option (List (Val p)) := if c then some [] else none

/-- What the gadget is for: the results for given operands; `none` if there are none, because an
assertion fails, a divisor is zero, something does not fit, or the operands are of a wrong kind,
number or length. -/
def meaning : Op p → List (Val p) → Option (List (Val p))
  | const c, _ => some [.elem c]
  | constBool b, _ => some [.bool b]
  | constBits n, _ => some [.bits (bitsOf n.size n)]
  | add, vs => vs.mapM elem? >>= fun2 fun x y => some [.elem (x + y)]
  | sub, vs => vs.mapM elem? >>= fun2 fun x y => some [.elem (x - y)]
  | neg, vs => vs.mapM elem? >>= fun1 fun x => some [.elem (-x)]
  | scale c, vs => vs.mapM elem? >>= fun1 fun x => some [.elem (x * c)]
  | product, vs => vs.mapM elem? >>= fun2 fun x y => some [.elem (x * y)]
  | exp k, vs => vs.mapM elem? >>= fun1 fun x => some [.elem (x ^ k.n)]
  | inverse, vs => vs.mapM elem? >>= fun1 fun x => if x = 0 then none else some [.elem x⁻¹]
  | quotient, vs => vs.mapM elem? >>= fun2 fun x y => if y = 0 then none else some [.elem (x / y)]
  | inverseOrZero, vs => vs.mapM elem? >>= fun1 fun x => some [.elem (if x = 0 then 0 else x⁻¹)]
  | quotientUnsafe, vs =>
    vs.mapM elem? >>= fun2 fun x y => if y = 0 then none else some [.elem (x / y)]
  | nonzero, vs => vs.mapM elem? >>= fun1 fun x => some [.bool (x ≠ 0)]
  | zero, vs => vs.mapM elem? >>= fun1 fun x => some [.bool (x = 0)]
  | equal, vs => vs.mapM elem? >>= fun2 fun x y => some [.bool (x = y)]
  | assertEqual, vs => vs.mapM elem? >>= fun2 fun x y => check (x = y)
  | assertNonequal, vs => vs.mapM elem? >>= fun2 fun x y => check (x ≠ y)
  | assertZero, vs => vs.mapM elem? >>= fun1 fun x => check (x = 0)
  | assertNonzero, vs => vs.mapM elem? >>= fun1 fun x => check (x ≠ 0)
  | assertProduct, vs => vs.mapM elem? >>= fun3 fun x y z => check (x * y = z)
  | assertBoolean, vs => vs.mapM elem? >>= fun1 fun x =>
    if x = 0 then some [.bool false] else if x = 1 then some [.bool true] else none
  | lt, vs => vs.mapM elem? >>= fun2 fun x y => some [.bool (x.n < y.n)]
  | le, vs => vs.mapM elem? >>= fun2 fun x y => some [.bool (x.n ≤ y.n)]
  | gt, vs => vs.mapM elem? >>= fun2 fun x y => some [.bool (x.n > y.n)]
  | ge, vs => vs.mapM elem? >>= fun2 fun x y => some [.bool (x.n ≥ y.n)]
  | assertLt, vs => vs.mapM elem? >>= fun2 fun x y => check (x.n < y.n)
  | assertLe, vs => vs.mapM elem? >>= fun2 fun x y => check (x.n ≤ y.n)
  | assertGt, vs => vs.mapM elem? >>= fun2 fun x y => check (x.n > y.n)
  | assertGe, vs => vs.mapM elem? >>= fun2 fun x y => check (x.n ≥ y.n)
  | modulus, vs => vs.mapM elem? >>= fun2 fun x y =>
    if y = 0 then none else some [.elem ((x.n % y.n : ℕ) : Elem p)]
  | divides, vs => vs.mapM elem? >>= fun2 fun x y =>
    if x = 0 then none else some [.bool (x.n ∣ y.n)]
  | split, vs => vs.mapM elem? >>= fun1 fun x => some [.bits (bitsOf (Elem.maxBits p) x.n)]
  | splitAllowingAmbiguity, vs =>
    vs.mapM elem? >>= fun1 fun x => some [.bits (bitsOf (Elem.maxBits p) x.n)]
  | splitBounded k, vs => vs.mapM elem? >>= fun1 fun x =>
    if k < Elem.maxBits p ∧ x.n < 2 ^ k then some [.bits (bitsOf k x.n)] else none
  | join, vs => vs.mapM bits? >>= fun1 fun l =>
    if 2 ^ l.length ≤ p then some [.elem ((natOf l : ℕ) : Elem p)] else none
  | joinAllowingOverflow, vs => vs.mapM bits? >>= fun1 fun l =>
    if l.length ≤ Elem.maxBits p then some [.elem ((natOf l : ℕ) : Elem p)] else none
  | cmpBinary r, vs => vs.mapM bits? >>= fun2 fun l k =>
    if Comparable (Elem.maxBits p) l k then some [.bool (r.holds (natOf l) (natOf k))] else none
  | assertCmpBinary r, vs => vs.mapM bits? >>= fun2 fun l k =>
    check (Comparable (Elem.maxBits p) l k ∧ r.holds (natOf l) (natOf k) = true)
  | not, vs => vs.mapM truth? >>= fun1 fun x => some [.bool !x]
  | and, vs => vs.mapM truth? >>= fun2 fun x y => some [.bool (x && y)]
  | or, vs => vs.mapM truth? >>= fun2 fun x y => some [.bool (x || y)]
  | xor, vs => vs.mapM truth? >>= fun2 fun x y => some [.bool (x ^^ y)]
  | assertTrue, vs => vs.mapM truth? >>= fun1 fun x => check (x = true)
  | assertFalse, vs => vs.mapM truth? >>= fun1 fun x => check (x = false)
  | select, [.bool c, .elem x, .elem y] => some [.elem (if c then x else y)]
  | select, _ => none
  | toExpr, vs => vs.mapM truth? >>= fun1 fun x => some [.elem (if x then 1 else 0)]
  | pack, vs => vs.mapM truth? >>= fun l => some [.bits l]
  | unpack, vs => vs.mapM bits? >>= fun1 fun l => some (l.map .bool)
  | bitwiseNot, vs => vs.mapM bits? >>= fun1 fun l => some [.bits (l.map (!·))]
  | bitwiseAnd, vs => vs.mapM bits? >>= fun2 fun l k =>
    if l.length = k.length then some [.bits (List.zipWith (· && ·) l k)] else none
  | bitwiseOr, vs => vs.mapM bits? >>= fun2 fun l k =>
    if l.length = k.length then some [.bits (List.zipWith (· || ·) l k)] else none
  | bitwiseXor, vs => vs.mapM bits? >>= fun2 fun l k =>
    if l.length = k.length then some [.bits (List.zipWith (· ^^ ·) l k)] else none
  | rotateInc k, vs => vs.mapM bits? >>= fun1 fun l =>
    some [.bits (bitsOf l.length ((BitVec.ofNat l.length (natOf l)).rotateLeft k).toNat)]
  | rotateDec k, vs => vs.mapM bits? >>= fun1 fun l =>
    some [.bits (bitsOf l.length ((BitVec.ofNat l.length (natOf l)).rotateRight k).toNat)]
  | shiftInc k, vs => vs.mapM bits? >>= fun1 fun l =>
    some [.bits (bitsOf l.length (natOf l * 2 ^ k))]
  | shiftDec k, vs => vs.mapM bits? >>= fun1 fun l =>
    if k ≤ l.length ∨ l = [] then some [.bits (bitsOf l.length (natOf l / 2 ^ k))] else none
  | binarySum, vs => vs.mapM bits? >>= fun ls =>
    if sumWidth ls < Elem.maxBits p then some [.bits (bitsOf (sumWidth ls) (ls.map natOf).sum)] else none
  | binarySumIgnoringOverflow, vs => vs.mapM bits? >>= fun ls =>
    if sumWidth ls < Elem.maxBits p then some [.bits (bitsOf (maxLength ls) (ls.map natOf).sum)] else none
  | binarySumAssertingNoOverflow, vs => vs.mapM bits? >>= fun ls =>
    if sumWidth ls < Elem.maxBits p ∧ (ls.map natOf).sum < 2 ^ maxLength ls then
      some [.bits (bitsOf (maxLength ls) (ls.map natOf).sum)] else none
  | binaryAssertZero, vs => vs.mapM bits? >>= fun1 fun l => check (∀ b ∈ l, b = false)
  | randomAccess, vs => vs.mapM elem? >>= funList fun i xs =>
    -- for an index `i` beyond the end, the item at the largest position whose digits are all among
    -- those of `i` (C49)
    if Nat.clog 2 xs.length < Elem.maxBits p ∧ i.n < 2 ^ Nat.clog 2 xs.length then
      (xs[Nat.findGreatest (fun j => j &&& i.n = j) (xs.length - 1)]?).map fun x => [.elem x]
    else none
  | assertPermutation k, vs => vs.mapM elem? >>= fun xs => check ((xs.take k).Perm (xs.drop k))
  | sortAscending, vs => vs.mapM elem? >>= fun xs => if xs = [] then none else
    some ((xs.mergeSort fun x y => decide (x.n ≤ y.n)).map .elem)
  | sortDescending, vs => vs.mapM elem? >>= fun xs => if xs = [] then none else
    some ((xs.mergeSort fun x y => decide (x.n ≤ y.n)).reverse.map .elem)
  | function k _ f _ _ _, vs => vs.mapM elem? >>= fun xs =>
    if xs.length = k then some ((f xs).map .elem) else none
  | edwardsNew C, vs => vs.mapM elem? >>= fun2 fun x y =>
    if Edwards.OnCurve C.a C.d x y then some [.elem x, .elem y] else none
  | edwardsAdd C, vs => vs.mapM elem? >>= fun4 fun x y x' y' =>
    (pointSum C (x, y) (x', y')).map fun P => [.elem P.1, .elem P.2]
  | edwardsDouble C, vs => vs.mapM elem? >>= fun2 fun x y =>
    (pointDouble C (x, y)).map fun P => [.elem P.1, .elem P.2]
  | edwardsMulBoolean _, vs => funPointBool (fun x y b =>
    some (if b then [.elem x, .elem y] else [.elem 0, .elem 1])) vs
  | edwardsMulScalar C, vs => vs.mapM elem? >>= fun3 fun x y k =>
    (pointMultiple C k (x, y)).map fun P => [.elem P.1, .elem P.2]
  | schnorrVerify C G h, vs => vs.mapM elem? >>= fun5 fun s e m x y =>
    signatureCheck C (G.x, G.y) h.value s e m (x, y) >>= fun b => check (b = true)
  | merkleRoot h, vs => funPath (fun x l xs =>
    if l.length = xs.length then some [.elem (pathRoot h.value (l.zip xs) x)] else none) vs
  | assertMembership h, vs => funPath2 (fun x r l xs =>
    check (l.length = xs.length ∧ r = pathRoot h.value (l.zip xs) x)) vs

/-- The gadgets whose constraints pin their result down (C86 says what the others admit). -/
def pinned : Op p → Bool
  | inverseOrZero | quotientUnsafe | lt | le | gt | ge | assertLe | assertGe | modulus | divides
  | splitAllowingAmbiguity | sortAscending | sortDescending | cmpBinary _
  | assertCmpBinary .le | assertCmpBinary .ge
  | edwardsAdd _ | edwardsDouble _ | edwardsMulScalar _ | schnorrVerify _ _ _ => false
  | _ => true

end Op

/-- A circuit: instructions, each with the positions of its operands among the objects so far. -/
abbrev Circuit (p : ℕ) [Fact p.Prime] := List (Op p × List ℕ)

namespace Circuit

/-- One instruction; its results are appended to the objects. -/
def step (i : Op p × List ℕ) (os : List (Obj p)) : B p (List (Obj p)) := do
  let args ← B.ofOption (i.2.mapM fun j => os[j]?)
  let rs ← i.1.run args
  return os ++ rs

/-- All instructions in turn. -/
def runFrom : Circuit p → List (Obj p) → B p (List (Obj p))
  | [], os => return os
  | i :: c, os => do
    let os' ← step i os
    runFrom c os'

/-- The circuit with `k` inputs: allocate the input wires, then run the instructions. -/
def build (k : ℕ) (c : Circuit p) : B p (List (Obj p)) := do
  let ws ← B.wires k
  runFrom c (ws.map fun w => .expr (Expression.ofWire w))

/-- The meaning of one instruction. -/
def stepMeaning (i : Op p × List ℕ) (vs : List (Val p)) : Option (List (Val p)) := do
  let args ← i.2.mapM fun j => vs[j]?
  let rs ← i.1.meaning args
  return vs ++ rs

/-- The meaning of the instructions. -/
def meaningFrom : Circuit p → List (Val p) → Option (List (Val p))
  | [], vs => some vs
  | i :: c, vs => do
    let vs' ← stepMeaning i vs
    meaningFrom c vs'

/-- The meaning of the circuit on the inputs: the values of all objects, inputs first. -/
def meaning (c : Circuit p) (xs : List (Elem p)) : Option (List (Val p)) :=
  meaningFrom c (xs.map .elem)

/-- The values handed to `execute` for the inputs of `build`, whose wires are numbered from one:
the constant and the inputs, nothing else. -/
def inputs (xs : List (Elem p)) : WireValues p := fun i => if i = ONE then some 1 else xs[i - 1]?

/-- Every gadget of the circuit pins its result down. -/
def Pinned (c : Circuit p) : Prop := ∀ i ∈ c, i.1.pinned = true

end Circuit

end R1CS
