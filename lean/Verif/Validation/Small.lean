import Verif.Model.Macros
import Verif.Model.Matrices
import Verif.Model.Permutation
import Verif.Model.Hashes
import Verif.Model.BinaryOps
import Verif.Model.Text
import Verif.Model.Curves
import Verif.Spec.Examples

/-!
# The crate's unit tests, run on the model

These are not proofs of properties: they check the model.  Each `example` transcribes one `#[test]` of
/repo and is decided by evaluating the model's definitions.  `assert!(gadget.execute(..))` is `runs`,
`assert!(!gadget.execute(..))` is `rejects`, and `#[should_panic]` is `panics` or `executePanics`.
-/

namespace R1CS.Validation

instance fact257 : Fact (Nat.Prime 257) := ⟨by norm_num⟩

variable {p : ℕ} [Fact p.Prime]

/-- Build a gadget and check something about it. -/
def test {α : Type} (m : B p α) (check : α → Gadget p → Bool) : Bool :=
  match m Builder.new with
  | none => false
  | some (a, b) => check a b.build

/-- Building panics. -/
def panics {α : Type} (m : B p α) : Bool := (m Builder.new).isNone

/-- The macro `values!` with integers for values. -/
def vals (l : List (Wire × ℕ)) : Option (WireValues p) := do
  let l ← l.mapM fun kv => (Elem.ofNat? p kv.2).map fun x => (kv.1, x)
  WireValues.ofValues l

/-- The macro `boolean_values!`. -/
def boolVals (l : List (BooleanWire × Bool)) : Option (WireValues p) :=
  WireValues.ofBooleanValues l

/-- The macro `binary_unsigned_values!`. -/
def binVals (l : List (BinaryWire × ℕ)) : Option (WireValues p) :=
  WireValues.ofBinaryUnsignedValues l

/-- `execute` returns `true`, and then `post` holds. -/
def runs (g : Gadget p) (v : Option (WireValues p)) (post : WireValues p → Bool := fun _ => true) :
    Bool :=
  match v.bind g.execute with
  | some (v, true) => post v
  | _ => false

/-- `execute` returns `false`. -/
def rejects (g : Gadget p) (v : Option (WireValues p)) : Bool :=
  match v.bind g.execute with
  | some (_, false) => true
  | _ => false

/-- `execute` panics. -/
def executePanics (g : Gadget p) (v : Option (WireValues p)) : Bool :=
  match v with
  | some v => (g.execute v).isNone
  | none => false

/-- `assert_eq!(Element::from(k), e.evaluate(&values))`. -/
def gets (e : Expression p) (k : ℕ) (v : WireValues p) : Bool :=
  match e.evaluate v with
  | some x => x.n == k
  | none => false

/-- The same for several expressions. -/
def getsAll (es : List (Expression p)) (ks : List ℕ) (v : WireValues p) : Bool :=
  (evaluateList es v).map (fun l => l.map Elem.n) == some ks

/-- `assert_eq!(b, e.evaluate(&values))`. -/
def isBool (e : BooleanExpression p) (b : Bool) (v : WireValues p) : Bool := e.evaluate v == some b

/-- `assert_eq!(BigUint::from(k), e.evaluate(&values))`. -/
def isBin (e : BinaryExpression p) (k : ℕ) (v : WireValues p) : Bool := e.evaluate v == some k

/-- Wires as expressions. -/
abbrev x! (w : Wire) : Expression p := Expression.ofWire w

/-! ## src/field.rs -/

/-- `Element::from` for the literals of the tests. -/
def el (p : ℕ) (k : ℕ) : Option (Elem p) := Elem.ofNat? p k

/-- `addition` (src/field.rs). -/
example : (do return (1 : Elem 257) + 1) = el 257 2 ∧
    (do return (← el 257 13) + (← el 257 20)) = el 257 33 := by decide +kernel

/-- `addition_overflow`. -/
example : (do return (← el 7 5) + (← el 7 5)) = el 7 3 := by decide +kernel

/-- `additive_inverse`. -/
example : (do return -(1 : Elem 7)) = el 7 6 ∧ (do return (← el 7 5) + -(← el 7 5)) = some 0 := by
  decide +kernel

/-- `multiplicative_inverse`. -/
example : [0, 1, 2, 3, 4, 5, 6].map (fun k => do (← el 7 k).multiplicativeInverseOrZero) =
    [0, 1, 4, 5, 2, 3, 6].map (el 7) := by decide +kernel

/-- `multiplication_overflow`. -/
example : (do return (← el 7 3) * (← el 7 3)) = el 7 2 := by decide +kernel

/-- `bits_0`. -/
example : (List.range 20).map (0 : Elem 257).bit = List.replicate 20 false := by decide +kernel

/-- `bits_19`. -/
example : (do return (List.range 10).map (← el 257 19).bit) =
    some [true, true, false, false, true, false, false, false, false, false] := by decide +kernel

/-- `order_of_elements` (the comparison of elements is that of the canonical integers). -/
example : ∀ i ∈ List.range 50, ((el 257 i).bind fun x => (el 257 (i + 1)).map fun y =>
    decide (x.n < y.n)) = some true := by decide +kernel

/-! ## src/lcg.rs -/

/-- `next_u32`. -/
example :
    let (a, g) := LCG.new.nextU32
    let (b, g) := g.nextU32
    let (c, g) := g.nextU32
    let (d, _) := g.nextU32
    (a, b, c, d) = (1013904223, 1196435762, 3519870697, 2868466484) := by decide +kernel

/-! ## src/gadget.rs -/

/-- `constraint_not_satisfied`. -/
example : test (p := 257) (do
    let x ← B.wire
    let y ← B.wire
    B.assertEqual (x! x) (x! y)
    return (x, y)) (fun (x, y) g => rejects g (vals [(x, 42), (y, 43)])) = true := by decide +kernel

/-- `missing_generator`. -/
example : test (p := 257) (do
    let x ← B.wire
    let y ← B.wire
    let z ← B.wire
    B.assertProduct (x! x) (x! y) (x! z)
    return (x, y)) (fun (x, y) g => executePanics g (vals [(x, 2), (y, 3)])) = true := by
  decide +kernel

/-- `missing_input`. -/
example : test (p := 257) (do
    let x ← B.wire
    let _ ← B.inverse (x! x)) (fun _ g => executePanics g (vals [])) = true := by
  decide +kernel

/-! ## src/gadget_builder.rs -/

/-- `assert_binary_0_1` and `assert_binary_2`. -/
example : test (p := 257) (do
    let x ← B.wire
    let _ ← B.assertBoolean (x! x)
    return x) (fun x g => runs g (vals [(x, 0)]) && runs g (vals [(x, 1)]) &&
      rejects g (vals [(x, 2)])) = true := by decide +kernel

/-- `selection`. -/
example : test (p := 257) (do
    let c ← B.booleanWire
    let x ← B.wire
    let y ← B.wire
    let s ← B.selection (BooleanExpression.ofWire c) (x! x) (x! y)
    return (c, x, y, s)) (fun (c, x, y, s) g =>
      runs g ((vals [(x, 3), (y, 5)]).bind fun v => v.setBoolean c false) (gets s 5) &&
      runs g ((vals [(x, 3), (y, 5)]).bind fun v => v.setBoolean c true) (gets s 3)) = true := by
  decide +kernel

/-- `equal`. -/
example : test (p := 257) (do
    let x ← B.wire
    let y ← B.wire
    let e ← B.equal (x! x) (x! y)
    return (x, y, e)) (fun (x, y, e) g =>
      runs g (vals [(x, 7), (y, 7)]) (isBool e true) &&
      runs g (vals [(x, 6), (y, 7)]) (isBool e false) &&
      runs g (vals [(x, 7), (y, 13)]) (isBool e false)) = true := by decide +kernel

/-! ## src/field_arithmetic.rs -/

/-- `exp`. -/
example : test (p := 257) (do
    let x ← B.wire
    let e0 ← B.exponentiation (x! x) (← B.ofOption (el 257 0))
    let e1 ← B.exponentiation (x! x) (← B.ofOption (el 257 1))
    let e2 ← B.exponentiation (x! x) (← B.ofOption (el 257 2))
    let e3 ← B.exponentiation (x! x) (← B.ofOption (el 257 3))
    return (x, e0, e1, e2, e3)) (fun (x, e0, e1, e2, e3) g =>
      runs g (vals [(x, 3)]) fun v =>
        gets e0 1 v && gets e1 3 v && gets e2 9 v && gets e3 27 v) = true := by decide +kernel

/-- `invert_zero`. -/
example : test (p := 257) (do
    let x ← B.wire
    let _ ← B.inverse (x! x)
    return x) (fun x g => executePanics g (vals [(x, 0)])) = true := by decide +kernel

/-- `divides`. -/
example : test (p := 257) (do
    let x ← B.wire
    let y ← B.wire
    let d ← B.divides (x! x) (x! y)
    return (x, y, d)) (fun (x, y, d) g =>
      runs g (vals [(x, 1), (y, 1)]) (isBool d true) &&
      runs g (vals [(x, 3), (y, 6)]) (isBool d true) &&
      runs g (vals [(x, 3), (y, 7)]) (isBool d false)) = true := by decide +kernel

/-! ## src/boolean_algebra.rs -/

/-- The tests `and`, `or`, `xor`: build the operation on two boolean wires, and compare it with
`f` on all inputs. -/
def truthTable (op : BooleanExpression 257 → BooleanExpression 257 → B 257 (BooleanExpression 257))
    (f : Bool → Bool → Bool) : Bool :=
  test (p := 257) (do
    let x ← B.booleanWire
    let y ← B.booleanWire
    let z ← op (BooleanExpression.ofWire x) (BooleanExpression.ofWire y)
    return (x, y, z)) fun (x, y, z) g =>
      [(false, false), (false, true), (true, false), (true, true)].all fun (a, b) =>
        runs g (boolVals [(x, a), (y, b)]) (isBool z (f a b))

/-- `and`, `or`, `xor`. -/
example : truthTable B.and Bool.and = true ∧ truthTable B.or Bool.or = true ∧
    truthTable B.xor Bool.xor = true := by decide +kernel

/-! ## src/bimap_util.rs -/

/-- `empty_lists`. -/
example : (bimapFromLists ([] : List Char) []).map List.isEmpty = some true := by decide +kernel

/-- `without_duplicates`. -/
example : (bimapFromLists ['a', 'b', 'c'] ['b', 'c', 'a']).map
    (fun m => [m.getByLeft 0, m.getByLeft 1, m.getByLeft 2]) = some [some 2, some 0, some 1] := by
  decide +kernel

/-- `with_duplicates`. -/
example : (bimapFromLists ['a', 'a', 'b'] ['a', 'b', 'a']).map
    (fun m => [0, 1, 2].all fun i => match m.getByLeft i with
      | some j => ['a', 'a', 'b'][i]! == ['a', 'b', 'a'][j]!
      | none => false) = some true := by decide +kernel

/-- `lengths_differ` and `not_a_permutation`. -/
example : bimapFromLists ['a', 'a', 'b'] ['a', 'b'] = none ∧
    bimapFromLists ['a', 'a', 'b'] ['a', 'b', 'b'] = none := by decide +kernel

/-! ## src/binary_arithmetic.rs -/

/-- Two binary wires and an operation on them. -/
def binaryOp (n : ℕ)
    (op : BinaryExpression 257 → BinaryExpression 257 → B 257 (BinaryExpression 257)) :
    B 257 (BinaryWire × BinaryWire × BinaryExpression 257) := do
  let x ← B.binaryWire n
  let y ← B.binaryWire n
  let s ← op (BinaryExpression.ofWire x) (BinaryExpression.ofWire y)
  return (x, y, s)

/-- `binary_sum`. -/
example : test (binaryOp 4 B.binarySum) (fun (x, y, s) g =>
    runs g (binVals [(x, 10), (y, 3)]) (isBin s 13) &&
    runs g (binVals [(x, 10), (y, 11)]) (isBin s 21)) = true := by decide +kernel

/-- `binary_sum_ignoring_overflow`. -/
example : test (binaryOp 4 B.binarySumIgnoringOverflow) (fun (x, y, s) g =>
    runs g (binVals [(x, 10), (y, 3)]) (isBin s 13) &&
    runs g (binVals [(x, 10), (y, 11)]) (isBin s 5)) = true := by decide +kernel

/-- `binary_sum_asserting_no_overflow`. -/
example : test (binaryOp 4 B.binarySumAssertingNoOverflow) (fun (x, y, s) g =>
    runs g (binVals [(x, 10), (y, 3)]) (isBin s 13) &&
    rejects g (binVals [(x, 10), (y, 11)])) = true := by decide +kernel

/-- `assert_zero_f257`. -/
example : test (p := 257) (do
    let x ← B.binaryWire 10
    B.binaryAssertZero (BinaryExpression.ofWire x)
    return x) (fun x g => runs g (binVals [(x, 0)])) = true := by decide +kernel

/-! ## src/bitwise_operations.rs -/

/-- `bitwise_not`. -/
example : test (p := 257) (do
    let x ← B.binaryWire 8
    let n ← B.bitwiseNot (BinaryExpression.ofWire x)
    return (x, n)) (fun (x, n) g =>
      runs g (binVals [(x, 0b00010011)]) (isBin n 0b11101100)) = true := by decide +kernel

/-- `bitwise_and`. -/
example : test (binaryOp 8 B.bitwiseAnd) (fun (x, y, s) g =>
    runs g (binVals [(x, 0), (y, 0)]) (isBin s 0) &&
    runs g (binVals [(x, 255), (y, 0)]) (isBin s 0) &&
    runs g (binVals [(x, 255), (y, 255)]) (isBin s 255) &&
    runs g (binVals [(x, 0b11111100), (y, 0b00111111)]) (isBin s 0b00111100)) = true := by
  decide +kernel

/-- `bitwise_rotate_dec_significance`. -/
example : test (p := 257) (do
    let x ← B.binaryWire 8
    let r ← B.ofOption (B.rotateDec (BinaryExpression.ofWire x) 3)
    return (x, r)) (fun (x, r) g =>
      runs g (binVals [(x, 0)]) (isBin r 0) &&
      runs g (binVals [(x, 0b00010011)]) (isBin r 0b01100010)) = true := by decide +kernel

/-- `bitwise_rotate_dec_significance_multiple_wraps`. -/
example : test (p := 257) (do
    let x ← B.binaryWire 8
    let r ← B.ofOption (B.rotateDec (BinaryExpression.ofWire x) 19)
    return (x, r)) (fun (x, r) g =>
      runs g (binVals [(x, 0b00010011)]) (isBin r 0b01100010)) = true := by decide +kernel

/-! ## src/expression.rs -/

/-- `join_fermat_prime_field` and `join_fermat_prime_field_overflow`. -/
example : test (p := 257) (B.binaryWire 8)
      (fun w _ => (BinaryExpression.ofWire (p := 257) w).join.isSome) = true ∧
    test (p := 257) (B.binaryWire 9)
      (fun w _ => (BinaryExpression.ofWire (p := 257) w).join.isNone) = true := by decide +kernel

/-! ## src/permutations.rs -/

/-- `cube_and_cube_root`. -/
example : test (p := 11) (do
    let f ← B.ofOption ((el 11 3).bind MonomialPermutation.new)
    let x ← B.wire
    let c ← f.permute (x! x)
    let r ← f.inverse c
    return (x, r)) (fun (x, r) g =>
      (List.range 11).all fun i => runs g (vals [(x, i)]) (gets r i)) = true := by decide +kernel

/-- `not_a_permutation`. -/
example : ((el 7 3).bind MonomialPermutation.new).isNone = true := by decide +kernel

/-! ## src/mimc.rs -/

/-- `mimc_encrypt_and_decrypt`; `mimc_recommended_rounds` is 3 over the field of order 11 (C81). -/
example : test (p := 11) (do
    let key ← B.wire
    let input ← B.wire
    let c ← B.ofOption (MiMC.default 3)
    let encrypted ← c.encrypt (x! key) (x! input)
    let decrypted ← c.decrypt (x! key) encrypted
    return (key, input, decrypted)) (fun (key, input, decrypted) g =>
      runs g (vals [(key, 2), (input, 3)]) (gets decrypted 3)) = true := by decide +kernel

/-- `mimc_f11`. -/
example : test (p := 11) (do
    let key ← B.wire
    let input ← B.wire
    let c5 ← B.ofOption (el 11 5)
    let c7 ← B.ofOption (el 11 7)
    let c ← B.ofOption (MiMC.new [c5, c7])
    let output ← c.encrypt (x! key) (x! input)
    return (key, input, output)) (fun (key, input, output) g =>
      runs g (vals [(key, 3), (input, 6)]) (gets output 2)) = true := by decide +kernel

/-- `mimc_f7_incompatible`. -/
example : (MiMC.default (p := 7) 2).isNone = true := by decide +kernel

/-! ## src/davies_meyer.rs, src/miyaguchi_preneel.rs -/

/-- `TestCipher`: 2k + 4i + 3ki. -/
def testCipher : BlockCipher 7 where
  encrypt key input := do
    let product ← B.product key input
    let a ← B.ofOption (key.mulNat 2)
    let b ← B.ofOption (input.mulNat 4)
    let c ← B.ofOption (product.mulNat 3)
    return a + b + c
  decrypt _ _ := B.panic

/-- `davies_meyer`. -/
example : test (p := 7) (do
    let x ← B.wire
    let y ← B.wire
    let o ← (daviesMeyer testCipher).compress (x! x) (x! y)
    return (x, y, o)) (fun (x, y, o) g => runs g (vals [(x, 2), (y, 3)]) (gets o 6)) = true := by
  decide +kernel

/-- `miyaguchi_preneel`. -/
example : test (p := 7) (do
    let x ← B.wire
    let y ← B.wire
    let o ← (miyaguchiPreneel testCipher).compress (x! x) (x! y)
    return (x, y, o)) (fun (x, y, o) g => runs g (vals [(x, 2), (y, 3)]) (gets o 4)) = true := by
  decide +kernel

/-! ## src/merkle_damgard.rs -/

/-- `merkle_damgard`, with the compression function 2x + 3y. -/
example : test (p := 7) (do
    let x ← B.wire
    let y ← B.wire
    let two ← B.ofOption (el 7 2)
    let md : MerkleDamgard 7 := ⟨two, ⟨fun x y => do
      let a ← B.ofOption (x.mulNat 2)
      let b ← B.ofOption (y.mulNat 3)
      return a + b⟩⟩
    let h ← md.hash [x! x, x! y]
    return (x, y, h)) (fun (x, y, h) g => runs g (vals [(x, 3), (y, 4)]) (gets h 5)) = true := by
  decide +kernel

/-! ## src/sponge.rs -/

/-- `TestPermutation`: (x, y) becomes (2y, 3x). -/
def testPermutation : MultiPermutation 7 where
  width := 2
  permute
    | [x, y] => do
      let two ← B.ofOption (el 7 2)
      let three ← B.ofOption (el 7 3)
      return [y.mulElem two, x.mulElem three]
    | _ => B.panic
  inverse
    | [x, y] => do
      let two ← B.ofOption (el 7 2)
      let three ← B.ofOption (el 7 3)
      let a ← B.ofOption (y.divElem three)
      let b ← B.ofOption (x.divElem two)
      return [a, b]
    | _ => B.panic

/-- `sponge_1_1_1_f7`. -/
example : test (p := 7) (do
    let x ← B.wire
    let y ← B.wire
    let s ← B.ofOption (Sponge.new testPermutation 1 1)
    let h ← s.evaluate [x! x, x! y] 1
    return (x, y, h)) (fun (x, y, h) g => h.length == 1 &&
      runs g (vals [(x, 3), (y, 4)]) (getsAll h [4])) = true := by
  decide +kernel

/-! ## src/merkle_trees.rs -/

/-- `merkle_step` (`testCompress`, 2x + y, is in Verif.Model.Curves). -/
example : test (p := 257) (do
    let node ← B.wire
    let sibling ← B.wire
    let isRight ← B.booleanWire
    let h ← B.merkleTreeStep (x! node) (x! sibling) (BooleanExpression.ofWire isRight) testCompress
    return (node, sibling, isRight, h)) (fun (node, sibling, isRight, h) g =>
      runs g ((vals [(node, 3), (sibling, 4)]).bind fun v => v.setBoolean isRight false) (gets h 10) &&
      runs g ((vals [(node, 3), (sibling, 4)]).bind fun v => v.setBoolean isRight true) (gets h 11))
    = true := by
  decide +kernel

/-- `merkle_root`. -/
example : test (p := 257) (do
    let w ← B.binaryWire 3
    let s ← B.wires 3
    let path ← B.ofOption (MerklePath.new (BinaryExpression.ofWire w) (s.map fun w => x! w))
    let r ← B.merkleTreeRoot 1 path testCompress
    return (w, s, r)) (fun (w, s, r) g =>
      runs g ((vals (s.zip [3, 3, 9])).bind fun v => v.setBinaryUnsigned w 0b010) (gets r 31))
    = true := by
  decide +kernel

/-- `large_merkle_root`. -/
example : test (p := 7) (do
    let w ← B.binaryWire 8
    let s ← B.wires 8
    let path ← B.ofOption (MerklePath.new (BinaryExpression.ofWire w) (s.map fun w => x! w))
    let r ← B.merkleTreeRoot 1 path testCompress
    return (w, s, r)) (fun (w, s, r) g =>
      runs g ((vals (s.map fun w => (w, 1))).bind fun v => v.setBinaryUnsigned w 0) (gets r 0))
    = true := by
  decide +kernel

/-! ## src/rescue.rs, src/poseidon.rs -/

/-- The matrix of both tests. -/
def testMatrix : Option (ElementMatrix 11) :=
  (([[2, 3, 1, 1], [1, 2, 3, 1], [1, 1, 2, 3], [3, 1, 1, 2]] : List (List ℕ)).mapM
    fun (row : List ℕ) => row.mapM (el 11)).bind ElementMatrix.new

/-- `rescue_permutation_f11`: the builder does not panic. -/
example : (testMatrix.bind fun m =>
    Rescue.build 2 none none (some 128) (some m)).isSome = true := by decide +kernel

/-- `poseidon_x3_f11`. -/
example : test (p := 11) (do
    let m ← B.ofOption testMatrix
    let f ← B.ofOption (Poseidon.build (fun _ _ _ => none) 4 (some (4, 6)) (some .exponentiation3)
      none (some m))
    let w ← B.wires 4
    let _ ← f.permute (w.map fun w => x! w)
    return w) (fun w g => runs g (vals (w.zip [0, 1, 2, 3]))) = true := by decide +kernel

/-! ## src/verify_permutation.rs -/

/-- Constants. -/
def consts (l : List ℕ) : Option (List (Expression 257)) := l.mapM Expression.ofNat?

/-- `assert_permutation` between lists of constants. -/
def permOf (a b : List ℕ) : B 257 Unit := do
  let a ← B.ofOption (consts a)
  let b ← B.ofOption (consts b)
  B.assertPermutation a b

/-- `route_2x2`. -/
example : test (permOf [1, 2] [2, 1]) (fun _ g => runs g (vals [])) = true := by decide +kernel

/-- `route_3x3`. -/
example : test (permOf [1, 2, 3] [2, 1, 3]) (fun _ g => runs g (vals [])) = true := by
  decide +kernel

/-- `route_4x4`. -/
example : test (permOf [1, 2, 3, 4] [2, 1, 4, 3]) (fun _ g => runs g (vals [])) = true := by
  decide +kernel

/-- `route_5x5`. -/
example : test (p := 257) (do
    let a ← B.wires 5
    let b ← B.wires 5
    B.assertPermutation (a.map fun w => x! w) (b.map fun w => x! w)
    return (a, b)) (fun (a, b) g =>
      runs g (vals (a.zip [0, 1, 2, 3, 4] ++ b.zip [1, 4, 0, 3, 2])) &&
      runs g (vals (a.zip [0, 1, 2, 0, 1] ++ b.zip [1, 1, 0, 0, 2]))) = true := by decide +kernel

/-- `not_a_permutation`. -/
example : test (permOf [1, 2, 2] [1, 2, 1]) (fun _ g => executePanics g (vals [])) = true := by
  decide +kernel

/-- `lengths_differ`. -/
example : panics (permOf [1, 2, 3] [1, 2]) = true := by decide +kernel

/-! ## src/random_access.rs -/

/-- `random_access`. -/
example : test (p := 257) (do
    let w ← B.wires 10
    let index ← B.wire
    let r ← B.randomAccess (w.map fun w => x! w) (x! index)
    return (w, index, r)) (fun (w, index, r) g =>
      (List.range 10).all fun i =>
        runs g (vals (w.zip (List.range 10) ++ [(index, i)])) (gets r i)) = true := by
  decide +kernel

end R1CS.Validation
