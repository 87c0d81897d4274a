import Verif.Model.BinaryOps
import Verif.Model.Permutation
import Verif.Model.Rounds

/-!
# The code with the integers of a machine

Elsewhere in the model a `usize` is a natural number.  Here are the functions of the code which calculate
with numbers of type `usize`, once more and with the calculations of a machine: a number has a certain
number of bits, and the program is compiled with or without overflow checks.  Also, lists are accessed by
index here, as in the code, where the rest of the model takes lists apart.  C103 compares the two.
-/

namespace R1CS

/-- The machine and the compiler's setting: the number of bits of a `usize` (64, or 32), and whether
overflows panic (`overflow-checks`, the default for debug builds) or wrap around (the default for release
builds). -/
structure Machine where
  bits : ℕ
  checks : Bool

namespace Machine

variable (M : Machine)

/-- `a + b` on `usize`. -/
def add (a b : ℕ) : Option ℕ :=
  if a + b < 2 ^ M.bits then some (a + b)
  else if M.checks then none else some ((a + b) % 2 ^ M.bits)

/-- `a - b` on `usize`. -/
def sub (a b : ℕ) : Option ℕ :=
  if b ≤ a then some (a - b)
  else if M.checks then none else some (a + 2 ^ M.bits - b)

/-- `a * b` on `usize`. -/
def mul (a b : ℕ) : Option ℕ :=
  if a * b < 2 ^ M.bits then some (a * b)
  else if M.checks then none else some (a * b % 2 ^ M.bits)

/-- `a << n` on `usize`: only the distance `n` is checked, bits may get lost; without checks the distance
is taken modulo the number of bits. -/
def shl (a n : ℕ) : Option ℕ :=
  if n < M.bits then some (a <<< n % 2 ^ M.bits)
  else if M.checks then none else some (a <<< (n % M.bits) % 2 ^ M.bits)

/-- `a / b` on `usize`, which panics for `b = 0` with or without checks. -/
def div (a b : ℕ) : Option ℕ := if b = 0 then none else some (a / b)

/-- `a % b` on `usize`, which panics for `b = 0` with or without checks. -/
def rem (a b : ℕ) : Option ℕ := if b = 0 then none else some (a % b)

variable {p : ℕ} [hp : Fact p.Prime]

/-! ## src/bitwise_operations.rs -/

omit hp in
/-- `bitwise_rotate_inc_significance` (src/bitwise_operations.rs:55-65). -/
def rotateInc (x : BinaryExpression p) (n : ℕ) : Option (BinaryExpression p) := do
  let l := x.len
  let bits ← (List.range l).mapM fun i => do
    let s ← M.add l i
    let r ← rem n l
    let d ← M.sub s r
    let fromIdx ← rem d l
    x.bits[fromIdx]?
  return ⟨bits⟩

omit hp in
/-- `bitwise_rotate_dec_significance` (src/bitwise_operations.rs:69-78). -/
def rotateDec (x : BinaryExpression p) (n : ℕ) : Option (BinaryExpression p) := do
  let l := x.len
  let bits ← (List.range l).mapM fun i => do
    let s ← M.add i n
    let fromIdx ← rem s l
    x.bits[fromIdx]?
  return ⟨bits⟩

/-- `bitwise_shift_inc_significance` (src/bitwise_operations.rs:83-95). -/
def shiftInc (x : BinaryExpression p) (n : ℕ) : Option (BinaryExpression p) := do
  let bits ← (List.range x.len).mapM fun i =>
    if i < n then some BooleanExpression.false
    else do
      let fromIdx ← M.sub i n
      x.bits[fromIdx]?
  return ⟨bits⟩

/-- `bitwise_shift_dec_significance` (src/bitwise_operations.rs:100-113). -/
def shiftDec (x : BinaryExpression p) (n : ℕ) : Option (BinaryExpression p) := do
  let l := x.len
  let bits ← (List.range l).mapM fun i => do
    let d ← M.sub l n
    if i < d then do
      let fromIdx ← M.add i n
      x.bits[fromIdx]?
    else some BooleanExpression.false
  return ⟨bits⟩

/-! ## src/random_access.rs -/

/-- The loop `while 1 << bits < items.len() { bits += 1 }` (src/random_access.rs:24-26): one iteration, see
`Loop.Ends`. -/
def indexBitsBody (len bits : ℕ) : Option (ℕ ⊕ ℕ) := do
  let s ← M.shl 1 bits
  if s < len then do
    let bits ← M.add bits 1
    return Sum.inl bits
  else return Sum.inr bits

/-- The loop making the layer of the parents (src/random_access.rs:55-65), with `left` parents to go, from
the one with index `i` on; `layer` is the part which has been made. -/
def parentLayer (lsb : BooleanExpression p) (items : List (Expression p)) :
    ℕ → ℕ → List (Expression p) → B p (List (Expression p))
  | 0, _, layer => return layer
  | left + 1, i, layer => do
    let leftIndex ← B.ofOption (M.mul i 2)
    let twice ← B.ofOption (M.mul i 2)
    let rightIndex ← B.ofOption (M.add twice 1)
    let leftChild ← B.ofOption items[leftIndex]?
    if rightIndex = items.length then
      parentLayer lsb items left (i + 1) (layer ++ [leftChild])
    else do
      let rightChild ← B.ofOption items[rightIndex]?
      let parent ← B.selection lsb rightChild leftChild
      parentLayer lsb items left (i + 1) (layer ++ [parent])

/-- `random_access_binary` (src/random_access.rs:33-68). -/
def randomAccessBinary : List (BooleanExpression p) → List (Expression p) → B p (Expression p)
  | [], items => do
    if items.length = 1 then B.ofOption items[0]? else B.panic
  | lsb :: bits, items => do
    if items.length = 1 then B.panic
    else do
      let next ← B.ofOption (M.add items.length 1)
      let numParents ← B.ofOption (div next 2)
      let parents ← M.parentLayer lsb items numParents 0 []
      randomAccessBinary bits parents

/-! ## src/comparisons.rs -/

/-- `cmp_constraints` (src/comparisons.rs:223-226). -/
def cmpConstraints (operandBits chunkBits : ℕ) : Option ℕ := do
  let s ← M.add operandBits chunkBits
  let d ← M.sub s 1
  let chunks ← div d chunkBits
  let a ← M.mul 3 chunks
  let b ← M.add a 2
  M.add b chunkBits

/-- The loop of `cmp_chunk_bits` (src/comparisons.rs:232-238) with `left` iterations to go, at
`chunk_bits = c`. -/
def cmpChunkBitsLoop (operandBits : ℕ) : ℕ → ℕ → ℕ → ℕ → Option ℕ
  | 0, _, best, _ => some best
  | left + 1, c, best, bestConstraints => do
    let constraints ← M.cmpConstraints operandBits c
    if constraints < bestConstraints then cmpChunkBitsLoop operandBits left (c + 1) c constraints
    else cmpChunkBitsLoop operandBits left (c + 1) best bestConstraints

/-- `cmp_chunk_bits` (src/comparisons.rs:229-240); the range `2..max_bits` has `max_bits - 2` members, or
none. -/
def cmpChunkBits (maxBits operandBits : ℕ) : Option ℕ := do
  let constraints ← M.cmpConstraints operandBits 1
  M.cmpChunkBitsLoop operandBits (maxBits - 2) 2 1 constraints

/-- `cmp_subtractive` (src/comparisons.rs:208-220). -/
def cmpSubtractive (diff : Expression p) (less strict : Bool) (bits : ℕ) :
    B p (BooleanExpression p) := do
  let pow ← B.ofOption ((1 : Elem p).shl bits)
  let base : Expression p := Expression.ofElem (pow - Elem.ofBool strict)
  let z := base + (if less then -diff else diff)
  let more ← B.ofOption (M.add bits 1)
  let s ← B.splitBounded z more
  B.ofOption s.bits[bits]?

/-! ## src/verify_permutation.rs and src/sorting.rs -/

/-- `enqueue_other_side` (src/verify_permutation.rs:160-187). -/
def enqueueOtherSide (abMap : BiMap) (switches : Bool → List BooleanWire) (side : Bool)
    (thisI : ℕ) (subnet : Bool) (st : RouteState p) : Option (RouteState p) := do
  let otherI ← abMapBySide abMap side thisI
  let otherSwitchI ← div otherI 2
  if otherSwitchI ≥ (switches !side).length then return st
  else do
    let switch ← (switches !side)[otherSwitchI]?
    if st.values.containsBoolean switch then return st
    else do
      let four ← M.mul 4 otherSwitchI
      let next ← M.add four 1
      let otherISibling ← M.sub next otherI
      match (st.partialRoutes !side).get compare otherISibling with
      | some siblingSubnet => if subnet ≠ siblingSubnet then return st else none
      | none =>
        let st' := { st with partialRoutes := fun s =>
          if s = !side then (st.partialRoutes !side).insert compare otherI subnet
          else st.partialRoutes s }
        match (st.partialRoutes !side).get compare otherI with
        | some oldSubnet => if subnet = oldSubnet then return st' else none
        | none => return st'

/-- `route_switch` (src/verify_permutation.rs:198-209). -/
def routeSwitch (abMap : BiMap) (switches : Bool → List BooleanWire) (side : Bool)
    (switchIndex : ℕ) (swap : Bool) (st : RouteState p) : Option (RouteState p) := do
  let switch ← (switches side)[switchIndex]?
  let values ← st.values.setBoolean switch swap
  let thisI1 ← M.mul switchIndex 2
  let thisI2 ← M.add thisI1 1
  let st ← M.enqueueOtherSide abMap switches side thisI1 swap { st with values := values }
  M.enqueueOtherSide abMap switches side thisI2 (!swap) st

/-- The loop over the pending routes of a side (src/verify_permutation.rs:222-227). -/
def routePartial (abMap : BiMap) (switches : Bool → List BooleanWire) (side : Bool) :
    List (ℕ × Bool) → RouteState p → Option (RouteState p)
  | [], st => some st
  | (thisI, subnet) :: rest, st => do
    let parity ← rem thisI 2
    let thisSwitchI ← div thisI 2
    let st ← M.routeSwitch abMap switches side thisSwitchI ((parity == 0) == subnet) st
    routePartial abMap switches side rest st

/-- The inner scan (src/verify_permutation.rs:231-234); as in `scanSwitches`, the length of the list bounds
the number of steps. -/
def scanSwitches (switches : List BooleanWire) (values : WireValues p) : ℕ → ℕ → Option ℕ
  | 0, i => some i
  | fuel + 1, i =>
    match switches[i]? with
    | none => some i
    | some switch =>
      if values.containsBoolean switch then do
        let i ← M.add i 1
        scanSwitches switches values fuel i
      else some i

/-- The body of the loop over the sides (src/verify_permutation.rs:221-240). -/
def routeSide (abMap : BiMap) (switches : Bool → List BooleanWire) (side : Bool)
    (st : RouteState p) : Option (RouteState p) :=
  if st.partialRoutes side ≠ [] then do
    let st ← M.routePartial abMap switches side (st.partialRoutes side) st
    return { st with partialRoutes := fun s => if s = side then [] else st.partialRoutes s }
  else do
    let i ← M.scanSwitches (switches side) st.values (switches side).length (st.scanIndex side)
    if i < (switches side).length then do
      let st ← M.routeSwitch abMap switches side i false st
      let j ← M.add i 1
      return { st with scanIndex := fun s => if s = side then j else st.scanIndex s }
    else
      return { st with scanIndex := fun s => if s = side then i else st.scanIndex s }

/-- The main loop of `route` (src/verify_permutation.rs:219-242); as in `routeLoop`, running out of fuel is
an error. -/
def routeLoop (abMap : BiMap) (switches : Bool → List BooleanWire) :
    ℕ → RouteState p → Option (RouteState p)
  | fuel, st =>
    if st.scanIndex false < (switches false).length ∨ st.scanIndex true < (switches true).length then
      match fuel with
      | 0 => none
      | fuel + 1 => do
        let st ← M.routeSide abMap switches false st
        let st ← M.routeSide abMap switches true st
        routeLoop abMap switches fuel st
    else some st

/-- `route` (src/verify_permutation.rs:136-243). -/
def route (aValues bValues : List (Elem p)) (aSwitches bSwitches : List BooleanWire)
    (values : WireValues p) : Option (WireValues p) := do
  if aValues.length ≠ bValues.length then none
  else
    let n := aValues.length
    let parity ← rem n 2
    let abMap ← bimapFromLists aValues bValues
    let switches : Bool → List BooleanWire := fun side => if side then bSwitches else aSwitches
    let st : RouteState p := ⟨values, fun _ => [], fun _ => 0⟩
    let st ← (if parity = 0 then do
        let i ← M.sub n 2
        let st ← M.enqueueOtherSide abMap switches true i false st
        let j ← M.sub n 1
        M.enqueueOtherSide abMap switches true j true st
      else do
        let i ← M.sub n 1
        let st ← M.enqueueOtherSide abMap switches false i true st
        let j ← M.sub n 1
        M.enqueueOtherSide abMap switches true j true st)
    let st ← M.routeLoop abMap switches (2 * (aSwitches.length + bSwitches.length)) st
    return st.values

/-- A loop creating a layer of switches (src/verify_permutation.rs:95-100 and 101-106), with `left` switches
to go, from the one with index `i` on; the last argument has what has been made. -/
def switchLayer (xs : List (Expression p)) : ℕ → ℕ →
    List BooleanWire × List (Expression p) × List (Expression p) →
    B p (List BooleanWire × List (Expression p) × List (Expression p))
  | 0, _, made => return made
  | left + 1, i, made => do
    let j ← B.ofOption (M.mul i 2)
    let x ← B.ofOption xs[j]?
    let twice ← B.ofOption (M.mul i 2)
    let k ← B.ofOption (M.add twice 1)
    let y ← B.ofOption xs[k]?
    let (switch, out1, out2) ← B.createSwitch x y
    switchLayer xs left (i + 1) (made.1 ++ [switch], made.2.1 ++ [out1], made.2.2 ++ [out2])

/-- The generator of `assert_permutation_recursive` (src/verify_permutation.rs:127-131). -/
def routeGen (a b : List (Expression p)) (aSwitches bSwitches : List BooleanWire)
    (v : WireValues p) : Option (WireValues p) := do
  let aValues ← a.mapM fun e => e.evaluate v
  let bValues ← b.mapM fun e => e.evaluate v
  M.route aValues bValues aSwitches bSwitches v

/-- `assert_permutation` (src/verify_permutation.rs:24-38) and `assert_permutation_recursive`
(src/verify_permutation.rs:80-132), with the fuel of `B.assertPermutationFuel`. -/
def assertPermutationFuel : ℕ → List (Expression p) → List (Expression p) → B p Unit
  | 0, a, b => do
    B.require (a.length = b.length)
    B.require (a.length = 0)
  | fuel + 1, a, b => do
    B.require (a.length = b.length)
    match a, b with
    | [], _ => return ()
    | [a0], [b0] => B.assertEqual a0 b0
    | [a0, a1], [b0, b1] => B.assertPermutation2x2 a0 a1 b0 b1
    | a, b =>
      let n := a.length
      let parity ← B.ofOption (rem n 2)
      let aNumSwitches ← B.ofOption (div n 2)
      let bNumSwitches ← B.ofOption (if parity = 0 then M.sub aNumSwitches 1 else some aNumSwitches)
      let (aSwitches, child1A, child2A) ← M.switchLayer a aNumSwitches 0 ([], [], [])
      let (bSwitches, child1B, child2B) ← M.switchLayer b bNumSwitches 0 ([], [], [])
      (if parity = 0 then do
        let i1 ← B.ofOption (M.sub n 2)
        let b1 ← B.ofOption b[i1]?
        let i2 ← B.ofOption (M.sub n 1)
        let b2 ← B.ofOption b[i2]?
        assertPermutationFuel fuel child1A (child1B ++ [b1])
        assertPermutationFuel fuel child2A (child2B ++ [b2])
      else do
        let i1 ← B.ofOption (M.sub n 1)
        let a2 ← B.ofOption a[i1]?
        let i2 ← B.ofOption (M.sub n 1)
        let b2 ← B.ofOption b[i2]?
        assertPermutationFuel fuel child1A child1B
        assertPermutationFuel fuel (child2A ++ [a2]) (child2B ++ [b2]))
      B.generator (a.flatMap Expression.dependencies ++ b.flatMap Expression.dependencies)
        (M.routeGen a b aSwitches bSwitches)

/-- `assert_permutation` (src/verify_permutation.rs:24-38). -/
def assertPermutation (a b : List (Expression p)) : B p Unit :=
  M.assertPermutationFuel a.length a b

/-- The splits of all outputs but the last (src/sorting.rs:34-36): `outputs.iter().take(k)`. -/
def splitFirst : List (Expression p) → B p (List (BinaryExpression p))
  | [] => return []
  | e :: rest => do
    let x ← B.splitAllowingAmbiguity e
    let xs ← splitFirst rest
    return x :: xs

/-- The order of neighbouring outputs (src/sorting.rs:39-43), with `left` neighbours to go from index `i`
on. -/
def assertAscending (outputs : List (BinaryExpression p)) : ℕ → ℕ → B p Unit
  | 0, _ => return ()
  | left + 1, i => do
    let a ← B.ofOption outputs[i]?
    let j ← B.ofOption (M.add i 1)
    let b ← B.ofOption outputs[j]?
    B.assertLeBinary a b
    assertAscending outputs left (i + 1)

/-- `sort_ascending` (src/sorting.rs:16-59). -/
def sortAscending (inputs : List (Expression p)) : B p (List (Expression p)) := do
  let n := inputs.length
  let outputWires ← B.wires n
  let outputs := outputWires.map Expression.ofWire
  M.assertPermutation inputs outputs
  let k ← B.ofOption (M.sub n 1)
  let firsts ← splitFirst (outputs.take k)
  let last ← B.ofOption (M.sub n 1)
  let e ← B.ofOption outputs[last]?
  let x ← B.split e
  let m ← B.ofOption (M.sub n 1)
  M.assertAscending (firsts ++ [x]) m 0
  B.generator (inputs.flatMap Expression.dependencies) (B.sortGen inputs outputWires)
  return outputs

/-! ## src/sponge.rs -/

/-- `Sponge::new` (src/sponge.rs:35-39). -/
def newSponge (f : MultiPermutation p) (bitrate capacity : ℕ) : Option (Sponge p) := do
  let s ← M.add bitrate capacity
  if s = f.width then some ⟨f, bitrate, capacity⟩ else none

/-! ## src/rescue.rs -/

/-- `integer_division_ceil` (src/rescue.rs:142-144). -/
def integerDivisionCeil (n m : ℕ) : Option ℕ := do
  let s ← M.add n m
  let d ← M.sub s 1
  div d m

/-- `secure_num_rounds` of Rescue (src/rescue.rs:134-139). -/
def rescueRounds (securityBits width : ℕ) : Option ℕ := do
  let m ← M.mul 4 width
  let attackable ← M.integerDivisionCeil securityBits m
  let r ← M.mul attackable 2
  return max r 10

/-! ## src/poseidon.rs -/

/-- The loop over the rounds (src/poseidon.rs:142-155) from `round` of `total`, with `left` rounds to go.
The second comparison is evaluated only where the first one is false. -/
def poseidonRounds (f : Poseidon p) (total perSide : ℕ) :
    ℕ → ℕ → List (Expression p) → B p (List (Expression p))
  | _, 0, current => return current
  | round, left + 1, current => do
    let full ← B.ofOption (if round < perSide then some true else do
      let d ← M.sub total perSide
      return decide (round ≥ d))
    let current ← (if full then B.mapExpressions f.sboxPermute current else f.sboxFirst current)
    poseidonRounds f total perSide (round + 1) left (f.mds.mulExpressions current)

/-- `permute` of Poseidon (src/poseidon.rs:133-158). -/
def poseidonPermute (f : Poseidon p) (inputs : List (Expression p)) : B p (List (Expression p)) := do
  B.require (inputs.length = f.width)
  let total ← B.ofOption (M.add f.full f.partial_)
  let parity ← B.ofOption (rem f.full 2)
  B.require (parity = 0)
  let perSide ← B.ofOption (div f.full 2)
  M.poseidonRounds f total perSide 0 total inputs

section Search

variable (p : ℕ) [Fact p.Prime]

/-- `(width - 1) * num_rounds.full + num_rounds.partial` (src/poseidon.rs:266, 278, 289). -/
def weightedRounds (width full partial_ : ℕ) : Option ℕ := do
  let a ← M.sub width 1
  let b ← M.mul a full
  M.add b partial_

open Classical in
/-- `is_attackable_exponentiation_3` (src/poseidon.rs:259-269).  As in `Poseidon.isAttackable3`, the
floating point numbers are real numbers here.  (Width 0 without overflow checks, where the code takes the
logarithm of 0, is not meant to be covered; C103 has positive widths.) -/
noncomputable def isAttackable3 (width full partial_ securityBits : ℕ) : Option Bool := do
  let rounds ← M.add full partial_
  let inequality1 := decide
    ((rounds : ℝ) ≤ Real.logb 3 2 * Poseidon.minNM p securityBits + Real.logb 2 width)
  let rounds' ← M.add full partial_
  let inequality2a := decide ((rounds' : ℝ) ≤ 0.32 * Poseidon.minNM p securityBits)
  let weighted ← M.weightedRounds width full partial_
  let inequality2b := decide ((weighted : ℝ) ≤ 0.18 * Poseidon.minNM p securityBits - 1)
  return inequality1 || inequality2a || inequality2b

open Classical in
/-- `is_attackable_exponentiation_5` (src/poseidon.rs:271-281). -/
noncomputable def isAttackable5 (width full partial_ securityBits : ℕ) : Option Bool := do
  let rounds ← M.add full partial_
  let inequality1 := decide
    ((rounds : ℝ) ≤ Real.logb 5 2 * Poseidon.minNM p securityBits + Real.logb 2 width)
  let rounds' ← M.add full partial_
  let inequality2a := decide ((rounds' : ℝ) ≤ 0.21 * Poseidon.minNM p securityBits)
  let weighted ← M.weightedRounds width full partial_
  let inequality2b := decide ((weighted : ℝ) ≤ 0.14 * Poseidon.minNM p securityBits - 1)
  return inequality1 || inequality2a || inequality2b

open Classical in
/-- `is_attackable_inverse` (src/poseidon.rs:283-292). -/
noncomputable def isAttackableInverse (width full partial_ securityBits : ℕ) : Option Bool := do
  let inequality1 := decide ((full : ℝ) * Real.logb 2 width + partial_ ≤
    Real.logb 2 width + 0.5 + Poseidon.minNM p securityBits)
  let weighted ← M.weightedRounds width full partial_
  let inequality2 := decide ((weighted : ℝ) ≤ 0.25 * Poseidon.minNM p securityBits - 1)
  return inequality1 || inequality2

/-- `is_attackable` (src/poseidon.rs:246-257). -/
noncomputable def isAttackable : PoseidonSbox → ℕ → ℕ → ℕ → ℕ → Option Bool
  | .exponentiation3 => M.isAttackable3 p
  | .exponentiation5 => M.isAttackable5 p
  | .inverse => M.isAttackableInverse p

/-- The loop of `secure_partial_rounds_unpadded` (src/poseidon.rs:237-243), with the bound of
`Poseidon.partialLoop`. -/
noncomputable def partialLoop (sbox : PoseidonSbox) (width full securityBits : ℕ) :
    ℕ → ℕ → Option ℕ
  | 0, _ => none
  | fuel + 1, partial_ => do
    let a ← M.isAttackable p sbox width full partial_ securityBits
    if a then do
      let next ← M.add partial_ 1
      partialLoop sbox width full securityBits fuel next
    else return partial_

/-- `secure_partial_rounds_unpadded` (src/poseidon.rs:232-244). -/
noncomputable def securePartialRounds (sbox : PoseidonSbox) (width full securityBits : ℕ) : Option ℕ :=
  M.partialLoop p sbox width full securityBits (securityBits + width + 3) 0

/-- `num_sboxes` (src/poseidon.rs:300-302). -/
def numSboxes (width full partial_ : ℕ) : Option ℕ := do
  let a ← M.mul full width
  M.add a partial_

/-- The loop of `secure_num_rounds_unpadded` (src/poseidon.rs:212-229), with the bound of
`Poseidon.roundsLoop`. -/
noncomputable def roundsLoop (sbox : PoseidonSbox) (width securityBits : ℕ) :
    ℕ → ℕ → ℕ × ℕ → ℕ → Option (ℕ × ℕ)
  | 0, _, _, _ => none
  | fuel + 1, full, bestRounds, bestSboxes => do
    let full ← M.add full 2
    let partial_ ← M.securePartialRounds p sbox width full securityBits
    let sboxes ← M.numSboxes width full partial_
    if bestSboxes < sboxes then return bestRounds
    else roundsLoop sbox width securityBits fuel full (full, partial_) sboxes

/-- `secure_num_rounds_unpadded` (src/poseidon.rs:202-230). -/
noncomputable def secureRoundsUnpadded (sbox : PoseidonSbox) (width securityBits : ℕ) :
    Option (ℕ × ℕ) := do
  let full := 6
  let partial_ ← M.securePartialRounds p sbox width full securityBits
  let sboxes ← M.numSboxes width full partial_
  M.roundsLoop p sbox width securityBits (securityBits + width + 3) full (full, partial_) sboxes

/-- `secure_num_rounds_padded` (src/poseidon.rs:192-200): a number too large for a `usize` becomes the
largest one there is (`as usize`). -/
noncomputable def secureRoundsPadded (sbox : PoseidonSbox) (width securityBits : ℕ) :
    Option (ℕ × ℕ) := do
  let (full, partial_) ← M.secureRoundsUnpadded p sbox width securityBits
  let full ← M.add full 2
  return (full, min ⌊(partial_ : ℝ) * 1.075 + 1 / 2⌋₊ (2 ^ M.bits - 1))

end Search

/-! ## src/gadget_builder.rs -/

omit hp in
/-- `wire` with the 32-bit counter `next_wire_index` of the code (src/gadget_builder.rs:13, 31-35). -/
def wire (checks : Bool) : B p Wire := fun b => do
  let next ← Machine.add ⟨32, checks⟩ b.nextWireIndex 1
  return (b.nextWireIndex, { b with nextWireIndex := next })

end Machine

end R1CS
