import Verif.Model.Raw

/-!
# The closures given to `generator`, on the stored data

The crate contains thirteen calls of `GadgetBuilder::generator`.  Here each of the closures is transcribed on the
data of `Model/Raw.lean`: expressions as the maps of coefficients which the closure owns, field elements as bare
numbers below `q`, the `WireValues` it changes as a map.  Indexing into a vector panics outside of its length.
The closure of `product` is in `Model/Raw.lean`.
-/

namespace R1CS.Raw

/-- `BinaryExpression::dependencies` (src/expression.rs:605-611): the wires are collected in a set. -/
def binaryDependencies (bits : List Expr) : List Wire :=
  (bits.foldl (fun s e => (dependencies e).foldl (fun s w => insertWire w s) s) []).map (·.1)

/-- The closure of `nonzero` (src/gadget_builder.rs:83-98). -/
def nonzeroGen (q : ℕ) (x : Expr) (y m : Wire) (values : Values) : Option Values := do
  let xValue ← evaluate q x values
  let yValue ← (if isNonzero xValue then one q else zero q)
  let mValue ← (if isNonzero xValue then divRV q yValue xValue else one q)
  let values ← set values m mValue
  set values y yValue

/-- The closure of `inverse` (src/field_arithmetic.rs:70-74). -/
def inverseGen (q : ℕ) (x : Expr) (w : Wire) (values : Values) : Option Values := do
  let xValue ← evaluate q x values
  let inverseValue ← inverse q xValue
  set values w inverseValue

/-- The closure of `inverse_or_zero` (src/field_arithmetic.rs:89-92). -/
def inverseOrZeroGen (q : ℕ) (x : Expr) (w : Wire) (values : Values) : Option Values := do
  let xValue ← evaluate q x values
  set values w (← inverseOrZero q xValue)

/-- The closure of `quotient_unsafe` (src/field_arithmetic.rs:117-123). -/
def quotientUnsafeGen (q : ℕ) (x y : Expr) (w : Wire) (values : Values) : Option Values := do
  let xValue ← evaluate q x values
  let yValue ← evaluate q y values
  if isNonzero yValue then do
    let qValue ← divVV q xValue yValue
    set values w qValue
  else none

/-- The closure of `modulus` (src/field_arithmetic.rs:145-150). -/
def modulusGen (q : ℕ) (x y : Expr) (w r : Wire) (values : Values) : Option Values := do
  let xValue ← evaluate q x values
  let yValue ← evaluate q y values
  let values ← set values w (← integerDivision q xValue yValue)
  set values r (← integerModulus q xValue yValue)

/-- `for i in 0..bits { values.set_boolean(binary_wire.bits[i], value.bit(i)) }` (src/splitting.rs:45-47), for the
given indices. -/
def setBitsAt (q : ℕ) (w : BinaryWire) (value : ℕ) : List ℕ → Values → Option Values
  | [], values => some values
  | i :: is, values => do
    let wire ← w.bits[i]?
    let values ← setBoolean q values wire (bit value i)
    setBitsAt q w value is values

/-- The closure of `split_without_range_check` (src/splitting.rs:42-48). -/
def splitGen (q : ℕ) (x : Expr) (count : ℕ) (w : BinaryWire) (values : Values) : Option Values := do
  let value ← evaluate q x values
  if bits value ≤ count then setBitsAt q w value (List.range count) values else none

/-- The loop in the closure of `cmp_binary` (src/comparisons.rs:166-173), for the given entries of
`enumerate(&mask).rev()`. -/
def maskLoop (q : ℕ) (xChunks yChunks : List Expr) : List (Wire × ℕ) → Bool → Values → Option Values
  | [], _, values => some values
  | (maskBit, i) :: rest, seenDiff, values => do
    let xChunkValue ← evaluate q (← xChunks[i]?) values
    let yChunkValue ← evaluate q (← yChunks[i]?) values
    let diff := !eq xChunkValue yChunkValue
    let maskBitValue := diff && !seenDiff
    let values ← set values maskBit (← ofBool q maskBitValue)
    maskLoop q xChunks yChunks rest (seenDiff || diff) values

/-- The closure of `cmp_binary` (src/comparisons.rs:164-174). -/
def maskGen (q : ℕ) (mask : List Wire) (xChunks yChunks : List Expr) (values : Values) : Option Values :=
  maskLoop q xChunks yChunks mask.zipIdx.reverse false values

/-- The closure of `binary_summation` (src/binary_arithmetic.rs:60-64). -/
def summationGen (q : ℕ) (sumOfTerms : Expr) (w : BinaryWire) (values : Values) : Option Values := do
  let sumElement ← evaluate q sumOfTerms values
  setBinaryUnsigned q values w (toBig sumElement)

/-- The closure of `MonomialPermutation::inverse` (src/permutations.rs:64-67). -/
def rootGen (q : ℕ) (x : Expr) (exponent : ℕ) (w : Wire) (values : Values) : Option Values := do
  let rootValue ← exponentiation q (← evaluate q x values) exponent
  set values w rootValue

/-- The closure of `assert_permutation_2x2` (src/verify_permutation.rs:53-66). -/
def permutation2x2Gen (q : ℕ) (a b c d : Expr) (switch : BooleanWire) (values : Values) : Option Values := do
  let aValue ← evaluate q a values
  let bValue ← evaluate q b values
  let cValue ← evaluate q c values
  let dValue ← evaluate q d values
  if eq aValue cValue && eq bValue dValue then setBoolean q values switch false
  else if eq aValue dValue && eq bValue cValue then setBoolean q values switch true
  else none

/-- The loop writing the sorted items (src/sorting.rs:53-55), for the given entries of `enumerate(items)`. -/
def setItems (outputWires : List Wire) : List (ℕ × ℕ) → Values → Option Values
  | [], values => some values
  | (item, i) :: rest, values => do
    let values ← set values (← outputWires[i]?) item
    setItems outputWires rest values

/-- The closure of `sort_ascending` (src/sorting.rs:48-56).  `slice::sort` is a merge sort by `cmp`. -/
def sortGen (q : ℕ) (inputs : List Expr) (outputWires : List Wire) (values : Values) : Option Values := do
  let items ← inputs.mapM fun e => evaluate q e values
  setItems outputWires ((items.mergeSort fun x y => (cmp x y).isLE).zipIdx) values

/-! ## `route` -/

/-- The variables of `route` which change (src/verify_permutation.rs:136-243): `values`, `partial_routes` and
`scan_index`, as in `RouteState`. -/
structure Routing where
  values : Values
  partialRoutes : Bool → BMap ℕ Bool
  scanIndex : Bool → ℕ

/-- `enqueue_other_side` (src/verify_permutation.rs:160-187). -/
def enqueueOtherSide (abMap : BiMap) (switches : Bool → List BooleanWire) (side : Bool)
    (thisI : ℕ) (subnet : Bool) (st : Routing) : Option Routing := do
  let otherSide := !side
  let otherI ← abMapBySide abMap side thisI
  let otherSwitchI := otherI / 2
  if otherSwitchI ≥ (switches otherSide).length then return st
  let switch ← (switches otherSide)[otherSwitchI]?
  if containsBoolean st.values switch then return st
  let otherISibling := 4 * otherSwitchI + 1 - otherI
  match (st.partialRoutes otherSide).get compare otherISibling with
  | some siblingSubnet => if subnet = siblingSubnet then none else return st
  | none =>
    let optOldSubnet := (st.partialRoutes otherSide).get compare otherI
    let routes := (st.partialRoutes otherSide).insert compare otherI subnet
    let st := { st with partialRoutes := fun s => if s = otherSide then routes else st.partialRoutes s }
    match optOldSubnet with
    | some oldSubnet => if subnet = oldSubnet then return st else none
    | none => return st

/-- `route_switch` (src/verify_permutation.rs:198-209). -/
def routeSwitch (q : ℕ) (abMap : BiMap) (switches : Bool → List BooleanWire) (side : Bool)
    (switchIndex : ℕ) (swap : Bool) (st : Routing) : Option Routing := do
  let values ← setBoolean q st.values (← (switches side)[switchIndex]?) swap
  let thisI1 := switchIndex * 2
  let thisI2 := thisI1 + 1
  let st ← enqueueOtherSide abMap switches side thisI1 swap { st with values := values }
  enqueueOtherSide abMap switches side thisI2 (!swap) st

/-- The loop over the pending routes of a side (src/verify_permutation.rs:222-227). -/
def routePartial (q : ℕ) (abMap : BiMap) (switches : Bool → List BooleanWire) (side : Bool) :
    List (ℕ × Bool) → Routing → Option Routing
  | [], st => some st
  | (thisI, subnet) :: rest, st => do
    let thisFirstSwitchInput := thisI % 2 == 0
    let swap := thisFirstSwitchInput == subnet
    let st ← routeSwitch q abMap switches side (thisI / 2) swap st
    routePartial q abMap switches side rest st

/-- The inner scan (src/verify_permutation.rs:231-234), bounded like `scanSwitches`. -/
def scanSwitches (switches : List BooleanWire) (values : Values) : ℕ → ℕ → ℕ
  | 0, i => i
  | fuel + 1, i =>
    match switches[i]? with
    | none => i
    | some switch => if containsBoolean values switch then scanSwitches switches values fuel (i + 1) else i

/-- The body of the loop over the sides (src/verify_permutation.rs:221-240). -/
def routeSide (q : ℕ) (abMap : BiMap) (switches : Bool → List BooleanWire) (side : Bool)
    (st : Routing) : Option Routing :=
  if !(st.partialRoutes side).isEmpty then do
    let st ← routePartial q abMap switches side (st.partialRoutes side) st
    return { st with partialRoutes := fun s => if s = side then [] else st.partialRoutes s }
  else
    let i := scanSwitches (switches side) st.values (switches side).length (st.scanIndex side)
    if i < (switches side).length then do
      let st ← routeSwitch q abMap switches side i false st
      return { st with scanIndex := fun s => if s = side then i + 1 else st.scanIndex s }
    else
      return { st with scanIndex := fun s => if s = side then i else st.scanIndex s }

/-- The main loop of `route` (src/verify_permutation.rs:219-242), bounded like `routeLoop`. -/
def routeLoop (q : ℕ) (abMap : BiMap) (switches : Bool → List BooleanWire) : ℕ → Routing → Option Routing
  | fuel, st =>
    if st.scanIndex false < (switches false).length ∨ st.scanIndex true < (switches true).length then
      match fuel with
      | 0 => none
      | fuel + 1 => do
        let st ← routeSide q abMap switches false st
        let st ← routeSide q abMap switches true st
        routeLoop q abMap switches fuel st
    else some st

/-- `route` (src/verify_permutation.rs:136-243), with the bound on the loop of the function `route` of
`Model/Permutation.lean`. -/
def route (q : ℕ) (aValues bValues : List ℕ) (aSwitches bSwitches : List BooleanWire) (values : Values) :
    Option Values := do
  if aValues.length ≠ bValues.length then none
  else
    let n := aValues.length
    let abMap ← bimapFromLists aValues bValues
    let switches : Bool → List BooleanWire := fun side => if side then bSwitches else aSwitches
    let st : Routing := ⟨values, fun _ => [], fun _ => 0⟩
    let st ← (if n % 2 = 0 then do
        let st ← enqueueOtherSide abMap switches true (n - 2) false st
        enqueueOtherSide abMap switches true (n - 1) true st
      else do
        let st ← enqueueOtherSide abMap switches false (n - 1) true st
        enqueueOtherSide abMap switches true (n - 1) true st)
    let st ← routeLoop q abMap switches (2 * (aSwitches.length + bSwitches.length)) st
    return st.values

/-- The closure of `assert_permutation_recursive` (src/verify_permutation.rs:127-131). -/
def routeGen (q : ℕ) (a b : List Expr) (aSwitches bSwitches : List BooleanWire) (values : Values) :
    Option Values := do
  let aValues ← a.mapM fun e => evaluate q e values
  let bValues ← b.mapM fun e => evaluate q e values
  route q aValues bValues aSwitches bSwitches values

end R1CS.Raw
