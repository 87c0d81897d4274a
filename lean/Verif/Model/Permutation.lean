import Verif.Model.Comparisons
import Mathlib.Data.List.Sort

/-!
# Model of `src/bimap_util.rs`, `src/verify_permutation.rs` and `src/sorting.rs`

Arrays of length two indexed by a side (`0` = left, `1` = right) are functions from `Bool`
(`false` = left, `true` = right).
-/

namespace R1CS

variable {p : ℕ} [hp : Fact p.Prime]

/-- `bimap::BiMap<usize, usize>`: the list of its pairs. -/
abbrev BiMap := List (ℕ × ℕ)

namespace BiMap

/-- `BiMap::insert` of the crate `bimap`: pairs with the same left or the same right value are
overwritten. -/
def insert (i j : ℕ) (m : BiMap) : BiMap :=
  (i, j) :: m.filter fun q => decide (q.1 ≠ i ∧ q.2 ≠ j)

/-- `BiMap::get_by_left`. -/
def getByLeft (m : BiMap) (i : ℕ) : Option ℕ := (m.find? fun q => q.1 == i).map (·.2)

/-- `BiMap::get_by_right`. -/
def getByRight (m : BiMap) (j : ℕ) : Option ℕ := (m.find? fun q => q.2 == j).map (·.1)

end BiMap

section
variable {α : Type} [DecidableEq α]

/-- First loop of `bimap_from_lists` (src/bimap_util.rs:22-25): the indices of each value of `b`.
The `BTreeMap<T, Vec<usize>>` is a function giving the vector of a value (the empty vector for an
absent key), with the end of the vector at the head of the list, so that `push` is `cons`. -/
def indexStacks : ℕ → List α → (α → List ℕ) → (α → List ℕ)
  | _, [], m => m
  | i, x :: xs, m => indexStacks (i + 1) xs fun y => if y = x then i :: m y else m y

/-- Second loop of `bimap_from_lists` (src/bimap_util.rs:27-36): pair each value of `a` with the
last remaining index of that value in `b`; panics if there is none. -/
def matchIndices : ℕ → List α → (α → List ℕ) → BiMap → Option BiMap
  | _, [], _, r => some r
  | i, x :: xs, m, r =>
    match m x with
    | [] => none
    | j :: js => matchIndices (i + 1) xs (fun y => if y = x then js else m y) (r.insert i j)

/-- `bimap_from_lists` (src/bimap_util.rs:19-37). -/
def bimapFromLists (a b : List α) : Option BiMap :=
  if a.length = b.length then matchIndices 0 a (indexStacks 0 b fun _ => []) [] else none

end

/-- The mutable state of `route` (src/verify_permutation.rs:156, 214): wire values,
`partial_routes` and `scan_index`. -/
structure RouteState (p : ℕ) where
  values : WireValues p
  partialRoutes : Bool → BMap ℕ Bool
  scanIndex : Bool → ℕ

/-- `ab_map_by_side` (src/verify_permutation.rs:145-151); panics if there is no entry. -/
def abMapBySide (abMap : BiMap) (side : Bool) (index : ℕ) : Option ℕ :=
  if side then abMap.getByRight index else abMap.getByLeft index

/-- `enqueue_other_side` (src/verify_permutation.rs:160-187). -/
def enqueueOtherSide (abMap : BiMap) (switches : Bool → List BooleanWire) (side : Bool)
    (thisI : ℕ) (subnet : Bool) (st : RouteState p) : Option (RouteState p) := do
  let otherI ← abMapBySide abMap side thisI
  let otherSwitchI := otherI / 2
  match (switches !side)[otherSwitchI]? with
  | none => return st
  | some switch =>
    if st.values.containsBoolean switch then return st
    else
      match (st.partialRoutes !side).get compare (4 * otherSwitchI + 1 - otherI) with
      | some siblingSubnet => if subnet ≠ siblingSubnet then return st else none
      | none =>
        let st' := { st with partialRoutes := fun s =>
          if s = !side then (st.partialRoutes !side).insert compare otherI subnet
          else st.partialRoutes s }
        match (st.partialRoutes !side).get compare otherI with
        | some oldSubnet => if subnet = oldSubnet then return st' else none
        | none => return st'

/-- `route_switch` (src/verify_permutation.rs:198-209). -/
def routeSwitch (abMap : BiMap) (switches : Bool → List BooleanWire) (side : Bool)
    (switchIndex : ℕ) (swap : Bool) (st : RouteState p) : Option (RouteState p) := do
  let switch ← (switches side)[switchIndex]?
  let values ← st.values.setBoolean switch swap
  let st ← enqueueOtherSide abMap switches side (switchIndex * 2) swap { st with values := values }
  enqueueOtherSide abMap switches side (switchIndex * 2 + 1) (!swap) st

/-- The loop over the pending routes of a side (src/verify_permutation.rs:222-227). -/
def routePartial (abMap : BiMap) (switches : Bool → List BooleanWire) (side : Bool) :
    List (ℕ × Bool) → RouteState p → Option (RouteState p)
  | [], st => some st
  | (thisI, subnet) :: rest, st => do
    let st ← routeSwitch abMap switches side (thisI / 2) ((thisI % 2 == 0) == subnet) st
    routePartial abMap switches side rest st

/-- The inner scan (src/verify_permutation.rs:231-234): skip the switches which are set, starting
from index `i`.  The fuel bounds the number of steps; the length of the list is always enough. -/
def scanSwitches (switches : List BooleanWire) (values : WireValues p) : ℕ → ℕ → ℕ
  | 0, i => i
  | fuel + 1, i =>
    match switches[i]? with
    | none => i
    | some switch =>
      if values.containsBoolean switch then scanSwitches switches values fuel (i + 1) else i

/-- The body of the loop over the sides (src/verify_permutation.rs:221-240). -/
def routeSide (abMap : BiMap) (switches : Bool → List BooleanWire) (side : Bool)
    (st : RouteState p) : Option (RouteState p) :=
  if st.partialRoutes side ≠ [] then do
    let st ← routePartial abMap switches side (st.partialRoutes side) st
    return { st with partialRoutes := fun s => if s = side then [] else st.partialRoutes s }
  else
    let i := scanSwitches (switches side) st.values (switches side).length (st.scanIndex side)
    if i < (switches side).length then do
      let st ← routeSwitch abMap switches side i false st
      return { st with scanIndex := fun s => if s = side then i + 1 else st.scanIndex s }
    else
      return { st with scanIndex := fun s => if s = side then i else st.scanIndex s }

/-- The main loop of `route` (src/verify_permutation.rs:219-242).  The fuel bounds the number of
rounds; running out of fuel is an error, so success means that the loop ends. -/
def routeLoop (abMap : BiMap) (switches : Bool → List BooleanWire) :
    ℕ → RouteState p → Option (RouteState p)
  | fuel, st =>
    if st.scanIndex false < (switches false).length ∨ st.scanIndex true < (switches true).length then
      match fuel with
      | 0 => none
      | fuel + 1 => do
        let st ← routeSide abMap switches false st
        let st ← routeSide abMap switches true st
        routeLoop abMap switches fuel st
    else some st

/-- `route` (src/verify_permutation.rs:136-243).  It is only called with `n ≥ 3`, so `n - 2` does
not underflow. -/
def route (aValues bValues : List (Elem p)) (aSwitches bSwitches : List BooleanWire)
    (values : WireValues p) : Option (WireValues p) := do
  if aValues.length ≠ bValues.length then none
  else
    let n := aValues.length
    let abMap ← bimapFromLists aValues bValues
    let switches : Bool → List BooleanWire := fun side => if side then bSwitches else aSwitches
    let st : RouteState p := ⟨values, fun _ => [], fun _ => 0⟩
    let st ← (if n % 2 = 0 then do
        let st ← enqueueOtherSide abMap switches true (n - 2) false st
        enqueueOtherSide abMap switches true (n - 1) true st
      else do
        let st ← enqueueOtherSide abMap switches false (n - 1) true st
        enqueueOtherSide abMap switches true (n - 1) true st)
    let st ← routeLoop abMap switches (2 * (aSwitches.length + bSwitches.length)) st
    return st.values

namespace B

/-- `create_switch` (src/verify_permutation.rs:72-78). -/
def createSwitch (a b : Expression p) : B p (BooleanWire × Expression p × Expression p) := do
  let switch ← booleanWire
  let c ← selection (BooleanExpression.ofWire switch) b a
  return (switch, c, a + b - c)

/-- The generator of `assert_permutation_2x2` (src/verify_permutation.rs:53-66). -/
def permutation2x2Gen (a b c d : Expression p) (switch : BooleanWire) (v : WireValues p) :
    Option (WireValues p) := do
  let aValue ← a.evaluate v
  let bValue ← b.evaluate v
  let cValue ← c.evaluate v
  let dValue ← d.evaluate v
  if aValue = cValue ∧ bValue = dValue then v.setBoolean switch false
  else if aValue = dValue ∧ bValue = cValue then v.setBoolean switch true
  else none

/-- `assert_permutation_2x2` (src/verify_permutation.rs:41-67). -/
def assertPermutation2x2 (a b c d : Expression p) : B p Unit := do
  let (switch, cTarget, dTarget) ← createSwitch a b
  assertEqual c cTarget
  assertEqual d dTarget
  generator (a.dependencies ++ b.dependencies ++ c.dependencies ++ d.dependencies)
    (permutation2x2Gen a b c d switch)

/-- A loop creating a layer of switches (src/verify_permutation.rs:95-100 and 101-106): a switch
for each of the first `k` pairs of neighbours.  Returns the switches and their two outputs. -/
def switchLayer : ℕ → List (Expression p) →
    B p (List BooleanWire × List (Expression p) × List (Expression p))
  | 0, _ => return ([], [], [])
  | k + 1, x :: y :: rest => do
    let (switch, out1, out2) ← createSwitch x y
    let (switches, outs1, outs2) ← switchLayer k rest
    return (switch :: switches, out1 :: outs1, out2 :: outs2)
  | _ + 1, _ => panic

/-- The generator of `assert_permutation_recursive` (src/verify_permutation.rs:127-131). -/
def routeGen (a b : List (Expression p)) (aSwitches bSwitches : List BooleanWire)
    (v : WireValues p) : Option (WireValues p) := do
  let aValues ← a.mapM fun e => e.evaluate v
  let bValues ← b.mapM fun e => e.evaluate v
  route aValues bValues aSwitches bSwitches v

/-- `assert_permutation` (src/verify_permutation.rs:24-38) and `assert_permutation_recursive`
(src/verify_permutation.rs:80-132).  The recursion is on `fuel`, running out of which is an error;
`assertPermutation` supplies the length of the list, which is always enough. -/
def assertPermutationFuel : ℕ → List (Expression p) → List (Expression p) → B p Unit
  | 0, a, b => do
    require (a.length = b.length)
    require (a.length = 0)
  | fuel + 1, a, b => do
    require (a.length = b.length)
    match a, b with
    | [], _ => return ()
    | [a0], [b0] => assertEqual a0 b0
    | [a0, a1], [b0, b1] => assertPermutation2x2 a0 a1 b0 b1
    | a, b =>
      let n := a.length
      let aNumSwitches := n / 2
      let bNumSwitches := if n % 2 = 0 then aNumSwitches - 1 else aNumSwitches
      let (aSwitches, child1A, child2A) ← switchLayer aNumSwitches a
      let (bSwitches, child1B, child2B) ← switchLayer bNumSwitches b
      (if n % 2 = 0 then do
        let b1 ← ofOption b[n - 2]?
        let b2 ← ofOption b[n - 1]?
        assertPermutationFuel fuel child1A (child1B ++ [b1])
        assertPermutationFuel fuel child2A (child2B ++ [b2])
      else do
        let a2 ← ofOption a[n - 1]?
        let b2 ← ofOption b[n - 1]?
        assertPermutationFuel fuel child1A child1B
        assertPermutationFuel fuel (child2A ++ [a2]) (child2B ++ [b2]))
      generator (a.flatMap Expression.dependencies ++ b.flatMap Expression.dependencies)
        (routeGen a b aSwitches bSwitches)

/-- `assert_permutation` (src/verify_permutation.rs:24-38). -/
def assertPermutation (a b : List (Expression p)) : B p Unit :=
  assertPermutationFuel a.length a b

/-- The loop writing the sorted items (src/sorting.rs:53-55). -/
def setItems : List Wire → List (Elem p) → WireValues p → Option (WireValues p)
  | _, [], v => some v
  | w :: ws, x :: xs, v => do
    let v ← v.set w x
    setItems ws xs v
  | [], _ :: _, _ => none

/-- The generator of `sort_ascending` (src/sorting.rs:48-56).  `slice::sort` is a merge sort by the
order of `Element`, which is that of the representatives (src/field.rs:228-232). -/
def sortGen (inputs : List (Expression p)) (outputWires : List Wire) (v : WireValues p) :
    Option (WireValues p) := do
  let items ← inputs.mapM fun e => e.evaluate v
  setItems outputWires (items.mergeSort fun x y => decide (x.n ≤ y.n)) v

/-- The splits of the outputs (src/sorting.rs:33-37): all but the last one allowing ambiguity.
For an empty list `n - 1` underflows: a panic. -/
def splitOutputs : List (Expression p) → B p (List (BinaryExpression p))
  | [] => panic
  | [e] => do
    let x ← split e
    return [x]
  | e :: e' :: rest => do
    let x ← splitAllowingAmbiguity e
    let xs ← splitOutputs (e' :: rest)
    return x :: xs

/-- The order of neighbouring outputs (src/sorting.rs:39-43). -/
def assertAscending : List (BinaryExpression p) → B p Unit
  | x :: y :: rest => do
    assertLeBinary x y
    assertAscending (y :: rest)
  | _ => return ()

/-- `sort_ascending` (src/sorting.rs:16-59). -/
def sortAscending (inputs : List (Expression p)) : B p (List (Expression p)) := do
  let outputWires ← wires inputs.length
  let outputs := outputWires.map Expression.ofWire
  assertPermutation inputs outputs
  let outputsBinary ← splitOutputs outputs
  assertAscending outputsBinary
  generator (inputs.flatMap Expression.dependencies) (sortGen inputs outputWires)
  return outputs

/-- `sort_descending` (src/sorting.rs:62-66). -/
def sortDescending (inputs : List (Expression p)) : B p (List (Expression p)) := do
  let items ← sortAscending inputs
  return items.reverse

end B

end R1CS
