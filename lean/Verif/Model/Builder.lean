import Verif.Model.Expression

/-!
# Model of `src/witness_generator.rs`, `src/gadget.rs`, `src/gadget_builder.rs`
-/

namespace R1CS

variable {p : ℕ} [hp : Fact p.Prime]

/-- `WitnessGenerator` (src/witness_generator.rs:10-38): declared inputs and a closure which
mutates the values.  A panic of the closure is `none`. -/
structure WitnessGenerator (p : ℕ) where
  inputs : List Wire
  generate : WireValues p → Option (WireValues p)

/-- `Gadget` (src/gadget.rs:9-15). -/
structure Gadget (p : ℕ) where
  constraints : List (Constraint p)
  witnessGenerators : List (WitnessGenerator p)

namespace Gadget

omit hp in
/-- `size` (src/gadget.rs:19-21). -/
def size (g : Gadget p) : ℕ := g.constraints.length

omit hp in
/-- One `retain` pass (src/gadget.rs:32-41): returns the generators kept, the values, and
`made_progress`. -/
def pass : List (WitnessGenerator p) → WireValues p →
    Option (List (WitnessGenerator p) × WireValues p × Bool)
  | [], v => some ([], v, false)
  | g :: gs, v =>
    if v.containsAll g.inputs then do
      let v' ← g.generate v
      let r ← pass gs v'
      return (r.1, r.2.1, true)
    else do
      let r ← pass gs v
      return (g :: r.1, r.2.1, r.2.2)

omit hp in
/-- The `loop` of `execute` (src/gadget.rs:31-46).  The fuel makes the recursion structural;
`Props/Execute.lean` proves that `execute` never exhausts it. -/
def loop : ℕ → List (WitnessGenerator p) → WireValues p →
    Option (List (WitnessGenerator p) × WireValues p)
  | 0, _, _ => none
  | fuel + 1, gs, v => do
    let r ← pass gs v
    if r.2.2 then loop fuel r.1 r.2.1 else return (r.1, r.2.1)

/-- `self.constraints.iter().all(..)` (src/gadget.rs:50), stopping at the first violated
constraint. -/
def checkAll : List (Constraint p) → WireValues p → Option Bool
  | [], _ => some true
  | c :: cs, v => do
    let ok ← c.evaluate v
    if ok then checkAll cs v else return false

/-- `execute` (src/gadget.rs:24-51): the final values and the verdict; `none` is a panic. -/
def execute (g : Gadget p) (v : WireValues p) : Option (WireValues p × Bool) := do
  let r ← loop (g.witnessGenerators.length + 1) g.witnessGenerators v
  if r.1.length = 0 then do
    let ok ← checkAll g.constraints r.2
    return (r.2, ok)
  else none

end Gadget

/-- `GadgetBuilder` (src/gadget_builder.rs:12-16). -/
structure Builder (p : ℕ) where
  nextWireIndex : ℕ
  constraints : List (Constraint p)
  witnessGenerators : List (WitnessGenerator p)

/-- Builder methods: they mutate the builder and may panic. -/
abbrev B (p : ℕ) := StateT (Builder p) Option

omit hp in
/-- `GadgetBuilder::new` (src/gadget_builder.rs:22-28). -/
def Builder.new : Builder p := ⟨1, [], []⟩

omit hp in
/-- `build` (src/gadget_builder.rs:161-166). -/
def Builder.build (b : Builder p) : Gadget p := ⟨b.constraints, b.witnessGenerators⟩

namespace B

omit hp in
/-- A panic while building. -/
def panic {α : Type} : B p α := fun _ => none

omit hp in
/-- Propagate a panic of a pure helper. -/
def ofOption {α : Type} (o : Option α) : B p α := fun b => o.map fun a => (a, b)

omit hp in
/-- `assert!` while building. -/
def require (c : Prop) [Decidable c] : B p Unit := if c then pure () else panic

omit hp in
/-- `wire` (src/gadget_builder.rs:31-35). -/
def wire : B p Wire := fun b => some (b.nextWireIndex, { b with nextWireIndex := b.nextWireIndex + 1 })

omit hp in
/-- `assert_product` (src/gadget_builder.rs:113-119): pushes one constraint. -/
def assertProduct (x y z : Expression p) : B p Unit := fun b =>
  some ((), { b with constraints := b.constraints ++ [⟨x, y, z⟩] })

omit hp in
/-- `generator` (src/gadget_builder.rs:56-59). -/
def generator (deps : List Wire) (f : WireValues p → Option (WireValues p)) : B p Unit := fun b =>
  some ((), { b with witnessGenerators := b.witnessGenerators ++ [⟨deps, f⟩] })

/-- `assert_boolean` (src/gadget_builder.rs:122-125). -/
def assertBoolean (x : Expression p) : B p (BooleanExpression p) := do
  assertProduct x (x - 1) 0
  return ⟨x⟩

/-- `boolean_wire` (src/gadget_builder.rs:38-42). -/
def booleanWire : B p BooleanWire := do
  let w ← wire
  let _ ← assertBoolean (Expression.ofWire w)
  return ⟨w⟩

omit hp in
/-- `wires` (src/gadget_builder.rs:46-48). -/
def wires : ℕ → B p (List Wire)
  | 0 => return []
  | n + 1 => do
    let w ← wire
    let ws ← wires n
    return w :: ws

/-- The iterator of `binary_wire` (src/gadget_builder.rs:52). -/
def booleanWires : ℕ → B p (List BooleanWire)
  | 0 => return []
  | n + 1 => do
    let w ← booleanWire
    let ws ← booleanWires n
    return w :: ws

/-- `binary_wire` (src/gadget_builder.rs:51-53). -/
def binaryWire (n : ℕ) : B p BinaryWire := do
  let bits ← booleanWires n
  return ⟨bits⟩

/-- `assert_equal` (src/gadget_builder.rs:128-130). -/
def assertEqual (x y : Expression p) : B p Unit := assertProduct x 1 y

/-- `assert_zero` (src/gadget_builder.rs:139-141). -/
def assertZero (x : Expression p) : B p Unit := assertEqual x 0

/-- `assert_true` (src/gadget_builder.rs:151-153). -/
def assertTrue (x : BooleanExpression p) : B p Unit := assertEqual x.expression 1

/-- `assert_false` (src/gadget_builder.rs:156-158). -/
def assertFalse (x : BooleanExpression p) : B p Unit := assertEqual x.expression 0

/-- The closure of `nonzero` (src/gadget_builder.rs:83-98): sets `m`, then `y`. -/
def nonzeroGen (x : Expression p) (y m : Wire) (v : WireValues p) : Option (WireValues p) := do
  let xv ← x.evaluate v
  let yv : Elem p := if xv.isNonzero then 1 else 0
  let mv ← (if xv.isNonzero then yv.div xv else some 1)
  let v' ← v.set m mv
  v'.set y yv

/-- `nonzero` (src/gadget_builder.rs:73-103). -/
def nonzero (x : Expression p) : B p (BooleanExpression p) := do
  let y ← wire
  let m ← wire
  assertProduct x (Expression.ofWire m) (Expression.ofWire y)
  assertProduct (1 - Expression.ofWire y) x 0
  generator x.dependencies (nonzeroGen x y m)
  return ⟨Expression.ofWire y⟩

/-- `not` (src/boolean_algebra.rs:9-11). -/
def not (x : BooleanExpression p) : B p (BooleanExpression p) := return ⟨1 - x.expression⟩

/-- `zero` (src/gadget_builder.rs:67-70). -/
def zero (x : Expression p) : B p (BooleanExpression p) := do
  let nz ← nonzero x
  not nz

/-- `equal` (src/gadget_builder.rs:62-64). -/
def equal (x y : Expression p) : B p (BooleanExpression p) := zero (x - y)

/-- The closure of `product` (src/field_arithmetic.rs:28-31). -/
def productGen (x y : Expression p) (w : Wire) (v : WireValues p) : Option (WireValues p) := do
  let xv ← x.evaluate v
  let yv ← y.evaluate v
  v.set w (xv * yv)

/-- `product` (src/field_arithmetic.rs:11-36). -/
def product (x y : Expression p) : B p (Expression p) :=
  match x.asConstant with
  | some c => return y.mulElem c
  | none =>
    match y.asConstant with
    | some c => return x.mulElem c
    | none => do
      let w ← wire
      assertProduct x y (Expression.ofWire w)
      generator (x.dependencies ++ y.dependencies) (productGen x y w)
      return Expression.ofWire w

/-- `selection` (src/gadget_builder.rs:106-110). -/
def selection (c : BooleanExpression p) (x y : Expression p) : B p (Expression p) := do
  let d ← product c.expression (x - y)
  return y + d

/-- The loop of `exponentiation` (src/field_arithmetic.rs:45-57) at index `i` with `r` bits left. -/
def expLoop (x : Expression p) (k : Elem p) :
    ℕ → ℕ → Expression p → Expression p → B p (Expression p)
  | _, 0, productExp, _ => return productExp
  | i, r + 1, productExp, lastSquare => do
    let square ← (if i = 0 then pure x else product lastSquare lastSquare)
    let productExp' ← (if k.bit i then product productExp square else pure productExp)
    expLoop x k (i + 1) r productExp' square

/-- `exponentiation` (src/field_arithmetic.rs:39-59). -/
def exponentiation (x : Expression p) (k : Elem p) : B p (Expression p) :=
  expLoop x k 0 k.bits 1 0

/-- The closure of `inverse` (src/field_arithmetic.rs:70-74). -/
def inverseGen (x : Expression p) (w : Wire) (v : WireValues p) : Option (WireValues p) := do
  let xv ← x.evaluate v
  let i ← xv.multiplicativeInverse
  v.set w i

/-- `inverse` (src/field_arithmetic.rs:63-78). -/
def inverse (x : Expression p) : B p (Expression p) := do
  let w ← wire
  assertProduct x (Expression.ofWire w) 1
  generator x.dependencies (inverseGen x w)
  return Expression.ofWire w

/-- `assert_nonzero` (src/gadget_builder.rs:144-148). -/
def assertNonzero (x : Expression p) : B p Unit := do
  let _ ← inverse x
  return ()

/-- `assert_nonequal` (src/gadget_builder.rs:133-136). -/
def assertNonequal (x y : Expression p) : B p Unit := assertNonzero (x - y)

/-- The closure of `inverse_or_zero` (src/field_arithmetic.rs:89-92). -/
def inverseOrZeroGen (x : Expression p) (w : Wire) (v : WireValues p) : Option (WireValues p) := do
  let xv ← x.evaluate v
  let i ← xv.multiplicativeInverseOrZero
  v.set w i

/-- `inverse_or_zero` (src/field_arithmetic.rs:81-96). -/
def inverseOrZero (x : Expression p) : B p (Expression p) := do
  let w ← wire
  let nz ← nonzero x
  assertProduct x (Expression.ofWire w) nz.expression
  generator x.dependencies (inverseOrZeroGen x w)
  return Expression.ofWire w

/-- `quotient` (src/field_arithmetic.rs:100-103). -/
def quotient (x y : Expression p) : B p (Expression p) := do
  let i ← inverse y
  product x i

/-- The closure of `quotient_unsafe` (src/field_arithmetic.rs:117-123). -/
def quotientUnsafeGen (x y : Expression p) (q : Wire) (v : WireValues p) :
    Option (WireValues p) := do
  let xv ← x.evaluate v
  let yv ← y.evaluate v
  if yv.isNonzero then do
    let qv ← xv.div yv
    v.set q qv
  else none

/-- `quotient_unsafe` (src/field_arithmetic.rs:111-126): note that no constraint is added. -/
def quotientUnsafe (x y : Expression p) : B p (Expression p) := do
  let q ← wire
  generator (x.dependencies ++ y.dependencies) (quotientUnsafeGen x y q)
  return Expression.ofWire q

/-- `and` (src/boolean_algebra.rs:14-18). -/
def and (x y : BooleanExpression p) : B p (BooleanExpression p) := do
  let z ← product x.expression y.expression
  return ⟨z⟩

/-- `or` (src/boolean_algebra.rs:21-28). -/
def or (x y : BooleanExpression p) : B p (BooleanExpression p) := do
  let z ← product x.expression y.expression
  return ⟨x.expression + y.expression - z⟩

/-- `xor` (src/boolean_algebra.rs:31-37): the factor 2 is a `u128` literal. -/
def xor (x y : BooleanExpression p) : B p (BooleanExpression p) := do
  let z ← product x.expression y.expression
  let z2 ← ofOption (z.mulNat 2)
  return ⟨x.expression + y.expression - z2⟩

end B

end R1CS
