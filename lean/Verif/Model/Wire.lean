import Verif.Model.Field

/-!
# Model of `src/wire.rs` and `src/wire_values.rs`
-/

namespace R1CS

/-- `Wire { index: u32 }` (src/wire.rs:8-12), represented by its index.
Simplification: the index is an unbounded natural number; the `u32` bound is treated in
`Props/Builder.lean` (C18).  (A macro rather than a definition, so that the arithmetic tactics see
natural numbers.) -/
macro "Wire" : term => `(ℕ)

/-- `Wire::ONE` (src/wire.rs:17). -/
abbrev ONE : Wire := 0

/-- `Ord for Wire` (src/wire.rs:20-33): `ONE` is last. -/
def Wire.cmp (a b : Wire) : Ordering :=
  if a = ONE ∧ b = ONE then .eq
  else if a = ONE then .gt
  else if b = ONE then .lt
  else compare a b

/-- `BooleanWire` (src/wire.rs:51-71). -/
structure BooleanWire where
  wire : Wire
  deriving DecidableEq

/-- `BinaryWire` (src/wire.rs:73-86): bits from least to most significant. -/
structure BinaryWire where
  bits : List BooleanWire
  deriving DecidableEq

/-- `BinaryWire::len` (src/wire.rs:83-85). -/
def BinaryWire.len (w : BinaryWire) : ℕ := w.bits.length

/-- `WireValues` (src/wire_values.rs:13-17).  Simplification: the `BTreeMap` is a partial
function, since no code iterates over it. -/
abbrev WireValues (p : ℕ) := Wire → Option (Elem p)

namespace WireValues

variable {p : ℕ}

/-- `WireValues::default()` (derived, src/wire_values.rs:14): the empty map. -/
def default : WireValues p := fun _ => none

/-- `WireValues::new` (src/wire_values.rs:20-24). -/
def new [Fact p.Prime] : WireValues p := fun w => if w = ONE then some 1 else none

/-- `contains` (src/wire_values.rs:58-60). -/
def contains (v : WireValues p) (w : Wire) : Bool := (v w).isSome

/-- `get` (src/wire_values.rs:30-33): panics when absent. -/
def get (v : WireValues p) (w : Wire) : Option (Elem p) := v w

/-- `BTreeMap::insert` on the partial function. -/
def insert (v : WireValues p) (w : Wire) (x : Elem p) : WireValues p :=
  fun i => if i = w then some x else v i

/-- `set` (src/wire_values.rs:39-42): panics if there was a value. -/
def set (v : WireValues p) (w : Wire) (x : Elem p) : Option (WireValues p) :=
  if v.contains w then none else some (v.insert w x)

/-- `set_boolean` (src/wire_values.rs:44-46). -/
def setBoolean [Fact p.Prime] (v : WireValues p) (w : BooleanWire) (b : Bool) :
    Option (WireValues p) :=
  v.set w.wire (Elem.ofBool b)

/-- The loop of `set_binary_unsigned` (src/wire_values.rs:52-55), from bit `i` on. -/
def setBits [Fact p.Prime] (v : WireValues p) (value : ℕ) :
    ℕ → List BooleanWire → Option (WireValues p)
  | _, [] => some v
  | i, w :: ws => do
    let v' ← v.setBoolean w ((value >>> i) &&& 1 == 1)
    v'.setBits value (i + 1) ws

/-- `set_binary_unsigned` (src/wire_values.rs:48-56). -/
def setBinaryUnsigned [Fact p.Prime] (v : WireValues p) (w : BinaryWire) (value : ℕ) :
    Option (WireValues p) :=
  if value.size ≤ w.len then v.setBits value 0 w.bits else none

/-- `contains_boolean` (src/wire_values.rs:62-64). -/
def containsBoolean (v : WireValues p) (w : BooleanWire) : Bool := v.contains w.wire

/-- `contains_all` (src/wire_values.rs:66-68). -/
def containsAll (v : WireValues p) (ws : List Wire) : Bool := ws.all fun w => v.contains w

end WireValues

end R1CS
