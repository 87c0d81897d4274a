import Verif.Model.Wire

/-!
# Model of the macros of `src/wire_values.rs`

A macro call is the list of its entries `wire => value`, in order.  Simplification: the expressions in
the entries are evaluated beforehand, so that a panic of theirs is not part of the model.
-/

namespace R1CS.WireValues

variable {p : ℕ} [Fact p.Prime]

/-- `values!` (src/wire_values.rs:81-93). -/
def ofValues (l : List (Wire × Elem p)) : Option (WireValues p) :=
  l.foldlM (fun v kv => v.set kv.1 kv.2) new

/-- `boolean_values!` (src/wire_values.rs:95-107). -/
def ofBooleanValues (l : List (BooleanWire × Bool)) : Option (WireValues p) :=
  l.foldlM (fun v kv => v.setBoolean kv.1 kv.2) new

/-- `binary_unsigned_values!` (src/wire_values.rs:109-120). -/
def ofBinaryUnsignedValues (l : List (BinaryWire × ℕ)) : Option (WireValues p) :=
  l.foldlM (fun v kv => v.setBinaryUnsigned kv.1 kv.2) new

end R1CS.WireValues
