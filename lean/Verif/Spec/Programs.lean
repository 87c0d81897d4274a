import Verif.Spec.Honest
import Verif.Spec.Schedule

/-!
# Specification vocabulary: programs using a builder

Client code, and every gadget of the library, changes a builder only through `wire`,
`assert_product` and `generator` (the only methods of src/gadget_builder.rs that assign to the
fields of `GadgetBuilder`), and generator closures change wire values only through
`WireValues::set`.
-/

namespace R1CS

variable {p : ℕ} [hp : Fact p.Prime]

/-- A closure that only uses the `WireValues` interface: existing values are never changed
(`set` panics instead, see `C14_write_once`). -/
def KeepsValues (f : WireValues p → Option (WireValues p)) : Prop :=
  ∀ v v', f v = some v' → ∀ i x, v i = some x → v' i = some x

/-- Arbitrary programs over a builder. -/
inductive Prog : {α : Type} → B p α → Prop
  | pure {α : Type} (a : α) : Prog (Pure.pure a : B p α)
  | bind {α β : Type} {m : B p α} {f : α → B p β} (hm : Prog m) (hf : ∀ a, Prog (f a)) :
      Prog (m >>= f)
  | wire : Prog B.wire
  | assertProduct (x y z : Expression p) : Prog (B.assertProduct x y z)
  | generator (d : List Wire) (f : WireValues p → Option (WireValues p)) (hf : KeepsValues f) :
      Prog (B.generator d f)
  | panic {α : Type} : Prog (B.panic : B p α)

end R1CS
