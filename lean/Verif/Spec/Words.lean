import Verif.Model.Words
import Verif.Spec.Programs

/-!
# Specification vocabulary: the same program with the 32-bit counter of wires
-/

namespace R1CS

variable {p : ℕ} [hp : Fact p.Prime]

/-- The second program is the first one, except that wires come from a builder whose counter is a `u32`
(src/gadget_builder.rs:13, 31-35), compiled with or without overflow checks. -/
inductive Same32 (checks : Bool) : {α : Type} → B p α → B p α → Prop
  | pure {α : Type} (a : α) : Same32 checks (Pure.pure a : B p α) (Pure.pure a)
  | bind {α β : Type} {m m' : B p α} {f f' : α → B p β} (hm : Same32 checks m m')
      (hf : ∀ a, Same32 checks (f a) (f' a)) : Same32 checks (m >>= f) (m' >>= f')
  | wire : Same32 checks B.wire (Machine.wire checks)
  | assertProduct (x y z : Expression p) :
      Same32 checks (B.assertProduct x y z) (B.assertProduct x y z)
  | generator (d : List Wire) (f : WireValues p → Option (WireValues p)) (hf : KeepsValues f) :
      Same32 checks (B.generator d f) (B.generator d f)
  | panic {α : Type} : Same32 checks (B.panic : B p α) B.panic

end R1CS
