import Verif.Spec.Language
import Mathlib.Data.Nat.Digits.Defs

/-!
# Specification vocabulary: what is read from the objects after an execution

A client of the crate calls `evaluate` on the expressions it kept (README.md:57-58), which panics if a wire has no
value, or if a boolean expression is neither 0 nor 1.
-/

namespace R1CS

variable {p : ℕ} [hp : Fact p.Prime]

/-- `evaluate` (of the object, and of each digit) returns the value. -/
def ReadsAs (v : WireValues p) : Obj p → Val p → Prop
  | .expr e, .elem x => e.evaluate v = some x
  | .bool e, .bool b => e.evaluate v = some b
  | .bin e, .bits l => e.evaluate v = some (Nat.ofDigits 2 (l.map Bool.toNat)) ∧
      (e.bits.map fun b => b.evaluate v) = l.map some
  | _, _ => False

/-- The object respects its type: boolean expressions and all digits of binary expressions are 0 or 1. -/
def Obj.WellTyped (W : Assign p) : Obj p → Prop
  | .expr _ => True
  | .bool e => e.eval W = 0 ∨ e.eval W = 1
  | .bin e => ∀ b ∈ e.bits, b.eval W = 0 ∨ b.eval W = 1

end R1CS
