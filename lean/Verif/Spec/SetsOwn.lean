import Verif.Spec.Language

/-!
# Specification vocabulary: gadgets which give values to their own wires
-/

namespace R1CS

variable {p : ℕ} [hp : Fact p.Prime] {α : Type}

omit hp in
/-- Every wire which the code adds is set by one of the generators which it adds, whenever that generator
returns. -/
def SetsOwn (m : B p α) : Prop :=
  ∀ b a b', m b = some (a, b') → ∃ gs, b'.witnessGenerators = b.witnessGenerators ++ gs ∧
    ∀ i, b.nextWireIndex ≤ i → i < b'.nextWireIndex →
      ∃ g ∈ gs, ∀ v v', g.generate v = some v' → (v' i).isSome

/-- For the gadgets with a parameter: the implementation given sets its own wires. -/
def SetsOwn.Given : Op p → Prop
  | .function _ m _ _ _ _ => ∀ xs, SetsOwn (m xs)
  | .schnorrVerify _ _ h | .merkleRoot h | .assertMembership h =>
      ∀ x y, SetsOwn (h.code.compress x y)
  | _ => True

end R1CS
