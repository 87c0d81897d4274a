import Verif.Spec.Language
import Verif.Spec.Parallel
import Verif.Spec.Programs

/-!
# Specification vocabulary: generators which have wires of their own
-/

namespace R1CS

variable {p : ℕ} [hp : Fact p.Prime] {α : Type}

/-- The generators which the code adds have wires apiece, among those which the code adds: each sets only its own
wires, keeps all values, and does what its inputs and its own wires say; no wire belongs to two of them. -/
def Apiece (m : B p α) : Prop :=
  ∀ b a b', m b = some (a, b') → b.nextWireIndex ≤ b'.nextWireIndex ∧
    ∃ A : List (WitnessGenerator p × List Wire),
      b'.witnessGenerators = b.witnessGenerators ++ A.map Prod.fst ∧ (A.flatMap Prod.snd).Nodup ∧
      (∀ i ∈ A.flatMap Prod.snd, b.nextWireIndex ≤ i ∧ i < b'.nextWireIndex) ∧
      ∀ e ∈ A, Minds (· ∈ e.2) e.1 ∧ KeepsValues e.1.generate

/-- For the gadgets with a parameter: so do those of the implementation given. -/
def Apiece.Given : Op p → Prop
  | .function _ m _ _ _ _ => ∀ xs, Apiece (m xs)
  | .schnorrVerify _ _ h | .merkleRoot h | .assertMembership h =>
      ∀ x y, Apiece (h.code.compress x y)
  | _ => True

end R1CS
