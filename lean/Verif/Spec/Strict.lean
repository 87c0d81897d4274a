import Verif.Spec.Programs

/-!
# Specification vocabulary: generators which calculate the same wires in every execution
-/

namespace R1CS

variable {p : ℕ} [hp : Fact p.Prime]

/-- A generator which, whenever it returns, found no value on any of the wires `outs`, gave a value to
each of them, and left every other wire as it was. -/
def Exact (g : WitnessGenerator p) (outs : List Wire) : Prop :=
  ∀ v v', g.generate v = some v' →
    (∀ o ∈ outs, v o = none ∧ (v' o).isSome) ∧ ∀ i ∉ outs, v' i = v i

/-- A call whose generators are all like that. -/
def Strict {α : Type} (m : B p α) : Prop :=
  ∀ b a b', m b = some (a, b') → ∃ gs, b'.witnessGenerators = b.witnessGenerators ++ gs ∧
    ∀ g ∈ gs, ∃ outs, Exact g outs

/-- A generator which, whenever it returns, found no value on the wire `o`, and gave it one. -/
def Sets (g : WitnessGenerator p) (o : Wire) : Prop :=
  ∀ v v', g.generate v = some v' → v o = none ∧ (v' o).isSome

/-- A generator which never changes anything. -/
def Idle (g : WitnessGenerator p) : Prop := ∀ v v', g.generate v = some v' → v' = v

/-- A call after which either nothing is generated, or some generator insists on a wire without a
value. -/
def Once {α : Type} (m : B p α) : Prop :=
  ∀ b a b', m b = some (a, b') → ∃ gs, b'.witnessGenerators = b.witnessGenerators ++ gs ∧
    ((∀ g ∈ gs, Idle g) ∨ ∃ g ∈ gs, ∃ o, Sets g o)

end R1CS
