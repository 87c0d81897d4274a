import Verif.Spec.Tidy

/-!
# Specification vocabulary: parts of a circuit which do not use one another
-/

namespace R1CS

variable {p : ℕ} [hp : Fact p.Prime]

/-- The gadget with the constraints and the generators of both, the first ones first. -/
def Gadget.join (g g' : Gadget p) : Gadget p :=
  ⟨g.constraints ++ g'.constraints, g.witnessGenerators ++ g'.witnessGenerators⟩

/-- A generator which gives values only to wires of `R`, and whose behaviour depends only on its
declared inputs and on wires of `R`. -/
structure Minds (R : Wire → Prop) (g : WitnessGenerator p) : Prop where
  writes : ∀ u u', g.generate u = some u' → ∀ i, ¬ R i → u' i = u i
  reads : ∀ u1 u2 u1', (∀ i ∈ g.inputs, u2 i = u1 i) → (∀ i, R i → u2 i = u1 i) →
    g.generate u1 = some u1' → ∃ u2', g.generate u2 = some u2' ∧ ∀ i, R i → u2' i = u1' i

/-- A gadget which works on the wires `R` and stays away from the wires `S`: its generators mind `R`,
and neither they nor the constraints name wires of `S`. -/
structure Gadget.Apart (R S : Wire → Prop) (g : Gadget p) : Prop where
  minds : ∀ k ∈ g.witnessGenerators, Minds R k
  awaits : ∀ k ∈ g.witnessGenerators, ∀ i ∈ k.inputs, ¬ S i
  checks : ∀ c ∈ g.constraints, ∀ e ∈ [c.a, c.b, c.c], ∀ i ∈ e.dependencies, ¬ S i

/-- The values `v` are `v1` outside of `S` and `v2` outside of `R`. -/
def Joins (R S : Wire → Prop) (v v1 v2 : WireValues p) : Prop :=
  (∀ i, ¬ S i → v i = v1 i) ∧ ∀ i, ¬ R i → v i = v2 i

end R1CS
