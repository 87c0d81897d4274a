import Verif.Spec.Programs

/-!
# Specification vocabulary: gadgets which mind their own wires
-/

namespace R1CS

variable {p : ℕ} [hp : Fact p.Prime]

/-- A generator which minds the wires from `lo` up to `hi`: it gives values only to wires among
these, and only to wires without a value; and what it does (whether it panics, and which values it
sets) depends only on the values of its declared inputs and of these wires. -/
structure Confined (lo hi : ℕ) (g : WitnessGenerator p) : Prop where
  writes : ∀ u u', g.generate u = some u' → ∀ i, u' i ≠ u i → u i = none ∧ lo ≤ i ∧ i < hi
  reads : ∀ u1 u2 u1', (∀ i ∈ g.inputs, u2 i = u1 i) → (∀ i, lo ≤ i → i < hi → u2 i = u1 i) →
    g.generate u1 = some u1' →
    ∃ u2', g.generate u2 = some u2' ∧ ∀ i, lo ≤ i → i < hi → u2' i = u1' i

/-- A method of the builder which is a program, and whose generators mind the wires which the call
itself allocates. -/
def Tidy {α : Type} (m : B p α) : Prop :=
  Prog m ∧ ∀ b a b', m b = some (a, b') →
    ∀ g ∈ b'.witnessGenerators.drop b.witnessGenerators.length,
      Confined b.nextWireIndex b'.nextWireIndex g

/-- What the call `m`, made when `n` wires are allocated, achieves in every circuit of tidy parts:
take any tidy program `pre` on a new builder, then `m`, then any tidy program `k`, and execute the
gadget on any values which leave out the wires allocated by `m`.  Whenever the execution returns,
whether it accepts or not, the final values satisfy `Q`.  (`Q` is given 0 for a wire which has no
value in the end.) -/
def Locally {α : Type} (n : ℕ) (m : B p α) (Q : α → Assign p → Prop) : Prop :=
  ∀ (γ δ : Type) (pre : B p γ) (k : γ → α → B p δ) (c : γ) (a : α) (z : δ)
    (b b1 b2 : Builder p), Tidy pre → (∀ c a, Tidy (k c a)) →
    pre Builder.new = some (c, b) → b.nextWireIndex = n → m b = some (a, b1) →
    k c a b1 = some (z, b2) →
    ∀ (v v' : WireValues p) (ok : Bool), v ONE = some 1 →
      (∀ i, n ≤ i → i < b1.nextWireIndex → v i = none) →
      b2.build.execute v = some (v', ok) → Q a fun i => (v' i).getD 0

end R1CS
