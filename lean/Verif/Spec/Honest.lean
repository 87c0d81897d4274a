import Verif.Spec.Basic

/-!
# Specification vocabulary: honest executions

`Execute`-level correctness ("computed") is about circuits whose witness generators are
well behaved.  This file says what that means, without reference to the scheduling done by
`Gadget::execute`.
-/

namespace R1CS

variable {p : ℕ} [hp : Fact p.Prime]

/-- An expression only mentions wires with an index below `n`. -/
def Expression.Scoped (n : ℕ) (e : Expression p) : Prop := ∀ i ∈ e.dependencies, i < n

/-- A boolean expression only mentions wires with an index below `n`. -/
def BooleanExpression.Scoped (n : ℕ) (e : BooleanExpression p) : Prop := e.expression.Scoped n

/-- A binary expression only mentions wires with an index below `n`. -/
def BinaryExpression.Scoped (n : ℕ) (e : BinaryExpression p) : Prop := ∀ b ∈ e.bits, b.Scoped n

/-- A generator computes the wires `outs` of the witness `W` from its declared inputs: whenever
the inputs carry the values of `W` and the outputs are unset, the closure does not panic, sets the
outputs to the values of `W` and touches nothing else. -/
def GenOK (g : WitnessGenerator p) (outs : List Wire) (W : Assign p) : Prop :=
  ∀ v : WireValues p, (∀ i ∈ g.inputs, v i = some (W i)) → (∀ o ∈ outs, v o = none) →
    g.generate v = some (fun i => if i ∈ outs then some (W i) else v i)

/-- A builder state together with the witness `W` which honest execution is meant to produce when
the wires `D` are supplied from outside: every constraint holds, every other wire is an output of
exactly one generator, and generators only look at wires allocated before their outputs. -/
structure Honest (b : Builder p) (D : List Wire) (W : Assign p) : Prop where
  one : W ONE = 1
  pos : 1 ≤ b.nextWireIndex
  constraints : ∀ c ∈ b.constraints, c.Holds W ∧
    c.a.Scoped b.nextWireIndex ∧ c.b.Scoped b.nextWireIndex ∧ c.c.Scoped b.nextWireIndex
  generators : ∃ A : List (WitnessGenerator p × List Wire),
    A.map (·.1) = b.witnessGenerators ∧
    (∀ e ∈ A, GenOK e.1 e.2 W ∧ ∀ i ∈ e.1.inputs, i < b.nextWireIndex ∧ ∀ o ∈ e.2, i < o) ∧
    List.Perm ((A.map (·.2)).flatten ++ D) (List.range' 1 (b.nextWireIndex - 1))

/-- A builder state with its honest witness. -/
structure Hon (p : ℕ) [Fact p.Prime] where
  b : Builder p
  D : List Wire
  W : Assign p
  ok : Honest b D W

namespace Hon

/-- The number of wires allocated so far (including `ONE`). -/
abbrev next (s : Hon p) : ℕ := s.b.nextWireIndex

/-- The later state has at least the wires of the earlier one, with the same honest values. -/
def Le (s s' : Hon p) : Prop := s.next ≤ s'.next ∧ ∀ i < s.next, s'.W i = s.W i

/-- The values handed to `execute`: the constant wire and the wires in `D`, nothing else. -/
def Inputs (s : Hon p) (v : WireValues p) : Prop :=
  v ONE = some 1 ∧ (∀ i ∈ s.D, v i = some (s.W i)) ∧
    ∀ i < s.next, i ≠ ONE → i ∉ s.D → v i = none

/-- Executing the gadget on its inputs terminates without panic, accepts, and every wire gets
its honest value. -/
def Executes (s : Hon p) : Prop :=
  ∀ v, s.Inputs v → ∃ v', s.b.build.execute v = some (v', true) ∧
    (∀ i < s.next, v' i = some (s.W i)) ∧ ∀ i, s.next ≤ i → v' i = v i

end Hon

/-- Running the builder method `m` in the honest state `s` succeeds and leads to an honest state
extending `s`. -/
def Comp {α : Type} (m : B p α) (s : Hon p) (Q : α → Hon p → Prop) : Prop :=
  ∃ a s', m s.b = some (a, s'.b) ∧ s.Le s' ∧ Q a s'

/-- The form of all completeness ("computed") properties.  Running `m` in the honest state `s`
succeeds; the resulting gadget, executed on the same inputs as before, accepts and keeps the values
of all earlier wires; and the result of `m` satisfies `Q` with respect to the final values. -/
def Computes {α : Type} (m : B p α) (s : Hon p) (Q : α → Hon p → Prop) : Prop :=
  Comp m s fun a s' => s'.D = s.D ∧ s'.Executes ∧ Q a s'

/-- Running `m` in the honest state `s` succeeds, and executing the resulting gadget on the inputs
of `s` terminates without panic and returns `false`. -/
def Rejects {α : Type} (m : B p α) (s : Hon p) : Prop :=
  ∃ a b', m s.b = some (a, b') ∧ s.next ≤ b'.nextWireIndex ∧
    ∀ v : WireValues p, v ONE = some 1 → (∀ i ∈ s.D, v i = some (s.W i)) →
      (∀ i < b'.nextWireIndex, i ≠ ONE → i ∉ s.D → v i = none) →
      ∃ v', b'.build.execute v = some (v', false)

/-- The form of all soundness ("enforced") properties.  Whenever running `m` succeeds, in any
builder state, every witness satisfying the constraints afterwards satisfies those before and
relates the result as `Q` says. -/
def Enforces {α : Type} (m : B p α) (Q : α → Assign p → Prop) : Prop :=
  ∀ b a b', m b = some (a, b') →
    ∀ w, Satisfies w b'.constraints → Satisfies w b.constraints ∧ Q a w

end R1CS
