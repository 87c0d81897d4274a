import Verif.Spec.Honest

/-!
# Specification vocabulary: extending satisfying assignments

`Enforces` says what every satisfying assignment must fulfil.  The converse question, which
assignments can be extended to the wires and constraints added by a builder method, is about pairs
of a builder and a satisfying assignment; witness generators play no role.
-/

namespace R1CS

variable {p : ℕ} [hp : Fact p.Prime]

/-- A builder with an assignment satisfying its constraints, which mention only allocated wires. -/
structure Wit (p : ℕ) [Fact p.Prime] where
  b : Builder p
  W : Assign p
  next_pos : 1 ≤ b.nextWireIndex
  sat : Satisfies W b.constraints
  inScope : ∀ c ∈ b.constraints, c.a.Scoped b.nextWireIndex ∧ c.b.Scoped b.nextWireIndex ∧
    c.c.Scoped b.nextWireIndex

namespace Wit

/-- The number of wires allocated so far (including `ONE`). -/
abbrev next (s : Wit p) : ℕ := s.b.nextWireIndex

/-- The later assignment extends the earlier one. -/
def Le (s s' : Wit p) : Prop := s.next ≤ s'.next ∧ ∀ i < s.next, s'.W i = s.W i

end Wit

/-- Running `m` succeeds, and the assignment can be extended to one which satisfies all constraints
and makes the result satisfy `Q`. -/
def Can {α : Type} (m : B p α) (s : Wit p) (Q : α → Wit p → Prop) : Prop :=
  ∃ a s', m s.b = some (a, s'.b) ∧ s.Le s' ∧ Q a s'

end R1CS
