import Verif.Spec.Honest

/-!
# Specification vocabulary: the number of constraints
-/

namespace R1CS

variable {p : ℕ} [hp : Fact p.Prime] {α : Type}

/-- Started on the builder `b`, the gadget `m` returns and adds exactly `k` constraints. -/
def AddsExactly (m : B p α) (b : Builder p) (k : ℕ) : Prop :=
  ∃ a b', m b = some (a, b') ∧ b'.constraints.length = b.constraints.length + k

/-- If the gadget `m`, started on the builder `b`, returns, it has added exactly `k` constraints. -/
def CostsExactly (m : B p α) (b : Builder p) (k : ℕ) : Prop :=
  ∀ a b', m b = some (a, b') → b'.constraints.length = b.constraints.length + k

/-- Whenever `m` returns, it has added at most `k` constraints. -/
def AddsAtMost (m : B p α) (k : ℕ) : Prop :=
  ∀ b a b', m b = some (a, b') → b'.constraints.length ≤ b.constraints.length + k

/-- The value of an expression is not the same in all witnesses. -/
def Expression.Varies (e : Expression p) : Prop :=
  ∃ w w' : Assign p, w ONE = 1 ∧ w' ONE = 1 ∧ e.eval w ≠ e.eval w'

end R1CS
