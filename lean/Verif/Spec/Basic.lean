import Verif.Model.Builder
import Verif.Lemmas.Field

/-!
# Specification vocabulary

What a rank-1 constraint system *means*, independently of the way the library evaluates it:
total assignments, values of linear combinations, satisfaction.
-/

namespace R1CS

variable {p : ℕ} [hp : Fact p.Prime]

/-- A full witness: a value for every wire. -/
abbrev Assign (p : ℕ) := Wire → Elem p

/-- The value of a linear combination. -/
def Expression.eval (w : Assign p) (e : Expression p) : Elem p :=
  (e.coefficients.map fun kv => w kv.1 * kv.2).sum

/-- The value of a boolean expression, as a field element. -/
def BooleanExpression.eval (w : Assign p) (e : BooleanExpression p) : Elem p :=
  e.expression.eval w

/-- A field element is a truth value. -/
def IsBool (x : Elem p) : Prop := x = 0 ∨ x = 1

/-- All digits of a binary expression are truth values. -/
def BinaryExpression.AllBool (w : Assign p) (e : BinaryExpression p) : Prop :=
  ∀ b ∈ e.bits, IsBool (b.eval w)

/-- The integer with the given little-endian digits. -/
def digitsVal : List ℕ → ℕ
  | [] => 0
  | d :: ds => d + 2 * digitsVal ds

/-- The digits of a binary expression as natural numbers. -/
def BinaryExpression.digits (w : Assign p) (e : BinaryExpression p) : List ℕ :=
  e.bits.map fun b => (b.eval w).n

/-- The integer denoted by a binary expression (least significant bit first). -/
def BinaryExpression.val (w : Assign p) (e : BinaryExpression p) : ℕ := digitsVal (e.digits w)

/-- A constraint `a * b = c` holds. -/
def Constraint.Holds (w : Assign p) (k : Constraint p) : Prop :=
  k.a.eval w * k.b.eval w = k.c.eval w

/-- A witness satisfies a constraint system: the constant wire is 1 and every constraint holds. -/
structure Satisfies (w : Assign p) (cs : List (Constraint p)) : Prop where
  one : w ONE = 1
  all : ∀ c ∈ cs, c.Holds w

end R1CS
