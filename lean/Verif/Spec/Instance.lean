import Verif.Spec.Basic
import Mathlib.Data.Matrix.Mul
import Mathlib.Data.ZMod.Basic

/-!
# Specification vocabulary: rank-1 constraint systems as matrices (README.md:5-7)

The definition with which the documentation of the crate begins: three matrices `A`, `B`, `C` over a field, and
the question whether there is a vector `w` with `Aw ∘ Bw = Cw`.  The field is the one of Mathlib.
-/

namespace R1CS

variable {p : ℕ} [hp : Fact p.Prime]

/-- `w` solves the instance given by the matrices: `Aw ∘ Bw = Cw`. -/
def Solves {F : Type} [CommSemiring F] {m n : ℕ} (A B C : Matrix (Fin m) (Fin n) F) (w : Fin n → F) : Prop :=
  A.mulVec w * B.mulVec w = C.mulVec w

/-- The coefficient of a wire: what is stored for it, or 0.  (Stored coefficients of a wire would be added, but
there is at most one.) -/
def Expression.coefficient (e : Expression p) (i : Wire) : Elem p :=
  ((e.coefficients.filter fun kv => kv.1 = i).map fun kv => kv.2).sum

/-- The matrix of the coefficients of one of the three sides of the constraints, as numbers modulo the order;
one row for each constraint, one column for each wire. -/
def Gadget.matrix (g : Gadget p) (n : ℕ) (side : Constraint p → Expression p) :
    Matrix (Fin g.constraints.length) (Fin n) (ZMod p) :=
  Matrix.of fun i j => ((side g.constraints[i]).coefficient j : Elem p).n

/-- The vector of the values of the first `n` wires, as numbers modulo the order. -/
def Assign.vector (W : Assign p) (n : ℕ) : Fin n → ZMod p := fun j => (W j).n

/-- The constraints mention the first `n` wires only. -/
def Gadget.Within (g : Gadget p) (n : ℕ) : Prop :=
  ∀ c ∈ g.constraints, ∀ e, e = c.a ∨ e = c.b ∨ e = c.c → ∀ i ∈ e.dependencies, i < n

/-- Code of a client of the crate for an instance given by matrices: wires for all columns but the first,
which stands for the constant, and `assert_product` for each row. -/
def assertInstance {m n : ℕ} (A B C : Fin m → Fin (n + 1) → Elem p) : R1CS.B p Unit := do
  let ws ← R1CS.B.wires n
  let row (r : Fin (n + 1) → Elem p) : Expression p :=
    Expression.new (ws.zip (List.ofFn fun j => r j.succ) ++ [(ONE, r 0)])
  (List.finRange m).forM fun i => R1CS.B.assertProduct (row (A i)) (row (B i)) (row (C i))

end R1CS
