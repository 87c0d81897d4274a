import Verif.Spec.Gadgets
import Verif.Spec.Edwards
import Verif.Model.Curves
import Mathlib.Algebra.Group.Defs

/-!
# What it means for group gadgets to compute in a group
-/

namespace R1CS

variable {p : ℕ} [hp : Fact p.Prime]

/-- In the state `s` the group expression `x` only uses existing wires, and its components have the
given values. -/
def GroupOps.At {GE GX : Type} (G : GroupOps p GE GX) (s : Hon p) (x : GX) (cs : List (Elem p)) :
    Prop :=
  ListScoped s.next (G.toComponents x) ∧ values s.W (G.toComponents x) = cs

/-- The gadgets of `G` compute, in honest executions, the operations of the group `M`, whose elements
have coordinates `coords` and are stored as `element`. -/
structure ComputesGroup {GE GX : Type} (G : GroupOps p GE GX) (M : Type) [AddCommGroup M]
    (coords : M → List (Elem p)) (element : M → GE) : Prop where
  length : ∀ P Q, (coords P).length = (coords Q).length
  identity : G.identityElement = some (element 0)
  components : ∀ P, G.toComponents (G.ofElement (element P)) = (coords P).map Expression.ofElem
  rebuild : ∀ P xs, xs.length = (coords P).length →
    ∃ x, G.ofComponents xs = some x ∧ G.toComponents x = xs
  evaluate : ∀ (v : WireValues p) (W : Assign p) x P,
    (∀ c ∈ G.toComponents x, ∀ i ∈ c.dependencies, v i = some (W i)) →
    values W (G.toComponents x) = coords P → G.evaluate x v = some (element P)
  add : ∀ (s : Hon p) x y P Q, G.At s x (coords P) → G.At s y (coords Q) →
    Computes (G.addExpressions x y) s fun z s' => G.At s' z (coords (P + Q))
  double : ∀ (s : Hon p) x P, G.At s x (coords P) →
    Computes (G.doubleExpression x) s fun z s' => G.At s' z (coords (P + P))

/-- The stored form of a point. -/
def Edwards.Point.toModel {a d : Elem p} (P : Edwards.Point a d) : EdwardsPoint p := ⟨P.x, P.y⟩

/-- The coordinates of a point. -/
def Edwards.Point.coords {a d : Elem p} (P : Edwards.Point a d) : List (Elem p) := [P.x, P.y]

end R1CS
