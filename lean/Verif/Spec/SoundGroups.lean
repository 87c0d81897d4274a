import Verif.Spec.Curves

/-!
# What it means for group gadgets to be constrained to the operations of a group

`ComputesGroup` is about honest executions; here all satisfying assignments are considered.  The
group of an Edwards curve in the repository does not fulfil this (C66), because `quotient_unsafe`
adds no constraint; `checkedOps` is the group one obtains by calling `quotient` instead.
-/

namespace R1CS

variable {p : ℕ} [hp : Fact p.Prime]

/-- Every satisfying assignment gives the results of the gadgets of `G` the coordinates of the
result of the operation in `M`. -/
structure EnforcesGroup {GE GX : Type} (G : GroupOps p GE GX) (M : Type) [AddCommGroup M]
    (coords : M → List (Elem p)) : Prop where
  length : ∀ P Q, (coords P).length = (coords Q).length
  identity : ∀ e, G.identityExpression = some e → ∀ w : Assign p, w ONE = 1 →
    values w (G.toComponents e) = coords 0
  rebuild : ∀ P xs x, xs.length = (coords P).length → G.ofComponents xs = some x →
    G.toComponents x = xs
  add : ∀ x y, Enforces (G.addExpressions x y) fun z w => ∀ P Q,
    values w (G.toComponents x) = coords P → values w (G.toComponents y) = coords Q →
    values w (G.toComponents z) = coords (P + Q)
  double : ∀ x, Enforces (G.doubleExpression x) fun z w => ∀ P,
    values w (G.toComponents x) = coords P → values w (G.toComponents z) = coords (P + P)

/-- The field itself as a group of expressions, an implementation of `Group` a client may write
(none is in the repository): adding and doubling need no constraints. -/
def fieldOps (p : ℕ) [Fact p.Prime] : GroupOps p (Elem p) (Expression p) where
  identityElement := some 0
  addExpressions x y := pure (x + y)
  doubleExpression x := pure (x + x)
  ofElement := Expression.ofElem
  evaluate x v := x.evaluate v
  compressed x := x
  toComponents x := [x]
  ofComponents xs := xs.head?

namespace EdwardsGroup

/-- `add_expressions` (src/curves/edwards.rs:33-54) with `quotient` in the place of
`quotient_unsafe`; not in the repository. -/
def checkedAdd (C : EdwardsCurve p) (lhs rhs : EdwardsExpression p) :
    B p (EdwardsExpression p) := do
  let x1y2 ← B.product lhs.x rhs.y
  let x2y1 ← B.product lhs.y rhs.x
  let x1x2 ← B.product lhs.x rhs.x
  let x1x2y1y2 ← B.product x1y2 x2y1
  let y1y2 ← B.product lhs.y rhs.y
  let x3 ← B.quotient (x1y2 + x2y1) (x1x2y1y2.mulElem C.d + 1)
  let y3 ← B.quotient (y1y2 - x1x2.mulElem C.a) (x1x2y1y2.mulElem (-C.d) + 1)
  return ⟨x3, y3⟩

/-- The group of a curve (src/curves/edwards.rs:20-80) with `quotient` in the place of
`quotient_unsafe`, and doubling by the default of the trait (src/group.rs:40-45), which adds; not in
the repository. -/
def checkedOps (C : EdwardsCurve p) : GroupOps p (EdwardsPoint p) (EdwardsExpression p) where
  identityElement := EdwardsPoint.new C 0 1
  addExpressions := checkedAdd C
  doubleExpression x := checkedAdd C x x
  ofElement := EdwardsExpression.ofPoint
  evaluate := EdwardsExpression.evaluate
  compressed := EdwardsExpression.y
  toComponents := EdwardsExpression.toComponents
  ofComponents := EdwardsExpression.ofComponents

end EdwardsGroup

end R1CS
