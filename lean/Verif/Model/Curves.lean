import Verif.Model.Comparisons
import Verif.Model.Traits

/-!
# Model of `src/group.rs`, `src/curves/edwards.rs` and `src/signature.rs`

The trait `Group` is a structure of its required methods, of the conversions it demands of
`GroupExpression`, and of `double_expression`, which has a default that implementations override.
The other provided methods are functions of the structure.
-/

namespace R1CS

variable {p : ℕ} [hp : Fact p.Prime]

/-- Traits `Group` (src/group.rs:7-106) and `GroupExpression` (src/group.rs:168-172).
`ofElement` is `From<&GroupElement>`, `evaluate` is `Evaluable`; `ofComponents` is
`from_components_unsafe`, which panics if components are missing. -/
structure GroupOps (p : ℕ) (GE GX : Type) where
  identityElement : Option GE
  addExpressions : GX → GX → B p GX
  doubleExpression : GX → B p GX
  ofElement : GE → GX
  evaluate : GX → WireValues p → Option GE
  compressed : GX → Expression p
  toComponents : GX → List (Expression p)
  ofComponents : List (Expression p) → Option GX

namespace GroupOps

variable {GE GX : Type}

/-- `identity_expression` (src/group.rs:16-18). -/
def identityExpression (G : GroupOps p GE GX) : Option GX := G.identityElement.map G.ofElement

/-- `add_elements` (src/group.rs:26-38); the result of `execute` is ignored. -/
def addElements (G : GroupOps p GE GX) (lhs rhs : GE) : Option GE :=
  evaluateGadget (G.addExpressions (G.ofElement lhs) (G.ofElement rhs)) G.evaluate

/-- `double_element` (src/group.rs:47-49): an addition, even where doubling is overridden. -/
def doubleElement (G : GroupOps p GE GX) (element : GE) : Option GE := G.addElements element element

/-- The loop of `mul_boolean_expression` (src/group.rs:100-102) over the coordinates and the
identity's components; `ic[i]` panics if there are too few. -/
def selectAll (boolean : BooleanExpression p) :
    List (Expression p) → List (Expression p) → B p (List (Expression p))
  | [], _ => pure []
  | _ :: _, [] => B.panic
  | x :: xs, i :: ic => do
    let r ← B.selection boolean x i
    let rs ← selectAll boolean xs ic
    return r :: rs

/-- `mul_boolean_expression` (src/group.rs:90-105). -/
def mulBooleanExpression (G : GroupOps p GE GX) (expression : GX) (boolean : BooleanExpression p) :
    B p GX := do
  let identity ← B.ofOption G.identityExpression
  let r ← selectAll boolean (G.toComponents expression) (G.toComponents identity)
  B.ofOption (G.ofComponents r)

/-- The loop of `mul_scalar_expression` (src/group.rs:63-67). -/
def mulLoop (G : GroupOps p GE GX) : List (BooleanExpression p) → GX → GX → B p GX
  | [], sum, _ => pure sum
  | bit :: bits, sum, current => do
    let product ← G.mulBooleanExpression current bit
    let sum ← G.addExpressions sum product
    let current ← G.doubleExpression current
    mulLoop G bits sum current

/-- `mul_scalar_expression` (src/group.rs:54-69). -/
def mulScalarExpression (G : GroupOps p GE GX) (expression : GX) (scalar : Expression p) :
    B p GX := do
  let scalarBinary ← B.splitAllowingAmbiguity scalar
  let identity ← B.ofOption G.identityExpression
  G.mulLoop scalarBinary.bits identity expression

/-- `mul_scalar_element` (src/group.rs:73-86). -/
def mulScalarElement (G : GroupOps p GE GX) (element : GE) (scalar : Elem p) : Option GE :=
  evaluateGadget (G.mulScalarExpression (G.ofElement element) (Expression.ofElem scalar)) G.evaluate

end GroupOps

/-- Trait `CyclicGroup` (src/group.rs:110-116). -/
structure CyclicGroupOps (p : ℕ) (GE GX : Type) extends GroupOps p GE GX where
  generatorElement : Option GE

/-- `generator_expression` (src/group.rs:113-115). -/
def CyclicGroupOps.generatorExpression {GE GX : Type} (C : CyclicGroupOps p GE GX) : Option GX :=
  C.generatorElement.map C.ofElement

/-- `CyclicSubgroup` (src/group.rs:126-165): everything is delegated to the group, the generator to
the implementation of `CyclicGenerator`. -/
def cyclicSubgroup {GE GX : Type} (G : GroupOps p GE GX) (generator : Option GE) :
    CyclicGroupOps p GE GX := { G with generatorElement := generator }

/-- Trait `EdwardsCurve` (src/curves/edwards.rs:9-12). -/
structure EdwardsCurve (p : ℕ) where
  a : Elem p
  d : Elem p

/-- `EdwardsPoint` (src/curves/edwards.rs:84-88). -/
structure EdwardsPoint (p : ℕ) where
  x : Elem p
  y : Elem p
  deriving DecidableEq

/-- `EdwardsExpression` (src/curves/edwards.rs:122-126). -/
structure EdwardsExpression (p : ℕ) where
  x : Expression p
  y : Expression p

namespace EdwardsPoint

/-- `EdwardsPoint::new` (src/curves/edwards.rs:111-115): panics off the curve. -/
def new (C : EdwardsCurve p) (x y : Elem p) : Option (EdwardsPoint p) :=
  if C.a * x * x + y * y = 1 + C.d * x * x * y * y then some ⟨x, y⟩ else none

omit hp in
/-- `compressed_element` (src/curves/edwards.rs:117-119). -/
def compressedElement (P : EdwardsPoint p) : Elem p := P.y

end EdwardsPoint

namespace EdwardsExpression

/-- `EdwardsExpression::new` (src/curves/edwards.rs:133-144). -/
def new (C : EdwardsCurve p) (x y : Expression p) : B p (EdwardsExpression p) := do
  let xSquared ← B.product x x
  let ySquared ← B.product y y
  let xSquaredYSquared ← B.product xSquared ySquared
  B.assertEqual (xSquared.mulElem C.a + ySquared) (xSquaredYSquared.mulElem C.d + 1)
  return ⟨x, y⟩

/-- `From<&EdwardsPoint>` (src/curves/edwards.rs:167-175). -/
def ofPoint (P : EdwardsPoint p) : EdwardsExpression p :=
  ⟨Expression.ofElem P.x, Expression.ofElem P.y⟩

/-- `From<(Element, Element)>` (src/curves/edwards.rs:177-182). -/
def ofCoordinates (C : EdwardsCurve p) (x y : Elem p) : Option (EdwardsExpression p) :=
  (EdwardsPoint.new C x y).map ofPoint

/-- `evaluate` (src/curves/edwards.rs:184-195): the point is not checked to be on the curve. -/
def evaluate (e : EdwardsExpression p) (v : WireValues p) : Option (EdwardsPoint p) := do
  let x ← e.x.evaluate v
  let y ← e.y.evaluate v
  return ⟨x, y⟩

omit hp in
/-- `to_components` (src/curves/edwards.rs:156). -/
def toComponents (e : EdwardsExpression p) : List (Expression p) := [e.x, e.y]

omit hp in
/-- `from_components_unsafe` (src/curves/edwards.rs:160-164): `remove(0)` twice, further components
are dropped. -/
def ofComponents : List (Expression p) → Option (EdwardsExpression p)
  | x :: y :: _ => some ⟨x, y⟩
  | _ => none

end EdwardsExpression

namespace EdwardsGroup

/-- `add_expressions` (src/curves/edwards.rs:33-54). -/
def addExpressions (C : EdwardsCurve p) (lhs rhs : EdwardsExpression p) :
    B p (EdwardsExpression p) := do
  let x1y2 ← B.product lhs.x rhs.y
  let x2y1 ← B.product lhs.y rhs.x
  let x1x2 ← B.product lhs.x rhs.x
  let x1x2y1y2 ← B.product x1y2 x2y1
  let y1y2 ← B.product lhs.y rhs.y
  let x3 ← B.quotientUnsafe (x1y2 + x2y1) (x1x2y1y2.mulElem C.d + 1)
  let y3 ← B.quotientUnsafe (y1y2 - x1x2.mulElem C.a) (x1x2y1y2.mulElem (-C.d) + 1)
  return ⟨x3, y3⟩

/-- `double_expression` (src/curves/edwards.rs:61-76); `Element::from(2u8)` panics over a field of
order 2. -/
def doubleExpression (C : EdwardsCurve p) (point : EdwardsExpression p) :
    B p (EdwardsExpression p) := do
  let xy ← B.product point.x point.y
  let xx ← B.product point.x point.x
  let yy ← B.product point.y point.y
  let two ← B.ofOption (Elem.ofNat? p 2)
  let x2 ← B.quotientUnsafe (xy.mulElem two) (xx.mulElem C.a + yy)
  let two' ← B.ofOption (Expression.ofNat? 2)
  let y2 ← B.quotientUnsafe (yy - xx.mulElem C.a) ((-xx).mulElem C.a - yy + two')
  return ⟨x2, y2⟩

/-- `EdwardsGroup` (src/curves/edwards.rs:20-80, 154-195). -/
def ops (C : EdwardsCurve p) : GroupOps p (EdwardsPoint p) (EdwardsExpression p) where
  identityElement := EdwardsPoint.new C 0 1
  addExpressions := addExpressions C
  doubleExpression := doubleExpression C
  ofElement := EdwardsExpression.ofPoint
  evaluate := EdwardsExpression.evaluate
  compressed := EdwardsExpression.y
  toComponents := EdwardsExpression.toComponents
  ofComponents := EdwardsExpression.ofComponents

end EdwardsGroup

/-- `SignatureExpression` (src/signature.rs:26-29). -/
structure SignatureExpression (p : ℕ) where
  s : Expression p
  e : Expression p

/-- `Schnorr::verify` (src/signature.rs:39-60). -/
def schnorrVerify {GE GX : Type} (C : CyclicGroupOps p GE GX) (c : CompressionFunction p)
    (signature : SignatureExpression p) (message : Expression p) (publicKey : GX) : B p Unit := do
  let generator ← B.ofOption C.generatorExpression
  let gs ← C.mulScalarExpression generator signature.s
  let ye ← C.mulScalarExpression publicKey signature.e
  let gsYe ← C.addExpressions gs ye
  let hashCheck ← c.compress (C.compressed gsYe) message
  B.assertEqual hashCheck signature.e

/-- `TestCompress`, the compression function in the test of `verify` (src/signature.rs:116-124). -/
def testCompress : CompressionFunction p where
  compress x y := do
    let z ← B.ofOption (x.mulNat 2)
    return z + y

end R1CS
