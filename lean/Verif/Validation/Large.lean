import Verif.Validation.Small
import Verif.Model.JubJub

/-!
# The crate's larger unit tests, run on the model

As in `Verif.Validation.Small`, these check the model and prove nothing.  The circuits are too large
to be evaluated by the kernel, so `#guard` runs the compiled definitions while the file is being
checked; no theorem depends on it.
-/

namespace R1CS.Validation

/-! ## src/sorting.rs -/

-- `sort_4_ascending`.
#guard test (p := 257) (do
    let w ← B.wires 4
    let o ← B.sortAscending (w.map fun w => x! w)
    return (w, o)) fun (w, o) g => runs g (vals (w.zip [4, 7, 0, 1])) (getsAll o [0, 1, 4, 7])

-- `sort_4_descending`.
#guard test (p := 257) (do
    let w ← B.wires 4
    let o ← B.sortDescending (w.map fun w => x! w)
    return (w, o)) fun (w, o) g => runs g (vals (w.zip [4, 7, 0, 1])) (getsAll o [7, 4, 1, 0])

/-! ## src/splitting.rs -/

-- `split_19_32`.
#guard test (p := bn128Order) (do
    let w ← B.wire
    let b ← B.splitBounded (x! w) 32
    return (w, b)) fun (w, b) g => runs g (vals [(w, 19)]) fun v =>
      b.bits.map (fun b => b.evaluate v) ==
        ([true, true, false, false, true] ++ List.replicate 27 false).map some

/-! ## src/comparisons.rs -/

-- `comparisons`.
#guard test (p := bn128Order) (do
    let x ← B.wire
    let y ← B.wire
    let lt ← B.lt (x! x) (x! y)
    let le ← B.le (x! x) (x! y)
    let gt ← B.gt (x! x) (x! y)
    let ge ← B.ge (x! x) (x! y)
    return (x, y, [lt, le, gt, ge])) fun (x, y, l) g =>
      let is (a b : ℕ) (r : List Bool) : Bool :=
        runs g (vals [(x, a), (y, b)]) fun v => l.map (fun e => e.evaluate v) == r.map some
      is 42 63 [true, true, false, false] && is 42 42 [false, true, false, true] &&
      is 42 41 [false, false, true, true] &&
      is (1 <<< 80 ||| 1) (1 <<< 81) [true, true, false, false]

/-! ## src/curves/edwards.rs -/

/-- `Element::from_str(..).unwrap()`. -/
def parse (s : String) : Option (Elem bls12_381Order) := (Elem.fromStr _ s.toList).bind id

/-- The coordinates used by the tests. -/
def px : Option (Elem bls12_381Order) :=
  parse "11076627216317271660298050606127911965867021807910416450833192264015104452986"

/-- The coordinates used by the tests. -/
def py : Option (Elem bls12_381Order) :=
  parse "44412834903739585386157632289020980010620626017712148233229312325549216099227"

-- `point_on_curve`.
#guard test (p := bls12_381Order) (do
    let x ← B.ofOption px
    let y ← B.ofOption py
    EdwardsExpression.new jubjub (Expression.ofElem x) (Expression.ofElem y))
  fun _ g => runs g (vals [])

-- `point_not_on_curve_with_expressions`.
#guard test (p := bls12_381Order) (do
    let x ← B.ofOption px
    let y ← B.ofOption
      (parse "44412834903739585386157632289020980010620626017712148233229312325549216099226")
    EdwardsExpression.new jubjub (Expression.ofElem x) (Expression.ofElem y))
  fun _ g => rejects g (vals [])

-- `point_not_on_curve`.
#guard (do
    let x ← parse "11076627216317271660298050606127911965867021807910416450833192264015104452985"
    let y ← py
    return (EdwardsExpression.ofCoordinates jubjub x y).isNone) == some true

-- `add_and_negate`.
#guard test (p := bls12_381Order) (do
    let x ← B.ofOption px
    let y ← B.ofOption py
    let p1 ← B.ofOption (EdwardsExpression.ofCoordinates jubjub x y)
    let p2 : EdwardsExpression bls12_381Order := ⟨-p1.x, p1.y⟩
    EdwardsGroup.addExpressions jubjub p1 p2)
  fun p3 g => runs g (vals []) fun v => gets p3.x 0 v && gets p3.y 1 v

-- `mul_scalar` asserts nothing and takes a minute here; it is left out, as is `verify` in
-- src/signature.rs, about which C69 has a theorem.

end R1CS.Validation
