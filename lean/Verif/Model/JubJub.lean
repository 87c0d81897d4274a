import Verif.Model.Curves
import Verif.Lemmas.ShippedFields

/-!
# Model of `src/curves/jubjub.rs`

The decimal literals are given as numbers, and `Element::from_str(..).unwrap()` as the element with that
number; that parsing the literals gives these elements is C104_literals.
-/

namespace R1CS

/-- `JubJub::a` and `JubJub::d` (src/curves/jubjub.rs:9-19). -/
def jubjub : EdwardsCurve bls12_381Order where
  a := -1
  d := ⟨19257038036680949359750312669786877991949435402254120286184196891950884077233,
    by decide +kernel⟩

/-- `x` in `JubJub::generator_element` (src/curves/jubjub.rs:23-25). -/
def jubjubGeneratorX : Elem bls12_381Order :=
  ⟨11076627216317271660298050606127911965867021807910416450833192264015104452986, by decide +kernel⟩

/-- `y` in `JubJub::generator_element` (src/curves/jubjub.rs:26-28). -/
def jubjubGeneratorY : Elem bls12_381Order :=
  ⟨44412834903739585386157632289020980010620626017712148233229312325549216099227, by decide +kernel⟩

/-- `JubJub::generator_element` (src/curves/jubjub.rs:21-32). -/
def jubjubGenerator : Option (EdwardsPoint bls12_381Order) :=
  EdwardsPoint.new jubjub jubjubGeneratorX jubjubGeneratorY

/-- `JubJubPrimeSubgroup` (src/curves/jubjub.rs:7). -/
def jubjubPrimeSubgroup :
    CyclicGroupOps bls12_381Order (EdwardsPoint bls12_381Order) (EdwardsExpression bls12_381Order) :=
  cyclicSubgroup (EdwardsGroup.ops jubjub) jubjubGenerator

end R1CS
