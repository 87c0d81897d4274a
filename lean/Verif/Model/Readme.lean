import Verif.Model.Hashes

/-!
# Model of the examples in `README.md`
-/

namespace R1CS

variable {p : ℕ} [hp : Fact p.Prime]

namespace Readme

/-- The "Basic example" (README.md:44-45), on an arbitrary expression `x` instead of a new wire. -/
def cube (x : Expression p) : B p (Expression p) := do
  let xSquared ← B.product x x
  B.product xSquared x

/-- `hash` (README.md:86-94).  `blocks` are the blocks, `rounds` the recommended number of rounds of
MiMC (a parameter of the model, see `MiMC.default`). -/
def hash (rounds : ℕ) (blocks : List (Expression p)) : B p (Expression p) := do
  let cipher ← B.ofOption (MiMC.default rounds)
  let compress := daviesMeyer cipher.toBlockCipher
  let h ← B.ofOption (MerkleDamgard.newDefaults compress)
  h.hash blocks

/-- `inverse` (README.md:112-132). -/
def inverse (x : Expression p) : B p (Expression p) := do
  let xInv ← B.wire
  B.assertProduct x (Expression.ofWire xInv) 1
  B.generator x.dependencies fun values => do
    let xValue ← x.evaluate values
    let xInvValue ← xValue.multiplicativeInverse
    values.set xInv xInvValue
  return Expression.ofWire xInv

end Readme

end R1CS
