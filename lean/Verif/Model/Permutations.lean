import Verif.Model.Traits

/-!
# Model of `src/permutations.rs`
-/

namespace R1CS

variable {p : ℕ} [hp : Fact p.Prime]

/-- `InversePermutation` (src/permutations.rs:7-17). -/
def inversePermutation : Permutation p where
  permute x := B.inverseOrZero x
  inverse x := B.inverseOrZero x

/-- `MonomialPermutation` (src/permutations.rs:20-22). -/
structure MonomialPermutation (p : ℕ) where
  n : Elem p

namespace MonomialPermutation

/-- `MonomialPermutation::new` (src/permutations.rs:28-34). -/
def new (n : Elem p) : Option (MonomialPermutation p) :=
  if ((Elem.largestElement : Elem p).gcd n).isOne then some ⟨n⟩ else none

/-- `permute` (src/permutations.rs:38-40). -/
def permute (f : MonomialPermutation p) (x : Expression p) : B p (Expression p) :=
  B.exponentiation x f.n

/-- The loop searching for a multiple of `n` (src/permutations.rs:54-59), entered with
`exponent_times_n`; `none` when `fuel` iterations do not find one. -/
def exponentLoop (p n : ℕ) : ℕ → ℕ → Option ℕ
  | 0, _ => none
  | fuel + 1, exponentTimesN =>
    let e := exponentTimesN + (p - 1)
    if n ∣ e then some (e / n) else exponentLoop p n fuel e

/-- The exponent of the `n`-th root (src/permutations.rs:53-59).  The loop has no bound in the code;
`n` iterations run through all residues modulo `n`, so if they do not suffice, the loop never ends.
(For `n = 0`, which `new` only accepts over the field of order 2, `is_multiple_of` panics.)
`Element::from` panics when the exponent is not below the order. -/
def rootExponent (n : Elem p) : Option (Elem p) := do
  let e ← exponentLoop p n.n n.n p
  Elem.ofNat? p e

/-- The closure of `inverse` (src/permutations.rs:64-67). -/
def rootGen (x : Expression p) (exponent : Elem p) (root : Wire) (v : WireValues p) :
    Option (WireValues p) := do
  let xv ← x.evaluate v
  v.set root (xv.exponentiation exponent)

/-- `inverse` (src/permutations.rs:42-70). -/
def inverse (f : MonomialPermutation p) (x : Expression p) : B p (Expression p) := do
  let rootWire ← B.wire
  let root := Expression.ofWire rootWire
  let exponentiation ← B.exponentiation root f.n
  B.assertEqual exponentiation x
  let exponent ← B.ofOption (rootExponent f.n)
  B.generator x.dependencies (rootGen x exponent rootWire)
  return root

/-- `impl Permutation for MonomialPermutation` (src/permutations.rs:37-71). -/
def toPermutation (f : MonomialPermutation p) : Permutation p where
  permute := f.permute
  inverse := f.inverse

end MonomialPermutation

end R1CS
