import Verif.Spec.Language

/-!
# Specification vocabulary: how executions of a circuit end

`meaning` (`Spec/Language.lean`) says for which inputs a circuit is accepted.  Here the failures are
told apart: some make the execution panic (or already the construction), the others make it return
`false`.  In that case the later instructions still calculate, with the results of the failing one.
-/

namespace R1CS

variable {p : ℕ} [hp : Fact p.Prime]

open Language

namespace Op

/-- An assertion which makes the execution return `false`. -/
def judge (c : Prop) [Decidable c] : Option (List (Val p) × Bool) := some ([], decide c)

/-- The outcome of an instruction: `none` for a panic, otherwise the results and whether its
assertion holds.  The instructions not mentioned fail with a panic only: division by zero (also in
`assertNonzero`, `assertNonequal`, `modulus` and `divides`), elements which do not fit into the digits
of `splitBounded` or are no index of `randomAccess`, strings of different or excessive lengths,
zero denominators in the calculations with points.

`assertBoolean` returns `false` for an element other than zero and one, and goes on with a boolean
expression which is not a truth value; this is not described here. -/
def outcome : Op p → List (Val p) → Option (List (Val p) × Bool)
  | assertEqual, vs => vs.mapM elem? >>= fun2 fun x y => judge (x = y)
  | assertZero, vs => vs.mapM elem? >>= fun1 fun x => judge (x = 0)
  | assertProduct, vs => vs.mapM elem? >>= fun3 fun x y z => judge (x * y = z)
  | assertTrue, vs => vs.mapM truth? >>= fun1 fun x => judge (x = true)
  | assertFalse, vs => vs.mapM truth? >>= fun1 fun x => judge (x = false)
  | assertLt, vs => vs.mapM elem? >>= fun2 fun x y => judge (x.n < y.n)
  | assertLe, vs => vs.mapM elem? >>= fun2 fun x y => judge (x.n ≤ y.n)
  | assertGt, vs => vs.mapM elem? >>= fun2 fun x y => judge (x.n > y.n)
  | assertGe, vs => vs.mapM elem? >>= fun2 fun x y => judge (x.n ≥ y.n)
  | assertCmpBinary r, vs => vs.mapM bits? >>= fun2 fun l k =>
    if Comparable (Elem.maxBits p) l k then some ([], r.holds (natOf l) (natOf k)) else none
  | binaryAssertZero, vs => vs.mapM bits? >>= fun1 fun l => judge (∀ b ∈ l, b = false)
  | binarySumAssertingNoOverflow, vs => vs.mapM bits? >>= fun ls =>
    if sumWidth ls < Elem.maxBits p then
      some ([.bits (bitsOf (maxLength ls) (ls.map natOf).sum)],
        decide ((ls.map natOf).sum < 2 ^ maxLength ls)) else none
  | assertPermutation k, vs => vs.mapM elem? >>= fun xs =>
    -- lists of one element are compared by a constraint, longer lists by the generators
    if (xs.take k).length = (xs.drop k).length ∧
        ((xs.take k).length = 1 ∨ (xs.take k).Perm (xs.drop k)) then
      some ([], decide ((xs.take k).Perm (xs.drop k)))
    else none
  | edwardsNew C, vs => vs.mapM elem? >>= fun2 fun x y =>
    some ([.elem x, .elem y], decide (Edwards.OnCurve C.a C.d x y))
  | schnorrVerify C G h, vs => vs.mapM elem? >>= fun5 fun s e m x y =>
    (signatureCheck C (G.x, G.y) h.value s e m (x, y)).map fun b => ([], b)
  | assertMembership h, vs => funPath2 (fun x r l xs =>
    if l.length = xs.length then some ([], decide (r = pathRoot h.value (l.zip xs) x)) else none) vs
  | o, vs => (o.meaning vs).map fun rs => (rs, true)

/-- Whether the gadget is `assertBoolean`. -/
def cast : Op p → Bool
  | assertBoolean => true
  | _ => false

end Op

namespace Circuit

/-- The outcome of one instruction. -/
def stepOutcome (i : Op p × List ℕ) (vs : List (Val p)) : Option (List (Val p) × Bool) := do
  let args ← i.2.mapM fun j => vs[j]?
  let r ← i.1.outcome args
  return (vs ++ r.1, r.2)

/-- The outcome of the instructions: a panic if one of them panics, otherwise the values of all
objects and whether all assertions hold. -/
def outcomeFrom : Circuit p → List (Val p) → Option (List (Val p) × Bool)
  | [], vs => some (vs, true)
  | i :: c, vs => do
    let r ← stepOutcome i vs
    let r' ← outcomeFrom c r.1
    return (r'.1, r.2 && r'.2)

/-- The outcome of the circuit on the inputs. -/
def outcome (c : Circuit p) (xs : List (Elem p)) : Option (List (Val p) × Bool) :=
  outcomeFrom c (xs.map .elem)

/-- No instruction is `assertBoolean`. -/
def NoCast (c : Circuit p) : Prop := ∀ i ∈ c, i.1.cast = false

end Circuit

end R1CS
