import Verif.Spec.Language

/-!
# Specification vocabulary: what the constraints of straight-line code admit

The meaning of code (`Spec/Language.lean`) is what an honest prover calculates.  Whoever only has to
satisfy the constraints may do otherwise wherever a gadget does not pin its result down.  Here this
freedom is described, gadget by gadget, in terms of values alone; the relation of a circuit is the
composition of those of its instructions.
-/

namespace R1CS

variable {p : ℕ} [hp : Fact p.Prime]

open Language

namespace Op

/-- The results which the constraints of the gadget admit for given operands. -/
def admits : Op p → List (Val p) → List (Val p) → Prop
  -- anything is the inverse of zero
  | inverseOrZero, vs, rs => ∃ x r, vs = [.elem x] ∧ rs = [.elem r] ∧ (x = 0 ∨ r * x = 1)
  -- anything is a quotient
  | quotientUnsafe, vs, rs => ∃ x y r, vs = [.elem x, .elem y] ∧ rs = [.elem r]
  -- strict comparisons can always fail
  | lt, vs, rs => ∃ x y r, vs = [.elem x, .elem y] ∧ rs = [.bool r] ∧ (r = true → x.n < y.n)
  | gt, vs, rs => ∃ x y r, vs = [.elem x, .elem y] ∧ rs = [.bool r] ∧ (r = true → x.n > y.n)
  -- the others can always succeed, and fail if an operand is small
  | le, vs, rs => ∃ x y r, vs = [.elem x, .elem y] ∧ rs = [.bool r] ∧
      (r = false → x.n > y.n ∨ x.n + p < 2 ^ Elem.maxBits p)
  | ge, vs, rs => ∃ x y r, vs = [.elem x, .elem y] ∧ rs = [.bool r] ∧
      (r = false → x.n < y.n ∨ y.n + p < 2 ^ Elem.maxBits p)
  | assertLe, vs, rs => ∃ x y, vs = [.elem x, .elem y] ∧ rs = []
  | assertGe, vs, rs => ∃ x y, vs = [.elem x, .elem y] ∧ rs = []
  -- any number below the divisor is a remainder
  | modulus, vs, rs => ∃ x y r, vs = [.elem x, .elem y] ∧ rs = [.elem r] ∧ r.n < y.n
  | divides, vs, rs => ∃ x y r, vs = [.elem x, .elem y] ∧ rs = [.bool r] ∧ x.n ≠ 0 ∧
      (r = false → x.n ≠ 1)
  -- the digits of the element or of the element plus the order of the field
  | splitAllowingAmbiguity, vs, rs => ∃ x l, vs = [.elem x] ∧ rs = [.bits l] ∧
      l.length = Elem.maxBits p ∧ (natOf l = x.n ∨ natOf l = x.n + p)
  | cmpBinary .lt, vs, rs => ∃ l k r, vs = [.bits l, .bits k] ∧ rs = [.bool r] ∧
      Comparable (Elem.maxBits p) l k ∧ (r = true → natOf l < natOf k)
  | cmpBinary .gt, vs, rs => ∃ l k r, vs = [.bits l, .bits k] ∧ rs = [.bool r] ∧
      Comparable (Elem.maxBits p) l k ∧ (r = true → natOf l > natOf k)
  | cmpBinary .le, vs, rs => ∃ l k r, vs = [.bits l, .bits k] ∧ rs = [.bool r] ∧
      Comparable (Elem.maxBits p) l k ∧ (r = false → natOf l > natOf k)
  | cmpBinary .ge, vs, rs => ∃ l k r, vs = [.bits l, .bits k] ∧ rs = [.bool r] ∧
      Comparable (Elem.maxBits p) l k ∧ (r = false → natOf l < natOf k)
  | assertCmpBinary .le, vs, rs => ∃ l k, vs = [.bits l, .bits k] ∧ rs = [] ∧
      Comparable (Elem.maxBits p) l k
  | assertCmpBinary .ge, vs, rs => ∃ l k, vs = [.bits l, .bits k] ∧ rs = [] ∧
      Comparable (Elem.maxBits p) l k
  -- any rearrangement is sorted
  | sortAscending, vs, rs => ∃ xs ys : List (Elem p), vs = xs.map .elem ∧
      rs = ys.map .elem ∧ xs ≠ [] ∧ ys.Perm xs
  | sortDescending, vs, rs => ∃ xs ys : List (Elem p), vs = xs.map .elem ∧
      rs = ys.map .elem ∧ xs ≠ [] ∧ ys.Perm xs
  -- any pair is a sum, a double, a multiple
  | edwardsAdd _, vs, rs => ∃ x y x' y' u v, vs = [.elem x, .elem y, .elem x', .elem y'] ∧
      rs = [.elem u, .elem v]
  | edwardsDouble _, vs, rs => ∃ x y u v, vs = [.elem x, .elem y] ∧ rs = [.elem u, .elem v]
  | edwardsMulScalar _, vs, rs => ∃ x y k u v, vs = [.elem x, .elem y, .elem k] ∧
      rs = [.elem u, .elem v]
  -- only the hash matters, and not what of
  | schnorrVerify _ _ h, vs, rs => ∃ s e m x y t, vs = [.elem s, .elem e, .elem m, .elem x, .elem y] ∧
      rs = [] ∧ h.value t m = e
  -- the others admit nothing but what they are for
  | o, vs, rs => o.meaning vs = some rs

end Op

namespace Circuit

/-- What the instructions admit: the values `ys` of all objects in the end, if those of the objects in
the beginning are `vs`. -/
def admitsFrom : Circuit p → List (Val p) → List (Val p) → Prop
  | [], vs, ys => ys = vs
  | i :: c, vs, ys => ∃ args rs, (i.2.mapM fun j => vs[j]?) = some args ∧ i.1.admits args rs ∧
      admitsFrom c (vs ++ rs) ys

/-- What the circuit admits on the inputs. -/
def admits (c : Circuit p) (xs : List (Elem p)) (ys : List (Val p)) : Prop :=
  admitsFrom c (xs.map .elem) ys

/-- Instructions which leave no choice on the whole, although some of their gadgets may: on any `n`
objects they admit nothing but what they mean. -/
def SealedAt (n : ℕ) (c : Circuit p) : Prop :=
  ∀ vs ys : List (Val p), vs.length = n → c.admitsFrom vs ys → c.meaningFrom vs = some ys

end Circuit

end R1CS
