import Mathlib.Data.Nat.Prime.Defs
import Mathlib.Data.Nat.Prime.Basic
import Mathlib.Data.Nat.Size

/-!
# Model of `src/field.rs`

`Elem p` is `Element<F>` for a field `F` whose `order()` is `p`.  The documented
requirement "the (prime) order of this field" (src/field.rs:14-18) is the instance
argument `[Fact p.Prime]`.  A panic is `none`.
-/

namespace R1CS

/-- `Element<F>` (src/field.rs:44-52): a natural number `n`.  The assertion in
`From<BigUint>` (151-156), the only place a value is built, gives `n < order`.
Simplification: the invariant is carried as a field instead of being re-checked. -/
structure Elem (p : ℕ) where
  n : ℕ
  lt : n < p
  deriving DecidableEq

namespace Elem

variable {p : ℕ}

/-- `From<BigUint>` (src/field.rs:151-156), also reached by the `From<u8..usize>`
impls (158-192): panics unless `n < order`. -/
def ofNat? (p : ℕ) (n : ℕ) : Option (Elem p) :=
  if h : n < p then some ⟨n, h⟩ else none

variable [hp : Fact p.Prime]

omit hp in
theorem ext_n {a b : Elem p} (h : a.n = b.n) : a = b := by
  cases a; cases b; simp_all

/-- `Element::zero` (src/field.rs:55-57). -/
def zero : Elem p := ⟨0, hp.out.pos⟩

/-- `Element::one` (src/field.rs:59-61). -/
def one : Elem p := ⟨1, hp.out.one_lt⟩

/-- `Element::largest_element` (src/field.rs:63-65). -/
def largestElement : Elem p := ⟨p - 1, Nat.sub_lt hp.out.pos Nat.one_pos⟩

/-- `From<bool>` (src/field.rs:194-198). -/
def ofBool (b : Bool) : Elem p := if b then one else zero

omit hp in
/-- `is_zero` (src/field.rs:71-73). -/
def isZero (a : Elem p) : Bool := a.n == 0

omit hp in
/-- `is_nonzero` (src/field.rs:75-77). -/
def isNonzero (a : Elem p) : Bool := !(a.n == 0)

omit hp in
/-- `is_one` (src/field.rs:79-81). -/
def isOne (a : Elem p) : Bool := a.n == 1

/-- `Neg for &Element` (src/field.rs:248-258). -/
def neg (a : Elem p) : Elem p :=
  if h : a.n = 0 then zero else ⟨p - a.n, Nat.sub_lt hp.out.pos (Nat.pos_of_ne_zero h)⟩

/-- `Add<&Element> for &Element` (src/field.rs:284-290). -/
def add (a b : Elem p) : Elem p := ⟨(a.n + b.n) % p, Nat.mod_lt _ hp.out.pos⟩

/-- `Sub<&Element> for &Element` (src/field.rs:328-334): `self + -rhs`. -/
def sub (a b : Elem p) : Elem p := add a (neg b)

/-- `Mul<&Element> for &Element` (src/field.rs:372-378). -/
def mul (a b : Elem p) : Elem p := ⟨(a.n * b.n) % p, Nat.mod_lt _ hp.out.pos⟩

instance : Zero (Elem p) := ⟨zero⟩
instance : One (Elem p) := ⟨one⟩
instance : Neg (Elem p) := ⟨neg⟩
instance : Add (Elem p) := ⟨add⟩
instance : Sub (Elem p) := ⟨sub⟩
instance : Mul (Elem p) := ⟨mul⟩
instance : Inhabited (Elem p) := ⟨zero⟩

/-- `exponentiation` (src/field.rs:101-103): `BigUint::modpow`. -/
def exponentiation (a power : Elem p) : Elem p :=
  ⟨a.n ^ power.n % p, Nat.mod_lt _ hp.out.pos⟩

/-- Square and multiply, only used to run the model (see Verif.Validation.Large). -/
def powMod (p a k : ℕ) : ℕ :=
  if k = 0 then 1 % p
  else
    let h := powMod p (a * a % p) (k / 2)
    if k % 2 = 1 then a * h % p else h
termination_by k
decreasing_by omega

theorem powMod_eq (p a k : ℕ) : powMod p a k = a ^ k % p := by
  induction k using Nat.strongRecOn generalizing a with
  | _ k ih =>
    rw [powMod]
    split
    · subst k; rfl
    · rw [ih (k / 2) (by omega)]
      have h : (a * a % p) ^ (k / 2) % p = a ^ (2 * (k / 2)) % p := by
        rw [← Nat.pow_mod, Nat.pow_mul, Nat.pow_two]
      split
      · rw [h, Nat.mul_mod, Nat.mod_mod, ← Nat.mul_mod, ← Nat.pow_succ']
        congr 2
        omega
      · have e : 2 * (k / 2) = k := by omega
        simp only [h, e]

/-- The compiled form of `exponentiation`. -/
def exponentiationFast (p : ℕ) (hp : Fact p.Prime) (a power : Elem p) : Elem p :=
  ⟨powMod p a.n power.n, by rw [powMod_eq]; exact Nat.mod_lt _ hp.out.pos⟩

@[csimp] theorem exponentiation_eq_fast : @exponentiation = @exponentiationFast := by
  funext p hp a power
  exact ext_n (powMod_eq p a.n power.n).symm

/-- `multiplicative_inverse` (src/field.rs:83-89): panics on zero, and on
`Element::from(2)` when the order is 2; otherwise `self ^ (-2)`. -/
def multiplicativeInverse (a : Elem p) : Option (Elem p) :=
  if a.isZero then none
  else do
    let two ← ofNat? p 2
    return a.exponentiation (-two)

/-- `multiplicative_inverse_or_zero` (src/field.rs:93-99). -/
def multiplicativeInverseOrZero (a : Elem p) : Option (Elem p) :=
  if a.isZero then some zero else a.multiplicativeInverse

/-- `Div<&Element> for &Element` (src/field.rs:438-445): multiplication by the inverse. -/
def div (a b : Elem p) : Option (Elem p) := do
  let i ← b.multiplicativeInverse
  return a * i

/-- `Mul<u128>` (src/field.rs:380-394): converts the operand first. -/
def mulNat (a : Elem p) (k : ℕ) : Option (Elem p) := do
  let e ← ofNat? p k
  return a * e

/-- `Div<u128>` (src/field.rs:447-461): converts the operand first. -/
def divNat (a : Elem p) (k : ℕ) : Option (Elem p) := do
  let e ← ofNat? p k
  a.div e

omit hp in
/-- `Shl<usize>` (src/field.rs:481-495): no reduction, panics when out of range. -/
def shl (a : Elem p) (k : ℕ) : Option (Elem p) := ofNat? p (a.n <<< k)

omit hp in
/-- `integer_division` (src/field.rs:105-107): `BigUint` division panics on zero. -/
def integerDivision (a b : Elem p) : Option (Elem p) :=
  if b.n = 0 then none else ofNat? p (a.n / b.n)

omit hp in
/-- `integer_modulus` (src/field.rs:109-111): `BigUint` remainder panics on zero. -/
def integerModulus (a b : Elem p) : Option (Elem p) :=
  if b.n = 0 then none else ofNat? p (a.n % b.n)

omit hp in
/-- `gcd` (src/field.rs:113-120), Euclid's algorithm.  The inner `integer_modulus` cannot
panic: its divisor is non-zero and the remainder is below the divisor, hence in range;
the model builds that element directly. -/
def gcd (a b : Elem p) : Elem p :=
  if h : b.n = 0 then a
  else gcd b ⟨a.n % b.n, lt_trans (Nat.mod_lt _ (Nat.pos_of_ne_zero h)) b.lt⟩
termination_by b.n
decreasing_by exact Nat.mod_lt _ (Nat.pos_of_ne_zero h)

/-- The `while` loop of `is_prime` (src/field.rs:124-131).  The fuel is only there to make
the recursion structural; `isPrime` supplies enough (see `Props/Field.lean`). -/
def isPrimeLoop : ℕ → Elem p → Elem p → Option Bool
  | 0, _, _ => none
  | fuel + 1, x, divisor =>
    if (divisor * divisor).n ≤ x.n then do
      let r ← x.integerModulus divisor
      if r.isZero then return false
      isPrimeLoop fuel x (divisor + one)
    else some true

/-- `is_prime` (src/field.rs:122-132): `divisor * divisor` and `divisor += 1` are *field*
operations. -/
def isPrime (x : Elem p) : Option Bool := do
  let two ← ofNat? p 2
  isPrimeLoop (p + 1) x two

omit hp in
/-- `bits` (src/field.rs:140-142). -/
def bits (a : Elem p) : ℕ := a.n.size

/-- `max_bits` (src/field.rs:135-137). -/
def maxBits (p : ℕ) [Fact p.Prime] : ℕ := (largestElement : Elem p).bits

omit hp in
/-- `bit` (src/field.rs:146-148): `((n >> i) & 1).is_one()`. -/
def bit (a : Elem p) (i : ℕ) : Bool := (a.n >>> i) &&& 1 == 1

end Elem

/-- `Bn128::order` (src/field.rs:24-30). -/
def bn128Order : ℕ :=
  21888242871839275222246405745257275088548364400416034343698204186575808495617

/-- `Bls12_381::order` (src/field.rs:36-42). -/
def bls12_381Order : ℕ :=
  52435875175126190479447740508185965837690552500527637822603658699938581184513

end R1CS
