import Verif.Model.Permutations

/-!
# Model of `src/matrices.rs`, `src/poseidon.rs` and `src/rescue.rs`
-/

namespace R1CS

variable {p : ℕ} [hp : Fact p.Prime]

/-! ## Matrices -/

/-- `ElementMatrix` and its wrapper `MdsMatrix` (src/matrices.rs:9-11, 70-72). -/
structure ElementMatrix (p : ℕ) where
  rows : List (List (Elem p))

namespace ElementMatrix

/-- `ElementMatrix::new`, `MdsMatrix::new` (src/matrices.rs:14-22, 75-78). -/
def new (rows : List (List (Elem p))) : Option (ElementMatrix p) :=
  match rows with
  | [] => none
  | row :: _ =>
    if 0 < row.length ∧ ∀ r ∈ rows, r.length = row.length then some ⟨rows⟩ else none

/-- `Mul<&[Element]>` (src/matrices.rs:31-40; the other impls delegate to it). -/
def mulElems (m : ElementMatrix p) (rhs : List (Elem p)) : List (Elem p) :=
  (m.rows.zip rhs).map fun (row, val) => row.foldl (fun sum row_i => sum + val * row_i) 0

/-- `Mul<&[Expression]>` (src/matrices.rs:42-51; the other impls delegate to it). -/
def mulExpressions (m : ElementMatrix p) (rhs : List (Expression p)) : List (Expression p) :=
  (m.rows.zip rhs).map fun (row, val) => row.foldl (fun sum row_i => sum + val.mulElem row_i) 0

/-- `MdsMatrix::inverse` (src/matrices.rs:80-82): `unimplemented!`. -/
def inverse (_ : ElementMatrix p) : Option (ElementMatrix p) := none

end ElementMatrix

/-- `current.iter().map(|exp| f(builder, exp)).collect()` (src/poseidon.rs:146-148,
src/rescue.rs:41, 43). -/
def B.mapExpressions (f : Expression p → B p (Expression p)) :
    List (Expression p) → B p (List (Expression p))
  | [] => return []
  | x :: xs => do
    let y ← f x
    let ys ← B.mapExpressions f xs
    return y :: ys

/-! ## Poseidon -/

/-- `PoseidonSbox` (src/poseidon.rs:12-16). -/
inductive PoseidonSbox
  | exponentiation3
  | exponentiation5
  | inverse
  deriving DecidableEq

/-- `Poseidon` (src/poseidon.rs:19-28), with the fields of `NumberOfRounds` (105-108). -/
structure Poseidon (p : ℕ) where
  width : ℕ
  full : ℕ
  partial_ : ℕ
  sbox : PoseidonSbox
  mds : ElementMatrix p

/-- The default S-box (src/poseidon.rs:83-88); `3u8.into()`, `5u8.into()` panic for small orders. -/
def PoseidonSbox.default (p : ℕ) [Fact p.Prime] : Option PoseidonSbox := do
  let three ← Elem.ofNat? p 3
  if ((Elem.largestElement : Elem p).gcd three).isOne then return .exponentiation3
  let five ← Elem.ofNat? p 5
  if ((Elem.largestElement : Elem p).gcd five).isOne then return .exponentiation5
  return .inverse

namespace Poseidon

/-- `PoseidonBuilder::build` (src/poseidon.rs:75-100) with the options `sbox`, `num_rounds` (full,
partial), `security_bits` and `mds_matrix`.  The number of rounds for a security level (190-302), a
floating point computation, is the parameter `secureRounds`; see `secureRoundsPadded` in
Verif.Model.Rounds for that function over the real numbers and Verif.Model.Floats for it with
rounding. -/
def build (secureRounds : PoseidonSbox → ℕ → ℕ → Option (ℕ × ℕ)) (width : ℕ)
    (numRounds : Option (ℕ × ℕ))
    (sbox : Option PoseidonSbox) (securityBits : Option ℕ) (mds : Option (ElementMatrix p)) :
    Option (Poseidon p) := do
  let mds ← mds
  let sbox ← (match sbox with | some s => some s | none => PoseidonSbox.default p)
  if numRounds.isSome && securityBits.isSome then none
  let rounds ← (match numRounds with
    | some r => some r
    | none => secureRounds sbox width (securityBits.getD 128))
  return ⟨width, rounds.1, rounds.2, sbox, mds⟩

/-- `sbox_to_permutation` (src/poseidon.rs:119-125). -/
def sboxPermutation (f : Poseidon p) : Option (Permutation p) :=
  match f.sbox with
  | .inverse => some inversePermutation
  | .exponentiation3 => do
    let n ← Elem.ofNat? p 3
    let m ← MonomialPermutation.new n
    return m.toPermutation
  | .exponentiation5 => do
    let n ← Elem.ofNat? p 5
    let m ← MonomialPermutation.new n
    return m.toPermutation

/-- `sbox_permute` (src/poseidon.rs:111-113). -/
def sboxPermute (f : Poseidon p) (x : Expression p) : B p (Expression p) := do
  let s ← B.ofOption f.sboxPermutation
  s.permute x

/-- `current[0] = self.sbox_permute(builder, &current[0])` (src/poseidon.rs:150). -/
def sboxFirst (f : Poseidon p) : List (Expression p) → B p (List (Expression p))
  | [] => B.panic
  | x :: xs => do
    let y ← f.sboxPermute x
    return y :: xs

/-- The loop over the rounds (src/poseidon.rs:142-155) from `round`, with `left` rounds to go. -/
def rounds (f : Poseidon p) : ℕ → ℕ → List (Expression p) → B p (List (Expression p))
  | _, 0, current => return current
  | round, left + 1, current => do
    let total := f.full + f.partial_
    let perSide := f.full / 2
    let current ← (if round < perSide ∨ round ≥ total - perSide
      then B.mapExpressions f.sboxPermute current else f.sboxFirst current)
    rounds f (round + 1) left (f.mds.mulExpressions current)

/-- `permute` (src/poseidon.rs:133-158). -/
def permute (f : Poseidon p) (inputs : List (Expression p)) : B p (List (Expression p)) := do
  B.require (inputs.length = f.width)
  B.require (f.full % 2 = 0)
  f.rounds 0 (f.full + f.partial_) inputs

/-- `inverse` (src/poseidon.rs:160-187): always panics, at the latest in `MdsMatrix::inverse`
(168), before anything else happens. -/
def inverse (f : Poseidon p) (outputs : List (Expression p)) : B p (List (Expression p)) := do
  B.require (outputs.length = f.width)
  B.require (f.full % 2 = 0)
  let _ ← B.ofOption f.mds.inverse
  B.panic

/-- `impl MultiPermutation for Poseidon` (src/poseidon.rs:128-188). -/
def toMultiPermutation (f : Poseidon p) : MultiPermutation p := ⟨f.width, f.permute, f.inverse⟩

end Poseidon

/-! ## Rescue -/

/-- `Rescue` (src/rescue.rs:11-20). -/
structure Rescue (p : ℕ) where
  width : ℕ
  alpha : Elem p
  numRounds : ℕ
  mds : ElementMatrix p

namespace Rescue

/-- `pi_1` (src/rescue.rs:23-25). -/
def pi1 (f : Rescue p) (x : Expression p) : B p (Expression p) := do
  let m ← B.ofOption (MonomialPermutation.new f.alpha)
  m.permute x

/-- `pi_2` (src/rescue.rs:27-29). -/
def pi2 (f : Rescue p) (x : Expression p) : B p (Expression p) := do
  let m ← B.ofOption (MonomialPermutation.new f.alpha)
  m.inverse x

/-- The loop of `permute` (src/rescue.rs:40-45). -/
def rounds (f : Rescue p) : ℕ → List (Expression p) → B p (List (Expression p))
  | 0, current => return current
  | left + 1, current => do
    let current ← B.mapExpressions f.pi1 current
    let current ← B.mapExpressions f.pi2 (f.mds.mulExpressions current)
    rounds f left (f.mds.mulExpressions current)

/-- `permute` (src/rescue.rs:37-47): the length of the input is not checked. -/
def permute (f : Rescue p) (inputs : List (Expression p)) : B p (List (Expression p)) :=
  f.rounds f.numRounds inputs

/-- `impl MultiPermutation for Rescue` (src/rescue.rs:32-53): `inverse` is `unimplemented!`. -/
def toMultiPermutation (f : Rescue p) : MultiPermutation p := ⟨f.width, f.permute, fun _ => B.panic⟩

/-- The inner loop of `smallest_alpha` (src/rescue.rs:127-129). -/
def nextPrime : ℕ → Elem p → Option (Elem p)
  | 0, _ => none
  | fuel + 1, alpha => do
    let prime ← alpha.isPrime
    if prime then return alpha else nextPrime fuel (alpha + 1)

/-- The outer loop of `smallest_alpha` (src/rescue.rs:124-130). -/
def alphaLoop : ℕ → Elem p → Option (Elem p)
  | 0, _ => none
  | fuel + 1, alpha =>
    if ((Elem.largestElement : Elem p).gcd alpha).isOne then some alpha
    else do
      let alpha ← nextPrime p (alpha + 1)
      alphaLoop fuel alpha

/-- `smallest_alpha` (src/rescue.rs:121-132).  The loops have no bound in the code; `none` stands
for a panic or for running out of `p` iterations. -/
def smallestAlpha (p : ℕ) [Fact p.Prime] : Option (Elem p) := do
  let three ← Elem.ofNat? p 3
  alphaLoop p three

/-- `integer_division_ceil` (src/rescue.rs:142-144): division by zero panics. -/
def integerDivisionCeil (n m : ℕ) : Option ℕ := if m = 0 then none else some ((n + m - 1) / m)

/-- `secure_num_rounds` (src/rescue.rs:134-139). -/
def secureNumRounds (securityBits width : ℕ) : Option ℕ := do
  let attackable ← integerDivisionCeil securityBits (4 * width)
  return max (attackable * 2) 10

/-- `RescueBuilder::new` (src/rescue.rs:70-79, panics for width 0) followed by `build` (101-117) with
the options `alpha`, `num_rounds`, `security_bits` and `mds_matrix`. -/
def build (width : ℕ) (alpha : Option (Elem p)) (numRounds securityBits : Option ℕ)
    (mds : Option (ElementMatrix p)) : Option (Rescue p) := do
  if width = 0 then none
  let alpha ← (match alpha with | some a => some a | none => smallestAlpha p)
  let mds ← mds
  if numRounds.isSome && securityBits.isSome then none
  let rounds ← (match numRounds with
    | some r => some r
    | none => secureNumRounds (securityBits.getD 128) width)
  return ⟨width, alpha, rounds, mds⟩

end Rescue

end R1CS
