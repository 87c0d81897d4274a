import Mathlib.Data.Int.Log
import Verif.Model.Rounds

/-!
# Numbers of rounds in floating point (src/poseidon.rs:190-302, src/mimc.rs:107-111)

The functions of `Model/Rounds.lean` as they are calculated with `f64`.  Literals, conversions from
integers and the four operations are rounded to 53 binary digits, to nearest, ties to even.
Simplification: the range of the exponent is not bounded; `Model/Ieee.lean` has the bounds, and
`C89_exponents` shows that they make no difference.  The accuracy of `ln` and `log2` is not specified by Rust,
so the two functions are parameters, with a relative error of at most 2^-50, that is 8 units in
the last place.
-/

namespace R1CS

/-- The nearest integer, the even one if there are two. -/
noncomputable def roundEven (y : ℝ) : ℤ :=
  if Int.fract y < 1 / 2 then ⌊y⌋
  else if 1 / 2 < Int.fract y then ⌊y⌋ + 1
  else if 2 ∣ ⌊y⌋ then ⌊y⌋ else ⌊y⌋ + 1

/-- Rounding to an `f64`: a multiple of the unit in the last place, which is 2^52 times smaller than
the largest power of 2 not above the absolute value. -/
noncomputable def fl (x : ℝ) : ℝ :=
  roundEven (x / 2 ^ (Int.log 2 |x| - 52)) * 2 ^ (Int.log 2 |x| - 52)

/-- The functions `f64::ln` and `f64::log2`, accurate to 8 units in the last place for arguments of at
least 1. -/
structure Libm where
  ln : ℝ → ℝ
  log2 : ℝ → ℝ
  ln_accurate : ∀ x, 1 ≤ x → |ln x - Real.log x| ≤ 2⁻¹ ^ 50 * Real.log x
  log2_accurate : ∀ x, 1 ≤ x → |log2 x - Real.logb 2 x| ≤ 2⁻¹ ^ 50 * Real.logb 2 x

namespace Libm

variable (L : Libm)

/-- `x.log(base)`, which the standard library calculates as `x.ln() / base.ln()`. -/
noncomputable def log (x base : ℝ) : ℝ := fl (L.ln x / L.ln base)

variable (p : ℕ) [Fact p.Prime]

/-- `min_n_m` (src/poseidon.rs:294-298). -/
noncomputable def minNM (securityBits : ℕ) : ℝ := fl (min securityBits (Elem.maxBits p) : ℕ)

open Classical in
/-- `is_attackable_exponentiation_3` (src/poseidon.rs:259-269). -/
noncomputable def isAttackable3 (width full partial_ securityBits : ℕ) : Option Bool :=
  if width = 0 then none else
  let inequality1 := decide (fl (full + partial_ : ℕ) ≤
    fl (fl (L.log 2 3 * minNM p securityBits) + L.log2 (fl width)))
  let inequality2a := decide (fl (full + partial_ : ℕ) ≤ fl (fl 0.32 * minNM p securityBits))
  let inequality2b := decide (fl ((width - 1) * full + partial_ : ℕ) ≤
    fl (fl (fl 0.18 * minNM p securityBits) - 1))
  some (inequality1 || inequality2a || inequality2b)

open Classical in
/-- `is_attackable_exponentiation_5` (src/poseidon.rs:271-281). -/
noncomputable def isAttackable5 (width full partial_ securityBits : ℕ) : Option Bool :=
  if width = 0 then none else
  let inequality1 := decide (fl (full + partial_ : ℕ) ≤
    fl (fl (L.log 2 5 * minNM p securityBits) + L.log2 (fl width)))
  let inequality2a := decide (fl (full + partial_ : ℕ) ≤ fl (fl 0.21 * minNM p securityBits))
  let inequality2b := decide (fl ((width - 1) * full + partial_ : ℕ) ≤
    fl (fl (fl 0.14 * minNM p securityBits) - 1))
  some (inequality1 || inequality2a || inequality2b)

open Classical in
/-- `is_attackable_inverse` (src/poseidon.rs:283-292). -/
noncomputable def isAttackableInverse (width full partial_ securityBits : ℕ) : Option Bool :=
  if width = 0 then none else
  let inequality1 := decide (fl (fl (fl full * L.log2 (fl width)) + fl partial_) ≤
    fl (fl (L.log2 (fl width) + 0.5) + minNM p securityBits))
  let inequality2 := decide (fl ((width - 1) * full + partial_ : ℕ) ≤
    fl (fl (0.25 * minNM p securityBits) - 1))
  some (inequality1 || inequality2)

/-- `is_attackable` (src/poseidon.rs:246-257). -/
noncomputable def isAttackable : PoseidonSbox → ℕ → ℕ → ℕ → ℕ → Option Bool
  | .exponentiation3 => L.isAttackable3 p
  | .exponentiation5 => L.isAttackable5 p
  | .inverse => L.isAttackableInverse p

/-- The loop of `secure_partial_rounds_unpadded` (src/poseidon.rs:237-243).  The first argument bounds
the number of iterations: `none` when it is used up. -/
noncomputable def partialLoop (sbox : PoseidonSbox) (width full securityBits : ℕ) :
    ℕ → ℕ → Option ℕ
  | 0, _ => none
  | fuel + 1, partial_ => do
    let a ← L.isAttackable p sbox width full partial_ securityBits
    if a then partialLoop sbox width full securityBits fuel (partial_ + 1) else return partial_

/-- `secure_partial_rounds_unpadded` (src/poseidon.rs:232-244).  The bound on the number of iterations
is shown to suffice (C89). -/
noncomputable def securePartialRounds (sbox : PoseidonSbox) (width full securityBits : ℕ) : Option ℕ :=
  L.partialLoop p sbox width full securityBits (securityBits + width + 4) 0

/-- The loop of `secure_num_rounds_unpadded` (src/poseidon.rs:212-229), as in
`Poseidon.roundsLoop`. -/
noncomputable def roundsLoop (sbox : PoseidonSbox) (width securityBits : ℕ) :
    ℕ → ℕ → ℕ × ℕ → ℕ → Option (ℕ × ℕ)
  | 0, _, _, _ => none
  | fuel + 1, full, bestRounds, bestSboxes => do
    let full := full + 2
    let partial_ ← L.securePartialRounds p sbox width full securityBits
    let sboxes := Poseidon.numSboxes width full partial_
    if bestSboxes < sboxes then return bestRounds
    else roundsLoop sbox width securityBits fuel full (full, partial_) sboxes

/-- `secure_num_rounds_unpadded` (src/poseidon.rs:202-230). -/
noncomputable def secureRoundsUnpadded (sbox : PoseidonSbox) (width securityBits : ℕ) :
    Option (ℕ × ℕ) := do
  let full := 6
  let partial_ ← L.securePartialRounds p sbox width full securityBits
  L.roundsLoop p sbox width securityBits (securityBits + width + 4) full (full, partial_)
    (Poseidon.numSboxes width full partial_)

/-- `secure_num_rounds_padded` (src/poseidon.rs:192-200): `round` is exact and rounds to the nearest
integer, halves up. -/
noncomputable def secureRoundsPadded (sbox : PoseidonSbox) (width securityBits : ℕ) :
    Option (ℕ × ℕ) := do
  let (full, partial_) ← L.secureRoundsUnpadded p sbox width securityBits
  return (full + 2, ⌊fl (fl partial_ * fl 1.075) + 1 / 2⌋₊)

/-- `mimc_recommended_rounds` (src/mimc.rs:107-111): `ceil` is exact. -/
noncomputable def recommendedRounds : ℕ := ⌈fl (fl (Elem.maxBits p : ℕ) / L.log2 3)⌉₊

end Libm

end R1CS
