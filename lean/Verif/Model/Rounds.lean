import Mathlib.Analysis.SpecialFunctions.Log.Base
import Verif.Model.Matrices
import Verif.Model.Hashes

/-!
# Numbers of rounds (src/poseidon.rs:190-302, src/mimc.rs:107-111)

These functions compute with `f64`.  Simplification: the floating point numbers are real numbers
here, so rounding errors are ignored; the loops, the integer arithmetic and the panics are as in the
source.  The same functions with rounding are in Verif.Model.Floats; C89 compares them.  Real comparisons are decided classically, so the definitions are not executable.
-/

namespace R1CS

namespace Poseidon

variable (p : ℕ) [Fact p.Prime]

/-- `min_n_m` (src/poseidon.rs:294-298). -/
noncomputable def minNM (securityBits : ℕ) : ℝ := (min securityBits (Elem.maxBits p) : ℕ)

open Classical in
/-- `is_attackable_exponentiation_3` (src/poseidon.rs:259-269): `2f64.log(3f64)` is the logarithm of 2
to the base 3.  `width - 1` underflows for width 0. -/
noncomputable def isAttackable3 (width full partial_ securityBits : ℕ) : Option Bool :=
  if width = 0 then none else
  let inequality1 := decide
    (((full + partial_ : ℕ) : ℝ) ≤ Real.logb 3 2 * minNM p securityBits + Real.logb 2 width)
  let inequality2a := decide (((full + partial_ : ℕ) : ℝ) ≤ 0.32 * minNM p securityBits)
  let inequality2b := decide
    ((((width - 1) * full + partial_ : ℕ) : ℝ) ≤ 0.18 * minNM p securityBits - 1)
  some (inequality1 || inequality2a || inequality2b)

open Classical in
/-- `is_attackable_exponentiation_5` (src/poseidon.rs:271-281). -/
noncomputable def isAttackable5 (width full partial_ securityBits : ℕ) : Option Bool :=
  if width = 0 then none else
  let inequality1 := decide
    (((full + partial_ : ℕ) : ℝ) ≤ Real.logb 5 2 * minNM p securityBits + Real.logb 2 width)
  let inequality2a := decide (((full + partial_ : ℕ) : ℝ) ≤ 0.21 * minNM p securityBits)
  let inequality2b := decide
    ((((width - 1) * full + partial_ : ℕ) : ℝ) ≤ 0.14 * minNM p securityBits - 1)
  some (inequality1 || inequality2a || inequality2b)

open Classical in
/-- `is_attackable_inverse` (src/poseidon.rs:283-292). -/
noncomputable def isAttackableInverse (width full partial_ securityBits : ℕ) : Option Bool :=
  if width = 0 then none else
  let inequality1 := decide
    ((full : ℝ) * Real.logb 2 width + partial_ ≤ Real.logb 2 width + 0.5 + minNM p securityBits)
  let inequality2 := decide
    ((((width - 1) * full + partial_ : ℕ) : ℝ) ≤ 0.25 * minNM p securityBits - 1)
  some (inequality1 || inequality2)

/-- `is_attackable` (src/poseidon.rs:246-257). -/
noncomputable def isAttackable : PoseidonSbox → ℕ → ℕ → ℕ → ℕ → Option Bool
  | .exponentiation3 => isAttackable3 p
  | .exponentiation5 => isAttackable5 p
  | .inverse => isAttackableInverse p

/-- The loop of `secure_partial_rounds_unpadded` (src/poseidon.rs:237-243).  The first argument bounds
the number of iterations: `none` when it is used up. -/
noncomputable def partialLoop (sbox : PoseidonSbox) (width full securityBits : ℕ) :
    ℕ → ℕ → Option ℕ
  | 0, _ => none
  | fuel + 1, partial_ => do
    let a ← isAttackable p sbox width full partial_ securityBits
    if a then partialLoop sbox width full securityBits fuel (partial_ + 1) else return partial_

/-- `secure_partial_rounds_unpadded` (src/poseidon.rs:232-244).  The bound on the number of iterations
is shown to suffice (C80). -/
noncomputable def securePartialRounds (sbox : PoseidonSbox) (width full securityBits : ℕ) : Option ℕ :=
  partialLoop p sbox width full securityBits (securityBits + width + 3) 0

/-- `num_sboxes` (src/poseidon.rs:300-302). -/
def numSboxes (width full partial_ : ℕ) : ℕ := full * width + partial_

/-- The loop of `secure_num_rounds_unpadded` (src/poseidon.rs:212-229) with the state `full`, the
number of partial rounds in `best_rounds` (whose number of full rounds is `full`) and `best_sboxes`. -/
noncomputable def roundsLoop (sbox : PoseidonSbox) (width securityBits : ℕ) :
    ℕ → ℕ → ℕ × ℕ → ℕ → Option (ℕ × ℕ)
  | 0, _, _, _ => none
  | fuel + 1, full, bestRounds, bestSboxes => do
    let full := full + 2
    let partial_ ← securePartialRounds p sbox width full securityBits
    let sboxes := numSboxes width full partial_
    if bestSboxes < sboxes then return bestRounds
    else roundsLoop sbox width securityBits fuel full (full, partial_) sboxes

/-- `secure_num_rounds_unpadded` (src/poseidon.rs:202-230). -/
noncomputable def secureRoundsUnpadded (sbox : PoseidonSbox) (width securityBits : ℕ) :
    Option (ℕ × ℕ) := do
  let full := 6
  let partial_ ← securePartialRounds p sbox width full securityBits
  roundsLoop p sbox width securityBits (securityBits + width + 3) full (full, partial_)
    (numSboxes width full partial_)

/-- `secure_num_rounds_padded` (src/poseidon.rs:192-200): `round` rounds to the nearest integer. -/
noncomputable def secureRoundsPadded (sbox : PoseidonSbox) (width securityBits : ℕ) :
    Option (ℕ × ℕ) := do
  let (full, partial_) ← secureRoundsUnpadded p sbox width securityBits
  return (full + 2, ⌊(partial_ : ℝ) * 1.075 + 1 / 2⌋₊)

end Poseidon

namespace MiMC

variable (p : ℕ) [Fact p.Prime]

/-- `mimc_recommended_rounds` (src/mimc.rs:107-111). -/
noncomputable def recommendedRounds : ℕ := ⌈(Elem.maxBits p : ℝ) / Real.logb 2 3⌉₊

end MiMC

end R1CS
