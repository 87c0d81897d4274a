import Verif.Model.Floats

/-!
# Numbers of rounds in floating point with bounded exponents (src/poseidon.rs:190-302, src/mimc.rs:107-111)

`Model/Floats.lean` once more, with the rounding of `f64` itself: exponents are bounded below, where the numbers
get sparser (subnormal numbers, and 0), and above, where the result is infinite.  Since the numbers of the model
are real numbers, what comes in the place of an infinite result is left open: any real number.
-/

namespace R1CS

/-- The functions of the platform, and what comes in the place of infinite results. -/
structure F64 extends Libm where
  infinite : ℝ → ℝ

namespace F64

variable (L : F64)

/-- Rounding to an `f64`: to a multiple of the unit in the last place, which is not smaller than 2^-1074; what
is 2^1024 or larger after rounding is infinite. -/
noncomputable def rnd (x : ℝ) : ℝ :=
  let ulp : ℝ := 2 ^ (max (Int.log 2 |x|) (-1022) - 52)
  let r := roundEven (x / ulp) * ulp
  if |r| < 2 ^ 1024 then r else L.infinite x

/-- `x.log(base)`, which the standard library calculates as `x.ln() / base.ln()`. -/
noncomputable def log (x base : ℝ) : ℝ := L.rnd (L.ln x / L.ln base)

variable (p : ℕ) [Fact p.Prime]

/-- `min_n_m` (src/poseidon.rs:294-298). -/
noncomputable def minNM (securityBits : ℕ) : ℝ := L.rnd (min securityBits (Elem.maxBits p) : ℕ)

open Classical in
/-- `is_attackable_exponentiation_3` (src/poseidon.rs:259-269). -/
noncomputable def isAttackable3 (width full partial_ securityBits : ℕ) : Option Bool :=
  if width = 0 then none else
  let inequality1 := decide (L.rnd (full + partial_ : ℕ) ≤
    L.rnd (L.rnd (L.log 2 3 * L.minNM p securityBits) + L.log2 (L.rnd width)))
  let inequality2a := decide (L.rnd (full + partial_ : ℕ) ≤ L.rnd (L.rnd 0.32 * L.minNM p securityBits))
  let inequality2b := decide (L.rnd ((width - 1) * full + partial_ : ℕ) ≤
    L.rnd (L.rnd (L.rnd 0.18 * L.minNM p securityBits) - 1))
  some (inequality1 || inequality2a || inequality2b)

open Classical in
/-- `is_attackable_exponentiation_5` (src/poseidon.rs:271-281). -/
noncomputable def isAttackable5 (width full partial_ securityBits : ℕ) : Option Bool :=
  if width = 0 then none else
  let inequality1 := decide (L.rnd (full + partial_ : ℕ) ≤
    L.rnd (L.rnd (L.log 2 5 * L.minNM p securityBits) + L.log2 (L.rnd width)))
  let inequality2a := decide (L.rnd (full + partial_ : ℕ) ≤ L.rnd (L.rnd 0.21 * L.minNM p securityBits))
  let inequality2b := decide (L.rnd ((width - 1) * full + partial_ : ℕ) ≤
    L.rnd (L.rnd (L.rnd 0.14 * L.minNM p securityBits) - 1))
  some (inequality1 || inequality2a || inequality2b)

open Classical in
/-- `is_attackable_inverse` (src/poseidon.rs:283-292). -/
noncomputable def isAttackableInverse (width full partial_ securityBits : ℕ) : Option Bool :=
  if width = 0 then none else
  let inequality1 := decide (L.rnd (L.rnd (L.rnd full * L.log2 (L.rnd width)) + L.rnd partial_) ≤
    L.rnd (L.rnd (L.log2 (L.rnd width) + 0.5) + L.minNM p securityBits))
  let inequality2 := decide (L.rnd ((width - 1) * full + partial_ : ℕ) ≤
    L.rnd (L.rnd (0.25 * L.minNM p securityBits) - 1))
  some (inequality1 || inequality2)

/-- `is_attackable` (src/poseidon.rs:246-257). -/
noncomputable def isAttackable : PoseidonSbox → ℕ → ℕ → ℕ → ℕ → Option Bool
  | .exponentiation3 => L.isAttackable3 p
  | .exponentiation5 => L.isAttackable5 p
  | .inverse => L.isAttackableInverse p

/-- The loop of `secure_partial_rounds_unpadded` (src/poseidon.rs:237-243), bounded as in
`Libm.partialLoop`. -/
noncomputable def partialLoop (sbox : PoseidonSbox) (width full securityBits : ℕ) :
    ℕ → ℕ → Option ℕ
  | 0, _ => none
  | fuel + 1, partial_ => do
    let a ← L.isAttackable p sbox width full partial_ securityBits
    if a then partialLoop sbox width full securityBits fuel (partial_ + 1) else return partial_

/-- `secure_partial_rounds_unpadded` (src/poseidon.rs:232-244). -/
noncomputable def securePartialRounds (sbox : PoseidonSbox) (width full securityBits : ℕ) : Option ℕ :=
  L.partialLoop p sbox width full securityBits (securityBits + width + 4) 0

/-- The loop of `secure_num_rounds_unpadded` (src/poseidon.rs:212-229), bounded as in
`Libm.roundsLoop`. -/
noncomputable def roundsLoop (sbox : PoseidonSbox) (width securityBits : ℕ) :
    ℕ → ℕ → ℕ × ℕ → ℕ → Option (ℕ × ℕ)
  | 0, _, _, _ => none
  | fuel + 1, full, bestRounds, bestSboxes => do
    let full := full + 2
    let partial_ ← L.securePartialRounds p sbox width full securityBits
    let sboxes := Poseidon.numSboxes width full partial_
    if bestSboxes < sboxes then return bestRounds
    else roundsLoop sbox width securityBits fuel full (full, partial_) sboxes

/-- `secure_num_rounds_unpadded` (src/poseidon.rs:202-230). -/
noncomputable def secureRoundsUnpadded (sbox : PoseidonSbox) (width securityBits : ℕ) :
    Option (ℕ × ℕ) := do
  let full := 6
  let partial_ ← L.securePartialRounds p sbox width full securityBits
  L.roundsLoop p sbox width securityBits (securityBits + width + 4) full (full, partial_)
    (Poseidon.numSboxes width full partial_)

/-- `secure_num_rounds_padded` (src/poseidon.rs:192-200): `round` is exact and rounds to the nearest
integer, halves up. -/
noncomputable def secureRoundsPadded (sbox : PoseidonSbox) (width securityBits : ℕ) :
    Option (ℕ × ℕ) := do
  let (full, partial_) ← L.secureRoundsUnpadded p sbox width securityBits
  return (full + 2, ⌊L.rnd (L.rnd partial_ * L.rnd 1.075) + 1 / 2⌋₊)

/-- `mimc_recommended_rounds` (src/mimc.rs:107-111): `ceil` is exact. -/
noncomputable def recommendedRounds : ℕ := ⌈L.rnd (L.rnd (Elem.maxBits p : ℕ) / L.log2 3)⌉₊

end F64

end R1CS
