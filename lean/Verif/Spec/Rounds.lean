import Mathlib.Analysis.SpecialFunctions.Log.Base
import Verif.Model.Matrices

/-!
# The conditions of the Poseidon paper
-/

namespace R1CS

namespace Poseidon

/-- The three conditions which the Poseidon paper puts on the numbers of rounds for a power S-box, in
the form `coefficient * min(n, M)`; the logarithms are the coefficients of the interpolation attack. -/
structure ResistsPower (c1 c2 c3 m : ℝ) (w f r : ℕ) : Prop where
  interpolation : c1 * m + Real.logb 2 w < f + r
  groebner : c2 * m < f + r
  groebner' : c3 * m - 1 < (w - 1 : ℝ) * f + r

/-- The conditions for the inverse S-box. -/
structure ResistsInverse (m : ℝ) (w f r : ℕ) : Prop where
  interpolation : Real.logb 2 w + 1 / 2 + m < f * Real.logb 2 w + r
  groebner : m / 4 - 1 < (w - 1 : ℝ) * f + r

/-- Security against the attacks of the paper at level `min(n, M)`, where `n` is the number of bits of
the order and `M` the security level. -/
def Resists (p : ℕ) : PoseidonSbox → ℕ → ℕ → ℕ → ℕ → Prop
  | .exponentiation3, bits, w, f, r =>
    ResistsPower (Real.logb 3 2) (32 / 100) (18 / 100) (min bits (p - 1).size : ℕ) w f r
  | .exponentiation5, bits, w, f, r =>
    ResistsPower (Real.logb 5 2) (21 / 100) (14 / 100) (min bits (p - 1).size : ℕ) w f r
  | .inverse, bits, w, f, r => ResistsInverse (min bits (p - 1).size : ℕ) w f r

/-- `ResistsPower` with thresholds raised by the relative error `t`, or lowered if it is negative. -/
structure ResistsPowerUpTo (t c1 c2 c3 m : ℝ) (w f r : ℕ) : Prop where
  interpolation : (c1 * m + Real.logb 2 w) * (1 + t) < f + r
  groebner : c2 * m * (1 + t) < f + r
  groebner' : c3 * m * (1 + t) - 1 + t < (w - 1 : ℝ) * f + r

/-- `ResistsInverse` with thresholds raised by the relative error `t`, or lowered if it is negative. -/
structure ResistsInverseUpTo (t m : ℝ) (w f r : ℕ) : Prop where
  interpolation : (Real.logb 2 w + 1 / 2 + m) * (1 + t) < f * Real.logb 2 w + r
  groebner : m / 4 * (1 + t) - 1 + t < (w - 1 : ℝ) * f + r

/-- `Resists` with thresholds raised by the relative error `t`, or lowered if it is negative. -/
def ResistsUpTo (p : ℕ) (t : ℝ) : PoseidonSbox → ℕ → ℕ → ℕ → ℕ → Prop
  | .exponentiation3, bits, w, f, r =>
    ResistsPowerUpTo t (Real.logb 3 2) (32 / 100) (18 / 100) (min bits (p - 1).size : ℕ) w f r
  | .exponentiation5, bits, w, f, r =>
    ResistsPowerUpTo t (Real.logb 5 2) (21 / 100) (14 / 100) (min bits (p - 1).size : ℕ) w f r
  | .inverse, bits, w, f, r => ResistsInverseUpTo t (min bits (p - 1).size : ℕ) w f r

end Poseidon

end R1CS
