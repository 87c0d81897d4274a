import Mathlib.Algebra.Field.Basic
import Mathlib.Algebra.Group.Even

/-!
# Twisted Edwards curves, as in the literature

Bernstein, Birkner, Joye, Lange, Peters: Twisted Edwards curves.  Nothing here refers to the code.
-/

namespace R1CS

namespace Edwards

variable {F : Type} [Field F]

/-- The curve equation. -/
def OnCurve (a d x y : F) : Prop := a * x ^ 2 + y ^ 2 = 1 + d * x ^ 2 * y ^ 2

/-- The first coordinate of the sum of two points. -/
def sumX (d x₁ y₁ x₂ y₂ : F) : F := (x₁ * y₂ + y₁ * x₂) / (1 + d * x₁ * x₂ * y₁ * y₂)

/-- The second coordinate of the sum of two points. -/
def sumY (a d x₁ y₁ x₂ y₂ : F) : F := (y₁ * y₂ - a * x₁ * x₂) / (1 - d * x₁ * x₂ * y₁ * y₂)

/-- The condition under which the addition law has no exceptions. -/
class Complete (a d : F) : Prop where
  two_ne : (2 : F) ≠ 0
  square : IsSquare a
  nonsquare : ¬ IsSquare d

/-- The points of the curve. -/
@[ext] structure Point (a d : F) where
  x : F
  y : F
  on : OnCurve a d x y

end Edwards

end R1CS
