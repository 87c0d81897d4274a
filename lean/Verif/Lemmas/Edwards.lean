import Verif.Spec.Edwards
import Mathlib.Tactic.LinearCombination
import Mathlib.Tactic.FieldSimp
import Mathlib.Tactic.Ring
import Mathlib.Algebra.Group.Defs

/-!
# The group law of a complete twisted Edwards curve
-/

namespace R1CS

namespace Edwards

variable {F : Type} [Field F] {a d : F}

/-- The denominators of the addition law do not vanish (Bernstein and Lange). -/
theorem denominator_ne [hc : Complete a d] {x₁ y₁ x₂ y₂ ε : F} (h₁ : OnCurve a d x₁ y₁)
    (h₂ : OnCurve a d x₂ y₂) (hε : ε = d * x₁ * x₂ * y₁ * y₂) (hsq : ε ^ 2 = 1) : False := by
  obtain ⟨s, hs⟩ := hc.square
  have hne : ε ≠ 0 := by
    rintro rfl
    simp at hsq
  have hxy : x₁ * y₁ ≠ 0 := by
    intro h
    apply hne
    rw [hε]
    linear_combination d * x₂ * y₂ * h
  have hy₂ : y₂ ≠ 0 := by
    intro h
    apply hne
    rw [hε, h, mul_zero]
  unfold OnCurve at h₁ h₂
  have key : ∀ t : F, t ^ 2 = 1 → (s * x₁ + t * ε * y₁) ^ 2 =
      d * (x₁ * y₁) ^ 2 * (s * x₂ + t * y₂) ^ 2 := by
    intro t ht
    have e1 : d * (x₁ * y₁) ^ 2 * (d * (x₂ * y₂) ^ 2) = 1 := by
      rw [← hsq, hε]
      ring
    linear_combination (x₁ ^ 2 - d * x₁ ^ 2 * y₁ ^ 2 * x₂ ^ 2) * (-hs) + h₁ -
      d * x₁ ^ 2 * y₁ ^ 2 * h₂ + (ε ^ 2 * y₁ ^ 2 - d * x₁ ^ 2 * y₁ ^ 2 * y₂ ^ 2) * ht -
      e1 + y₁ ^ 2 * hsq + 2 * s * t * x₁ * y₁ * hε
  have square : ∀ t : F, t ^ 2 = 1 → s * x₂ + t * y₂ = 0 := by
    intro t ht
    by_contra h
    apply hc.nonsquare
    refine ⟨(s * x₁ + t * ε * y₁) / (x₁ * y₁ * (s * x₂ + t * y₂)), ?_⟩
    have hk := key t ht
    rw [div_mul_div_comm, eq_div_iff (mul_ne_zero (mul_ne_zero hxy h) (mul_ne_zero hxy h))]
    linear_combination -hk
  have hp := square 1 (by ring)
  have hm := square (-1) (by ring)
  have : (2 : F) * y₂ = 0 := by linear_combination hp - hm
  rcases mul_eq_zero.1 this with h | h
  · exact hc.two_ne h
  · exact hy₂ h

theorem plus_ne [Complete a d] {x₁ y₁ x₂ y₂ : F} (h₁ : OnCurve a d x₁ y₁)
    (h₂ : OnCurve a d x₂ y₂) : 1 + d * x₁ * x₂ * y₁ * y₂ ≠ 0 := fun h =>
  denominator_ne h₁ h₂ rfl (by linear_combination (d * x₁ * x₂ * y₁ * y₂ - 1) * h)

theorem minus_ne [Complete a d] {x₁ y₁ x₂ y₂ : F} (h₁ : OnCurve a d x₁ y₁)
    (h₂ : OnCurve a d x₂ y₂) : 1 - d * x₁ * x₂ * y₁ * y₂ ≠ 0 := fun h =>
  denominator_ne h₁ h₂ rfl (by linear_combination -(d * x₁ * x₂ * y₁ * y₂ + 1) * h)

/-- The sum lies on the curve if the denominators do not vanish. -/
theorem onCurve_sum {x₁ y₁ x₂ y₂ : F} (h₁ : OnCurve a d x₁ y₁)
    (h₂ : OnCurve a d x₂ y₂) (hp : 1 + d * x₁ * x₂ * y₁ * y₂ ≠ 0)
    (hm : 1 - d * x₁ * x₂ * y₁ * y₂ ≠ 0) :
    OnCurve a d (sumX d x₁ y₁ x₂ y₂) (sumY a d x₁ y₁ x₂ y₂) := by
  unfold OnCurve sumX sumY at *
  have hcl : a * (x₁ * y₂ + y₁ * x₂) ^ 2 * (1 - d * x₁ * x₂ * y₁ * y₂) ^ 2 +
      (y₁ * y₂ - a * x₁ * x₂) ^ 2 * (1 + d * x₁ * x₂ * y₁ * y₂) ^ 2 =
      (1 + d * x₁ * x₂ * y₁ * y₂) ^ 2 * (1 - d * x₁ * x₂ * y₁ * y₂) ^ 2 +
      d * (x₁ * y₂ + y₁ * x₂) ^ 2 * (y₁ * y₂ - a * x₁ * x₂) ^ 2 := by
    linear_combination (-a ^ 2 * d * x₁ ^ 2 * x₂ ^ 4 * y₂ ^ 2 - 2 * a ^ 2 * x₂ ^ 4 * y₂ ^ 2 + a ^
      2 * x₂ ^ 4 + a * d ^ 2 * x₁ ^ 2 * x₂ ^ 4 * y₂ ^ 4 - a * d * x₁ ^ 2 * x₂ ^ 2 * y₂ ^ 4 - a * d
      * y₁ ^ 2 * x₂ ^ 4 * y₂ ^ 2 + 2 * a * d * x₂ ^ 4 * y₂ ^ 4 - 2 * a * x₂ ^ 2 * y₂ ^ 4 + 4 * a *
      x₂ ^ 2 * y₂ ^ 2 + d ^ 3 * x₁ ^ 2 * y₁ ^ 2 * x₂ ^ 4 * y₂ ^ 4 + d ^ 2 * y₁ ^ 2 * x₂ ^ 4 * y₂ ^
      4 - d ^ 2 * x₂ ^ 4 * y₂ ^ 4 - d * y₁ ^ 2 * x₂ ^ 2 * y₂ ^ 4 - 2 * d * x₂ ^ 2 * y₂ ^ 2 + y₂ ^
      4) * h₁ + (a ^ 2 * d * x₁ ^ 4 * x₂ ^ 2 * y₂ ^ 2 + 2 * a ^ 2 * x₁ ^ 2 * x₂ ^ 2 * y₂ ^ 2 - a ^
      2 * x₁ ^ 2 * x₂ ^ 2 - 2 * a * d * x₁ ^ 2 * x₂ ^ 2 * y₂ ^ 2 - a * x₁ ^ 2 * y₂ ^ 2 + 2 * a *
      y₁ ^ 2 * x₂ ^ 2 * y₂ ^ 2 - a * y₁ ^ 2 * x₂ ^ 2 - 2 * a * x₂ ^ 2 * y₂ ^ 2 + a * x₂ ^ 2 + d *
      y₁ ^ 4 * x₂ ^ 2 * y₂ ^ 2 - 2 * d * y₁ ^ 2 * x₂ ^ 2 * y₂ ^ 2 + d * x₂ ^ 2 * y₂ ^ 2 - y₁ ^ 2 *
      y₂ ^ 2 + y₂ ^ 2 + 1) * h₂
  generalize 1 + d * x₁ * x₂ * y₁ * y₂ = P at *
  generalize 1 - d * x₁ * x₂ * y₁ * y₂ = M at *
  rw [div_pow, div_pow]
  field_simp
  linear_combination hcl

/-- Cross-multiplied associativity, first coordinate. -/
theorem assoc_x {x₁ y₁ x₂ y₂ x₃ y₃ : F} (h₁ : OnCurve a d x₁ y₁) (h₂ : OnCurve a d x₂ y₂)
    (h₃ : OnCurve a d x₃ y₃) :
    ((x₁ * y₂ + y₁ * x₂) * (1 - d * x₁ * x₂ * y₁ * y₂) * y₃ +
      (y₁ * y₂ - a * x₁ * x₂) * (1 + d * x₁ * x₂ * y₁ * y₂) * x₃) *
      ((1 + d * x₂ * x₃ * y₂ * y₃) * (1 - d * x₂ * x₃ * y₂ * y₃) +
        d * x₁ * (x₂ * y₃ + y₂ * x₃) * y₁ * (y₂ * y₃ - a * x₂ * x₃)) =
    (x₁ * (y₂ * y₃ - a * x₂ * x₃) * (1 + d * x₂ * x₃ * y₂ * y₃) +
      y₁ * (x₂ * y₃ + y₂ * x₃) * (1 - d * x₂ * x₃ * y₂ * y₃)) *
      ((1 + d * x₁ * x₂ * y₁ * y₂) * (1 - d * x₁ * x₂ * y₁ * y₂) +
        d * (x₁ * y₂ + y₁ * x₂) * x₃ * (y₁ * y₂ - a * x₁ * x₂) * y₃) := by
  unfold OnCurve at h₁ h₂ h₃
  linear_combination (-a ^ 2 * d * x₁ * x₂ ^ 4 * y₂ * x₃ ^ 2 * y₃ - a ^ 2 * d * x₁ * x₂ ^ 3 * y₂
    ^ 2 * x₃ ^ 3 + a * d ^ 2 * x₁ * x₂ ^ 4 * y₂ ^ 3 * x₃ ^ 2 * y₃ + a * d * x₁ * x₂ ^ 3 * y₂ ^ 2
    * x₃ - a * d * y₁ * x₂ ^ 4 * y₂ * x₃ * y₃ ^ 2 + a * d * y₁ * x₂ ^ 2 * y₂ ^ 3 * x₃ ^ 3 - d ^
    2 * x₁ * x₂ ^ 3 * y₂ ^ 4 * x₃ * y₃ ^ 2 + d ^ 2 * y₁ * x₂ ^ 4 * y₂ ^ 3 * x₃ * y₃ ^ 2 + d ^ 2
    * y₁ * x₂ ^ 3 * y₂ ^ 4 * x₃ ^ 2 * y₃ + d * x₁ * x₂ ^ 2 * y₂ ^ 3 * y₃ ^ 3 - d * x₁ * x₂ ^ 2 *
    y₂ ^ 3 * y₃ + d * x₁ * x₂ * y₂ ^ 4 * x₃ * y₃ ^ 2 + d * y₁ * x₂ ^ 3 * y₂ ^ 2 * y₃ ^ 3 - d *
    y₁ * x₂ ^ 3 * y₂ ^ 2 * y₃ - d * y₁ * x₂ ^ 2 * y₂ ^ 3 * x₃ - d * y₁ * x₂ * y₂ ^ 4 * x₃ ^ 2 *
    y₃) * h₁ + (-a ^ 3 * x₁ ^ 3 * x₂ * x₃ ^ 3 + a ^ 2 * d * x₁ ^ 3 * x₂ ^ 2 * y₂ * x₃ ^ 2 * y₃ +
    a ^ 2 * d * x₁ ^ 3 * x₂ * x₃ ^ 3 * y₃ ^ 2 - a ^ 2 * x₁ ^ 3 * x₂ * x₃ * y₃ ^ 2 + a ^ 2 * x₁ ^
    3 * x₂ * x₃ + a ^ 2 * x₁ ^ 3 * y₂ * x₃ ^ 2 * y₃ + a ^ 2 * x₁ ^ 2 * y₁ * x₂ * x₃ ^ 2 * y₃ + a
    ^ 2 * x₁ ^ 2 * y₁ * y₂ * x₃ ^ 3 - a ^ 2 * x₁ * y₁ ^ 2 * x₂ * x₃ ^ 3 + a ^ 2 * x₁ * x₂ * x₃ ^
    3 - a * d ^ 2 * x₁ ^ 2 * y₁ * x₂ ^ 2 * y₂ * x₃ ^ 3 * y₃ ^ 2 - a * d * x₁ ^ 3 * x₂ * y₂ ^ 2 *
    x₃ * y₃ ^ 2 - a * d * x₁ ^ 3 * y₂ * x₃ ^ 2 * y₃ ^ 3 + a * d * x₁ ^ 2 * y₁ * x₂ ^ 2 * y₂ * x₃
    * y₃ ^ 2 + a * d * x₁ ^ 2 * y₁ * x₂ * y₂ ^ 2 * x₃ ^ 2 * y₃ - a * d * x₁ ^ 2 * y₁ * x₂ * x₃ ^
    2 * y₃ ^ 3 - a * d * x₁ ^ 2 * y₁ * y₂ * x₃ ^ 3 * y₃ ^ 2 + a * d * x₁ * y₁ ^ 2 * x₂ ^ 2 * y₂
    * x₃ ^ 2 * y₃ + a * d * x₁ * y₁ ^ 2 * x₂ * x₃ ^ 3 * y₃ ^ 2 - a * d * x₁ * x₂ ^ 2 * y₂ * x₃ ^
    2 * y₃ - a * d * x₁ * x₂ * x₃ ^ 3 * y₃ ^ 2 + a * x₁ ^ 3 * y₂ * y₃ ^ 3 - a * x₁ ^ 3 * y₂ * y₃
    + a * x₁ ^ 2 * y₁ * x₂ * y₃ ^ 3 - a * x₁ ^ 2 * y₁ * x₂ * y₃ + a * x₁ ^ 2 * y₁ * y₂ * x₃ * y₃
    ^ 2 - a * x₁ ^ 2 * y₁ * y₂ * x₃ - a * x₁ * y₁ ^ 2 * x₂ * x₃ * y₃ ^ 2 + a * x₁ * y₁ ^ 2 * x₂
    * x₃ + a * x₁ * y₁ ^ 2 * y₂ * x₃ ^ 2 * y₃ + a * x₁ * x₂ * x₃ * y₃ ^ 2 - a * x₁ * x₂ * x₃ - a
    * x₁ * y₂ * x₃ ^ 2 * y₃ + a * y₁ ^ 3 * x₂ * x₃ ^ 2 * y₃ + a * y₁ ^ 3 * y₂ * x₃ ^ 3 - a * y₁
    * x₂ * x₃ ^ 2 * y₃ - a * y₁ * y₂ * x₃ ^ 3 - d ^ 2 * x₁ ^ 2 * y₁ * x₂ * y₂ ^ 2 * x₃ ^ 2 * y₃
    ^ 3 - d ^ 2 * x₁ * y₁ ^ 2 * x₂ ^ 2 * y₂ * x₃ ^ 2 * y₃ ^ 3 + d ^ 2 * x₁ * y₁ ^ 2 * x₂ * y₂ ^
    2 * x₃ ^ 3 * y₃ ^ 2 - d * x₁ * y₁ ^ 2 * x₂ * y₂ ^ 2 * x₃ * y₃ ^ 2 - d * x₁ * y₁ ^ 2 * y₂ *
    x₃ ^ 2 * y₃ ^ 3 + d * x₁ * x₂ * y₂ ^ 2 * x₃ * y₃ ^ 2 + d * x₁ * y₂ * x₃ ^ 2 * y₃ ^ 3 + d *
    y₁ ^ 3 * x₂ ^ 2 * y₂ * x₃ * y₃ ^ 2 + d * y₁ ^ 3 * x₂ * y₂ ^ 2 * x₃ ^ 2 * y₃ - d * y₁ ^ 3 *
    x₂ * x₃ ^ 2 * y₃ ^ 3 - d * y₁ ^ 3 * y₂ * x₃ ^ 3 * y₃ ^ 2 - d * y₁ * x₂ ^ 2 * y₂ * x₃ * y₃ ^
    2 - d * y₁ * x₂ * y₂ ^ 2 * x₃ ^ 2 * y₃ + d * y₁ * x₂ * x₃ ^ 2 * y₃ ^ 3 + d * y₁ * y₂ * x₃ ^
    3 * y₃ ^ 2 + x₁ * y₁ ^ 2 * y₂ * y₃ ^ 3 - x₁ * y₁ ^ 2 * y₂ * y₃ - x₁ * y₂ * y₃ ^ 3 + x₁ * y₂
    * y₃ + y₁ ^ 3 * x₂ * y₃ ^ 3 - y₁ ^ 3 * x₂ * y₃ + y₁ ^ 3 * y₂ * x₃ * y₃ ^ 2 - y₁ ^ 3 * y₂ *
    x₃ - y₁ * x₂ * y₃ ^ 3 + y₁ * x₂ * y₃ - y₁ * y₂ * x₃ * y₃ ^ 2 + y₁ * y₂ * x₃) * h₂ + (a ^ 3 *
    x₁ ^ 3 * x₂ ^ 3 * x₃ - a ^ 2 * x₁ ^ 3 * x₂ ^ 2 * y₂ * y₃ + a ^ 2 * x₁ ^ 3 * x₂ * y₂ ^ 2 * x₃
    - a ^ 2 * x₁ ^ 3 * x₂ * x₃ - a ^ 2 * x₁ ^ 2 * y₁ * x₂ ^ 3 * y₃ - a ^ 2 * x₁ ^ 2 * y₁ * x₂ ^
    2 * y₂ * x₃ + a ^ 2 * x₁ * y₁ ^ 2 * x₂ ^ 3 * x₃ - a ^ 2 * x₁ * x₂ ^ 3 * x₃ + a * d * x₁ ^ 2
    * y₁ * x₂ ^ 2 * y₂ * x₃ - a * x₁ ^ 3 * y₂ ^ 3 * y₃ + a * x₁ ^ 3 * y₂ * y₃ - a * x₁ ^ 2 * y₁
    * x₂ * y₂ ^ 2 * y₃ + a * x₁ ^ 2 * y₁ * x₂ * y₃ - a * x₁ ^ 2 * y₁ * y₂ ^ 3 * x₃ + a * x₁ ^ 2
    * y₁ * y₂ * x₃ - a * x₁ * y₁ ^ 2 * x₂ ^ 2 * y₂ * y₃ + a * x₁ * y₁ ^ 2 * x₂ * y₂ ^ 2 * x₃ - a
    * x₁ * y₁ ^ 2 * x₂ * x₃ + a * x₁ * x₂ ^ 2 * y₂ * y₃ - a * x₁ * x₂ * y₂ ^ 2 * x₃ + a * x₁ *
    x₂ * x₃ - a * y₁ ^ 3 * x₂ ^ 3 * y₃ - a * y₁ ^ 3 * x₂ ^ 2 * y₂ * x₃ + a * y₁ * x₂ ^ 3 * y₃ +
    a * y₁ * x₂ ^ 2 * y₂ * x₃ + d * x₁ ^ 2 * y₁ * x₂ * y₂ ^ 2 * y₃ + d * x₁ * y₁ ^ 2 * x₂ ^ 2 *
    y₂ * y₃ - d * x₁ * y₁ ^ 2 * x₂ * y₂ ^ 2 * x₃ - x₁ * y₁ ^ 2 * y₂ ^ 3 * y₃ + x₁ * y₁ ^ 2 * y₂
    * y₃ + x₁ * y₂ ^ 3 * y₃ - x₁ * y₂ * y₃ - y₁ ^ 3 * x₂ * y₂ ^ 2 * y₃ + y₁ ^ 3 * x₂ * y₃ - y₁ ^
    3 * y₂ ^ 3 * x₃ + y₁ ^ 3 * y₂ * x₃ + y₁ * x₂ * y₂ ^ 2 * y₃ - y₁ * x₂ * y₃ + y₁ * y₂ ^ 3 * x₃
    - y₁ * y₂ * x₃) * h₃

/-- Cross-multiplied associativity, second coordinate. -/
theorem assoc_y {x₁ y₁ x₂ y₂ x₃ y₃ : F} (h₁ : OnCurve a d x₁ y₁) (h₂ : OnCurve a d x₂ y₂)
    (h₃ : OnCurve a d x₃ y₃) :
    ((y₁ * y₂ - a * x₁ * x₂) * (1 + d * x₁ * x₂ * y₁ * y₂) * y₃ -
      a * ((x₁ * y₂ + y₁ * x₂) * (1 - d * x₁ * x₂ * y₁ * y₂)) * x₃) *
      ((1 + d * x₂ * x₃ * y₂ * y₃) * (1 - d * x₂ * x₃ * y₂ * y₃) -
        d * x₁ * (x₂ * y₃ + y₂ * x₃) * y₁ * (y₂ * y₃ - a * x₂ * x₃)) =
    (y₁ * (y₂ * y₃ - a * x₂ * x₃) * (1 + d * x₂ * x₃ * y₂ * y₃) -
      a * x₁ * ((x₂ * y₃ + y₂ * x₃) * (1 - d * x₂ * x₃ * y₂ * y₃))) *
      ((1 + d * x₁ * x₂ * y₁ * y₂) * (1 - d * x₁ * x₂ * y₁ * y₂) -
        d * (x₁ * y₂ + y₁ * x₂) * x₃ * (y₁ * y₂ - a * x₁ * x₂) * y₃) := by
  unfold OnCurve at h₁ h₂ h₃
  linear_combination (a ^ 2 * d * x₁ * x₂ ^ 4 * y₂ * x₃ * y₃ ^ 2 - a ^ 2 * d * x₁ * x₂ ^ 2 * y₂
    ^ 3 * x₃ ^ 3 - a ^ 2 * d * y₁ * x₂ ^ 4 * y₂ * x₃ ^ 2 * y₃ - a ^ 2 * d * y₁ * x₂ ^ 3 * y₂ ^ 2
    * x₃ ^ 3 - a * d ^ 2 * x₁ * x₂ ^ 4 * y₂ ^ 3 * x₃ * y₃ ^ 2 - a * d ^ 2 * x₁ * x₂ ^ 3 * y₂ ^ 4
    * x₃ ^ 2 * y₃ + a * d ^ 2 * y₁ * x₂ ^ 4 * y₂ ^ 3 * x₃ ^ 2 * y₃ - a * d * x₁ * x₂ ^ 3 * y₂ ^
    2 * y₃ ^ 3 + a * d * x₁ * x₂ ^ 3 * y₂ ^ 2 * y₃ + a * d * x₁ * x₂ ^ 2 * y₂ ^ 3 * x₃ + a * d *
    x₁ * x₂ * y₂ ^ 4 * x₃ ^ 2 * y₃ + a * d * y₁ * x₂ ^ 3 * y₂ ^ 2 * x₃ - d ^ 2 * y₁ * x₂ ^ 3 *
    y₂ ^ 4 * x₃ * y₃ ^ 2 + d * y₁ * x₂ ^ 2 * y₂ ^ 3 * y₃ ^ 3 - d * y₁ * x₂ ^ 2 * y₂ ^ 3 * y₃ + d
    * y₁ * x₂ * y₂ ^ 4 * x₃ * y₃ ^ 2) * h₁ + (-a ^ 3 * x₁ ^ 3 * x₂ * x₃ ^ 2 * y₃ - a ^ 3 * x₁ ^
    3 * y₂ * x₃ ^ 3 - a ^ 3 * x₁ ^ 2 * y₁ * x₂ * x₃ ^ 3 - a ^ 2 * d * x₁ ^ 3 * x₂ ^ 2 * y₂ * x₃
    * y₃ ^ 2 - a ^ 2 * d * x₁ ^ 3 * x₂ * y₂ ^ 2 * x₃ ^ 2 * y₃ + a ^ 2 * d * x₁ ^ 3 * x₂ * x₃ ^ 2
    * y₃ ^ 3 + a ^ 2 * d * x₁ ^ 3 * y₂ * x₃ ^ 3 * y₃ ^ 2 + a ^ 2 * d * x₁ ^ 2 * y₁ * x₂ ^ 2 * y₂
    * x₃ ^ 2 * y₃ + a ^ 2 * d * x₁ ^ 2 * y₁ * x₂ * x₃ ^ 3 * y₃ ^ 2 - a ^ 2 * x₁ ^ 3 * x₂ * y₃ ^
    3 + a ^ 2 * x₁ ^ 3 * x₂ * y₃ - a ^ 2 * x₁ ^ 3 * y₂ * x₃ * y₃ ^ 2 + a ^ 2 * x₁ ^ 3 * y₂ * x₃
    - a ^ 2 * x₁ ^ 2 * y₁ * x₂ * x₃ * y₃ ^ 2 + a ^ 2 * x₁ ^ 2 * y₁ * x₂ * x₃ + a ^ 2 * x₁ ^ 2 *
    y₁ * y₂ * x₃ ^ 2 * y₃ - a ^ 2 * x₁ * y₁ ^ 2 * x₂ * x₃ ^ 2 * y₃ - a ^ 2 * x₁ * y₁ ^ 2 * y₂ *
    x₃ ^ 3 + a ^ 2 * x₁ * x₂ * x₃ ^ 2 * y₃ + a ^ 2 * x₁ * y₂ * x₃ ^ 3 - a ^ 2 * y₁ ^ 3 * x₂ * x₃
    ^ 3 + a ^ 2 * y₁ * x₂ * x₃ ^ 3 - a * d ^ 2 * x₁ ^ 2 * y₁ * x₂ ^ 2 * y₂ * x₃ ^ 2 * y₃ ^ 3 + a
    * d ^ 2 * x₁ ^ 2 * y₁ * x₂ * y₂ ^ 2 * x₃ ^ 3 * y₃ ^ 2 + a * d ^ 2 * x₁ * y₁ ^ 2 * x₂ ^ 2 *
    y₂ * x₃ ^ 3 * y₃ ^ 2 - a * d * x₁ ^ 2 * y₁ * x₂ * y₂ ^ 2 * x₃ * y₃ ^ 2 - a * d * x₁ ^ 2 * y₁
    * y₂ * x₃ ^ 2 * y₃ ^ 3 - a * d * x₁ * y₁ ^ 2 * x₂ ^ 2 * y₂ * x₃ * y₃ ^ 2 - a * d * x₁ * y₁ ^
    2 * x₂ * y₂ ^ 2 * x₃ ^ 2 * y₃ + a * d * x₁ * y₁ ^ 2 * x₂ * x₃ ^ 2 * y₃ ^ 3 + a * d * x₁ * y₁
    ^ 2 * y₂ * x₃ ^ 3 * y₃ ^ 2 + a * d * x₁ * x₂ ^ 2 * y₂ * x₃ * y₃ ^ 2 + a * d * x₁ * x₂ * y₂ ^
    2 * x₃ ^ 2 * y₃ - a * d * x₁ * x₂ * x₃ ^ 2 * y₃ ^ 3 - a * d * x₁ * y₂ * x₃ ^ 3 * y₃ ^ 2 + a
    * d * y₁ ^ 3 * x₂ ^ 2 * y₂ * x₃ ^ 2 * y₃ + a * d * y₁ ^ 3 * x₂ * x₃ ^ 3 * y₃ ^ 2 - a * d *
    y₁ * x₂ ^ 2 * y₂ * x₃ ^ 2 * y₃ - a * d * y₁ * x₂ * x₃ ^ 3 * y₃ ^ 2 + a * x₁ ^ 2 * y₁ * y₂ *
    y₃ ^ 3 - a * x₁ ^ 2 * y₁ * y₂ * y₃ - a * x₁ * y₁ ^ 2 * x₂ * y₃ ^ 3 + a * x₁ * y₁ ^ 2 * x₂ *
    y₃ - a * x₁ * y₁ ^ 2 * y₂ * x₃ * y₃ ^ 2 + a * x₁ * y₁ ^ 2 * y₂ * x₃ + a * x₁ * x₂ * y₃ ^ 3 -
    a * x₁ * x₂ * y₃ + a * x₁ * y₂ * x₃ * y₃ ^ 2 - a * x₁ * y₂ * x₃ - a * y₁ ^ 3 * x₂ * x₃ * y₃
    ^ 2 + a * y₁ ^ 3 * x₂ * x₃ + a * y₁ ^ 3 * y₂ * x₃ ^ 2 * y₃ + a * y₁ * x₂ * x₃ * y₃ ^ 2 - a *
    y₁ * x₂ * x₃ - a * y₁ * y₂ * x₃ ^ 2 * y₃ + d ^ 2 * x₁ * y₁ ^ 2 * x₂ * y₂ ^ 2 * x₃ ^ 2 * y₃ ^
    3 - d * y₁ ^ 3 * x₂ * y₂ ^ 2 * x₃ * y₃ ^ 2 - d * y₁ ^ 3 * y₂ * x₃ ^ 2 * y₃ ^ 3 + d * y₁ * x₂
    * y₂ ^ 2 * x₃ * y₃ ^ 2 + d * y₁ * y₂ * x₃ ^ 2 * y₃ ^ 3 + y₁ ^ 3 * y₂ * y₃ ^ 3 - y₁ ^ 3 * y₂
    * y₃ - y₁ * y₂ * y₃ ^ 3 + y₁ * y₂ * y₃) * h₂ + (a ^ 3 * x₁ ^ 3 * x₂ ^ 3 * y₃ + a ^ 3 * x₁ ^
    3 * x₂ ^ 2 * y₂ * x₃ + a ^ 3 * x₁ ^ 2 * y₁ * x₂ ^ 3 * x₃ + a ^ 2 * x₁ ^ 3 * x₂ * y₂ ^ 2 * y₃
    - a ^ 2 * x₁ ^ 3 * x₂ * y₃ + a ^ 2 * x₁ ^ 3 * y₂ ^ 3 * x₃ - a ^ 2 * x₁ ^ 3 * y₂ * x₃ - a ^ 2
    * x₁ ^ 2 * y₁ * x₂ ^ 2 * y₂ * y₃ + a ^ 2 * x₁ ^ 2 * y₁ * x₂ * y₂ ^ 2 * x₃ - a ^ 2 * x₁ ^ 2 *
    y₁ * x₂ * x₃ + a ^ 2 * x₁ * y₁ ^ 2 * x₂ ^ 3 * y₃ + a ^ 2 * x₁ * y₁ ^ 2 * x₂ ^ 2 * y₂ * x₃ -
    a ^ 2 * x₁ * x₂ ^ 3 * y₃ - a ^ 2 * x₁ * x₂ ^ 2 * y₂ * x₃ + a ^ 2 * y₁ ^ 3 * x₂ ^ 3 * x₃ - a
    ^ 2 * y₁ * x₂ ^ 3 * x₃ + a * d * x₁ ^ 2 * y₁ * x₂ ^ 2 * y₂ * y₃ - a * d * x₁ ^ 2 * y₁ * x₂ *
    y₂ ^ 2 * x₃ - a * d * x₁ * y₁ ^ 2 * x₂ ^ 2 * y₂ * x₃ - a * x₁ ^ 2 * y₁ * y₂ ^ 3 * y₃ + a *
    x₁ ^ 2 * y₁ * y₂ * y₃ + a * x₁ * y₁ ^ 2 * x₂ * y₂ ^ 2 * y₃ - a * x₁ * y₁ ^ 2 * x₂ * y₃ + a *
    x₁ * y₁ ^ 2 * y₂ ^ 3 * x₃ - a * x₁ * y₁ ^ 2 * y₂ * x₃ - a * x₁ * x₂ * y₂ ^ 2 * y₃ + a * x₁ *
    x₂ * y₃ - a * x₁ * y₂ ^ 3 * x₃ + a * x₁ * y₂ * x₃ - a * y₁ ^ 3 * x₂ ^ 2 * y₂ * y₃ + a * y₁ ^
    3 * x₂ * y₂ ^ 2 * x₃ - a * y₁ ^ 3 * x₂ * x₃ + a * y₁ * x₂ ^ 2 * y₂ * y₃ - a * y₁ * x₂ * y₂ ^
    2 * x₃ + a * y₁ * x₂ * x₃ - d * x₁ * y₁ ^ 2 * x₂ * y₂ ^ 2 * y₃ - y₁ ^ 3 * y₂ ^ 3 * y₃ + y₁ ^
    3 * y₂ * y₃ + y₁ * y₂ ^ 3 * y₃ - y₁ * y₂ * y₃) * h₃

/-- Clearing the inner denominators of a sum. -/
theorem sumX_div {X Y P M x y : F} (hP : P ≠ 0) (hM : M ≠ 0) :
    sumX d (X / P) (Y / M) x y = (X * M * y + Y * P * x) / (P * M + d * X * x * Y * y) := by
  unfold sumX
  rw [show X / P * y + Y / M * x = (X * M * y + Y * P * x) / (P * M) by field_simp,
    show 1 + d * (X / P) * x * (Y / M) * y = (P * M + d * X * x * Y * y) / (P * M) by field_simp,
    div_div_div_cancel_right₀ (mul_ne_zero hP hM)]

theorem sumY_div {X Y P M x y : F} (hP : P ≠ 0) (hM : M ≠ 0) :
    sumY a d (X / P) (Y / M) x y =
      (Y * P * y - a * (X * M) * x) / (P * M - d * X * x * Y * y) := by
  unfold sumY
  rw [show Y / M * y - a * (X / P) * x = (Y * P * y - a * (X * M) * x) / (P * M) by field_simp,
    show 1 - d * (X / P) * x * (Y / M) * y = (P * M - d * X * x * Y * y) / (P * M) by field_simp,
    div_div_div_cancel_right₀ (mul_ne_zero hP hM)]

theorem plus_num_ne {X Y P M x y : F} (hP : P ≠ 0) (hM : M ≠ 0)
    (h : 1 + d * (X / P) * x * (Y / M) * y ≠ 0) : P * M + d * X * x * Y * y ≠ 0 := by
  intro h0
  apply h
  rw [show 1 + d * (X / P) * x * (Y / M) * y = (P * M + d * X * x * Y * y) / (P * M) by field_simp,
    h0, zero_div]

theorem minus_num_ne {X Y P M x y : F} (hP : P ≠ 0) (hM : M ≠ 0)
    (h : 1 - d * (X / P) * x * (Y / M) * y ≠ 0) : P * M - d * X * x * Y * y ≠ 0 := by
  intro h0
  apply h
  rw [show 1 - d * (X / P) * x * (Y / M) * y = (P * M - d * X * x * Y * y) / (P * M) by field_simp,
    h0, zero_div]

theorem sumX_comm (d x₁ y₁ x₂ y₂ : F) : sumX d x₁ y₁ x₂ y₂ = sumX d x₂ y₂ x₁ y₁ := by
  unfold sumX
  rw [show x₁ * y₂ + y₁ * x₂ = x₂ * y₁ + y₂ * x₁ by ring,
    show d * x₁ * x₂ * y₁ * y₂ = d * x₂ * x₁ * y₂ * y₁ by ring]

theorem sumY_comm (a d x₁ y₁ x₂ y₂ : F) : sumY a d x₁ y₁ x₂ y₂ = sumY a d x₂ y₂ x₁ y₁ := by
  unfold sumY
  rw [show y₁ * y₂ - a * x₁ * x₂ = y₂ * y₁ - a * x₂ * x₁ by ring,
    show d * x₁ * x₂ * y₁ * y₂ = d * x₂ * x₁ * y₂ * y₁ by ring]

namespace Point

instance : Zero (Point a d) := ⟨⟨0, 1, by unfold OnCurve; ring⟩⟩

instance : Neg (Point a d) := ⟨fun P => ⟨-P.x, P.y, by
  have := P.on
  unfold OnCurve at *
  linear_combination this⟩⟩

instance [Complete a d] : Add (Point a d) := ⟨fun P Q =>
  ⟨sumX d P.x P.y Q.x Q.y, sumY a d P.x P.y Q.x Q.y,
    onCurve_sum P.on Q.on (plus_ne P.on Q.on) (minus_ne P.on Q.on)⟩⟩

theorem zero_x : (0 : Point a d).x = 0 := rfl
theorem zero_y : (0 : Point a d).y = 1 := rfl
theorem neg_x (P : Point a d) : (-P).x = -P.x := rfl
theorem neg_y (P : Point a d) : (-P).y = P.y := rfl

variable [Complete a d]

theorem add_x (P Q : Point a d) : (P + Q).x = sumX d P.x P.y Q.x Q.y := rfl
theorem add_y (P Q : Point a d) : (P + Q).y = sumY a d P.x P.y Q.x Q.y := rfl

protected theorem add_comm' (P Q : Point a d) : P + Q = Q + P :=
  Point.ext (sumX_comm _ _ _ _ _) (sumY_comm _ _ _ _ _ _)

protected theorem zero_add' (P : Point a d) : 0 + P = P := by
  apply Point.ext
  · rw [add_x, zero_x, zero_y, sumX]
    simp
  · rw [add_y, zero_x, zero_y, sumY]
    simp

protected theorem neg_add' (P : Point a d) : -P + P = 0 := by
  have h := P.on
  have hm := minus_ne (-P).on P.on
  apply Point.ext
  · rw [add_x, neg_x, neg_y, sumX, zero_x]
    rw [show -P.x * P.y + P.y * P.x = 0 by ring, zero_div]
  · rw [add_y, sumY, zero_y, div_eq_iff hm, neg_x, neg_y]
    unfold OnCurve at h
    linear_combination h

theorem div_add (P Q R : Point a d) :
    1 + d * (P + Q).x * R.x * (P + Q).y * R.y ≠ 0 ∧ 1 - d * (P + Q).x * R.x * (P + Q).y * R.y ≠ 0 :=
  ⟨plus_ne (P + Q).on R.on, minus_ne (P + Q).on R.on⟩

protected theorem add_assoc' (P Q R : Point a d) : P + Q + R = P + (Q + R) := by
  have hp := plus_ne P.on Q.on
  have hm := minus_ne P.on Q.on
  have hp' := plus_ne Q.on R.on
  have hm' := minus_ne Q.on R.on
  obtain ⟨k1, k2⟩ := div_add P Q R
  obtain ⟨k3, k4⟩ := div_add Q R P
  have ax := assoc_x P.on Q.on R.on
  have ay := assoc_y P.on Q.on R.on
  rw [add_x, add_y] at k1 k2 k3 k4
  unfold sumX sumY at k1 k2 k3 k4
  have n1 := plus_num_ne hp hm k1
  have n2 := minus_num_ne hp hm k2
  have n3 := plus_num_ne hp' hm' k3
  have n4 := minus_num_ne hp' hm' k4
  apply Point.ext
  · have l : (P + Q + R).x = sumX d ((P.x * Q.y + P.y * Q.x) / (1 + d * P.x * Q.x * P.y * Q.y))
        ((P.y * Q.y - a * P.x * Q.x) / (1 - d * P.x * Q.x * P.y * Q.y)) R.x R.y := rfl
    have r : (P + (Q + R)).x = sumX d P.x P.y
        ((Q.x * R.y + Q.y * R.x) / (1 + d * Q.x * R.x * Q.y * R.y))
        ((Q.y * R.y - a * Q.x * R.x) / (1 - d * Q.x * R.x * Q.y * R.y)) := rfl
    rw [l, r, sumX_comm d P.x, sumX_div hp hm, sumX_div hp' hm', div_eq_div_iff n1 n3]
    linear_combination ax
  · have l : (P + Q + R).y = sumY a d ((P.x * Q.y + P.y * Q.x) / (1 + d * P.x * Q.x * P.y * Q.y))
        ((P.y * Q.y - a * P.x * Q.x) / (1 - d * P.x * Q.x * P.y * Q.y)) R.x R.y := rfl
    have r : (P + (Q + R)).y = sumY a d P.x P.y
        ((Q.x * R.y + Q.y * R.x) / (1 + d * Q.x * R.x * Q.y * R.y))
        ((Q.y * R.y - a * Q.x * R.x) / (1 - d * Q.x * R.x * Q.y * R.y)) := rfl
    rw [l, r, sumY_comm a d P.x, sumY_div hp hm, sumY_div hp' hm', div_eq_div_iff n2 n4]
    linear_combination ay

/-- The points of a complete twisted Edwards curve form a group. -/
instance : AddCommGroup (Point a d) where
  add_assoc := Point.add_assoc'
  zero_add := Point.zero_add'
  add_zero P := by rw [Point.add_comm', Point.zero_add']
  neg_add_cancel := Point.neg_add'
  add_comm := Point.add_comm'
  nsmul := nsmulRec
  zsmul := zsmulRec

end Point

end Edwards

end R1CS
