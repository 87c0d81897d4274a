import Mathlib.GroupTheory.Perm.Cycle.Basic
import Mathlib.Order.Fin.Basic
import Mathlib.Tactic.Group

/-!
# Two-colourings compatible with two pairings (the heart of Waksman's construction)
-/

namespace R1CS

variable {α : Type} [LinearOrder α]

/-- For two involutions without fixed points there is a colouring with two colours in which every
point differs from both its partners. -/
theorem exists_colouring (f g : Equiv.Perm α) (hf : ∀ x, f (f x) = x) (hg : ∀ x, g (g x) = x)
    (hf' : ∀ x, f x ≠ x) (hg' : ∀ x, g x ≠ x) :
    ∃ c : α → Bool, (∀ x, c (f x) = !c x) ∧ ∀ x, c (g x) = !c x := by
  let h : Equiv.Perm α := g * f
  have hff : f * f = 1 := by ext x; exact hf x
  have hgg : g * g = 1 := by ext x; exact hg x
  have hfi : f⁻¹ = f := inv_eq_of_mul_eq_one_right hff
  have hgi : g⁻¹ = g := inv_eq_of_mul_eq_one_right hgg
  have hi : h⁻¹ = f * g := by
    change (g * f)⁻¹ = _
    rw [mul_inv_rev, hfi, hgi]
  have hconj : f * h * f⁻¹ = h⁻¹ := by
    rw [hi, hfi]
    change f * (g * f) * f = _
    rw [mul_assoc, mul_assoc, hff, mul_one]
  have hz : ∀ m : ℤ, f * h ^ m = h ^ (-m) * f := by
    intro m
    have : f * h ^ m * f⁻¹ = h ^ (-m) := by
      rw [← conj_zpow, hconj, inv_zpow, zpow_neg]
    rw [← this]; group
  have hdiff : ∀ x, ¬ h.SameCycle x (f x) := by
    rintro x ⟨m, hm⟩
    have key : ∀ k : ℤ, f ((h ^ k) x) = (h ^ (m - k)) x := by
      intro k
      have := congrArg (· x) (hz k)
      simp only [Equiv.Perm.mul_apply] at this
      rw [this, ← hm, ← Equiv.Perm.mul_apply, ← zpow_add]
      congr 2; ring
    rcases Int.even_or_odd' m with ⟨k, hk | hk⟩
    · have := key k
      rw [hk, show 2 * k - k = k by ring] at this
      exact hf' _ this
    · have := key k
      rw [hk, show 2 * k + 1 - k = 1 + k by ring, zpow_add, zpow_one, Equiv.Perm.mul_apply] at this
      exact hg' (f ((h ^ k) x)) this.symm
  let q : α → Quotient (Equiv.Perm.SameCycle.setoid h) := fun x => Quotient.mk _ x
  have hq : ∀ x y, h.SameCycle x y → q x = q y := fun x y hxy => Quotient.sound hxy
  have hq' : ∀ x y, q x = q y → h.SameCycle x y := fun x y hxy => Quotient.exact hxy
  let o : α → α := fun x => (q x).out
  have ho : ∀ x, o x ≠ o (f x) := by
    intro x he
    apply hdiff x
    apply hq'
    have := congrArg q he
    have e : ∀ y, q (o y) = q y := fun y => Quotient.out_eq (q y)
    rwa [e, e] at this
  have hno : ∀ x y : α, x ≠ y → decide (x < y) = !decide (y < x) := by
    intro x y hxy
    rcases lt_trichotomy x y with h | h | h
    · simp [h, h.asymm]
    · exact absurd h hxy
    · simp [h, h.asymm]
  refine ⟨fun x => decide (o x < o (f x)), ?_, ?_⟩
  · intro x
    dsimp only
    rw [hf x]
    exact hno _ _ (ho x).symm
  · intro x
    dsimp only
    have e1 : o (g x) = o (f x) := by
      change (q (g x)).out = (q (f x)).out
      rw [hq (f x) (g x) ⟨1, by
        rw [zpow_one]; change g (f (f x)) = _; rw [hf]⟩]
    have e2 : o (f (g x)) = o x := by
      change (q (f (g x))).out = (q x).out
      rw [hq x (f (g x)) ⟨-1, by
        rw [zpow_neg, zpow_one, hi]; rfl⟩]
    rw [e1, e2]
    exact hno _ _ (ho x).symm

end R1CS
