import Verif.Spec.Honest
import Verif.Lemmas.Logic
import Mathlib.Tactic.NormNum.Prime

/-!
# Small concrete fields, used to show that the hypotheses of the theorems can be met
-/

namespace R1CS

instance fact7 : Fact (Nat.Prime 7) := ⟨by norm_num⟩
instance fact11 : Fact (Nat.Prime 11) := ⟨by norm_num⟩
instance fact13 : Fact (Nat.Prime 13) := ⟨by norm_num⟩
instance fact3 : Fact (Nat.Prime 3) := ⟨by norm_num⟩
instance fact2 : Fact (Nat.Prime 2) := ⟨by norm_num⟩

/-- Decidable checks on concrete circuits: all constraints hold. -/
def Constraint.holdsB {p : ℕ} [Fact p.Prime] (w : Assign p) (k : Constraint p) : Bool :=
  decide (k.a.eval w * k.b.eval w = k.c.eval w)

/-- Decidable form of `Satisfies`. -/
def satisfiesB {p : ℕ} [Fact p.Prime] (w : Assign p) (cs : List (Constraint p)) : Bool :=
  decide (w ONE = 1) && cs.all fun k => k.holdsB w

theorem satisfies_of_B {p : ℕ} [Fact p.Prime] {w : Assign p} {cs : List (Constraint p)}
    (h : satisfiesB w cs = true) : Satisfies w cs := by
  unfold satisfiesB at h
  rw [Bool.and_eq_true, List.all_eq_true] at h
  exact ⟨of_decide_eq_true h.1, fun c hc => by
    have := h.2 c hc
    unfold Constraint.holdsB at this
    unfold Constraint.Holds
    exact of_decide_eq_true this⟩

end R1CS
