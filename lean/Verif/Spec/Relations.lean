import Verif.Spec.Forge

/-!
# Specification vocabulary: the relation a gadget defines

A constraint system defines a relation: between the values of the operands of a gadget and the
values which its result may take.  For a gadget computing a function the relation should be the
graph of the function.  `Admits` says exactly what the relation is.
-/

namespace R1CS

variable {p : ℕ} [hp : Fact p.Prime]

/-- The call `m`, made when `n` wires are allocated, admits exactly the results `R`: in any builder,
with any assignment `s.W` satisfying its constraints and `P`, a result (as observed by `obs`) is
related by `R` to the assignment if and only if the call succeeds and some assignment which agrees
with `s.W` on all earlier wires satisfies all constraints, old and new, and gives this result. -/
def AdmitsIf {α β : Type} (n : ℕ) (P : Assign p → Prop) (m : B p α) (obs : Assign p → α → β)
    (R : Assign p → β → Prop) : Prop :=
  ∀ s : Wit p, s.next = n → P s.W → ∀ r : β,
    (∃ (a : α) (b' : Builder p) (W : Assign p), m s.b = some (a, b') ∧
      Satisfies W b'.constraints ∧ (∀ i < n, W i = s.W i) ∧ obs W a = r) ↔ R s.W r

/-- The same without a condition on the assignment. -/
def Admits {α β : Type} (n : ℕ) (m : B p α) (obs : Assign p → α → β) (R : Assign p → β → Prop) :
    Prop := AdmitsIf n (fun _ => True) m obs R

/-- The call can be satisfied exactly if the earlier wires fulfil `R`. -/
def AdmitsWhen {α : Type} (n : ℕ) (m : B p α) (R : Assign p → Prop) : Prop :=
  Admits n m (fun _ _ => ()) fun W _ => R W

end R1CS
