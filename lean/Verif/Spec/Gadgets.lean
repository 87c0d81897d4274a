import Verif.Spec.Honest
import Verif.Model.Traits

/-!
# Specification vocabulary: gadgets implementing functions

A builder method with expressions as arguments and results implements a function on field elements
if every satisfying assignment relates the values as the function says (`Enforced…`), and if, in any
honest state, it succeeds and honest execution computes the function (`Computed…`).
-/

namespace R1CS

variable {p : ℕ} [hp : Fact p.Prime]

/-- The values of a list of expressions. -/
abbrev values (w : Assign p) (es : List (Expression p)) : List (Elem p) :=
  es.map fun e => e.eval w

/-- All expressions mention only wires with an index below `n`. -/
def ListScoped (n : ℕ) (es : List (Expression p)) : Prop := ∀ e ∈ es, e.Scoped n

/-- One argument, one result. -/
def Enforced1 (m : Expression p → B p (Expression p)) (f : Elem p → Elem p) : Prop :=
  ∀ x, Enforces (m x) fun z w => z.eval w = f (x.eval w)

/-- One argument, one result. -/
def Computed1 (m : Expression p → B p (Expression p)) (f : Elem p → Elem p) : Prop :=
  ∀ (s : Hon p) (x : Expression p), x.Scoped s.next →
    Computes (m x) s fun z s' => z.Scoped s'.next ∧ z.eval s'.W = f (x.eval s.W)

/-- Two arguments, one result. -/
def Enforced2 (m : Expression p → Expression p → B p (Expression p))
    (f : Elem p → Elem p → Elem p) : Prop :=
  ∀ x y, Enforces (m x y) fun z w => z.eval w = f (x.eval w) (y.eval w)

/-- Two arguments, one result. -/
def Computed2 (m : Expression p → Expression p → B p (Expression p))
    (f : Elem p → Elem p → Elem p) : Prop :=
  ∀ (s : Hon p) (x y : Expression p), x.Scoped s.next → y.Scoped s.next →
    Computes (m x y) s fun z s' => z.Scoped s'.next ∧ z.eval s'.W = f (x.eval s.W) (y.eval s.W)

/-- A list of `n` arguments, a list of results. -/
def EnforcedList (n : ℕ) (m : List (Expression p) → B p (List (Expression p)))
    (f : List (Elem p) → List (Elem p)) : Prop :=
  ∀ xs, Enforces (m xs) fun zs w => xs.length = n → values w zs = f (values w xs)

/-- A list of `n` arguments, a list of results. -/
def ComputedList (n : ℕ) (m : List (Expression p) → B p (List (Expression p)))
    (f : List (Elem p) → List (Elem p)) : Prop :=
  ∀ (s : Hon p) (xs : List (Expression p)), xs.length = n → ListScoped s.next xs →
    Computes (m xs) s fun zs s' => ListScoped s'.next zs ∧ values s'.W zs = f (values s.W xs)

end R1CS
