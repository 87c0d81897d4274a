import Verif.Model.Raw
import Verif.Model.Builder

/-!
# The stored data: vocabulary for C104

How the data of `Model/Raw.lean` (bare numbers, association lists) and those of the rest of the model belong
together.
-/

namespace R1CS.Raw

variable {p : ℕ}

/-- The numbers stored in a map of elements. -/
def stored (m : BMap Wire (Elem p)) : BMap Wire ℕ := m.map fun kv => (kv.1, kv.2.n)

/-- What is stored of an expression. -/
def expr (e : Expression p) : Expr := stored e.coefficients

/-- A map of values which is sorted, and whose entries are the values of a partial function. -/
structure Holds (m : Values) (v : WireValues p) : Prop where
  sorted : m.Pairwise (fun a b => Wire.cmp a.1 b.1 = .lt)
  get : ∀ w, BMap.get Wire.cmp w m = (v w).map (·.n)

/-- What an operation leads to: both panic, or both succeed with data which belong together. -/
def Agree (o : Option Values) (o' : Option (WireValues p)) : Prop :=
  (o = none ∧ o' = none) ∨ ∃ m v, o = some m ∧ o' = some v ∧ Holds m v

/-- A generator which declares the same inputs and, on data which belong together, leads to the same. -/
def GeneratorAgrees (r : RawGenerator) (g : WitnessGenerator p) : Prop :=
  r.inputs = g.inputs ∧ ∀ m v, Holds m v → Agree (r.generate m) (g.generate v)

/-- The gadget with the same constraints, and generators which agree. -/
def GadgetAgrees (r : RawGadget) (g : Gadget p) : Prop :=
  r.constraints = g.constraints.map (fun c => (expr c.a, expr c.b, expr c.c)) ∧
  List.Forall₂ GeneratorAgrees r.witnessGenerators g.witnessGenerators

end R1CS.Raw
