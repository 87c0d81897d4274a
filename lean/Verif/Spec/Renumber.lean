import Verif.Spec.Language
import Verif.Model.Permutation
import Verif.Model.Curves
import Verif.Model.Hashes
import Verif.Model.Matrices
import Mathlib.Order.Monotone.Basic

/-!
# Specification vocabulary: circuits with their wires renumbered
-/

namespace R1CS

variable {p : ℕ} [hp : Fact p.Prime]

/-- New numbers for the wires, in the same order; the constant wire stays. -/
structure Renumbering where
  new : Wire → Wire
  mono : StrictMono new
  one : new ONE = ONE

instance : CoeFun Renumbering fun _ => Wire → Wire := ⟨Renumbering.new⟩

/-- Leave `m` numbers free after `n`. -/
def Renumbering.shift (n m : ℕ) : Renumbering where
  new i := if i ≤ n then i else i + m
  mono i j h := by
    have : i < j := h
    show (if i ≤ n then i else i + m) < if j ≤ n then j else j + m
    split <;> split <;> omega
  one := if_pos (Nat.zero_le n)

variable (r : Renumbering)

omit hp in
/-- The same combination of the renumbered wires. -/
def Expression.renumber (e : Expression p) : Expression p :=
  ⟨e.coefficients.map fun kv => (r kv.1, kv.2)⟩

omit hp in
/-- The same combination of the renumbered wires. -/
def BooleanExpression.renumber (e : BooleanExpression p) : BooleanExpression p :=
  ⟨e.expression.renumber r⟩

omit hp in
/-- The same digits over the renumbered wires. -/
def BinaryExpression.renumber (e : BinaryExpression p) : BinaryExpression p :=
  ⟨e.bits.map (BooleanExpression.renumber r)⟩

omit hp in
/-- The same constraint on the renumbered wires. -/
def Constraint.renumber (c : Constraint p) : Constraint p :=
  ⟨c.a.renumber r, c.b.renumber r, c.c.renumber r⟩

omit hp in
/-- The values, read through the new numbers. -/
def WireValues.through (v : WireValues p) : WireValues p := fun i => v (r i)

omit hp in
/-- A generator for the renumbered wires which does the same as the other one: it awaits the renumbered
wires, panics in the same situations, writes the same values to the renumbered wires, and touches no
other wires. -/
def WitnessGenerator.Alike (g g' : WitnessGenerator p) : Prop :=
  g'.inputs = g.inputs.map r ∧ ∀ v,
    (g'.generate v).map (WireValues.through r) = g.generate (v.through r) ∧
    ∀ u, g'.generate v = some u → ∀ i, (∀ j, r j ≠ i) → u i = v i

omit hp in
/-- The calls `m` and `m'` do the same up to new numbers for the wires, `f` renumbering the result: if
the wires to be allocated next correspond, then they panic together, or they allocate corresponding
wires, add the same constraints and generators in the same order, and return the same.  If `m` does not
panic, then only the wires which it allocates have to correspond. -/
def Alike {α β : Type} (f : α → β) (m : B p α) (m' : B p β) : Prop :=
  ∀ b b' : Builder p,
    (m b = none → (∀ k, b'.nextWireIndex + k = r (b.nextWireIndex + k)) → m' b' = none) ∧
    ∀ a c, m b = some (a, c) → b.nextWireIndex ≤ c.nextWireIndex ∧
      ((∀ k, b.nextWireIndex + k < c.nextWireIndex →
          b'.nextWireIndex + k = r (b.nextWireIndex + k)) →
        ∃ c', m' b' = some (f a, c') ∧
          c'.nextWireIndex + b.nextWireIndex = b'.nextWireIndex + c.nextWireIndex ∧
          ∃ cs gs gs', c.constraints = b.constraints ++ cs ∧
            c'.constraints = b'.constraints ++ cs.map (Constraint.renumber r) ∧
            c.witnessGenerators = b.witnessGenerators ++ gs ∧
            c'.witnessGenerators = b'.witnessGenerators ++ gs' ∧
            List.Forall₂ (WitnessGenerator.Alike r) gs gs')

/-! ## Larger objects -/

/-- Renumber a path. -/
abbrev MerklePath.renumber (path : MerklePath p) : MerklePath p :=
  ⟨path.pathBits.renumber r, path.siblings.map (Expression.renumber r)⟩

/-- Renumber a point. -/
abbrev EdwardsExpression.renumber (P : EdwardsExpression p) :
    EdwardsExpression p := ⟨P.x.renumber r, P.y.renumber r⟩

/-- Renumber a signature. -/
abbrev SignatureExpression.renumber (σ : SignatureExpression p) :
    SignatureExpression p := ⟨σ.s.renumber r, σ.e.renumber r⟩

/-- The same object over the renumbered wires. -/
def Obj.renumber : Obj p → Obj p
  | .expr e => .expr (e.renumber r)
  | .bool e => .bool (e.renumber r)
  | .bin e => .bin (e.renumber r)

namespace Alike

/-- A compression function which does not depend on the numbers of wires. -/
abbrev Pairwise (c : Expression p → Expression p → B p (Expression p)) : Prop :=
  ∀ x y, Alike r (Expression.renumber r) (c x y) (c (x.renumber r) (y.renumber r))

/-- The same for a function of many expressions. -/
abbrev Listwise (f : List (Expression p) → B p (List (Expression p))) : Prop :=
  ∀ xs, Alike r (List.map (Expression.renumber r)) (f xs) (f (xs.map (Expression.renumber r)))

/-- A group whose operations do not depend on the numbers of wires, `f` renumbering its
expressions. -/
structure Group {GE GX : Type} (f : GX → GX) (G : GroupOps p GE GX) : Prop where
  add : ∀ x y, Alike r f (G.addExpressions x y) (G.addExpressions (f x) (f y))
  double : ∀ x, Alike r f (G.doubleExpression x) (G.doubleExpression (f x))
  constant : ∀ e, G.ofElement e = f (G.ofElement e)
  components : ∀ x, G.toComponents (f x) = (G.toComponents x).map (Expression.renumber r)
  compressed : ∀ x, G.compressed (f x) = (G.compressed x).renumber r
  fromComponents : ∀ l, G.ofComponents (l.map (Expression.renumber r)) = (G.ofComponents l).map f

/-- What is to be known about the parts of an instruction which the instruction takes as given. -/
def Given : Op p → Prop
  | .function _ m _ _ _ _ => Listwise r m
  | .schnorrVerify _ _ h => Pairwise r h.code.compress
  | .merkleRoot h => Pairwise r h.code.compress
  | .assertMembership h => Pairwise r h.code.compress
  | _ => True

end Alike

end R1CS
