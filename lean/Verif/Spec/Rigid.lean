import Verif.Spec.Relations
import Verif.Spec.Language

/-!
# Specification vocabulary: wires which are determined

Whether the wires which a call allocates, those of its result and all auxiliary ones, are determined
by the values of the earlier wires.  If not, whoever supplies the witness can choose among several for
the same statement.
-/

namespace R1CS

variable {p : ℕ} [hp : Fact p.Prime]

/-- The wires allocated by the call `m`, made when `n` wires are allocated, are determined by the
earlier wires, if these fulfil `P`: in any builder, any two assignments which satisfy the constraints
after the call and agree on the earlier wires agree on all wires. -/
def RigidIf {α : Type} (n : ℕ) (P : Assign p → Prop) (m : B p α) : Prop :=
  ∀ (b b' : Builder p) (a : α), b.nextWireIndex = n → m b = some (a, b') →
    ∀ W1 W2 : Assign p, Satisfies W1 b'.constraints → Satisfies W2 b'.constraints →
      (∀ i < n, W1 i = W2 i) → P W1 → ∀ i < b'.nextWireIndex, W1 i = W2 i

/-- The same without a condition on the earlier wires. -/
def Rigid {α : Type} (n : ℕ) (m : B p α) : Prop := RigidIf n (fun _ => True) m

/-- The same for a call whose result is used by others: moreover the call undoes no constraint and no
allocation, and the result satisfies `S` (usually: it refers to allocated wires only). -/
def Determined {α : Type} (n : ℕ) (m : B p α) (S : α → ℕ → Prop) : Prop :=
  Rigid n m ∧ ∀ (b b' : Builder p) (a : α), b.nextWireIndex = n → m b = some (a, b') →
    n ≤ b'.nextWireIndex ∧ S a b'.nextWireIndex ∧
    ∀ W, Satisfies W b'.constraints → Satisfies W b.constraints

/-- Among the assignments which fulfil `P` on the earlier wires, those determining the wires allocated
by the call `m` are exactly those which fulfil `R`: in any builder, with any assignment satisfying its
constraints and fulfilling `P`, there are two different ways to extend it to the wires allocated by
the call if and only if `R` fails. -/
def RigidIffIf {α : Type} (n : ℕ) (P : Assign p → Prop) (m : B p α) (R : Assign p → Prop) : Prop :=
  ∀ s : Wit p, s.next = n → P s.W →
    ((∃ (b' : Builder p) (a : α) (W1 W2 : Assign p), m s.b = some (a, b') ∧
      Satisfies W1 b'.constraints ∧ Satisfies W2 b'.constraints ∧
      (∀ i < n, W1 i = s.W i) ∧ (∀ i < n, W2 i = s.W i) ∧
      ∃ i < b'.nextWireIndex, W1 i ≠ W2 i) ↔ ¬ R s.W)

/-- The wires allocated by the call `m` are determined exactly if the earlier wires fulfil `R`. -/
def RigidIff {α : Type} (n : ℕ) (m : B p α) (R : Assign p → Prop) : Prop :=
  RigidIffIf n (fun _ => True) m R

/-! ## Permutation networks

A network of `n ≥ 3` consists of `n / 2` switches which the values enter, two smaller networks, and
`(n - 1) / 2` switches from which the values leave.  Switch `i` takes or gives the values `2i` and
`2i + 1`; a setting is a boolean for each switch, `true` meaning that it exchanges the two. -/

/-- The first outputs of `k` switches. -/
def firstOutputs (k : ℕ) (g : ℕ → Bool) (xs : List (Elem p)) : List (Elem p) :=
  (List.range k).map fun i => if g i then xs.getD (2 * i + 1) 0 else xs.getD (2 * i) 0

/-- The second outputs of `k` switches. -/
def secondOutputs (k : ℕ) (g : ℕ → Bool) (xs : List (Elem p)) : List (Elem p) :=
  (List.range k).map fun i => if g i then xs.getD (2 * i) 0 else xs.getD (2 * i + 1) 0

/-- What enters the first subnetwork. -/
def enteringFirst (g : ℕ → Bool) (xs : List (Elem p)) : List (Elem p) :=
  firstOutputs (xs.length / 2) g xs

/-- What enters the second subnetwork; if there is an odd number of values, the last one does so
directly. -/
def enteringSecond (g : ℕ → Bool) (xs : List (Elem p)) : List (Elem p) :=
  secondOutputs (xs.length / 2) g xs ++
    if xs.length % 2 = 0 then [] else [xs.getD (xs.length - 1) 0]

/-- What leaves the first subnetwork; if there is an even number of values, the last but one comes
directly from there. -/
def leavingFirst (g : ℕ → Bool) (ys : List (Elem p)) : List (Elem p) :=
  firstOutputs ((ys.length - 1) / 2) g ys ++
    if ys.length % 2 = 0 then [ys.getD (ys.length - 2) 0] else []

/-- What leaves the second subnetwork; the last value comes directly from there. -/
def leavingSecond (g : ℕ → Bool) (ys : List (Elem p)) : List (Elem p) :=
  secondOutputs ((ys.length - 1) / 2) g ys ++ [ys.getD (ys.length - 1) 0]

/-- With these settings of the outer switches, what leaves either subnetwork is a rearrangement of
what enters it. -/
def Balanced (xs ys : List (Elem p)) (g h : ℕ → Bool) : Prop :=
  (enteringFirst g xs).Perm (leavingFirst h ys) ∧ (enteringSecond g xs).Perm (leavingSecond h ys)

/-- There are two different settings of the switches of a network which carry one list to the other.
(The number bounds the depth; the length of the lists is enough.) -/
def TwoRoutes : ℕ → List (Elem p) → List (Elem p) → Prop
  | 0, _, _ => False
  | d + 1, xs, ys =>
    (xs.length = 2 ∧ xs.Perm ys ∧ ∀ x ∈ xs, ∀ y ∈ xs, x = y) ∨
    (3 ≤ xs.length ∧ ∃ g h, Balanced xs ys g h ∧
      ((∃ g' h', Balanced xs ys g' h' ∧
          ((∃ k < xs.length / 2, g k ≠ g' k) ∨ ∃ k < (xs.length - 1) / 2, h k ≠ h' k)) ∨
        TwoRoutes d (enteringFirst g xs) (leavingFirst h ys) ∨
        TwoRoutes d (enteringSecond g xs) (leavingSecond h ys)))

/-- The values on the two sides of a permutation network leave one of its outer switches in doubt: the
two values entering at a switch are equal; or the two values leaving at a switch are; or those
entering at one switch are those leaving at another. -/
def Doubtful (xs ys : List (Elem p)) : Prop :=
  (∃ (k : ℕ) (h : 2 * k + 1 < xs.length), xs[2 * k] = xs[2 * k + 1]) ∨
  (∃ (l : ℕ) (h : 2 * l + 2 < ys.length), ys[2 * l] = ys[2 * l + 1]) ∨
  ∃ (k l : ℕ) (h : 2 * k + 1 < xs.length) (h' : 2 * l + 2 < ys.length),
    xs[2 * k] = ys[2 * l] ∧ xs[2 * k + 1] = ys[2 * l + 1] ∨
    xs[2 * k] = ys[2 * l + 1] ∧ xs[2 * k + 1] = ys[2 * l]

/-- The result refers to allocated wires only. -/
abbrev InScope (z : Expression p) (k : ℕ) : Prop := z.Scoped k

/-- The results refer to allocated wires only. -/
abbrev AllInScope (zs : List (Expression p)) (k : ℕ) : Prop := ∀ z ∈ zs, z.Scoped k

/-- A function of one expression whose calls determine their wires. -/
def Determines1 (f : Expression p → B p (Expression p)) : Prop :=
  ∀ (n : ℕ) (x : Expression p), 1 ≤ n → x.Scoped n → Determined n (f x) InScope

/-- A function of two expressions whose calls determine their wires. -/
def Determines2 (f : Expression p → Expression p → B p (Expression p)) : Prop :=
  ∀ (n : ℕ) (x y : Expression p), 1 ≤ n → x.Scoped n → y.Scoped n → Determined n (f x y) InScope

/-- A function of a list of expressions whose calls determine their wires. -/
def DeterminesList (f : List (Expression p) → B p (List (Expression p))) : Prop :=
  ∀ (n : ℕ) (xs : List (Expression p)), 1 ≤ n → (∀ x ∈ xs, x.Scoped n) →
    Determined n (f xs) AllInScope

/-! ## Straight-line code -/

/-- The gadgets which pin their result down and, but for tests whether an element is zero, determine
all their wires. -/
def Op.Settled : Op p → Prop
  | .assertPermutation _ => False
  | .function _ m _ _ _ _ => DeterminesList m
  | .merkleRoot h => Determines2 h.code.compress
  | .assertMembership h => Determines2 h.code.compress
  | o => o.pinned = true

/-- The operation on the values is not a test whether an element is zero, or the element is not
zero. -/
def Op.Decisive : Op p → List (Val p) → Prop
  | .nonzero, [.elem x] => x ≠ 0
  | .zero, [.elem x] => x ≠ 0
  | .equal, [.elem x, .elem y] => x ≠ y
  | _, _ => True

namespace Circuit

/-- Every gadget of the circuit is settled. -/
def Settled (c : Circuit p) : Prop := ∀ i ∈ c, i.1.Settled

/-- No test of the code, run on the values, finds a zero. -/
def DecisiveFrom : Circuit p → List (Val p) → Prop
  | [], _ => True
  | i :: c, vs => (∀ args, (i.2.mapM fun j => vs[j]?) = some args → i.1.Decisive args) ∧
      ∀ vs', stepMeaning i vs = some vs' → DecisiveFrom c vs'

/-- No test of the code, run on the inputs, finds a zero. -/
def Decisive (c : Circuit p) (xs : List (Elem p)) : Prop := DecisiveFrom c (xs.map .elem)

end Circuit

end R1CS
