import Verif.Spec.Language

/-!
# Specification vocabulary: passes over the pending generators

`execute` enumerates the pending generators again and again (src/gadget.rs:27-46; a comment there asks
for something better).  Here is what it means that it needs few passes.
-/

namespace R1CS

variable {p : ℕ} [hp : Fact p.Prime]

omit hp in
/-- `InPasses k gs v v'`: `k` passes over the pending generators, each of them making progress, run all
of `gs` and lead from the values `v` to `v'`. -/
inductive InPasses : ℕ → List (WitnessGenerator p) → WireValues p → WireValues p → Prop
  | done (v : WireValues p) : InPasses 0 [] v v
  | pass {k : ℕ} {gs gs' : List (WitnessGenerator p)} {v v1 v' : WireValues p}
      (h : Gadget.pass gs v = some (gs', v1, true)) (h' : InPasses k gs' v1 v') :
      InPasses (k + 1) gs v v'

/-- A generator, wires which it sets whenever it returns, and the pass in which it runs at the latest
(counted from 0). -/
structure Slot (p : ℕ) where
  gen : WitnessGenerator p
  outs : List Wire
  time : ℕ

omit hp in
/-- The generator keeps the values there are and sets the wires. -/
def Slot.Sets (e : Slot p) : Prop :=
  KeepsValues e.gen.generate ∧
    ∀ v v', e.gen.generate v = some v' → ∀ o ∈ e.outs, (v' o).isSome

omit hp in
/-- A timetable: every input of a generator is among the wires `K`, which have values from the
beginning, or is set by a generator earlier in the list in the same pass or before, or by a generator
later in the list in an earlier pass. -/
def Timetable (K : Set Wire) (A : List (Slot p)) : Prop :=
  ∀ B e C, A = B ++ e :: C → ∀ i ∈ e.gen.inputs,
    i ∈ K ∨ (∃ f ∈ B, i ∈ f.outs ∧ f.time ≤ e.time) ∨ ∃ f ∈ C, i ∈ f.outs ∧ f.time < e.time

omit hp in
/-- The wires set in the first pass. -/
def Prompt (A : List (Slot p)) : Set Wire := {i | ∃ f ∈ A, f.time = 0 ∧ i ∈ f.outs}

omit hp in
/-- The generators which `m` adds have a timetable by which all of them run in the passes from 0 to
`d` if the wires `K` have values.  `Q` relates the result of `m` to the wires which have values when
the first pass arrives at the end of these generators. -/
def Timely {α : Type} (d : ℕ) (K : Set Wire) (m : B p α) (Q : α → Set Wire → Prop) : Prop :=
  ∀ b a b', m b = some (a, b') → ∃ A : List (Slot p),
    b'.witnessGenerators = b.witnessGenerators ++ A.map (·.gen) ∧
    (∀ e ∈ A, e.Sets ∧ e.time ≤ d) ∧ Timetable K A ∧ Q a (K ∪ Prompt A)

/-- The call `m`, made when `n` wires are allocated, needs more than `d` passes in every circuit of tidy
parts: take any tidy program `pre` on a new builder, then `m`, then any tidy program `k`, and any values
which leave out the wires allocated by `m`.  Passes which run all generators are more than `d`. -/
def Needs {α : Type} (d n : ℕ) (m : B p α) : Prop :=
  ∀ (γ δ : Type) (pre : B p γ) (k : γ → α → B p δ) (c : γ) (a : α) (z : δ)
    (b b1 b2 : Builder p), Tidy pre → (∀ c a, Tidy (k c a)) →
    pre Builder.new = some (c, b) → b.nextWireIndex = n → m b = some (a, b1) →
    k c a b1 = some (z, b2) →
    ∀ (v v' : WireValues p) (j : ℕ), (∀ i, n ≤ i → i < b1.nextWireIndex → v i = none) →
      InPasses j b2.build.witnessGenerators v v' → d < j

/-- The expression mentions only wires in `K`. -/
def Expression.Over (K : Set Wire) (e : Expression p) : Prop := ∀ i ∈ e.dependencies, i ∈ K

/-- The object mentions only wires in `K`. -/
def Obj.Over (K : Set Wire) : Obj p → Prop
  | .expr e => e.Over K
  | .bool e => e.expression.Over K
  | .bin e => ∀ b ∈ e.bits, b.expression.Over K

namespace Op

/-- The last pass in which a generator of the gadget runs, for the given number of operands.  The
gadgets whose generators are in the order of their dependencies need one pass.  `modulus` and
`divides` calculate the remainder after using it; the generators of a permutation network stand in
reverse order, layer by layer; `sort` calculates its outputs after using them in such a network. -/
def latest : Op p → ℕ → ℕ
  | modulus, _ => 1
  | divides, _ => 1
  | assertPermutation k, _ => Nat.clog 2 k
  | sortAscending, n => Nat.clog 2 n + 1
  | sortDescending, n => Nat.clog 2 n + 1
  | _, _ => 0

/-- The gadget, on `n` operands, needs the pass `d` in whatever circuit it is used: more than `d` passes.
(With a network of two elements it depends on what they are.  For an implementation of a function given
as a parameter it is asked for.) -/
def Lasts (d : ℕ) : Op p → ℕ → Prop
  | modulus, _ => d ≤ 1
  | divides, _ => d ≤ 1
  | assertPermutation k, n => d ≤ Nat.clog 2 k ∧ 3 ≤ k ∧ n = 2 * k
  | sortAscending, n => d ≤ Nat.clog 2 n + 1 ∧ n ≠ 2
  | sortDescending, n => d ≤ Nat.clog 2 n + 1 ∧ n ≠ 2
  | function k m _ _ _ _, _ => ∀ (n : ℕ) (xs : List (Expression p)), (∀ x ∈ xs, x.Scoped n) →
      xs.length = k → Needs d n (m xs)
  | _, _ => False

/-- For the gadgets with a parameter: the implementation given needs the passes from 0 to `d` only,
and its results are there in the first pass. -/
def Punctual (d : ℕ) : Op p → Prop
  | function _ m _ _ _ _ => ∀ (K : Set Wire) (xs : List (Expression p)), ONE ∈ K →
      (∀ x ∈ xs, x.Over K) → Timely d K (m xs) fun ys K' => ∀ y ∈ ys, y.Over K'
  | schnorrVerify _ _ h | merkleRoot h | assertMembership h =>
      ∀ (K : Set Wire) (x y : Expression p), ONE ∈ K → x.Over K → y.Over K →
        Timely d K (h.code.compress x y) fun z K' => z.Over K'
  | _ => True

end Op

/-- The generators of every instruction run in the passes from 0 to `d`. -/
def Circuit.Timed (d : ℕ) (c : Circuit p) : Prop :=
  ∀ i ∈ c, i.1.latest i.2.length ≤ d ∧ i.1.Punctual d

end R1CS
