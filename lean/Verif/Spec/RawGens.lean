import Verif.Model.RawGens
import Verif.Model.BinaryOps
import Verif.Model.Permutations
import Verif.Spec.Raw
import Verif.Spec.Language

/-!
# Vocabulary for C105: the transcriptions of the generators of a gadget
-/

namespace R1CS.Raw

variable {p : ℕ} [Fact p.Prime]

/-- `Transcribes r g`: `g` is one of the generators of the crate, given by the expressions and wires its closure
owns, and `r` is the transcription of that closure, which owns what is stored of the same expressions and the same
wires. -/
inductive Transcribes : RawGenerator → WitnessGenerator p → Prop
  | product (x y : Expression p) (w : Wire) :
    Transcribes ⟨dependencies (expr x) ++ dependencies (expr y), productGen p (expr x) (expr y) w⟩
      ⟨x.dependencies ++ y.dependencies, B.productGen x y w⟩
  | nonzero (x : Expression p) (y m : Wire) :
    Transcribes ⟨dependencies (expr x), nonzeroGen p (expr x) y m⟩ ⟨x.dependencies, B.nonzeroGen x y m⟩
  | inverse (x : Expression p) (w : Wire) :
    Transcribes ⟨dependencies (expr x), inverseGen p (expr x) w⟩ ⟨x.dependencies, B.inverseGen x w⟩
  | inverseOrZero (x : Expression p) (w : Wire) :
    Transcribes ⟨dependencies (expr x), inverseOrZeroGen p (expr x) w⟩ ⟨x.dependencies, B.inverseOrZeroGen x w⟩
  | quotientUnsafe (x y : Expression p) (w : Wire) :
    Transcribes ⟨dependencies (expr x) ++ dependencies (expr y), quotientUnsafeGen p (expr x) (expr y) w⟩
      ⟨x.dependencies ++ y.dependencies, B.quotientUnsafeGen x y w⟩
  | modulus (x y : Expression p) (w r : Wire) :
    Transcribes ⟨dependencies (expr x) ++ dependencies (expr y), modulusGen p (expr x) (expr y) w r⟩
      ⟨x.dependencies ++ y.dependencies, B.modulusGen x y w r⟩
  | split (x : Expression p) (count : ℕ) (w : BinaryWire) (h : w.bits.length = count) :
    Transcribes ⟨dependencies (expr x), splitGen p (expr x) count w⟩ ⟨x.dependencies, B.splitGen x count w⟩
  | mask (xBits yBits : BinaryExpression p) (mask : List Wire) (xs ys : List (Expression p))
      (hx : xs.length = mask.length) (hy : ys.length = mask.length) :
    Transcribes ⟨binaryDependencies (xBits.bits.map fun b => expr b.expression) ++
          binaryDependencies (yBits.bits.map fun b => expr b.expression),
        maskGen p mask (xs.map expr) (ys.map expr)⟩
      ⟨xBits.dependencies ++ yBits.dependencies, B.maskGen (mask.zip (xs.zip ys)).reverse false⟩
  | summation (s : Expression p) (w : BinaryWire) :
    Transcribes ⟨dependencies (expr s), summationGen p (expr s) w⟩ ⟨s.dependencies, B.summationGen s w⟩
  | root (x : Expression p) (e : Elem p) (w : Wire) :
    Transcribes ⟨dependencies (expr x), rootGen p (expr x) e.n w⟩
      ⟨x.dependencies, MonomialPermutation.rootGen x e w⟩
  | permutation2x2 (a b c d : Expression p) (s : BooleanWire) :
    Transcribes ⟨dependencies (expr a) ++ dependencies (expr b) ++ dependencies (expr c) ++ dependencies (expr d),
        permutation2x2Gen p (expr a) (expr b) (expr c) (expr d) s⟩
      ⟨a.dependencies ++ b.dependencies ++ c.dependencies ++ d.dependencies, B.permutation2x2Gen a b c d s⟩
  | route (a b : List (Expression p)) (s t : List BooleanWire) :
    Transcribes ⟨(a.map expr).flatMap dependencies ++ (b.map expr).flatMap dependencies,
        routeGen p (a.map expr) (b.map expr) s t⟩
      ⟨a.flatMap Expression.dependencies ++ b.flatMap Expression.dependencies, B.routeGen a b s t⟩
  | sort (xs : List (Expression p)) (ws : List Wire) :
    Transcribes ⟨(xs.map expr).flatMap dependencies, sortGen p (xs.map expr) ws⟩
      ⟨xs.flatMap Expression.dependencies, B.sortGen xs ws⟩

/-- A gadget on the stored data with the same constraints, and with transcriptions of the generators. -/
def Transcript (r : RawGadget) (g : Gadget p) : Prop :=
  r.constraints = g.constraints.map (fun c => (expr c.a, expr c.b, expr c.c)) ∧
  List.Forall₂ Transcribes r.witnessGenerators g.witnessGenerators

/-- Whatever `m` adds to the generators of a builder are generators of the crate. -/
def AddsClosures {α : Type} (m : B p α) : Prop :=
  ∀ b a b', m b = some (a, b') → ∃ (gs : List (WitnessGenerator p)) (rs : List RawGenerator),
    b'.witnessGenerators = b.witnessGenerators ++ gs ∧ List.Forall₂ Transcribes rs gs

/-- What is to be known about the parts of an instruction which the instruction takes as given. -/
def AddsClosures.Given : Op p → Prop
  | .function _ m _ _ _ _ => ∀ xs, AddsClosures (m xs)
  | .schnorrVerify _ _ h => ∀ x y, AddsClosures (h.code.compress x y)
  | .merkleRoot h => ∀ x y, AddsClosures (h.code.compress x y)
  | .assertMembership h => ∀ x y, AddsClosures (h.code.compress x y)
  | _ => True

/-- The map handed to `execute` for the inputs of `Circuit.build`: a new map, on which the wires of the inputs
have been set one after the other. -/
def storedInputs (xs : List (Elem p)) : Option Values := do
  let m ← newValues p
  (xs.zipIdx 1).foldlM (fun m x => set m x.2 x.1.n) m

/-- Evaluating what is stored of the object on the map gives the value, without a panic. -/
def Evaluates (m : Values) : Obj p → Val p → Prop
  | .expr e, .elem x => evaluate p (expr e) m = some x.n
  | .bool e, .bool b => evaluateBoolean p (expr e.expression) m = some b
  | .bin e, .bits l => e.bits.mapM (fun b => evaluateBoolean p (expr b.expression) m) = some l
  | _, _ => False

end R1CS.Raw
