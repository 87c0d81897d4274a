import Verif.Spec.Basic

/-!
# Specification vocabulary: runs of witness generators
-/

namespace R1CS

variable {p : ℕ}

/-- `Runs v σ v'`: the generators `σ` run one after the other, each when all its declared inputs
have values, lead from the values `v` to `v'`. -/
inductive Runs : WireValues p → List (WitnessGenerator p) → WireValues p → Prop
  | nil (v : WireValues p) : Runs v [] v
  | cons {v v1 v' : WireValues p} {g : WitnessGenerator p} {σ : List (WitnessGenerator p)}
      (hin : ∀ i ∈ g.inputs, (v i).isSome) (hg : g.generate v = some v1) (h : Runs v1 σ v') :
      Runs v (g :: σ) v'

/-- A generator is ready. -/
def Ready (v : WireValues p) (g : WitnessGenerator p) : Prop := ∀ i ∈ g.inputs, (v i).isSome

/-- A generator which reads only its declared inputs and writes exactly the wires `outs`: what it
writes is determined by the values of the inputs. -/
def LocalGen (g : WitnessGenerator p) (outs : List Wire) : Prop :=
  ∀ v : WireValues p, Ready v g → (∀ o ∈ outs, v o = none) →
    ∃ f : Wire → Elem p, ∀ v' : WireValues p, (∀ i ∈ g.inputs, v' i = v i) →
      (∀ o ∈ outs, v' o = none) →
      g.generate v' = some (fun i => if i ∈ outs then some (f i) else v' i)

/-- The closures which touch the values only through the interface of `WireValues`: reading anything
(`get`, `get_boolean`, `contains`, ...), computing anything, panicking, and the three setters. -/
inductive ViaInterface [Fact p.Prime] : (WireValues p → Option (WireValues p)) → Prop
  | done : ViaInterface some
  | panic : ViaInterface fun _ => none
  | read {f : WireValues p → WireValues p → Option (WireValues p)} (h : ∀ u, ViaInterface (f u)) :
      ViaInterface fun v => f v v
  | set (w : Wire) (x : Elem p) {f : WireValues p → Option (WireValues p)} (h : ViaInterface f) :
      ViaInterface fun v => (v.set w x).bind f
  | setBoolean (w : BooleanWire) (x : Bool) {f : WireValues p → Option (WireValues p)}
      (h : ViaInterface f) : ViaInterface fun v => (v.setBoolean w x).bind f
  | setBinary (w : BinaryWire) (x : ℕ) {f : WireValues p → Option (WireValues p)}
      (h : ViaInterface f) : ViaInterface fun v => (v.setBinaryUnsigned w x).bind f

end R1CS
