import Verif.Props.Missing
import Verif.Props.Parallel

/-!
# C101, continued: panics of parts which do not use one another

For gadgets in general the constraints of one part may be checked, and violated, before a constraint of the other
one panics.  No constraint of a circuit of the crate panics (C111), so there both together panic if and only if one
of the parts does.
-/

set_option linter.unusedSectionVars false

namespace R1CS

variable {p : ℕ} [hp : Fact p.Prime]

open Circuit

namespace PanicsApart

/-- Without its constraints a gadget does not panic if it does not with them. -/
theorem fewer {g : Gadget p} {v : WireValues p} (h : Gadget.execute ⟨[], g.witnessGenerators⟩ v = none) :
    g.execute v = none := by
  unfold Gadget.execute at h ⊢
  cases e : Gadget.loop (g.witnessGenerators.length + 1) g.witnessGenerators v with
  | none => rfl
  | some r =>
    rw [e] at h
    obtain ⟨rest, u⟩ := r
    cases rest with
    | nil => cases h
    | cons => rfl

/-- The constraints of a circuit do not make it panic. -/
theorem same {c : Circuit p} {d : ℕ} (hc : c.Timed d) (hs : ∀ i ∈ c, SetsOwn.Given i.1)
    (ha : ∀ r, ∀ i ∈ c, Alike.Given r i.1) {k : ℕ} {os : List (Obj p)} {b : Builder p}
    (hb : c.build k Builder.new = some (os, b)) {v : WireValues p} (hv : ∀ i ≤ k, (v i).isSome) :
    Gadget.execute ⟨[], b.build.witnessGenerators⟩ v = none ↔ b.build.execute v = none := by
  refine ⟨fewer, fun he => ?_⟩
  rcases C21_terminates b.build.witnessGenerators v with ⟨rest, v', σ, h1, h2, h3, -⟩ | ⟨h, -⟩
  · exfalso
    obtain rfl := C92_nothing_pending hc hb hv h1
    rw [List.append_nil] at h2
    obtain ⟨ok, hok⟩ := Option.isSome_iff_exists.1 (Missing.checkAll (Missing.build hc hs hb hv h2 h3)
      b.build.constraints (Missing.within ha hb).1)
    unfold Gadget.execute at he
    rw [h1] at he
    simp [hok] at he
  · unfold Gadget.execute
    rw [h]
    rfl

/-- A circuit has a wire for the constant and one for each input. -/
theorem inputs_le (h4 : 4 ≤ Elem.maxBits p) {c : Circuit p} {k : ℕ} {os : List (Obj p)} {b : Builder p}
    (hb : c.build k Builder.new = some (os, b)) : k + 1 ≤ b.nextWireIndex := by
  obtain ⟨ws, b0, e0, h⟩ := B.bind_run hb
  rw [Enforces.wires_run] at e0
  obtain ⟨rfl, rfl⟩ := Prod.ext_iff.1 (Option.some.inj e0)
  have := (C23_appends (Circuit.tidy_runFrom (c := c) (fun i _ => Op.tidy i.1 h4) _).1 h).1
  simp only [Builder.new] at this
  omega

end PanicsApart

/-- C101: two circuits over the same inputs, the second built after the first, panic on values with those of the
inputs among them if and only if one of them does by itself (the second one as it would be without the first); and
otherwise the verdict is that both accept. -/
theorem C101_panics (h4 : 4 ≤ Elem.maxBits p) {c1 c2 : Circuit p} {e1 e2 k m : ℕ} (ht1 : c1.Timed e1)
    (ht2 : c2.Timed e2) (hs1 : ∀ i ∈ c1, SetsOwn.Given i.1) (hs2 : ∀ i ∈ c2, SetsOwn.Given i.1)
    (hc1 : ∀ r, ∀ i ∈ c1, Alike.Given r i.1) (hc2 : ∀ r, ∀ i ∈ c2, Alike.Given r i.1)
    {os1 os2 : List (Obj p)} {d1 d2 : Builder p} (h1 : Circuit.build k c1 Builder.new = some (os1, d1))
    (h2 : Circuit.build k c2 Builder.new = some (os2, d2)) (hm : d1.nextWireIndex = k + 1 + m) :
    ∃ os d, (do
        let ws ← B.wires k
        let a ← Circuit.runFrom c1 (ws.map fun w => .expr (Expression.ofWire w))
        let b ← Circuit.runFrom c2 (ws.map fun w => .expr (Expression.ofWire w))
        return (a, b) : B p _) Builder.new = some (os, d) ∧
      ∀ v : WireValues p, (∀ i ≤ k, (v i).isSome) →
        (d.build.execute v = none ↔
          d1.build.execute v = none ∨ d2.build.execute (v.through (Renumbering.shift k m)) = none) ∧
        ∀ ok, (∃ u, d.build.execute v = some (u, ok)) ↔ ∃ u1 u2 ok1 ok2,
          d1.build.execute v = some (u1, ok1) ∧
          d2.build.execute (v.through (Renumbering.shift k m)) = some (u2, ok2) ∧ ok = (ok1 && ok2) := by
  obtain ⟨d, q1, -, -, q2, q3⟩ := C101_circuits h4 c1 c2 k m hc1 hc2 os1 os2 d1 d2 h1 h2 hm
  refine ⟨_, d, q1, fun v hv => ?_⟩
  have hv2 : ∀ i ≤ k, (v.through (Renumbering.shift k m) i).isSome := fun i hi => by
    simpa [WireValues.through, Renumbering.shift, hi] using hv i hi
  have q2 := q2 v
  have q3 := (q3 v).1
  rw [PanicsApart.same ht1 hs1 hc1 h1 hv, PanicsApart.same ht2 hs2 hc2 h2 hv2] at q2
  have A : d.build.execute v = none ↔
      d1.build.execute v = none ∨ d2.build.execute (v.through (Renumbering.shift k m)) = none := by
    refine ⟨fun h => ?_, fun h => PanicsApart.fewer (q2.2 h)⟩
    by_contra hn
    push Not at hn
    obtain ⟨⟨u1, ok1⟩, e1⟩ := Option.ne_none_iff_exists'.1 hn.1
    obtain ⟨⟨u2, ok2⟩, e2⟩ := Option.ne_none_iff_exists'.1 hn.2
    obtain ⟨u, e3, -⟩ := q3 u1 u2 ok1 ok2 e1 e2
    rw [h] at e3
    cases e3
  refine ⟨A, fun ok => ⟨?_, ?_⟩⟩
  · rintro ⟨u, h⟩
    have hn : ¬ (d1.build.execute v = none ∨ d2.build.execute (v.through (Renumbering.shift k m)) = none) :=
      fun hn => by
        rw [A.2 hn] at h
        cases h
    push Not at hn
    obtain ⟨⟨u1, ok1⟩, e1⟩ := Option.ne_none_iff_exists'.1 hn.1
    obtain ⟨⟨u2, ok2⟩, e2⟩ := Option.ne_none_iff_exists'.1 hn.2
    obtain ⟨u', e3, -⟩ := q3 u1 u2 ok1 ok2 e1 e2
    rw [h] at e3
    exact ⟨u1, u2, ok1, ok2, e1, e2, (Prod.ext_iff.1 (Option.some.inj e3)).2⟩
  · rintro ⟨u1, u2, ok1, ok2, e1, e2, rfl⟩
    obtain ⟨u, e3, -⟩ := q3 u1 u2 ok1 ok2 e1 e2
    exact ⟨u, e3⟩

/-- C101: so on values for the inputs alone both together panic if and only if one of them does, otherwise they accept
if and only if both do, and it makes no difference which of them is built first. -/
theorem C101_panics_inputs (h4 : 4 ≤ Elem.maxBits p) {c1 c2 : Circuit p} {e1 e2 k : ℕ} (ht1 : c1.Timed e1)
    (ht2 : c2.Timed e2) (hs1 : ∀ i ∈ c1, SetsOwn.Given i.1) (hs2 : ∀ i ∈ c2, SetsOwn.Given i.1)
    (hc1 : ∀ r, ∀ i ∈ c1, Alike.Given r i.1) (hc2 : ∀ r, ∀ i ∈ c2, Alike.Given r i.1)
    {os1 os2 : List (Obj p)} {d1 d2 : Builder p} (h1 : Circuit.build k c1 Builder.new = some (os1, d1))
    (h2 : Circuit.build k c2 Builder.new = some (os2, d2)) :
    ∃ os12 d12 os21 d21, (do
        let ws ← B.wires k
        let a ← Circuit.runFrom c1 (ws.map fun w => .expr (Expression.ofWire w))
        let b ← Circuit.runFrom c2 (ws.map fun w => .expr (Expression.ofWire w))
        return (a, b) : B p _) Builder.new = some (os12, d12) ∧
      (do
        let ws ← B.wires k
        let b ← Circuit.runFrom c2 (ws.map fun w => .expr (Expression.ofWire w))
        let a ← Circuit.runFrom c1 (ws.map fun w => .expr (Expression.ofWire w))
        return (b, a) : B p _) Builder.new = some (os21, d21) ∧
      ∀ v : WireValues p, (∀ i, (v i).isSome ↔ i ≤ k) →
        (d12.build.execute v = none ↔ d1.build.execute v = none ∨ d2.build.execute v = none) ∧
        (∀ ok, (∃ u, d12.build.execute v = some (u, ok)) ↔ ∃ u1 u2 ok1 ok2,
          d1.build.execute v = some (u1, ok1) ∧ d2.build.execute v = some (u2, ok2) ∧ ok = (ok1 && ok2)) ∧
        (d12.build.execute v).map Prod.snd = (d21.build.execute v).map Prod.snd := by
  obtain ⟨m1, hm1⟩ := Nat.exists_eq_add_of_le (PanicsApart.inputs_le h4 h1)
  obtain ⟨m2, hm2⟩ := Nat.exists_eq_add_of_le (PanicsApart.inputs_le h4 h2)
  obtain ⟨_, d12, q1, q⟩ := C101_panics h4 ht1 ht2 hs1 hs2 hc1 hc2 h1 h2 hm1
  obtain ⟨_, d21, r1, r⟩ := C101_panics h4 ht2 ht1 hs2 hs1 hc2 hc1 h2 h1 hm2
  refine ⟨_, d12, _, d21, q1, r1, fun v hv => ?_⟩
  have hno : ∀ i, k < i → v i = none := fun i hi => by
    rw [← Option.not_isSome_iff_eq_none, hv]
    omega
  have hth : ∀ m, v.through (Renumbering.shift k m) = v := fun m => by
    funext i
    by_cases hi : i ≤ k
    · simp [WireValues.through, Renumbering.shift, hi]
    · simp only [WireValues.through, Renumbering.shift, if_neg hi]
      rw [hno _ (by omega), hno _ (by omega)]
  have q := q v fun i hi => (hv i).2 hi
  have r := r v fun i hi => (hv i).2 hi
  rw [hth] at q r
  refine ⟨q.1, q.2, ?_⟩
  rcases e : d12.build.execute v with _ | ⟨u, ok⟩
  · rw [r.1.2 (q.1.1 e).symm]
  · obtain ⟨u1, u2, ok1, ok2, e1, e2, rfl⟩ := (q.2 ok).1 ⟨u, e⟩
    obtain ⟨u', e'⟩ := (r.2 (ok2 && ok1)).2 ⟨u2, u1, ok2, ok1, e2, e1, rfl⟩
    rw [e', Bool.and_comm]
    rfl

/-! ## Examples -/

private def both : B 13 (List (Obj 13) × List (Obj 13)) := do
  let ws ← B.wires 2
  let a ← Circuit.runFrom [(.assertBoolean, [0])] (ws.map fun w => .expr (Expression.ofWire w))
  let b ← Circuit.runFrom [(.modulus, [0, 1])] (ws.map fun w => .expr (Expression.ofWire w))
  return (a, b)

/-- A cast and a remainder of the same inputs.  With 5 and 0 the cast is wrong, so the first part rejects, and the
second one divides by zero, so both together panic. -/
example : ((both Builder.new).bind fun r => r.2.build.execute (inputs [5, 0])).isNone ∧
    (((Circuit.build 2 [(.assertBoolean, [0])] : B 13 _) Builder.new).bind fun r =>
      (r.2.build.execute (inputs [5, 0])).map Prod.snd) = some false ∧
    (((Circuit.build 2 [(.modulus, [0, 1])] : B 13 _) Builder.new).bind fun r =>
      r.2.build.execute (inputs [5, 0])).isNone := by
  decide +kernel

/-- With 5 and 3 the first part rejects, the second one accepts, and both together reject. -/
example : ((both Builder.new).bind fun r => (r.2.build.execute (inputs [5, 3])).map Prod.snd) = some false ∧
    (((Circuit.build 2 [(.modulus, [0, 1])] : B 13 _) Builder.new).bind fun r =>
      (r.2.build.execute (inputs [5, 3])).map Prod.snd) = some true := by
  decide +kernel

/-- The hypothesis about constraints is needed: two gadgets apart, the first one violated, the second one with a
wire to which no generator gives a value.  The second one panics, both together reject. -/
example : (Gadget.mk (p := 13) [⟨0, 0, 1⟩, ⟨Expression.ofWire 1, 0, 0⟩] []).execute (inputs []) ≠ none ∧
    (Gadget.mk (p := 13) [⟨Expression.ofWire 1, 0, 0⟩] []).execute (inputs []) = none := by
  constructor
  · intro h
    have : ((Gadget.mk (p := 13) [⟨0, 0, 1⟩, ⟨Expression.ofWire 1, 0, 0⟩] []).execute (inputs [])).isSome := by
      decide +kernel
    rw [h] at this
    cases this
  · rw [← Option.isNone_iff_eq_none]
    decide +kernel

end R1CS
