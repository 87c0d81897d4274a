import Verif.Props.Stages

/-!
# C114: other values in the same map do not matter

`Gadget::execute` is handed a map which may hold values of any wires (src/gadget.rs:24).
-/

set_option linter.unusedSectionVars false

namespace R1CS

variable {p : ℕ} [hp : Fact p.Prime]

open Circuit

/-- The values `u` for the wires below `n`, the values `w` for the others. -/
def WireValues.over (n : ℕ) (u w : WireValues p) : WireValues p := fun i => if i < n then u i else w i

namespace Foreign

variable {n : ℕ} {w : WireValues p}

theorem over_of_lt {i : Wire} (h : i < n) (u : WireValues p) : u.over n w i = u i := if_pos h

/-- A generator which does not see the values `w`. -/
def Blind (n : ℕ) (w : WireValues p) (g : WitnessGenerator p) : Prop :=
  (∀ i ∈ g.inputs, i < n) ∧ ∀ u : WireValues p, g.generate (u.over n w) = (g.generate u).map fun u => u.over n w

theorem blind {g : WitnessGenerator p} {R : List Wire} (hi : ∀ i ∈ g.inputs, i < n) (hR : ∀ i ∈ R, i < n)
    (h : Minds (· ∈ R) g) : Blind n w g := by
  refine ⟨hi, fun u => ?_⟩
  rcases hu : g.generate u with _ | u'
  · rcases hc : g.generate (u.over n w) with _ | x
    · rfl
    · obtain ⟨y, hy, -⟩ := h.reads (u.over n w) u x (fun i h => (over_of_lt (hi i h) u).symm)
        (fun i h => (over_of_lt (hR i h) u).symm) hc
      rw [hu] at hy
      cases hy
  · obtain ⟨x, h1, h2⟩ := h.reads u (u.over n w) u' (fun i h => over_of_lt (hi i h) u)
      (fun i h => over_of_lt (hR i h) u) hu
    rw [h1]
    refine congrArg some (funext fun i => ?_)
    show x i = u'.over n w i
    by_cases hRi : i ∈ R
    · rw [h2 i hRi, over_of_lt (hR i hRi)]
    · rw [h.writes _ _ h1 i hRi]
      unfold WireValues.over
      rw [h.writes _ _ hu i hRi]

theorem contains {g : WitnessGenerator p} (h : Blind n w g) (u : WireValues p) :
    (u.over n w).containsAll g.inputs = u.containsAll g.inputs := by
  unfold WireValues.containsAll
  rw [Bool.eq_iff_iff, List.all_eq_true, List.all_eq_true]
  refine forall₂_congr fun i hi => ?_
  unfold WireValues.contains
  rw [over_of_lt (h.1 i hi)]

theorem pass : ∀ {gs : List (WitnessGenerator p)}, (∀ g ∈ gs, Blind n w g) → ∀ u : WireValues p,
    Gadget.pass gs (u.over n w) = (Gadget.pass gs u).map fun r => (r.1, r.2.1.over n w, r.2.2)
  | [], _, _ => rfl
  | g :: gs, h, u => by
    have hg := h g (by simp)
    have ih := pass fun g hg => h g (List.mem_cons_of_mem _ hg)
    simp only [Gadget.pass, contains hg, hg.2]
    split
    · rcases g.generate u with _ | u'
      · rfl
      · simp only [Option.map_some, Option.bind_eq_bind, Option.bind_some, ih]
        rcases Gadget.pass gs u' with _ | r <;> rfl
    · rw [ih]
      rcases Gadget.pass gs u with _ | r <;> rfl

theorem pass_mem : ∀ {gs : List (WitnessGenerator p)} {u : WireValues p}
    {r : List (WitnessGenerator p) × WireValues p × Bool}, Gadget.pass gs u = some r → ∀ g ∈ r.1, g ∈ gs
  | [], _, _, h => by
    rw [← Option.some.inj h]
    exact fun _ h => h
  | g :: gs, u, r, h => by
    simp only [Gadget.pass] at h
    split at h
    · obtain ⟨u', _, h⟩ := Option.bind_eq_some_iff.1 h
      obtain ⟨r', h1, h⟩ := Option.bind_eq_some_iff.1 h
      rw [← Option.some.inj h]
      exact fun k hk => List.mem_cons_of_mem _ (pass_mem h1 k hk)
    · obtain ⟨r', h1, h⟩ := Option.bind_eq_some_iff.1 h
      rw [← Option.some.inj h]
      exact fun k hk => (List.mem_cons.1 hk).elim (fun e => e ▸ List.mem_cons_self)
        fun hk => List.mem_cons_of_mem _ (pass_mem h1 k hk)

theorem loop : ∀ (fuel : ℕ) {gs : List (WitnessGenerator p)}, (∀ g ∈ gs, Blind n w g) → ∀ u : WireValues p,
    Gadget.loop fuel gs (u.over n w) = (Gadget.loop fuel gs u).map fun r => (r.1, r.2.over n w)
  | 0, _, _, _ => rfl
  | fuel + 1, gs, h, u => by
    simp only [Gadget.loop, pass h u]
    rcases hr : Gadget.pass gs u with _ | r
    · rfl
    · simp only [Option.map_some, Option.bind_eq_bind, Option.bind_some]
      split
      · exact loop fuel (fun g hg => h g (pass_mem hr g hg)) _
      · rfl

theorem evaluate {e : Expression p} (h : ∀ i ∈ e.dependencies, i < n) (u : WireValues p) :
    e.evaluate (u.over n w) = e.evaluate u := by
  rw [Co.eval (S := {i | i < n}) h (u.over n w), Co.eval (S := {i | i < n}) h u]
  congr 1
  exact WireValues.mask_eq.2 fun i hi => over_of_lt hi u

theorem checkAll : ∀ {cs : List (Constraint p)},
    (∀ c ∈ cs, ∀ e, e = c.a ∨ e = c.b ∨ e = c.c → ∀ i ∈ e.dependencies, i < n) → ∀ u : WireValues p,
    Gadget.checkAll cs (u.over n w) = Gadget.checkAll cs u
  | [], _, _ => rfl
  | c :: cs, h, u => by
    have hc := h c (by simp)
    simp only [Gadget.checkAll, Constraint.evaluate, evaluate (hc c.a (.inl rfl)),
      evaluate (hc c.b (.inr (.inl rfl))), evaluate (hc c.c (.inr (.inr rfl))),
      checkAll fun c hc => h c (List.mem_cons_of_mem _ hc)]

end Foreign

/-- C114: values of wires which are not of the circuit make no difference to its execution, whichever values there are
for its own wires: on values which agree on the wires of the circuit, executions panic alike and return the same
verdict and the same values for the wires of the circuit, and they leave the other values alone. -/
theorem C114_other_values {c : Circuit p} (hg : ∀ i ∈ c, Apiece.Given i.1)
    (ha : ∀ r, ∀ i ∈ c, Alike.Given r i.1) {k : ℕ} {os : List (Obj p)} {b : Builder p}
    (hb : c.build k Builder.new = some (os, b)) {v w : WireValues p} (hw : ∀ i < b.nextWireIndex, w i = v i) :
    b.build.execute w = (b.build.execute v).map fun r =>
      (fun i => if i < b.nextWireIndex then r.1 i else w i, r.2) := by
  have h := hb
  unfold Circuit.build at h
  rw [B.bind_eq (Enforces.wires_run _ _)] at h
  obtain ⟨_, _, cs, gs, -, h1', -, h3⟩ := C100_scoped_circuits c _ os _ b
    (by show 1 ≤ 1 + _; omega) Stages.inputs_scoped ha h
  obtain ⟨-, A, a1, -, a3, a4⟩ := Apiece.build hg k _ _ _ hb
  have e : w = v.over b.nextWireIndex w := funext fun i => by
    unfold WireValues.over
    split
    · next hi => exact hw i hi
    · rfl
  have hbl : ∀ g ∈ b.build.witnessGenerators, Foreign.Blind b.nextWireIndex w g := by
    intro g hgm
    have hgm : g ∈ b.witnessGenerators := hgm
    have hin : ∀ i ∈ g.inputs, i < b.nextWireIndex := (h3 g (by
      rw [h1'] at hgm
      simpa [Builder.new] using hgm)).1
    rw [a1] at hgm
    have hgm : g ∈ ([] : List (WitnessGenerator p)) ++ A.map Prod.fst := hgm
    rw [List.nil_append] at hgm
    obtain ⟨x, hx, rfl⟩ := List.mem_map.1 hgm
    exact Foreign.blind hin (fun i hi => (a3 i (List.mem_flatMap.2 ⟨x, hx, hi⟩)).2) (a4 x hx).1
  rw [show b.build.execute w = b.build.execute (v.over b.nextWireIndex w) from congrArg _ e]
  unfold Gadget.execute
  rw [Foreign.loop _ hbl]
  rcases Gadget.loop (b.build.witnessGenerators.length + 1) b.build.witnessGenerators v with _ | r
  · rfl
  · simp only [Option.map_some, Option.bind_eq_bind, Option.bind_some]
    split
    · rw [Foreign.checkAll (Missing.within ha hb).1]
      rcases Gadget.checkAll b.build.constraints r.2 with _ | ok <;> rfl
    · rfl

/-! ## Example -/

/-- The code `mixedCode` (C111) on the inputs 1 and 3, with and without a value for wire 1000. -/
example : ((mixedCode.build 2 Builder.new).bind fun r =>
    (r.2.build.execute ((inputs [1, 3]).insert 1000 7)).map fun e =>
      (e.2, decide (r.2.nextWireIndex ≤ 1000), e.1 1000, (List.range r.2.nextWireIndex).map e.1)) =
    (mixedCode.build 2 Builder.new).bind fun r =>
      (r.2.build.execute (inputs [1, 3])).map fun e =>
        (true, true, some 7, (List.range r.2.nextWireIndex).map e.1) := by decide +kernel

end R1CS
