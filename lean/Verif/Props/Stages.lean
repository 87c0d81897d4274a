import Verif.Props.AnyOrder

/-!
# C113: later code leaves earlier code as it is

Executing a circuit is executing the first part of its code and then the rest on the values which the first part
leaves, panics and verdicts included.
-/

set_option linter.unusedSectionVars false

namespace R1CS

variable {p : ℕ} [hp : Fact p.Prime]

open Circuit

namespace Stages

theorem execute_none {g : Gadget p} {v : WireValues p}
    (h : Gadget.loop (g.witnessGenerators.length + 1) g.witnessGenerators v = none) : g.execute v = none := by
  unfold Gadget.execute
  rw [h]
  rfl

theorem execute_some {g : Gadget p} {v w : WireValues p} {rest : List (WitnessGenerator p)}
    (h : Gadget.loop (g.witnessGenerators.length + 1) g.witnessGenerators v = some (rest, w)) :
    g.execute v = if rest.length = 0 then (Gadget.checkAll g.constraints w).map fun ok => (w, ok) else none := by
  unfold Gadget.execute
  rw [h]
  simp only [Option.bind_eq_bind, Option.bind_some]
  split
  · rcases Gadget.checkAll g.constraints w with _ | ok <;> rfl
  · rfl

theorem inputs_scoped {k : ℕ} : ∀ o ∈ (List.range' 1 k).map fun w => Obj.expr (p := p) (Expression.ofWire w),
    o.Scoped (1 + k) := by
  intro o ho
  obtain ⟨w, hw, rfl⟩ := List.mem_map.1 ho
  intro i hi
  rw [List.mem_range'_1] at hw
  have : i = w := by
    rw [Expression.dependencies_ofWire] at hi
    exact List.mem_singleton.1 hi
  rw [this]
  exact hw.2

/-- The two parts of a circuit. -/
theorem parts {c1 c2 : Circuit p} (ha : ∀ r, ∀ i ∈ c1 ++ c2, Alike.Given r i.1)
    (hg : ∀ i ∈ c1 ++ c2, Apiece.Given i.1) {k : ℕ} {os : List (Obj p)} {b : Builder p}
    (hb : (c1 ++ c2).build k Builder.new = some (os, b)) :
    ∃ os1 b1 cs, ∃ A : List (Piece p), c1.build k Builder.new = some (os1, b1) ∧
      b.constraints = b1.constraints ++ cs ∧ b.witnessGenerators = b1.witnessGenerators ++ A.map Prod.fst ∧
      b1.nextWireIndex ≤ b.nextWireIndex ∧ (∀ i ∈ A.flatMap Prod.snd, b1.nextWireIndex ≤ i) ∧
      (∀ e ∈ A, Minds (· ∈ e.2) e.1) := by
  have h := hb
  unfold Circuit.build at h
  rw [B.bind_eq (Enforces.wires_run _ _), runFrom_append] at h
  obtain ⟨os1, b1, h1, h2⟩ := B.bind_run h
  have hb1 : c1.build k Builder.new = some (os1, b1) := by
    unfold Circuit.build
    rw [B.bind_eq (Enforces.wires_run _ _)]
    exact h1
  obtain ⟨l1, s1, -⟩ := C100_scoped_circuits c1 _ os1 _ b1 (by show 1 ≤ 1 + _; omega) inputs_scoped
    (fun r i hi => ha r i (List.mem_append_left _ hi)) h1
  obtain ⟨l2, -, cs, gs, e1, e2, -⟩ := C100_scoped_circuits c2 os1 os b1 b
    (le_trans (by show 1 ≤ 1 + _; omega) l1) s1 (fun r i hi => ha r i (List.mem_append_right _ hi)) h2
  obtain ⟨-, A, a1, -, a3, a4⟩ := Apiece.runFrom (fun i hi => hg i (List.mem_append_right _ hi)) os1 _ _ _ h2
  exact ⟨os1, b1, cs, A, hb1, e1, a1, l2, fun i hi => (a3 i hi).1, fun e he => (a4 e he).1⟩

/-- Runs of generators which have wires from `n` on. -/
theorem runs_below {n : ℕ} : ∀ {A : List (Piece p)} {σ : List (WitnessGenerator p)} {v v' : WireValues p},
    Runs v σ v' → (∀ g ∈ σ, g ∈ A.map Prod.fst) → (∀ i ∈ A.flatMap Prod.snd, n ≤ i) →
    (∀ e ∈ A, Minds (· ∈ e.2) e.1) → ∀ i < n, v' i = v i := by
  intro A σ v v' h
  induction h with
  | nil => intros; rfl
  | @cons _ _ _ g _ h1 h2 h3 ih =>
    intro hσ hA hm i hi
    rw [ih (fun g hg => hσ g (by simp [hg])) hA hm i hi]
    obtain ⟨e, he, rfl⟩ := List.mem_map.1 (hσ g (by simp))
    refine (hm e he).writes _ _ h2 i fun h => ?_
    have := hA i (List.mem_flatMap.2 ⟨e, he, h⟩)
    omega

end Stages

/-- C113: executing a circuit is executing the first part of its code and then, on the values which that leaves, what
the rest of the code adds: it panics if one of them panics, the values are those of the second execution, and the
verdict is that both accept. -/
theorem C113_stages {c1 c2 : Circuit p} {d : ℕ} (hc : (c1 ++ c2).Timed d)
    (hg : ∀ i ∈ c1 ++ c2, Apiece.Given i.1) (hs : ∀ i ∈ c1 ++ c2, SetsOwn.Given i.1)
    (ha : ∀ r, ∀ i ∈ c1 ++ c2, Alike.Given r i.1) {k : ℕ} {os : List (Obj p)} {b : Builder p}
    (hb : (c1 ++ c2).build k Builder.new = some (os, b)) :
    ∃ os1 b1 cs gs, c1.build k Builder.new = some (os1, b1) ∧ b.constraints = b1.constraints ++ cs ∧
      b.witnessGenerators = b1.witnessGenerators ++ gs ∧
      ∀ v : WireValues p, (∀ i ≤ k, (v i).isSome) →
        b.build.execute v = (b1.build.execute v).bind fun r =>
          (Gadget.execute ⟨cs, gs⟩ r.1).map fun r' => (r'.1, r.2 && r'.2) := by
  obtain ⟨os1, b1, cs, A, hb1, e1, e2, hle, hA, hm⟩ := Stages.parts ha hg hb
  refine ⟨os1, b1, cs, A.map Prod.fst, hb1, e1, e2, fun v hv => ?_⟩
  have hc1 : c1.Timed d := fun i hi => hc i (List.mem_append_left _ hi)
  have hs1 : ∀ i ∈ c1, SetsOwn.Given i.1 := fun i hi => hs i (List.mem_append_left _ hi)
  have ha1 : ∀ r, ∀ i ∈ c1, Alike.Given r i.1 := fun r i hi => ha r i (List.mem_append_left _ hi)
  have e2' : b.build.witnessGenerators = b1.build.witnessGenerators ++ A.map Prod.fst := e2
  rcases hx : b1.build.execute v with _ | ⟨u, ok⟩
  · obtain ⟨σ, g, ρ, u, h1, h2, h3, h4⟩ := C111_panics hc1 hs1 ha1 hb1 hv hx
    exact (C112_schedules (Apiece.build hg k) hb (rest := g :: ρ ++ A.map Prod.fst) (by
      rw [e2', ← List.append_assoc]
      exact h1.append_right _) h2).2.1 ⟨g, by simp, h3, h4⟩
  · obtain ⟨σ, h1, h2⟩ := C21_exactly_once _ v u ok hx
    simp only [Option.bind_some]
    rcases C21_terminates (A.map Prod.fst) u with ⟨rest, w, τ, k1, k2, k3, k4⟩ | ⟨k1, τ, g, ρ, w, k2, k3, k4, k5⟩
    · have hperm : List.Perm (σ ++ τ ++ rest) b.build.witnessGenerators := by
        rw [e2', List.append_assoc]
        exact h1.append k2
      have hr := C112_schedules (Apiece.build hg k) hb hperm (Exec.Runs.append h2 k3)
      rcases rest with _ | ⟨g, rest⟩
      · rw [List.append_nil] at k2 hperm
        have hu : ∀ i < b1.nextWireIndex, (u i).isSome := Missing.build hc1 hs1 hb1 hv h1 h2
        have hw : ∀ i < b.nextWireIndex, (w i).isSome :=
          Missing.build hc hs hb hv hperm (Exec.Runs.append h2 k3)
        have heq : ∀ i < b1.nextWireIndex, w i = u i :=
          Stages.runs_below k3 (fun g hg => k2.mem_iff.1 hg) hA hm
        have hin1 := (Missing.within ha1 hb1).1
        have hin := (Missing.within ha hb).1
        have hok : ok = b1.constraints.all fun c =>
            decide (c.a.eval u.total * c.b.eval u.total = c.c.eval u.total) := by
          rcases C21_terminates b1.build.witnessGenerators v with ⟨r1, v1, _, l1, _⟩ | ⟨l1, _⟩
          · rw [Stages.execute_some l1] at hx
            split at hx
            · obtain ⟨ok', o1, o2⟩ := Option.map_eq_some_iff.1 hx
              obtain ⟨rfl, rfl⟩ := Prod.ext_iff.1 o2
              exact (Option.some.inj ((AnyOrder.checkAll hu _ hin1).symm.trans o1)).symm
            · cases hx
          · rw [Stages.execute_none l1] at hx
            cases hx
        have hev : ∀ e : Expression p, (∀ i ∈ e.dependencies, i < b1.nextWireIndex) →
            e.eval u.total = e.eval w.total := fun e he => Expression.eval_congr fun i hi => by
          unfold WireValues.total
          rw [heq i (he i hi)]
        have hok' : ok = b1.constraints.all fun c =>
            decide (c.a.eval w.total * c.b.eval w.total = c.c.eval w.total) := by
          rw [hok, Bool.eq_iff_iff, List.all_eq_true, List.all_eq_true]
          refine forall₂_congr fun c hc => ?_
          rw [hev c.a (hin1 c hc _ (.inl rfl)), hev c.b (hin1 c hc _ (.inr (.inl rfl))),
            hev c.c (hin1 c hc _ (.inr (.inr rfl)))]
        have hcs : Gadget.checkAll cs w = some (cs.all fun c =>
            decide (c.a.eval w.total * c.b.eval w.total = c.c.eval w.total)) :=
          AnyOrder.checkAll hw _ fun c hc => hin c (by
            show c ∈ b.constraints
            rw [e1]
            exact List.mem_append_right _ hc)
        have hbc : Gadget.checkAll b.build.constraints w = some (b.constraints.all fun c =>
            decide (c.a.eval w.total * c.b.eval w.total = c.c.eval w.total)) :=
          AnyOrder.checkAll hw _ hin
        rw [hr.1 rfl, hbc, e1, List.all_append, ← hok']
        rw [Stages.execute_some (g := ⟨cs, A.map Prod.fst⟩) k1]
        simp [hcs]
      · rw [hr.2.2 (by simp) k4]
        rw [Stages.execute_some (g := ⟨cs, A.map Prod.fst⟩) k1]
        simp
    · rw [(C112_schedules (Apiece.build hg k) hb (σ := σ ++ τ) (rest := g :: ρ) (by
        rw [e2', List.append_assoc]
        exact h1.append k2) (Exec.Runs.append h2 k3)).2.1 ⟨g, by simp, k4, k5⟩]
      rw [Stages.execute_none (g := ⟨cs, A.map Prod.fst⟩) k1]
      rfl

/-- C113: so code which follows neither rescues what comes before it nor disturbs it.  If the first part panics then so
does all of the code; if all of the code returns, then so does the first part, with the same values for its wires, and
if it rejects then so does all of the code. -/
theorem C113_earlier {c1 c2 : Circuit p} {d : ℕ} (hc : (c1 ++ c2).Timed d)
    (hg : ∀ i ∈ c1 ++ c2, Apiece.Given i.1) (hs : ∀ i ∈ c1 ++ c2, SetsOwn.Given i.1)
    (ha : ∀ r, ∀ i ∈ c1 ++ c2, Alike.Given r i.1) {k : ℕ} {os os1 : List (Obj p)} {b b1 : Builder p}
    (hb1 : c1.build k Builder.new = some (os1, b1)) (hb : (c1 ++ c2).build k Builder.new = some (os, b))
    {v : WireValues p} (hv : ∀ i ≤ k, (v i).isSome) :
    (b1.build.execute v = none → b.build.execute v = none) ∧
    ∀ v' ok, b.build.execute v = some (v', ok) → ∃ u ok1, b1.build.execute v = some (u, ok1) ∧
      (∀ i < b1.nextWireIndex, v' i = u i) ∧ (ok1 = false → ok = false) := by
  obtain ⟨os1', b1', cs, A, hb1', e1, e2, hle, hA, hm⟩ := Stages.parts ha hg hb
  obtain ⟨os1'', b1'', cs', gs', hb1'', e1', e2', h⟩ := C113_stages hc hg hs ha hb
  rw [hb1] at hb1' hb1''
  obtain ⟨rfl, rfl⟩ := Prod.ext_iff.1 (Option.some.inj hb1')
  obtain ⟨rfl, rfl⟩ := Prod.ext_iff.1 (Option.some.inj hb1'')
  obtain rfl : gs' = A.map Prod.fst := List.append_cancel_left (e2'.symm.trans e2)
  have h := h v hv
  refine ⟨fun hn => by rw [h, hn]; rfl, fun v' ok he => ?_⟩
  rw [h] at he
  obtain ⟨⟨u, ok1⟩, k1, k2⟩ := Option.bind_eq_some_iff.1 he
  obtain ⟨⟨w, ok2⟩, k3, k4⟩ := Option.map_eq_some_iff.1 k2
  obtain ⟨rfl, rfl⟩ := Prod.ext_iff.1 k4
  obtain ⟨σ, l1, l2⟩ := C21_exactly_once _ u w ok2 k3
  exact ⟨u, ok1, k1, Stages.runs_below l2 (fun g hg => l1.mem_iff.1 hg) hA hm, fun h => by simp [h]⟩

/-! ## Examples -/

/-- The code `mixedCode` (C111) after its second instruction: on the inputs 5 and 3 the first part rejects, and all of
the code does too; on the inputs 1 and 0 the first part accepts and the rest panics. -/
example : mixedCode = mixedCode.take 2 ++ mixedCode.drop 2 ∧
    (Circuit.build 2 (mixedCode.take 2) Builder.new).bind (fun r =>
      (r.2.build.execute (inputs [5, 3])).map (·.2)) = some false ∧
    (mixedCode.build 2 Builder.new).bind (fun r =>
      (r.2.build.execute (inputs [5, 3])).map (·.2)) = some false ∧
    (Circuit.build 2 (mixedCode.take 2) Builder.new).bind (fun r =>
      (r.2.build.execute (inputs [1, 0])).map (·.2)) = some true ∧
    ((mixedCode.build 2 Builder.new).bind fun r => r.2.build.execute (inputs [1, 0])).isNone :=
  ⟨(List.take_append_drop 2 mixedCode).symm, by decide +kernel, by decide +kernel, by decide +kernel,
    by decide +kernel⟩

end R1CS
