import Verif.Lemmas.SetsOwnLanguage
import Verif.Props.Readable
import Verif.Props.Instance

/-!
# C111: every gadget gives values to its own wires

A wire without a generator which sets it would make `execute` panic when it comes to a constraint which mentions
the wire (src/gadget.rs:50, src/expression.rs:100-103), and a caller could not read the results.
-/

set_option linter.unusedSectionVars false

namespace R1CS

variable {p : ℕ} [hp : Fact p.Prime]

open Circuit

namespace Missing

/-- The generators of a circuit: what they set, what they keep. -/
theorem build {c : Circuit p} {d : ℕ} (hc : c.Timed d) (hs : ∀ i ∈ c, SetsOwn.Given i.1) {k : ℕ}
    {os : List (Obj p)} {b : Builder p} (hb : c.build k Builder.new = some (os, b)) {v v' : WireValues p}
    (hv : ∀ i ≤ k, (v i).isSome) {σ : List (WitnessGenerator p)} (hσ : List.Perm σ b.witnessGenerators)
    (hrun : Runs v σ v') : ∀ i < b.nextWireIndex, (v' i).isSome := by
  obtain ⟨A, h1, h2, -, -⟩ := Passes.build hc hb hv
  have hk : ∀ g ∈ σ, KeepsValues g.generate := by
    intro g hg
    have hb' : b.witnessGenerators = A.map (·.gen) := h1
    rw [hb'] at hσ
    obtain ⟨e, he, rfl⟩ := List.mem_map.1 (hσ.mem_iff.1 hg)
    exact (h2 e he).1.1
  intro i hi
  by_cases hik : i ≤ k
  · obtain ⟨x, hx⟩ := Option.isSome_iff_exists.1 (hv i hik)
    rw [hrun.mono hk i x hx]
    rfl
  · have h := hb
    unfold Circuit.build at h
    rw [B.bind_eq (Enforces.wires_run _ _)] at h
    obtain ⟨gs, g1, g2⟩ := SetsOwn.runFrom hs _ _ _ _ h
    obtain ⟨g, hg, hset⟩ := g2 i (by show 1 + k ≤ i; omega) hi
    have hmem : g ∈ σ := hσ.mem_iff.2 (by rw [g1]; simp [hg])
    obtain ⟨σ1, σ2, u, u', _, r2, r3, e⟩ := hrun.at hmem
    obtain ⟨x, hx⟩ := Option.isSome_iff_exists.1 (hset u u' r2)
    rw [r3.mono (fun g hg => hk g (by rw [e]; simp [hg])) i x hx]
    rfl

/-- The wires which circuits mention. -/
theorem within {c : Circuit p} (ha : ∀ r, ∀ i ∈ c, Alike.Given r i.1) {k : ℕ}
    {os : List (Obj p)} {b : Builder p} (hb : c.build k Builder.new = some (os, b)) :
    b.build.Within b.nextWireIndex ∧ ∀ g ∈ b.witnessGenerators, ∀ v u, g.generate v = some u →
      ∀ i, b.nextWireIndex ≤ i → u i = v i := by
  have h := hb
  unfold Circuit.build at h
  rw [B.bind_eq (Enforces.wires_run _ _)] at h
  obtain ⟨_, _, cs, gs, h1, h1', h2, h3⟩ := C100_scoped_circuits c _ os _ b
    (by show 1 ≤ 1 + _; omega) (by
      intro o ho
      obtain ⟨w, hw, rfl⟩ := List.mem_map.1 ho
      intro i hi
      rw [List.mem_range'_1] at hw
      have : i = w := by
        rw [Expression.dependencies_ofWire] at hi
        exact List.mem_singleton.1 hi
      rw [this]
      exact hw.2) ha h
  refine ⟨fun k hk e he i hi => ?_, fun g hg => (h3 g ?_).2.1⟩
  · have hk' : k ∈ cs := by
      have : k ∈ b.constraints := hk
      rw [h1] at this
      simpa [Builder.new] using this
    obtain ⟨s1, s2, s3⟩ := h2 k hk'
    rcases he with rfl | rfl | rfl
    · exact s1 i hi
    · exact s2 i hi
    · exact s3 i hi
  · rw [h1'] at hg
    simpa [Builder.new] using hg

theorem runs_beyond {n : ℕ} : ∀ {σ : List (WitnessGenerator p)} {v v' : WireValues p}, Runs v σ v' →
    (∀ g ∈ σ, ∀ v u, g.generate v = some u → ∀ i, n ≤ i → u i = v i) → ∀ i, n ≤ i → v' i = v i := by
  intro σ v v' h
  induction h with
  | nil => intro _ _ _; rfl
  | cons h1 h2 h3 ih =>
    intro hg i hi
    rw [ih (fun g h => hg g (by simp [h])) i hi, hg _ (by simp) _ _ h2 i hi]

/-- Checking constraints over wires with values returns. -/
theorem checkAll {n : ℕ} {v : WireValues p} (hv : ∀ i < n, (v i).isSome) : ∀ (cs : List (Constraint p)),
    (∀ c ∈ cs, ∀ e, e = c.a ∨ e = c.b ∨ e = c.c → ∀ i ∈ e.dependencies, i < n) →
    (Gadget.checkAll cs v).isSome
  | [], _ => rfl
  | c :: cs, h => by
    have he : ∀ e, e = c.a ∨ e = c.b ∨ e = c.c → e.evaluate v = some (e.eval v.total) := fun e he =>
      Expression.evaluate_eq_some_iff.2 ⟨fun i hi => hv i (h c (by simp) e he i hi), rfl⟩
    have ih := checkAll hv cs fun c' hc' => h c' (by simp [hc'])
    simp only [Gadget.checkAll, Constraint.evaluate, he c.a (.inl rfl), he c.b (.inr (.inl rfl)),
      he c.c (.inr (.inr rfl)), Option.bind_eq_bind, Option.bind_some, Option.pure_def]
    split
    · exact ih
    · rfl

end Missing

/-- C111: every wire which an instruction adds is set by a generator which it adds. -/
theorem C111_gadgets (o : Op p) (h : SetsOwn.Given o) (os : List (Obj p)) : SetsOwn (o.run os) :=
  SetsOwn.run o h os

/-- C111: after an execution which returns, `true` or `false`, on whatever values (the constant and the inputs among
them), exactly the wires of the circuit have values, besides those which had values before. -/
theorem C111_all_wires {c : Circuit p} {d : ℕ} (hc : c.Timed d) (hs : ∀ i ∈ c, SetsOwn.Given i.1)
    (ha : ∀ r, ∀ i ∈ c, Alike.Given r i.1) {k : ℕ} {os : List (Obj p)} {b : Builder p}
    (hb : c.build k Builder.new = some (os, b)) {v v' : WireValues p} {ok : Bool}
    (hv : ∀ i ≤ k, (v i).isSome) (he : b.build.execute v = some (v', ok)) (i : Wire) :
    (v' i).isSome ↔ i < b.nextWireIndex ∨ (v i).isSome := by
  obtain ⟨σ, hσ, hrun⟩ := C21_exactly_once _ v v' ok he
  by_cases hi : i < b.nextWireIndex
  · simp [hi, Missing.build hc hs hb hv hσ hrun i hi]
  · rw [Missing.runs_beyond hrun (fun g hg => (Missing.within ha hb).2 g (hσ.mem_iff.1 hg)) i (by omega)]
    simp [hi]

/-- C111: so `execute` panics for one reason only: some generator panics, when all its inputs have values.  No
generator is left without inputs, and no constraint without values. -/
theorem C111_panics {c : Circuit p} {d : ℕ} (hc : c.Timed d) (hs : ∀ i ∈ c, SetsOwn.Given i.1)
    (ha : ∀ r, ∀ i ∈ c, Alike.Given r i.1) {k : ℕ} {os : List (Obj p)} {b : Builder p}
    (hb : c.build k Builder.new = some (os, b)) {v : WireValues p}
    (hv : ∀ i ≤ k, (v i).isSome) (he : b.build.execute v = none) :
    ∃ σ g ρ u, List.Perm (σ ++ g :: ρ) b.build.witnessGenerators ∧ Runs v σ u ∧ Ready u g ∧
      g.generate u = none := by
  rcases C21_terminates b.build.witnessGenerators v with ⟨rest, v', σ, h1, h2, h3, -⟩ | ⟨-, h⟩
  · exfalso
    obtain rfl := C92_nothing_pending hc hb hv h1
    rw [List.append_nil] at h2
    obtain ⟨ok, hok⟩ := Option.isSome_iff_exists.1 (Missing.checkAll (Missing.build hc hs hb hv h2 h3)
      b.build.constraints (Missing.within ha hb).1)
    unfold Gadget.execute at he
    rw [h1] at he
    simp [hok] at he
  · exact h

/-- C111: the functions which gadgets take as parameters set their own wires, and so do the gadgets built from
them. -/
theorem C111_functions :
    (∀ (c : MiMC p) (x y : Expression p), SetsOwn (c.encrypt x y) ∧ SetsOwn (c.decrypt x y)) ∧
    (∀ c : BlockCipher p, (∀ x y, SetsOwn (c.encrypt x y)) → ∀ x y,
      SetsOwn ((daviesMeyer c).compress x y) ∧ SetsOwn ((miyaguchiPreneel c).compress x y)) ∧
    (∀ h : MerkleDamgard p, (∀ x y, SetsOwn (h.compress.compress x y)) → ∀ xs, SetsOwn (h.hash xs)) ∧
    (∀ s : Sponge p, (∀ xs, SetsOwn (s.permutation.permute xs)) → ∀ xs k, SetsOwn (s.evaluate xs k)) ∧
    (∀ (f : Poseidon p) (xs : List (Expression p)), SetsOwn (f.permute xs)) ∧
    (∀ (f : Rescue p) (xs : List (Expression p)), SetsOwn (f.permute xs)) ∧
    (∀ (GE GX : Type) (C : CyclicGroupOps p GE GX), (∀ x y, SetsOwn (C.addExpressions x y)) →
      (∀ x, SetsOwn (C.doubleExpression x)) → (∀ x k, SetsOwn (C.mulScalarExpression x k)) ∧
      ∀ h : CompressionFunction p, (∀ x y, SetsOwn (h.compress x y)) →
        ∀ σ m Y, SetsOwn (schnorrVerify C h σ m Y)) :=
  ⟨fun c x y => ⟨.encrypt c x y, .decrypt c x y⟩,
    fun _ hc _ _ => ⟨.bind (hc _ _) fun _ => .pure _, .bind (hc _ _) fun _ => .pure _⟩,
    fun _ hc _ => .hash hc _, fun _ hp _ _ => .sponge hp _ _, fun _ _ => .poseidon _ _,
    fun _ _ => .rescue _ _, fun _ _ _ ha hd => ⟨fun _ _ => .mulScalar ha hd _ _,
      fun _ hc _ _ _ => .schnorr ha hd hc _ _ _⟩⟩

/-! ## Examples -/

/-- Code with a cast which nothing but a constraint checks, a selection by its result, a remainder and a
permutation network. -/
def mixedCode : Circuit 13 :=
  [(.assertBoolean, [0]), (.select, [2, 0, 1]), (.modulus, [0, 1]), (.assertPermutation 3, [0, 1, 3, 3, 0, 1])]

example : mixedCode.Timed 2 ∧ (∀ i ∈ mixedCode, SetsOwn.Given i.1) ∧
    ∀ r, ∀ i ∈ mixedCode, Alike.Given r i.1 := by
  refine ⟨fun i hi => ?_, fun i hi => ?_, fun r i hi => ?_⟩ <;>
    simp only [mixedCode, List.mem_cons, List.not_mem_nil, or_false] at hi <;>
    rcases hi with rfl | rfl | rfl | rfl
  · exact ⟨by decide, trivial⟩
  · exact ⟨by decide, trivial⟩
  · exact ⟨by decide, trivial⟩
  · exact ⟨by decide +kernel, trivial⟩
  all_goals trivial

/-- The inputs 5 and 3: the cast is wrong, the verdict is `false`, and every wire has a value. -/
example : ((mixedCode.build 2 Builder.new).bind fun r =>
    (r.2.build.execute (inputs [5, 3])).map fun e =>
      (e.2, (List.range r.2.nextWireIndex).all fun i => (e.1 i).isSome, (e.1 r.2.nextWireIndex).isSome)) =
    some (false, true, false) := by decide +kernel

/-- The inputs 5 and 0: the generator of `modulus` divides by zero. -/
example : ((mixedCode.build 2 Builder.new).bind fun r => r.2.build.execute (inputs [5, 0])).isNone := by
  decide +kernel

/-- Not so for code of a client which takes a wire and forgets its generator: `execute` panics although no
generator does. -/
example : ¬ SetsOwn (p := 11) (do
    let w ← B.wire
    B.assertEqual (Expression.ofWire w) 1) := by
  intro h
  obtain ⟨gs, h1, h2⟩ := h Builder.new () _ rfl
  have h1 : ([] : List (WitnessGenerator 11)) = [] ++ gs := h1
  obtain rfl : gs = [] := by simpa using h1.symm
  obtain ⟨_, hg, _⟩ := h2 1 le_rfl (by show 1 < 1 + 1; omega)
  cases hg

end R1CS
