import Verif.Lemmas.ApieceLanguage
import Verif.Lemmas.Confluence
import Verif.Props.Missing

/-!
# C112: the order in which generators are added or run does not matter

`GadgetBuilder::build` hands the generators over in the order in which gadgets added them
(src/gadget_builder.rs:161-166), and `Gadget::execute` goes through those which are still pending in passes
(src/gadget.rs:25-48); a queue is planned instead (src/gadget.rs:27-30).  `C20_order_independent` is about generators which never panic and wires without values;
here are the circuits as they are, on whatever values.
-/

set_option linter.unusedSectionVars false

namespace R1CS

variable {p : ℕ} [hp : Fact p.Prime] {α : Type}

namespace AnyOrder

/-- The pieces of a program. -/
theorem pieces {m : B p α} (hm : Apiece m) {a : α} {b : Builder p} (hb : m Builder.new = some (a, b)) :
    ∃ A : List (Piece p), b.build.witnessGenerators = A.map Prod.fst ∧ Split (A : Multiset (Piece p)) := by
  obtain ⟨-, A, h1, h2, -, h4⟩ := hm _ _ _ hb
  refine ⟨A, by simpa [Builder.build, Builder.new] using h1, fun e he => h4 e (Multiset.mem_coe.1 he), ?_⟩
  rw [Multiset.coe_bind]
  exact Multiset.coe_nodup.2 h2

/-- The constraints may be any. -/
theorem execute {m : B p α} (hm : Apiece m) {a : α} {b : Builder p} (hb : m Builder.new = some (a, b))
    {gs : List (WitnessGenerator p)} (hgs : List.Perm gs b.build.witnessGenerators) (v : WireValues p)
    (cs : List (Constraint p)) :
    Gadget.execute ⟨cs, gs⟩ v = Gadget.execute ⟨cs, b.build.witnessGenerators⟩ v := by
  obtain ⟨A, h1, h2⟩ := pieces hm hb
  have h3 : List.Perm b.build.witnessGenerators (A.map Prod.fst) := by rw [h1]
  rcases Ends.ofLoop h3 v with ⟨-, he⟩ | ⟨R, v', -, he⟩
  · rw [he.execute h2 (hgs.trans h3), he.execute h2 h3]
  · rw [he.execute h2 (hgs.trans h3), he.execute h2 h3]

/-- The verdict on constraints over wires with values. -/
theorem checkAll {n : ℕ} {v : WireValues p} (hv : ∀ i < n, (v i).isSome) : ∀ (cs : List (Constraint p)),
    (∀ c ∈ cs, ∀ e, e = c.a ∨ e = c.b ∨ e = c.c → ∀ i ∈ e.dependencies, i < n) →
    Gadget.checkAll cs v = some (cs.all fun c =>
      decide (c.a.eval v.total * c.b.eval v.total = c.c.eval v.total))
  | [], _ => rfl
  | c :: cs, h => by
    have he : ∀ e, e = c.a ∨ e = c.b ∨ e = c.c → e.evaluate v = some (e.eval v.total) := fun e he =>
      Expression.evaluate_eq_some_iff.2 ⟨fun i hi => hv i (h c (by simp) e he i hi), rfl⟩
    have ih := checkAll hv cs fun c' hc' => h c' (by simp [hc'])
    simp only [Gadget.checkAll, Constraint.evaluate, he c.a (.inl rfl), he c.b (.inr (.inl rfl)),
      he c.c (.inr (.inr rfl)), Option.bind_eq_bind, Option.bind_some, Option.pure_def]
    by_cases hc : c.a.eval v.total * c.b.eval v.total = c.c.eval v.total
    · simp [hc, ih]
    · simp [hc]

end AnyOrder

/-- C112: the generators which an instruction adds have wires apiece. -/
theorem C112_gadgets (o : Op p) (h : Apiece.Given o) (os : List (Obj p)) : Apiece (o.run os) :=
  Apiece.run o h os

/-- C112: for every program whose generators have wires apiece, `execute` with the generators in any other order does
the same on all values whatsoever: it panics if and only if `execute` does, and returns the same values and the same
verdict. -/
theorem C112_order {m : B p α} (hm : Apiece m) {a : α} {b : Builder p} (hb : m Builder.new = some (a, b))
    {gs : List (WitnessGenerator p)} (hgs : List.Perm gs b.build.witnessGenerators) (v : WireValues p) :
    Gadget.execute ⟨b.build.constraints, gs⟩ v = b.build.execute v :=
  AnyOrder.execute hm hb hgs v _

/-- C112: the circuits of the language are such programs. -/
theorem C112_circuits {c : Circuit p} (hc : ∀ i ∈ c, Apiece.Given i.1) {k : ℕ} {os : List (Obj p)} {b : Builder p}
    (hb : c.build k Builder.new = some (os, b)) {gs : List (WitnessGenerator p)}
    (hgs : List.Perm gs b.build.witnessGenerators) (v : WireValues p) :
    Gadget.execute ⟨b.build.constraints, gs⟩ v = b.build.execute v :=
  C112_order (Apiece.build hc k) hb hgs v

/-- C112: nor does the order of the constraints matter, on values with the constant and the inputs among them. -/
theorem C112_constraints {c : Circuit p} {d : ℕ} (hc : c.Timed d) (hg : ∀ i ∈ c, Apiece.Given i.1)
    (hs : ∀ i ∈ c, SetsOwn.Given i.1) (ha : ∀ r, ∀ i ∈ c, Alike.Given r i.1) {k : ℕ} {os : List (Obj p)}
    {b : Builder p} (hb : c.build k Builder.new = some (os, b)) {v : WireValues p}
    (hv : ∀ i ≤ k, (v i).isSome) {cs : List (Constraint p)} (hcs : List.Perm cs b.build.constraints)
    {gs : List (WitnessGenerator p)} (hgs : List.Perm gs b.build.witnessGenerators) :
    Gadget.execute ⟨cs, gs⟩ v = b.build.execute v := by
  rw [AnyOrder.execute (Apiece.build hg k) hb hgs]
  unfold Gadget.execute
  rcases C21_terminates b.build.witnessGenerators v with ⟨rest, v', σ, h1, h2, h3, -⟩ | ⟨h1, -⟩
  · obtain rfl := C92_nothing_pending hc hb hv h1
    rw [List.append_nil] at h2
    have hw := (Missing.within ha hb).1
    have hv' := Missing.build hc hs hb hv h2 h3
    have e : Gadget.checkAll cs v' = Gadget.checkAll b.build.constraints v' := by
      rw [AnyOrder.checkAll hv' _ hw, AnyOrder.checkAll hv' _ fun c hc => hw c (hcs.mem_iff.1 hc), hcs.all_eq]
    simp only [h1, Option.bind_eq_bind, Option.bind_some, e]
  · simp only [h1]
    rfl

/-- C112: nor does it matter which of the generators that are ready runs next, as passes would have it or otherwise.
Whoever runs generators one by one, each once and only when its inputs have values, comes to the result of `execute`:
after all of them the values are those which `execute` returns and the constraints decide; if one panics, or some are
left of which none is ready, `execute` panics. -/
theorem C112_schedules {m : B p α} (hm : Apiece m) {a : α} {b : Builder p} (hb : m Builder.new = some (a, b))
    {v v' : WireValues p} {σ rest : List (WitnessGenerator p)}
    (hσ : List.Perm (σ ++ rest) b.build.witnessGenerators) (hrun : Runs v σ v') :
    (rest = [] → b.build.execute v = (Gadget.checkAll b.build.constraints v').map fun ok => (v', ok)) ∧
    ((∃ g ∈ rest, Ready v' g ∧ g.generate v' = none) → b.build.execute v = none) ∧
    (rest ≠ [] → (∀ g ∈ rest, ¬ Ready v' g) → b.build.execute v = none) := by
  obtain ⟨A, h1, h2⟩ := AnyOrder.pieces hm hb
  have h3 : List.Perm b.build.witnessGenerators (A.map Prod.fst) := by rw [h1]
  obtain ⟨A', k1, k2⟩ := Exec.lift_perm (hσ.trans h3)
  obtain ⟨S, R, rfl, rfl, rfl⟩ := List.map_eq_append_iff.1 k2
  have he : ∀ o, Ends v' (R : Multiset (Piece p)) o → Ends v (A : Multiset (Piece p)) o := fun o h => by
    rw [← Multiset.coe_eq_coe.2 k1, ← Multiset.coe_add]
    exact .ofRuns hrun h
  have hstuck : (∀ g ∈ R.map Prod.fst, ¬ Ready v' g) → Ends v (A : Multiset (Piece p)) (some (R, v')) :=
    fun h => he _ (.stuck fun g hg => h _ (List.mem_map_of_mem (Multiset.mem_coe.1 hg)))
  refine ⟨fun e => ?_, fun ⟨g, hg, g1, g2⟩ => ?_, fun hne hr => ?_⟩
  · obtain rfl := List.map_eq_nil_iff.1 e
    exact ((hstuck (by simp)).execute h2 h3 b.build.constraints).trans (by simp)
  · obtain ⟨e, hR, rfl⟩ := List.mem_map.1 hg
    obtain ⟨G, hG⟩ := Multiset.exists_cons_of_mem (Multiset.mem_coe.2 hR)
    exact ((he none (by rw [hG]; exact .panic g1 g2)).execute h2 h3 b.build.constraints).trans rfl
  · refine ((hstuck hr).execute h2 h3 b.build.constraints).trans ?_
    have : R ≠ [] := fun h => hne (by rw [h]; rfl)
    simp [this]

/-- C112: the functions which gadgets take as parameters, and the gadgets built from them, are such programs. -/
theorem C112_functions :
    (∀ (c : MiMC p) (x y : Expression p), Apiece (c.encrypt x y) ∧ Apiece (c.decrypt x y)) ∧
    (∀ c : BlockCipher p, (∀ x y, Apiece (c.encrypt x y)) → ∀ x y,
      Apiece ((daviesMeyer c).compress x y) ∧ Apiece ((miyaguchiPreneel c).compress x y)) ∧
    (∀ h : MerkleDamgard p, (∀ x y, Apiece (h.compress.compress x y)) → ∀ xs, Apiece (h.hash xs)) ∧
    (∀ s : Sponge p, (∀ xs, Apiece (s.permutation.permute xs)) → ∀ xs k, Apiece (s.evaluate xs k)) ∧
    (∀ (f : Poseidon p) (xs : List (Expression p)), Apiece (f.permute xs)) ∧
    (∀ (f : Rescue p) (xs : List (Expression p)), Apiece (f.permute xs)) ∧
    (∀ (GE GX : Type) (C : CyclicGroupOps p GE GX), (∀ x y, Apiece (C.addExpressions x y)) →
      (∀ x, Apiece (C.doubleExpression x)) → (∀ x k, Apiece (C.mulScalarExpression x k)) ∧
      ∀ h : CompressionFunction p, (∀ x y, Apiece (h.compress x y)) →
        ∀ σ m Y, Apiece (schnorrVerify C h σ m Y)) :=
  ⟨fun c x y => ⟨.encrypt c x y, .decrypt c x y⟩,
    fun _ hc _ _ => ⟨.bind (hc _ _) fun _ => .pure _, .bind (hc _ _) fun _ => .pure _⟩,
    fun _ hc _ => .hash hc _, fun _ hp _ _ => .sponge hp _ _, fun _ _ => .poseidon _ _,
    fun _ _ => .rescue _ _, fun _ _ _ ha hd => ⟨fun _ _ => .mulScalar ha hd _ _,
      fun _ hc _ _ _ => .schnorr ha hd hc _ _ _⟩⟩

/-! ## Examples -/

/-- The code `mixedCode` of C111, with a remainder and a permutation network: the hypotheses hold. -/
example : ∀ i ∈ mixedCode, Apiece.Given i.1 := by
  intro i hi
  simp only [mixedCode, List.mem_cons, List.not_mem_nil, or_false] at hi
  rcases hi with rfl | rfl | rfl | rfl <;> trivial

/-- On the inputs 5 and 3 it does the same with the generators backwards, which then take more passes, ... -/
example : ((mixedCode.build 2 Builder.new).bind fun r =>
    (Gadget.execute ⟨r.2.constraints, r.2.witnessGenerators.reverse⟩ (Circuit.inputs [5, 3])).map fun e =>
      (e.2, (List.range r.2.nextWireIndex).map fun i => e.1 i)) =
    ((mixedCode.build 2 Builder.new).bind fun r =>
      (r.2.build.execute (Circuit.inputs [5, 3])).map fun e =>
        (e.2, (List.range r.2.nextWireIndex).map fun i => e.1 i)) := by decide +kernel

/-- ... and on the inputs 5 and 0 it panics both ways. -/
example : ((mixedCode.build 2 Builder.new).bind fun r =>
    Gadget.execute ⟨r.2.constraints, r.2.witnessGenerators.reverse⟩ (Circuit.inputs [5, 0])).isNone := by
  decide +kernel

/-- The constraints backwards on the inputs 5 and 3, of which the cast is violated. -/
example : ((mixedCode.build 2 Builder.new).bind fun r =>
    (Gadget.execute ⟨r.2.constraints.reverse, r.2.witnessGenerators.reverse⟩ (Circuit.inputs [5, 3])).map
      fun e => (e.2, decide (1 < r.2.constraints.length))) = some (false, true) := by decide +kernel

/-- Not so for generators of a client which share a wire. -/
example : ∃ g h : WitnessGenerator 11,
    (Gadget.execute ⟨[], [g, h]⟩ WireValues.new).isSome ∧ (Gadget.execute ⟨[], [h, g]⟩ WireValues.new).isNone :=
  ⟨⟨[], fun v => v.set 1 5⟩, ⟨[], fun v => if v.contains 1 then some v else none⟩, by decide +kernel,
    by decide +kernel⟩

end R1CS
