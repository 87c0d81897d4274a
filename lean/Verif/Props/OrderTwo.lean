import Verif.Props.Arithmetic

/-!
# C27, C29, C31 over the field of order 2

The theorems about honest executions of the tests, of `inverse_or_zero` and of `quotient_unsafe` ask for an order
above 2.  Over the field of order 2 an execution only returns if nothing is to be divided.
-/

set_option linter.unusedSectionVars false

namespace R1CS

variable {p : ℕ} [hp : Fact p.Prime] {α β : Type}

namespace OrderTwo

theorem two_lt {x i : Elem p} (h : x.multiplicativeInverse = some i) : 2 < p := by
  unfold Elem.multiplicativeInverse at h
  split at h
  · cases h
  · obtain ⟨two, htwo, _⟩ := Option.bind_eq_some_iff.1 h
    unfold Elem.ofNat? at htwo
    split at htwo
    · next h2 => exact h2
    · cases htwo

theorem two_lt_div {x y z : Elem p} (h : x.div y = some z) : 2 < p := by
  obtain ⟨i, hi, _⟩ := Option.bind_eq_some_iff.1 h
  exact two_lt hi

/-- A generator which is there when the gadget is executed ran on values which are kept. -/
theorem ran {m : B p α} (hm : Prog m) {b b1 b2 : Builder p} {z : α}
    (hb : ∀ g ∈ b.witnessGenerators, KeepsValues g.generate) (h1 : m b = some (z, b1))
    {k : B p β} {a : β} (hk : Prog k) (h2 : k b1 = some (a, b2)) {v v' : WireValues p} {ok : Bool}
    (h : b2.build.execute v = some (v', ok)) {g : WitnessGenerator p} (hg : g ∈ b1.witnessGenerators) :
    ∃ u u', g.generate u = some u' ∧ ∀ i x, u i = some x → v' i = some x := by
  obtain ⟨_, _, gs, hgs, hkeep⟩ := C23_appends (hm.bind fun _ => hk) (b := b) (b' := b2) (a := a)
    (by rw [B.bind_eq h1, h2])
  have hall : ∀ g ∈ b2.build.witnessGenerators, KeepsValues g.generate := by
    change ∀ g ∈ b2.witnessGenerators, _
    rw [hgs]
    intro g hg
    rcases List.mem_append.1 hg with h | h
    · exact hb g h
    · exact hkeep g h
  obtain ⟨_, _, gs', hgs', _⟩ := C23_appends hk h2
  have hmem : g ∈ b2.build.witnessGenerators := by
    change _ ∈ b2.witnessGenerators
    rw [hgs', List.mem_append]
    exact Or.inl hg
  obtain ⟨u, u', _, hgen, hu, _⟩ := ran_of_execute hall h hmem
  exact ⟨u, u', hgen, hu⟩

theorem nonzero (x : Expression p) {b b1 b2 : Builder p} {z : BooleanExpression p}
    (hb : ∀ g ∈ b.witnessGenerators, KeepsValues g.generate) (h1 : B.nonzero x b = some (z, b1))
    {k : B p β} {a : β} (hk : Prog k) (h2 : k b1 = some (a, b2)) {v v' : WireValues p} {ok : Bool}
    (h : b2.build.execute v = some (v', ok)) : x.eval v'.total = 0 ∨ 2 < p := by
  obtain ⟨u, u', hgen, hu⟩ := ran (g := ⟨x.dependencies, B.nonzeroGen x b.nextWireIndex (b.nextWireIndex + 1)⟩)
    (Prog.nonzero x) hb h1 hk h2 h (by
      obtain ⟨_, rfl⟩ := Prod.ext_iff.1 (Option.some.inj h1)
      simp)
  obtain ⟨xv, hxv, hgen⟩ := Option.bind_eq_some_iff.1 hgen
  obtain ⟨mv, hmv, _⟩ := Option.bind_eq_some_iff.1 hgen
  rw [evaluate_mono hu hxv]
  split at hmv
  · exact Or.inr (two_lt_div hmv)
  · next hz =>
    left
    by_contra h0
    exact hz ((Elem.isNonzero_iff _).2 h0)

end OrderTwo

open OrderTwo

/-- C31: over the field of order 2 an execution containing one of the tests returns only if the test finds a zero. -/
theorem C31_order_two (x y : Expression p) {b b1 b2 : Builder p} {z : BooleanExpression p}
    (hb : ∀ g ∈ b.witnessGenerators, KeepsValues g.generate)
    {k : B p β} {a : β} (hk : Prog k) (h2 : k b1 = some (a, b2)) {v v' : WireValues p} {ok : Bool}
    (h : b2.build.execute v = some (v', ok)) (hp2 : p = 2) :
    (B.nonzero x b = some (z, b1) → x.eval v'.total = 0) ∧ (B.zero x b = some (z, b1) → x.eval v'.total = 0) ∧
    (B.equal x y b = some (z, b1) → x.eval v'.total = y.eval v'.total) := by
  have hz : ∀ x : Expression p, B.zero x b = some (z, b1) → x.eval v'.total = 0 := fun x h1 => by
    obtain ⟨nz, b3, h3, h4⟩ := B.bind_run h1
    obtain ⟨_, rfl⟩ := Prod.ext_iff.1 (Option.some.inj h4)
    exact (nonzero x hb h3 hk h2 h).resolve_right (by omega)
  exact ⟨fun h1 => (nonzero x hb h1 hk h2 h).resolve_right (by omega), hz x, fun h1 => by
    have := hz _ h1
    rwa [Expression.eval_sub, sub_eq_zero] at this⟩

/-- C27, C29: and an execution containing `inverse_or_zero` only if the operand is zero, and one containing
`quotient_unsafe` never. -/
theorem C27_order_two (x : Expression p) {b b1 b2 : Builder p} {z : Expression p}
    (hb : ∀ g ∈ b.witnessGenerators, KeepsValues g.generate)
    {k : B p β} {a : β} (hk : Prog k) (h2 : k b1 = some (a, b2)) {v v' : WireValues p} {ok : Bool}
    (h : b2.build.execute v = some (v', ok)) (hp2 : p = 2) (h1 : B.inverseOrZero x b = some (z, b1)) :
    x.eval v'.total = 0 := by
  obtain ⟨u, u', hgen, hu⟩ := ran (g := ⟨x.dependencies, B.inverseOrZeroGen x b.nextWireIndex⟩)
    (Prog.inverseOrZero x) hb h1 hk h2 h (by
      obtain ⟨_, rfl⟩ := Prod.ext_iff.1 (Option.some.inj h1)
      simp)
  obtain ⟨xv, hxv, hgen⟩ := Option.bind_eq_some_iff.1 hgen
  obtain ⟨i, hi, _⟩ := Option.bind_eq_some_iff.1 hgen
  rw [evaluate_mono hu hxv]
  unfold Elem.multiplicativeInverseOrZero at hi
  split at hi
  · next hz => exact (Elem.isZero_iff _).1 hz
  · have := two_lt hi
    omega

theorem C29_order_two (x y : Expression p) {b b1 b2 : Builder p} {z : Expression p}
    (hb : ∀ g ∈ b.witnessGenerators, KeepsValues g.generate)
    {k : B p β} {a : β} (hk : Prog k) (h2 : k b1 = some (a, b2)) (v : WireValues p) (hp2 : p = 2)
    (h1 : B.quotientUnsafe x y b = some (z, b1)) : b2.build.execute v = none := by
  cases h : b2.build.execute v with
  | none => rfl
  | some r =>
    exfalso
    obtain ⟨u, u', hgen, hu⟩ := ran
      (g := ⟨x.dependencies ++ y.dependencies, B.quotientUnsafeGen x y b.nextWireIndex⟩)
      (Prog.quotientUnsafe x y) hb h1 hk h2 (v' := r.1) (ok := r.2) h (by
        obtain ⟨_, rfl⟩ := Prod.ext_iff.1 (Option.some.inj h1)
        simp)
    obtain ⟨xv, hxv, hgen⟩ := Option.bind_eq_some_iff.1 hgen
    obtain ⟨yv, hyv, hgen⟩ := Option.bind_eq_some_iff.1 hgen
    split at hgen
    · obtain ⟨q, hq, _⟩ := Option.bind_eq_some_iff.1 hgen
      have := two_lt_div hq
      omega
    · cases hgen

/-- C34: `xor` of expressions which are not constant can be built exactly if the order is above 2. -/
theorem C34_order_two (x y : BooleanExpression p) (b : Builder p) (hx : x.expression.asConstant = none)
    (hy : y.expression.asConstant = none) : (B.xor x y b).isSome = true ↔ 2 < p := by
  have hm : ((Expression.ofWire b.nextWireIndex : Expression p).mulNat 2).isSome = true ↔ 2 < p := by
    have hc : (Expression.ofWire b.nextWireIndex : Expression p).coefficients = [(b.nextWireIndex, 1)] := by
      have h1 : (1 : Elem p).isNonzero = true := (Elem.isNonzero_iff _).2 one_ne_zero
      simp [Expression.ofWire, Expression.new, h1]
    unfold Expression.mulNat
    rw [hc]
    unfold Elem.mulNat Elem.ofNat?
    by_cases h : 2 < p
    · simp [h]
    · simp [h]
  obtain ⟨b', hb⟩ : ∃ b', B.product x.expression y.expression b = some (Expression.ofWire b.nextWireIndex, b') := by
    unfold B.product
    rw [hx, hy]
    exact ⟨_, rfl⟩
  unfold B.xor
  rw [B.bind_eq hb, ← hm]
  cases (Expression.ofWire b.nextWireIndex : Expression p).mulNat 2 with
  | none => exact Iff.rfl
  | some e => exact ⟨fun _ => rfl, fun _ => rfl⟩

/-! ## Examples -/

/-- Over the field of order 2, testing a one panics and testing a zero does not; the exclusive or panics already
when it is built. -/
example :
    ((B.nonzero (p := 2) (Expression.ofWire 1) ⟨2, [], []⟩).bind fun t =>
      (t.2.build.execute fun i => [some 1, some 1].getD i none).map fun e => e.2) = (none : Option Bool) ∧
    ((B.nonzero (p := 2) (Expression.ofWire 1) ⟨2, [], []⟩).bind fun t =>
      (t.2.build.execute fun i => [some 1, some 0].getD i none).map fun e => e.2) = some true := by
  decide +kernel

end R1CS
