import Verif.Lemmas.Forge
import Verif.Props.Builder

/-!
# C24-C34: field arithmetic, tests, assertions, selection and boolean connectives
-/

set_option linter.unusedSectionVars false

namespace R1CS

variable {p : ℕ} [hp : Fact p.Prime] {α : Type}

open Expression (eval_add eval_sub eval_neg eval_ofWire eval_mulElem)

/-! ## Executions that return -/

/-- In an execution that returns, every generator ran from values contained in the final ones. -/
theorem ran_of_execute {g : Gadget p} (hk : ∀ k ∈ g.witnessGenerators, KeepsValues k.generate)
    {v v' : WireValues p} {ok : Bool} (h : g.execute v = some (v', ok))
    {k : WitnessGenerator p} (hg : k ∈ g.witnessGenerators) :
    ∃ u u', Ready u k ∧ k.generate u = some u' ∧ (∀ i x, u i = some x → v' i = some x) ∧
      ∀ i x, u' i = some x → v' i = some x := by
  obtain ⟨σ, hσ, hrun⟩ := C21_exactly_once g v v' ok h
  obtain ⟨s1, s2, rfl⟩ := List.append_of_mem (hσ.mem_iff.2 hg)
  have hall : ∀ g ∈ s1 ++ k :: s2, KeepsValues g.generate := fun g hk' => hk g (hσ.mem_iff.1 hk')
  clear hσ hg h
  induction s1 generalizing v with
  | nil =>
    cases hrun with
    | cons hin hgen hrest =>
      have hm : ∀ i x, _ → v' i = some x := hrest.mono fun g hg => hall g (by simp [hg])
      exact ⟨v, _, hin, hgen, fun i x hi => hm i x (hall k (by simp) _ _ hgen i x hi), hm⟩
  | cons a s1 ih =>
    cases hrun with
    | cons hin hgen hrest => exact ih hrest fun k hk => hall k (by
        rw [List.cons_append, List.mem_cons]; exact Or.inr hk)

/-- The value of an expression in a map contained in another. -/
theorem evaluate_mono {u v' : WireValues p} (h : ∀ i x, u i = some x → v' i = some x)
    {e : Expression p} {x : Elem p} (he : e.evaluate u = some x) : e.eval v'.total = x := by
  obtain ⟨h1, h2⟩ := Expression.evaluate_eq_some_iff.1 he
  rw [h2]
  apply Expression.eval_congr
  intro i hi
  obtain ⟨y, hy⟩ := Option.isSome_iff_exists.1 (h1 i hi)
  simp [WireValues.total, hy, h i y hy]

/-! ## C24 -/

/-- C24: in every satisfying assignment the result is the product. -/
theorem C24_product_enforced (x y : Expression p) :
    Enforces (B.product x y) (fun z w => z.eval w = x.eval w * y.eval w) := Enforces.product x y

/-- C24: honest execution computes the product. -/
theorem C24_product_computed (s : Hon p) {x y : Expression p} (hx : x.Scoped s.next)
    (hy : y.Scoped s.next) :
    Computes (B.product x y) s fun z s' => z.eval s'.W = x.eval s.W * y.eval s.W :=
  ((Comp.product hx hy).mono fun _ _ _ h => ⟨h.1, h.2.2⟩).computes

/-- C24: constants are folded: no wire, constraint or generator is added. -/
theorem C24_product_folds (x y : Expression p) (c : Elem p)
    (h : x.asConstant = some c ∨ y.asConstant = some c) (b : Builder p) :
    ∃ z, B.product x y b = some (z, b) := by
  unfold B.product
  cases hx : x.asConstant with
  | some d => exact ⟨_, rfl⟩
  | none =>
    rcases h with h | h
    · rw [hx] at h; exact absurd h (by simp)
    · simp only [h]; exact ⟨_, rfl⟩

/-- C24: `product` never panics. -/
theorem C24_product_never_panics (x y : Expression p) (b : Builder p) :
    (B.product x y b).isSome := by
  unfold B.product
  cases x.asConstant with
  | some c => rfl
  | none =>
    cases y.asConstant with
    | some c => rfl
    | none => rfl

/-- `5 * 5 = 12` over the field of order 13. -/
example : Computes (B.product (Expression.ofWire 1) (Expression.ofWire 1)) honest5
    (fun z s' => z.eval s'.W = 12) :=
  (C24_product_computed honest5 (.ofWire (by decide)) (.ofWire (by decide))).mono
    fun z s' _ h3 => by rw [h3, eval_ofWire]; decide

/-! ## C25 -/

/-- C25: enforced. -/
theorem C25_exponentiation_enforced (x : Expression p) (k : Elem p) :
    Enforces (B.exponentiation x k) (fun z w => z.eval w = x.eval w ^ k.n) :=
  Enforces.exponentiation x k

/-- C25: computed. -/
theorem C25_exponentiation_computed (s : Hon p) {x : Expression p} (hx : x.Scoped s.next)
    (k : Elem p) :
    Computes (B.exponentiation x k) s fun z s' => z.eval s'.W = x.eval s.W ^ k.n :=
  ((Comp.exponentiation hx k).mono fun _ _ _ h => ⟨h.1, h.2.2⟩).computes

/-- `5^7 = 8` over the field of order 13. -/
example : Computes (B.exponentiation (Expression.ofWire 1) 7) honest5
    (fun z s' => z.eval s'.W = 8) :=
  (C25_exponentiation_computed honest5 (.ofWire (by decide)) 7).mono
    fun z s' _ h3 => by rw [h3, eval_ofWire]; decide

/-! ## C26 -/

/-- C26: `inverse` is satisfiable only for a non-zero operand, and then gives its inverse. -/
theorem C26_inverse_enforced (x : Expression p) :
    Enforces (B.inverse x) (fun z w => x.eval w ≠ 0 ∧ x.eval w * z.eval w = 1) :=
  (Enforces.inverse x).mono fun z w _ h => ⟨fun h0 => by
    rw [h0, zero_mul] at h; exact zero_ne_one h, h⟩

/-- C26: `quotient` is satisfiable only for a non-zero divisor, and then gives the quotient. -/
theorem C26_quotient_enforced (x y : Expression p) :
    Enforces (B.quotient x y) (fun z w => y.eval w ≠ 0 ∧ z.eval w * y.eval w = x.eval w) :=
  (Enforces.quotient x y).mono fun z w _ h => ⟨h.1, by rw [h.2]; exact div_mul_cancel₀ _ h.1⟩

/-- C26: honest execution of `inverse`. -/
theorem C26_inverse_computed (h2 : 2 < p) (s : Hon p) {x : Expression p} (hx : x.Scoped s.next)
    (h : x.eval s.W ≠ 0) :
    Computes (B.inverse x) s fun z s' => x.eval s.W * z.eval s'.W = 1 :=
  ((Comp.inverse h2 hx h).mono fun _ _ _ g => ⟨g.1, by
    rw [g.2.2]; exact mul_inv_cancel₀ h⟩).computes

/-- C26: honest execution of `quotient`. -/
theorem C26_quotient_computed (h2 : 2 < p) (s : Hon p) {x y : Expression p} (hx : x.Scoped s.next)
    (hy : y.Scoped s.next) (h : y.eval s.W ≠ 0) :
    Computes (B.quotient x y) s fun z s' => z.eval s'.W * y.eval s.W = x.eval s.W :=
  ((Comp.quotient h2 hx hy h).mono fun _ _ _ g => ⟨g.1, by
    rw [g.2.2]; exact div_mul_cancel₀ _ h⟩).computes

/-- C26: an execution never returns with a zero operand of `inverse`: it panics.  (Over the field
of order 2 it always panics.)  `b` is any builder state, `k` any later program. -/
theorem C26_inverse_panics (x : Expression p) {b b1 b2 : Builder p} {z : Expression p}
    (hb : ∀ g ∈ b.witnessGenerators, KeepsValues g.generate) (h1 : B.inverse x b = some (z, b1))
    {k : B p α} {a : α} (hk : Prog k) (h2 : k b1 = some (a, b2)) {v v' : WireValues p} {ok : Bool}
    (h : b2.build.execute v = some (v', ok)) : x.eval v'.total ≠ 0 ∧ 2 < p := by
  obtain ⟨_, _, gs, hgs, hkeep⟩ := C23_appends ((Prog.inverse x).bind fun _ => hk)
    (b := b) (b' := b2) (a := a) (by rw [B.bind_eq h1, h2])
  have hall : ∀ g ∈ b2.build.witnessGenerators, KeepsValues g.generate := by
    change ∀ g ∈ b2.witnessGenerators, _
    rw [hgs]
    intro g hg
    rcases List.mem_append.1 hg with h | h
    · exact hb g h
    · exact hkeep g h
  obtain ⟨_, _, gs', hgs', _⟩ := C23_appends hk h2
  have hmem : (⟨x.dependencies, B.inverseGen x b.nextWireIndex⟩ : WitnessGenerator p) ∈
      b2.build.witnessGenerators := by
    change _ ∈ b2.witnessGenerators
    rw [hgs', List.mem_append]
    left
    simp only [B.inverse] at h1
    obtain ⟨_, b3, h3, h4⟩ := B.bind_run h1
    obtain ⟨rfl, rfl⟩ := Prod.ext_iff.1 (Option.some.inj h3)
    obtain ⟨_, b5, h5, h6⟩ := B.bind_run h4
    obtain ⟨_, rfl⟩ := Prod.ext_iff.1 (Option.some.inj h5)
    obtain ⟨_, b7, h7, h8⟩ := B.bind_run h6
    obtain ⟨_, rfl⟩ := Prod.ext_iff.1 (Option.some.inj h7)
    obtain ⟨_, rfl⟩ := Prod.ext_iff.1 (Option.some.inj h8)
    simp
  obtain ⟨u, u', _, hgen, hu, _⟩ := ran_of_execute hall h hmem
  simp only [B.inverseGen] at hgen
  obtain ⟨xv, hxv, hgen⟩ := Option.bind_eq_some_iff.1 hgen
  obtain ⟨iv, hiv, hgen⟩ := Option.bind_eq_some_iff.1 hgen
  rw [evaluate_mono hu hxv]
  unfold Elem.multiplicativeInverse at hiv
  split at hiv
  · exact absurd hiv (by simp)
  · next hz =>
    obtain ⟨two, htwo, _⟩ := Option.bind_eq_some_iff.1 hiv
    unfold Elem.ofNat? at htwo
    split at htwo
    · next h2 => exact ⟨fun h0 => hz (by rw [h0]; rfl), h2⟩
    · exact absurd htwo (by simp)

example : Computes (B.inverse (Expression.ofWire 1)) honest5 (fun z s' => z.eval s'.W = 8) :=
  (C26_inverse_computed (by decide) honest5 (.ofWire (by decide))
    (by rw [eval_ofWire]; decide)).mono fun z s' _ h3 => by
      rw [eval_ofWire] at h3
      have : (8 : Elem 13) * (5 : Elem 13) = 1 := by decide
      calc z.eval s'.W = 8 * 5 * z.eval s'.W := by rw [this, one_mul]
        _ = 8 * ((5 : Elem 13) * z.eval s'.W) := by ring
        _ = 8 := by rw [show (5 : Elem 13) * z.eval s'.W = 1 from h3, mul_one]

/-! ## C27, C28 -/

/-- C27: honest execution of `inverse_or_zero`. -/
theorem C27_inverse_or_zero_computed (h2 : 2 < p) (s : Hon p) {x : Expression p}
    (hx : x.Scoped s.next) :
    Computes (B.inverseOrZero x) s fun z s' =>
      (x.eval s.W ≠ 0 → x.eval s.W * z.eval s'.W = 1) ∧ (x.eval s.W = 0 → z.eval s'.W = 0) :=
  ((Comp.inverseOrZero h2 hx).mono fun _ _ _ g => ⟨g.1, fun h => by
    rw [g.2.2]; exact mul_inv_cancel₀ h, fun h => by rw [g.2.2, h, inv_zero]⟩).computes

example : Computes (B.inverseOrZero (Expression.ofWire 1 - Expression.ofElem 5)) honest5
    (fun z s' => z.eval s'.W = 0) :=
  (C27_inverse_or_zero_computed (by decide) honest5
    ((Expression.Scoped.ofWire (by decide)).sub (.ofElem (by decide) _))).mono
    fun z s' _ h3 => h3.2 (by
      rw [eval_sub, eval_ofWire, Expression.eval_ofElem honest5.one]; decide)

/-- C28, the part that holds: for a non-zero operand the result is the inverse. -/
theorem C28_inverse_or_zero_enforced_partial (x : Expression p) :
    Enforces (B.inverseOrZero x) (fun z w => x.eval w ≠ 0 → x.eval w * z.eval w = 1) :=
  (Enforces.inverseOrZero x).mono fun z w _ h h0 => by rw [h h0]; exact mul_inv_cancel₀ h0

/-- C28 fails for a zero operand: in any circuit, any satisfying assignment with `x = 0` can be
extended so that the result is any value whatsoever. -/
theorem C28_inverse_or_zero_refuted (s : Wit p) {x : Expression p} (hx : x.Scoped s.next)
    (h0 : x.eval s.W = 0) (y : Elem p) :
    Can (B.inverseOrZero x) s fun z s' => z.eval s'.W = y :=
  (Can.inverseOrZero_zero s hx h0 y).mono fun _ _ _ h => h.2

/-- A circuit with one unconstrained wire, carrying 0. -/
def wit0 : Wit 13 where
  b := { (Builder.new : Builder 13) with nextWireIndex := 2 }
  W := fun i => if i = 1 then 0 else 1
  next_pos := by decide
  sat := ⟨rfl, by simp [Builder.new]⟩
  inScope := by simp [Builder.new]

/-- C28 is false as stated. -/
theorem C28_not_enforced_refuted : ¬ Enforces (B.inverseOrZero (Expression.ofWire 1 : Expression 13))
    (fun z w => (w 1 ≠ 0 → w 1 * z.eval w = 1) ∧ (w 1 = 0 → z.eval w = 0)) :=
  (C28_inverse_or_zero_refuted wit0 (x := Expression.ofWire 1) (.ofWire (by decide))
    (by rw [eval_ofWire]; rfl) 5).not_enforces fun z s' l h hr => by
      have h1 : s'.W 1 = 0 := l.2 1 (by decide)
      rw [hr.2 h1] at h
      exact absurd h (by decide)

/-! ## C29, C30 -/

/-- C29: honest execution of `quotient_unsafe`. -/
theorem C29_quotient_unsafe_computed (h2 : 2 < p) (s : Hon p) {x y : Expression p}
    (hx : x.Scoped s.next) (hy : y.Scoped s.next) (h : y.eval s.W ≠ 0) :
    Computes (B.quotientUnsafe x y) s fun z s' => z.eval s'.W * y.eval s.W = x.eval s.W :=
  ((Comp.quotientUnsafe h2 hx hy h).mono fun _ _ _ g => ⟨g.1, by
    rw [g.2.2]; exact div_mul_cancel₀ _ h⟩).computes

example : Computes (B.quotientUnsafe 1 (Expression.ofWire 1)) honest5
    (fun z s' => z.eval s'.W * 5 = 1) :=
  (C29_quotient_unsafe_computed (by decide) honest5 (.one (by decide)) (.ofWire (by decide))
    (by rw [eval_ofWire]; decide)).mono fun z s' _ h3 => by
      rw [eval_ofWire, Expression.eval_one honest5.one] at h3; exact h3

/-- C29: an execution never returns with a zero divisor: it panics. -/
theorem C29_quotient_unsafe_panics (x y : Expression p) {b b1 b2 : Builder p} {z : Expression p}
    (hb : ∀ g ∈ b.witnessGenerators, KeepsValues g.generate)
    (h1 : B.quotientUnsafe x y b = some (z, b1))
    {k : B p α} {a : α} (hk : Prog k) (h2 : k b1 = some (a, b2)) {v v' : WireValues p} {ok : Bool}
    (h : b2.build.execute v = some (v', ok)) : y.eval v'.total ≠ 0 := by
  obtain ⟨_, _, gs, hgs, hkeep⟩ := C23_appends ((Prog.quotientUnsafe x y).bind fun _ => hk)
    (b := b) (b' := b2) (a := a) (by rw [B.bind_eq h1, h2])
  have hall : ∀ g ∈ b2.build.witnessGenerators, KeepsValues g.generate := by
    change ∀ g ∈ b2.witnessGenerators, _
    rw [hgs]
    intro g hg
    rcases List.mem_append.1 hg with h | h
    · exact hb g h
    · exact hkeep g h
  obtain ⟨_, _, gs', hgs', _⟩ := C23_appends hk h2
  have hmem : (⟨x.dependencies ++ y.dependencies, B.quotientUnsafeGen x y b.nextWireIndex⟩ :
      WitnessGenerator p) ∈ b2.build.witnessGenerators := by
    change _ ∈ b2.witnessGenerators
    rw [hgs', List.mem_append]
    left
    simp only [B.quotientUnsafe] at h1
    obtain ⟨_, b3, h3, h4⟩ := B.bind_run h1
    obtain ⟨rfl, rfl⟩ := Prod.ext_iff.1 (Option.some.inj h3)
    obtain ⟨_, b5, h5, h6⟩ := B.bind_run h4
    obtain ⟨_, rfl⟩ := Prod.ext_iff.1 (Option.some.inj h5)
    obtain ⟨_, rfl⟩ := Prod.ext_iff.1 (Option.some.inj h6)
    simp
  obtain ⟨u, u', _, hgen, hu, _⟩ := ran_of_execute hall h hmem
  simp only [B.quotientUnsafeGen] at hgen
  obtain ⟨xv, hxv, hgen⟩ := Option.bind_eq_some_iff.1 hgen
  obtain ⟨yv, hyv, hgen⟩ := Option.bind_eq_some_iff.1 hgen
  rw [evaluate_mono hu hyv]
  split at hgen
  · next hz => exact (Elem.isNonzero_iff _).1 hz
  · exact absurd hgen (by simp)

/-- C30 fails: `quotient_unsafe` adds no constraint at all, so in any circuit any satisfying
assignment can be extended so that the result is any value whatsoever. -/
theorem C30_quotient_unsafe_refuted (s : Wit p) (x y : Expression p) (q : Elem p) :
    Can (B.quotientUnsafe x y) s fun z s' =>
      z.eval s'.W = q ∧ s'.b.constraints = s.b.constraints := by
  obtain ⟨i, s1, h1, l1, e1, n1, v1⟩ := Can.wire s q
  have hc : s1.b.constraints = s.b.constraints := by
    obtain ⟨_, h⟩ := Prod.ext_iff.1 (Option.some.inj h1)
    exact (congrArg Builder.constraints h).symm
  refine ⟨Expression.ofWire i, ⟨{ s1.b with witnessGenerators := s1.b.witnessGenerators ++
    [⟨x.dependencies ++ y.dependencies, B.quotientUnsafeGen x y i⟩] }, s1.W, s1.pos, s1.sat,
    s1.inScope⟩, ?_, ⟨l1.1, l1.2⟩, ?_, hc⟩
  · unfold B.quotientUnsafe
    rw [B.bind_eq h1]
    rfl
  · rw [eval_ofWire]; exact v1

/-- C30 is false as stated, whatever the operands. -/
theorem C30_not_enforced_refuted (x y : Expression p) (s : Wit p) (hy : y.Scoped s.next)
    (hx : x.Scoped s.next) (h0 : y.eval s.W ≠ 0) :
    ¬ Enforces (B.quotientUnsafe x y) (fun z w => y.eval w ≠ 0 → z.eval w * y.eval w = x.eval w) :=
  (C30_quotient_unsafe_refuted s x y (x.eval s.W / y.eval s.W + 1)).not_enforces
    fun z s' l h hr => by
      have := hr (by rw [l.eval hy]; exact h0)
      rw [h.1, l.eval hy, l.eval hx, add_mul, div_mul_cancel₀ _ h0, one_mul] at this
      exact h0 (by simpa using this)

example : ¬ Enforces (B.quotientUnsafe (Expression.ofWire 1) (1 : Expression 13))
    (fun z w => (1 : Expression 13).eval w ≠ 0 →
      z.eval w * (1 : Expression 13).eval w = (Expression.ofWire 1 : Expression 13).eval w) :=
  C30_not_enforced_refuted _ _ wit0 (.one (by decide)) (.ofWire (by decide)) (by
    rw [Expression.eval_one wit0.one]; exact one_ne_zero)

/-! ## C31 -/

/-- C31: tests are enforced. -/
theorem C31_tests_enforced (x y : Expression p) :
    Enforces (B.nonzero x) (fun z w => z.eval w = if x.eval w = 0 then 0 else 1) ∧
    Enforces (B.zero x) (fun z w => z.eval w = if x.eval w = 0 then 1 else 0) ∧
    Enforces (B.equal x y) (fun z w => z.eval w = if x.eval w = y.eval w then 1 else 0) :=
  ⟨Enforces.nonzero x, Enforces.zero x, Enforces.equal x y⟩

/-- C31: tests are computed. -/
theorem C31_tests_computed (h2 : 2 < p) (s : Hon p) {x y : Expression p} (hx : x.Scoped s.next)
    (hy : y.Scoped s.next) :
    Computes (B.nonzero x) s (fun z s' => z.eval s'.W = if x.eval s.W = 0 then 0 else 1) ∧
    Computes (B.zero x) s (fun z s' => z.eval s'.W = if x.eval s.W = 0 then 1 else 0) ∧
    Computes (B.equal x y) s
      (fun z s' => z.eval s'.W = if x.eval s.W = y.eval s.W then 1 else 0) :=
  ⟨((Comp.nonzero h2 hx).mono fun _ _ _ h => ⟨h.1, h.2.2⟩).computes,
   ((Comp.zero h2 hx).mono fun _ _ _ h => ⟨h.1, h.2.2⟩).computes,
   ((Comp.equal h2 hx hy).mono fun _ _ _ h => ⟨h.1, h.2.2⟩).computes⟩

example : Computes (B.equal (Expression.ofWire 1) (Expression.ofElem 5)) honest5
    (fun z s' => z.eval s'.W = 1) :=
  (C31_tests_computed (by decide) honest5 (.ofWire (by decide)) (.ofElem (by decide) 5)).2.2.mono
    fun z s' _ h3 => by
      rw [h3, eval_ofWire, Expression.eval_ofElem honest5.one]; decide

/-! ## C32 -/

/-- C32: `assert_product`, `assert_boolean`, `assert_equal`, `assert_zero`, `assert_true`,
`assert_false`: the constraints added can be satisfied by extending the assignment exactly when the
relation holds. -/
theorem C32_assertions_satisfiable (s : Wit p) {x y z : Expression p} (hx : x.Scoped s.next)
    (hy : y.Scoped s.next) (hz : z.Scoped s.next) :
    ((Can (B.assertProduct x y z) s fun _ _ => True) ↔ x.eval s.W * y.eval s.W = z.eval s.W) ∧
    ((Can (B.assertBoolean x) s fun _ _ => True) ↔ x.eval s.W = 0 ∨ x.eval s.W = 1) ∧
    ((Can (B.assertEqual x y) s fun _ _ => True) ↔ x.eval s.W = y.eval s.W) ∧
    ((Can (B.assertZero x) s fun _ _ => True) ↔ x.eval s.W = 0) ∧
    ((Can (B.assertTrue ⟨x⟩) s fun _ _ => True) ↔ x.eval s.W = 1) ∧
    ((Can (B.assertFalse ⟨x⟩) s fun _ _ => True) ↔ x.eval s.W = 0) := by
  have one := s.one
  refine ⟨⟨fun h => ?_, fun h => ?_⟩, ⟨fun h => ?_, fun h => ?_⟩, ⟨fun h => ?_, fun h => ?_⟩,
    ⟨fun h => ?_, fun h => ?_⟩, ⟨fun h => ?_, fun h => ?_⟩, ⟨fun h => ?_, fun h => ?_⟩⟩
  · obtain ⟨_, s', _, l, _, h⟩ := h.enforced (Enforces.assertProduct x y z)
    rwa [l.eval hx, l.eval hy, l.eval hz] at h
  · exact (Can.assertProduct hx hy hz h).mono fun _ _ _ _ => trivial
  · obtain ⟨_, s', _, l, _, _, h⟩ := h.enforced (Enforces.assertBoolean x)
    rwa [l.eval hx] at h
  · unfold B.assertBoolean
    refine (Can.assertProduct hx (hx.sub (.one s.pos)) .zero ?_).bind fun _ _ _ _ => Can.pure trivial
    rw [eval_sub, Expression.eval_one one, Expression.eval_zero]
    exact (isBool_iff _).1 h
  · obtain ⟨_, s', _, l, _, h⟩ := h.enforced (Enforces.assertEqual x y)
    rwa [l.eval hx, l.eval hy] at h
  · exact (Can.assertProduct hx (.one s.pos) hy (by
      rw [Expression.eval_one one, mul_one, h])).mono fun _ _ _ _ => trivial
  · obtain ⟨_, s', _, l, _, h⟩ := h.enforced (Enforces.assertZero x)
    rwa [l.eval hx] at h
  · exact (Can.assertProduct hx (.one s.pos) .zero (by
      rw [h, zero_mul, Expression.eval_zero])).mono fun _ _ _ _ => trivial
  · obtain ⟨_, s', _, l, _, h⟩ := h.enforced (Enforces.assertTrue ⟨x⟩)
    rwa [BooleanExpression.eval_mk, l.eval hx] at h
  · exact (Can.assertProduct hx (.one s.pos) (.one s.pos) (by
      rw [h, one_mul])).mono fun _ _ _ _ => trivial
  · obtain ⟨_, s', _, l, _, h⟩ := h.enforced (Enforces.assertFalse ⟨x⟩)
    rwa [BooleanExpression.eval_mk, l.eval hx] at h
  · exact (Can.assertProduct hx (.one s.pos) .zero (by
      rw [h, zero_mul, Expression.eval_zero])).mono fun _ _ _ _ => trivial

/-- C32: `assert_nonzero`, `assert_nonequal`. -/
theorem C32_negative_assertions_satisfiable (s : Wit p) {x y : Expression p}
    (hx : x.Scoped s.next) (hy : y.Scoped s.next) :
    ((Can (B.assertNonzero x) s fun _ _ => True) ↔ x.eval s.W ≠ 0) ∧
    ((Can (B.assertNonequal x y) s fun _ _ => True) ↔ x.eval s.W ≠ y.eval s.W) := by
  have nz : ∀ e : Expression p, e.Scoped s.next → e.eval s.W ≠ 0 →
      Can (B.assertNonzero e) s fun _ _ => True := by
    intro e he h
    unfold B.assertNonzero B.inverse
    refine Can.bind (Q := fun _ _ => True) ?_ fun _ _ _ _ => Can.pure trivial
    refine (Can.wire s (e.eval s.W)⁻¹).bind fun i s1 l1 ⟨e1, n1, v1⟩ => ?_
    refine (Can.assertProduct (l1.scoped he) (.ofWire (by omega)) (.one s1.pos) ?_).bind
      fun _ s2 l2 _ => (Can.generator _ _).bind fun _ _ _ _ => Can.pure trivial
    rw [l1.eval he, eval_ofWire, v1, Expression.eval_one s1.one, mul_inv_cancel₀ h]
  refine ⟨⟨fun h => ?_, nz x hx⟩, ⟨fun h => ?_, fun h => ?_⟩⟩
  · obtain ⟨_, s', _, l, _, h⟩ := h.enforced (Enforces.assertNonzero x)
    rwa [l.eval hx] at h
  · obtain ⟨_, s', _, l, _, h⟩ := h.enforced (Enforces.assertNonequal x y)
    rwa [l.eval hx, l.eval hy] at h
  · exact nz _ (hx.sub hy) (by rw [eval_sub]; exact sub_ne_zero.2 h)

/-- C32: when the relation holds, an honest execution returns `true`. -/
theorem C32_assertions_computed (s : Hon p) {x y z : Expression p} (hx : x.Scoped s.next)
    (hy : y.Scoped s.next) (hz : z.Scoped s.next) :
    (x.eval s.W * y.eval s.W = z.eval s.W → Computes (B.assertProduct x y z) s fun _ _ => True) ∧
    (x.eval s.W = 0 ∨ x.eval s.W = 1 →
      Computes (B.assertBoolean x) s fun a s' => a.eval s'.W = x.eval s.W) ∧
    (x.eval s.W = y.eval s.W → Computes (B.assertEqual x y) s fun _ _ => True) ∧
    (x.eval s.W = 0 → Computes (B.assertZero x) s fun _ _ => True) ∧
    (x.eval s.W = 1 → Computes (B.assertTrue ⟨x⟩) s fun _ _ => True) ∧
    (x.eval s.W = 0 → Computes (B.assertFalse ⟨x⟩) s fun _ _ => True) ∧
    (2 < p → x.eval s.W ≠ 0 → Computes (B.assertNonzero x) s fun _ _ => True) ∧
    (2 < p → x.eval s.W ≠ y.eval s.W → Computes (B.assertNonequal x y) s fun _ _ => True) := by
  refine ⟨fun h => ?_, fun h => ?_, fun h => ?_, fun h => ?_, fun h => ?_, fun h => ?_,
    fun h2 h => ?_, fun h2 h => ?_⟩
  · exact ((Comp.assertProduct hx hy hz h).mono fun _ _ _ g => ⟨g.2.1, trivial⟩).computes
  · exact ((Comp.assertBoolean hx h).mono fun _ _ l g => ⟨g.2.2.1, by
      rw [g.1, BooleanExpression.eval_mk, l.eval hx]⟩).computes
  · exact ((Comp.assertEqual hx hy h).mono fun _ _ _ g => ⟨g.2.1, trivial⟩).computes
  · exact ((Comp.assertZero hx h).mono fun _ _ _ g => ⟨g.2.1, trivial⟩).computes
  · exact ((Comp.assertTrue (x := ⟨x⟩) hx h).mono fun _ _ _ g => ⟨g.2.1, trivial⟩).computes
  · exact ((Comp.assertFalse (x := ⟨x⟩) hx h).mono fun _ _ _ g => ⟨g.2.1, trivial⟩).computes
  · exact ((Comp.assertNonzero h2 hx h).mono fun _ _ _ g => ⟨g, trivial⟩).computes
  · exact ((Comp.assertNonequal h2 hx hy h).mono fun _ _ _ g => ⟨g, trivial⟩).computes

/-- The assertions on a concrete circuit: wire 1 is 0. -/
example : (Can (B.assertZero (Expression.ofWire 1)) wit0 fun _ _ => True) ∧
    ¬ (Can (B.assertNonzero (Expression.ofWire 1)) wit0 fun _ _ => True) := by
  have sc : (Expression.ofWire 1 : Expression 13).Scoped wit0.next := .ofWire (by decide)
  refine ⟨((C32_assertions_satisfiable wit0 sc sc sc).2.2.2.1).2 (by rw [eval_ofWire]; rfl), ?_⟩
  intro h
  exact ((C32_negative_assertions_satisfiable wit0 sc sc).1).1 h (by rw [eval_ofWire]; rfl)

/-! ## C33 -/

/-- C33: enforced. -/
theorem C33_selection_enforced (c : BooleanExpression p) (x y : Expression p) :
    Enforces (B.selection c x y) (fun z w =>
      (c.eval w = 1 → z.eval w = x.eval w) ∧ (c.eval w = 0 → z.eval w = y.eval w)) :=
  (Enforces.selection c x y).mono fun z w _ h =>
    ⟨fun hc => by rw [h, hc]; ring, fun hc => by rw [h, hc]; ring⟩

/-- C33: computed. -/
theorem C33_selection_computed (s : Hon p) {c : BooleanExpression p} {x y : Expression p}
    (hc : c.Scoped s.next) (hx : x.Scoped s.next) (hy : y.Scoped s.next) :
    Computes (B.selection c x y) s (fun z s' =>
      (c.eval s.W = 1 → z.eval s'.W = x.eval s.W) ∧
      (c.eval s.W = 0 → z.eval s'.W = y.eval s.W)) :=
  ((Comp.selection hc hx hy).mono fun z s' _ h => ⟨h.1,
    fun hc => by rw [h.2.2, hc]; ring, fun hc => by rw [h.2.2, hc]; ring⟩).computes

example : Computes (B.selection BooleanExpression.true (Expression.ofWire 1) 0) honest5
    (fun z s' => z.eval s'.W = 5) :=
  (C33_selection_computed honest5 (.ofBool (by decide) _) (.ofWire (by decide)) .zero).mono
    fun z s' _ h3 => by
      rw [h3.1 (by
        change (Expression.ofElem _).eval _ = 1
        rw [Expression.eval_ofElem honest5.one]; rfl), eval_ofWire]; rfl

/-! ## C34 -/

/-- The field value of a truth value. -/
def bv (b : Bool) : Elem p := if b then 1 else 0

/-- C34: the connectives are enforced on boolean inputs. -/
theorem C34_connectives_enforced (x y : BooleanExpression p) :
    Enforces (B.not x) (fun z w => ∀ a, x.eval w = bv a → z.eval w = bv (!a)) ∧
    Enforces (B.and x y)
      (fun z w => ∀ a b, x.eval w = bv a → y.eval w = bv b → z.eval w = bv (a && b)) ∧
    Enforces (B.or x y)
      (fun z w => ∀ a b, x.eval w = bv a → y.eval w = bv b → z.eval w = bv (a || b)) ∧
    Enforces (B.xor x y)
      (fun z w => ∀ a b, x.eval w = bv a → y.eval w = bv b → z.eval w = bv (a ^^ b)) := by
  refine ⟨(Enforces.not x).mono fun z w _ h a ha => ?_,
    (Enforces.and x y).mono fun z w _ h a b ha hb => ?_,
    (Enforces.or x y).mono fun z w _ h a b ha hb => ?_,
    (Enforces.xor x y).mono fun z w _ h a b ha hb => ?_⟩
  · rw [h, ha]; cases a <;> simp [bv]
  · rw [h, ha, hb]; cases a <;> cases b <;> simp [bv]
  · rw [h, ha, hb]; cases a <;> cases b <;> simp [bv]
  · rw [h, ha, hb]; cases a <;> cases b <;> simp [bv]; norm_num

/-- C34: the connectives are computed on boolean inputs (`xor` multiplies by the literal 2, which
is an element only when the order exceeds 2). -/
theorem C34_connectives_computed (s : Hon p) {x y : BooleanExpression p} (hx : x.Scoped s.next)
    (hy : y.Scoped s.next) (a b : Bool) (ha : x.eval s.W = bv a) (hb : y.eval s.W = bv b) :
    Computes (B.not x) s (fun z s' => z.eval s'.W = bv (!a)) ∧
    Computes (B.and x y) s (fun z s' => z.eval s'.W = bv (a && b)) ∧
    Computes (B.or x y) s (fun z s' => z.eval s'.W = bv (a || b)) ∧
    (2 < p → Computes (B.xor x y) s (fun z s' => z.eval s'.W = bv (a ^^ b))) := by
  refine ⟨((Comp.not hx).mono fun z s' _ h => ⟨h.2.1, ?_⟩).computes,
    ((Comp.and hx hy).mono fun z s' _ h => ⟨h.1, ?_⟩).computes,
    ((Comp.or hx hy).mono fun z s' _ h => ⟨h.1, ?_⟩).computes,
    fun h2 => ((Comp.xor h2 hx hy).mono fun z s' _ h => ⟨h.1, ?_⟩).computes⟩
  · rw [h.2.2.2.2, ha]; cases a <;> simp [bv]
  · rw [h.2.2, ha, hb]; cases a <;> cases b <;> simp [bv]
  · rw [h.2.2, ha, hb]; cases a <;> cases b <;> simp [bv]
  · rw [h.2.2, ha, hb]; cases a <;> cases b <;> simp [bv]; norm_num

example : Computes (B.xor BooleanExpression.true BooleanExpression.false) honest5
    (fun z s' => z.eval s'.W = 1) :=
  ((C34_connectives_computed honest5 (.ofBool (by decide) true) (.ofBool (by decide) false)
    true false (by
      change (Expression.ofElem _).eval _ = _
      rw [Expression.eval_ofElem honest5.one]; rfl) (by
      change (Expression.ofElem _).eval _ = _
      rw [Expression.eval_ofElem honest5.one]; rfl)).2.2.2 (by decide))

end R1CS
