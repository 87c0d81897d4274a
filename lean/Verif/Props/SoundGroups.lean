import Verif.Lemmas.SoundGroups
import Verif.Props.JubJubGroup

/-!
# C109: Groups whose additions are constrained

The provided methods of `Group` and the verification of signatures, for all groups whose additions
and doublings are constrained.  The curves of the repository are not among them (C66); with
`quotient` in the place of `quotient_unsafe` they would be.
-/

namespace R1CS

open Edwards Expression

variable {p : ℕ} [hp : Fact p.Prime]

section Any

variable {GE GX : Type} {G : GroupOps p GE GX} {M : Type} [AddCommGroup M]
  {coords : M → List (Elem p)}

/-- C109: in every group whose additions and doublings are constrained, the result of
`mul_boolean_expression` is constrained to the element or the identity, according to the boolean. -/
theorem C109_boolean (hG : EnforcesGroup G M coords) (x : GX) (b : BooleanExpression p) :
    Enforces (G.mulBooleanExpression x b) fun z w => ∀ P,
      values w (G.toComponents x) = coords P →
      (b.eval w = 0 → values w (G.toComponents z) = coords 0) ∧
      (b.eval w = 1 → values w (G.toComponents z) = coords P) := by
  refine (GroupOps.enforces_mulBoolean hG x b).mono fun z w _ h P hP => ⟨fun hb => ?_, fun hb => ?_⟩
  · have := h (Or.inl hb) P hP
    rw [hb] at this
    rw [this]
    change coords ((0 : ℕ) • P) = _
    rw [zero_smul]
  · have := h (Or.inr hb) P hP
    rw [hb] at this
    rw [this]
    change coords ((1 : ℕ) • P) = _
    rw [one_smul]

/-- C109: … and the result of `mul_scalar_expression` to the multiple by the scalar or by the scalar
plus the order of the field, where the latter is possible only if it has at most as many bits as the
order minus one; it is the multiple by the scalar if the order of the field annihilates the point. -/
theorem C109_scalar (hG : EnforcesGroup G M coords) (x : GX) (k : Expression p) :
    Enforces (G.mulScalarExpression x k) fun z w => ∀ P, values w (G.toComponents x) = coords P →
      (values w (G.toComponents z) = coords ((k.eval w).n • P) ∨
        (k.eval w).n + p < 2 ^ Nat.size (p - 1) ∧
        values w (G.toComponents z) = coords (((k.eval w).n + p) • P)) ∧
      (p • P = 0 → values w (G.toComponents z) = coords ((k.eval w).n • P)) := by
  refine (GroupOps.enforces_mulScalar hG x k).mono fun z w _ h P hP => ?_
  obtain ⟨n, hn, hlt, hv⟩ := h P hP
  rcases hn with rfl | rfl
  · exact ⟨Or.inl hv, fun _ => hv⟩
  · refine ⟨Or.inr ⟨?_, hv⟩, fun h0 => ?_⟩
    · rwa [Elem.maxBits_eq] at hlt
    · rw [hv, add_smul, h0, add_zero]

/-- C109: both cases occur: in every group which also computes its operations, the second multiple
can be made the result whenever its scalar has few enough bits. -/
theorem C109_both_occur {element : M → GE} (hG : ComputesGroup G M coords element)
    (ha : ∀ x y, Prog (G.addExpressions x y)) (hd : ∀ x, Prog (G.doubleExpression x))
    (s : Wit p) {x : GX} {P : M} {k : Expression p}
    (hx : ListScoped s.next (G.toComponents x)) (vx : values s.W (G.toComponents x) = coords P)
    (hk : k.Scoped s.next) (hfit : (k.eval s.W).n + p < 2 ^ Nat.size (p - 1)) :
    Can (G.mulScalarExpression x k) s fun z s' =>
      values s'.W (G.toComponents z) = coords (((k.eval s.W).n + p) • P) :=
  (GroupOps.can_mulScalar_any hG ha hd ⟨hx, vx⟩ hk (Or.inr rfl)
    (by rwa [Elem.maxBits_eq])).mono fun _ _ _ h => h.2

/-- C109: were the scalar split by `split`, the multiple would be the one by the scalar. -/
theorem C109_with_split (hG : EnforcesGroup G M coords) (x : GX) (k : Expression p) :
    Enforces (do
      let bits ← B.split k
      let identity ← B.ofOption G.identityExpression
      G.mulLoop bits.bits identity x) fun z w => ∀ P, values w (G.toComponents x) = coords P →
      values w (G.toComponents z) = coords ((k.eval w).n • P) := by
  refine (Enforces.split k).bind fun e => (Enforces.ofOption
    (Q := fun i w => w ONE = 1 → values w (G.toComponents i) = coords 0)
    fun i h w _ => hG.identity i h w).bind fun i => (GroupOps.enforces_mulLoop hG _ _ _).mono
    fun z w h1 hz hi ⟨hb, hl, hv⟩ P hx => ?_
  have := hz hb 0 P (hi h1) hx
  rw [zero_add] at this
  rw [this, ← hv]

/-- C109: … and an assignment satisfying the constraints of `verify` gives the signature the hash of
the message and of `s g + e Y`, for the generator `g`, the public key `Y`, the component `s` of the
signature or that plus the order of the field, and likewise `e`. -/
theorem C109_verify {C : CyclicGroupOps p GE GX} (hG : EnforcesGroup C.toGroupOps M coords) {g : M}
    (hg : ∀ e, C.generatorExpression = some e → ∀ w : Assign p, w ONE = 1 →
      values w (C.toComponents e) = coords g)
    {c : CompressionFunction p} {h : Elem p → Elem p → Elem p} (hc : Enforced2 c.compress h)
    {κ : M → Elem p} (hκ : ∀ (w : Assign p) x P, values w (C.toComponents x) = coords P →
      (C.compressed x).eval w = κ P)
    (σ : SignatureExpression p) (m : Expression p) (pk : GX) :
    Enforces (schnorrVerify C c σ m pk) fun _ w => ∀ Y, values w (C.toComponents pk) = coords Y →
      (∃ s e : ℕ, (s = (σ.s.eval w).n ∨ s = (σ.s.eval w).n + p ∧ s < 2 ^ Nat.size (p - 1)) ∧
        (e = (σ.e.eval w).n ∨ e = (σ.e.eval w).n + p ∧ e < 2 ^ Nat.size (p - 1)) ∧
        h (κ (s • g + e • Y)) (m.eval w) = σ.e.eval w) ∧
      (p • g = 0 → p • Y = 0 →
        h (κ ((σ.s.eval w).n • g + (σ.e.eval w).n • Y)) (m.eval w) = σ.e.eval w) := by
  refine (enforces_schnorrVerify hG hg hc hκ σ m pk).mono fun _ w _ hv Y hY => ?_
  obtain ⟨s, e, hs, ls, he, le, hh⟩ := hv Y hY
  rw [Elem.maxBits_eq] at ls le
  refine ⟨⟨s, e, hs.imp id fun h => ⟨h, ls⟩, he.imp id fun h => ⟨h, le⟩, hh⟩, fun h1 h2 => ?_⟩
  refine Eq.trans ?_ hh
  rcases hs with rfl | rfl <;> rcases he with rfl | rfl <;>
    first | rfl | simp only [add_smul, h1, h2, add_zero]

/-- C109: this describes the assignments exactly, in groups which also compute their operations: the
constraints of `verify` can be satisfied, given the values of all wires before, if and only if `e` is
that hash for some choice of representatives. -/
theorem C109_verify_exact {C : CyclicGroupOps p GE GX} {element : M → GE}
    (hG : EnforcesGroup C.toGroupOps M coords) (hG' : ComputesGroup C.toGroupOps M coords element)
    (ha : ∀ x y, Prog (C.addExpressions x y)) (hd : ∀ x, Prog (C.doubleExpression x)) {g Y : M}
    (hg : C.generatorElement = some (element g)) {c : CompressionFunction p}
    {h : Elem p → Elem p → Elem p} (hc : Enforced2 c.compress h) (hc' : Computed2 c.compress h)
    (hprog : ∀ x y, Prog (c.compress x y)) {κ : M → Elem p}
    (hκ : ∀ (w : Assign p) x P, values w (C.toComponents x) = coords P →
      (C.compressed x).eval w = κ P)
    (hκ' : ∀ n x, ListScoped n (C.toComponents x) → (C.compressed x).Scoped n)
    (s : Wit p) {σ : SignatureExpression p} {m : Expression p} {pk : GX}
    (hs : σ.s.Scoped s.next) (he : σ.e.Scoped s.next) (hm : m.Scoped s.next)
    (hpk : ListScoped s.next (C.toComponents pk)) (hY : values s.W (C.toComponents pk) = coords Y) :
    Can (schnorrVerify C c σ m pk) s (fun _ _ => True) ↔
      ∃ a e : ℕ,
        (a = (σ.s.eval s.W).n ∨ a = (σ.s.eval s.W).n + p ∧ a < 2 ^ Nat.size (p - 1)) ∧
        (e = (σ.e.eval s.W).n ∨ e = (σ.e.eval s.W).n + p ∧ e < 2 ^ Nat.size (p - 1)) ∧
        h (κ (a • g + e • Y)) (m.eval s.W) = σ.e.eval s.W := by
  have hfit : ∀ x : Elem p, x.n < 2 ^ Elem.maxBits p := fun x => by
    rw [Elem.maxBits_eq]
    have := x.lt
    exact lt_of_le_of_lt (by omega) (Nat.lt_size_self (p - 1))
  constructor
  · rintro ⟨a, s', hr, l, -⟩
    have hg' : ∀ e, C.generatorExpression = some e → ∀ w : Assign p, w ONE = 1 →
        values w (C.toComponents e) = coords g := by
      intro e he' w h1
      unfold CyclicGroupOps.generatorExpression at he'
      rw [hg] at he'
      rw [← Option.some.inj he', hG'.components, values_ofElem h1]
    have := (C109_verify hG hg' hc hκ σ m pk _ _ _ hr s'.W s'.sat).2 Y (by
      rw [← hY]
      exact List.map_congr_left fun c hc => l.eval (hpk c hc))
    rw [l.eval hs, l.eval he, l.eval hm] at this
    exact this.1
  · rintro ⟨a, e, ha', he', hh⟩
    refine can_schnorrVerify_any hG' ha hd hg hc' hprog (κ := κ)
      (fun t x P hx => ⟨hκ' _ _ hx.1, hκ _ _ _ hx.2⟩) hs he hm ⟨hpk, hY⟩ (a := a) (e := e)
      (ha'.imp id And.left) ?_ (he'.imp id And.left) ?_ hh
    · rcases ha' with rfl | ⟨-, h⟩
      · exact hfit _
      · rwa [Elem.maxBits_eq]
    · rcases he' with rfl | ⟨-, h⟩
      · exact hfit _
      · rwa [Elem.maxBits_eq]

end Any

/-! ## The field as a group -/

/-- In the field as a group, the multiple is the product of the scalar and the value. -/
example (x k : Expression p) : Enforces ((fieldOps p).mulScalarExpression x k) fun z w =>
    z.eval w = k.eval w * x.eval w :=
  (C109_scalar fieldOps_enforces x k).mono fun z w _ h => by
    have h0 : ((p : ℕ) : Elem p) = 0 := by
      refine Elem.ext_n ?_
      rw [Elem.natCast_n, Nat.mod_self]; rfl
    have := (h (x.eval w) rfl).2 (by rw [nsmul_eq_mul, h0, zero_mul])
    have h2 : z.eval w = (k.eval w).n • x.eval w := List.singleton_inj.1 this
    rw [h2, nsmul_eq_mul, Elem.natCast_self_n]

/-! ## Edwards curves -/

/-- C109: a complete Edwards curve whose two divisions are made by `quotient` has constrained
additions, and computes its operations as the one in the repository does. -/
theorem C109_checked_curve (C : EdwardsCurve p) [Complete C.a C.d] :
    EnforcesGroup (EdwardsGroup.checkedOps C) (Point C.a C.d) (fun P => [P.x, P.y]) ∧
    ComputesGroup (EdwardsGroup.checkedOps C) (Point C.a C.d) (fun P => [P.x, P.y])
      (fun P => ⟨P.x, P.y⟩) :=
  ⟨EdwardsGroup.checkedOps_enforces C, EdwardsGroup.checkedOps_computes C⟩

/-- C109: so that there the verification of a signature is constrained up to the choice of
representatives. -/
theorem C109_checked_verify (C : EdwardsCurve p) [Complete C.a C.d] (g : Point C.a C.d)
    {c : CompressionFunction p} {h : Elem p → Elem p → Elem p} (hc : Enforced2 c.compress h)
    (σ : SignatureExpression p) (m : Expression p) (pk : EdwardsExpression p) :
    Enforces (schnorrVerify (cyclicSubgroup (EdwardsGroup.checkedOps C) (some ⟨g.x, g.y⟩)) c σ m pk)
      fun _ w => ∀ Y : Point C.a C.d, pk.x.eval w = Y.x → pk.y.eval w = Y.y →
      ∃ s e : ℕ, (s = (σ.s.eval w).n ∨ s = (σ.s.eval w).n + p ∧ s < 2 ^ Nat.size (p - 1)) ∧
        (e = (σ.e.eval w).n ∨ e = (σ.e.eval w).n + p ∧ e < 2 ^ Nat.size (p - 1)) ∧
        h (s • g + e • Y).y (m.eval w) = σ.e.eval w := by
  refine (C109_verify (C := cyclicSubgroup (EdwardsGroup.checkedOps C) (some ⟨g.x, g.y⟩))
    (coords := Point.coords) (EdwardsGroup.checkedOps_enforces C) (g := g) ?_ hc
    (κ := fun P => P.y) ?_ σ m pk).mono fun _ w _ hv Y hx hy => ?_
  · intro e he w h1
    have : e = EdwardsExpression.ofPoint ⟨g.x, g.y⟩ := (Option.some.inj he).symm
    subst this
    change [(Expression.ofElem g.x).eval w, (Expression.ofElem g.y).eval w] = [g.x, g.y]
    rw [eval_ofElem h1, eval_ofElem h1]
  · intro w x P hx
    change [x.x.eval w, x.y.eval w] = [P.x, P.y] at hx
    simp only [List.cons.injEq, and_true] at hx
    exact hx.2
  · refine (hv Y ?_).1
    change [pk.x.eval w, pk.y.eval w] = [Y.x, Y.y]
    rw [hx, hy]

theorem prime_smul_jubjubG : bls12_381Order • jubjubG ≠ 0 := by
  intro h
  have h1 := addOrderOf_dvd_of_nsmul_eq_zero h
  rw [jubjubG_order] at h1
  have h2 : 2 ∣ bls12_381Order := (Dvd.dvd.mul_right (by norm_num) _).trans h1
  exact absurd h2 (by decide +kernel)

/-- C109: on JubJub this choice matters even with checked divisions: a scalar of value zero does not
force the multiple of the generator to be the identity. -/
theorem C109_jubjub_ambiguous (s : Wit bls12_381Order) {k : Expression bls12_381Order}
    (hk : k.Scoped s.next) (h0 : k.eval s.W = 0) :
    Can ((EdwardsGroup.checkedOps jubjub).mulScalarExpression
        (EdwardsExpression.ofPoint ⟨jubjubGeneratorX, jubjubGeneratorY⟩) k) s fun z s' =>
      ¬ (z.x.eval s'.W = 0 ∧ z.y.eval s'.W = 1) := by
  have hc : ListScoped s.next ((EdwardsGroup.checkedOps jubjub).toComponents
      (EdwardsExpression.ofPoint ⟨jubjubGeneratorX, jubjubGeneratorY⟩)) := by
    intro e he
    change e ∈ [Expression.ofElem jubjubGeneratorX, Expression.ofElem jubjubGeneratorY] at he
    simp only [List.mem_cons, List.not_mem_nil, or_false] at he
    rcases he with rfl | rfl <;> exact .ofElem s.pos _
  refine (C109_both_occur (P := jubjubG) (EdwardsGroup.checkedOps_computes jubjub)
    (fun _ _ => EdwardsGroup.prog_checkedAdd _ _ _) (fun _ => EdwardsGroup.prog_checkedAdd _ _ _)
    s hc ?_ hk ?_).mono fun z s' _ hz hi => ?_
  · change [(Expression.ofElem jubjubGeneratorX).eval s.W,
      (Expression.ofElem jubjubGeneratorY).eval s.W] = [jubjubGeneratorX, jubjubGeneratorY]
    rw [eval_ofElem s.one, eval_ofElem s.one]
  · rw [h0]
    change 0 + bls12_381Order < _
    rw [Nat.zero_add]
    have h1 : bls12_381Order - 1 < 2 ^ Nat.size (bls12_381Order - 1) := Nat.lt_size_self _
    have h2 : bls12_381Order % 2 = 1 := by decide +kernel
    have h3 : 2 ∣ 2 ^ Nat.size (bls12_381Order - 1) := by
      refine dvd_pow_self 2 fun hs => ?_
      rw [Nat.size_eq_zero] at hs
      have := fact_bls12_381.out.two_le
      omega
    omega
  · rw [h0] at hz
    have h00 : (0 : Elem bls12_381Order).n + bls12_381Order = bls12_381Order := Nat.zero_add _
    rw [h00] at hz
    change [z.x.eval s'.W, z.y.eval s'.W] = [(bls12_381Order • jubjubG).x,
      (bls12_381Order • jubjubG).y] at hz
    simp only [List.cons.injEq, and_true] at hz
    refine prime_smul_jubjubG (Point.ext ?_ ?_)
    · rw [← hz.1, hi.1]; rfl
    · rw [← hz.2, hi.2]; rfl

/-- So the multiple by the value of the scalar is not enforced, while one of the two multiples is. -/
example (k : Expression bls12_381Order) :
    Enforces ((EdwardsGroup.checkedOps jubjub).mulScalarExpression
        (EdwardsExpression.ofPoint ⟨jubjubGeneratorX, jubjubGeneratorY⟩) k) fun z w =>
      ∃ n : ℕ, z.y.eval w = (n • jubjubG).y :=
  (C109_scalar (C109_checked_curve jubjub).1 _ k).mono fun z w h1 h => by
    have := (h jubjubG (by
      change [(Expression.ofElem jubjubGeneratorX).eval w,
        (Expression.ofElem jubjubGeneratorY).eval w] = [jubjubGeneratorX, jubjubGeneratorY]
      rw [eval_ofElem h1, eval_ofElem h1])).1
    rcases this with h | ⟨_, h⟩
    · exact ⟨_, (List.cons.inj (List.cons.inj h).2).1⟩
    · exact ⟨_, (List.cons.inj (List.cons.inj h).2).1⟩

/-- The verification of signatures on JubJub with checked divisions and the compression function of
the tests in the repository. -/
example (σ : SignatureExpression bls12_381Order) (m : Expression bls12_381Order)
    (pk : EdwardsExpression bls12_381Order) :=
  C109_checked_verify jubjub jubjubG testCompress_spec.1 σ m pk

/-- All signatures with checked divisions on JubJub, exactly. -/
example (s : Wit bls12_381Order) {σ : SignatureExpression bls12_381Order}
    {m : Expression bls12_381Order} {pk : EdwardsExpression bls12_381Order}
    {Y : Point jubjub.a jubjub.d} (hs : σ.s.Scoped s.next) (he : σ.e.Scoped s.next)
    (hm : m.Scoped s.next) (hx : pk.x.Scoped s.next) (hy : pk.y.Scoped s.next)
    (hY : [pk.x.eval s.W, pk.y.eval s.W] = [Y.x, Y.y]) :=
  C109_verify_exact (C := cyclicSubgroup (EdwardsGroup.checkedOps jubjub) (some jubjubG.toModel))
    (EdwardsGroup.checkedOps_enforces jubjub) (EdwardsGroup.checkedOps_computes jubjub)
    (fun _ _ => EdwardsGroup.prog_checkedAdd _ _ _) (fun _ => EdwardsGroup.prog_checkedAdd _ _ _)
    (g := jubjubG) rfl testCompress_spec.1 (testCompress_spec.2 (by decide +kernel))
    prog_testCompress (κ := fun P => P.y)
    (fun w x P h => (List.cons.inj (List.cons.inj h).2).1)
    (fun n x h => h x.y (by change _ ∈ [x.x, x.y]; simp)) s hs he hm (pk := pk)
    (fun e h => by
      change e ∈ [pk.x, pk.y] at h
      simp only [List.mem_cons, List.not_mem_nil, or_false] at h
      rcases h with rfl | rfl <;> assumption) hY

end R1CS
