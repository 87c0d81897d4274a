import Verif.Lemmas.Curves
import Verif.Lemmas.Forge
import Verif.Lemmas.Compare

/-!
# Curve gadgets: what is not constrained, and rejection
-/

set_option linter.unusedSectionVars false

namespace R1CS

variable {p : ℕ} [hp : Fact p.Prime]

open Expression (eval_ofWire)

/-- The result of `quotient_unsafe` can be anything. -/
theorem Can.quotientUnsafe (s : Wit p) (x y : Expression p) (u : Elem p) :
    Can (B.quotientUnsafe x y) s fun z s' => z.Scoped s'.next ∧ z.eval s'.W = u := by
  unfold B.quotientUnsafe
  refine (Can.wire s u).bind fun i s1 _ ⟨e1, n1, v1⟩ => ?_
  refine (Can.generator _ _).bind fun _ s2 _ ⟨n2, W2⟩ => Can.pure ⟨?_, ?_⟩
  · exact .ofWire (by rw [n2, n1, e1]; omega)
  · rw [eval_ofWire, W2, v1]

theorem Can.product {s : Wit p} {x y : Expression p} (hx : x.Scoped s.next) (hy : y.Scoped s.next) :
    Can (B.product x y) s fun z s' => z.Scoped s'.next :=
  (Can.ofComp (Prog.product x y) (Comp.product (s := s.toHon) hx hy)).mono
    fun _ _ _ ⟨_, h1, _, _, h2, _⟩ => h1 ▸ h2

theorem Can.selection {s : Wit p} {c : BooleanExpression p} {x y : Expression p}
    (hc : c.Scoped s.next) (hx : x.Scoped s.next) (hy : y.Scoped s.next) :
    Can (B.selection c x y) s fun z s' => z.Scoped s'.next :=
  (Can.ofComp (Prog.selection c x y) (Comp.selection (s := s.toHon) hc hx hy)).mono
    fun _ _ _ ⟨_, h1, _, _, h2, _⟩ => h1 ▸ h2

/-- Both coordinates use only existing wires. -/
def EdwardsExpression.Scoped (n : ℕ) (P : EdwardsExpression p) : Prop :=
  P.x.Scoped n ∧ P.y.Scoped n

theorem EdwardsExpression.Scoped.mono {m n : ℕ} (h : m ≤ n) {P : EdwardsExpression p}
    (hP : P.Scoped m) : P.Scoped n := ⟨hP.1.mono h, hP.2.mono h⟩

namespace EdwardsGroup

/-- The result of an addition can be anything. -/
theorem can_add (C : EdwardsCurve p) {s : Wit p} {P Q : EdwardsExpression p} (hP : P.Scoped s.next)
    (hQ : Q.Scoped s.next) (u v : Elem p) :
    Can (addExpressions C P Q) s fun R s' => R.Scoped s'.next ∧ R.x.eval s'.W = u ∧
      R.y.eval s'.W = v := by
  unfold addExpressions
  refine (Can.product hP.1 hQ.2).bind fun e1 s1 l1 h1 => ?_
  refine (Can.product (l1.scoped hP.2) (l1.scoped hQ.1)).bind fun e2 s2 l2 h2 => ?_
  have l02 := l1.trans l2
  refine (Can.product (l02.scoped hP.1) (l02.scoped hQ.1)).bind fun e3 s3 l3 h3 => ?_
  have l03 := l02.trans l3
  refine (Can.product ((l2.trans l3).scoped h1) (l3.scoped h2)).bind fun e4 s4 l4 h4 => ?_
  have l04 := l03.trans l4
  refine (Can.product (l04.scoped hP.2) (l04.scoped hQ.2)).bind fun e5 s5 l5 h5 => ?_
  refine (Can.quotientUnsafe s5 _ _ u).bind fun x s6 l6 ⟨c6, v6⟩ => ?_
  refine (Can.quotientUnsafe s6 _ _ v).bind fun y s7 l7 ⟨c7, v7⟩ => Can.pure
    ⟨⟨l7.scoped c6, c7⟩, ?_, v7⟩
  rw [l7.eval c6, v6]

/-- The result of a doubling can be anything. -/
theorem can_double (h2 : 2 < p) (C : EdwardsCurve p) {s : Wit p} {P : EdwardsExpression p}
    (hP : P.Scoped s.next) (u v : Elem p) :
    Can (doubleExpression C P) s fun R s' => R.Scoped s'.next ∧ R.x.eval s'.W = u ∧
      R.y.eval s'.W = v := by
  unfold doubleExpression
  refine (Can.product hP.1 hP.2).bind fun e1 s1 l1 h1 => ?_
  refine (Can.product (l1.scoped hP.1) (l1.scoped hP.1)).bind fun e2 s2 l2 h2 => ?_
  have l02 := l1.trans l2
  refine (Can.product (l02.scoped hP.2) (l02.scoped hP.2)).bind fun e3 s3 l3 h3 => ?_
  refine Can.ofOption_bind (Elem.ofNat?_eq_some ‹2 < p›) ?_
  refine (Can.quotientUnsafe s3 _ _ u).bind fun x s6 l6 ⟨c6, v6⟩ => ?_
  refine Can.ofOption_bind (a := Expression.ofElem ⟨2, ‹2 < p›⟩) ?_ ?_
  · unfold Expression.ofNat?
    rw [Elem.ofNat?_eq_some ‹2 < p›]
    rfl
  refine (Can.quotientUnsafe s6 _ _ v).bind fun y s7 l7 ⟨c7, v7⟩ => Can.pure
    ⟨⟨l7.scoped c6, c7⟩, ?_, v7⟩
  rw [l7.eval c6, v6]

theorem identityElement_eq (C : EdwardsCurve p) : (ops C).identityExpression =
    some (EdwardsExpression.ofPoint ⟨0, 1⟩) := by
  change (EdwardsPoint.new C 0 1).map _ = _
  unfold EdwardsPoint.new
  rw [if_pos (by ring)]
  rfl

theorem ofPoint_scoped {n : ℕ} (h : 1 ≤ n) (P : EdwardsPoint p) :
    (EdwardsExpression.ofPoint P).Scoped n := ⟨.ofElem h _, .ofElem h _⟩

theorem can_mulBoolean (C : EdwardsCurve p) {s : Wit p} {P : EdwardsExpression p}
    {b : BooleanExpression p} (hP : P.Scoped s.next) (hb : b.Scoped s.next) :
    Can ((ops C).mulBooleanExpression P b) s fun R s' => R.Scoped s'.next := by
  unfold GroupOps.mulBooleanExpression
  refine Can.ofOption_bind (identityElement_eq C) ?_
  have hI := ofPoint_scoped s.pos (p := p) ⟨0, 1⟩
  change Can (GroupOps.selectAll b [P.x, P.y] [Expression.ofElem 0, Expression.ofElem 1] >>= _) s _
  refine Can.bind (Q := fun r s' => ∃ x y, r = [x, y] ∧ x.Scoped s'.next ∧ y.Scoped s'.next) ?_ ?_
  · unfold GroupOps.selectAll GroupOps.selectAll GroupOps.selectAll
    refine (Can.selection hb hP.1 hI.1).bind fun x s1 l1 h1 => ?_
    refine Can.bind (Q := fun r s' => ∃ y, r = [y] ∧ y.Scoped s'.next) ?_
      fun r s2 l2 ⟨y, hr, hy⟩ => Can.pure ⟨x, y, by rw [hr], l2.scoped h1, hy⟩
    refine (Can.selection (hb.mono l1.1) (l1.scoped hP.2) (l1.scoped hI.2)).bind
      fun y s2 l2 h2 => ?_
    exact Can.bind (Can.pure (Q := fun r s' => r = [] ∧ s' = s2) ⟨rfl, rfl⟩)
      fun r s3 _ ⟨hr, hs⟩ => Can.pure ⟨y, by rw [hr], hs ▸ h2⟩
  · rintro r s1 l1 ⟨x, y, rfl, hx, hy⟩
    exact Can.ofOption (a := ⟨x, y⟩) rfl ⟨hx, hy⟩

/-- The result of the double-and-add loop can be anything. -/
theorem can_mulLoop (h2 : 2 < p) (C : EdwardsCurve p) :
    ∀ (bits : List (BooleanExpression p)) {s : Wit p} {S P : EdwardsExpression p},
    S.Scoped s.next → P.Scoped s.next → (∀ b ∈ bits, b.Scoped s.next) → bits ≠ [] → ∀ u v : Elem p,
    Can ((ops C).mulLoop bits S P) s fun R s' => R.Scoped s'.next ∧ R.x.eval s'.W = u ∧
      R.y.eval s'.W = v
  | [], _, _, _, _, _, _, h, _, _ => absurd rfl h
  | b :: bits, s, S, P, hS, hP, hb, _, u, v => by
    unfold GroupOps.mulLoop
    refine (can_mulBoolean C hP (hb b (by simp))).bind fun M s1 l1 h1 => ?_
    refine (can_add C (hS.mono l1.1) h1 u v).bind fun S' s2 l2 ⟨c2, v2, w2⟩ => ?_
    have l02 := l1.trans l2
    refine (can_double h2 C (hP.mono l02.1) u v).bind fun P' s3 l3 ⟨c3, _⟩ => ?_
    have l03 := l02.trans l3
    by_cases hn : bits = []
    · subst hn
      unfold GroupOps.mulLoop
      exact Can.pure ⟨c2.mono l3.1, by rw [l3.eval c2.1, v2], by rw [l3.eval c2.2, w2]⟩
    · exact can_mulLoop h2 C bits (c2.mono l3.1) c3 (fun c hc => (hb c (by simp [hc])).mono l03.1)
        hn u v

/-- The result of a scalar multiplication can be anything. -/
theorem can_mulScalar (h2 : 2 < p) (C : EdwardsCurve p) {s : Wit p} {P : EdwardsExpression p}
    {k : Expression p} (hP : P.Scoped s.next) (hk : k.Scoped s.next) (u v : Elem p) :
    Can ((ops C).mulScalarExpression P k) s fun R s' => R.Scoped s'.next ∧ R.x.eval s'.W = u ∧
      R.y.eval s'.W = v := by
  unfold GroupOps.mulScalarExpression
  refine (Can.ofComp (Prog.splitAllowingAmbiguity _) (Comp.splitAllowingAmbiguity (s := s.toHon)
    hk)).bind fun e s1 l1 ⟨t, tn, _, _, hs, _, hl, _⟩ => ?_
  rw [tn] at hs
  refine Can.ofOption_bind (identityElement_eq C) ?_
  refine can_mulLoop h2 C e.bits (ofPoint_scoped s1.pos _) (hP.mono l1.1) hs ?_ u v
  intro h
  unfold BinaryExpression.len at hl
  rw [h] at hl
  have h1 : 2 ^ 1 ≤ p - 1 := by omega
  have := Elem.maxBits_eq (p := p)
  have h3 : 1 < Nat.size (p - 1) := Nat.lt_size.2 h1
  simp only [List.length_nil] at hl
  omega

end EdwardsGroup

/-- `verify` over Edwards curves can be satisfied with any hash value. -/
theorem can_schnorrVerify (h2 : 2 < p) (C : EdwardsCurve p) {g : EdwardsPoint p}
    {gen : Option (EdwardsPoint p)} (hg : gen = some g)
    {c : CompressionFunction p} {h : Elem p → Elem p → Elem p} (hc : Computed2 c.compress h)
    (hprog : ∀ x y, Prog (c.compress x y)) {s : Wit p} {σ : SignatureExpression p}
    {m : Expression p} {pk : EdwardsExpression p} (hs : σ.s.Scoped s.next) (he : σ.e.Scoped s.next)
    (hm : m.Scoped s.next) (hpk : pk.Scoped s.next)
    {v : Elem p} (hv : h v (m.eval s.W) = σ.e.eval s.W) :
    Can (schnorrVerify (cyclicSubgroup (EdwardsGroup.ops C) gen) c σ m pk) s fun _ _ => True := by
  unfold schnorrVerify
  refine Can.ofOption_bind (a := EdwardsExpression.ofPoint g) ?_ ?_
  · unfold CyclicGroupOps.generatorExpression cyclicSubgroup
    rw [hg]
    rfl
  refine (EdwardsGroup.can_mulScalar h2 C (EdwardsGroup.ofPoint_scoped s.pos _) hs v v).bind
    fun gs s1 l1 ⟨h1, _⟩ => ?_
  refine (EdwardsGroup.can_mulScalar h2 C (hpk.mono l1.1) (l1.scoped he) v v).bind
    fun ye s2 l2 ⟨h2', _⟩ => ?_
  refine (EdwardsGroup.can_add C (h1.mono l2.1) h2' v v).bind fun r s3 l3 ⟨h3, _, hy⟩ => ?_
  have l03 := (l1.trans l2).trans l3
  refine (Can.ofComp (hprog _ _) (hc.comp (s := s3.toHon) h3.2 (l03.scoped hm))).bind
    fun z s4 l4 ⟨t, tn, tW, _, hz, vz⟩ => ?_
  rw [tn] at hz
  rw [tW] at vz
  have l04 := l03.trans l4
  refine (Can.assertProduct hz (.one s4.pos) (l04.scoped he) ?_).mono fun _ _ _ _ => trivial
  rw [Expression.eval_one s4.one, mul_one, vz, l04.eval he, ← hv]
  change h (r.y.eval s3.W) (m.eval s3.W) = _
  rw [hy, l03.eval hm]

/-- Honest execution of `verify` rejects if the recomputed hash differs. -/
theorem rejects_schnorrVerify {GE GX : Type} {C : CyclicGroupOps p GE GX} {M : Type}
    [AddCommGroup M] {coords : M → List (Elem p)} {element : M → GE}
    (hG : ComputesGroup C.toGroupOps M coords element) {g Y : M}
    (hg : C.generatorElement = some (element g)) {c : CompressionFunction p}
    {h : Elem p → Elem p → Elem p} (hc : Computed2 c.compress h) {f : M → Elem p}
    (hf : ∀ (s : Hon p) x P, C.At s x (coords P) →
      (C.compressed x).Scoped s.next ∧ (C.compressed x).eval s.W = f P)
    {s : Hon p} {σ : SignatureExpression p} {m : Expression p} {pk : GX}
    (hs : σ.s.Scoped s.next) (he : σ.e.Scoped s.next) (hm : m.Scoped s.next)
    (hpk : C.At s pk (coords Y))
    (hbad : h (f ((σ.s.eval s.W).n • g + (σ.e.eval s.W).n • Y)) (m.eval s.W) ≠ σ.e.eval s.W) :
    Rejects (schnorrVerify C c σ m pk) s := by
  unfold schnorrVerify
  have hge : C.generatorExpression = some (C.ofElement (element g)) := by
    unfold CyclicGroupOps.generatorExpression
    rw [hg]
    rfl
  refine Comp.rejects (Comp.ofOption hge ⟨rfl, s.D_lt, ?_⟩)
  have hat : C.At s (C.ofElement (element g)) (coords g) := by
    refine ⟨?_, ?_⟩
    · rw [hG.components]
      exact .map_ofElem s.pos _
    · rw [hG.components, values_ofElem s.one]
  refine Comp.rejects ((GroupOps.comp_mulScalar hG hat hs).mono fun gs s1 l1 ⟨D1, a1⟩ =>
    ⟨D1, s.D_lt, ?_⟩)
  refine Comp.rejects ((GroupOps.comp_mulScalar hG (hpk.le l1) (l1.scoped he)).mono
    fun ye s2 l2 ⟨D2, a2⟩ => ⟨D2, s1.D_lt, ?_⟩)
  refine Comp.rejects ((hG.add s2 gs ye _ _ (a1.le l2) a2).comp.mono fun r s3 l3 ⟨D3, a3⟩ =>
    ⟨D3, s2.D_lt, ?_⟩)
  obtain ⟨c3, v3⟩ := hf s3 r _ a3
  have l03 := (l1.trans l2).trans l3
  refine Comp.rejects ((hc.comp c3 (l03.scoped hm)).mono fun z s4 l4 ⟨D4, c4, v4⟩ =>
    ⟨D4, s3.D_lt, ?_⟩)
  have l04 := l03.trans l4
  refine Rejects.assertProduct c4 (.one s4.pos) (l04.scoped he) ?_
  rw [Expression.eval_one s4.one, mul_one, v4, v3, l03.eval hm, l04.eval he, l1.eval he]
  exact hbad

/-! ## Curve gadgets are programs -/

/-- Programs never drop constraints. -/
theorem Prog.enforces {α : Type} {m : B p α} (hm : Prog m) : Enforces m fun _ _ => True := by
  induction hm with
  | pure a => exact Enforces.pure fun _ _ => trivial
  | bind _ _ ih1 ih2 => exact ih1.bind fun a => (ih2 a).mono fun _ _ _ _ _ => trivial
  | wire => exact Enforces.wire.mono fun _ _ _ _ => trivial
  | assertProduct x y z => exact (Enforces.assertProduct x y z).mono fun _ _ _ _ => trivial
  | generator d f hf => exact (Enforces.generator d f).mono fun _ _ _ _ => trivial
  | panic => exact Enforces.panic

namespace EdwardsGroup

theorem prog_add (C : EdwardsCurve p) (P Q : EdwardsExpression p) : Prog (addExpressions C P Q) :=
  .bind (.product _ _) fun _ => .bind (.product _ _) fun _ => .bind (.product _ _) fun _ =>
  .bind (.product _ _) fun _ => .bind (.product _ _) fun _ => .bind (.quotientUnsafe _ _) fun _ =>
  .bind (.quotientUnsafe _ _) fun _ => .pure _

theorem prog_double (C : EdwardsCurve p) (P : EdwardsExpression p) : Prog (doubleExpression C P) :=
  .bind (.product _ _) fun _ => .bind (.product _ _) fun _ => .bind (.product _ _) fun _ =>
  .bind (.ofOption _) fun _ => .bind (.quotientUnsafe _ _) fun _ => .bind (.ofOption _) fun _ =>
  .bind (.quotientUnsafe _ _) fun _ => .pure _

end EdwardsGroup

theorem EdwardsExpression.prog_new (C : EdwardsCurve p) (x y : Expression p) :
    Prog (EdwardsExpression.new C x y) :=
  .bind (.product _ _) fun _ => .bind (.product _ _) fun _ => .bind (.product _ _) fun _ =>
  .bind (.assertEqual _ _) fun _ => .pure _

namespace GroupOps

variable {GE GX : Type} {G : GroupOps p GE GX}

theorem prog_selectAll (b : BooleanExpression p) : ∀ xs is : List (Expression p),
    Prog (selectAll b xs is)
  | [], _ => .pure _
  | _ :: _, [] => .panic
  | _ :: xs, _ :: is => .bind (.selection _ _ _) fun _ => .bind (prog_selectAll b xs is) fun _ =>
    .pure _

theorem prog_mulBoolean (x : GX) (b : BooleanExpression p) : Prog (G.mulBooleanExpression x b) :=
  .bind (.ofOption _) fun _ => .bind (prog_selectAll _ _ _) fun _ => .ofOption _

theorem prog_mulLoop (ha : ∀ x y, Prog (G.addExpressions x y))
    (hd : ∀ x, Prog (G.doubleExpression x)) :
    ∀ (bits : List (BooleanExpression p)) (sum current : GX), Prog (G.mulLoop bits sum current)
  | [], _, _ => .pure _
  | _ :: bits, _, _ => .bind (prog_mulBoolean _ _) fun _ => .bind (ha _ _) fun _ =>
    .bind (hd _) fun _ => prog_mulLoop ha hd bits _ _

theorem prog_mulScalar (ha : ∀ x y, Prog (G.addExpressions x y))
    (hd : ∀ x, Prog (G.doubleExpression x)) (x : GX) (k : Expression p) :
    Prog (G.mulScalarExpression x k) :=
  .bind (.splitAllowingAmbiguity _) fun _ => .bind (.ofOption _) fun _ => prog_mulLoop ha hd _ _ _

end GroupOps

theorem prog_testCompress (x y : Expression p) : Prog ((testCompress (p := p)).compress x y) :=
  .bind (.ofOption _) fun _ => .pure _

end R1CS
