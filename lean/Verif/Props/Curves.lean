import Verif.Lemmas.CurvesForge
import Verif.Lemmas.JubJub
import Verif.Props.Hashes

/-!
# C64 to C68: Edwards curves, groups and JubJub
-/

set_option linter.unusedSectionVars false

namespace R1CS

variable {p : ℕ} [hp : Fact p.Prime]

open Edwards (OnCurve Complete Point sumX sumY)
open Expression (eval_add eval_mulElem eval_one eval_ofElem)

/-- A complete curve over the field of order 13, with eight points, as an example. -/
def curve13 : EdwardsCurve 13 := ⟨1, ⟨2, by decide⟩⟩

instance curve13_complete : Complete curve13.a curve13.d where
  two_ne := by decide
  square := ⟨1, rfl⟩
  nonsquare := by
    rintro ⟨r, h⟩
    have : ∀ k : Fin 13, (⟨2, by decide⟩ : Elem 13) ≠ ⟨k.1, k.2⟩ * ⟨k.1, k.2⟩ := by decide
    exact this ⟨r.n, r.lt⟩ h

/-- A point of order 8. -/
def point13 : Point curve13.a curve13.d :=
  ⟨⟨4, by decide⟩, ⟨9, by decide⟩, by unfold OnCurve; decide⟩

/-! ## C64 -/

/-- C64: `EdwardsPoint::new` keeps the coordinates on the curve and panics off the curve; so does the
conversion of a pair of elements. -/
theorem C64_point_new (C : EdwardsCurve p) (x y : Elem p) :
    (OnCurve C.a C.d x y → EdwardsPoint.new C x y = some ⟨x, y⟩ ∧
      EdwardsExpression.ofCoordinates C x y = some ⟨.ofElem x, .ofElem y⟩) ∧
    (¬ OnCurve C.a C.d x y → EdwardsPoint.new C x y = none ∧
      EdwardsExpression.ofCoordinates C x y = none) := by
  have h : C.a * x * x + y * y = 1 + C.d * x * x * y * y ↔ OnCurve C.a C.d x y := by
    unfold OnCurve
    constructor <;> intro h <;> linear_combination h
  unfold EdwardsExpression.ofCoordinates EdwardsPoint.new
  constructor
  · intro ho
    rw [if_pos (h.2 ho)]
    exact ⟨rfl, rfl⟩
  · intro ho
    rw [if_neg fun e => ho (h.1 e)]
    exact ⟨rfl, rfl⟩

example : EdwardsPoint.new curve13 4 9 = some ⟨4, 9⟩ ∧ EdwardsPoint.new curve13 4 8 = none := by
  decide

/-- C64: `EdwardsExpression::new` keeps the expressions, and in every satisfying assignment they are
the coordinates of a point on the curve. -/
theorem C64_expression_enforced (C : EdwardsCurve p) (x y : Expression p) :
    Enforces (EdwardsExpression.new C x y) fun P w =>
      P.x = x ∧ P.y = y ∧ OnCurve C.a C.d (x.eval w) (y.eval w) := by
  unfold EdwardsExpression.new
  refine (Enforces.product x x).bind fun xx => (Enforces.product y y).bind fun yy =>
    (Enforces.product xx yy).bind fun t => (Enforces.assertEqual _ _).bind fun _ =>
    Enforces.pure fun w h1 he ht hy hx => ⟨rfl, rfl, ?_⟩
  rw [eval_add, eval_add, eval_mulElem, eval_mulElem, eval_one h1, ht, hx, hy] at he
  unfold OnCurve
  linear_combination he

/-- C64: honest execution accepts exactly the points on the curve. -/
theorem C64_expression_computed (C : EdwardsCurve p) (s : Hon p) {x y : Expression p}
    (hx : x.Scoped s.next) (hy : y.Scoped s.next) :
    (OnCurve C.a C.d (x.eval s.W) (y.eval s.W) →
      Computes (EdwardsExpression.new C x y) s fun P _ => P = ⟨x, y⟩) ∧
    (¬ OnCurve C.a C.d (x.eval s.W) (y.eval s.W) → Rejects (EdwardsExpression.new C x y) s) := by
  have key : ∀ s3 : Hon p, ∀ xx yy t : Expression p, xx.eval s3.W = x.eval s.W * x.eval s.W →
      yy.eval s3.W = y.eval s.W * y.eval s.W → t.eval s3.W = xx.eval s3.W * yy.eval s3.W →
      ((xx.mulElem C.a + yy).eval s3.W = (t.mulElem C.d + 1).eval s3.W ↔
        OnCurve C.a C.d (x.eval s.W) (y.eval s.W)) := by
    intro s3 xx yy t h1 h2 h3
    rw [eval_add, eval_add, eval_mulElem, eval_mulElem, eval_one s3.one, h3, h1, h2]
    unfold OnCurve
    constructor <;> intro h <;> linear_combination h
  unfold EdwardsExpression.new
  constructor
  · intro ho
    refine Comp.computes ((Comp.product hx hx).bind fun xx s1 l1 ⟨D1, c1, v1⟩ => ?_)
    refine (Comp.product (l1.scoped hy) (l1.scoped hy)).bind fun yy s2 l2 ⟨D2, c2, v2⟩ => ?_
    refine (Comp.product (l2.scoped c1) c2).bind fun t s3 l3 ⟨D3, c3, v3⟩ => ?_
    refine (Comp.assertEqual ((((l2.trans l3).scoped c1).mulElem _).add (l3.scoped c2))
      ((c3.mulElem _).add (.one s3.pos)) ((key s3 xx yy t ?_ ?_ ?_).2 ho)).bind
      fun _ s4 l4 ⟨_, D4, _⟩ => Comp.pure ⟨by rw [D4, D3, D2, D1], rfl⟩
    · rw [(l2.trans l3).eval c1, v1]
    · rw [l3.eval c2, v2, l1.eval hy]
    · rw [v3, l3.eval c2, (l2.trans l3).eval c1, l2.eval c1]
  · intro ho
    refine Comp.rejects ((Comp.product hx hx).mono fun xx s1 l1 ⟨D1, c1, v1⟩ => ⟨D1, s.D_lt, ?_⟩)
    refine Comp.rejects ((Comp.product (l1.scoped hy) (l1.scoped hy)).mono
      fun yy s2 l2 ⟨D2, c2, v2⟩ => ⟨D2, s1.D_lt, ?_⟩)
    refine Comp.rejects ((Comp.product (l2.scoped c1) c2).mono fun t s3 l3 ⟨D3, c3, v3⟩ =>
      ⟨D3, s2.D_lt, ?_⟩)
    have hr : Rejects (B.assertEqual (xx.mulElem C.a + yy) (t.mulElem C.d + 1)) s3 := by
      unfold B.assertEqual
      refine Rejects.assertProduct ((((l2.trans l3).scoped c1).mulElem _).add (l3.scoped c2))
        (.one s3.pos) ((c3.mulElem _).add (.one s3.pos)) ?_
      rw [eval_one s3.one, mul_one]
      intro he
      refine ho ((key s3 xx yy t ?_ ?_ ?_).1 he)
      · rw [(l2.trans l3).eval c1, v1]
      · rw [l3.eval c2, v2, l1.eval hy]
      · rw [v3, l3.eval c2, (l2.trans l3).eval c1, l2.eval c1]
    obtain ⟨a, b', h1, h2, h3⟩ := hr
    exact ⟨_, b', by rw [B.bind_eq h1]; rfl, h2, h3⟩

/-- Wire 1 carries 5; no point with first coordinate 5 lies on the curve, whatever the second. -/
example : Rejects (EdwardsExpression.new curve13 (Expression.ofWire 1) 0) honest5 :=
  (C64_expression_computed curve13 honest5 (.ofWire (by decide)) .zero).2
    (by unfold OnCurve; decide)

/-! ## C65 -/

/-- C65: honest execution of an addition computes the coordinates of the Edwards sum, whenever the
denominators do not vanish; the sum of points on the curve is on the curve. -/
theorem C65_add_computed (h2 : 2 < p) (C : EdwardsCurve p) (s : Hon p) {P Q : EdwardsExpression p}
    (hPx : P.x.Scoped s.next) (hPy : P.y.Scoped s.next) (hQx : Q.x.Scoped s.next)
    (hQy : Q.y.Scoped s.next)
    (hp' : 1 + C.d * P.x.eval s.W * Q.x.eval s.W * P.y.eval s.W * Q.y.eval s.W ≠ 0)
    (hm' : 1 - C.d * P.x.eval s.W * Q.x.eval s.W * P.y.eval s.W * Q.y.eval s.W ≠ 0) :
    Computes (EdwardsGroup.addExpressions C P Q) s fun R s' => R.x.Scoped s'.next ∧
      R.y.Scoped s'.next ∧
      R.x.eval s'.W = sumX C.d (P.x.eval s.W) (P.y.eval s.W) (Q.x.eval s.W) (Q.y.eval s.W) ∧
      R.y.eval s'.W = sumY C.a C.d (P.x.eval s.W) (P.y.eval s.W) (Q.x.eval s.W) (Q.y.eval s.W) ∧
      (OnCurve C.a C.d (P.x.eval s.W) (P.y.eval s.W) →
        OnCurve C.a C.d (Q.x.eval s.W) (Q.y.eval s.W) →
        OnCurve C.a C.d (R.x.eval s'.W) (R.y.eval s'.W)) :=
  ((EdwardsGroup.comp_add h2 C hPx hPy hQx hQy hp' hm').mono fun R s' _ ⟨D, c1, c2, v1, v2⟩ =>
    ⟨D, c1, c2, v1, v2, fun o1 o2 => by rw [v1, v2]; exact Edwards.onCurve_sum o1 o2 hp' hm'⟩).computes

/-- C65: honest execution of a doubling of a point on the curve computes its Edwards sum with itself,
which is on the curve, whenever the denominators do not vanish. -/
theorem C65_double_computed (h2 : 2 < p) (C : EdwardsCurve p) (s : Hon p) {P : EdwardsExpression p}
    (hx : P.x.Scoped s.next) (hy : P.y.Scoped s.next)
    (ho : OnCurve C.a C.d (P.x.eval s.W) (P.y.eval s.W))
    (hp' : 1 + C.d * P.x.eval s.W * P.x.eval s.W * P.y.eval s.W * P.y.eval s.W ≠ 0)
    (hm' : 1 - C.d * P.x.eval s.W * P.x.eval s.W * P.y.eval s.W * P.y.eval s.W ≠ 0) :
    Computes (EdwardsGroup.doubleExpression C P) s fun R s' => R.x.Scoped s'.next ∧
      R.y.Scoped s'.next ∧
      R.x.eval s'.W = sumX C.d (P.x.eval s.W) (P.y.eval s.W) (P.x.eval s.W) (P.y.eval s.W) ∧
      R.y.eval s'.W = sumY C.a C.d (P.x.eval s.W) (P.y.eval s.W) (P.x.eval s.W) (P.y.eval s.W) ∧
      OnCurve C.a C.d (R.x.eval s'.W) (R.y.eval s'.W) := by
  obtain ⟨d1, d2, d3, d4⟩ := Edwards.double_eq ho
  refine ((EdwardsGroup.comp_double h2 C hx hy (by rw [d3]; exact hp') (by rw [d4]; exact hm')).mono
    fun R s' _ ⟨D, c1, c2, v1, v2⟩ => ⟨D, c1, c2, by rw [v1, d1], by rw [v2, d2], ?_⟩).computes
  rw [v1, v2, d1, d2]
  exact Edwards.onCurve_sum ho ho hp' hm'

/-- C65: on a complete curve (in particular on JubJub) the denominators never vanish for points on
the curve. -/
theorem C65_denominators (C : EdwardsCurve p) [Complete C.a C.d] {x₁ y₁ x₂ y₂ : Elem p}
    (h₁ : OnCurve C.a C.d x₁ y₁) (h₂ : OnCurve C.a C.d x₂ y₂) :
    1 + C.d * x₁ * x₂ * y₁ * y₂ ≠ 0 ∧ 1 - C.d * x₁ * x₂ * y₁ * y₂ ≠ 0 :=
  ⟨Edwards.plus_ne h₁ h₂, Edwards.minus_ne h₁ h₂⟩

/-- C65: the gadgets of a complete curve compute in its group of points, as do `add_elements` and
`double_element`. -/
theorem C65_complete_curve (C : EdwardsCurve p) [Complete C.a C.d] :
    (∀ (s : Hon p) (x y : EdwardsExpression p) (P Q : Point C.a C.d),
      (EdwardsGroup.ops C).At s x [P.x, P.y] → (EdwardsGroup.ops C).At s y [Q.x, Q.y] →
      Computes (EdwardsGroup.addExpressions C x y) s (fun z s' =>
        (EdwardsGroup.ops C).At s' z [(P + Q).x, (P + Q).y]) ∧
      Computes (EdwardsGroup.doubleExpression C x) s (fun z s' =>
        (EdwardsGroup.ops C).At s' z [(P + P).x, (P + P).y])) ∧
    (∀ P Q : Point C.a C.d,
      (EdwardsGroup.ops C).addElements ⟨P.x, P.y⟩ ⟨Q.x, Q.y⟩ = some ⟨(P + Q).x, (P + Q).y⟩ ∧
      (EdwardsGroup.ops C).doubleElement ⟨P.x, P.y⟩ = some ⟨(P + P).x, (P + P).y⟩) := by
  have hG := EdwardsGroup.computesGroup C
  refine ⟨fun s x y P Q hx hy => ⟨hG.add s x y P Q hx hy, hG.double s x P hx⟩, ?_⟩
  have hadd : ∀ P Q : Point C.a C.d,
      (EdwardsGroup.ops C).addElements ⟨P.x, P.y⟩ ⟨Q.x, Q.y⟩ = some ⟨(P + Q).x, (P + Q).y⟩ := by
    intro P Q
    have hat : ∀ R : Point C.a C.d, (EdwardsGroup.ops C).At (newHon p)
        ((EdwardsGroup.ops C).ofElement R.toModel) R.coords := by
      intro R
      refine ⟨?_, ?_⟩
      · rw [hG.components]
        exact .map_ofElem (le_refl _) _
      · rw [hG.components, values_ofElem newHon_one]
    refine evaluateGadget_eq (hG.add (newHon p) _ _ P Q (hat P) (hat Q)) fun z s v hz hv => ?_
    exact hG.evaluate v s.W z (P + Q) (fun c hc i hi => hv i (hz.1 c hc i hi)) hz.2
  exact fun P Q => ⟨hadd P Q, hadd P P⟩

/-- Adding and doubling (4, 9) on the example curve. -/
example : (EdwardsGroup.ops curve13).addElements ⟨4, 9⟩ ⟨0, 12⟩ = some ⟨9, 4⟩ ∧
    (EdwardsGroup.ops curve13).doubleElement ⟨4, 9⟩ = some ⟨12, 0⟩ := by
  have h := (C65_complete_curve curve13).2 point13 ⟨0, 12, by unfold OnCurve; decide⟩
  refine ⟨h.1.trans ?_, h.2.trans ?_⟩ <;> decide

/-! ## C66 -/

/-- C66 is false: nothing constrains the result of an addition or a doubling.  Every satisfying
assignment can be extended so that the result has any coordinates `u`, `v` whatsoever. -/
theorem C66_add_refuted (h2 : 2 < p) (C : EdwardsCurve p) (s : Wit p) {P Q : EdwardsExpression p}
    (hP : P.x.Scoped s.next ∧ P.y.Scoped s.next) (hQ : Q.x.Scoped s.next ∧ Q.y.Scoped s.next)
    (u v : Elem p) :
    Can (EdwardsGroup.addExpressions C P Q) s
      (fun R s' => R.x.eval s'.W = u ∧ R.y.eval s'.W = v) ∧
    Can (EdwardsGroup.doubleExpression C P) s
      (fun R s' => R.x.eval s'.W = u ∧ R.y.eval s'.W = v) :=
  ⟨(EdwardsGroup.can_add C hP hQ u v).mono fun _ _ _ h => h.2,
    (EdwardsGroup.can_double h2 C hP u v).mono fun _ _ _ h => h.2⟩

/-- C66 is false for scalar multiplication: nothing constrains the result. -/
theorem C66_scalar_refuted (h2 : 2 < p) (C : EdwardsCurve p) (s : Wit p) {P : EdwardsExpression p}
    {k : Expression p} (hP : P.x.Scoped s.next ∧ P.y.Scoped s.next) (hk : k.Scoped s.next)
    (u v : Elem p) :
    Can ((EdwardsGroup.ops C).mulScalarExpression P k) s
      (fun R s' => R.x.eval s'.W = u ∧ R.y.eval s'.W = v) :=
  (EdwardsGroup.can_mulScalar h2 C hP hk u v).mono fun _ _ _ h => h.2

/-- C66 is false as stated, even on JubJub: it is not enforced that the sum of two points is their
sum, nor that it lies on the curve. -/
theorem C66_jubjub_refuted (P Q : Point jubjub.a jubjub.d) :
    (¬ Enforces (EdwardsGroup.addExpressions jubjub (.ofPoint P.toModel) (.ofPoint Q.toModel))
      fun R w => R.x.eval w = (P + Q).x ∧ R.y.eval w = (P + Q).y) ∧
    (¬ Enforces (EdwardsGroup.addExpressions jubjub (.ofPoint P.toModel) (.ofPoint Q.toModel))
      fun R w => OnCurve jubjub.a jubjub.d (R.x.eval w) (R.y.eval w)) := by
  have h2 : 2 < bls12_381Order := by decide +kernel
  have hs := fun R : EdwardsPoint bls12_381Order =>
    EdwardsGroup.ofPoint_scoped (emptyWit bls12_381Order).pos R
  constructor
  · refine (C66_add_refuted h2 jubjub _ (hs P.toModel) (hs Q.toModel) ((P + Q).x + 1) 0).1.not_enforces
      fun R s' _ h hr => ?_
    rw [h.1] at hr
    exact one_ne_zero (add_eq_left.1 hr.1)
  · refine (C66_add_refuted h2 jubjub _ (hs P.toModel) (hs Q.toModel) 0 0).1.not_enforces
      fun R s' _ h hr => ?_
    rw [h.1, h.2] at hr
    unfold OnCurve at hr
    refine one_ne_zero (α := Elem bls12_381Order) ?_
    linear_combination -hr

/-- C66, what remains: `mul_boolean_expression` is enforced; its result is the point or the identity,
according to the boolean.  Missing: everything that uses `quotient_unsafe`, for which the claim is
false. -/
theorem C66_mul_boolean_partial (C : EdwardsCurve p) (P : EdwardsExpression p)
    (b : BooleanExpression p) :
    Enforces ((EdwardsGroup.ops C).mulBooleanExpression P b) fun R w =>
      (b.eval w = 1 → R.x.eval w = P.x.eval w ∧ R.y.eval w = P.y.eval w) ∧
      (b.eval w = 0 → R.x.eval w = 0 ∧ R.y.eval w = 1) := by
  unfold GroupOps.mulBooleanExpression
  refine (Enforces.ofOption (Q := fun i _ => i = EdwardsExpression.ofPoint ⟨0, 1⟩)
    fun a h _ _ => Option.some.inj (h.symm.trans (EdwardsGroup.identityElement_eq C))).bind
    fun i => ?_
  refine Enforces.bind (Q := fun r w => i = EdwardsExpression.ofPoint ⟨0, 1⟩ → w ONE = 1 →
    ∃ x y, r = [x, y] ∧ x.eval w = 0 + b.eval w * (P.x.eval w - 0) ∧
      y.eval w = 1 + b.eval w * (P.y.eval w - 1)) ?_ fun r => ?_
  · change Enforces (GroupOps.selectAll b [P.x, P.y] [i.x, i.y]) _
    unfold GroupOps.selectAll GroupOps.selectAll GroupOps.selectAll
    refine (Enforces.selection b P.x i.x).bind fun x => Enforces.bind
      (Q := fun r w => i = EdwardsExpression.ofPoint ⟨0, 1⟩ → w ONE = 1 →
        ∃ y, r = [y] ∧ y.eval w = 1 + b.eval w * (P.y.eval w - 1)) ?_ fun r =>
      Enforces.pure fun w h1 hr hx hi h1' => ?_
    · refine (Enforces.selection b P.y i.y).bind fun y => Enforces.bind
        (Q := fun r _ => r = []) (Enforces.pure fun _ _ => rfl) fun r =>
        Enforces.pure fun w h1 hr hy hi h1' => ⟨y, by rw [hr], ?_⟩
      rw [hy, hi]
      simp only [EdwardsExpression.ofPoint]
      rw [eval_ofElem h1]
    · obtain ⟨y, hr, hy⟩ := hr hi h1'
      refine ⟨x, y, by rw [hr], ?_, hy⟩
      rw [hx, hi]
      simp only [EdwardsExpression.ofPoint]
      rw [eval_ofElem h1]
  · refine (Enforces.ofOption (Q := fun R _ => (EdwardsGroup.ops C).ofComponents r = some R)
      fun a h _ _ => h).mono fun R w h1 hR hr hi => ?_
    obtain ⟨x, y, rfl, hx, hy⟩ := hr hi h1
    have : R = ⟨x, y⟩ := (Option.some.inj hR).symm
    subst this
    constructor
    · intro hb
      simp only
      rw [hx, hy, hb]
      constructor <;> ring
    · intro hb
      simp only
      rw [hx, hy, hb]
      constructor <;> ring

/-! ## C67 -/

/-- C67: in any group whose additions and doublings are computed, `mul_boolean_expression` and
`mul_scalar_expression` compute the multiple by the boolean, or by the canonical representative of
the scalar, and `mul_scalar_element` returns that multiple. -/
theorem C67_scalar_multiplication {GE GX : Type} {G : GroupOps p GE GX} {M : Type} [AddCommGroup M]
    {coords : M → List (Elem p)} {element : M → GE} (hG : ComputesGroup G M coords element) :
    (∀ (s : Hon p) x P (b : BooleanExpression p), G.At s x (coords P) → b.Scoped s.next →
      IsBool (b.eval s.W) →
      Computes (G.mulBooleanExpression x b) s fun z s' =>
        G.At s' z (coords ((b.eval s.W).n • P))) ∧
    (∀ (s : Hon p) x P (k : Expression p), G.At s x (coords P) → k.Scoped s.next →
      Computes (G.mulScalarExpression x k) s fun z s' =>
        G.At s' z (coords ((k.eval s.W).n • P))) ∧
    (∀ P (k : Elem p), G.mulScalarElement (element P) k = some (element (k.n • P))) := by
  refine ⟨fun s x P b hx hb hbool => (GroupOps.comp_mulBoolean hG hx hb hbool).computes,
    fun s x P k hx hk => (GroupOps.comp_mulScalar hG hx hk).computes, fun P k => ?_⟩
  have hat : G.At (newHon p) (G.ofElement (element P)) (coords P) := by
    refine ⟨?_, ?_⟩
    · rw [hG.components]
      exact .map_ofElem (le_refl _) _
    · rw [hG.components, values_ofElem newHon_one]
  have hc := (GroupOps.comp_mulScalar hG hat (k := Expression.ofElem k)
    (.ofElem (le_refl _) k)).computes
  rw [eval_ofElem newHon_one] at hc
  refine evaluateGadget_eq hc fun z s v hz hv => ?_
  exact hG.evaluate v s.W z (k.n • P) (fun c hc i hi => hv i (hz.1 c hc i hi)) hz.2

/-- C67 on JubJub (and on any complete curve): every point, every scalar. -/
theorem C67_complete_curve (C : EdwardsCurve p) [Complete C.a C.d] (P : Point C.a C.d) :
    (∀ (s : Hon p) (x : EdwardsExpression p) (k : Expression p),
      (EdwardsGroup.ops C).At s x [P.x, P.y] → k.Scoped s.next →
      Computes ((EdwardsGroup.ops C).mulScalarExpression x k) s fun z s' =>
        (EdwardsGroup.ops C).At s' z [((k.eval s.W).n • P).x, ((k.eval s.W).n • P).y]) ∧
    (∀ k : Elem p, (EdwardsGroup.ops C).mulScalarElement ⟨P.x, P.y⟩ k =
      some ⟨(k.n • P).x, (k.n • P).y⟩) := by
  obtain ⟨-, h1, h2⟩ := C67_scalar_multiplication (EdwardsGroup.computesGroup C)
  exact ⟨fun s x k hx hk => h1 s x P k hx hk, fun k => h2 P k⟩

/-- Five times (4, 9). -/
example : (EdwardsGroup.ops curve13).mulScalarElement ⟨4, 9⟩ 5 = some ⟨9, 4⟩ := by
  have h := (C67_complete_curve curve13 point13).2 5
  refine h.trans ?_
  decide

/-! ## C68 -/

/-- C68: the constants of JubJub: the base field is of prime order, `a` is `-1` and a square, `d` is
no square, and the generator is on the curve, so that `generator_element` does not panic. -/
theorem C68_constants :
    bls12_381Order.Prime ∧ jubjub.a = -1 ∧ IsSquare jubjub.a ∧ ¬ IsSquare jubjub.d ∧
    OnCurve jubjub.a jubjub.d jubjubGeneratorX jubjubGeneratorY ∧
    jubjubGenerator = some ⟨jubjubGeneratorX, jubjubGeneratorY⟩ :=
  ⟨fact_bls12_381.out, rfl, jubjub_complete.square, jubjub_complete.nonsquare,
    jubjubGenerator_onCurve, jubjubGenerator_eq⟩

/-- C68 is false for the order of the generator: the point returned by `generator_element`, used as
generator of `JubJubPrimeSubgroup`, has order `8 r` for the prime `r`, so that it generates no
subgroup of prime order. -/
theorem C68_generator_order_refuted (G : Point jubjub.a jubjub.d) (hx : G.x = jubjubGeneratorX)
    (hy : G.y = jubjubGeneratorY) :
    addOrderOf G =
      8 * 6554484396890773809930967563523245729705921265872317281365359162392183254199 ∧
    ¬ (addOrderOf G).Prime := by
  have hG : G = jubjubG := Edwards.Point.ext hx hy
  have h := jubjubG_order
  rw [hG, h]
  refine ⟨rfl, fun hpr => ?_⟩
  have h2 : 2 ∣ 8 * jubjubSubgroupOrder := Dvd.dvd.mul_right (by norm_num) _
  have := (Nat.prime_dvd_prime_iff_eq Nat.prime_two hpr).1 h2
  exact absurd this (by decide +kernel)

/-- C68, what remains: eight times the shipped generator does generate a subgroup of the expected
prime order. -/
theorem C68_generator_order_partial (G : Point jubjub.a jubjub.d) (hx : G.x = jubjubGeneratorX)
    (hy : G.y = jubjubGeneratorY) :
    addOrderOf (8 • G) =
      6554484396890773809930967563523245729705921265872317281365359162392183254199 ∧
    (addOrderOf (8 • G)).Prime := by
  have hG : G = jubjubG := Edwards.Point.ext hx hy
  have h : addOrderOf (8 • jubjubG) = jubjubSubgroupOrder := by
    rw [addOrderOf_nsmul' _ (by norm_num), jubjubG_order, Nat.gcd_eq_right (Dvd.intro _ rfl),
      Nat.mul_div_cancel_left _ (by norm_num)]
  rw [hG, h]
  exact ⟨rfl, jubjubSubgroupOrder_prime⟩

end R1CS
