import Verif.Props.HashCosts
import Verif.Props.Schnorr

/-!
# C110: the number of constraints of multiplying a point and of verifying a signature
-/

set_option linter.unusedSectionVars false

namespace R1CS

variable {p : ℕ} [hp : Fact p.Prime] {α : Type}

open Expression

/-- Both coordinates vary. -/
def EdwardsExpression.Varies (P : EdwardsExpression p) : Prop := P.x.Varies ∧ P.y.Varies

namespace Cost

theorem of_returns {m : B p α} {b : Builder p} {k : ℕ} {Q : α → ℕ → Prop} {R : α → Prop} (h : Cost m b k Q)
    (hr : Returns m R) : AddsExactly m b k := by
  obtain ⟨a, b', h1, -⟩ := hr b
  exact ⟨a, b', h1, (h a b' h1).1⟩

theorem quotient_wire (x y : Expression p) {b : Builder p} (hb : 1 ≤ b.nextWireIndex) :
    Cost (B.quotientUnsafe x y) b 0 fun z n => z.Varies ∧ 1 ≤ n := by
  unfold B.quotientUnsafe
  refine Cost.wire.bind (l := 0) fun i b1 _ h1 => (Cost.generator _ _).bind (l := 0) fun _ b2 _ h2 =>
    Cost.pure ⟨?_, by omega⟩
  exact varies_ofWire (by rw [h1.1]; change _ ≠ 0; omega)

theorem vary_product {x y : Expression p} (hx : x.asConstant = none) (hy : y.asConstant = none)
    {b : Builder p} (hb : 1 ≤ b.nextWireIndex) :
    Cost (B.product x y) b 1 fun z n => z.Varies ∧ 1 ≤ n :=
  (Cost.product hx hy).mono fun z n _ h => ⟨by rw [h.1]; exact varies_ofWire (by change _ ≠ 0; omega), by omega⟩

/-- The part of an addition and of a doubling after the products. -/
theorem two_quotients (x y x' y' : Expression p) {b : Builder p} (hb : 1 ≤ b.nextWireIndex) :
    Cost (do
      let u ← B.quotientUnsafe x y
      let v ← B.quotientUnsafe x' y'
      return (⟨u, v⟩ : EdwardsExpression p)) b 0 fun R n => R.Varies ∧ 1 ≤ n :=
  (quotient_wire _ _ hb).bind (l := 0) fun _ _ _ h1 => (quotient_wire _ _ h1.2).bind (l := 0)
    fun _ _ _ h2 => Cost.pure ⟨⟨h1.1, h2.1⟩, h2.2⟩

theorem add_points (C : EdwardsCurve p) {P Q : EdwardsExpression p} (hP : P.Varies) (hQ : Q.Varies)
    {b : Builder p} (hb : 1 ≤ b.nextWireIndex) :
    Cost (EdwardsGroup.addExpressions C P Q) b 5 fun R n => R.Varies ∧ 1 ≤ n := by
  unfold EdwardsGroup.addExpressions
  exact (vary_product hP.1.asConstant hQ.2.asConstant hb).bind (l := 4) fun u b1 _ h1 =>
    (vary_product hP.2.asConstant hQ.1.asConstant h1.2).bind (l := 3) fun v b2 _ h2 =>
    (vary_product hP.1.asConstant hQ.1.asConstant h2.2).bind (l := 2) fun _ b3 _ h3 =>
    (vary_product h1.1.asConstant h2.1.asConstant h3.2).bind (l := 1) fun _ b4 _ h4 =>
    (vary_product hP.2.asConstant hQ.2.asConstant h4.2).bind (l := 0) fun _ b5 _ h5 =>
    two_quotients _ _ _ _ h5.2

theorem product_one' {x : Expression p} (hx : x.Varies) {b : Builder p} (hb : 1 ≤ b.nextWireIndex) :
    Cost (B.product (Expression.ofElem 1) x) b 0 fun z n => z.Varies ∧ 1 ≤ n :=
  (product_one hx).mono fun _ _ hn h => ⟨h, by omega⟩

/-- Adding to the identity, whose first coordinate is the constant 0, which `product` does not
recognise as a constant. -/
theorem add_identity (C : EdwardsCurve p) {Q : EdwardsExpression p} (hQ : Q.Varies) {b : Builder p}
    (hb : 1 ≤ b.nextWireIndex) :
    Cost (EdwardsGroup.addExpressions C (EdwardsExpression.ofPoint ⟨0, 1⟩) Q) b 3
      fun R n => R.Varies ∧ 1 ≤ n := by
  have h0 : (Expression.ofElem 0 : Expression p).asConstant = none := C12_as_constant_refuted.1
  unfold EdwardsGroup.addExpressions
  exact (vary_product h0 hQ.2.asConstant hb).bind (l := 2) fun u b1 _ h1 =>
    (product_one' hQ.1 h1.2).bind (l := 2) fun v b2 _ h2 =>
    (vary_product h0 hQ.1.asConstant h2.2).bind (l := 1) fun _ b3 _ h3 =>
    (vary_product h1.1.asConstant h2.1.asConstant h3.2).bind (l := 0) fun _ b4 _ h4 =>
    (product_one' hQ.2 h4.2).bind (l := 0) fun _ b5 _ h5 =>
    two_quotients _ _ _ _ h5.2

theorem double_point (C : EdwardsCurve p) {P : EdwardsExpression p} (hP : P.Varies)
    {b : Builder p} (hb : 1 ≤ b.nextWireIndex) :
    Cost (EdwardsGroup.doubleExpression C P) b 3 fun R n => R.Varies ∧ 1 ≤ n := by
  unfold EdwardsGroup.doubleExpression
  exact (vary_product hP.1.asConstant hP.2.asConstant hb).bind (l := 2) fun u b1 _ h1 =>
    (vary_product hP.1.asConstant hP.1.asConstant h1.2).bind (l := 1) fun v b2 _ h2 =>
    (vary_product hP.2.asConstant hP.2.asConstant h2.2).bind (l := 0) fun _ b3 _ h3 =>
    ofOption.bind (l := 0) fun _ b4 h4 _ => (quotient_wire _ _ (by omega)).bind (l := 0)
    fun _ b5 _ h5 => ofOption.bind (l := 0) fun _ b6 h6 _ => (quotient_wire _ _ (by omega)).bind (l := 0)
    fun _ _ _ h7 => Cost.pure ⟨⟨h5.1, h7.1⟩, h7.2⟩

/-- Doubling a point with constant coordinates other than 0. -/
theorem double_constant (C : EdwardsCurve p) {x y : Elem p} (hx : x ≠ 0) (hy : y ≠ 0)
    {b : Builder p} (hb : 1 ≤ b.nextWireIndex) :
    Cost (EdwardsGroup.doubleExpression C (EdwardsExpression.ofPoint ⟨x, y⟩)) b 0
      fun R n => R.Varies ∧ 1 ≤ n := by
  have hc : ∀ {z : Elem p}, z ≠ 0 → (Expression.ofElem z).asConstant = some z := fun hz =>
    (C12_as_constant_partial _ (.ofElem _) _ hz).2 fun w h1 => eval_ofElem h1 _
  unfold EdwardsGroup.doubleExpression
  exact (product_const (Or.inl (hc hx))).bind (l := 0) fun u b1 _ h1 =>
    (product_const (Or.inl (hc hx))).bind (l := 0) fun v b2 _ h2 =>
    (product_const (Or.inl (hc hy))).bind (l := 0) fun _ b3 _ h3 =>
    ofOption.bind (l := 0) fun _ b4 h4 _ => (quotient_wire _ _ (by omega)).bind (l := 0)
    fun _ b5 _ h5 => ofOption.bind (l := 0) fun _ b6 h6 _ => (quotient_wire _ _ (by omega)).bind (l := 0)
    fun _ _ _ h7 => Cost.pure ⟨⟨h5.1, h7.1⟩, h7.2⟩

/-- A selection between a varying expression and a constant. -/
theorem select_vary {i : Wire} (hi : i ≠ ONE) {x : Expression p} (hx : x.Varies) (c : Elem p)
    {b : Builder p} (hb : 1 ≤ b.nextWireIndex) :
    Cost (B.selection ⟨ofWire i⟩ x (ofElem c)) b 1 fun z n => z.Varies ∧ 1 ≤ n := by
  refine (Cost.selection (varies_ofWire hi).asConstant (Varies.asConstant ?_)).mono fun z n _ h =>
    ⟨?_, by omega⟩
  · obtain ⟨w, w', h1, h2, h3⟩ := hx
    refine ⟨w, w', h1, h2, fun h => h3 ?_⟩
    rw [eval_sub, eval_sub, eval_ofElem h1, eval_ofElem h2] at h
    exact sub_left_injective h
  · rw [h.1]
    exact (varies_ofWire (by change _ ≠ 0; omega)).add_const fun w h1 => eval_ofElem h1 c

/-- A selection between two constants. -/
theorem select_constants {i : Wire} (hi : i ≠ ONE) {x c : Elem p} (hx : x ≠ c) {b : Builder p}
    (hb : 1 ≤ b.nextWireIndex) :
    Cost (B.selection ⟨ofWire i⟩ (ofElem x) (ofElem c)) b 0 fun z n => z.Varies ∧ 1 ≤ n := by
  have hc : (Expression.ofElem x - Expression.ofElem c).asConstant = some (x - c) :=
    (C12_as_constant_partial _ (.sub (.ofElem _) (.ofElem _)) _ (sub_ne_zero.2 hx)).2 fun w h1 => by
      rw [eval_sub, eval_ofElem h1, eval_ofElem h1]
  unfold B.selection B.product
  rw [(varies_ofWire hi).asConstant, hc]
  refine (Cost.pure (Q := fun z n => z = (ofWire i : Expression p).mulElem (x - c) ∧ n = b.nextWireIndex)
    ⟨rfl, rfl⟩).bind (l := 0) fun z b1 _ h => Cost.pure ⟨?_, by omega⟩
  rw [h.1]
  refine Varies.add_const ?_ fun w h1 => eval_ofElem h1 c
  obtain ⟨w, w', h1, h2, h3⟩ := varies_ofWire (p := p) hi
  refine ⟨w, w', h1, h2, fun h => h3 ?_⟩
  rw [eval_mulElem, eval_mulElem] at h
  exact mul_right_cancel₀ (sub_ne_zero.2 hx) h

theorem mulBoolean (C : EdwardsCurve p) {i : Wire} {P : EdwardsExpression p} {k l : ℕ}
    {b : Builder p} (hb : 1 ≤ b.nextWireIndex)
    (hx : ∀ {b : Builder p}, 1 ≤ b.nextWireIndex →
      Cost (B.selection ⟨ofWire i⟩ P.x (ofElem 0)) b k fun z n => z.Varies ∧ 1 ≤ n)
    (hy : ∀ {b : Builder p}, 1 ≤ b.nextWireIndex →
      Cost (B.selection ⟨ofWire i⟩ P.y (ofElem 1)) b l fun z n => z.Varies ∧ 1 ≤ n) :
    Cost ((EdwardsGroup.ops C).mulBooleanExpression P ⟨ofWire i⟩) b (k + l)
      fun R n => R.Varies ∧ 1 ≤ n := by
  unfold GroupOps.mulBooleanExpression
  rw [EdwardsGroup.identityElement_eq]
  refine (ofOption.bind (l := k + l) fun I b1 h1 hI => ?_).congr (zero_add _)
  obtain rfl := Option.some.inj hI.1
  change Cost (GroupOps.selectAll _ [P.x, P.y] [ofElem 0, ofElem 1] >>= _) b1 (k + l) _
  refine Cost.bind (k := k + l) (l := 0)
    (Q := fun r n => ∃ x y : Expression p, r = [x, y] ∧ x.Varies ∧ y.Varies ∧ 1 ≤ n) ?_ ?_
  · unfold GroupOps.selectAll
    refine (hx (by omega)).bind fun x b2 _ h2 => ?_
    unfold GroupOps.selectAll
    refine Cost.bind (k := l) (l := 0)
      (Q := fun r n => ∃ y : Expression p, r = [y] ∧ y.Varies ∧ 1 ≤ n) ?_ ?_
    · refine (hy h2.2).bind (l := 0) fun y b3 _ h3 => ?_
      unfold GroupOps.selectAll
      exact Cost.pure ⟨y, rfl, h3⟩
    · rintro r b3 _ ⟨y, rfl, h3, h4⟩
      exact Cost.pure ⟨x, y, rfl, h2.1, h3, h4⟩
  · rintro r b2 _ ⟨x, y, rfl, h3, h4, h5⟩
    refine ofOption.mono fun R n hn h => ?_
    obtain rfl := Option.some.inj h.1
    exact ⟨⟨h3, h4⟩, by omega⟩

theorem mulBoolean_vary (C : EdwardsCurve p) {i : Wire} (hi : i ≠ ONE) {P : EdwardsExpression p}
    (hP : P.Varies) {b : Builder p} (hb : 1 ≤ b.nextWireIndex) :
    Cost ((EdwardsGroup.ops C).mulBooleanExpression P ⟨ofWire i⟩) b 2 fun R n => R.Varies ∧ 1 ≤ n :=
  mulBoolean C (k := 1) (l := 1) hb (fun h => select_vary hi hP.1 0 h) fun h => select_vary hi hP.2 1 h

theorem mulBoolean_constant (C : EdwardsCurve p) {i : Wire} (hi : i ≠ ONE) {x y : Elem p} (hx : x ≠ 0)
    (hy : y ≠ 1) {b : Builder p} (hb : 1 ≤ b.nextWireIndex) :
    Cost ((EdwardsGroup.ops C).mulBooleanExpression (EdwardsExpression.ofPoint ⟨x, y⟩) ⟨ofWire i⟩) b 0
      fun R n => R.Varies ∧ 1 ≤ n :=
  mulBoolean C (k := 0) (l := 0) hb (fun h => select_constants hi hx h) fun h => select_constants hi hy h

/-- The rounds after the first one. -/
theorem mulLoop (C : EdwardsCurve p) : ∀ (l : List BooleanWire), (∀ i ∈ l, i.wire ≠ ONE) →
    ∀ {s q : EdwardsExpression p}, s.Varies → q.Varies → ∀ {b : Builder p}, 1 ≤ b.nextWireIndex →
    Cost ((EdwardsGroup.ops C).mulLoop (l.map BooleanExpression.ofWire) s q) b (10 * l.length)
      fun R n => R.Varies ∧ 1 ≤ n
  | [], _, _, _, hs, _, _, hb => Cost.pure ⟨hs, hb⟩
  | i :: l, hl, s, q, hs, hq, b, hb => by
    rw [List.map_cons]
    unfold GroupOps.mulLoop
    exact ((mulBoolean_vary C (hl i (by simp)) hq hb).bind fun r b1 _ h1 =>
      (add_points C hs h1.1 h1.2).bind fun s' b2 _ h2 => (double_point C hq h2.2).bind fun q' b3 _ h3 =>
      mulLoop C l (fun j hj => hl j (by simp [hj])) h2.1 h3.1 h3.2).congr
      (by rw [List.length_cons]; ring)

theorem mulScalar (C : EdwardsCurve p) {P : EdwardsExpression p} {u v : ℕ}
    (hm : ∀ {i : Wire}, i ≠ ONE → ∀ {b : Builder p}, 1 ≤ b.nextWireIndex →
      Cost ((EdwardsGroup.ops C).mulBooleanExpression P ⟨ofWire i⟩) b u fun R n => R.Varies ∧ 1 ≤ n)
    (hd : ∀ {b : Builder p}, 1 ≤ b.nextWireIndex →
      Cost (EdwardsGroup.doubleExpression C P) b v fun R n => R.Varies ∧ 1 ≤ n)
    (k : Expression p) {b : Builder p} (hb : 1 ≤ b.nextWireIndex) :
    Cost ((EdwardsGroup.ops C).mulScalarExpression P k) b
      (Elem.maxBits p + 1 + (u + 3 + v + 10 * (Elem.maxBits p - 1))) fun R n => R.Varies ∧ 1 ≤ n := by
  unfold GroupOps.mulScalarExpression B.splitAllowingAmbiguity
  rw [EdwardsGroup.identityElement_eq]
  refine (splitWithoutRangeCheck k _).bind ?_
  rintro e b1 h1 ⟨w, rfl, hw, -, hi⟩
  refine (ofOption.bind fun I b2 h2 hI => ?_).congr (zero_add _)
  obtain rfl := Option.some.inj hI.1
  have hpos := BinaryExpression.maxBits_pos (p := p)
  obtain ⟨bits⟩ := w
  cases bits with
  | nil => simp only [List.length_nil] at hw; omega
  | cons i l =>
    have h0 : ∀ j ∈ i :: l, j.wire ≠ ONE := fun j hj => by
      have := (hi j hj).1
      change j.wire ≠ 0
      omega
    change Cost ((EdwardsGroup.ops C).mulLoop (BooleanExpression.ofWire i :: l.map BooleanExpression.ofWire)
      _ _) b2 _ _
    unfold GroupOps.mulLoop
    refine ((hm (h0 i (by simp)) (by omega)).bind fun r b3 _ h3 => (add_identity C h3.1 h3.2).bind
      fun s b4 _ h4 => (hd h4.2).bind fun q b5 _ h5 => mulLoop C l (fun j hj => h0 j (by simp [hj])) h4.1
      h5.1 h5.2).congr ?_
    simp only [List.length_cons] at hw
    rw [← hw]
    simp only [Nat.add_sub_cancel]
    ring

end Cost

namespace Returns

theorem quotientUnsafe (x y : Expression p) : Returns (B.quotientUnsafe x y) fun _ => True :=
  wire.bind fun _ _ => (generator _ _).bind fun _ _ => pure trivial

theorem addPoints (C : EdwardsCurve p) (P Q : EdwardsExpression p) :
    Returns (EdwardsGroup.addExpressions C P Q) fun _ => True :=
  (product _ _).bind fun _ _ => (product _ _).bind fun _ _ => (product _ _).bind fun _ _ =>
    (product _ _).bind fun _ _ => (product _ _).bind fun _ _ => (quotientUnsafe _ _).bind fun _ _ =>
    (quotientUnsafe _ _).bind fun _ _ => pure trivial

theorem doublePoint (h2 : 2 < p) (C : EdwardsCurve p) (P : EdwardsExpression p) :
    Returns (EdwardsGroup.doubleExpression C P) fun _ => True :=
  (product _ _).bind fun _ _ => (product _ _).bind fun _ _ => (product _ _).bind fun _ _ =>
    (ofOption (Q := fun _ => True) (Elem.ofNat?_eq_some h2) trivial).bind fun _ _ =>
    (quotientUnsafe _ _).bind fun _ _ =>
    (ofOption (Q := fun _ => True) (Expression.ofNat?_eq h2) trivial).bind fun _ _ =>
    (quotientUnsafe _ _).bind fun _ _ => pure trivial

theorem mulBoolean (C : EdwardsCurve p) (P : EdwardsExpression p) (c : BooleanExpression p) :
    Returns ((EdwardsGroup.ops C).mulBooleanExpression P c) fun _ => True := by
  unfold GroupOps.mulBooleanExpression
  refine (ofOption (Q := fun I => I = EdwardsExpression.ofPoint ⟨0, 1⟩) (EdwardsGroup.identityElement_eq C)
    rfl).bind fun I hI => ?_
  subst hI
  refine Returns.bind (Q := fun r => ∃ x y : Expression p, r = [x, y]) ?_ ?_
  · exact (selection _ _ _).bind fun x _ => Returns.bind (Q := fun r => ∃ y : Expression p, r = [y])
      ((selection _ _ _).bind fun y _ => Returns.bind (Q := fun r => r = []) (pure rfl) fun r hr =>
        pure ⟨y, by rw [hr]⟩)
      fun r ⟨y, hr⟩ => pure ⟨x, y, by rw [hr]⟩
  · rintro r ⟨x, y, rfl⟩
    exact ofOption rfl trivial

theorem mulLoop (h2 : 2 < p) (C : EdwardsCurve p) : ∀ (l : List (BooleanExpression p))
    (s q : EdwardsExpression p), Returns ((EdwardsGroup.ops C).mulLoop l s q) fun _ => True
  | [], _, _ => pure trivial
  | c :: l, s, q => (mulBoolean C q c).bind fun _ _ => (addPoints C s _).bind fun _ _ =>
      (doublePoint h2 C q).bind fun _ _ => mulLoop h2 C l _ _

theorem mulScalar (h2 : 2 < p) (C : EdwardsCurve p) (P : EdwardsExpression p) (k : Expression p) :
    Returns ((EdwardsGroup.ops C).mulScalarExpression P k) fun _ => True :=
  (splitWithoutRangeCheck k le_rfl).bind fun _ _ =>
    (ofOption (Q := fun _ => True) (EdwardsGroup.identityElement_eq C) trivial).bind fun _ _ =>
    mulLoop h2 C _ _ _

end Returns

/-- C110: doubling a point whose coordinates are not constant adds exactly 3 constraints (and adding two such
points 5, see C77). -/
theorem C110_double_size (h2 : 2 < p) (C : EdwardsCurve p) {P : EdwardsExpression p} (hx : P.x.Varies)
    (hy : P.y.Varies) {b : Builder p} (hb : 1 ≤ b.nextWireIndex) :
    AddsExactly (EdwardsGroup.doubleExpression C P) b 3 :=
  (Cost.double_point C ⟨hx, hy⟩ hb).of_returns (Returns.doublePoint h2 C P)

/-- C110: multiplying a point whose coordinates are not constant by a scalar adds exactly 11 constraints for
each bit of the order, less one, whatever the scalar. -/
theorem C110_mul_size (h2 : 2 < p) (C : EdwardsCurve p) {P : EdwardsExpression p} (hx : P.x.Varies)
    (hy : P.y.Varies) (k : Expression p) {b : Builder p} (hb : 1 ≤ b.nextWireIndex) :
    AddsExactly ((EdwardsGroup.ops C).mulScalarExpression P k) b (11 * Elem.maxBits p - 1) := by
  have hpos := BinaryExpression.maxBits_pos (p := p)
  exact ((Cost.mulScalar C (u := 2) (v := 3) (fun hi _ h => Cost.mulBoolean_vary C hi ⟨hx, hy⟩ h)
    (fun h => Cost.double_point C ⟨hx, hy⟩ h) k hb).congr (by omega)).of_returns (Returns.mulScalar h2 C P k)

/-- C110: a point whose coordinates are constants, such as a generator, saves only the five constraints of
selecting and doubling it in the first round, since the doubled point is no longer constant. -/
theorem C110_mul_constant_size (h2 : 2 < p) (C : EdwardsCurve p) {x y : Elem p} (hx : x ≠ 0) (hy : y ≠ 0)
    (hy1 : y ≠ 1) (k : Expression p) {b : Builder p} (hb : 1 ≤ b.nextWireIndex) :
    AddsExactly ((EdwardsGroup.ops C).mulScalarExpression (EdwardsExpression.ofPoint ⟨x, y⟩) k) b
      (11 * Elem.maxBits p - 6) := by
  have hpos := BinaryExpression.maxBits_pos (p := p)
  exact ((Cost.mulScalar C (u := 0) (v := 0) (fun hi _ h => Cost.mulBoolean_constant C hi hx hy1 h)
    (fun h => Cost.double_constant C hx hy h) k hb).congr (by omega)).of_returns (Returns.mulScalar h2 C _ k)

/-- C110: verifying a signature under a public key whose coordinates are not constant adds exactly 22
constraints for each bit of the order, less one, and those of the compression function. -/
theorem C110_verify_size (h2 : 2 < p) (C : EdwardsCurve p) {g : EdwardsPoint p} (hx : g.x ≠ 0) (hy : g.y ≠ 0)
    (hy1 : g.y ≠ 1) {pk : EdwardsExpression p} (hpx : pk.x.Varies) (hpy : pk.y.Varies)
    {c : CompressionFunction p} {m : Expression p} {n : ℕ}
    (hc : ∀ (z : Expression p) (b : Builder p), z.Varies → 1 ≤ b.nextWireIndex →
      AddsExactly (c.compress z m) b n) (σ : SignatureExpression p) {b : Builder p}
    (hb : 1 ≤ b.nextWireIndex) :
    AddsExactly (schnorrVerify (cyclicSubgroup (EdwardsGroup.ops C) (some g)) c σ m pk) b
      (22 * Elem.maxBits p - 1 + n) := by
  have hpos := BinaryExpression.maxBits_pos (p := p)
  obtain ⟨gs, b1, e1, -⟩ := Returns.mulScalar h2 C (EdwardsExpression.ofPoint g) σ.s b
  obtain ⟨k1, -, v1, n1⟩ := Cost.mulScalar C (u := 0) (v := 0)
    (fun hi _ h => Cost.mulBoolean_constant C hi hx hy1 h) (fun h => Cost.double_constant C hx hy h) σ.s hb
    gs b1 e1
  obtain ⟨ye, b2, e2, -⟩ := Returns.mulScalar h2 C pk σ.e b1
  obtain ⟨k2, -, v2, n2⟩ := Cost.mulScalar C (u := 2) (v := 3)
    (fun hi _ h => Cost.mulBoolean_vary C hi ⟨hpx, hpy⟩ h) (fun h => Cost.double_point C ⟨hpx, hpy⟩ h) σ.e n1
    ye b2 e2
  obtain ⟨R, b3, e3, -⟩ := Returns.addPoints C gs ye b2
  obtain ⟨k3, -, v3, n3⟩ := Cost.add_points C v1 v2 n2 R b3 e3
  obtain ⟨h, b4, e4, k4⟩ := hc R.y b3 v3.2 n3
  have hrun : schnorrVerify (cyclicSubgroup (EdwardsGroup.ops C) (some g)) c σ m pk b =
      B.assertEqual h σ.e b4 := by
    have e0 : B.ofOption (cyclicSubgroup (EdwardsGroup.ops C) (some g)).generatorExpression b =
        some (EdwardsExpression.ofPoint g, b) := rfl
    unfold schnorrVerify
    rw [B.bind_eq e0]
    exact (B.bind_eq e1).trans ((B.bind_eq e2).trans ((B.bind_eq e3).trans (B.bind_eq e4)))
  refine ⟨_, _, hrun, ?_⟩
  change (b4.constraints ++ [_]).length = _
  rw [List.length_append, List.length_singleton]
  omega

/-- C110 on JubJub, whose base field has 255 bits: multiplying any point that is not constant adds 2804
constraints, multiplying the generator 2799, and verifying a signature 5609 and those of the compression
function, for example none for the function of the crate's test. -/
theorem C110_jubjub_sizes {b : Builder bls12_381Order} (hb : 1 ≤ b.nextWireIndex)
    {P : EdwardsExpression bls12_381Order} (hx : P.x.Varies) (hy : P.y.Varies)
    (k m : Expression bls12_381Order) (σ : SignatureExpression bls12_381Order) :
    AddsExactly ((EdwardsGroup.ops jubjub).mulScalarExpression P k) b 2804 ∧
    AddsExactly ((EdwardsGroup.ops jubjub).mulScalarExpression
      (EdwardsExpression.ofPoint ⟨jubjubGeneratorX, jubjubGeneratorY⟩) k) b 2799 ∧
    AddsExactly (schnorrVerify jubjubPrimeSubgroup testCompress σ m P) b 5609 := by
  have h2 : 2 < bls12_381Order := by decide +kernel
  have h255 : Elem.maxBits bls12_381Order = 255 := by decide +kernel
  have h1 := C110_mul_size h2 jubjub hx hy k hb
  have h3 := C110_mul_constant_size h2 jubjub (x := jubjubGeneratorX) (y := jubjubGeneratorY)
    (by decide +kernel) (by decide +kernel) (by decide +kernel) k hb
  have h4 := C110_verify_size h2 jubjub (g := ⟨jubjubGeneratorX, jubjubGeneratorY⟩) (by decide +kernel)
    (by decide +kernel) (by decide +kernel) hx hy (c := testCompress) (m := m) (n := 0)
    (fun z b _ _ => by
      exact ⟨_, b, by unfold testCompress; simp only; rw [z.mulNat_eq h2]; rfl, rfl⟩) σ hb
  rw [h255] at h1 h3 h4
  refine ⟨h1, h3, ?_⟩
  unfold jubjubPrimeSubgroup
  rw [jubjubGenerator_eq]
  exact h4

/-- Over the field of order 13 (4 bits), with the point on the wires 1 and 2: 43 constraints. -/
example : AddsExactly ((EdwardsGroup.ops ⟨1, 2⟩).mulScalarExpression ⟨ofWire 1, ofWire 2⟩ (ofWire 3))
    builder6 43 ∧ AddsExactly (EdwardsGroup.doubleExpression ⟨1, 2⟩ ⟨ofWire 1, ofWire 2⟩) builder6 3 ∧
    AddsExactly ((EdwardsGroup.ops ⟨1, 2⟩).mulScalarExpression (EdwardsExpression.ofPoint ⟨3, 5⟩) (ofWire 3))
      builder6 38 :=
  ⟨C110_mul_size (by decide) _ (varies_ofWire (by decide)) (varies_ofWire (by decide)) _ (by decide),
    C110_double_size (by decide) _ (varies_ofWire (by decide)) (varies_ofWire (by decide)) (by decide),
    C110_mul_constant_size (by decide) _ (by decide) (by decide) (by decide) _ (by decide)⟩

/-- Verifying with the public key on the wires 1 and 2. -/
example (σ : SignatureExpression bls12_381Order) (m : Expression bls12_381Order) :
    AddsExactly (schnorrVerify jubjubPrimeSubgroup testCompress σ m ⟨ofWire 1, ofWire 2⟩)
      { (Builder.new : Builder bls12_381Order) with nextWireIndex := 3 } 5609 :=
  (C110_jubjub_sizes (by decide) (varies_ofWire (by decide)) (varies_ofWire (by decide)) m m σ).2.2

end R1CS
