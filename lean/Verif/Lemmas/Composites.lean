import Verif.Spec.Outcome
import Verif.Lemmas.Tells
import Verif.Props.Curves
import Verif.Props.Hashes

/-!
# What the gadgets for curves, signatures and Merkle paths tell
-/

set_option linter.unusedSectionVars false

namespace R1CS

variable {p : ℕ} [hp : Fact p.Prime]

open Language Edwards

namespace Knows

variable {Γ : Ctx p}

theorem point {x y : Expression p} {a b : Elem p} (hx : Knows Γ .expr x a)
    (hy : Knows Γ .expr y b) : Knows Γ .point ⟨x, y⟩ (a, b) :=
  ⟨⟨hx.within, hy.within⟩, fun W h1 hW => ⟨hx.rel W h1 hW, hy.rel W h1 hW⟩⟩

theorem fst {P : EdwardsExpression p} {v : Elem p × Elem p} (h : Knows Γ .point P v) :
    Knows Γ .expr P.x v.1 := ⟨h.within.1, fun W h1 hW => (h.rel W h1 hW).1⟩

theorem snd {P : EdwardsExpression p} {v : Elem p × Elem p} (h : Knows Γ .point P v) :
    Knows Γ .expr P.y v.2 := ⟨h.within.2, fun W h1 hW => (h.rel W h1 hW).2⟩

theorem of_eq {α β : Type} {R : Shape p α β} {a : α} {r r' : β} (h : Knows Γ R a r) (e : r = r') :
    Knows Γ R a r' := e ▸ h

end Knows

namespace Tells

variable {Γ : Ctx p}

theorem of_eq {α β : Type} {R : Shape p α β} {m : B p α} {e e' : Option (β × Bool)}
    (h : Tells Γ m e R) (he : e = e') : Tells Γ m e' R := he ▸ h

theorem edwardsNew (C : EdwardsCurve p) {x y : Expression p} {a b : Elem p}
    (hx : Knows Γ .expr x a) (hy : Knows Γ .expr y b) :
    Tells Γ (EdwardsExpression.new C x y) (some ((a, b), decide (OnCurve C.a C.d a b))) .point := by
  unfold EdwardsExpression.new
  refine (product hx hx).seq (fun _ => (Tidy.product _ _).bind fun _ => (Tidy.product _ _).bind
    fun _ => (Tidy.assertEqual _ _).bind fun _ => Tidy.pure _) fun Δ1 xx l1 k1 => ?_
  refine (product (hy.later l1) (hy.later l1)).seq (fun _ => (Tidy.product _ _).bind
    fun _ => (Tidy.assertEqual _ _).bind fun _ => Tidy.pure _) fun Δ2 yy l2 k2 => ?_
  refine (product (k1.later l2) k2).seq (fun _ => (Tidy.assertEqual _ _).bind fun _ => Tidy.pure _)
    fun Δ3 t l3 k3 => ?_
  have hx' := hx.later (l1.trans (l2.trans l3))
  have hy' := hy.later (l1.trans (l2.trans l3))
  refine (map (S := .point) (f := fun _ => ⟨x, y⟩) (g := fun _ => (a, b)) (assertEqual
    (((k1.later (l2.trans l3)).scale C.a).add (k2.later l3)) ((k3.scale C.d).add .one))
    (fun n _ hn _ => ⟨hx'.within.mono hn, hy'.within.mono hn⟩)
    (fun W _ _ h1 hW _ => ⟨hx'.rel W h1 hW, hy'.rel W h1 hW⟩)).of_eq ?_
  show some ((a, b), decide _) = some ((a, b), decide _)
  congr 2
  rw [decide_eq_decide]
  unfold OnCurve
  constructor
  · intro h; linear_combination h
  · intro h; linear_combination h

theorem edwardsAdd (h2 : 2 < p) (C : EdwardsCurve p) {P Q : EdwardsExpression p}
    {u v : Elem p × Elem p} (hP : Knows Γ .point P u) (hQ : Knows Γ .point Q v) :
    Tells Γ (EdwardsGroup.addExpressions C P Q) ((pointSum C u v).map fun r => (r, true)) .point := by
  unfold EdwardsGroup.addExpressions
  refine (product hP.fst hQ.snd).seq (fun _ =>
    .bind (.product _ _) fun _ => .bind (.product _ _) fun _ =>
    .bind (.product _ _) fun _ => .bind (.product _ _) fun _ => .bind (.quotientUnsafe _ _) fun _ =>
    .bind (.quotientUnsafe _ _) fun _ => .pure _) fun Δ1 z1 l1 k1 => ?_
  replace hP := hP.later l1; replace hQ := hQ.later l1
  refine (product hP.snd hQ.fst).seq (fun _ =>
    .bind (.product _ _) fun _ =>
    .bind (.product _ _) fun _ => .bind (.product _ _) fun _ => .bind (.quotientUnsafe _ _) fun _ =>
    .bind (.quotientUnsafe _ _) fun _ => .pure _) fun Δ2 z2 l2 k2 => ?_
  replace hP := hP.later l2; replace hQ := hQ.later l2; replace k1 := k1.later l2
  refine (product hP.fst hQ.fst).seq (fun _ =>
    .bind (.product _ _) fun _ => .bind (.product _ _) fun _ => .bind (.quotientUnsafe _ _) fun _ =>
    .bind (.quotientUnsafe _ _) fun _ => .pure _) fun Δ3 z3 l3 k3 => ?_
  replace hP := hP.later l3; replace hQ := hQ.later l3; replace k1 := k1.later l3
  replace k2 := k2.later l3
  refine (product k1 k2).seq (fun _ =>
    .bind (.product _ _) fun _ => .bind (.quotientUnsafe _ _) fun _ =>
    .bind (.quotientUnsafe _ _) fun _ => .pure _) fun Δ4 z4 l4 k4 => ?_
  replace hP := hP.later l4; replace hQ := hQ.later l4; replace k1 := k1.later l4
  replace k2 := k2.later l4; replace k3 := k3.later l4
  refine (product hP.snd hQ.snd).seq (fun _ => .bind (.quotientUnsafe _ _) fun _ =>
    .bind (.quotientUnsafe _ _) fun _ => .pure _) fun Δ5 z5 l5 k5 => ?_
  replace k1 := k1.later l5; replace k2 := k2.later l5; replace k3 := k3.later l5
  replace k4 := k4.later l5
  have e1 : 1 + C.d * u.1 * v.1 * u.2 * v.2 = u.1 * v.2 * (u.2 * v.1) * C.d + 1 := by ring
  have e2 : 1 - C.d * u.1 * v.1 * u.2 * v.2 = u.1 * v.2 * (u.2 * v.1) * -C.d + 1 := by ring
  refine (quotientUnsafe h2 (k1.add k2) ((k4.scale C.d).add .one)).bind (fun _ =>
    .bind (.quotientUnsafe _ _) fun _ => .pure _) (fun h => ?_) fun r h Δ6 z6 l6 k6 => ?_
  · unfold pointSum
    rw [if_pos]; · rfl
    left
    rw [e1]
    by_contra hc
    rw [if_neg hc] at h
    cases h
  have d1 : 1 + C.d * u.1 * v.1 * u.2 * v.2 ≠ 0 := by
    intro hc
    rw [e1] at hc
    rw [if_pos hc] at h
    cases h
  have r1 : r = sumX C.d u.1 u.2 v.1 v.2 := by
    rw [e1] at d1
    rw [if_neg d1] at h
    unfold sumX
    rw [e1, ← Option.some.inj h]
  replace k3 := k3.later l6
  replace k4 := k4.later l6; replace k5 := k5.later l6
  refine (quotientUnsafe h2 (k5.sub (k3.scale C.a)) ((k4.scale (-C.d)).add .one)).bind (fun _ =>
    .pure _) (fun h => ?_) fun r' h Δ7 z7 l7 k7 => ?_
  · unfold pointSum
    rw [if_pos]; · rfl
    right
    rw [e2]
    by_contra hc
    rw [if_neg hc] at h
    cases h
  have d2 : 1 - C.d * u.1 * v.1 * u.2 * v.2 ≠ 0 := by
    intro hc
    rw [e2] at hc
    rw [if_pos hc] at h
    cases h
  have r2 : r' = sumY C.a C.d u.1 u.2 v.1 v.2 := by
    rw [e2] at d2
    rw [if_neg d2] at h
    unfold sumY
    rw [e2, ← Option.some.inj h]
    congr 1; ring
  refine (pure ((k6.later l7).point k7)).of_eq ?_
  unfold pointSum
  rw [if_neg (by rintro (h | h) <;> contradiction), r1, r2]
  rfl

theorem ofNat?_two (h2 : 2 < p) : Elem.ofNat? p 2 = some (2 : Elem p) := by
  rw [Elem.ofNat?_eq_some h2, Elem.mk_eq_natCast]
  rfl

theorem edwardsDouble (h2 : 2 < p) (C : EdwardsCurve p) {P : EdwardsExpression p}
    {u : Elem p × Elem p} (hP : Knows Γ .point P u) :
    Tells Γ (EdwardsGroup.doubleExpression C P) ((pointDouble C u).map fun r => (r, true))
      .point := by
  unfold EdwardsGroup.doubleExpression
  refine (product hP.fst hP.snd).seq (fun _ =>
    .bind (.product _ _) fun _ => .bind (.product _ _) fun _ => .bind (.ofOption _) fun _ =>
    .bind (.quotientUnsafe _ _) fun _ => .bind (.ofOption _) fun _ =>
    .bind (.quotientUnsafe _ _) fun _ => .pure _) fun Δ1 z1 l1 k1 => ?_
  replace hP := hP.later l1
  refine (product hP.fst hP.fst).seq (fun _ =>
    .bind (.product _ _) fun _ => .bind (.ofOption _) fun _ =>
    .bind (.quotientUnsafe _ _) fun _ => .bind (.ofOption _) fun _ =>
    .bind (.quotientUnsafe _ _) fun _ => .pure _) fun Δ2 z2 l2 k2 => ?_
  replace hP := hP.later l2; replace k1 := k1.later l2
  refine (product hP.snd hP.snd).seq (fun _ =>
    .bind (.ofOption _) fun _ =>
    .bind (.quotientUnsafe _ _) fun _ => .bind (.ofOption _) fun _ =>
    .bind (.quotientUnsafe _ _) fun _ => .pure _) fun Δ3 z3 l3 k3 => ?_
  replace k1 := k1.later l3; replace k2 := k2.later l3
  refine ofOption_bind (ofNat?_two h2) ?_
  have e1 : C.a * u.1 ^ 2 + u.2 ^ 2 = u.1 * u.1 * C.a + u.2 * u.2 := by ring
  have e2 : 2 - (C.a * u.1 ^ 2 + u.2 ^ 2) = -(u.1 * u.1) * C.a - u.2 * u.2 + 2 := by ring
  refine (quotientUnsafe h2 (k1.scale 2) ((k2.scale C.a).add k3)).bind (fun _ =>
    .bind (.ofOption _) fun _ =>
    .bind (.quotientUnsafe _ _) fun _ => .pure _) (fun h => ?_) fun r h Δ6 z6 l6 k6 => ?_
  · unfold pointDouble
    rw [if_pos]; · rfl
    left
    rw [e1]
    by_contra hc
    rw [if_neg hc] at h
    cases h
  have d1 : C.a * u.1 ^ 2 + u.2 ^ 2 ≠ 0 := by
    intro hc
    rw [e1] at hc
    rw [if_pos hc] at h
    cases h
  have r1 : r = 2 * u.1 * u.2 / (C.a * u.1 ^ 2 + u.2 ^ 2) := by
    rw [e1] at d1
    rw [if_neg d1] at h
    rw [e1, ← Option.some.inj h]
    congr 1; ring
  replace k2 := k2.later l6; replace k3 := k3.later l6
  have ht : (Expression.ofNat? 2 : Option (Expression p)) = some (Expression.ofElem 2) := by
    unfold Expression.ofNat?
    rw [ofNat?_two h2]; rfl
  refine ofOption_bind ht ?_
  refine (quotientUnsafe h2 (k3.sub (k2.scale C.a)) (((k2.neg.scale C.a).sub k3).add
    (.const 2))).bind (fun _ => .pure _) (fun h => ?_) fun r' h Δ7 z7 l7 k7 => ?_
  · unfold pointDouble
    rw [if_pos]; · rfl
    right
    rw [e2]
    by_contra hc
    rw [if_neg hc] at h
    cases h
  have d2 : 2 - (C.a * u.1 ^ 2 + u.2 ^ 2) ≠ 0 := by
    intro hc
    rw [e2] at hc
    rw [if_pos hc] at h
    cases h
  have r2 : r' = (u.2 ^ 2 - C.a * u.1 ^ 2) / (2 - (C.a * u.1 ^ 2 + u.2 ^ 2)) := by
    rw [e2] at d2
    rw [if_neg d2] at h
    rw [e2, ← Option.some.inj h]
    congr 1; ring
  refine (pure ((k6.later l7).point k7)).of_eq ?_
  unfold pointDouble
  rw [if_neg (by rintro (h | h) <;> contradiction), r1, r2]
  rfl

theorem split {k : Expression p} {a : Elem p} (hk : Knows Γ .expr k a) :
    Tells Γ (B.splitAllowingAmbiguity k) (some (bitsOf (Elem.maxBits p) a.n, true)) .bin :=
  of_comp (Tidy.splitAllowingAmbiguity k) fun s hn hP => by
    refine (Comp.splitAllowingAmbiguity (by rw [hn]; exact hk.within)).mono
      fun z t _ ⟨h1, h2, h3, h4, h5⟩ => ⟨h1, h2, ?_⟩
    rw [hk.eval hP] at h5
    show (z.bits.map fun b => b.eval t.W) = _
    rw [bin_of_val h3, h4, h5]

theorem compress (h : PairHash p) {x y : Expression p} {a b : Elem p} (hx : Knows Γ .expr x a)
    (hy : Knows Γ .expr y b) : Tells Γ (h.code.compress x y) (some (h.value a b, true)) .expr :=
  of_comp (h.tidy x y) fun s hn hP => by
    refine (h.complete s x y (by rw [hn]; exact hx.within) (by rw [hn]; exact hy.within)).comp.mono
      fun z t _ ⟨h1, h2, h3⟩ => ⟨h1, h2, ?_⟩
    rw [hx.eval hP, hy.eval hP] at h3
    exact h3

theorem _root_.R1CS.EdwardsGroup.mulBoolean_eq (C : EdwardsCurve p) (P : EdwardsExpression p)
    (b : BooleanExpression p) : (EdwardsGroup.ops C).mulBooleanExpression P b = (do
      let x ← B.selection b P.x (Expression.ofElem 0)
      let y ← B.selection b P.y (Expression.ofElem 1)
      return ⟨x, y⟩) := by
  unfold GroupOps.mulBooleanExpression
  rw [EdwardsGroup.identityElement_eq C]
  have h : ∀ {α : Type} (a : α), (B.ofOption (some a) : B p α) = Pure.pure a := fun _ => rfl
  simp only [h, pure_bind, EdwardsGroup.ops, EdwardsExpression.toComponents, GroupOps.selectAll,
    bind_assoc, EdwardsExpression.ofComponents, EdwardsExpression.ofPoint]

theorem mulBoolean (C : EdwardsCurve p) {P : EdwardsExpression p} {u : Elem p × Elem p}
    {b : BooleanExpression p} {c : Bool} (hP : Knows Γ .point P u) (hb : Knows Γ .bool b c) :
    Tells Γ ((EdwardsGroup.ops C).mulBooleanExpression P b)
      (some (if c then u else (0, 1), true)) .point := by
  rw [EdwardsGroup.mulBoolean_eq]
  refine (selection hb hP.fst (.const 0)).seq (fun _ => .bind (.selection _ _ _) fun _ => .pure _)
    fun Δ1 x l1 k1 => ?_
  refine (selection (hb.later l1) (hP.later l1).snd (.const 1)).seq (fun _ => .pure _)
    fun Δ2 y l2 k2 => ?_
  refine (pure ((k1.later l2).point k2)).of_eq ?_
  cases c <;> rfl

theorem mulLoop (h2 : 2 < p) (C : EdwardsCurve p) : ∀ (bits : List (BooleanExpression p))
    (l : List Bool) {Γ : Ctx p} {S P : EdwardsExpression p} {u v : Elem p × Elem p},
    List.Forall₂ (Knows Γ .bool) bits l → Knows Γ .point S u → Knows Γ .point P v →
    Tells Γ ((EdwardsGroup.ops C).mulLoop bits S P) ((pointLadder C l u v).map fun r => (r, true))
      .point
  | [], [], _, _, _, _, _, _, hS, _ => pure hS
  | b :: bits, c :: l, Γ, S, P, u, v, .cons hb hbs, hS, hP => by
    unfold GroupOps.mulLoop
    refine (mulBoolean C hP hb).seq (fun _ => .bind (.edwardsAdd C _ _) fun _ =>
      .bind (.edwardsDouble C _) fun _ => .mulLoop (.edwardsAdd C) (.edwardsDouble C) _ _ _)
      fun Δ1 T l1 k1 => ?_
    refine (edwardsAdd h2 C (hS.later l1) k1).bind (fun _ =>
      .bind (.edwardsDouble C _) fun _ => .mulLoop (.edwardsAdd C) (.edwardsDouble C) _ _ _)
      (fun h => ?_) fun r1 e1 Δ2 S' l2 k2 => ?_
    · unfold pointLadder
      rw [h]; rfl
    refine (edwardsDouble h2 C (hP.later (l1.trans l2))).bind (fun _ =>
      .mulLoop (.edwardsAdd C) (.edwardsDouble C) _ _ _)
      (fun h => ?_) fun r2 e2 Δ3 P' l3 k3 => ?_
    · unfold pointLadder
      rw [e1, h]; rfl
    refine (mulLoop h2 C bits l (hbs.imp fun _ _ h => h.later (l1.trans (l2.trans l3)))
      (k2.later l3) k3).of_eq ?_
    conv_rhs => unfold pointLadder
    rw [e1, e2]; rfl

theorem bits {Γ : Ctx p} {e : BinaryExpression p} {l : List Bool} (h : Knows Γ .bin e l)
    (hne : ∃ W, W ONE = 1 ∧ Γ.P W) : List.Forall₂ (Knows Γ .bool) e.bits l := by
  obtain ⟨W0, g1, g2⟩ := hne
  have hlen : e.bits.length = l.length := by
    simpa using congrArg List.length (h.rel W0 g1 g2)
  rw [List.forall₂_iff_get]
  refine ⟨hlen, fun i h1 h2 => ⟨h.within _ (List.getElem_mem _), fun W k1 k2 => ?_⟩⟩
  have := List.getElem_of_eq (h.rel W k1 k2) (i := i) (by simpa using h1)
  simpa using this

theorem mulScalar (h2 : 2 < p) (C : EdwardsCurve p) {P : EdwardsExpression p} {u : Elem p × Elem p}
    {k : Expression p} {a : Elem p} (hP : Knows Γ .point P u) (hk : Knows Γ .expr k a) :
    Tells Γ ((EdwardsGroup.ops C).mulScalarExpression P k)
      ((pointMultiple C a u).map fun r => (r, true)) .point := by
  unfold GroupOps.mulScalarExpression
  refine (split hk).seq (fun _ => .bind (.ofOption _) fun _ =>
    .mulLoop (.edwardsAdd C) (.edwardsDouble C) _ _ _) fun Δ e l1 k1 => ?_
  refine ofOption_bind (EdwardsGroup.identityElement_eq C) ?_
  by_cases hne : ∃ W, W ONE = 1 ∧ Δ.P W
  · exact mulLoop h2 C _ _ (bits k1 hne) (Knows.point (.const 0) (.const 1)) (hP.later l1)
  · exact vacuous (.mulLoop (.edwardsAdd C) (.edwardsDouble C) _ _ _)
      fun W g1 g2 => hne ⟨W, g1, g2⟩

theorem schnorr (h2 : 2 < p) (C : EdwardsCurve p) (G : EdwardsPoint p) (h : PairHash p)
    {σ : SignatureExpression p} {m : Expression p} {Y : EdwardsExpression p} {s e c : Elem p}
    {u : Elem p × Elem p} (hs : Knows Γ .expr σ.s s) (he : Knows Γ .expr σ.e e)
    (hm : Knows Γ .expr m c) (hY : Knows Γ .point Y u) :
    Tells Γ (schnorrVerify (cyclicSubgroup (EdwardsGroup.ops C) (some G)) h.code σ m Y)
      ((signatureCheck C (G.x, G.y) h.value s e c u).map fun b => ((), b)) .unit := by
  unfold schnorrVerify
  refine ofOption_bind (a := EdwardsExpression.ofPoint G) rfl ?_
  have hG : Knows Γ .point (EdwardsExpression.ofPoint G) (G.x, G.y) := .point (.const _) (.const _)
  have ha := Tidy.edwardsAdd C
  have hd := Tidy.edwardsDouble C
  refine (mulScalar h2 C hG hs).bind (fun _ => .bind (.mulScalar ha hd _ _) fun _ =>
    .bind (ha _ _) fun _ => .bind (h.tidy _ _) fun _ => .assertEqual _ _)
    (fun hn => by unfold signatureCheck; rw [hn]; rfl) fun Q e1 Δ1 gs l1 k1 => ?_
  refine (mulScalar h2 C (hY.later l1) (he.later l1)).bind (fun _ =>
    .bind (ha _ _) fun _ => .bind (h.tidy _ _) fun _ => .assertEqual _ _)
    (fun hn => by unfold signatureCheck; rw [e1, hn]; rfl) fun R e2 Δ2 ye l2 k2 => ?_
  refine (edwardsAdd h2 C (k1.later l2) k2).bind (fun _ => .bind (h.tidy _ _) fun _ =>
    .assertEqual _ _) (fun hn => by
      unfold signatureCheck; rw [e1, e2]; show Option.map _ (pointSum C Q R >>= _) = _
      rw [hn]; rfl) fun T e3 Δ3 t l3 k3 => ?_
  refine (compress h k3.snd (hm.later (l1.trans (l2.trans l3)))).seq (fun _ => .assertEqual _ _)
    fun Δ4 z l4 k4 => ?_
  refine (assertEqual k4 (he.later (l1.trans (l2.trans (l3.trans l4))))).of_eq ?_
  unfold signatureCheck
  rw [e1, e2]
  show _ = Option.map _ (pointSum C Q R >>= _)
  rw [e3]; rfl

theorem merkleRoot (h : PairHash p) {x : Expression p} {a : Elem p} {e : BinaryExpression p}
    {l : List Bool} {xs : List (Expression p)} {as : List (Elem p)} (hx : Knows Γ .expr x a)
    (he : Knows Γ .bin e l) (hxs : List.Forall₂ (Knows Γ .expr) xs as) :
    Tells Γ (B.merkleTreeRoot x ⟨e, xs⟩ h.code)
      (some (pathRoot h.value (l.zip as) a, true)) .expr :=
  of_comp (Tidy.merkleTreeLoop h.tidy _ _) fun s hn hP => by
    have hsc : ListScoped s.next xs := by
      intro y hy
      obtain ⟨i, hi, rfl⟩ := List.getElem_of_mem hy
      rw [hn]
      exact (List.forall₂_iff_get.1 hxs).2 i hi (by rw [← hxs.length_eq]; exact hi) |>.within
    refine (Comp.merkleTreeLoop h.complete _ _ l (by rw [hn]; exact he.within) hsc
      (by rw [hn]; exact hx.within) (he.rel _ s.ok.one hP)).mono
      fun z t _ ⟨h1, h2, h3⟩ => ⟨h1, h2, ?_⟩
    have hv : values s.W xs = as := by
      refine List.ext_getElem (by simp [values, hxs.length_eq]) fun i g1 g2 => ?_
      have := ((List.forall₂_iff_get.1 hxs).2 i (by simpa [values] using g1) g2).eval hP
      simpa [values] using this
    rw [hx.eval hP, hv] at h3
    exact h3

theorem membership (h : PairHash p) {x r : Expression p} {a b : Elem p} {e : BinaryExpression p}
    {l : List Bool} {xs : List (Expression p)} {as : List (Elem p)} (hx : Knows Γ .expr x a)
    (hr : Knows Γ .expr r b) (he : Knows Γ .bin e l) (hxs : List.Forall₂ (Knows Γ .expr) xs as) :
    Tells Γ (B.assertMerkleTreeMembership x r ⟨e, xs⟩ h.code)
      (some ((), decide (b = pathRoot h.value (l.zip as) a))) .unit := by
  unfold B.assertMerkleTreeMembership
  exact (merkleRoot h hx he hxs).seq (fun _ => .assertEqual _ _) fun Δ z l1 k1 =>
    assertEqual (hr.later l1) k1

end Tells

end R1CS
