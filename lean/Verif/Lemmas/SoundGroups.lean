import Verif.Spec.SoundGroups
import Verif.Lemmas.CurvesForge
import Verif.Lemmas.Relations

/-!
# Scalar multiplication and signatures in groups with constrained operations
-/

set_option linter.unusedSectionVars false

namespace R1CS

variable {p : ℕ} [hp : Fact p.Prime]

open Edwards Expression

variable {GE GX : Type} {G : GroupOps p GE GX} {M : Type} [AddCommGroup M]
  {coords : M → List (Elem p)}

namespace GroupOps

theorem At.leWit {s s' : Wit p} (h : s.Le s') {x : GX} {cs : List (Elem p)}
    (hx : G.At s.toHon x cs) : G.At s'.toHon x cs := by
  refine ⟨fun c hm => (hx.1 c hm).mono h.1, ?_⟩
  rw [← hx.2]
  exact List.map_congr_left fun c hm => h.eval (hx.1 c hm)

theorem At.ofHon {t : Hon p} {s : Wit p} (hn : t.next = s.next) (hW : t.W = s.W) {x : GX}
    {cs : List (Elem p)} (hx : G.At t x cs) : G.At s.toHon x cs := by
  refine ⟨fun c hm => ?_, ?_⟩
  · have := hx.1 c hm
    rw [hn] at this
    exact this
  · have := hx.2
    rw [hW] at this
    exact this

/-- Selecting between coordinates. -/
theorem enforces_selectAll (b : BooleanExpression p) : ∀ xs is : List (Expression p),
    Enforces (selectAll b xs is) fun zs w => xs.length = is.length →
      (b.eval w = 1 → values w zs = values w xs) ∧ (b.eval w = 0 → values w zs = values w is)
  | [], [] => Enforces.pure fun w _ _ => ⟨fun _ => rfl, fun _ => rfl⟩
  | [], _ :: _ => Enforces.pure fun w _ h => by simp at h
  | _ :: _, [] => Prog.enforces .panic |>.mono fun _ w _ _ h => by simp at h
  | x :: xs, i :: is => by
    unfold selectAll
    refine (Enforces.selection b x i).bind fun r => (enforces_selectAll b xs is).bind fun rs =>
      Enforces.pure fun w _ h2 h1 hl => ?_
    obtain ⟨h3, h4⟩ := h2 (by simpa using hl)
    constructor
    · intro hb
      change r.eval w :: values w rs = x.eval w :: values w xs
      rw [h3 hb, h1, hb]
      congr 1
      ring
    · intro hb
      change r.eval w :: values w rs = i.eval w :: values w is
      rw [h4 hb, h1, hb]
      congr 1
      ring

/-- Multiplication by a boolean. -/
theorem enforces_mulBoolean (hG : EnforcesGroup G M coords) (x : GX) (b : BooleanExpression p) :
    Enforces (G.mulBooleanExpression x b) fun z w => IsBool (b.eval w) → ∀ P,
      values w (G.toComponents x) = coords P →
      values w (G.toComponents z) = coords ((b.eval w).n • P) := by
  unfold mulBooleanExpression
  refine (Enforces.ofOption (Q := fun i w => w ONE = 1 → values w (G.toComponents i) = coords 0)
    fun i h w _ => hG.identity i h w).bind fun i => ?_
  refine (enforces_selectAll b _ _).bind fun r => ?_
  refine (Enforces.ofOption (Q := fun z _ => G.ofComponents r = some z) fun a h _ _ => h).mono
    fun z w h1 hz hr hi hb P hx => ?_
  have hi := hi h1
  have lx := congrArg List.length hx
  have li := congrArg List.length hi
  rw [List.length_map] at lx li
  obtain ⟨ht, hf⟩ := hr (by rw [lx, li]; exact hG.length _ _)
  have hv : values w r = coords ((b.eval w).n • P) := by
    rcases hb with h | h
    · rw [hf h, hi, h]
      change _ = coords ((0 : ℕ) • P)
      rw [zero_smul]
    · rw [ht h, hx, h]
      change _ = coords ((1 : ℕ) • P)
      rw [one_smul]
  have hl : r.length = (coords P).length := by
    have := congrArg List.length hv
    rw [List.length_map] at this
    rw [this]
    exact hG.length _ _
  rw [hG.rebuild P r z hl hz]
  exact hv

/-- The double-and-add loop. -/
theorem enforces_mulLoop (hG : EnforcesGroup G M coords) :
    ∀ (bits : List (BooleanExpression p)) (sum cur : GX),
    Enforces (G.mulLoop bits sum cur) fun z w => (∀ b ∈ bits, IsBool (b.eval w)) → ∀ S P,
      values w (G.toComponents sum) = coords S → values w (G.toComponents cur) = coords P →
      values w (G.toComponents z) = coords (S + BinaryExpression.val w ⟨bits⟩ • P)
  | [], sum, cur => by
    unfold mulLoop
    refine Enforces.pure fun w _ _ S P hs _ => ?_
    change _ = coords (S + 0 • P)
    rw [zero_smul, add_zero]
    exact hs
  | b :: bits, sum, cur => by
    unfold mulLoop
    refine (enforces_mulBoolean hG cur b).bind fun pr => (hG.add sum pr).bind fun sum' =>
      (hG.double cur).bind fun cur' => (enforces_mulLoop hG bits sum' cur').mono
      fun z w _ h4 h3 h2 h1 hb S P hs hc => ?_
    have e1 := h1 (hb b (by simp)) P hc
    have e2 := h2 S _ hs e1
    have e3 := h3 P hc
    have e4 := h4 (fun c hm => hb c (by simp [hm])) _ _ e2 e3
    have hv : BinaryExpression.val w ⟨b :: bits⟩ =
        (b.eval w).n + 2 * BinaryExpression.val w ⟨bits⟩ := rfl
    rw [hv, add_smul, mul_comm, mul_smul, two_smul, ← add_assoc]
    exact e4

/-- Scalar multiplication. -/
theorem enforces_mulScalar (hG : EnforcesGroup G M coords) (x : GX) (k : Expression p) :
    Enforces (G.mulScalarExpression x k) fun z w => ∀ P, values w (G.toComponents x) = coords P →
      ∃ n : ℕ, (n = (k.eval w).n ∨ n = (k.eval w).n + p) ∧ n < 2 ^ Elem.maxBits p ∧
        values w (G.toComponents z) = coords (n • P) := by
  unfold mulScalarExpression
  refine (Enforces.splitAllowingAmbiguity k).bind fun e => (Enforces.ofOption
    (Q := fun i w => w ONE = 1 → values w (G.toComponents i) = coords 0)
    fun i h w _ => hG.identity i h w).bind fun i => (enforces_mulLoop hG _ _ _).mono
    fun z w h1 hz hi ⟨hb, hl, hv⟩ P hx => ⟨e.val w, hv, ?_, ?_⟩
  · rw [← hl]
    exact hb.val_lt
  · have := hz hb 0 P (hi h1) hx
    rwa [zero_add] at this

end GroupOps

/-- Verification of signatures. -/
theorem enforces_schnorrVerify {C : CyclicGroupOps p GE GX}
    (hG : EnforcesGroup C.toGroupOps M coords) {g : M}
    (hg : ∀ e, C.generatorExpression = some e → ∀ w : Assign p, w ONE = 1 →
      values w (C.toComponents e) = coords g)
    {c : CompressionFunction p} {h : Elem p → Elem p → Elem p} (hc : Enforced2 c.compress h)
    {κ : M → Elem p} (hκ : ∀ (w : Assign p) x P, values w (C.toComponents x) = coords P →
      (C.compressed x).eval w = κ P)
    (σ : SignatureExpression p) (m : Expression p) (pk : GX) :
    Enforces (schnorrVerify C c σ m pk) fun _ w => ∀ Y, values w (C.toComponents pk) = coords Y →
      ∃ s e : ℕ, (s = (σ.s.eval w).n ∨ s = (σ.s.eval w).n + p) ∧ s < 2 ^ Elem.maxBits p ∧
        (e = (σ.e.eval w).n ∨ e = (σ.e.eval w).n + p) ∧ e < 2 ^ Elem.maxBits p ∧
        h (κ (s • g + e • Y)) (m.eval w) = σ.e.eval w := by
  unfold schnorrVerify
  refine (Enforces.ofOption
    (Q := fun i w => w ONE = 1 → values w (C.toComponents i) = coords g)
    fun i h w _ => hg i h w).bind fun i => (GroupOps.enforces_mulScalar hG i σ.s).bind fun gs =>
    (GroupOps.enforces_mulScalar hG pk σ.e).bind fun ye => (hG.add gs ye).bind fun r =>
    (hc _ _).bind fun z => (Enforces.assertEqual z σ.e).mono
    fun _ w h1 h7 h6 h5 h4 h3 h2 Y hY => ?_
  obtain ⟨s, hs, ls, vs⟩ := h3 g (h2 h1)
  obtain ⟨e, he, le, ve⟩ := h4 Y hY
  refine ⟨s, e, hs, ls, he, le, ?_⟩
  rw [← hκ w r _ (h5 _ _ vs ve), ← h6, h7]

/-- Either representation of the scalar can be used. -/
theorem GroupOps.can_mulScalar_any {element : M → GE} (hG : ComputesGroup G M coords element)
    (ha : ∀ x y, Prog (G.addExpressions x y)) (hd : ∀ x, Prog (G.doubleExpression x))
    {s : Wit p} {x : GX} {P : M} {k : Expression p}
    (hx : G.At s.toHon x (coords P)) (hk : k.Scoped s.next) {n : ℕ}
    (hn : n = (k.eval s.W).n ∨ n = (k.eval s.W).n + p) (hfit : n < 2 ^ Elem.maxBits p) :
    Can (G.mulScalarExpression x k) s fun z s' => G.At s'.toHon z (coords (n • P)) := by
  unfold GroupOps.mulScalarExpression B.splitAllowingAmbiguity
  have hc : k.eval s.W = ((n : ℕ) : Elem p) := by
    have h0 : ((p : ℕ) : Elem p) = 0 := by
      refine Elem.ext_n ?_
      rw [Elem.natCast_n, Nat.mod_self]; rfl
    rcases hn with rfl | rfl
    · rw [Elem.natCast_self_n]
    · rw [Nat.cast_add, Elem.natCast_self_n, h0, add_zero]
  refine (Can.splitWithoutRangeCheck hk le_rfl hfit hc).bind fun e s1 l1 ⟨c1, b1, _, v1⟩ => ?_
  obtain ⟨i, hi, hat⟩ := GroupOps.identity_at hG s1.toHon
  refine Can.ofOption_bind hi ?_
  refine (Can.ofComp (GroupOps.prog_mulLoop ha hd _ _ _)
    (GroupOps.comp_mulLoop hG hat (hx.leWit l1) c1 b1)).mono fun z t _ ⟨u, hu, hW, _, a⟩ => ?_
  have hv : BinaryExpression.val s1.toHon.W ⟨e.bits⟩ = n := v1
  rw [hv, zero_add] at a
  exact a.ofHon hu hW

/-- The constraints of `verify` can be satisfied if the hash is right for some representations. -/
theorem can_schnorrVerify_any {C : CyclicGroupOps p GE GX} {element : M → GE}
    (hG : ComputesGroup C.toGroupOps M coords element)
    (ha : ∀ x y, Prog (C.addExpressions x y)) (hd : ∀ x, Prog (C.doubleExpression x)) {g Y : M}
    (hg : C.generatorElement = some (element g)) {c : CompressionFunction p}
    {h : Elem p → Elem p → Elem p} (hc : Computed2 c.compress h)
    (hprog : ∀ x y, Prog (c.compress x y)) {κ : M → Elem p}
    (hκ : ∀ (s : Hon p) x P, C.At s x (coords P) →
      (C.compressed x).Scoped s.next ∧ (C.compressed x).eval s.W = κ P)
    {s : Wit p} {σ : SignatureExpression p} {m : Expression p} {pk : GX}
    (hs : σ.s.Scoped s.next) (he : σ.e.Scoped s.next) (hm : m.Scoped s.next)
    (hpk : C.At s.toHon pk (coords Y)) {a e : ℕ}
    (han : a = (σ.s.eval s.W).n ∨ a = (σ.s.eval s.W).n + p) (hal : a < 2 ^ Elem.maxBits p)
    (hen : e = (σ.e.eval s.W).n ∨ e = (σ.e.eval s.W).n + p) (hel : e < 2 ^ Elem.maxBits p)
    (hh : h (κ (a • g + e • Y)) (m.eval s.W) = σ.e.eval s.W) :
    Can (schnorrVerify C c σ m pk) s fun _ _ => True := by
  unfold schnorrVerify
  have hge : C.generatorExpression = some (C.ofElement (element g)) := by
    unfold CyclicGroupOps.generatorExpression
    rw [hg]
    rfl
  refine Can.ofOption_bind hge ?_
  have hat : C.At s.toHon (C.ofElement (element g)) (coords g) := by
    refine ⟨?_, ?_⟩
    · rw [hG.components]
      exact .map_ofElem s.pos _
    · rw [hG.components, values_ofElem s.toHon.one]
  refine (GroupOps.can_mulScalar_any hG ha hd hat hs han hal).bind fun gs s1 l1 a1 => ?_
  refine (GroupOps.can_mulScalar_any hG ha hd (hpk.leWit l1) (l1.scoped he) (n := e)
    (by rw [l1.eval he]; exact hen) hel).bind fun ye s2 l2 a2 => ?_
  refine (Can.ofComp (ha _ _) (hG.add s2.toHon gs ye _ _ (a1.leWit l2) a2).comp).bind
    fun r s3 l3 ⟨t, tn, tW, _, a3⟩ => ?_
  obtain ⟨c3, v3⟩ := hκ s3.toHon r _ (a3.ofHon tn tW)
  have l03 := (l1.trans l2).trans l3
  refine (Can.ofComp (hprog _ _) (hc.comp (s := s3.toHon) c3 (l03.scoped hm))).bind
    fun z s4 l4 ⟨t, tn, tW, _, hz, vz⟩ => ?_
  rw [tn] at hz
  rw [tW] at vz
  have l04 := l03.trans l4
  refine (Can.assertProduct hz (.one s4.pos) (l04.scoped he) ?_).mono fun _ _ _ _ => trivial
  rw [Expression.eval_one s4.one, mul_one, vz, l04.eval he, ← hh, v3]
  change h _ (m.eval s3.W) = _
  rw [l03.eval hm]

/-! ## The field as a group -/

theorem fieldOps_enforces : EnforcesGroup (fieldOps p) (Elem p) fun x => [x] where
  length _ _ := rfl
  identity e he w h1 := by
    have : e = Expression.ofElem 0 := (Option.some.inj he).symm
    subst this
    change [(Expression.ofElem (0 : Elem p)).eval w] = _
    rw [eval_ofElem h1]
  rebuild P xs x hl hx := by
    match xs, hl with
    | [y], _ => rw [← Option.some.inj hx]; rfl
  add x y := Enforces.pure fun w _ P Q hx hy => by
    have hx' : x.eval w = P := List.singleton_inj.1 hx
    have hy' : y.eval w = Q := List.singleton_inj.1 hy
    change [(x + y).eval w] = [P + Q]
    rw [eval_add, hx', hy']
  double x := Enforces.pure fun w _ P hx => by
    have hx' : x.eval w = P := List.singleton_inj.1 hx
    change [(x + x).eval w] = [P + P]
    rw [eval_add, hx']

/-! ## Edwards curves with checked divisions -/

namespace EdwardsGroup

theorem enforces_checkedAdd (C : EdwardsCurve p) [Complete C.a C.d] (x y : EdwardsExpression p) :
    Enforces (checkedAdd C x y) fun z w => ∀ P Q : Point C.a C.d,
      values w x.toComponents = P.coords → values w y.toComponents = Q.coords →
      values w z.toComponents = (P + Q).coords := by
  unfold checkedAdd
  refine (Enforces.product _ _).bind fun e1 => (Enforces.product _ _).bind fun e2 =>
    (Enforces.product _ _).bind fun e3 => (Enforces.product _ _).bind fun e4 =>
    (Enforces.product _ _).bind fun e5 => (Enforces.quotient _ _).bind fun x3 =>
    (Enforces.quotient _ _).bind fun y3 => Enforces.pure
    fun w h1 hy hx v5 v4 v3 v2 v1 P Q hP hQ => ?_
  change [x.x.eval w, x.y.eval w] = [P.x, P.y] at hP
  change [y.x.eval w, y.y.eval w] = [Q.x, Q.y] at hQ
  simp only [List.cons.injEq, and_true] at hP hQ
  change [x3.eval w, y3.eval w] = [sumX C.d P.x P.y Q.x Q.y, sumY C.a C.d P.x P.y Q.x Q.y]
  rw [hx.2, hy.2]
  simp only [eval_add, eval_sub, eval_mulElem, eval_one h1]
  rw [v4, v5, v1, v2, v3, hP.1, hP.2, hQ.1, hQ.2]
  unfold sumX sumY
  congr 1
  · congr 1; ring
  · congr 2 <;> ring

theorem checkedOps_enforces (C : EdwardsCurve p) [Complete C.a C.d] :
    EnforcesGroup (checkedOps C) (Point C.a C.d) Point.coords where
  length _ _ := rfl
  identity e he w h1 := by
    have hn : EdwardsPoint.new C 0 1 = some ⟨0, 1⟩ := by
      unfold EdwardsPoint.new
      rw [if_pos (by ring)]
    have he' : (EdwardsPoint.new C 0 1).map EdwardsExpression.ofPoint = some e := he
    rw [hn] at he'
    have : e = EdwardsExpression.ofPoint ⟨0, 1⟩ := (Option.some.inj he').symm
    subst this
    change [(Expression.ofElem (0 : Elem p)).eval w, (Expression.ofElem (1 : Elem p)).eval w] = _
    rw [eval_ofElem h1, eval_ofElem h1]
    rfl
  rebuild P xs x hl hx := by
    match xs, hl with
    | [a, b], _ => rw [← Option.some.inj hx]; rfl
  add x y := enforces_checkedAdd C x y
  double x := (enforces_checkedAdd C x x).mono fun _ _ _ h P hx => h P P hx hx

theorem two_lt_of_complete (C : EdwardsCurve p) [hc : Complete C.a C.d] : 2 < p := by
  have := hp.out.two_le
  rcases Nat.lt_or_ge 2 p with h | h
  · exact h
  · exfalso
    apply hc.two_ne
    have : p = 2 := by omega
    subst this
    apply Elem.ext_n
    have := Elem.natCast_n (p := 2) 2
    simpa using this

theorem comp_checkedAdd (C : EdwardsCurve p) [Complete C.a C.d] {s : Hon p}
    {x y : EdwardsExpression p} {P Q : Point C.a C.d} (hP : (checkedOps C).At s x P.coords)
    (hQ : (checkedOps C).At s y Q.coords) :
    Comp (checkedAdd C x y) s fun z s' => s'.D = s.D ∧
      (checkedOps C).At s' z (P + Q).coords := by
  have h2 := two_lt_of_complete C
  obtain ⟨cx, vx⟩ := hP
  obtain ⟨cy, vy⟩ := hQ
  change [x.x.eval s.W, x.y.eval s.W] = [P.x, P.y] at vx
  change [y.x.eval s.W, y.y.eval s.W] = [Q.x, Q.y] at vy
  simp only [List.cons.injEq, and_true] at vx vy
  have xx : x.x.Scoped s.next := cx x.x (by change _ ∈ [x.x, x.y]; simp)
  have xy : x.y.Scoped s.next := cx x.y (by change _ ∈ [x.x, x.y]; simp)
  have yx : y.x.Scoped s.next := cy y.x (by change _ ∈ [y.x, y.y]; simp)
  have yy : y.y.Scoped s.next := cy y.y (by change _ ∈ [y.x, y.y]; simp)
  unfold checkedAdd
  refine (Comp.product xx yy).bind fun e1 s1 l1 ⟨D1, c1, v1⟩ => ?_
  refine (Comp.product (l1.scoped xy) (l1.scoped yx)).bind fun e2 s2 l2 ⟨D2, c2, v2⟩ => ?_
  have l02 := l1.trans l2
  refine (Comp.product (l02.scoped xx) (l02.scoped yx)).bind fun e3 s3 l3 ⟨D3, c3, v3⟩ => ?_
  have l03 := l02.trans l3
  have l13 := l2.trans l3
  refine (Comp.product (l13.scoped c1) (l3.scoped c2)).bind fun e4 s4 l4 ⟨D4, c4, v4⟩ => ?_
  have l04 := l03.trans l4
  refine (Comp.product (l04.scoped xy) (l04.scoped yy)).bind fun e5 s5 l5 ⟨D5, c5, v5⟩ => ?_
  have w1 : e1.eval s5.W = P.x * Q.y := by
    rw [(l13.trans (l4.trans l5)).eval c1, v1, vx.1, vy.2]
  have w2 : e2.eval s5.W = P.y * Q.x := by
    rw [(l3.trans (l4.trans l5)).eval c2, v2, l1.eval xy, l1.eval yx, vx.2, vy.1]
  have w3 : e3.eval s5.W = P.x * Q.x := by
    rw [(l4.trans l5).eval c3, v3, l02.eval xx, l02.eval yx, vx.1, vy.1]
  have w4 : e4.eval s5.W = P.x * Q.y * (P.y * Q.x) := by
    rw [l5.eval c4, v4, l13.eval c1, v1, vx.1, vy.2, l3.eval c2, v2, l1.eval xy, l1.eval yx,
      vx.2, vy.1]
  have w5 : e5.eval s5.W = P.y * Q.y := by
    rw [v5, l04.eval xy, l04.eval yy, vx.2, vy.2]
  have d4 := l5.scoped c4
  have hden1 : (e4.mulElem C.d + 1).eval s5.W = 1 + C.d * P.x * Q.x * P.y * Q.y := by
    rw [eval_add, eval_mulElem, eval_one s5.one, w4]
    ring
  have hden2 : (e4.mulElem (-C.d) + 1).eval s5.W = 1 - C.d * P.x * Q.x * P.y * Q.y := by
    rw [eval_add, eval_mulElem, eval_one s5.one, w4]
    ring
  have sc1 := ((l13.trans (l4.trans l5)).scoped c1).add ((l3.trans (l4.trans l5)).scoped c2)
  have sc2 : (e4.mulElem C.d + 1).Scoped s5.next := (d4.mulElem C.d).add (.one s5.pos)
  have sc3 := (c5).sub (((l4.trans l5).scoped c3).mulElem C.a)
  have sc4 : (e4.mulElem (-C.d) + 1).Scoped s5.next := (d4.mulElem (-C.d)).add (.one s5.pos)
  refine (Comp.quotient h2 sc1 sc2 (by rw [hden1]; exact plus_ne P.on Q.on)).bind
    fun x3 s6 l6 ⟨D6, c6, v6⟩ => ?_
  refine (Comp.quotient h2 (l6.scoped sc3) (l6.scoped sc4)
    (by rw [l6.eval sc4, hden2]; exact minus_ne P.on Q.on)).bind fun y3 s7 l7 ⟨D7, c7, v7⟩ =>
    Comp.pure ⟨by rw [D7, D6, D5, D4, D3, D2, D1], ?_, ?_⟩
  · intro e he
    change e ∈ [x3, y3] at he
    simp only [List.mem_cons, List.not_mem_nil, or_false] at he
    rcases he with rfl | rfl
    · exact l7.scoped c6
    · exact c7
  · change [x3.eval s7.W, y3.eval s7.W] = [sumX C.d P.x P.y Q.x Q.y, sumY C.a C.d P.x P.y Q.x Q.y]
    rw [l7.eval c6, v6, hden1, eval_add, w1, w2, v7, l6.eval sc3, l6.eval sc4, hden2, eval_sub,
      eval_mulElem, w5, w3]
    unfold sumX sumY
    congr 3
    ring

theorem checkedOps_computes (C : EdwardsCurve p) [Complete C.a C.d] :
    ComputesGroup (checkedOps C) (Point C.a C.d) Point.coords Point.toModel where
  length _ _ := rfl
  identity := by
    change EdwardsPoint.new C 0 1 = some ⟨0, 1⟩
    unfold EdwardsPoint.new
    rw [if_pos (by ring)]
  components _ := rfl
  rebuild P xs hl := by
    match xs, hl with
    | [x, y], _ => exact ⟨⟨x, y⟩, rfl, rfl⟩
  evaluate v W x P hv hx := by
    have h1 : x.x.eval W = P.x ∧ x.y.eval W = P.y := by
      change [x.x.eval W, x.y.eval W] = [P.x, P.y] at hx
      simpa using hx
    change EdwardsExpression.evaluate x v = _
    unfold EdwardsExpression.evaluate
    rw [Expression.evaluate_eq (w := W) (hv x.x (by change _ ∈ [x.x, x.y]; simp)),
      Expression.evaluate_eq (w := W) (hv x.y (by change _ ∈ [x.x, x.y]; simp)), h1.1, h1.2]
    rfl
  add _ _ _ _ _ hx hy := (comp_checkedAdd C hx hy).computes
  double _ _ _ hx := (comp_checkedAdd C hx hx).computes

theorem prog_checkedAdd (C : EdwardsCurve p) (x y : EdwardsExpression p) :
    Prog (checkedAdd C x y) :=
  .bind (.product _ _) fun _ => .bind (.product _ _) fun _ => .bind (.product _ _) fun _ =>
    .bind (.product _ _) fun _ => .bind (.product _ _) fun _ => .bind (.quotient _ _) fun _ =>
    .bind (.quotient _ _) fun _ => .pure _

end EdwardsGroup

end R1CS
