import Verif.Spec.Curves
import Verif.Lemmas.Edwards
import Verif.Lemmas.Traits
import Verif.Lemmas.Splitting

/-!
# Group gadgets
-/

set_option linter.unusedSectionVars false

namespace R1CS

variable {p : ℕ} [hp : Fact p.Prime]

open Expression (eval_add eval_sub eval_neg eval_ofWire eval_mulElem eval_one eval_ofElem)

/-! ## Edwards curves -/

namespace EdwardsGroup

/-- Addition computes the sum if the denominators do not vanish. -/
theorem comp_add (h2 : 2 < p) (C : EdwardsCurve p) {s : Hon p} {P Q : EdwardsExpression p}
    (hPx : P.x.Scoped s.next) (hPy : P.y.Scoped s.next) (hQx : Q.x.Scoped s.next)
    (hQy : Q.y.Scoped s.next)
    (hp' : 1 + C.d * P.x.eval s.W * Q.x.eval s.W * P.y.eval s.W * Q.y.eval s.W ≠ 0)
    (hm' : 1 - C.d * P.x.eval s.W * Q.x.eval s.W * P.y.eval s.W * Q.y.eval s.W ≠ 0) :
    Comp (addExpressions C P Q) s fun R s' => s'.D = s.D ∧ R.x.Scoped s'.next ∧
      R.y.Scoped s'.next ∧
      R.x.eval s'.W = Edwards.sumX C.d (P.x.eval s.W) (P.y.eval s.W) (Q.x.eval s.W)
        (Q.y.eval s.W) ∧
      R.y.eval s'.W = Edwards.sumY C.a C.d (P.x.eval s.W) (P.y.eval s.W) (Q.x.eval s.W)
        (Q.y.eval s.W) := by
  unfold addExpressions
  refine (Comp.product hPx hQy).bind fun e1 s1 l1 ⟨D1, c1, v1⟩ => ?_
  refine (Comp.product (l1.scoped hPy) (l1.scoped hQx)).bind fun e2 s2 l2 ⟨D2, c2, v2⟩ => ?_
  have l02 := l1.trans l2
  refine (Comp.product (l02.scoped hPx) (l02.scoped hQx)).bind fun e3 s3 l3 ⟨D3, c3, v3⟩ => ?_
  have l13 := l2.trans l3
  have l03 := l02.trans l3
  refine (Comp.product (l13.scoped c1) (l3.scoped c2)).bind fun e4 s4 l4 ⟨D4, c4, v4⟩ => ?_
  have l04 := l03.trans l4
  refine (Comp.product (l04.scoped hPy) (l04.scoped hQy)).bind fun e5 s5 l5 ⟨D5, c5, v5⟩ => ?_
  have l05 := l04.trans l5
  have w1 : e1.eval s5.W = P.x.eval s.W * Q.y.eval s.W := by
    rw [(l13.trans (l4.trans l5)).eval c1, v1]
  have w2 : e2.eval s5.W = P.y.eval s.W * Q.x.eval s.W := by
    rw [(l3.trans (l4.trans l5)).eval c2, v2, l1.eval hPy, l1.eval hQx]
  have w3 : e3.eval s5.W = P.x.eval s.W * Q.x.eval s.W := by
    rw [(l4.trans l5).eval c3, v3, l02.eval hPx, l02.eval hQx]
  have w4 : e4.eval s5.W = P.x.eval s.W * Q.y.eval s.W * (P.y.eval s.W * Q.x.eval s.W) := by
    rw [l5.eval c4, v4, l13.eval c1, v1, l3.eval c2, v2, l1.eval hPy, l1.eval hQx]
  have w5 : e5.eval s5.W = P.y.eval s.W * Q.y.eval s.W := by
    rw [v5, l04.eval hPy, l04.eval hQy]
  have d4 := l5.scoped c4
  have hden1 : (e4.mulElem C.d + 1).eval s5.W =
      1 + C.d * P.x.eval s.W * Q.x.eval s.W * P.y.eval s.W * Q.y.eval s.W := by
    rw [eval_add, eval_mulElem, eval_one s5.one, w4]
    ring
  have hden2 : (e4.mulElem (-C.d) + 1).eval s5.W =
      1 - C.d * P.x.eval s.W * Q.x.eval s.W * P.y.eval s.W * Q.y.eval s.W := by
    rw [eval_add, eval_mulElem, eval_one s5.one, w4]
    ring
  have sc1 := ((l13.trans (l4.trans l5)).scoped c1).add ((l3.trans (l4.trans l5)).scoped c2)
  have sc2 : (e4.mulElem C.d + 1).Scoped s5.next := (d4.mulElem C.d).add (.one s5.pos)
  have sc3 := (c5).sub (((l4.trans l5).scoped c3).mulElem C.a)
  have sc4 : (e4.mulElem (-C.d) + 1).Scoped s5.next := (d4.mulElem (-C.d)).add (.one s5.pos)
  refine (Comp.quotientUnsafe h2 sc1 sc2 (by rw [hden1]; exact hp')).bind
    fun x3 s6 l6 ⟨D6, c6, v6⟩ => ?_
  refine (Comp.quotientUnsafe h2 (l6.scoped sc3) (l6.scoped sc4)
    (by rw [l6.eval sc4, hden2]; exact hm')).bind fun y3 s7 l7 ⟨D7, c7, v7⟩ =>
    Comp.pure ⟨by rw [D7, D6, D5, D4, D3, D2, D1], l7.scoped c6, c7, ?_, ?_⟩
  · rw [l7.eval c6, v6, hden1, eval_add, w1, w2]
    rfl
  · rw [v7, l6.eval sc3, l6.eval sc4, hden2, eval_sub, eval_mulElem, w5, w3]
    unfold Edwards.sumY
    congr 1
    ring

/-- Doubling computes the double if the denominators do not vanish. -/
theorem comp_double (h2 : 2 < p) (C : EdwardsCurve p) {s : Hon p} {P : EdwardsExpression p}
    (hx : P.x.Scoped s.next) (hy : P.y.Scoped s.next)
    (hp' : C.a * P.x.eval s.W ^ 2 + P.y.eval s.W ^ 2 ≠ 0)
    (hm' : 2 - C.a * P.x.eval s.W ^ 2 - P.y.eval s.W ^ 2 ≠ 0) :
    Comp (doubleExpression C P) s fun R s' => s'.D = s.D ∧ R.x.Scoped s'.next ∧
      R.y.Scoped s'.next ∧
      R.x.eval s'.W = 2 * P.x.eval s.W * P.y.eval s.W /
        (C.a * P.x.eval s.W ^ 2 + P.y.eval s.W ^ 2) ∧
      R.y.eval s'.W = (P.y.eval s.W ^ 2 - C.a * P.x.eval s.W ^ 2) /
        (2 - C.a * P.x.eval s.W ^ 2 - P.y.eval s.W ^ 2) := by
  unfold doubleExpression
  refine (Comp.product hx hy).bind fun e1 s1 l1 ⟨D1, c1, v1⟩ => ?_
  refine (Comp.product (l1.scoped hx) (l1.scoped hx)).bind fun e2 s2 l2 ⟨D2, c2, v2⟩ => ?_
  have l02 := l1.trans l2
  refine (Comp.product (l02.scoped hy) (l02.scoped hy)).bind fun e3 s3 l3 ⟨D3, c3, v3⟩ => ?_
  have htwo : (⟨2, h2⟩ : Elem p) = 2 := by
    apply Elem.ext_n
    have := Elem.natCast_n_of_lt (p := p) (k := 2) h2
    simpa using this.symm
  refine Comp.ofOption_bind (Elem.ofNat?_eq_some h2) ?_
  rw [htwo]
  have w1 : e1.eval s3.W = P.x.eval s.W * P.y.eval s.W := by
    rw [(l2.trans l3).eval c1, v1]
  have w2 : e2.eval s3.W = P.x.eval s.W * P.x.eval s.W := by
    rw [l3.eval c2, v2, l1.eval hx]
  have w3 : e3.eval s3.W = P.y.eval s.W * P.y.eval s.W := by
    rw [v3, l02.eval hy]
  have d2 := l3.scoped c2
  have sc1 : (e1.mulElem 2).Scoped s3.next := ((l2.trans l3).scoped c1).mulElem 2
  have sc2 : (e2.mulElem C.a + e3).Scoped s3.next := (d2.mulElem _).add c3
  have sc3 : (e3 - e2.mulElem C.a).Scoped s3.next := c3.sub (d2.mulElem _)
  have sc4 : ((-e2).mulElem C.a - e3 + Expression.ofElem 2).Scoped s3.next :=
    ((d2.neg.mulElem _).sub c3).add (.ofElem s3.pos _)
  have hden1 : (e2.mulElem C.a + e3).eval s3.W = C.a * P.x.eval s.W ^ 2 + P.y.eval s.W ^ 2 := by
    rw [eval_add, eval_mulElem, w2, w3]
    ring
  have hden2 : ((-e2).mulElem C.a - e3 + Expression.ofElem 2).eval s3.W =
      2 - C.a * P.x.eval s.W ^ 2 - P.y.eval s.W ^ 2 := by
    rw [eval_add, eval_sub, eval_mulElem, eval_neg, eval_ofElem s3.one, w2, w3]
    ring
  refine (Comp.quotientUnsafe h2 sc1 sc2 (by rw [hden1]; exact hp')).bind
    fun x3 s6 l6 ⟨D6, c6, v6⟩ => ?_
  refine Comp.ofOption_bind (a := Expression.ofElem 2) ?_ ?_
  · unfold Expression.ofNat?
    rw [Elem.ofNat?_eq_some h2, htwo]
    rfl
  refine (Comp.quotientUnsafe h2 (l6.scoped sc3) (l6.scoped sc4)
    (by rw [l6.eval sc4, hden2]; exact hm')).bind fun y3 s7 l7 ⟨D7, c7, v7⟩ =>
    Comp.pure ⟨by rw [D7, D6, D3, D2, D1], l7.scoped c6, c7, ?_, ?_⟩
  · rw [l7.eval c6, v6, hden1, eval_mulElem, w1]
    congr 1
    ring
  · rw [v7, l6.eval sc3, l6.eval sc4, hden2, eval_sub, eval_mulElem, w2, w3]
    congr 1
    ring

end EdwardsGroup

theorem Edwards.double_eq {F : Type} [Field F] {a d x y : F} (h : Edwards.OnCurve a d x y) :
    2 * x * y / (a * x ^ 2 + y ^ 2) = Edwards.sumX d x y x y ∧
    (y ^ 2 - a * x ^ 2) / (2 - a * x ^ 2 - y ^ 2) = Edwards.sumY a d x y x y ∧
    a * x ^ 2 + y ^ 2 = 1 + d * x * x * y * y ∧ 2 - a * x ^ 2 - y ^ 2 = 1 - d * x * x * y * y := by
  unfold Edwards.OnCurve at h
  have e1 : a * x ^ 2 + y ^ 2 = 1 + d * x * x * y * y := by rw [h]; ring
  have e2 : 2 - a * x ^ 2 - y ^ 2 = 1 - d * x * x * y * y := by linear_combination -h
  refine ⟨?_, ?_, e1, e2⟩
  · rw [e1, Edwards.sumX]
    congr 1
    ring
  · rw [e2, Edwards.sumY]
    congr 1
    ring

/-- The gadgets of a complete Edwards curve compute in its group. -/
theorem EdwardsGroup.computesGroup (C : EdwardsCurve p) [hc : Edwards.Complete C.a C.d] :
    ComputesGroup (EdwardsGroup.ops C) (Edwards.Point C.a C.d) Edwards.Point.coords
      Edwards.Point.toModel := by
  have h2 : 2 < p := by
    have := hp.out.two_le
    rcases Nat.lt_or_ge 2 p with h | h
    · exact h
    · exfalso
      apply hc.two_ne
      have : p = 2 := by omega
      subst this
      apply Elem.ext_n
      have := Elem.natCast_n (p := 2) 2
      simpa using this
  refine ⟨fun _ _ => rfl, ?_, fun P => rfl, ?_, ?_, ?_, ?_⟩
  · change EdwardsPoint.new C 0 1 = some ⟨0, 1⟩
    unfold EdwardsPoint.new
    rw [if_pos (by ring)]
  · intro P xs hl
    match xs, hl with
    | [x, y], _ => exact ⟨⟨x, y⟩, rfl, rfl⟩
  · intro v W x P hv hx
    have h1 : x.x.eval W = P.x ∧ x.y.eval W = P.y := by
      change [x.x.eval W, x.y.eval W] = [P.x, P.y] at hx
      simpa using hx
    change EdwardsExpression.evaluate x v = _
    unfold EdwardsExpression.evaluate
    rw [Expression.evaluate_eq (w := W) (hv x.x (by change _ ∈ [x.x, x.y]; simp)),
      Expression.evaluate_eq (w := W) (hv x.y (by change _ ∈ [x.x, x.y]; simp)), h1.1, h1.2]
    rfl
  · intro s x y P Q ⟨hx, vx⟩ ⟨hy, vy⟩
    change [x.x.eval s.W, x.y.eval s.W] = [P.x, P.y] at vx
    change [y.x.eval s.W, y.y.eval s.W] = [Q.x, Q.y] at vy
    simp only [List.cons.injEq, and_true] at vx vy
    refine ((EdwardsGroup.comp_add h2 C (hx x.x (by change _ ∈ [x.x, x.y]; simp))
      (hx x.y (by change _ ∈ [x.x, x.y]; simp)) (hy y.x (by change _ ∈ [y.x, y.y]; simp))
      (hy y.y (by change _ ∈ [y.x, y.y]; simp)) ?_ ?_).mono fun R s' _ ⟨D, c1, c2, v1, v2⟩ =>
        ⟨D, ?_, ?_⟩).computes
    · rw [vx.1, vx.2, vy.1, vy.2]
      exact Edwards.plus_ne P.on Q.on
    · rw [vx.1, vx.2, vy.1, vy.2]
      exact Edwards.minus_ne P.on Q.on
    · intro e he
      change e ∈ [R.x, R.y] at he
      simp only [List.mem_cons, List.not_mem_nil, or_false] at he
      rcases he with rfl | rfl <;> assumption
    · change [R.x.eval s'.W, R.y.eval s'.W] = [_, _]
      rw [v1, v2, vx.1, vx.2, vy.1, vy.2]
      rfl
  · intro s x P ⟨hx, vx⟩
    change [x.x.eval s.W, x.y.eval s.W] = [P.x, P.y] at vx
    simp only [List.cons.injEq, and_true] at vx
    obtain ⟨d1, d2, d3, d4⟩ := Edwards.double_eq P.on
    refine ((EdwardsGroup.comp_double h2 C (hx x.x (by change _ ∈ [x.x, x.y]; simp))
      (hx x.y (by change _ ∈ [x.x, x.y]; simp)) ?_ ?_).mono fun R s' _ ⟨D, c1, c2, v1, v2⟩ =>
        ⟨D, ?_, ?_⟩).computes
    · rw [vx.1, vx.2, d3]
      exact Edwards.plus_ne P.on P.on
    · rw [vx.1, vx.2, d4]
      exact Edwards.minus_ne P.on P.on
    · intro e he
      change e ∈ [R.x, R.y] at he
      simp only [List.mem_cons, List.not_mem_nil, or_false] at he
      rcases he with rfl | rfl <;> assumption
    · change [R.x.eval s'.W, R.y.eval s'.W] = [_, _]
      rw [v1, v2, vx.1, vx.2, d1, d2]
      rfl

/-! ## Scalar multiplication -/

namespace GroupOps

variable {GE GX : Type} {G : GroupOps p GE GX}

theorem At.le {s s' : Hon p} (h : s.Le s') {x : GX} {cs : List (Elem p)} (hx : G.At s x cs) :
    G.At s' x cs := ⟨h.lscoped hx.1, by rw [h.values hx.1, hx.2]⟩

/-- Selecting between coordinates. -/
theorem comp_selectAll : ∀ {s : Hon p} {b : BooleanExpression p} {xs is : List (Expression p)},
    b.Scoped s.next → IsBool (b.eval s.W) → ListScoped s.next xs → ListScoped s.next is →
    xs.length = is.length →
    Comp (selectAll b xs is) s fun zs s' => s'.D = s.D ∧ ListScoped s'.next zs ∧
      values s'.W zs = if b.eval s.W = 1 then values s.W xs else values s.W is
  | s, b, [], [], _, _, _, _, _ => Comp.pure ⟨rfl, fun _ h => absurd h (by simp), by simp⟩
  | s, b, x :: xs, i :: is, hb, hbool, hx, hi, hl => by
    unfold selectAll
    refine (Comp.selection hb (hx x (by simp)) (hi i (by simp))).bind
      fun r s1 l1 ⟨D1, c1, v1⟩ => ?_
    have hb1 : b.eval s1.W = b.eval s.W := l1.beval hb
    refine (comp_selectAll (s := s1) (l1.bscoped hb) (by rw [hb1]; exact hbool)
      (l1.lscoped fun e he => hx e (by simp [he])) (l1.lscoped fun e he => hi e (by simp [he]))
      (by simpa using hl)).bind fun rs s2 l2 ⟨D2, c2, v2⟩ => Comp.pure ⟨by rw [D2, D1], ?_, ?_⟩
    · intro e he
      rcases List.mem_cons.1 he with rfl | he
      · exact l2.scoped c1
      · exact c2 e he
    · rw [hb1, l1.values fun e he => hx e (by simp [he]),
        l1.values fun e he => hi e (by simp [he])] at v2
      have h12 := one_ne_zero (α := Elem p)
      change r.eval s2.W :: values s2.W rs = _
      rw [v2, l2.eval c1, v1]
      rcases hbool with h | h
      · rw [h, if_neg h12.symm, if_neg h12.symm]
        change _ = i.eval s.W :: values s.W is
        rw [zero_mul, add_zero]
      · rw [h, if_pos rfl, if_pos rfl]
        change _ = x.eval s.W :: values s.W xs
        rw [one_mul, add_sub_cancel]

variable {M : Type} [AddCommGroup M] {coords : M → List (Elem p)} {element : M → GE}

/-- The identity as an expression. -/
theorem identity_at (hG : ComputesGroup G M coords element) (s : Hon p) :
    ∃ e, G.identityExpression = some e ∧ G.At s e (coords 0) := by
  refine ⟨G.ofElement (element 0), ?_, ?_, ?_⟩
  · unfold identityExpression
    rw [hG.identity]
    rfl
  · rw [hG.components]
    exact .map_ofElem s.pos _
  · rw [hG.components, values_ofElem s.one]

/-- Multiplication by a boolean. -/
theorem comp_mulBoolean (hG : ComputesGroup G M coords element) {s : Hon p} {x : GX} {P : M}
    {b : BooleanExpression p} (hx : G.At s x (coords P)) (hb : b.Scoped s.next)
    (hbool : IsBool (b.eval s.W)) :
    Comp (G.mulBooleanExpression x b) s fun z s' => s'.D = s.D ∧
      G.At s' z (coords ((b.eval s.W).n • P)) := by
  obtain ⟨e, he, hat⟩ := identity_at hG s
  unfold mulBooleanExpression
  refine Comp.ofOption_bind he ?_
  have hlen : ∀ {y : GX} {Q : M}, G.At s y (coords Q) →
      (G.toComponents y).length = (coords P).length := by
    intro y Q h
    have := congrArg List.length h.2
    rw [List.length_map] at this
    rw [this]
    exact hG.length Q P
  refine (comp_selectAll hb hbool hx.1 hat.1 (by rw [hlen hx, hlen hat])).bind
    fun zs s1 l1 ⟨D1, c1, v1⟩ => ?_
  have h12 := one_ne_zero (α := Elem p)
  have hv : values s1.W zs = coords ((b.eval s.W).n • P) := by
    rw [v1, hx.2, hat.2]
    rcases hbool with h | h
    · rw [h, if_neg h12.symm]
      change _ = coords ((0 : ℕ) • P)
      rw [zero_smul]
    · rw [h, if_pos rfl]
      change _ = coords ((1 : ℕ) • P)
      rw [one_smul]
  have hl : zs.length = (coords P).length := by
    have := congrArg List.length hv
    rw [List.length_map] at this
    rw [this]
    exact hG.length _ _
  obtain ⟨z, hz, hzc⟩ := hG.rebuild P zs hl
  refine Comp.ofOption hz ⟨D1, ?_, ?_⟩
  · rw [hzc]; exact c1
  · rw [hzc]; exact hv

/-- The double-and-add loop. -/
theorem comp_mulLoop (hG : ComputesGroup G M coords element) :
    ∀ {bits : List (BooleanExpression p)} {s : Hon p} {sum cur : GX} {S P : M},
    G.At s sum (coords S) → G.At s cur (coords P) →
    (∀ b ∈ bits, b.Scoped s.next) → (∀ b ∈ bits, IsBool (b.eval s.W)) →
    Comp (G.mulLoop bits sum cur) s fun z s' => s'.D = s.D ∧
      G.At s' z (coords (S + BinaryExpression.val s.W ⟨bits⟩ • P))
  | [], s, sum, cur, S, P, hs, _, _, _ => by
    unfold mulLoop
    refine Comp.pure ⟨rfl, ?_⟩
    change G.At s sum (coords (S + 0 • P))
    rw [zero_smul, add_zero]
    exact hs
  | b :: bits, s, sum, cur, S, P, hs, hc, hsc, hbool => by
    unfold mulLoop
    refine (comp_mulBoolean hG hc (hsc b (by simp)) (hbool b (by simp))).bind
      fun pr s1 l1 ⟨D1, a1⟩ => ?_
    refine (hG.add s1 sum pr S _ (hs.le l1) a1).comp.bind fun sum' s2 l2 ⟨D2, a2⟩ => ?_
    have l02 := l1.trans l2
    refine (hG.double s2 cur P (hc.le l02)).comp.bind fun cur' s3 l3 ⟨D3, a3⟩ => ?_
    have l03 := l02.trans l3
    have hev : ∀ c ∈ bits, c.eval s3.W = c.eval s.W := fun c hm => l03.beval (hsc c (by simp [hm]))
    refine (comp_mulLoop hG (bits := bits) (a2.le l3) a3
      (fun c hm => l03.bscoped (hsc c (by simp [hm])))
      (fun c hm => by rw [hev c hm]; exact hbool c (by simp [hm]))).mono
      fun z s4 _ ⟨D4, a4⟩ => ⟨by rw [D4, D3, D2, D1], ?_⟩
    have hval : BinaryExpression.val s3.W ⟨bits⟩ = BinaryExpression.val s.W ⟨bits⟩ := by
      unfold BinaryExpression.val BinaryExpression.digits
      congr 1
      exact List.map_congr_left fun c hm => by rw [hev c hm]
    have hv : BinaryExpression.val s.W ⟨b :: bits⟩ =
        (b.eval s.W).n + 2 * BinaryExpression.val s.W ⟨bits⟩ := rfl
    rw [hval] at a4
    rw [hv, add_smul, mul_comm, mul_smul, two_smul, ← add_assoc]
    exact a4

/-- Scalar multiplication. -/
theorem comp_mulScalar (hG : ComputesGroup G M coords element) {s : Hon p} {x : GX} {P : M}
    {k : Expression p} (hx : G.At s x (coords P)) (hk : k.Scoped s.next) :
    Comp (G.mulScalarExpression x k) s fun z s' => s'.D = s.D ∧
      G.At s' z (coords ((k.eval s.W).n • P)) := by
  unfold mulScalarExpression
  refine (Comp.splitAllowingAmbiguity hk).bind fun e s1 l1 ⟨D1, c1, b1, _, v1⟩ => ?_
  obtain ⟨i, hi, hat⟩ := identity_at hG s1
  refine Comp.ofOption_bind hi ?_
  refine (comp_mulLoop hG hat (hx.le l1) c1 b1).mono fun z s2 _ ⟨D2, a2⟩ => ⟨by rw [D2, D1], ?_⟩
  have hv : BinaryExpression.val s1.W ⟨e.bits⟩ = (k.eval s.W).n := v1
  rw [hv, zero_add] at a2
  exact a2

end GroupOps

/-- Schnorr verification accepts if the recomputed hash is `e`. -/
theorem comp_schnorrVerify {GE GX : Type} {C : CyclicGroupOps p GE GX} {M : Type} [AddCommGroup M]
    {coords : M → List (Elem p)} {element : M → GE}
    (hG : ComputesGroup C.toGroupOps M coords element) {g Y : M}
    (hg : C.generatorElement = some (element g)) {c : CompressionFunction p}
    {h : Elem p → Elem p → Elem p} (hc : Computed2 c.compress h) {f : M → Elem p}
    (hf : ∀ (s : Hon p) x P, C.At s x (coords P) →
      (C.compressed x).Scoped s.next ∧ (C.compressed x).eval s.W = f P)
    {s : Hon p} {σ : SignatureExpression p} {m : Expression p} {pk : GX}
    (hs : σ.s.Scoped s.next) (he : σ.e.Scoped s.next) (hm : m.Scoped s.next)
    (hpk : C.At s pk (coords Y))
    (hok : h (f ((σ.s.eval s.W).n • g + (σ.e.eval s.W).n • Y)) (m.eval s.W) = σ.e.eval s.W) :
    Comp (schnorrVerify C c σ m pk) s fun _ s' => s'.D = s.D := by
  unfold schnorrVerify
  have hge : C.generatorExpression = some (C.ofElement (element g)) := by
    unfold CyclicGroupOps.generatorExpression
    rw [hg]
    rfl
  refine Comp.ofOption_bind hge ?_
  have hat : C.At s (C.ofElement (element g)) (coords g) := by
    refine ⟨?_, ?_⟩
    · rw [hG.components]
      exact .map_ofElem s.pos _
    · rw [hG.components, values_ofElem s.one]
  refine (GroupOps.comp_mulScalar hG hat hs).bind fun gs s1 l1 ⟨D1, a1⟩ => ?_
  refine (GroupOps.comp_mulScalar hG (hpk.le l1) (l1.scoped he)).bind fun ye s2 l2 ⟨D2, a2⟩ => ?_
  refine (hG.add s2 gs ye _ _ (a1.le l2) a2).comp.bind fun r s3 l3 ⟨D3, a3⟩ => ?_
  obtain ⟨c3, v3⟩ := hf s3 r _ a3
  have l03 := (l1.trans l2).trans l3
  refine (hc.comp c3 (l03.scoped hm)).bind fun z s4 l4 ⟨D4, c4, v4⟩ => ?_
  have l04 := l03.trans l4
  refine (Comp.assertEqual c4 (l04.scoped he) ?_).mono fun _ s5 _ ⟨n5, D5, W5⟩ => by
    rw [D5, D4, D3, D2, D1]
  rw [v4, v3, l03.eval hm, l04.eval he, l1.eval he]
  exact hok

end R1CS
