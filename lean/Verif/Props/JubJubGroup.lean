import Verif.Lemmas.JubJubGroup
import Verif.Props.SignatureStructure

/-!
# C108: The points of JubJub
-/

namespace R1CS

open Edwards Expression

variable {p : ℕ} [hp : Fact p.Prime]

/-- C108: JubJub has exactly `8 r` points, for the prime `r` of C68. -/
theorem C108_number_of_points :
    Nat.card {P : Elem bls12_381Order × Elem bls12_381Order // OnCurve jubjub.a jubjub.d P.1 P.2} =
      8 * 6554484396890773809930967563523245729705921265872317281365359162392183254199 := by
  have h1 : Nat.card {P : Elem bls12_381Order × Elem bls12_381Order // OnCurve jubjub.a jubjub.d P.1 P.2} =
      Nat.card (Point jubjub.a jubjub.d) :=
    Nat.card_congr ⟨fun P => ⟨P.1.1, P.1.2, P.2⟩, fun P => ⟨(P.x, P.y), P.on⟩, fun _ => rfl, fun _ => rfl⟩
  have h2 : AddSubgroup.zmultiples jubjubG = ⊤ := (AddSubgroup.eq_top_iff' _).2 jubjubG_generates
  rw [h1, ← AddSubgroup.card_top (G := Point jubjub.a jubjub.d), ← h2, Nat.card_zmultiples, jubjubG_order]
  rfl

/-- C108: the shipped generator generates the whole curve, not just a subgroup: every point of the curve is
what `mul_scalar_element` makes of the generator and a scalar, and of just one scalar below `8 r`. -/
theorem C108_every_point {x y : Elem bls12_381Order} (h : OnCurve jubjub.a jubjub.d x y) :
    ∃ k : Elem bls12_381Order,
      k.n < 8 * 6554484396890773809930967563523245729705921265872317281365359162392183254199 ∧
      ∀ k' : Elem bls12_381Order,
        k'.n < 8 * 6554484396890773809930967563523245729705921265872317281365359162392183254199 →
        ((jubjubPrimeSubgroup.generatorElement.bind fun g => jubjubPrimeSubgroup.mulScalarElement g k') =
          some ⟨x, y⟩ ↔ k' = k) := by
  have ho : addOrderOf jubjubG =
      8 * 6554484396890773809930967563523245729705921265872317281365359162392183254199 := jubjubG_order
  have hlt : 8 * 6554484396890773809930967563523245729705921265872317281365359162392183254199 <
      bls12_381Order := by decide +kernel
  obtain ⟨k, hk, hkP⟩ : ∃ k < addOrderOf jubjubG, k • jubjubG = ⟨x, y, h⟩ := by
    have := jubjubG_generates ⟨x, y, h⟩
    rw [AddSubgroup.mem_zmultiples_iff] at this
    obtain ⟨j, hj⟩ := this
    have hpos : (0 : ℤ) < addOrderOf jubjubG := by rw [ho]; norm_num
    refine ⟨(j % addOrderOf jubjubG).toNat, ?_, ?_⟩
    · have := Int.emod_lt_of_pos j hpos
      omega
    · rw [← natCast_zsmul, Int.toNat_of_nonneg (Int.emod_nonneg j hpos.ne'), mod_addOrderOf_zsmul, hj]
  rw [ho] at hk
  refine ⟨⟨k, hk.trans hlt⟩, hk, fun k' hk' => ?_⟩
  have hgen : jubjubPrimeSubgroup.generatorElement = some ⟨jubjubG.x, jubjubG.y⟩ := jubjubGenerator_eq
  have hmul : jubjubPrimeSubgroup.mulScalarElement ⟨jubjubG.x, jubjubG.y⟩ k' =
      some ⟨(k'.n • jubjubG).x, (k'.n • jubjubG).y⟩ := (C67_complete_curve jubjub jubjubG).2 k'
  rw [hgen, Option.bind_some, hmul]
  constructor
  · intro he
    have he := Option.some.inj he
    have hx := congrArg EdwardsPoint.x he
    have hy := congrArg EdwardsPoint.y he
    have hP : k'.n • jubjubG = k • jubjubG := by
      rw [hkP]
      exact Point.ext hx hy
    rw [nsmul_eq_nsmul_iff_modEq, ho] at hP
    exact Elem.ext_n (Nat.ModEq.eq_of_lt_of_lt hP hk' hk)
  · rintro rfl
    show some (⟨(k • jubjubG).x, (k • jubjubG).y⟩ : EdwardsPoint bls12_381Order) = _
    rw [hkP]

/-- C108: the subgroup of prime order.  It consists of the points which `r` annihilates, or what is the same,
of the multiples of 8, and has `r` elements; the points which 8 annihilates are the multiples of `r`, and
there are eight of them. -/
theorem C108_subgroups :
    (∀ P : Point jubjub.a jubjub.d,
      6554484396890773809930967563523245729705921265872317281365359162392183254199 • P = 0 ↔
        ∃ Q, P = 8 • Q) ∧
    Nat.card {P : Point jubjub.a jubjub.d //
      6554484396890773809930967563523245729705921265872317281365359162392183254199 • P = 0} =
        6554484396890773809930967563523245729705921265872317281365359162392183254199 ∧
    (∀ P : Point jubjub.a jubjub.d, 8 • P = 0 ↔
      ∃ Q, P = 6554484396890773809930967563523245729705921265872317281365359162392183254199 • Q) ∧
    Nat.card {P : Point jubjub.a jubjub.d // 8 • P = 0} = 8 := by
  have ho : addOrderOf jubjubG = 8 * jubjubSubgroupOrder := jubjubG_order
  have h1 := annihilated jubjubG_generates (n := 8) (m := jubjubSubgroupOrder) (by norm_num)
    jubjubSubgroupOrder_prime.pos ho
  have h2 := annihilated jubjubG_generates (n := jubjubSubgroupOrder) (m := 8)
    jubjubSubgroupOrder_prime.pos (by norm_num) (ho.trans (mul_comm _ _))
  exact ⟨h2.1, h2.2, h1.1, h1.2⟩

/-- C108: whether a point is in the subgroup of prime order can be found with `mul_scalar_element`: `r` fits
into the field of scalars. -/
theorem C108_membership {P : Point jubjub.a jubjub.d} {k : Elem bls12_381Order}
    (hk : k.n = 6554484396890773809930967563523245729705921265872317281365359162392183254199) :
    jubjubPrimeSubgroup.mulScalarElement ⟨P.x, P.y⟩ k = some ⟨0, 1⟩ ↔ ∃ Q, P = 8 • Q := by
  rw [← C108_subgroups.1 P]
  have hmul : jubjubPrimeSubgroup.mulScalarElement ⟨P.x, P.y⟩ k =
      some ⟨(k.n • P).x, (k.n • P).y⟩ := (C67_complete_curve jubjub P).2 k
  rw [hmul, hk]
  constructor
  · intro he
    have he := Option.some.inj he
    have hx := congrArg EdwardsPoint.x he
    have hy := congrArg EdwardsPoint.y he
    exact Point.ext hx hy
  · intro h0
    rw [h0]
    rfl

/-- C108: so every point of the curve is a public key which has a private key, and for every nonce `k` below
`8 r` and every message there is just one `s` below `8 r` with which the honest signature is accepted. -/
theorem C108_every_key (Y : Point jubjub.a jubjub.d) :
    ∃ x < 8 * 6554484396890773809930967563523245729705921265872317281365359162392183254199,
      Y = x • jubjubG ∧
      ∀ {c : CompressionFunction bls12_381Order}
        {h : Elem bls12_381Order → Elem bls12_381Order → Elem bls12_381Order} (_ : Computed2 c.compress h)
        (k : ℕ) (m : Elem bls12_381Order),
      ∃ s : Elem bls12_381Order,
        s.n < 8 * 6554484396890773809930967563523245729705921265872317281365359162392183254199 ∧
        (∀ s' : Elem bls12_381Order,
          s'.n < 8 * 6554484396890773809930967563523245729705921265872317281365359162392183254199 →
          (s'.n • jubjubG + (h (k • jubjubG).y m).n • Y = k • jubjubG ↔ s' = s)) ∧
        ∀ (st : Hon bls12_381Order) (es ee em : Expression bls12_381Order)
          (pk : EdwardsExpression bls12_381Order), es.Scoped st.next → ee.Scoped st.next →
          em.Scoped st.next → (EdwardsGroup.ops jubjub).At st pk [Y.x, Y.y] → es.eval st.W = s →
          ee.eval st.W = h (k • jubjubG).y m → em.eval st.W = m →
          Computes (schnorrVerify jubjubPrimeSubgroup c ⟨es, ee⟩ em pk) st fun _ _ => True := by
  have ho : addOrderOf jubjubG =
      8 * 6554484396890773809930967563523245729705921265872317281365359162392183254199 := jubjubG_order
  have hlt : 8 * 6554484396890773809930967563523245729705921265872317281365359162392183254199 <
      bls12_381Order := by decide +kernel
  have hpos : (0 : ℤ) < addOrderOf jubjubG := by rw [ho]; norm_num
  have hall : ∀ P : Point jubjub.a jubjub.d, ∃ k < addOrderOf jubjubG, k • jubjubG = P := by
    intro P
    obtain ⟨j, hj⟩ := AddSubgroup.mem_zmultiples_iff.1 (jubjubG_generates P)
    refine ⟨(j % addOrderOf jubjubG).toNat, ?_, ?_⟩
    · have := Int.emod_lt_of_pos j hpos
      omega
    · rw [← natCast_zsmul, Int.toNat_of_nonneg (Int.emod_nonneg j hpos.ne'), mod_addOrderOf_zsmul, hj]
  obtain ⟨x, hx, hxY⟩ := hall Y
  rw [ho] at hx
  refine ⟨x, hx, hxY.symm, fun {c h} hc k m => ?_⟩
  obtain ⟨s, hs, hsP⟩ := hall (k • jubjubG - (h (k • jubjubG).y m).n • Y)
  rw [ho] at hs
  refine ⟨⟨s, hs.trans hlt⟩, hs, fun s' hs' => ?_, ?_⟩
  · rw [← eq_sub_iff_add_eq, ← hsP, nsmul_eq_nsmul_iff_modEq, ho]
    exact ⟨fun hmod => Elem.ext_n (Nat.ModEq.eq_of_lt_of_lt hmod hs' hs), fun he => by rw [he]⟩
  · intro st es ee em pk h1 h2 h3 hpk he1 he2 he3
    have hgen : jubjubPrimeSubgroup =
        cyclicSubgroup (EdwardsGroup.ops jubjub) (some ⟨jubjubG.x, jubjubG.y⟩) := by
      unfold jubjubPrimeSubgroup
      rw [jubjubGenerator_eq]
      rfl
    rw [hgen]
    refine (C69_verify_computed jubjub hc st (σ := ⟨es, ee⟩) h1 h2 h3 hpk).1 ?_
    show h ((es.eval st.W).n • jubjubG + (ee.eval st.W).n • Y).y (em.eval st.W) = ee.eval st.W
    rw [he1, he2, he3]
    show h (s • jubjubG + (h (k • jubjubG).y m).n • Y).y m = _
    rw [hsP, sub_add_cancel]

/-- C108, the reason for the number of points, on all complete curves: of a point which is the double of
another one, `(a - d) (1 - y²)` is a square. -/
theorem C108_doubles {F : Type} [Field F] {a d : F} [Complete a d] (P : Point a d) :
    IsSquare ((a - d) * (1 - (P + P).y ^ 2)) := double_square P

/-- C108: the shipped generator is not the double of any point. -/
theorem C108_generator_no_double (P : Point jubjub.a jubjub.d) : P + P ≠ jubjubG := by
  intro h
  have h1 := double_square P
  rw [h] at h1
  exact not_isSquare_of_powMod (by decide +kernel) (by decide +kernel) (by decide +kernel) h1

/-- The point (0, -1) is a multiple of the generator. -/
example : ∃ k : Elem bls12_381Order,
    (jubjubPrimeSubgroup.generatorElement.bind fun g => jubjubPrimeSubgroup.mulScalarElement g k) =
      some ⟨0, -1⟩ := by
  obtain ⟨k, hk, h⟩ := C108_every_point (x := 0) (y := -1) (by unfold OnCurve; ring)
  exact ⟨k, (h k hk).2 rfl⟩

/-- The generator is not in the subgroup of prime order. -/
example (k : Elem bls12_381Order)
    (hk : k.n = 6554484396890773809930967563523245729705921265872317281365359162392183254199) :
    jubjubPrimeSubgroup.mulScalarElement ⟨jubjubG.x, jubjubG.y⟩ k ≠ some ⟨0, 1⟩ := by
  intro h
  obtain ⟨Q, hQ⟩ := (C108_membership hk).1 h
  refine C108_generator_no_double (4 • Q) ?_
  rw [hQ]
  rw [← add_nsmul]

/-- Signatures for the key (0, -1), with the compression function 2 x + y. -/
example (k : ℕ) (m : Elem bls12_381Order) : ∃ s : Elem bls12_381Order,
    Computes (schnorrVerify jubjubPrimeSubgroup testCompress
      ⟨Expression.ofElem s, Expression.ofElem (2 * (k • jubjubG).y + m)⟩ (Expression.ofElem m)
      ⟨Expression.ofElem 0, Expression.ofElem (-1)⟩) (newHon _) fun _ _ => True := by
  obtain ⟨x, -, -, h⟩ := C108_every_key ⟨0, -1, by unfold OnCurve; ring⟩
  obtain ⟨s, -, -, h⟩ := h (testCompress_spec.2 (by decide +kernel)) k m
  refine ⟨s, h _ _ _ _ _ (.ofElem (le_refl _) _) (.ofElem (le_refl _) _) (.ofElem (le_refl _) _) ⟨?_, ?_⟩
    (eval_ofElem newHon_one _) (eval_ofElem newHon_one _) (eval_ofElem newHon_one _)⟩
  · intro c hc
    change c ∈ [Expression.ofElem _, Expression.ofElem _] at hc
    simp only [List.mem_cons, List.not_mem_nil, or_false] at hc
    rcases hc with rfl | rfl <;> exact .ofElem (le_refl _) _
  · change [Expression.eval _ (Expression.ofElem _), Expression.eval _ (Expression.ofElem _)] = _
    rw [eval_ofElem newHon_one, eval_ofElem newHon_one]

/-- C65: on other curves, doubling a point divides by zero only if `a d` or `d` is a square: the
divisors of `double_expression` are `a x² + y²` and `2 - (a x² + y²)`.  Over finite fields that leaves
out the complete curves only.  (The comment on `double_expression` asks for points of odd order; on
complete curves any point will do, by C65_complete_curve.) -/
theorem C65_doubling {C : EdwardsCurve p} {x y : Elem p} (h : OnCurve C.a C.d x y) :
    (C.a * x ^ 2 + y ^ 2 = 0 → IsSquare (C.a * C.d)) ∧ (2 - (C.a * x ^ 2 + y ^ 2) = 0 → IsSquare C.d) := by
  unfold OnCurve at h
  constructor
  · intro h0
    have h1 : C.d * x ^ 2 * y ^ 2 = -1 := by linear_combination h0 - h
    have hx : x ≠ 0 := by
      rintro rfl
      exact one_ne_zero (α := Elem p) (by linear_combination h1)
    refine ⟨(x ^ 2)⁻¹, ?_⟩
    field_simp
    linear_combination C.d * x ^ 2 * h0 - h1
  · intro h0
    have h1 : C.d * x ^ 2 * y ^ 2 = 1 := by linear_combination -h0 - h
    have hx : x ≠ 0 := by
      rintro rfl
      exact one_ne_zero (α := Elem p) (by linear_combination -h1)
    have hy : y ≠ 0 := by
      rintro rfl
      exact one_ne_zero (α := Elem p) (by linear_combination -h1)
    refine ⟨(x * y)⁻¹, ?_⟩
    field_simp
    linear_combination h1

/-- The curve over the field of order 13 with `a = 1` and `d = 3 = 4²`, and its point (4, 6). -/
example : OnCurve (1 : Elem 13) 3 4 6 ∧ (1 : Elem 13) * 4 ^ 2 + 6 ^ 2 = 0 ∧ IsSquare ((1 : Elem 13) * 3) := by
  have h1 : OnCurve (1 : Elem 13) 3 4 6 := by unfold OnCurve; decide +kernel
  have h2 : (1 : Elem 13) * 4 ^ 2 + 6 ^ 2 = 0 := by decide +kernel
  exact ⟨h1, h2, (C65_doubling (C := ⟨1, 3⟩) h1).1 h2⟩

end R1CS
