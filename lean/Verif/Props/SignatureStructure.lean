import Verif.Props.Schnorr

/-!
# C97: which signatures are accepted

The second coordinate as a compressed point, further scalars for an accepted signature, keys of
small order, other keys for a signature.  All about honest executions; what the constraints alone
admit is C69 and C86.
-/

set_option linter.unusedSectionVars false

namespace R1CS

variable {p : ℕ} [hp : Fact p.Prime]

open Edwards (OnCurve Complete Point)
open Expression (eval_add eval_ofElem)

/-- C97: the second coordinate, by which points are represented in hashes, determines a point up to
its sign, and no further. -/
theorem C97_second_coordinate {a d : Elem p} [hc : Complete a d] (P Q : Point a d) :
    P.toModel.compressedElement = Q.toModel.compressedElement ↔ P = Q ∨ P = -Q := by
  change P.y = Q.y ↔ _
  constructor
  · intro h
    have h1 := P.on
    have h2 := Q.on
    unfold OnCurve at h1 h2
    rw [h] at h1
    have h0 : a - d * Q.y ^ 2 ≠ 0 := by
      intro h0
      have hy : Q.y ^ 2 = 1 := by linear_combination h2 - Q.x ^ 2 * h0
      have : a = d := by linear_combination h0 + d * hy
      exact hc.nonsquare (this ▸ hc.square)
    have h3 : (P.x - Q.x) * (P.x + Q.x) = 0 := by
      have h4 : (a - d * Q.y ^ 2) * ((P.x - Q.x) * (P.x + Q.x)) = 0 := by
        linear_combination h1 - h2
      exact (mul_eq_zero.1 h4).resolve_left h0
    rcases mul_eq_zero.1 h3 with h3 | h3
    · exact Or.inl (Point.ext (sub_eq_zero.1 h3) h)
    · exact Or.inr (Point.ext (eq_neg_of_add_eq_zero_left h3) h)
  · rintro (rfl | rfl) <;> rfl

/-- C97: the scalars which verify in place of the one in an accepted signature, everything else being
the same.  If the hash is injective in the point, they are those which give the same point or its
negative. -/
theorem C97_scalars (C : EdwardsCurve p) [Complete C.a C.d] {g Y : Point C.a C.d}
    {c : CompressionFunction p} {h : Elem p → Elem p → Elem p} (hc : Computed2 c.compress h)
    (st : Hon p) {s s' e m : Expression p} {pk : EdwardsExpression p}
    (hs' : s'.Scoped st.next) (he : e.Scoped st.next) (hm : m.Scoped st.next)
    (hpk : (EdwardsGroup.ops C).At st pk [Y.x, Y.y])
    (hok : h ((s.eval st.W).n • g + (e.eval st.W).n • Y).y (m.eval st.W) = e.eval st.W) :
    ((s'.eval st.W).n • g = (s.eval st.W).n • g ∨
        ((s'.eval st.W).n + (s.eval st.W).n) • g + (2 * (e.eval st.W).n) • Y = 0 →
      Computes (schnorrVerify (cyclicSubgroup (EdwardsGroup.ops C) (some ⟨g.x, g.y⟩)) c ⟨s', e⟩ m
        pk) st fun _ _ => True) ∧
    (Function.Injective (fun y => h y (m.eval st.W)) →
      ¬ ((s'.eval st.W).n • g = (s.eval st.W).n • g ∨
        ((s'.eval st.W).n + (s.eval st.W).n) • g + (2 * (e.eval st.W).n) • Y = 0) →
      Rejects (schnorrVerify (cyclicSubgroup (EdwardsGroup.ops C) (some ⟨g.x, g.y⟩)) c ⟨s', e⟩ m
        pk) st) := by
  have key : ((s'.eval st.W).n • g + (e.eval st.W).n • Y).y =
      ((s.eval st.W).n • g + (e.eval st.W).n • Y).y ↔
      ((s'.eval st.W).n • g = (s.eval st.W).n • g ∨
        ((s'.eval st.W).n + (s.eval st.W).n) • g + (2 * (e.eval st.W).n) • Y = 0) := by
    have h1 := C97_second_coordinate ((s'.eval st.W).n • g + (e.eval st.W).n • Y)
      ((s.eval st.W).n • g + (e.eval st.W).n • Y)
    rw [add_left_inj, eq_neg_iff_add_eq_zero, add_add_add_comm, ← add_smul, ← two_nsmul,
      ← mul_smul] at h1
    exact h1
  have hv := C69_verify_computed C (g := g) hc st (σ := ⟨s', e⟩) hs' he hm hpk
  refine ⟨fun hcond => hv.1 ?_, fun hinj hcond => hv.2 fun hbad => hcond (key.1 ?_)⟩
  · simp only
    rw [key.2 hcond, hok]
  · exact hinj (hbad.trans hok.symm)

/-- C97: the scalars in terms of the private key `x`: those congruent to the given one modulo the
order of the generator, and those congruent to `-s - 2 x e`, which the owner of the key can find. -/
theorem C97_scalars_private {C : EdwardsCurve p} [Complete C.a C.d] (g : Point C.a C.d)
    (x s s' e : ℕ) :
    (s' • g = s • g ∨ (s' + s) • g + (2 * e) • (x • g) = 0) ↔
      s' ≡ s [MOD addOrderOf g] ∨ addOrderOf g ∣ s' + s + 2 * e * x := by
  rw [nsmul_eq_nsmul_iff_modEq, ← mul_smul, ← add_smul, addOrderOf_dvd_iff_nsmul_eq_zero]

/-- C97 on JubJub: the order of the shipped generator is less than that of the field, so that a
signature with small `s` has a twin with the scalar `s + 8 r`. -/
theorem C97_twin (Y : Point jubjub.a jubjub.d) {c : CompressionFunction bls12_381Order}
    {h : Elem bls12_381Order → Elem bls12_381Order → Elem bls12_381Order}
    (hc : Computed2 c.compress h) (st : Hon bls12_381Order) {s s' e m : Expression bls12_381Order}
    {pk : EdwardsExpression bls12_381Order} (hs' : s'.Scoped st.next) (he : e.Scoped st.next)
    (hm : m.Scoped st.next) (hpk : (EdwardsGroup.ops jubjub).At st pk [Y.x, Y.y])
    (hok : h ((s.eval st.W).n • jubjubG + (e.eval st.W).n • Y).y (m.eval st.W) = e.eval st.W)
    (htwin : s'.eval st.W = s.eval st.W + ((8 *
      6554484396890773809930967563523245729705921265872317281365359162392183254199 : ℕ) :
        Elem bls12_381Order))
    (hlt : (s.eval st.W).n < 43182373549099571680785400801115150921) :
    s'.eval st.W ≠ s.eval st.W ∧
    Computes (schnorrVerify jubjubPrimeSubgroup c ⟨s', e⟩ m pk) st fun _ _ => True := by
  have h8 : 8 * 6554484396890773809930967563523245729705921265872317281365359162392183254199 +
      43182373549099571680785400801115150921 = bls12_381Order := by decide +kernel
  have hn : (s'.eval st.W).n = (s.eval st.W).n +
      8 * 6554484396890773809930967563523245729705921265872317281365359162392183254199 := by
    have h3 : ((s.eval st.W).n : Elem bls12_381Order) = s.eval st.W :=
      Elem.ext_n (Elem.natCast_n_of_lt (s.eval st.W).lt)
    rw [htwin]
    conv_lhs => rw [← h3, ← Nat.cast_add]
    exact Elem.natCast_n_of_lt (by omega)
  constructor
  · intro h'
    rw [h'] at hn
    omega
  · have hgen : jubjubPrimeSubgroup =
        cyclicSubgroup (EdwardsGroup.ops jubjub) (some ⟨jubjubG.x, jubjubG.y⟩) := by
      unfold jubjubPrimeSubgroup
      rw [jubjubGenerator_eq]
      rfl
    rw [hgen]
    refine (C97_scalars jubjub hc st hs' he hm hpk hok).1 (Or.inl ?_)
    rw [nsmul_eq_nsmul_iff_modEq, (C68_generator_order_refuted jubjubG rfl rfl).1, hn]
    exact Nat.add_modEq_right

/-- C97: keys of small order.  If `n` times the public key is the neutral point and `e`, the hash of
the message and some multiple of the generator, is divisible by `n`, then that multiple and `e` are
accepted: no private key is needed. -/
theorem C97_weak_key (C : EdwardsCurve p) [Complete C.a C.d] {g Y : Point C.a C.d}
    {c : CompressionFunction p} {h : Elem p → Elem p → Elem p} (hc : Computed2 c.compress h)
    (st : Hon p) {s e m : Expression p} {pk : EdwardsExpression p}
    (hs : s.Scoped st.next) (he : e.Scoped st.next) (hm : m.Scoped st.next)
    (hpk : (EdwardsGroup.ops C).At st pk [Y.x, Y.y]) {n : ℕ} (hY : n • Y = 0)
    (hn : n ∣ (e.eval st.W).n)
    (heq : e.eval st.W = h ((s.eval st.W).n • g).y (m.eval st.W)) :
    Computes (schnorrVerify (cyclicSubgroup (EdwardsGroup.ops C) (some ⟨g.x, g.y⟩)) c ⟨s, e⟩ m
      pk) st fun _ _ => True := by
  refine (C69_verify_computed C hc st (σ := ⟨s, e⟩) hs he hm hpk).1 ?_
  obtain ⟨k, hk⟩ := hn
  have : (e.eval st.W).n • Y = 0 := by rw [hk, mul_comm, mul_smul, hY, smul_zero]
  simp only
  rw [this, add_zero, ← heq]

/-- C97: in particular everything can be signed for the neutral point as public key, which is on
every curve, and on every curve there is a key of order 2. -/
theorem C97_small_order (C : EdwardsCurve p) [hC : Complete C.a C.d] :
    (1 • (⟨0, 1, by unfold OnCurve; ring⟩ : Point C.a C.d) = 0) ∧
    2 • (⟨0, -1, by unfold OnCurve; ring⟩ : Point C.a C.d) = 0 ∧
    (⟨0, -1, by unfold OnCurve; ring⟩ : Point C.a C.d) ≠ 0 := by
  refine ⟨by rw [one_smul]; rfl, ?_, fun h => ?_⟩
  · rw [two_nsmul]
    apply Point.ext
    · rw [Edwards.Point.add_x, Edwards.sumX, Edwards.Point.zero_x]
      simp
    · rw [Edwards.Point.add_y, Edwards.sumY, Edwards.Point.zero_y]
      simp
  · have h1 : (-1 : Elem p) = 1 := congrArg Point.y h
    apply hC.two_ne
    linear_combination -h1

/-- C97: a signature does not fix the key.  For every point, message and scalar there is a public key
under which the scalar and the hash of the point and the message are accepted, as long as that hash
is invertible modulo the order of the difference. -/
theorem C97_other_key (C : EdwardsCurve p) [Complete C.a C.d] {g : Point C.a C.d}
    {c : CompressionFunction p} {h : Elem p → Elem p → Elem p} (hc : Computed2 c.compress h)
    (R : Point C.a C.d) (sv mv : Elem p) {u : ℕ}
    (hu : u * (h R.y mv).n ≡ 1 [MOD addOrderOf (R - sv.n • g)]) :
    ∃ Y : Point C.a C.d, ∀ (st : Hon p) (s e m : Expression p) (pk : EdwardsExpression p),
      s.Scoped st.next → e.Scoped st.next → m.Scoped st.next →
      (EdwardsGroup.ops C).At st pk [Y.x, Y.y] → s.eval st.W = sv → m.eval st.W = mv →
      e.eval st.W = h R.y mv →
      Computes (schnorrVerify (cyclicSubgroup (EdwardsGroup.ops C) (some ⟨g.x, g.y⟩)) c ⟨s, e⟩ m
        pk) st fun _ _ => True := by
  refine ⟨u • (R - sv.n • g), fun st s e m pk hs he hm hpk hsv hmv hev => ?_⟩
  refine (C69_verify_computed C hc st (σ := ⟨s, e⟩) hs he hm hpk).1 ?_
  have : (h R.y mv).n • (u • (R - sv.n • g)) = R - sv.n • g := by
    rw [← mul_smul, mul_comm]
    conv_rhs => rw [← one_smul ℕ (R - sv.n • g)]
    exact nsmul_eq_nsmul_iff_modEq.2 hu
  simp only
  rw [hsv, hmv, hev, this, add_sub_cancel]

/-! ## Examples -/

/-- A point given as constants. -/
theorem at_ofPoint13 (P : Point curve13.a curve13.d) :
    (EdwardsGroup.ops curve13).At (newHon 13) (EdwardsExpression.ofPoint ⟨P.x, P.y⟩)
      [P.x, P.y] := by
  refine ⟨?_, ?_⟩
  · intro e he
    change e ∈ [Expression.ofElem _, Expression.ofElem _] at he
    simp only [List.mem_cons, List.not_mem_nil, or_false] at he
    rcases he with rfl | rfl <;> exact .ofElem (le_refl _) _
  · change [Expression.eval _ (Expression.ofElem _), Expression.eval _ (Expression.ofElem _)] = _
    rw [eval_ofElem newHon_one, eval_ofElem newHon_one]

/-- The points 2 g and 6 g of the example curve, of order 8, have the same second coordinate. -/
example : 2 • point13 ≠ 6 • point13 ∧
    (2 • point13).toModel.compressedElement = (6 • point13).toModel.compressedElement := by
  constructor
  · intro h
    have := congrArg Point.x h
    revert this
    decide
  · decide

/-- The signature `(7, 1)` of the message 1 under the key 3 g (C69) and its variant with `s = 3`. -/
example : Computes (schnorrVerify (cyclicSubgroup (EdwardsGroup.ops curve13)
    (some ⟨point13.x, point13.y⟩)) testCompress ⟨Expression.ofElem 3, Expression.ofElem 1⟩
    (Expression.ofElem 1) (EdwardsExpression.ofPoint ⟨(3 • point13).x, (3 • point13).y⟩)) (newHon 13)
    fun _ _ => True := by
  refine (C97_scalars curve13 (g := point13) (Y := 3 • point13)
    (testCompress_spec.2 (by norm_num)) (newHon 13) (s := Expression.ofElem 7)
    (.ofElem (le_refl _) _) (.ofElem (le_refl _) _) (.ofElem (le_refl _) _) (at_ofPoint13 _) ?_).1
    (Or.inr ?_)
  · simp only [eval_ofElem newHon_one]
    decide
  · simp only [eval_ofElem newHon_one]
    apply Point.ext <;> decide

/-- The scalar 4 instead is rejected. -/
example : Rejects (schnorrVerify (cyclicSubgroup (EdwardsGroup.ops curve13)
    (some ⟨point13.x, point13.y⟩)) testCompress ⟨Expression.ofElem 4, Expression.ofElem 1⟩
    (Expression.ofElem 1) (EdwardsExpression.ofPoint ⟨(3 • point13).x, (3 • point13).y⟩))
    (newHon 13) := by
  refine (C97_scalars curve13 (g := point13) (Y := 3 • point13)
    (testCompress_spec.2 (by norm_num)) (newHon 13) (s := Expression.ofElem 7)
    (.ofElem (le_refl _) _) (.ofElem (le_refl _) _) (.ofElem (le_refl _) _) (at_ofPoint13 _) ?_).2
    ?_ ?_
  · simp only [eval_ofElem newHon_one]
    decide
  · rw [eval_ofElem newHon_one]
    intro y z hyz
    exact mul_left_cancel₀ (show (2 : Elem 13) ≠ 0 by decide) (add_right_cancel hyz)
  · simp only [eval_ofElem newHon_one]
    rintro (h | h)
    · have := congrArg Point.x h
      revert this
      decide
    · have := congrArg Point.y h
      revert this
      decide

/-- The neutral point as a key: a signature of the message 5 made from the nonce 2. -/
example : Computes (schnorrVerify (cyclicSubgroup (EdwardsGroup.ops curve13)
    (some ⟨point13.x, point13.y⟩)) testCompress ⟨Expression.ofElem 2, Expression.ofElem 5⟩
    (Expression.ofElem 5) (EdwardsExpression.ofPoint ⟨(0 : Point curve13.a curve13.d).x,
      (0 : Point curve13.a curve13.d).y⟩)) (newHon 13) fun _ _ => True := by
  refine C97_weak_key curve13 (g := point13) (Y := 0) (testCompress_spec.2 (by norm_num))
    (newHon 13) (.ofElem (le_refl _) _) (.ofElem (le_refl _) _) (.ofElem (le_refl _) _)
    (at_ofPoint13 _) (n := 1) (smul_zero 1) (one_dvd _) ?_
  simp only [eval_ofElem newHon_one]
  decide

/-- Another key for the nonce point 2 g, the message 1 and the scalar 5. -/
example : ∃ Y : Point curve13.a curve13.d, ∀ (st : Hon 13) (s e m : Expression 13)
    (pk : EdwardsExpression 13),
    s.Scoped st.next → e.Scoped st.next → m.Scoped st.next →
    (EdwardsGroup.ops curve13).At st pk [Y.x, Y.y] → s.eval st.W = 5 → m.eval st.W = 1 →
    e.eval st.W = 2 * (2 • point13).y + 1 →
    Computes (schnorrVerify (cyclicSubgroup (EdwardsGroup.ops curve13)
      (some ⟨point13.x, point13.y⟩)) testCompress ⟨s, e⟩ m pk) st fun _ _ => True := by
  refine C97_other_key curve13 (g := point13) (h := fun x y => 2 * x + y)
    (testCompress_spec.2 (by norm_num)) (2 • point13) 5 1 (u := 1) ?_
  have : ((2 : Elem 13) * (2 • point13).y + 1).n = 1 := by decide
  rw [this]

/-- On JubJub with the neutral point as key: the signature `(0, 2)` of the message 0 and its twin. -/
example : Computes (schnorrVerify jubjubPrimeSubgroup testCompress
    ⟨Expression.ofElem (0 + ((8 *
      6554484396890773809930967563523245729705921265872317281365359162392183254199 : ℕ) :
        Elem bls12_381Order)), Expression.ofElem 2⟩ (Expression.ofElem 0)
    (EdwardsExpression.ofPoint ⟨0, 1⟩)) (newHon bls12_381Order) fun _ _ => True := by
  refine (C97_twin 0 (testCompress_spec.2 (by decide +kernel)) (newHon _)
    (s := Expression.ofElem 0) (.ofElem (le_refl _) _) (.ofElem (le_refl _) _)
    (.ofElem (le_refl _) _) ⟨?_, ?_⟩ ?_ ?_ ?_).2
  · intro e he
    change e ∈ [Expression.ofElem _, Expression.ofElem _] at he
    simp only [List.mem_cons, List.not_mem_nil, or_false] at he
    rcases he with rfl | rfl <;> exact .ofElem (le_refl _) _
  · change [Expression.eval _ (Expression.ofElem _), Expression.eval _ (Expression.ofElem _)] = _
    rw [eval_ofElem newHon_one, eval_ofElem newHon_one]
    rfl
  · simp only [eval_ofElem newHon_one]
    rw [smul_zero, add_zero, show (0 : Elem bls12_381Order).n = 0 from rfl, zero_smul,
      add_zero, Edwards.Point.zero_y]
    ring
  · simp only [eval_ofElem newHon_one]
  · rw [eval_ofElem newHon_one]
    decide +kernel

end R1CS
