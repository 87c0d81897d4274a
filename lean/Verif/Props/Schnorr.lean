import Verif.Props.Curves

/-!
# C69: Schnorr signatures
-/

set_option linter.unusedSectionVars false

namespace R1CS

variable {p : ℕ} [hp : Fact p.Prime]

open Edwards (OnCurve Complete Point)
open Expression (eval_add eval_mulElem eval_one eval_ofElem)

/-- C69: in every satisfying assignment of `verify`, over any group whose operations only add
constraints, `e` is the hash of the message with some field element. -/
theorem C69_hash_enforced {GE GX : Type} (C : CyclicGroupOps p GE GX)
    (ha : ∀ x y, Prog (C.addExpressions x y)) (hd : ∀ x, Prog (C.doubleExpression x))
    {c : CompressionFunction p} {h : Elem p → Elem p → Elem p} (hc : Enforced2 c.compress h)
    (σ : SignatureExpression p) (m : Expression p) (pk : GX) :
    Enforces (schnorrVerify C c σ m pk) fun _ w => ∃ y, h y (m.eval w) = σ.e.eval w := by
  unfold schnorrVerify
  refine (Prog.ofOption _).enforces.bind fun g =>
    (GroupOps.prog_mulScalar ha hd g σ.s).enforces.bind fun gs =>
    (GroupOps.prog_mulScalar ha hd pk σ.e).enforces.bind fun ye =>
    (ha gs ye).enforces.bind fun r => (hc _ _).bind fun z =>
    (Enforces.assertEqual z σ.e).mono fun _ w _ he hz _ _ _ _ => ⟨(C.compressed r).eval w, ?_⟩
  rw [← he, hz]

/-- The compression function of the test computes `2 x + y`. -/
theorem testCompress_spec :
    Enforced2 (testCompress (p := p)).compress (fun x y => 2 * x + y) ∧
    (2 < p → Computed2 (testCompress (p := p)).compress fun x y => 2 * x + y) := by
  constructor
  · intro x y
    refine (Enforces.ofOption (Q := fun z w => z.eval w = x.eval w * (2 : ℕ))
      fun z h w _ => Expression.eval_mulNat h w).bind fun z => Enforces.pure fun w _ hz => ?_
    rw [eval_add, hz]
    push_cast
    ring
  · intro h2 s x y hx hy
    refine Comp.computes (Comp.ofOption_bind (x.mulNat_eq h2) ?_)
    refine Comp.pure ⟨rfl, (hx.mulElem _).add hy, ?_⟩
    rw [eval_add, eval_mulElem]
    push_cast
    ring

/-- On JubJub with the test's compression function. -/
example (σ : SignatureExpression bls12_381Order) (m : Expression bls12_381Order)
    (pk : EdwardsExpression bls12_381Order) :
    Enforces (schnorrVerify jubjubPrimeSubgroup testCompress σ m pk) fun _ w =>
      ∃ y, 2 * y + m.eval w = σ.e.eval w :=
  C69_hash_enforced jubjubPrimeSubgroup (EdwardsGroup.prog_add jubjub)
    (EdwardsGroup.prog_double jubjub) testCompress_spec.1 σ m pk

/-- C69: over a complete Edwards curve with generator `g`, honest execution of `verify` with the
public key `Y` accepts the signature `(s, e)` if the hash of the second coordinate of `s g + e Y` and
the message is `e`, and rejects it otherwise. -/
theorem C69_verify_computed (C : EdwardsCurve p) [Complete C.a C.d] {g Y : Point C.a C.d}
    {c : CompressionFunction p} {h : Elem p → Elem p → Elem p} (hc : Computed2 c.compress h)
    (st : Hon p) {σ : SignatureExpression p} {m : Expression p} {pk : EdwardsExpression p}
    (hs : σ.s.Scoped st.next) (he : σ.e.Scoped st.next) (hm : m.Scoped st.next)
    (hpk : (EdwardsGroup.ops C).At st pk [Y.x, Y.y]) :
    (h ((σ.s.eval st.W).n • g + (σ.e.eval st.W).n • Y).y (m.eval st.W) = σ.e.eval st.W →
      Computes (schnorrVerify (cyclicSubgroup (EdwardsGroup.ops C) (some ⟨g.x, g.y⟩)) c σ m pk) st
        fun _ _ => True) ∧
    (h ((σ.s.eval st.W).n • g + (σ.e.eval st.W).n • Y).y (m.eval st.W) ≠ σ.e.eval st.W →
      Rejects (schnorrVerify (cyclicSubgroup (EdwardsGroup.ops C) (some ⟨g.x, g.y⟩)) c σ m pk)
        st) := by
  have hG := EdwardsGroup.computesGroup C
  have hf : ∀ (s : Hon p) (x : EdwardsExpression p) (P : Point C.a C.d),
      (EdwardsGroup.ops C).At s x P.coords → x.y.Scoped s.next ∧ x.y.eval s.W = P.y := by
    intro s x P ⟨h1, h2⟩
    refine ⟨h1 x.y (by change _ ∈ [x.x, x.y]; simp), ?_⟩
    change [x.x.eval s.W, x.y.eval s.W] = [P.x, P.y] at h2
    simp only [List.cons.injEq, and_true] at h2
    exact h2.2
  constructor
  · intro hok
    exact ((comp_schnorrVerify (C := cyclicSubgroup (EdwardsGroup.ops C) (some ⟨g.x, g.y⟩)) hG
      (g := g) (Y := Y) rfl hc hf hs he hm hpk hok).mono fun _ _ _ D => ⟨D, trivial⟩).computes
  · intro hbad
    exact rejects_schnorrVerify (C := cyclicSubgroup (EdwardsGroup.ops C) (some ⟨g.x, g.y⟩)) hG
      (g := g) (Y := Y) rfl hc hf hs he hm hpk hbad

/-- C69: signatures with `s` congruent to `k - x e` modulo the order of the generator, for the nonce
`k` and the private key `x`, and with `e` the hash of the nonce point and the message, verify. -/
theorem C69_honest_signatures (C : EdwardsCurve p) [Complete C.a C.d] {g : Point C.a C.d}
    {c : CompressionFunction p} {h : Elem p → Elem p → Elem p} (hc : Computed2 c.compress h)
    (st : Hon p) {σ : SignatureExpression p} {m : Expression p} {pk : EdwardsExpression p} (k x : ℕ)
    (hs : σ.s.Scoped st.next) (he : σ.e.Scoped st.next) (hm : m.Scoped st.next)
    (hpk : (EdwardsGroup.ops C).At st pk [(x • g).x, (x • g).y])
    (heq : σ.e.eval st.W = h (k • g).y (m.eval st.W))
    (hsq : (σ.s.eval st.W).n + x * (σ.e.eval st.W).n ≡ k [MOD addOrderOf g]) :
    Computes (schnorrVerify (cyclicSubgroup (EdwardsGroup.ops C) (some ⟨g.x, g.y⟩)) c σ m pk) st
      fun _ _ => True := by
  refine (C69_verify_computed C hc st hs he hm hpk).1 ?_
  have : (σ.s.eval st.W).n • g + (σ.e.eval st.W).n • (x • g) = k • g := by
    rw [← mul_smul, ← add_smul, mul_comm]
    exact nsmul_eq_nsmul_iff_modEq.2 hsq
  rw [this, heq]

/-- On the example curve: private key 3, nonce 2, message 1; the nonce point is (12, 0), `e` is 1 and
`s` is 7, as `7 + 3` is 2 modulo the order 8. -/
example : Computes (schnorrVerify (cyclicSubgroup (EdwardsGroup.ops curve13) (some ⟨4, 9⟩))
    testCompress ⟨Expression.ofElem 7, Expression.ofElem 1⟩ (Expression.ofElem 1)
    (EdwardsExpression.ofPoint ⟨(3 • point13).x, (3 • point13).y⟩)) (newHon 13)
    fun _ _ => True := by
  have hord : addOrderOf point13 = 8 := by
    have h8 : (8 : ℕ) = 2 ^ (2 + 1) := by norm_num
    rw [h8]
    haveI : Fact (Nat.Prime 2) := ⟨Nat.prime_two⟩
    refine addOrderOf_eq_prime_pow ?_ ?_
    · intro h
      have := congrArg Point.y h
      revert this
      decide
    · apply Point.ext <;> decide
  refine C69_honest_signatures curve13 (g := point13) (testCompress_spec.2 (by norm_num))
    (newHon 13) (σ := ⟨_, _⟩) 2 3 (.ofElem (le_refl _) _) (.ofElem (le_refl _) _)
    (.ofElem (le_refl _) _) ⟨?_, ?_⟩ ?_ ?_
  · intro e he
    change e ∈ [Expression.ofElem _, Expression.ofElem _] at he
    simp only [List.mem_cons, List.not_mem_nil, or_false] at he
    rcases he with rfl | rfl <;> exact .ofElem (le_refl _) _
  · change [Expression.eval _ (Expression.ofElem _), Expression.eval _ (Expression.ofElem _)] = _
    rw [eval_ofElem newHon_one, eval_ofElem newHon_one]
  · change Expression.eval _ (Expression.ofElem 1) = _
    rw [eval_ofElem newHon_one]
    decide
  · change (Expression.eval _ (Expression.ofElem 7)).n + 3 *
      (Expression.eval _ (Expression.ofElem 1)).n ≡ 2 [MOD _]
    rw [eval_ofElem newHon_one, eval_ofElem newHon_one, hord]
    decide

/-- C69 is false if `s` is `k - x e` computed in the field, as the crate's own test does: the
signature of that test, produced with the crate's functions from the private key, the nonce and the
message given there, is rejected. -/
theorem C69_field_signature_refuted (G : Point jubjub.a jubjub.d) (hx : G.x = jubjubGeneratorX)
    (hy : G.y = jubjubGeneratorY) (key nonce message e s : Elem bls12_381Order)
    (hkey : key.n = 4372820819045374670962167435360035096875258)
    (hnonce : nonce.n = 5434290453746709621674353600312312) (hmessage : message.n = 12345)
    (Y R : EdwardsPoint bls12_381Order)
    (hY : jubjubPrimeSubgroup.mulScalarElement ⟨G.x, G.y⟩ key = some Y)
    (hR : jubjubPrimeSubgroup.mulScalarElement ⟨G.x, G.y⟩ nonce = some R)
    (he : testCompress.compressEvaluate R.compressedElement message = some e)
    (hs : s = nonce - key * e) :
    Rejects (schnorrVerify jubjubPrimeSubgroup testCompress
      ⟨Expression.ofElem s, Expression.ofElem e⟩ (Expression.ofElem message)
      (EdwardsExpression.ofPoint Y)) (newHon bls12_381Order) := by
  have h2 : 2 < bls12_381Order := by decide +kernel
  have hG : G = jubjubG := Edwards.Point.ext hx hy
  have hm1 := (C67_complete_curve jubjub G).2
  have hY' : Y = ⟨(key.n • G).x, (key.n • G).y⟩ := Option.some.inj (hY.symm.trans (hm1 key))
  have hR' : R = ⟨(nonce.n • G).x, (nonce.n • G).y⟩ := Option.some.inj (hR.symm.trans (hm1 nonce))
  have he' : e = 2 * (nonce.n • G).y + message := by
    have := C71_compression_function (testCompress_spec.2 h2) R.compressedElement message
    rw [he, hR'] at this
    exact Option.some.inj this
  have hgen : jubjubPrimeSubgroup = cyclicSubgroup (EdwardsGroup.ops jubjub) (some ⟨G.x, G.y⟩) := by
    unfold jubjubPrimeSubgroup
    rw [jubjubGenerator_eq, hG]
    rfl
  -- the second coordinate of the nonce point
  have hRy : (nonce.n • G).y = ⟨
      20768235325647688462191456411928567812092467772926728408730412557216485238242,
      by decide +kernel⟩ := by
    have hr := jubjubMul_repr (k := nonce.n) (by rw [hnonce]; decide +kernel)
    rw [← hG, hnonce] at hr
    rw [hnonce]
    exact hr.y_lit _ (by decide +kernel)
  have hmsg : message = ⟨12345, by decide +kernel⟩ := Elem.ext_n hmessage
  have hkey' : key = ⟨4372820819045374670962167435360035096875258, by decide +kernel⟩ :=
    Elem.ext_n hkey
  have hnonce' : nonce = ⟨5434290453746709621674353600312312, by decide +kernel⟩ :=
    Elem.ext_n hnonce
  have hen : e.n = 41536470651295376924382912823857135624184935545853456817460825114432970488829 := by
    rw [he', hRy, hmsg]
    decide +kernel
  have hsn : s.n = 42935509837723672491981821126819211816872678624728550386442024890213508858696 := by
    rw [hs, Elem.ext_n (a := e) (b := ⟨_, by decide +kernel⟩) hen, hkey', hnonce']
    decide +kernel
  rw [hgen, hY']
  refine (C69_verify_computed jubjub (Y := key.n • G) (testCompress_spec.2 h2) (newHon _)
    (σ := ⟨Expression.ofElem s, Expression.ofElem e⟩) (.ofElem (le_refl _) _) (.ofElem (le_refl _) _) (.ofElem (le_refl _) _)
    ⟨?_, ?_⟩).2 ?_
  · intro c hc
    change c ∈ [Expression.ofElem _, Expression.ofElem _] at hc
    simp only [List.mem_cons, List.not_mem_nil, or_false] at hc
    rcases hc with rfl | rfl <;> exact .ofElem (le_refl _) _
  · change [Expression.eval _ (Expression.ofElem _), Expression.eval _ (Expression.ofElem _)] = _
    rw [eval_ofElem newHon_one, eval_ofElem newHon_one]
  · simp only
    rw [eval_ofElem newHon_one, eval_ofElem newHon_one, eval_ofElem newHon_one]
    intro hbad
    have hy2 : (s.n • G + e.n • (key.n • G)).y = (nonce.n • G).y := by
      have h3 := hbad.trans he'
      have h4 : (2 : Elem bls12_381Order) * ((s.n • G + e.n • (key.n • G)).y - (nonce.n • G).y) = 0 := by
        linear_combination h3
      rcases mul_eq_zero.1 h4 with h5 | h5
      · exact absurd h5 jubjub_complete.two_ne
      · exact sub_eq_zero.1 h5
    rw [← mul_smul, ← add_smul, hsn, hen, hkey, hnonce, hG] at hy2
    exact absurd (((jubjubMul_repr (by decide +kernel)).y_eq_iff
      (jubjubMul_repr (by decide +kernel))).1 hy2) (by decide +kernel)

/-- C69 is false as a security property: over every Edwards curve, for every public key (on the curve
or not), every `s`, and every message and `e` such that `e` is the hash of the message with some field
element, the constraints of `verify` can be satisfied, without knowledge of any private key. -/
theorem C69_forgery_refuted (h2 : 2 < p) (C : EdwardsCurve p) {g : EdwardsPoint p}
    {c : CompressionFunction p} {h : Elem p → Elem p → Elem p} (hc : Computed2 c.compress h)
    (hprog : ∀ x y, Prog (c.compress x y)) (st : Wit p) {σ : SignatureExpression p}
    {m : Expression p} {pk : EdwardsExpression p} (hs : σ.s.Scoped st.next)
    (he : σ.e.Scoped st.next) (hm : m.Scoped st.next)
    (hpk : pk.x.Scoped st.next ∧ pk.y.Scoped st.next)
    (hv : ∃ y, h y (m.eval st.W) = σ.e.eval st.W) :
    Can (schnorrVerify (cyclicSubgroup (EdwardsGroup.ops C) (some g)) c σ m pk) st
      fun _ _ => True := by
  obtain ⟨v, hv⟩ := hv
  exact can_schnorrVerify h2 C rfl hc hprog hs he hm hpk hv

/-- On JubJub with the test's compression function every signature of every message under every
public key is accepted by some assignment. -/
example (s e m : Elem bls12_381Order) (pk : EdwardsPoint bls12_381Order) :
    Can (schnorrVerify jubjubPrimeSubgroup testCompress ⟨Expression.ofElem s, Expression.ofElem e⟩
      (Expression.ofElem m) (EdwardsExpression.ofPoint pk)) (emptyWit bls12_381Order)
      fun _ _ => True := by
  have h2 : 2 < bls12_381Order := by decide +kernel
  unfold jubjubPrimeSubgroup
  rw [jubjubGenerator_eq]
  refine C69_forgery_refuted h2 jubjub (testCompress_spec.2 h2) prog_testCompress _ (σ := ⟨_, _⟩)
    (.ofElem (le_refl _) _) (.ofElem (le_refl _) _) (.ofElem (le_refl _) _)
    ⟨.ofElem (le_refl _) _, .ofElem (le_refl _) _⟩ ⟨(e - m) / 2, ?_⟩
  simp only
  rw [eval_ofElem (emptyWit _).one, eval_ofElem (emptyWit _).one, mul_div_cancel₀ _ jubjub_complete.two_ne]
  ring

end R1CS
