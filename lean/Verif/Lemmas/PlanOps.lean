import Verif.Lemmas.Plan

/-!
# Panics and sizes from forms: networks, points, paths, hashes; every gadget of the language
-/

set_option linter.unusedSectionVars false

namespace R1CS

variable {p : ℕ} [hp : Fact p.Prime] {α β γ : Type}

open Language

namespace Fits

/-! ## Permutation networks and sorting -/

theorem createSwitch (x y : Expression p) : Fits (B.createSwitch x y) 2 fun _ => True :=
  booleanWire.bind (l := 1) fun _ _ => (selection _ _ _).bind (l := 0) fun _ _ => pure trivial

theorem switchLayer : ∀ (k : ℕ) (xs : List (Expression p)), 2 * k ≤ xs.length →
    Returns (B.switchLayer k xs) fun r => r.2.1.length = k ∧ r.2.2.length = k
  | 0, _, _ => .pure ⟨rfl, rfl⟩
  | k + 1, [], h => absurd h (by simp)
  | k + 1, [_], h => absurd h (by simp; omega)
  | k + 1, x :: y :: rest, h => fun b => by
    obtain ⟨a, b1, h1, -⟩ := createSwitch x y b
    obtain ⟨r, b2, h2, h3, h4⟩ := switchLayer k rest (by simp at h; omega) b1
    refine ⟨(a.1 :: r.1, a.2.1 :: r.2.1, a.2.2 :: r.2.2), b2, ?_, by simp [h3], by simp [h4]⟩
    unfold B.switchLayer
    rw [B.bind_eq h1]
    dsimp only
    rw [B.bind_eq h2]
    rfl

theorem permutation2x2 (x y z u : Expression p) :
    Returns (B.assertPermutation2x2 x y z u) fun _ => True := fun b => by
  obtain ⟨a, b1, h1, -⟩ := createSwitch x y b
  unfold B.assertPermutation2x2
  rw [B.bind_eq h1]
  exact ⟨_, _, rfl, trivial⟩

theorem permutationFuel (fuel : ℕ) : ∀ (a b : List (Expression p)), a.length ≤ fuel →
    a.length = b.length → Returns (B.assertPermutationFuel fuel a b) fun _ => True := by
  induction fuel with
  | zero =>
    intro a b hl hlen
    unfold B.assertPermutationFuel
    have : a.length = 0 := by omega
    exact (Returns.require hlen).bind fun _ _ => .require this
  | succ fuel ih =>
    intro a b hl hlen
    unfold B.assertPermutationFuel
    refine (Returns.require hlen).bind fun _ _ => ?_
    split
    · exact .pure trivial
    · exact .assertProduct _ _ _
    · exact permutation2x2 _ _ _ _
    · next hne0 hne1 hne2 =>
      have hn3 : 3 ≤ a.length := by
        match a, b, hlen, hne0, hne1, hne2 with
        | [], _, _, h, _, _ => exact absurd rfl h
        | [x], [y], _, _, h, _ => exact absurd rfl (h x y rfl)
        | [x, y], [z, w], _, _, _, h => exact absurd rfl (h x y z w rfl)
        | _ :: _ :: _ :: _, _, _, _, _, _ => simp
      dsimp only
      generalize hn : a.length = n at *
      refine (switchLayer _ a (by omega)).bind fun ra ⟨ha1, ha2⟩ =>
          (switchLayer _ b (by split <;> omega)).bind fun rb ⟨hb1, hb2⟩ =>
          Returns.bind (Q := fun _ => True) ?_ fun _ _ => .generator _ _
      split
      · next he =>
        rw [if_pos he] at hb1 hb2
        obtain ⟨y1, hy1⟩ : ∃ y, b[n - 2]? = some y := ⟨_, List.getElem?_eq_getElem (by omega)⟩
        obtain ⟨y2, hy2⟩ : ∃ y, b[n - 1]? = some y := ⟨_, List.getElem?_eq_getElem (by omega)⟩
        exact (Returns.ofOption (Q := fun _ => True) hy1 trivial).bind fun z1 _ =>
          (Returns.ofOption (Q := fun _ => True) hy2 trivial).bind fun z2 _ =>
          (ih ra.2.1 (rb.2.1 ++ [z1]) (by omega) (by simp [ha1, hb1]; omega)).bind fun _ _ =>
            ih ra.2.2 (rb.2.2 ++ [z2]) (by omega) (by simp [ha2, hb2]; omega)
      · next ho =>
        rw [if_neg ho] at hb1 hb2
        obtain ⟨y1, hy1⟩ : ∃ y, a[n - 1]? = some y := ⟨_, List.getElem?_eq_getElem (by omega)⟩
        obtain ⟨y2, hy2⟩ : ∃ y, b[n - 1]? = some y := ⟨_, List.getElem?_eq_getElem (by omega)⟩
        have hk : ∀ z1 : Expression p, (ra.2.2 ++ [z1]).length = (n + 1) / 2 := by
          intro z1; simp [ha2]; omega
        exact (Returns.ofOption (Q := fun _ => True) hy1 trivial).bind fun z1 _ =>
          (Returns.ofOption (Q := fun _ => True) hy2 trivial).bind fun z2 _ =>
          (ih ra.2.1 rb.2.1 (by omega) (by simp [ha1, hb1])).bind
          fun _ _ => ih (ra.2.2 ++ [z1]) (rb.2.2 ++ [z2]) (by rw [hk]; omega) (by simp [ha2, hb2])

theorem assertPermutation {a b : List (Expression p)} (h : a.length = b.length) :
    Fits (B.assertPermutation a b) (Plan.network a.length) fun _ => True :=
  of' (permutationFuel a.length a b le_rfl h) (.assertPermutationFuel a.length a b)

theorem assertPermutation_none {a b : List (Expression p)} (h : a.length ≠ b.length) :
    ∀ s, B.assertPermutation a b s = none := by
  unfold B.assertPermutation
  cases a with
  | nil => exact B.none_bind (B.require_none h)
  | cons x a => exact B.none_bind (B.require_none h)

section

variable (h4 : 4 ≤ Elem.maxBits p)

include h4

theorem splitOutputs : ∀ l : List (Expression p), l ≠ [] → Fits (B.splitOutputs l)
    (l.length * (Elem.maxBits p + 1) + (Plan.comparison (Elem.maxBits p) (Elem.maxBits p) + 1))
    fun r => r.length = l.length ∧ ∀ e ∈ r, e.len = Elem.maxBits p
  | [], h => absurd rfl h
  | [e], _ => by
    unfold B.splitOutputs
    refine ((split h4 e).bind (l := 0) fun r hr => pure ?_).le (by simp)
    exact ⟨rfl, fun x hx => by rw [List.mem_singleton.1 hx]; exact hr⟩
  | e :: e' :: rest, _ => by
    unfold B.splitOutputs B.splitAllowingAmbiguity
    refine ((splitWithoutRangeCheck e le_rfl).bind fun r hr => (splitOutputs (e' :: rest) (by simp)).bind
      (l := 0) fun rs hrs => pure ⟨by simp [hrs.1], fun x hx => ?_⟩).le (by
        simp only [List.length_cons]; apply le_of_eq; ring)
    rcases List.mem_cons.1 hx with rfl | hx
    · exact hr
    · exact hrs.2 x hx

theorem assertAscending : ∀ l : List (BinaryExpression p), (∀ e ∈ l, e.len = Elem.maxBits p) →
    Fits (B.assertAscending l)
      ((l.length - 1) * (Plan.comparison (Elem.maxBits p) (Elem.maxBits p) + 2 + 1)) fun _ => True
  | [], _ => (pure trivial).le (by simp)
  | [_], _ => (pure trivial).le (by simp)
  | x :: y :: rest, h => by
    unfold B.assertAscending B.assertLeBinary B.leBinary
    have hx := h x (by simp)
    have hc := cmpBinary h4 (x := x) (y := y) (by
      rw [hx, h y (by simp)]; exact comparable_self h4) true false
    rw [hx] at hc
    refine ((hc.bind (l := 1) fun _ _ => assertTrue _).bind fun _ _ =>
      assertAscending (y :: rest) fun e he => h e (by simp [he])).le ?_
    simp only [List.length_cons, Nat.add_sub_cancel]
    apply le_of_eq
    simp
    ring

theorem sortAscending {l : List (Expression p)} (h : l ≠ []) : Fits (B.sortAscending l)
    (Plan.sorting (Elem.maxBits p) l.length) fun r => r.length = l.length := by
  unfold B.sortAscending
  have h1 : ∀ ws : List Wire, ws.length = l.length →
      ws.map (Expression.ofWire (p := p)) ≠ [] := by
    intro ws hws h0
    rw [List.map_eq_nil_iff] at h0
    subst h0
    exact h (List.length_eq_zero_iff.1 hws.symm)
  refine Fits.bind0 (Q := fun ws => ws.length = l.length) (wires l.length) fun ws hws => ?_
  dsimp only
  refine ((assertPermutation (b := ws.map Expression.ofWire) (by simp [hws])).bind fun _ _ =>
    (splitOutputs h4 _ (h1 ws hws)).bind fun bs hbs => ((assertAscending h4 bs hbs.2).le
    (l := (l.length - 1) * (Plan.comparison (Elem.maxBits p) (Elem.maxBits p) + 2 + 1))
      (by rw [hbs.1, List.length_map, hws])).bind
    (l := 0) fun _ _ => (generator _ _).bind0 fun _ _ => pure (by simp [hws])).le ?_
  unfold Plan.sorting
  rw [List.length_map, hws]
  omega

theorem sortDescending {l : List (Expression p)} (h : l ≠ []) : Fits (B.sortDescending l)
    (Plan.sorting (Elem.maxBits p) l.length) fun r => r.length = l.length :=
  (sortAscending h4 h).bind (l := 0) fun _ hr => pure (by simp [hr])

end

/-! ## Points -/

theorem edwardsNew (C : EdwardsCurve p) (x y : Expression p) :
    Fits (EdwardsExpression.new C x y) 4 fun _ => True :=
  (product _ _).bind (l := 3) fun _ _ => (product _ _).bind (l := 2) fun _ _ =>
    (product _ _).bind (l := 1) fun _ _ => (assertEqual _ _).bind (l := 0) fun _ _ => pure trivial

theorem addExpressions (C : EdwardsCurve p) (P Q : EdwardsExpression p) :
    Fits (EdwardsGroup.addExpressions C P Q) 5 fun _ => True :=
  (product _ _).bind (l := 4) fun _ _ => (product _ _).bind (l := 3) fun _ _ =>
    (product _ _).bind (l := 2) fun _ _ => (product _ _).bind (l := 1) fun _ _ =>
    (product _ _).bind (l := 0) fun _ _ => (quotientUnsafe _ _).bind0 fun _ _ =>
    (quotientUnsafe _ _).bind0 fun _ _ => pure trivial

theorem doubleExpression (h2 : 2 < p) (C : EdwardsCurve p) (P : EdwardsExpression p) :
    Fits (EdwardsGroup.doubleExpression C P) 3 fun _ => True := by
  have e1 : Elem.ofNat? p 2 = some ⟨2, h2⟩ := dif_pos h2
  have e2 : (Expression.ofNat? 2 : Option (Expression p)) = some (Expression.ofElem ⟨2, h2⟩) := by
    unfold Expression.ofNat?
    rw [e1]; rfl
  exact (product _ _).bind (l := 2) fun _ _ => (product _ _).bind (l := 1) fun _ _ =>
    (product _ _).bind (l := 0) fun _ _ => (ofOption e1).bind0 fun _ _ =>
    (quotientUnsafe _ _).bind0 fun _ _ => (ofOption e2).bind0 fun _ _ =>
    (quotientUnsafe _ _).bind0 fun _ _ => pure trivial

theorem identity (C : EdwardsCurve p) : (EdwardsGroup.ops C).identityExpression =
    some (EdwardsExpression.ofPoint ⟨0, 1⟩) := by
  have : EdwardsPoint.new C 0 1 = some ⟨0, 1⟩ := if_pos (by ring)
  unfold GroupOps.identityExpression
  change (EdwardsPoint.new C 0 1).map _ = _
  rw [this]
  rfl

theorem mulBoolean (C : EdwardsCurve p) (P : EdwardsExpression p) (c : BooleanExpression p) :
    Fits ((EdwardsGroup.ops C).mulBooleanExpression P c) 2 fun _ => True := by
  unfold GroupOps.mulBooleanExpression
  refine (ofOption (identity C)).bind0 fun Q hQ => ?_
  subst hQ
  have : Fits (GroupOps.selectAll c ((EdwardsGroup.ops C).toComponents P)
      ((EdwardsGroup.ops C).toComponents (EdwardsExpression.ofPoint ⟨0, 1⟩))) 2
      fun r => ∃ x y, r = [x, y] :=
    (selection _ _ _).bind (l := 1) fun x _ =>
      ((selection _ _ _).bind (l := 0) fun y _ => (pure (a := []) (Q := fun r => r = []) rfl).bind0
        fun r hr => pure (Q := fun r => ∃ y, r = [y]) ⟨y, by rw [hr]⟩).bind (l := 0)
        fun r ⟨y, hr⟩ => pure ⟨x, y, by rw [hr]⟩
  refine this.bind (l := 0) fun r ⟨x, y, hr⟩ => ?_
  subst hr
  exact (ofOption (a := (⟨x, y⟩ : EdwardsExpression p)) rfl).mono fun _ _ => trivial

theorem mulLoop (h2 : 2 < p) (C : EdwardsCurve p) : ∀ (l : List (BooleanExpression p))
    (s q : EdwardsExpression p), Fits ((EdwardsGroup.ops C).mulLoop l s q) (10 * l.length)
      fun _ => True
  | [], _, _ => pure trivial
  | c :: l, s, q => by
    unfold GroupOps.mulLoop
    refine ((mulBoolean C q c).bind fun r _ => (addExpressions C s r).bind fun _ _ =>
      (doubleExpression h2 C q).bind fun _ _ => mulLoop h2 C l _ _).le ?_
    rw [List.length_cons]; omega

theorem mulScalar (h2 : 2 < p) (C : EdwardsCurve p) (P : EdwardsExpression p) (k : Expression p) :
    Fits ((EdwardsGroup.ops C).mulScalarExpression P k) (Plan.multiple (Elem.maxBits p))
      fun _ => True := by
  unfold GroupOps.mulScalarExpression B.splitAllowingAmbiguity
  exact (splitWithoutRangeCheck k le_rfl).bind fun e he => (ofOption (identity C)).bind0 fun Q _ =>
    (mulLoop h2 C e.bits Q P).le (by rw [show e.bits.length = Elem.maxBits p from he])

theorem schnorrVerify (h2 : 2 < p) (C : EdwardsCurve p) (G : EdwardsPoint p)
    {h : CompressionFunction p} {k : ℕ} (hk : ∀ x y, Fits (h.compress x y) k fun _ => True)
    (s : SignatureExpression p) (m : Expression p) (P : EdwardsExpression p) :
    Fits (R1CS.schnorrVerify (cyclicSubgroup (EdwardsGroup.ops C) (some G)) h s m P)
      (2 * Plan.multiple (Elem.maxBits p) + 5 + k + 1) fun _ => True := by
  unfold R1CS.schnorrVerify
  exact ((ofOption (a := EdwardsExpression.ofPoint G) rfl).bind0 fun g _ =>
    (mulScalar h2 C g s.s).bind fun a _ => (mulScalar h2 C P s.e).bind fun b _ =>
    (addExpressions C a b).bind fun _ _ => (hk _ _).bind fun _ _ => assertEqual _ _).le (by omega)

/-! ## Paths and hashes -/

theorem merkleTreeLoop {c : CompressionFunction p} {k : ℕ}
    (hk : ∀ x y, Fits (c.compress x y) k fun _ => True) :
    ∀ (l : List (BooleanExpression p × Expression p)) (e : Expression p),
    Fits (B.merkleTreeLoop c l e) ((k + 1) * l.length) fun _ => True
  | [], _ => (pure trivial).le (by simp)
  | (_, _) :: l, _ => by
    unfold B.merkleTreeLoop B.merkleTreeStep
    refine (((selection _ _ _).bind fun _ _ => hk _ _).bind fun _ _ => merkleTreeLoop hk l _).le ?_
    rw [List.length_cons]
    apply le_of_eq
    ring

theorem merkleTreeRoot {c : CompressionFunction p} {k : ℕ}
    (hk : ∀ x y, Fits (c.compress x y) k fun _ => True) {bits : BinaryExpression p}
    {siblings : List (Expression p)} (h : bits.len = siblings.length) (x : Expression p) :
    Fits (B.merkleTreeRoot x ⟨bits, siblings⟩ c) ((k + 1) * bits.len) fun _ => True := by
  have : (bits.bits.zip siblings).length = bits.len := by
    rw [List.length_zip, ← h]; exact Nat.min_self _
  rw [← this]
  exact merkleTreeLoop hk _ _

theorem encryptRounds {c : MiMC p} (hc : c.roundPermutation.n.n = 3) (key : Expression p) :
    ∀ (l : List (Elem p)) (x : Expression p), Fits (c.encryptRounds key l x) (2 * l.length)
      fun _ => True
  | [], _ => pure trivial
  | _ :: l, _ => by
    unfold MiMC.encryptRounds MonomialPermutation.permute
    refine ((exponentiation _ _).bind fun _ _ => encryptRounds hc key l _).le ?_
    rw [hc, List.length_cons, show (((3 : ℕ).size - 1) +
      ((List.range (3 : ℕ).size).countP (fun j => (3 : ℕ).testBit j) - 1)) = 2 by decide]
    omega

theorem encrypt {c : MiMC p} (hc : c.roundPermutation.n.n = 3) (key x : Expression p) :
    Fits (c.encrypt key x) (2 * (c.roundConstants.length + 1)) fun _ => True := by
  unfold MiMC.encrypt MonomialPermutation.permute
  refine ((exponentiation _ _).bind fun _ _ => (encryptRounds hc key _ _).bind (l := 0) fun _ _ =>
    pure trivial).le ?_
  rw [hc, show (((3 : ℕ).size - 1) +
      ((List.range (3 : ℕ).size).countP (fun j => (3 : ℕ).testBit j) - 1)) = 2 by decide]
  omega

theorem absorb {h : MerkleDamgard p} {k : ℕ}
    (hk : ∀ x y, Fits (h.compress.compress x y) k fun _ => True) :
    ∀ (l : List (Expression p)) (x : Expression p), Fits (h.absorb l x) (k * l.length) fun _ => True
  | [], _ => (pure trivial).le (by simp)
  | _ :: l, _ => by
    unfold MerkleDamgard.absorb
    refine ((hk _ _).bind fun _ _ => absorb hk l _).le ?_
    rw [List.length_cons]
    apply le_of_eq
    ring

theorem hash {h : MerkleDamgard p} {k : ℕ}
    (hk : ∀ x y, Fits (h.compress.compress x y) k fun _ => True) {l : List (Expression p)}
    (hl : l.length < p) : Fits (h.hash l) (k * (l.length + 1)) fun _ => True := by
  unfold MerkleDamgard.hash
  have e2 : (Expression.ofNat? l.length : Option (Expression p)) =
      some (Expression.ofElem ⟨l.length, hl⟩) := by
    unfold Expression.ofNat?
    rw [show Elem.ofNat? p l.length = some ⟨l.length, hl⟩ from dif_pos hl]; rfl
  exact ((absorb hk _ _).bind fun _ _ => (ofOption e2).bind0 fun _ _ => hk _ _).le
    (le_of_eq (by ring))

end Fits

end R1CS
