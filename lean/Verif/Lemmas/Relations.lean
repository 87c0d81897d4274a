import Verif.Spec.Relations
import Verif.Props.Tidy

/-!
# Lemmas about the relations which gadgets define
-/

set_option linter.unusedSectionVars false

namespace R1CS

variable {p : ℕ} [hp : Fact p.Prime] {α β : Type}

theorem AdmitsIf.intro {n : ℕ} {P : Assign p → Prop} {m : B p α} {obs : Assign p → α → β}
    {R : Assign p → β → Prop} {Q : α → Assign p → Prop} (hE : Enforces m Q)
    (h1 : ∀ (s : Wit p) (a : α) (W : Assign p), s.next = n → P s.W → W ONE = 1 →
      (∀ i < n, W i = s.W i) → Q a W → R s.W (obs W a))
    (h2 : ∀ (s : Wit p) (r : β), s.next = n → P s.W → R s.W r →
      Can m s fun a t => obs t.W a = r) :
    AdmitsIf n P m obs R := by
  intro s hn hP r
  constructor
  · rintro ⟨a, b', W, hr, hs, hW, rfl⟩
    exact h1 s a W hn hP hs.one hW (hE _ _ _ hr W hs).2
  · intro hr
    obtain ⟨a, t, h3, h4, h5⟩ := h2 s r hn hP hr
    refine ⟨a, t.b, t.W, h3, t.sat, fun i hi => h4.2 i (by omega), h5⟩

theorem Admits.intro {n : ℕ} {m : B p α} {obs : Assign p → α → β}
    {R : Assign p → β → Prop} {Q : α → Assign p → Prop} (hE : Enforces m Q)
    (h1 : ∀ (s : Wit p) (a : α) (W : Assign p), s.next = n → W ONE = 1 →
      (∀ i < n, W i = s.W i) → Q a W → R s.W (obs W a))
    (h2 : ∀ (s : Wit p) (r : β), s.next = n → R s.W r → Can m s fun a t => obs t.W a = r) :
    Admits n m obs R :=
  AdmitsIf.intro hE (fun s a W hn _ => h1 s a W hn) fun s r hn _ => h2 s r hn

/-- Assertions. -/
theorem AdmitsWhen.intro {n : ℕ} {m : B p α} {R : Assign p → Prop} {Q : α → Assign p → Prop}
    (hE : Enforces m Q)
    (h1 : ∀ (s : Wit p) (a : α) (W : Assign p), s.next = n → W ONE = 1 →
      (∀ i < n, W i = s.W i) → Q a W → R s.W)
    (h2 : ∀ s : Wit p, s.next = n → R s.W → Can m s fun _ _ => True) : AdmitsWhen n m R :=
  Admits.intro hE (fun s a W hn h h' h'' => h1 s a W hn h h' h'')
    fun s _ hn hr => (h2 s hn hr).mono fun _ _ _ _ => rfl

/-- Results which are functions of the operands. -/
theorem Admits.of_function {n : ℕ} {m : B p α} {obs : Assign p → α → β} {F : Assign p → β}
    (hm : Prog m) (hF : ∀ W W' : Assign p, (∀ i < n, W i = W' i) → F W = F W')
    (hE : Enforces m fun a W => obs W a = F W)
    (hC : ∀ s : Hon p, s.next = n → Comp m s fun a t => obs t.W a = F s.W) :
    Admits n m obs fun W r => r = F W := by
  refine Admits.intro hE (fun s a W hn _ hW h => ?_) fun s r hn hr => ?_
  · rw [h]; exact hF _ _ hW
  · refine (Can.ofComp hm (hC s.toHon hn)).mono fun a t _ ⟨u, _, h2, h3⟩ => ?_
    rw [hr, ← h2]; exact h3

/-- Results which are functions of the operands, under a condition on the operands. -/
theorem AdmitsIf.of_function {n : ℕ} {P : Assign p → Prop} {m : B p α} {obs : Assign p → α → β}
    {F : Assign p → β} (hm : Prog m)
    (hF : ∀ W W' : Assign p, (∀ i < n, W i = W' i) → F W = F W')
    (hP : ∀ W W' : Assign p, (∀ i < n, W i = W' i) → P W' → P W)
    (hE : Enforces m fun a W => P W → obs W a = F W)
    (hC : ∀ s : Hon p, s.next = n → P s.W → Comp m s fun a t => obs t.W a = F s.W) :
    AdmitsIf n P m obs fun W r => r = F W := by
  refine AdmitsIf.intro hE (fun s a W hn hPs _ hW h => ?_) fun s r hn hPs hr => ?_
  · rw [h (hP _ _ hW hPs)]; exact hF _ _ hW
  · refine (Can.ofComp hm (hC s.toHon hn hPs)).mono fun a t _ ⟨u, _, h2, h3⟩ => ?_
    rw [hr, ← h2]; exact h3

/-! ## Arithmetic -/

open Expression (eval_ofWire eval_sub) in
theorem Can.inverse {s : Wit p} {x : Expression p} (hx : x.Scoped s.next) (h : x.eval s.W ≠ 0) :
    Can (B.inverse x) s fun z t => z.Scoped t.next ∧ z.eval t.W = (x.eval s.W)⁻¹ := by
  unfold B.inverse
  refine (Can.wire s (x.eval s.W)⁻¹).bind fun i s1 l1 ⟨e1, n1, v1⟩ => ?_
  refine (Can.assertProduct (l1.scoped hx) (.ofWire (by omega)) (.one s1.pos) ?_).bind
    fun _ s2 l2 ⟨n2, W2⟩ => (Can.generator _ _).bind fun _ s3 l3 ⟨n3, W3⟩ =>
      Can.pure ⟨.ofWire (by omega), ?_⟩
  · rw [l1.eval hx, eval_ofWire, v1, Expression.eval_one s1.one, mul_inv_cancel₀ h]
  · rw [eval_ofWire, W3, W2, v1]

theorem Can.product_eval {s : Wit p} {x y : Expression p} (hx : x.Scoped s.next)
    (hy : y.Scoped s.next) :
    Can (B.product x y) s fun z t => z.Scoped t.next ∧ z.eval t.W = x.eval s.W * y.eval s.W :=
  (Can.ofComp (.product x y) (Comp.product (s := s.toHon) hx hy)).mono
    fun _ _ _ ⟨_, h1, h2, _, h3, h4⟩ => ⟨h1 ▸ h3, h2 ▸ h4⟩

open Expression (eval_ofWire eval_sub) in
theorem Can.nonzero {s : Wit p} {x : Expression p} (hx : x.Scoped s.next) :
    Can (B.nonzero x) s fun z t => z.Scoped t.next ∧
      z.eval t.W = if x.eval s.W = 0 then 0 else 1 := by
  unfold B.nonzero
  refine (Can.wire s (if x.eval s.W = 0 then 0 else 1)).bind fun a s1 l1 ⟨e1, n1, v1⟩ => ?_
  refine (Can.wire s1 (x.eval s.W)⁻¹).bind fun m s2 l2 ⟨e2, n2, v2⟩ => ?_
  have l12 := l1.trans l2
  have ha : s2.W a = if x.eval s.W = 0 then 0 else 1 := by rw [l2.2 a (by omega), v1]
  refine (Can.assertProduct (l12.scoped hx) (.ofWire (by omega)) (.ofWire (by omega)) ?_).bind
    fun _ s3 l3 ⟨n3, W3⟩ => ?_
  · rw [l12.eval hx, eval_ofWire, eval_ofWire, v2, ha]
    split
    · rename_i h; rw [h, zero_mul]
    · rename_i h; exact mul_inv_cancel₀ h
  refine (Can.assertProduct ((Expression.Scoped.one s3.pos).sub (.ofWire (by omega)))
    ((l12.trans l3).scoped hx) .zero ?_).bind fun _ s4 l4 ⟨n4, W4⟩ => ?_
  · rw [eval_sub, Expression.eval_one s3.one, eval_ofWire, W3, ha, l12.eval hx,
      Expression.eval_zero]
    split
    · rename_i h; rw [h, mul_zero]
    · rw [sub_self, zero_mul]
  refine (Can.generator _ _).bind fun _ s5 l5 ⟨n5, W5⟩ => Can.pure ⟨.ofWire (by omega), ?_⟩
  rw [BooleanExpression.eval_mk, eval_ofWire, W5, W4, W3, ha]

open Expression (eval_ofWire eval_sub) in
theorem Can.inverseOrZero {s : Wit p} {x : Expression p} (hx : x.Scoped s.next)
    (h : x.eval s.W ≠ 0) :
    Can (B.inverseOrZero x) s fun z t => z.Scoped t.next ∧ z.eval t.W = (x.eval s.W)⁻¹ := by
  unfold B.inverseOrZero
  refine (Can.wire s (x.eval s.W)⁻¹).bind fun i s1 l1 ⟨e1, n1, v1⟩ => ?_
  refine (Can.nonzero (l1.scoped hx)).bind fun nz s2 l2 ⟨sc, v2⟩ => ?_
  have := l2.1
  have hi : s2.W i = (x.eval s.W)⁻¹ := by rw [l2.2 i (by omega), v1]
  refine (Can.assertProduct ((l1.trans l2).scoped hx) (.ofWire (by omega)) sc ?_).bind
    fun _ s3 l3 ⟨n3, W3⟩ => (Can.generator _ _).bind fun _ s4 l4 ⟨n4, W4⟩ =>
      Can.pure ⟨.ofWire (by omega), ?_⟩
  · rw [(l1.trans l2).eval hx, eval_ofWire, hi, mul_inv_cancel₀ h]
    rw [l1.eval hx, if_neg h] at v2
    exact v2.symm
  · rw [eval_ofWire, W4, W3, hi]

/-! ## Splitting -/

open Expression (eval_ofWire) in
/-- Any digits of a number congruent to the value. -/
theorem Can.splitWithoutRangeCheck {s : Wit p} {x : Expression p} (hx : x.Scoped s.next) {k t : ℕ}
    (hk : k ≤ Elem.maxBits p) (ht : t < 2 ^ k) (hv : x.eval s.W = ((t : ℕ) : Elem p)) :
    Can (B.splitWithoutRangeCheck x k) s fun e s' => e.Scoped s'.next ∧ e.AllBool s'.W ∧
      e.len = k ∧ e.val s'.W = t := by
  unfold B.splitWithoutRangeCheck
  refine (Can.ofComp (Prog.binaryWire k) (Comp.binaryWire s.toHon k (bitElems t k)
    (bitElems_length t k) (bitElems_isBool t k))).bind
    fun bw s1 l1 ⟨u1, hu1, hW1, h1, n1, _, v1⟩ => ?_
  rw [hW1] at v1
  have h1' : bw.bits.map (·.wire) = List.range' s.next k := h1
  have n1' : s1.next = s.next + k := by rw [← hu1, n1]; rfl
  have hlen : bw.bits.length = k := by
    have := congrArg List.length h1'
    simpa using this
  have hlen' : (BinaryExpression.ofWire bw : BinaryExpression p).len = k := by
    rw [BinaryExpression.ofWire_len]; exact hlen
  have hmem : ∀ y ∈ bw.bits, y.wire < s1.next := by
    intro y hy
    have : y.wire ∈ List.range' s.next k := by rw [← h1']; exact List.mem_map.2 ⟨y, hy, rfl⟩
    rw [List.mem_range'_1] at this
    omega
  have hval : (BinaryExpression.ofWire bw : BinaryExpression p).val s1.W = t := by
    unfold BinaryExpression.val
    rw [BinaryExpression.ofWire_digits]
    have : (bw.bits.map fun y => (s1.W y.wire).n)
        = (bitElems t k : List (Elem p)).map fun x => x.n := by
      rw [← v1, List.map_map]; rfl
    rw [this, bitElems_val ht]
  have hbool : (BinaryExpression.ofWire bw : BinaryExpression p).AllBool s1.W := by
    rw [BinaryExpression.ofWire_allBool]
    intro y hy
    have : s1.W y.wire ∈ (bitElems t k : List (Elem p)) := by
      rw [← v1]; exact List.mem_map.2 ⟨y, hy, rfl⟩
    exact bitElems_isBool t k _ this
  have hsc : (BinaryExpression.ofWire bw : BinaryExpression p).Scoped s1.next :=
    BinaryExpression.ofWire_scoped fun y hy => hmem y hy
  obtain ⟨ws, e1, e2⟩ := BinaryExpression.joinAllowingOverflow_eq (e :=
    (BinaryExpression.ofWire bw : BinaryExpression p)) (by rw [hlen']; exact hk)
  refine Can.ofOption_bind e1 ?_
  refine (Can.assertProduct (l1.scoped hx) (.one s1.pos)
    (BinaryExpression.joinAllowingOverflow_scoped e1 hsc) ?_).bind fun _ s2 l2 ⟨n2, W2⟩ => ?_
  · rw [Expression.eval_one s1.one, mul_one, l1.eval hx, e2, hval, hv]
  refine (Can.generator _ _).bind fun _ s3 l3 ⟨n3, W3⟩ => Can.pure ⟨?_, ?_, hlen', ?_⟩
  · rw [n3, n2]; exact hsc
  · rw [W3, W2]; exact hbool
  · rw [W3, W2]; exact hval

/-- The honest bits can be replaced by those of the value plus the order, if these fit. -/
theorem Can.cmp_ambiguous (h4 : 4 ≤ Elem.maxBits p) {s : Wit p} {x y : Expression p}
    (hx : x.Scoped s.next) (hy : y.Scoped s.next) (less : Bool)
    (h : ((if less then x else y).eval s.W).n + p < 2 ^ Elem.maxBits p) :
    Can (B.cmp x y less false) s fun r s' => r.Scoped s'.next ∧ r.eval s'.W = 0 := by
  have h2p := two_lt_of_maxBits h4
  have hc : ∀ e : Expression p, e.eval s.W = (((e.eval s.W).n + p : ℕ) : Elem p) := by
    intro e
    have h0 : ((p : ℕ) : Elem p) = 0 := by
      refine Elem.ext_n ?_
      rw [Elem.natCast_n, Nat.mod_self]; rfl
    rw [Nat.cast_add, Elem.natCast_self_n, h0, add_zero]
  unfold B.cmp
  cases less
  · simp only [Bool.false_eq_true, if_false] at h
    refine (Can.ofComp (Prog.split _) (Comp.split (s := s.toHon) h4 hx)).bind
      fun X s1 l1 ⟨t1, tn1, tW1, a1, a2, a3, a4, a5⟩ => ?_
    rw [tn1] at a2
    rw [tW1] at a3 a5
    refine (Can.splitWithoutRangeCheck (s := s1) (l1.scoped hy) le_rfl h
      (by rw [l1.eval hy]; exact hc y)).bind fun Y s2 l2 ⟨b2, b3, b4, b5⟩ => ?_
    refine (Can.ofComp (Prog.cmpBinary _ _ _ _) (Comp.cmpBinary (s := s2.toHon) h2p
      (a2.mono l2.1) b2 (Wit.Le.allBool l2 a2 a3) b3
      (by rw [a4, b4]) (by omega) (by rw [a4]; exact cmpChunkBits_self h4) false false)).mono
      fun r t _ ⟨u, hu, hW, _, c1, c2⟩ => ?_
    rw [hu] at c1
    rw [hW] at c2
    refine ⟨c1, c2.trans ?_⟩
    rw [ofBool_eq_zero, ← Bool.not_eq_true, cmpHolds_iff]
    have e1 : X.val s2.W = (x.eval s.W).n := by rw [Wit.Le.val l2 a2, a5]; rfl
    change ¬ (if false = true then _ else -((X.val s2.W : ℤ) - (Y.val s2.W : ℤ))) ≤ _
    rw [e1, b5]
    have := (x.eval s.W).lt
    simp
    omega
  · simp only [if_true] at h
    refine (Can.splitWithoutRangeCheck (s := s) hx le_rfl h (hc x)).bind
      fun X s1 l1 ⟨a2, a3, a4, a5⟩ => ?_
    refine (Can.ofComp (Prog.split _) (Comp.split (s := s1.toHon) h4 (l1.scoped hy))).bind
      fun Y s2 l2 ⟨t2, tn2, tW2, b1, b2, b3, b4, b5⟩ => ?_
    rw [tn2] at b2
    rw [tW2] at b3 b5
    refine (Can.ofComp (Prog.cmpBinary _ _ _ _) (Comp.cmpBinary (s := s2.toHon) h2p
      (a2.mono l2.1) b2 (Wit.Le.allBool l2 a2 a3) b3
      (by rw [a4, b4]) (by omega) (by rw [a4]; exact cmpChunkBits_self h4) true false)).mono
      fun r t _ ⟨u, hu, hW, _, c1, c2⟩ => ?_
    rw [hu] at c1
    rw [hW] at c2
    refine ⟨c1, c2.trans ?_⟩
    rw [ofBool_eq_zero, ← Bool.not_eq_true, cmpHolds_iff]
    have e1 : X.val s2.W = (x.eval s.W).n + p := by rw [Wit.Le.val l2 a2, a5]
    have e2 : Y.val s2.W = (y.eval s.W).n := by
      rw [b5]
      exact congrArg Elem.n (l1.eval hy)
    change ¬ (if true = true then ((X.val s2.W : ℤ) - (Y.val s2.W : ℤ)) else _) ≤ _
    rw [e1, e2]
    have := (y.eval s.W).lt
    simp
    omega

/-! ## Random access -/

/-- The item chosen by the tree of `random_access_binary`: the last one whose index has no digits
but those of the given index. -/
theorem pick_last {α : Type} : ∀ (bs : List Bool) (l : List α), l ≠ [] → l.length ≤ 2 ^ bs.length →
    ∃ j, j < l.length ∧ j &&& digitsVal (bs.map Bool.toNat) = j ∧
      (∀ j' < l.length, j' &&& digitsVal (bs.map Bool.toNat) = j' → j' ≤ j) ∧ pick bs l = l[j]?
  | [], l, h0, h => by
    have h1 : l.length = 1 := by
      have := List.length_pos_iff.2 h0
      simp at h; omega
    refine ⟨0, by omega, by simp, fun j' hj' _ => by omega, ?_⟩
    simp [pick, List.head?_eq_getElem?]
  | b :: bs, l, h0, h => by
    have hl := List.length_pos_iff.2 h0
    have hlen := layer_length b l
    have hne : layer b l ≠ [] := by
      rw [← List.length_pos_iff, hlen]; omega
    obtain ⟨j1, g1, g2, g3, g4⟩ := pick_last bs (layer b l) hne (by
      rw [hlen]; simp only [List.length_cons, pow_succ] at h; omega)
    rw [hlen] at g1 g3
    set i1 := digitsVal (bs.map Bool.toNat) with hi1
    have hi : digitsVal ((b :: bs).map Bool.toNat) = 2 * i1 + b.toNat := by
      simp only [List.map_cons, digitsVal]; omega
    rw [hi]
    have hand : ∀ a c : ℕ, c ≤ 1 → (2 * a + c) &&& (2 * i1 + b.toNat)
        = 2 * (a &&& i1) + (if c = 1 ∧ b = true then 1 else 0) := by
      intro a c hc
      apply Nat.eq_of_testBit_eq
      intro k
      rw [Nat.testBit_and]
      cases k with
      | zero =>
        have : c = 0 ∨ c = 1 := by omega
        rcases this with rfl | rfl <;> cases b <;> simp [Nat.testBit_zero]
      | succ k =>
        rw [Nat.testBit_succ, Nat.testBit_succ, Nat.testBit_succ]
        have e1 : (2 * a + c) / 2 = a := by omega
        have e2 : (2 * i1 + b.toNat) / 2 = i1 := by cases b <;> simp; omega
        have e3 : (2 * (a &&& i1) + (if c = 1 ∧ b = true then 1 else 0)) / 2 = a &&& i1 := by
          split <;> omega
        rw [e1, e2, e3, Nat.testBit_and]
    have hmax : ∀ j' < l.length, j' &&& (2 * i1 + b.toNat) = j' →
        j' / 2 ≤ j1 ∧ j' % 2 ≤ b.toNat := by
      intro j' hj' he
      have hc : j' % 2 ≤ 1 := by omega
      have hd : 2 * (j' / 2) + j' % 2 = j' := by omega
      have := hand (j' / 2) (j' % 2) hc
      rw [hd, he] at this
      refine ⟨g3 _ (by omega) ?_, ?_⟩
      · split at this <;> omega
      · split at this
        · rename_i hcb; rw [hcb.2]; simp; omega
        · omega
    by_cases hb : 2 * j1 + b.toNat < l.length
    · refine ⟨2 * j1 + b.toNat, hb, ?_, fun j' hj' he => ?_, ?_⟩
      · rw [hand _ _ (Bool.toNat_le b), g2]; cases b <;> simp
      · obtain ⟨k1, k2⟩ := hmax j' hj' he
        omega
      · rw [pick, g4, layer_getElem? b l _ hb]
    · have hbt : b = true := by
        cases b
        · simp at hb; omega
        · rfl
      subst hbt
      simp only [Bool.toNat_true] at hb hmax hand ⊢
      refine ⟨2 * j1, by omega, ?_, fun j' hj' he => ?_, ?_⟩
      · have := hand j1 0 (by omega)
        simpa [g2] using this
      · obtain ⟨k1, k2⟩ := hmax j' hj' he
        omega
      · rw [pick, g4, layer_last l j1 (by omega)]
where
  layer_last {α : Type} : ∀ (l : List α) (j : ℕ), 2 * j + 1 = l.length →
      (layer true l)[j]? = l[2 * j]?
    | [], j, h => by simp at h
    | [a], j, h => by
      have : j = 0 := by simp at h; omega
      subst this; rfl
    | _ :: _ :: _, 0, h => by simp at h
    | a :: c :: rest, j + 1, h => by
      have := layer_last rest j (by simp at h; omega)
      rw [layer, List.getElem?_cons_succ, this]
      rfl

end R1CS
