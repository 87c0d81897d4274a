import Verif.Lemmas.OutcomeSafe

/-!
# How executions of circuits end: the assertions
-/

set_option linter.unusedSectionVars false
set_option linter.unusedVariables false

namespace R1CS

variable {p : ℕ} [hp : Fact p.Prime] {X Y α β γ : Type}

open Language

namespace Does

/-- An assertion of whatever kind. -/
theorem retNone {m : B p α} {s : Run p} {c : Prop} [Decidable c]
    (h : Does m s fun _ t => t.D = s.D ∧ (t.Holds ↔ s.Holds ∧ c)) :
    Does (Language.retNone m) s (Leaves s [] (decide c)) :=
  h.bind fun _ t _ ⟨h1, h2⟩ => Does.pure ⟨h1, by simp, .nil, by rw [h2, decide_eq_true_iff]⟩

theorem assertTrue {s : Run p} {x : BooleanExpression p} (hx : x.Scoped s.next) :
    Does (B.assertTrue x) s fun _ t => t.next = s.next ∧ t.D = s.D ∧ t.W = s.W ∧
      (t.Holds ↔ s.Holds ∧ x.eval s.W = 1) :=
  (assertEqual hx (Expression.Scoped.one s.pos)).mono fun _ t _ ⟨h1, h2, h3, h4⟩ =>
    ⟨h1, h2, h3, by rw [h4, Expression.eval_one s.one]; rfl⟩

theorem assertZero {s : Run p} {x : Expression p} (hx : x.Scoped s.next) :
    Does (B.assertZero x) s fun _ t => t.next = s.next ∧ t.D = s.D ∧ t.W = s.W ∧
      (t.Holds ↔ s.Holds ∧ x.eval s.W = 0) :=
  (assertEqual hx Expression.Scoped.zero).mono fun _ t _ ⟨h1, h2, h3, h4⟩ =>
    ⟨h1, h2, h3, by rw [h4, Expression.eval_zero]⟩

theorem assertFalse {s : Run p} {x : BooleanExpression p} (hx : x.Scoped s.next) :
    Does (B.assertFalse x) s fun _ t => t.next = s.next ∧ t.D = s.D ∧ t.W = s.W ∧
      (t.Holds ↔ s.Holds ∧ x.eval s.W = 0) := assertZero hx

/-- Comparisons. -/
theorem assertCmp (h4 : 4 ≤ Elem.maxBits p) {less strict : Bool} {s : Run p}
    {x y : Expression p} (hx : x.Scoped s.next) (hy : y.Scoped s.next) :
    Does (B.cmp x y less strict >>= fun r => B.assertTrue r) s fun _ t => t.D = s.D ∧
      (t.Holds ↔ s.Holds ∧
        cmpHolds less strict (((x.eval s.W).n : ℤ) - ((y.eval s.W).n : ℤ)) = true) := by
  refine (Does.lift (X := []) (Q := fun (r : BooleanExpression p) n W => r.Scoped n ∧ r.eval W
      = Elem.ofBool (cmpHolds less strict (((x.eval s.W).n : ℤ) - ((y.eval s.W).n : ℤ))))
    (Tidy.cmp x y less strict).1 (Comp.cmp h4 hx hy less strict)).bind
    fun r t _ ⟨e1, e2, e3, e4⟩ => (assertTrue e3).mono fun _ u _ ⟨g1, g2, g3, g4⟩ =>
      ⟨g2.trans e1, ?_⟩
  rw [g4, e2, e4]
  cases cmpHolds less strict (((x.eval s.W).n : ℤ) - ((y.eval s.W).n : ℤ)) <;>
    simp [Elem.ofBool_true, Elem.ofBool_false]

theorem assertZeros : ∀ (cs : List (BinaryExpression p)) (s : Run p),
    (∀ c ∈ cs, c.Scoped s.next ∧ 2 ^ c.len ≤ p ∧ c.AllBool s.W) →
    Does (B.assertZeros cs) s fun _ t => t.next = s.next ∧ t.D = s.D ∧ t.W = s.W ∧
      (t.Holds ↔ s.Holds ∧ ∀ c ∈ cs, c.val s.W = 0)
  | [], s, _ => Does.pure ⟨rfl, rfl, rfl, by simp⟩
  | c :: cs, s, h => by
    unfold B.assertZeros
    obtain ⟨h1, h2, h3⟩ := h c (by simp)
    obtain ⟨j, hj, hjv⟩ := BinaryExpression.join_eq h2
    refine Does.ofOption_bind hj ?_
    refine (assertZero (BinaryExpression.join_scoped hj h1)).bind
      fun _ s1 l1 ⟨n1, D1, W1, H1⟩ => ?_
    refine (assertZeros cs s1 fun d hd => ?_).mono fun _ s2 l2 ⟨n2, D2, W2, H2⟩ =>
      ⟨by rw [n2, n1], by rw [D2, D1], by rw [W2, W1], ?_⟩
    · rw [n1, W1]
      exact h d (by simp [hd])
    · have : j.eval s.W = 0 ↔ c.val s.W = 0 := by
        rw [hjv]
        constructor
        · intro h0
          have := congrArg Elem.n h0
          rwa [Elem.natCast_n_of_lt (lt_of_lt_of_le h3.val_lt h2)] at this
        · intro h0; rw [h0, Nat.cast_zero]
      rw [H2, H1, W1, this, List.forall_mem_cons, and_assoc]

theorem binaryAssertZero (h2 : 2 < p) {s : Run p} {x : BinaryExpression p} (hx : x.Scoped s.next)
    (hb : x.AllBool s.W) :
    Does (B.binaryAssertZero x) s fun _ t => t.next = s.next ∧ t.D = s.D ∧ t.W = s.W ∧
      (t.Holds ↔ s.Holds ∧ ∀ b ∈ x.bits, b.eval s.W = 0) := by
  unfold B.binaryAssertZero
  have hc' : 0 < Elem.maxBits p - 1 := by
    by_contra hc
    have := Elem.le_two_pow_maxBits (p := p)
    have hm : Elem.maxBits p ≤ 1 := by omega
    have := Nat.pow_le_pow_right (n := 2) (by simp) hm
    omega
  have hsub : ∀ l ∈ chunksOf (Elem.maxBits p - 1) x.bits, ∀ b ∈ l, b ∈ x.bits := by
    intro l hl b hb
    rw [← chunksOf_flatten hc' x.bits]
    exact List.mem_flatten.2 ⟨l, hl, hb⟩
  have hz : ∀ l : List (BooleanExpression p), BinaryExpression.val s.W ⟨l⟩ = 0 ↔
      ∀ b ∈ l, b.eval s.W = 0 := by
    intro l
    constructor
    · intro h b hb
      have := Enforces.digitsVal_eq_zero h (b.eval s.W).n (List.mem_map.2 ⟨b, hb, rfl⟩)
      rw [← Elem.natCast_self_n (b.eval s.W), this, Nat.cast_zero]
    · intro h
      have : BinaryExpression.digits s.W ⟨l⟩ = List.replicate l.length 0 := by
        rw [List.eq_replicate_iff]
        refine ⟨by simp [BinaryExpression.digits], fun d hd => ?_⟩
        obtain ⟨b, hb, rfl⟩ := List.mem_map.1 hd
        rw [h b hb]; rfl
      unfold BinaryExpression.val
      rw [this, digitsVal_replicate_zero]
  refine Does.ofOption_bind (chunks_eq hc') ((assertZeros _ s fun c hc => ?_).mono
    fun _ t _ ⟨n1, D1, W1, H1⟩ => ⟨n1, D1, W1, ?_⟩)
  · obtain ⟨l, hl, rfl⟩ := List.mem_map.1 hc
    refine ⟨fun b hb => hx b (hsub l hl b hb), ?_, fun b hb' => hb b (hsub l hl b hb')⟩
    exact le_trans (Nat.pow_le_pow_right (by simp) (chunksOf_lengths hc' x.bits l hl).2)
      (Elem.two_pow_lt_of_lt_maxBits (by omega)).le
  · rw [H1]
    refine and_congr_right fun _ => ?_
    simp only [List.forall_mem_map, hz]
    conv_rhs => rw [← chunksOf_flatten hc' x.bits]
    simp only [List.mem_flatten]
    exact ⟨fun h b ⟨l, hl, hb⟩ => h l hl b hb, fun h l hl b hb => h b ⟨l, hl, hb⟩⟩

end Does

/-- The digits are zero. -/
theorem bits_zero_iff {W : Assign p} {x : BinaryExpression p} {l : List Bool}
    (h : (x.bits.map fun b => b.eval W) = l.map Elem.ofBool) :
    (∀ b ∈ x.bits, b.eval W = 0) ↔ ∀ b ∈ l, b = false := by
  have h1 : (∀ b ∈ x.bits, b.eval W = 0) ↔ ∀ e ∈ (x.bits.map fun b => b.eval W), e = 0 := by
    simp
  rw [h1, h]
  constructor
  · intro h3 b hb
    have := h3 _ (List.mem_map_of_mem hb)
    cases b
    · rfl
    · rw [Elem.ofBool_true] at this; exact absurd this one_ne_zero
  · intro h3 e he
    obtain ⟨b, hb, rfl⟩ := List.mem_map.1 he
    rw [h3 b hb]; rfl

namespace Op

/-- The outcomes of one operation. -/
abbrev Ends (o : Op p) : Prop := OpOuts o.run o.outcome

theorem judge_eq {c : Prop} [Decidable c] {rs : List (Val p)} {ok : Bool}
    (h : judge c = some (rs, ok)) : rs = [] ∧ ok = decide c := by
  cases h
  exact ⟨rfl, rfl⟩

theorem ends_assertEqual : (assertEqual : Op p).Ends := by
  refine Kind.expr.outs (Kind.expr.outs2 fun s x y rs ok hx hy h => ?_)
  obtain ⟨rfl, rfl⟩ := judge_eq h
  rw [← hy.1, ← hy.2]
  exact ((Does.assertEqual hx.1 hx.2).mono fun _ _ _ h => ⟨h.2.1, h.2.2.2⟩).retNone

theorem ends_assertZero : (assertZero : Op p).Ends := by
  refine Kind.expr.outs (Kind.expr.outs1 fun s x y rs ok hx hy h => ?_)
  obtain ⟨rfl, rfl⟩ := judge_eq h
  cases hy
  exact ((Does.assertZero hx).mono fun _ _ _ h => ⟨h.2.1, h.2.2.2⟩).retNone

theorem ends_assertProduct : (assertProduct : Op p).Ends := by
  refine Kind.expr.outs (Kind.expr.outs3 fun s x y rs ok hx hy h => ?_)
  obtain ⟨rfl, rfl⟩ := judge_eq h
  rw [← hy.1, ← hy.2.1, ← hy.2.2]
  exact ((Does.assertProduct hx.1 hx.2.1 hx.2.2).mono fun _ _ _ h => ⟨h.2.1, h.2.2.2⟩).retNone

theorem ends_assertTrue : (assertTrue : Op p).Ends := by
  refine Kind.bool.outs (Kind.bool.outs1 fun s x y rs ok hx hy h => ?_)
  obtain ⟨rfl, rfl⟩ := judge_eq h
  refine ((Does.assertTrue hx).mono fun _ _ _ h => ⟨h.2.1, ?_⟩).retNone
  rw [h.2.2.2, hy]
  cases y <;> simp [Elem.ofBool_true, Elem.ofBool_false]

theorem ends_assertFalse : (assertFalse : Op p).Ends := by
  refine Kind.bool.outs (Kind.bool.outs1 fun s x y rs ok hx hy h => ?_)
  obtain ⟨rfl, rfl⟩ := judge_eq h
  refine ((Does.assertFalse hx).mono fun _ _ _ h => ⟨h.2.1, ?_⟩).retNone
  rw [h.2.2.2, hy]
  cases y <;> simp [Elem.ofBool_true, Elem.ofBool_false]

theorem ends_assertLt (h4 : 4 ≤ Elem.maxBits p) : (assertLt : Op p).Ends := by
  refine Kind.expr.outs (Kind.expr.outs2 fun s x y rs ok hx hy h => ?_)
  obtain ⟨rfl, rfl⟩ := judge_eq h
  refine ((Does.assertCmp h4 hx.1 hx.2).mono fun _ _ _ h => ⟨h.1, ?_⟩).retNone
  rw [h.2, cmp_lt, hy.1, hy.2, decide_eq_true_iff]

theorem ends_assertLe (h4 : 4 ≤ Elem.maxBits p) : (assertLe : Op p).Ends := by
  refine Kind.expr.outs (Kind.expr.outs2 fun s x y rs ok hx hy h => ?_)
  obtain ⟨rfl, rfl⟩ := judge_eq h
  refine ((Does.assertCmp h4 hx.1 hx.2).mono fun _ _ _ h => ⟨h.1, ?_⟩).retNone
  rw [h.2, cmp_le, hy.1, hy.2, decide_eq_true_iff]

theorem ends_assertGt (h4 : 4 ≤ Elem.maxBits p) : (assertGt : Op p).Ends := by
  refine Kind.expr.outs (Kind.expr.outs2 fun s x y rs ok hx hy h => ?_)
  obtain ⟨rfl, rfl⟩ := judge_eq h
  refine ((Does.assertCmp h4 hx.1 hx.2).mono fun _ _ _ h => ⟨h.1, ?_⟩).retNone
  rw [h.2, cmp_gt, hy.1, hy.2, decide_eq_true_iff]

theorem ends_assertGe (h4 : 4 ≤ Elem.maxBits p) : (assertGe : Op p).Ends := by
  refine Kind.expr.outs (Kind.expr.outs2 fun s x y rs ok hx hy h => ?_)
  obtain ⟨rfl, rfl⟩ := judge_eq h
  refine ((Does.assertCmp h4 hx.1 hx.2).mono fun _ _ _ h => ⟨h.1, ?_⟩).retNone
  rw [h.2, cmp_ge, hy.1, hy.2, decide_eq_true_iff]

theorem ends_assertCmpBinary (h2 : 2 < p) (r : Cmp) : (assertCmpBinary r : Op p).Ends := by
  unfold Op.Ends
  rw [show (assertCmpBinary r : Op p).run = _ from funext (run_assertCmpBinary r)]
  refine Kind.bin.outs (Kind.bin.outs2 fun s x y rs ok hx hy h => ?_)
  dsimp only at h
  split at h
  swap
  · cases h
  rename_i hc
  cases h
  have key : Does (B.cmpBinary x.1 x.2 (r = .lt ∨ r = .le) (r = .lt ∨ r = .gt) >>=
      fun r => B.assertTrue r) s fun _ t => t.D = s.D ∧ (t.Holds ↔ s.Holds ∧
        r.holds (natOf y.1) (natOf y.2) = true) := by
    refine (Does.lift (X := []) (Q := fun (z : BooleanExpression p) n W => z.Scoped n ∧ z.eval W
        = Elem.ofBool (r.holds (natOf y.1) (natOf y.2)))
      (Tidy.cmpBinary x.1 x.2 _ _).1 (comp_cmpBinary h2 r hx.1 hx.2 hy.1 hy.2 hc)).bind
      fun z t _ ⟨e1, e2, e3, e4⟩ => (Does.assertTrue e3).mono fun _ u _ ⟨g1, g2, g3, g4⟩ =>
        ⟨g2.trans e1, ?_⟩
    rw [g4, e2, e4]
    cases r.holds (natOf y.1) (natOf y.2) <;> simp [Elem.ofBool_true, Elem.ofBool_false]
  have := key.retNone
  simpa using this

theorem ends_binaryAssertZero (h2 : 2 < p) : (binaryAssertZero : Op p).Ends := by
  refine Kind.bin.outs (Kind.bin.outs1 fun s x y rs ok hx hy h => ?_)
  obtain ⟨rfl, rfl⟩ := judge_eq h
  refine ((Does.binaryAssertZero h2 hx (bin_val hy).1).mono fun _ _ _ h => ⟨h.2.1, ?_⟩).retNone
  rw [h.2.2.2, bits_zero_iff hy]

theorem ends_binarySumAssertingNoOverflow (h2 : 2 < p) :
    (binarySumAssertingNoOverflow : Op p).Ends := by
  refine Kind.bin.outs fun s x y rs ok hx hy h => ?_
  obtain ⟨h1, h2', h3, h4⟩ := bins_val hy
  split at h
  swap
  · cases h
  rename_i hw
  cases h
  rw [← h2'] at hw
  refine Does.bind (Q := fun z t => t.D = s.D ∧ z.Scoped t.next ∧
    (z.bits.map fun b => b.eval t.W) = (bitsOf (maxLength y) (y.map natOf).sum).map Elem.ofBool ∧
    (t.Holds ↔ s.Holds ∧ (y.map natOf).sum < 2 ^ maxLength y)) ?_
    fun z t _ ⟨e1, e2, e3, e4⟩ => Does.pure ⟨e1, fun o ho => by
      rw [List.mem_singleton] at ho
      subst ho
      exact e2, meansAll_one (o := .bin z) (v := .bits (bitsOf (maxLength y) (y.map natOf).sum))
        (show Means t.W (.bin z) (.bits (bitsOf (maxLength y) (y.map natOf).sum)) from by
          unfold Means; exact e3), by
      rw [e4, decide_eq_true_iff]⟩
  unfold B.binarySummationAssertingNoOverflow
  refine (Does.lift (X := []) (Q := fun (e : BinaryExpression p) n W => e.Scoped n ∧ e.AllBool W ∧
      e.len = (B.maxSum x).size ∧ e.val W = (x.map fun t => t.val s.W).sum)
    (Tidy.binarySummation x).1 (Comp.binarySummation hx h1 hw)).bind
    fun e s1 l1 ⟨D1, H1, sc1, b1, n1, v1⟩ => ?_
  have hle : B.inputBits x ≤ e.len := by rw [n1]; exact Comp.inputBits_le_size x
  refine Does.require_bind hle ?_
  refine (Does.binaryAssertZero h2 (x := ⟨e.bits.drop (B.inputBits x)⟩)
    (fun b hb => sc1 b (List.mem_of_mem_drop hb)) fun b hb =>
      b1 b (List.mem_of_mem_drop hb)).bind fun _ s2 l2 ⟨n2, D2, W2, H2⟩ => ?_
  have h0 := Comp.truncated_some hle
  obtain ⟨g1, g2, _, g3⟩ := Enforces.truncated h0 b1
  refine ⟨_, s2, B.ofOption_some h0 _, Run.Le.refl _, D2.trans D1, fun b hb => ?_, ?_, ?_⟩
  · rw [show s2.next = s1.next from n2]; exact sc1 b (List.mem_of_mem_take hb)
  · rw [W2, bin_of_eq g1 (g2.trans h3) (g3.trans (by rw [v1, h3, h4])), bitsOf_mod]
  · rw [H2, H1, ← h3, ← h4, ← v1]
    refine and_congr_right fun _ => ?_
    have hd : digitsVal ((e.digits s1.W).drop (B.inputBits x)) = e.val s1.W / 2 ^ B.inputBits x :=
      digitsVal_drop b1.digits_le (by rw [BinaryExpression.digits_length]; exact hle)
    have : (∀ b ∈ e.bits.drop (B.inputBits x), b.eval s1.W = 0) ↔
        e.val s1.W / 2 ^ B.inputBits x = 0 := by
      rw [← hd, BinaryExpression.digits, ← List.map_drop]
      constructor
      · intro h
        have : ((e.bits.drop (B.inputBits x)).map fun b => (b.eval s1.W).n)
            = List.replicate (e.bits.drop (B.inputBits x)).length 0 := by
          rw [List.eq_replicate_iff]
          refine ⟨by simp, fun d hd => ?_⟩
          obtain ⟨b, hb, rfl⟩ := List.mem_map.1 hd
          rw [h b hb]; rfl
        rw [this, digitsVal_replicate_zero]
      · intro h b hb
        have := Enforces.digitsVal_eq_zero h (b.eval s1.W).n (List.mem_map.2 ⟨b, hb, rfl⟩)
        rw [← Elem.natCast_self_n (b.eval s1.W), this, Nat.cast_zero]
    rw [this, Nat.div_eq_zero_iff]
    simp

theorem ends_assertPermutation (k : ℕ) : (assertPermutation k : Op p).Ends := by
  refine Kind.expr.outs fun s x y rs ok hx hy h => ?_
  have hv := values_of_rel hy
  split at h
  swap
  · cases h
  rename_i hc
  cases h
  have hs1 : ∀ e ∈ x.take k, e.Scoped s.next := fun e he => hx e (List.mem_of_mem_take he)
  have hs2 : ∀ e ∈ x.drop k, e.Scoped s.next := fun e he => hx e (List.mem_of_mem_drop he)
  have hv1 : values s.W (x.take k) = y.take k := by rw [← hv, values, values, List.map_take]
  have hv2 : values s.W (x.drop k) = y.drop k := by rw [← hv, values, values, List.map_drop]
  refine Does.retNone ?_
  rw [← hv1, ← hv2] at hc ⊢
  by_cases hP : (values s.W (x.take k)).Perm (values s.W (x.drop k))
  · refine (Does.lift (X := []) (Q := fun _ _ _ => True) (Tidy.assertPermutation _ _).1
      ((Comp.assertPermutation (s := Hon.free s.next s.pos s.W s.one) hs1 hs2 hP).mono
        fun _ t _ h => ⟨h, True.intro⟩)).mono fun _ t _ ⟨e1, e2, _⟩ => ⟨e1, ?_⟩
    rw [e2]
    exact ⟨fun h => ⟨h, hP⟩, fun h => h.1⟩
  · rcases hc with ⟨hl, h1 | h1⟩
    swap
    · exact absurd h1 hP
    rw [h1] at hl
    simp only [values, List.length_map] at h1 hl
    obtain ⟨a, ha⟩ := List.length_eq_one_iff.1 h1
    obtain ⟨b, hb⟩ := List.length_eq_one_iff.1 hl.symm
    rw [ha] at hP hs1 ⊢
    rw [hb] at hP hs2 ⊢
    refine Does.require_bind rfl ?_
    refine (Does.assertEqual (hs1 a (by simp)) (hs2 b (by simp))).mono
      fun _ t _ ⟨_, e1, _, e2⟩ => ⟨e1, ?_⟩
    rw [e2]
    simp [values]

/-- Every operation has its outcome. -/
theorem ends (h4 : 4 ≤ Elem.maxBits p) (o : Op p) : o.Ends := by
  have h2 := two_lt_of_maxBits h4
  have h := OpOuts.of_law (o.lawful h4)
  cases o with
  | assertEqual => exact ends_assertEqual
  | assertZero => exact ends_assertZero
  | assertProduct => exact ends_assertProduct
  | assertTrue => exact ends_assertTrue
  | assertFalse => exact ends_assertFalse
  | assertLt => exact ends_assertLt h4
  | assertLe => exact ends_assertLe h4
  | assertGt => exact ends_assertGt h4
  | assertGe => exact ends_assertGe h4
  | assertCmpBinary r => exact ends_assertCmpBinary h2 r
  | binaryAssertZero => exact ends_binaryAssertZero h2
  | binarySumAssertingNoOverflow => exact ends_binarySumAssertingNoOverflow h2
  | assertPermutation k => exact ends_assertPermutation k
  | edwardsNew C => exact (told_edwardsNew C).outs
  | schnorrVerify C G c => exact (told_schnorrVerify h2 C G c).outs
  | assertMembership c => exact (told_assertMembership c).outs
  | _ => exact h

end Op

end R1CS
