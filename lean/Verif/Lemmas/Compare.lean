import Verif.Lemmas.Comparisons

/-!
# Splitting with a range check, comparisons of field elements, remainders
-/

set_option linter.unusedSectionVars false

namespace R1CS

variable {p : ℕ} [hp : Fact p.Prime] {α β : Type}

open Expression

/-! ## Rejection -/

theorem checkAll_append {cs : List (Constraint p)} {v : WireValues p} {c : Constraint p}
    (h : Gadget.checkAll cs v = some true) (hc : c.evaluate v = some false) :
    Gadget.checkAll (cs ++ [c]) v = some false := by
  induction cs with
  | nil => simp [Gadget.checkAll, hc]
  | cons d cs ih =>
    unfold Gadget.checkAll at h
    obtain ⟨ok, h1, h2⟩ := Option.bind_eq_some_iff.1 h
    rw [List.cons_append]
    unfold Gadget.checkAll
    rw [h1]
    cases ok
    · simp at h2
    · simp only [Option.bind_eq_bind, Option.bind_some, if_true] at h2 ⊢
      exact ih h2

theorem Rejects.assertProduct {s : Hon p} {x y z : Expression p} (hx : x.Scoped s.next)
    (hy : y.Scoped s.next) (hz : z.Scoped s.next) (h : x.eval s.W * y.eval s.W ≠ z.eval s.W) :
    Rejects (B.assertProduct x y z) s := by
  refine ⟨(), { s.b with constraints := s.b.constraints ++ [⟨x, y, z⟩] }, rfl, le_refl _,
    fun v h1 h2 h3 => ?_⟩
  obtain ⟨v', g1, g2, g3⟩ := s.executes v ⟨h1, h2, h3⟩
  refine ⟨v', ?_⟩
  unfold Gadget.execute at g1 ⊢
  change Option.bind (Gadget.loop (s.b.witnessGenerators.length + 1) s.b.witnessGenerators v) _ = _
    at g1
  change Option.bind (Gadget.loop (s.b.witnessGenerators.length + 1) s.b.witnessGenerators v) _ = _
  obtain ⟨r, hr, g1⟩ := Option.bind_eq_some_iff.1 g1
  rw [hr, Option.bind_some]
  by_cases hl : r.1.length = 0
  · rw [if_pos hl] at g1 ⊢
    obtain ⟨ok, hok, g1⟩ := Option.bind_eq_some_iff.1 g1
    simp only [pure, Option.some.injEq, Prod.mk.injEq] at g1
    obtain ⟨rfl, rfl⟩ := g1
    have hc : (⟨x, y, z⟩ : Constraint p).evaluate r.2 = some false := by
      unfold Constraint.evaluate
      rw [Expression.evaluate_eq (w := s.W) fun i hi => g2 i (hx i hi),
        Expression.evaluate_eq (w := s.W) fun i hi => g2 i (hy i hi),
        Expression.evaluate_eq (w := s.W) fun i hi => g2 i (hz i hi)]
      simp [h]
    have : Gadget.checkAll (s.b.constraints ++ [⟨x, y, z⟩]) r.2 = some false :=
      checkAll_append hok hc
    change Option.bind (Gadget.checkAll (s.b.constraints ++ [⟨x, y, z⟩]) r.2) _ = _
    rw [this]; rfl
  · rw [if_neg hl] at g1
    exact absurd g1 (by simp)

theorem Comp.rejects {m : B p α} {f : α → B p β} {s : Hon p}
    (h : Comp m s fun a s' => s'.D = s.D ∧ (∀ i ∈ s.D, i < s.next) ∧ Rejects (f a) s') :
    Rejects (m >>= f) s := by
  obtain ⟨a, s', h1, h2, h3, hD, b, b', h4, h5, h6⟩ := h
  refine ⟨b, b', ?_, le_trans h2.1 h5, fun v g1 g2 g3 => h6 v g1 ?_ ?_⟩
  · change (m s.b).bind _ = _
    rw [h1]; exact h4
  · intro i hi
    rw [h3] at hi
    rw [h2.2 i (hD i hi)]
    exact g2 i hi
  · rw [h3]; exact g3

theorem Hon.D_lt (s : Hon p) : ∀ i ∈ s.D, i < s.next := by
  intro i hi
  obtain ⟨A, _, _, h⟩ := s.ok.generators
  have := (h.mem_iff (a := i)).1 (List.mem_append_right _ hi)
  rw [List.mem_range'_1] at this
  have := s.ok.pos
  change i < s.b.nextWireIndex
  omega

theorem Comp.rejects_assertTrue {m : B p (BooleanExpression p)} {s : Hon p}
    (h : Comp m s fun r s' => s'.D = s.D ∧ r.Scoped s'.next ∧ r.eval s'.W ≠ 1) :
    Rejects (m >>= fun r => B.assertTrue r) s := by
  refine Comp.rejects (h.mono fun r s' _ ⟨h1, h2, h3⟩ => ⟨h1, s.D_lt, ?_⟩)
  refine Rejects.assertProduct h2 (.one s'.pos) (.one s'.pos) ?_
  rw [Expression.eval_one s'.one, mul_one]
  exact h3

/-! ## Soundness -/

theorem cmpHolds_iff (less strict : Bool) (d : ℤ) : cmpHolds less strict d = true ↔
    (if less then d else -d) ≤ if strict then -1 else 0 := by
  unfold cmpHolds; rw [decide_eq_true_iff]

theorem ofBool_ne (b : Bool) : Elem.ofBool (p := p) b = 1 ↔ b = true := by
  cases b <;> simp [Elem.ofBool_true, Elem.ofBool_false]

theorem ofBool_eq_zero (b : Bool) : Elem.ofBool (p := p) b = 0 ↔ b = false := by
  cases b <;> simp [Elem.ofBool_true, Elem.ofBool_false]

namespace Enforces

/-- What a comparison result certifies: a strict comparison when it is one, the failure of a
non-strict comparison when it is zero. -/
theorem cmpBinary_certifies (x y : BinaryExpression p) (less strict : Bool) :
    Enforces (B.cmpBinary x y less strict) (fun r w => x.len = y.len ∧ IsBool (r.eval w) ∧
      (x.AllBool w → y.AllBool w →
        (strict = true → r.eval w = 1 →
          if less then x.val w < y.val w else y.val w < x.val w) ∧
        (strict = false → r.eval w = 0 →
          if less then y.val w < x.val w else x.val w < y.val w))) := by
  refine (Enforces.cmpBinary x y less strict).mono fun r w _ ⟨h1, h2, h3⟩ => ⟨h1, h2, fun hx hy => ?_⟩
  obtain ⟨d, d1, d2, d3⟩ := h3 hx hy
  refine ⟨fun hs hr => ?_, fun hs hr => ?_⟩
  · rw [d3, ofBool_ne, cmpHolds_iff, hs] at hr
    cases less <;> simp at hr ⊢
    · exact d2 (by omega)
    · exact d1 (by omega)
  · rw [d3, ofBool_eq_zero, ← Bool.not_eq_true, cmpHolds_iff, hs] at hr
    cases less <;> simp at hr ⊢
    · exact d1 (by omega)
    · exact d2 (by omega)

theorem assertLtBinary (x y : BinaryExpression p) :
    Enforces (B.assertLtBinary x y) (fun _ w => x.AllBool w → y.AllBool w → x.val w < y.val w) := by
  unfold B.assertLtBinary B.ltBinary
  refine (cmpBinary_certifies x y true true).bind fun r => (Enforces.assertTrue r).mono
    fun _ w _ h ⟨_, _, h3⟩ hx hy => ?_
  simpa using (h3 hx hy).1 rfl h

theorem assertGtBinary (x y : BinaryExpression p) :
    Enforces (B.assertGtBinary x y) (fun _ w => x.AllBool w → y.AllBool w → y.val w < x.val w) := by
  unfold B.assertGtBinary B.gtBinary
  refine (cmpBinary_certifies x y false true).bind fun r => (Enforces.assertTrue r).mono
    fun _ w _ h ⟨_, _, h3⟩ hx hy => ?_
  simpa using (h3 hx hy).1 rfl h

theorem split (x : Expression p) : Enforces (B.split x) (fun e w => e.AllBool w ∧
    e.len = Elem.maxBits p ∧ e.val w = (x.eval w).n) := by
  unfold B.split
  refine (Enforces.splitWithoutRangeCheck x _).bind fun e => (Enforces.assertLtBinary _ _).bind
    fun _ => Enforces.pure fun w h1 h2 ⟨h3, h4, _, h5⟩ => ⟨h3, h4, ?_⟩
  have h6 := h2 h3 (BinaryExpression.ofNat_allBool h1 p)
  rw [BinaryExpression.ofNat_val h1] at h6
  rw [h5, Elem.natCast_n_of_lt h6]

theorem cmp (x y : Expression p) (less strict : Bool) :
    Enforces (B.cmp x y less strict) (fun r w => IsBool (r.eval w) ∧
      (strict = true → r.eval w = 1 →
        if less then (x.eval w).n < (y.eval w).n else (y.eval w).n < (x.eval w).n) ∧
      (strict = false → r.eval w = 0 →
        if less then (y.eval w).n < (x.eval w).n ∨ (x.eval w).n + p < 2 ^ Elem.maxBits p
        else (x.eval w).n < (y.eval w).n ∨ (y.eval w).n + p < 2 ^ Elem.maxBits p)) := by
  unfold B.cmp
  cases less
  · refine (Enforces.split x).bind fun X => (Enforces.splitAllowingAmbiguity y).bind fun Y =>
      (cmpBinary_certifies X Y false strict).mono fun r w _ ⟨_, h2, h3⟩ ⟨a1, a2, a3⟩ ⟨b1, b2, b3⟩ =>
        ⟨h2, ?_⟩
    obtain ⟨h4, h5⟩ := h3 b1 a1
    have hlt := a1.val_lt
    rw [a2] at hlt
    rw [b3] at h4 h5
    refine ⟨fun hs hr => ?_, fun hs hr => ?_⟩
    · have := h4 hs hr
      simp at this ⊢
      omega
    · have := h5 hs hr
      simp at this ⊢
      omega
  · refine (Enforces.splitAllowingAmbiguity x).bind fun X => (Enforces.split y).bind fun Y =>
      (cmpBinary_certifies X Y true strict).mono fun r w _ ⟨_, h2, h3⟩ ⟨a1, a2, a3⟩ ⟨b1, b2, b3⟩ =>
        ⟨h2, ?_⟩
    obtain ⟨h4, h5⟩ := h3 b1 a1
    have hlt := b1.val_lt
    rw [b2] at hlt
    rw [a3] at h4 h5
    refine ⟨fun hs hr => ?_, fun hs hr => ?_⟩
    · have := h4 hs hr
      simp at this ⊢
      omega
    · have := h5 hs hr
      simp at this ⊢
      omega

theorem assertLt (x y : Expression p) :
    Enforces (B.assertLt x y) (fun _ w => (x.eval w).n < (y.eval w).n) := by
  unfold B.assertLt B.lt
  refine (Enforces.cmp x y true true).bind fun r => (Enforces.assertTrue r).mono
    fun _ w _ h ⟨_, h3, _⟩ => ?_
  simpa using h3 rfl h

theorem assertGt (x y : Expression p) :
    Enforces (B.assertGt x y) (fun _ w => (y.eval w).n < (x.eval w).n) := by
  unfold B.assertGt B.gt
  refine (Enforces.cmp x y false true).bind fun r => (Enforces.assertTrue r).mono
    fun _ w _ h ⟨_, h3, _⟩ => ?_
  simpa using h3 rfl h

/-- All that the constraints of `modulus` say. -/
theorem modulus (x y : Expression p) :
    Enforces (B.modulus x y) (fun r w => (r.eval w).n < (y.eval w).n ∧
      ∃ q : Elem p, x.eval w = y.eval w * q + r.eval w) := by
  unfold B.modulus
  refine Enforces.wire.bind fun q => Enforces.wire.bind fun r =>
    (Enforces.assertProduct _ _ _).bind fun _ => (Enforces.assertLt _ _).bind fun _ =>
    (Enforces.generator _ _).bind fun _ => Enforces.pure fun w h1 _ h2 h3 _ _ => ⟨h2, w q, ?_⟩
  rw [eval_sub, eval_ofWire, eval_ofWire] at h3
  rw [eval_ofWire, h3]; ring

end Enforces

/-! ## Completeness -/

theorem two_lt_of_maxBits (h : 4 ≤ Elem.maxBits p) : 2 < p := by
  have := Elem.two_pow_lt_of_lt_maxBits (p := p) (k := 1) (by omega)
  simpa using this

theorem size_eq_maxBits (h : 4 ≤ Elem.maxBits p) : p.size = Elem.maxBits p := by
  have h2 := two_lt_of_maxBits h
  apply le_antisymm
  · rw [Nat.size_le]
    have hle := Elem.le_two_pow_maxBits (p := p)
    rcases lt_or_eq_of_le hle with h3 | h3
    · exact h3
    · exfalso
      have hodd : p % 2 = 1 := by
        rcases hp.out.eq_two_or_odd with h4 | h4
        · omega
        · exact h4
      have : 2 ^ Elem.maxBits p % 2 = 0 := by
        rw [← Nat.succ_pred_eq_of_pos (show 0 < Elem.maxBits p by omega), pow_succ]
        omega
      omega
  · rw [Elem.maxBits_eq]
    exact Nat.size_le_size (Nat.sub_le p 1)

namespace Comp

theorem assertOfHolds {m : B p (BooleanExpression p)} {s : Hon p}
    (h : Comp m s fun r s' => s'.D = s.D ∧ r.Scoped s'.next ∧ r.eval s'.W = 1) :
    Comp (m >>= fun r => B.assertTrue r) s fun _ s' => s'.D = s.D := by
  refine h.bind fun r s1 l1 ⟨h1, h2, h3⟩ => (Comp.assertTrue h2 h3).mono fun _ s2 _ h => ?_
  rw [h.2.1, h1]

theorem assertLtBinary (h2p : 2 < p) {s : Hon p} {x y : BinaryExpression p}
    (hx : x.Scoped s.next) (hy : y.Scoped s.next) (hxb : x.AllBool s.W) (hyb : y.AllBool s.W)
    (hlen : x.len = y.len) (h0 : 0 < x.len)
    (hadm : cmpChunkBits (Elem.maxBits p) x.len + 1 < Elem.maxBits p)
    (hlt : x.val s.W < y.val s.W) :
    Comp (B.assertLtBinary x y) s fun _ s' => s'.D = s.D := by
  unfold B.assertLtBinary B.ltBinary
  refine assertOfHolds ((Comp.cmpBinary h2p hx hy hxb hyb hlen h0 hadm true true).mono
    fun r s' _ ⟨h1, h2, h3⟩ => ⟨h1, h2, ?_⟩)
  rw [h3, ofBool_ne, cmpHolds_iff]
  simp
  omega

theorem split (h4 : 4 ≤ Elem.maxBits p) {s : Hon p} {x : Expression p} (hx : x.Scoped s.next) :
    Comp (B.split x) s fun e s' => s'.D = s.D ∧ e.Scoped s'.next ∧ e.AllBool s'.W ∧
      e.len = Elem.maxBits p ∧ e.val s'.W = (x.eval s.W).n := by
  unfold B.split
  refine (Comp.splitWithoutRangeCheck hx le_rfl (Elem.lt_two_pow_maxBits _)).bind
    fun e s1 l1 ⟨h1, h2, h3, h5, h6⟩ => ?_
  refine (Comp.assertLtBinary (two_lt_of_maxBits h4) h2 (BinaryExpression.ofNat_scoped s1.pos p) h3
    (BinaryExpression.ofNat_allBool s1.one p) ?_ (by omega) (by
      rw [h5]; exact cmpChunkBits_self h4) ?_).bind fun _ s2 l2 hD => Comp.pure ⟨by rw [hD, h1],
      l2.nscoped h2, l2.allBool h2 h3, h5, by rw [l2.val h2, h6]⟩
  · rw [h5, BinaryExpression.ofNat_len, size_eq_maxBits h4]
  · rw [h6, BinaryExpression.ofNat_val s1.one]
    exact Elem.lt _

theorem cmp (h4 : 4 ≤ Elem.maxBits p) {s : Hon p} {x y : Expression p} (hx : x.Scoped s.next)
    (hy : y.Scoped s.next) (less strict : Bool) :
    Comp (B.cmp x y less strict) s fun r s' => s'.D = s.D ∧ r.Scoped s'.next ∧ r.eval s'.W
      = Elem.ofBool (cmpHolds less strict (((x.eval s.W).n : ℤ) - ((y.eval s.W).n : ℤ))) := by
  have h2p := two_lt_of_maxBits h4
  unfold B.cmp
  cases less
  · refine (Comp.split h4 hx).bind fun X s1 l1 ⟨a1, a2, a3, a4, a5⟩ => ?_
    refine (Comp.splitAllowingAmbiguity (l1.scoped hy)).bind fun Y s2 l2 ⟨b1, b2, b3, b4, b5⟩ => ?_
    refine (Comp.cmpBinary h2p (l2.nscoped a2) b2 (l2.allBool a2 a3) b3 (by rw [a4, b4]) (by omega)
      (by rw [a4]; exact cmpChunkBits_self h4) false strict).mono fun r s3 l3 ⟨c1, c2, c3⟩ =>
      ⟨by rw [c1, b1, a1], c2, ?_⟩
    rw [c3, l2.val a2, a5, b5, l1.eval hy]
  · refine (Comp.splitAllowingAmbiguity hx).bind fun X s1 l1 ⟨a1, a2, a3, a4, a5⟩ => ?_
    refine (Comp.split h4 (l1.scoped hy)).bind fun Y s2 l2 ⟨b1, b2, b3, b4, b5⟩ => ?_
    refine (Comp.cmpBinary h2p (l2.nscoped a2) b2 (l2.allBool a2 a3) b3 (by rw [a4, b4]) (by omega)
      (by rw [a4]; exact cmpChunkBits_self h4) true strict).mono fun r s3 l3 ⟨c1, c2, c3⟩ =>
      ⟨by rw [c1, b1, a1], c2, ?_⟩
    rw [c3, l2.val a2, a5, b5, l1.eval hy]

theorem assertLt (h4 : 4 ≤ Elem.maxBits p) {s : Hon p} {x y : Expression p} (hx : x.Scoped s.next)
    (hy : y.Scoped s.next) (h : (x.eval s.W).n < (y.eval s.W).n) :
    Comp (B.assertLt x y) s fun _ s' => s'.D = s.D := by
  unfold B.assertLt B.lt
  refine assertOfHolds ((Comp.cmp h4 hx hy true true).mono fun r s' _ ⟨h1, h2, h3⟩ => ⟨h1, h2, ?_⟩)
  rw [h3, ofBool_ne, cmpHolds_iff]
  simp
  omega

theorem modulus (h4 : 4 ≤ Elem.maxBits p) {s : Hon p} {x y : Expression p} (hx : x.Scoped s.next)
    (hy : y.Scoped s.next) (hy0 : y.eval s.W ≠ 0) :
    Comp (B.modulus x y) s fun r s' => s'.D = s.D ∧ r.Scoped s'.next ∧
      (r.eval s'.W).n = (x.eval s.W).n % (y.eval s.W).n := by
  set X := (x.eval s.W).n with hX
  set Y := (y.eval s.W).n with hY
  have hXp : X < p := (x.eval s.W).lt
  have hYp : Y < p := (y.eval s.W).lt
  have hY0 : Y ≠ 0 := by
    intro h0
    apply hy0
    rw [← Elem.natCast_self_n (y.eval s.W), ← hY, h0, Nat.cast_zero]
  have hq : X / Y < p := lt_of_le_of_lt (Nat.div_le_self _ _) hXp
  have hr : X % Y < p := lt_of_le_of_lt (Nat.mod_le _ _) hXp
  unfold B.modulus
  refine (Comp.wire s ((X / Y : ℕ) : Elem p)).bind fun q s1 l1 ⟨q1, q2, q3, q4⟩ => ?_
  refine (Comp.wire s1 ((X % Y : ℕ) : Elem p)).bind fun r s2 l2 ⟨r1, r2, r3, r4⟩ => ?_
  have hq4 : s2.W q = ((X / Y : ℕ) : Elem p) := by rw [l2.2 q (by rw [q1, q2]; omega), q4]
  have l12 := l1.trans l2
  have hql : q < s2.next := by rw [q1, r2, q2]; omega
  have hrl : r < s2.next := by rw [r1, r2]; omega
  refine (Comp.assertProduct (l12.scoped hy) (.ofWire hql) ((l12.scoped hx).sub (.ofWire hrl))
    ?_).bind fun _ s3 l3 ⟨n3, D3, W3⟩ => ?_
  · rw [eval_sub, eval_ofWire, eval_ofWire, l12.eval hx, l12.eval hy, hq4, r4,
      ← Elem.natCast_self_n (y.eval s.W), ← Elem.natCast_self_n (x.eval s.W), ← hX, ← hY,
      eq_sub_iff_add_eq, ← Nat.cast_mul, ← Nat.cast_add, Nat.div_add_mod]
  have l13 := l12.trans l3
  refine (Comp.assertLt h4 (.ofWire (by rw [n3]; exact hrl)) (l13.scoped hy) ?_).bind
    fun _ s4 l4 D4 => ?_
  · rw [eval_ofWire, l13.eval hy, W3, r4, Elem.natCast_n_of_lt hr, ← hY]
    exact Nat.mod_lt _ (Nat.pos_of_ne_zero hY0)
  have l14 := l13.trans l4
  have hWq : s4.W q = ((X / Y : ℕ) : Elem p) := by
    rw [l4.2 q (by rw [n3]; exact hql), W3, hq4]
  have hWr : s4.W r = ((X % Y : ℕ) : Elem p) := by
    rw [l4.2 r (by rw [n3]; exact hrl), W3, r4]
  refine (Comp.generator [q, r] s.D ?_ ?_ ?_).bind fun _ s5 l5 ⟨n5, D5, W5⟩ => Comp.pure
    ⟨D5, .ofWire (lt_of_lt_of_le hrl (l3.trans (l4.trans l5)).1), ?_⟩
  · rw [D4, D3, r3, q3]
    exact List.Perm.swap _ _ _
  · refine GenOK.pair (by rw [q1, r1, q2]; omega) fun v hin => ?_
    unfold B.modulusGen
    rw [Expression.evaluate_eq (w := s4.W) fun i hi => hin i (List.mem_append_left _ hi),
      Expression.evaluate_eq (w := s4.W) fun i hi => hin i (List.mem_append_right _ hi),
      l14.eval hx, l14.eval hy]
    have e1 : (x.eval s.W).integerDivision (y.eval s.W) = some (s4.W q) := by
      unfold Elem.integerDivision Elem.ofNat?
      rw [if_neg hY0, dif_pos hq, hWq]
      exact congrArg some (Elem.mk_eq_natCast _)
    have e2 : (x.eval s.W).integerModulus (y.eval s.W) = some (s4.W r) := by
      unfold Elem.integerModulus Elem.ofNat?
      rw [if_neg hY0, dif_pos hr, hWr]
      exact congrArg some (Elem.mk_eq_natCast _)
    simp only [Option.bind_eq_bind, Option.bind_some, e1, e2]
  · intro i hi
    have : i < s.next := by
      rcases List.mem_append.1 hi with h | h
      · exact hx i h
      · exact hy i h
    refine ⟨lt_of_lt_of_le this l14.1, fun o ho => ?_⟩
    simp only [List.mem_cons, List.not_mem_nil, or_false] at ho
    have := l1.1
    rcases ho with rfl | rfl
    · omega
    · omega
  · rw [eval_ofWire, W5, hWr, Elem.natCast_n_of_lt hr]

theorem divides (h4 : 4 ≤ Elem.maxBits p) {s : Hon p} {x y : Expression p} (hx : x.Scoped s.next)
    (hy : y.Scoped s.next) (hx0 : x.eval s.W ≠ 0) :
    Comp (B.divides x y) s fun r s' => s'.D = s.D ∧ r.Scoped s'.next ∧
      r.eval s'.W = if (x.eval s.W).n ∣ (y.eval s.W).n then 1 else 0 := by
  unfold B.divides
  refine (Comp.modulus h4 hy hx hx0).bind fun m s1 l1 ⟨a1, a2, a3⟩ =>
    (Comp.zero (two_lt_of_maxBits h4) a2).mono fun r s2 l2 ⟨b1, b2, b3⟩ =>
      ⟨by rw [b1, a1], b2, ?_⟩
  rw [b3]
  have : (m.eval s1.W = 0) ↔ (x.eval s.W).n ∣ (y.eval s.W).n := by
    rw [Nat.dvd_iff_mod_eq_zero, ← a3]
    constructor
    · intro h; rw [h]; rfl
    · intro h; rw [← Elem.natCast_self_n (m.eval s1.W), h, Nat.cast_zero]
  simp only [this]

end Comp

/-! ## Forging -/

theorem Wit.Le.allBool {s s' : Wit p} (l : s.Le s') {e : BinaryExpression p} (hs : e.Scoped s.next)
    (h : e.AllBool s.W) : e.AllBool s'.W := by
  intro b hb
  have : b.eval s'.W = b.eval s.W := l.eval (hs b hb)
  rw [this]
  exact h b hb

theorem Wit.Le.val {s s' : Wit p} (l : s.Le s') {e : BinaryExpression p} (hs : e.Scoped s.next) :
    e.val s'.W = e.val s.W := by
  unfold BinaryExpression.val BinaryExpression.digits
  congr 1
  apply List.map_congr_left
  intro b hb
  have : b.eval s'.W = b.eval s.W := l.eval (hs b hb)
  rw [this]

namespace Can

theorem cmp_zero (h4 : 4 ≤ Elem.maxBits p) {s : Wit p} {x y : Expression p} (hx : x.Scoped s.next)
    (hy : y.Scoped s.next) (less strict : Bool) :
    Can (B.cmp x y less strict) s fun r s' => r.Scoped s'.next ∧
      r.eval s'.W = Elem.ofBool (!strict) := by
  have h2p := two_lt_of_maxBits h4
  unfold B.cmp
  cases less
  · refine (Can.ofComp (Prog.split _) (Comp.split (s := s.toHon) h4 hx)).bind
      fun X s1 l1 ⟨t1, tn1, tW1, a1, a2, a3, a4, a5⟩ => ?_
    rw [tn1] at a2
    rw [tW1] at a3
    refine (Can.ofComp (Prog.splitAllowingAmbiguity _) (Comp.splitAllowingAmbiguity (s := s1.toHon)
      (l1.scoped hy))).bind fun Y s2 l2 ⟨t2, tn2, tW2, b1, b2, b3, b4, b5⟩ => ?_
    rw [tn2] at b2
    rw [tW2] at b3
    exact Can.cmpBinary_zero h2p (a2.mono l2.1) b2 (Wit.Le.allBool l2 a2 a3) b3
      (by rw [a4, b4]) (by omega) (by rw [a4]; exact cmpChunkBits_self h4) false strict
  · refine (Can.ofComp (Prog.splitAllowingAmbiguity _) (Comp.splitAllowingAmbiguity (s := s.toHon)
      hx)).bind fun X s1 l1 ⟨t1, tn1, tW1, a1, a2, a3, a4, a5⟩ => ?_
    rw [tn1] at a2
    rw [tW1] at a3
    refine (Can.ofComp (Prog.split _) (Comp.split (s := s1.toHon) h4 (l1.scoped hy))).bind
      fun Y s2 l2 ⟨t2, tn2, tW2, b1, b2, b3, b4, b5⟩ => ?_
    rw [tn2] at b2
    rw [tW2] at b3
    exact Can.cmpBinary_zero h2p (a2.mono l2.1) b2 (Wit.Le.allBool l2 a2 a3) b3
      (by rw [a4, b4]) (by omega) (by rw [a4]; exact cmpChunkBits_self h4) true strict

theorem assertTrue {s : Wit p} {x : BooleanExpression p} (hx : x.Scoped s.next)
    (h : x.eval s.W = 1) : Can (B.assertTrue x) s fun _ s' => s'.next = s.next ∧ s'.W = s.W := by
  unfold B.assertTrue B.assertEqual
  refine Can.assertProduct hx (.one s.pos) (.one s.pos) ?_
  rw [Expression.eval_one s.one, mul_one]
  exact h

theorem modulus_any (h4 : 4 ≤ Elem.maxBits p) {s : Wit p} {x y : Expression p}
    (hx : x.Scoped s.next) (hy : y.Scoped s.next) {r : Elem p} (hr : r.n < (y.eval s.W).n) :
    Can (B.modulus x y) s fun z s' => z.Scoped s'.next ∧ z.eval s'.W = r := by
  have hy0 : y.eval s.W ≠ 0 := by
    intro h0
    rw [h0] at hr
    exact absurd hr (by simp)
  unfold B.modulus
  refine (Can.wire s ((x.eval s.W - r) / y.eval s.W)).bind fun q s1 l1 ⟨q1, q2, q3⟩ => ?_
  refine (Can.wire s1 r).bind fun rw' s2 l2 ⟨r1, r2, r3⟩ => ?_
  have l12 := l1.trans l2
  have hql : q < s2.next := by rw [q1, r2, q2]; omega
  have hrl : rw' < s2.next := by rw [r1, r2]; omega
  refine (Can.assertProduct (l12.scoped hy) (.ofWire hql) ((l12.scoped hx).sub (.ofWire hrl))
    ?_).bind fun _ s3 l3 ⟨n3, W3⟩ => ?_
  · rw [eval_sub, eval_ofWire, eval_ofWire, l12.eval hx, l12.eval hy, r3,
      l2.2 q (by rw [q1, q2]; omega), q3]
    field_simp
  have l13 := l12.trans l3
  refine (Can.ofComp (Prog.assertLt _ _) (Comp.assertLt (s := s3.toHon) h4
    (.ofWire (by change rw' < s3.next; rw [n3]; exact hrl)) (l13.scoped hy) ?_)).bind
    fun _ s4 l4 _ => ?_
  · change (Expression.eval s3.W _).n < (Expression.eval s3.W _).n
    rw [eval_ofWire, l13.eval hy, W3, r3]
    exact hr
  refine (Can.generator _ _).bind fun _ s5 l5 ⟨n5, W5⟩ => Can.pure ⟨.ofWire ?_, ?_⟩
  · exact lt_of_lt_of_le hrl (l3.trans (l4.trans l5)).1
  · rw [eval_ofWire, W5, l4.2 rw' (by rw [n3]; exact hrl), W3, r3]

end Can

end R1CS
