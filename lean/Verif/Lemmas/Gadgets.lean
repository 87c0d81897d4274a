import Verif.Lemmas.Logic

/-!
# Soundness and completeness of the basic gadgets
-/

set_option linter.unusedSectionVars false

namespace R1CS

variable {p : ℕ} [hp : Fact p.Prime] {α β : Type}

open Expression (eval_add eval_sub eval_neg eval_ofWire eval_mulElem)

/-! ## Soundness -/

namespace Enforces

theorem assertBoolean (x : Expression p) :
    Enforces (B.assertBoolean x) (fun a w => a = ⟨x⟩ ∧ IsBool (x.eval w)) := by
  unfold B.assertBoolean
  refine (Enforces.assertProduct _ _ _).bind fun _ => Enforces.pure fun w h1 h => ⟨rfl, ?_⟩
  rw [eval_sub, Expression.eval_one h1, Expression.eval_zero] at h
  exact (isBool_iff _).2 h

theorem booleanWire : Enforces (B.booleanWire : B p BooleanWire) (fun a w => IsBool (w a.wire)) := by
  unfold B.booleanWire
  refine Enforces.wire.bind fun i => (Enforces.assertBoolean _).bind fun _ =>
    Enforces.pure fun w h1 h _ => ?_
  simpa using h.2

theorem wires_run (n : ℕ) (b : Builder p) :
    B.wires n b = some (List.range' b.nextWireIndex n,
      { b with nextWireIndex := b.nextWireIndex + n }) := by
  induction n generalizing b with
  | zero => rfl
  | succ n ih =>
    unfold B.wires
    rw [B.bind_eq (a := b.nextWireIndex) (b' := { b with nextWireIndex := b.nextWireIndex + 1 }) rfl,
      B.bind_eq (ih _), B.pure_eq]
    simp [List.range'_succ, Nat.add_assoc, Nat.add_comm 1 n]

theorem wires (n : ℕ) :
    Enforces (B.wires n : B p (List Wire)) (fun ws _ => ws.length = n ∧ ws.Nodup) := by
  intro b a b' h w hw
  rw [wires_run] at h
  obtain ⟨rfl, rfl⟩ := Prod.ext_iff.1 (Option.some.inj h)
  exact ⟨⟨hw.one, hw.all⟩, by simp, List.nodup_range'⟩

theorem booleanWires (n : ℕ) : Enforces (B.booleanWires n : B p (List BooleanWire))
    (fun ws w => ws.length = n ∧ ∀ x ∈ ws, IsBool (w x.wire)) := by
  induction n with
  | zero => exact Enforces.pure fun w _ => by simp
  | succ n ih =>
    unfold B.booleanWires
    refine Enforces.booleanWire.bind fun x => ih.bind fun ws => Enforces.pure fun w h1 h2 h3 => ?_
    refine ⟨by simp [h2.1], ?_⟩
    intro y hy
    rcases List.mem_cons.1 hy with h | h
    · rw [h]; exact h3
    · exact h2.2 y h

theorem binaryWire (n : ℕ) : Enforces (B.binaryWire n : B p BinaryWire)
    (fun x w => x.bits.length = n ∧ ∀ y ∈ x.bits, IsBool (w y.wire)) := by
  unfold B.binaryWire
  exact (Enforces.booleanWires n).bind fun ws => Enforces.pure fun w _ h => h

theorem assertEqual (x y : Expression p) :
    Enforces (B.assertEqual x y) (fun _ w => x.eval w = y.eval w) := by
  unfold B.assertEqual
  refine (Enforces.assertProduct _ _ _).mono fun _ w h1 h => ?_
  rwa [Expression.eval_one h1, mul_one] at h

theorem assertZero (x : Expression p) :
    Enforces (B.assertZero x) (fun _ w => x.eval w = 0) := Enforces.assertEqual x 0

theorem assertTrue (x : BooleanExpression p) :
    Enforces (B.assertTrue x) (fun _ w => x.eval w = 1) :=
  (Enforces.assertEqual x.expression 1).mono fun _ w h1 h => by
    rwa [Expression.eval_one h1] at h

theorem assertFalse (x : BooleanExpression p) :
    Enforces (B.assertFalse x) (fun _ w => x.eval w = 0) := Enforces.assertEqual x.expression 0

theorem nonzero (x : Expression p) :
    Enforces (B.nonzero x) (fun y w => y.eval w = if x.eval w = 0 then 0 else 1) := by
  unfold B.nonzero
  refine Enforces.wire.bind fun y => Enforces.wire.bind fun m =>
    (Enforces.assertProduct _ _ _).bind fun _ => (Enforces.assertProduct _ _ _).bind fun _ =>
    (Enforces.generator _ _).bind fun _ => Enforces.pure fun w h1 _ h2 h3 _ _ => ?_
  rw [eval_sub, Expression.eval_one h1, Expression.eval_zero, eval_ofWire] at h2
  rw [eval_ofWire, eval_ofWire] at h3
  rw [BooleanExpression.eval_mk, eval_ofWire]
  split
  · next h => rw [← h3, h, zero_mul]
  · next h =>
    rcases mul_eq_zero.1 h2 with h' | h'
    · exact (sub_eq_zero.1 h').symm
    · exact absurd h' h

theorem not (x : BooleanExpression p) :
    Enforces (B.not x) (fun y w => y.eval w = 1 - x.eval w) := by
  unfold B.not
  exact Enforces.pure fun w h1 => by
    rw [BooleanExpression.eval_mk, eval_sub, Expression.eval_one h1]; rfl

theorem zero (x : Expression p) :
    Enforces (B.zero x) (fun y w => y.eval w = if x.eval w = 0 then 1 else 0) := by
  unfold B.zero
  refine (Enforces.nonzero x).bind fun nz => (Enforces.not nz).mono fun y w _ h h' => ?_
  rw [h, h']
  split <;> simp

theorem equal (x y : Expression p) :
    Enforces (B.equal x y) (fun z w => z.eval w = if x.eval w = y.eval w then 1 else 0) := by
  unfold B.equal
  refine (Enforces.zero _).mono fun z w _ h => ?_
  rw [h, eval_sub]
  simp only [sub_eq_zero]

theorem product (x y : Expression p) :
    Enforces (B.product x y) (fun z w => z.eval w = x.eval w * y.eval w) := by
  unfold B.product
  split
  · next c hc =>
    exact Enforces.pure fun w h1 => by
      rw [eval_mulElem, Expression.eval_of_asConstant h1 hc, mul_comm]
  · split
    · next c hc =>
      exact Enforces.pure fun w h1 => by
        rw [eval_mulElem, Expression.eval_of_asConstant h1 hc]
    · refine Enforces.wire.bind fun i => (Enforces.assertProduct _ _ _).bind fun _ =>
        (Enforces.generator _ _).bind fun _ => Enforces.pure fun w _ _ h _ => ?_
      exact h.symm

theorem selection (c : BooleanExpression p) (x y : Expression p) :
    Enforces (B.selection c x y)
      (fun z w => z.eval w = y.eval w + c.eval w * (x.eval w - y.eval w)) := by
  unfold B.selection
  refine (Enforces.product _ _).bind fun d => Enforces.pure fun w _ h => ?_
  rw [eval_add, h, eval_sub]; rfl

theorem pow_bit (x : Elem p) (k i : ℕ) :
    x ^ (k % 2 ^ (i + 1)) = x ^ (k % 2 ^ i) * (if k.testBit i then x ^ (2 ^ i) else 1) := by
  rw [Nat.mod_pow_succ, pow_add, pow_mul]
  congr 1
  rw [Nat.testBit_eq_decide_div_mod_eq]
  rcases Nat.mod_two_eq_zero_or_one (k / 2 ^ i) with h | h <;> simp [h]

theorem expLoop (x : Expression p) (k : Elem p) (r : ℕ) : ∀ (i : ℕ) (pe ls : Expression p),
    Enforces (B.expLoop x k i r pe ls) (fun z w =>
      pe.eval w = x.eval w ^ (k.n % 2 ^ i) → (0 < i → ls.eval w = x.eval w ^ (2 ^ (i - 1))) →
        z.eval w = x.eval w ^ (k.n % 2 ^ (i + r))) := by
  induction r with
  | zero => intro i pe ls; exact Enforces.pure fun w _ h _ => h
  | succ r ih =>
    intro i pe ls
    unfold B.expLoop
    have hs : Enforces (if i = 0 then Pure.pure x else B.product ls ls : B p (Expression p))
        (fun sq w => (0 < i → ls.eval w = x.eval w ^ (2 ^ (i - 1))) →
          sq.eval w = x.eval w ^ (2 ^ i)) := by
      split
      · next h => exact Enforces.pure fun w _ _ => by simp [h]
      · next h =>
        refine (Enforces.product ls ls).mono fun z w _ hz hl => ?_
        have hi : 0 < i := Nat.pos_of_ne_zero h
        rw [hz, hl hi, ← pow_add]
        congr 1
        rw [← Nat.two_pow_pred_add_two_pow_pred hi]
    refine hs.bind fun sq => ?_
    have hq : Enforces (if k.bit i = true then B.product pe sq else Pure.pure pe : B p (Expression p))
        (fun pe' w => pe.eval w = x.eval w ^ (k.n % 2 ^ i) → sq.eval w = x.eval w ^ (2 ^ i) →
          pe'.eval w = x.eval w ^ (k.n % 2 ^ (i + 1))) := by
      split
      · next h =>
        rw [Elem.bit_eq] at h
        refine (Enforces.product pe sq).mono fun z w _ hz h1 h2 => ?_
        rw [hz, h1, h2, pow_bit]; simp [h]
      · next h =>
        rw [Elem.bit_eq] at h
        refine Enforces.pure fun w _ h1 h2 => ?_
        rw [h1, pow_bit]; simp [h]
    refine hq.bind fun pe' => ?_
    refine (ih (i + 1) pe' sq).mono fun z w _ h h1 h2 h3 h4 => ?_
    rw [h (h1 h3 (h2 h4)) (fun _ => h2 h4), Nat.add_right_comm, Nat.add_assoc]

theorem exponentiation (x : Expression p) (k : Elem p) :
    Enforces (B.exponentiation x k) (fun z w => z.eval w = x.eval w ^ k.n) := by
  unfold B.exponentiation
  refine (expLoop x k k.bits 0 1 0).mono fun z w h1 h => ?_
  rw [h (by rw [Expression.eval_one h1, pow_zero, Nat.mod_one, pow_zero]) (fun h => absurd h (by simp))]
  rw [Nat.zero_add, Nat.mod_eq_of_lt]
  exact Nat.lt_size_self k.n

theorem inverse (x : Expression p) :
    Enforces (B.inverse x) (fun z w => x.eval w * z.eval w = 1) := by
  unfold B.inverse
  refine Enforces.wire.bind fun i => (Enforces.assertProduct _ _ _).bind fun _ =>
    (Enforces.generator _ _).bind fun _ => Enforces.pure fun w h1 _ h _ => ?_
  rwa [Expression.eval_one h1] at h

theorem assertNonzero (x : Expression p) :
    Enforces (B.assertNonzero x) (fun _ w => x.eval w ≠ 0) := by
  unfold B.assertNonzero
  refine (Enforces.inverse x).bind fun i => Enforces.pure fun w _ h h0 => ?_
  rw [h0, zero_mul] at h
  exact zero_ne_one h

theorem assertNonequal (x y : Expression p) :
    Enforces (B.assertNonequal x y) (fun _ w => x.eval w ≠ y.eval w) := by
  unfold B.assertNonequal
  refine (Enforces.assertNonzero _).mono fun _ w _ h h0 => h ?_
  rw [eval_sub, h0, sub_self]

theorem inverseOrZero (x : Expression p) :
    Enforces (B.inverseOrZero x) (fun z w => x.eval w ≠ 0 → z.eval w = (x.eval w)⁻¹) := by
  unfold B.inverseOrZero
  refine Enforces.wire.bind fun i => (Enforces.nonzero x).bind fun nz =>
    (Enforces.assertProduct _ _ _).bind fun _ =>
    (Enforces.generator _ _).bind fun _ => Enforces.pure fun w _ _ h1 h2 _ h => ?_
  have h2' : nz.expression.eval w = _ := h2
  rw [h2', if_neg h] at h1
  exact eq_inv_of_mul_eq_one_right h1

theorem quotient (x y : Expression p) :
    Enforces (B.quotient x y) (fun z w => y.eval w ≠ 0 ∧ z.eval w = x.eval w / y.eval w) := by
  unfold B.quotient
  refine (Enforces.inverse y).bind fun i => (Enforces.product x i).mono fun z w _ h h' => ?_
  have hy : y.eval w ≠ 0 := by
    intro h0; rw [h0, zero_mul] at h'; exact zero_ne_one h'
  refine ⟨hy, ?_⟩
  rw [h, eq_inv_of_mul_eq_one_right h', div_eq_mul_inv]

theorem quotientUnsafe (x y : Expression p) :
    Enforces (B.quotientUnsafe x y) (fun _ _ => True) := by
  unfold B.quotientUnsafe
  exact Enforces.wire.seq fun i => (Enforces.generator _ _).seq fun _ => Enforces.pure fun w _ => trivial

theorem and (x y : BooleanExpression p) :
    Enforces (B.and x y) (fun z w => z.eval w = x.eval w * y.eval w) := by
  unfold B.and
  exact (Enforces.product _ _).bind fun z => Enforces.pure fun w _ h => h

theorem or (x y : BooleanExpression p) :
    Enforces (B.or x y) (fun z w => z.eval w = x.eval w + y.eval w - x.eval w * y.eval w) := by
  unfold B.or
  refine (Enforces.product _ _).bind fun z => Enforces.pure fun w _ h => ?_
  rw [BooleanExpression.eval_mk, eval_sub, eval_add, h]; rfl

end Enforces

theorem Expression.mulNat_eq (e : Expression p) {k : ℕ} (hk : k < p) :
    e.mulNat k = some (e.mulElem (k : Elem p)) := by
  unfold mulNat mulElem
  rw [← Elem.mk_eq_natCast hk]
  have : ∀ m : BMap Wire (Elem p), List.mapM (m := Option)
      (fun (kv : Wire × Elem p) => (kv.2.mulNat k).map fun x => (kv.1, x)) m
      = some (m.map fun kv => (kv.1, kv.2 * ⟨k, hk⟩)) := by
    intro m
    induction m with
    | nil => rfl
    | cons kv m ih =>
      rw [List.mapM_cons, ih]
      simp [Elem.mulNat, Elem.ofNat?_eq_some hk]
  rw [this]; rfl

theorem Expression.eval_mulNat {e e' : Expression p} {k : ℕ} (h : e.mulNat k = some e')
    (w : Assign p) : e'.eval w = e.eval w * k := by
  by_cases hk : k < p
  · rw [e.mulNat_eq hk] at h
    rw [← Option.some.inj h, eval_mulElem]
  · have hk' : p ≤ k := not_lt.1 hk
    unfold mulNat at h
    obtain ⟨m⟩ := e
    cases m with
    | nil =>
      simp at h
      rw [← h]
      simp [eval, new]
    | cons kv m =>
      simp [List.mapM_cons, Elem.mulNat, Elem.ofNat?_eq_none hk'] at h

theorem Enforces.xor (x y : BooleanExpression p) :
    Enforces (B.xor x y)
      (fun z w => z.eval w = x.eval w + y.eval w - x.eval w * y.eval w * 2) := by
  unfold B.xor
  refine (Enforces.product _ _).bind fun z =>
    (Enforces.ofOption (Q := fun z2 w => z2.eval w = z.eval w * (2 : ℕ))
      fun z2 h w _ => Expression.eval_mulNat h w).bind fun z2 =>
    Enforces.pure fun w _ h h' => ?_
  rw [BooleanExpression.eval_mk, eval_sub, eval_add, h, h']
  push_cast; rfl

/-! ## Completeness -/

/-- Values on honest witnesses follow from soundness. -/
theorem Comp.enforced {m : B p α} {s : Hon p} {Q : α → Hon p → Prop} {R : α → Assign p → Prop}
    (h : Comp m s Q) (he : Enforces m R) : Comp m s fun a s' => Q a s' ∧ R a s'.W := by
  obtain ⟨a, s', h1, h2, h3⟩ := h
  exact ⟨a, s', h1, h2, h3, (he _ _ _ h1 s'.W s'.satisfies).2⟩

theorem GenOK.pair {d : List Wire} {f : WireValues p → Option (WireValues p)} {o1 o2 : Wire}
    {W : Assign p} (hne : o1 ≠ o2)
    (h : ∀ v : WireValues p, (∀ i ∈ d, v i = some (W i)) →
      f v = (v.set o1 (W o1)).bind fun v' => v'.set o2 (W o2)) :
    GenOK ⟨d, f⟩ [o1, o2] W := by
  intro v hin hout
  change f v = _
  rw [h v hin, set_eq_some (hout o1 (by simp))]
  change WireValues.set _ o2 (W o2) = _
  rw [set_eq_some]
  · congr 1
    funext j
    by_cases h1 : j = o1
    · simp [h1, hne]
    · by_cases h2 : j = o2
      · simp [h2]
      · simp [h1, h2]
  · rw [if_neg (Ne.symm hne)]
    exact hout o2 (by simp)

namespace Comp

theorem assertBoolean {s : Hon p} {x : Expression p} (hx : x.Scoped s.next)
    (h : IsBool (x.eval s.W)) : Comp (B.assertBoolean x) s
      fun a s' => a = ⟨x⟩ ∧ s'.next = s.next ∧ s'.D = s.D ∧ s'.W = s.W := by
  unfold B.assertBoolean
  refine (Comp.assertProduct hx (hx.sub (.one s.pos)) .zero ?_).bind fun _ s' _ h => Comp.pure ⟨rfl, h⟩
  rw [eval_sub, Expression.eval_one s.one, Expression.eval_zero]
  exact (isBool_iff _).1 h

theorem booleanWire (s : Hon p) {x : Elem p} (hx : IsBool x) : Comp (B.booleanWire) s
    fun a s' => a = ⟨s.next⟩ ∧ s'.next = s.next + 1 ∧ s'.D = a.wire :: s.D ∧ s'.W a.wire = x := by
  unfold B.booleanWire
  refine (Comp.wire s x).bind fun i s1 l1 ⟨h1, h2, h3, h4⟩ => ?_
  refine (Comp.assertBoolean (.ofWire (by omega)) (by rw [eval_ofWire, h4]; exact hx)).bind
    fun _ s2 l2 ⟨_, g1, g2, g3⟩ => Comp.pure ⟨by rw [h1], by omega, by rw [g2, h3], by rw [g3, h4]⟩

theorem wires (n : ℕ) : ∀ (s : Hon p) (xs : List (Elem p)), xs.length = n → Comp (B.wires n) s
    fun a s' => a = List.range' s.next n ∧ s'.next = s.next + n ∧ s'.D = a.reverse ++ s.D ∧
      a.map s'.W = xs := by
  induction n with
  | zero =>
    intro s xs h
    exact Comp.pure ⟨rfl, rfl, rfl, by rw [List.length_eq_zero_iff.1 h]; rfl⟩
  | succ n ih =>
    intro s xs h
    match xs, h with
    | x :: xs, h =>
      unfold B.wires
      refine (Comp.wire s x).bind fun i s1 l1 ⟨h1, h2, h3, h4⟩ => ?_
      refine (ih s1 xs (by simpa using h)).bind fun ws s2 l2 ⟨g1, g2, g3, g4⟩ => Comp.pure ?_
      refine ⟨by rw [g1, h1, h2, List.range'_succ], by omega, by rw [g3, h3]; simp, ?_⟩
      rw [List.map_cons, g4, l2.2 i (by omega), h4]

theorem booleanWires (n : ℕ) : ∀ (s : Hon p) (xs : List (Elem p)), xs.length = n →
    (∀ x ∈ xs, IsBool x) → Comp (B.booleanWires n) s
    fun a s' => a.map (·.wire) = List.range' s.next n ∧ s'.next = s.next + n ∧
      s'.D = (a.map (·.wire)).reverse ++ s.D ∧ a.map (fun y => s'.W y.wire) = xs := by
  induction n with
  | zero =>
    intro s xs h _
    exact Comp.pure ⟨rfl, rfl, rfl, by rw [List.length_eq_zero_iff.1 h]; rfl⟩
  | succ n ih =>
    intro s xs h hb
    match xs, h, hb with
    | x :: xs, h, hb =>
      unfold B.booleanWires
      refine (Comp.booleanWire s (hb x (by simp))).bind fun i s1 l1 ⟨h1, h2, h3, h4⟩ => ?_
      refine (ih s1 xs (by simpa using h) (fun y hy => hb y (by simp [hy]))).bind
        fun ws s2 l2 ⟨g1, g2, g3, g4⟩ => Comp.pure ?_
      refine ⟨by rw [List.map_cons, g1, h1, h2, List.range'_succ], by omega,
        by rw [g3, h3]; simp, ?_⟩
      rw [List.map_cons, g4, l2.2 i.wire (by rw [h1]; change s.next < s1.next; omega), h4]

theorem binaryWire (s : Hon p) (n : ℕ) (xs : List (Elem p)) (h : xs.length = n)
    (hb : ∀ x ∈ xs, IsBool x) : Comp (B.binaryWire n) s
    fun a s' => a.bits.map (·.wire) = List.range' s.next n ∧ s'.next = s.next + n ∧
      s'.D = (a.bits.map (·.wire)).reverse ++ s.D ∧ a.bits.map (fun y => s'.W y.wire) = xs := by
  unfold B.binaryWire
  exact (booleanWires n s xs h hb).bind fun ws s' _ h => Comp.pure h

theorem assertEqual {s : Hon p} {x y : Expression p} (hx : x.Scoped s.next)
    (hy : y.Scoped s.next) (h : x.eval s.W = y.eval s.W) : Comp (B.assertEqual x y) s
      fun _ s' => s'.next = s.next ∧ s'.D = s.D ∧ s'.W = s.W := by
  unfold B.assertEqual
  refine Comp.assertProduct hx (.one s.pos) hy ?_
  rw [Expression.eval_one s.one, mul_one, h]

theorem assertTrue {s : Hon p} {x : BooleanExpression p} (hx : x.Scoped s.next)
    (h : x.eval s.W = 1) : Comp (B.assertTrue x) s
      fun _ s' => s'.next = s.next ∧ s'.D = s.D ∧ s'.W = s.W := by
  unfold B.assertTrue
  exact Comp.assertEqual hx (.one s.pos) (by rw [Expression.eval_one s.one]; exact h)

theorem assertFalse {s : Hon p} {x : BooleanExpression p} (hx : x.Scoped s.next)
    (h : x.eval s.W = 0) : Comp (B.assertFalse x) s
      fun _ s' => s'.next = s.next ∧ s'.D = s.D ∧ s'.W = s.W := by
  unfold B.assertFalse
  exact Comp.assertEqual hx .zero h

theorem assertZero {s : Hon p} {x : Expression p} (hx : x.Scoped s.next)
    (h : x.eval s.W = 0) : Comp (B.assertZero x) s
      fun _ s' => s'.next = s.next ∧ s'.D = s.D ∧ s'.W = s.W := by
  unfold B.assertZero
  exact Comp.assertEqual hx .zero h

theorem nonzero' (h2 : 2 < p) {s : Hon p} {x : Expression p} (hx : x.Scoped s.next) :
    Comp (B.nonzero x) s fun a s' => s'.D = s.D ∧ a.Scoped s'.next := by
  unfold B.nonzero
  let yv : Elem p := if x.eval s.W = 0 then 0 else 1
  let mv : Elem p := if x.eval s.W = 0 then 1 else (x.eval s.W)⁻¹
  refine (Comp.wire s yv).bind fun y s1 l1 ⟨e1, n1, D1, v1⟩ => ?_
  refine (Comp.wire s1 mv).bind fun m s2 l2 ⟨e2, n2, D2, v2⟩ => ?_
  have hx2 : x.Scoped s2.next := (l1.trans l2).scoped hx
  have ex2 : x.eval s2.W = x.eval s.W := (l1.trans l2).eval hx
  have ey : s2.W y = yv := by rw [l2.2 y (by omega), v1]
  refine (Comp.assertProduct hx2 (.ofWire (by omega)) (.ofWire (by omega)) ?_).bind
    fun _ s3 l3 ⟨n3, D3, W3⟩ => ?_
  · rw [ex2, eval_ofWire, eval_ofWire, ey, v2]
    by_cases h : x.eval s.W = 0
    · simp [yv, mv, h]
    · simp [yv, mv, h]
  refine (Comp.assertProduct ((Expression.Scoped.one s3.pos).sub (.ofWire (by omega)))
    (l3.scoped hx2) .zero ?_).bind fun _ s4 l4 ⟨n4, D4, W4⟩ => ?_
  · rw [eval_sub, Expression.eval_one s3.one, eval_ofWire, Expression.eval_zero, W3, ey, ex2]
    by_cases h : x.eval s.W = 0
    · simp [h]
    · simp [yv, h]
  refine (Comp.generator [m, y] s.D ?_ ?_ ?_).bind fun _ s5 l5 ⟨n5, D5, W5⟩ => Comp.pure ⟨D5, ?_⟩
  · rw [D4, D3, D2, D1]; rfl
  · refine GenOK.pair (by omega) fun v hin => ?_
    rw [W4, W3] at hin ⊢
    rw [B.nonzeroGen, Expression.evaluate_eq (w := s2.W) hin, ex2, v2, ey]
    simp only [Option.bind_eq_bind, Option.bind_some]
    by_cases h : x.eval s.W = 0
    · simp [yv, mv, h, Elem.isNonzero]
    · have : (x.eval s.W).isNonzero = true := (Elem.isNonzero_iff _).2 h
      simp [yv, mv, h, this, Elem.div_eq h2 _ _ h]
  · intro i hi
    have := hx i hi
    refine ⟨by omega, fun o ho => ?_⟩
    simp at ho
    rcases ho with rfl | rfl <;> omega
  · exact Expression.Scoped.ofWire (by omega)

theorem nonzero (h2 : 2 < p) {s : Hon p} {x : Expression p} (hx : x.Scoped s.next) :
    Comp (B.nonzero x) s fun a s' => s'.D = s.D ∧ a.Scoped s'.next ∧
      a.eval s'.W = if x.eval s.W = 0 then 0 else 1 :=
  ((nonzero' h2 hx).enforced (Enforces.nonzero x)).mono fun a s' l ⟨⟨h1, h2⟩, h3⟩ =>
    ⟨h1, h2, by rw [h3, l.eval hx]⟩

theorem not {s : Hon p} {x : BooleanExpression p} (hx : x.Scoped s.next) :
    Comp (B.not x) s fun a s' => s'.next = s.next ∧ s'.D = s.D ∧ s'.W = s.W ∧ a.Scoped s'.next ∧
      a.eval s'.W = 1 - x.eval s.W := by
  unfold B.not
  refine Comp.pure ⟨rfl, rfl, rfl, (Expression.Scoped.one s.pos).sub hx, ?_⟩
  rw [BooleanExpression.eval_mk, eval_sub, Expression.eval_one s.one]; rfl

theorem zero (h2 : 2 < p) {s : Hon p} {x : Expression p} (hx : x.Scoped s.next) :
    Comp (B.zero x) s fun a s' => s'.D = s.D ∧ a.Scoped s'.next ∧
      a.eval s'.W = if x.eval s.W = 0 then 1 else 0 := by
  unfold B.zero
  refine (Comp.nonzero h2 hx).bind fun a s1 l1 ⟨h1, h2, h3⟩ => ?_
  refine (Comp.not h2).mono fun z s2 l2 ⟨_, g1, g2, g3, g4⟩ => ⟨by rw [g1, h1], g3, ?_⟩
  rw [g4, h3]; split <;> simp

theorem equal (h2 : 2 < p) {s : Hon p} {x y : Expression p} (hx : x.Scoped s.next)
    (hy : y.Scoped s.next) :
    Comp (B.equal x y) s fun a s' => s'.D = s.D ∧ a.Scoped s'.next ∧
      a.eval s'.W = if x.eval s.W = y.eval s.W then 1 else 0 := by
  unfold B.equal
  refine (Comp.zero h2 (hx.sub hy)).mono fun a s' _ ⟨h1, h2, h3⟩ => ⟨h1, h2, ?_⟩
  rw [h3, eval_sub]; simp only [sub_eq_zero]

theorem product {s : Hon p} {x y : Expression p} (hx : x.Scoped s.next) (hy : y.Scoped s.next) :
    Comp (B.product x y) s fun z s' => s'.D = s.D ∧ z.Scoped s'.next ∧
      z.eval s'.W = x.eval s.W * y.eval s.W := by
  have H : Comp (B.product x y) s fun z s' => s'.D = s.D ∧ z.Scoped s'.next := by
    unfold B.product
    split
    · exact Comp.pure ⟨rfl, hy.mulElem _⟩
    · split
      · exact Comp.pure ⟨rfl, hx.mulElem _⟩
      · refine (Comp.wire s (x.eval s.W * y.eval s.W)).bind fun i s1 l1 ⟨e1, n1, D1, v1⟩ => ?_
        refine (Comp.assertProduct (l1.scoped hx) (l1.scoped hy) (.ofWire (by omega)) ?_).bind
          fun _ s2 l2 ⟨n2, D2, W2⟩ => ?_
        · rw [l1.eval hx, l1.eval hy, eval_ofWire, v1]
        refine (Comp.generator [i] s.D ?_ ?_ ?_).bind fun _ s3 l3 ⟨n3, D3, W3⟩ =>
          Comp.pure ⟨D3, .ofWire (by omega)⟩
        · rw [D2, D1]; rfl
        · refine GenOK.single fun v hin => ?_
          rw [W2] at hin ⊢
          rw [B.productGen, Expression.evaluate_eq (w := s1.W) fun i hi => hin i (by simp [hi]),
            Expression.evaluate_eq (w := s1.W) fun i hi => hin i (by simp [hi]),
            l1.eval hx, l1.eval hy, v1]
          rfl
        · intro j hj
          have : j < s.next := by
            rcases List.mem_append.1 hj with h | h
            · exact hx j h
            · exact hy j h
          refine ⟨by omega, fun o ho => ?_⟩
          simp at ho; omega
  exact (H.enforced (Enforces.product x y)).mono fun a s' l ⟨⟨h1, h2⟩, h3⟩ =>
    ⟨h1, h2, by rw [h3, l.eval hx, l.eval hy]⟩

theorem selection {s : Hon p} {c : BooleanExpression p} {x y : Expression p}
    (hc : c.Scoped s.next) (hx : x.Scoped s.next) (hy : y.Scoped s.next) :
    Comp (B.selection c x y) s fun z s' => s'.D = s.D ∧ z.Scoped s'.next ∧
      z.eval s'.W = y.eval s.W + c.eval s.W * (x.eval s.W - y.eval s.W) := by
  unfold B.selection
  refine (Comp.product hc (hx.sub hy)).bind fun d s1 l1 ⟨h1, h2, h3⟩ =>
    Comp.pure ⟨h1, (l1.scoped hy).add h2, ?_⟩
  rw [eval_add, h3, eval_sub, l1.eval hy]; rfl

theorem expLoop (x : Expression p) (k : Elem p) (r : ℕ) : ∀ (i : ℕ) (pe ls : Expression p)
    (s : Hon p), x.Scoped s.next → pe.Scoped s.next → ls.Scoped s.next →
    Comp (B.expLoop x k i r pe ls) s (fun z s' => s'.D = s.D ∧ z.Scoped s'.next) := by
  induction r with
  | zero => intro i pe ls s _ h _; exact Comp.pure ⟨rfl, h⟩
  | succ r ih =>
    intro i pe ls s hx hpe hls
    unfold B.expLoop
    have hs : Comp (if i = 0 then Pure.pure x else B.product ls ls : B p (Expression p)) s
        (fun sq s' => s'.D = s.D ∧ sq.Scoped s'.next) := by
      split
      · exact Comp.pure ⟨rfl, hx⟩
      · exact (Comp.product hls hls).mono fun _ _ _ h => ⟨h.1, h.2.1⟩
    refine hs.bind fun sq s1 l1 ⟨D1, h1⟩ => ?_
    have hq : Comp (if k.bit i = true then B.product pe sq else Pure.pure pe : B p (Expression p)) s1
        (fun pe' s' => s'.D = s1.D ∧ pe'.Scoped s'.next) := by
      split
      · exact (Comp.product (l1.scoped hpe) h1).mono fun _ _ _ h => ⟨h.1, h.2.1⟩
      · exact Comp.pure ⟨rfl, l1.scoped hpe⟩
    refine hq.bind fun pe' s2 l2 ⟨D2, h2⟩ => ?_
    exact (ih (i + 1) pe' sq s2 ((l1.trans l2).scoped hx) h2 (l2.scoped h1)).mono
      fun z s3 l3 h => ⟨by rw [h.1, D2, D1], h.2⟩

theorem exponentiation {s : Hon p} {x : Expression p} (hx : x.Scoped s.next) (k : Elem p) :
    Comp (B.exponentiation x k) s fun z s' => s'.D = s.D ∧ z.Scoped s'.next ∧
      z.eval s'.W = x.eval s.W ^ k.n := by
  have H := (expLoop x k k.bits 0 1 0 s hx (.one s.pos) .zero)
  exact (H.enforced (Enforces.exponentiation x k)).mono fun a s' l ⟨⟨h1, h2⟩, h3⟩ =>
    ⟨h1, h2, by rw [h3, l.eval hx]⟩

theorem inverse (h2 : 2 < p) {s : Hon p} {x : Expression p} (hx : x.Scoped s.next)
    (h : x.eval s.W ≠ 0) : Comp (B.inverse x) s fun z s' => s'.D = s.D ∧ z.Scoped s'.next ∧
      z.eval s'.W = (x.eval s.W)⁻¹ := by
  unfold B.inverse
  refine (Comp.wire s (x.eval s.W)⁻¹).bind fun i s1 l1 ⟨e1, n1, D1, v1⟩ => ?_
  refine (Comp.assertProduct (l1.scoped hx) (.ofWire (by omega)) (.one s1.pos) ?_).bind
    fun _ s2 l2 ⟨n2, D2, W2⟩ => ?_
  · rw [l1.eval hx, eval_ofWire, v1, Expression.eval_one s1.one, mul_inv_cancel₀ h]
  refine (Comp.generator [i] s.D ?_ ?_ ?_).bind fun _ s3 l3 ⟨n3, D3, W3⟩ =>
    Comp.pure ⟨D3, .ofWire (by omega), by rw [eval_ofWire, W3, W2, v1]⟩
  · rw [D2, D1]; rfl
  · refine GenOK.single fun v hin => ?_
    rw [W2] at hin ⊢
    rw [B.inverseGen, Expression.evaluate_eq (w := s1.W) hin, l1.eval hx, v1]
    simp [Elem.multiplicativeInverse_eq h2 _ h]
  · intro j hj
    have := hx j hj
    refine ⟨by omega, fun o ho => ?_⟩
    simp at ho; omega

theorem assertNonzero (h2 : 2 < p) {s : Hon p} {x : Expression p} (hx : x.Scoped s.next)
    (h : x.eval s.W ≠ 0) : Comp (B.assertNonzero x) s fun _ s' => s'.D = s.D := by
  unfold B.assertNonzero
  exact (Comp.inverse h2 hx h).bind fun _ s1 l1 ⟨h1, _⟩ => Comp.pure h1

theorem assertNonequal (h2 : 2 < p) {s : Hon p} {x y : Expression p} (hx : x.Scoped s.next)
    (hy : y.Scoped s.next) (h : x.eval s.W ≠ y.eval s.W) :
    Comp (B.assertNonequal x y) s fun _ s' => s'.D = s.D := by
  unfold B.assertNonequal
  exact Comp.assertNonzero h2 (hx.sub hy) (by rw [eval_sub]; exact sub_ne_zero.2 h)

theorem inverseOrZero (h2 : 2 < p) {s : Hon p} {x : Expression p} (hx : x.Scoped s.next) :
    Comp (B.inverseOrZero x) s fun z s' => s'.D = s.D ∧ z.Scoped s'.next ∧
      z.eval s'.W = (x.eval s.W)⁻¹ := by
  unfold B.inverseOrZero
  refine (Comp.wire s (x.eval s.W)⁻¹).bind fun i s1 l1 ⟨e1, n1, D1, v1⟩ => ?_
  refine (Comp.nonzero h2 (l1.scoped hx)).bind fun nz s2 l2 ⟨D2, sc2, v2⟩ => ?_
  have hl := l2.1
  have l12 := l1.trans l2
  have vi : s2.W i = (x.eval s.W)⁻¹ := by rw [l2.2 i (by omega), v1]
  refine (Comp.assertProduct (l12.scoped hx) (.ofWire (by omega)) sc2 ?_).bind
    fun _ s3 l3 ⟨n3, D3, W3⟩ => ?_
  · have v2' : nz.expression.eval s2.W = _ := v2
    rw [l12.eval hx, eval_ofWire, vi, v2', l1.eval hx]
    split
    · next h => rw [h, zero_mul]
    · next h => rw [mul_inv_cancel₀ h]
  refine (Comp.generator [i] s.D ?_ ?_ ?_).bind fun _ s4 l4 ⟨n4, D4, W4⟩ =>
    Comp.pure ⟨D4, .ofWire (by omega), by rw [eval_ofWire, W4, W3, vi]⟩
  · rw [D3, D2, D1]; rfl
  · refine GenOK.single fun v hin => ?_
    rw [W3] at hin ⊢
    rw [B.inverseOrZeroGen, Expression.evaluate_eq (w := s2.W) hin, l12.eval hx, vi]
    simp [Elem.multiplicativeInverseOrZero_eq h2]
  · intro j hj
    have := hx j hj
    refine ⟨by omega, fun o ho => ?_⟩
    simp at ho; omega

theorem quotient (h2 : 2 < p) {s : Hon p} {x y : Expression p} (hx : x.Scoped s.next)
    (hy : y.Scoped s.next) (h : y.eval s.W ≠ 0) :
    Comp (B.quotient x y) s fun z s' => s'.D = s.D ∧ z.Scoped s'.next ∧
      z.eval s'.W = x.eval s.W / y.eval s.W := by
  unfold B.quotient
  refine (Comp.inverse h2 hy h).bind fun i s1 l1 ⟨D1, sc1, v1⟩ => ?_
  refine (Comp.product (l1.scoped hx) sc1).mono fun z s2 l2 ⟨D2, sc2, v2⟩ =>
    ⟨by rw [D2, D1], sc2, ?_⟩
  rw [v2, v1, l1.eval hx, div_eq_mul_inv]

theorem quotientUnsafe (h2 : 2 < p) {s : Hon p} {x y : Expression p} (hx : x.Scoped s.next)
    (hy : y.Scoped s.next) (h : y.eval s.W ≠ 0) :
    Comp (B.quotientUnsafe x y) s fun z s' => s'.D = s.D ∧ z.Scoped s'.next ∧
      z.eval s'.W = x.eval s.W / y.eval s.W := by
  unfold B.quotientUnsafe
  refine (Comp.wire s (x.eval s.W / y.eval s.W)).bind fun i s1 l1 ⟨e1, n1, D1, v1⟩ => ?_
  refine (Comp.generator [i] s.D ?_ ?_ ?_).bind fun _ s3 l3 ⟨n3, D3, W3⟩ =>
    Comp.pure ⟨D3, .ofWire (by omega), by rw [eval_ofWire, W3, v1]⟩
  · rw [D1]; rfl
  · refine GenOK.single fun v hin => ?_
    rw [B.quotientUnsafeGen, Expression.evaluate_eq (w := s1.W) fun i hi => hin i (by simp [hi]),
      Expression.evaluate_eq (w := s1.W) fun i hi => hin i (by simp [hi]),
      l1.eval hx, l1.eval hy, v1]
    have : (y.eval s.W).isNonzero = true := (Elem.isNonzero_iff _).2 h
    simp [this, Elem.div_eq h2 _ _ h]
  · intro j hj
    have : j < s.next := by
      rcases List.mem_append.1 hj with h | h
      · exact hx j h
      · exact hy j h
    refine ⟨by omega, fun o ho => ?_⟩
    simp at ho; omega

theorem and {s : Hon p} {x y : BooleanExpression p} (hx : x.Scoped s.next) (hy : y.Scoped s.next) :
    Comp (B.and x y) s fun z s' => s'.D = s.D ∧ z.Scoped s'.next ∧
      z.eval s'.W = x.eval s.W * y.eval s.W := by
  unfold B.and
  exact (Comp.product hx hy).bind fun z s1 l1 h => Comp.pure h

theorem or {s : Hon p} {x y : BooleanExpression p} (hx : x.Scoped s.next) (hy : y.Scoped s.next) :
    Comp (B.or x y) s fun z s' => s'.D = s.D ∧ z.Scoped s'.next ∧
      z.eval s'.W = x.eval s.W + y.eval s.W - x.eval s.W * y.eval s.W := by
  unfold B.or
  refine (Comp.product hx hy).bind fun z s1 l1 ⟨h1, h2, h3⟩ =>
    Comp.pure ⟨h1, ((l1.scoped hx).add (l1.scoped hy)).sub h2, ?_⟩
  rw [BooleanExpression.eval_mk, eval_sub, eval_add, h3, l1.eval hx, l1.eval hy]; rfl

theorem xor (h2 : 2 < p) {s : Hon p} {x y : BooleanExpression p} (hx : x.Scoped s.next)
    (hy : y.Scoped s.next) :
    Comp (B.xor x y) s fun z s' => s'.D = s.D ∧ z.Scoped s'.next ∧
      z.eval s'.W = x.eval s.W + y.eval s.W - x.eval s.W * y.eval s.W * 2 := by
  unfold B.xor
  refine (Comp.product hx hy).bind fun z s1 l1 ⟨h1, h2', h3⟩ => ?_
  refine (Comp.ofOption (Q := fun z2 s' => z2 = z.mulElem ((2 : ℕ) : Elem p) ∧ s' = s1)
    (z.mulNat_eq h2) ⟨rfl, rfl⟩).bind fun z2 s2 l2 ⟨g1, g2⟩ => ?_
  subst g2
  subst g1
  refine Comp.pure ⟨h1, ((l1.scoped hx).add (l1.scoped hy)).sub (h2'.mulElem _), ?_⟩
  rw [BooleanExpression.eval_mk, eval_sub, eval_add, eval_mulElem, h3, l1.eval hx, l1.eval hy]
  push_cast; rfl

end Comp

end R1CS
