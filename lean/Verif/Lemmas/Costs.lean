import Verif.Spec.Costs
import Verif.Lemmas.Compare

/-!
# Counting constraints
-/

set_option linter.unusedSectionVars false

namespace R1CS

variable {p : ℕ} [hp : Fact p.Prime] {α β : Type}

open Expression (eval_add eval_sub eval_neg eval_ofWire eval_mulElem)

/-! ## Expressions that vary -/

namespace Expression

theorem Varies.asConstant {e : Expression p} (h : e.Varies) : e.asConstant = none := by
  obtain ⟨w, w', h1, h1', hne⟩ := h
  cases hc : e.asConstant with
  | none => rfl
  | some c => exact absurd ((eval_of_asConstant h1 hc).trans (eval_of_asConstant h1' hc).symm) hne

/-- The witness which is 0 except on the constant wire and on `i`, where it is 1. -/
def unit (i : Wire) : Assign p := fun j => if j = ONE ∨ j = i then 1 else 0

theorem unit_one (i : Wire) : (unit i : Assign p) ONE = 1 := by simp [unit]

/-- A wire plus something that does not mention it varies. -/
theorem varies_of_wire {e : Expression p} {i : Wire} (hi : i ≠ ONE)
    (h : e.eval (unit i) ≠ e.eval (unit ONE)) : e.Varies :=
  ⟨unit i, unit ONE, unit_one i, unit_one ONE, h⟩

theorem eval_unit_of_not_mem {e : Expression p} {i : Wire} (h : i ∉ e.dependencies) :
    e.eval (unit i) = e.eval (unit ONE) := by
  apply eval_congr
  intro j hj
  have : j ≠ i := fun h' => h (h' ▸ hj)
  simp [unit, this]

theorem varies_ofWire {i : Wire} (hi : i ≠ ONE) : (ofWire i : Expression p).Varies := by
  refine varies_of_wire hi ?_
  rw [eval_ofWire, eval_ofWire]
  simp [unit, hi]

theorem varies_add_ofWire {e : Expression p} {i : Wire} (hi : i ≠ ONE) (h : i ∉ e.dependencies) :
    (e + ofWire i).Varies := by
  refine varies_of_wire hi ?_
  rw [eval_add, eval_add, eval_ofWire, eval_ofWire, eval_unit_of_not_mem h]
  simp [unit, hi]

theorem Scoped.not_mem {e : Expression p} {n i : ℕ} (h : e.Scoped n) (hi : n ≤ i) :
    i ∉ e.dependencies := fun hm => absurd (h i hm) (by omega)

end Expression

/-! ## The rules -/

/-- Whenever `m` returns from `b`, it has added `k` constraints, and `Q` holds. -/
def Cost (m : B p α) (b : Builder p) (k : ℕ) (Q : α → ℕ → Prop) : Prop :=
  ∀ a b', m b = some (a, b') → b'.constraints.length = b.constraints.length + k ∧
    b.nextWireIndex ≤ b'.nextWireIndex ∧ Q a b'.nextWireIndex

namespace Cost

theorem addsExactly {m : B p α} {b : Builder p} {k : ℕ} {Q : α → ℕ → Prop} (h : Cost m b k Q)
    (hs : (m b).isSome) : AddsExactly m b k := by
  obtain ⟨⟨a, b'⟩, hr⟩ := Option.isSome_iff_exists.1 hs
  exact ⟨a, b', hr, (h a b' hr).1⟩

theorem pure {a : α} {b : Builder p} {Q : α → ℕ → Prop} (h : Q a b.nextWireIndex) :
    Cost (Pure.pure a : B p α) b 0 Q := by
  intro a' b' h'
  rw [B.pure_eq] at h'
  obtain ⟨rfl, rfl⟩ := Prod.ext_iff.1 (Option.some.inj h')
  exact ⟨rfl, le_refl _, h⟩

theorem bind {m : B p α} {f : α → B p β} {b : Builder p} {k l : ℕ} {Q : α → ℕ → Prop}
    {R : β → ℕ → Prop} (hm : Cost m b k Q)
    (hf : ∀ a b', b.nextWireIndex ≤ b'.nextWireIndex → Q a b'.nextWireIndex → Cost (f a) b' l R) :
    Cost (m >>= f) b (k + l) R := by
  intro a b' h
  obtain ⟨x, b1, h1, h2⟩ := B.bind_run h
  obtain ⟨h3, h4, h5⟩ := hm x b1 h1
  obtain ⟨h6, h7, h8⟩ := hf x b1 h4 h5 a b' h2
  exact ⟨by rw [h6, h3]; ring, by omega, h8⟩

theorem mono {m : B p α} {b : Builder p} {k : ℕ} {Q R : α → ℕ → Prop} (hm : Cost m b k Q)
    (h : ∀ a n, b.nextWireIndex ≤ n → Q a n → R a n) : Cost m b k R := fun a b' hr =>
  ⟨(hm a b' hr).1, (hm a b' hr).2.1, h _ _ (hm a b' hr).2.1 (hm a b' hr).2.2⟩

theorem congr {m : B p α} {b : Builder p} {k l : ℕ} {Q : α → ℕ → Prop} (hm : Cost m b k Q)
    (h : k = l) : Cost m b l Q := h ▸ hm

theorem panic {b : Builder p} {k : ℕ} {Q : α → ℕ → Prop} : Cost (B.panic : B p α) b k Q :=
  fun _ _ h => absurd h (by simp [B.panic])

theorem require {c : Prop} [Decidable c] {b : Builder p} :
    Cost (B.require c) b 0 fun _ _ => c := by
  unfold B.require
  split
  · next h => exact pure h
  · exact panic

theorem ofOption {o : Option α} {b : Builder p} :
    Cost (B.ofOption o) b 0 fun a n => o = some a ∧ n = b.nextWireIndex := by
  intro a b' h
  cases o with
  | none => exact absurd h (by simp [B.ofOption])
  | some x =>
    obtain ⟨rfl, rfl⟩ := Prod.ext_iff.1 (Option.some.inj h)
    exact ⟨rfl, le_refl _, rfl, rfl⟩

theorem wire {b : Builder p} :
    Cost B.wire b 0 fun i n => i = b.nextWireIndex ∧ n = b.nextWireIndex + 1 := by
  intro a b' h
  obtain ⟨rfl, rfl⟩ := Prod.ext_iff.1 (Option.some.inj h)
  exact ⟨rfl, Nat.le_succ _, rfl, rfl⟩

theorem assertProduct (x y z : Expression p) {b : Builder p} :
    Cost (B.assertProduct x y z) b 1 fun _ n => n = b.nextWireIndex := by
  intro a b' h
  obtain ⟨rfl, rfl⟩ := Prod.ext_iff.1 (Option.some.inj h)
  exact ⟨by simp, le_refl _, rfl⟩

theorem generator (d : List Wire) (f : WireValues p → Option (WireValues p)) {b : Builder p} :
    Cost (B.generator d f) b 0 fun _ n => n = b.nextWireIndex := by
  intro a b' h
  obtain ⟨rfl, rfl⟩ := Prod.ext_iff.1 (Option.some.inj h)
  exact ⟨rfl, le_refl _, rfl⟩

theorem assertEqual (x y : Expression p) {b : Builder p} :
    Cost (B.assertEqual x y) b 1 fun _ n => n = b.nextWireIndex := assertProduct _ _ _

theorem assertBoolean (x : Expression p) {b : Builder p} :
    Cost (B.assertBoolean x) b 1 fun z n => z = ⟨x⟩ ∧ n = b.nextWireIndex :=
  (assertProduct _ _ _).bind (l := 0) fun _ b' _ h => pure ⟨rfl, h⟩

theorem booleanWire {b : Builder p} :
    Cost B.booleanWire b 1 fun i n => i = ⟨b.nextWireIndex⟩ ∧ n = b.nextWireIndex + 1 := by
  unfold B.booleanWire
  refine (wire.bind (l := 1) fun i b1 _ h1 => ((assertBoolean _).bind (l := 0)
    fun _ b2 _ h2 => pure ⟨?_, ?_⟩).congr rfl).congr (by ring)
  · rw [h1.1]
  · rw [h2.2, h1.2]

theorem wires : ∀ (n : ℕ) {b : Builder p}, Cost (B.wires n) b 0 fun ws m => ws.length = n ∧
    m = b.nextWireIndex + n ∧ ws.Nodup ∧ ∀ i ∈ ws, b.nextWireIndex ≤ i ∧ i < m
  | 0, b => pure ⟨rfl, rfl, List.nodup_nil, by simp⟩
  | n + 1, b => by
    unfold B.wires
    refine wire.bind (l := 0) fun i b1 _ h1 => (wires n).bind (l := 0) fun ws b2 _ h2 => pure ?_
    obtain ⟨e1, e2, e3, e4⟩ := h2
    refine ⟨by simp [e1], by rw [e2, h1.2]; ring, ?_, ?_⟩
    · refine List.nodup_cons.2 ⟨fun hm => ?_, e3⟩
      have := (e4 i hm).1
      rw [h1.1] at this
      omega
    · intro j hj
      rcases List.mem_cons.1 hj with rfl | hj
      · exact ⟨le_of_eq h1.1.symm, by rw [e2, h1.1]; omega⟩
      · have := e4 j hj
        exact ⟨by omega, this.2⟩

theorem booleanWires : ∀ (n : ℕ) {b : Builder p}, Cost (B.booleanWires n) b n fun ws m =>
    ws.length = n ∧ m = b.nextWireIndex + n ∧ ws.Nodup ∧
      ∀ i ∈ ws, b.nextWireIndex ≤ i.wire ∧ i.wire < m
  | 0, b => pure ⟨rfl, rfl, List.nodup_nil, by simp⟩
  | n + 1, b => by
    unfold B.booleanWires
    refine (booleanWire.bind fun i b1 _ h1 => (booleanWires n).bind (l := 0)
      fun ws b2 _ h2 => pure ?_).congr (by ring)
    obtain ⟨e1, e2, e3, e4⟩ := h2
    refine ⟨by simp [e1], by rw [e2, h1.2]; ring, ?_, ?_⟩
    · refine List.nodup_cons.2 ⟨fun hm => ?_, e3⟩
      have := (e4 i hm).1
      rw [h1.1] at this
      simp only at this
      omega
    · intro j hj
      rcases List.mem_cons.1 hj with rfl | hj
      · rw [h1.1]; exact ⟨le_refl _, by rw [e2]; simp only; omega⟩
      · have := e4 j hj
        exact ⟨by omega, this.2⟩

theorem binaryWire (n : ℕ) {b : Builder p} : Cost (B.binaryWire n) b n fun w m =>
    w.bits.length = n ∧ m = b.nextWireIndex + n ∧ w.bits.Nodup ∧
      ∀ i ∈ w.bits, b.nextWireIndex ≤ i.wire ∧ i.wire < m :=
  (booleanWires n).bind (l := 0) fun _ _ _ h => pure h

/-! ## Field gadgets -/

/-- A product of expressions which are not constants. -/
theorem product {x y : Expression p} (hx : x.asConstant = none) (hy : y.asConstant = none)
    {b : Builder p} : Cost (B.product x y) b 1 fun z n =>
      z = Expression.ofWire b.nextWireIndex ∧ n = b.nextWireIndex + 1 := by
  unfold B.product
  simp only [hx, hy]
  refine (wire.bind fun i b1 _ h1 => (assertProduct _ _ _).bind fun _ b2 _ h2 =>
    (generator _ _).bind fun _ b3 _ h3 => pure ?_).congr (l := 1) rfl
  exact ⟨by rw [h1.1], by omega⟩

/-- A product with a constant. -/
theorem product_const {x y : Expression p} {c : Elem p}
    (h : x.asConstant = some c ∨ y.asConstant = some c) {b : Builder p} :
    Cost (B.product x y) b 0 fun _ n => n = b.nextWireIndex := by
  unfold B.product
  cases hx : x.asConstant with
  | some d => exact pure rfl
  | none =>
    rcases h with h | h
    · rw [hx] at h; exact absurd h (by simp)
    · simp only [h]; exact pure rfl

theorem selection {c : BooleanExpression p} {x y : Expression p} (hc : c.expression.asConstant = none)
    (hxy : (x - y).asConstant = none) {b : Builder p} : Cost (B.selection c x y) b 1 fun z n =>
      z = y + Expression.ofWire b.nextWireIndex ∧ n = b.nextWireIndex + 1 :=
  (product hc hxy).bind (l := 0) fun d _ _ h => pure ⟨by rw [h.1], h.2⟩

theorem nonzero (x : Expression p) {b : Builder p} : Cost (B.nonzero x) b 2 fun z n =>
    z = ⟨Expression.ofWire b.nextWireIndex⟩ ∧ n = b.nextWireIndex + 2 := by
  unfold B.nonzero
  refine (wire.bind fun i b1 _ h1 => wire.bind fun j b2 _ h2 => (assertProduct _ _ _).bind
    fun _ b3 _ h3 => (assertProduct _ _ _).bind fun _ b4 _ h4 => (generator _ _).bind
    fun _ b5 _ h5 => pure ?_).congr (l := 2) rfl
  exact ⟨by rw [h1.1], by omega⟩

theorem inverse (x : Expression p) {b : Builder p} : Cost (B.inverse x) b 1 fun z n =>
    z = Expression.ofWire b.nextWireIndex ∧ n = b.nextWireIndex + 1 := by
  unfold B.inverse
  refine (wire.bind fun i b1 _ h1 => (assertProduct _ _ _).bind fun _ b3 _ h3 =>
    (generator _ _).bind fun _ b5 _ h5 => pure ?_).congr (l := 1) rfl
  exact ⟨by rw [h1.1], by omega⟩

theorem assertNonzero (x : Expression p) {b : Builder p} :
    Cost (B.assertNonzero x) b 1 fun _ _ => True :=
  (inverse x).bind (l := 0) fun _ _ _ _ => pure trivial

/-! ## Splitting -/

theorem splitWithoutRangeCheck (x : Expression p) (n : ℕ) {b : Builder p} :
    Cost (B.splitWithoutRangeCheck x n) b (n + 1) fun e m => ∃ w : BinaryWire,
      e = BinaryExpression.ofWire w ∧ w.bits.length = n ∧ w.bits.Nodup ∧
      ∀ i ∈ w.bits, b.nextWireIndex ≤ i.wire ∧ i.wire < m := by
  unfold B.splitWithoutRangeCheck
  refine ((binaryWire n).bind fun w b1 _ h1 => ofOption.bind fun s b2 _ h2 =>
    (assertEqual _ _).bind fun _ b3 _ h3 => (generator _ _).bind fun _ b4 _ h4 =>
    pure ⟨w, rfl, h1.1, h1.2.2.1, ?_⟩).congr (l := n + 1) (by ring)
  intro i hi
  have := h1.2.2.2 i hi
  exact ⟨this.1, by omega⟩

theorem splitBounded (x : Expression p) (n : ℕ) {b : Builder p} :
    Cost (B.splitBounded x n) b (n + 1) fun _ _ => n < Elem.maxBits p :=
  (require.bind fun _ _ _ h => (splitWithoutRangeCheck x n).mono fun _ _ _ _ => h).congr
    (zero_add _)

theorem cmpSubtractive (d : Expression p) (less strict : Bool) (n : ℕ) {b : Builder p} :
    Cost (B.cmpSubtractive d less strict n) b (n + 2) fun _ _ => n + 1 < Elem.maxBits p := by
  unfold B.cmpSubtractive
  exact (ofOption.bind fun _ _ _ _ => (splitBounded _ (n + 1)).bind fun _ _ _ h =>
    ofOption.mono fun _ _ _ _ => h).congr (by ring)

/-! ## Comparisons -/

theorem assertBooleans : ∀ (ms : List Wire) {b : Builder p},
    Cost (B.assertBooleans ms) b ms.length fun _ n => n = b.nextWireIndex
  | [], _ => pure rfl
  | m :: ms, b => ((assertBoolean _).bind fun _ _ _ h1 =>
      (assertBooleans ms).mono fun _ _ _ h2 => by omega).congr (by simp; ring)

theorem assertMoreSignificantEqual :
    ∀ (l : List (Wire × Expression p × Expression p)) (d : Expression p) {b : Builder p},
    Cost (B.assertMoreSignificantEqual l d) b l.length fun _ n => n = b.nextWireIndex
  | [], _, _ => pure rfl
  | (m, x, y) :: rest, d, b => ((assertProduct _ _ _).bind fun _ _ _ h1 =>
      (assertMoreSignificantEqual rest _).mono fun _ _ _ h2 => by omega).congr (by simp; ring)

theorem maskedSum : ∀ (l : List (Wire × Expression p × Expression p)) (s : Expression p)
    {b : Builder p}, 1 ≤ b.nextWireIndex → s.Scoped b.nextWireIndex → (l = [] → s.Varies) →
    (∀ t ∈ l, t.1 ≠ ONE ∧ (t.2.1 - t.2.2).asConstant = none) →
    Cost (B.maskedSum l s) b l.length fun z n => z.Varies ∧ z.Scoped n
  | [], s, _, _, hs, hv, _ => pure ⟨hv rfl, hs⟩
  | (m, x, y) :: rest, s, b, hb, hs, hv, hl => by
    unfold B.maskedSum
    have h0 := hl (m, x, y) (by simp)
    refine ((product (Expression.varies_ofWire h0.1).asConstant h0.2).bind fun t b1 hb1 h1 =>
      (maskedSum rest (s + t) (by omega) ?_ ?_ fun t ht => hl t (by simp [ht]))).congr
      (by simp; ring)
    · rw [h1.1]
      exact (hs.mono (by omega)).add (.ofWire (by omega))
    · intro _
      rw [h1.1]
      exact Expression.varies_add_ofWire (by show b.nextWireIndex ≠ 0; omega)
        (hs.not_mem (le_refl _))

theorem cmpTail {l : List (Wire × Expression p × Expression p)} {d : BooleanExpression p}
    (hd : d.expression.asConstant = none)
    (hl : ∀ t ∈ l, t.1 ≠ ONE ∧ (t.2.1 - t.2.2).asConstant = none) (less strict : Bool) (n : ℕ)
    {b : Builder p} (hb : 1 ≤ b.nextWireIndex) :
    Cost (B.cmpTail l d less strict n) b
      (l.length + (l.length - 1) + (if strict then 0 else 2) + (n + 2))
      fun _ _ => n + 1 < Elem.maxBits p := by
  unfold B.cmpTail
  match l, hl with
  | [], _ =>
    intro a b' h
    obtain ⟨x, b1, h1, h2⟩ := B.bind_run h
    exact absurd h2 (by simp [B.panic])
  | (m0, x, y) :: rest, hl =>
    refine ((maskedSum _ 0 hb .zero (by simp) hl).bind fun dc b1 hb1 h1 =>
      (assertMoreSignificantEqual rest _).bind fun _ b2 hb2 h2 =>
      Cost.bind (k := if strict then 0 else 2) (Q := fun _ _ => True) ?_ fun _ b3 hb3 h3 =>
      cmpSubtractive dc less strict n).congr (by simp only [List.length_cons]; omega)
    cases strict with
    | true => exact pure trivial
    | false =>
      refine (selection hd ?_).bind fun z b3 _ h3 => assertNonzero z
      refine Expression.Varies.asConstant ?_
      obtain ⟨w, w', e1, e2, e3⟩ := h1.1
      refine ⟨w, w', e1, e2, fun h => e3 ?_⟩
      rw [eval_sub, eval_sub, Expression.eval_one e1, Expression.eval_one e2] at h
      exact sub_left_injective h

end Cost

/-! ## Chunks of wires vary -/

theorem mem_mapM_join {e : Expression p} : ∀ {cs : List (BinaryExpression p)}
    {es : List (Expression p)}, cs.mapM BinaryExpression.join = some es → e ∈ es →
    ∃ c ∈ cs, c.join = some e
  | [], es, h, he => by
    simp only [List.mapM_nil] at h
    obtain rfl := Option.some.inj h
    exact absurd he (by simp)
  | c :: cs, es, h, he => by
    rw [List.mapM_cons] at h
    cases hc : c.join with
    | none => rw [hc] at h; exact absurd h (by simp)
    | some x =>
      cases hcs : cs.mapM BinaryExpression.join with
      | none => rw [hc, hcs] at h; exact absurd h (by simp)
      | some xs =>
        rw [hc, hcs] at h
        obtain rfl := Option.some.inj h
        rcases List.mem_cons.1 he with rfl | he
        · exact ⟨c, by simp, hc⟩
        · obtain ⟨d, hd, hd'⟩ := mem_mapM_join hcs he
          exact ⟨d, by simp [hd], hd'⟩

theorem mapM_join_length : ∀ {cs : List (BinaryExpression p)}
    {es : List (Expression p)}, cs.mapM BinaryExpression.join = some es → es.length = cs.length := by
  intro cs es h
  have := congrArg List.length ((mapM_join h).1 fun _ => 0)
  simpa using this

theorem eval_join {c : BinaryExpression p} {e : Expression p} (h : c.join = some e) (w : Assign p) :
    e.eval w = (c.val w : Elem p) := by
  by_cases hp' : 2 ^ c.len ≤ p
  · obtain ⟨x, hx, hx'⟩ := BinaryExpression.join_eq hp'
    rw [h] at hx
    obtain rfl := Option.some.inj hx
    exact hx' w
  · rw [BinaryExpression.join_eq_none (not_le.1 hp')] at h
    exact absurd h (by simp)

open BinaryExpression (val_cons val_nil) in
theorem val_unit_eq {i : Wire} : ∀ {l : List (BooleanExpression p)},
    (∀ b ∈ l, i ∉ b.expression.dependencies) →
    BinaryExpression.val (Expression.unit i : Assign p) ⟨l⟩ =
      BinaryExpression.val (Expression.unit ONE) ⟨l⟩
  | [], _ => rfl
  | b :: l, h => by
    rw [val_cons, val_cons, val_unit_eq fun b hb => h b (by simp [hb])]
    have : b.eval (Expression.unit i : Assign p) = b.eval (Expression.unit ONE) :=
      Expression.eval_unit_of_not_mem (h b (by simp))
    rw [this]

theorem chunk_diff_varies {l : List BooleanWire} (hl : l ≠ []) (hn : l.Nodup)
    (h1 : ∀ i ∈ l, i.wire ≠ ONE) {d : BinaryExpression p}
    (hd : ∀ i ∈ l, ∀ b ∈ d.bits, i.wire ∉ b.expression.dependencies) {x y : Expression p}
    (hx : (⟨l.map BooleanExpression.ofWire⟩ : BinaryExpression p).join = some x)
    (hy : d.join = some y) : (x - y).Varies := by
  match l, hl with
  | i :: rest, _ =>
    refine Expression.varies_of_wire (h1 i (by simp)) ?_
    rw [eval_sub, eval_sub, eval_join hx, eval_join hy, eval_join hx, eval_join hy]
    rw [val_unit_eq (hd i (by simp)), List.map_cons, BinaryExpression.val_cons,
      BinaryExpression.val_cons, val_unit_eq]
    · have e1 : (BooleanExpression.ofWire i : BooleanExpression p).eval
          (Expression.unit i.wire) = 1 := by
        show (Expression.ofWire i.wire).eval _ = _
        rw [eval_ofWire]; simp [Expression.unit]
      have e2 : (BooleanExpression.ofWire i : BooleanExpression p).eval
          (Expression.unit ONE) = 0 := by
        show (Expression.ofWire i.wire).eval _ = _
        rw [eval_ofWire]; simp [Expression.unit, h1 i (by simp)]
      rw [e1, e2]
      intro h
      have h' := sub_left_injective h
      have hn1 : (1 : Elem p).n = 1 := Elem.one_n
      have hn0 : (0 : Elem p).n = 0 := rfl
      rw [hn1, hn0, Nat.cast_add, Nat.cast_add, Nat.cast_one, Nat.cast_zero] at h'
      exact one_ne_zero (add_right_cancel h')
    · intro b hb
      obtain ⟨j, hj, rfl⟩ := List.mem_map.1 hb
      have hij : i ≠ j := fun h => (List.nodup_cons.1 hn).1 (h ▸ hj)
      have hw : i.wire ≠ j.wire := fun h => hij (by cases i; cases j; simpa using h)
      intro hm
      exact hw (Expression.mem_deps_ofWire hm)

theorem varies_sumOfWires {ws : List Wire} (h : ws ≠ []) (hn : ws.Nodup) (h1 : ∀ i ∈ ws, i ≠ ONE) :
    (Expression.sumOfWires ws : Expression p).Varies := by
  match ws, h with
  | i :: rest, _ =>
    refine Expression.varies_of_wire (h1 i (by simp)) ?_
    rw [Expression.eval_sumOfWires _ _ hn, Expression.eval_sumOfWires _ _ hn, List.map_cons,
      List.map_cons, List.sum_cons, List.sum_cons]
    have : rest.map (Expression.unit i : Assign p) = rest.map (Expression.unit ONE) := by
      apply List.map_congr_left
      intro j hj
      have : j ≠ i := fun h => (List.nodup_cons.1 hn).1 (h ▸ hj)
      simp [Expression.unit, this]
    rw [this]
    intro h
    have h' := add_right_cancel h
    simp [Expression.unit, h1 i (by simp)] at h'

namespace Cost

theorem cmpBinary {w : BinaryWire} {y : BinaryExpression p} {b : Builder p}
    (hb : 1 ≤ b.nextWireIndex) (hn : w.bits.Nodup) (h1 : ∀ i ∈ w.bits, i.wire ≠ ONE)
    (hy : ∀ i ∈ w.bits, ∀ c ∈ y.bits, i.wire ∉ c.expression.dependencies) (less strict : Bool) :
    Cost (B.cmpBinary (BinaryExpression.ofWire w) y less strict) b
      (cmpConstraints w.bits.length (cmpChunkBits (Elem.maxBits p) w.bits.length) +
        if strict then 0 else 2) fun _ _ => True := by
  have hk := cmpChunkBits_pos (Elem.maxBits p) w.bits.length
  have hlen : (BinaryExpression.ofWire w : BinaryExpression p).len = w.bits.length := by
    simp [BinaryExpression.len, BinaryExpression.ofWire]
  unfold B.cmpBinary
  simp only [hlen]
  generalize hkk : cmpChunkBits (Elem.maxBits p) w.bits.length = k at hk ⊢
  intro a b' run0
  obtain ⟨_, b1, r1, run1⟩ := B.bind_run run0
  obtain ⟨e1, f1, g1⟩ := require _ _ r1
  obtain ⟨xc, b2, r2, run2⟩ := B.bind_run run1
  obtain ⟨e2, f2, g2, g2'⟩ := ofOption _ _ r2
  obtain ⟨xs, b3, r3, run3⟩ := B.bind_run run2
  obtain ⟨e3, f3, g3, g3'⟩ := ofOption _ _ r3
  obtain ⟨yc, b4, r4, run4⟩ := B.bind_run run3
  obtain ⟨e4, f4, g4, g4'⟩ := ofOption _ _ r4
  obtain ⟨ys, b5, r5, run5⟩ := B.bind_run run4
  obtain ⟨e5, f5, g5, g5'⟩ := ofOption _ _ r5
  rw [chunks_eq hk] at g2 g4
  obtain rfl := Option.some.inj g2
  obtain rfl := Option.some.inj g4
  have hxl : xs.length = (w.bits.length + k - 1) / k := by
    rw [mapM_join_length g3, List.length_map, chunksOf_length hk]
    simp [BinaryExpression.ofWire]
  have hyl : ys.length = (w.bits.length + k - 1) / k := by
    rw [mapM_join_length g5, List.length_map, chunksOf_length hk]
    have : y.bits.length = w.bits.length := g1.symm.trans hlen
    rw [this]
  have main : Cost (do
      let mask ← B.wires xs.length
      B.assertBooleans mask
      let diffExists ← B.assertBoolean (Expression.sumOfWires mask)
      let zipped := mask.zip (xs.zip ys)
      B.generator ((BinaryExpression.ofWire w : BinaryExpression p).dependencies ++ y.dependencies)
        (B.maskGen zipped.reverse false)
      B.cmpTail zipped diffExists less strict k) b5
      (cmpConstraints w.bits.length k + if strict then 0 else 2) fun _ _ => True := by
    by_cases hx0 : xs = []
    · subst hx0
      intro a b' hrun
      obtain ⟨mask, c1, q1, hrun⟩ := B.bind_run hrun
      have hm := (wires _ _ _ q1).2.2.1
      obtain ⟨_, c2, q2, hrun⟩ := B.bind_run hrun
      obtain ⟨_, c3, q3, hrun⟩ := B.bind_run hrun
      obtain ⟨_, c4, q4, hrun⟩ := B.bind_run hrun
      rw [List.zip_nil_left, List.zip_nil_right] at hrun
      obtain ⟨_, c5, q5, hrun⟩ := B.bind_run hrun
      exact absurd hrun (by simp [B.panic])
    · have hpos : 0 < xs.length := List.length_pos_iff.2 hx0
      refine ((wires xs.length).bind fun mask c1 hc1 m1 => ((assertBooleans mask).congr m1.1).bind
        fun _ c2 hc2 m2 => (assertBoolean _).bind fun d c3 hc3 m3 =>
        (generator _ _).bind (l := xs.length + (xs.length - 1) + (if strict then 0 else 2) + (k + 2))
        fun _ c4 hc4 m4 => ((cmpTail ?_ ?_ less strict k (by omega)).mono
          fun _ _ _ _ => trivial).congr ?_).congr ?_
      · rw [m3.1]
        refine (varies_sumOfWires ?_ m1.2.2.1 fun i hi => ?_).asConstant
        · rw [← List.length_pos_iff, m1.1]; exact hpos
        · have := (m1.2.2.2 i hi).1
          show i ≠ 0
          omega
      · intro t ht
        have ht' := List.of_mem_zip (a := t.1) (b := t.2) ht
        have ht2 := List.of_mem_zip (a := t.2.1) (b := t.2.2) ht'.2
        refine ⟨?_, ?_⟩
        · have := (m1.2.2.2 _ ht'.1).1
          show t.1 ≠ 0
          omega
        · obtain ⟨c, hc, hcx⟩ := mem_mapM_join g3 ht2.1
          obtain ⟨d, hd, hdy⟩ := mem_mapM_join g5 ht2.2
          obtain ⟨c, hc', rfl⟩ := List.mem_map.1 hc
          obtain ⟨d, hd', rfl⟩ := List.mem_map.1 hd
          have hcn := (chunksOf_lengths hk _ c hc').1
          have hcs : c.Sublist (BinaryExpression.ofWire w : BinaryExpression p).bits := by
            have := List.sublist_flatten_of_mem hc'
            rwa [chunksOf_flatten hk] at this
          have hds : d.Sublist y.bits := by
            have := List.sublist_flatten_of_mem hd'
            rwa [chunksOf_flatten hk] at this
          obtain ⟨l, hl, rfl⟩ := List.sublist_map_iff.1 hcs
          exact (chunk_diff_varies (by rintro rfl; exact hcn rfl) (hl.nodup hn)
            (fun i hi => h1 i (hl.subset hi))
            (fun i hi c hc => hy i (hl.subset hi) c (hds.subset hc)) hcx hdy).asConstant
      · rw [List.length_zip, List.length_zip, m1.1, hyl, ← hxl]
        simp
      · simp only [cmpConstraints]
        rw [← hxl]
        omega
  obtain ⟨z1, z2, z3⟩ := main _ _ run5
  exact ⟨by omega, by omega, trivial⟩

end Cost

end R1CS
