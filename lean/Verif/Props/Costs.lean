import Verif.Props.Curves
import Verif.Props.Permutation
import Verif.Props.Expression
import Verif.Props.BinaryOps
import Verif.Lemmas.NetworkCost

/-!
# Properties C76, C77, C78: the number of constraints of the gadgets
-/

set_option linter.unusedSectionVars false

namespace R1CS

variable {p : ℕ} [hp : Fact p.Prime] {α : Type}

open Expression

theorem Cost.costsExactly {m : B p α} {b : Builder p} {k : ℕ} {Q : α → ℕ → Prop}
    (h : Cost m b k Q) : CostsExactly m b k := fun a b' hr => (h a b' hr).1

/-- A gadget that some honest execution builds is built from every builder. -/
theorem Cost.built {m : B p α} {b : Builder p} {k : ℕ} {Q : α → ℕ → Prop} (h : Cost m b k Q)
    (hm : Prog m) (hb : 1 ≤ b.nextWireIndex) {R : α → Hon p → Prop}
    (hc : Comp m (freeHon p b.nextWireIndex hb) R) : AddsExactly m b k := by
  obtain ⟨a, s', h1, -⟩ := hc
  obtain ⟨c', h2, -⟩ := hm.isSome_congr (b := (freeHon p b.nextWireIndex hb).b) (c := b) rfl h1
  exact ⟨a, c', h2, (h a c' h2).1⟩

/-! ## C76 -/

/-- C76: a comparison of the wires `w` with bits `y` which do not mention them adds exactly
`cmp_constraints` constraints for the chunk size chosen when it is strict, and two more when it is
not. -/
theorem C76_cmp_binary_size {w : BinaryWire} {y : BinaryExpression p} {b : Builder p}
    (hb : 1 ≤ b.nextWireIndex) (hn : w.bits.Nodup) (h1 : ∀ i ∈ w.bits, i.wire ≠ ONE)
    (hy : ∀ i ∈ w.bits, ∀ c ∈ y.bits, i.wire ∉ c.expression.dependencies) (less strict : Bool) :
    CostsExactly (B.cmpBinary (BinaryExpression.ofWire w) y less strict) b
      (cmpConstraints w.bits.length (cmpChunkBits (Elem.maxBits p) w.bits.length) +
        if strict then 0 else 2) :=
  (Cost.cmpBinary hb hn h1 hy less strict).costsExactly

/-- C76: for arbitrary operands that number is an upper bound. -/
theorem C76_cmp_binary_bound (x y : BinaryExpression p) (less strict : Bool) :
    AddsAtMost (B.cmpBinary x y less strict)
      (cmpConstraints x.len (cmpChunkBits (Elem.maxBits p) x.len) + if strict then 0 else 2) :=
  (AtMost.cmpBinary x y less strict).addsAtMost

/-- C76: `split` adds exactly one constraint per bit, one for the sum, a strict comparison with the
order, and one to assert its result. -/
theorem C76_split_size (h4 : 4 ≤ Elem.maxBits p) {b : Builder p} (hb : 1 ≤ b.nextWireIndex)
    {x : Expression p} (hx : x.Scoped b.nextWireIndex) :
    AddsExactly (B.split x) b (Elem.maxBits p + 2 +
      cmpConstraints (Elem.maxBits p) (cmpChunkBits (Elem.maxBits p) (Elem.maxBits p))) :=
  (Cost.split x hb).built (Prog.split x) hb (Comp.split h4 hx)

/-- C76: comparing two field elements adds exactly one constraint per bit of both and two for the
sums, two comparisons of lists of bits (one with the order of the field), one assertion, and two
more if the comparison is not strict. -/
theorem C76_cmp_size (h4 : 4 ≤ Elem.maxBits p) {b : Builder p} (hb : 1 ≤ b.nextWireIndex)
    {x y : Expression p} (hx : x.Scoped b.nextWireIndex) (hy : y.Scoped b.nextWireIndex)
    (less strict : Bool) :
    AddsExactly (B.cmp x y less strict) b (2 * Elem.maxBits p + 3 +
      2 * cmpConstraints (Elem.maxBits p) (cmpChunkBits (Elem.maxBits p) (Elem.maxBits p)) +
      if strict then 0 else 2) :=
  (Cost.cmp x y hb less strict).built (Prog.cmp x y less strict) hb (Comp.cmp h4 hx hy less strict)

/-- C76: over both shipped fields the numbers are concrete: with chunks of 26 bits, `lt` and `gt`
add 627 constraints over `Bn128` (254 bits) and 629 over `Bls12_381` (255 bits); `le` and `ge` add
two more. -/
theorem C76_shipped_sizes :
    (∀ {b : Builder bn128Order}, 1 ≤ b.nextWireIndex → ∀ {x y : Expression bn128Order},
      x.Scoped b.nextWireIndex → y.Scoped b.nextWireIndex →
      AddsExactly (B.lt x y) b 627 ∧ AddsExactly (B.gt x y) b 627 ∧
      AddsExactly (B.le x y) b 629 ∧ AddsExactly (B.ge x y) b 629) ∧
    (∀ {b : Builder bls12_381Order}, 1 ≤ b.nextWireIndex → ∀ {x y : Expression bls12_381Order},
      x.Scoped b.nextWireIndex → y.Scoped b.nextWireIndex →
      AddsExactly (B.lt x y) b 629 ∧ AddsExactly (B.gt x y) b 629 ∧
      AddsExactly (B.le x y) b 631 ∧ AddsExactly (B.ge x y) b 631) := by
  have e1 : Elem.maxBits bn128Order = 254 := by decide +kernel
  have e2 : Elem.maxBits bls12_381Order = 255 := by decide +kernel
  have c1 : cmpConstraints 254 (cmpChunkBits 254 254) = 58 := by decide +kernel
  have c2 : cmpConstraints 255 (cmpChunkBits 255 255) = 58 := by decide +kernel
  constructor
  · intro b hb x y hx hy
    have h := C76_cmp_size (by rw [e1]; decide) hb hx hy
    simp only [e1, c1] at h
    exact ⟨h true true, h false true, h true false, h false false⟩
  · intro b hb x y hx hy
    have h := C76_cmp_size (by rw [e2]; decide) hb hx hy
    simp only [e2, c2] at h
    exact ⟨h true true, h false true, h true false, h false false⟩

/-- Wires compared with a constant: the hypotheses of `C76_cmp_binary_size` hold, and the comparison
is built. -/
example : CostsExactly (B.cmpBinary (BinaryExpression.ofWire ⟨[⟨1⟩, ⟨2⟩, ⟨3⟩, ⟨4⟩]⟩)
    (BinaryExpression.ofNat 13) true true) (⟨5, [], []⟩ : Builder 13)
    (cmpConstraints 4 (cmpChunkBits (Elem.maxBits 13) 4) + 0) :=
  C76_cmp_binary_size (by decide) (by decide) (by decide)
    (fun i hi => not_mem_deps_ofNat (by revert i; decide) 13) true true

example : (B.cmpBinary (BinaryExpression.ofWire ⟨[⟨1⟩, ⟨2⟩, ⟨3⟩, ⟨4⟩]⟩)
    (BinaryExpression.ofNat 13) true true (⟨5, [], []⟩ : Builder 13)).map
      (fun r => r.2.constraints.length) = some 10 := by
  decide +kernel

/-- The bound is not reached when a chunk difference is a non-zero constant. -/
example : (B.cmpBinary (BinaryExpression.ofNat 8 : BinaryExpression 13) (BinaryExpression.ofNat 13)
    true true (⟨1, [], []⟩ : Builder 13)).map (fun r => r.2.constraints.length) = some 8 := by
  decide +kernel

/-! ## C77 -/

/-- A builder over `F_13` with six wires. -/
def builder6 : Builder 13 := { (Builder.new : Builder 13) with nextWireIndex := 7 }

/-- C77: one constraint for each assertion and for an inverse, two for a test, three for
`inverse_or_zero`. -/
theorem C77_fixed_sizes (x y z : Expression p) (b : Builder p) :
    AddsExactly (B.assertProduct x y z) b 1 ∧ AddsExactly (B.assertEqual x y) b 1 ∧
    AddsExactly (B.assertZero x) b 1 ∧ AddsExactly (B.assertBoolean x) b 1 ∧
    AddsExactly B.booleanWire b 1 ∧ AddsExactly (B.inverse x) b 1 ∧
    AddsExactly (B.assertNonzero x) b 1 ∧ AddsExactly (B.assertNonequal x y) b 1 ∧
    AddsExactly (B.nonzero x) b 2 ∧ AddsExactly (B.zero x) b 2 ∧ AddsExactly (B.equal x y) b 2 ∧
    AddsExactly (B.inverseOrZero x) b 3 := by
  refine ⟨?_, ?_, ?_, ?_, ?_, ?_, ?_, ?_, ?_, ?_, ?_, ?_⟩
  all_goals
    refine ⟨_, _, rfl, ?_⟩
    simp

/-- C77: `size` counts the constraints added by all calls since the builder was new, not the
generators, and nothing gets lost in `build`. -/
theorem C77_size {α : Type} (m : B p α) (k : ℕ) (h : AddsExactly m Builder.new k) :
    ∃ a b, m Builder.new = some (a, b) ∧ b.build.size = k ∧ b.build.constraints = b.constraints ∧
      b.build.witnessGenerators = b.witnessGenerators := by
  obtain ⟨a, b, h1, h2⟩ := h
  exact ⟨a, b, h1, by simpa [Builder.new, Builder.build, Gadget.size] using h2, rfl, rfl⟩

example : ∃ a b, (B.nonzero (Expression.ofWire 1) : B 13 _) Builder.new = some (a, b) ∧
    b.build.size = 2 ∧ b.build.constraints = b.constraints ∧
    b.build.witnessGenerators = b.witnessGenerators :=
  C77_size _ 2 (C77_fixed_sizes (Expression.ofWire 1) 0 0 _).2.2.2.2.2.2.2.2.1

/-- `product` never panics. -/
theorem product_isSome (x y : Expression p) (b : Builder p) : (B.product x y b).isSome := by
  unfold B.product
  cases x.asConstant with
  | some c => rfl
  | none => cases y.asConstant <;> rfl

/-- C77: a product adds no constraint if a factor is a non-zero constant, and one otherwise.  In
particular multiplying by the constant zero adds a constraint. -/
theorem C77_product_size {x y : Expression p} (hx : x.Built) (hy : y.Built) (b : Builder p) :
    ((∃ c : Elem p, c ≠ 0 ∧ ((∀ w : Assign p, w ONE = 1 → x.eval w = c) ∨
        ∀ w : Assign p, w ONE = 1 → y.eval w = c)) → AddsExactly (B.product x y) b 0) ∧
    ((¬ ∃ c : Elem p, c ≠ 0 ∧ ((∀ w : Assign p, w ONE = 1 → x.eval w = c) ∨
        ∀ w : Assign p, w ONE = 1 → y.eval w = c)) → AddsExactly (B.product x y) b 1) := by
  constructor
  · rintro ⟨c, hc, h | h⟩
    · exact (Cost.product_const (Or.inl ((C12_as_constant_partial x hx c hc).2 h))).addsExactly
        (product_isSome x y b)
    · exact (Cost.product_const (Or.inr ((C12_as_constant_partial y hy c hc).2 h))).addsExactly
        (product_isSome x y b)
  · intro h
    have h' : ∀ e : Expression p, e.Built → (∀ c : Elem p, c ≠ 0 →
        ¬ ∀ w : Assign p, w ONE = 1 → e.eval w = c) → e.asConstant = none := by
      intro e he hn
      cases hc : e.asConstant with
      | none => rfl
      | some c =>
        obtain ⟨h1, h2⟩ := C12_as_constant_sound e he c hc
        exact absurd h2 (hn c h1)
    exact (Cost.product (h' x hx fun c hc hx' => h ⟨c, hc, Or.inl hx'⟩)
      (h' y hy fun c hc hy' => h ⟨c, hc, Or.inr hy'⟩)).addsExactly (product_isSome x y b)

/-- A product of wires, a product with the constant 3 and a product with the constant 0. -/
example : AddsExactly (B.product (ofWire 1) (ofWire 2 + ofElem 1)) builder6 1 ∧
    AddsExactly (B.product (ofWire 1) (ofElem 3)) builder6 0 ∧
    AddsExactly (B.product (ofWire 1) (ofElem 0)) builder6 1 := by
  refine ⟨(C77_product_size (.ofWire 1) (.add (.ofWire 2) (.ofElem 1)) _).2 ?_,
    (C77_product_size (.ofWire 1) (.ofElem 3) _).1 ⟨3, by decide, Or.inr fun w h => eval_ofElem h 3⟩,
    (C77_product_size (.ofWire 1) (.ofElem 0) _).2 ?_⟩
  · rintro ⟨c, hc, h | h⟩
    · have := (h (unit 1) rfl).trans (h (unit ONE) rfl).symm
      exact absurd this (by decide +kernel)
    · have := (h (unit 2) rfl).trans (h (unit ONE) rfl).symm
      exact absurd this (by decide +kernel)
  · rintro ⟨c, hc, h | h⟩
    · have := (h (unit 1) rfl).trans (h (unit ONE) rfl).symm
      exact absurd this (by decide +kernel)
    · exact hc ((h (unit ONE) rfl).symm.trans (eval_ofElem (w := unit ONE) rfl 0))

/-- C77: whatever the operands, a product, a selection and a binary boolean operation add at most
one constraint, and a quotient at most two. -/
theorem C77_bounds (x y : Expression p) (c d : BooleanExpression p) :
    AddsAtMost (B.product x y) 1 ∧ AddsAtMost (B.selection c x y) 1 ∧ AddsAtMost (B.and c d) 1 ∧
    AddsAtMost (B.or c d) 1 ∧ AddsAtMost (B.xor c d) 1 ∧ AddsAtMost (B.not c) 0 ∧
    AddsAtMost (B.quotient x y) 2 := by
  refine ⟨(AtMost.product x y).addsAtMost, (AtMost.selection c x y).addsAtMost, ?_, ?_, ?_, ?_, ?_⟩
  · exact ((AtMost.product _ _).bind (l := 0) (R := fun _ => True)
      fun _ _ => AtMost.pure trivial).addsAtMost
  · exact ((AtMost.product _ _).bind (l := 0) (R := fun _ => True)
      fun _ _ => AtMost.pure trivial).addsAtMost
  · exact ((AtMost.product _ _).bind (l := 0) (R := fun _ => True) fun _ _ =>
      AtMost.ofOption.bind (l := 0) fun _ _ => AtMost.pure trivial).addsAtMost
  · exact (AtMost.pure (Q := fun _ => True) trivial).addsAtMost
  · exact ((AtMost.ofCost (Q := fun _ => True) (fun _ => Cost.inverse y)
      fun _ _ _ _ => trivial).bind (l := 1) (R := fun _ => True)
      fun _ _ => AtMost.product _ _).addsAtMost

/-- C77: exponentiation squares once per bit but the first, and multiplies once per one bit but the
first; in particular the power 0 and the power 1 are free. -/
theorem C77_exponentiation_size {x : Expression p} (hx : x.Varies) (k : Elem p) {b : Builder p}
    (hb : 1 ≤ b.nextWireIndex) : AddsExactly (B.exponentiation x k) b
      ((k.n.size - 1) + ((List.range k.n.size).countP (fun j => k.n.testBit j) - 1)) := by
  refine (Cost.exponentiation hx k hb).addsExactly ?_
  have : ∀ (r i : ℕ) (e f : Expression p) (b : Builder p), (B.expLoop x k i r e f b).isSome := by
    intro r
    induction r with
    | zero => intro i e f b; rfl
    | succ r ih =>
      intro i e f b
      unfold B.expLoop
      have h1 : ∃ s b1, (if i = 0 then pure x else B.product f f : B p (Expression p)) b =
          some (s, b1) := by
        split
        · exact ⟨x, b, rfl⟩
        · obtain ⟨⟨s, b1⟩, h⟩ := Option.isSome_iff_exists.1 (product_isSome f f b)
          exact ⟨s, b1, h⟩
      obtain ⟨s, b1, h1⟩ := h1
      have h2 : ∃ q b2, (if k.bit i then B.product e s else pure e : B p (Expression p)) b1 =
          some (q, b2) := by
        split
        · obtain ⟨⟨q, b2⟩, h⟩ := Option.isSome_iff_exists.1 (product_isSome e s b1)
          exact ⟨q, b2, h⟩
        · exact ⟨e, b1, rfl⟩
      obtain ⟨q, b2, h2⟩ := h2
      rw [B.bind_eq h1, B.bind_eq h2]
      exact ih _ _ _ _
  exact this _ _ _ _ _

/-- The power 11 = 1011 in binary costs three squarings and two products. -/
example : AddsExactly (B.exponentiation (ofWire 1) 11) builder6 5 :=
  C77_exponentiation_size (varies_ofWire (by decide)) 11 (by decide)

/-- C77: for an arbitrary base that is an upper bound. -/
theorem C77_exponentiation_bound (x : Expression p) (k : Elem p) :
    AddsAtMost (B.exponentiation x k)
      ((k.n.size - 1) + ((List.range k.n.size).countP (fun j => k.n.testBit j) - 1)) :=
  (AtMost.exponentiation x k).addsAtMost

/-- C77: a binary sum adds one constraint per bit of the largest possible sum, and one for the
sum. -/
theorem C77_summation_size (terms : List (BinaryExpression p)) (b : Builder p) :
    CostsExactly (B.binarySummation terms) b
      ((terms.map fun t : BinaryExpression p => 2 ^ t.bits.length - 1).sum.size + 1) := by
  have h := maxSum_eq terms
  have : Cost (B.binarySummation terms) b ((B.maxSum terms).size + 1) fun _ _ => True := by
    unfold B.binarySummation
    refine (Cost.require.bind fun _ b1 _ _ => (Cost.binaryWire _).bind fun _ b2 _ _ =>
      Cost.ofOption.bind fun _ b3 _ _ => Cost.ofOption.bind fun _ b4 _ _ =>
      (Cost.assertEqual _ _).bind fun _ b5 _ _ => (Cost.generator _ _).bind fun _ b6 _ _ =>
      Cost.pure trivial).congr ?_
    omega
  rw [h] at this
  exact this.costsExactly

theorem Cost.assertZeros : ∀ (l : List (BinaryExpression p)) {b : Builder p},
    Cost (B.assertZeros l) b l.length fun _ _ => True
  | [], _ => Cost.pure trivial
  | c :: cs, b => by
    unfold B.assertZeros
    refine (Cost.ofOption.bind fun _ b1 _ _ => (Cost.assertEqual _ _).bind fun _ b2 _ _ =>
      Cost.assertZeros cs).congr ?_
    rw [List.length_cons]; omega

/-- C77: checking that bits are zero adds one constraint for each chunk of `max_bits - 1` bits. -/
theorem C77_assert_zero_size (h2 : 2 < p) (x : BinaryExpression p) (b : Builder p) :
    CostsExactly (B.binaryAssertZero x) b
      ((x.bits.length + (Elem.maxBits p - 1) - 1) / (Elem.maxBits p - 1)) := by
  have hb : 0 < Elem.maxBits p - 1 := by
    have : 2 ≤ Elem.maxBits p := by
      rw [Elem.maxBits_eq]; exact Nat.lt_size.2 (by omega)
    omega
  unfold B.binaryAssertZero
  rw [chunks_eq hb]
  refine ((Cost.ofOption.bind fun cs b1 _ h1 => ?_).congr (Nat.zero_add _)).costsExactly
    (Q := fun _ _ => True)
  obtain rfl := Option.some.inj h1.1
  refine (Cost.assertZeros _).congr ?_
  rw [List.length_map, chunksOf_length hb]

theorem AtMost.zipBits {op : BooleanExpression p → BooleanExpression p → B p (BooleanExpression p)}
    (h : ∀ c d, AtMost (op c d) 1 fun _ => True) : ∀ x y : List (BooleanExpression p),
    AtMost (B.zipBits op x y) x.length fun _ => True
  | [], _ => by unfold B.zipBits; exact AtMost.pure trivial
  | _ :: _, [] => by unfold B.zipBits; exact (AtMost.pure trivial).le (Nat.zero_le _)
  | c :: cs, d :: ds => by
    unfold B.zipBits
    refine ((h c d).bind fun _ _ => (AtMost.zipBits h cs ds).bind fun _ _ =>
      AtMost.pure trivial).le ?_
    rw [List.length_cons]; omega

theorem AtMost.and (c d : BooleanExpression p) : AtMost (B.and c d) 1 fun _ => True :=
  (AtMost.product _ _).bind (l := 0) fun _ _ => AtMost.pure trivial

theorem AtMost.or (c d : BooleanExpression p) : AtMost (B.or c d) 1 fun _ => True :=
  (AtMost.product _ _).bind (l := 0) fun _ _ => AtMost.pure trivial

theorem AtMost.xor (c d : BooleanExpression p) : AtMost (B.xor c d) 1 fun _ => True :=
  (AtMost.product _ _).bind (l := 0) fun _ _ =>
    AtMost.ofOption.bind (l := 0) fun _ _ => AtMost.pure trivial

/-- C77: the bitwise operations add at most one constraint per bit, and the negation none. -/
theorem C77_bitwise_bound (x y : BinaryExpression p) :
    AddsAtMost (B.bitwiseAnd x y) x.bits.length ∧ AddsAtMost (B.bitwiseOr x y) x.bits.length ∧
    AddsAtMost (B.bitwiseXor x y) x.bits.length ∧ AddsAtMost (B.bitwiseNot x) 0 := by
  have key : ∀ {op : BooleanExpression p → BooleanExpression p → B p (BooleanExpression p)},
      (∀ c d, AtMost (op c d) 1 fun _ => True) → AddsAtMost (do
        B.require (x.len = y.len)
        let bits ← B.zipBits op x.bits y.bits
        return (⟨bits⟩ : BinaryExpression p)) x.bits.length := by
    intro op h
    refine ((AtMost.require.bind fun _ _ => (AtMost.zipBits h _ _).bind (R := fun _ => True)
      fun _ _ => AtMost.pure trivial).le ?_).addsAtMost
    omega
  refine ⟨key AtMost.and, key AtMost.or, key AtMost.xor, ?_⟩
  have : ∀ l : List (BooleanExpression p), AtMost (B.notBits l) 0 fun _ => True := by
    intro l
    induction l with
    | nil => exact AtMost.pure trivial
    | cons c l ih =>
      unfold B.notBits
      exact (AtMost.pure (Q := fun _ => True) trivial).bind (k := 0) (l := 0) fun _ _ =>
        ih.bind (l := 0) fun _ _ => AtMost.pure trivial
  exact ((this _).bind (l := 0) (R := fun _ => True) fun _ _ => AtMost.pure trivial).addsAtMost

/-- C77: on operands which are not constant the boolean operations add exactly one constraint, and the
bitwise operations exactly one per bit. -/
theorem C77_bitwise_size (h2 : 2 < p) (b : Builder p) :
    (∀ c d : BooleanExpression p, c.expression.Varies → d.expression.Varies →
      AddsExactly (B.and c d) b 1 ∧ AddsExactly (B.or c d) b 1 ∧ AddsExactly (B.xor c d) b 1) ∧
    ∀ x y : BinaryExpression p, (∀ c ∈ x.bits, c.expression.Varies) →
      (∀ c ∈ y.bits, c.expression.Varies) → x.bits.length = y.bits.length →
      AddsExactly (B.bitwiseAnd x y) b x.bits.length ∧
      AddsExactly (B.bitwiseOr x y) b x.bits.length ∧
      AddsExactly (B.bitwiseXor x y) b x.bits.length := by
  have hop : ∀ (b : Builder p) (c d : BooleanExpression p), c.expression.Varies →
      d.expression.Varies → AddsExactly (B.and c d) b 1 ∧ AddsExactly (B.or c d) b 1 ∧
        AddsExactly (B.xor c d) b 1 := by
    intro b c d hc hd
    obtain ⟨⟨z, b1⟩, e⟩ := Option.isSome_iff_exists.1 (product_isSome c.expression d.expression b)
    have hk := (Cost.product hc.asConstant hd.asConstant z b1 e).1
    obtain ⟨z2, hz⟩ : ∃ z2, z.mulNat 2 = some z2 := ⟨_, Expression.mulNat_eq z h2⟩
    refine ⟨⟨⟨z⟩, b1, ?_, hk⟩, ⟨⟨c.expression + d.expression - z⟩, b1, ?_, hk⟩,
      ⟨⟨c.expression + d.expression - z2⟩, b1, ?_, hk⟩⟩
    · unfold B.and; rw [B.bind_eq e]; rfl
    · unfold B.or; rw [B.bind_eq e]; rfl
    · unfold B.xor; rw [B.bind_eq e, hz]; rfl
  have hzip : ∀ (op : BooleanExpression p → BooleanExpression p → B p (BooleanExpression p)),
      (∀ b c d, c.expression.Varies → d.expression.Varies → AddsExactly (op c d) b 1) →
      ∀ (xs ys : List (BooleanExpression p)) (b : Builder p), (∀ c ∈ xs, c.expression.Varies) →
      (∀ c ∈ ys, c.expression.Varies) → xs.length = ys.length →
      AddsExactly (B.zipBits op xs ys) b xs.length := by
    intro op h xs
    induction xs with
    | nil =>
      intro ys b _ _ hl
      obtain rfl : ys = [] := List.length_eq_zero_iff.1 hl.symm
      exact ⟨[], b, rfl, rfl⟩
    | cons c xs ih =>
      intro ys b hx hy hl
      obtain ⟨d, ys, rfl⟩ : ∃ d l, ys = d :: l := by
        rcases ys with _ | ⟨d, l⟩
        · simp at hl
        · exact ⟨d, l, rfl⟩
      obtain ⟨z, b1, e1, k1⟩ := h b c d (hx c (by simp)) (hy d (by simp))
      obtain ⟨zs, b2, e2, k2⟩ := ih ys b1 (fun e he => hx e (by simp [he]))
        (fun e he => hy e (by simp [he])) (by simpa using hl)
      refine ⟨z :: zs, b2, ?_, ?_⟩
      · unfold B.zipBits
        rw [B.bind_eq e1, B.bind_eq e2]
        rfl
      · rw [k2, k1, List.length_cons]
        omega
  refine ⟨hop b, fun x y hx hy hl => ?_⟩
  have key : ∀ (op : BooleanExpression p → BooleanExpression p → B p (BooleanExpression p)),
      (∀ b c d, c.expression.Varies → d.expression.Varies → AddsExactly (op c d) b 1) →
      AddsExactly (do
        B.require (x.len = y.len)
        let bits ← B.zipBits op x.bits y.bits
        return (⟨bits⟩ : BinaryExpression p)) b x.bits.length := by
    intro op h
    obtain ⟨zs, b1, e, k⟩ := hzip op h x.bits y.bits b hx hy hl
    refine ⟨⟨zs⟩, b1, ?_, k⟩
    have hr : B.require (p := p) (x.len = y.len) b = some ((), b) := by
      unfold B.require
      rw [if_pos (show x.len = y.len from hl)]
      rfl
    rw [B.bind_eq hr, B.bind_eq e]
    rfl
  exact ⟨key _ fun b c d h1 h2 => (hop b c d h1 h2).1, key _ fun b c d h1 h2 => (hop b c d h1 h2).2.1,
    key _ fun b c d h1 h2 => (hop b c d h1 h2).2.2⟩

example : AddsExactly (B.bitwiseXor ⟨[⟨ofWire 1⟩, ⟨ofWire 2⟩]⟩ ⟨[⟨ofWire 3⟩, ⟨1 - ofWire 1⟩]⟩) builder6
    2 := by
  have hv : ∀ i : ℕ, 0 < i → (ofWire i : Expression 13).Varies := fun i hi =>
    varies_ofWire (by change _ ≠ 0; omega)
  refine ((C77_bitwise_size (by decide) builder6).2 ⟨[⟨ofWire 1⟩, ⟨ofWire 2⟩]⟩
    ⟨[⟨ofWire 3⟩, ⟨1 - ofWire 1⟩]⟩ ?_ ?_ rfl).2.2
  · intro c hc
    simp only [List.mem_cons, List.not_mem_nil, or_false] at hc
    rcases hc with rfl | rfl
    · exact hv 1 (by decide)
    · exact hv 2 (by decide)
  · intro c hc
    simp only [List.mem_cons, List.not_mem_nil, or_false] at hc
    rcases hc with rfl | rfl
    · exact hv 3 (by decide)
    · exact ⟨fun _ => 1, fun i => if i = 0 then 1 else 0, rfl, rfl, by decide +kernel⟩

/-- C77 is false for `quotient_unsafe`, which is documented to use a single constraint
(src/field_arithmetic.rs:109): it uses none. -/
theorem C77_quotient_unsafe_refuted (x y : Expression p) (b : Builder p) :
    AddsExactly (B.quotientUnsafe x y) b 0 := ⟨_, _, rfl, rfl⟩

theorem Cost.quotientUnsafe (x y : Expression p) {b : Builder p} :
    Cost (B.quotientUnsafe x y) b 0 fun _ _ => True := by
  unfold B.quotientUnsafe
  exact Cost.wire.bind (l := 0) fun _ _ _ _ => (Cost.generator _ _).bind (l := 0) fun _ _ _ _ =>
    Cost.pure trivial

theorem AtMost.addExpressions (C : EdwardsCurve p) (P Q : EdwardsExpression p) :
    AtMost (EdwardsGroup.addExpressions C P Q) 5 fun _ => True := by
  unfold EdwardsGroup.addExpressions
  have q : ∀ x y : Expression p, AtMost (B.quotientUnsafe x y) 0 fun _ => True :=
    fun x y => AtMost.ofCost (fun _ => Cost.quotientUnsafe x y) fun _ _ _ _ => trivial
  exact (AtMost.product _ _).bind (l := 4) fun _ _ => (AtMost.product _ _).bind (l := 3) fun _ _ =>
    (AtMost.product _ _).bind (l := 2) fun _ _ => (AtMost.product _ _).bind (l := 1) fun _ _ =>
    (AtMost.product _ _).bind (l := 0) fun _ _ => (q _ _).bind (l := 0) fun _ _ =>
    (q _ _).bind (l := 0) fun _ _ => AtMost.pure trivial

theorem AtMost.doubleExpression (C : EdwardsCurve p) (P : EdwardsExpression p) :
    AtMost (EdwardsGroup.doubleExpression C P) 3 fun _ => True := by
  unfold EdwardsGroup.doubleExpression
  have q : ∀ x y : Expression p, AtMost (B.quotientUnsafe x y) 0 fun _ => True :=
    fun x y => AtMost.ofCost (fun _ => Cost.quotientUnsafe x y) fun _ _ _ _ => trivial
  exact (AtMost.product _ _).bind (l := 2) fun _ _ => (AtMost.product _ _).bind (l := 1) fun _ _ =>
    (AtMost.product _ _).bind (l := 0) fun _ _ => AtMost.ofOption.bind (l := 0) fun _ _ =>
    (q _ _).bind (l := 0) fun _ _ => AtMost.ofOption.bind (l := 0) fun _ _ =>
    (q _ _).bind (l := 0) fun _ _ => AtMost.pure trivial

/-- C77 is false for the addition of points, which is noted to use 7 constraints
(src/curves/edwards.rs:32): for points whose coordinates are not constant it uses exactly 5, since
the two divisions use none. -/
theorem C77_edwards_add_refuted (C : EdwardsCurve p) {P Q : EdwardsExpression p}
    (hPx : P.x.Varies) (hPy : P.y.Varies) (hQx : Q.x.Varies) (hQy : Q.y.Varies) {b : Builder p}
    (hb : 1 ≤ b.nextWireIndex) : AddsExactly (EdwardsGroup.addExpressions C P Q) b 5 := by
  have h : Cost (EdwardsGroup.addExpressions C P Q) b 5 fun _ _ => True := by
    unfold EdwardsGroup.addExpressions
    refine (Cost.product hPx.asConstant hQy.asConstant).bind (l := 4) fun u b1 _ h1 =>
      (Cost.product hPy.asConstant hQx.asConstant).bind (l := 3) fun v b2 _ h2 =>
      (Cost.product hPx.asConstant hQx.asConstant).bind (l := 2) fun _ b3 _ h3 =>
      (Cost.product ?_ ?_).bind (l := 1) fun _ b4 _ h4 =>
      (Cost.product hPy.asConstant hQy.asConstant).bind (l := 0) fun _ b5 _ h5 =>
      (Cost.quotientUnsafe _ _).bind (l := 0) fun _ _ _ _ =>
      (Cost.quotientUnsafe _ _).bind (l := 0) fun _ _ _ _ => Cost.pure trivial
    · rw [h1.1]; exact (varies_ofWire (by change _ ≠ 0; omega)).asConstant
    · rw [h2.1]; exact (varies_ofWire (by change _ ≠ 0; omega)).asConstant
  refine h.addsExactly ?_
  unfold EdwardsGroup.addExpressions
  obtain ⟨⟨u, b1⟩, e1⟩ := Option.isSome_iff_exists.1 (product_isSome P.x Q.y b)
  obtain ⟨⟨v, b2⟩, e2⟩ := Option.isSome_iff_exists.1 (product_isSome P.y Q.x b1)
  obtain ⟨⟨r, b3⟩, e3⟩ := Option.isSome_iff_exists.1 (product_isSome P.x Q.x b2)
  obtain ⟨⟨t, b4⟩, e4⟩ := Option.isSome_iff_exists.1 (product_isSome u v b3)
  obtain ⟨⟨o, b5⟩, e5⟩ := Option.isSome_iff_exists.1 (product_isSome P.y Q.y b4)
  rw [B.bind_eq e1, B.bind_eq e2, B.bind_eq e3, B.bind_eq e4, B.bind_eq e5]
  rfl

example : AddsExactly (EdwardsGroup.addExpressions ⟨1, 2⟩ ⟨ofWire 1, ofWire 2⟩
    ⟨ofWire 3, ofWire 4⟩) builder6 5 :=
  C77_edwards_add_refuted _ (varies_ofWire (by decide)) (varies_ofWire (by decide))
    (varies_ofWire (by decide)) (varies_ofWire (by decide)) (by decide)

/-- C77: for arbitrary points adding uses at most 5 constraints and doubling at most 3. -/
theorem C77_edwards_bound (C : EdwardsCurve p) (P Q : EdwardsExpression p) :
    AddsAtMost (EdwardsGroup.addExpressions C P Q) 5 ∧
    AddsAtMost (EdwardsGroup.doubleExpression C P) 3 :=
  ⟨(AtMost.addExpressions C P Q).addsAtMost, (AtMost.doubleExpression C P).addsAtMost⟩

/-- C77: multiplying a point by a scalar splits the scalar, and then selects, adds and doubles once
per bit: at most ten constraints for each. -/
theorem C77_edwards_mul_bound (C : EdwardsCurve p) (P : EdwardsExpression p) (k : Expression p) :
    AddsAtMost ((EdwardsGroup.ops C).mulScalarExpression P k) (11 * Elem.maxBits p + 1) := by
  have sel : ∀ (c : BooleanExpression p) (x y : List (Expression p)),
      AtMost (GroupOps.selectAll c x y) x.length fun _ => True := by
    intro c x
    induction x with
    | nil => intro y; unfold GroupOps.selectAll; exact AtMost.pure trivial
    | cons e x ih =>
      intro y
      cases y with
      | nil => exact AtMost.panic
      | cons f y =>
        unfold GroupOps.selectAll
        refine ((AtMost.selection c e f).bind fun _ _ => (ih y).bind fun _ _ =>
          AtMost.pure trivial).le ?_
        rw [List.length_cons]; omega
  have mul : ∀ (c : BooleanExpression p) (P : EdwardsExpression p),
      AtMost ((EdwardsGroup.ops C).mulBooleanExpression P c) 2 fun _ => True := by
    intro c P
    unfold GroupOps.mulBooleanExpression
    exact AtMost.ofOption.bind (l := 2) fun _ _ => (sel c _ _).bind (l := 0) fun _ _ =>
      AtMost.ofOption.mono fun _ _ => trivial
  have loop : ∀ (l : List (BooleanExpression p)) (s q : EdwardsExpression p),
      AtMost ((EdwardsGroup.ops C).mulLoop l s q) (10 * l.length) fun _ => True := by
    intro l
    induction l with
    | nil => intro s q; exact AtMost.pure trivial
    | cons c l ih =>
      intro s q
      unfold GroupOps.mulLoop
      refine ((mul c q).bind fun r _ => (AtMost.addExpressions C s r).bind fun _ _ =>
        (AtMost.doubleExpression C q).bind fun _ _ => ih _ _).le ?_
      rw [List.length_cons]; omega
  unfold GroupOps.mulScalarExpression B.splitAllowingAmbiguity
  refine ((AtMost.splitWithoutRangeCheck k _).bind (l := 10 * Elem.maxBits p) (R := fun _ => True)
    fun e he => AtMost.ofOption.bind (k := 0) (l := 10 * Elem.maxBits p) (fun _ _ =>
      (loop e.bits _ _).le (by rw [he])) |>.le (by omega)).le (by omega) |>.addsAtMost

/-! ## C78 -/

/-- C78: a permutation network between lists of pairwise different expressions, none of which
mentions a wire not yet built, adds two constraints per switch and one per item. -/
theorem C78_permutation_size {x y : List (Expression p)} {b : Builder p}
    (hb : 1 ≤ b.nextWireIndex) (hx : x.Pairwise fun e f => (e - f).Varies)
    (hy : y.Pairwise fun e f => (e - f).Varies)
    (sx : ∀ e ∈ x, e.Scoped b.nextWireIndex) (sy : ∀ e ∈ y, e.Scoped b.nextWireIndex)
    (hl : x.length = y.length) : AddsExactly (B.assertPermutation x y) b
      (2 * (∑ i ∈ Finset.range x.length, Nat.clog 2 (i + 1)) + x.length) := by
  refine (Cost.assertPermutationFuel x.length x y hb ⟨hx, sx⟩ ⟨hy, sy⟩).addsExactly ?_
  obtain ⟨c', h, -⟩ := C72_network_size x y hl b hb
  exact Option.isSome_iff_exists.2 ⟨_, h⟩

/-- C78: for arbitrary lists that number is an upper bound. -/
theorem C78_permutation_bound (x y : List (Expression p)) : AddsAtMost (B.assertPermutation x y)
    (2 * (∑ i ∈ Finset.range x.length, Nat.clog 2 (i + 1)) + x.length) :=
  (AtMost.assertPermutationFuel x.length x y).addsAtMost

/-- C78: the number of switches in closed form, `n ⌈log n⌉ - 2 ^ ⌈log n⌉ + 1`. -/
theorem C78_switches {n : ℕ} (hn : 1 ≤ n) :
    (∑ i ∈ Finset.range n, Nat.clog 2 (i + 1)) + 2 ^ Nat.clog 2 n = n * Nat.clog 2 n + 1 :=
  switchSum_closed hn

/-- C78: sorting adds a permutation network, a split of each item of which only the last is range
checked, and a comparison and an assertion for each pair of neighbours. -/
theorem C78_sort_size (h4 : 4 ≤ Elem.maxBits p) {l : List (Expression p)} {b : Builder p}
    (hb : 1 ≤ b.nextWireIndex) (hne : l ≠ []) (hl : l.Pairwise fun e f => (e - f).Varies)
    (sl : ∀ e ∈ l, e.Scoped b.nextWireIndex) : AddsExactly (B.sortAscending l) b
      ((2 * (∑ i ∈ Finset.range l.length, Nat.clog 2 (i + 1)) + l.length) +
        (l.length * (Elem.maxBits p + 1) + 1 +
          cmpConstraints (Elem.maxBits p) (cmpChunkBits (Elem.maxBits p) (Elem.maxBits p))) +
        (l.length - 1) * (3 +
          cmpConstraints (Elem.maxBits p) (cmpChunkBits (Elem.maxBits p) (Elem.maxBits p)))) :=
  (Cost.sortAscending hb ⟨hl, sl⟩).built (Prog.sortAscending l) hb (Comp.sortAscending h4 hne sl)

/-- C78: reading a list of pairwise different expressions at a variable index adds one constraint
per bit of the index, one for their sum and one per item but the first. -/
theorem C78_random_access_size {items : List (Expression p)} {b : Builder p}
    (hb : 1 ≤ b.nextWireIndex) (hl : items.Pairwise fun e f => (e - f).Varies)
    (sl : ∀ e ∈ items, e.Scoped b.nextWireIndex) (index : Expression p) :
    CostsExactly (B.randomAccess items index) b
      (Nat.clog 2 items.length + 1 + (items.length - 1)) := by
  rw [← indexBits_eq_clog]
  exact (Cost.randomAccess hb ⟨hl, sl⟩ index).costsExactly

/-- C78: for arbitrary items that number is an upper bound. -/
theorem C78_random_access_bound (items : List (Expression p)) (index : Expression p) :
    AddsAtMost (B.randomAccess items index)
      (Nat.clog 2 items.length + 1 + (items.length - 1)) := by
  rw [← indexBits_eq_clog]
  exact (AtMost.randomAccess items index).addsAtMost

theorem spread_wires : [ofWire 1, ofWire 2, ofWire 3 + ofElem 4, ofElem 5].Pairwise
      (fun e f : Expression 13 => (e - f).Varies) ∧
    ∀ e ∈ [ofWire 1, ofWire 2, ofWire 3 + ofElem 4, (ofElem 5 : Expression 13)],
      e.Scoped builder6.nextWireIndex := by
  constructor
  · simp only [List.pairwise_cons, List.mem_cons, List.not_mem_nil, or_false]
    refine ⟨?_, ?_, ?_, ?_, ?_⟩
    · rintro e (rfl | rfl | rfl) <;>
        exact ⟨unit 1, unit ONE, by decide +kernel, by decide +kernel, by decide +kernel⟩
    · rintro e (rfl | rfl) <;>
        exact ⟨unit 2, unit ONE, by decide +kernel, by decide +kernel, by decide +kernel⟩
    · rintro e rfl
      exact ⟨unit 3, unit ONE, by decide +kernel, by decide +kernel, by decide +kernel⟩
    · simp
    · exact List.Pairwise.nil
  · intro e he
    simp only [List.mem_cons, List.not_mem_nil, or_false] at he
    rcases he with rfl | rfl | rfl | rfl
    · exact .ofWire (by decide)
    · exact .ofWire (by decide)
    · exact .add (.ofWire (by decide)) (.ofElem (by decide) _)
    · exact .ofElem (by decide) _

example : AddsExactly (B.assertPermutation [ofWire 1, ofWire 2, ofWire 3 + ofElem 4, ofElem 5]
    [ofWire 1, ofWire 2, ofWire 3 + ofElem 4, ofElem 5]) builder6 14 :=
  C78_permutation_size (by decide) spread_wires.1 spread_wires.1 spread_wires.2 spread_wires.2 rfl

example : AddsExactly (B.sortAscending [ofWire 1, ofWire 2, ofWire 3 + ofElem 4, ofElem 5])
    builder6 84 := by
  have h := C78_sort_size (by rw [maxBits13]) (by decide) (by simp) spread_wires.1 spread_wires.2
  convert h using 1
  decide +kernel

example : AddsExactly (B.randomAccess [ofWire 1, ofWire 2, ofWire 3 + ofElem 4, ofElem 5]
    (ofWire 4)) builder6 6 := by
  have h : (B.randomAccess [ofWire 1, ofWire 2, ofWire 3 + ofElem 4, ofElem 5] (ofWire 4)
    builder6).isSome := by decide +kernel
  obtain ⟨⟨a, b'⟩, h⟩ := Option.isSome_iff_exists.1 h
  exact ⟨a, b', h, C78_random_access_size (by decide) spread_wires.1 spread_wires.2 _ a b' h⟩

end R1CS
