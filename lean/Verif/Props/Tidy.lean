import Verif.Lemmas.Local
import Verif.Lemmas.Sorting
import Verif.Props.Arithmetic
import Verif.Props.BinaryOps
import Verif.Props.Comparisons
import Verif.Props.Hashes
import Verif.Props.Permutation
import Verif.Props.Readme

/-!
# C84 and C85: gadgets mind their own wires, and so work in every circuit

Completeness properties speak about honest executions, which accept.  Here executions are
arbitrary: other parts of the circuit may be given wrong inputs, and `execute` may return `false`.
-/

set_option linter.unusedSectionVars false

namespace R1CS

variable {p : ℕ} [hp : Fact p.Prime]

open Expression (eval_ofWire eval_sub)

/-! ## C84 -/

/-- C84: the primitive methods of the builder, with a generator as a gadget should write it: the
generator sets only wires which the same call allocated, and only once, and reads nothing but its
declared inputs and these wires. -/
theorem C84_primitives (x y z : Expression p) (n : ℕ) :
    Tidy (B.wire : B p Wire) ∧ Tidy (B.booleanWire : B p BooleanWire) ∧
    Tidy (B.wires n : B p (List Wire)) ∧ Tidy (B.booleanWires n : B p (List BooleanWire)) ∧
    Tidy (B.binaryWire n : B p BinaryWire) ∧ Tidy (B.assertProduct x y z) ∧
    Tidy (B.assertBoolean x) ∧ Tidy (B.assertEqual x y) ∧ Tidy (B.assertZero x) ∧
    Tidy (B.assertTrue ⟨x⟩) ∧ Tidy (B.assertFalse ⟨x⟩) ∧ Tidy (B.assertNonzero x) ∧
    Tidy (B.assertNonequal x y) :=
  ⟨.wire, .booleanWire, .wires n, .booleanWires n, .binaryWire n, .assertProduct x y z,
    .assertBoolean x, .assertEqual x y, .assertZero x, .assertTrue _, .assertFalse _,
    .assertNonzero x, .assertNonequal x y⟩

/-- C84: gadgets for field and boolean arithmetic. -/
theorem C84_arithmetic (x y : Expression p) (k : Elem p) (c d : BooleanExpression p) :
    Tidy (B.product x y) ∧ Tidy (B.exponentiation x k) ∧ Tidy (B.inverse x) ∧
    Tidy (B.inverseOrZero x) ∧ Tidy (B.quotient x y) ∧ Tidy (B.quotientUnsafe x y) ∧
    Tidy (B.nonzero x) ∧ Tidy (B.zero x) ∧ Tidy (B.equal x y) ∧ Tidy (B.selection c x y) ∧
    Tidy (B.not c) ∧ Tidy (B.and c d) ∧ Tidy (B.or c d) ∧ Tidy (B.xor c d) :=
  ⟨.product x y, .exponentiation x k, .inverse x, .inverseOrZero x, .quotient x y,
    .quotientUnsafe x y, .nonzero x, .zero x, .equal x y, .selection c x y, .not c, .and c d,
    .or c d, .xor c d⟩

/-- C84: splitting, comparison and integer division. -/
theorem C84_comparisons (x y : Expression p) (X Y : BinaryExpression p) (n : ℕ)
    (less strict : Bool) :
    Tidy (B.splitBounded x n) ∧ Tidy (B.splitAllowingAmbiguity x) ∧ Tidy (B.split x) ∧
    Tidy (B.cmp x y less strict) ∧ Tidy (B.cmpBinary X Y less strict) ∧
    Tidy (B.cmpSubtractive x less strict n) ∧
    Tidy (B.assertLt x y) ∧ Tidy (B.assertLe x y) ∧ Tidy (B.assertGt x y) ∧
    Tidy (B.assertGe x y) ∧ Tidy (B.assertLtBinary X Y) ∧ Tidy (B.assertLeBinary X Y) ∧
    Tidy (B.assertGtBinary X Y) ∧ Tidy (B.assertGeBinary X Y) ∧ Tidy (B.modulus x y) ∧
    Tidy (B.divides x y) :=
  ⟨.splitBounded x n, .splitAllowingAmbiguity x, .split x, .cmp x y _ _, .cmpBinary X Y _ _,
    .cmpSubtractive x _ _ n, .assertLt x y, .assertLe x y, .assertGt x y, .assertGe x y,
    .assertLtBinary X Y, .assertLeBinary X Y, .assertGtBinary X Y, .assertGeBinary X Y,
    .modulus x y, .divides x y⟩

/-- C84: gadgets on digit strings and lists. -/
theorem C84_binary_and_lists (X Y : BinaryExpression p) (terms : List (BinaryExpression p))
    (xs ys : List (Expression p)) (x : Expression p) :
    Tidy (B.binarySummation terms) ∧ Tidy (B.binarySummationIgnoringOverflow terms) ∧
    Tidy (B.binarySummationAssertingNoOverflow terms) ∧ Tidy (B.binaryAssertZero X) ∧
    Tidy (B.bitwiseNot X) ∧ Tidy (B.bitwiseAnd X Y) ∧ Tidy (B.bitwiseOr X Y) ∧
    Tidy (B.bitwiseXor X Y) ∧ Tidy (B.randomAccess xs x) ∧ Tidy (B.assertPermutation xs ys) ∧
    Tidy (B.sortAscending xs) ∧ Tidy (B.sortDescending xs) :=
  ⟨.binarySummation _, .binarySummationIgnoringOverflow _, .binarySummationAssertingNoOverflow _,
    .binaryAssertZero X, .bitwiseNot X, .bitwiseAnd X Y, .bitwiseOr X Y, .bitwiseXor X Y,
    .randomAccess xs x, .assertPermutation xs ys, .sortAscending xs, .sortDescending xs⟩

/-- C84: permutations and block ciphers of the library. -/
theorem C84_permutations (f : MonomialPermutation p) (c : MiMC p) (P : Poseidon p) (R : Rescue p)
    (k x : Expression p) (xs : List (Expression p)) :
    Tidy (f.permute x) ∧ Tidy (f.inverse x) ∧ Tidy (c.encrypt k x) ∧ Tidy (c.decrypt k x) ∧
    Tidy (P.permute xs) ∧ Tidy (R.permute xs) :=
  ⟨.monomial f x, .root f x, .encrypt c k x, .decrypt c k x, .poseidon P xs, .rescue R xs⟩

/-- C84: gadgets which call an implementation of one of the traits are tidy if that implementation
is. -/
theorem C84_traits {GE GX : Type} {G : CyclicGroupOps p GE GX} {h : MerkleDamgard p}
    {c : CompressionFunction p} {sp : Sponge p} {E : BlockCipher p}
    (ha : ∀ x y, Tidy (G.addExpressions x y)) (hd : ∀ x, Tidy (G.doubleExpression x))
    (hh : ∀ x y, Tidy (h.compress.compress x y)) (hc : ∀ x y, Tidy (c.compress x y))
    (hs : ∀ xs, Tidy (sp.permutation.permute xs)) (hE : ∀ k x, Tidy (E.encrypt k x)) (x y : Expression p) (xs : List (Expression p))
    (n : ℕ) (g : GX) (b : BooleanExpression p) (path : MerklePath p) (σ : SignatureExpression p) :
    Tidy ((daviesMeyer E).compress x y) ∧ Tidy ((miyaguchiPreneel E).compress x y) ∧
    Tidy (h.hash xs) ∧ Tidy (B.merkleTreeRoot x path c) ∧
    Tidy (B.assertMerkleTreeMembership x y path c) ∧ Tidy (sp.evaluate xs n) ∧
    Tidy (G.mulBooleanExpression g b) ∧ Tidy (G.mulScalarExpression g x) ∧
    Tidy (schnorrVerify G c σ x g) :=
  ⟨.bind (hE _ _) fun _ => .pure _, .bind (hE _ _) fun _ => .pure _,
    .hash hh xs, .merkleTreeLoop hc _ _, .bind (.merkleTreeLoop hc _ _) fun _ => .assertEqual _ _,
    .sponge hs xs n, .mulBoolean g b, .mulScalar ha hd g x, .schnorr ha hd hc σ x g⟩

/-- C84: the Edwards curve operations and the examples of the README. -/
theorem C84_curves_and_examples (C : EdwardsCurve p) (x y : Expression p)
    (P Q : EdwardsExpression p) (rounds : ℕ) (xs : List (Expression p)) :
    Tidy (EdwardsExpression.new C x y) ∧ Tidy (EdwardsGroup.addExpressions C P Q) ∧
    Tidy (EdwardsGroup.doubleExpression C P) ∧ Tidy (Readme.cube x) ∧ Tidy (Readme.inverse x) ∧
    Tidy (Readme.hash rounds xs) :=
  ⟨.edwardsNew C x y, .edwardsAdd C P Q, .edwardsDouble C P, .readmeCube x, .readmeInverse x,
    .readmeHash rounds xs⟩

/-- C84: tidy parts make tidy circuits. -/
theorem C84_composition {α β : Type} {m : B p α} {f : α → B p β} (hm : Tidy m)
    (hf : ∀ a, Tidy (f a)) : Tidy (m >>= f) := hm.bind hf

/-- A gadget whose generator reads a wire which it did not declare is not tidy. -/
def undeclared : B 13 Wire := do
  let w ← B.wire
  B.generator [] fun v => do
    let x ← v 1
    v.set w x
  return w

example : ¬ Tidy undeclared := by
  intro h
  have := h.2 { (Builder.new : Builder 13) with nextWireIndex := 2 } 2
    ⟨3, [], [⟨[], fun v => do let x ← v 1; v.set 2 x⟩]⟩ rfl _ (List.mem_singleton.2 rfl)
  obtain ⟨u, hu, _⟩ := this.reads (fun i => if i = 1 then some 5 else none) (fun _ => none)
    (fun i => if i = 2 then some 5 else if i = 1 then some 5 else none) (by simp)
    (fun i h1 h2 => by
      have h1 : 2 ≤ i := h1
      rw [if_neg (by omega)]) rfl
  cases hu

/-- A gadget whose generator sets a wire of somebody else is not tidy. -/
def intruding : B 13 Unit := B.generator [] fun v => v.set 1 7

example : ¬ Tidy intruding := by
  intro h
  have := h.2 { (Builder.new : Builder 13) with nextWireIndex := 2 } ()
    ⟨2, [], [⟨[], fun v => v.set 1 7⟩]⟩ rfl _ (List.mem_singleton.2 rfl)
  have := this.writes (fun _ => none) (fun i => if i = 1 then some 7 else none) rfl 1 (by simp)
  exact absurd this.2.1 (by decide)

/-- C22 for the library: a circuit with tidy parts keeps what it is given. -/
theorem C22_library {α : Type} {m : B p α} (hm : Tidy m) {a : α} {b : Builder p}
    (h : m Builder.new = some (a, b)) {v v' : WireValues p} {ok : Bool}
    (hex : b.build.execute v = some (v', ok)) {i : Wire} {x : Elem p} (hi : v i = some x) :
    v' i = some x := by
  obtain ⟨σ, h1, h2⟩ := C21_exactly_once _ v v' ok hex
  exact h2.mono (fun g hg => hm.keeps h g (h1.subset hg)) i x hi

/-! ## C85 -/

theorem Expression.Scoped.eval_eq {n : ℕ} {e : Expression p} (he : e.Scoped n) {W W' : Assign p}
    (h : ∀ i < n, W i = W' i) : e.eval W = e.eval W' :=
  Expression.eval_congr fun i hi => h i (he i hi)

theorem BooleanExpression.Scoped.eval_eq {n : ℕ} {e : BooleanExpression p} (he : e.Scoped n)
    {W W' : Assign p} (h : ∀ i < n, W i = W' i) : e.eval W = e.eval W' :=
  Expression.Scoped.eval_eq he h

/-- C85, in general: if a tidy call computes its result correctly in honest executions (`P` being a
condition on the values of its operands), then it does so in all executions which return, of all
circuits with tidy parts, whatever the other parts are and whether or not the execution accepts. -/
theorem C85_in_context {α : Type} {m : B p α} (hm : Tidy m) {n : ℕ} {P : Assign p → Prop}
    {Q : α → Assign p → Prop}
    (h : ∀ s : Hon p, s.next = n → P s.W →
      Computes m s fun a t => ∀ W, (∀ i < t.next, W i = t.W i) → Q a W) :
    Locally n m fun a W => P W → Q a W :=
  .of_comp hm fun s hn hP => Comp.mono (h s hn hP) fun _ _ _ h => ⟨h.1.symm, h.2.2⟩

/-- C85: field arithmetic. -/
theorem C85_arithmetic {n : ℕ} {x y : Expression p} (hx : x.Scoped n) (hy : y.Scoped n)
    (k : Elem p) :
    Locally n (B.product x y) (fun z W => z.eval W = x.eval W * y.eval W) ∧
    Locally n (B.exponentiation x k) (fun z W => z.eval W = x.eval W ^ k.n) ∧
    (2 < p → Locally n (B.inverseOrZero x) fun z W => z.eval W = (x.eval W)⁻¹) := by
  refine ⟨?_, ?_, fun h2 => ?_⟩
  · exact (Locally.expr (P := fun _ => True) (.product x y)
      (F := fun W => x.eval W * y.eval W) (fun W W' h => by rw [hx.eval_eq h, hy.eval_eq h])
      fun s hs _ => by subst hs; exact Comp.product hx hy).mono fun _ _ h => h trivial
  · exact (Locally.expr (P := fun _ => True) (.exponentiation x k)
      (F := fun W => x.eval W ^ k.n) (fun W W' h => by rw [hx.eval_eq h])
      fun s hs _ => by subst hs; exact Comp.exponentiation hx k).mono fun _ _ h => h trivial
  · exact (Locally.expr (P := fun _ => True) (.inverseOrZero x)
      (F := fun W => (x.eval W)⁻¹) (fun W W' h => by rw [hx.eval_eq h])
      fun s hs _ => by subst hs; exact Comp.inverseOrZero h2 hx).mono fun _ _ h => h trivial

/-- C85: division.  An execution which returns has not divided by zero. -/
theorem C85_division (h2 : 2 < p) {n : ℕ} {x y : Expression p} (hx : x.Scoped n)
    (hy : y.Scoped n) :
    Locally n (B.inverse y) (fun z W => y.eval W ≠ 0 ∧ z.eval W = (y.eval W)⁻¹) ∧
    Locally n (B.quotient x y) (fun z W => y.eval W ≠ 0 ∧ z.eval W = x.eval W / y.eval W) ∧
    Locally n (B.quotientUnsafe x y)
      (fun z W => y.eval W ≠ 0 ∧ z.eval W = x.eval W / y.eval W) := by
  refine ⟨?_, ?_, ?_⟩
  · intro γ δ pre k c a z b b1 b2 hpre hk hb hn h1 h2' v v' ok hv1 hv hex
    have h0 := (C26_inverse_panics y (hpre.keeps hb) h1 (hk c a).1 h2' hex).1
    exact ⟨h0, Locally.expr (P := fun W => y.eval W ≠ 0) (.inverse y)
      (F := fun W => (y.eval W)⁻¹) (fun W W' h => by rw [hy.eval_eq h])
      (fun s hs h => by subst hs; exact Comp.inverse h2 hy h) γ δ pre k c a z b b1 b2 hpre hk hb hn
      h1 h2' v v' ok hv1 hv hex h0⟩
  · intro γ δ pre k c a z b b1 b2 hpre hk hb hn h1 h2' v v' ok hv1 hv hex
    obtain ⟨i, b', hi, hp'⟩ := B.bind_run (m := B.inverse y) (f := fun i => B.product x i) h1
    have h0 := (C26_inverse_panics y (hpre.keeps hb) hi (k := B.product x i >>= k c)
      ((Tidy.product x i).bind (hk c)).1 (by rw [B.bind_eq hp', h2']) hex).1
    exact ⟨h0, Locally.expr (P := fun W => y.eval W ≠ 0) (.quotient x y)
      (F := fun W => x.eval W / y.eval W) (fun W W' h => by rw [hx.eval_eq h, hy.eval_eq h])
      (fun s hs h => by subst hs; exact Comp.quotient h2 hx hy h) γ δ pre k c a z b b1 b2 hpre hk
      hb hn h1 h2' v v' ok hv1 hv hex h0⟩
  · intro γ δ pre k c a z b b1 b2 hpre hk hb hn h1 h2' v v' ok hv1 hv hex
    have h0 := C29_quotient_unsafe_panics x y (hpre.keeps hb) h1 (hk c a).1 h2' hex
    exact ⟨h0, Locally.expr (P := fun W => y.eval W ≠ 0) (.quotientUnsafe x y)
      (F := fun W => x.eval W / y.eval W) (fun W W' h => by rw [hx.eval_eq h, hy.eval_eq h])
      (fun s hs h => by subst hs; exact Comp.quotientUnsafe h2 hx hy h) γ δ pre k c a z b b1 b2
      hpre hk hb hn h1 h2' v v' ok hv1 hv hex h0⟩

/-- C85: tests. -/
theorem C85_tests (h2 : 2 < p) {n : ℕ} {x y : Expression p} (hx : x.Scoped n)
    (hy : y.Scoped n) :
    Locally n (B.nonzero x) (fun z W => z.eval W = if x.eval W = 0 then 0 else 1) ∧
    Locally n (B.zero x) (fun z W => z.eval W = if x.eval W = 0 then 1 else 0) ∧
    Locally n (B.equal x y) (fun z W => z.eval W = if x.eval W = y.eval W then 1 else 0) := by
  refine ⟨?_, ?_, ?_⟩
  · exact (Locally.bool (P := fun _ => True) (.nonzero x)
      (F := fun W => if x.eval W = 0 then 0 else 1) (fun W W' h => by rw [hx.eval_eq h])
      fun s hs _ => by subst hs; exact Comp.nonzero h2 hx).mono fun _ _ h => h trivial
  · exact (Locally.bool (P := fun _ => True) (.zero x)
      (F := fun W => if x.eval W = 0 then 1 else 0) (fun W W' h => by rw [hx.eval_eq h])
      fun s hs _ => by subst hs; exact Comp.zero h2 hx).mono fun _ _ h => h trivial
  · exact (Locally.bool (P := fun _ => True) (.equal x y)
      (F := fun W => if x.eval W = y.eval W then 1 else 0)
      (fun W W' h => by rw [hx.eval_eq h, hy.eval_eq h])
      fun s hs _ => by subst hs; exact Comp.equal h2 hx hy).mono fun _ _ h => h trivial

/-- C85: selection and the boolean connectives, on boolean operands. -/
theorem C85_booleans {n : ℕ} {c d : BooleanExpression p} {x y : Expression p} (hc : c.Scoped n)
    (hd : d.Scoped n) (hx : x.Scoped n) (hy : y.Scoped n) :
    Locally n (B.selection c x y) (fun z W => ∀ a, c.eval W = bv a →
      z.eval W = if a then x.eval W else y.eval W) ∧
    Locally n (B.not c) (fun z W => ∀ a, c.eval W = bv a → z.eval W = bv !a) ∧
    Locally n (B.and c d) (fun z W => ∀ a b, c.eval W = bv a → d.eval W = bv b →
      z.eval W = bv (a && b)) ∧
    Locally n (B.or c d) (fun z W => ∀ a b, c.eval W = bv a → d.eval W = bv b →
      z.eval W = bv (a || b)) ∧
    (2 < p → Locally n (B.xor c d) fun z W => ∀ a b, c.eval W = bv a → d.eval W = bv b →
      z.eval W = bv (a ^^ b)) := by
  refine ⟨?_, ?_, ?_, ?_, fun h2 => ?_⟩
  · refine (Locally.expr (P := fun _ => True) (.selection c x y)
      (F := fun W => y.eval W + c.eval W * (x.eval W - y.eval W))
      (fun W W' h => by rw [hx.eval_eq h, hy.eval_eq h, hc.eval_eq h])
      fun s hs _ => by subst hs; exact Comp.selection hc hx hy).mono fun z W h a ha => ?_
    rw [h trivial, ha]
    cases a <;> simp [bv]
  · refine (Locally.bool (P := fun _ => True) (.not c) (F := fun W => 1 - c.eval W)
      (fun W W' h => by rw [hc.eval_eq h]) fun s hs _ => by
        subst hs
        exact (Comp.not hc).mono fun _ _ _ h => ⟨h.2.1, h.2.2.2.1, h.2.2.2.2⟩).mono
      fun z W h a ha => ?_
    rw [h trivial, ha]
    cases a <;> simp [bv]
  · refine (Locally.bool (P := fun _ => True) (.and c d) (F := fun W => c.eval W * d.eval W)
      (fun W W' h => by rw [hc.eval_eq h, hd.eval_eq h]) fun s hs _ => by
        subst hs; exact Comp.and hc hd).mono fun z W h a b ha hb => ?_
    rw [h trivial, ha, hb]
    cases a <;> cases b <;> simp [bv]
  · refine (Locally.bool (P := fun _ => True) (.or c d)
      (F := fun W => c.eval W + d.eval W - c.eval W * d.eval W)
      (fun W W' h => by rw [hc.eval_eq h, hd.eval_eq h]) fun s hs _ => by
        subst hs; exact Comp.or hc hd).mono fun z W h a b ha hb => ?_
    rw [h trivial, ha, hb]
    cases a <;> cases b <;> simp [bv]
  · refine (Locally.bool (P := fun _ => True) (.xor c d)
      (F := fun W => c.eval W + d.eval W - c.eval W * d.eval W * 2)
      (fun W W' h => by rw [hc.eval_eq h, hd.eval_eq h]) fun s hs _ => by
        subst hs; exact Comp.xor h2 hc hd).mono fun z W h a b ha hb => ?_
    rw [h trivial, ha, hb]
    cases a <;> cases b <;> simp [bv]
    norm_num

/-- C85: splitting gives the binary digits of the canonical representative. -/
theorem C85_splitting {n : ℕ} {x : Expression p} (hx : x.Scoped n) (k : ℕ)
    (hk : k < Elem.maxBits p) :
    Locally n (B.splitBounded x k) (fun e W => (x.eval W).n < 2 ^ k →
      e.digits W = (List.range k).map fun i => ((x.eval W).n.testBit i).toNat) ∧
    Locally n (B.splitAllowingAmbiguity x) (fun e W =>
      e.digits W = (List.range (Elem.maxBits p)).map fun i => ((x.eval W).n.testBit i).toNat) ∧
    (4 ≤ Elem.maxBits p → Locally n (B.split x) fun e W =>
      e.digits W = (List.range (Elem.maxBits p)).map fun i => ((x.eval W).n.testBit i).toNat) := by
  refine ⟨?_, ?_, fun h4 => ?_⟩
  · refine Locally.binary (P := fun W => (x.eval W).n < 2 ^ k) (.splitBounded x k)
      (F := fun W => (List.range k).map fun i => ((x.eval W).n.testBit i).toNat)
      (fun W W' h => by rw [hx.eval_eq h]) fun s hs h => ?_
    subst hs
    exact (Comp.splitBounded hx hk h).mono fun e s' _ ⟨h1, h2, h3, h4, h5⟩ => ⟨h1, h2, by
      rw [digits_of_val h3.digits_le h5, BinaryExpression.digits_length, h4]⟩
  · refine (Locally.binary (P := fun _ => True) (.splitAllowingAmbiguity x)
      (F := fun W => (List.range (Elem.maxBits p)).map fun i => ((x.eval W).n.testBit i).toNat)
      (fun W W' h => by rw [hx.eval_eq h]) fun s hs h => ?_).mono fun _ _ h => h trivial
    subst hs
    exact (Comp.splitAllowingAmbiguity hx).mono fun e s' _ ⟨h1, h2, h3, h4, h5⟩ => ⟨h1, h2, by
      rw [digits_of_val h3.digits_le h5, BinaryExpression.digits_length, h4]⟩
  · refine (Locally.binary (P := fun _ => True) (.split x)
      (F := fun W => (List.range (Elem.maxBits p)).map fun i => ((x.eval W).n.testBit i).toNat)
      (fun W W' h => by rw [hx.eval_eq h]) fun s hs h => ?_).mono fun _ _ h => h trivial
    subst hs
    exact (Comp.split h4 hx).mono fun e s' _ ⟨h1, h2, h3, h4, h5⟩ => ⟨h1, h2, by
      rw [digits_of_val h3.digits_le h5, BinaryExpression.digits_length, h4]⟩

/-- C85: comparisons. -/
theorem C85_comparisons (h4 : 4 ≤ Elem.maxBits p) {n : ℕ} {x y : Expression p} (hx : x.Scoped n)
    (hy : y.Scoped n) :
    Locally n (B.lt x y) (fun r W => r.eval W = if (x.eval W).n < (y.eval W).n then 1 else 0) ∧
    Locally n (B.le x y) (fun r W => r.eval W = if (x.eval W).n ≤ (y.eval W).n then 1 else 0) ∧
    Locally n (B.gt x y) (fun r W => r.eval W = if (x.eval W).n > (y.eval W).n then 1 else 0) ∧
    Locally n (B.ge x y) (fun r W => r.eval W = if (x.eval W).n ≥ (y.eval W).n then 1 else 0) := by
  have key : ∀ (less strict : Bool) (c : Assign p → Prop) [∀ W, Decidable (c W)],
      (∀ W, c W ↔ (if less then ((x.eval W).n : ℤ) - (y.eval W).n
        else -(((x.eval W).n : ℤ) - (y.eval W).n)) ≤ if strict then -1 else 0) →
      Locally n (B.cmp x y less strict) (fun r W => r.eval W = if c W then 1 else 0) := by
    intro less strict c _ hc
    refine (Locally.bool (P := fun _ => True) (.cmp x y less strict)
      (F := fun W => if c W then 1 else 0) (fun W W' h => ?_) fun s hs _ => ?_).mono
      fun _ _ h => h trivial
    · have : c W ↔ c W' := by rw [hc, hc, hx.eval_eq h, hy.eval_eq h]
      simp only [this]
    · subst hs
      refine (Comp.cmp h4 hx hy less strict).mono fun r s' _ ⟨a1, a2, a3⟩ => ⟨a1, a2, ?_⟩
      rw [a3]
      by_cases h : c s.W
      · rw [if_pos h, ofBool_ne, cmpHolds_iff, ← hc]; exact h
      · rw [if_neg h, ofBool_eq_zero, ← Bool.not_eq_true, cmpHolds_iff, ← hc]; exact h
  exact ⟨key true true _ (fun W => by simp; omega), key true false _ (fun W => by simp),
    key false true _ (fun W => by simp; omega), key false false _ (fun W => by simp)⟩

/-- C85: integer division.  An execution which returns has not divided by zero. -/
theorem C85_modulus (h4 : 4 ≤ Elem.maxBits p) {n : ℕ} {x y : Expression p} (hx : x.Scoped n)
    (hy : y.Scoped n) :
    Locally n (B.modulus x y) fun r W => y.eval W ≠ 0 ∧
      (r.eval W).n = (x.eval W).n % (y.eval W).n := by
  have h0 : Locally n (B.modulus x y) fun _ W => y.eval W ≠ 0 := by
    refine Locally.of_generator (.modulus x y) fun b b1 a hn h1 => ?_
    unfold B.modulus at h1
    obtain ⟨q, b2, _, h1⟩ := B.bind_run h1
    obtain ⟨r, b3, _, h1⟩ := B.bind_run h1
    obtain ⟨_, b4, _, h1⟩ := B.bind_run h1
    obtain ⟨_, b5, _, h1⟩ := B.bind_run h1
    obtain ⟨_, b6, hg, h1⟩ := B.bind_run h1
    obtain ⟨_, rfl⟩ := Prod.ext_iff.1 (Option.some.inj hg)
    obtain ⟨_, rfl⟩ := Prod.ext_iff.1 (Option.some.inj h1)
    refine ⟨⟨x.dependencies ++ y.dependencies, B.modulusGen x y q r⟩,
      List.mem_append_right _ (List.mem_singleton.2 rfl), ?_⟩
    intro u u' v' hgen hu _
    simp only [B.modulusGen] at hgen
    obtain ⟨xv, hxv, hgen⟩ := Option.bind_eq_some_iff.1 hgen
    obtain ⟨yv, hyv, hgen⟩ := Option.bind_eq_some_iff.1 hgen
    obtain ⟨qv, hqv, hgen⟩ := Option.bind_eq_some_iff.1 hgen
    rw [evaluate_mono hu hyv]
    rintro rfl
    unfold Elem.integerDivision at hqv
    rw [if_pos (show (0 : Elem p).n = 0 from rfl)] at hqv
    cases hqv
  refine Locally.returning (P := fun W => y.eval W ≠ 0) ?_ h0
  refine .of_comp (.modulus x y) fun s hs h => ?_
  subst hs
  refine (Comp.modulus h4 hx hy h).mono fun r t l ⟨h1, h2, h3⟩ => ⟨h1.symm, fun W hW => ?_⟩
  have hxW : x.eval W = x.eval s.W := by rw [(l.scoped hx).eval_eq hW, l.eval hx]
  have hyW : y.eval W = y.eval s.W := by rw [(l.scoped hy).eval_eq hW, l.eval hy]
  exact ⟨by rw [hyW]; exact h, by rw [h2.eval_eq hW, h3, hxW, hyW]⟩

/-- C85: sorting. -/
theorem C85_sorting (h4 : 4 ≤ Elem.maxBits p) {n : ℕ} {xs : List (Expression p)}
    (hx : ListScoped n xs) :
    Locally n (B.sortAscending xs) (fun r W => (values W r).Perm (values W xs) ∧
      (values W r).Pairwise fun a b => a.n ≤ b.n) ∧
    Locally n (B.sortDescending xs) (fun r W => (values W r).Perm (values W xs) ∧
      (values W r).Pairwise fun a b => a.n ≥ b.n) := by
  by_cases hne : xs = []
  · subst hne
    constructor <;>
    · intro γ δ pre k c a z b b1 b2 hpre hk hb hn h1
      exact absurd h1 (by first | rw [(C53_sort_empty_panics b).1] | rw [(C53_sort_empty_panics b).2]
                          simp)
  · have key : ∀ s : Hon p, s.next = n → Comp (B.sortAscending xs) s fun r t => s.D = t.D ∧
        ∀ W, (∀ i < t.next, W i = t.W i) → (values W r).Perm (values W xs) ∧
          (values W r).Pairwise fun a b => a.n ≤ b.n := by
      intro s hs
      subst hs
      refine (Comp.sortAscendingScoped h4 hne hx).mono fun r t l ⟨h1, h2, h3⟩ =>
        ⟨h1.symm, fun W hW => ?_⟩
      have hr : values W r = (values s.W xs).mergeSort leB := by
        refine Eq.trans ?_ h2
        exact List.map_congr_left fun e he => (h3 e he).eval_eq hW
      have hxs : values W xs = values s.W xs :=
        List.map_congr_left fun e he => by rw [(l.scoped (hx e he)).eval_eq hW, l.eval (hx e he)]
      rw [hr, hxs]
      exact ⟨List.mergeSort_perm _ _, sorted_mergeSort _⟩
    constructor
    · exact (Locally.of_comp (P := fun _ => True) (.sortAscending xs)
        fun s hs _ => key s hs).mono fun _ _ h => h trivial
    · refine (Locally.of_comp (P := fun _ => True) (.sortDescending xs)
        fun s hs _ => ?_).mono fun _ _ h => h trivial
      unfold B.sortDescending
      refine (key s hs).bind fun r t l ⟨h1, h2⟩ => Comp.pure ⟨h1, fun W hW => ?_⟩
      obtain ⟨h3, h5⟩ := h2 W hW
      rw [values, List.map_reverse, List.pairwise_reverse]
      exact ⟨(List.reverse_perm _).trans h3, h5⟩

/-- C85: any gadget which computes a function, for instance a hash function. -/
theorem C85_functions {n : ℕ} {m1 : Expression p → B p (Expression p)} {f1 : Elem p → Elem p}
    {m2 : Expression p → Expression p → B p (Expression p)} {f2 : Elem p → Elem p → Elem p}
    {k : ℕ} {ml : List (Expression p) → B p (List (Expression p))}
    {fl : List (Elem p) → List (Elem p)} (x y : Expression p) (xs : List (Expression p))
    (hx : x.Scoped n) (hy : y.Scoped n) (hxs : ListScoped n xs) (hk : xs.length = k) :
    (Computed1 m1 f1 → Tidy (m1 x) → Locally n (m1 x) fun z W => z.eval W = f1 (x.eval W)) ∧
    (Computed2 m2 f2 → Tidy (m2 x y) →
      Locally n (m2 x y) fun z W => z.eval W = f2 (x.eval W) (y.eval W)) ∧
    (ComputedList k ml fl → Tidy (ml xs) →
      Locally n (ml xs) fun zs W => values W zs = fl (values W xs)) := by
  refine ⟨fun h ht => ?_, fun h ht => ?_, fun h ht => ?_⟩
  · exact (Locally.expr (P := fun _ => True) ht (F := fun W => f1 (x.eval W))
      (fun W W' h => by rw [hx.eval_eq h]) fun s hs _ => by
        subst hs; exact Comp.mono (h s x hx) fun _ _ _ h => ⟨h.1, h.2.2⟩).mono fun _ _ h => h trivial
  · exact (Locally.expr (P := fun _ => True) ht (F := fun W => f2 (x.eval W) (y.eval W))
      (fun W W' h => by rw [hx.eval_eq h, hy.eval_eq h]) fun s hs _ => by
        subst hs; exact Comp.mono (h s x y hx hy) fun _ _ _ h => ⟨h.1, h.2.2⟩).mono
      fun _ _ h => h trivial
  · refine (Locally.list (P := fun _ => True) ht (F := fun W => fl (values W xs))
      (fun W W' h => ?_) fun s hs _ => by
        subst hs; exact Comp.mono (h s xs hk hxs) fun _ _ _ h => ⟨h.1, h.2.2⟩).mono
      fun _ _ h => h trivial
    have : values W xs = values W' xs := List.map_congr_left fun e he => (hxs e he).eval_eq h
    rw [this]

/-- A circuit with a violated assertion before a product: the execution on 5 returns `false`, and
nevertheless the product is right. -/
def violated : B 13 (Expression 13) := do
  let x ← B.wire
  B.assertEqual (Expression.ofWire x) (Expression.ofElem 3)
  B.product (Expression.ofWire x) (Expression.ofWire x)

example : Tidy violated := .bind .wire fun _ => .bind (.assertEqual _ _) fun _ => .product _ _

example : ((violated Builder.new).bind fun r => (r.2.build.execute fun i =>
      if i = 0 then some 1 else if i = 1 then some 5 else none).map fun e => (e.1 2, e.2))
    = some (some (5 * 5), false) := by decide +kernel

/-- C85 for this circuit, and for any continuation of it. -/
example : Locally 2 (B.product (Expression.ofWire 1) (Expression.ofWire 1) : B 13 _)
    fun z W => z.eval W = W 1 * W 1 :=
  (C85_arithmetic (.ofWire (by decide)) (.ofWire (by decide)) 0).1.mono fun z W h => by
    rw [h, eval_ofWire]

example : Locally 2 (B.lt (Expression.ofWire 1) (Expression.ofElem 7) : B 13 _)
    fun z W => (W 1).n < 7 → (W ONE = 1) → z.eval W = 1 :=
  (C85_comparisons (by rw [maxBits13]) (.ofWire (by decide)) (.ofElem (by decide) 7)).1.mono
    fun z W h h7 h1 => by
      rw [h, eval_ofWire, Expression.eval_ofElem h1]; exact if_pos h7

example : Locally 3 (B.modulus (Expression.ofWire 1) (Expression.ofWire 2) : B 13 _)
    fun z W => W 2 ≠ 0 ∧ (z.eval W).n = (W 1).n % (W 2).n :=
  (C85_modulus (by rw [maxBits13]) (.ofWire (by decide)) (.ofWire (by decide))).mono
    fun z W h => by rw [eval_ofWire, eval_ofWire] at h; exact h

end R1CS
