import Verif.Lemmas.RenumberLanguage
import Verif.Lemmas.Execute
import Verif.Spec.Examples

/-!
# C100: circuits do not depend on the numbers of their wires

A gadget called on a builder which has allocated other wires before adds the same constraints and
generators, only with other wires; and an execution of the renumbered circuit is the execution of the
circuit.  So a circuit can be checked, executed or costed on its own, in a builder of its own, and then
be used as a part of a larger one.
-/

set_option linter.unusedSectionVars false

namespace R1CS

variable {p : ℕ} [hp : Fact p.Prime]

open Language

/-! ## Calls -/

/-- Wires and field arithmetic do not depend on the numbers of wires. -/
theorem C100_arithmetic (r : Renumbering) :
    (Alike r (r) (B.wire : B p Wire)
      (B.wire)) ∧
    (∀ k, Alike r (List.map r) (B.wires k : B p (List Wire))
      (B.wires k)) ∧
    (∀ (x : Expression p) (y : Expression p) (z : Expression p), Alike r (id) (B.assertProduct x y z)
      (B.assertProduct (x.renumber r) (y.renumber r) (z.renumber r))) ∧
    (∀ (x : Expression p) (y : Expression p), Alike r (id) (B.assertEqual x y)
      (B.assertEqual (x.renumber r) (y.renumber r))) ∧
    (∀ (x : Expression p), Alike r (id) (B.assertZero x)
      (B.assertZero (x.renumber r))) ∧
    (∀ (x : Expression p), Alike r (id) (B.assertNonzero x)
      (B.assertNonzero (x.renumber r))) ∧
    (∀ (x : Expression p) (y : Expression p), Alike r (id) (B.assertNonequal x y)
      (B.assertNonequal (x.renumber r) (y.renumber r))) ∧
    (∀ (x : Expression p) (y : Expression p), Alike r (Expression.renumber r) (B.product x y)
      (B.product (x.renumber r) (y.renumber r))) ∧
    (∀ (x : Expression p) (k : Elem p), Alike r (Expression.renumber r) (B.exponentiation x k)
      (B.exponentiation (x.renumber r) k)) ∧
    (∀ (x : Expression p), Alike r (Expression.renumber r) (B.inverse x)
      (B.inverse (x.renumber r))) ∧
    (∀ (x : Expression p), Alike r (Expression.renumber r) (B.inverseOrZero x)
      (B.inverseOrZero (x.renumber r))) ∧
    (∀ (x : Expression p) (y : Expression p), Alike r (Expression.renumber r) (B.quotient x y)
      (B.quotient (x.renumber r) (y.renumber r))) ∧
    (∀ (x : Expression p) (y : Expression p), Alike r (Expression.renumber r) (B.quotientUnsafe x y)
      (B.quotientUnsafe (x.renumber r) (y.renumber r))) ∧
    (∀ (x : Expression p) (y : Expression p), Alike r (Expression.renumber r) (B.modulus x y)
      (B.modulus (x.renumber r) (y.renumber r))) ∧
    (∀ (x : Expression p) (y : Expression p), Alike r (BooleanExpression.renumber r) (B.divides x y)
      (B.divides (x.renumber r) (y.renumber r))) :=
  ⟨Alike.wire,
    fun _ => Alike.wires _,
    fun _ _ _ => Alike.assertProduct,
    fun _ _ => Alike.assertEqual,
    fun _ => Alike.assertZero,
    fun _ => Alike.assertNonzero,
    fun _ _ => Alike.assertNonequal,
    fun _ _ => Alike.product,
    fun _ _ => Alike.exponentiation _,
    fun _ => Alike.inverse,
    fun _ => Alike.inverseOrZero,
    fun _ _ => Alike.quotient,
    fun _ _ => Alike.quotientUnsafe,
    fun _ _ => Alike.modulus,
    fun _ _ => Alike.divides⟩

/-- The same for booleans, tests and selection. -/
theorem C100_logic (r : Renumbering) :
    (∀ (x : Expression p), Alike r (BooleanExpression.renumber r) (B.assertBoolean x)
      (B.assertBoolean (x.renumber r))) ∧
    (∀ (c : BooleanExpression p), Alike r (id) (B.assertTrue c)
      (B.assertTrue (c.renumber r))) ∧
    (∀ (c : BooleanExpression p), Alike r (id) (B.assertFalse c)
      (B.assertFalse (c.renumber r))) ∧
    (∀ (x : Expression p), Alike r (BooleanExpression.renumber r) (B.nonzero x)
      (B.nonzero (x.renumber r))) ∧
    (∀ (x : Expression p), Alike r (BooleanExpression.renumber r) (B.zero x)
      (B.zero (x.renumber r))) ∧
    (∀ (x : Expression p) (y : Expression p), Alike r (BooleanExpression.renumber r) (B.equal x y)
      (B.equal (x.renumber r) (y.renumber r))) ∧
    (∀ (c : BooleanExpression p), Alike r (BooleanExpression.renumber r) (B.not c)
      (B.not (c.renumber r))) ∧
    (∀ (c : BooleanExpression p) (d : BooleanExpression p), Alike r (BooleanExpression.renumber r) (B.and c d)
      (B.and (c.renumber r) (d.renumber r))) ∧
    (∀ (c : BooleanExpression p) (d : BooleanExpression p), Alike r (BooleanExpression.renumber r) (B.or c d)
      (B.or (c.renumber r) (d.renumber r))) ∧
    (∀ (c : BooleanExpression p) (d : BooleanExpression p), Alike r (BooleanExpression.renumber r) (B.xor c d)
      (B.xor (c.renumber r) (d.renumber r))) ∧
    (∀ (c : BooleanExpression p) (x : Expression p) (y : Expression p), Alike r (Expression.renumber r) (B.selection c x y)
      (B.selection (c.renumber r) (x.renumber r) (y.renumber r))) :=
  ⟨fun _ => Alike.assertBoolean,
    fun _ => Alike.assertTrue,
    fun _ => Alike.assertFalse,
    fun _ => Alike.nonzero,
    fun _ => Alike.zero,
    fun _ _ => Alike.equal,
    fun _ => Alike.not,
    fun _ _ => Alike.and,
    fun _ _ => Alike.or,
    fun _ _ => Alike.xor,
    fun _ _ _ => Alike.selection⟩

/-- The same for splitting and comparing; `less` and `strict` select the relation. -/
theorem C100_comparisons (r : Renumbering) :
    (∀ (x : Expression p), Alike r (BinaryExpression.renumber r) (B.split x)
      (B.split (x.renumber r))) ∧
    (∀ (x : Expression p), Alike r (BinaryExpression.renumber r) (B.splitAllowingAmbiguity x)
      (B.splitAllowingAmbiguity (x.renumber r))) ∧
    (∀ (x : Expression p) (k : ℕ), Alike r (BinaryExpression.renumber r) (B.splitBounded x k)
      (B.splitBounded (x.renumber r) k)) ∧
    (∀ (x : Expression p) (y : Expression p) (less : Bool) (strict : Bool), Alike r (BooleanExpression.renumber r) (B.cmp x y less strict)
      (B.cmp (x.renumber r) (y.renumber r) less strict)) ∧
    (∀ (X : BinaryExpression p) (Y : BinaryExpression p) (less : Bool) (strict : Bool), Alike r (BooleanExpression.renumber r) (B.cmpBinary X Y less strict)
      (B.cmpBinary (X.renumber r) (Y.renumber r) less strict)) ∧
    (∀ (x : Expression p) (y : Expression p), Alike r (id) (B.assertLt x y)
      (B.assertLt (x.renumber r) (y.renumber r))) ∧
    (∀ (x : Expression p) (y : Expression p), Alike r (id) (B.assertLe x y)
      (B.assertLe (x.renumber r) (y.renumber r))) ∧
    (∀ (x : Expression p) (y : Expression p), Alike r (id) (B.assertGt x y)
      (B.assertGt (x.renumber r) (y.renumber r))) ∧
    (∀ (x : Expression p) (y : Expression p), Alike r (id) (B.assertGe x y)
      (B.assertGe (x.renumber r) (y.renumber r))) ∧
    (∀ (X : BinaryExpression p) (Y : BinaryExpression p), Alike r (id) (B.assertLtBinary X Y)
      (B.assertLtBinary (X.renumber r) (Y.renumber r))) ∧
    (∀ (X : BinaryExpression p) (Y : BinaryExpression p), Alike r (id) (B.assertLeBinary X Y)
      (B.assertLeBinary (X.renumber r) (Y.renumber r))) ∧
    (∀ (X : BinaryExpression p) (Y : BinaryExpression p), Alike r (id) (B.assertGtBinary X Y)
      (B.assertGtBinary (X.renumber r) (Y.renumber r))) ∧
    (∀ (X : BinaryExpression p) (Y : BinaryExpression p), Alike r (id) (B.assertGeBinary X Y)
      (B.assertGeBinary (X.renumber r) (Y.renumber r))) :=
  ⟨fun _ => Alike.split,
    fun _ => Alike.splitAllowingAmbiguity,
    fun _ _ => Alike.splitBounded _,
    fun _ _ _ _ => Alike.cmp _ _,
    fun _ _ _ _ => Alike.cmpBinary _ _,
    fun _ _ => Alike.assertLt,
    fun _ _ => Alike.assertLe,
    fun _ _ => Alike.assertGt,
    fun _ _ => Alike.assertGe,
    fun _ _ => Alike.assertLtBinary,
    fun _ _ => Alike.assertLeBinary,
    fun _ _ => Alike.assertGtBinary,
    fun _ _ => Alike.assertGeBinary⟩

/-- The same for digit strings and for random access. -/
theorem C100_binary (r : Renumbering) :
    (∀ (Xs : List (BinaryExpression p)), Alike r (BinaryExpression.renumber r) (B.binarySummation Xs)
      (B.binarySummation (Xs.map (BinaryExpression.renumber r)))) ∧
    (∀ (Xs : List (BinaryExpression p)), Alike r (BinaryExpression.renumber r) (B.binarySummationIgnoringOverflow Xs)
      (B.binarySummationIgnoringOverflow (Xs.map (BinaryExpression.renumber r)))) ∧
    (∀ (Xs : List (BinaryExpression p)), Alike r (BinaryExpression.renumber r) (B.binarySummationAssertingNoOverflow Xs)
      (B.binarySummationAssertingNoOverflow (Xs.map (BinaryExpression.renumber r)))) ∧
    (∀ (X : BinaryExpression p), Alike r (id) (B.binaryAssertZero X)
      (B.binaryAssertZero (X.renumber r))) ∧
    (∀ (X : BinaryExpression p), Alike r (BinaryExpression.renumber r) (B.bitwiseNot X)
      (B.bitwiseNot (X.renumber r))) ∧
    (∀ (X : BinaryExpression p) (Y : BinaryExpression p), Alike r (BinaryExpression.renumber r) (B.bitwiseAnd X Y)
      (B.bitwiseAnd (X.renumber r) (Y.renumber r))) ∧
    (∀ (X : BinaryExpression p) (Y : BinaryExpression p), Alike r (BinaryExpression.renumber r) (B.bitwiseOr X Y)
      (B.bitwiseOr (X.renumber r) (Y.renumber r))) ∧
    (∀ (X : BinaryExpression p) (Y : BinaryExpression p), Alike r (BinaryExpression.renumber r) (B.bitwiseXor X Y)
      (B.bitwiseXor (X.renumber r) (Y.renumber r))) ∧
    (∀ (xs : List (Expression p)) (i : Expression p), Alike r (Expression.renumber r) (B.randomAccess xs i)
      (B.randomAccess (xs.map (Expression.renumber r)) (i.renumber r))) :=
  ⟨fun _ => Alike.binarySummation,
    fun _ => Alike.binarySummationIgnoringOverflow,
    fun _ => Alike.binarySummationAssertingNoOverflow,
    fun _ => Alike.binaryAssertZero,
    fun _ => Alike.bitwiseNot,
    fun _ _ => Alike.bitwiseAnd,
    fun _ _ => Alike.bitwiseOr,
    fun _ _ => Alike.bitwiseXor,
    fun _ _ => Alike.randomAccess⟩

/-- The same for permutations and sorting. -/
theorem C100_permutations (r : Renumbering) :
    (∀ (xs : List (Expression p)) (ys : List (Expression p)), Alike r (id) (B.assertPermutation xs ys)
      (B.assertPermutation (xs.map (Expression.renumber r)) (ys.map (Expression.renumber r)))) ∧
    (∀ (xs : List (Expression p)), Alike r (List.map (Expression.renumber r)) (B.sortAscending xs)
      (B.sortAscending (xs.map (Expression.renumber r)))) ∧
    (∀ (xs : List (Expression p)), Alike r (List.map (Expression.renumber r)) (B.sortDescending xs)
      (B.sortDescending (xs.map (Expression.renumber r)))) :=
  ⟨fun _ _ => Alike.assertPermutation,
    fun _ => Alike.sortAscending,
    fun _ => Alike.sortDescending⟩

/-- The same for the permutations of field elements, ciphers, and hash constructions made from any
parts of which it is true. -/
theorem C100_hashing (r : Renumbering) :
    (∀ f : MonomialPermutation p, ∀ x, Alike r (Expression.renumber r) (f.permute x)
        (f.permute (x.renumber r)) ∧
      Alike r (Expression.renumber r) (f.inverse x) (f.inverse (x.renumber r))) ∧
    (∀ c : MiMC p, Alike.Pairwise r c.encrypt ∧ Alike.Pairwise r c.decrypt) ∧
    (∀ E : BlockCipher p, Alike.Pairwise r E.encrypt →
      Alike.Pairwise r (daviesMeyer E).compress ∧ Alike.Pairwise r (miyaguchiPreneel E).compress) ∧
    (∀ h : MerkleDamgard p, Alike.Pairwise r h.compress.compress → ∀ xs,
      Alike r (Expression.renumber r) (h.hash xs) (h.hash (xs.map (Expression.renumber r)))) ∧
    (∀ s : Sponge p, Alike.Listwise r s.permutation.permute →
      ∀ k, Alike.Listwise r fun xs => s.evaluate xs k) ∧
    (∀ f : Poseidon p, Alike.Listwise r f.permute) ∧
    (∀ f : Rescue p, Alike.Listwise r f.permute) ∧
    (∀ c : CompressionFunction p, Alike.Pairwise r c.compress → ∀ x y (path : MerklePath p),
      Alike r (Expression.renumber r) (B.merkleTreeRoot x path c)
        (B.merkleTreeRoot (x.renumber r) (path.renumber r) c) ∧
      Alike r id (B.assertMerkleTreeMembership x y path c)
        (B.assertMerkleTreeMembership (x.renumber r) (y.renumber r) (path.renumber r) c)) :=
  ⟨fun f _ => ⟨Alike.monomial f, Alike.root f⟩,
    fun c => ⟨fun _ _ => Alike.encrypt c, fun _ _ => Alike.decrypt c⟩,
    fun _ h => ⟨Alike.daviesMeyer h, Alike.miyaguchiPreneel h⟩,
    fun _ h => Alike.hash h,
    fun _ h k => Alike.sponge h k,
    Alike.poseidon, Alike.rescue,
    fun _ h x y path => ⟨Alike.merkleTreeRoot h x path, Alike.assertMerkleTreeMembership h x y path⟩⟩

/-- The same for points of Edwards curves, and for multiples and signatures in any group of which it is
true. -/
theorem C100_curves (r : Renumbering) :
    (∀ C : EdwardsCurve p, Alike.Group r (EdwardsExpression.renumber r) (EdwardsGroup.ops C) ∧
      ∀ x y, Alike r (EdwardsExpression.renumber r) (EdwardsExpression.new C x y)
        (EdwardsExpression.new C (x.renumber r) (y.renumber r))) ∧
    (∀ (GE GX : Type) (G : GroupOps p GE GX) (f : GX → GX), Alike.Group r f G → ∀ X : GX,
      (∀ b, Alike r f (G.mulBooleanExpression X b) (G.mulBooleanExpression (f X) (b.renumber r))) ∧
      ∀ k, Alike r f (G.mulScalarExpression X k) (G.mulScalarExpression (f X) (k.renumber r))) ∧
    (∀ (GE GX : Type) (C : CyclicGroupOps p GE GX) (f : GX → GX), Alike.Group r f C.toGroupOps →
      ∀ h : CompressionFunction p, Alike.Pairwise r h.compress → ∀ σ m Y,
        Alike r id (schnorrVerify C h σ m Y)
          (schnorrVerify C h (σ.renumber r) (m.renumber r) (f Y))) :=
  ⟨fun C => ⟨Alike.edwards C, fun _ _ => Alike.edwardsNew C⟩,
    fun _ _ _ _ h X => ⟨Alike.mulBoolean h X, Alike.mulScalar h X⟩,
    fun _ _ _ _ h _ hc => Alike.schnorr h hc⟩

/-- The same for straight-line code, and for calls one after another. -/
theorem C100_circuits (r : Renumbering) :
    (∀ c : Circuit p, (∀ i ∈ c, Alike.Given r i.1) → ∀ os,
      Alike r (List.map (Obj.renumber r)) (Circuit.runFrom c os)
        (Circuit.runFrom c (os.map (Obj.renumber r)))) ∧
    (∀ c : Circuit p, (∀ i ∈ c, Alike.Given r i.1) → ∀ k,
      Alike r (List.map (Obj.renumber r)) (Circuit.build k c) (Circuit.build k c)) ∧
    ∀ (α β γ δ : Type) (f : α → β) (g : γ → δ) (m : B p α) (m' : B p β) (k : α → B p γ)
      (k' : β → B p δ), Alike r f m m' → (∀ a, Alike r g (k a) (k' (f a))) →
      Alike r g (m >>= k) (m' >>= k') :=
  ⟨fun _ h => Alike.runFrom h, fun _ h => Alike.build h, fun _ _ _ _ _ _ _ _ _ _ => Alike.bind⟩

/-! ## Executions -/

section
variable {r : Renumbering}

theorem through_containsAll (v : WireValues p) (ws : List Wire) :
    v.containsAll (ws.map r) = (v.through r).containsAll ws := by
  simp [WireValues.containsAll, WireValues.contains, WireValues.through, Function.comp_def]

theorem pass_through {gs gs' : List (WitnessGenerator p)}
    (h : List.Forall₂ (WitnessGenerator.Alike r) gs gs') : ∀ v : WireValues p,
    (Gadget.pass gs' v = none ∧ Gadget.pass gs (v.through r) = none) ∨
    ∃ ks ks' u b, Gadget.pass gs' v = some (ks', u, b) ∧
      Gadget.pass gs (v.through r) = some (ks, u.through r, b) ∧
      List.Forall₂ (WitnessGenerator.Alike r) ks ks' ∧ ∀ i, (∀ j, r j ≠ i) → u i = v i := by
  induction h with
  | nil => exact fun v => .inr ⟨[], [], v, false, rfl, rfl, .nil, fun _ _ => rfl⟩
  | @cons g g' gs gs' hg _ ih =>
    intro v
    simp only [Gadget.pass]
    rw [hg.1, through_containsAll]
    obtain ⟨h1, h2⟩ := hg.2 v
    split
    · rw [← h1]
      rcases hv : g'.generate v with _ | u
      · exact .inl ⟨rfl, rfl⟩
      · rcases ih u with ⟨e1, e2⟩ | ⟨ks, ks', w, b, e1, e2, e3, e4⟩
        · exact .inl ⟨by simp [e1], by simp [e2]⟩
        · exact .inr ⟨ks, ks', w, true, by simp [e1], by simp [e2], e3,
            fun i hi => by rw [e4 i hi, h2 u hv i hi]⟩
    · rcases ih v with ⟨e1, e2⟩ | ⟨ks, ks', w, b, e1, e2, e3, e4⟩
      · exact .inl ⟨by simp [e1], by simp [e2]⟩
      · exact .inr ⟨g :: ks, g' :: ks', w, b, by simp [e1], by simp [e2], .cons hg e3, e4⟩

theorem loop_through : ∀ (n : ℕ) {gs gs' : List (WitnessGenerator p)},
    List.Forall₂ (WitnessGenerator.Alike r) gs gs' → ∀ v : WireValues p,
    (Gadget.loop n gs' v = none ∧ Gadget.loop n gs (v.through r) = none) ∨
    ∃ ks ks' u, Gadget.loop n gs' v = some (ks', u) ∧
      Gadget.loop n gs (v.through r) = some (ks, u.through r) ∧
      List.Forall₂ (WitnessGenerator.Alike r) ks ks' ∧ ∀ i, (∀ j, r j ≠ i) → u i = v i
  | 0, _, _, _, _ => .inl ⟨rfl, rfl⟩
  | n + 1, gs, gs', h, v => by
    simp only [Gadget.loop]
    rcases pass_through h v with ⟨e1, e2⟩ | ⟨ks, ks', u, b, e1, e2, e3, e4⟩
    · exact .inl ⟨by simp [e1], by simp [e2]⟩
    · rw [e1, e2]
      cases b with
      | false => exact .inr ⟨ks, ks', u, rfl, rfl, e3, e4⟩
      | true =>
        rcases loop_through n e3 u with ⟨i1, i2⟩ | ⟨ls, ls', w, i1, i2, i3, i4⟩
        · exact .inl ⟨i1, i2⟩
        · exact .inr ⟨ls, ls', w, i1, i2, i3, fun i hi => by rw [i4 i hi, e4 i hi]⟩

theorem checkAll_through (v : WireValues p) : ∀ cs : List (Constraint p),
    Gadget.checkAll (cs.map (Constraint.renumber r)) v = Gadget.checkAll cs (v.through r)
  | [] => rfl
  | c :: cs => by
    simp only [List.map_cons, Gadget.checkAll, Constraint.evaluate, Constraint.renumber,
      renumber_evaluate, checkAll_through v cs]

end

/-- An execution of a renumbered circuit is the execution of the circuit: on the renumbered wires it
starts from the same values and ends with the same ones, with the same verdict, or panics as well; and
other wires stay as they are. -/
theorem C100_execute (r : Renumbering) (g g' : Gadget p)
    (hc : g'.constraints = g.constraints.map (Constraint.renumber r))
    (hg : List.Forall₂ (WitnessGenerator.Alike r) g.witnessGenerators g'.witnessGenerators)
    (v : WireValues p) :
    (g'.execute v).map (fun t => (t.1.through r, t.2)) = g.execute (v.through r) ∧
    ∀ u ok, g'.execute v = some (u, ok) → ∀ i, (∀ j, r j ≠ i) → u i = v i := by
  simp only [Gadget.execute]
  rw [hc, ← hg.length_eq]
  rcases loop_through (g.witnessGenerators.length + 1) hg v with ⟨e1, e2⟩ | ⟨ks, ks', u, e1, e2, e3, e4⟩
  · rw [e1, e2]
    exact ⟨rfl, fun _ _ h => absurd h (by simp)⟩
  · rw [e1, e2]
    simp only [Option.bind_eq_bind, Option.bind_some, e3.length_eq, checkAll_through]
    split
    · rcases Gadget.checkAll g.constraints (u.through r) with _ | ok
      · exact ⟨rfl, fun _ _ h => absurd h (by simp)⟩
      · refine ⟨rfl, fun u' ok' h => ?_⟩
        obtain ⟨rfl, _⟩ := Prod.ext_iff.1 (Option.some.inj h)
        exact e4
    · exact ⟨rfl, fun _ _ h => absurd h (by simp)⟩

/-- An assignment satisfies the renumbered constraints if and only if, read through the new numbers, it
satisfies the constraints. -/
theorem C100_satisfied (r : Renumbering) (cs : List (Constraint p)) (W : Assign p) :
    Satisfies W (cs.map (Constraint.renumber r)) ↔ Satisfies (fun i => W (r i)) cs := by
  have hE : ∀ e : Expression p, (e.renumber r).eval W = e.eval fun i => W (r i) := fun e => by
    simp [Expression.eval, Expression.renumber, Function.comp_def]
  have hC : ∀ c : Constraint p, (c.renumber r).Holds W ↔ c.Holds fun i => W (r i) := fun c => by
    simp only [Constraint.Holds, Constraint.renumber, hE]
  constructor
  · refine fun h => ⟨by rw [r.one]; exact h.one, fun c hm => (hC c).1 (h.all _ ?_)⟩
    exact List.mem_map_of_mem hm
  · refine fun h => ⟨by have := h.one; rwa [r.one] at this, fun c hm => ?_⟩
    obtain ⟨d, hd, rfl⟩ := List.mem_map.1 hm
    exact (hC d).2 (h.all d hd)

/-! ## Circuits as parts of others -/

theorem Expression.renumber_of_fixed {r : Renumbering} {n : ℕ} (hr : ∀ i < n, r i = i)
    {e : Expression p} (he : e.Scoped n) : e.renumber r = e := by
  obtain ⟨m⟩ := e
  refine congrArg Expression.mk ?_
  conv_rhs => rw [← List.map_id m]
  refine List.map_congr_left fun kv hm => Prod.ext (hr _ (he _ ?_)) rfl
  exact List.mem_map_of_mem hm

theorem Obj.renumber_of_fixed {r : Renumbering} {n : ℕ} (hr : ∀ i < n, r i = i) {o : Obj p}
    (ho : o.Scoped n) : o.renumber r = o := by
  have hb : ∀ e : BooleanExpression p, e.Scoped n → e.renumber r = e := fun e he =>
    congrArg BooleanExpression.mk (Expression.renumber_of_fixed hr he)
  cases o with
  | expr e => exact congrArg Obj.expr (Expression.renumber_of_fixed hr ho)
  | bool e => exact congrArg Obj.bool (hb e ho)
  | bin e =>
    refine congrArg Obj.bin (congrArg BinaryExpression.mk ?_)
    conv_rhs => rw [← List.map_id e.bits]
    exact List.map_congr_left fun b hm => hb b (ho b hm)

/-- A circuit put into a builder which has allocated other wires, and holds any constraints and
generators, panics when it does in a new builder.  Otherwise what it adds are the constraints and
generators which it has in a new builder, with the numbers of its wires increased by the number of
wires allocated before: so it is satisfied by the same values, and executing the part added is
executing the circuit. -/
theorem C100_placement (c : Circuit p) (k m : ℕ) (b : Builder p) (hb : b.nextWireIndex = 1 + m)
    (hc : ∀ i ∈ c, Alike.Given (Renumbering.shift 0 m) i.1) :
    (Circuit.build k c Builder.new = none → Circuit.build k c b = none) ∧
    ∀ os d, Circuit.build k c Builder.new = some (os, d) →
      ∃ d' gs', Circuit.build k c b = some (os.map (Obj.renumber (Renumbering.shift 0 m)), d') ∧
        d'.nextWireIndex = d.nextWireIndex + m ∧
        d'.constraints = b.constraints ++
          d.constraints.map (Constraint.renumber (Renumbering.shift 0 m)) ∧
        d'.witnessGenerators = b.witnessGenerators ++ gs' ∧
        (∀ W, Satisfies W d'.constraints ↔ Satisfies W b.constraints ∧
          Satisfies (fun i => W (Renumbering.shift 0 m i)) d.constraints) ∧
        ∀ v, (Gadget.execute ⟨d.constraints.map (Constraint.renumber (Renumbering.shift 0 m)), gs'⟩
            v).map (fun t => (t.1.through (Renumbering.shift 0 m), t.2)) =
          d.build.execute (v.through (Renumbering.shift 0 m)) := by
  have key := Alike.build hc k
  obtain ⟨h1, h2⟩ := key Builder.new b
  have hj : ∀ j, b.nextWireIndex + j =
      Renumbering.shift 0 m ((Builder.new : Builder p).nextWireIndex + j) := fun j => by
    rw [hb]
    simp only [Builder.new, Renumbering.shift]
    rw [if_neg (by omega)]
    omega
  refine ⟨fun h => h1 h hj, fun os d h => ?_⟩
  obtain ⟨d', e1, e2, cs, gs, gs', i1, i2, i3, i4, i5⟩ := (h2 os d h).2 fun j _ => hj j
  have hcs : d.constraints = cs := by rw [i1]; rfl
  have hgs : d.witnessGenerators = gs := by rw [i3]; rfl
  subst hcs hgs
  refine ⟨d', gs', e1, ?_, i2, i4, fun W => ?_, fun v => ?_⟩
  · rw [hb] at e2
    simp only [Builder.new] at e2
    omega
  · rw [i2, ← C100_satisfied]
    constructor
    · exact fun h => ⟨⟨h.one, fun c hm => h.all c (by simp [hm])⟩,
        ⟨h.one, fun c hm => h.all c (List.mem_append_right _ hm)⟩⟩
    · refine fun h => ⟨h.1.one, fun c hm => ?_⟩
      rcases List.mem_append.1 hm with hm | hm
      · exact h.1.all c hm
      · exact h.2.all c hm
  · exact (C100_execute _ d.build ⟨_, gs'⟩ rfl i5 v).1

/-- Code which goes on from given objects does not depend on what else the builder holds: if other
wires have been allocated in the meantime, then only the numbers of the wires which the code allocates
are larger. -/
theorem C100_continuation (c : Circuit p) (os : List (Obj p)) (b b' : Builder p) (n m : ℕ)
    (hn : b.nextWireIndex = n + 1) (hs : ∀ o ∈ os, o.Scoped (n + 1))
    (hm : b'.nextWireIndex = b.nextWireIndex + m)
    (hc : ∀ i ∈ c, Alike.Given (Renumbering.shift n m) i.1) :
    (Circuit.runFrom c os b = none → Circuit.runFrom c os b' = none) ∧
    ∀ os1 d, Circuit.runFrom c os b = some (os1, d) →
      ∃ d' cs gs gs', Circuit.runFrom c os b' =
          some (os1.map (Obj.renumber (Renumbering.shift n m)), d') ∧
        d'.nextWireIndex = d.nextWireIndex + m ∧
        d.constraints = b.constraints ++ cs ∧
        d'.constraints = b'.constraints ++ cs.map (Constraint.renumber (Renumbering.shift n m)) ∧
        d.witnessGenerators = b.witnessGenerators ++ gs ∧
        d'.witnessGenerators = b'.witnessGenerators ++ gs' ∧
        ∀ v, (Gadget.execute ⟨cs.map (Constraint.renumber (Renumbering.shift n m)), gs'⟩ v).map
            (fun t => (t.1.through (Renumbering.shift n m), t.2)) =
          Gadget.execute ⟨cs, gs⟩ (v.through (Renumbering.shift n m)) := by
  have hfix : os.map (Obj.renumber (Renumbering.shift n m)) = os := by
    conv_rhs => rw [← List.map_id os]
    refine List.map_congr_left fun o ho => Obj.renumber_of_fixed (fun i hi => ?_) (hs o ho)
    simp only [Renumbering.shift]
    exact if_pos (by omega)
  have key := Alike.runFrom hc os
  rw [hfix] at key
  obtain ⟨h1, h2⟩ := key b b'
  have hj : ∀ j, b'.nextWireIndex + j = Renumbering.shift n m (b.nextWireIndex + j) := fun j => by
    rw [hm, hn]
    simp only [Renumbering.shift]
    rw [if_neg (by omega)]
    omega
  refine ⟨fun h => h1 h hj, fun os1 d h => ?_⟩
  obtain ⟨d', e1, e2, cs, gs, gs', i1, i2, i3, i4, i5⟩ := (h2 os1 d h).2 fun j _ => hj j
  exact ⟨d', cs, gs, gs', e1, by omega, i1, i2, i3, i4, fun v =>
    (C100_execute _ ⟨cs, gs⟩ ⟨_, gs'⟩ rfl i5 v).1⟩

/-! ## Wires which a call may name -/

omit hp in
theorem Expression.scoped_of_fixed {r : Renumbering} {n : ℕ} (hr : ∀ i, r i = i → i < n)
    {e : Expression p} (he : e.renumber r = e) : e.Scoped n := by
  intro w hw
  have h := congrArg (fun x : Expression p => x.coefficients.map Prod.fst) he
  simp only [Expression.renumber, List.map_map] at h
  have h2 := List.map_eq_map_iff.1 (h.trans (List.map_congr_left fun _ _ => rfl))
  obtain ⟨kv, hm, rfl⟩ := List.mem_map.1 hw
  exact hr _ (h2 kv hm)

theorem Obj.scoped_of_fixed {r : Renumbering} {n : ℕ} (hr : ∀ i, r i = i → i < n) {o : Obj p}
    (ho : o.renumber r = o) : o.Scoped n := by
  cases o with
  | expr e => exact Expression.scoped_of_fixed hr (Obj.expr.inj ho)
  | bool e =>
    exact Expression.scoped_of_fixed hr (congrArg BooleanExpression.expression (Obj.bool.inj ho))
  | bin e =>
    intro b hb
    have h1 : e.bits.map (BooleanExpression.renumber r) = e.bits.map id := by
      rw [List.map_id]; exact congrArg BinaryExpression.bits (Obj.bin.inj ho)
    exact Expression.scoped_of_fixed hr
      (congrArg BooleanExpression.expression (List.map_eq_map_iff.1 h1 b hb))

/-- A call which does not depend on the numbers of wires, with operands over wires allocated before,
names only wires which were allocated before or which it allocates itself: in its result, in the
constraints, among the declared inputs of the generators; the generators give values to no other
wires, and what they do does not depend on the values of others (on values for finitely many wires,
which all maps of the code are). -/
theorem C100_scoped {α : Type} (m : B p α) (f : Renumbering → α → α) (b d : Builder p) (a : α)
    (hb : 1 ≤ b.nextWireIndex)
    (hm : ∀ r : Renumbering, (∀ i < b.nextWireIndex, r i = i) → Alike r (f r) m m)
    (h : m b = some (a, d)) :
    b.nextWireIndex ≤ d.nextWireIndex ∧
    (∀ r : Renumbering, (∀ i < d.nextWireIndex, r i = i) → f r a = a) ∧
    ∃ cs gs, d.constraints = b.constraints ++ cs ∧
      d.witnessGenerators = b.witnessGenerators ++ gs ∧
      (∀ c ∈ cs, c.a.Scoped d.nextWireIndex ∧ c.b.Scoped d.nextWireIndex ∧
        c.c.Scoped d.nextWireIndex) ∧
      ∀ g ∈ gs, (∀ i ∈ g.inputs, i < d.nextWireIndex) ∧
        (∀ v u, g.generate v = some u → ∀ i, d.nextWireIndex ≤ i → u i = v i) ∧
        ∀ v v' : WireValues p, (∃ N, ∀ i, N ≤ i → v i = none ∧ v' i = none) →
          (∀ i < d.nextWireIndex, v' i = v i) →
          ∀ i < d.nextWireIndex, (g.generate v').map (· i) = (g.generate v).map (· i) := by
  have key : ∀ r : Renumbering, (∀ i < d.nextWireIndex, r i = i) →
      b.nextWireIndex ≤ d.nextWireIndex ∧ f r a = a ∧ ∃ cs gs, d.constraints = b.constraints ++ cs ∧
      d.witnessGenerators = b.witnessGenerators ++ gs ∧ cs.map (Constraint.renumber r) = cs ∧
      List.Forall₂ (WitnessGenerator.Alike r) gs gs := by
    intro r hr
    have hle : b.nextWireIndex ≤ d.nextWireIndex :=
      ((hm (Renumbering.shift b.nextWireIndex 0) (fun i _ => by simp [Renumbering.shift])
        b b).2 a d h).1
    obtain ⟨d', e1, e2, cs, gs, gs', i1, i2, i3, i4, i5⟩ :=
      ((hm r (fun i hi => hr i (by omega)) b b).2 a d h).2 fun k hk => (hr _ hk).symm
    rw [h] at e1
    obtain ⟨e3, rfl⟩ := Prod.ext_iff.1 (Option.some.inj e1)
    have h1 := List.append_cancel_left (i1.symm.trans i2)
    have h2 := List.append_cancel_left (i3.symm.trans i4)
    simp only at e3
    exact ⟨hle, e3.symm, cs, gs, i1, i3, h1.symm, h2 ▸ i5⟩
  have hpos : 1 ≤ d.nextWireIndex := hb.trans
    (key (Renumbering.shift d.nextWireIndex 0) fun i _ => by simp [Renumbering.shift]).1
  have hfix : ∀ M, ∀ i < d.nextWireIndex, Renumbering.shift (d.nextWireIndex - 1) M i = i :=
    fun M i hi => if_pos (by omega)
  obtain ⟨hle, _, cs, gs, e1, e2, e3, e4⟩ := key _ (hfix 1)
  refine ⟨hle, fun r hr => (key r hr).2.1, cs, gs, e1, e2, fun c hc => ?_, fun g hg => ?_⟩
  · have h1 : c.renumber (Renumbering.shift (d.nextWireIndex - 1) 1) = c := by
      have h2 : cs.map (Constraint.renumber (Renumbering.shift (d.nextWireIndex - 1) 1)) =
          cs.map id := by rw [e3, List.map_id]
      exact List.map_eq_map_iff.1 h2 c hc
    have h2 : ∀ i, Renumbering.shift (d.nextWireIndex - 1) 1 i = i → i < d.nextWireIndex := by
      intro i hi
      by_contra hlt
      simp only [Renumbering.shift] at hi
      rw [if_neg (by omega)] at hi
      omega
    exact ⟨Expression.scoped_of_fixed h2 (congrArg Constraint.a h1),
      Expression.scoped_of_fixed h2 (congrArg Constraint.b h1),
      Expression.scoped_of_fixed h2 (congrArg Constraint.c h1)⟩
  · have hal : ∀ M, WitnessGenerator.Alike (Renumbering.shift (d.nextWireIndex - 1) M) g g := by
      intro M
      obtain ⟨_, _, cs', gs', e1', e2', _, e4'⟩ := key _ (hfix M)
      have : gs = gs' := List.append_cancel_left (e2.symm.trans e2')
      subst this
      exact List.forall₂_same.1 e4' g hg
    refine ⟨fun i hi => ?_, fun v u hu i hi => ?_, fun v v' ⟨N, hN⟩ hv i hi => ?_⟩
    · have h2 : g.inputs.map (Renumbering.shift (d.nextWireIndex - 1) 1) = g.inputs.map id := by
        rw [List.map_id]; exact (hal 1).1.symm
      have h3 := List.map_eq_map_iff.1 h2 i hi
      by_contra hlt
      simp only [Renumbering.shift, id] at h3
      rw [if_neg (by omega)] at h3
      omega
    · refine ((hal (i + 1)).2 v).2 u hu i fun j hj => ?_
      simp only [Renumbering.shift] at hj
      split at hj <;> omega
    · have h3 : ∀ w : WireValues p, (∀ i, N ≤ i → w i = none) → (g.generate w).map (· i) =
          (g.generate fun i => if i < d.nextWireIndex then w i else none).map (· i) := by
        intro w hw
        have h4 := ((hal N).2 w).1
        have h5 : w.through (Renumbering.shift (d.nextWireIndex - 1) N) =
            fun i => if i < d.nextWireIndex then w i else none := by
          funext j
          simp only [WireValues.through, Renumbering.shift]
          by_cases hj : j ≤ d.nextWireIndex - 1
          · rw [if_pos hj, if_pos (by omega)]
          · rw [if_neg hj, if_neg (by omega), hw _ (by omega)]
        rw [h5] at h4
        rw [← h4, Option.map_map]
        refine congrArg (fun F => Option.map F (g.generate w)) (funext fun u => ?_)
        simp [WireValues.through, hfix N i hi]
      rw [h3 v' fun j hj => (hN j hj).2, h3 v fun j hj => (hN j hj).1]
      congr 2
      funext j
      split
      · exact hv j ‹_›
      · rfl

/-- The same for circuits: the results of a circuit, its constraints and its generators concern only
the wires allocated so far. -/
theorem C100_scoped_circuits (c : Circuit p) (os os1 : List (Obj p)) (b d : Builder p)
    (hb : 1 ≤ b.nextWireIndex) (hs : ∀ o ∈ os, o.Scoped b.nextWireIndex)
    (hc : ∀ r, ∀ i ∈ c, Alike.Given r i.1) (h : Circuit.runFrom c os b = some (os1, d)) :
    b.nextWireIndex ≤ d.nextWireIndex ∧ (∀ o ∈ os1, o.Scoped d.nextWireIndex) ∧
    ∃ cs gs, d.constraints = b.constraints ++ cs ∧
      d.witnessGenerators = b.witnessGenerators ++ gs ∧
      (∀ k ∈ cs, k.a.Scoped d.nextWireIndex ∧ k.b.Scoped d.nextWireIndex ∧
        k.c.Scoped d.nextWireIndex) ∧
      ∀ g ∈ gs, (∀ i ∈ g.inputs, i < d.nextWireIndex) ∧
        (∀ v u, g.generate v = some u → ∀ i, d.nextWireIndex ≤ i → u i = v i) ∧
        ∀ v v' : WireValues p, (∃ N, ∀ i, N ≤ i → v i = none ∧ v' i = none) →
          (∀ i < d.nextWireIndex, v' i = v i) →
          ∀ i < d.nextWireIndex, (g.generate v').map (· i) = (g.generate v).map (· i) := by
  obtain ⟨h1, h2, h3⟩ := C100_scoped (Circuit.runFrom c os) (fun r => List.map (Obj.renumber r)) b d
    os1 hb (fun r hr => by
      have hfix : os.map (Obj.renumber r) = os := by
        conv_rhs => rw [← List.map_id os]
        exact List.map_congr_left fun o ho => Obj.renumber_of_fixed hr (hs o ho)
      have := Alike.runFrom (hc r) os
      rwa [hfix] at this) h
  refine ⟨h1, fun o ho => ?_, h3⟩
  have hr : ∀ i < d.nextWireIndex, Renumbering.shift (d.nextWireIndex - 1) 1 i = i :=
    fun i hi => if_pos (by omega)
  have h4 : os1.map (Obj.renumber (Renumbering.shift (d.nextWireIndex - 1) 1)) = os1.map id := by
    rw [h2 _ hr, List.map_id]
  refine Obj.scoped_of_fixed (fun i hi => ?_) (List.map_eq_map_iff.1 h4 o ho)
  by_contra hlt
  simp only [Renumbering.shift] at hi
  rw [if_neg (by omega)] at hi
  omega

/-! ## Examples -/

/-- Compare two numbers, and multiply the first by the result. -/
abbrev comparing : Circuit 11 := [(.lt, [0, 1]), (.toExpr, [2]), (.product, [0, 3])]

/-- The hypotheses of C100 are met by all code without signatures, trees and foreign functions. -/
example (r : Renumbering) : ∀ i ∈ comparing, Alike.Given r i.1 := by
  intro i hi
  simp only [comparing, List.mem_cons, List.not_mem_nil, or_false] at hi
  rcases hi with rfl | rfl | rfl <;> trivial

/-- The code in a new builder and in one with five wires: the last wire is number 25 or 30, and there
are the same number of constraints, in addition to the one which was there before. -/
example :
    ((Circuit.build 2 comparing Builder.new).map fun t =>
      (t.2.nextWireIndex, t.2.constraints.length)) = some (26, 32) ∧
    ((Circuit.build 2 comparing ⟨6, [⟨1, 1, 1⟩], []⟩).map fun t =>
      (t.2.nextWireIndex, t.2.constraints.length)) = some (31, 33) := by
  constructor <;> decide +kernel

/-- A product in a new builder, and in one with five wires, executed. -/
example : ∃ d d' : Builder 11, ∃ os os',
    Circuit.build 2 [(.product, [0, 1])] Builder.new = some (os, d) ∧
    Circuit.build 2 [(.product, [0, 1])] ⟨6, [], []⟩ = some (os', d') ∧
    (d.build.execute fun i => [some 1, some 3, some 5].getD i none).map (fun t => (t.1 3, t.2)) =
      some (some 4, true) ∧
    (d'.build.execute fun i => [some 1, none, none, some 9, none, none, some 3, some 5].getD i none).map
      (fun t => (t.1 8, t.2)) = some (some 4, true) := by
  have h : ((Circuit.build (p := 11) 2 [(.product, [0, 1])] Builder.new).bind fun t =>
      (t.2.build.execute fun i => [some 1, some 3, some 5].getD i none).map
        fun t => (t.1 3, t.2)) = some (some 4, true) := by decide +kernel
  have h' : ((Circuit.build (p := 11) 2 [(.product, [0, 1])] ⟨6, [], []⟩).bind fun t =>
      (t.2.build.execute fun i =>
        [some 1, none, none, some 9, none, none, some 3, some 5].getD i none).map
        fun t => (t.1 8, t.2)) = some (some 4, true) := by decide +kernel
  obtain ⟨⟨os, d⟩, e, h⟩ := Option.bind_eq_some_iff.1 h
  obtain ⟨⟨os', d'⟩, e', h'⟩ := Option.bind_eq_some_iff.1 h'
  exact ⟨d, d', os, os', e, e', h, h'⟩

/-- A call which looks at what the builder holds is not of this kind: it multiplies only if there is
a constraint already. -/
example : ¬ ∀ r, Alike (p := 11) r (Expression.renumber r)
    (fun b => if b.constraints = [] then (pure 1 : B 11 _) b else B.product 1 1 b)
    (fun b => if b.constraints.length = 0 then (pure 1 : B 11 _) b else
      B.product (Expression.ofWire 1) (Expression.ofWire 1) b) := by
  intro h
  have := ((h (Renumbering.shift 0 0) Builder.new ⟨1, [⟨1, 1, 1⟩], []⟩).2 1 Builder.new
    (by simp [Builder.new]; rfl)).2 fun k _ => by simp [Builder.new, Renumbering.shift]
  obtain ⟨c', h1, h3, _⟩ := this
  simp only [Builder.new, Nat.add_right_cancel_iff] at h3
  have h4 : ((B.product (p := 11) (Expression.ofWire 1) (Expression.ofWire 1)
      ⟨1, [⟨1, 1, 1⟩], []⟩).map fun t => t.2.nextWireIndex) = some 2 := by decide +kernel
  simp only [List.length_cons, List.length_nil] at h1
  rw [if_neg (by omega)] at h1
  rw [h1] at h4
  simp [h3] at h4

end R1CS
