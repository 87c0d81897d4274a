import Verif.Lemmas.Adds
import Verif.Props.Raw
import Verif.Props.Language

/-!
# C105: executions on the stored data

`Model/RawGens.lean` transcribes the closures of all witness generators on the data which the code stores.  Here
they are compared with the generators of the model, and whole executions with those of the model.
-/

namespace R1CS

open Raw Language

variable {p : ℕ} [hp : Fact p.Prime]

/-- C105: on a map which holds the values of the model, each of the closures of the crate panics when the
generator of the model does, and else leaves a map which holds the values which the generator leaves.  It also
declares the same inputs. -/
theorem C105_closures {r : RawGenerator} {g : WitnessGenerator p} (h : Transcribes r g) : GeneratorAgrees r g :=
  h.agrees

/-- Non-vacuity: the closures of splitting, comparing, inverting and dividing at work, and panicking: on a digit
string which is too short, and on a wire which is set already. -/
example :
    Raw.splitGen 13 [(1, 1), (0, 3)] 3 ⟨[⟨2⟩, ⟨3⟩, ⟨4⟩]⟩ [(1, 2), (0, 1)] =
      some [(1, 2), (2, 1), (3, 0), (4, 1), (0, 1)] ∧
    Raw.maskGen 13 [3, 4] [[(1, 1)], [(2, 1)]] [[(2, 1)], [(1, 1)]] [(1, 9), (2, 1), (0, 1)] =
      some [(1, 9), (2, 1), (3, 0), (4, 1), (0, 1)] ∧
    Raw.splitGen 13 [(1, 1)] 2 ⟨[⟨2⟩]⟩ [(1, 2), (0, 1)] = none ∧
    Raw.inverseGen 13 [(1, 1)] 2 [(1, 5), (0, 1)] = some [(1, 5), (2, 8), (0, 1)] ∧
    Raw.inverseGen 13 [(1, 1)] 2 [(1, 5), (2, 8), (0, 1)] = none ∧
    Raw.inverseGen 13 [(1, 1)] 2 [(1, 0), (0, 1)] = none ∧
    Raw.modulusGen 13 [(1, 1)] [(2, 1)] 3 4 [(1, 11), (2, 4), (0, 1)] =
      some [(1, 11), (2, 4), (3, 2), (4, 3), (0, 1)] := by decide +kernel

/-- C105: whatever field arithmetic adds to the generators of a builder are closures of the crate. -/
theorem C105_arithmetic :
    AddsClosures (B.wire : B p Wire) ∧ (∀ k, AddsClosures (B.wires k : B p (List Wire))) ∧
    (∀ x y z : Expression p, AddsClosures (B.assertProduct x y z)) ∧
    (∀ x y : Expression p, AddsClosures (B.assertEqual x y) ∧ AddsClosures (B.assertNonequal x y) ∧ AddsClosures (B.product x y) ∧
      AddsClosures (B.quotient x y) ∧ AddsClosures (B.quotientUnsafe x y) ∧ AddsClosures (B.modulus x y) ∧ AddsClosures (B.divides x y)) ∧
    (∀ x : Expression p, AddsClosures (B.assertZero x) ∧ AddsClosures (B.assertNonzero x) ∧ AddsClosures (B.inverse x) ∧
      AddsClosures (B.inverseOrZero x)) ∧
    ∀ (x : Expression p) (k : Elem p), AddsClosures (B.exponentiation x k) :=
  ⟨AddsClosures.wire, AddsClosures.wires, fun _ _ _ => AddsClosures.assertProduct,
    fun _ _ => ⟨AddsClosures.assertEqual, AddsClosures.assertNonequal, AddsClosures.product, AddsClosures.quotient, AddsClosures.quotientUnsafe,
      AddsClosures.modulus, AddsClosures.divides⟩,
    fun _ => ⟨AddsClosures.assertZero, AddsClosures.assertNonzero, AddsClosures.inverse, AddsClosures.inverseOrZero⟩,
    fun _ _ => AddsClosures.exponentiation⟩

/-- C105: the same for booleans, tests and selection. -/
theorem C105_logic :
    (∀ x : Expression p, AddsClosures (B.assertBoolean x) ∧ AddsClosures (B.nonzero x) ∧ AddsClosures (B.zero x)) ∧
    (∀ x y : Expression p, AddsClosures (B.equal x y)) ∧
    (∀ c : BooleanExpression p, AddsClosures (B.assertTrue c) ∧ AddsClosures (B.assertFalse c) ∧ AddsClosures (B.not c)) ∧
    (∀ c d : BooleanExpression p, AddsClosures (B.and c d) ∧ AddsClosures (B.or c d) ∧ AddsClosures (B.xor c d)) ∧
    ∀ (c : BooleanExpression p) (x y : Expression p), AddsClosures (B.selection c x y) :=
  ⟨fun _ => ⟨AddsClosures.assertBoolean, AddsClosures.nonzero, AddsClosures.zero⟩, fun _ _ => AddsClosures.equal,
    fun _ => ⟨AddsClosures.assertTrue, AddsClosures.assertFalse, AddsClosures.not⟩, fun _ _ => ⟨AddsClosures.and, AddsClosures.or, AddsClosures.xor⟩,
    fun _ _ _ => AddsClosures.selection⟩

/-- C105: the same for splitting and comparing, for digit strings and for random access. -/
theorem C105_digits :
    (∀ x : Expression p, AddsClosures (B.split x) ∧ AddsClosures (B.splitAllowingAmbiguity x) ∧
      ∀ k, AddsClosures (B.splitBounded x k)) ∧
    (∀ (x y : Expression p) (less strict : Bool), AddsClosures (B.cmp x y less strict)) ∧
    (∀ (X Y : BinaryExpression p) (less strict : Bool), AddsClosures (B.cmpBinary X Y less strict)) ∧
    (∀ x y : Expression p, AddsClosures (B.assertLt x y) ∧ AddsClosures (B.assertLe x y) ∧ AddsClosures (B.assertGt x y) ∧
      AddsClosures (B.assertGe x y)) ∧
    (∀ X Y : BinaryExpression p, AddsClosures (B.assertLtBinary X Y) ∧ AddsClosures (B.assertLeBinary X Y) ∧
      AddsClosures (B.assertGtBinary X Y) ∧ AddsClosures (B.assertGeBinary X Y) ∧ AddsClosures (B.bitwiseAnd X Y) ∧
      AddsClosures (B.bitwiseOr X Y) ∧ AddsClosures (B.bitwiseXor X Y)) ∧
    (∀ X : BinaryExpression p, AddsClosures (B.binaryAssertZero X) ∧ AddsClosures (B.bitwiseNot X)) ∧
    (∀ Xs : List (BinaryExpression p), AddsClosures (B.binarySummation Xs) ∧
      AddsClosures (B.binarySummationIgnoringOverflow Xs) ∧ AddsClosures (B.binarySummationAssertingNoOverflow Xs)) ∧
    ∀ (xs : List (Expression p)) (i : Expression p), AddsClosures (B.randomAccess xs i) :=
  ⟨fun _ => ⟨AddsClosures.split, AddsClosures.splitAllowingAmbiguity, fun _ => AddsClosures.splitBounded⟩, fun _ _ _ _ => AddsClosures.cmp,
    fun _ _ _ _ => AddsClosures.cmpBinary,
    fun _ _ => ⟨AddsClosures.assertLt, AddsClosures.assertLe, AddsClosures.assertGt, AddsClosures.assertGe⟩,
    fun _ _ => ⟨AddsClosures.assertLtBinary, AddsClosures.assertLeBinary, AddsClosures.assertGtBinary, AddsClosures.assertGeBinary,
      AddsClosures.bitwiseAnd, AddsClosures.bitwiseOr, AddsClosures.bitwiseXor⟩,
    fun _ => ⟨AddsClosures.binaryAssertZero, AddsClosures.bitwiseNot⟩,
    fun _ => ⟨AddsClosures.binarySummation, AddsClosures.binarySummationIgnoringOverflow,
      AddsClosures.binarySummationAssertingNoOverflow⟩,
    fun _ _ => AddsClosures.randomAccess⟩

/-- C105: the same for permutation networks and sorting; for the permutations of field elements, ciphers, and
hash constructions made from any parts of which it is true. -/
theorem C105_hashing :
    (∀ xs ys : List (Expression p), AddsClosures (B.assertPermutation xs ys) ∧ AddsClosures (B.sortAscending xs) ∧
      AddsClosures (B.sortDescending xs)) ∧
    (∀ (f : MonomialPermutation p) x, AddsClosures (f.permute x) ∧ AddsClosures (f.inverse x)) ∧
    (∀ (c : MiMC p) x y, AddsClosures (c.encrypt x y) ∧ AddsClosures (c.decrypt x y)) ∧
    (∀ E : BlockCipher p, (∀ x y, AddsClosures (E.encrypt x y)) →
      ∀ x y, AddsClosures ((daviesMeyer E).compress x y) ∧ AddsClosures ((miyaguchiPreneel E).compress x y)) ∧
    (∀ h : MerkleDamgard p, (∀ x y, AddsClosures (h.compress.compress x y)) → ∀ xs, AddsClosures (h.hash xs)) ∧
    (∀ s : Sponge p, (∀ xs, AddsClosures (s.permutation.permute xs)) → ∀ xs k, AddsClosures (s.evaluate xs k)) ∧
    (∀ (f : Poseidon p) xs, AddsClosures (f.permute xs)) ∧
    (∀ (f : Rescue p) xs, AddsClosures (f.permute xs)) ∧
    ∀ c : CompressionFunction p, (∀ x y, AddsClosures (c.compress x y)) → ∀ x y (path : MerklePath p),
      AddsClosures (B.merkleTreeRoot x path c) ∧ AddsClosures (B.assertMerkleTreeMembership x y path c) :=
  ⟨fun _ _ => ⟨AddsClosures.assertPermutation, AddsClosures.sortAscending, AddsClosures.sortDescending⟩,
    fun f _ => ⟨AddsClosures.monomial f, AddsClosures.root f⟩, fun c _ _ => ⟨AddsClosures.encrypt c, AddsClosures.decrypt c⟩,
    fun _ h _ _ => ⟨AddsClosures.daviesMeyer h _ _, AddsClosures.miyaguchiPreneel h _ _⟩, fun _ h => AddsClosures.hash h,
    fun _ h xs k => AddsClosures.sponge h k xs, AddsClosures.poseidon, AddsClosures.rescue,
    fun _ h x y path => ⟨AddsClosures.merkleTreeRoot h x path, AddsClosures.assertMerkleTreeMembership h x y path⟩⟩

/-- C105: the same for points of Edwards curves, and for multiples and signatures in any group of which it is
true. -/
theorem C105_curves :
    (∀ (C : EdwardsCurve p) x y P Q, AddsClosures (EdwardsExpression.new C x y) ∧
      AddsClosures ((EdwardsGroup.ops C).addExpressions P Q) ∧ AddsClosures ((EdwardsGroup.ops C).doubleExpression P)) ∧
    (∀ (GE GX : Type) (G : GroupOps p GE GX) (X : GX) b, AddsClosures (G.mulBooleanExpression X b)) ∧
    (∀ (GE GX : Type) (G : GroupOps p GE GX), (∀ X Y, AddsClosures (G.addExpressions X Y)) →
      (∀ X, AddsClosures (G.doubleExpression X)) → ∀ X k, AddsClosures (G.mulScalarExpression X k)) ∧
    ∀ (GE GX : Type) (C : CyclicGroupOps p GE GX), (∀ X Y, AddsClosures (C.addExpressions X Y)) →
      (∀ X, AddsClosures (C.doubleExpression X)) → ∀ h : CompressionFunction p, (∀ x y, AddsClosures (h.compress x y)) →
      ∀ σ m Y, AddsClosures (schnorrVerify C h σ m Y) :=
  ⟨fun C _ _ P Q => ⟨AddsClosures.edwardsNew C, AddsClosures.edwardsAdd C P Q, AddsClosures.edwardsDouble C P⟩,
    fun _ _ _ X b => AddsClosures.mulBoolean X b, fun _ _ _ ha hd => AddsClosures.mulScalar ha hd,
    fun _ _ _ ha hd _ hc => AddsClosures.schnorr ha hd hc⟩

/-- C105: the same for straight-line code, and for calls one after another. -/
theorem C105_circuits :
    (∀ c : Circuit p, (∀ i ∈ c, AddsClosures.Given i.1) → (∀ os, AddsClosures (Circuit.runFrom c os)) ∧
      ∀ k, AddsClosures (Circuit.build k c)) ∧
    ∀ (α β : Type) (m : B p α) (k : α → B p β), AddsClosures m → (∀ a, AddsClosures (k a)) → AddsClosures (m >>= k) :=
  ⟨fun _ h => ⟨AddsClosures.runFrom h, AddsClosures.build h⟩, fun _ _ _ _ => AddsClosures.bind⟩

/-- C105: a gadget built by calls of which it is true has a transcript on the stored data, and executing any
transcript on a map which holds the values of the model panics when the model does, and else ends with the same
verdict and a map which holds the same values. -/
theorem C105_execute {α : Type} {m : B p α} (hm : AddsClosures m) {a : α} {b : Builder p}
    (h : m Builder.new = some (a, b)) :
    (∃ r, Transcript r b.build) ∧
    ∀ r, Transcript r b.build → ∀ (vs : Values) (v : WireValues p), Holds vs v →
      (Raw.execute p r vs = none ∧ b.build.execute v = none) ∨
      ∃ vs' v' ok, Raw.execute p r vs = some (vs', ok) ∧ b.build.execute v = some (v', ok) ∧ Holds vs' v' := by
  constructor
  · obtain ⟨gs, rs, e1, e2⟩ := hm _ _ _ h
    exact ⟨⟨_, rs⟩, rfl, by
      show List.Forall₂ Transcribes rs b.witnessGenerators
      rw [e1]
      exact e2⟩
  · intro r hr vs v hv
    exact C104_execute ⟨hr.1, hr.2.imp fun _ _ h => h.agrees⟩ hv

/-- The map which holds the inputs exists. -/
theorem Raw.storedInputs_holds (xs : List (Elem p)) :
    ∃ m, storedInputs xs = some m ∧ Holds m (Circuit.inputs xs) := by
  obtain ⟨m0, e0, h0⟩ := holds_new (p := p)
  have key : ∀ (xs : List (Elem p)) (i : ℕ) (m : Values) (v : WireValues p), 1 ≤ i → Holds m v →
      (∀ j, i ≤ j → v j = none) →
      ∃ m', (xs.zipIdx i).foldlM (fun m x => Raw.set m x.2 x.1.n) m = some m' ∧
        Holds m' (fun j => if j < i then v j else xs[j - i]?) := by
    intro xs
    induction xs with
    | nil =>
      intro i m v _ h hv
      refine ⟨m, rfl, ?_⟩
      have : (fun j => if j < i then v j else ([] : List (Elem p))[j - i]?) = v := by
        funext j
        split
        · rfl
        · rw [hv j (by omega)]
          rfl
      rw [this]
      exact h
    | cons x xs ih =>
      intro i m v hi h hv
      have hs : v.set i x = some (v.insert i x) := by
        unfold WireValues.set WireValues.contains
        rw [hv i (le_refl _)]
        rfl
      rcases h.set i x with ⟨_, e⟩ | ⟨m1, v1, e1, e2, h1⟩
      · rw [hs] at e
        cases e
      · rw [hs] at e2
        obtain rfl := Option.some.inj e2
        obtain ⟨m', e3, h3⟩ := ih (i + 1) m1 _ (by omega) h1 fun j hj => by
          unfold WireValues.insert
          rw [if_neg (by omega)]
          exact hv j (by omega)
        refine ⟨m', ?_, ?_⟩
        · rw [List.zipIdx_cons, List.foldlM_cons]
          show (Raw.set m i x.n).bind _ = _
          rw [e1]
          exact e3
        · have : (fun j => if j < i + 1 then v.insert i x j else xs[j - (i + 1)]?) =
              fun j => if j < i then v j else (x :: xs)[j - i]? := by
            funext j
            unfold WireValues.insert
            rcases Nat.lt_trichotomy j i with hj | rfl | hj
            · rw [if_pos (by omega), if_neg (by omega), if_pos hj]
            · simp
            · rw [if_neg (by omega), if_neg (by omega), show j - i = (j - (i + 1)) + 1 by omega,
                List.getElem?_cons_succ]
          rw [← this]
          exact h3
  obtain ⟨m', e1, h1⟩ := key xs 1 m0 WireValues.new (le_refl _) h0 fun j hj => by
    unfold WireValues.new
    first
    | exact if_neg (by unfold ONE; omega)
    | (unfold WireValues.insert; exact if_neg (by unfold ONE; omega))
  refine ⟨m', by unfold storedInputs; rw [e0]; exact e1, ?_⟩
  have : (fun j => if j < 1 then (WireValues.new : WireValues p) j else xs[j - 1]?) = Circuit.inputs xs := by
    funext j
    unfold Circuit.inputs
    by_cases hj : j = 0
    · subst hj
      rfl
    · rw [if_neg (by omega), if_neg hj]
  rw [← this]
  exact h1

/-- C105: if straight-line code has a meaning for the inputs, building it succeeds, the gadget has a transcript,
and executing any transcript on the map of the inputs ends without a panic and is accepted, with a map on which
every object evaluates to its value. -/
theorem C105_complete (h4 : 4 ≤ Elem.maxBits p) (c : Circuit p) (hc : ∀ i ∈ c, AddsClosures.Given i.1)
    (xs : List (Elem p)) {ys : List (Val p)} (h : c.meaning xs = some ys) :
    ∃ os b vs, c.build xs.length Builder.new = some (os, b) ∧ storedInputs xs = some vs ∧
      (∃ r, Transcript r b.build) ∧
      ∀ r, Transcript r b.build → ∃ vs', Raw.execute p r vs = some (vs', true) ∧
        List.Forall₂ (Evaluates vs') os ys := by
  obtain ⟨os, b, v', hb, e1, e2, _, e4, e5⟩ := Circuit.executes h4 c xs h
  obtain ⟨vs, e6, h6⟩ := storedInputs_holds xs
  obtain ⟨h7, h8⟩ := C105_execute (AddsClosures.build hc _) hb
  refine ⟨os, b, vs, hb, e6, h7, fun r hr => ?_⟩
  rcases h8 r hr vs _ h6 with ⟨_, e⟩ | ⟨vs', v'', ok, h9, h10, h11⟩
  · rw [e1] at e
    cases e
  · rw [e1] at h10
    cases h10
    refine ⟨vs', h9, ?_⟩
    have hv : ∀ {e : Expression p}, e.Scoped b.nextWireIndex → ∀ i ∈ e.dependencies, v' i = some (v'.total i) := by
      intro e he i hi
      obtain ⟨x, hx⟩ := Option.isSome_iff_exists.1 (e2 i (he i hi))
      simp [WireValues.total, hx]
    have hB : ∀ (e : BooleanExpression p) (t : Bool), e.Scoped b.nextWireIndex →
        e.eval v'.total = Elem.ofBool t → evaluateBoolean p (expr e.expression) vs' = some t := by
      intro e t he ht
      rw [h11.evaluateBoolean]
      show e.evaluate v' = _
      rw [BooleanExpression.evaluate_eq (w := v'.total) (hv he) (by rw [ht]; exact isBool_ofBool t), ht]
      cases t
      · simp [Elem.ofBool_false]
      · simp [Elem.ofBool_true]
    refine List.forall₂_iff_get.2 ⟨e4.length_eq, fun i hi hi' => ?_⟩
    have hm := (List.forall₂_iff_get.1 e4).2 i hi hi'
    have hs := e5 _ (List.get_mem os ⟨i, hi⟩)
    revert hm hs
    generalize os.get ⟨i, hi⟩ = o
    generalize ys.get ⟨i, hi'⟩ = y
    intro hm hs
    cases o <;> cases y <;> simp only [Means] at hm <;> simp only [Evaluates]
    · rw [h11.evaluate, Expression.evaluate_eq (w := v'.total) (hv hs), hm]
      rfl
    · exact hB _ _ hs hm
    · rename_i e l
      obtain ⟨bits⟩ := e
      replace hs : ∀ t ∈ bits, t.Scoped b.nextWireIndex := hs
      replace hm : (bits.map fun t => t.eval v'.total) = l.map Elem.ofBool := hm
      show bits.mapM _ = _
      clear e4 e5 h hi hi'
      induction bits generalizing l with
      | nil =>
        cases l
        · rfl
        · simp at hm
      | cons t bits ih =>
        cases l with
        | nil => simp at hm
        | cons y l =>
          rw [List.map_cons, List.map_cons, List.cons.injEq] at hm
          rw [List.mapM_cons, hB t y (hs t (by simp)) hm.1, ih l (fun u hu => hs u (by simp [hu])) hm.2]
          rfl

/-- C105: conversely, an execution of a transcript on the map of the inputs is accepted only if the code has a
meaning for them. -/
theorem C105_decides (h4 : 4 ≤ Elem.maxBits p) (c : Circuit p) (hc : ∀ i ∈ c, AddsClosures.Given i.1)
    (xs : List (Elem p)) :
    (∃ os b vs r vs', c.build xs.length Builder.new = some (os, b) ∧ storedInputs xs = some vs ∧
      Transcript r b.build ∧ Raw.execute p r vs = some (vs', true)) ↔ (c.meaning xs).isSome = true := by
  constructor
  · rintro ⟨os, b, vs, r, vs', hb, e6, hr, e⟩
    obtain ⟨vs2, e7, h7⟩ := storedInputs_holds xs
    rw [e6] at e7
    cases e7
    rcases (C105_execute (AddsClosures.build hc _) hb).2 r hr vs _ h7 with ⟨e1, _⟩ | ⟨m', v', ok, e1, e2, _⟩
    · rw [e] at e1
      cases e1
    · rw [e] at e1
      cases e1
      exact (C87_decides h4 c xs).1 ⟨os, b, v', hb, e2⟩
  · intro h
    obtain ⟨ys, h⟩ := Option.isSome_iff_exists.1 h
    obtain ⟨os, b, vs, hb, e6, ⟨r, hr⟩, h8⟩ := C105_complete h4 c hc xs h
    obtain ⟨vs', e, _⟩ := h8 r hr
    exact ⟨os, b, vs, r, vs', hb, e6, hr, e⟩

/-- Non-vacuity: a circuit which sorts, divides and compares meets the hypotheses. -/
example : (∀ i ∈ ([(.sortAscending, [0, 1]), (.modulus, [2, 3]), (.lt, [0, 1])] : Circuit 13),
      AddsClosures.Given i.1) ∧ (4 : ℕ) ≤ Elem.maxBits 13 ∧ storedInputs (p := 13) [5, 7] = some [(1, 5), (2, 7), (0, 1)] := by
  refine ⟨?_, by decide +kernel, by decide +kernel⟩
  intro i hi
  simp only [List.mem_cons, List.not_mem_nil, or_false] at hi
  rcases hi with rfl | rfl | rfl <;> trivial

end R1CS
