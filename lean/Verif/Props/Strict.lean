import Verif.Lemmas.StrictLanguage
import Verif.Props.Language
import Verif.Props.Tidy

/-!
# C99: values given in advance, and executing twice

`WireValues::set` panics on a wire which has a value already.  So the caller of `execute` must know
which wires the generators will set.
-/

set_option linter.unusedSectionVars false

namespace R1CS

variable {p : ℕ} [hp : Fact p.Prime]

open Language

theorem Runs.exact {F : WitnessGenerator p → List Wire} {v v' : WireValues p}
    {σ : List (WitnessGenerator p)} (h : Runs v σ v') (hF : ∀ g ∈ σ, Exact g (F g)) :
    (∀ o ∈ σ.flatMap F, v o = none ∧ (v' o).isSome) ∧ ∀ i ∉ σ.flatMap F, v' i = v i := by
  classical
  induction h with
  | nil => simp
  | @cons v v1 v' g σ _ hg _ ih =>
    have := Ex.seq (f := g.generate) (g := fun u => if u = v1 then some v' else none)
      (l := F g) (l' := σ.flatMap F) (hF g (by simp)) ?_ v v'
      (Option.bind_eq_some_iff.2 ⟨v1, hg, if_pos rfl⟩)
    · rw [List.flatMap_cons]
      exact this
    · intro u u' hu
      beta_reduce at hu
      split at hu
      · next e =>
        obtain rfl := Option.some.inj hu
        subst e
        exact ih fun g' hg' => hF g' (by simp [hg'])
      · cases hu

theorem Runs.idle {v v' : WireValues p} {σ : List (WitnessGenerator p)} (h : Runs v σ v')
    (hF : ∀ g ∈ σ, Idle g) : v' = v := by
  induction h with
  | nil => rfl
  | cons _ hg _ ih =>
    rw [ih fun g hg => hF g (by simp [hg])]
    exact hF _ (by simp) _ _ hg

/-- A generator which ran, ran at some point. -/
theorem Runs.at {v v' : WireValues p} {σ : List (WitnessGenerator p)} (h : Runs v σ v')
    {g : WitnessGenerator p} (hg : g ∈ σ) :
    ∃ σ1 σ2 u u', Runs v σ1 u ∧ g.generate u = some u' ∧ Runs u' σ2 v' ∧ σ = σ1 ++ g :: σ2 := by
  induction h with
  | nil => exact absurd hg (by simp)
  | @cons v v1 v' k σ hin hk hr ih =>
    rcases List.mem_cons.1 hg with rfl | hg
    · exact ⟨[], σ, v, v1, .nil _, hk, hr, rfl⟩
    · obtain ⟨σ1, σ2, u, u', h1, h2, h3, rfl⟩ := ih hg
      exact ⟨k :: σ1, σ2, u, u', .cons hin hk h1, h2, h3, rfl⟩

/-- C99: a circuit from strict parts calculates the same wires in every execution: there is a list of
wires such that each execution which returns, accepting or not, was given a value for none of them,
gives a value to every one of them, and changes nothing else. -/
theorem C99_static {α : Type} {m : B p α} (hm : Strict m) {a : α} {b : Builder p}
    (h : m Builder.new = some (a, b)) :
    ∃ G : List Wire, ∀ v v' ok, b.build.execute v = some (v', ok) →
      (∀ i ∈ G, v i = none ∧ (v' i).isSome) ∧ ∀ i ∉ G, v' i = v i := by
  obtain ⟨gs, hgs, hE⟩ := hm _ _ _ h
  choose! F hF using hE
  refine ⟨gs.flatMap F, fun v v' ok hex => ?_⟩
  obtain ⟨σ, hσ, hrun⟩ := C21_exactly_once _ v v' ok hex
  have hb : b.build.witnessGenerators = gs := hgs
  rw [hb] at hσ
  obtain ⟨h1, h2⟩ := hrun.exact fun g hg => hF g (hσ.mem_iff.1 hg)
  have hmem : ∀ i, i ∈ gs.flatMap F ↔ i ∈ σ.flatMap F := fun i => by
    simp only [List.mem_flatMap, hσ.mem_iff]
  exact ⟨fun i hi => h1 i ((hmem i).1 hi), fun i hi => h2 i fun h => hi ((hmem i).2 h)⟩

/-- C99: a wire which is calculated in some execution must not be given in advance in another one,
not even with the right value: `execute` panics. -/
theorem C99_preset {α : Type} {m : B p α} (hm : Strict m) {a : α} {b : Builder p}
    (h : m Builder.new = some (a, b)) {v v' : WireValues p} {ok : Bool}
    (hex : b.build.execute v = some (v', ok)) {i : Wire} (h1 : v i = none) (h2 : (v' i).isSome)
    {u : WireValues p} (hu : (u i).isSome) : b.build.execute u = none := by
  obtain ⟨G, hG⟩ := C99_static hm h
  rcases he : b.build.execute u with _ | ⟨u', ok'⟩
  · rfl
  · have hi : i ∈ G := by
      by_contra hc
      rw [(hG v v' ok hex).2 i hc, h1] at h2
      exact absurd h2 (by simp)
    rw [((hG u u' ok' he).1 i hi).1] at hu
    exact absurd hu (by simp)

/-- C99: an execution which calculated anything cannot be repeated on its result, nor on any values
which include its result. -/
theorem C99_twice {α : Type} {m : B p α} (hp : Prog m) (hm : Once m) {a : α} {b : Builder p}
    (h : m Builder.new = some (a, b)) {v v' : WireValues p} {ok : Bool}
    (hex : b.build.execute v = some (v', ok)) :
    v' = v ∨ ∀ u : WireValues p, (∀ i, (v' i).isSome → (u i).isSome) → b.build.execute u = none := by
  obtain ⟨gs, hgs, hE⟩ := hm _ _ _ h
  have hb : b.build.witnessGenerators = gs := hgs
  obtain ⟨_, _, gs', hgs', hk⟩ := C23_appends hp h
  obtain rfl : gs = gs' := by
    rw [hgs] at hgs'
    exact hgs'
  obtain ⟨σ, hσ, hrun⟩ := C21_exactly_once _ v v' ok hex
  rw [hb] at hσ
  rcases hE with hE | ⟨g, hg, o, ho⟩
  · exact .inl (hrun.idle fun g hg => hE g (hσ.mem_iff.1 hg))
  · refine .inr fun u hu => ?_
    rcases he : b.build.execute u with _ | ⟨u', ok'⟩
    · rfl
    · obtain ⟨σ1, σ2, w, w', r1, r2, r3, e⟩ := hrun.at (hσ.mem_iff.2 hg)
      obtain ⟨x, hx⟩ := Option.isSome_iff_exists.1 (ho w w' r2).2
      have hx' := r3.mono (fun g' hg' => hk g' (hσ.mem_iff.1 (by rw [e]; simp [hg']))) o x hx
      obtain ⟨y, hy⟩ := Option.isSome_iff_exists.1 (hu o (by rw [hx']; rfl))
      obtain ⟨τ, hτ, hrun'⟩ := C21_exactly_once _ u u' ok' he
      rw [hb] at hτ
      obtain ⟨τ1, τ2, t, t', s1, s2, _, e'⟩ := hrun'.at (hτ.mem_iff.2 hg)
      have hy' := s1.mono (fun g' hg' => hk g' (hτ.mem_iff.1 (by rw [e']; simp [hg']))) o y hy
      rw [(ho t t' s2).1] at hy'
      exact absurd hy' (by simp)

/-- C99: to check values which are complete already, execute the constraints without the generators:
this returns the same values with the same verdict. -/
theorem C99_check {g : Gadget p} {v v' : WireValues p} {ok : Bool}
    (hex : g.execute v = some (v', ok)) :
    Gadget.execute ⟨g.constraints, []⟩ v' = some (v', ok) := by
  unfold Gadget.execute at hex
  obtain ⟨r, _, hex⟩ := Option.bind_eq_some_iff.1 hex
  split at hex
  · obtain ⟨k, h1, h2⟩ := Option.bind_eq_some_iff.1 hex
    obtain ⟨rfl, rfl⟩ := Prod.ext_iff.1 (Option.some.inj h2)
    show ((Gadget.loop 1 [] r.2).bind fun r' => if r'.1.length = 0 then
      (Gadget.checkAll g.constraints r'.2).bind fun ok => some (r'.2, ok) else none) = _
    have : Gadget.loop 1 [] r.2 = some (([], r.2) : List (WitnessGenerator p) × WireValues p) := rfl
    rw [this]
    simp [h1]
  · cases hex

/-- C99: gadgets for arithmetic, comparison, splitting and digit strings are strict. -/
theorem C99_gadgets (x y z : Expression p) (k : Elem p) (c d : BooleanExpression p)
    (X Y : BinaryExpression p) (terms : List (BinaryExpression p)) (xs : List (Expression p)) (n : ℕ)
    (less strict : Bool) :
    (Strict (B.wire : B p Wire) ∧ Strict (B.wires n : B p (List Wire)) ∧
      Strict (B.booleanWire : B p BooleanWire) ∧ Strict (B.binaryWire n : B p BinaryWire) ∧
      Strict (B.assertProduct x y z) ∧ Strict (B.assertBoolean x) ∧ Strict (B.assertEqual x y) ∧
      Strict (B.assertNonzero x) ∧ Strict (B.assertNonequal x y)) ∧
    (Strict (B.product x y) ∧ Strict (B.exponentiation x k) ∧ Strict (B.inverse x) ∧
      Strict (B.inverseOrZero x) ∧ Strict (B.quotient x y) ∧ Strict (B.quotientUnsafe x y) ∧
      Strict (B.nonzero x) ∧ Strict (B.zero x) ∧ Strict (B.equal x y) ∧
      Strict (B.selection c x y) ∧ Strict (B.and c d) ∧ Strict (B.or c d) ∧ Strict (B.xor c d)) ∧
    (Strict (B.splitBounded x n) ∧ Strict (B.splitAllowingAmbiguity x) ∧ Strict (B.split x) ∧
      Strict (B.cmp x y less strict) ∧ Strict (B.cmpBinary X Y less strict) ∧
      Strict (B.assertLt x y) ∧ Strict (B.assertLe x y) ∧ Strict (B.assertGt x y) ∧
      Strict (B.assertGe x y) ∧ Strict (B.modulus x y) ∧ Strict (B.divides x y)) ∧
    (Strict (B.binarySummation terms) ∧ Strict (B.binarySummationIgnoringOverflow terms) ∧
      Strict (B.binarySummationAssertingNoOverflow terms) ∧ Strict (B.binaryAssertZero X) ∧
      Strict (B.bitwiseNot X) ∧ Strict (B.bitwiseAnd X Y) ∧ Strict (B.bitwiseOr X Y) ∧
      Strict (B.bitwiseXor X Y) ∧ Strict (B.randomAccess xs x)) :=
  ⟨⟨.of .wire, .of (.wires n), .of .booleanWire, .of (.binaryWire n), .of (.assertProduct x y z),
      .of (.assertBoolean x), .of (.assertEqual x y), .of (.assertNonzero x),
      .of (.assertNonequal x y)⟩,
    ⟨.of (.product x y), .of (.exponentiation x k), .of (.inverse x), .of (.inverseOrZero x),
      .of (.quotient x y), .of (.quotientUnsafe x y), .of (.nonzero x), .of (.zero x),
      .of (.equal x y), .of (.selection c x y), .of (.and c d), .of (.or c d), .of (.xor c d)⟩,
    ⟨.of (.splitBounded x n), .of (.splitAllowingAmbiguity x), .of (.split x),
      .of (.cmp x y _ _), .of (.cmpBinary X Y _ _), .of (.assertLt x y), .of (.assertLe x y),
      .of (.assertGt x y), .of (.assertGe x y), .of (.modulus x y), .of (.divides x y)⟩,
    ⟨.of (.binarySummation _), .of (.binarySummationIgnoringOverflow _),
      .of (.binarySummationAssertingNoOverflow _), .of (.binaryAssertZero X), .of (.bitwiseNot X),
      .of (.bitwiseAnd X Y), .of (.bitwiseOr X Y), .of (.bitwiseXor X Y), .of (.randomAccess xs x)⟩⟩

/-- C99: so are permutations, ciphers, curve operations, and whatever the library builds from strict
implementations of its traits. -/
theorem C99_constructions {GE GX : Type} {G : CyclicGroupOps p GE GX} {h : MerkleDamgard p}
    {c : CompressionFunction p} {sp : Sponge p} {E : BlockCipher p}
    (ha : ∀ x y, Strict (G.addExpressions x y)) (hd : ∀ x, Strict (G.doubleExpression x))
    (hh : ∀ x y, Strict (h.compress.compress x y)) (hc : ∀ x y, Strict (c.compress x y))
    (hs : ∀ xs, Strict (sp.permutation.permute xs)) (hE : ∀ k x, Strict (E.encrypt k x))
    (f : MonomialPermutation p) (M : MiMC p) (P : Poseidon p) (R : Rescue p) (C : EdwardsCurve p)
    (x y : Expression p) (xs : List (Expression p)) (n : ℕ) (g : GX) (b : BooleanExpression p)
    (path : MerklePath p) (σ : SignatureExpression p) (S T : EdwardsExpression p) :
    (Strict (f.permute x) ∧ Strict (f.inverse x) ∧ Strict (M.encrypt x y) ∧
      Strict (M.decrypt x y) ∧ Strict (P.permute xs) ∧ Strict (R.permute xs)) ∧
    (Strict (EdwardsExpression.new C x y) ∧ Strict (EdwardsGroup.addExpressions C S T) ∧
      Strict (EdwardsGroup.doubleExpression C S)) ∧
    (Strict ((daviesMeyer E).compress x y) ∧ Strict ((miyaguchiPreneel E).compress x y) ∧
      Strict (h.hash xs) ∧ Strict (B.merkleTreeRoot x path c) ∧
      Strict (B.assertMerkleTreeMembership x y path c) ∧ Strict (sp.evaluate xs n) ∧
      Strict (G.mulBooleanExpression g b) ∧ Strict (G.mulScalarExpression g x) ∧
      Strict (schnorrVerify G c σ x g)) :=
  ⟨⟨.of (.monomial f x), .of (.root f x), .of (.encrypt M x y), .of (.decrypt M x y),
      .of (.poseidon P xs), .of (.rescue R xs)⟩,
    ⟨.of (.edwardsNew C x y), .of (.edwardsAdd C S T), .of (.edwardsDouble C S)⟩,
    ⟨.of (.bind (hE _ _) fun _ => .pure _), .of (.bind (hE _ _) fun _ => .pure _), .of (.hash hh xs),
      .of (.merkleTreeLoop hc _ _), .of (.bind (.merkleTreeLoop hc _ _) fun _ => .assertEqual _ _),
      .of (.sponge hs xs n), .of (.mulBoolean g b), .of (.mulScalar ha hd g x),
      .of (.schnorr ha hd hc σ x g)⟩⟩

/-- C99: strict parts make strict circuits, a strict circuit cannot be executed twice, and neither can
networks and sorts, nor circuits with such parts. -/
theorem C99_composition {α β : Type} {m : B p α} {f : α → B p β} (xs ys : List (Expression p)) :
    (Strict m → (∀ a, Strict (f a)) → Strict (m >>= f)) ∧
    (Once m → (∀ a, Once (f a)) → Once (m >>= f)) ∧ (Strict m → Once m) ∧
    Once (B.assertPermutation xs ys) ∧ Once (B.sortAscending xs) ∧ Once (B.sortDescending xs) := by
  refine ⟨fun h1 h2 => .of (.bind h1 h2), fun h1 h2 => .of (.bind h1 h2), fun h b a b' hb => ?_,
    .permutation _ _, .of (.sortAscending Once.permutation xs),
    .of (.sortDescending Once.permutation xs)⟩
  obtain ⟨gs, h1, h2⟩ := h b a b' hb
  refine ⟨gs, h1, ?_⟩
  by_cases hi : ∀ g ∈ gs, Idle g
  · exact .inl hi
  · push Not at hi
    obtain ⟨g, hg, hn⟩ := hi
    obtain ⟨outs, ho⟩ := h2 g hg
    rcases outs with _ | ⟨o, outs⟩
    · exact absurd ho.idle hn
    · exact .inr ⟨g, hg, o, ho.sets⟩

/-! ## Straight-line code -/

/-- The instruction is neither a permutation network nor a sort, and functions given by the user are
strict. -/
def Op.Strict : Op p → Prop
  | .assertPermutation _ => False
  | .sortAscending => False
  | .sortDescending => False
  | .function _ m _ _ _ _ => ∀ xs, R1CS.Strict (m xs)
  | .schnorrVerify _ _ h => ∀ x y, R1CS.Strict (h.code.compress x y)
  | .merkleRoot h => ∀ x y, R1CS.Strict (h.code.compress x y)
  | .assertMembership h => ∀ x y, R1CS.Strict (h.code.compress x y)
  | _ => True

/-- Functions given by the user calculate nothing or insist on a wire without a value. -/
def Op.Once : Op p → Prop
  | .function _ m _ _ _ _ => ∀ xs, R1CS.Once (m xs)
  | .schnorrVerify _ _ h => ∀ x y, R1CS.Once (h.code.compress x y)
  | .merkleRoot h => ∀ x y, R1CS.Once (h.code.compress x y)
  | .assertMembership h => ∀ x y, R1CS.Once (h.code.compress x y)
  | _ => True

theorem Op.Strict.given {o : Op p} (h : o.Strict) :
    Appends.Given (fun gs => ∀ g ∈ gs, ∃ outs, Exact g outs) o := by
  cases o
  all_goals first | exact h | exact trivial | exact absurd h id

theorem Op.Once.given {o : Op p} (h : o.Once) :
    Appends.Given (fun gs => (∀ g ∈ gs, Idle g) ∨ ∃ g ∈ gs, ∃ o, Sets g o) o := by
  cases o
  all_goals first | exact h | exact trivial | exact R1CS.Once.permutation

/-- C99: for straight-line code from strict instructions, which has a meaning for some inputs, the
wires calculated are exactly those after the inputs.  Every execution which returns, on whatever
values, was given none of them, gives a value to each, and changes nothing else. -/
theorem C99_language (h4 : 4 ≤ Elem.maxBits p) (c : Circuit p) (hc : ∀ i ∈ c, i.1.Strict)
    {xs : List (Elem p)} {ys : List (Val p)} (h : c.meaning xs = some ys) :
    ∃ os b, c.build xs.length Builder.new = some (os, b) ∧ xs.length < b.nextWireIndex ∧
      (b.build.execute (Circuit.inputs xs)).isSome ∧
      ∀ v v' ok, b.build.execute v = some (v', ok) →
        (∀ i, xs.length < i → i < b.nextWireIndex → v i = none ∧ (v' i).isSome) ∧
        ∀ i, i ≤ xs.length ∨ b.nextWireIndex ≤ i → v' i = v i := by
  obtain ⟨os, b, u', hb, e1, e2, e3, _⟩ := Circuit.executes h4 c xs h
  obtain ⟨G, hG⟩ := C99_static (.of (Appends.build (fun i hi => (hc i hi).given) _)) hb
  have hlen : xs.length < b.nextWireIndex := by
    have h1 := hb
    rw [Circuit.build_run] at h1
    have := (C23_appends (Circuit.tidy_runFrom (fun i _ => i.1.tidy h4) _).1 h1).1
    exact lt_of_lt_of_le (Nat.lt_add_of_pos_left Nat.one_pos) this
  have hin : ∀ i, (Circuit.inputs xs i).isSome ↔ i ≤ xs.length := by
    intro i
    unfold Circuit.inputs ONE
    by_cases hi : i = 0
    · simp [hi]
    · rw [if_neg hi, Option.isSome_iff_exists]
      constructor
      · rintro ⟨x, hx⟩
        obtain ⟨h, _⟩ := List.getElem?_eq_some_iff.1 hx
        omega
      · intro h
        exact ⟨_, List.getElem?_eq_getElem (show i - 1 < xs.length by omega)⟩
  obtain ⟨g1, g2⟩ := hG _ _ _ e1
  have hmem : ∀ i, i ∈ G ↔ xs.length < i ∧ i < b.nextWireIndex := by
    intro i
    constructor
    · intro hi
      obtain ⟨k1, k2⟩ := g1 i hi
      have k3 : ¬ i ≤ xs.length := by
        rw [← hin i, k1]
        simp
      refine ⟨by omega, ?_⟩
      by_contra hn
      rw [e3 i (by omega), k1] at k2
      exact absurd k2 (by simp)
    · rintro ⟨k1, k2⟩
      by_contra hn
      have := e2 i k2
      rw [g2 i hn, hin i] at this
      omega
  refine ⟨os, b, hb, hlen, by rw [e1]; rfl, fun v v' ok hex => ?_⟩
  obtain ⟨f1, f2⟩ := hG v v' ok hex
  exact ⟨fun i k1 k2 => f1 i ((hmem i).2 ⟨k1, k2⟩), fun i hi => f2 i fun hc => by
    have := (hmem i).1 hc
    omega⟩

/-- C99: straight-line code with networks and sorts as well: an execution which calculated anything
cannot be repeated on its result. -/
theorem C99_language_twice (h4 : 4 ≤ Elem.maxBits p) (c : Circuit p) (hc : ∀ i ∈ c, i.1.Once)
    {k : ℕ} {os : List (Obj p)} {b : Builder p} (hb : c.build k Builder.new = some (os, b))
    {v v' : WireValues p} {ok : Bool} (hex : b.build.execute v = some (v', ok)) :
    v' = v ∨ b.build.execute v' = none :=
  (C99_twice ((Tidy.wires _).bind fun _ => Circuit.tidy_runFrom (fun i _ => i.1.tidy h4) _).1
    (.of (Appends.build (fun i hi => (hc i hi).given) _)) hb hex).imp_right fun h => h v' fun _ h => h

/-! ## Networks are not strict -/

/-- The wires 1 to 3 are a permutation of the wires 4 to 6. -/
def network3 : B 11 Unit := do
  let _ ← B.wires 6
  B.assertPermutation [Expression.ofWire 1, Expression.ofWire 2, Expression.ofWire 3]
    [Expression.ofWire 4, Expression.ofWire 5, Expression.ofWire 6]

/-- The values 1, 2, 3 for both, and perhaps values for the first two switches. -/
def network3Values (switch : Option (Elem 11)) : WireValues 11 := fun i =>
  if i = ONE then some 1 else if i = 7 ∨ i = 9 then switch else [1, 2, 3, 1, 2, 3][i - 1]?

/-- C99 does not extend to permutation networks (src/verify_permutation.rs:172-175 and 230-234): the
generator skips switches which have a value.  Here two switches which it would set to 0 are set to 1
in advance, and `execute` accepts, with another routing. -/
theorem C99_preset_refuted : ∃ (b : Builder 11) (v v' u u' : WireValues 11),
    network3 Builder.new = some ((), b) ∧ b.build.execute v = some (v', true) ∧
    v 7 = none ∧ v' 7 = some 0 ∧ u 7 = some 1 ∧ (∀ i < 7, u i = v i) ∧
    b.build.execute u = some (u', true) ∧ ¬ Strict network3 := by
  have hb : (network3 Builder.new).isSome = true := by decide +kernel
  obtain ⟨⟨⟨⟩, b⟩, hb⟩ := Option.isSome_iff_exists.1 hb
  have hv : ((network3 Builder.new).bind fun r =>
      (r.2.build.execute (network3Values none)).map fun s => (s.1 7, s.2)) = some (some 0, true) := by
    decide +kernel
  have hu : ((network3 Builder.new).bind fun r =>
      (r.2.build.execute (network3Values (some 1))).map fun s => s.2) = some true := by
    decide +kernel
  rw [hb, Option.bind_some] at hv hu
  obtain ⟨⟨v', ok⟩, hv1, hv2⟩ := Option.map_eq_some_iff.1 hv
  obtain ⟨⟨u', ok'⟩, hu1, hu2⟩ := Option.map_eq_some_iff.1 hu
  obtain ⟨h7, rfl⟩ := Prod.ext_iff.1 hv2
  obtain rfl : ok' = true := hu2
  refine ⟨b, _, v', _, u', hb, hv1, rfl, h7, rfl, fun i hi => ?_, hu1, fun hs => ?_⟩
  · unfold network3Values
    rw [if_neg (show ¬ (i = 7 ∨ i = 9) by omega)]
    rw [if_neg (show ¬ (i = 7 ∨ i = 9) by omega)]
  · have := C99_preset hs hb hv1 (i := 7) rfl (by rw [show v' 7 = some 0 from h7]; rfl)
      (u := network3Values (some 1)) rfl
    rw [this] at hu1
    cases hu1

/-! ## Examples -/

/-- The circuit of `x * y`, executed on 3 and 5; given the product in advance, even the right one, it
panics; and so it does on its own result. -/
example : ∃ (a : Expression 11) (b : Builder 11) (v' : WireValues 11),
    (do let _ ← B.wires 2; B.product (Expression.ofWire 1) (Expression.ofWire 2) : B 11 _)
      Builder.new = some (a, b) ∧ b.build.execute (Circuit.inputs [3, 5]) = some (v', true) ∧
    v' 3 = some 4 ∧ b.build.execute (Circuit.inputs [3, 5, 4]) = none ∧
    b.build.execute v' = none ∧ Gadget.execute ⟨b.constraints, []⟩ v' = some (v', true) := by
  let m : B 11 (Expression 11) :=
    do let _ ← B.wires 2; B.product (Expression.ofWire 1) (Expression.ofWire 2)
  have hm : Strict m := C99_composition [] [] |>.1 (.of (.wires 2)) fun _ => .of (.product _ _)
  have hP : Prog m := (Tidy.bind (.wires 2) fun _ => .product _ _).1
  have hb : (m Builder.new).isSome = true := by decide +kernel
  obtain ⟨⟨a, b⟩, hb⟩ := Option.isSome_iff_exists.1 hb
  have hv : ((m Builder.new).bind fun r =>
      (r.2.build.execute (Circuit.inputs [3, 5])).map fun s => (s.1 3, s.2)) = some (some 4, true) := by
    decide +kernel
  rw [hb, Option.bind_some] at hv
  obtain ⟨⟨v', ok⟩, hv1, hv2⟩ := Option.map_eq_some_iff.1 hv
  obtain ⟨h3, rfl⟩ := Prod.ext_iff.1 hv2
  have h3 : v' 3 = some 4 := h3
  refine ⟨a, b, v', hb, hv1, h3, ?_, ?_, C99_check hv1⟩
  · exact C99_preset hm hb hv1 (i := 3) rfl (by rw [h3]; rfl) rfl
  · rcases C99_twice hP (C99_composition (f := fun a => (pure a : B 11 _)) [] [] |>.2.2.1 hm) hb hv1
      with h | h
    · rw [h] at h3
      cases h3
    · exact h v' fun _ h => h

/-- `code` and `digitsCode` consist of strict instructions. -/
example : (∀ i ∈ code, i.1.Strict) ∧ ∀ i ∈ digitsCode, i.1.Strict := by
  constructor
  · intro i hi
    simp only [code, List.mem_cons, List.not_mem_nil, or_false] at hi
    rcases hi with rfl | rfl | rfl | rfl <;> trivial
  · intro i hi
    simp only [digitsCode, List.mem_cons, List.not_mem_nil, or_false] at hi
    rcases hi with rfl | rfl | rfl | rfl | rfl <;> trivial

/-- A generator which sets a wire only if it has no value is not exact. -/
example : ¬ ∃ outs, Exact (p := 11)
    ⟨[], fun v => if v.contains 1 then some v else v.set 1 7⟩ outs := by
  rintro ⟨outs, h⟩
  have h1 := h (fun _ => none) (WireValues.insert (fun _ => none) 1 7) rfl
  have h2 := h (fun i => if i = 1 then some 7 else none) (fun i => if i = 1 then some 7 else none) rfl
  by_cases hm : 1 ∈ outs
  · exact absurd (h2.1 1 hm).1 (by simp)
  · exact absurd (h1.2 1 hm) (by simp [WireValues.insert])

end R1CS
