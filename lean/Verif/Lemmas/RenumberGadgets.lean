import Verif.Lemmas.RenumberGens

/-!
# Gadgets under new numbers for the wires (`Spec/Renumber.lean`)
-/

set_option linter.unusedSectionVars false

namespace R1CS

variable {p : ℕ} [hp : Fact p.Prime] {α β γ δ : Type} {r : Renumbering}

@[simp] theorem renumber_mkBool (e : Expression p) :
    BooleanExpression.renumber r ⟨e⟩ = ⟨e.renumber r⟩ := rfl

@[simp] theorem renumber_mkBin (l : List (BooleanExpression p)) :
    BinaryExpression.renumber r ⟨l⟩ = ⟨l.map (BooleanExpression.renumber r)⟩ := rfl

/-- Renumbered operands give renumbered results. -/
macro "rn" : tactic => `(tactic| first | assumption | simp)

namespace Alike

theorem pure {f : α → β} {a : α} {a' : β} (h : a' = f a := by rn) :
    Alike (p := p) r f (pure a) (pure a') := by
  subst h
  intro b b'
  refine ⟨fun h => absurd h (by simp [Pure.pure, StateT.pure]), fun a1 c h => ?_⟩
  obtain ⟨rfl, rfl⟩ := Prod.ext_iff.1 (Option.some.inj h)
  exact ⟨le_rfl, fun _ => ⟨b', rfl, rfl, [], [], [], by simp, by simp, by simp, by simp, .nil⟩⟩

theorem bind {f : α → β} {g : γ → δ} {m : B p α} {m' : B p β} {k : α → B p γ} {k' : β → B p δ}
    (hm : Alike r f m m') (hk : ∀ a, Alike r g (k a) (k' (f a))) :
    Alike r g (m >>= k) (m' >>= k') := by
  intro b b'
  obtain ⟨h1, h2⟩ := hm b b'
  refine ⟨fun h hb => ?_, fun z d h => ?_⟩
  · rcases hmb : m b with _ | ⟨a, c⟩
    · show (m' b').bind _ = none
      rw [h1 hmb hb]
      rfl
    · obtain ⟨h4, h5⟩ := h2 a c hmb
      obtain ⟨c', e1, e2, _⟩ := h5 fun j _ => hb j
      have h3 : k a c = none := by
        have : (m b).bind (fun x => k x.1 x.2) = none := h
        rwa [hmb] at this
      show (m' b').bind (fun x => k' x.1 x.2) = none
      rw [e1]
      refine (hk a c c').1 h3 fun j => ?_
      have := hb (c.nextWireIndex - b.nextWireIndex + j)
      rw [show b.nextWireIndex + (c.nextWireIndex - b.nextWireIndex + j) = c.nextWireIndex + j by
        omega] at this
      omega
  · obtain ⟨a, c, e, h3⟩ := B.bind_run h
    obtain ⟨h4, h5⟩ := h2 a c e
    have h6 : c.nextWireIndex ≤ d.nextWireIndex := ((hk a c b').2 z d h3).1
    refine ⟨h4.trans h6, fun hb => ?_⟩
    obtain ⟨c', e1, e2, cs, gs, gs', i1, i2, i3, i4, i5⟩ := h5 fun j hj => hb j (by omega)
    obtain ⟨d', j1, j2, ds, hs, hs', k1, k2, k3, k4, k5⟩ := ((hk a c c').2 z d h3).2 fun j hj => by
      have := hb (c.nextWireIndex - b.nextWireIndex + j) (by omega)
      rw [show b.nextWireIndex + (c.nextWireIndex - b.nextWireIndex + j) = c.nextWireIndex + j by
        omega] at this
      omega
    refine ⟨d', ?_, by omega, cs ++ ds, gs ++ hs, gs' ++ hs', ?_, ?_, ?_, ?_, ?_⟩
    · show (m' b').bind (fun x => k' x.1 x.2) = _
      rw [e1]
      exact j1
    · rw [k1, i1, List.append_assoc]
    · rw [k2, i2, List.append_assoc, List.map_append]
    · rw [k3, i3, List.append_assoc]
    · rw [k4, i4, List.append_assoc]
    · exact List.rel_append i5 k5

theorem panic {f : α → β} : Alike (p := p) r f B.panic B.panic :=
  fun _ _ => ⟨fun _ _ => rfl, fun _ _ h => absurd h (by simp [B.panic])⟩

theorem ofOption {f : α → β} {o : Option α} {o' : Option β} (h : o' = o.map f := by rn) :
    Alike (p := p) r f (B.ofOption o) (B.ofOption o') := by
  subst h
  rcases o with _ | a
  · exact panic
  · exact pure (f := f) rfl

theorem require {c c' : Prop} [Decidable c] [Decidable c'] (h : c' ↔ c := by rn) :
    Alike (p := p) r id (B.require c) (B.require c') := by
  unfold B.require
  by_cases hc : c
  · rw [if_pos hc, if_pos (h.2 hc)]
    exact pure
  · rw [if_neg hc, if_neg fun h' => hc (h.1 h')]
    exact panic

theorem ite {c : Prop} [Decidable c] {f : α → β} {m k : B p α} {m' k' : B p β}
    (hm : Alike r f m m') (hk : Alike r f k k') :
    Alike r f (if c then m else k) (if c then m' else k') := by
  split
  · exact hm
  · exact hk

theorem wire : Alike r r (B.wire : B p Wire) B.wire := by
  intro b b'
  refine ⟨fun h => absurd h (by simp [B.wire]), fun a c h => ?_⟩
  obtain ⟨rfl, rfl⟩ := Prod.ext_iff.1 (Option.some.inj h)
  refine ⟨Nat.le_succ _, fun hb => ⟨{ b' with nextWireIndex := b'.nextWireIndex + 1 }, ?_, ?_, [], [],
    [], by simp, by simp, by simp, by simp, .nil⟩⟩
  · have := hb 0 (by simp)
    simp only [Nat.add_zero] at this
    simp [B.wire, this]
  · show b'.nextWireIndex + 1 + b.nextWireIndex = b'.nextWireIndex + (b.nextWireIndex + 1)
    omega

theorem assertProduct {x y z x' y' z' : Expression p} (hx : x' = x.renumber r := by rn)
    (hy : y' = y.renumber r := by rn) (hz : z' = z.renumber r := by rn) :
    Alike r id (B.assertProduct x y z) (B.assertProduct x' y' z') := by
  subst hx hy hz
  intro b b'
  refine ⟨fun h => absurd h (by simp [B.assertProduct]), fun a c h => ?_⟩
  obtain ⟨_, rfl⟩ := Prod.ext_iff.1 (Option.some.inj h)
  exact ⟨le_rfl, fun _ => ⟨_, rfl, rfl, [⟨x, y, z⟩], [], [], by simp, by simp [Constraint.renumber],
    by simp, by simp, .nil⟩⟩

theorem generator {d d' : List Wire} {f f' : WireValues p → Option (WireValues p)}
    (hf : Cl r f f') (hd : d' = d.map r := by rn) :
    Alike r id (B.generator d f) (B.generator d' f') := by
  subst hd
  intro b b'
  refine ⟨fun h => absurd h (by simp [B.generator]), fun a c h => ?_⟩
  obtain ⟨_, rfl⟩ := Prod.ext_iff.1 (Option.some.inj h)
  exact ⟨le_rfl, fun _ => ⟨_, rfl, rfl, [], [⟨d, f⟩], [⟨d.map r, f'⟩], by simp, by simp, by simp,
    by simp, .cons ⟨rfl, hf⟩ .nil⟩⟩

theorem wires : ∀ k : ℕ, Alike r (List.map r) (B.wires k : B p (List Wire)) (B.wires k)
  | 0 => pure
  | k + 1 => bind wire fun _ => bind (wires k) fun _ => pure

variable {x y z x' y' z' : Expression p} {c d c' d' : BooleanExpression p}
  {X Y X' Y' : BinaryExpression p} {xs ys xs' ys' : List (Expression p)}

theorem assertBoolean (hx : x' = x.renumber r := by rn) :
    Alike r (BooleanExpression.renumber r) (B.assertBoolean x) (B.assertBoolean x') := by
  subst hx
  exact bind assertProduct fun _ => pure

theorem assertEqual (hx : x' = x.renumber r := by rn) (hy : y' = y.renumber r := by rn) :
    Alike r id (B.assertEqual x y) (B.assertEqual x' y') := assertProduct

theorem assertZero (hx : x' = x.renumber r := by rn) :
    Alike r id (B.assertZero x) (B.assertZero x') := assertProduct

theorem assertTrue (hx : c' = c.renumber r := by rn) :
    Alike r id (B.assertTrue c) (B.assertTrue c') := by
  subst hx
  exact assertProduct

theorem assertFalse (hx : c' = c.renumber r := by rn) :
    Alike r id (B.assertFalse c) (B.assertFalse c') := by
  subst hx
  exact assertProduct

theorem booleanWire : Alike r (BooleanWire.renumber r) (B.booleanWire : B p BooleanWire)
    B.booleanWire :=
  bind wire fun _ => bind assertBoolean fun _ => pure

theorem booleanWires : ∀ k : ℕ, Alike r (List.map (BooleanWire.renumber r))
    (B.booleanWires k : B p (List BooleanWire)) (B.booleanWires k)
  | 0 => pure
  | k + 1 => bind booleanWire fun _ => bind (booleanWires k) fun _ => pure

theorem binaryWire (k : ℕ) : Alike r (BinaryWire.renumber r) (B.binaryWire k : B p BinaryWire)
    (B.binaryWire k) :=
  bind (booleanWires k) fun _ => pure

theorem nonzero (hx : x' = x.renumber r := by rn) :
    Alike r (BooleanExpression.renumber r) (B.nonzero x) (B.nonzero x') := by
  subst hx
  exact bind wire fun _ => bind wire fun _ => bind assertProduct fun _ => bind assertProduct fun _ =>
    bind (generator (Cl.nonzeroGen _ _ _)) fun _ => pure

theorem not (hx : c' = c.renumber r := by rn) :
    Alike r (BooleanExpression.renumber r) (B.not c) (B.not c') := by
  subst hx
  exact pure

theorem zero (hx : x' = x.renumber r := by rn) :
    Alike r (BooleanExpression.renumber r) (B.zero x) (B.zero x') :=
  bind nonzero fun _ => not

theorem equal (hx : x' = x.renumber r := by rn) (hy : y' = y.renumber r := by rn) :
    Alike r (BooleanExpression.renumber r) (B.equal x y) (B.equal x' y') := by
  subst hx hy
  exact zero

theorem product (hx : x' = x.renumber r := by rn) (hy : y' = y.renumber r := by rn) :
    Alike r (Expression.renumber r) (B.product x y) (B.product x' y') := by
  subst hx hy
  unfold B.product
  rw [renumber_asConstant, renumber_asConstant]
  split
  · exact pure
  · split
    · exact pure
    · exact bind wire fun _ => bind assertProduct fun _ =>
        bind (generator (Cl.productGen _ _ _)) fun _ => pure

theorem selection (hc : c' = c.renumber r := by rn) (hx : x' = x.renumber r := by rn)
    (hy : y' = y.renumber r := by rn) :
    Alike r (Expression.renumber r) (B.selection c x y) (B.selection c' x' y') := by
  subst hc hx hy
  exact bind product fun _ => pure

theorem expLoop (x : Expression p) (k : Elem p) : ∀ (n i : ℕ) (e f : Expression p),
    Alike r (Expression.renumber r) (B.expLoop x k i n e f)
      (B.expLoop (x.renumber r) k i n (e.renumber r) (f.renumber r))
  | 0, _, _, _ => pure
  | n + 1, i, _, _ =>
    bind (ite pure product) fun _ => bind (ite product pure) fun _ => expLoop x k n (i + 1) _ _

theorem exponentiation (k : Elem p) (hx : x' = x.renumber r := by rn) :
    Alike r (Expression.renumber r) (B.exponentiation x k) (B.exponentiation x' k) := by
  subst hx
  have := expLoop (r := r) x k k.bits 0 1 0
  rwa [renumber_one, renumber_zero] at this

theorem inverse (hx : x' = x.renumber r := by rn) :
    Alike r (Expression.renumber r) (B.inverse x) (B.inverse x') := by
  subst hx
  exact bind wire fun _ => bind assertProduct fun _ => bind (generator (Cl.inverseGen _ _)) fun _ => pure

theorem assertNonzero (hx : x' = x.renumber r := by rn) :
    Alike r id (B.assertNonzero x) (B.assertNonzero x') :=
  bind inverse fun _ => pure

theorem assertNonequal (hx : x' = x.renumber r := by rn) (hy : y' = y.renumber r := by rn) :
    Alike r id (B.assertNonequal x y) (B.assertNonequal x' y') := by
  subst hx hy
  exact assertNonzero

theorem inverseOrZero (hx : x' = x.renumber r := by rn) :
    Alike r (Expression.renumber r) (B.inverseOrZero x) (B.inverseOrZero x') := by
  subst hx
  exact bind wire fun _ => bind nonzero fun _ => bind assertProduct fun _ =>
    bind (generator (Cl.inverseOrZeroGen _ _)) fun _ => pure

theorem quotient (hx : x' = x.renumber r := by rn) (hy : y' = y.renumber r := by rn) :
    Alike r (Expression.renumber r) (B.quotient x y) (B.quotient x' y') :=
  bind inverse fun _ => product

theorem quotientUnsafe (hx : x' = x.renumber r := by rn) (hy : y' = y.renumber r := by rn) :
    Alike r (Expression.renumber r) (B.quotientUnsafe x y) (B.quotientUnsafe x' y') := by
  subst hx hy
  exact bind wire fun _ => bind (generator (Cl.quotientUnsafeGen _ _ _)) fun _ => pure

theorem and (hc : c' = c.renumber r := by rn) (hd : d' = d.renumber r := by rn) :
    Alike r (BooleanExpression.renumber r) (B.and c d) (B.and c' d') := by
  subst hc hd
  exact bind product fun _ => pure

theorem or (hc : c' = c.renumber r := by rn) (hd : d' = d.renumber r := by rn) :
    Alike r (BooleanExpression.renumber r) (B.or c d) (B.or c' d') := by
  subst hc hd
  exact bind product fun _ => pure

theorem xor (hc : c' = c.renumber r := by rn) (hd : d' = d.renumber r := by rn) :
    Alike r (BooleanExpression.renumber r) (B.xor c d) (B.xor c' d') := by
  subst hc hd
  exact bind product fun _ => bind (ofOption (f := Expression.renumber r)) fun _ => pure

/-! ### Splitting and comparison -/

theorem splitWithoutRangeCheck (k : ℕ) (hx : x' = x.renumber r := by rn) :
    Alike r (BinaryExpression.renumber r) (B.splitWithoutRangeCheck x k)
      (B.splitWithoutRangeCheck x' k) := by
  subst hx
  refine bind (binaryWire k) fun w => bind (ofOption (f := Expression.renumber r) ?_) fun _ =>
    bind assertEqual fun _ => bind (generator (Cl.splitGen _ _ _)) fun _ => pure
  rw [← renumber_joinAllowingOverflow, renumber_binaryOfWire]

theorem splitAllowingAmbiguity (hx : x' = x.renumber r := by rn) :
    Alike r (BinaryExpression.renumber r) (B.splitAllowingAmbiguity x)
      (B.splitAllowingAmbiguity x') :=
  splitWithoutRangeCheck _

theorem splitBounded (k : ℕ) (hx : x' = x.renumber r := by rn) :
    Alike r (BinaryExpression.renumber r) (B.splitBounded x k) (B.splitBounded x' k) :=
  bind require fun _ => splitWithoutRangeCheck _

theorem cmpSubtractive (l s : Bool) (k : ℕ) (hx : x' = x.renumber r := by rn) :
    Alike r (BooleanExpression.renumber r) (B.cmpSubtractive x l s k)
      (B.cmpSubtractive x' l s k) := by
  subst hx
  refine bind (ofOption (f := id)) fun pow => bind (splitBounded (k + 1) ?_) fun _ => ofOption
  cases l <;> simp

theorem assertBooleans : ∀ l : List Wire, Alike r id (B.assertBooleans l : B p Unit)
    (B.assertBooleans (l.map r))
  | [] => pure
  | _ :: ms => bind assertBoolean fun _ => assertBooleans ms

theorem maskedSum : ∀ (l : List (Wire × Expression p × Expression p)) (e : Expression p),
    Alike r (Expression.renumber r) (B.maskedSum l e)
      (B.maskedSum (l.map (Cl.chunk r)) (e.renumber r))
  | [], _ => pure
  | (_, _, _) :: l, e => bind product fun t => by
    have := maskedSum l (e + t)
    rwa [renumber_add] at this

theorem assertMoreSignificantEqual : ∀ (l : List (Wire × Expression p × Expression p))
    (e : Expression p), Alike r id (B.assertMoreSignificantEqual l e)
      (B.assertMoreSignificantEqual (l.map (Cl.chunk r)) (e.renumber r))
  | [], _ => pure
  | (m, _, _) :: l, e => bind assertProduct fun _ => by
    have := assertMoreSignificantEqual l (e + Expression.ofWire m)
    rwa [renumber_add, renumber_ofWire] at this

theorem cmpTail (zipped : List (Wire × Expression p × Expression p)) (d : BooleanExpression p)
    (l s : Bool) (n : ℕ) : Alike r (BooleanExpression.renumber r) (B.cmpTail zipped d l s n)
      (B.cmpTail (zipped.map (Cl.chunk r)) (d.renumber r) l s n) := by
  have h0 := maskedSum (r := r) zipped 0
  rw [renumber_zero] at h0
  refine bind h0 fun e => ?_
  rcases zipped with _ | ⟨⟨m0, q⟩, rest⟩
  · exact panic
  · have h1 := assertMoreSignificantEqual (r := r) rest (Expression.ofWire m0)
    rw [renumber_ofWire] at h1
    exact bind h1 fun _ => bind (ite pure (bind selection fun _ => assertNonzero)) fun _ =>
      cmpSubtractive _ _ _

theorem cmpBinary (l s : Bool) (hX : X' = X.renumber r := by rn)
    (hY : Y' = Y.renumber r := by rn) :
    Alike r (BooleanExpression.renumber r) (B.cmpBinary X Y l s) (B.cmpBinary X' Y' l s) := by
  subst hX hY
  have hj : ∀ cs : List (BinaryExpression p),
      List.mapM (m := Option) BinaryExpression.join (cs.map (BinaryExpression.renumber r)) =
        (List.mapM (m := Option) BinaryExpression.join cs).map (List.map (Expression.renumber r)) :=
    mapM_renumber fun x => renumber_join x
  refine bind require fun _ => bind (f := List.map (BinaryExpression.renumber r)) (ofOption (by simp)) fun xc =>
    bind (ofOption (hj xc)) fun xs =>
    bind (f := List.map (BinaryExpression.renumber r)) (ofOption (by simp)) fun yc =>
    bind (ofOption (hj yc)) fun ys => ?_
  rw [List.length_map]
  refine bind (wires _) fun mask => bind (assertBooleans _) fun _ => bind assertBoolean fun d => ?_
  have hz : (mask.map r).zip ((xs.map (Expression.renumber r)).zip (ys.map (Expression.renumber r))) =
      (mask.zip (xs.zip ys)).map (Cl.chunk r) := by
    rw [List.zip_map, List.zip_map]
    rfl
  rw [hz, renumber_len]
  refine bind (generator ?_) fun _ => cmpTail _ _ _ _ _
  rw [← List.map_reverse]
  exact Cl.maskGen _ _

theorem assertLtBinary (hX : X' = X.renumber r := by rn) (hY : Y' = Y.renumber r := by rn) :
    Alike r id (B.assertLtBinary X Y) (B.assertLtBinary X' Y') :=
  bind (cmpBinary _ _) fun _ => assertTrue

theorem assertLeBinary (hX : X' = X.renumber r := by rn) (hY : Y' = Y.renumber r := by rn) :
    Alike r id (B.assertLeBinary X Y) (B.assertLeBinary X' Y') :=
  bind (cmpBinary _ _) fun _ => assertTrue

theorem assertGtBinary (hX : X' = X.renumber r := by rn) (hY : Y' = Y.renumber r := by rn) :
    Alike r id (B.assertGtBinary X Y) (B.assertGtBinary X' Y') :=
  bind (cmpBinary _ _) fun _ => assertTrue

theorem assertGeBinary (hX : X' = X.renumber r := by rn) (hY : Y' = Y.renumber r := by rn) :
    Alike r id (B.assertGeBinary X Y) (B.assertGeBinary X' Y') :=
  bind (cmpBinary _ _) fun _ => assertTrue

theorem split (hx : x' = x.renumber r := by rn) :
    Alike r (BinaryExpression.renumber r) (B.split x) (B.split x') :=
  bind (splitWithoutRangeCheck _) fun _ => bind assertLtBinary fun _ => pure

theorem cmp (l s : Bool) (hx : x' = x.renumber r := by rn) (hy : y' = y.renumber r := by rn) :
    Alike r (BooleanExpression.renumber r) (B.cmp x y l s) (B.cmp x' y' l s) :=
  ite (bind splitAllowingAmbiguity fun _ => bind split fun _ => cmpBinary _ _)
    (bind split fun _ => bind splitAllowingAmbiguity fun _ => cmpBinary _ _)

theorem assertLt (hx : x' = x.renumber r := by rn) (hy : y' = y.renumber r := by rn) :
    Alike r id (B.assertLt x y) (B.assertLt x' y') := bind (cmp _ _) fun _ => assertTrue

theorem assertLe (hx : x' = x.renumber r := by rn) (hy : y' = y.renumber r := by rn) :
    Alike r id (B.assertLe x y) (B.assertLe x' y') := bind (cmp _ _) fun _ => assertTrue

theorem assertGt (hx : x' = x.renumber r := by rn) (hy : y' = y.renumber r := by rn) :
    Alike r id (B.assertGt x y) (B.assertGt x' y') := bind (cmp _ _) fun _ => assertTrue

theorem assertGe (hx : x' = x.renumber r := by rn) (hy : y' = y.renumber r := by rn) :
    Alike r id (B.assertGe x y) (B.assertGe x' y') := bind (cmp _ _) fun _ => assertTrue

theorem modulus (hx : x' = x.renumber r := by rn) (hy : y' = y.renumber r := by rn) :
    Alike r (Expression.renumber r) (B.modulus x y) (B.modulus x' y') := by
  subst hx hy
  exact bind wire fun _ => bind wire fun _ => bind assertProduct fun _ => bind assertLt fun _ =>
    bind (generator (Cl.modulusGen _ _ _ _)) fun _ => pure

theorem divides (hx : x' = x.renumber r := by rn) (hy : y' = y.renumber r := by rn) :
    Alike r (BooleanExpression.renumber r) (B.divides x y) (B.divides x' y') :=
  bind modulus fun _ => zero

end Alike

end R1CS
