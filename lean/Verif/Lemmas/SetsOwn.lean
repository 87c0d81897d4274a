import Verif.Spec.SetsOwn
import Verif.Lemmas.PassesMore

/-!
# Gadgets give values to their own wires (`Spec/SetsOwn.lean`)
-/

set_option linter.unusedSectionVars false

namespace R1CS

variable {p : ℕ} [hp : Fact p.Prime] {α β : Type}

/-- Code which begins when the wires `D` are still to be set, and after which the wires `O a` are: every wire of
`D` and every new one is set by a generator which the code adds, or is in `O a`. -/
def Owes (D : List Wire) (m : B p α) (O : α → List Wire) : Prop :=
  ∀ b a b', m b = some (a, b') → ∃ gs, b'.witnessGenerators = b.witnessGenerators ++ gs ∧
    ∀ i, (i ∈ D ∨ b.nextWireIndex ≤ i ∧ i < b'.nextWireIndex) →
      (∃ g ∈ gs, ∀ v v', g.generate v = some v' → (v' i).isSome) ∨ i ∈ O a

theorem SetsOwn.of {m : B p α} (h : Owes [] m fun _ => []) : SetsOwn m := fun b a b' hb => by
  obtain ⟨gs, h1, h2⟩ := h b a b' hb
  exact ⟨gs, h1, fun i h3 h4 => (h2 i (.inr ⟨h3, h4⟩)).resolve_right (by simp)⟩

namespace Owes

variable {D : List Wire}

theorem keep {m : B p α} (h : SetsOwn m) : Owes D m fun _ => D := fun b a b' hb => by
  obtain ⟨gs, h1, h2⟩ := h b a b' hb
  exact ⟨gs, h1, fun i hi => hi.elim .inr fun h => .inl (h2 i h.1 h.2)⟩

/-- Two pieces of code, using also what is known about the result of the first. -/
theorem bindW {m : B p α} {f : α → B p β} {O : α → List Wire} {O' : β → List Wire} {P : α → Prop}
    (hm : Owes D m O) (hP : Silent m P) (hf : ∀ a, P a → Owes (O a) (f a) O') : Owes D (m >>= f) O' := by
  intro b z b' h
  obtain ⟨a, b1, h1, h2⟩ := B.bind_run h
  obtain ⟨gs1, g1, c1⟩ := hm b a b1 h1
  obtain ⟨gs2, g2, c2⟩ := hf a (hP b a b1 h1).2 b1 z b' h2
  refine ⟨gs1 ++ gs2, by rw [g2, g1, List.append_assoc], fun i hi => ?_⟩
  have key : (i ∈ D ∨ b.nextWireIndex ≤ i ∧ i < b1.nextWireIndex) ∨
      b1.nextWireIndex ≤ i ∧ i < b'.nextWireIndex := by
    rcases hi with hi | hi
    · exact .inl (.inl hi)
    · by_cases h : i < b1.nextWireIndex
      · exact .inl (.inr ⟨hi.1, h⟩)
      · exact .inr ⟨by omega, hi.2⟩
  rcases key with hi | hi
  · rcases c1 i hi with ⟨g, hg, c⟩ | hi
    · exact .inl ⟨g, by simp [hg], c⟩
    · rcases c2 i (.inl hi) with ⟨g, hg, c⟩ | hi
      · exact .inl ⟨g, by simp [hg], c⟩
      · exact .inr hi
  · rcases c2 i (.inr hi) with ⟨g, hg, c⟩ | hi
    · exact .inl ⟨g, by simp [hg], c⟩
    · exact .inr hi

theorem bind {m : B p α} {f : α → B p β} {O : α → List Wire} {O' : β → List Wire} (hm : Owes D m O)
    (hf : ∀ a, Owes (O a) (f a) O') : Owes D (m >>= f) O' := by
  intro b z b' h
  obtain ⟨a, b1, h1, h2⟩ := B.bind_run h
  obtain ⟨gs1, g1, c1⟩ := hm b a b1 h1
  obtain ⟨gs2, g2, c2⟩ := hf a b1 z b' h2
  refine ⟨gs1 ++ gs2, by rw [g2, g1, List.append_assoc], fun i hi => ?_⟩
  have key : (i ∈ D ∨ b.nextWireIndex ≤ i ∧ i < b1.nextWireIndex) ∨
      b1.nextWireIndex ≤ i ∧ i < b'.nextWireIndex := by
    rcases hi with hi | hi
    · exact .inl (.inl hi)
    · by_cases h : i < b1.nextWireIndex
      · exact .inl (.inr ⟨hi.1, h⟩)
      · exact .inr ⟨by omega, hi.2⟩
  rcases key with hi | hi
  · rcases c1 i hi with ⟨g, hg, c⟩ | hi
    · exact .inl ⟨g, by simp [hg], c⟩
    · rcases c2 i (.inl hi) with ⟨g, hg, c⟩ | hi
      · exact .inl ⟨g, by simp [hg], c⟩
      · exact .inr hi
  · rcases c2 i (.inr hi) with ⟨g, hg, c⟩ | hi
    · exact .inl ⟨g, by simp [hg], c⟩
    · exact .inr hi

theorem pure' {a : α} {O : α → List Wire} (h : ∀ i ∈ D, i ∈ O a) : Owes D (Pure.pure a : B p α) O := by
  intro b a' b' hb
  obtain ⟨rfl, rfl⟩ := Prod.ext_iff.1 (Option.some.inj hb)
  refine ⟨[], by simp, fun i hi => .inr (h i ?_)⟩
  rcases hi with hi | hi
  · exact hi
  · exact absurd hi (by show ¬ (b.nextWireIndex ≤ i ∧ i < b.nextWireIndex); omega)

theorem pure {O : α → List Wire} (a : α) : Owes (O a) (Pure.pure a : B p α) O := pure' fun _ h => h

theorem panic {O : α → List Wire} : Owes D (B.panic : B p α) O := fun _ _ _ h => absurd h (by simp [B.panic])

theorem wire : Owes D (B.wire : B p Wire) fun w => w :: D := by
  intro b a b' hb
  obtain ⟨rfl, rfl⟩ := Prod.ext_iff.1 (Option.some.inj hb)
  refine ⟨[], by simp, fun i hi => .inr ?_⟩
  rcases hi with hi | ⟨h1, h2⟩
  · exact List.mem_cons_of_mem _ hi
  · have h2 : i < b.nextWireIndex + 1 := h2
    exact List.mem_cons.2 (.inl (by omega))

theorem assertProduct (x y z : Expression p) : Owes D (B.assertProduct x y z) fun _ => D := by
  intro b a b' hb
  obtain ⟨_, rfl⟩ := Prod.ext_iff.1 (Option.some.inj hb)
  refine ⟨[], by simp, fun i hi => .inr ?_⟩
  rcases hi with hi | ⟨h1, h2⟩
  · exact hi
  · have h2 : i < b.nextWireIndex := h2
    omega

theorem gen {d outs : List Wire} {f : WireValues p → Option (WireValues p)} (hf : Fills outs f)
    (hD : ∀ i ∈ D, i ∈ outs) : Owes D (B.generator d f) fun _ => [] := by
  intro b a b' hb
  obtain ⟨_, rfl⟩ := Prod.ext_iff.1 (Option.some.inj hb)
  refine ⟨[⟨d, f⟩], rfl, fun i hi => .inl ⟨_, List.mem_singleton_self _, fun v v' h => hf v v' h i (hD i ?_)⟩⟩
  rcases hi with hi | ⟨h1, h2⟩
  · exact hi
  · have h2 : i < b.nextWireIndex := h2
    omega

theorem wires : ∀ (k : ℕ) {D : List Wire}, Owes D (B.wires k : B p (List Wire)) fun ws => ws ++ D
  | 0, _ => pure' fun _ h => h
  | k + 1, _ => bind wire fun _ => bind (wires k) fun _ => pure' fun i hi => by simp only [List.map_cons, List.cons_append, List.mem_append, List.mem_cons] at hi ⊢; tauto

theorem booleanWire : Owes D (B.booleanWire : B p BooleanWire) fun w => w.wire :: D :=
  bind wire fun _ => bind (O := fun _ => _) (bind (assertProduct _ _ _) fun _ => pure (O := fun _ => _) _)
    fun _ => pure' fun _ h => h

theorem booleanWires : ∀ (k : ℕ) {D : List Wire},
    Owes D (B.booleanWires k : B p (List BooleanWire)) fun ws => ws.map (·.wire) ++ D
  | 0, _ => pure' fun _ h => h
  | k + 1, _ => bind booleanWire fun _ => bind (booleanWires k) fun _ => pure' fun i hi => by
    simp only [List.map_cons, List.cons_append, List.mem_append, List.mem_cons] at hi ⊢; tauto

theorem binaryWire (k : ℕ) : Owes D (B.binaryWire k : B p BinaryWire) fun w => w.bits.map (·.wire) ++ D :=
  bind (booleanWires k) fun _ => pure' fun _ h => h

end Owes

namespace SetsOwn

theorem owes {m : B p α} (h : SetsOwn m) : Owes [] m fun _ => [] := .keep h

theorem pure (a : α) : SetsOwn (Pure.pure a : B p α) := .of (.pure' (by simp))

theorem bind {m : B p α} {f : α → B p β} (hm : SetsOwn m) (hf : ∀ a, SetsOwn (f a)) : SetsOwn (m >>= f) :=
  .of (.bind hm.owes fun a => (hf a).owes)

theorem panic : SetsOwn (B.panic : B p α) := .of .panic

theorem ofOption (o : Option α) : SetsOwn (B.ofOption o : B p α) := by
  rcases o with _ | a
  · exact (panic : SetsOwn (B.panic : B p α))
  · exact pure a

theorem require (c : Prop) [Decidable c] : SetsOwn (B.require c : B p Unit) := by
  unfold B.require
  split
  · exact pure _
  · exact panic

theorem ite {c : Prop} [Decidable c] {m k : B p α} (hm : SetsOwn m) (hk : SetsOwn k) :
    SetsOwn (if c then m else k) := by
  split
  · exact hm
  · exact hk

theorem assertProduct (x y z : Expression p) : SetsOwn (B.assertProduct x y z) := .of (.assertProduct _ _ _)

theorem assertBoolean (x : Expression p) : SetsOwn (B.assertBoolean x) :=
  bind (assertProduct _ _ _) fun _ => pure _

theorem assertEqual (x y : Expression p) : SetsOwn (B.assertEqual x y) := assertProduct _ _ _

theorem assertZero (x : Expression p) : SetsOwn (B.assertZero x) := assertProduct _ _ _

theorem assertTrue (x : BooleanExpression p) : SetsOwn (B.assertTrue x) := assertProduct _ _ _

theorem assertFalse (x : BooleanExpression p) : SetsOwn (B.assertFalse x) := assertProduct _ _ _

theorem nonzero (x : Expression p) : SetsOwn (B.nonzero x) :=
  .of <| .bind .wire fun _ => .bind .wire fun _ => .bind (.keep (assertProduct _ _ _)) fun _ =>
    .bind (.keep (assertProduct _ _ _)) fun _ => .bind (.gen (Fills.nonzeroGen _ _ _) (by simp)) fun _ => .pure' (by simp)

theorem not (x : BooleanExpression p) : SetsOwn (B.not x) := pure _

theorem zero (x : Expression p) : SetsOwn (B.zero x) := bind (nonzero x) fun _ => not _

theorem equal (x y : Expression p) : SetsOwn (B.equal x y) := zero _

theorem product (x y : Expression p) : SetsOwn (B.product x y) := by
  unfold B.product
  split
  · exact pure _
  · split
    · exact pure _
    · exact .of <| .bind .wire fun _ => .bind (.keep (assertProduct _ _ _)) fun _ =>
        .bind (.gen (Fills.productGen _ _ _) (by simp)) fun _ => .pure' (by simp)

theorem selection (c : BooleanExpression p) (x y : Expression p) : SetsOwn (B.selection c x y) :=
  bind (product _ _) fun _ => pure _

theorem expLoop (x : Expression p) (k : Elem p) : ∀ (r i : ℕ) (e f : Expression p),
    SetsOwn (B.expLoop x k i r e f)
  | 0, _, _, _ => pure _
  | r + 1, i, _, _ =>
    bind (ite (pure _) (product _ _)) fun _ => bind (ite (product _ _) (pure _)) fun _ =>
      expLoop x k r (i + 1) _ _

theorem exponentiation (x : Expression p) (k : Elem p) : SetsOwn (B.exponentiation x k) :=
  expLoop _ _ _ _ _ _

theorem inverse (x : Expression p) : SetsOwn (B.inverse x) :=
  .of <| .bind .wire fun _ => .bind (.keep (assertProduct _ _ _)) fun _ =>
    .bind (.gen (Fills.inverseGen _ _) (by simp)) fun _ => .pure' (by simp)

theorem assertNonzero (x : Expression p) : SetsOwn (B.assertNonzero x) :=
  bind (inverse x) fun _ => pure _

theorem assertNonequal (x y : Expression p) : SetsOwn (B.assertNonequal x y) := assertNonzero _

theorem inverseOrZero (x : Expression p) : SetsOwn (B.inverseOrZero x) :=
  .of <| .bind .wire fun _ => .bind (.keep (nonzero x)) fun _ => .bind (.keep (assertProduct _ _ _)) fun _ =>
    .bind (.gen (Fills.inverseOrZeroGen _ _) (by simp)) fun _ => .pure' (by simp)

theorem quotient (x y : Expression p) : SetsOwn (B.quotient x y) :=
  bind (inverse y) fun _ => product _ _

theorem quotientUnsafe (x y : Expression p) : SetsOwn (B.quotientUnsafe x y) :=
  .of <| .bind .wire fun _ => .bind (.gen (Fills.quotientUnsafeGen _ _ _) (by simp)) fun _ => .pure' (by simp)

theorem and (x y : BooleanExpression p) : SetsOwn (B.and x y) := bind (product _ _) fun _ => pure _

theorem or (x y : BooleanExpression p) : SetsOwn (B.or x y) := bind (product _ _) fun _ => pure _

theorem xor (x y : BooleanExpression p) : SetsOwn (B.xor x y) :=
  bind (product _ _) fun _ => bind (ofOption _) fun _ => pure _

theorem splitWithoutRangeCheck (x : Expression p) (k : ℕ) :
    SetsOwn (B.splitWithoutRangeCheck x k) :=
  .of <| .bind (.binaryWire k) fun _ => .bind (.keep (ofOption _)) fun _ =>
    .bind (.keep (assertEqual _ _)) fun _ => .bind (.gen (Fills.splitGen _ _ _) (by simp)) fun _ => .pure' (by simp)

theorem splitAllowingAmbiguity (x : Expression p) : SetsOwn (B.splitAllowingAmbiguity x) :=
  splitWithoutRangeCheck _ _

theorem splitBounded (x : Expression p) (k : ℕ) : SetsOwn (B.splitBounded x k) :=
  bind (require _) fun _ => splitWithoutRangeCheck _ _

theorem cmpSubtractive (d : Expression p) (l s : Bool) (k : ℕ) : SetsOwn (B.cmpSubtractive d l s k) :=
  bind (ofOption _) fun _ => bind (splitBounded _ _) fun _ => ofOption _

theorem assertBooleans : ∀ l : List Wire, SetsOwn (B.assertBooleans l : B p Unit)
  | [] => pure _
  | _ :: ms => bind (assertBoolean _) fun _ => assertBooleans ms

theorem maskedSum : ∀ (l : List (Wire × Expression p × Expression p)) (e : Expression p),
    SetsOwn (B.maskedSum l e)
  | [], _ => pure _
  | (_, _, _) :: l, _ => bind (product _ _) fun _ => maskedSum l _

theorem assertMoreSignificantEqual : ∀ (l : List (Wire × Expression p × Expression p))
    (e : Expression p), SetsOwn (B.assertMoreSignificantEqual l e)
  | [], _ => pure _
  | (_, _, _) :: l, _ => bind (assertProduct _ _ _) fun _ => assertMoreSignificantEqual l _

theorem cmpTail (z : List (Wire × Expression p × Expression p)) (d : BooleanExpression p)
    (l s : Bool) (c : ℕ) : SetsOwn (B.cmpTail z d l s c) := by
  refine bind (maskedSum _ _) fun _ => ?_
  split
  · exact panic
  · exact bind (assertMoreSignificantEqual _ _) fun _ =>
      bind (ite (pure _) (bind (selection _ _ _) fun _ => assertNonzero _)) fun _ =>
        cmpSubtractive _ _ _ _

theorem cmpBinary (x y : BinaryExpression p) (l s : Bool) : SetsOwn (B.cmpBinary x y l s) := by
  refine .of <| .bindW (.keep (require _)) (.require _) fun _ hl => .bindW (.keep (ofOption _)) (.ofOption _) fun xc e1 => .bindW (.keep (ofOption _)) (.ofOption _) fun xs e2 =>
    .bindW (.keep (ofOption _)) (.ofOption _) fun yc e3 => .bindW (.keep (ofOption _)) (.ofOption _) fun ys e4 => .bindW (.wires _) (.wires _) fun ms e5 =>
    .bind (.keep (assertBooleans _)) fun _ => .bind (.keep (assertBoolean _)) fun de => ?_
  have hlen : xs.length = ys.length := by
    rw [mapM_length e2, mapM_length e4]
    unfold BinaryExpression.chunks chunks? at e1 e3
    split at e1
    · exact absurd e1 (by simp)
    · next hk =>
      rw [if_neg hk] at e3
      obtain rfl := Option.some.inj e1
      obtain rfl := Option.some.inj e3
      have := congrArg List.length (chunksOf_map_length (k := cmpChunkBits (Elem.maxBits p) x.len)
        x.bits y.bits hl)
      simpa using this
  have hms : (ms.zip (xs.zip ys)).map (·.1) = ms := by
    have : (ms.zip (xs.zip ys)).map Prod.fst = ms := List.map_fst_zip (by
      rw [List.length_zip]; omega)
    exact this
  exact .bind (.gen (Fills.maskGen _ _) (by rw [List.map_reverse, hms]; simp)) fun _ =>
    (cmpTail _ _ _ _ _).owes

theorem assertLtBinary (x y : BinaryExpression p) : SetsOwn (B.assertLtBinary x y) :=
  bind (cmpBinary _ _ _ _) fun _ => assertTrue _

theorem assertLeBinary (x y : BinaryExpression p) : SetsOwn (B.assertLeBinary x y) :=
  bind (cmpBinary _ _ _ _) fun _ => assertTrue _

theorem assertGtBinary (x y : BinaryExpression p) : SetsOwn (B.assertGtBinary x y) :=
  bind (cmpBinary _ _ _ _) fun _ => assertTrue _

theorem assertGeBinary (x y : BinaryExpression p) : SetsOwn (B.assertGeBinary x y) :=
  bind (cmpBinary _ _ _ _) fun _ => assertTrue _

theorem split (x : Expression p) : SetsOwn (B.split x) :=
  bind (splitWithoutRangeCheck _ _) fun _ => bind (assertLtBinary _ _) fun _ => pure _

theorem cmp (x y : Expression p) (l s : Bool) : SetsOwn (B.cmp x y l s) :=
  ite (bind (splitAllowingAmbiguity _) fun _ => bind (split _) fun _ => cmpBinary _ _ _ _)
    (bind (split _) fun _ => bind (splitAllowingAmbiguity _) fun _ => cmpBinary _ _ _ _)

theorem assertLt (x y : Expression p) : SetsOwn (B.assertLt x y) :=
  bind (cmp _ _ _ _) fun _ => assertTrue _

theorem assertLe (x y : Expression p) : SetsOwn (B.assertLe x y) :=
  bind (cmp _ _ _ _) fun _ => assertTrue _

theorem assertGt (x y : Expression p) : SetsOwn (B.assertGt x y) :=
  bind (cmp _ _ _ _) fun _ => assertTrue _

theorem assertGe (x y : Expression p) : SetsOwn (B.assertGe x y) :=
  bind (cmp _ _ _ _) fun _ => assertTrue _

theorem modulus (x y : Expression p) : SetsOwn (B.modulus x y) :=
  .of <| .bind .wire fun _ => .bind .wire fun _ => .bind (.keep (assertProduct _ _ _)) fun _ =>
    .bind (.keep (assertLt _ _)) fun _ => .bind (.gen (Fills.modulusGen _ _ _ _) (by simp)) fun _ => .pure' (by simp)

theorem divides (x y : Expression p) : SetsOwn (B.divides x y) := bind (modulus _ _) fun _ => zero _

/-! ### Binary and bitwise operations, random access -/

theorem binarySummation (terms : List (BinaryExpression p)) :
    SetsOwn (B.binarySummation terms) :=
  .of <| .bind (.keep (require _)) fun _ => .bind (.binaryWire _) fun _ => .bind (.keep (ofOption _)) fun _ =>
    .bind (.keep (ofOption _)) fun _ => .bind (.keep (assertEqual _ _)) fun _ =>
    .bind (.gen (Fills.summationGen _ _) (by simp)) fun _ => .pure' (by simp)

theorem binarySummationIgnoringOverflow (terms : List (BinaryExpression p)) :
    SetsOwn (B.binarySummationIgnoringOverflow terms) :=
  bind (binarySummation _) fun _ => ofOption _

theorem assertZeros : ∀ cs : List (BinaryExpression p), SetsOwn (B.assertZeros cs)
  | [] => pure _
  | _ :: cs => bind (ofOption _) fun _ => bind (assertZero _) fun _ => assertZeros cs

theorem binaryAssertZero (x : BinaryExpression p) : SetsOwn (B.binaryAssertZero x) :=
  bind (ofOption _) fun _ => assertZeros _

theorem binarySummationAssertingNoOverflow (terms : List (BinaryExpression p)) :
    SetsOwn (B.binarySummationAssertingNoOverflow terms) :=
  bind (binarySummation _) fun _ => bind (require _) fun _ => bind (binaryAssertZero _) fun _ =>
    ofOption _

theorem notBits : ∀ bs : List (BooleanExpression p), SetsOwn (B.notBits bs)
  | [] => pure _
  | _ :: bs => bind (not _) fun _ => bind (notBits bs) fun _ => pure _

theorem bitwiseNot (x : BinaryExpression p) : SetsOwn (B.bitwiseNot x) :=
  bind (notBits _) fun _ => pure _

theorem zipBits {op : BooleanExpression p → BooleanExpression p → B p (BooleanExpression p)}
    (h : ∀ x y, SetsOwn (op x y)) : ∀ bs cs : List (BooleanExpression p), SetsOwn (B.zipBits op bs cs)
  | [], _ => pure _
  | _ :: _, [] => pure _
  | _ :: bs, _ :: cs => bind (h _ _) fun _ => bind (zipBits h bs cs) fun _ => pure _

theorem bitwiseAnd (x y : BinaryExpression p) : SetsOwn (B.bitwiseAnd x y) :=
  bind (require _) fun _ => bind (zipBits and _ _) fun _ => pure _

theorem bitwiseOr (x y : BinaryExpression p) : SetsOwn (B.bitwiseOr x y) :=
  bind (require _) fun _ => bind (zipBits or _ _) fun _ => pure _

theorem bitwiseXor (x y : BinaryExpression p) : SetsOwn (B.bitwiseXor x y) :=
  bind (require _) fun _ => bind (zipBits xor _ _) fun _ => pure _

theorem parentLayer (b : BooleanExpression p) : ∀ items : List (Expression p),
    SetsOwn (B.parentLayer b items)
  | [] => pure _
  | [_] => pure _
  | _ :: _ :: rest => bind (selection _ _ _) fun _ => bind (parentLayer b rest) fun _ => pure _

theorem randomAccessBinary : ∀ (bits : List (BooleanExpression p)) (items : List (Expression p)),
    SetsOwn (B.randomAccessBinary bits items)
  | [], [] => panic
  | [], [_] => pure _
  | [], _ :: _ :: _ => panic
  | _ :: _, [_] => panic
  | _ :: bits, [] => bind (parentLayer _ _) fun _ => randomAccessBinary bits _
  | _ :: bits, _ :: _ :: _ => bind (parentLayer _ _) fun _ => randomAccessBinary bits _

theorem randomAccess (items : List (Expression p)) (index : Expression p) :
    SetsOwn (B.randomAccess items index) :=
  bind (splitBounded _ _) fun _ => randomAccessBinary _ _

/-! ### Permutation networks and sorting -/

theorem owes_createSwitch {D : List Wire} (a b : Expression p) :
    Owes D (B.createSwitch a b) fun r => r.1.wire :: D :=
  .bind .booleanWire fun _ => .bind (.keep (selection _ _ _)) fun _ => .pure' (by simp)

theorem owes_switchLayer : ∀ (k : ℕ) (D : List Wire) (xs : List (Expression p)),
    Owes D (B.switchLayer k xs) fun r => r.1.map (·.wire) ++ D
  | 0, D, xs => by
    unfold B.switchLayer
    exact .pure' fun _ h => h
  | k + 1, D, x :: y :: rest => by
    unfold B.switchLayer
    exact .bind (owes_createSwitch x y) fun r => .bind (owes_switchLayer k _ rest) fun _ =>
      .pure' fun i hi => by simp only [List.map_cons, List.cons_append, List.mem_append, List.mem_cons] at hi ⊢; tauto
  | k + 1, D, [] => by
    unfold B.switchLayer
    exact .panic
  | k + 1, D, [x] => by
    unfold B.switchLayer
    exact .panic

theorem assertPermutation2x2 (a b c d : Expression p) :
    SetsOwn (B.assertPermutation2x2 a b c d) :=
  .of <| .bind (owes_createSwitch a b) fun _ => .bind (.keep (assertEqual _ _)) fun _ =>
    .bind (.keep (assertEqual _ _)) fun _ => .gen (Fills.permutation2x2Gen _ _ _ _ _) (by simp)

theorem assertPermutationFuel : ∀ (fuel : ℕ) (a b : List (Expression p)),
    SetsOwn (B.assertPermutationFuel fuel a b)
  | 0, a, b => bind (require _) fun _ => require _
  | fuel + 1, a, b => by
    unfold B.assertPermutationFuel
    refine bind (require _) fun _ => ?_
    split
    · exact pure _
    · exact assertEqual _ _
    · exact assertPermutation2x2 _ _ _ _
    · refine .of <| .bind (owes_switchLayer _ _ _) fun r1 => .bind (owes_switchLayer _ _ _) fun r2 =>
        .bind (.keep (ite ?_ ?_)) fun _ => .gen (Fills.routeGen _ _ _ _) (fun i hi => by
          simp only [List.map_append, List.mem_append, List.not_mem_nil, or_false] at hi ⊢; tauto)
      · exact bind (ofOption _) fun _ => bind (ofOption _) fun _ =>
          bind (assertPermutationFuel fuel _ _) fun _ => assertPermutationFuel fuel _ _
      · exact bind (ofOption _) fun _ => bind (ofOption _) fun _ =>
          bind (assertPermutationFuel fuel _ _) fun _ => assertPermutationFuel fuel _ _

theorem assertPermutation (a b : List (Expression p)) : SetsOwn (B.assertPermutation a b) :=
  assertPermutationFuel _ _ _

theorem splitOutputs : ∀ es : List (Expression p), SetsOwn (B.splitOutputs es)
  | [] => panic
  | [_] => bind (split _) fun _ => pure _
  | _ :: e :: rest => bind (splitAllowingAmbiguity _) fun _ => bind (splitOutputs (e :: rest))
    fun _ => pure _

theorem assertAscending : ∀ xs : List (BinaryExpression p), SetsOwn (B.assertAscending xs)
  | [] => pure _
  | [_] => pure _
  | _ :: y :: rest => bind (assertLeBinary _ _) fun _ => assertAscending (y :: rest)

theorem sortAscending (xs : List (Expression p)) : SetsOwn (B.sortAscending xs) :=
  .of <| .bindW (.wires _) (.wires _) fun ws hws => .bind (.keep (assertPermutation _ _)) fun _ =>
    .bind (.keep (splitOutputs _)) fun _ => .bind (.keep (assertAscending _)) fun _ =>
    .bind (.gen (Fills.sortGen xs ws hws.symm) (by simp)) fun _ => .pure' (by simp)

theorem sortDescending (xs : List (Expression p)) : SetsOwn (B.sortDescending xs) :=
  bind (sortAscending _) fun _ => pure _

/-! ### Permutations, ciphers, hash functions -/

theorem monomial (f : MonomialPermutation p) (x : Expression p) : SetsOwn (f.permute x) :=
  exponentiation x f.n

theorem root (f : MonomialPermutation p) (x : Expression p) : SetsOwn (f.inverse x) :=
  .of <| .bind .wire fun _ => .bind (.keep (exponentiation _ _)) fun _ => .bind (.keep (assertEqual _ _)) fun _ =>
    .bind (.keep (ofOption _)) fun _ => .bind (.gen (Fills.rootGen _ _ _) (by simp)) fun _ => .pure' (by simp)

theorem encryptRounds (c : MiMC p) (key : Expression p) : ∀ (rcs : List (Elem p))
    (x : Expression p), SetsOwn (c.encryptRounds key rcs x)
  | [], _ => pure _
  | _ :: rcs, _ => bind (monomial _ _) fun z => encryptRounds c key rcs z

theorem encrypt (c : MiMC p) (key x : Expression p) : SetsOwn (c.encrypt key x) :=
  bind (monomial _ _) fun _ => bind (encryptRounds _ _ _ _) fun _ => pure _

theorem decryptRounds (c : MiMC p) (key : Expression p) : ∀ (rcs : List (Elem p))
    (x : Expression p), SetsOwn (c.decryptRounds key rcs x)
  | [], _ => pure _
  | _ :: rcs, _ => bind (root _ _) fun _ => decryptRounds c key rcs _

theorem decrypt (c : MiMC p) (key x : Expression p) : SetsOwn (c.decrypt key x) :=
  bind (decryptRounds _ _ _ _) fun _ => bind (root _ _) fun _ => pure _

theorem absorb {h : MerkleDamgard p} (hc : ∀ x y, SetsOwn (h.compress.compress x y)) :
    ∀ (blocks : List (Expression p)) (x : Expression p), SetsOwn (h.absorb blocks x)
  | [], _ => pure _
  | _ :: blocks, _ => bind (hc _ _) fun z => absorb hc blocks z

theorem hash {h : MerkleDamgard p} (hc : ∀ x y, SetsOwn (h.compress.compress x y))
    (blocks : List (Expression p)) : SetsOwn (h.hash blocks) :=
  bind (absorb hc _ _) fun _ => bind (ofOption _) fun _ => hc _ _

theorem merkleTreeLoop {c : CompressionFunction p} (hc : ∀ x y, SetsOwn (c.compress x y)) :
    ∀ (l : List (BooleanExpression p × Expression p)) (x : Expression p),
      SetsOwn (B.merkleTreeLoop c l x)
  | [], _ => pure _
  | (_, _) :: l, _ => bind (bind (selection _ _ _) fun _ => hc _ _) fun _ => merkleTreeLoop hc l _

theorem permuteState {sp : Sponge p} (hp : ∀ xs, SetsOwn (sp.permutation.permute xs))
    (i c : List (Expression p)) : SetsOwn (sp.permuteState i c) :=
  bind (hp _) fun _ => bind (require _) fun _ => bind (require _) fun _ => pure _

theorem spongeAbsorb {sp : Sponge p} (hp : ∀ xs, SetsOwn (sp.permutation.permute xs)) :
    ∀ (cs : List (List (Expression p))) (i c : List (Expression p)), SetsOwn (sp.absorb cs i c)
  | [], _, _ => pure _
  | _ :: cs, _, _ => bind (ofOption _) fun _ => bind (permuteState hp _ _) fun _ =>
    spongeAbsorb hp cs _ _

theorem squeeze {sp : Sponge p} (hp : ∀ xs, SetsOwn (sp.permutation.permute xs)) (k : ℕ) :
    ∀ (fuel : ℕ) (i c o : List (Expression p)), SetsOwn (sp.squeeze k fuel i c o)
  | 0, _, _, _ => ite panic (pure _)
  | fuel + 1, _, _, _ => ite (bind (permuteState hp _ _) fun _ => squeeze hp k fuel _ _ _) (pure _)

theorem sponge {sp : Sponge p} (hp : ∀ xs, SetsOwn (sp.permutation.permute xs))
    (xs : List (Expression p)) (k : ℕ) : SetsOwn (sp.evaluate xs k) :=
  bind (ofOption _) fun _ => bind (spongeAbsorb hp _ _ _) fun _ => bind (squeeze hp _ _ _ _ _)
    fun _ => pure _

theorem mapExpressions {f : Expression p → B p (Expression p)} (hf : ∀ x, SetsOwn (f x)) :
    ∀ xs, SetsOwn (B.mapExpressions f xs)
  | [] => pure _
  | _ :: xs => bind (hf _) fun _ => bind (mapExpressions hf xs) fun _ => pure _

theorem ofOption_bind {o : Option α} {f : α → B p β} (h : ∀ a, o = some a → SetsOwn (f a)) :
    SetsOwn (B.ofOption o >>= f) := by
  rcases o with _ | a
  · exact (panic : SetsOwn (B.panic : B p β))
  · exact h a rfl

theorem sboxPermute (f : Poseidon p) (x : Expression p) : SetsOwn (f.sboxPermute x) := by
  refine ofOption_bind fun s hs => ?_
  unfold Poseidon.sboxPermutation at hs
  split at hs
  · obtain rfl := Option.some.inj hs
    exact inverseOrZero x
  all_goals
    obtain ⟨n, _, hs⟩ := Option.bind_eq_some_iff.1 hs
    obtain ⟨m, _, hs⟩ := Option.bind_eq_some_iff.1 hs
    obtain rfl := Option.some.inj hs
    exact monomial m x

theorem sboxFirst (f : Poseidon p) : ∀ xs, SetsOwn (f.sboxFirst xs)
  | [] => panic
  | _ :: _ => bind (sboxPermute f _) fun _ => pure _

theorem poseidonRounds (f : Poseidon p) : ∀ (left round : ℕ) (xs : List (Expression p)),
    SetsOwn (f.rounds round left xs)
  | 0, _, _ => pure _
  | left + 1, round, _ => bind (ite (mapExpressions (sboxPermute f) _) (sboxFirst f _)) fun _ =>
    poseidonRounds f left (round + 1) _

theorem poseidon (f : Poseidon p) (xs : List (Expression p)) : SetsOwn (f.permute xs) :=
  bind (require _) fun _ => bind (require _) fun _ => poseidonRounds f _ _ _

theorem rescueRounds (f : Rescue p) : ∀ (left : ℕ) (xs : List (Expression p)),
    SetsOwn (f.rounds left xs)
  | 0, _ => pure _
  | left + 1, _ => bind (mapExpressions (fun x => bind (ofOption _) fun m => monomial m x) _) fun _ =>
    bind (mapExpressions (fun x => bind (ofOption _) fun m => root m x) _) fun _ =>
      rescueRounds f left _

theorem rescue (f : Rescue p) (xs : List (Expression p)) : SetsOwn (f.permute xs) := rescueRounds f _ _

/-! ### Curves and signatures -/

theorem edwardsNew (C : EdwardsCurve p) (x y : Expression p) : SetsOwn (EdwardsExpression.new C x y) :=
  bind (product _ _) fun _ => bind (product _ _) fun _ => bind (product _ _) fun _ =>
    bind (assertEqual _ _) fun _ => pure _

theorem edwardsAdd (C : EdwardsCurve p) (P Q : EdwardsExpression p) :
    SetsOwn (EdwardsGroup.addExpressions C P Q) :=
  bind (product _ _) fun _ => bind (product _ _) fun _ => bind (product _ _) fun _ =>
  bind (product _ _) fun _ => bind (product _ _) fun _ => bind (quotientUnsafe _ _) fun _ =>
  bind (quotientUnsafe _ _) fun _ => pure _

theorem edwardsDouble (C : EdwardsCurve p) (P : EdwardsExpression p) :
    SetsOwn (EdwardsGroup.doubleExpression C P) :=
  bind (product _ _) fun _ => bind (product _ _) fun _ => bind (product _ _) fun _ =>
  bind (ofOption _) fun _ => bind (quotientUnsafe _ _) fun _ => bind (ofOption _) fun _ =>
  bind (quotientUnsafe _ _) fun _ => pure _

section
variable {GE GX : Type} {G : GroupOps p GE GX}

theorem selectAll (b : BooleanExpression p) : ∀ xs is : List (Expression p),
    SetsOwn (GroupOps.selectAll b xs is)
  | [], _ => pure _
  | _ :: _, [] => panic
  | _ :: xs, _ :: is => bind (selection _ _ _) fun _ => bind (selectAll b xs is) fun _ => pure _

theorem mulBoolean (x : GX) (b : BooleanExpression p) : SetsOwn (G.mulBooleanExpression x b) :=
  bind (ofOption _) fun _ => bind (selectAll _ _ _) fun _ => ofOption _

theorem mulLoop (ha : ∀ x y, SetsOwn (G.addExpressions x y))
    (hd : ∀ x, SetsOwn (G.doubleExpression x)) :
    ∀ (bits : List (BooleanExpression p)) (sum current : GX), SetsOwn (G.mulLoop bits sum current)
  | [], _, _ => pure _
  | _ :: bits, _, _ => bind (mulBoolean _ _) fun _ => bind (ha _ _) fun _ =>
    bind (hd _) fun _ => mulLoop ha hd bits _ _

theorem mulScalar (ha : ∀ x y, SetsOwn (G.addExpressions x y))
    (hd : ∀ x, SetsOwn (G.doubleExpression x)) (x : GX) (k : Expression p) :
    SetsOwn (G.mulScalarExpression x k) :=
  bind (splitAllowingAmbiguity _) fun _ => bind (ofOption _) fun _ => mulLoop ha hd _ _ _

theorem schnorr {C : CyclicGroupOps p GE GX} (ha : ∀ x y, SetsOwn (C.addExpressions x y))
    (hd : ∀ x, SetsOwn (C.doubleExpression x)) {c : CompressionFunction p}
    (hc : ∀ x y, SetsOwn (c.compress x y)) (σ : SignatureExpression p) (m : Expression p) (Y : GX) :
    SetsOwn (schnorrVerify C c σ m Y) :=
  bind (ofOption _) fun _ => bind (mulScalar ha hd _ _) fun _ => bind (mulScalar ha hd _ _) fun _ =>
    bind (ha _ _) fun _ => bind (hc _ _) fun _ => assertEqual _ _

end

/-! ### Examples of the README -/

theorem readmeCube (x : Expression p) : SetsOwn (Readme.cube x) :=
  bind (product _ _) fun _ => product _ _

theorem readmeInverse (x : Expression p) : SetsOwn (Readme.inverse x) := inverse x

theorem readmeHash (rounds : ℕ) (blocks : List (Expression p)) :
    SetsOwn (Readme.hash rounds blocks) := by
  refine ofOption_bind fun c _ => ofOption_bind fun h hh => ?_
  unfold MerkleDamgard.newDefaults at hh
  obtain ⟨_, _, hh⟩ := Option.bind_eq_some_iff.1 hh
  obtain rfl := Option.some.inj hh
  exact hash (fun _ _ => bind (encrypt c _ _) fun _ => pure _) blocks

end SetsOwn

end R1CS
