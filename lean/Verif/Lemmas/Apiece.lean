import Verif.Spec.Apiece
import Verif.Lemmas.Masked

/-!
# The generators of gadgets have wires of their own (`Spec/Apiece.lean`)
-/

set_option linter.unusedSectionVars false

namespace R1CS

variable {p : ℕ} [hp : Fact p.Prime] {α β : Type}

/-- Code which begins when the wires `D` are still without a generator, and after which the wires `O a` are: the
generators which it adds have wires apiece, among those of `D` and the new ones which are not in `O a`. -/
def Shares (D : List Wire) (m : B p α) (O : α → List Wire) : Prop :=
  ∀ b a b', m b = some (a, b') → D.Nodup → (∀ i ∈ D, i < b.nextWireIndex) →
    b.nextWireIndex ≤ b'.nextWireIndex ∧ ∃ A : List (WitnessGenerator p × List Wire),
      b'.witnessGenerators = b.witnessGenerators ++ A.map Prod.fst ∧
      (A.flatMap Prod.snd ++ O a).Nodup ∧
      (∀ i ∈ A.flatMap Prod.snd ++ O a, i ∈ D ∨ b.nextWireIndex ≤ i ∧ i < b'.nextWireIndex) ∧
      ∀ e ∈ A, Minds (· ∈ e.2) e.1 ∧ KeepsValues e.1.generate

theorem Apiece.of {m : B p α} (h : Shares [] m fun _ => []) : Apiece m := fun b a b' hb => by
  obtain ⟨h0, A, h1, h2, h3, h4⟩ := h b a b' hb List.nodup_nil (by simp)
  rw [List.append_nil] at h2 h3
  exact ⟨h0, A, h1, h2, fun i hi => (h3 i hi).resolve_left (by simp), h4⟩

namespace Shares

variable {D : List Wire}

theorem keep {m : B p α} (h : Apiece m) : Shares D m fun _ => D := fun b a b' hb hD hlt => by
  obtain ⟨h0, A, h1, h2, h3, h4⟩ := h b a b' hb
  refine ⟨h0, A, h1, List.nodup_append'.2 ⟨h2, hD, fun i h5 h6 => ?_⟩, fun i hi => ?_, h4⟩
  · have := (h3 i h5).1
    have := hlt i h6
    omega
  · exact (List.mem_append.1 hi).elim (fun h => .inr (h3 i h)) .inl

/-- Two pieces of code, using also what is known about the result of the first. -/
theorem bindW {m : B p α} {f : α → B p β} {O : α → List Wire} {O' : β → List Wire} {P : α → Prop}
    (hm : Shares D m O) (hP : Silent m P) (hf : ∀ a, P a → Shares (O a) (f a) O') :
    Shares D (m >>= f) O' := by
  intro b z b' h hD hlt
  obtain ⟨a, b1, h1, h2⟩ := B.bind_run h
  obtain ⟨k0, A, k1, k2, k3, k4⟩ := hm b a b1 h1 hD hlt
  have hlt' : ∀ i ∈ A.flatMap Prod.snd ++ O a, i < b1.nextWireIndex := fun i hi => by
    rcases k3 i hi with h | h
    · exact Nat.lt_of_lt_of_le (hlt i h) k0
    · exact h.2
  obtain ⟨n1, n2, n3⟩ := List.nodup_append'.1 k2
  obtain ⟨l0, A', l1, l2, l3, l4⟩ := hf a (hP b a b1 h1).2 b1 z b' h2 n2
    fun i hi => hlt' i (by simp [hi])
  refine ⟨k0.trans l0, A ++ A', by rw [l1, k1, List.append_assoc, List.map_append], ?_, fun i hi => ?_,
    fun e he => (List.mem_append.1 he).elim (k4 e) (l4 e)⟩
  · rw [List.flatMap_append, List.append_assoc]
    refine List.nodup_append'.2 ⟨n1, l2, fun i h5 h6 => ?_⟩
    rcases l3 i h6 with h | h
    · exact n3 h5 h
    · have := hlt' i (List.mem_append_left _ h5)
      omega
  · rw [List.flatMap_append, List.append_assoc] at hi
    rcases List.mem_append.1 hi with hi | hi
    · rcases k3 i (List.mem_append_left _ hi) with h | h
      · exact .inl h
      · exact .inr ⟨h.1, Nat.lt_of_lt_of_le h.2 l0⟩
    · rcases l3 i hi with h | h
      · rcases k3 i (List.mem_append_right _ h) with h | h
        · exact .inl h
        · exact .inr ⟨h.1, Nat.lt_of_lt_of_le h.2 l0⟩
      · exact .inr ⟨k0.trans h.1, h.2⟩

theorem bind {m : B p α} {f : α → B p β} {O : α → List Wire} {O' : β → List Wire} (hm : Shares D m O)
    (hf : ∀ a, Shares (O a) (f a) O') : Shares D (m >>= f) O' := by
  intro b z b' h hD hlt
  obtain ⟨a, b1, h1, h2⟩ := B.bind_run h
  obtain ⟨k0, A, k1, k2, k3, k4⟩ := hm b a b1 h1 hD hlt
  have hlt' : ∀ i ∈ A.flatMap Prod.snd ++ O a, i < b1.nextWireIndex := fun i hi => by
    rcases k3 i hi with h | h
    · exact Nat.lt_of_lt_of_le (hlt i h) k0
    · exact h.2
  obtain ⟨n1, n2, n3⟩ := List.nodup_append'.1 k2
  obtain ⟨l0, A', l1, l2, l3, l4⟩ := hf a b1 z b' h2 n2 fun i hi => hlt' i (by simp [hi])
  refine ⟨k0.trans l0, A ++ A', by rw [l1, k1, List.append_assoc, List.map_append], ?_, fun i hi => ?_,
    fun e he => (List.mem_append.1 he).elim (k4 e) (l4 e)⟩
  · rw [List.flatMap_append, List.append_assoc]
    refine List.nodup_append'.2 ⟨n1, l2, fun i h5 h6 => ?_⟩
    rcases l3 i h6 with h | h
    · exact n3 h5 h
    · have := hlt' i (List.mem_append_left _ h5)
      omega
  · rw [List.flatMap_append, List.append_assoc] at hi
    rcases List.mem_append.1 hi with hi | hi
    · rcases k3 i (List.mem_append_left _ hi) with h | h
      · exact .inl h
      · exact .inr ⟨h.1, Nat.lt_of_lt_of_le h.2 l0⟩
    · rcases l3 i hi with h | h
      · rcases k3 i (List.mem_append_right _ h) with h | h
        · exact .inl h
        · exact .inr ⟨h.1, Nat.lt_of_lt_of_le h.2 l0⟩
      · exact .inr ⟨k0.trans h.1, h.2⟩

theorem pure' {a : α} {O : α → List Wire} (h : List.Subperm (O a) D) : Shares D (Pure.pure a : B p α) O := by
  intro b a' b' hb hD _
  obtain ⟨rfl, rfl⟩ := Prod.ext_iff.1 (Option.some.inj hb)
  obtain ⟨l, h1, h2⟩ := h
  exact ⟨le_rfl, [], by simp, (h1.nodup_iff).1 (h2.nodup hD), fun i hi => .inl (h2.subset (h1.mem_iff.2 hi)),
    fun _ h => by cases h⟩

theorem pure {O : α → List Wire} (a : α) : Shares (O a) (Pure.pure a : B p α) O := pure' (List.Subperm.refl _)

theorem panic {O : α → List Wire} : Shares D (B.panic : B p α) O := fun _ _ _ h => absurd h (by simp [B.panic])

theorem wire : Shares D (B.wire : B p Wire) fun w => w :: D := by
  intro b a b' hb hD hlt
  obtain ⟨rfl, rfl⟩ := Prod.ext_iff.1 (Option.some.inj hb)
  refine ⟨Nat.le_succ _, [], by simp, List.nodup_cons.2 ⟨fun h => Nat.lt_irrefl _ (hlt _ h), hD⟩,
    fun i hi => ?_, fun _ h => by cases h⟩
  rcases List.mem_cons.1 hi with rfl | hi
  · exact .inr ⟨le_rfl, Nat.lt_succ_self _⟩
  · exact .inl hi

theorem assertProduct (x y z : Expression p) : Shares D (B.assertProduct x y z) fun _ => D := by
  intro b a b' hb hD _
  obtain ⟨_, rfl⟩ := Prod.ext_iff.1 (Option.some.inj hb)
  exact ⟨le_rfl, [], by simp, hD, fun i hi => .inl hi, fun _ h => by cases h⟩

theorem gen {d : List Wire} {f : WireValues p → Option (WireValues p)}
    (hf : Co ({i | i ∈ d} ∪ {i | i ∈ D}) {i | i ∈ D} f) (hk : KeepsValues f) :
    Shares D (B.generator d f) fun _ => [] := by
  intro b a b' hb hD _
  obtain ⟨_, rfl⟩ := Prod.ext_iff.1 (Option.some.inj hb)
  refine ⟨le_rfl, [(⟨d, f⟩, D)], rfl, by simpa using hD, fun i hi => .inl (by simpa using hi), fun e he => ?_⟩
  rw [List.mem_singleton.1 he]
  exact ⟨hf.minds, hk⟩

/-- Wires for which there is no generator at all. -/
theorem drop {m : B p α} {O : α → List Wire} (h : Shares D m O) : Shares D m fun _ => [] := by
  intro b a b' hb hD hlt
  obtain ⟨h0, A, h1, h2, h3, h4⟩ := h b a b' hb hD hlt
  exact ⟨h0, A, h1, by simpa using (List.nodup_append'.1 h2).1, fun i hi =>
    h3 i (List.mem_append_left _ (by simpa using hi)), h4⟩

theorem wires : ∀ (k : ℕ) {D : List Wire}, Shares D (B.wires k : B p (List Wire)) fun ws => ws ++ D
  | 0, _ => pure' (List.Subperm.refl _)
  | k + 1, _ => bind wire fun _ => bind (wires k) fun _ => pure' List.perm_middle.symm.subperm

theorem booleanWire : Shares D (B.booleanWire : B p BooleanWire) fun w => w.wire :: D :=
  bind wire fun _ => bind (O := fun _ => _) (bind (assertProduct _ _ _) fun _ => pure (O := fun _ => _) _)
    fun _ => pure' (List.Subperm.refl _)

theorem booleanWires : ∀ (k : ℕ) {D : List Wire},
    Shares D (B.booleanWires k : B p (List BooleanWire)) fun ws => ws.map (·.wire) ++ D
  | 0, _ => pure' (List.Subperm.refl _)
  | k + 1, _ => bind booleanWire fun _ => bind (booleanWires k) fun _ => pure' List.perm_middle.symm.subperm

theorem binaryWire (k : ℕ) : Shares D (B.binaryWire k : B p BinaryWire) fun w => w.bits.map (·.wire) ++ D :=
  bind (booleanWires k) fun _ => pure' (List.Subperm.refl _)

end Shares

namespace Apiece

theorem shares {m : B p α} (h : Apiece m) : Shares [] m fun _ => [] := .keep h

theorem pure (a : α) : Apiece (Pure.pure a : B p α) := .of (.pure' (List.Subperm.refl _))

theorem bind {m : B p α} {f : α → B p β} (hm : Apiece m) (hf : ∀ a, Apiece (f a)) : Apiece (m >>= f) :=
  .of (.bind hm.shares fun a => (hf a).shares)

theorem panic : Apiece (B.panic : B p α) := .of .panic

theorem ofOption (o : Option α) : Apiece (B.ofOption o : B p α) := by
  rcases o with _ | a
  · exact (panic : Apiece (B.panic : B p α))
  · exact pure a

theorem require (c : Prop) [Decidable c] : Apiece (B.require c : B p Unit) := by
  unfold B.require
  split
  · exact pure _
  · exact panic

theorem ite {c : Prop} [Decidable c] {m k : B p α} (hm : Apiece m) (hk : Apiece k) :
    Apiece (if c then m else k) := by
  split
  · exact hm
  · exact hk

theorem assertProduct (x y z : Expression p) : Apiece (B.assertProduct x y z) := .of (.assertProduct _ _ _)

theorem assertBoolean (x : Expression p) : Apiece (B.assertBoolean x) :=
  bind (assertProduct _ _ _) fun _ => pure _

theorem assertEqual (x y : Expression p) : Apiece (B.assertEqual x y) := assertProduct _ _ _

theorem assertZero (x : Expression p) : Apiece (B.assertZero x) := assertProduct _ _ _

theorem assertTrue (x : BooleanExpression p) : Apiece (B.assertTrue x) := assertProduct _ _ _

theorem assertFalse (x : BooleanExpression p) : Apiece (B.assertFalse x) := assertProduct _ _ _

theorem nonzero (x : Expression p) : Apiece (B.nonzero x) :=
  .of <| .bind .wire fun _ => .bind .wire fun _ => .bind (.keep (assertProduct _ _ _)) fun _ =>
    .bind (.keep (assertProduct _ _ _)) fun _ => .bind (
      .gen (.nonzeroGen (by simp +contextual) (by simp) (by simp) (by simp) (by simp)) (.nonzeroGen _ _ _)) fun _ => .pure' (List.Subperm.refl _)

theorem not (x : BooleanExpression p) : Apiece (B.not x) := pure _

theorem zero (x : Expression p) : Apiece (B.zero x) := bind (nonzero x) fun _ => not _

theorem equal (x y : Expression p) : Apiece (B.equal x y) := zero _

theorem product (x y : Expression p) : Apiece (B.product x y) := by
  unfold B.product
  split
  · exact pure _
  · split
    · exact pure _
    · exact .of <| .bind .wire fun _ => .bind (.keep (assertProduct _ _ _)) fun _ =>
        .bind (
        .gen (.productGen (by simp +contextual) (by simp +contextual) (by simp) (by simp)) (.productGen _ _ _)) fun _ => .pure' (List.Subperm.refl _)

theorem selection (c : BooleanExpression p) (x y : Expression p) : Apiece (B.selection c x y) :=
  bind (product _ _) fun _ => pure _

theorem expLoop (x : Expression p) (k : Elem p) : ∀ (r i : ℕ) (e f : Expression p),
    Apiece (B.expLoop x k i r e f)
  | 0, _, _, _ => pure _
  | r + 1, i, _, _ =>
    bind (ite (pure _) (product _ _)) fun _ => bind (ite (product _ _) (pure _)) fun _ =>
      expLoop x k r (i + 1) _ _

theorem exponentiation (x : Expression p) (k : Elem p) : Apiece (B.exponentiation x k) :=
  expLoop _ _ _ _ _ _

theorem inverse (x : Expression p) : Apiece (B.inverse x) :=
  .of <| .bind .wire fun _ => .bind (.keep (assertProduct _ _ _)) fun _ =>
    .bind (.gen (.inverseGen (by simp +contextual) (by simp) (by simp)) (.inverseGen _ _)) fun _ => .pure' (List.Subperm.refl _)

theorem assertNonzero (x : Expression p) : Apiece (B.assertNonzero x) :=
  bind (inverse x) fun _ => pure _

theorem assertNonequal (x y : Expression p) : Apiece (B.assertNonequal x y) := assertNonzero _

theorem inverseOrZero (x : Expression p) : Apiece (B.inverseOrZero x) :=
  .of <| .bind .wire fun _ => .bind (.keep (nonzero x)) fun _ => .bind (.keep (assertProduct _ _ _)) fun _ =>
    .bind (.gen (.inverseOrZeroGen (by simp +contextual) (by simp) (by simp)) (.inverseOrZeroGen _ _)) fun _ => .pure' (List.Subperm.refl _)

theorem quotient (x y : Expression p) : Apiece (B.quotient x y) :=
  bind (inverse y) fun _ => product _ _

theorem quotientUnsafe (x y : Expression p) : Apiece (B.quotientUnsafe x y) :=
  .of <| .bind .wire fun _ => .bind (
    .gen (.quotientUnsafeGen (by simp +contextual) (by simp +contextual) (by simp) (by simp)) (.quotientUnsafeGen _ _ _)) fun _ => .pure' (List.Subperm.refl _)

theorem and (x y : BooleanExpression p) : Apiece (B.and x y) := bind (product _ _) fun _ => pure _

theorem or (x y : BooleanExpression p) : Apiece (B.or x y) := bind (product _ _) fun _ => pure _

theorem xor (x y : BooleanExpression p) : Apiece (B.xor x y) :=
  bind (product _ _) fun _ => bind (ofOption _) fun _ => pure _

theorem shares_bits {d : List Wire} (w : BinaryWire) : ∀ b ∈ w.bits,
    b.wire ∈ ({i | i ∈ d} ∪ {i | i ∈ w.bits.map (·.wire) ++ []} : Set Wire) ∧
      b.wire ∈ ({i | i ∈ w.bits.map (·.wire) ++ []} : Set Wire) := fun b hb =>
  have h : b.wire ∈ w.bits.map (·.wire) ++ [] := List.mem_append_left _ (List.mem_map_of_mem hb)
  ⟨.inr h, h⟩

theorem splitWithoutRangeCheck (x : Expression p) (k : ℕ) :
    Apiece (B.splitWithoutRangeCheck x k) :=
  .of <| .bind (.binaryWire k) fun _ => .bind (.keep (ofOption _)) fun _ =>
    .bind (.keep (assertEqual _ _)) fun _ => .bind (.gen (.splitGen (by simp +contextual) _ (shares_bits _)) (.splitGen _ _ _)) fun _ => .pure' (List.Subperm.refl _)

theorem splitAllowingAmbiguity (x : Expression p) : Apiece (B.splitAllowingAmbiguity x) :=
  splitWithoutRangeCheck _ _

theorem splitBounded (x : Expression p) (k : ℕ) : Apiece (B.splitBounded x k) :=
  bind (require _) fun _ => splitWithoutRangeCheck _ _

theorem cmpSubtractive (d : Expression p) (l s : Bool) (k : ℕ) : Apiece (B.cmpSubtractive d l s k) :=
  bind (ofOption _) fun _ => bind (splitBounded _ _) fun _ => ofOption _

theorem assertBooleans : ∀ l : List Wire, Apiece (B.assertBooleans l : B p Unit)
  | [] => pure _
  | _ :: ms => bind (assertBoolean _) fun _ => assertBooleans ms

theorem maskedSum : ∀ (l : List (Wire × Expression p × Expression p)) (e : Expression p),
    Apiece (B.maskedSum l e)
  | [], _ => pure _
  | (_, _, _) :: l, _ => bind (product _ _) fun _ => maskedSum l _

theorem assertMoreSignificantEqual : ∀ (l : List (Wire × Expression p × Expression p))
    (e : Expression p), Apiece (B.assertMoreSignificantEqual l e)
  | [], _ => pure _
  | (_, _, _) :: l, _ => bind (assertProduct _ _ _) fun _ => assertMoreSignificantEqual l _

theorem cmpTail (z : List (Wire × Expression p × Expression p)) (d : BooleanExpression p)
    (l s : Bool) (c : ℕ) : Apiece (B.cmpTail z d l s c) := by
  refine bind (maskedSum _ _) fun _ => ?_
  split
  · exact panic
  · exact bind (assertMoreSignificantEqual _ _) fun _ =>
      bind (ite (pure _) (bind (selection _ _ _) fun _ => assertNonzero _)) fun _ =>
        cmpSubtractive _ _ _ _

theorem cmpBinary (x y : BinaryExpression p) (l s : Bool) : Apiece (B.cmpBinary x y l s) := by
  refine .of <| .bindW (.keep (require _)) (.require _) fun _ hl => .bindW (.keep (ofOption _)) (.ofOption _) fun xc e1 => .bindW (.keep (ofOption _)) (.ofOption _) fun xs e2 =>
    .bindW (.keep (ofOption _)) (.ofOption _) fun yc e3 => .bindW (.keep (ofOption _)) (.ofOption _) fun ys e4 => .bindW (.wires _) (.wires _) fun ms e5 =>
    .bind (.keep (assertBooleans _)) fun _ => .bind (.keep (assertBoolean _)) fun de => ?_
  have hx : ∀ e ∈ xs, ∀ i ∈ e.dependencies, i ∈ x.dependencies := BinaryExpression.Over.joins
    (K := {i | i ∈ x.dependencies}) (BinaryExpression.Over.chunks
      (fun b hb i hi => BinaryExpression.mem_dependencies.2 ⟨b, hb, hi⟩) e1) e2
  have hy : ∀ e ∈ ys, ∀ i ∈ e.dependencies, i ∈ y.dependencies := BinaryExpression.Over.joins
    (K := {i | i ∈ y.dependencies}) (BinaryExpression.Over.chunks
      (fun b hb i hi => BinaryExpression.mem_dependencies.2 ⟨b, hb, hi⟩) e3) e4
  refine .bind (.gen (.maskGen _ _ fun q hq => ?_) (.maskGen _ _)) fun _ => (cmpTail _ _ _ _ _).shares
  have hq := List.of_mem_zip (List.mem_reverse.1 hq)
  have hq' := List.of_mem_zip hq.2
  have hw : q.1 ∈ ms ++ [] := List.mem_append_left _ hq.1
  exact ⟨⟨.inr hw, hw⟩, fun i hi => .inl (List.mem_append_left _ (hx _ hq'.1 i hi)),
    fun i hi => .inl (List.mem_append_right _ (hy _ hq'.2 i hi))⟩

theorem assertLtBinary (x y : BinaryExpression p) : Apiece (B.assertLtBinary x y) :=
  bind (cmpBinary _ _ _ _) fun _ => assertTrue _

theorem assertLeBinary (x y : BinaryExpression p) : Apiece (B.assertLeBinary x y) :=
  bind (cmpBinary _ _ _ _) fun _ => assertTrue _

theorem assertGtBinary (x y : BinaryExpression p) : Apiece (B.assertGtBinary x y) :=
  bind (cmpBinary _ _ _ _) fun _ => assertTrue _

theorem assertGeBinary (x y : BinaryExpression p) : Apiece (B.assertGeBinary x y) :=
  bind (cmpBinary _ _ _ _) fun _ => assertTrue _

theorem split (x : Expression p) : Apiece (B.split x) :=
  bind (splitWithoutRangeCheck _ _) fun _ => bind (assertLtBinary _ _) fun _ => pure _

theorem cmp (x y : Expression p) (l s : Bool) : Apiece (B.cmp x y l s) :=
  ite (bind (splitAllowingAmbiguity _) fun _ => bind (split _) fun _ => cmpBinary _ _ _ _)
    (bind (split _) fun _ => bind (splitAllowingAmbiguity _) fun _ => cmpBinary _ _ _ _)

theorem assertLt (x y : Expression p) : Apiece (B.assertLt x y) :=
  bind (cmp _ _ _ _) fun _ => assertTrue _

theorem assertLe (x y : Expression p) : Apiece (B.assertLe x y) :=
  bind (cmp _ _ _ _) fun _ => assertTrue _

theorem assertGt (x y : Expression p) : Apiece (B.assertGt x y) :=
  bind (cmp _ _ _ _) fun _ => assertTrue _

theorem assertGe (x y : Expression p) : Apiece (B.assertGe x y) :=
  bind (cmp _ _ _ _) fun _ => assertTrue _

theorem modulus (x y : Expression p) : Apiece (B.modulus x y) :=
  .of <| .bind .wire fun _ => .bind .wire fun _ => .bind (.keep (assertProduct _ _ _)) fun _ =>
    .bind (.keep (assertLt _ _)) fun _ => .bind (
      .gen (.modulusGen (by simp +contextual) (by simp +contextual) (by simp) (by simp) (by simp) (by simp))
        (.modulusGen _ _ _ _)) fun _ => .pure' (List.Subperm.refl _)

theorem divides (x y : Expression p) : Apiece (B.divides x y) := bind (modulus _ _) fun _ => zero _

/-! ### Binary and bitwise operations, random access -/

theorem binarySummation (terms : List (BinaryExpression p)) :
    Apiece (B.binarySummation terms) :=
  .of <| .bind (.keep (require _)) fun _ => .bind (.binaryWire _) fun _ => .bind (.keep (ofOption _)) fun _ =>
    .bind (.keep (ofOption _)) fun _ => .bind (.keep (assertEqual _ _)) fun _ =>
    .bind (.gen (.summationGen (by simp +contextual) (shares_bits _)) (Fills.keeps_summationGen _ _)) fun _ => .pure' (List.Subperm.refl _)

theorem binarySummationIgnoringOverflow (terms : List (BinaryExpression p)) :
    Apiece (B.binarySummationIgnoringOverflow terms) :=
  bind (binarySummation _) fun _ => ofOption _

theorem assertZeros : ∀ cs : List (BinaryExpression p), Apiece (B.assertZeros cs)
  | [] => pure _
  | _ :: cs => bind (ofOption _) fun _ => bind (assertZero _) fun _ => assertZeros cs

theorem binaryAssertZero (x : BinaryExpression p) : Apiece (B.binaryAssertZero x) :=
  bind (ofOption _) fun _ => assertZeros _

theorem binarySummationAssertingNoOverflow (terms : List (BinaryExpression p)) :
    Apiece (B.binarySummationAssertingNoOverflow terms) :=
  bind (binarySummation _) fun _ => bind (require _) fun _ => bind (binaryAssertZero _) fun _ =>
    ofOption _

theorem notBits : ∀ bs : List (BooleanExpression p), Apiece (B.notBits bs)
  | [] => pure _
  | _ :: bs => bind (not _) fun _ => bind (notBits bs) fun _ => pure _

theorem bitwiseNot (x : BinaryExpression p) : Apiece (B.bitwiseNot x) :=
  bind (notBits _) fun _ => pure _

theorem zipBits {op : BooleanExpression p → BooleanExpression p → B p (BooleanExpression p)}
    (h : ∀ x y, Apiece (op x y)) : ∀ bs cs : List (BooleanExpression p), Apiece (B.zipBits op bs cs)
  | [], _ => pure _
  | _ :: _, [] => pure _
  | _ :: bs, _ :: cs => bind (h _ _) fun _ => bind (zipBits h bs cs) fun _ => pure _

theorem bitwiseAnd (x y : BinaryExpression p) : Apiece (B.bitwiseAnd x y) :=
  bind (require _) fun _ => bind (zipBits and _ _) fun _ => pure _

theorem bitwiseOr (x y : BinaryExpression p) : Apiece (B.bitwiseOr x y) :=
  bind (require _) fun _ => bind (zipBits or _ _) fun _ => pure _

theorem bitwiseXor (x y : BinaryExpression p) : Apiece (B.bitwiseXor x y) :=
  bind (require _) fun _ => bind (zipBits xor _ _) fun _ => pure _

theorem parentLayer (b : BooleanExpression p) : ∀ items : List (Expression p),
    Apiece (B.parentLayer b items)
  | [] => pure _
  | [_] => pure _
  | _ :: _ :: rest => bind (selection _ _ _) fun _ => bind (parentLayer b rest) fun _ => pure _

theorem randomAccessBinary : ∀ (bits : List (BooleanExpression p)) (items : List (Expression p)),
    Apiece (B.randomAccessBinary bits items)
  | [], [] => panic
  | [], [_] => pure _
  | [], _ :: _ :: _ => panic
  | _ :: _, [_] => panic
  | _ :: bits, [] => bind (parentLayer _ _) fun _ => randomAccessBinary bits _
  | _ :: bits, _ :: _ :: _ => bind (parentLayer _ _) fun _ => randomAccessBinary bits _

theorem randomAccess (items : List (Expression p)) (index : Expression p) :
    Apiece (B.randomAccess items index) :=
  bind (splitBounded _ _) fun _ => randomAccessBinary _ _

/-! ### Permutation networks and sorting -/

theorem shares_createSwitch {D : List Wire} (a b : Expression p) :
    Shares D (B.createSwitch a b) fun r => r.1.wire :: D :=
  .bind .booleanWire fun _ => .bind (.keep (selection _ _ _)) fun _ => .pure' (List.Subperm.refl _)

theorem shares_switchLayer : ∀ (k : ℕ) (D : List Wire) (xs : List (Expression p)),
    Shares D (B.switchLayer k xs) fun r => r.1.map (·.wire) ++ D
  | 0, D, xs => by
    unfold B.switchLayer
    exact .pure' (List.Subperm.refl _)
  | k + 1, D, x :: y :: rest => by
    unfold B.switchLayer
    exact .bind (shares_createSwitch x y) fun r => .bind (shares_switchLayer k _ rest) fun _ =>
      .pure' List.perm_middle.symm.subperm
  | k + 1, D, [] => by
    unfold B.switchLayer
    exact .panic
  | k + 1, D, [x] => by
    unfold B.switchLayer
    exact .panic

theorem assertPermutation2x2 (a b c d : Expression p) :
    Apiece (B.assertPermutation2x2 a b c d) :=
  .of <| .bind (shares_createSwitch a b) fun _ => .bind (.keep (assertEqual _ _)) fun _ =>
    .bind (.keep (assertEqual _ _)) fun _ => 
      .gen (.permutation2x2Gen (by simp +contextual) (by simp +contextual) (by simp +contextual)
        (by simp +contextual) (by simp) (by simp)) (.permutation2x2Gen _ _ _ _ _)

theorem assertPermutationFuel : ∀ (fuel : ℕ) (a b : List (Expression p)),
    Apiece (B.assertPermutationFuel fuel a b)
  | 0, a, b => bind (require _) fun _ => require _
  | fuel + 1, a, b => by
    unfold B.assertPermutationFuel
    refine bind (require _) fun _ => ?_
    split
    · exact pure _
    · exact assertEqual _ _
    · exact assertPermutation2x2 _ _ _ _
    · refine .of <| .bind (shares_switchLayer _ _ _) fun r1 => .bind (shares_switchLayer _ _ _) fun r2 =>
        .bind (.keep (ite ?_ ?_)) fun _ => .gen
          (.routeGen (fun x hx i hi => .inl (List.mem_append_left _ (List.mem_flatMap.2 ⟨x, hx, hi⟩)))
            (fun x hx i hi => .inl (List.mem_append_right _ (List.mem_flatMap.2 ⟨x, hx, hi⟩)))
            fun w hw => ?_) (.routeGen _ _ _ _)
      rotate_left 2
      · have : w.wire ∈ r2.1.map (·.wire) ++ (r1.1.map (·.wire) ++ []) := by
          rcases List.mem_append.1 hw with h | h
          · exact List.mem_append_right _ (List.mem_append_left _ (List.mem_map_of_mem h))
          · exact List.mem_append_left _ (List.mem_map_of_mem h)
        exact ⟨.inr this, this⟩
      · exact bind (ofOption _) fun _ => bind (ofOption _) fun _ =>
          bind (assertPermutationFuel fuel _ _) fun _ => assertPermutationFuel fuel _ _
      · exact bind (ofOption _) fun _ => bind (ofOption _) fun _ =>
          bind (assertPermutationFuel fuel _ _) fun _ => assertPermutationFuel fuel _ _

theorem assertPermutation (a b : List (Expression p)) : Apiece (B.assertPermutation a b) :=
  assertPermutationFuel _ _ _

theorem splitOutputs : ∀ es : List (Expression p), Apiece (B.splitOutputs es)
  | [] => panic
  | [_] => bind (split _) fun _ => pure _
  | _ :: e :: rest => bind (splitAllowingAmbiguity _) fun _ => bind (splitOutputs (e :: rest))
    fun _ => pure _

theorem assertAscending : ∀ xs : List (BinaryExpression p), Apiece (B.assertAscending xs)
  | [] => pure _
  | [_] => pure _
  | _ :: y :: rest => bind (assertLeBinary _ _) fun _ => assertAscending (y :: rest)

theorem sortAscending (xs : List (Expression p)) : Apiece (B.sortAscending xs) :=
  .of <| .bindW (.wires _) (.wires _) fun ws hws => .bind (.keep (assertPermutation _ _)) fun _ =>
    .bind (.keep (splitOutputs _)) fun _ => .bind (.keep (assertAscending _)) fun _ =>
    .bind (.gen (.sortGen (fun x hx i hi => .inl (List.mem_flatMap.2 ⟨x, hx, hi⟩))
      fun w hw => ⟨.inr (by simpa using hw), by simpa using hw⟩) (.sortGen xs ws)) fun _ => .pure' (List.Subperm.refl _)

theorem sortDescending (xs : List (Expression p)) : Apiece (B.sortDescending xs) :=
  bind (sortAscending _) fun _ => pure _

/-! ### Permutations, ciphers, hash functions -/

theorem monomial (f : MonomialPermutation p) (x : Expression p) : Apiece (f.permute x) :=
  exponentiation x f.n

theorem root (f : MonomialPermutation p) (x : Expression p) : Apiece (f.inverse x) :=
  .of <| .bind .wire fun _ => .bind (.keep (exponentiation _ _)) fun _ => .bind (.keep (assertEqual _ _)) fun _ =>
    .bind (.keep (ofOption _)) fun _ => .bind (.gen (.rootGen (by simp +contextual) _ (by simp) (by simp)) (.read fun _ => .set _ _)) fun _ => .pure' (List.Subperm.refl _)

theorem encryptRounds (c : MiMC p) (key : Expression p) : ∀ (rcs : List (Elem p))
    (x : Expression p), Apiece (c.encryptRounds key rcs x)
  | [], _ => pure _
  | _ :: rcs, _ => bind (monomial _ _) fun z => encryptRounds c key rcs z

theorem encrypt (c : MiMC p) (key x : Expression p) : Apiece (c.encrypt key x) :=
  bind (monomial _ _) fun _ => bind (encryptRounds _ _ _ _) fun _ => pure _

theorem decryptRounds (c : MiMC p) (key : Expression p) : ∀ (rcs : List (Elem p))
    (x : Expression p), Apiece (c.decryptRounds key rcs x)
  | [], _ => pure _
  | _ :: rcs, _ => bind (root _ _) fun _ => decryptRounds c key rcs _

theorem decrypt (c : MiMC p) (key x : Expression p) : Apiece (c.decrypt key x) :=
  bind (decryptRounds _ _ _ _) fun _ => bind (root _ _) fun _ => pure _

theorem absorb {h : MerkleDamgard p} (hc : ∀ x y, Apiece (h.compress.compress x y)) :
    ∀ (blocks : List (Expression p)) (x : Expression p), Apiece (h.absorb blocks x)
  | [], _ => pure _
  | _ :: blocks, _ => bind (hc _ _) fun z => absorb hc blocks z

theorem hash {h : MerkleDamgard p} (hc : ∀ x y, Apiece (h.compress.compress x y))
    (blocks : List (Expression p)) : Apiece (h.hash blocks) :=
  bind (absorb hc _ _) fun _ => bind (ofOption _) fun _ => hc _ _

theorem merkleTreeLoop {c : CompressionFunction p} (hc : ∀ x y, Apiece (c.compress x y)) :
    ∀ (l : List (BooleanExpression p × Expression p)) (x : Expression p),
      Apiece (B.merkleTreeLoop c l x)
  | [], _ => pure _
  | (_, _) :: l, _ => bind (bind (selection _ _ _) fun _ => hc _ _) fun _ => merkleTreeLoop hc l _

theorem permuteState {sp : Sponge p} (hp : ∀ xs, Apiece (sp.permutation.permute xs))
    (i c : List (Expression p)) : Apiece (sp.permuteState i c) :=
  bind (hp _) fun _ => bind (require _) fun _ => bind (require _) fun _ => pure _

theorem spongeAbsorb {sp : Sponge p} (hp : ∀ xs, Apiece (sp.permutation.permute xs)) :
    ∀ (cs : List (List (Expression p))) (i c : List (Expression p)), Apiece (sp.absorb cs i c)
  | [], _, _ => pure _
  | _ :: cs, _, _ => bind (ofOption _) fun _ => bind (permuteState hp _ _) fun _ =>
    spongeAbsorb hp cs _ _

theorem squeeze {sp : Sponge p} (hp : ∀ xs, Apiece (sp.permutation.permute xs)) (k : ℕ) :
    ∀ (fuel : ℕ) (i c o : List (Expression p)), Apiece (sp.squeeze k fuel i c o)
  | 0, _, _, _ => ite panic (pure _)
  | fuel + 1, _, _, _ => ite (bind (permuteState hp _ _) fun _ => squeeze hp k fuel _ _ _) (pure _)

theorem sponge {sp : Sponge p} (hp : ∀ xs, Apiece (sp.permutation.permute xs))
    (xs : List (Expression p)) (k : ℕ) : Apiece (sp.evaluate xs k) :=
  bind (ofOption _) fun _ => bind (spongeAbsorb hp _ _ _) fun _ => bind (squeeze hp _ _ _ _ _)
    fun _ => pure _

theorem mapExpressions {f : Expression p → B p (Expression p)} (hf : ∀ x, Apiece (f x)) :
    ∀ xs, Apiece (B.mapExpressions f xs)
  | [] => pure _
  | _ :: xs => bind (hf _) fun _ => bind (mapExpressions hf xs) fun _ => pure _

theorem ofOption_bind {o : Option α} {f : α → B p β} (h : ∀ a, o = some a → Apiece (f a)) :
    Apiece (B.ofOption o >>= f) := by
  rcases o with _ | a
  · exact (panic : Apiece (B.panic : B p β))
  · exact h a rfl

theorem sboxPermute (f : Poseidon p) (x : Expression p) : Apiece (f.sboxPermute x) := by
  refine ofOption_bind fun s hs => ?_
  unfold Poseidon.sboxPermutation at hs
  split at hs
  · obtain rfl := Option.some.inj hs
    exact inverseOrZero x
  all_goals
    obtain ⟨n, _, hs⟩ := Option.bind_eq_some_iff.1 hs
    obtain ⟨m, _, hs⟩ := Option.bind_eq_some_iff.1 hs
    obtain rfl := Option.some.inj hs
    exact monomial m x

theorem sboxFirst (f : Poseidon p) : ∀ xs, Apiece (f.sboxFirst xs)
  | [] => panic
  | _ :: _ => bind (sboxPermute f _) fun _ => pure _

theorem poseidonRounds (f : Poseidon p) : ∀ (left round : ℕ) (xs : List (Expression p)),
    Apiece (f.rounds round left xs)
  | 0, _, _ => pure _
  | left + 1, round, _ => bind (ite (mapExpressions (sboxPermute f) _) (sboxFirst f _)) fun _ =>
    poseidonRounds f left (round + 1) _

theorem poseidon (f : Poseidon p) (xs : List (Expression p)) : Apiece (f.permute xs) :=
  bind (require _) fun _ => bind (require _) fun _ => poseidonRounds f _ _ _

theorem rescueRounds (f : Rescue p) : ∀ (left : ℕ) (xs : List (Expression p)),
    Apiece (f.rounds left xs)
  | 0, _ => pure _
  | left + 1, _ => bind (mapExpressions (fun x => bind (ofOption _) fun m => monomial m x) _) fun _ =>
    bind (mapExpressions (fun x => bind (ofOption _) fun m => root m x) _) fun _ =>
      rescueRounds f left _

theorem rescue (f : Rescue p) (xs : List (Expression p)) : Apiece (f.permute xs) := rescueRounds f _ _

/-! ### Curves and signatures -/

theorem edwardsNew (C : EdwardsCurve p) (x y : Expression p) : Apiece (EdwardsExpression.new C x y) :=
  bind (product _ _) fun _ => bind (product _ _) fun _ => bind (product _ _) fun _ =>
    bind (assertEqual _ _) fun _ => pure _

theorem edwardsAdd (C : EdwardsCurve p) (P Q : EdwardsExpression p) :
    Apiece (EdwardsGroup.addExpressions C P Q) :=
  bind (product _ _) fun _ => bind (product _ _) fun _ => bind (product _ _) fun _ =>
  bind (product _ _) fun _ => bind (product _ _) fun _ => bind (quotientUnsafe _ _) fun _ =>
  bind (quotientUnsafe _ _) fun _ => pure _

theorem edwardsDouble (C : EdwardsCurve p) (P : EdwardsExpression p) :
    Apiece (EdwardsGroup.doubleExpression C P) :=
  bind (product _ _) fun _ => bind (product _ _) fun _ => bind (product _ _) fun _ =>
  bind (ofOption _) fun _ => bind (quotientUnsafe _ _) fun _ => bind (ofOption _) fun _ =>
  bind (quotientUnsafe _ _) fun _ => pure _

section
variable {GE GX : Type} {G : GroupOps p GE GX}

theorem selectAll (b : BooleanExpression p) : ∀ xs is : List (Expression p),
    Apiece (GroupOps.selectAll b xs is)
  | [], _ => pure _
  | _ :: _, [] => panic
  | _ :: xs, _ :: is => bind (selection _ _ _) fun _ => bind (selectAll b xs is) fun _ => pure _

theorem mulBoolean (x : GX) (b : BooleanExpression p) : Apiece (G.mulBooleanExpression x b) :=
  bind (ofOption _) fun _ => bind (selectAll _ _ _) fun _ => ofOption _

theorem mulLoop (ha : ∀ x y, Apiece (G.addExpressions x y))
    (hd : ∀ x, Apiece (G.doubleExpression x)) :
    ∀ (bits : List (BooleanExpression p)) (sum current : GX), Apiece (G.mulLoop bits sum current)
  | [], _, _ => pure _
  | _ :: bits, _, _ => bind (mulBoolean _ _) fun _ => bind (ha _ _) fun _ =>
    bind (hd _) fun _ => mulLoop ha hd bits _ _

theorem mulScalar (ha : ∀ x y, Apiece (G.addExpressions x y))
    (hd : ∀ x, Apiece (G.doubleExpression x)) (x : GX) (k : Expression p) :
    Apiece (G.mulScalarExpression x k) :=
  bind (splitAllowingAmbiguity _) fun _ => bind (ofOption _) fun _ => mulLoop ha hd _ _ _

theorem schnorr {C : CyclicGroupOps p GE GX} (ha : ∀ x y, Apiece (C.addExpressions x y))
    (hd : ∀ x, Apiece (C.doubleExpression x)) {c : CompressionFunction p}
    (hc : ∀ x y, Apiece (c.compress x y)) (σ : SignatureExpression p) (m : Expression p) (Y : GX) :
    Apiece (schnorrVerify C c σ m Y) :=
  bind (ofOption _) fun _ => bind (mulScalar ha hd _ _) fun _ => bind (mulScalar ha hd _ _) fun _ =>
    bind (ha _ _) fun _ => bind (hc _ _) fun _ => assertEqual _ _

end

/-! ### Examples of the README -/

theorem readmeCube (x : Expression p) : Apiece (Readme.cube x) :=
  bind (product _ _) fun _ => product _ _

theorem readmeInverse (x : Expression p) : Apiece (Readme.inverse x) := inverse x

theorem readmeHash (rounds : ℕ) (blocks : List (Expression p)) :
    Apiece (Readme.hash rounds blocks) := by
  refine ofOption_bind fun c _ => ofOption_bind fun h hh => ?_
  unfold MerkleDamgard.newDefaults at hh
  obtain ⟨_, _, hh⟩ := Option.bind_eq_some_iff.1 hh
  obtain rfl := Option.some.inj hh
  exact hash (fun _ _ => bind (encrypt c _ _) fun _ => pure _) blocks

end Apiece

end R1CS
