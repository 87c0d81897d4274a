import Verif.Spec.Strict
import Verif.Lemmas.Tidy

/-!
# Generators of gadgets calculate the same wires in every execution (`Spec/Strict.lean`)
-/

set_option linter.unusedSectionVars false

namespace R1CS

variable {p : ℕ} [hp : Fact p.Prime] {α β : Type}

/-! ## Closures -/

/-- `Exact` for a closure; the declared inputs do not matter. -/
def Ex (outs : List Wire) (f : WireValues p → Option (WireValues p)) : Prop :=
  ∀ v v', f v = some v' → (∀ o ∈ outs, v o = none ∧ (v' o).isSome) ∧ ∀ i ∉ outs, v' i = v i

namespace Ex

variable {l l' : List Wire}

theorem id : Ex (p := p) [] (fun v => some v) := by
  intro v v' h
  obtain rfl := Option.some.inj h
  exact ⟨by simp, fun _ _ => rfl⟩

theorem none : Ex (p := p) l (fun _ => Option.none) := fun _ _ h => absurd h (by simp)

theorem seq {f g : WireValues p → Option (WireValues p)} (hf : Ex l f) (hg : Ex l' g) :
    Ex (l ++ l') (fun v => (f v).bind g) := by
  intro v v' h
  obtain ⟨u, h1, h2⟩ := Option.bind_eq_some_iff.1 h
  obtain ⟨f1, f2⟩ := hf v u h1
  obtain ⟨g1, g2⟩ := hg u v' h2
  refine ⟨fun o ho => ?_, fun i hi => ?_⟩
  · by_cases hl : o ∈ l
    · refine ⟨(f1 o hl).1, ?_⟩
      by_cases hl' : o ∈ l'
      · exact (g1 o hl').2
      · rw [g2 o hl']; exact (f1 o hl).2
    · have hl' : o ∈ l' := (List.mem_append.1 ho).resolve_left hl
      rw [← f2 o hl]
      exact g1 o hl'
  · rw [List.mem_append, not_or] at hi
    rw [g2 i hi.2, f2 i hi.1]

theorem read {r : WireValues p → Option β} {k : β → WireValues p → Option (WireValues p)}
    (hk : ∀ x, Ex l (k x)) : Ex l (fun v => (r v).bind fun x => k x v) := by
  intro v v' h
  obtain ⟨x, _, h2⟩ := Option.bind_eq_some_iff.1 h
  exact hk x v v' h2

theorem ite {c : Prop} [Decidable c] {f g : WireValues p → Option (WireValues p)}
    (hf : Ex l f) (hg : Ex l g) : Ex l (fun v => if c then f v else g v) := by
  by_cases h : c
  · simpa [h] using hf
  · simpa [h] using hg

theorem set (w : Wire) (x : Elem p) : Ex [w] (fun v => v.set w x) := by
  intro v v' h
  unfold WireValues.set WireValues.contains at h
  beta_reduce at h
  rcases hv : v w with _ | y
  · rw [hv] at h
    obtain rfl := Option.some.inj (by simpa using h)
    refine ⟨fun o ho => ?_, fun i hi => ?_⟩
    · obtain rfl := List.mem_singleton.1 ho
      exact ⟨hv, by simp [WireValues.insert]⟩
    · rw [List.mem_singleton] at hi
      exact if_neg hi
  · rw [hv] at h
    exact absurd h (by simp)

theorem nonzeroGen (x : Expression p) (y m : Wire) : Ex ([m] ++ [y]) (B.nonzeroGen x y m) :=
  read fun _ => read (r := fun _ => _) fun _ => seq (set _ _) (set _ _)

theorem productGen (x y : Expression p) (w : Wire) : Ex [w] (B.productGen x y w) :=
  read fun _ => read fun _ => set _ _

theorem inverseGen (x : Expression p) (w : Wire) : Ex [w] (B.inverseGen x w) :=
  read fun _ => read (r := fun _ => _) fun _ => set _ _

theorem inverseOrZeroGen (x : Expression p) (w : Wire) : Ex [w] (B.inverseOrZeroGen x w) :=
  read fun _ => read (r := fun _ => _) fun _ => set _ _

theorem quotientUnsafeGen (x y : Expression p) (w : Wire) : Ex [w] (B.quotientUnsafeGen x y w) :=
  read fun _ => read fun _ => ite (read (r := fun _ => _) fun _ => set _ _) none

theorem setBitsOf (x : Elem p) : ∀ (ws : List BooleanWire) (i : ℕ),
    Ex (ws.map BooleanWire.wire) (B.setBitsOf x i ws)
  | [], _ => id
  | w :: ws, i =>
    show Ex ([w.wire] ++ ws.map BooleanWire.wire)
        (fun v => (v.setBoolean w (x.bit i)).bind (B.setBitsOf x (i + 1) ws)) from
      seq (set _ _) (setBitsOf x ws (i + 1))

theorem splitGen (x : Expression p) (n : ℕ) (w : BinaryWire) :
    Ex (w.bits.map BooleanWire.wire) (B.splitGen x n w) :=
  read fun _ => ite (setBitsOf _ _ _) none

theorem setBits (n : ℕ) : ∀ (ws : List BooleanWire) (i : ℕ),
    Ex (p := p) (ws.map BooleanWire.wire) (fun v => v.setBits n i ws)
  | [], _ => id
  | w :: ws, i =>
    show Ex ([w.wire] ++ ws.map BooleanWire.wire)
        (fun v => (v.setBoolean w ((n >>> i) &&& 1 == 1)).bind fun v => v.setBits n (i + 1) ws) from
      seq (set _ _) (setBits n ws (i + 1))

theorem summationGen (x : Expression p) (w : BinaryWire) :
    Ex (w.bits.map BooleanWire.wire) (B.summationGen x w) :=
  read fun _ => ite (setBits _ _ _) none

theorem maskGen : ∀ (l : List (Wire × Expression p × Expression p)) (b : Bool),
    Ex (l.map (·.1)) (B.maskGen l b)
  | [], _ => id
  | (m, x, y) :: l, b =>
    show Ex ([m] ++ l.map (·.1)) (fun v => (x.evaluate v).bind fun xv => (y.evaluate v).bind
        fun yv => (v.set m (Elem.ofBool (decide (xv ≠ yv) && !b))).bind
          (B.maskGen l (b || decide (xv ≠ yv)))) from
      read fun _ => read fun _ => seq (set _ _) (maskGen l _)

theorem modulusGen (x y : Expression p) (q r : Wire) : Ex ([q] ++ [r]) (B.modulusGen x y q r) :=
  read fun _ => read fun _ => read (r := fun _ => _) fun _ => seq (set _ _)
    (read (r := fun _ => _) fun _ => set _ _)

theorem permutation2x2Gen (x y z t : Expression p) (s : BooleanWire) :
    Ex [s.wire] (B.permutation2x2Gen x y z t s) :=
  read fun _ => read fun _ => read fun _ => read fun _ => ite (set _ _) (ite (set _ _) none)

theorem setItems : ∀ (ws : List Wire) (xs : List (Elem p)),
    Ex (ws.take xs.length) (B.setItems ws xs)
  | [], [] => id
  | _ :: _, [] => id
  | [], _ :: _ => none
  | w :: ws, x :: xs =>
    show Ex ([w] ++ ws.take xs.length) (fun v => (v.set w x).bind (B.setItems ws xs)) from
      seq (set _ _) (setItems ws xs)

theorem mapM_length {γ δ : Type} {f : γ → Option δ} : ∀ {l : List γ} {r : List δ},
    l.mapM f = some r → r.length = l.length
  | [], r, h => by
    rw [List.mapM_nil] at h
    obtain rfl := Option.some.inj h
    rfl
  | x :: l, r, h => by
    rw [List.mapM_cons] at h
    obtain ⟨y, _, h⟩ := Option.bind_eq_some_iff.1 h
    obtain ⟨ys, h2, h⟩ := Option.bind_eq_some_iff.1 h
    obtain rfl := Option.some.inj h
    simp [mapM_length h2]

theorem sortGen (xs : List (Expression p)) (ws : List Wire) :
    Ex (ws.take xs.length) (B.sortGen xs ws) := by
  intro v v' h
  obtain ⟨items, h1, h2⟩ := Option.bind_eq_some_iff.1 h
  have := setItems ws _ v v' h2
  rwa [List.length_mergeSort, mapM_length h1] at this

theorem rootGen (x : Expression p) (k : Elem p) (w : Wire) :
    Ex [w] (MonomialPermutation.rootGen x k w) :=
  read fun _ => set _ _

end Ex

/-! ## Programs -/

/-- A property of lists of generators which exact generators have, and joined lists. -/
class Good (Φ : List (WitnessGenerator p) → Prop) : Prop where
  nil : Φ []
  append : ∀ {l l'}, Φ l → Φ l' → Φ (l ++ l')
  exact : ∀ {d f outs}, Ex outs f → Φ [⟨d, f⟩]

/-- The generators which `m` adds have the property `Φ`. -/
def Appends (Φ : List (WitnessGenerator p) → Prop) (m : B p α) : Prop :=
  ∀ b a b', m b = some (a, b') → ∃ gs, b'.witnessGenerators = b.witnessGenerators ++ gs ∧ Φ gs

namespace Appends

variable {Φ : List (WitnessGenerator p) → Prop} [hΦ : Good Φ]

theorem pure (a : α) : Appends Φ (pure a : B p α) := by
  intro b a' b' h
  obtain ⟨rfl, rfl⟩ := Prod.ext_iff.1 (Option.some.inj h)
  exact ⟨[], by simp, hΦ.nil⟩

theorem bind {m : B p α} {f : α → B p β} (hm : Appends Φ m) (hf : ∀ a, Appends Φ (f a)) :
    Appends Φ (m >>= f) := by
  intro b z b' h
  obtain ⟨a, b1, h1, h2⟩ := B.bind_run h
  obtain ⟨gs1, g1, c1⟩ := hm b a b1 h1
  obtain ⟨gs2, g2, c2⟩ := hf a b1 z b' h2
  exact ⟨gs1 ++ gs2, by rw [g2, g1, List.append_assoc], hΦ.append c1 c2⟩

theorem panic : Appends Φ (B.panic : B p α) := fun _ _ _ h => absurd h (by simp [B.panic])

theorem ofOption (o : Option α) : Appends Φ (B.ofOption o : B p α) := by
  intro b a b' h
  unfold B.ofOption at h
  obtain ⟨x, rfl, h2⟩ := Option.map_eq_some_iff.1 h
  obtain ⟨rfl, rfl⟩ := Prod.ext_iff.1 h2
  exact ⟨[], by simp, hΦ.nil⟩

theorem require (c : Prop) [Decidable c] : Appends Φ (B.require c : B p Unit) := by
  unfold B.require
  split
  · exact pure _
  · exact panic

theorem ite {c : Prop} [Decidable c] {m k : B p α} (hm : Appends Φ m) (hk : Appends Φ k) :
    Appends Φ (if c then m else k) := by
  split
  · exact hm
  · exact hk

theorem wire : Appends Φ (B.wire : B p Wire) := by
  intro b a b' h
  obtain ⟨rfl, rfl⟩ := Prod.ext_iff.1 (Option.some.inj h)
  exact ⟨[], by simp, hΦ.nil⟩

theorem assertProduct (x y z : Expression p) : Appends Φ (B.assertProduct x y z) := by
  intro b a b' h
  obtain ⟨_, rfl⟩ := Prod.ext_iff.1 (Option.some.inj h)
  exact ⟨[], by simp, hΦ.nil⟩

theorem generator {d outs : List Wire} {f : WireValues p → Option (WireValues p)} (h : Ex outs f) :
    Appends Φ (B.generator d f) := by
  intro b a b' hb
  obtain ⟨_, rfl⟩ := Prod.ext_iff.1 (Option.some.inj hb)
  exact ⟨[⟨d, f⟩], rfl, hΦ.exact h⟩

theorem wires : ∀ k : ℕ, Appends Φ (B.wires k : B p (List Wire))
  | 0 => pure _
  | k + 1 => bind wire fun _ => bind (wires k) fun _ => pure _

theorem assertBoolean (x : Expression p) : Appends Φ (B.assertBoolean x) :=
  bind (assertProduct _ _ _) fun _ => pure _

theorem assertEqual (x y : Expression p) : Appends Φ (B.assertEqual x y) := assertProduct _ _ _

theorem assertZero (x : Expression p) : Appends Φ (B.assertZero x) := assertProduct _ _ _

theorem assertTrue (x : BooleanExpression p) : Appends Φ (B.assertTrue x) := assertProduct _ _ _

theorem assertFalse (x : BooleanExpression p) : Appends Φ (B.assertFalse x) := assertProduct _ _ _

theorem booleanWire : Appends Φ (B.booleanWire : B p BooleanWire) :=
  bind wire fun _ => bind (assertBoolean _) fun _ => pure _

theorem booleanWires : ∀ k : ℕ, Appends Φ (B.booleanWires k : B p (List BooleanWire))
  | 0 => pure _
  | k + 1 => bind booleanWire fun _ => bind (booleanWires k) fun _ => pure _

theorem binaryWire (k : ℕ) : Appends Φ (B.binaryWire k : B p BinaryWire) :=
  bind (booleanWires k) fun _ => pure _

theorem nonzero (x : Expression p) : Appends Φ (B.nonzero x) :=
  bind wire fun _ => bind wire fun _ => bind (assertProduct _ _ _) fun _ =>
    bind (assertProduct _ _ _) fun _ => bind (generator (Ex.nonzeroGen _ _ _)) fun _ => pure _

theorem not (x : BooleanExpression p) : Appends Φ (B.not x) := pure _

theorem zero (x : Expression p) : Appends Φ (B.zero x) := bind (nonzero x) fun _ => not _

theorem equal (x y : Expression p) : Appends Φ (B.equal x y) := zero _

theorem product (x y : Expression p) : Appends Φ (B.product x y) := by
  unfold B.product
  split
  · exact pure _
  · split
    · exact pure _
    · exact bind wire fun _ => bind (assertProduct _ _ _) fun _ =>
        bind (generator (Ex.productGen _ _ _)) fun _ => pure _

theorem selection (c : BooleanExpression p) (x y : Expression p) : Appends Φ (B.selection c x y) :=
  bind (product _ _) fun _ => pure _

theorem expLoop (x : Expression p) (k : Elem p) : ∀ (r i : ℕ) (e f : Expression p),
    Appends Φ (B.expLoop x k i r e f)
  | 0, _, _, _ => pure _
  | r + 1, i, _, _ =>
    bind (ite (pure _) (product _ _)) fun _ => bind (ite (product _ _) (pure _)) fun _ =>
      expLoop x k r (i + 1) _ _

theorem exponentiation (x : Expression p) (k : Elem p) : Appends Φ (B.exponentiation x k) :=
  expLoop _ _ _ _ _ _

theorem inverse (x : Expression p) : Appends Φ (B.inverse x) :=
  bind wire fun _ => bind (assertProduct _ _ _) fun _ =>
    bind (generator (Ex.inverseGen _ _)) fun _ => pure _

theorem assertNonzero (x : Expression p) : Appends Φ (B.assertNonzero x) :=
  bind (inverse x) fun _ => pure _

theorem assertNonequal (x y : Expression p) : Appends Φ (B.assertNonequal x y) := assertNonzero _

theorem inverseOrZero (x : Expression p) : Appends Φ (B.inverseOrZero x) :=
  bind wire fun _ => bind (nonzero x) fun _ => bind (assertProduct _ _ _) fun _ =>
    bind (generator (Ex.inverseOrZeroGen _ _)) fun _ => pure _

theorem quotient (x y : Expression p) : Appends Φ (B.quotient x y) :=
  bind (inverse y) fun _ => product _ _

theorem quotientUnsafe (x y : Expression p) : Appends Φ (B.quotientUnsafe x y) :=
  bind wire fun _ => bind (generator (Ex.quotientUnsafeGen _ _ _)) fun _ => pure _

theorem and (x y : BooleanExpression p) : Appends Φ (B.and x y) := bind (product _ _) fun _ => pure _

theorem or (x y : BooleanExpression p) : Appends Φ (B.or x y) := bind (product _ _) fun _ => pure _

theorem xor (x y : BooleanExpression p) : Appends Φ (B.xor x y) :=
  bind (product _ _) fun _ => bind (ofOption _) fun _ => pure _

theorem splitWithoutRangeCheck (x : Expression p) (k : ℕ) :
    Appends Φ (B.splitWithoutRangeCheck x k) :=
  bind (binaryWire k) fun _ => bind (ofOption _) fun _ => bind (assertEqual _ _) fun _ =>
    bind (generator (Ex.splitGen _ _ _)) fun _ => pure _

theorem splitAllowingAmbiguity (x : Expression p) : Appends Φ (B.splitAllowingAmbiguity x) :=
  splitWithoutRangeCheck _ _

theorem splitBounded (x : Expression p) (k : ℕ) : Appends Φ (B.splitBounded x k) :=
  bind (require _) fun _ => splitWithoutRangeCheck _ _

theorem cmpSubtractive (d : Expression p) (l s : Bool) (k : ℕ) : Appends Φ (B.cmpSubtractive d l s k) :=
  bind (ofOption _) fun _ => bind (splitBounded _ _) fun _ => ofOption _

theorem assertBooleans : ∀ l : List Wire, Appends Φ (B.assertBooleans l : B p Unit)
  | [] => pure _
  | _ :: ms => bind (assertBoolean _) fun _ => assertBooleans ms

theorem maskedSum : ∀ (l : List (Wire × Expression p × Expression p)) (e : Expression p),
    Appends Φ (B.maskedSum l e)
  | [], _ => pure _
  | (_, _, _) :: l, _ => bind (product _ _) fun _ => maskedSum l _

theorem assertMoreSignificantEqual : ∀ (l : List (Wire × Expression p × Expression p))
    (e : Expression p), Appends Φ (B.assertMoreSignificantEqual l e)
  | [], _ => pure _
  | (_, _, _) :: l, _ => bind (assertProduct _ _ _) fun _ => assertMoreSignificantEqual l _

theorem cmpTail (z : List (Wire × Expression p × Expression p)) (d : BooleanExpression p)
    (l s : Bool) (c : ℕ) : Appends Φ (B.cmpTail z d l s c) := by
  refine bind (maskedSum _ _) fun _ => ?_
  split
  · exact panic
  · exact bind (assertMoreSignificantEqual _ _) fun _ =>
      bind (ite (pure _) (bind (selection _ _ _) fun _ => assertNonzero _)) fun _ =>
        cmpSubtractive _ _ _ _

theorem cmpBinary (x y : BinaryExpression p) (l s : Bool) : Appends Φ (B.cmpBinary x y l s) :=
  bind (require _) fun _ => bind (ofOption _) fun _ => bind (ofOption _) fun _ =>
    bind (ofOption _) fun _ => bind (ofOption _) fun _ => bind (wires _) fun _ =>
    bind (assertBooleans _) fun _ => bind (assertBoolean _) fun _ =>
    bind (generator (Ex.maskGen _ _)) fun _ => cmpTail _ _ _ _ _

theorem assertLtBinary (x y : BinaryExpression p) : Appends Φ (B.assertLtBinary x y) :=
  bind (cmpBinary _ _ _ _) fun _ => assertTrue _

theorem assertLeBinary (x y : BinaryExpression p) : Appends Φ (B.assertLeBinary x y) :=
  bind (cmpBinary _ _ _ _) fun _ => assertTrue _

theorem assertGtBinary (x y : BinaryExpression p) : Appends Φ (B.assertGtBinary x y) :=
  bind (cmpBinary _ _ _ _) fun _ => assertTrue _

theorem assertGeBinary (x y : BinaryExpression p) : Appends Φ (B.assertGeBinary x y) :=
  bind (cmpBinary _ _ _ _) fun _ => assertTrue _

theorem split (x : Expression p) : Appends Φ (B.split x) :=
  bind (splitWithoutRangeCheck _ _) fun _ => bind (assertLtBinary _ _) fun _ => pure _

theorem cmp (x y : Expression p) (l s : Bool) : Appends Φ (B.cmp x y l s) :=
  ite (bind (splitAllowingAmbiguity _) fun _ => bind (split _) fun _ => cmpBinary _ _ _ _)
    (bind (split _) fun _ => bind (splitAllowingAmbiguity _) fun _ => cmpBinary _ _ _ _)

theorem assertLt (x y : Expression p) : Appends Φ (B.assertLt x y) :=
  bind (cmp _ _ _ _) fun _ => assertTrue _

theorem assertLe (x y : Expression p) : Appends Φ (B.assertLe x y) :=
  bind (cmp _ _ _ _) fun _ => assertTrue _

theorem assertGt (x y : Expression p) : Appends Φ (B.assertGt x y) :=
  bind (cmp _ _ _ _) fun _ => assertTrue _

theorem assertGe (x y : Expression p) : Appends Φ (B.assertGe x y) :=
  bind (cmp _ _ _ _) fun _ => assertTrue _

theorem modulus (x y : Expression p) : Appends Φ (B.modulus x y) :=
  bind wire fun _ => bind wire fun _ => bind (assertProduct _ _ _) fun _ =>
    bind (assertLt _ _) fun _ => bind (generator (Ex.modulusGen _ _ _ _)) fun _ => pure _

theorem divides (x y : Expression p) : Appends Φ (B.divides x y) := bind (modulus _ _) fun _ => zero _

/-! ### Binary and bitwise operations, random access -/

theorem binarySummation (terms : List (BinaryExpression p)) :
    Appends Φ (B.binarySummation terms) :=
  bind (require _) fun _ => bind (binaryWire _) fun _ => bind (ofOption _) fun _ =>
    bind (ofOption _) fun _ => bind (assertEqual _ _) fun _ =>
    bind (generator (Ex.summationGen _ _)) fun _ => pure _

theorem binarySummationIgnoringOverflow (terms : List (BinaryExpression p)) :
    Appends Φ (B.binarySummationIgnoringOverflow terms) :=
  bind (binarySummation _) fun _ => ofOption _

theorem assertZeros : ∀ cs : List (BinaryExpression p), Appends Φ (B.assertZeros cs)
  | [] => pure _
  | _ :: cs => bind (ofOption _) fun _ => bind (assertZero _) fun _ => assertZeros cs

theorem binaryAssertZero (x : BinaryExpression p) : Appends Φ (B.binaryAssertZero x) :=
  bind (ofOption _) fun _ => assertZeros _

theorem binarySummationAssertingNoOverflow (terms : List (BinaryExpression p)) :
    Appends Φ (B.binarySummationAssertingNoOverflow terms) :=
  bind (binarySummation _) fun _ => bind (require _) fun _ => bind (binaryAssertZero _) fun _ =>
    ofOption _

theorem notBits : ∀ bs : List (BooleanExpression p), Appends Φ (B.notBits bs)
  | [] => pure _
  | _ :: bs => bind (not _) fun _ => bind (notBits bs) fun _ => pure _

theorem bitwiseNot (x : BinaryExpression p) : Appends Φ (B.bitwiseNot x) :=
  bind (notBits _) fun _ => pure _

theorem zipBits {op : BooleanExpression p → BooleanExpression p → B p (BooleanExpression p)}
    (h : ∀ x y, Appends Φ (op x y)) : ∀ bs cs : List (BooleanExpression p), Appends Φ (B.zipBits op bs cs)
  | [], _ => pure _
  | _ :: _, [] => pure _
  | _ :: bs, _ :: cs => bind (h _ _) fun _ => bind (zipBits h bs cs) fun _ => pure _

theorem bitwiseAnd (x y : BinaryExpression p) : Appends Φ (B.bitwiseAnd x y) :=
  bind (require _) fun _ => bind (zipBits and _ _) fun _ => pure _

theorem bitwiseOr (x y : BinaryExpression p) : Appends Φ (B.bitwiseOr x y) :=
  bind (require _) fun _ => bind (zipBits or _ _) fun _ => pure _

theorem bitwiseXor (x y : BinaryExpression p) : Appends Φ (B.bitwiseXor x y) :=
  bind (require _) fun _ => bind (zipBits xor _ _) fun _ => pure _

theorem parentLayer (b : BooleanExpression p) : ∀ items : List (Expression p),
    Appends Φ (B.parentLayer b items)
  | [] => pure _
  | [_] => pure _
  | _ :: _ :: rest => bind (selection _ _ _) fun _ => bind (parentLayer b rest) fun _ => pure _

theorem randomAccessBinary : ∀ (bits : List (BooleanExpression p)) (items : List (Expression p)),
    Appends Φ (B.randomAccessBinary bits items)
  | [], [] => panic
  | [], [_] => pure _
  | [], _ :: _ :: _ => panic
  | _ :: _, [_] => panic
  | _ :: bits, [] => bind (parentLayer _ _) fun _ => randomAccessBinary bits _
  | _ :: bits, _ :: _ :: _ => bind (parentLayer _ _) fun _ => randomAccessBinary bits _

theorem randomAccess (items : List (Expression p)) (index : Expression p) :
    Appends Φ (B.randomAccess items index) :=
  bind (splitBounded _ _) fun _ => randomAccessBinary _ _

/-! ### Permutation networks and sorting -/

theorem createSwitch (a b : Expression p) : Appends Φ (B.createSwitch a b) :=
  bind booleanWire fun _ => bind (selection _ _ _) fun _ => pure _

theorem assertPermutation2x2 (a b c d : Expression p) :
    Appends Φ (B.assertPermutation2x2 a b c d) :=
  bind (createSwitch a b) fun _ => bind (assertEqual _ _) fun _ => bind (assertEqual _ _) fun _ =>
    generator (Ex.permutation2x2Gen _ _ _ _ _)

theorem splitOutputs : ∀ es : List (Expression p), Appends Φ (B.splitOutputs es)
  | [] => panic
  | [_] => bind (split _) fun _ => pure _
  | _ :: e :: rest => bind (splitAllowingAmbiguity _) fun _ => bind (splitOutputs (e :: rest))
    fun _ => pure _

theorem assertAscending : ∀ xs : List (BinaryExpression p), Appends Φ (B.assertAscending xs)
  | [] => pure _
  | [_] => pure _
  | _ :: y :: rest => bind (assertLeBinary _ _) fun _ => assertAscending (y :: rest)

theorem sortAscending (hpm : ∀ xs ys, Appends Φ (B.assertPermutation (p := p) xs ys))
    (xs : List (Expression p)) : Appends Φ (B.sortAscending xs) :=
  bind (wires _) fun _ => bind (hpm _ _) fun _ => bind (splitOutputs _) fun _ =>
    bind (assertAscending _) fun _ => bind (generator (Ex.sortGen _ _)) fun _ => pure _

theorem sortDescending (hpm : ∀ xs ys, Appends Φ (B.assertPermutation (p := p) xs ys))
    (xs : List (Expression p)) : Appends Φ (B.sortDescending xs) :=
  bind (sortAscending hpm _) fun _ => pure _

/-! ### Permutations, ciphers, hash functions -/

theorem monomial (f : MonomialPermutation p) (x : Expression p) : Appends Φ (f.permute x) :=
  exponentiation x f.n

theorem root (f : MonomialPermutation p) (x : Expression p) : Appends Φ (f.inverse x) :=
  bind wire fun _ => bind (exponentiation _ _) fun _ => bind (assertEqual _ _) fun _ =>
    bind (ofOption _) fun _ => bind (generator (Ex.rootGen _ _ _)) fun _ => pure _

theorem encryptRounds (c : MiMC p) (key : Expression p) : ∀ (rcs : List (Elem p))
    (x : Expression p), Appends Φ (c.encryptRounds key rcs x)
  | [], _ => pure _
  | _ :: rcs, _ => bind (monomial _ _) fun z => encryptRounds c key rcs z

theorem encrypt (c : MiMC p) (key x : Expression p) : Appends Φ (c.encrypt key x) :=
  bind (monomial _ _) fun _ => bind (encryptRounds _ _ _ _) fun _ => pure _

theorem decryptRounds (c : MiMC p) (key : Expression p) : ∀ (rcs : List (Elem p))
    (x : Expression p), Appends Φ (c.decryptRounds key rcs x)
  | [], _ => pure _
  | _ :: rcs, _ => bind (root _ _) fun _ => decryptRounds c key rcs _

theorem decrypt (c : MiMC p) (key x : Expression p) : Appends Φ (c.decrypt key x) :=
  bind (decryptRounds _ _ _ _) fun _ => bind (root _ _) fun _ => pure _

theorem absorb {h : MerkleDamgard p} (hc : ∀ x y, Appends Φ (h.compress.compress x y)) :
    ∀ (blocks : List (Expression p)) (x : Expression p), Appends Φ (h.absorb blocks x)
  | [], _ => pure _
  | _ :: blocks, _ => bind (hc _ _) fun z => absorb hc blocks z

theorem hash {h : MerkleDamgard p} (hc : ∀ x y, Appends Φ (h.compress.compress x y))
    (blocks : List (Expression p)) : Appends Φ (h.hash blocks) :=
  bind (absorb hc _ _) fun _ => bind (ofOption _) fun _ => hc _ _

theorem merkleTreeLoop {c : CompressionFunction p} (hc : ∀ x y, Appends Φ (c.compress x y)) :
    ∀ (l : List (BooleanExpression p × Expression p)) (x : Expression p),
      Appends Φ (B.merkleTreeLoop c l x)
  | [], _ => pure _
  | (_, _) :: l, _ => bind (bind (selection _ _ _) fun _ => hc _ _) fun _ => merkleTreeLoop hc l _

theorem permuteState {sp : Sponge p} (hp : ∀ xs, Appends Φ (sp.permutation.permute xs))
    (i c : List (Expression p)) : Appends Φ (sp.permuteState i c) :=
  bind (hp _) fun _ => bind (require _) fun _ => bind (require _) fun _ => pure _

theorem spongeAbsorb {sp : Sponge p} (hp : ∀ xs, Appends Φ (sp.permutation.permute xs)) :
    ∀ (cs : List (List (Expression p))) (i c : List (Expression p)), Appends Φ (sp.absorb cs i c)
  | [], _, _ => pure _
  | _ :: cs, _, _ => bind (ofOption _) fun _ => bind (permuteState hp _ _) fun _ =>
    spongeAbsorb hp cs _ _

theorem squeeze {sp : Sponge p} (hp : ∀ xs, Appends Φ (sp.permutation.permute xs)) (k : ℕ) :
    ∀ (fuel : ℕ) (i c o : List (Expression p)), Appends Φ (sp.squeeze k fuel i c o)
  | 0, _, _, _ => ite panic (pure _)
  | fuel + 1, _, _, _ => ite (bind (permuteState hp _ _) fun _ => squeeze hp k fuel _ _ _) (pure _)

theorem sponge {sp : Sponge p} (hp : ∀ xs, Appends Φ (sp.permutation.permute xs))
    (xs : List (Expression p)) (k : ℕ) : Appends Φ (sp.evaluate xs k) :=
  bind (ofOption _) fun _ => bind (spongeAbsorb hp _ _ _) fun _ => bind (squeeze hp _ _ _ _ _)
    fun _ => pure _

theorem mapExpressions {f : Expression p → B p (Expression p)} (hf : ∀ x, Appends Φ (f x)) :
    ∀ xs, Appends Φ (B.mapExpressions f xs)
  | [] => pure _
  | _ :: xs => bind (hf _) fun _ => bind (mapExpressions hf xs) fun _ => pure _

theorem ofOption_bind {o : Option α} {f : α → B p β} (h : ∀ a, o = some a → Appends Φ (f a)) :
    Appends Φ (B.ofOption o >>= f) := by
  rcases o with _ | a
  · exact (panic : Appends Φ (B.panic : B p β))
  · exact h a rfl

theorem sboxPermute (f : Poseidon p) (x : Expression p) : Appends Φ (f.sboxPermute x) := by
  refine ofOption_bind fun s hs => ?_
  unfold Poseidon.sboxPermutation at hs
  split at hs
  · obtain rfl := Option.some.inj hs
    exact inverseOrZero x
  all_goals
    obtain ⟨n, _, hs⟩ := Option.bind_eq_some_iff.1 hs
    obtain ⟨m, _, hs⟩ := Option.bind_eq_some_iff.1 hs
    obtain rfl := Option.some.inj hs
    exact monomial m x

theorem sboxFirst (f : Poseidon p) : ∀ xs, Appends Φ (f.sboxFirst xs)
  | [] => panic
  | _ :: _ => bind (sboxPermute f _) fun _ => pure _

theorem poseidonRounds (f : Poseidon p) : ∀ (left round : ℕ) (xs : List (Expression p)),
    Appends Φ (f.rounds round left xs)
  | 0, _, _ => pure _
  | left + 1, round, _ => bind (ite (mapExpressions (sboxPermute f) _) (sboxFirst f _)) fun _ =>
    poseidonRounds f left (round + 1) _

theorem poseidon (f : Poseidon p) (xs : List (Expression p)) : Appends Φ (f.permute xs) :=
  bind (require _) fun _ => bind (require _) fun _ => poseidonRounds f _ _ _

theorem rescueRounds (f : Rescue p) : ∀ (left : ℕ) (xs : List (Expression p)),
    Appends Φ (f.rounds left xs)
  | 0, _ => pure _
  | left + 1, _ => bind (mapExpressions (fun x => bind (ofOption _) fun m => monomial m x) _) fun _ =>
    bind (mapExpressions (fun x => bind (ofOption _) fun m => root m x) _) fun _ =>
      rescueRounds f left _

theorem rescue (f : Rescue p) (xs : List (Expression p)) : Appends Φ (f.permute xs) := rescueRounds f _ _

/-! ### Curves and signatures -/

theorem edwardsNew (C : EdwardsCurve p) (x y : Expression p) : Appends Φ (EdwardsExpression.new C x y) :=
  bind (product _ _) fun _ => bind (product _ _) fun _ => bind (product _ _) fun _ =>
    bind (assertEqual _ _) fun _ => pure _

theorem edwardsAdd (C : EdwardsCurve p) (P Q : EdwardsExpression p) :
    Appends Φ (EdwardsGroup.addExpressions C P Q) :=
  bind (product _ _) fun _ => bind (product _ _) fun _ => bind (product _ _) fun _ =>
  bind (product _ _) fun _ => bind (product _ _) fun _ => bind (quotientUnsafe _ _) fun _ =>
  bind (quotientUnsafe _ _) fun _ => pure _

theorem edwardsDouble (C : EdwardsCurve p) (P : EdwardsExpression p) :
    Appends Φ (EdwardsGroup.doubleExpression C P) :=
  bind (product _ _) fun _ => bind (product _ _) fun _ => bind (product _ _) fun _ =>
  bind (ofOption _) fun _ => bind (quotientUnsafe _ _) fun _ => bind (ofOption _) fun _ =>
  bind (quotientUnsafe _ _) fun _ => pure _

section
variable {GE GX : Type} {G : GroupOps p GE GX}

theorem selectAll (b : BooleanExpression p) : ∀ xs is : List (Expression p),
    Appends Φ (GroupOps.selectAll b xs is)
  | [], _ => pure _
  | _ :: _, [] => panic
  | _ :: xs, _ :: is => bind (selection _ _ _) fun _ => bind (selectAll b xs is) fun _ => pure _

theorem mulBoolean (x : GX) (b : BooleanExpression p) : Appends Φ (G.mulBooleanExpression x b) :=
  bind (ofOption _) fun _ => bind (selectAll _ _ _) fun _ => ofOption _

theorem mulLoop (ha : ∀ x y, Appends Φ (G.addExpressions x y))
    (hd : ∀ x, Appends Φ (G.doubleExpression x)) :
    ∀ (bits : List (BooleanExpression p)) (sum current : GX), Appends Φ (G.mulLoop bits sum current)
  | [], _, _ => pure _
  | _ :: bits, _, _ => bind (mulBoolean _ _) fun _ => bind (ha _ _) fun _ =>
    bind (hd _) fun _ => mulLoop ha hd bits _ _

theorem mulScalar (ha : ∀ x y, Appends Φ (G.addExpressions x y))
    (hd : ∀ x, Appends Φ (G.doubleExpression x)) (x : GX) (k : Expression p) :
    Appends Φ (G.mulScalarExpression x k) :=
  bind (splitAllowingAmbiguity _) fun _ => bind (ofOption _) fun _ => mulLoop ha hd _ _ _

theorem schnorr {C : CyclicGroupOps p GE GX} (ha : ∀ x y, Appends Φ (C.addExpressions x y))
    (hd : ∀ x, Appends Φ (C.doubleExpression x)) {c : CompressionFunction p}
    (hc : ∀ x y, Appends Φ (c.compress x y)) (σ : SignatureExpression p) (m : Expression p) (Y : GX) :
    Appends Φ (schnorrVerify C c σ m Y) :=
  bind (ofOption _) fun _ => bind (mulScalar ha hd _ _) fun _ => bind (mulScalar ha hd _ _) fun _ =>
    bind (ha _ _) fun _ => bind (hc _ _) fun _ => assertEqual _ _

end

/-! ### Examples of the README -/

theorem readmeCube (x : Expression p) : Appends Φ (Readme.cube x) :=
  bind (product _ _) fun _ => product _ _

theorem readmeInverse (x : Expression p) : Appends Φ (Readme.inverse x) := inverse x

theorem readmeHash (rounds : ℕ) (blocks : List (Expression p)) :
    Appends Φ (Readme.hash rounds blocks) := by
  refine ofOption_bind fun c _ => ofOption_bind fun h hh => ?_
  unfold MerkleDamgard.newDefaults at hh
  obtain ⟨_, _, hh⟩ := Option.bind_eq_some_iff.1 hh
  obtain rfl := Option.some.inj hh
  exact hash (fun _ _ => bind (encrypt c _ _) fun _ => pure _) blocks

end Appends

/-! ## The two properties -/

theorem Exact.sets {g : WitnessGenerator p} {o : Wire} {outs : List Wire}
    (h : Exact g (o :: outs)) : Sets g o := fun v v' hg => (h v v' hg).1 o (by simp)

theorem Exact.idle {g : WitnessGenerator p} (h : Exact g []) : Idle g :=
  fun v v' hg => funext fun i => (h v v' hg).2 i (by simp)

instance good_exact : Good (p := p) fun gs => ∀ g ∈ gs, ∃ outs, Exact g outs where
  nil := by simp
  append h h' g hg := (List.mem_append.1 hg).elim (h g) (h' g)
  exact h g hg := by
    rw [List.mem_singleton] at hg
    subst hg
    exact ⟨_, h⟩

instance good_once : Good (p := p) fun gs => (∀ g ∈ gs, Idle g) ∨ ∃ g ∈ gs, ∃ o, Sets g o where
  nil := .inl (by simp)
  append h h' := by
    rcases h with h | ⟨g, hg, h⟩
    · rcases h' with h' | ⟨g, hg, h'⟩
      · exact .inl fun g hg => (List.mem_append.1 hg).elim (h g) (h' g)
      · exact .inr ⟨g, by simp [hg], h'⟩
    · exact .inr ⟨g, by simp [hg], h⟩
  exact := by
    intro d f outs h
    rcases outs with _ | ⟨o, outs⟩
    · refine .inl fun g hg => ?_
      rw [List.mem_singleton] at hg
      subst hg
      exact Exact.idle h
    · exact .inr ⟨_, List.mem_singleton_self _, o, Exact.sets (g := ⟨d, f⟩) h⟩

theorem Strict.of {m : B p α}
    (h : Appends (fun gs => ∀ g ∈ gs, ∃ outs, Exact g outs) m) : Strict m := h

theorem Once.of {m : B p α}
    (h : Appends (fun gs => (∀ g ∈ gs, Idle g) ∨ ∃ g ∈ gs, ∃ o, Sets g o) m) : Once m := h

/-! ## Permutation networks -/

/-- Some generator which `m` adds insists on a wire without a value. -/
abbrev Insists (m : B p α) : Prop := Appends (fun gs => ∃ g ∈ gs, ∃ o, Sets g o) m

namespace Insists

theorem bind_left {m : B p α} {f : α → B p β} (hm : Insists m) (hf : ∀ a, Prog (f a)) :
    Insists (m >>= f) := by
  intro b z b' h
  obtain ⟨a, b1, h1, h2⟩ := B.bind_run h
  obtain ⟨gs1, g1, g, hg, c1⟩ := hm b a b1 h1
  obtain ⟨_, _, gs2, g2, _⟩ := C23_appends (hf a) h2
  exact ⟨gs1 ++ gs2, by rw [g2, g1, List.append_assoc], g, by simp [hg], c1⟩

theorem bind_right {m : B p α} {f : α → B p β} (hm : Prog m)
    (hf : ∀ b a b', m b = some (a, b') → Insists (f a)) : Insists (m >>= f) := by
  intro b z b' h
  obtain ⟨a, b1, h1, h2⟩ := B.bind_run h
  obtain ⟨_, _, gs1, g1, _⟩ := C23_appends hm h1
  obtain ⟨gs2, g2, g, hg, c2⟩ := hf b a b1 h1 b1 z b' h2
  exact ⟨gs1 ++ gs2, by rw [g2, g1, List.append_assoc], g, by simp [hg], c2⟩

theorem switchLayer_length : ∀ (k : ℕ) (xs : List (Expression p)) {b b' : Builder p}
    {r : List BooleanWire × List (Expression p) × List (Expression p)},
    B.switchLayer k xs b = some (r, b') → r.2.2.length = k
  | 0, xs, b, b', r, h => by
    unfold B.switchLayer at h
    obtain ⟨rfl, _⟩ := Prod.ext_iff.1 (Option.some.inj h)
    rfl
  | k + 1, x :: y :: rest, b, b', r, h => by
    unfold B.switchLayer at h
    obtain ⟨r1, b1, _, h⟩ := B.bind_run h
    obtain ⟨r2, b2, h2, h⟩ := B.bind_run h
    obtain ⟨rfl, _⟩ := Prod.ext_iff.1 (Option.some.inj h)
    simp [switchLayer_length k rest h2]
  | k + 1, [], b, b', r, h => by
    unfold B.switchLayer at h
    exact absurd h (by simp [B.panic])
  | k + 1, [x], b, b', r, h => by
    unfold B.switchLayer at h
    exact absurd h (by simp [B.panic])

theorem permutation2x2 (a b c d : Expression p) : Insists (B.assertPermutation2x2 a b c d) := by
  refine bind_right (Tidy.createSwitch a b).1 fun _ r _ _ => bind_right (.assertEqual _ _)
    fun _ _ _ _ => bind_right (.assertEqual _ _) fun _ _ _ _ => ?_
  intro b0 u b' hb
  obtain ⟨_, rfl⟩ := Prod.ext_iff.1 (Option.some.inj hb)
  exact ⟨[_], rfl, _, List.mem_singleton_self _, r.1.wire,
    Exact.sets (Ex.permutation2x2Gen _ _ _ _ _)⟩

theorem permutationFuel : ∀ (fuel : ℕ) (a b : List (Expression p)), 2 ≤ a.length →
    Insists (B.assertPermutationFuel fuel a b)
  | 0, a, b, h => by
    refine bind_right (.require _) fun _ _ _ _ => ?_
    intro b0 u b' hb
    unfold B.require at hb
    rw [if_neg (by omega)] at hb
    exact absurd hb (by simp [B.panic])
  | fuel + 1, a, b, h => by
    unfold B.assertPermutationFuel
    refine bind_right (.require _) fun _ _ _ hreq => ?_
    have hlen : a.length = b.length := by
      by_contra hc
      unfold B.require at hreq
      rw [if_neg hc] at hreq
      exact absurd hreq (by simp [B.panic])
    split
    · exact absurd h (by simp)
    · exact absurd h (by simp)
    · exact permutation2x2 _ _ _ _
    · next h0 h1 h2 =>
      have h3 : 3 ≤ a.length := by
        rcases a with _ | ⟨a0, _ | ⟨a1, _ | ⟨a2, a⟩⟩⟩
        · exact absurd h (by simp)
        · exact absurd h (by simp)
        · rcases b with _ | ⟨b0, _ | ⟨b1, _ | ⟨b2, b⟩⟩⟩
          · exact absurd hlen (by simp)
          · exact absurd hlen (by simp)
          · exact absurd rfl (h2 a0 a1 b0 b1 rfl)
          · exact absurd hlen (by simp)
        · simp
      have hT := fun x y : List (Expression p) => (Tidy.assertPermutationFuel fuel x y).1
      refine bind_right (Tidy.switchLayer_prog _ _) fun _ r1 _ e1 =>
        bind_right (Tidy.switchLayer_prog _ _) fun _ r2 _ _ => bind_left ?_ fun _ =>
          .generator _ _ ?_
      · have hl : r1.2.2.length = a.length / 2 := switchLayer_length _ _ e1
        split
        · exact bind_right (.ofOption _) fun _ _ _ _ => bind_right (.ofOption _) fun _ _ _ _ =>
            bind_right (hT _ _) fun _ _ _ _ => permutationFuel fuel _ _ (le_of_le_of_eq (by omega) hl.symm)
        · exact bind_right (.ofOption _) fun _ _ _ _ => bind_right (.ofOption _) fun _ _ _ _ =>
            bind_right (hT _ _) fun _ _ _ _ => permutationFuel fuel _ _
              (le_of_le_of_eq (by omega : 2 ≤ a.length / 2 + 1) (by
                rw [List.length_append, List.length_singleton]; exact congrArg (· + 1) hl.symm))
      · obtain ⟨h, hh⟩ := Tidy.bound (r1.1 ++ r2.1)
        exact (Conf.routeGen (fun w hw => hh w (by simp [hw])) fun w hw => hh w (by simp [hw])).keeps

end Insists

/-- A permutation network generates nothing, or insists on a wire without a value. -/
theorem Once.permutation (a b : List (Expression p)) : Once (B.assertPermutation a b) := by
  by_cases h : 2 ≤ a.length
  · intro b0 u b' hb
    obtain ⟨gs, h1, h2⟩ := Insists.permutationFuel a.length a b h b0 u b' hb
    exact ⟨gs, h1, .inr h2⟩
  · refine Once.of ?_
    unfold B.assertPermutation
    rcases a with _ | ⟨a0, _ | ⟨a1, a⟩⟩
    · exact Appends.bind (Appends.require _) fun _ => Appends.require _
    · show Appends _ (B.assertPermutationFuel 1 [a0] b)
      unfold B.assertPermutationFuel
      intro b0 z b' hb
      obtain ⟨_, b1, hreq, hb⟩ := B.bind_run hb
      have hlen : [a0].length = b.length := by
        by_contra hc
        unfold B.require at hreq
        rw [if_neg hc] at hreq
        exact absurd hreq (by simp [B.panic])
      obtain ⟨c, rfl⟩ := List.length_eq_one_iff.1 hlen.symm
      have hgs := Appends.require (Φ := fun gs : List (WitnessGenerator p) => (∀ g ∈ gs, Idle g) ∨ ∃ g ∈ gs, ∃ o, Sets g o)
        ([a0].length = [c].length)
      exact Appends.bind hgs (fun _ => Appends.assertEqual a0 c) b0 z b'
        (B.bind_eq hreq |>.trans hb)
    · exact absurd h (by simp)

end R1CS
