import Verif.Spec.Programs
import Verif.Lemmas.Gadgets
import Verif.Model.Comparisons

/-!
# Every gadget is a program in the sense of `Spec/Programs.lean`
-/

set_option linter.unusedVariables false

namespace R1CS

variable {p : ℕ} [hp : Fact p.Prime]

namespace KeepsValues

omit hp in
theorem of_set {v v' : WireValues p} {i : Wire} {x : Elem p} (h : v.set i x = some v') :
    ∀ j y, v j = some y → v' j = some y := by
  intro j y hj
  unfold WireValues.set at h
  split at h
  · exact absurd h (by simp)
  · next hc =>
    rw [← Option.some.inj h]
    unfold WireValues.insert
    split
    · next hji =>
      subst hji
      exact absurd (show v.contains j = true by simp [WireValues.contains, hj]) hc
    · exact hj

omit hp in
/-- Reading a value, then continuing. -/
theorem read {β : Type} {r : WireValues p → Option β} {k : β → WireValues p → Option (WireValues p)}
    (hk : ∀ x, KeepsValues (k x)) : KeepsValues (fun v => (r v).bind fun x => k x v) := by
  intro v v' h
  obtain ⟨x, _, h2⟩ := Option.bind_eq_some_iff.1 h
  exact hk x v v' h2

omit hp in
theorem seq {f g : WireValues p → Option (WireValues p)} (hf : KeepsValues f) (hg : KeepsValues g) :
    KeepsValues (fun v => (f v).bind g) := by
  intro v v' h i x hi
  obtain ⟨v1, h1, h2⟩ := Option.bind_eq_some_iff.1 h
  exact hg v1 v' h2 i x (hf v v1 h1 i x hi)

omit hp in
theorem set (i : Wire) (x : Elem p) : KeepsValues (fun v => v.set i x) := fun _ _ h => of_set h

omit hp in
theorem id : KeepsValues (fun v : WireValues p => some v) := by
  intro v v' h i x hi
  rw [← Option.some.inj h]; exact hi

omit hp in
theorem none : KeepsValues (fun _ : WireValues p => none) := by
  intro v v' h; exact absurd h (by simp)

theorem nonzeroGen (x : Expression p) (y m : Wire) : KeepsValues (B.nonzeroGen x y m) :=
  read fun _ => read (r := fun _ => _) fun _ => seq (set _ _) (set _ _)

theorem productGen (x y : Expression p) (i : Wire) : KeepsValues (B.productGen x y i) :=
  read fun _ => read fun _ => set _ _

theorem inverseGen (x : Expression p) (i : Wire) : KeepsValues (B.inverseGen x i) :=
  read fun _ => read (r := fun _ => _) fun _ => set _ _

theorem inverseOrZeroGen (x : Expression p) (i : Wire) : KeepsValues (B.inverseOrZeroGen x i) :=
  read fun _ => read (r := fun _ => _) fun _ => set _ _

theorem quotientUnsafeGen (x y : Expression p) (i : Wire) :
    KeepsValues (B.quotientUnsafeGen x y i) := by
  refine read fun _ => read fun b => ?_
  intro v v' h
  dsimp only at h
  split at h
  · exact read (r := fun _ => _) (fun _ => set _ _) v v' h
  · exact absurd h (by simp)

theorem setBitsOf (x : Elem p) : ∀ (ws : List BooleanWire) (i : ℕ),
    KeepsValues (B.setBitsOf x i ws)
  | [], _ => id
  | w :: ws, i =>
    show KeepsValues (fun v => (v.setBoolean w (x.bit i)).bind (B.setBitsOf x (i + 1) ws)) from
      seq (set _ _) (setBitsOf x ws (i + 1))

theorem splitGen (x : Expression p) (n : ℕ) (w : BinaryWire) : KeepsValues (B.splitGen x n w) := by
  refine read fun xv => ?_
  intro v v' h
  split at h
  · exact setBitsOf _ _ _ v v' h
  · exact absurd h (by simp)

theorem maskGen : ∀ (l : List (Wire × Expression p × Expression p)) (b : Bool),
    KeepsValues (B.maskGen l b)
  | [], _ => id
  | (m, x, y) :: l, b =>
    show KeepsValues (fun v => (x.evaluate v).bind fun xv => (y.evaluate v).bind fun yv =>
        (v.set m (Elem.ofBool (decide (xv ≠ yv) && !b))).bind
          (B.maskGen l (b || decide (xv ≠ yv)))) from
      read fun _ => read fun _ => seq (set _ _) (maskGen l _)

theorem modulusGen (x y : Expression p) (q r : Wire) : KeepsValues (B.modulusGen x y q r) :=
  read fun _ => read fun _ => read (r := fun _ => _) fun _ =>
    seq (set _ _) (read (r := fun _ => _) fun _ => set _ _)

end KeepsValues

namespace Prog

omit hp in
theorem ofOption {α : Type} (o : Option α) : Prog (B.ofOption o : B p α) := by
  cases o with
  | none => exact Prog.panic
  | some a => exact Prog.pure a

omit hp in
theorem require (c : Prop) [Decidable c] : Prog (B.require c : B p Unit) := by
  unfold B.require
  split
  · exact Prog.pure ()
  · exact Prog.panic

omit hp in
theorem ite {α : Type} {c : Prop} [Decidable c] {m n : B p α} (hm : Prog m) (hn : Prog n) :
    Prog (if c then m else n) := by
  split
  · exact hm
  · exact hn

theorem assertBoolean (x : Expression p) : Prog (B.assertBoolean x) :=
  bind (.assertProduct _ _ _) fun _ => .pure _

theorem booleanWire : Prog (B.booleanWire : B p BooleanWire) :=
  bind .wire fun _ => bind (assertBoolean _) fun _ => .pure _

omit hp in
theorem wires : ∀ n, Prog (B.wires n : B p (List Wire))
  | 0 => .pure _
  | n + 1 => bind .wire fun _ => bind (wires n) fun _ => .pure _

theorem booleanWires : ∀ n, Prog (B.booleanWires n : B p (List BooleanWire))
  | 0 => .pure _
  | n + 1 => bind booleanWire fun _ => bind (booleanWires n) fun _ => .pure _

theorem binaryWire (n : ℕ) : Prog (B.binaryWire n : B p BinaryWire) :=
  bind (booleanWires n) fun _ => .pure _

theorem assertEqual (x y : Expression p) : Prog (B.assertEqual x y) := .assertProduct _ _ _

theorem assertZero (x : Expression p) : Prog (B.assertZero x) := .assertProduct _ _ _

theorem assertTrue (x : BooleanExpression p) : Prog (B.assertTrue x) := .assertProduct _ _ _

theorem assertFalse (x : BooleanExpression p) : Prog (B.assertFalse x) := .assertProduct _ _ _

theorem nonzero (x : Expression p) : Prog (B.nonzero x) :=
  bind .wire fun _ => bind .wire fun _ => bind (.assertProduct _ _ _) fun _ =>
    bind (.assertProduct _ _ _) fun _ =>
      bind (.generator _ _ (KeepsValues.nonzeroGen _ _ _)) fun _ => .pure _

theorem not (x : BooleanExpression p) : Prog (B.not x) := .pure _

theorem zero (x : Expression p) : Prog (B.zero x) := bind (nonzero x) fun _ => not _

theorem equal (x y : Expression p) : Prog (B.equal x y) := zero _

theorem product (x y : Expression p) : Prog (B.product x y) := by
  unfold B.product
  split
  · exact .pure _
  · split
    · exact .pure _
    · exact bind .wire fun _ => bind (.assertProduct _ _ _) fun _ =>
        bind (.generator _ _ (KeepsValues.productGen _ _ _)) fun _ => .pure _

theorem selection (c : BooleanExpression p) (x y : Expression p) : Prog (B.selection c x y) :=
  bind (product _ _) fun _ => .pure _

theorem expLoop (x : Expression p) (k : Elem p) : ∀ (r i : ℕ) (e f : Expression p),
    Prog (B.expLoop x k i r e f)
  | 0, _, _, _ => .pure _
  | r + 1, i, pe, ls =>
    bind (ite (.pure _) (product _ _)) fun _ => bind (ite (product _ _) (.pure _)) fun _ =>
      expLoop x k r (i + 1) _ _

theorem exponentiation (x : Expression p) (k : Elem p) : Prog (B.exponentiation x k) :=
  expLoop _ _ _ _ _ _

theorem inverse (x : Expression p) : Prog (B.inverse x) :=
  bind .wire fun _ => bind (.assertProduct _ _ _) fun _ =>
    bind (.generator _ _ (KeepsValues.inverseGen _ _)) fun _ => .pure _

theorem assertNonzero (x : Expression p) : Prog (B.assertNonzero x) :=
  bind (inverse x) fun _ => .pure _

theorem assertNonequal (x y : Expression p) : Prog (B.assertNonequal x y) := assertNonzero _

theorem inverseOrZero (x : Expression p) : Prog (B.inverseOrZero x) :=
  bind .wire fun _ => bind (nonzero x) fun _ => bind (.assertProduct _ _ _) fun _ =>
    bind (.generator _ _ (KeepsValues.inverseOrZeroGen _ _)) fun _ => .pure _

theorem quotient (x y : Expression p) : Prog (B.quotient x y) :=
  bind (inverse y) fun _ => product _ _

theorem quotientUnsafe (x y : Expression p) : Prog (B.quotientUnsafe x y) :=
  bind .wire fun _ => bind (.generator _ _ (KeepsValues.quotientUnsafeGen _ _ _)) fun _ => .pure _

theorem and (x y : BooleanExpression p) : Prog (B.and x y) := bind (product _ _) fun _ => .pure _

theorem or (x y : BooleanExpression p) : Prog (B.or x y) := bind (product _ _) fun _ => .pure _

theorem xor (x y : BooleanExpression p) : Prog (B.xor x y) :=
  bind (product _ _) fun _ => bind (ofOption _) fun _ => .pure _

theorem splitWithoutRangeCheck (x : Expression p) (n : ℕ) : Prog (B.splitWithoutRangeCheck x n) :=
  bind (binaryWire _) fun _ => bind (ofOption _) fun _ => bind (assertEqual _ _) fun _ =>
    bind (.generator _ _ (KeepsValues.splitGen _ _ _)) fun _ => .pure _

theorem splitAllowingAmbiguity (x : Expression p) : Prog (B.splitAllowingAmbiguity x) :=
  splitWithoutRangeCheck _ _

theorem splitBounded (x : Expression p) (n : ℕ) : Prog (B.splitBounded x n) :=
  bind (require _) fun _ => splitWithoutRangeCheck _ _

theorem cmpSubtractive (d : Expression p) (l s : Bool) (n : ℕ) : Prog (B.cmpSubtractive d l s n) :=
  bind (ofOption _) fun _ => bind (splitBounded _ _) fun _ => ofOption _

theorem assertBooleans : ∀ l : List Wire, Prog (B.assertBooleans l : B p Unit)
  | [] => .pure _
  | _ :: ms => bind (assertBoolean _) fun _ => assertBooleans ms

theorem maskedSum : ∀ (l : List (Wire × Expression p × Expression p)) (e : Expression p),
    Prog (B.maskedSum l e)
  | [], _ => .pure _
  | (_, _, _) :: l, _ => bind (product _ _) fun _ => maskedSum l _

theorem assertMoreSignificantEqual : ∀ (l : List (Wire × Expression p × Expression p))
    (e : Expression p), Prog (B.assertMoreSignificantEqual l e)
  | [], _ => .pure _
  | (_, _, _) :: l, _ => bind (.assertProduct _ _ _) fun _ => assertMoreSignificantEqual l _

theorem cmpTail (z : List (Wire × Expression p × Expression p)) (d : BooleanExpression p)
    (l s : Bool) (c : ℕ) : Prog (B.cmpTail z d l s c) := by
  refine bind (maskedSum _ _) fun _ => ?_
  split
  · exact .panic
  · exact bind (assertMoreSignificantEqual _ _) fun _ =>
      bind (ite (.pure _) (bind (selection _ _ _) fun _ => assertNonzero _)) fun _ =>
        cmpSubtractive _ _ _ _

theorem cmpBinary (x y : BinaryExpression p) (l s : Bool) : Prog (B.cmpBinary x y l s) :=
  bind (require _) fun _ => bind (ofOption _) fun _ => bind (ofOption _) fun _ =>
    bind (ofOption _) fun _ => bind (ofOption _) fun _ => bind (wires _) fun _ =>
    bind (assertBooleans _) fun _ => bind (assertBoolean _) fun _ =>
    bind (.generator _ _ (KeepsValues.maskGen _ _)) fun _ => cmpTail _ _ _ _ _

theorem assertLtBinary (x y : BinaryExpression p) : Prog (B.assertLtBinary x y) :=
  bind (cmpBinary _ _ _ _) fun _ => assertTrue _

theorem assertLeBinary (x y : BinaryExpression p) : Prog (B.assertLeBinary x y) :=
  bind (cmpBinary _ _ _ _) fun _ => assertTrue _

theorem assertGtBinary (x y : BinaryExpression p) : Prog (B.assertGtBinary x y) :=
  bind (cmpBinary _ _ _ _) fun _ => assertTrue _

theorem assertGeBinary (x y : BinaryExpression p) : Prog (B.assertGeBinary x y) :=
  bind (cmpBinary _ _ _ _) fun _ => assertTrue _

theorem split (x : Expression p) : Prog (B.split x) :=
  bind (splitWithoutRangeCheck _ _) fun _ => bind (assertLtBinary _ _) fun _ => .pure _

theorem cmp (x y : Expression p) (l s : Bool) : Prog (B.cmp x y l s) :=
  ite (bind (splitAllowingAmbiguity _) fun _ => bind (split _) fun _ => cmpBinary _ _ _ _)
    (bind (split _) fun _ => bind (splitAllowingAmbiguity _) fun _ => cmpBinary _ _ _ _)

theorem assertLt (x y : Expression p) : Prog (B.assertLt x y) :=
  bind (cmp _ _ _ _) fun _ => assertTrue _

theorem assertLe (x y : Expression p) : Prog (B.assertLe x y) :=
  bind (cmp _ _ _ _) fun _ => assertTrue _

theorem assertGt (x y : Expression p) : Prog (B.assertGt x y) :=
  bind (cmp _ _ _ _) fun _ => assertTrue _

theorem assertGe (x y : Expression p) : Prog (B.assertGe x y) :=
  bind (cmp _ _ _ _) fun _ => assertTrue _

theorem modulus (x y : Expression p) : Prog (B.modulus x y) :=
  bind .wire fun _ => bind .wire fun _ => bind (.assertProduct _ _ _) fun _ =>
    bind (assertLt _ _) fun _ => bind (.generator _ _ (KeepsValues.modulusGen _ _ _ _)) fun _ =>
      .pure _

theorem divides (x y : Expression p) : Prog (B.divides x y) := bind (modulus _ _) fun _ => zero _

end Prog

end R1CS
