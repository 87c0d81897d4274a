import Verif.Lemmas.Strict
import Verif.Lemmas.LanguageMore

/-!
# Generators of straight-line code (`Spec/Strict.lean`, `Spec/Language.lean`)
-/

set_option linter.unusedSectionVars false

namespace R1CS

variable {p : ℕ} [hp : Fact p.Prime] {α β : Type}

open Language

namespace Appends

variable {Φ : List (WitnessGenerator p) → Prop} [hΦ : Good Φ]

theorem onAll {kind : Obj p → Option α} {f : List α → B p β} (hf : ∀ l, Appends Φ (f l))
    (os : List (Obj p)) : Appends Φ (Language.onAll kind f os) :=
  bind (ofOption _) fun _ => hf _

theorem call1 {f : α → B p β} (hf : ∀ x, Appends Φ (f x)) (l : List α) :
    Appends Φ (Language.call1 f l) := by
  unfold Language.call1
  split
  · exact hf _
  · exact panic

theorem call2 {f : α → α → B p β} (hf : ∀ x y, Appends Φ (f x y)) (l : List α) :
    Appends Φ (Language.call2 f l) := by
  unfold Language.call2
  split
  · exact hf _ _
  · exact panic

theorem call3 {f : α → α → α → B p β} (hf : ∀ x y z, Appends Φ (f x y z)) (l : List α) :
    Appends Φ (Language.call3 f l) := by
  unfold Language.call3
  split
  · exact hf _ _ _
  · exact panic

theorem call4 {f : α → α → α → α → B p β} (hf : ∀ x y z t, Appends Φ (f x y z t)) (l : List α) :
    Appends Φ (Language.call4 f l) := by
  unfold Language.call4
  split
  · exact hf _ _ _ _
  · exact panic

theorem call5 {f : α → α → α → α → α → B p β} (hf : ∀ x y z t u, Appends Φ (f x y z t u))
    (l : List α) : Appends Φ (Language.call5 f l) := by
  unfold Language.call5
  split
  · exact hf _ _ _ _ _
  · exact panic

theorem callList {f : α → List α → B p β} (hf : ∀ x l, Appends Φ (f x l)) (l : List α) :
    Appends Φ (Language.callList f l) := by
  unfold Language.callList
  split
  · exact hf _ _
  · exact panic

theorem callPointBool {f : Expression p → Expression p → BooleanExpression p → B p β}
    (hf : ∀ x y b, Appends Φ (f x y b)) (os : List (Obj p)) :
    Appends Φ (Language.callPointBool f os) := by
  unfold Language.callPointBool
  split
  · exact hf _ _ _
  · exact panic

theorem callPath {f : Expression p → BinaryExpression p → List (Expression p) → B p β}
    (hf : ∀ x l xs, Appends Φ (f x l xs)) (os : List (Obj p)) :
    Appends Φ (Language.callPath f os) := by
  unfold Language.callPath
  split
  · exact onAll (hf _ _) _
  · exact panic

theorem callPath2 {f : Expression p → Expression p → BinaryExpression p → List (Expression p) →
    B p β} (hf : ∀ x y l xs, Appends Φ (f x y l xs)) (os : List (Obj p)) :
    Appends Φ (Language.callPath2 f os) := by
  unfold Language.callPath2
  split
  · exact onAll (hf _ _ _) _
  · exact panic

theorem retExpr {m : B p (Expression p)} (h : Appends Φ m) : Appends Φ (Language.retExpr m) :=
  bind h fun _ => pure _

theorem retExprs {m : B p (List (Expression p))} (h : Appends Φ m) :
    Appends Φ (Language.retExprs m) :=
  bind h fun _ => pure _

theorem retBool {m : B p (BooleanExpression p)} (h : Appends Φ m) :
    Appends Φ (Language.retBool m) :=
  bind h fun _ => pure _

theorem retBin {m : B p (BinaryExpression p)} (h : Appends Φ m) : Appends Φ (Language.retBin m) :=
  bind h fun _ => pure _

theorem retPoint {m : B p (EdwardsExpression p)} (h : Appends Φ m) :
    Appends Φ (Language.retPoint m) :=
  bind h fun _ => pure _

theorem retNone {m : B p α} (h : Appends Φ m) : Appends Φ (Language.retNone m) :=
  bind h fun _ => pure _

/-- What is to be known about the parts of an instruction which the instruction takes as given. -/
def Given (Φ : List (WitnessGenerator p) → Prop) : Op p → Prop
  | .assertPermutation _ => ∀ xs ys, Appends Φ (B.assertPermutation (p := p) xs ys)
  | .sortAscending => ∀ xs ys, Appends Φ (B.assertPermutation (p := p) xs ys)
  | .sortDescending => ∀ xs ys, Appends Φ (B.assertPermutation (p := p) xs ys)
  | .function _ m _ _ _ _ => ∀ xs, Appends Φ (m xs)
  | .schnorrVerify _ _ h => ∀ x y, Appends Φ (h.code.compress x y)
  | .merkleRoot h => ∀ x y, Appends Φ (h.code.compress x y)
  | .assertMembership h => ∀ x y, Appends Φ (h.code.compress x y)
  | _ => True

theorem run (o : Op p) (h : Given Φ o) (os : List (Obj p)) : Appends Φ (o.run os) := by
  cases o with
  | cmpBinary r =>
    cases r
    · exact onAll (call2 fun _ _ => retBool (cmpBinary _ _ _ _)) _
    · exact onAll (call2 fun _ _ => retBool (cmpBinary _ _ _ _)) _
    · exact onAll (call2 fun _ _ => retBool (cmpBinary _ _ _ _)) _
    · exact onAll (call2 fun _ _ => retBool (cmpBinary _ _ _ _)) _
  | assertCmpBinary r =>
    cases r
    · exact onAll (call2 fun _ _ => retNone (assertLtBinary _ _)) _
    · exact onAll (call2 fun _ _ => retNone (assertLeBinary _ _)) _
    · exact onAll (call2 fun _ _ => retNone (assertGtBinary _ _)) _
    · exact onAll (call2 fun _ _ => retNone (assertGeBinary _ _)) _
  | select =>
    by_cases hc : ∃ c x y, os = [.bool c, .expr x, .expr y]
    · obtain ⟨c, x, y, rfl⟩ := hc
      exact retExpr (selection _ _ _)
    · have : ∀ c x y, os = [.bool c, .expr x, .expr y] → False := fun c x y h => hc ⟨c, x, y, h⟩
      simp only [Op.run]
      exact panic
  | add => exact onAll (call2 fun _ _ => retExpr (pure _)) _
  | sub => exact onAll (call2 fun _ _ => retExpr (pure _)) _
  | neg => exact onAll (call1 fun _ => retExpr (pure _)) _
  | scale _ => exact onAll (call1 fun _ => retExpr (pure _)) _
  | product => exact onAll (call2 fun _ _ => retExpr (product _ _)) _
  | exp _ => exact onAll (call1 fun _ => retExpr (exponentiation _ _)) _
  | inverse => exact onAll (call1 fun _ => retExpr (inverse _)) _
  | quotient => exact onAll (call2 fun _ _ => retExpr (quotient _ _)) _
  | inverseOrZero => exact onAll (call1 fun _ => retExpr (inverseOrZero _)) _
  | quotientUnsafe => exact onAll (call2 fun _ _ => retExpr (quotientUnsafe _ _)) _
  | nonzero => exact onAll (call1 fun _ => retBool (nonzero _)) _
  | zero => exact onAll (call1 fun _ => retBool (zero _)) _
  | equal => exact onAll (call2 fun _ _ => retBool (equal _ _)) _
  | assertEqual => exact onAll (call2 fun _ _ => retNone (assertEqual _ _)) _
  | assertNonequal => exact onAll (call2 fun _ _ => retNone (assertNonequal _ _)) _
  | assertZero => exact onAll (call1 fun _ => retNone (assertZero _)) _
  | assertNonzero => exact onAll (call1 fun _ => retNone (assertNonzero _)) _
  | assertProduct => exact onAll (call3 fun _ _ _ => retNone (assertProduct _ _ _)) _
  | assertBoolean => exact onAll (call1 fun _ => retBool (assertBoolean _)) _
  | lt => exact onAll (call2 fun _ _ => retBool (cmp _ _ _ _)) _
  | le => exact onAll (call2 fun _ _ => retBool (cmp _ _ _ _)) _
  | gt => exact onAll (call2 fun _ _ => retBool (cmp _ _ _ _)) _
  | ge => exact onAll (call2 fun _ _ => retBool (cmp _ _ _ _)) _
  | assertLt => exact onAll (call2 fun _ _ => retNone (assertLt _ _)) _
  | assertLe => exact onAll (call2 fun _ _ => retNone (assertLe _ _)) _
  | assertGt => exact onAll (call2 fun _ _ => retNone (assertGt _ _)) _
  | assertGe => exact onAll (call2 fun _ _ => retNone (assertGe _ _)) _
  | modulus => exact onAll (call2 fun _ _ => retExpr (modulus _ _)) _
  | divides => exact onAll (call2 fun _ _ => retBool (divides _ _)) _
  | split => exact onAll (call1 fun _ => retBin (split _)) _
  | splitAllowingAmbiguity => exact onAll (call1 fun _ => retBin (splitAllowingAmbiguity _)) _
  | splitBounded _ => exact onAll (call1 fun _ => retBin (splitBounded _ _)) _
  | join => exact onAll (call1 fun _ => retExpr (ofOption _)) _
  | joinAllowingOverflow => exact onAll (call1 fun _ => retExpr (ofOption _)) _
  | not => exact onAll (call1 fun _ => retBool (not _)) _
  | and => exact onAll (call2 fun _ _ => retBool (and _ _)) _
  | or => exact onAll (call2 fun _ _ => retBool (or _ _)) _
  | xor => exact onAll (call2 fun _ _ => retBool (xor _ _)) _
  | assertTrue => exact onAll (call1 fun _ => retNone (assertTrue _)) _
  | assertFalse => exact onAll (call1 fun _ => retNone (assertFalse _)) _
  | toExpr => exact onAll (call1 fun _ => retExpr (pure _)) _
  | bitwiseNot => exact onAll (call1 fun _ => retBin (bitwiseNot _)) _
  | bitwiseAnd => exact onAll (call2 fun _ _ => retBin (bitwiseAnd _ _)) _
  | bitwiseOr => exact onAll (call2 fun _ _ => retBin (bitwiseOr _ _)) _
  | bitwiseXor => exact onAll (call2 fun _ _ => retBin (bitwiseXor _ _)) _
  | rotateInc _ => exact onAll (call1 fun _ => retBin (ofOption _)) _
  | rotateDec _ => exact onAll (call1 fun _ => retBin (ofOption _)) _
  | shiftInc _ => exact onAll (call1 fun _ => retBin (ofOption _)) _
  | shiftDec _ => exact onAll (call1 fun _ => retBin (ofOption _)) _
  | binaryAssertZero => exact onAll (call1 fun _ => retNone (binaryAssertZero _)) _
  | const _ => exact pure _
  | constBool _ => exact pure _
  | constBits _ => exact pure _
  | pack => exact onAll (fun _ => retBin (pure _)) _
  | unpack => exact onAll (call1 fun _ => pure _) _
  | binarySum => exact onAll (fun _ => retBin (binarySummation _)) _
  | binarySumIgnoringOverflow =>
    exact onAll (fun _ => retBin (binarySummationIgnoringOverflow _)) _
  | binarySumAssertingNoOverflow =>
    exact onAll (fun _ => retBin (binarySummationAssertingNoOverflow _)) _
  | randomAccess => exact onAll (callList fun _ _ => retExpr (randomAccess _ _)) _
  | assertPermutation _ => exact onAll (fun _ => retNone (h _ _)) _
  | sortAscending => exact onAll (fun _ => retExprs (sortAscending h _)) _
  | sortDescending => exact onAll (fun _ => retExprs (sortDescending h _)) _
  | function => exact onAll (fun _ => bind (require _) fun _ => retExprs (h _)) _
  | edwardsNew _ => exact onAll (call2 fun _ _ => retPoint (edwardsNew _ _ _)) _
  | edwardsAdd _ => exact onAll (call4 fun _ _ _ _ => retPoint (edwardsAdd _ _ _)) _
  | edwardsDouble _ => exact onAll (call2 fun _ _ => retPoint (edwardsDouble _ _)) _
  | edwardsMulBoolean _ => exact callPointBool (fun _ _ _ => retPoint (mulBoolean _ _)) _
  | edwardsMulScalar _ => exact onAll (call3 fun _ _ _ =>
      retPoint (mulScalar (edwardsAdd _) (edwardsDouble _) _ _)) _
  | schnorrVerify _ _ _ => exact onAll (call5 fun _ _ _ _ _ =>
      retNone (schnorr (edwardsAdd _) (edwardsDouble _) h _ _ _)) _
  | merkleRoot _ => exact callPath (fun _ _ _ => bind (ofOption _) fun _ =>
      retExpr (merkleTreeLoop h _ _)) _
  | assertMembership _ => exact callPath2 (fun _ _ _ _ => bind (ofOption _) fun _ =>
      retNone (bind (merkleTreeLoop h _ _) fun _ => assertEqual _ _)) _

theorem step {i : Op p × List ℕ} (h : Given Φ i.1) (os : List (Obj p)) :
    Appends Φ (Circuit.step i os) :=
  bind (ofOption _) fun _ => bind (run _ h _) fun _ => pure _

theorem runFrom : ∀ {c : Circuit p}, (∀ i ∈ c, Given Φ i.1) → ∀ os, Appends Φ (Circuit.runFrom c os)
  | [], _, _ => pure _
  | i :: c, h, _ => bind (step (h i (by simp)) _) fun _ =>
    runFrom (fun j hj => h j (by simp [hj])) _

theorem build {c : Circuit p} (h : ∀ i ∈ c, Given Φ i.1) (k : ℕ) : Appends Φ (Circuit.build k c) :=
  bind (wires k) fun _ => runFrom h _

end Appends

end R1CS
