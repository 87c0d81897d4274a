import Verif.Lemmas.RenumberMore
import Verif.Spec.Language

/-!
# Straight-line code under new numbers for the wires (`Spec/Renumber.lean`, `Spec/Language.lean`)
-/

set_option linter.unusedSectionVars false

namespace R1CS

variable {p : ℕ} [hp : Fact p.Prime] {α β γ δ : Type} {r : Renumbering}

open Language

namespace Alike

theorem kindExpr (o : Obj p) : expr? (o.renumber r) = (expr? o).map (Expression.renumber r) := by
  cases o <;> rfl

theorem kindBool (o : Obj p) : bool? (o.renumber r) = (bool? o).map (BooleanExpression.renumber r) := by
  cases o <;> rfl

theorem kindBin (o : Obj p) : bin? (o.renumber r) = (bin? o).map (BinaryExpression.renumber r) := by
  cases o <;> rfl

theorem onAll {kind : Obj p → Option α} {h : α → α} {f f' : List α → B p β} {g : β → β}
    (hk : ∀ o, kind (o.renumber r) = (kind o).map h) (hf : ∀ l, Alike r g (f l) (f' (l.map h)))
    (os : List (Obj p)) :
    Alike r g (Language.onAll kind f os) (Language.onAll kind f' (os.map (Obj.renumber r))) :=
  bind (f := List.map h) (ofOption (mapM_renumber hk os)) fun _ => hf _

variable {h : α → α} {g : β → β}

theorem call1 {f : α → B p β} (hf : ∀ x, Alike r g (f x) (f (h x))) :
    ∀ l : List α, Alike r g (Language.call1 f l) (Language.call1 f (l.map h))
  | [] => panic
  | [_] => hf _
  | _ :: _ :: _ => panic

theorem call2 {f : α → α → B p β} (hf : ∀ x y, Alike r g (f x y) (f (h x) (h y))) :
    ∀ l : List α, Alike r g (Language.call2 f l) (Language.call2 f (l.map h))
  | [] => panic
  | [_] => panic
  | [_, _] => hf _ _
  | _ :: _ :: _ :: _ => panic

theorem call3 {f : α → α → α → B p β} (hf : ∀ x y z, Alike r g (f x y z) (f (h x) (h y) (h z))) :
    ∀ l : List α, Alike r g (Language.call3 f l) (Language.call3 f (l.map h))
  | [] => panic
  | [_] => panic
  | [_, _] => panic
  | [_, _, _] => hf _ _ _
  | _ :: _ :: _ :: _ :: _ => panic

theorem call4 {f : α → α → α → α → B p β}
    (hf : ∀ x y z t, Alike r g (f x y z t) (f (h x) (h y) (h z) (h t))) :
    ∀ l : List α, Alike r g (Language.call4 f l) (Language.call4 f (l.map h))
  | [] => panic
  | [_] => panic
  | [_, _] => panic
  | [_, _, _] => panic
  | [_, _, _, _] => hf _ _ _ _
  | _ :: _ :: _ :: _ :: _ :: _ => panic

theorem call5 {f : α → α → α → α → α → B p β}
    (hf : ∀ x y z t u, Alike r g (f x y z t u) (f (h x) (h y) (h z) (h t) (h u))) :
    ∀ l : List α, Alike r g (Language.call5 f l) (Language.call5 f (l.map h))
  | [] => panic
  | [_] => panic
  | [_, _] => panic
  | [_, _, _] => panic
  | [_, _, _, _] => panic
  | [_, _, _, _, _] => hf _ _ _ _ _
  | _ :: _ :: _ :: _ :: _ :: _ :: _ => panic

theorem callList {f : α → List α → B p β} (hf : ∀ x l, Alike r g (f x l) (f (h x) (l.map h))) :
    ∀ l : List α, Alike r g (Language.callList f l) (Language.callList f (l.map h))
  | [] => panic
  | _ :: _ => hf _ _

theorem callPointBool {f : Expression p → Expression p → BooleanExpression p → B p β}
    (hf : ∀ x y b, Alike r g (f x y b) (f (x.renumber r) (y.renumber r) (b.renumber r)))
    (os : List (Obj p)) :
    Alike r g (Language.callPointBool f os)
      (Language.callPointBool f (os.map (Obj.renumber r))) := by
  rcases os with _ | ⟨_ | _ | _, _ | ⟨_ | _ | _, _ | ⟨_ | _ | _, _ | ⟨_, _⟩⟩⟩⟩
  all_goals first | exact panic | exact hf _ _ _

theorem callPath {f : Expression p → BinaryExpression p → List (Expression p) → B p β}
    (hf : ∀ x l xs, Alike r g (f x l xs)
      (f (x.renumber r) (l.renumber r) (xs.map (Expression.renumber r)))) (os : List (Obj p)) :
    Alike r g (Language.callPath f os) (Language.callPath f (os.map (Obj.renumber r))) := by
  rcases os with _ | ⟨_ | _ | _, _ | ⟨_ | _ | _, os⟩⟩
  all_goals first | exact panic | exact onAll kindExpr (hf _ _) os

theorem callPath2 {f : Expression p → Expression p → BinaryExpression p → List (Expression p) →
    B p β} (hf : ∀ x y l xs, Alike r g (f x y l xs)
      (f (x.renumber r) (y.renumber r) (l.renumber r) (xs.map (Expression.renumber r))))
    (os : List (Obj p)) :
    Alike r g (Language.callPath2 f os) (Language.callPath2 f (os.map (Obj.renumber r))) := by
  rcases os with _ | ⟨_ | _ | _, _ | ⟨_ | _ | _, _ | ⟨_ | _ | _, os⟩⟩⟩
  all_goals first | exact panic | exact onAll kindExpr (hf _ _ _) os

theorem retExpr {m m' : B p (Expression p)} (h : Alike r (Expression.renumber r) m m') :
    Alike r (List.map (Obj.renumber r)) (Language.retExpr m) (Language.retExpr m') :=
  bind h fun _ => pure rfl

theorem retExprs {m m' : B p (List (Expression p))}
    (h : Alike r (List.map (Expression.renumber r)) m m') :
    Alike r (List.map (Obj.renumber r)) (Language.retExprs m) (Language.retExprs m') :=
  bind h fun _ => pure (by simp [Function.comp_def, Obj.renumber])

theorem retBool {m m' : B p (BooleanExpression p)} (h : Alike r (BooleanExpression.renumber r) m m') :
    Alike r (List.map (Obj.renumber r)) (Language.retBool m) (Language.retBool m') :=
  bind h fun _ => pure rfl

theorem retBin {m m' : B p (BinaryExpression p)} (h : Alike r (BinaryExpression.renumber r) m m') :
    Alike r (List.map (Obj.renumber r)) (Language.retBin m) (Language.retBin m') :=
  bind h fun _ => pure rfl

theorem retPoint {m m' : B p (EdwardsExpression p)}
    (h : Alike r (EdwardsExpression.renumber r) m m') :
    Alike r (List.map (Obj.renumber r)) (Language.retPoint m) (Language.retPoint m') :=
  bind h fun _ => pure rfl

theorem retNone {f : α → α} {m m' : B p α} (h : Alike r f m m') :
    Alike r (List.map (Obj.renumber r)) (Language.retNone m) (Language.retNone m') :=
  bind h fun _ => pure rfl

theorem cyclic (C : EdwardsCurve p) (G : EdwardsPoint p) : Group r (EdwardsExpression.renumber r)
    (cyclicSubgroup (EdwardsGroup.ops C) (some G)).toGroupOps := edwards C

theorem pointTimesBoolean (C : EdwardsCurve p) (x y : Expression p) (b : BooleanExpression p) :
    Alike r (List.map (Obj.renumber r))
      (Language.retPoint ((EdwardsGroup.ops C).mulBooleanExpression ⟨x, y⟩ b))
      (Language.retPoint ((EdwardsGroup.ops C).mulBooleanExpression ⟨x.renumber r, y.renumber r⟩
        (b.renumber r))) := retPoint (mulBoolean (edwards C) ⟨x, y⟩ b)

theorem pointTimesScalar (C : EdwardsCurve p) (x y k : Expression p) :
    Alike r (List.map (Obj.renumber r))
      (Language.retPoint ((EdwardsGroup.ops C).mulScalarExpression ⟨x, y⟩ k))
      (Language.retPoint ((EdwardsGroup.ops C).mulScalarExpression ⟨x.renumber r, y.renumber r⟩
        (k.renumber r))) := retPoint (mulScalar (edwards C) ⟨x, y⟩ k)

theorem signature (C : EdwardsCurve p) (G : EdwardsPoint p) {k : PairHash p}
    (h : Pairwise r k.code.compress) (s e m x y : Expression p) :
    Alike r (List.map (Obj.renumber r))
      (Language.retNone (schnorrVerify (cyclicSubgroup (EdwardsGroup.ops C) (some G)) k.code ⟨s, e⟩ m
        ⟨x, y⟩))
      (Language.retNone (schnorrVerify (cyclicSubgroup (EdwardsGroup.ops C) (some G)) k.code
        ⟨s.renumber r, e.renumber r⟩ (m.renumber r) ⟨x.renumber r, y.renumber r⟩)) :=
  retNone (schnorr (C := cyclicSubgroup (EdwardsGroup.ops C) (some G)) (cyclic C G) h ⟨s, e⟩ m ⟨x, y⟩)

theorem rootOf {k : PairHash p} (h : Pairwise r k.code.compress) (x : Expression p)
    (l : BinaryExpression p) (xs : List (Expression p)) :
    Alike r (List.map (Obj.renumber r))
      (do
        let path ← B.ofOption (MerklePath.new l xs)
        Language.retExpr (B.merkleTreeRoot x path k.code))
      (do
        let path ← B.ofOption (MerklePath.new (l.renumber r) (xs.map (Expression.renumber r)))
        Language.retExpr (B.merkleTreeRoot (x.renumber r) path k.code)) :=
  bind (ofOption (merklePath _ _)) fun _ => retExpr (merkleTreeRoot h _ _)

theorem membership {k : PairHash p} (h : Pairwise r k.code.compress) (x y : Expression p)
    (l : BinaryExpression p) (xs : List (Expression p)) :
    Alike r (List.map (Obj.renumber r))
      (do
        let path ← B.ofOption (MerklePath.new l xs)
        Language.retNone (B.assertMerkleTreeMembership x y path k.code))
      (do
        let path ← B.ofOption (MerklePath.new (l.renumber r) (xs.map (Expression.renumber r)))
        Language.retNone (B.assertMerkleTreeMembership (x.renumber r) (y.renumber r) path k.code)) :=
  bind (ofOption (merklePath _ _)) fun _ => retNone (assertMerkleTreeMembership h _ _ _)

theorem run (o : Op p) (h : Given r o) (os : List (Obj p)) :
    Alike r (List.map (Obj.renumber r)) (o.run os) (o.run (os.map (Obj.renumber r))) := by
  cases o with
  | cmpBinary r =>
    cases r
    · exact onAll kindBin (call2 fun _ _ => retBool (cmpBinary _ _)) _
    · exact onAll kindBin (call2 fun _ _ => retBool (cmpBinary _ _)) _
    · exact onAll kindBin (call2 fun _ _ => retBool (cmpBinary _ _)) _
    · exact onAll kindBin (call2 fun _ _ => retBool (cmpBinary _ _)) _
  | assertCmpBinary r =>
    cases r
    · exact onAll kindBin (call2 fun _ _ => retNone assertLtBinary) _
    · exact onAll kindBin (call2 fun _ _ => retNone assertLeBinary) _
    · exact onAll kindBin (call2 fun _ _ => retNone assertGtBinary) _
    · exact onAll kindBin (call2 fun _ _ => retNone assertGeBinary) _
  | select =>
    by_cases hc : ∃ c x y, os = [.bool c, .expr x, .expr y]
    · obtain ⟨c, x, y, rfl⟩ := hc
      exact retExpr selection
    · rcases os with _ | ⟨_ | _ | _, _ | ⟨_ | _ | _, _ | ⟨_ | _ | _, _ | ⟨_, _⟩⟩⟩⟩
      all_goals first | exact panic | exact absurd ⟨_, _, _, rfl⟩ hc
  | add => exact onAll kindExpr (call2 fun _ _ => retExpr pure) _
  | sub => exact onAll kindExpr (call2 fun _ _ => retExpr pure) _
  | neg => exact onAll kindExpr (call1 fun _ => retExpr pure) _
  | scale _ => exact onAll kindExpr (call1 fun _ => retExpr pure) _
  | product => exact onAll kindExpr (call2 fun _ _ => retExpr product) _
  | exp _ => exact onAll kindExpr (call1 fun _ => retExpr (exponentiation _)) _
  | inverse => exact onAll kindExpr (call1 fun _ => retExpr inverse) _
  | quotient => exact onAll kindExpr (call2 fun _ _ => retExpr quotient) _
  | inverseOrZero => exact onAll kindExpr (call1 fun _ => retExpr inverseOrZero) _
  | quotientUnsafe => exact onAll kindExpr (call2 fun _ _ => retExpr quotientUnsafe) _
  | nonzero => exact onAll kindExpr (call1 fun _ => retBool nonzero) _
  | zero => exact onAll kindExpr (call1 fun _ => retBool zero) _
  | equal => exact onAll kindExpr (call2 fun _ _ => retBool equal) _
  | assertEqual => exact onAll kindExpr (call2 fun _ _ => retNone assertEqual) _
  | assertNonequal => exact onAll kindExpr (call2 fun _ _ => retNone assertNonequal) _
  | assertZero => exact onAll kindExpr (call1 fun _ => retNone assertZero) _
  | assertNonzero => exact onAll kindExpr (call1 fun _ => retNone assertNonzero) _
  | assertProduct => exact onAll kindExpr (call3 fun _ _ _ => retNone assertProduct) _
  | assertBoolean => exact onAll kindExpr (call1 fun _ => retBool assertBoolean) _
  | lt => exact onAll kindExpr (call2 fun _ _ => retBool (cmp _ _)) _
  | le => exact onAll kindExpr (call2 fun _ _ => retBool (cmp _ _)) _
  | gt => exact onAll kindExpr (call2 fun _ _ => retBool (cmp _ _)) _
  | ge => exact onAll kindExpr (call2 fun _ _ => retBool (cmp _ _)) _
  | assertLt => exact onAll kindExpr (call2 fun _ _ => retNone assertLt) _
  | assertLe => exact onAll kindExpr (call2 fun _ _ => retNone assertLe) _
  | assertGt => exact onAll kindExpr (call2 fun _ _ => retNone assertGt) _
  | assertGe => exact onAll kindExpr (call2 fun _ _ => retNone assertGe) _
  | modulus => exact onAll kindExpr (call2 fun _ _ => retExpr modulus) _
  | divides => exact onAll kindExpr (call2 fun _ _ => retBool divides) _
  | split => exact onAll kindExpr (call1 fun _ => retBin split) _
  | splitAllowingAmbiguity => exact onAll kindExpr (call1 fun _ => retBin splitAllowingAmbiguity) _
  | splitBounded _ => exact onAll kindExpr (call1 fun _ => retBin (splitBounded _)) _
  | join => exact onAll kindBin (call1 fun _ => retExpr ofOption) _
  | joinAllowingOverflow => exact onAll kindBin (call1 fun _ => retExpr ofOption) _
  | not => exact onAll kindBool (call1 fun _ => retBool not) _
  | and => exact onAll kindBool (call2 fun _ _ => retBool and) _
  | or => exact onAll kindBool (call2 fun _ _ => retBool or) _
  | xor => exact onAll kindBool (call2 fun _ _ => retBool xor) _
  | assertTrue => exact onAll kindBool (call1 fun _ => retNone assertTrue) _
  | assertFalse => exact onAll kindBool (call1 fun _ => retNone assertFalse) _
  | toExpr => exact onAll kindBool (call1 fun _ => retExpr pure) _
  | bitwiseNot => exact onAll kindBin (call1 fun _ => retBin bitwiseNot) _
  | bitwiseAnd => exact onAll kindBin (call2 fun _ _ => retBin bitwiseAnd) _
  | bitwiseOr => exact onAll kindBin (call2 fun _ _ => retBin bitwiseOr) _
  | bitwiseXor => exact onAll kindBin (call2 fun _ _ => retBin bitwiseXor) _
  | rotateInc _ => exact onAll kindBin (call1 fun _ => retBin (ofOption (rotateInc _ _))) _
  | rotateDec _ => exact onAll kindBin (call1 fun _ => retBin (ofOption (rotateDec _ _))) _
  | shiftInc _ => exact onAll kindBin (call1 fun _ => retBin (ofOption (shiftInc _ _))) _
  | shiftDec _ => exact onAll kindBin (call1 fun _ => retBin (ofOption (shiftDec _ _))) _
  | binaryAssertZero => exact onAll kindBin (call1 fun _ => retNone binaryAssertZero) _
  | const _ => exact pure (by simp [Obj.renumber])
  | constBool _ => exact pure (by simp [Obj.renumber])
  | constBits _ => exact pure (by simp [Obj.renumber])
  | pack => exact onAll kindBool (fun _ => retBin pure) _
  | unpack => exact onAll kindBin (call1 fun _ => pure (by simp [Function.comp_def, Obj.renumber])) _
  | binarySum => exact onAll kindBin (fun _ => retBin binarySummation) _
  | binarySumIgnoringOverflow =>
    exact onAll kindBin (fun _ => retBin binarySummationIgnoringOverflow) _
  | binarySumAssertingNoOverflow =>
    exact onAll kindBin (fun _ => retBin binarySummationAssertingNoOverflow) _
  | randomAccess => exact onAll kindExpr (callList fun _ _ => retExpr randomAccess) _
  | assertPermutation _ => exact onAll kindExpr (fun _ => retNone assertPermutation) _
  | sortAscending => exact onAll kindExpr (fun _ => retExprs sortAscending) _
  | sortDescending => exact onAll kindExpr (fun _ => retExprs sortDescending) _
  | function => exact onAll kindExpr (fun _ => bind require fun _ => retExprs (h _)) _
  | edwardsNew _ => exact onAll kindExpr (call2 fun _ _ => retPoint (edwardsNew _)) _
  | edwardsAdd _ => exact onAll kindExpr (call4 fun _ _ _ _ => retPoint (edwardsAdd _ _ _)) _
  | edwardsDouble _ => exact onAll kindExpr (call2 fun _ _ => retPoint (edwardsDouble _ _)) _
  | edwardsMulBoolean _ => exact callPointBool (pointTimesBoolean _) _
  | edwardsMulScalar _ => exact onAll kindExpr (call3 (pointTimesScalar _)) _
  | schnorrVerify C G k => exact onAll kindExpr (call5 (signature C G h)) _
  | merkleRoot _ => exact callPath (rootOf h) _
  | assertMembership _ => exact callPath2 (membership h) _

theorem step {i : Op p × List ℕ} (h : Given r i.1) (os : List (Obj p)) :
    Alike r (List.map (Obj.renumber r)) (Circuit.step i os)
      (Circuit.step i (os.map (Obj.renumber r))) :=
  bind (f := List.map (Obj.renumber r)) (ofOption (mapM_same (fun _ => by simp) _)) fun _ =>
    bind (run _ h _) fun _ => pure

theorem runFrom : ∀ {c : Circuit p}, (∀ i ∈ c, Given r i.1) → ∀ os,
    Alike r (List.map (Obj.renumber r)) (Circuit.runFrom c os)
      (Circuit.runFrom c (os.map (Obj.renumber r)))
  | [], _, _ => pure
  | i :: c, h, _ => bind (step (h i (by simp)) _) fun _ =>
    runFrom (fun j hj => h j (by simp [hj])) _

theorem build {c : Circuit p} (h : ∀ i ∈ c, Given r i.1) (k : ℕ) :
    Alike r (List.map (Obj.renumber r)) (Circuit.build k c) (Circuit.build k c) := by
  refine bind (wires k) fun ws => ?_
  have := runFrom h (ws.map fun w => .expr (Expression.ofWire w))
  rw [List.map_map] at this
  rw [List.map_map]
  simpa [Function.comp_def, Obj.renumber] using this

end Alike

end R1CS
