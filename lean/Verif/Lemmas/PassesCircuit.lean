import Verif.Lemmas.PassesMore
import Verif.Props.Language

/-!
# Passes over the pending generators: straight-line code
-/

set_option linter.unusedSectionVars false

namespace R1CS

variable {p : ℕ} [hp : Fact p.Prime] {α β : Type}

open Language

theorem Obj.Over.mono {K L : Set Wire} (hK : K ⊆ L) : ∀ {o : Obj p}, o.Over K → o.Over L
  | .expr _, h => Expression.Over.mono h hK
  | .bool _, h => Expression.Over.mono h hK
  | .bin _, h => BinaryExpression.Over.mono h hK

namespace Timely

variable {d : ℕ} {K : Set Wire}

/-- The objects mention only wires in `K`. -/
abbrev ObjsOver (os : List (Obj p)) (K : Set Wire) : Prop := ∀ o ∈ os, o.Over K

/-- Operands of the kind which `conv` selects, together with what it means that they are over `K`. -/
structure Operand (p : ℕ) [Fact p.Prime] (K : Set Wire) (α : Type) where
  conv : Obj p → Option α
  over : α → Prop
  spec : ∀ o a, conv o = some a → o.Over K → over a

@[reducible] def sExpr : Operand p K (Expression p) where
  conv := expr?
  over e := e.Over K
  spec o a h ho := by
    cases o <;> simp only [expr?, Option.some.injEq, reduceCtorEq] at h
    exact h ▸ ho

@[reducible] def sBool : Operand p K (BooleanExpression p) where
  conv := bool?
  over e := e.Over K
  spec o a h ho := by
    cases o <;> simp only [bool?, Option.some.injEq, reduceCtorEq] at h
    exact h ▸ ho

@[reducible] def sBin : Operand p K (BinaryExpression p) where
  conv := bin?
  over e := e.Over K
  spec o a h ho := by
    cases o <;> simp only [bin?, Option.some.injEq, reduceCtorEq] at h
    exact h ▸ ho

theorem Operand.all (S : Operand p K α) : ∀ {os : List (Obj p)} {as : List α}, ObjsOver os K →
    os.mapM S.conv = some as → ∀ a ∈ as, S.over a
  | [], as, _, h => by cases h; simp
  | o :: os, as, ho, h => by
    rw [List.mapM_cons] at h
    cases h1 : S.conv o with
    | none => rw [h1] at h; cases h
    | some a =>
      rw [h1] at h
      cases h2 : os.mapM S.conv with
      | none => rw [h2] at h; cases h
      | some as' =>
        rw [h2] at h
        cases h
        intro x hx
        rcases List.mem_cons.1 hx with rfl | hx
        · exact S.spec o x h1 (ho o (by simp))
        · exact S.all (fun o ho' => ho o (by simp [ho'])) h2 x hx

theorem onAll (S : Operand p K α) {os : List (Obj p)} {f : List α → B p (List (Obj p))}
    (ho : ObjsOver os K)
    (h : ∀ as : List α, as.length = os.length → (∀ a ∈ as, S.over a) → Timely d K (f as) ObjsOver) :
    Timely d K (Language.onAll S.conv f os) ObjsOver :=
  skip (.ofOption _) fun as e => h as (mapM_length e) (S.all ho e)

theorem on1 (S : Operand p K α) {os : List (Obj p)} {f : α → B p (List (Obj p))}
    (ho : ObjsOver os K) (h : ∀ a, S.over a → Timely d K (f a) ObjsOver) :
    Timely d K (Language.onAll S.conv (call1 f) os) ObjsOver :=
  onAll S ho fun as _ hs => by
    match as with
    | [a] => exact h a (hs a (by simp))
    | [] => exact panic
    | _ :: _ :: _ => exact panic

theorem on2 (S : Operand p K α) {os : List (Obj p)} {f : α → α → B p (List (Obj p))}
    (ho : ObjsOver os K) (h : ∀ a b, S.over a → S.over b → Timely d K (f a b) ObjsOver) :
    Timely d K (Language.onAll S.conv (call2 f) os) ObjsOver :=
  onAll S ho fun as _ hs => by
    match as with
    | [a, b] => exact h a b (hs a (by simp)) (hs b (by simp))
    | [] => exact panic
    | [_] => exact panic
    | _ :: _ :: _ :: _ => exact panic

theorem on3 (S : Operand p K α) {os : List (Obj p)} {f : α → α → α → B p (List (Obj p))}
    (ho : ObjsOver os K)
    (h : ∀ a b c, S.over a → S.over b → S.over c → Timely d K (f a b c) ObjsOver) :
    Timely d K (Language.onAll S.conv (call3 f) os) ObjsOver :=
  onAll S ho fun as _ hs => by
    match as with
    | [a, b, c] => exact h a b c (hs a (by simp)) (hs b (by simp)) (hs c (by simp))
    | [] => exact panic
    | [_] => exact panic
    | [_, _] => exact panic
    | _ :: _ :: _ :: _ :: _ => exact panic

theorem on4 (S : Operand p K α) {os : List (Obj p)} {f : α → α → α → α → B p (List (Obj p))}
    (ho : ObjsOver os K)
    (h : ∀ a b c e, S.over a → S.over b → S.over c → S.over e → Timely d K (f a b c e) ObjsOver) :
    Timely d K (Language.onAll S.conv (call4 f) os) ObjsOver :=
  onAll S ho fun as _ hs => by
    match as with
    | [a, b, c, e] => exact h a b c e (hs a (by simp)) (hs b (by simp)) (hs c (by simp)) (hs e (by simp))
    | [] => exact panic
    | [_] => exact panic
    | [_, _] => exact panic
    | [_, _, _] => exact panic
    | _ :: _ :: _ :: _ :: _ :: _ => exact panic

theorem on5 (S : Operand p K α) {os : List (Obj p)} {f : α → α → α → α → α → B p (List (Obj p))}
    (ho : ObjsOver os K)
    (h : ∀ a b c e g, S.over a → S.over b → S.over c → S.over e → S.over g →
      Timely d K (f a b c e g) ObjsOver) :
    Timely d K (Language.onAll S.conv (call5 f) os) ObjsOver :=
  onAll S ho fun as _ hs => by
    match as with
    | [a, b, c, e, g] =>
      exact h a b c e g (hs a (by simp)) (hs b (by simp)) (hs c (by simp)) (hs e (by simp))
        (hs g (by simp))
    | [] => exact panic
    | [_] => exact panic
    | [_, _] => exact panic
    | [_, _, _] => exact panic
    | [_, _, _, _] => exact panic
    | _ :: _ :: _ :: _ :: _ :: _ :: _ => exact panic

theorem onList (S : Operand p K α) {os : List (Obj p)} {f : α → List α → B p (List (Obj p))}
    (ho : ObjsOver os K)
    (h : ∀ a as, S.over a → (∀ a ∈ as, S.over a) → Timely d K (f a as) ObjsOver) :
    Timely d K (Language.onAll S.conv (callList f) os) ObjsOver :=
  onAll S ho fun as _ hs => by
    match as with
    | a :: as => exact h a as (hs a (by simp)) fun b hb => hs b (by simp [hb])
    | [] => exact panic

theorem one_over {o : Obj p} {K : Set Wire} (h : o.Over K) : ObjsOver [o] K := by
  intro o' ho
  rw [List.mem_singleton] at ho
  exact ho ▸ h

theorem retExpr {m : B p (Expression p)} (h : Timely d K m fun z K' => z.Over K') :
    Timely d K (Language.retExpr m) ObjsOver :=
  h.bind fun _ _ _ h => pure (one_over h)

theorem retBool {m : B p (BooleanExpression p)} (h : Timely d K m fun z K' => z.Over K') :
    Timely d K (Language.retBool m) ObjsOver :=
  h.bind fun _ _ _ h => pure (one_over h)

theorem retBin {m : B p (BinaryExpression p)} (h : Timely d K m fun z K' => z.Over K') :
    Timely d K (Language.retBin m) ObjsOver :=
  h.bind fun _ _ _ h => pure (one_over h)

theorem retNone {m : B p α} {Q : α → Set Wire → Prop} (h : Timely d K m Q) :
    Timely d K (Language.retNone m) ObjsOver :=
  h.bind fun _ _ _ _ => pure fun _ h => by cases h

theorem quietNone {m : B p α} {P : α → Prop} (h : Silent m P) :
    Timely d K (Language.retNone m) ObjsOver := retNone (quiet (R := fun _ _ => True) h fun _ _ => trivial)

theorem retExprs {m : B p (List (Expression p))} (h : Timely d K m fun z K' => ListOver K' z) :
    Timely d K (Language.retExprs m) ObjsOver :=
  h.bind fun _ _ _ h => pure (by
    intro o ho
    obtain ⟨e, he, rfl⟩ := List.mem_map.1 ho
    exact h e he)

theorem retPoint {m : B p (EdwardsExpression p)} (h : Timely d K m fun z K' => z.Over K') :
    Timely d K (Language.retPoint m) ObjsOver :=
  h.bind fun _ _ _ h => pure (by
    intro o ho
    simp only [List.mem_cons, List.not_mem_nil, or_false] at ho
    rcases ho with rfl | rfl
    · exact h.1
    · exact h.2)

theorem onPointBool {os : List (Obj p)} {f : Expression p → Expression p → BooleanExpression p →
    B p (List (Obj p))} (ho : ObjsOver os K) (h : ∀ (x y : Expression p) (b : BooleanExpression p),
      x.Over K → y.Over K → b.Over K → Timely d K (f x y b) ObjsOver) :
    Timely d K (Language.callPointBool f os) ObjsOver := by
  unfold Language.callPointBool
  split
  · next x y b =>
      exact h x y b (ho (.expr x) (by simp)) (ho (.expr y) (by simp))
        (ho (.bool b) (by simp))
  · exact panic

theorem onPath {os : List (Obj p)} {f : Expression p → BinaryExpression p → List (Expression p) →
    B p (List (Obj p))} (ho : ObjsOver os K) (h : ∀ (x : Expression p) (l : BinaryExpression p)
      (xs : List (Expression p)), x.Over K → l.Over K → ListOver K xs → Timely d K (f x l xs) ObjsOver) :
    Timely d K (Language.callPath f os) ObjsOver := by
  unfold Language.callPath
  split
  · next x l os =>
      exact onAll sExpr (fun o h => ho o (by simp [h])) fun xs _ hx =>
        h x l xs (ho (.expr x) (by simp)) (ho (.bin l) (by simp)) hx
  · exact panic

theorem onPath2 {os : List (Obj p)} {f : Expression p → Expression p → BinaryExpression p →
    List (Expression p) → B p (List (Obj p))} (ho : ObjsOver os K)
    (h : ∀ (x y : Expression p) (l : BinaryExpression p) (xs : List (Expression p)), x.Over K →
      y.Over K → l.Over K → ListOver K xs → Timely d K (f x y l xs) ObjsOver) :
    Timely d K (Language.callPath2 f os) ObjsOver := by
  unfold Language.callPath2
  split
  · next x y l os =>
      exact onAll sExpr (fun o h => ho o (by simp [h])) fun xs _ hx =>
        h x y l xs (ho (.expr x) (by simp)) (ho (.expr y) (by simp)) (ho (.bin l) (by simp)) hx
  · exact panic

theorem newPath {l : BinaryExpression p} {xs : List (Expression p)}
    {f : MerklePath p → B p (List (Obj p))} (hl : l.Over K) (hx : ListOver K xs)
    (h : ∀ path : MerklePath p, path.pathBits.Over K → ListOver K path.siblings →
      Timely d K (f path) ObjsOver) :
    Timely d K (B.ofOption (MerklePath.new l xs) >>= f) ObjsOver := by
  refine skip (.ofOption _) fun path e => ?_
  unfold MerklePath.new at e
  split at e
  · obtain rfl := Option.some.inj e
    exact h _ hl hx
  · cases e

/-- Every operation is as timely as `latest` says, and its results are there in the first pass. -/
theorem op (o : Op p) (hP : o.Punctual d) (h1 : ONE ∈ K) {os : List (Obj p)} (ho : ObjsOver os K)
    (hd : o.latest os.length ≤ d) : Timely d K (o.run os) ObjsOver := by
  cases o
  case const c => exact pure (one_over (Expression.Over.ofElem h1 c))
  case constBool c => exact pure (one_over (Expression.Over.ofElem h1 _))
  case constBits k => exact pure (one_over (BinaryExpression.Over.ofNat h1 k))
  case add => exact on2 sExpr ho fun x y hx hy => retExpr (pure (hx.add hy))
  case sub => exact on2 sExpr ho fun x y hx hy => retExpr (pure (hx.sub hy))
  case neg => exact on1 sExpr ho fun x hx => retExpr (pure hx.neg)
  case scale c => exact on1 sExpr ho fun x hx => retExpr (pure (hx.mulElem c))
  case product => exact on2 sExpr ho fun x y hx hy => retExpr (product hx hy)
  case exp k => exact on1 sExpr ho fun x hx => retExpr (exponentiation h1 hx k)
  case inverse => exact on1 sExpr ho fun x hx => retExpr (inverse hx)
  case quotient => exact on2 sExpr ho fun x y hx hy => retExpr (quotient hx hy)
  case inverseOrZero => exact on1 sExpr ho fun x hx => retExpr (inverseOrZero hx)
  case quotientUnsafe => exact on2 sExpr ho fun x y hx hy => retExpr (quotientUnsafe hx hy)
  case nonzero => exact on1 sExpr ho fun x hx => retBool (nonzero hx)
  case zero => exact on1 sExpr ho fun x hx => retBool (zero h1 hx)
  case equal => exact on2 sExpr ho fun x y hx hy => retBool (equal h1 hx hy)
  case assertEqual =>
    exact on2 sExpr ho fun x y _ _ => quietNone (.assertEqual x y)
  case assertNonequal => exact on2 sExpr ho fun x y hx hy => retNone (assertNonequal hx hy)
  case assertZero =>
    exact on1 sExpr ho fun x _ => quietNone (.assertEqual x 0)
  case assertNonzero => exact on1 sExpr ho fun x hx => retNone (assertNonzero hx)
  case assertProduct => exact on3 sExpr ho fun x y z _ _ _ => retNone (assertProduct x y z)
  case assertBoolean =>
    exact on1 sExpr ho fun x hx => retBool (quiet (.assertBoolean x) fun a e => by
      have h : a.expression.Over K := by rw [e]; exact hx
      exact h)
  case lt => exact on2 sExpr ho fun x y hx hy => retBool (cmp h1 hx hy _ _)
  case le => exact on2 sExpr ho fun x y hx hy => retBool (cmp h1 hx hy _ _)
  case gt => exact on2 sExpr ho fun x y hx hy => retBool (cmp h1 hx hy _ _)
  case ge => exact on2 sExpr ho fun x y hx hy => retBool (cmp h1 hx hy _ _)
  case assertLt => exact on2 sExpr ho fun x y hx hy => retNone (assertCmp h1 hx hy _ _)
  case assertLe => exact on2 sExpr ho fun x y hx hy => retNone (assertCmp h1 hx hy _ _)
  case assertGt => exact on2 sExpr ho fun x y hx hy => retNone (assertCmp h1 hx hy _ _)
  case assertGe => exact on2 sExpr ho fun x y hx hy => retNone (assertCmp h1 hx hy _ _)
  case modulus =>
    exact on2 sExpr ho fun x y hx hy => retExpr (later (modulus (d := 0) h1 hx hy) hd)
  case divides =>
    exact on2 sExpr ho fun x y hx hy => retBool (later (divides (d := 0) h1 hx hy) hd)
  case split => exact on1 sExpr ho fun x hx => retBin (split h1 hx)
  case splitAllowingAmbiguity => exact on1 sExpr ho fun x hx => retBin (splitAllowingAmbiguity hx)
  case splitBounded k => exact on1 sExpr ho fun x hx => retBin (splitBounded hx k)
  case join =>
    exact on1 sBin ho fun x hx => retExpr (quiet (.ofOption _) fun z h =>
      BinaryExpression.Over.join hx h)
  case joinAllowingOverflow =>
    exact on1 sBin ho fun x hx => retExpr (quiet (.ofOption _) fun z h =>
      BinaryExpression.Over.joinAllowingOverflow hx h)
  case cmpBinary r =>
    cases r <;> exact on2 sBin ho fun x y hx hy => retBool (cmpBinary h1 hx hy _ _)
  case assertCmpBinary r =>
    cases r <;> exact on2 sBin ho fun x y hx hy => retNone (assertCmpBinary h1 hx hy _ _)
  case not => exact on1 sBool ho fun x hx => retBool (not h1 hx)
  case and => exact on2 sBool ho fun x y hx hy => retBool (and hx hy)
  case or => exact on2 sBool ho fun x y hx hy => retBool (or hx hy)
  case xor => exact on2 sBool ho fun x y hx hy => retBool (xor hx hy)
  case assertTrue =>
    exact on1 sBool ho fun x _ => quietNone (.assertEqual _ _)
  case assertFalse =>
    exact on1 sBool ho fun x _ => quietNone (.assertEqual _ _)
  case select =>
    unfold Op.run
    split <;> try exact panic
    all_goals simp_all
    next c x y =>
      exact retExpr (selection (ho (.bool c) (by simp))
        (show Obj.Over K (.expr x) from ho _ (by simp)) (show Obj.Over K (.expr y) from ho _ (by simp)))
  case toExpr => exact on1 sBool ho fun x hx => retExpr (pure hx)
  case pack => exact onAll sBool ho fun xs _ hx => retBin (pure hx)
  case unpack =>
    exact on1 sBin ho fun x hx => pure fun o h => by
      obtain ⟨b, hb, rfl⟩ := List.mem_map.1 h
      exact hx b hb
  case bitwiseNot => exact on1 sBin ho fun x hx => retBin (bitwiseNot h1 hx)
  case bitwiseAnd => exact on2 sBin ho fun x y hx hy => retBin (bitwiseAnd hx hy)
  case bitwiseOr => exact on2 sBin ho fun x y hx hy => retBin (bitwiseOr hx hy)
  case bitwiseXor => exact on2 sBin ho fun x y hx hy => retBin (bitwiseXor hx hy)
  case rotateInc k =>
    exact on1 sBin ho fun x hx => retBin (quiet (.ofOption _) fun z h =>
      BinaryExpression.Over.rotateInc hx h)
  case rotateDec k =>
    exact on1 sBin ho fun x hx => retBin (quiet (.ofOption _) fun z h =>
      BinaryExpression.Over.rotateDec hx h)
  case shiftInc k =>
    exact on1 sBin ho fun x hx => retBin (quiet (.ofOption _) fun z h =>
      BinaryExpression.Over.shiftInc h1 hx h)
  case shiftDec k =>
    exact on1 sBin ho fun x hx => retBin (quiet (.ofOption _) fun z h =>
      BinaryExpression.Over.shiftDec h1 hx h)
  case binarySum => exact onAll sBin ho fun xs _ hx => retBin (binarySummation hx)
  case binarySumIgnoringOverflow =>
    exact onAll sBin ho fun xs _ hx => retBin (binarySummationIgnoringOverflow hx)
  case binarySumAssertingNoOverflow =>
    exact onAll sBin ho fun xs _ hx => retBin (binarySummationAssertingNoOverflow hx)
  case binaryAssertZero =>
    exact on1 sBin ho fun x _ => quietNone (.binaryAssertZero x)
  case randomAccess => exact onList sExpr ho fun i xs hi hx => retExpr (randomAccess hx hi)
  case assertPermutation k =>
    exact onAll sExpr ho fun xs _ hx => retNone (later (assertPermutation
      (fun e he => hx e (List.mem_of_mem_take he)) fun e he => hx e (List.mem_of_mem_drop he))
      ((Nat.clog_mono_right 2 (List.length_take_le k xs)).trans hd))
  case sortAscending =>
    exact onAll sExpr ho fun xs hl hx => retExprs (later (sortAscending h1 hx) (by rw [hl]; exact hd))
  case sortDescending =>
    exact onAll sExpr ho fun xs hl hx => retExprs (later (sortDescending h1 hx) (by rw [hl]; exact hd))
  case function k m f g h2 h3 =>
    exact onAll sExpr ho fun xs _ hx => skip (.require _) fun _ _ => retExprs (hP K xs h1 hx)
  case edwardsNew C => exact on2 sExpr ho fun x y hx hy => retPoint (edwardsNew C hx hy)
  case edwardsAdd C =>
    exact on4 sExpr ho fun x y z t hx hy hz ht => retPoint (edwardsAdd h1 C ⟨hx, hy⟩ ⟨hz, ht⟩)
  case edwardsDouble C => exact on2 sExpr ho fun x y hx hy => retPoint (edwardsDouble h1 C ⟨hx, hy⟩)
  case edwardsMulBoolean C =>
    exact onPointBool ho fun x y b hx hy hb => retPoint (mulBoolean h1 C ⟨hx, hy⟩ hb)
  case edwardsMulScalar C =>
    exact on3 sExpr ho fun x y k hx hy hk => retPoint (mulScalar h1 C ⟨hx, hy⟩ hk)
  case schnorrVerify C G h =>
    exact on5 sExpr ho fun s e m x y hs he hm hx hy =>
      retNone (schnorr h1 C G hP (σ := ⟨s, e⟩) hs he hm ⟨hx, hy⟩)
  case merkleRoot h =>
    exact onPath ho fun x l xs hx hl hxs => newPath hl hxs fun path g1 g2 =>
      retExpr (merkleTreeRoot hP h1 hx g1 g2)
  case assertMembership h =>
    exact onPath2 ho fun x r l xs hx _ hl hxs => newPath hl hxs fun path g1 g2 =>
      retNone (bind (merkleTreeRoot hP h1 hx g1 g2) fun _ _ _ _ =>
        quiet (.assertEqual _ _) fun _ _ => trivial)

theorem args_over {os as : List (Obj p)} (ho : ObjsOver os K) : ∀ {js : List ℕ},
    js.mapM (fun j => os[j]?) = some as → ObjsOver as K := by
  intro js
  induction js generalizing as with
  | nil => intro h; cases h; simp [ObjsOver]
  | cons j js ih =>
    intro h
    rw [List.mapM_cons] at h
    cases h1 : os[j]? with
    | none => rw [h1] at h; cases h
    | some a =>
      rw [h1] at h
      cases h2 : js.mapM (fun j => os[j]?) with
      | none => rw [h2] at h; cases h
      | some as' =>
        rw [h2] at h
        cases h
        intro x hx
        rcases List.mem_cons.1 hx with rfl | hx
        · exact ho x (List.mem_of_getElem? h1)
        · exact ih h2 x hx

theorem runFrom : ∀ (c : Circuit p) (os : List (Obj p)) (K : Set Wire), ONE ∈ K → ObjsOver os K →
    (∀ i ∈ c, i.1.latest i.2.length ≤ d ∧ i.1.Punctual d) →
    Timely d K (Circuit.runFrom c os) ObjsOver
  | [], _, _, _, ho, _ => pure ho
  | i :: c, os, K, h1, ho, hc => by
    refine bind (Q := fun os K => ObjsOver os K) (skip (.ofOption _) fun as e =>
      bind (op i.1 (hc i (by simp)).2 h1 (args_over ho e) ?_) fun rs K' hK hr => pure fun o ho' => ?_)
      fun os' K' hK ho' => runFrom c os' K' (hK h1) ho' fun j hj => hc j (by simp [hj])
    · rw [mapM_length e]
      exact (hc i (by simp)).1
    · rcases List.mem_append.1 ho' with h | h
      · exact (ho o h).mono hK
      · exact hr o h

end Timely

end R1CS
