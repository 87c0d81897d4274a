import Verif.Lemmas.RigidCmp
import Verif.Props.Language

/-!
# Wires which are determined: straight-line code
-/

set_option linter.unusedSectionVars false

namespace R1CS

variable {p : ℕ} [hp : Fact p.Prime] {α β : Type}

open Language

namespace Det

variable {n : ℕ} {P : Assign p → Prop}

/-- The objects are in scope. -/
abbrev Objs (os : List (Obj p)) (k : ℕ) : Prop := ∀ o ∈ os, o.Scoped k

theorem onAll (K : Kind p α β) {os : List (Obj p)} {f : List α → B p (List (Obj p))}
    (ho : Objs os n)
    (h : ∀ as, os.mapM K.obj = some as → (∀ a ∈ as, K.within n a) → Det n P (f as) Objs) :
    Det n P (onAll K.obj f os) Objs := by
  unfold Language.onAll
  cases hs : os.mapM K.obj with
  | none => exact fun _ _ _ _ hr => absurd hr (by simp [B.ofOption, Bind.bind, StateT.bind])
  | some as =>
    refine (Det.ofOption (S := fun a k => k = n ∧ a = as) fun a e => ⟨rfl, ?_⟩).bind
      fun a k _ ⟨e1, e2⟩ => ?_
    · cases e; rfl
    · rw [e1, e2]
      exact h as hs (K.scopedAll ho hs)

theorem on1 (K : Kind p α β) {os : List (Obj p)} {f : α → B p (List (Obj p))} (ho : Objs os n)
    (h : ∀ a, os.mapM K.obj = some [a] → K.within n a → Det n P (f a) Objs) :
    Det n P (Language.onAll K.obj (call1 f) os) Objs :=
  onAll K ho fun as e hs => by
    match as with
    | [a] => exact h a e (hs a (by simp))
    | [] => exact Det.panic
    | _ :: _ :: _ => exact Det.panic

theorem on2 (K : Kind p α β) {os : List (Obj p)} {f : α → α → B p (List (Obj p))} (ho : Objs os n)
    (h : ∀ a b, os.mapM K.obj = some [a, b] → K.within n a → K.within n b → Det n P (f a b) Objs) :
    Det n P (Language.onAll K.obj (call2 f) os) Objs :=
  onAll K ho fun as e hs => by
    match as with
    | [a, b] => exact h a b e (hs a (by simp)) (hs b (by simp))
    | [] => exact Det.panic
    | [_] => exact Det.panic
    | _ :: _ :: _ :: _ => exact Det.panic

theorem on3 (K : Kind p α β) {os : List (Obj p)} {f : α → α → α → B p (List (Obj p))}
    (ho : Objs os n) (h : ∀ a b c, K.within n a → K.within n b → K.within n c →
      Det n P (f a b c) Objs) :
    Det n P (Language.onAll K.obj (call3 f) os) Objs :=
  onAll K ho fun as e hs => by
    match as with
    | [a, b, c] => exact h a b c (hs a (by simp)) (hs b (by simp)) (hs c (by simp))
    | [] => exact Det.panic
    | [_] => exact Det.panic
    | [_, _] => exact Det.panic
    | _ :: _ :: _ :: _ :: _ => exact Det.panic

theorem one_scoped {o : Obj p} (h : o.Scoped n) : Objs [o] n := by
  intro o' ho
  rw [List.mem_singleton] at ho
  exact ho ▸ h

theorem retExpr {m : B p (Expression p)} (h : Det n P m fun z k => z.Scoped k) :
    Det n P (Language.retExpr m) Objs :=
  h.bind fun _ _ _ h => Det.pure (one_scoped h)

theorem retBool {m : B p (BooleanExpression p)} (h : Det n P m fun z k => z.Scoped k) :
    Det n P (Language.retBool m) Objs :=
  h.bind fun _ _ _ h => Det.pure (one_scoped h)

theorem retBin {m : B p (BinaryExpression p)} (h : Det n P m fun z k => z.Scoped k) :
    Det n P (Language.retBin m) Objs :=
  h.bind fun _ _ _ h => Det.pure (one_scoped h)

theorem retNone {m : B p α} {S : α → ℕ → Prop} (h : Det n P m S) :
    Det n P (Language.retNone m) Objs :=
  h.bind fun _ _ _ _ => Det.pure (by simp [Objs])

theorem retExprs {m : B p (List (Expression p))} (h : Det n P m fun z k => ListScoped k z) :
    Det n P (Language.retExprs m) Objs :=
  h.bind fun _ _ _ h => Det.pure (by
    intro o ho
    obtain ⟨e, he, rfl⟩ := List.mem_map.1 ho
    exact h e he)

theorem onList (K : Kind p α β) {os : List (Obj p)} {f : α → List α → B p (List (Obj p))}
    (ho : Objs os n) (h : ∀ a as, K.within n a → (∀ a ∈ as, K.within n a) →
      Det n P (f a as) Objs) :
    Det n P (Language.onAll K.obj (callList f) os) Objs :=
  onAll K ho fun as e hs => by
    match as with
    | a :: as => exact h a as (hs a (by simp)) fun b hb => hs b (by simp [hb])
    | [] => exact Det.panic

theorem retPoint {m : B p (EdwardsExpression p)} (h : Det n P m fun z k => z.Scoped k) :
    Det n P (Language.retPoint m) Objs :=
  h.bind fun _ _ _ h => Det.pure (by
    intro o ho
    simp only [List.mem_cons, List.not_mem_nil, or_false] at ho
    rcases ho with rfl | rfl
    · exact h.1
    · exact h.2)

theorem onPointBool {os : List (Obj p)} {f : Expression p → Expression p → BooleanExpression p →
    B p (List (Obj p))} (ho : Objs os n) (h : ∀ x y b, x.Scoped n → y.Scoped n → b.Scoped n →
      Det n P (f x y b) Objs) : Det n P (Language.callPointBool f os) Objs := by
  unfold Language.callPointBool
  split
  · next x y b =>
      exact h x y b (ho (.expr x) (by simp)) (ho (.expr y) (by simp))
        (ho (.bool b) (by simp))
  · exact Det.panic

theorem onPath {os : List (Obj p)} {f : Expression p → BinaryExpression p → List (Expression p) →
    B p (List (Obj p))} (ho : Objs os n) (h : ∀ x l xs, x.Scoped n → l.Scoped n → ListScoped n xs →
      Det n P (f x l xs) Objs) : Det n P (Language.callPath f os) Objs := by
  unfold Language.callPath
  split
  · next x l os =>
      exact onAll .expr (fun o h => ho o (by simp [h])) fun xs _ hx =>
        h x l xs (ho (.expr x) (by simp)) (ho (.bin l) (by simp)) hx
  · exact Det.panic

theorem onPath2 {os : List (Obj p)} {f : Expression p → Expression p → BinaryExpression p →
    List (Expression p) → B p (List (Obj p))} (ho : Objs os n)
    (h : ∀ x y l xs, x.Scoped n → y.Scoped n → l.Scoped n → ListScoped n xs →
      Det n P (f x y l xs) Objs) : Det n P (Language.callPath2 f os) Objs := by
  unfold Language.callPath2
  split
  · next x y l os =>
      exact onAll .expr (fun o h => ho o (by simp [h])) fun xs _ hx =>
        h x y l xs (ho (.expr x) (by simp)) (ho (.expr y) (by simp)) (ho (.bin l) (by simp)) hx
  · exact Det.panic

theorem newPath {l : BinaryExpression p} {xs : List (Expression p)}
    {f : MerklePath p → B p (List (Obj p))} (hl : l.Scoped n) (hx : ListScoped n xs)
    (h : ∀ path, path.pathBits.Scoped n → ListScoped n path.siblings → Det n P (f path) Objs) :
    Det n P (B.ofOption (MerklePath.new l xs) >>= f) Objs := by
  refine (Det.ofOption (S := fun path k => k = n ∧ path = ⟨l, xs⟩) fun path e => ⟨rfl, ?_⟩).bind
    fun path k _ ⟨e1, e2⟩ => ?_
  · unfold MerklePath.new at e
    split at e
    · cases e; rfl
    · cases e
  · rw [e1, e2]
    exact h _ hl hx

theorem edwardsNew (C : EdwardsCurve p) {x y : Expression p} (hx : x.Scoped n) (hy : y.Scoped n) :
    Det n P (EdwardsExpression.new C x y) fun z k => z.Scoped k :=
  (product hx hx).bind fun _ _ l1 h1 => (product (hy.mono l1) (hy.mono l1)).bind fun _ _ l2 h2 =>
    (product (h1.mono l2) h2).bind fun _ _ l3 _ => (assertEqual _ _).bind fun _ _ l4 _ =>
      Det.pure ⟨hx.mono (l1.trans (l2.trans (l3.trans l4))),
        hy.mono (l1.trans (l2.trans (l3.trans l4)))⟩

theorem mulBoolean (hn : 1 ≤ n) (C : EdwardsCurve p) {z : EdwardsExpression p}
    {b : BooleanExpression p} (hz : z.Scoped n) (hb : b.Scoped n) :
    Det n P ((EdwardsGroup.ops C).mulBooleanExpression z b) fun z k => z.Scoped k := by
  rw [EdwardsGroup.mulBoolean_eq]
  exact (selection hb hz.1 (.ofElem hn _)).bind fun _ _ l1 h1 =>
    (selection (hb.mono l1) (hz.2.mono l1) (.ofElem (hn.trans l1) _)).bind fun _ _ l2 h2 =>
      Det.pure ⟨h1.mono l2, h2⟩

theorem exprs_of {os : List (Obj p)} : ∀ {as : List (Expression p)}, os.mapM expr? = some as →
    os = as.map .expr := by
  induction os with
  | nil => intro as h; cases h; rfl
  | cons o os ih =>
    intro as h
    rw [List.mapM_cons] at h
    cases ho : expr? o with
    | none => rw [ho] at h; cases h
    | some a =>
      rw [ho] at h
      cases hs : os.mapM expr? with
      | none => rw [hs] at h; cases h
      | some as' =>
        rw [hs] at h
        cases h
        rw [List.map_cons, ← ih hs]
        cases o <;> simp [expr?] at ho
        rw [ho]

theorem means_exprs {W : Assign p} : ∀ {as : List (Expression p)} {vs : List (Val p)},
    MeansAll W (as.map .expr) vs → vs = as.map fun a => .elem (a.eval W)
  | [], _, h => by cases h; rfl
  | a :: as, _, h => by
    cases h with
    | @cons _ v _ vs h1 h2 =>
      rw [List.map_cons, ← means_exprs h2]
      cases v <;> simp [Means] at h1
      rw [h1]

/-- The wires of a settled operation are determined where it is decisive. -/
theorem op (o : Op p) (hset : o.Settled) (hn : 1 ≤ n) {os : List (Obj p)} (ho : Objs os n)
    (hP : ∀ W, P W → ∃ vs, MeansAll W os vs ∧ o.Decisive vs) : Det n P (o.run os) Objs := by
  have key : ∀ {as : List (Expression p)}, os.mapM expr? = some as →
      ∀ W, P W → o.Decisive (as.map fun a => .elem (a.eval W)) := by
    intro as h W hW
    obtain ⟨vs, h1, h2⟩ := hP W hW
    rw [exprs_of h] at h1
    rwa [means_exprs h1] at h2
  cases o
  case const c => exact Det.pure (one_scoped (Expression.Scoped.ofElem hn c))
  case constBool c => exact Det.pure (one_scoped (BooleanExpression.Scoped.ofBool hn c))
  case constBits k => exact Det.pure (one_scoped (BinaryExpression.ofNat_scoped hn k))
  case add => exact on2 .expr ho fun x y _ hx hy => retExpr (Det.pure (hx.add hy))
  case sub => exact on2 .expr ho fun x y _ hx hy => retExpr (Det.pure (hx.sub hy))
  case neg => exact on1 .expr ho fun x _ hx => retExpr (Det.pure hx.neg)
  case scale c => exact on1 .expr ho fun x _ hx => retExpr (Det.pure (hx.mulElem c))
  case product => exact on2 .expr ho fun x y _ hx hy => retExpr (product hx hy)
  case exp k => exact on1 .expr ho fun x _ hx => retExpr (exponentiation hn hx k)
  case inverse => exact on1 .expr ho fun x _ hx => retExpr (inverse hx)
  case quotient => exact on2 .expr ho fun x y _ hx hy => retExpr (quotient hx hy)
  case inverseOrZero => cases hset
  case quotientUnsafe => cases hset
  case nonzero => exact on1 .expr ho fun x e hx => retBool (nonzero hx fun W hW => key e W hW)
  case zero => exact on1 .expr ho fun x e hx => retBool (zero hn hx fun W hW => key e W hW)
  case equal =>
    exact on2 .expr ho fun x y e hx hy => retBool (zero hn (hx.sub hy) fun W hW h0 =>
      (show x.eval W ≠ y.eval W from key e W hW) (by
        rw [Expression.eval_sub] at h0
        exact sub_eq_zero.1 h0))
  case assertEqual => exact on2 .expr ho fun x y _ _ _ => retNone (assertEqual x y)
  case assertNonequal => exact on2 .expr ho fun x y _ hx hy => retNone (assertNonequal hx hy)
  case assertZero => exact on1 .expr ho fun x _ _ => retNone (assertZero x)
  case assertNonzero => exact on1 .expr ho fun x _ hx => retNone (assertNonzero hx)
  case assertProduct => exact on3 .expr ho fun x y z _ _ _ => retNone (assertProduct x y z)
  case assertBoolean =>
    exact on1 .expr ho fun x _ hx => retBool ((assertBoolean x).post fun a k _ ⟨e1, e2⟩ => by
      rw [e1, e2]; exact hx)
  case lt => cases hset
  case le => cases hset
  case gt => cases hset
  case ge => cases hset
  case assertLt => exact on2 .expr ho fun x y _ hx hy => retNone (assertLt hn hx hy)
  case assertLe => cases hset
  case assertGt => exact on2 .expr ho fun x y _ hx hy => retNone (assertGt hn hx hy)
  case assertGe => cases hset
  case modulus => cases hset
  case divides => cases hset
  case split => exact on1 .expr ho fun x _ hx => retBin (split hn hx)
  case splitAllowingAmbiguity => cases hset
  case splitBounded k =>
    exact on1 .expr ho fun x _ hx => retBin (splitBounded hx k)
  case join =>
    exact on1 .bin ho fun x _ hx => retExpr (Det.ofOption fun z h =>
      BinaryExpression.join_scoped h hx)
  case joinAllowingOverflow =>
    exact on1 .bin ho fun x _ hx => retExpr (Det.ofOption fun z h =>
      BinaryExpression.joinAllowingOverflow_scoped h hx)
  case cmpBinary r => cases hset
  case assertCmpBinary r =>
    cases r
    case lt => exact on2 .bin ho fun x y _ hx hy => retNone (assertLtBinary hn hx hy)
    case le => cases hset
    case gt => exact on2 .bin ho fun x y _ hx hy => retNone (assertGtBinary hn hx hy)
    case ge => cases hset
  case not => exact on1 .bool ho fun x _ hx => retBool (not hn hx)
  case and => exact on2 .bool ho fun x y _ hx hy => retBool (and hx hy)
  case or => exact on2 .bool ho fun x y _ hx hy => retBool (or hx hy)
  case xor => exact on2 .bool ho fun x y _ hx hy => retBool (xor hx hy)
  case assertTrue => exact on1 .bool ho fun x _ _ => retNone (assertTrue x)
  case assertFalse => exact on1 .bool ho fun x _ _ => retNone (assertFalse x)
  case select =>
    clear key hP
    unfold Op.run
    split <;> try exact Det.panic
    all_goals simp_all
    next c x y =>
      exact retExpr (selection (ho (.bool c) (by simp)) (show Obj.Scoped n (.expr x) from ho _ (by simp))
        (show Obj.Scoped n (.expr y) from ho _ (by simp)))
  case toExpr => exact on1 .bool ho fun x _ hx => retExpr (Det.pure hx)
  case pack => exact onAll .bool ho fun xs _ hx => retBin (Det.pure hx)
  case unpack =>
    exact on1 .bin ho fun x _ hx => Det.pure fun o h => by
      obtain ⟨b, hb, rfl⟩ := List.mem_map.1 h
      exact hx b hb
  case bitwiseNot => exact on1 .bin ho fun x _ hx => retBin (bitwiseNot hn hx)
  case bitwiseAnd => exact on2 .bin ho fun x y _ hx hy => retBin (bitwiseAnd hx hy)
  case bitwiseOr => exact on2 .bin ho fun x y _ hx hy => retBin (bitwiseOr hx hy)
  case bitwiseXor => exact on2 .bin ho fun x y _ hx hy => retBin (bitwiseXor hx hy)
  case rotateInc k =>
    exact on1 .bin ho fun x _ hx => retBin (Det.ofOption fun z h => by
      rw [rotateInc_eq] at h
      cases h
      exact Op.range_scoped fun i => Op.getD_scoped hx hn)
  case rotateDec k =>
    exact on1 .bin ho fun x _ hx => retBin (Det.ofOption fun z h => by
      rw [rotateDec_eq] at h
      cases h
      exact Op.range_scoped fun i => Op.getD_scoped hx hn)
  case shiftInc k =>
    exact on1 .bin ho fun x _ hx => retBin (Det.ofOption fun z h => by
      rw [shiftInc_eq] at h
      cases h
      refine Op.range_scoped fun i => ?_
      split
      · exact BooleanExpression.Scoped.ofBool hn _
      · exact Op.getD_scoped hx hn)
  case shiftDec k =>
    exact on1 .bin ho fun x _ hx => retBin (Det.ofOption fun z h => by
      by_cases hk : k ≤ x.len
      · rw [shiftDec_eq x hk] at h
        cases h
        refine Op.range_scoped fun i => ?_
        split
        · exact Op.getD_scoped hx hn
        · exact BooleanExpression.Scoped.ofBool hn _
      · by_cases h0 : 0 < x.len
        · rw [C47_shift_dec_refuted x k h0 (by omega)] at h
          cases h
        · have h0' : x.len = 0 := by omega
          unfold B.shiftDec at h
          rw [h0'] at h
          cases h
          intro b hb
          cases hb)
  case binarySum =>
    exact onAll .bin ho fun xs _ hx => retBin (binarySummation hx)
  case binarySumIgnoringOverflow =>
    exact onAll .bin ho fun xs _ hx => retBin (binarySummationIgnoringOverflow hx)
  case binarySumAssertingNoOverflow =>
    exact onAll .bin ho fun xs _ hx => retBin (binarySummationAssertingNoOverflow hx)
  case binaryAssertZero => exact on1 .bin ho fun x _ _ => retNone (binaryAssertZero x)
  case randomAccess =>
    exact onList .expr ho fun i xs hi hx => retExpr (randomAccess hx hi)
  case assertPermutation k => cases hset
  case sortAscending => cases hset
  case sortDescending => cases hset
  case function k m f g h1 h2 =>
    exact onAll .expr ho fun xs _ hx => (Det.require _).bind fun _ k _ hk => by
      rw [hk.2]
      exact retExprs (Det.ofDetermined (hset n xs hn hx))
  case edwardsNew C => exact on2 .expr ho fun x y _ hx hy => retPoint (edwardsNew C hx hy)
  case edwardsAdd => cases hset
  case edwardsDouble => cases hset
  case edwardsMulBoolean C =>
    exact onPointBool ho fun x y b hx hy hb => retPoint (mulBoolean hn C ⟨hx, hy⟩ hb)
  case edwardsMulScalar => cases hset
  case schnorrVerify => cases hset
  case merkleRoot h =>
    have hc : Binary P h.code.compress := fun n x y hn hx hy => Det.ofDetermined (hset n x y hn hx hy)
    exact onPath ho fun x l xs hx hl hxs => newPath hl hxs fun path h1 h2 =>
      retExpr (merkleTreeRoot hc hn hx h1 h2)
  case assertMembership h =>
    have hc : Binary P h.code.compress := fun n x y hn hx hy => Det.ofDetermined (hset n x y hn hx hy)
    exact onPath2 ho fun x r l xs hx _ hl hxs => newPath hl hxs fun path h1 h2 =>
      retNone (merkleMembership hc hn hx h1 h2)

end Det

theorem Op.Settled.pinned {o : Op p} (h : o.Settled) : o.pinned = true := by
  cases o <;> first | exact h | rfl | exact h.elim

theorem Can.zero_zero {s : Wit p} {x : Expression p} (hx : x.Scoped s.next)
    (h0 : x.eval s.W = 0) (u : Elem p) :
    Can (B.zero x) s fun z t => z.Scoped t.next ∧ z.eval t.W = 1 ∧ s.next + 1 < t.next ∧
      t.W (s.next + 1) = u := by
  unfold B.zero B.not
  refine (Can.nonzero_zero hx h0 u).bind fun z t l ⟨g1, g2, g3, g4⟩ =>
    Can.pure ⟨(Expression.Scoped.one t.pos).sub g1, ?_, g3, g4⟩
  have g2' : Expression.eval t.W z.expression = 0 := g2
  rw [BooleanExpression.eval_mk, Expression.eval_sub, Expression.eval_one t.sat.one, g2', sub_zero]

theorem Can.retBool {m : B p (BooleanExpression p)} {s : Wit p} {v : Bool} {Q : Wit p → Prop}
    (h : Can m s fun z t => z.Scoped t.next ∧ z.eval t.W = Elem.ofBool v ∧ Q t) :
    Can (Language.retBool m) s fun os t => Q t ∧ (∀ o ∈ os, o.Scoped t.next) ∧
      MeansAll t.W os [.bool v] :=
  h.bind fun z t _ ⟨h1, h2, h3⟩ => Can.pure ⟨h3, fun o ho => by
    rw [List.mem_singleton] at ho
    exact ho ▸ h1, .cons h2 .nil⟩

/-- A test which finds a zero leaves a wire free. -/
theorem Op.free (o : Op p) {s : Wit p} {as : List (Obj p)} {bs rs : List (Val p)}
    (hs : ∀ o ∈ as, o.Scoped s.next) (hm : MeansAll s.W as bs) (hr : o.meaning bs = some rs)
    (hd : ¬ o.Decisive bs) (u : Elem p) :
    Can (o.run as) s fun os t => (s.next + 1 < t.next ∧ t.W (s.next + 1) = u) ∧
      (∀ o ∈ os, o.Scoped t.next) ∧ MeansAll t.W os rs := by
  unfold Op.Decisive at hd
  split at hd
  · next x =>
    rw [not_not] at hd
    cases hm with
    | @cons a _ as _ h1 h2 =>
      cases h2
      cases a <;> simp only [Means] at h1
      next e =>
      have hr' : rs = [.bool false] := by
        have h3 : some [(Val.bool (decide (x ≠ 0)) : Val p)] = some rs := hr
        rw [← Option.some.inj h3, hd]
        simp
      subst hr'
      exact Can.retBool ((Can.nonzero_zero (hs (.expr e) (List.mem_cons_self ..)) (h1.trans hd) u).mono
        fun z t l h => by rw [Elem.ofBool_false]; exact h)
  · next x =>
    rw [not_not] at hd
    cases hm with
    | @cons a _ as _ h1 h2 =>
      cases h2
      cases a <;> simp only [Means] at h1
      next e =>
      have hr' : rs = [.bool true] := by
        have h3 : some [(Val.bool (decide (x = 0)) : Val p)] = some rs := hr
        rw [← Option.some.inj h3, hd]
        simp
      subst hr'
      exact Can.retBool ((Can.zero_zero (hs (.expr e) (List.mem_cons_self ..)) (h1.trans hd) u).mono
        fun z t l h => by rw [Elem.ofBool_true]; exact h)
  · next x y =>
    rw [not_not] at hd
    cases hm with
    | @cons a _ as _ h1 h2 =>
      cases h2 with
      | @cons a' _ as _ h2 h3 =>
        cases h3
        cases a <;> simp only [Means] at h1
        next e =>
        cases a' <;> simp only [Means] at h2
        next e' =>
        have hr' : rs = [.bool true] := by
          have h3 : some [(Val.bool (decide (x = y)) : Val p)] = some rs := hr
          rw [← Option.some.inj h3, hd]
          simp
        subst hr'
        have he : Expression.Scoped s.next e := hs (.expr e) (List.mem_cons_self ..)
        have he' : Expression.Scoped s.next e' :=
          hs (.expr e') (List.mem_cons_of_mem _ (List.mem_cons_self ..))
        exact Can.retBool ((Can.zero_zero (he.sub he')
          (by rw [Expression.eval_sub, h1, h2, hd, sub_self]) u).mono
          fun z t l h => by rw [Elem.ofBool_true]; exact h)
  · exact absurd trivial hd

namespace Circuit

theorem det_runFrom (h4 : 4 ≤ Elem.maxBits p) : ∀ {c : Circuit p} {n : ℕ} {P : Assign p → Prop}
    {os : List (Obj p)}, c.Settled → 1 ≤ n → (∀ o ∈ os, o.Scoped n) →
    (∀ W, P W → ∃ vs, MeansAll W os vs ∧ DecisiveFrom c vs) →
    Det n P (runFrom c os) Det.Objs
  | [], n, P, os, _, _, hs, _ => Det.pure hs
  | i :: c, n, P, os, hc, hn, hs, hP => by
    unfold runFrom
    have hi := hc i (by simp)
    refine Det.bindE (S := Det.Objs) ?_ (enforces_step ((i.1.lawful h4).pins hi.pinned) os)
      fun os' k hk hs' => det_runFrom h4 (fun j hj => hc j (by simp [hj])) (by omega) hs' ?_
    · unfold step
      refine (Det.ofOption (S := fun as k => k = n ∧ (i.2.mapM fun j => os[j]?) = some as)
        fun a h => ⟨rfl, h⟩).bind fun as k _ ⟨e, hl⟩ => ?_
      rw [e]
      refine (Det.op i.1 hi hn (fun o ho => hs o (mem_of_lookup hl o ho)) fun W hW => ?_).bind
        fun rs k' hk' hr => Det.pure fun o ho => ?_
      · obtain ⟨vs, h1, h2⟩ := hP W hW
        rcases h1.lookup i.2 with ⟨as', bs, g1, g2, g3, g4⟩ | ⟨g1, _⟩
        · rw [g1] at hl
          cases hl
          exact ⟨bs, g3, h2.1 bs g2⟩
        · rw [g1] at hl; cases hl
      · rcases List.mem_append.1 ho with ho | ho
        · exact (hs o ho).mono hk'
        · exact hr o ho
    · rintro W ⟨hW, hT⟩
      obtain ⟨vs, h1, h2⟩ := hP W hW
      obtain ⟨rs, e1, e2⟩ := hT vs h1
      exact ⟨rs, e2, h2.2 rs e1⟩

theorem can_runFrom (h4 : 4 ≤ Elem.maxBits p) {c : Circuit p} {s : Wit p} {os : List (Obj p)}
    {vs rs : List (Val p)} (hs : ∀ o ∈ os, o.Scoped s.next) (hm : MeansAll s.W os vs)
    (hr : meaningFrom c vs = some rs) : Can (runFrom c os) s fun _ _ => True :=
  (Can.ofComp (tidy_runFrom (fun i _ => i.1.tidy h4) os).1
    (comp_runFrom (s := s.toHon) (fun i _ => (i.1.lawful h4).comp) hs hm hr)).mono
    fun _ _ _ _ => trivial

theorem forks_runFrom (h4 : 4 ≤ Elem.maxBits p) : ∀ {c : Circuit p} {s : Wit p}
    {os : List (Obj p)} {vs rs : List (Val p)}, (∀ o ∈ os, o.Scoped s.next) →
    MeansAll s.W os vs → meaningFrom c vs = some rs → ¬ DecisiveFrom c vs →
    Forks (runFrom c os) s
  | [], s, os, vs, rs, _, _, _, hd => absurd trivial hd
  | i :: c, s, os, vs, rs, hs, hm, hr, hd => by
    unfold meaningFrom at hr
    unfold runFrom
    cases hv : stepMeaning i vs with
    | none => rw [hv] at hr; cases hr
    | some vs' =>
      rw [hv] at hr
      have hr : meaningFrom c vs' = some rs := hr
      by_cases hi : ∀ args, (i.2.mapM fun j => vs[j]?) = some args → i.1.Decisive args
      · have hc : ¬ DecisiveFrom c vs' := fun h => hd ⟨hi, fun w hw => by
          rw [hv] at hw
          cases hw
          exact h⟩
        refine Forks.after ((Can.ofComp (tidy_step (i.1.tidy h4) os).1
          (comp_step (s := s.toHon) (i.1.lawful h4).comp hs hm hv))) ?_
        rintro os' t l ⟨u, e1, e2, e3, e4, e5⟩
        exact forks_runFrom h4 (by rw [← e1]; exact e4) (by rw [← e2]; exact e5) hr hc
      · push Not at hi
        obtain ⟨bs, hbs, hnd⟩ := hi
        rcases hm.lookup i.2 with ⟨as, bs', g1, g2, g3, g4⟩ | ⟨_, g2⟩
        · rw [hbs] at g2
          cases g2
          unfold stepMeaning at hv
          rw [hbs] at hv
          cases hb : i.1.meaning bs with
          | none => simp [hb] at hv
          | some r =>
            have hv' : vs ++ r = vs' := by simpa [hb] using hv
            subst hv'
            have two : ∀ u, Can (step i os) s fun os' t => s.next + 1 < t.next ∧
                t.W (s.next + 1) = u ∧ Can (runFrom c os') t fun _ _ => True := fun u => by
              unfold step
              refine Can.ofOption_bind g1 ?_
              refine (Op.free i.1 (fun o ho => hs o (g4 o ho)) g3 hb hnd u).bind
                fun os' t l ⟨⟨h1, h2⟩, h3, h5⟩ => Can.pure ⟨h1, h2, can_runFrom h4 (fun o ho => ?_)
                  ((hm.congr l.2 hs).append h5) hr⟩
              rcases List.mem_append.1 ho with ho | ho
              · exact (hs o ho).mono l.1
              · exact h3 o ho
            exact Forks.before (obs := fun _ W => W (s.next + 1)) (G := fun _ k => s.next + 1 < k)
              (zero_ne_one (α := Elem p)) (fun a k W1 W2 h h' => h' _ h) (two 0) (two 1)
        · rw [hbs] at g2; cases g2

end Circuit

end R1CS
