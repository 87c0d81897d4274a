import Verif.Lemmas.PlanOps
import Verif.Lemmas.LanguageMore

/-!
# Panics and sizes from forms: every gadget of the language, and circuits
-/

set_option linter.unusedSectionVars false

namespace R1CS

variable {p : ℕ} [hp : Fact p.Prime] {α β γ σ : Type}

open Language

/-- The code does what the plan says, on every builder. -/
def Follows (m : B p (List (Obj p))) : Option (List Form × ℕ) → Prop
  | none => ∀ b, m b = none
  | some r => Fits m r.2 fun os => os.map Obj.form = r.1

namespace Follows

theorem ite {m : B p (List (Obj p))} {c : Prop} [Decidable c] {r : List Form × ℕ}
    (h1 : c → Fits m r.2 fun os => os.map Obj.form = r.1) (h2 : ¬ c → ∀ b, m b = none) :
    Follows m (if c then some r else none) := by
  split
  · exact h1 ‹_›
  · exact h2 ‹_›

theorem ite_not {m : B p (List (Obj p))} {c : Prop} [Decidable c] {r : List Form × ℕ}
    (h1 : ¬ c → Fits m r.2 fun os => os.map Obj.form = r.1) (h2 : c → ∀ b, m b = none) :
    Follows m (if c then none else some r) := by
  split
  · exact h2 ‹_›
  · exact h1 ‹_›

/-! ## Operands -/

/-- What is known of an operand of this kind from its form. -/
def Kinds (kind : Obj p → Option α) (skind : Form → Option σ) (μ : α → σ) : Prop :=
  ∀ o, skind o.form = (kind o).map μ

theorem kind_expr : Kinds (p := p) expr? Plan.expr? fun _ => () := fun o => by cases o <;> rfl

theorem kind_bool : Kinds (p := p) bool? Plan.bool? fun _ => () := fun o => by cases o <;> rfl

theorem kind_bin : Kinds (p := p) bin? Plan.bits? fun e => e.len := fun o => by cases o <;> rfl

theorem mapM_form {kind : Obj p → Option α} {skind : Form → Option σ} {μ : α → σ}
    (h : Kinds kind skind μ) : ∀ os : List (Obj p),
    (os.map Obj.form).mapM skind = (os.mapM kind).map (List.map μ)
  | [] => rfl
  | o :: os => by
    rw [List.map_cons, List.mapM_cons, List.mapM_cons, h o, mapM_form h os]
    cases kind o <;> cases os.mapM kind <;> rfl

theorem onAll {kind : Obj p → Option α} {skind : Form → Option σ} {μ : α → σ}
    (h : Kinds kind skind μ) {f : List α → B p (List (Obj p))}
    {g : List σ → Option (List Form × ℕ)} (hf : ∀ as, Follows (f as) (g (as.map μ)))
    (os : List (Obj p)) : Follows (Language.onAll kind f os) ((os.map Obj.form).mapM skind >>= g) := by
  unfold Language.onAll
  rw [mapM_form h]
  cases os.mapM kind with
  | none => exact B.none_bind (B.ofOption_none rfl)
  | some as => exact hf as

theorem call1 {μ : α → σ} {f : α → B p (List (Obj p))} {g : σ → Option (List Form × ℕ)}
    (h : ∀ x, Follows (f x) (g (μ x))) :
    ∀ as, Follows (Language.call1 f as) (fun1 g (as.map μ))
  | [x] => h x
  | [] => fun _ => rfl
  | _ :: _ :: _ => fun _ => rfl

theorem call2 {μ : α → σ} {f : α → α → B p (List (Obj p))} {g : σ → σ → Option (List Form × ℕ)}
    (h : ∀ x y, Follows (f x y) (g (μ x) (μ y))) :
    ∀ as, Follows (Language.call2 f as) (fun2 g (as.map μ))
  | [x, y] => h x y
  | [] => fun _ => rfl
  | [_] => fun _ => rfl
  | _ :: _ :: _ :: _ => fun _ => rfl

theorem call3 {μ : α → σ} {f : α → α → α → B p (List (Obj p))}
    {g : σ → σ → σ → Option (List Form × ℕ)}
    (h : ∀ x y z, Follows (f x y z) (g (μ x) (μ y) (μ z))) :
    ∀ as, Follows (Language.call3 f as) (fun3 g (as.map μ))
  | [x, y, z] => h x y z
  | [] => fun _ => rfl
  | [_] => fun _ => rfl
  | [_, _] => fun _ => rfl
  | _ :: _ :: _ :: _ :: _ => fun _ => rfl

theorem call4 {μ : α → σ} {f : α → α → α → α → B p (List (Obj p))}
    {g : σ → σ → σ → σ → Option (List Form × ℕ)}
    (h : ∀ x y z t, Follows (f x y z t) (g (μ x) (μ y) (μ z) (μ t))) :
    ∀ as, Follows (Language.call4 f as) (fun4 g (as.map μ))
  | [x, y, z, t] => h x y z t
  | [] => fun _ => rfl
  | [_] => fun _ => rfl
  | [_, _] => fun _ => rfl
  | [_, _, _] => fun _ => rfl
  | _ :: _ :: _ :: _ :: _ :: _ => fun _ => rfl

theorem call5 {μ : α → σ} {f : α → α → α → α → α → B p (List (Obj p))}
    {g : σ → σ → σ → σ → σ → Option (List Form × ℕ)}
    (h : ∀ x y z t u, Follows (f x y z t u) (g (μ x) (μ y) (μ z) (μ t) (μ u))) :
    ∀ as, Follows (Language.call5 f as) (fun5 g (as.map μ))
  | [x, y, z, t, u] => h x y z t u
  | [] => fun _ => rfl
  | [_] => fun _ => rfl
  | [_, _] => fun _ => rfl
  | [_, _, _] => fun _ => rfl
  | [_, _, _, _] => fun _ => rfl
  | _ :: _ :: _ :: _ :: _ :: _ :: _ => fun _ => rfl

theorem callList {μ : α → σ} {f : α → List α → B p (List (Obj p))}
    {g : σ → List σ → Option (List Form × ℕ)}
    (h : ∀ x xs, Follows (f x xs) (g (μ x) (xs.map μ))) :
    ∀ as, Follows (Language.callList f as) (funList g (as.map μ))
  | x :: xs => h x xs
  | [] => fun _ => rfl

/-! ## Results -/

theorem fitsExpr {m : B p (Expression p)} {k : ℕ} {Q : Expression p → Prop} (h : Fits m k Q) :
    Fits (Language.retExpr m) k fun os => os.map Obj.form = [.expr] :=
  h.bind (l := 0) fun _ _ => .pure rfl

theorem fitsBool {m : B p (BooleanExpression p)} {k : ℕ} {Q : BooleanExpression p → Prop}
    (h : Fits m k Q) : Fits (Language.retBool m) k fun os => os.map Obj.form = [.bool] :=
  h.bind (l := 0) fun _ _ => .pure rfl

theorem fitsBin {m : B p (BinaryExpression p)} {k n : ℕ} (h : Fits m k fun e => e.len = n) :
    Fits (Language.retBin m) k fun os => os.map Obj.form = [.bits n] :=
  h.bind (l := 0) fun _ h => .pure (by
    rw [← h]; rfl)

theorem fitsExprs {m : B p (List (Expression p))} {k n : ℕ} (h : Fits m k fun e => e.length = n) :
    Fits (Language.retExprs m) k fun os => os.map Obj.form = List.replicate n .expr :=
  h.bind (l := 0) fun l h => .pure (by
    rw [← h, List.map_map]
    exact List.map_const')

theorem fitsPoint {m : B p (EdwardsExpression p)} {k : ℕ} {Q : EdwardsExpression p → Prop}
    (h : Fits m k Q) : Fits (Language.retPoint m) k fun os => os.map Obj.form = [.expr, .expr] :=
  h.bind (l := 0) fun _ _ => .pure rfl

theorem fitsNone {m : B p α} {k : ℕ} {Q : α → Prop}
    (h : Fits m k Q) : Fits (Language.retNone m) k fun os => os.map Obj.form = [] :=
  h.bind (l := 0) fun _ _ => .pure rfl

/-! ## Sums of digit strings -/

theorem maxSum_form (xs : List (BinaryExpression p)) :
    (B.maxSum xs).size = Plan.sumWidth (xs.map fun e => e.len) := by
  unfold Plan.sumWidth
  rw [maxSum_eq, List.map_map]
  rfl

theorem inputBits_form (xs : List (BinaryExpression p)) :
    B.inputBits xs = (xs.map fun e => e.len).foldr max 0 := by
  unfold B.inputBits
  rw [inputBits_eq]
  simp

/-- The results are determined by the forms of the operands. -/
theorem one {f : α → B p (List (Obj p))} {μ : α → σ} {kind : Obj p → Option α}
    {skind : Form → Option σ} (hk : Kinds kind skind μ) {g : σ → Option (List Form × ℕ)}
    (h : ∀ x, Follows (f x) (g (μ x))) (os : List (Obj p)) :
    Follows (Language.onAll kind (Language.call1 f) os)
      ((os.map Obj.form).mapM skind >>= fun1 g) := onAll hk (call1 h) os

theorem two {f : α → α → B p (List (Obj p))} {μ : α → σ} {kind : Obj p → Option α}
    {skind : Form → Option σ} (hk : Kinds kind skind μ) {g : σ → σ → Option (List Form × ℕ)}
    (h : ∀ x y, Follows (f x y) (g (μ x) (μ y))) (os : List (Obj p)) :
    Follows (Language.onAll kind (Language.call2 f) os)
      ((os.map Obj.form).mapM skind >>= fun2 g) := onAll hk (call2 h) os

theorem pointBool {f : Expression p → Expression p → BooleanExpression p → B p (List (Obj p))}
    {r : List Form × ℕ} (h : ∀ x y b, Follows (f x y b) (some r)) :
    ∀ os, Follows (Language.callPointBool f os) (Plan.onPointBool r (os.map Obj.form))
  | [.expr x, .expr y, .bool b] => h x y b
  | [] => fun _ => rfl
  | .bool _ :: _ => fun _ => rfl
  | .bin _ :: _ => fun _ => rfl
  | [.expr _] => fun _ => rfl
  | .expr _ :: .bool _ :: _ => fun _ => rfl
  | .expr _ :: .bin _ :: _ => fun _ => rfl
  | [.expr _, .expr _] => fun _ => rfl
  | .expr _ :: .expr _ :: .expr _ :: _ => fun _ => rfl
  | .expr _ :: .expr _ :: .bin _ :: _ => fun _ => rfl
  | .expr _ :: .expr _ :: .bool _ :: _ :: _ => fun _ => rfl

theorem path {f : Expression p → BinaryExpression p → List (Expression p) → B p (List (Obj p))}
    {r : ℕ → List Form × ℕ} (h : ∀ x l xs, l.len = xs.length → Follows (f x l xs) (some (r l.len)))
    (h' : ∀ x l xs, l.len ≠ xs.length → ∀ b, f x l xs b = none) :
    ∀ os, Follows (Language.callPath f os) (Plan.onPath r (os.map Obj.form))
  | .expr x :: .bin l :: os => onAll kind_expr (f := f x l) (g := fun us =>
      if l.len = us.length then some (r l.len) else none) (fun as => by
        rw [List.length_map]
        split
        · exact h _ _ _ ‹_›
        · exact h' _ _ _ ‹_›) os
  | [] => fun _ => rfl
  | .bool _ :: _ => fun _ => rfl
  | .bin _ :: _ => fun _ => rfl
  | [.expr _] => fun _ => rfl
  | .expr _ :: .expr _ :: _ => fun _ => rfl
  | .expr _ :: .bool _ :: _ => fun _ => rfl

theorem path2 {f : Expression p → Expression p → BinaryExpression p → List (Expression p) →
      B p (List (Obj p))} {r : ℕ → List Form × ℕ}
    (h : ∀ x y l xs, l.len = xs.length → Follows (f x y l xs) (some (r l.len)))
    (h' : ∀ x y l xs, l.len ≠ xs.length → ∀ b, f x y l xs b = none) :
    ∀ os, Follows (Language.callPath2 f os) (Plan.onPath2 r (os.map Obj.form))
  | .expr x :: .expr y :: .bin l :: os => onAll kind_expr (f := f x y l) (g := fun us =>
      if l.len = us.length then some (r l.len) else none) (fun as => by
        rw [List.length_map]
        split
        · exact h _ _ _ _ ‹_›
        · exact h' _ _ _ _ ‹_›) os
  | [] => fun _ => rfl
  | .bool _ :: _ => fun _ => rfl
  | .bin _ :: _ => fun _ => rfl
  | [.expr _] => fun _ => rfl
  | .expr _ :: .bin _ :: _ => fun _ => rfl
  | .expr _ :: .bool _ :: _ => fun _ => rfl
  | [.expr _, .expr _] => fun _ => rfl
  | .expr _ :: .expr _ :: .expr _ :: _ => fun _ => rfl
  | .expr _ :: .expr _ :: .bool _ :: _ => fun _ => rfl

theorem bitwise {op : BooleanExpression p → BooleanExpression p → B p (BooleanExpression p)}
    (h : ∀ c d, Fits (op c d) 1 fun _ => True) {m : BinaryExpression p → BinaryExpression p →
      B p (BinaryExpression p)} (hm : ∀ x y, m x y = do
        B.require (x.len = y.len)
        let bits ← B.zipBits op x.bits y.bits
        return (⟨bits⟩ : BinaryExpression p)) (x y : BinaryExpression p) :
    Follows (Language.retBin (m x y)) (if x.len = y.len then some ([.bits x.len], x.len) else none) := by
  rw [hm]
  exact ite (fun hl => fitsBin (Fits.bitwise h hl)) fun hl => B.none_bind (B.none_bind (B.require_none hl))

theorem rearrange {m : Option (BinaryExpression p)} {e : BinaryExpression p} {n : ℕ}
    (h : m = some e) (hl : e.len = n) : Follows (Language.retBin (B.ofOption m)) (some ([.bits n], 0)) :=
  fitsBin ((Fits.ofOption h).mono fun _ hr => by rw [hr]; exact hl)

theorem len_range {f : ℕ → BooleanExpression p} {n : ℕ} :
    (⟨(List.range n).map f⟩ : BinaryExpression p).len = n := by
  unfold BinaryExpression.len
  rw [List.length_map, List.length_range]

theorem cmpBinary_none {x y : BinaryExpression p} (h : ¬ Plan.comparable (Elem.maxBits p) x.len y.len)
    (less strict : Bool) : ∀ b, B.cmpBinary x y less strict b = none := fun b => by
  rw [← Option.not_isSome_iff_eq_none, cmpBinary_isSome]
  exact fun hc => h (Fits.comparable_iff.2 hc)

/-- A known hash. -/
theorem knownHash {h : CompressionFunction p} {k : ℕ} (hk : ∀ (x y : Expression p) b, ∃ z b',
    h.compress x y b = some (z, b') ∧ b'.constraints.length ≤ b.constraints.length + k)
    (x y : Expression p) : Fits (h.compress x y) k fun _ => True := fun b => by
  obtain ⟨z, b', h1, h2⟩ := hk x y b
  exact ⟨z, b', h1, h2, trivial⟩

/-- Every gadget follows its plan. -/
theorem op (h8 : 8 < p) {cost : Op p → ℕ} (o : Op p) (ho : o.Known cost) (os : List (Obj p)) :
    Follows (o.run os) (o.plan cost (os.map Obj.form)) := by
  have h4 : 4 ≤ Elem.maxBits p := four_le_maxBits.2 h8
  have h2 : 2 < p := by omega
  cases o with
  | const c => exact Fits.pure rfl
  | constBool b => exact Fits.pure rfl
  | constBits n =>
    refine Fits.pure ?_
    change [Form.bits (BinaryExpression.ofNat n : BinaryExpression p).len] = _
    rw [BinaryExpression.ofNat_len]
  | add =>
    refine two kind_expr (fun x y => ?_) os
    exact fitsExpr (Fits.pure (Q := fun _ => True) trivial)
  | sub =>
    refine two kind_expr (fun x y => ?_) os
    exact fitsExpr (Fits.pure (Q := fun _ => True) trivial)
  | neg =>
    refine one kind_expr (fun x => ?_) os
    exact fitsExpr (Fits.pure (Q := fun _ => True) trivial)
  | scale c =>
    refine one kind_expr (fun x => ?_) os
    exact fitsExpr (Fits.pure (Q := fun _ => True) trivial)
  | product =>
    refine two kind_expr (fun x y => ?_) os
    exact fitsExpr (Fits.product x y)
  | exp k =>
    refine one kind_expr (fun x => ?_) os
    exact fitsExpr (Fits.exponentiation x k)
  | inverse =>
    refine one kind_expr (fun x => ?_) os
    exact fitsExpr (Fits.inverse x)
  | quotient =>
    refine two kind_expr (fun x y => ?_) os
    exact fitsExpr (Fits.quotient x y)
  | inverseOrZero =>
    refine one kind_expr (fun x => ?_) os
    exact fitsExpr (Fits.inverseOrZero x)
  | quotientUnsafe =>
    refine two kind_expr (fun x y => ?_) os
    exact fitsExpr (Fits.quotientUnsafe x y)
  | nonzero =>
    refine one kind_expr (fun x => ?_) os
    exact fitsBool (Fits.nonzero x)
  | zero =>
    refine one kind_expr (fun x => ?_) os
    exact fitsBool (Fits.zero x)
  | equal =>
    refine two kind_expr (fun x y => ?_) os
    exact fitsBool (Fits.equal x y)
  | assertEqual =>
    refine two kind_expr (fun x y => ?_) os
    exact fitsNone (Fits.assertEqual x y)
  | assertNonequal =>
    refine two kind_expr (fun x y => ?_) os
    exact fitsNone (Fits.assertNonequal x y)
  | assertZero =>
    refine one kind_expr (fun x => ?_) os
    exact fitsNone (Fits.assertEqual x _)
  | assertNonzero =>
    refine one kind_expr (fun x => ?_) os
    exact fitsNone (Fits.assertNonzero x)
  | assertProduct =>
    refine onAll kind_expr (call3 fun x y z => ?_) os
    exact fitsNone (Fits.assertProduct x y z)
  | assertBoolean =>
    refine one kind_expr (fun x => ?_) os
    exact fitsBool (Fits.assertBoolean x)
  | lt =>
    refine two kind_expr (fun x y => ?_) os
    exact fitsBool (Fits.cmp h4 x y true true)
  | le =>
    refine two kind_expr (fun x y => ?_) os
    exact fitsBool (Fits.cmp h4 x y true false)
  | gt =>
    refine two kind_expr (fun x y => ?_) os
    exact fitsBool (Fits.cmp h4 x y false true)
  | ge =>
    refine two kind_expr (fun x y => ?_) os
    exact fitsBool (Fits.cmp h4 x y false false)
  | assertLt =>
    refine two kind_expr (fun x y => ?_) os
    exact fitsNone ((Fits.cmp h4 x y true true).bind (l := 1)
      fun _ _ => Fits.assertTrue _)
  | assertLe =>
    refine two kind_expr (fun x y => ?_) os
    exact fitsNone ((Fits.cmp h4 x y true false).bind (l := 1)
      fun _ _ => Fits.assertTrue _)
  | assertGt =>
    refine two kind_expr (fun x y => ?_) os
    exact fitsNone ((Fits.cmp h4 x y false true).bind (l := 1)
      fun _ _ => Fits.assertTrue _)
  | assertGe =>
    refine two kind_expr (fun x y => ?_) os
    exact fitsNone ((Fits.cmp h4 x y false false).bind (l := 1)
      fun _ _ => Fits.assertTrue _)
  | modulus =>
    refine two kind_expr (fun x y => ?_) os
    exact fitsExpr (Fits.modulus h4 x y)
  | divides =>
    refine two kind_expr (fun x y => ?_) os
    exact fitsBool ((Fits.modulus h4 y x).bind (l := 2)
      fun _ _ => Fits.zero _)
  | split =>
    refine one kind_expr (fun x => ?_) os
    exact fitsBin (Fits.split h4 x)
  | splitAllowingAmbiguity =>
    refine one kind_expr (fun x => ?_) os
    exact fitsBin (Fits.splitWithoutRangeCheck x le_rfl)
  | splitBounded k =>
    refine one kind_expr (fun x => ?_) os
    exact ite (fun hk => fitsBin (Fits.splitBounded x hk)) fun hk =>
      B.none_bind (B.none_bind (B.require_none hk))
  | join =>
    refine one kind_bin (fun x => ite (fun hk => ?_) fun hk => ?_) os
    · obtain ⟨ws, e1, _⟩ := BinaryExpression.join_eq (p := p) (e := x) hk
      exact fitsExpr (Fits.ofOption e1)
    · refine B.none_bind (B.ofOption_none ?_)
      unfold BinaryExpression.join
      rw [if_neg (by rw [Nat.one_shiftLeft]; exact hk)]
  | joinAllowingOverflow =>
    refine one kind_bin (fun x => ite (fun hk => ?_) fun hk => ?_) os
    · obtain ⟨ws, e1, _⟩ := BinaryExpression.joinAllowingOverflow_eq (p := p) (e := x) hk
      exact fitsExpr (Fits.ofOption e1)
    · exact B.none_bind (B.ofOption_none
        (BinaryExpression.joinAllowingOverflow_eq_none (by omega)))
  | cmpBinary r =>
    rw [Op.run_cmpBinary]
    refine two kind_bin (fun x y => ite (fun hc => fitsBool (Q := fun _ => True) ?_) fun hc =>
      B.none_bind (cmpBinary_none hc _ _)) os
    have := Fits.cmpBinary h4 hc (decide (r = .lt ∨ r = .le)) (decide (r = .lt ∨ r = .gt))
    simp only [decide_eq_true_eq] at this
    exact this
  | assertCmpBinary r =>
    rw [Op.run_assertCmpBinary]
    refine two kind_bin (fun x y => ite (fun hc => fitsNone (Q := fun _ => True) ?_) fun hc =>
      B.none_bind (B.none_bind (cmpBinary_none hc _ _))) os
    have := Fits.cmpBinary h4 hc (decide (r = .lt ∨ r = .le)) (decide (r = .lt ∨ r = .gt))
    simp only [decide_eq_true_eq] at this
    exact this.bind (l := 1) fun _ _ => Fits.assertTrue _
  | not =>
    refine one kind_bool (fun x => ?_) os
    exact fitsBool (Fits.pure (Q := fun _ => True) trivial)
  | and =>
    refine two kind_bool (fun x y => ?_) os
    exact fitsBool (Fits.and x y)
  | or =>
    refine two kind_bool (fun x y => ?_) os
    exact fitsBool (Fits.or x y)
  | xor =>
    refine two kind_bool (fun x y => ?_) os
    exact fitsBool (Fits.xor h2 x y)
  | assertTrue =>
    refine one kind_bool (fun x => ?_) os
    exact fitsNone (Fits.assertTrue x)
  | assertFalse =>
    refine one kind_bool (fun x => ?_) os
    exact fitsNone (Fits.assertFalse x)
  | select =>
    match os with
    | [.bool c, .expr x, .expr y] => exact fitsExpr (Fits.selection c x y)
    | [] => exact fun _ => rfl
    | .expr _ :: _ => exact fun _ => rfl
    | .bin _ :: _ => exact fun _ => rfl
    | [.bool _] => exact fun _ => rfl
    | .bool _ :: .bool _ :: _ => exact fun _ => rfl
    | .bool _ :: .bin _ :: _ => exact fun _ => rfl
    | [.bool _, .expr _] => exact fun _ => rfl
    | .bool _ :: .expr _ :: .bool _ :: _ => exact fun _ => rfl
    | .bool _ :: .expr _ :: .bin _ :: _ => exact fun _ => rfl
    | .bool _ :: .expr _ :: .expr _ :: _ :: _ => exact fun _ => rfl
  | toExpr =>
    refine one kind_bool (fun x => ?_) os
    exact fitsExpr (Fits.pure (Q := fun _ => True) trivial)
  | pack =>
    refine onAll kind_bool (fun xs => ?_) os
    rw [List.length_map]
    exact fitsBin (Fits.pure rfl)
  | unpack =>
    refine one kind_bin (fun x => ?_) os
    exact Fits.pure (by rw [List.map_map]; exact List.map_const')
  | bitwiseNot =>
    refine one kind_bin (fun x => ?_) os
    exact fitsBin ((Fits.notBits x.bits).bind (l := 0)
      fun _ h => Fits.pure h)
  | bitwiseAnd =>
    refine two kind_bin (fun x y => ?_) os
    exact bitwise Fits.and (fun _ _ => rfl) x y
  | bitwiseOr =>
    refine two kind_bin (fun x y => ?_) os
    exact bitwise Fits.or (fun _ _ => rfl) x y
  | bitwiseXor =>
    refine two kind_bin (fun x y => ?_) os
    exact bitwise (Fits.xor h2) (fun _ _ => rfl) x y
  | rotateInc k =>
    refine one kind_bin (fun x => ?_) os
    exact rearrange (rotateInc_eq x k) len_range
  | rotateDec k =>
    refine one kind_bin (fun x => ?_) os
    exact rearrange (rotateDec_eq x k) len_range
  | shiftInc k =>
    refine one kind_bin (fun x => ?_) os
    exact rearrange (shiftInc_eq x k) len_range
  | shiftDec k =>
    refine one kind_bin (fun x => ite (fun hk => ?_) fun hk => ?_) os
    · rcases hk with hk | hk
      · exact rearrange (shiftDec_eq x hk) len_range
      · refine rearrange (e := ⟨[]⟩) ?_ hk.symm
        unfold B.shiftDec
        dsimp only
        rw [hk]
        rfl
    · exact B.none_bind (B.ofOption_none (C47_shift_dec_refuted x k (by omega) (by omega)))
  | binarySum =>
    refine onAll kind_bin (fun xs => ?_) os
    rw [← maxSum_form]
    exact ite (fun h => fitsBin (Fits.binarySummation h)) fun h => B.none_bind (Op.sum_none h)
  | binarySumIgnoringOverflow =>
    refine onAll kind_bin (fun xs => ?_) os
    rw [← maxSum_form, ← inputBits_form]
    exact ite (fun h => fitsBin (Fits.summationIgnoring h))
      fun h => B.none_bind (B.none_bind (Op.sum_none h))
  | binarySumAssertingNoOverflow =>
    refine onAll kind_bin (fun xs => ?_) os
    rw [← maxSum_form, ← inputBits_form]
    exact ite (fun h => fitsBin (Fits.summationAsserting (by omega) h))
      fun h => B.none_bind (B.none_bind (Op.sum_none h))
  | binaryAssertZero =>
    refine one kind_bin (fun x => ?_) os
    exact fitsNone (Fits.binaryAssertZero (by omega) x)
  | randomAccess =>
    refine onAll kind_expr (callList fun i xs => ?_) os
    rw [List.length_map]
    refine ite (fun h => fitsExpr (Fits.randomAccess i (fun h0 => h.2 (by rw [h0]; rfl)) h.1))
      fun h => ?_
    by_cases hn : Nat.clog 2 xs.length < Elem.maxBits p
    · obtain rfl : xs = [] := by
        by_contra h0
        exact h ⟨hn, fun h1 => h0 (List.map_eq_nil_iff.1 h1)⟩
      exact B.none_bind (B.none_bind' fun _ => randomAccessBinary_nil _)
    · refine B.none_bind (B.none_bind (B.none_bind (B.require_none ?_)))
      rw [indexBits_eq_clog]
      exact hn
  | assertPermutation k =>
    refine onAll kind_expr (fun xs => ?_) os
    rw [← List.map_take, ← List.map_drop, List.length_map, List.length_map]
    refine ite (fun h => ?_) fun h => B.none_bind (Fits.assertPermutation_none h)
    have := Fits.assertPermutation h
    rw [h] at this
    exact fitsNone this
  | sortAscending =>
    refine onAll kind_expr (fun xs => ite_not (fun h => ?_) fun h => ?_) os
    · rw [List.length_map]
      exact fitsExprs (Fits.sortAscending h4 fun h0 => h (by rw [h0]; rfl))
    · obtain rfl := List.map_eq_nil_iff.1 h
      exact fun _ => rfl
  | sortDescending =>
    refine onAll kind_expr (fun xs => ite_not (fun h => ?_) fun h => ?_) os
    · rw [List.length_map]
      exact fitsExprs (Fits.sortDescending h4 fun h0 => h (by rw [h0]; rfl))
    · obtain rfl := List.map_eq_nil_iff.1 h
      exact fun _ => rfl
  | function k m f hs hc ht =>
    refine onAll kind_expr (fun xs => ?_) os
    rw [List.length_map]
    refine ite (fun h => (Fits.require h).bind0 fun _ _ => fitsExprs fun b => ?_)
      fun h => B.none_bind (B.require_none h)
    obtain ⟨ys, b', h1, h2, h3⟩ := ho xs h b
    exact ⟨ys, b', h1, h3, h2⟩
  | edwardsNew C =>
    refine two kind_expr (fun x y => ?_) os
    exact fitsPoint (Fits.edwardsNew C x y)
  | edwardsAdd C =>
    refine onAll kind_expr (call4 fun x y z t => ?_) os
    exact fitsPoint (Fits.addExpressions C _ _)
  | edwardsDouble C =>
    refine two kind_expr (fun x y => ?_) os
    exact fitsPoint (Fits.doubleExpression h2 C _)
  | edwardsMulBoolean C => 
    refine pointBool (fun x y b => ?_) os
    exact fitsPoint (Fits.mulBoolean C _ _)
  | edwardsMulScalar C =>
    refine onAll kind_expr (call3 fun x y k => ?_) os
    exact fitsPoint (Fits.mulScalar h2 C _ _)
  | schnorrVerify C G h =>
    refine onAll kind_expr (call5 fun s e m x y => ?_) os
    exact fitsNone
      (Fits.schnorrVerify h2 C G (knownHash ho) _ _ _)
  | merkleRoot h =>
    refine path (r := fun n => ([.expr], (cost (.merkleRoot h) + 1) * n)) (fun x l xs hl => ?_)
      (fun x l xs hl => ?_) os
    · have : MerklePath.new l xs = some ⟨l, xs⟩ := if_pos hl
      rw [this]
      exact fitsExpr (Fits.merkleTreeRoot (knownHash ho) hl x)
    · exact B.none_bind (B.ofOption_none (if_neg hl))
  | assertMembership h =>
    refine path2 (r := fun n => ([], (cost (.assertMembership h) + 1) * n + 1)) (fun x y l xs hl => ?_)
      (fun x y l xs hl => ?_) os
    · have : MerklePath.new l xs = some ⟨l, xs⟩ := if_pos hl
      rw [this]
      exact fitsNone ((Fits.merkleTreeRoot (knownHash ho) hl x).bind (l := 1)
        fun _ _ => Fits.assertEqual _ _)
    · exact B.none_bind (B.ofOption_none (if_neg hl))


/-! ## Circuits -/

theorem args (js : List ℕ) (os : List (Obj p)) :
    (js.mapM fun j => (os.map Obj.form)[j]?) = (js.mapM fun j => os[j]?).map (List.map Obj.form) := by
  induction js with
  | nil => rfl
  | cons j js ih =>
    rw [List.mapM_cons, List.mapM_cons, ih, List.getElem?_map]
    cases os[j]? <;> cases js.mapM fun j => os[j]? <;> rfl

theorem step (h8 : 8 < p) {cost : Op p → ℕ} {i : Op p × List ℕ} (hi : i.1.Known cost)
    (os : List (Obj p)) :
    Follows (Circuit.step i os) (Circuit.stepPlan cost i (os.map Obj.form)) := by
  unfold Circuit.step Circuit.stepPlan
  rw [args]
  cases i.2.mapM fun j => os[j]? with
  | none => exact B.none_bind (B.ofOption_none rfl)
  | some as =>
    have h := op h8 i.1 hi as
    change Follows (i.1.run as >>= fun rs => (return os ++ rs)) (i.1.plan cost (as.map Obj.form) >>= _)
    cases hp : i.1.plan cost (as.map Obj.form) with
    | none => rw [hp] at h; exact B.none_bind h
    | some r =>
      rw [hp] at h
      exact Fits.bind (l := 0) h fun rs hrs => .pure (by rw [List.map_append, hrs])

theorem runFrom (h8 : 8 < p) {cost : Op p → ℕ} : ∀ (c : Circuit p) (_ : c.Known cost)
    (os : List (Obj p)), Follows (Circuit.runFrom c os) (Circuit.planFrom cost c (os.map Obj.form))
  | [], _, _ => Fits.pure rfl
  | i :: c, hc, os => by
    have h := step h8 (hc i (by simp)) os
    unfold Circuit.runFrom Circuit.planFrom
    cases hp : Circuit.stepPlan cost i (os.map Obj.form) with
    | none => rw [hp] at h; exact B.none_bind h
    | some r =>
      rw [hp] at h
      change Follows _ (Circuit.planFrom cost c r.1 >>= _)
      have h' : ∀ os' : List (Obj p), os'.map Obj.form = r.1 →
          Follows (Circuit.runFrom c os') (Circuit.planFrom cost c r.1) := fun os' e => by
        rw [← e]
        exact runFrom h8 c (fun i hi => hc i (by simp [hi])) os'
      cases hq : Circuit.planFrom cost c r.1 with
      | none =>
        rw [hq] at h'
        intro b
        obtain ⟨os', b', h1, _, h2⟩ := h b
        rw [B.bind_eq h1]
        exact h' os' h2 b'
      | some r' =>
        rw [hq] at h'
        exact Fits.bind h fun os' e => h' os' e

theorem build (h8 : 8 < p) {cost : Op p → ℕ} {c : Circuit p} (hc : c.Known cost) (k : ℕ) :
    Follows (c.build k) (c.plan cost k) := by
  unfold Circuit.build Circuit.plan
  have h : ∀ ws : List Wire, ws.length = k → Follows
      (Circuit.runFrom c (ws.map fun w => .expr (Expression.ofWire w)))
      (Circuit.planFrom cost c (List.replicate k .expr)) := fun ws hws => by
    have := runFrom h8 c hc (ws.map fun w => .expr (Expression.ofWire w))
    rw [List.map_map, show Obj.form ∘ (fun w => .expr (Expression.ofWire w) : Wire → Obj p) =
      fun _ => Form.expr from rfl, List.map_const', hws] at this
    exact this
  cases hq : Circuit.planFrom cost c (List.replicate k .expr) with
  | none =>
    rw [hq] at h
    intro b
    obtain ⟨ws, b', h1, _, h2⟩ := Fits.wires k b
    rw [B.bind_eq h1]
    exact h ws h2 b'
  | some r =>
    rw [hq] at h
    exact (Fits.wires k).bind0 h

end Follows

end R1CS
