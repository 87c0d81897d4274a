import Verif.Lemmas.Language

/-!
# Circuits as programs: the laws of the operations
-/

set_option linter.unusedSectionVars false

namespace R1CS

variable {p : ℕ} [hp : Fact p.Prime] {X Y α β : Type}

open Language

/-! ## Laws -/

/-- A call with arguments `x` standing for `y` (operands, lists of operands, or pairs) computes `m`;
if `pin`, its constraints admit nothing else; in any case, executions are accepted only where `m` is
defined. -/
structure Law (rel : Assign p → X → Y → Prop) (within : ℕ → X → Prop)
    (r : X → B p (List (Obj p))) (m : Y → Option (List (Val p))) (pin : Bool) : Prop where
  tidy : ∀ x, Tidy (r x)
  comp : ∀ (s : Hon p) x y rs, within s.next x → rel s.W x y → m y = some rs →
    Comp (r x) s (Yields s rs)
  pins : pin = true → ∀ x, Enforces (r x) fun os W => ∀ y, rel W x y →
    ∃ rs, m y = some rs ∧ MeansAll W os rs
  checks : ∀ n x, within n x → Accepted n (r x) fun _ W => ∀ y, rel W x y → (m y).isSome = true

/-- The laws of an operation. -/
abbrev OpLaw (r : List (Obj p) → B p (List (Obj p))) (m : List (Val p) → Option (List (Val p)))
    (pin : Bool) : Prop :=
  Law MeansAll (fun n os => ∀ o ∈ os, Obj.Scoped n o) r m pin

namespace Law

variable {rel : Assign p → X → Y → Prop} {within : ℕ → X → Prop} {r : X → B p (List (Obj p))}
  {m : Y → Option (List (Val p))}

theorem pinned (tidy : ∀ x, Tidy (r x))
    (comp : ∀ (s : Hon p) x y rs, within s.next x → rel s.W x y → m y = some rs →
      Comp (r x) s (Yields s rs))
    (pins : ∀ x, Enforces (r x) fun os W => ∀ y, rel W x y →
      ∃ rs, m y = some rs ∧ MeansAll W os rs) (pin : Bool) : Law rel within r m pin :=
  ⟨tidy, comp, fun _ => pins, fun _ x _ => (Accepted.of_enforces (tidy x) (pins x)).mono
    fun _ W hW y hy => by
      obtain ⟨rs, h1, _⟩ := hW y hy
      rw [h1]; rfl⟩

theorem checked (tidy : ∀ x, Tidy (r x))
    (comp : ∀ (s : Hon p) x y rs, within s.next x → rel s.W x y → m y = some rs →
      Comp (r x) s (Yields s rs))
    (checks : ∀ n x, within n x → Accepted n (r x) fun _ W => ∀ y, rel W x y →
      (m y).isSome = true) : Law rel within r m false :=
  ⟨tidy, comp, fun h => absurd h (by simp), checks⟩

end Law

/-! ## Kinds of operands -/

/-- A kind of operands: the objects and values of that kind. -/
structure Kind (p : ℕ) [Fact p.Prime] (α β : Type) where
  obj : Obj p → Option α
  val : Val p → Option β
  rel : Assign p → α → β → Prop
  within : ℕ → α → Prop
  means : ∀ {W o v}, Means W o v →
    (∃ a b, obj o = some a ∧ val v = some b ∧ rel W a b) ∨ (obj o = none ∧ val v = none)
  scope : ∀ {n o a}, o.Scoped n → obj o = some a → within n a

namespace Kind

/-- Expressions. -/
@[reducible] def expr : Kind p (Expression p) (Elem p) where
  obj := expr?
  val := elem?
  rel W e x := e.eval W = x
  within n e := e.Scoped n
  means {W o v} h := by
    cases o <;> cases v <;> simp [Means, expr?, elem?] at h ⊢
    exact h.symm
  scope {n o a} h e := by cases o <;> simp [expr?] at e; subst e; exact h

/-- Boolean expressions. -/
@[reducible] def bool : Kind p (BooleanExpression p) Bool where
  obj := bool?
  val := truth?
  rel W e x := e.eval W = Elem.ofBool x
  within n e := e.Scoped n
  means {W o v} h := by
    cases o <;> cases v <;> simp [Means, bool?, truth?] at h ⊢
    exact h
  scope {n o a} h e := by cases o <;> simp [bool?] at e; subst e; exact h

/-- Digit strings. -/
@[reducible] def bin : Kind p (BinaryExpression p) (List Bool) where
  obj := bin?
  val := bits?
  rel W e x := (e.bits.map fun b => b.eval W) = x.map Elem.ofBool
  within n e := e.Scoped n
  means {W o v} h := by
    cases o <;> cases v <;> simp [Means, bin?, bits?] at h ⊢
    exact h
  scope {n o a} h e := by cases o <;> simp [bin?] at e; subst e; exact h

variable (K : Kind p α β)

theorem meansAll {W : Assign p} {os : List (Obj p)} {vs : List (Val p)} (h : MeansAll W os vs) :
    (∃ as bs, os.mapM K.obj = some as ∧ vs.mapM K.val = some bs ∧
      List.Forall₂ (K.rel W) as bs) ∨ (os.mapM K.obj = none ∧ vs.mapM K.val = none) := by
  unfold MeansAll at h
  induction h with
  | nil => exact .inl ⟨[], [], rfl, rfl, .nil⟩
  | @cons o v os vs h1 _ ih =>
    rw [List.mapM_cons, List.mapM_cons]
    rcases K.means h1 with ⟨a, b, e1, e2, e3⟩ | ⟨e1, e2⟩
    · rw [e1, e2]
      rcases ih with ⟨as, bs, e4, e5, e6⟩ | ⟨e4, e5⟩
      · exact .inl ⟨a :: as, b :: bs, by rw [e4]; rfl, by rw [e5]; rfl, .cons e3 e6⟩
      · exact .inr ⟨by rw [e4]; rfl, by rw [e5]; rfl⟩
    · exact .inr ⟨by rw [e1]; rfl, by rw [e2]; rfl⟩

theorem scopedAll {n : ℕ} : ∀ {os : List (Obj p)} {as : List α}, (∀ o ∈ os, o.Scoped n) →
    os.mapM K.obj = some as → ∀ a ∈ as, K.within n a
  | [], as, _, h => by
    simp only [List.mapM_nil] at h
    cases h; simp
  | o :: os, as, ho, h => by
    rw [List.mapM_cons] at h
    cases hj : K.obj o with
    | none => rw [hj] at h; cases h
    | some a =>
      rw [hj] at h
      cases hs : os.mapM K.obj with
      | none => rw [hs] at h; cases h
      | some as' =>
        rw [hs] at h
        cases h
        intro a' ha'
        rcases List.mem_cons.1 ha' with rfl | h
        · exact K.scope (ho o (by simp)) hj
        · exact scopedAll (fun o' h' => ho o' (by simp [h'])) hs a' h

/-- Laws of a call on a list of operands of one kind. -/
abbrev ListLaw (f : List α → B p (List (Obj p))) (g : List β → Option (List (Val p)))
    (pin : Bool) : Prop :=
  Law (fun W => List.Forall₂ (K.rel W)) (fun n as => ∀ a ∈ as, K.within n a) f g pin

theorem onAll {f : List α → B p (List (Obj p))} {g : List β → Option (List (Val p))} {pin : Bool}
    (h : K.ListLaw f g pin) :
    OpLaw (Language.onAll K.obj f) (fun vs => vs.mapM K.val >>= g) pin := by
  have hs : ∀ os as, os.mapM K.obj = some as → Language.onAll K.obj f os = f as := by
    intro os as h; unfold Language.onAll; rw [h]; rfl
  have hn : ∀ os, os.mapM K.obj = none → Language.onAll K.obj f os = B.panic := by
    intro os h; unfold Language.onAll; rw [h]; rfl
  refine ⟨fun os => ?_, fun s os vs rs h1 h2 h3 => ?_, fun hpin os => ?_, fun n os h1 => ?_⟩
  · cases e : os.mapM K.obj with
    | none => rw [hn _ e]; exact Tidy.panic
    | some as => rw [hs _ _ e]; exact h.tidy _
  · rcases K.meansAll h2 with ⟨as, bs, e1, e2, e3⟩ | ⟨e1, e2⟩
    · rw [hs _ _ e1]
      rw [e2] at h3
      exact h.comp s as bs rs (K.scopedAll h1 e1) e3 h3
    · rw [e2] at h3; cases h3
  · cases e : os.mapM K.obj with
    | none => rw [hn _ e]; exact Enforces.panic
    | some as =>
      rw [hs _ _ e]
      refine (h.pins hpin as).mono fun os' W _ hW vs hvs => ?_
      rcases K.meansAll hvs with ⟨as', bs, e1, e2, e3⟩ | ⟨e1, _⟩
      · rw [e] at e1; cases e1
        rw [e2]
        exact hW bs e3
      · rw [e] at e1; cases e1
  · cases e : os.mapM K.obj with
    | none =>
      rw [hn _ e]
      exact Accepted.of_enforces Tidy.panic Enforces.panic
    | some as =>
      rw [hs _ _ e]
      refine (h.checks n as (K.scopedAll h1 e)).mono fun os' W hW vs hvs => ?_
      rcases K.meansAll hvs with ⟨as', bs, e1, e2, e3⟩ | ⟨e1, _⟩
      · rw [e] at e1; cases e1
        rw [e2]
        exact hW bs e3
      · rw [e] at e1; cases e1

theorem _root_.R1CS.Accepted.panic {n : ℕ} {Q : α → Assign p → Prop} :
    Accepted n (B.panic : B p α) Q := Accepted.of_enforces Tidy.panic Enforces.panic

/-- One operand. -/
theorem call1 {F : α → B p (List (Obj p))} {G : β → Option (List (Val p))} {pin : Bool}
    (h : Law K.rel K.within F G pin) : K.ListLaw (Language.call1 F) (fun1 G) pin := by
  refine ⟨fun as => ?_, fun s as bs rs h1 h2 h3 => ?_, fun hpin as => ?_, fun n as h1 => ?_⟩
  · match as with
    | [x] => exact h.tidy x
    | [] => exact Tidy.panic
    | _ :: _ :: _ => exact Tidy.panic
  · match as, bs, h2 with
    | [x], [a], .cons e .nil => exact h.comp s x a rs (h1 x (by simp)) e h3
    | [], [], _ => cases h3
    | _ :: _ :: _, _ :: _ :: _, _ => cases h3
  · match as with
    | [x] =>
      refine (h.pins hpin x).mono fun os W _ hW bs hbs => ?_
      match bs, hbs with
      | [a], .cons e .nil => exact hW a e
    | [] => exact Enforces.panic
    | _ :: _ :: _ => exact Enforces.panic
  · match as with
    | [x] =>
      refine (h.checks n x (h1 x (by simp))).mono fun os W hW bs hbs => ?_
      match bs, hbs with
      | [a], .cons e .nil => exact hW a e
    | [] => exact Accepted.panic
    | _ :: _ :: _ => exact Accepted.panic

/-- Laws of a call on two operands. -/
abbrev Law2 (F : α → α → B p (List (Obj p))) (G : β → β → Option (List (Val p)))
    (pin : Bool) : Prop :=
  Law (fun W (x : α × α) (y : β × β) => K.rel W x.1 y.1 ∧ K.rel W x.2 y.2)
    (fun n x => K.within n x.1 ∧ K.within n x.2) (fun x => F x.1 x.2) (fun y => G y.1 y.2) pin

/-- Two operands. -/
theorem call2 {F : α → α → B p (List (Obj p))} {G : β → β → Option (List (Val p))} {pin : Bool}
    (h : K.Law2 F G pin) : K.ListLaw (Language.call2 F) (fun2 G) pin := by
  refine ⟨fun as => ?_, fun s as bs rs h1 h2 h3 => ?_, fun hpin as => ?_, fun n as h1 => ?_⟩
  · match as with
    | [x, y] => exact h.tidy (x, y)
    | [] => exact Tidy.panic
    | [_] => exact Tidy.panic
    | _ :: _ :: _ :: _ => exact Tidy.panic
  · match as, bs, h2 with
    | [x, y], [a, b], .cons e (.cons e' .nil) =>
      exact h.comp s (x, y) (a, b) rs ⟨h1 x (by simp), h1 y (by simp)⟩ ⟨e, e'⟩ h3
    | [], [], _ => cases h3
    | [_], [_], _ => cases h3
    | _ :: _ :: _ :: _, _ :: _ :: _ :: _, _ => cases h3
  · match as with
    | [x, y] =>
      refine (h.pins hpin (x, y)).mono fun os W _ hW bs hbs => ?_
      match bs, hbs with
      | [a, b], .cons e (.cons e' .nil) => exact hW (a, b) ⟨e, e'⟩
    | [] => exact Enforces.panic
    | [_] => exact Enforces.panic
    | _ :: _ :: _ :: _ => exact Enforces.panic
  · match as with
    | [x, y] =>
      refine (h.checks n (x, y) ⟨h1 x (by simp), h1 y (by simp)⟩).mono fun os W hW bs hbs => ?_
      match bs, hbs with
      | [a, b], .cons e (.cons e' .nil) => exact hW (a, b) ⟨e, e'⟩
    | [] => exact Accepted.panic
    | [_] => exact Accepted.panic
    | _ :: _ :: _ :: _ => exact Accepted.panic

/-- Three operands. -/
theorem call3 {F : α → α → α → B p (List (Obj p))} {G : β → β → β → Option (List (Val p))}
    {pin : Bool} (h : Law (fun W (x : α × α × α) (y : β × β × β) =>
        K.rel W x.1 y.1 ∧ K.rel W x.2.1 y.2.1 ∧ K.rel W x.2.2 y.2.2)
      (fun n x => K.within n x.1 ∧ K.within n x.2.1 ∧ K.within n x.2.2)
      (fun x => F x.1 x.2.1 x.2.2) (fun y => G y.1 y.2.1 y.2.2) pin) :
    K.ListLaw (Language.call3 F) (fun3 G) pin := by
  refine ⟨fun as => ?_, fun s as bs rs h1 h2 h3 => ?_, fun hpin as => ?_, fun n as h1 => ?_⟩
  · match as with
    | [x, y, z] => exact h.tidy (x, y, z)
    | [] => exact Tidy.panic
    | [_] => exact Tidy.panic
    | [_, _] => exact Tidy.panic
    | _ :: _ :: _ :: _ :: _ => exact Tidy.panic
  · match as, bs, h2 with
    | [x, y, z], [a, b, c], .cons e (.cons e' (.cons e'' .nil)) =>
      exact h.comp s (x, y, z) (a, b, c) rs ⟨h1 x (by simp), h1 y (by simp), h1 z (by simp)⟩
        ⟨e, e', e''⟩ h3
    | [], [], _ => cases h3
    | [_], [_], _ => cases h3
    | [_, _], [_, _], _ => cases h3
    | _ :: _ :: _ :: _ :: _, _ :: _ :: _ :: _ :: _, _ => cases h3
  · match as with
    | [x, y, z] =>
      refine (h.pins hpin (x, y, z)).mono fun os W _ hW bs hbs => ?_
      match bs, hbs with
      | [a, b, c], .cons e (.cons e' (.cons e'' .nil)) => exact hW (a, b, c) ⟨e, e', e''⟩
    | [] => exact Enforces.panic
    | [_] => exact Enforces.panic
    | [_, _] => exact Enforces.panic
    | _ :: _ :: _ :: _ :: _ => exact Enforces.panic
  · match as with
    | [x, y, z] =>
      refine (h.checks n (x, y, z) ⟨h1 x (by simp), h1 y (by simp), h1 z (by simp)⟩).mono
        fun os W hW bs hbs => ?_
      match bs, hbs with
      | [a, b, c], .cons e (.cons e' (.cons e'' .nil)) => exact hW (a, b, c) ⟨e, e', e''⟩
    | [] => exact Accepted.panic
    | [_] => exact Accepted.panic
    | [_, _] => exact Accepted.panic
    | _ :: _ :: _ :: _ :: _ => exact Accepted.panic

end Kind

/-! ## Results -/

theorem meansAll_one {W : Assign p} {o : Obj p} {v : Val p} (h : Means W o v) :
    MeansAll W [o] [v] := .cons h .nil

theorem meansAll_exprs {W : Assign p} : ∀ {zs : List (Expression p)} {l : List (Elem p)},
    values W zs = l → MeansAll W (zs.map .expr) (l.map .elem)
  | [], [], _ => .nil
  | z :: zs, [], h => by simp [values] at h
  | [], _ :: _, h => by simp [values] at h
  | z :: zs, x :: l, h => by
    simp only [values, List.map_cons, List.cons.injEq] at h
    exact .cons h.1 (meansAll_exprs h.2)

theorem values_of_rel {W : Assign p} {xs : List (Expression p)} {ys : List (Elem p)}
    (h : List.Forall₂ ((Kind.expr (p := p)).rel W) xs ys) : values W xs = ys := by
  induction h with
  | nil => rfl
  | cons h1 _ ih =>
    rw [← ih, ← show Expression.eval W _ = _ from h1]
    rfl

theorem meansAll_bools {W : Assign p} : ∀ {zs : List (BooleanExpression p)} {l : List Bool},
    (zs.map fun b => b.eval W) = l.map Elem.ofBool → MeansAll W (zs.map .bool) (l.map .bool)
  | [], [], _ => .nil
  | z :: zs, [], h => by simp at h
  | [], _ :: _, h => by simp at h
  | z :: zs, x :: l, h => by
    simp only [List.map_cons, List.cons.injEq] at h
    exact .cons h.1 (meansAll_bools h.2)

namespace Tidy

theorem retExpr {m : B p (Expression p)} (h : Tidy m) : Tidy (Language.retExpr m) :=
  h.bind fun _ => Tidy.pure _
theorem retExprs {m : B p (List (Expression p))} (h : Tidy m) : Tidy (Language.retExprs m) :=
  h.bind fun _ => Tidy.pure _
theorem retBool {m : B p (BooleanExpression p)} (h : Tidy m) : Tidy (Language.retBool m) :=
  h.bind fun _ => Tidy.pure _
theorem retBin {m : B p (BinaryExpression p)} (h : Tidy m) : Tidy (Language.retBin m) :=
  h.bind fun _ => Tidy.pure _
theorem retNone {m : B p α} (h : Tidy m) : Tidy (Language.retNone m) :=
  h.bind fun _ => Tidy.pure _

end Tidy

namespace Comp

theorem retExpr {m : B p (Expression p)} {s : Hon p} {v : Elem p}
    (h : Comp m s fun z t => t.D = s.D ∧ z.Scoped t.next ∧ z.eval t.W = v) :
    Comp (Language.retExpr m) s (Yields s [.elem v]) :=
  h.bind fun z t _ ⟨h1, h2, h3⟩ => Comp.pure ⟨h1, by simpa [Obj.Scoped] using h2, meansAll_one h3⟩

theorem retExprs {m : B p (List (Expression p))} {s : Hon p} {l : List (Elem p)}
    (h : Comp m s fun z t => t.D = s.D ∧ ListScoped t.next z ∧ values t.W z = l) :
    Comp (Language.retExprs m) s (Yields s (l.map .elem)) :=
  h.bind fun z t _ ⟨h1, h2, h3⟩ => Comp.pure ⟨h1, fun o ho => by
    obtain ⟨e, he, rfl⟩ := List.mem_map.1 ho
    exact h2 e he, meansAll_exprs h3⟩

theorem retBool {m : B p (BooleanExpression p)} {s : Hon p} {v : Bool}
    (h : Comp m s fun z t => t.D = s.D ∧ z.Scoped t.next ∧ z.eval t.W = Elem.ofBool v) :
    Comp (Language.retBool m) s (Yields s [.bool v]) :=
  h.bind fun z t _ ⟨h1, h2, h3⟩ => Comp.pure ⟨h1, by simpa [Obj.Scoped] using h2, meansAll_one h3⟩

theorem retBin {m : B p (BinaryExpression p)} {s : Hon p} {v : List Bool}
    (h : Comp m s fun z t => t.D = s.D ∧ z.Scoped t.next ∧
      (z.bits.map fun b => b.eval t.W) = v.map Elem.ofBool) :
    Comp (Language.retBin m) s (Yields s [.bits v]) :=
  h.bind fun z t _ ⟨h1, h2, h3⟩ => Comp.pure ⟨h1, by simpa [Obj.Scoped] using h2, meansAll_one h3⟩

theorem retNone {m : B p α} {s : Hon p} (h : Comp m s fun _ t => t.D = s.D) :
    Comp (Language.retNone m) s (Yields s []) :=
  h.bind fun z t _ h1 => Comp.pure ⟨h1, by simp, .nil⟩

end Comp

namespace Enforces

theorem retExpr {m : B p (Expression p)} {Q : Expression p → Assign p → Prop} (h : Enforces m Q) :
    Enforces (Language.retExpr m) fun os W => W ONE = 1 ∧ ∃ z, os = [.expr z] ∧ Q z W :=
  h.bind fun z => Enforces.pure fun _ h1 hz => ⟨h1, z, rfl, hz⟩

theorem retExprs {m : B p (List (Expression p))} {Q : List (Expression p) → Assign p → Prop}
    (h : Enforces m Q) :
    Enforces (Language.retExprs m) fun os W => W ONE = 1 ∧ ∃ z, os = z.map .expr ∧ Q z W :=
  h.bind fun z => Enforces.pure fun _ h1 hz => ⟨h1, z, rfl, hz⟩

theorem retBool {m : B p (BooleanExpression p)} {Q : BooleanExpression p → Assign p → Prop}
    (h : Enforces m Q) :
    Enforces (Language.retBool m) fun os W => W ONE = 1 ∧ ∃ z, os = [.bool z] ∧ Q z W :=
  h.bind fun z => Enforces.pure fun _ h1 hz => ⟨h1, z, rfl, hz⟩

theorem retBin {m : B p (BinaryExpression p)} {Q : BinaryExpression p → Assign p → Prop}
    (h : Enforces m Q) :
    Enforces (Language.retBin m) fun os W => W ONE = 1 ∧ ∃ z, os = [.bin z] ∧ Q z W :=
  h.bind fun z => Enforces.pure fun _ h1 hz => ⟨h1, z, rfl, hz⟩

theorem retNone {m : B p α} {Q : α → Assign p → Prop} (h : Enforces m Q) :
    Enforces (Language.retNone m) fun os W => W ONE = 1 ∧ os = [] ∧ ∃ z, Q z W :=
  h.bind fun z => Enforces.pure fun _ h1 hz => ⟨h1, rfl, z, hz⟩

end Enforces

/-- Results do not matter for acceptance. -/
theorem Accepted.ret {m : B p α} {f : α → B p β} {n : ℕ} {Q : Assign p → Prop} (hm : Tidy m)
    (hf : ∀ a, Tidy (f a)) (h : Accepted n m fun _ W => Q W) :
    Accepted n (m >>= f) fun _ W => Q W :=
  (Accepted.bind hm hf h fun a => (hf a).1.enforces).mono fun _ _ ⟨_, h, _⟩ => h

/-! ## Digits -/

theorem natOf_eq (l : List Bool) : natOf l = digitsVal (l.map Bool.toNat) := by
  induction l with
  | nil => rfl
  | cons b l ih => simp [natOf, digitsVal, ih]

theorem bin_iff {W : Assign p} {e : BinaryExpression p} {l : List Bool} :
    (e.bits.map fun b => b.eval W) = l.map Elem.ofBool ↔
      e.AllBool W ∧ e.bits.map (BooleanExpression.truth W) = l := by
  obtain ⟨bits⟩ := e
  unfold BinaryExpression.AllBool
  dsimp only
  induction bits generalizing l with
  | nil => cases l <;> simp
  | cons b bits ih =>
    cases l with
    | nil => simp
    | cons x l =>
      simp only [List.map_cons, List.cons.injEq, List.forall_mem_cons, ih]
      constructor
      · rintro ⟨h1, h2, h3⟩
        have := truth_ofBool h1
        exact ⟨⟨this.1, h2⟩, this.2, h3⟩
      · rintro ⟨⟨h1, h2⟩, h3, h4⟩
        refine ⟨?_, h2, h4⟩
        rcases bool_cases h1 with ⟨e1, e2⟩ | ⟨e1, e2⟩
        · rw [e1, ← h3, e2, Elem.ofBool_false]
        · rw [e1, ← h3, e2, Elem.ofBool_true]

theorem bin_val {W : Assign p} {e : BinaryExpression p} {l : List Bool}
    (h : (e.bits.map fun b => b.eval W) = l.map Elem.ofBool) :
    e.AllBool W ∧ e.len = l.length ∧ e.val W = natOf l := by
  obtain ⟨h1, rfl⟩ := bin_iff.1 h
  refine ⟨h1, by simp [BinaryExpression.len], ?_⟩
  rw [natOf_eq, ← h1.digits_eq]
  rfl

theorem bin_of_val {W : Assign p} {e : BinaryExpression p} (h : e.AllBool W) :
    (e.bits.map fun b => b.eval W) = (bitsOf e.len (e.val W)).map Elem.ofBool := by
  refine bin_iff.2 ⟨h, ?_⟩
  apply List.ext_getElem
  · simp [bitsOf, BinaryExpression.len]
  · intro i h1 h2
    have := h.testBit i
    simp only [bitsOf, List.getElem_map, List.getElem_range]
    rw [this, List.getD_eq_getElem?_getD, List.getElem?_eq_getElem h1]
    simp

theorem bitsOf_mod (k n : ℕ) : bitsOf k (n % 2 ^ k) = bitsOf k n := by
  refine List.map_congr_left fun i hi => ?_
  rw [Nat.testBit_mod_two_pow, decide_eq_true (List.mem_range.1 hi), Bool.true_and]

theorem natOf_lt (l : List Bool) : natOf l < 2 ^ l.length := by
  induction l with
  | nil => simp [natOf]
  | cons b l ih =>
    have : b.toNat ≤ 1 := Bool.toNat_le b
    simp only [natOf, List.length_cons, pow_succ]
    omega

theorem bins_val {W : Assign p} {es : List (BinaryExpression p)} {ls : List (List Bool)}
    (h : List.Forall₂ (fun (e : BinaryExpression p) (l : List Bool) =>
      (e.bits.map fun b => b.eval W) = l.map Elem.ofBool) es ls) :
    (∀ e ∈ es, e.AllBool W) ∧ (B.maxSum es).size = sumWidth ls ∧ B.inputBits es = maxLength ls ∧
      (es.map fun e => e.val W).sum = (ls.map natOf).sum := by
  have key : (∀ e ∈ es, e.AllBool W) ∧ es.map (fun e => e.len) = ls.map List.length ∧
      (es.map fun e => e.val W) = ls.map natOf := by
    induction h with
    | nil => simp
    | @cons e l es ls h1 _ ih =>
      obtain ⟨g1, g2, g3⟩ := bin_val h1
      obtain ⟨i1, i2, i3⟩ := ih
      refine ⟨?_, by simp [g2, i2], by simp [g3, i3]⟩
      intro e' he'
      rcases List.mem_cons.1 he' with rfl | h
      · exact g1
      · exact i1 e' h
  obtain ⟨k1, k2, k3⟩ := key
  refine ⟨k1, ?_, ?_, by rw [k3]⟩
  · rw [maxSum_eq]
    unfold sumWidth
    have e1 : (es.map fun t => 2 ^ t.len - 1) = (es.map fun e => e.len).map fun k => 2 ^ k - 1 := by
      rw [List.map_map]; rfl
    have e2 : (ls.map fun l : List Bool => 2 ^ l.length - 1)
        = (ls.map List.length).map fun k => 2 ^ k - 1 := by
      rw [List.map_map]; rfl
    rw [e1, e2, k2]
  · unfold B.inputBits maxLength
    rw [inputBits_eq, k2]
    simp

end R1CS
