import Verif.Lemmas.LanguageLaws

/-!
# Circuits as programs: the operations
-/

set_option linter.unusedSectionVars false
set_option linter.unusedVariables false

namespace R1CS

variable {p : ℕ} [hp : Fact p.Prime] {α β : Type}

open Language

namespace Op

/-- The law of one operation. -/
abbrev Lawful (o : Op p) : Prop := OpLaw o.run o.meaning o.pinned

theorem ofBool_decide {c : Prop} [Decidable c] :
    (Elem.ofBool (decide c) : Elem p) = if c then 1 else 0 := by
  by_cases h : c <;> simp [h, Elem.ofBool_true, Elem.ofBool_false]

theorem ofBool_decide_not {c : Prop} [Decidable c] :
    (Elem.ofBool (decide ¬ c) : Elem p) = if c then 0 else 1 := by
  by_cases h : c <;> simp [h, Elem.ofBool_true, Elem.ofBool_false]

theorem check_eq {c : Prop} [Decidable c] {rs : List (Val p)} (h : check c = some rs) :
    c ∧ rs = [] := by
  unfold check at h
  split at h
  · exact ⟨by assumption, (Option.some.inj h).symm⟩
  · cases h

theorem check_pos {c : Prop} [Decidable c] (h : c) : check (p := p) c = some [] := if_pos h

/-! ## Calls with results determined by values -/

/-- One expression to an expression. -/
theorem expr1 {F : Expression p → B p (Expression p)} {f : Elem p → Elem p}
    {c : Elem p → Prop} {G : Elem p → Option (List (Val p))}
    (hG : ∀ x, c x → G x = some [.elem (f x)]) (hG' : ∀ x rs, G x = some rs → c x)
    (ht : ∀ x, Tidy (F x))
    (hc : ∀ (s : Hon p) x, x.Scoped s.next → c (x.eval s.W) → Comp (F x) s fun z t =>
      t.D = s.D ∧ z.Scoped t.next ∧ z.eval t.W = f (x.eval s.W))
    (he : ∀ x, Enforces (F x) fun z W => c (x.eval W) ∧ z.eval W = f (x.eval W)) (pin : Bool) :
    Law Kind.expr.rel Kind.expr.within (fun x => retExpr (F x)) G pin := by
  refine .pinned (fun x => (ht x).retExpr) (fun s x y rs hs hr hm => ?_) (fun x => ?_) pin
  · cases hr
    have h1 := hG' _ _ hm
    rw [hG _ h1] at hm
    cases hm
    exact (hc s x hs h1).retExpr
  · refine (he x).retExpr.mono fun os W _ ⟨_, z, hz, h1, h2⟩ y hy => ?_
    cases hy
    subst hz
    exact ⟨_, hG _ h1, meansAll_one h2⟩

/-- Two expressions to an expression. -/
theorem expr2 {F : Expression p → Expression p → B p (Expression p)}
    {f : Elem p → Elem p → Elem p} {c : Elem p → Elem p → Prop}
    {G : Elem p → Elem p → Option (List (Val p))}
    (hG : ∀ x y, c x y → G x y = some [.elem (f x y)]) (hG' : ∀ x y rs, G x y = some rs → c x y)
    (ht : ∀ x y, Tidy (F x y))
    (hc : ∀ (s : Hon p) x y, x.Scoped s.next → y.Scoped s.next → c (x.eval s.W) (y.eval s.W) →
      Comp (F x y) s fun z t =>
        t.D = s.D ∧ z.Scoped t.next ∧ z.eval t.W = f (x.eval s.W) (y.eval s.W))
    (he : ∀ x y, Enforces (F x y) fun z W => c (x.eval W) (y.eval W) ∧
      z.eval W = f (x.eval W) (y.eval W)) (pin : Bool) :
    Kind.expr.Law2 (fun x y => retExpr (F x y)) G pin := by
  refine .pinned (fun x => (ht _ _).retExpr) (fun s x y rs hs hr hm => ?_) (fun x => ?_) pin
  · obtain ⟨y1, y2⟩ := y
    obtain ⟨h, h'⟩ := hr
    dsimp only at h h' hm
    subst h h'
    have h1 := hG' _ _ _ hm
    rw [hG _ _ h1] at hm
    cases hm
    exact (hc s _ _ hs.1 hs.2 h1).retExpr
  · refine (he x.1 x.2).retExpr.mono fun os W _ ⟨_, z, hz, h1, h2⟩ y hy => ?_
    obtain ⟨y1, y2⟩ := y
    obtain ⟨h, h'⟩ := hy
    dsimp only at h h'
    subst h h'
    subst hz
    exact ⟨_, hG _ _ h1, meansAll_one h2⟩

/-- One expression to a boolean. -/
theorem bool1 {F : Expression p → B p (BooleanExpression p)} {f : Elem p → Bool}
    (ht : ∀ x, Tidy (F x))
    (hc : ∀ (s : Hon p) x, x.Scoped s.next → Comp (F x) s fun z t =>
      t.D = s.D ∧ z.Scoped t.next ∧ z.eval t.W = Elem.ofBool (f (x.eval s.W)))
    (he : ∀ x, Enforces (F x) fun z W => z.eval W = Elem.ofBool (f (x.eval W))) (pin : Bool) :
    Law Kind.expr.rel Kind.expr.within (fun x => retBool (F x)) (fun x => some [.bool (f x)])
      pin := by
  refine .pinned (fun x => (ht x).retBool) (fun s x y rs hs hr hm => ?_) (fun x => ?_) pin
  · cases hr
    cases hm
    exact (hc s x hs).retBool
  · refine (he x).retBool.mono fun os W _ ⟨_, z, hz, h2⟩ y hy => ?_
    cases hy
    subst hz
    exact ⟨_, rfl, meansAll_one h2⟩

/-- Two expressions to a boolean. -/
theorem bool2 {F : Expression p → Expression p → B p (BooleanExpression p)}
    {f : Elem p → Elem p → Bool} (ht : ∀ x y, Tidy (F x y))
    (hc : ∀ (s : Hon p) x y, x.Scoped s.next → y.Scoped s.next → Comp (F x y) s fun z t =>
      t.D = s.D ∧ z.Scoped t.next ∧ z.eval t.W = Elem.ofBool (f (x.eval s.W) (y.eval s.W)))
    (he : ∀ x y, Enforces (F x y) fun z W => z.eval W = Elem.ofBool (f (x.eval W) (y.eval W)))
    (pin : Bool) :
    Kind.expr.Law2 (fun x y => retBool (F x y)) (fun x y => some [.bool (f x y)]) pin := by
  refine .pinned (fun x => (ht _ _).retBool) (fun s x y rs hs hr hm => ?_) (fun x => ?_) pin
  · obtain ⟨y1, y2⟩ := y
    obtain ⟨h, h'⟩ := hr
    dsimp only at h h' hm
    subst h h'
    cases hm
    exact (hc s _ _ hs.1 hs.2).retBool
  · refine (he x.1 x.2).retBool.mono fun os W _ ⟨_, z, hz, h2⟩ y hy => ?_
    obtain ⟨y1, y2⟩ := y
    obtain ⟨h, h'⟩ := hy
    dsimp only at h h'
    subst h h'
    subst hz
    exact ⟨_, rfl, meansAll_one h2⟩

/-- A test of one expression. -/
theorem check1 {F : Expression p → B p α} {c : Elem p → Prop} [DecidablePred c]
    (ht : ∀ x, Tidy (F x))
    (hc : ∀ (s : Hon p) x, x.Scoped s.next → c (x.eval s.W) → Comp (F x) s fun _ t => t.D = s.D)
    (he : ∀ x, Enforces (F x) fun _ W => c (x.eval W)) (pin : Bool) :
    Law Kind.expr.rel Kind.expr.within (fun x => retNone (F x)) (fun x => check (c x)) pin := by
  refine .pinned (fun x => (ht x).retNone) (fun s x y rs hs hr hm => ?_) (fun x => ?_) pin
  · cases hr
    obtain ⟨h1, rfl⟩ := check_eq hm
    exact (hc s x hs h1).retNone
  · refine (he x).retNone.mono fun os W _ ⟨_, hz, _, h2⟩ y hy => ?_
    cases hy
    subst hz
    exact ⟨_, check_pos h2, .nil⟩

/-- A test of two expressions. -/
theorem check2 {F : Expression p → Expression p → B p α} {c : Elem p → Elem p → Prop}
    [∀ x y, Decidable (c x y)] (ht : ∀ x y, Tidy (F x y))
    (hc : ∀ (s : Hon p) x y, x.Scoped s.next → y.Scoped s.next → c (x.eval s.W) (y.eval s.W) →
      Comp (F x y) s fun _ t => t.D = s.D)
    (he : ∀ x y, Enforces (F x y) fun _ W => c (x.eval W) (y.eval W)) (pin : Bool) :
    Kind.expr.Law2 (fun x y => retNone (F x y)) (fun x y => check (c x y)) pin := by
  refine .pinned (fun x => (ht _ _).retNone) (fun s x y rs hs hr hm => ?_) (fun x => ?_) pin
  · obtain ⟨y1, y2⟩ := y
    obtain ⟨h, h'⟩ := hr
    dsimp only at h h' hm
    subst h h'
    obtain ⟨h1, rfl⟩ := check_eq hm
    exact (hc s _ _ hs.1 hs.2 h1).retNone
  · refine (he x.1 x.2).retNone.mono fun os W _ ⟨_, hz, _, h2⟩ y hy => ?_
    obtain ⟨y1, y2⟩ := y
    obtain ⟨h, h'⟩ := hy
    dsimp only at h h'
    subst h h'
    subst hz
    exact ⟨_, check_pos h2, .nil⟩

/-- Two booleans to a boolean. -/
theorem logic2 {F : BooleanExpression p → BooleanExpression p → B p (BooleanExpression p)}
    {f : Bool → Bool → Bool} {g : Elem p → Elem p → Elem p} (ht : ∀ x y, Tidy (F x y))
    (hg : ∀ a b, g (Elem.ofBool a) (Elem.ofBool b) = Elem.ofBool (f a b))
    (hc : ∀ (s : Hon p) x y, x.Scoped s.next → y.Scoped s.next → Comp (F x y) s fun z t =>
      t.D = s.D ∧ z.Scoped t.next ∧ z.eval t.W = g (x.eval s.W) (y.eval s.W))
    (he : ∀ x y, Enforces (F x y) fun z W => z.eval W = g (x.eval W) (y.eval W)) (pin : Bool) :
    Kind.bool.Law2 (fun x y => retBool (F x y)) (fun x y => some [.bool (f x y)]) pin := by
  refine .pinned (fun x => (ht _ _).retBool) (fun s x y rs hs hr hm => ?_) (fun x => ?_) pin
  · cases hm
    refine Comp.retBool ((hc s _ _ hs.1 hs.2).mono fun z t _ ⟨h1, h2, h3⟩ => ⟨h1, h2, ?_⟩)
    rw [h3, hr.1, hr.2, hg]
  · refine (he x.1 x.2).retBool.mono fun os W _ ⟨_, z, hz, h2⟩ y hy => ?_
    subst hz
    refine ⟨_, rfl, meansAll_one ?_⟩
    show z.eval W = _
    rw [h2, hy.1, hy.2, hg]

/-- Two digit strings, digit by digit. -/
theorem bitwise {F : BinaryExpression p → BinaryExpression p → B p (BinaryExpression p)}
    {op : BooleanExpression p → BooleanExpression p → B p (BooleanExpression p)}
    {f : Bool → Bool → Bool}
    (hF : ∀ x y, F x y = do
      B.require (x.len = y.len)
      let bits ← B.zipBits op x.bits y.bits
      return ⟨bits⟩) (ht : ∀ x y, Tidy (F x y)) (hop : OpEnforces op f) (hoc : OpComputes op)
    (pin : Bool) : Kind.bin.Law2 (fun x y => retBin (F x y)) (fun l k =>
      if l.length = k.length then some [.bits (List.zipWith f l k)] else none) pin := by
  have hE : ∀ x y, Enforces (F x y) fun z W => x.len = y.len ∧ (x.AllBool W → y.AllBool W →
      z.AllBool W ∧ z.bits.map (BooleanExpression.truth W) = List.zipWith f
        (x.bits.map (BooleanExpression.truth W)) (y.bits.map (BooleanExpression.truth W))) := by
    intro x y
    rw [hF]
    refine (Enforces.require _).bind fun _ => (Enforces.zipBits hop x.bits y.bits).bind
      fun ds => Enforces.pure fun W _ h hl => ⟨hl, h⟩
  have hval : ∀ {x y z : BinaryExpression p} {W : Assign p} {l k : List Bool},
      Kind.bin.rel W x l → Kind.bin.rel W y k → (x.len = y.len ∧ (x.AllBool W → y.AllBool W →
      z.AllBool W ∧ z.bits.map (BooleanExpression.truth W) = List.zipWith f
        (x.bits.map (BooleanExpression.truth W)) (y.bits.map (BooleanExpression.truth W)))) →
      l.length = k.length ∧ (z.bits.map fun b => b.eval W) = (List.zipWith f l k).map Elem.ofBool := by
    rintro x y z W l k hl hk ⟨h1, h2⟩
    have e1 := (bin_val hl).2.1
    have e2 := (bin_val hk).2.1
    obtain ⟨b1, rfl⟩ := bin_iff.1 hl
    obtain ⟨b2, rfl⟩ := bin_iff.1 hk
    exact ⟨by omega, bin_iff.2 (h2 b1 b2)⟩
  refine .pinned (fun x => (ht _ _).retBin) (fun s x y rs hs hr hm => ?_) (fun x => ?_) pin
  · dsimp only at hm
    split at hm
    case isFalse => cases hm
    case isTrue hlen =>
    cases hm
    have e1 := (bin_val hr.1).2.1
    have e2 := (bin_val hr.2).2.1
    have hc : Comp (F x.1 x.2) s fun z t => t.D = s.D ∧ z.Scoped t.next := by
      rw [hF]
      exact Comp.require_bind (by omega) ((Comp.zipBits hoc _ _ s hs.1 hs.2).bind
        fun ds t _ ⟨h1, h2⟩ => Comp.pure ⟨h1, h2⟩)
    refine Comp.retBin ((hc.enforced (hE x.1 x.2)).mono fun z t l ⟨⟨h1, h2⟩, h3⟩ =>
      ⟨h1, h2, (hval ?_ ?_ h3).2⟩)
    · exact Means.congr (o := .bin x.1) (v := .bits y.1) l.2 hs.1 hr.1
    · exact Means.congr (o := .bin x.2) (v := .bits y.2) l.2 hs.2 hr.2
  · refine (hE x.1 x.2).retBin.mono fun os W _ ⟨_, z, hz, h⟩ y hy => ?_
    subst hz
    obtain ⟨h1, h2⟩ := hval hy.1 hy.2 h
    exact ⟨_, if_pos h1, meansAll_one h2⟩

/-- One digit string, rearranged. -/
theorem rearranged {F : BinaryExpression p → Option (BinaryExpression p)}
    {G : List Bool → Option (List Bool)}
    (hs : ∀ x z n, F x = some z → x.Scoped n → 1 ≤ n → z.Scoped n)
    (hv : ∀ (W : Assign p) x l, Kind.bin.rel W x l → W ONE = 1 →
      (∃ z k, F x = some z ∧ G l = some k ∧ Kind.bin.rel W z k) ∨ (F x = none ∧ G l = none))
    (pin : Bool) : Law Kind.bin.rel Kind.bin.within (fun x => retBin (B.ofOption (F x)))
      (fun l => (G l).map fun k => [.bits k]) pin := by
  refine .pinned (fun x => (Tidy.ofOption _).retBin) (fun s x y rs hx hr hm => ?_) (fun x => ?_) pin
  · rcases hv s.W x y hr s.one with ⟨z, k, h1, h2, h3⟩ | ⟨_, h2⟩
    · rw [h2] at hm
      cases hm
      exact Comp.retBin (Comp.ofOption h1 ⟨rfl, hs x z _ h1 hx s.pos, h3⟩)
    · rw [h2] at hm; cases hm
  · refine (Enforces.ofOption (Q := fun z _ => F x = some z) fun z h _ _ => h).retBin.mono
      fun os W _ ⟨h1, z, hz, h⟩ y hy => ?_
    subst hz
    rcases hv W x y hy h1 with ⟨z', k, e1, e2, e3⟩ | ⟨e1, _⟩
    · rw [h] at e1; cases e1
      exact ⟨_, by rw [e2]; rfl, meansAll_one (v := .bits k) e3⟩
    · rw [h] at e1; cases e1

/-! ## The operations -/

theorem lawful_const (c : Elem p) : (const c).Lawful :=
  .pinned (fun _ => Tidy.pure _) (fun s os vs rs hs hr hm => by
    cases hm
    exact Comp.pure ⟨rfl, by simpa [Obj.Scoped] using Expression.Scoped.ofElem s.pos c,
      meansAll_one (Expression.eval_ofElem s.one c)⟩)
    (fun os => Enforces.pure fun W h1 vs _ => ⟨[.elem c], rfl,
      meansAll_one (o := .expr (Expression.ofElem c)) (Expression.eval_ofElem h1 c)⟩) _

theorem lawful_constBool (c : Bool) : (constBool c : Op p).Lawful :=
  .pinned (fun _ => Tidy.pure _) (fun s os vs rs hs hr hm => by
    cases hm
    exact Comp.pure ⟨rfl, by simpa [Obj.Scoped] using BooleanExpression.Scoped.ofBool s.pos c,
      meansAll_one (Expression.eval_ofElem s.one _)⟩)
    (fun os => Enforces.pure fun W h1 vs _ => ⟨[.bool c], rfl,
      meansAll_one (o := .bool (BooleanExpression.ofBool c)) (Expression.eval_ofElem h1 _)⟩) _

theorem lawful_constBits (n : ℕ) : (constBits n : Op p).Lawful := by
  have key : ∀ W : Assign p, W ONE = 1 → Means W (.bin (BinaryExpression.ofNat n))
      (.bits (bitsOf n.size n)) := by
    intro W h1
    have := bin_of_val (BinaryExpression.ofNat_allBool (p := p) h1 n)
    rw [BinaryExpression.ofNat_len, BinaryExpression.ofNat_val h1] at this
    exact this
  exact .pinned (fun _ => Tidy.pure _) (fun s os vs rs hs hr hm => by
    cases hm
    exact Comp.pure ⟨rfl, by simpa [Obj.Scoped] using BinaryExpression.ofNat_scoped s.pos n,
      meansAll_one (key s.W s.one)⟩)
    (fun os => Enforces.pure fun W h1 vs _ => ⟨_, rfl, meansAll_one (key W h1)⟩) _

theorem lawful_add : (add : Op p).Lawful :=
  Kind.expr.onAll (Kind.expr.call2 (expr2 (f := fun x y => x + y) (c := fun _ _ => True)
    (fun _ _ _ => rfl) (fun _ _ _ _ => trivial) (fun _ _ => Tidy.pure _)
    (fun s x y hx hy _ => Comp.pure ⟨rfl, hx.add hy, Expression.eval_add _ _ _⟩)
    (fun x y => Enforces.pure fun W _ => ⟨trivial, Expression.eval_add _ _ _⟩) _))

theorem lawful_sub : (sub : Op p).Lawful :=
  Kind.expr.onAll (Kind.expr.call2 (expr2 (f := fun x y => x - y) (c := fun _ _ => True)
    (fun _ _ _ => rfl) (fun _ _ _ _ => trivial) (fun _ _ => Tidy.pure _)
    (fun s x y hx hy _ => Comp.pure ⟨rfl, hx.sub hy, Expression.eval_sub _ _ _⟩)
    (fun x y => Enforces.pure fun W _ => ⟨trivial, Expression.eval_sub _ _ _⟩) _))

theorem lawful_neg : (neg : Op p).Lawful :=
  Kind.expr.onAll (Kind.expr.call1 (expr1 (f := fun x => -x) (c := fun _ => True)
    (fun _ _ => rfl) (fun _ _ _ => trivial) (fun _ => Tidy.pure _)
    (fun s x hx _ => Comp.pure ⟨rfl, hx.neg, Expression.eval_neg _ _⟩)
    (fun x => Enforces.pure fun W _ => ⟨trivial, Expression.eval_neg _ _⟩) _))

theorem lawful_scale (c : Elem p) : (scale c).Lawful :=
  Kind.expr.onAll (Kind.expr.call1 (expr1 (f := fun x => x * c) (c := fun _ => True)
    (fun _ _ => rfl) (fun _ _ _ => trivial) (fun _ => Tidy.pure _)
    (fun s x hx _ => Comp.pure ⟨rfl, hx.mulElem c, Expression.eval_mulElem _ _ _⟩)
    (fun x => Enforces.pure fun W _ => ⟨trivial, Expression.eval_mulElem _ _ _⟩) _))

theorem lawful_product : (product : Op p).Lawful :=
  Kind.expr.onAll (Kind.expr.call2 (expr2 (f := fun x y => x * y) (c := fun _ _ => True)
    (fun _ _ _ => rfl) (fun _ _ _ _ => trivial) (fun _ _ => Tidy.product _ _)
    (fun s x y hx hy _ => Comp.product hx hy)
    (fun x y => (Enforces.product x y).mono fun _ _ _ h => ⟨trivial, h⟩) _))

theorem lawful_exp (k : Elem p) : (exp k).Lawful :=
  Kind.expr.onAll (Kind.expr.call1 (expr1 (f := fun x => x ^ k.n) (c := fun _ => True)
    (fun _ _ => rfl) (fun _ _ _ => trivial) (fun _ => Tidy.exponentiation _ _)
    (fun s x hx _ => Comp.exponentiation hx k)
    (fun x => (Enforces.exponentiation x k).mono fun _ _ _ h => ⟨trivial, h⟩) _))

theorem lawful_inverse (h2 : 2 < p) : (inverse : Op p).Lawful :=
  Kind.expr.onAll (Kind.expr.call1 (expr1 (f := fun x => x⁻¹) (c := fun x => x ≠ 0)
    (fun _ h => if_neg h) (fun x rs h h0 => by simp [h0] at h) (fun _ => Tidy.inverse _)
    (fun s x hx h => Comp.inverse h2 hx h)
    (fun x => (Enforces.inverse x).mono fun z W _ h => by
      have h0 : x.eval W ≠ 0 := left_ne_zero_of_mul_eq_one h
      exact ⟨h0, (inv_eq_of_mul_eq_one_right h).symm⟩) _))

theorem lawful_quotient (h2 : 2 < p) : (quotient : Op p).Lawful :=
  Kind.expr.onAll (Kind.expr.call2 (expr2 (f := fun x y => x / y) (c := fun _ y => y ≠ 0)
    (fun _ _ h => if_neg h) (fun x y rs h h0 => by simp [h0] at h) (fun _ _ => Tidy.quotient _ _)
    (fun s x y hx hy h => Comp.quotient h2 hx hy h)
    (fun x y => Enforces.quotient x y) _))

theorem lawful_nonzero (h2 : 2 < p) : (nonzero : Op p).Lawful :=
  Kind.expr.onAll (Kind.expr.call1 (bool1 (f := fun x => decide (x ≠ 0)) (fun _ => Tidy.nonzero _)
    (fun s x hx => by simp only [ne_eq, ofBool_decide_not]; exact Comp.nonzero h2 hx)
    (fun x => by simp only [ne_eq, ofBool_decide_not]; exact Enforces.nonzero x) _))

theorem lawful_zero (h2 : 2 < p) : (zero : Op p).Lawful :=
  Kind.expr.onAll (Kind.expr.call1 (bool1 (f := fun x => decide (x = 0)) (fun _ => Tidy.zero _)
    (fun s x hx => by simp only [ofBool_decide]; exact Comp.zero h2 hx)
    (fun x => by simp only [ofBool_decide]; exact Enforces.zero x) _))

theorem lawful_equal (h2 : 2 < p) : (equal : Op p).Lawful :=
  Kind.expr.onAll (Kind.expr.call2 (bool2 (f := fun x y => decide (x = y)) (fun _ _ => Tidy.equal _ _)
    (fun s x y hx hy => by simp only [ofBool_decide]; exact Comp.equal h2 hx hy)
    (fun x y => by simp only [ofBool_decide]; exact Enforces.equal x y) _))

theorem lawful_assertEqual : (assertEqual : Op p).Lawful :=
  Kind.expr.onAll (Kind.expr.call2 (check2 (fun _ _ => Tidy.assertEqual _ _)
    (fun s x y hx hy h => (Comp.assertEqual hx hy h).mono fun _ _ _ h => h.2.1)
    (fun x y => Enforces.assertEqual x y) _))

theorem lawful_assertNonequal (h2 : 2 < p) : (assertNonequal : Op p).Lawful :=
  Kind.expr.onAll (Kind.expr.call2 (check2 (fun _ _ => Tidy.assertNonequal _ _)
    (fun s x y hx hy h => Comp.assertNonequal h2 hx hy h)
    (fun x y => Enforces.assertNonequal x y) _))

theorem lawful_assertZero : (assertZero : Op p).Lawful :=
  Kind.expr.onAll (Kind.expr.call1 (check1 (fun _ => Tidy.assertZero _)
    (fun s x hx h => (Comp.assertZero hx h).mono fun _ _ _ h => h.2.1)
    (fun x => Enforces.assertZero x) _))

theorem lawful_assertNonzero (h2 : 2 < p) : (assertNonzero : Op p).Lawful :=
  Kind.expr.onAll (Kind.expr.call1 (check1 (fun _ => Tidy.assertNonzero _)
    (fun s x hx h => Comp.assertNonzero h2 hx h)
    (fun x => Enforces.assertNonzero x) _))

theorem lawful_assertProduct : (assertProduct : Op p).Lawful := by
  refine Kind.expr.onAll (Kind.expr.call3 (.pinned (fun _ => (Tidy.assertProduct _ _ _).retNone)
    (fun s x y rs hs hr hm => ?_) (fun x => ?_) _))
  · obtain ⟨h1, rfl⟩ := check_eq hm
    refine Comp.retNone ((Comp.assertProduct hs.1 hs.2.1 hs.2.2 ?_).mono fun _ _ _ h => h.2.1)
    rw [hr.1, hr.2.1, hr.2.2, h1]
  · refine (Enforces.assertProduct _ _ _).retNone.mono fun os W _ ⟨_, hz, _, h2⟩ y hy => ?_
    subst hz
    rw [hy.1, hy.2.1, hy.2.2] at h2
    exact ⟨_, check_pos h2, .nil⟩

theorem lawful_assertBoolean : (assertBoolean : Op p).Lawful := by
  refine Kind.expr.onAll (Kind.expr.call1 (.pinned (fun _ => (Tidy.assertBoolean _).retBool)
    (fun s x y rs hs hr hm => ?_) (fun x => ?_) _))
  · cases hr
    have key : IsBool (x.eval s.W) ∧ ∃ b, x.eval s.W = Elem.ofBool b ∧ rs = [.bool b] := by
      split at hm
      · rename_i h
        exact ⟨.inl h, false, h.trans Elem.ofBool_false.symm, (Option.some.inj hm).symm⟩
      · split at hm
        · rename_i h
          exact ⟨.inr h, true, h.trans Elem.ofBool_true.symm, (Option.some.inj hm).symm⟩
        · cases hm
    obtain ⟨h1, b, h3, rfl⟩ := key
    refine Comp.retBool ((Comp.assertBoolean hs h1).mono fun z t _ ⟨e1, e2, e3, e4⟩ =>
      ⟨e3, ?_, ?_⟩)
    · subst e1; rw [e2]; exact hs
    · subst e1; rw [e4]; exact h3
  · refine (Enforces.assertBoolean _).retBool.mono fun os W _ ⟨_, z, hz, h2, h3⟩ y hy => ?_
    cases hy
    subst hz h2
    rcases h3 with h | h
    · exact ⟨_, if_pos h, meansAll_one (h.trans Elem.ofBool_false.symm)⟩
    · refine ⟨[.bool true], ?_, meansAll_one (h.trans Elem.ofBool_true.symm)⟩
      rw [h]; simp

theorem lawful_not : (not : Op p).Lawful := by
  have key : ∀ b : Bool, (1 : Elem p) - Elem.ofBool b = Elem.ofBool !b := by
    intro b; cases b <;> simp [Elem.ofBool_true, Elem.ofBool_false]
  refine Kind.bool.onAll (Kind.bool.call1 (.pinned (fun _ => (Tidy.not _).retBool)
    (fun s x y rs hs hr hm => ?_) (fun x => ?_) _))
  · cases hm
    refine Comp.retBool ((Comp.not hs).mono fun z t _ ⟨_, h1, _, h2, h3⟩ => ⟨h1, h2, ?_⟩)
    rw [h3, hr, key]
  · refine (Enforces.not _).retBool.mono fun os W _ ⟨_, z, hz, h2⟩ y hy => ?_
    subst hz
    refine ⟨_, rfl, meansAll_one ?_⟩
    show z.eval W = _
    rw [h2, hy, key]

theorem lawful_and : (and : Op p).Lawful :=
  Kind.bool.onAll (Kind.bool.call2 (logic2 (f := fun x y => x && y) (g := fun x y => x * y)
    (fun _ _ => Tidy.and _ _)
    (by intro a b; cases a <;> cases b <;> simp [Elem.ofBool_true, Elem.ofBool_false])
    (fun s x y hx hy => Comp.and hx hy) (fun x y => Enforces.and x y) _))

theorem lawful_or : (or : Op p).Lawful :=
  Kind.bool.onAll (Kind.bool.call2 (logic2 (f := fun x y => x || y) (g := fun x y => x + y - x * y)
    (fun _ _ => Tidy.or _ _)
    (by intro a b; cases a <;> cases b <;> simp [Elem.ofBool_true, Elem.ofBool_false])
    (fun s x y hx hy => Comp.or hx hy) (fun x y => Enforces.or x y) _))

theorem lawful_xor (h2 : 2 < p) : (xor : Op p).Lawful :=
  Kind.bool.onAll (Kind.bool.call2 (logic2 (f := fun x y => x ^^ y)
    (g := fun x y => x + y - x * y * 2) (fun _ _ => Tidy.xor _ _)
    (by
      intro a b
      cases a <;> cases b <;> simp [Elem.ofBool_true, Elem.ofBool_false]
      ring)
    (fun s x y hx hy => Comp.xor h2 hx hy) (fun x y => Enforces.xor x y) _))

theorem lawful_assertTrue : (assertTrue : Op p).Lawful := by
  have key : ∀ b : Bool, (Elem.ofBool b : Elem p) = 1 ↔ b = true := by
    intro b; cases b <;> simp [Elem.ofBool_true, Elem.ofBool_false]
  refine Kind.bool.onAll (Kind.bool.call1 (.pinned (fun _ => (Tidy.assertTrue _).retNone)
    (fun s x y rs hs hr hm => ?_) (fun x => ?_) _))
  · obtain ⟨h1, rfl⟩ := check_eq hm
    exact Comp.retNone ((Comp.assertTrue hs (by rw [hr, key, h1])).mono fun _ _ _ h => h.2.1)
  · refine (Enforces.assertTrue _).retNone.mono fun os W _ ⟨_, hz, _, h2⟩ y hy => ?_
    subst hz
    rw [hy, key] at h2
    exact ⟨_, check_pos h2, .nil⟩

theorem lawful_assertFalse : (assertFalse : Op p).Lawful := by
  have key : ∀ b : Bool, (Elem.ofBool b : Elem p) = 0 ↔ b = false := by
    intro b; cases b <;> simp [Elem.ofBool_true, Elem.ofBool_false]
  refine Kind.bool.onAll (Kind.bool.call1 (.pinned (fun _ => (Tidy.assertFalse _).retNone)
    (fun s x y rs hs hr hm => ?_) (fun x => ?_) _))
  · obtain ⟨h1, rfl⟩ := check_eq hm
    exact Comp.retNone ((Comp.assertFalse hs (by rw [hr, key, h1])).mono fun _ _ _ h => h.2.1)
  · refine (Enforces.assertFalse _).retNone.mono fun os W _ ⟨_, hz, _, h2⟩ y hy => ?_
    subst hz
    rw [hy, key] at h2
    exact ⟨_, check_pos h2, .nil⟩

theorem lawful_toExpr : (toExpr : Op p).Lawful := by
  have key : ∀ b : Bool, (Elem.ofBool b : Elem p) = if b then 1 else 0 := by
    intro b; cases b <;> simp [Elem.ofBool_true, Elem.ofBool_false]
  refine Kind.bool.onAll (Kind.bool.call1 (.pinned (fun _ => (Tidy.pure _).retExpr)
    (fun s x y rs hs hr hm => ?_) (fun x => ?_) _))
  · cases hm
    exact Comp.retExpr (Comp.pure ⟨rfl, hs, hr.trans (key y)⟩)
  · refine (Enforces.pure (Q := fun z _ => z = x.expression) fun _ _ => rfl).retExpr.mono
      fun os W _ ⟨_, z, hz, h⟩ y hy => ?_
    subst hz h
    exact ⟨_, rfl, meansAll_one (hy.trans (key y))⟩

theorem forall₂_bools {W : Assign p} {xs : List (BooleanExpression p)} {l : List Bool}
    (h : List.Forall₂ (Kind.bool.rel W) xs l) :
    (xs.map fun b => b.eval W) = l.map Elem.ofBool := by
  induction h with
  | nil => rfl
  | cons h _ ih => rw [List.map_cons, List.map_cons, ih, h]

theorem lawful_pack : (pack : Op p).Lawful := by
  refine Kind.bool.onAll (.pinned (fun _ => (Tidy.pure _).retBin)
    (fun s x y rs hs hr hm => ?_) (fun x => ?_) _)
  · cases hm
    exact Comp.retBin (Comp.pure ⟨rfl, hs, forall₂_bools hr⟩)
  · refine (Enforces.pure (Q := fun z _ => z = ⟨x⟩) fun _ _ => rfl).retBin.mono
      fun os W _ ⟨_, z, hz, h⟩ y hy => ?_
    subst hz h
    exact ⟨_, rfl, meansAll_one (forall₂_bools hy)⟩

theorem lawful_unpack : (unpack : Op p).Lawful := by
  refine Kind.bin.onAll (Kind.bin.call1 (.pinned (fun _ => Tidy.pure _)
    (fun s x y rs hs hr hm => ?_) (fun x => ?_) _))
  · cases hm
    exact Comp.pure ⟨rfl, fun o ho => by
      obtain ⟨b, hb, rfl⟩ := List.mem_map.1 ho
      exact hs b hb, meansAll_bools hr⟩
  · exact Enforces.pure fun W _ y hy => ⟨_, rfl, meansAll_bools hy⟩

theorem lawful_select : (select : Op p).Lawful := by
  have key : ∀ (b : Bool) (x y : Elem p), y + Elem.ofBool b * (x - y) = if b then x else y := by
    intro b x y; cases b <;> simp [Elem.ofBool_true, Elem.ofBool_false]
  have hcases : ∀ os : List (Obj p), (∃ c x y, os = [.bool c, .expr x, .expr y]) ∨
      ((select : Op p).run os = B.panic ∧ ∀ W vs, MeansAll W os vs →
        (select : Op p).meaning vs = none) := by
    intro os
    by_cases hc : ∃ c x y, os = [.bool c, .expr x, .expr y]
    · exact .inl hc
    · refine .inr ⟨?_, fun W vs h => ?_⟩
      · have : ∀ c x y, os = [.bool c, .expr x, .expr y] → False :=
          fun c x y h => hc ⟨c, x, y, h⟩
        simp only [run]
      · have : ∀ c x y, vs = [.bool c, .elem x, .elem y] → False := by
          rintro c x y rfl
          cases h with | cons h1 h => cases h with | cons h2 h => cases h with
            | cons h3 h => cases h with | nil =>
            rename_i o1 o2 o3
            cases o1 <;> cases o2 <;> cases o3 <;> first
              | exact hc ⟨_, _, _, rfl⟩ | exact h1 | exact h2 | exact h3
        simp only [meaning]
  have hval : ∀ {W : Assign p} {c x y vs}, MeansAll W [.bool c, .expr x, .expr y] vs →
      ∃ b, c.eval W = Elem.ofBool b ∧ vs = [.bool b, .elem (x.eval W), .elem (y.eval W)] := by
    intro W c x y vs h
    cases h with | cons h1 h => cases h with | cons h2 h => cases h with
      | cons h3 h => cases h with | nil =>
      rename_i v1 v2 v3
      cases v1 <;> cases v2 <;> cases v3 <;> first
        | exact absurd h1 id | exact absurd h2 id | exact absurd h3 id | skip
      rename_i b a a'
      have e2 : x.eval W = a := h2
      have e3 : y.eval W = a' := h3
      subst e2 e3
      exact ⟨b, h1, rfl⟩
  refine .pinned (fun os => ?_) (fun s os vs rs hs hr hm => ?_) (fun os => ?_) _
  · rcases hcases os with ⟨c, x, y, rfl⟩ | ⟨h, _⟩
    · exact (Tidy.selection c x y).retExpr
    · rw [h]; exact Tidy.panic
  · rcases hcases os with ⟨c, x, y, rfl⟩ | ⟨_, h⟩
    · obtain ⟨b, h1, rfl⟩ := hval hr
      cases hm
      refine Comp.retExpr ((Comp.selection (hs (.bool c) (by simp)) (hs (.expr x) (by simp))
        (hs (.expr y) (by simp))).mono fun z t _ ⟨h1', h2, h3⟩ => ⟨h1', h2, ?_⟩)
      rw [h3, h1, key]
    · rw [h _ _ hr] at hm; cases hm
  · rcases hcases os with ⟨c, x, y, rfl⟩ | ⟨h, _⟩
    · refine (Enforces.selection c x y).retExpr.mono fun os W _ ⟨_, z, hz, h⟩ vs hvs => ?_
      subst hz
      obtain ⟨b, h1, rfl⟩ := hval hvs
      refine ⟨_, rfl, meansAll_one ?_⟩
      show z.eval W = _
      rw [h, h1, key]
    · rw [h]; exact Enforces.panic

end Op

end R1CS
