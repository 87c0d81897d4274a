import Verif.Lemmas.Run
import Verif.Lemmas.LanguageLaws

/-!
# What composite gadgets tell

The laws of `LanguageLaws.lean` and `Outcome.lean` speak about one gadget each.  Gadgets which call
others, one after another, get theirs from a calculus: what is known about the operands is kept in a
context, which grows from call to call.
-/

set_option linter.unusedSectionVars false

namespace R1CS

variable {p : ℕ} [hp : Fact p.Prime] {α β γ δ : Type}

open Language

/-- A kind of results and what they stand for. -/
structure Shape (p : ℕ) [Fact p.Prime] (α β : Type) where
  rel : Assign p → α → β → Prop
  within : ℕ → α → Prop
  mono : ∀ {n k a}, n ≤ k → within n a → within k a
  congr : ∀ {n W W' a b}, (∀ i < n, W i = W' i) → within n a → rel W' a b → rel W a b

/-- What is known when a call is made: how many wires there are, and something about their values. -/
structure Ctx (p : ℕ) [Fact p.Prime] where
  n : ℕ
  P : Assign p → Prop
  pos : 1 ≤ n
  stable : ∀ {W W'}, (∀ i < n, W i = W' i) → P W' → P W

namespace Ctx

/-- Later more is known. -/
structure Le (Γ Δ : Ctx p) : Prop where
  n : Γ.n ≤ Δ.n
  P : ∀ W, Δ.P W → Γ.P W

theorem Le.refl (Γ : Ctx p) : Γ.Le Γ := ⟨le_refl _, fun _ h => h⟩
theorem Le.trans {Γ Δ Θ : Ctx p} (h : Γ.Le Δ) (g : Δ.Le Θ) : Γ.Le Θ :=
  ⟨h.n.trans g.n, fun W hW => h.P W (g.P W hW)⟩

end Ctx

/-- The object is known to stand for the value. -/
structure Knows (Γ : Ctx p) (R : Shape p α β) (a : α) (r : β) : Prop where
  within : R.within Γ.n a
  rel : ∀ W, W ONE = 1 → Γ.P W → R.rel W a r

theorem Knows.later {Γ Δ : Ctx p} {R : Shape p α β} {a : α} {r : β} (h : Knows Γ R a r)
    (hl : Γ.Le Δ) : Knows Δ R a r :=
  ⟨R.mono hl.n h.within, fun W h1 hW => h.rel W h1 (hl.P W hW)⟩

/-- The call has the outcome `e`: a panic, or a result and whether the constraints hold. -/
structure Tells (Γ : Ctx p) (m : B p α) (e : Option (β × Bool)) (R : Shape p α β) : Prop where
  tidy : Tidy m
  does : ∀ s : Run p, s.next = Γ.n → Γ.P s.W → ∀ r ok, e = some (r, ok) →
    Does m s fun a t => t.D = s.D ∧ R.within t.next a ∧ R.rel t.W a r ∧
      (t.Holds ↔ s.Holds ∧ ok = true)
  safe : Locally Γ.n m fun _ W => Γ.P W → e.isSome = true

/-- Whatever builder the call runs on, it returns the same and allocates the same. -/
theorem Prog.same_does {m : B p α} (hm : Prog m) {b b1 : Builder p} {a : α}
    (h : m b = some (a, b1)) {s : Run p} (hs : s.b = ⟨b.nextWireIndex, [], []⟩)
    {Q : α → Run p → Prop} (hc : Does m s Q) : ∃ t, Q a t ∧ t.next = b1.nextWireIndex := by
  obtain ⟨a', t, h1, _, h3⟩ := hc
  obtain ⟨cs, gs, _, _, hfr⟩ := hm.frame_append h
  have := hfr [] []
  rw [hs, this] at h1
  obtain ⟨rfl, h4⟩ := Prod.ext_iff.1 (Option.some.inj h1)
  refine ⟨t, h3, ?_⟩
  show t.b.nextWireIndex = _
  rw [← show _ = t.b from h4]

namespace Tells

variable {Γ : Ctx p} {R : Shape p α β} {S : Shape p γ δ}

theorem locally_trivial {m : B p α} {n : ℕ} {Q : α → Assign p → Prop} (h : ∀ a W, Q a W) :
    Locally n m Q :=
  fun _ _ _ _ _ _ _ _ _ _ _ _ _ _ _ _ _ _ _ _ _ _ => h _ _

/-- A call which does not fail. -/
theorem of_comp {m : B p α} (hm : Tidy m) {r : β}
    (h : ∀ s : Hon p, s.next = Γ.n → Γ.P s.W →
      Comp m s fun a t => t.D = s.D ∧ R.within t.next a ∧ R.rel t.W a r) :
    Tells Γ m (some (r, true)) R where
  tidy := hm
  does s hn hP r' ok he := by
    cases he
    refine (Does.lift (X := []) (Q := fun a n W => R.within n a ∧ R.rel W a r) hm.1
      (h (Hon.free s.next s.pos s.W s.one) hn hP)).mono fun a t _ ⟨e1, e2, e3, e4⟩ =>
        ⟨e1, e3, e4, by rw [e2]; simp⟩
  safe := locally_trivial fun _ _ _ => rfl

theorem pure {a : α} {r : β} (h : Knows Γ R a r) :
    Tells Γ (pure a : B p α) (some (r, true)) R :=
  of_comp (Tidy.pure a) fun s hn hP => Comp.pure ⟨rfl, by rw [hn]; exact h.within,
    h.rel _ s.ok.one hP⟩

theorem panic : Tells Γ (B.panic : B p α) none R where
  tidy := Tidy.panic
  does _ _ _ _ _ he := by cases he
  safe := by
    intro γ δ pre k c a z b b1 b2 _ _ _ _ h1
    cases h1

/-- One call after another. -/
theorem bind {m : B p α} {f : α → B p γ} {o : Option β} {e : Option (δ × Bool)}
    (hm : Tells Γ m (o.map fun r => (r, true)) R) (ht : ∀ a, Tidy (f a))
    (hn : o = none → e = none)
    (hf : ∀ r, o = some r → ∀ (Δ : Ctx p) a, Γ.Le Δ → Knows Δ R a r → Tells Δ (f a) e S) :
    Tells Γ (m >>= f) e S := by
  cases ho : o with
  | none =>
    cases hn ho
    refine ⟨hm.tidy.bind ht, fun _ _ _ _ _ he => by (cases he), ?_⟩
    intro γ δ pre k c a z b b1 b2 hpre hk hb hn h1 h3 v v' ok hv1 hv hex hP
    obtain ⟨a', b', e1, e2⟩ := B.bind_run h1
    have hle := (C23_appends (ht a').1 e2).1
    have := hm.safe γ δ pre (fun c a => f a >>= fun d => k c d) c a' z b b' b2 hpre
      (fun c a => (ht a).bind fun d => hk c d) hb hn e1 (by rw [B.bind_eq e2, h3]) v v' ok hv1
      (fun i g1 g2 => hv i g1 (by omega)) hex hP
    rw [ho] at this
    cases this
  | some r =>
    subst ho
    have next : ∀ {a k}, Γ.n ≤ k → R.within k a →
        ∃ Δ : Ctx p, Δ.n = k ∧ Γ.Le Δ ∧ Knows Δ R a r ∧ ∀ W, Γ.P W → R.rel W a r → Δ.P W :=
      fun {a k} hk ha => ⟨⟨k, fun W => Γ.P W ∧ R.rel W a r, Γ.pos.trans hk, fun hW h =>
        ⟨Γ.stable (fun i hi => hW i (lt_of_lt_of_le hi hk)) h.1, R.congr hW ha h.2⟩⟩, rfl,
        ⟨hk, fun _ h => h.1⟩, ⟨ha, fun _ _ h => h.2⟩, fun _ h1 h2 => ⟨h1, h2⟩⟩
    refine ⟨hm.tidy.bind ht, fun s hsn hP r' ok he => ?_, ?_⟩
    · refine (hm.does s hsn hP r true rfl).bind fun a t l ⟨h1, h2, h3, h4⟩ => ?_
      obtain ⟨Δ, d1, d2, d3, d4⟩ := next (k := t.next) (by rw [← hsn]; exact l.1) h2
      refine ((hf r rfl Δ a d2 d3).does t d1.symm (d4 _ (Γ.stable (fun i hi => ?_) hP) h3) r' ok
        he).mono fun z u l' ⟨g1, g2, g3, g4⟩ => ⟨g1.trans h1, g2, g3, ?_⟩
      · exact l.2 i (by rw [hsn]; exact hi)
      · rw [g4, h4]; simp
    · intro γ δ pre k c a z b b1 b2 hpre hk hb hn h1 h3 v v' ok hv1 hv hex hP
      obtain ⟨a', b', e1, e2⟩ := B.bind_run h1
      have hle := (C23_appends (ht a').1 e2).1
      have hle1 := (C23_appends hm.tidy.1 e1).1
      have hval := Locally.of_does hm.tidy (n := Γ.n) (P := Γ.P) (Q := fun a W => R.rel W a r)
        (fun s hsn hP => (hm.does s hsn hP r true rfl).mono fun a t _ ⟨h1, h2, h3, _⟩ =>
          ⟨h1, fun W hW => R.congr hW h2 h3⟩)
        γ δ pre (fun c a => f a >>= fun d => k c d) c a' z b b' b2 hpre
        (fun c a => (ht a).bind fun d => hk c d) hb hn e1 (by rw [B.bind_eq e2, h3]) v v' ok hv1
        (fun i g1 g2 => hv i g1 (by omega)) hex hP
      have hone : v'.total ONE = 1 := by
        have hall : (pre >>= fun c => (m >>= f) >>= fun a => k c a) Builder.new = some (z, b2) := by
          rw [B.bind_eq hb, B.bind_eq h1, h3]
        have := C22_library (hpre.bind fun c => (hm.tidy.bind ht).bind fun a => hk c a) hall hex hv1
        simp [WireValues.total, this]
      obtain ⟨t, ⟨_, h2, _⟩, ht2⟩ := hm.tidy.1.same_does e1
        (s := Run.free b.nextWireIndex (by rw [hn]; exact Γ.pos) v'.total hone) rfl
        (hm.does (Run.free b.nextWireIndex _ v'.total hone) hn hP r true rfl)
      obtain ⟨Δ, d1, d2, d3, d4⟩ := next (k := t.next) (by rw [ht2, ← hn]; exact hle1) h2
      refine (hf r rfl Δ a' d2 d3).safe (γ × α) δ (pre >>= fun c => m >>= fun a => Pure.pure (c, a))
        (fun ca d => k ca.1 d) (c, a') a z b' b1 b2
        (hpre.bind fun c => hm.tidy.bind fun a => Tidy.pure _) (fun ca d => hk ca.1 d)
        (by rw [B.bind_eq hb, B.bind_eq e1]; rfl) (by rw [d1, ht2]) e2 h3 v v' ok hv1
        (fun i g1 g2 => hv i (by rw [d1, ht2] at g1; omega) g2) hex (d4 _ hP hval)

/-- One call after another, if the first does not fail. -/
theorem seq {m : B p α} {f : α → B p γ} {r : β} {e : Option (δ × Bool)}
    (hm : Tells Γ m (some (r, true)) R) (ht : ∀ a, Tidy (f a))
    (hf : ∀ (Δ : Ctx p) a, Γ.Le Δ → Knows Δ R a r → Tells Δ (f a) e S) : Tells Γ (m >>= f) e S :=
  bind (o := some r) hm ht (fun h => by cases h) fun r' h Δ a hl hk => by
    cases h
    exact hf Δ a hl hk

/-- The last call; what follows only repackages the result. -/
theorem map {m : B p α} {f : α → γ} {g : β → δ} {e : Option (β × Bool)} (hm : Tells Γ m e R)
    (hw : ∀ n a, Γ.n ≤ n → R.within n a → S.within n (f a))
    (hr : ∀ W a r, W ONE = 1 → Γ.P W → R.rel W a r → S.rel W (f a) (g r)) :
    Tells Γ (m >>= fun a => Pure.pure (f a)) (e.map fun r => (g r.1, r.2)) S where
  tidy := hm.tidy.bind fun _ => Tidy.pure _
  does s hn hP r ok he := by
    obtain ⟨⟨r0, ok0⟩, h1, h2⟩ := Option.map_eq_some_iff.1 he
    cases h2
    exact (hm.does s hn hP r0 ok0 h1).bind fun a t l ⟨g1, g2, g3, g4⟩ =>
      Does.pure ⟨g1, hw _ _ (by rw [← hn]; exact l.1) g2,
        hr _ _ _ t.one (Γ.stable (fun i hi => l.2 i (by rw [hn]; exact hi)) hP) g3, g4⟩
  safe := by
    intro γ δ pre k c a z b b1 b2 hpre hk hb hn h1 h3 v v' ok hv1 hv hex hP
    obtain ⟨a', b', e1, e2⟩ := B.bind_run h1
    obtain ⟨rfl, rfl⟩ := Prod.ext_iff.1 (Option.some.inj e2)
    rw [Option.isSome_map]
    exact hm.safe γ δ pre (fun c a => k c (f a)) c a' z b b' b2 hpre (fun c a => hk c (f a)) hb hn e1
      h3 v v' ok hv1 hv hex hP

/-- If the context is contradictory, nothing has to be shown. -/
theorem vacuous {m : B p α} {e : Option (β × Bool)} (hm : Tidy m)
    (h : ∀ W, W ONE = 1 → ¬ Γ.P W) : Tells Γ m e R where
  tidy := hm
  does s _ hP := absurd hP (h _ s.one)
  safe := by
    intro γ δ pre k c a z b b1 b2 hpre hk hb hn h1 h3 v v' ok hv1 hv hex hP
    have hall : (pre >>= fun c => m >>= fun a => k c a) Builder.new = some (z, b2) := by
      rw [B.bind_eq hb, B.bind_eq h1, h3]
    have := C22_library (hpre.bind fun c => hm.bind fun a => hk c a) hall hex hv1
    exact absurd hP (h _ (by simp [this]))

theorem ofOption_bind {o : Option α} {a : α} {f : α → B p γ} {e : Option (δ × Bool)}
    (ho : o = some a) (h : Tells Γ (f a) e S) : Tells Γ (B.ofOption o >>= f) e S := by
  have : (B.ofOption o >>= f : B p γ) = f a := by subst ho; rfl
  rw [this]; exact h

/-! ## Consequences -/

theorem comp {m : B p α} {r : β} (hm : Tells Γ m (some (r, true)) R) {s : Hon p} (hn : s.next = Γ.n)
    (hP : Γ.P s.W) : Comp m s fun a t => t.D = s.D ∧ R.within t.next a ∧ R.rel t.W a r := by
  obtain ⟨a, t, h1, h2, h3, h4, h5, h6⟩ := hm.does
    ⟨s.b, s.D, s.W, s.ok.strip, fun c hc => (s.ok.constraints c hc).2⟩ hn hP r true rfl
  have hh := h6.2 ⟨fun c hc => (s.ok.constraints c hc).1, rfl⟩
  exact ⟨a, ⟨t.b, t.D, t.W, ⟨t.ok.one, t.ok.pos, fun c hc => ⟨hh c hc, t.within c hc⟩,
    t.ok.generators⟩⟩, h1, h2, h3, h4, h5⟩

theorem accepted {m : B p α} {e : Option (β × Bool)} (hm : Tells Γ m e R) :
    Accepted Γ.n m fun _ W => Γ.P W → ∃ r, e = some (r, true) := by
  intro γ δ pre k c a z b b1 b2 hpre hk hb hn h1 h3 v v' hv1 hv hex hP
  have hsome := hm.safe γ δ pre k c a z b b1 b2 hpre hk hb hn h1 h3 v v' true hv1 hv hex hP
  obtain ⟨⟨r, ok⟩, he⟩ := Option.isSome_iff_exists.1 hsome
  refine ⟨r, ?_⟩
  have hQ := Locally.of_generators hm.tidy (n := Γ.n) (P := Γ.P)
    (Q := fun a W => ∃ t : Builder p, m ⟨Γ.n, [], []⟩ = some (a, t) ∧
      ((∀ c ∈ t.constraints, c.Holds W) ↔ ok = true))
    (fun hpos W hW1 hW => by
      obtain ⟨a, t, g1, g2, g3, g4, g5, g6⟩ := hm.does (Run.free Γ.n hpos W hW1) rfl hW r ok he
      refine ⟨a, t.b, t.W, g1, ?_, g2.2, fun W' hW' => ⟨t.b, g1, ?_⟩⟩
      · have := t.ok
        rw [g3] at this
        exact this
      · have h6 : t.Holds ↔ ok = true := g6.trans ⟨fun h => h.2, fun h => ⟨Run.free_holds, h⟩⟩
        rw [← h6]
        unfold Run.Holds
        refine forall₂_congr fun c hc => ?_
        obtain ⟨s1, s2, s3⟩ := t.within c hc
        unfold Constraint.Holds
        rw [Expression.eval_congr fun i hi => hW' i (s1 i hi),
          Expression.eval_congr fun i hi => hW' i (s2 i hi),
          Expression.eval_congr fun i hi => hW' i (s3 i hi)])
    γ δ pre k c a z b b1 b2 hpre hk hb hn h1 h3 v v' true hv1 hv hex hP
  obtain ⟨t, ht, hok⟩ := hQ
  obtain ⟨cs, gs, e1, e2, hfr⟩ := hm.tidy.1.frame_append h1
  have h0 := hfr [] []
  rw [hn, ht] at h0
  have hts : t.constraints = cs := by
    have := congrArg Builder.constraints (Prod.ext_iff.1 (Option.some.inj h0)).2
    simpa using this
  have hall : (pre >>= fun c => m >>= fun a => k c a) Builder.new = some (z, b2) := by
    rw [B.bind_eq hb, B.bind_eq h1, h3]
  have hs := Accepted.satisfies (hpre.bind fun c => hm.tidy.bind fun a => hk c a) hall hv1 hex
  have hs1 := ((hk c a).1.enforces _ _ _ h3 _ hs).1
  rw [he, hok.1 fun c hc => hs1.2 c (by rw [e1, ← hts]; simp [hc])]

end Tells

/-! ## Shapes -/

namespace Shape

/-- Expressions. -/
@[reducible] def expr : Shape p (Expression p) (Elem p) where
  rel W e x := e.eval W = x
  within n e := e.Scoped n
  mono h ha := ha.mono h
  congr hW ha h := (Expression.eval_congr fun i hi => hW i (ha i hi)).trans h

/-- Boolean expressions. -/
@[reducible] def bool : Shape p (BooleanExpression p) Bool where
  rel W e x := e.eval W = Elem.ofBool x
  within n e := e.Scoped n
  mono h ha := BooleanExpression.Scoped.mono ha h
  congr hW ha h := Means.congr (o := .bool _) (v := .bool _) hW ha h

/-- Digit strings. -/
@[reducible] def bin : Shape p (BinaryExpression p) (List Bool) where
  rel W e x := (e.bits.map fun b => b.eval W) = x.map Elem.ofBool
  within n e := e.Scoped n
  mono h ha := BinaryExpression.Scoped.mono ha h
  congr hW ha h := Means.congr (o := .bin _) (v := .bits _) hW ha h

/-- Points. -/
@[reducible] def point : Shape p (EdwardsExpression p) (Elem p × Elem p) where
  rel W P v := P.x.eval W = v.1 ∧ P.y.eval W = v.2
  within n P := P.x.Scoped n ∧ P.y.Scoped n
  mono h ha := ⟨ha.1.mono h, ha.2.mono h⟩
  congr hW ha h := ⟨(Expression.eval_congr fun i hi => hW i (ha.1 i hi)).trans h.1,
    (Expression.eval_congr fun i hi => hW i (ha.2 i hi)).trans h.2⟩

/-- Nothing. -/
@[reducible] def unit : Shape p Unit Unit where
  rel _ _ _ := True
  within _ _ := True
  mono _ _ := trivial
  congr _ _ _ := trivial

/-- Objects of any kind. -/
@[reducible] def objs : Shape p (List (Obj p)) (List (Val p)) where
  rel W os vs := MeansAll W os vs
  within n os := ∀ o ∈ os, o.Scoped n
  mono h ha o ho := (ha o ho).mono h
  congr hW ha h := MeansAll.congr hW h ha

end Shape

namespace Knows

variable {Γ : Ctx p} {x y : Expression p} {a b : Elem p}

theorem const (c : Elem p) : Knows Γ .expr (Expression.ofElem c) c :=
  ⟨Expression.Scoped.ofElem Γ.pos c, fun _ h _ => Expression.eval_ofElem h c⟩

theorem one : Knows Γ .expr (1 : Expression p) 1 := const 1

theorem add (hx : Knows Γ .expr x a) (hy : Knows Γ .expr y b) : Knows Γ .expr (x + y) (a + b) :=
  ⟨hx.within.add hy.within, fun W h1 hW => by
    show Expression.eval W (x + y) = _
    rw [Expression.eval_add, hx.rel W h1 hW, hy.rel W h1 hW]⟩

theorem sub (hx : Knows Γ .expr x a) (hy : Knows Γ .expr y b) : Knows Γ .expr (x - y) (a - b) :=
  ⟨hx.within.sub hy.within, fun W h1 hW => by
    show Expression.eval W (x - y) = _
    rw [Expression.eval_sub, hx.rel W h1 hW, hy.rel W h1 hW]⟩

theorem neg (hx : Knows Γ .expr x a) : Knows Γ .expr (-x) (-a) :=
  ⟨hx.within.neg, fun W h1 hW => by
    show Expression.eval W (-x) = _
    rw [Expression.eval_neg, hx.rel W h1 hW]⟩

theorem scale (c : Elem p) (hx : Knows Γ .expr x a) : Knows Γ .expr (x.mulElem c) (a * c) :=
  ⟨hx.within.mulElem c, fun W h1 hW => by
    show Expression.eval W (x.mulElem c) = _
    rw [Expression.eval_mulElem, hx.rel W h1 hW]⟩

/-- A value of which the context is sure. -/
theorem eval {s : Hon p} (hx : Knows Γ .expr x a) (hP : Γ.P s.W) : x.eval s.W = a :=
  hx.rel _ s.ok.one hP

end Knows

namespace Tells

variable {Γ : Ctx p} {x y : Expression p} {a b : Elem p}

theorem product (hx : Knows Γ .expr x a) (hy : Knows Γ .expr y b) :
    Tells Γ (B.product x y) (some (a * b, true)) .expr :=
  of_comp (Tidy.product x y) fun s hn hP => by
    refine (Comp.product (by rw [hn]; exact hx.within) (by rw [hn]; exact hy.within)).mono
      fun z t _ ⟨h1, h2, h3⟩ => ⟨h1, h2, ?_⟩
    rw [hx.eval hP, hy.eval hP] at h3
    exact h3

theorem selection {c : BooleanExpression p} {d : Bool} (hc : Knows Γ .bool c d)
    (hx : Knows Γ .expr x a) (hy : Knows Γ .expr y b) :
    Tells Γ (B.selection c x y) (some (if d then a else b, true)) .expr :=
  of_comp (Tidy.selection c x y) fun s hn hP => by
    refine (Comp.selection (by rw [hn]; exact hc.within) (by rw [hn]; exact hx.within)
      (by rw [hn]; exact hy.within)).mono fun z t _ ⟨h1, h2, h3⟩ => ⟨h1, h2, ?_⟩
    have hcv : c.eval s.W = Elem.ofBool d := hc.rel _ s.ok.one hP
    rw [hx.eval hP, hy.eval hP, hcv] at h3
    show z.eval t.W = _
    rw [h3]
    cases d <;> simp [Elem.ofBool_true, Elem.ofBool_false]

theorem quotientUnsafe (h2 : 2 < p) (hx : Knows Γ .expr x a) (hy : Knows Γ .expr y b) :
    Tells Γ (B.quotientUnsafe x y) ((if b = 0 then none else some (a / b)).map fun r => (r, true))
      .expr := by
  by_cases hb : b = 0
  · rw [if_pos hb]
    refine ⟨Tidy.quotientUnsafe x y, fun _ _ _ _ _ he => by (cases he), ?_⟩
    intro γ δ pre k c a z b b1 b2 hpre hk hbn hn h1 h3 v v' ok hv1 hv hex hP
    have hone : v'.total ONE = 1 := by
      have hall : (pre >>= fun c => B.quotientUnsafe x y >>= fun a => k c a) Builder.new
          = some (z, b2) := by
        rw [B.bind_eq hbn, B.bind_eq h1, h3]
      have := C22_library (hpre.bind fun c => (Tidy.quotientUnsafe x y).bind fun a => hk c a) hall
        hex hv1
      simp [WireValues.total, this]
    exact absurd ((hy.rel _ hone hP).trans hb) ((C85_division h2 hx.within hy.within).2.2 γ δ pre k c
      a z _ b1 b2 hpre hk hbn hn h1 h3 v v' ok hv1 hv hex).1
  · rw [if_neg hb]
    refine of_comp (Tidy.quotientUnsafe x y) fun s hn hP => ?_
    refine (Comp.quotientUnsafe h2 (by rw [hn]; exact hx.within) (by rw [hn]; exact hy.within)
      (by rw [hy.eval hP]; exact hb)).mono fun z t _ ⟨h1, h2, h3⟩ => ⟨h1, h2, ?_⟩
    rw [hx.eval hP, hy.eval hP] at h3
    exact h3

theorem assertEqual (hx : Knows Γ .expr x a) (hy : Knows Γ .expr y b) :
    Tells Γ (B.assertEqual x y) (some ((), decide (a = b))) .unit where
  tidy := Tidy.assertEqual x y
  does s hn hP r ok he := by
    cases he
    refine (Does.assertEqual (by rw [hn]; exact hx.within) (by rw [hn]; exact hy.within)).mono
      fun _ t _ ⟨_, h2, h3, h4⟩ => ⟨h2, trivial, trivial, ?_⟩
    rw [h4, hx.rel _ s.one hP, hy.rel _ s.one hP, decide_eq_true_iff]
  safe := locally_trivial fun _ _ _ => rfl

end Tells

end R1CS
