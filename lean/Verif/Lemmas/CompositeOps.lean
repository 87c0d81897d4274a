import Verif.Lemmas.Composites

/-!
# Laws of the gadgets for curves, signatures and Merkle paths
-/

set_option linter.unusedSectionVars false

namespace R1CS

variable {p : ℕ} [hp : Fact p.Prime] {X Y α β γ : Type}

open Language Edwards

/-! ## From `Tells` to the laws -/

/-- Whatever is known about the operands, the call tells the outcome. -/
structure Told (r : List (Obj p) → B p (List (Obj p)))
    (e : List (Val p) → Option (List (Val p) × Bool)) : Prop where
  tidy : ∀ os, Tidy (r os)
  tells : ∀ (Γ : Ctx p) os vs, Knows Γ .objs os vs → Tells Γ (r os) (e vs) .objs

/-- The operands have the values. -/
@[reducible] def Ctx.operands (n : ℕ) (hn : 1 ≤ n) (os : List (Obj p)) (vs : List (Val p))
    (hs : ∀ o ∈ os, o.Scoped n) : Ctx p where
  n := n
  P W := MeansAll W os vs
  pos := hn
  stable h hW := MeansAll.congr h hW hs

theorem Ctx.knows_operands {n : ℕ} (hn : 1 ≤ n) {os : List (Obj p)} {vs : List (Val p)}
    (hs : ∀ o ∈ os, o.Scoped n) : Knows (Ctx.operands n hn os vs hs) .objs os vs :=
  ⟨hs, fun _ _ h => h⟩

namespace Told

variable {r : List (Obj p) → B p (List (Obj p))} {e : List (Val p) → Option (List (Val p) × Bool)}

theorem comp (h : Told r e) {s : Hon p} {os vs rs} (hs : ∀ o ∈ os, Obj.Scoped s.next o)
    (hm : MeansAll s.W os vs) (he : e vs = some (rs, true)) : Comp (r os) s (Yields s rs) := by
  have := h.tells _ os vs (Ctx.knows_operands s.pos hs)
  rw [he] at this
  exact this.comp rfl hm

theorem checks (h : Told r e) {n : ℕ} {os} (hs : ∀ o ∈ os, Obj.Scoped n o) :
    Accepted n (r os) fun _ W => ∀ vs, MeansAll W os vs → ∃ rs, e vs = some (rs, true) := by
  intro γ δ pre k c a z b b1 b2 hpre hk hb hn h1 h3 v v' hv1 hv hex vs hm
  have hpos : 1 ≤ n := hn ▸ (C23_appends hpre.1 hb).1
  exact (h.tells _ os vs (Ctx.knows_operands hpos hs)).accepted γ δ pre k c a z b b1 b2 hpre hk hb hn h1 h3
    v v' hv1 hv hex hm

theorem safe (h : Told r e) {n : ℕ} {os} (hs : ∀ o ∈ os, Obj.Scoped n o) :
    Locally n (r os) fun _ W => ∀ vs, MeansAll W os vs → (e vs).isSome = true := by
  intro γ δ pre k c a z b b1 b2 hpre hk hb hn h1 h3 v v' ok hv1 hv hex vs hm
  have hpos : 1 ≤ n := hn ▸ (C23_appends hpre.1 hb).1
  exact (h.tells _ os vs (Ctx.knows_operands hpos hs)).safe γ δ pre k c a z b b1 b2 hpre hk hb hn h1 h3
    v v' ok hv1 hv hex hm

theorem does (h : Told r e) {s : Run p} {os vs rs ok} (hs : ∀ o ∈ os, Obj.Scoped s.next o)
    (hm : MeansAll s.W os vs) (he : e vs = some (rs, ok)) :
    Does (r os) s fun os' t => t.D = s.D ∧ (∀ o ∈ os', o.Scoped t.next) ∧ MeansAll t.W os' rs ∧
      (t.Holds ↔ s.Holds ∧ ok = true) :=
  (h.tells _ os vs (Ctx.knows_operands s.pos hs)).does s rfl hm rs ok he

/-- The laws of a gadget. -/
theorem law {m : List (Val p) → Option (List (Val p))} {pin : Bool} (h : Told r e)
    (hm : ∀ vs rs, m vs = some rs ↔ e vs = some (rs, true))
    (hp : pin = true → ∀ os, Enforces (r os) fun os' W => ∀ vs, MeansAll W os vs →
      ∃ rs, m vs = some rs ∧ MeansAll W os' rs) : OpLaw r m pin where
  tidy := h.tidy
  comp s os vs rs hs hr he := h.comp hs hr ((hm vs rs).1 he)
  pins := hp
  checks n os hs := (h.checks hs).mono fun _ W hW vs hvs => by
    obtain ⟨rs, hrs⟩ := hW vs hvs
    rw [(hm vs rs).2 hrs]
    rfl

/-- Either the context is contradictory, or the objects and the values are of the same kinds. -/
theorem cases (ht : ∀ os, Tidy (r os))
    (h : ∀ (Γ : Ctx p) os vs W, Knows Γ .objs os vs → MeansAll W os vs →
      Tells Γ (r os) (e vs) .objs) : Told r e := by
  refine ⟨ht, fun Γ os vs hk => ?_⟩
  by_cases hne : ∃ W, W ONE = 1 ∧ Γ.P W
  · obtain ⟨W, g1, g2⟩ := hne
    exact h Γ os vs W hk (hk.rel W g1 g2)
  · exact Tells.vacuous (ht os) fun W g1 g2 => hne ⟨W, g1, g2⟩

end Told

namespace Knows

variable {Γ : Ctx p} {os : List (Obj p)} {vs : List (Val p)}

theorem head_expr {x : Expression p} {a : Elem p}
    (h : Knows Γ .objs (.expr x :: os) (.elem a :: vs)) : Knows Γ .expr x a :=
  ⟨h.within (.expr x) (by simp), fun W h1 hW => by
    cases h.rel W h1 hW with | cons h _ => exact h⟩

theorem head_bool {x : BooleanExpression p} {a : Bool}
    (h : Knows Γ .objs (.bool x :: os) (.bool a :: vs)) : Knows Γ .bool x a :=
  ⟨h.within (.bool x) (by simp), fun W h1 hW => by
    cases h.rel W h1 hW with | cons h _ => exact h⟩

theorem head_bin {x : BinaryExpression p} {a : List Bool}
    (h : Knows Γ .objs (.bin x :: os) (.bits a :: vs)) : Knows Γ .bin x a :=
  ⟨h.within (.bin x) (by simp), fun W h1 hW => by
    cases h.rel W h1 hW with | cons h _ => exact h⟩

theorem tail {o : Obj p} {v : Val p} (h : Knows Γ .objs (o :: os) (v :: vs)) :
    Knows Γ .objs os vs :=
  ⟨fun o ho => h.within o (by simp [ho]), fun W h1 hW => by
    cases h.rel W h1 hW with | cons _ h => exact h⟩

/-- Operands which should be expressions. -/
theorem exprs {W : Assign p} (hW : MeansAll W os vs) (h : Knows Γ .objs os vs) :
    (∃ xs ys, os.mapM expr? = some xs ∧ vs.mapM elem? = some ys ∧
      List.Forall₂ (Knows Γ .expr) xs ys) ∨ (os.mapM expr? = none ∧ vs.mapM elem? = none) := by
  unfold MeansAll at hW
  induction hW with
  | nil => exact .inl ⟨[], [], rfl, rfl, .nil⟩
  | @cons o v os vs h1 _ ih =>
    rw [List.mapM_cons, List.mapM_cons]
    match o, v, h1 with
    | .expr x, .elem a, _ =>
      rcases ih h.tail with ⟨as, bs, e4, e5, e6⟩ | ⟨e4, e5⟩
      · exact .inl ⟨x :: as, a :: bs, by rw [e4]; rfl, by rw [e5]; rfl, .cons h.head_expr e6⟩
      · exact .inr ⟨by rw [e4]; rfl, by rw [e5]; rfl⟩
    | .bool _, .bool _, _ => exact .inr ⟨rfl, rfl⟩
    | .bin _, .bits _, _ => exact .inr ⟨rfl, rfl⟩

end Knows

namespace Tells

variable {Γ : Ctx p}

theorem onAll {F : List (Expression p) → B p (List (Obj p))}
    {G : List (Elem p) → Option (List (Val p) × Bool)} {os : List (Obj p)} {vs : List (Val p)}
    {W : Assign p} (hW : MeansAll W os vs) (h : Knows Γ .objs os vs)
    (hF : ∀ xs ys, List.Forall₂ (Knows Γ .expr) xs ys → Tells Γ (F xs) (G ys) .objs) :
    Tells Γ (Language.onAll expr? F os) (vs.mapM elem? >>= G) .objs := by
  unfold Language.onAll
  rcases Knows.exprs hW h with ⟨xs, ys, e1, e2, e3⟩ | ⟨e1, e2⟩
  · rw [e1, e2]
    exact ofOption_bind rfl (hF xs ys e3)
  · rw [e1, e2]
    exact panic

variable {g : γ → List (Val p) × Bool}

theorem call2 {F : Expression p → Expression p → B p (List (Obj p))}
    {G : Elem p → Elem p → Option γ} {xs ys}
    (h : ∀ x y a b, Knows Γ .expr x a → Knows Γ .expr y b →
      Tells Γ (F x y) ((G a b).map g) .objs) (hk : List.Forall₂ (Knows Γ .expr) xs ys) :
    Tells Γ (Language.call2 F xs) ((fun2 G ys).map g) .objs := by
  match xs, ys, hk with
  | [x, y], [a, b], .cons e (.cons e' .nil) => exact h x y a b e e'
  | [], [], _ => exact panic
  | [_], [_], _ => exact panic
  | _ :: _ :: _ :: _, _ :: _ :: _ :: _, _ => exact panic

theorem call3 {F : Expression p → Expression p → Expression p → B p (List (Obj p))}
    {G : Elem p → Elem p → Elem p → Option γ} {xs ys}
    (h : ∀ x y z a b c, Knows Γ .expr x a → Knows Γ .expr y b → Knows Γ .expr z c →
      Tells Γ (F x y z) ((G a b c).map g) .objs) (hk : List.Forall₂ (Knows Γ .expr) xs ys) :
    Tells Γ (Language.call3 F xs) ((fun3 G ys).map g) .objs := by
  match xs, ys, hk with
  | [x, y, z], [a, b, c], .cons e (.cons e' (.cons e'' .nil)) => exact h x y z a b c e e' e''
  | [], [], _ => exact panic
  | [_], [_], _ => exact panic
  | [_, _], [_, _], _ => exact panic
  | _ :: _ :: _ :: _ :: _, _ :: _ :: _ :: _ :: _, _ => exact panic

theorem call4 {F : Expression p → Expression p → Expression p → Expression p → B p (List (Obj p))}
    {G : Elem p → Elem p → Elem p → Elem p → Option γ} {xs ys}
    (h : ∀ x y z t a b c d, Knows Γ .expr x a → Knows Γ .expr y b → Knows Γ .expr z c →
      Knows Γ .expr t d → Tells Γ (F x y z t) ((G a b c d).map g) .objs)
    (hk : List.Forall₂ (Knows Γ .expr) xs ys) :
    Tells Γ (Language.call4 F xs) ((fun4 G ys).map g) .objs := by
  match xs, ys, hk with
  | [x, y, z, t], [a, b, c, d], .cons e1 (.cons e2 (.cons e3 (.cons e4 .nil))) =>
    exact h x y z t a b c d e1 e2 e3 e4
  | [], [], _ => exact panic
  | [_], [_], _ => exact panic
  | [_, _], [_, _], _ => exact panic
  | [_, _, _], [_, _, _], _ => exact panic
  | _ :: _ :: _ :: _ :: _ :: _, _ :: _ :: _ :: _ :: _ :: _, _ => exact panic

theorem call5 {F : Expression p → Expression p → Expression p → Expression p → Expression p →
      B p (List (Obj p))} {G : Elem p → Elem p → Elem p → Elem p → Elem p → Option γ} {xs ys}
    (h : ∀ x y z t u a b c d e, Knows Γ .expr x a → Knows Γ .expr y b → Knows Γ .expr z c →
      Knows Γ .expr t d → Knows Γ .expr u e → Tells Γ (F x y z t u) ((G a b c d e).map g) .objs)
    (hk : List.Forall₂ (Knows Γ .expr) xs ys) :
    Tells Γ (Language.call5 F xs) ((fun5 G ys).map g) .objs := by
  match xs, ys, hk with
  | [x, y, z, t, u], [a, b, c, d, e], .cons e1 (.cons e2 (.cons e3 (.cons e4 (.cons e5 .nil)))) =>
    exact h x y z t u a b c d e e1 e2 e3 e4 e5
  | [], [], _ => exact panic
  | [_], [_], _ => exact panic
  | [_, _], [_, _], _ => exact panic
  | [_, _, _], [_, _, _], _ => exact panic
  | [_, _, _, _], [_, _, _, _], _ => exact panic
  | _ :: _ :: _ :: _ :: _ :: _ :: _, _ :: _ :: _ :: _ :: _ :: _ :: _, _ => exact panic

theorem callPointBool {F : Expression p → Expression p → BooleanExpression p → B p (List (Obj p))}
    {G : Elem p → Elem p → Bool → Option γ} {os : List (Obj p)} {vs : List (Val p)}
    {W : Assign p} (hW : MeansAll W os vs) (hk : Knows Γ .objs os vs)
    (h : ∀ x y z a b c, Knows Γ .expr x a → Knows Γ .expr y b → Knows Γ .bool z c →
      Tells Γ (F x y z) ((G a b c).map g) .objs) :
    Tells Γ (Language.callPointBool F os) ((funPointBool G vs).map g) .objs := by
  by_cases hc : ∃ x y b, os = [.expr x, .expr y, .bool b]
  · obtain ⟨x, y, b, rfl⟩ := hc
    match vs, hW with
    | [.elem a, .elem a', .bool c], _ =>
      exact h x y b a a' c hk.head_expr hk.tail.head_expr hk.tail.tail.head_bool
    | [.bits _, _, _], .cons h _ => cases h
    | [.bool _, _, _], .cons h _ => cases h
    | [_, .bool _, _], .cons _ (.cons h _) => cases h
    | [_, .bits _, _], .cons _ (.cons h _) => cases h
    | [_, _, .elem _], .cons _ (.cons _ (.cons h _)) => cases h
    | [_, _, .bits _], .cons _ (.cons _ (.cons h _)) => cases h
  · have h1 : Language.callPointBool F os = B.panic := by
      unfold Language.callPointBool
      split
      · exact absurd ⟨_, _, _, rfl⟩ hc
      · rfl
    have h2 : funPointBool G vs = none := by
      unfold funPointBool
      split
      · match os, hW with
        | [.expr _, .expr _, .bool _], _ => exact absurd ⟨_, _, _, rfl⟩ hc
        | [.bin _, _, _], .cons h _ => cases h
        | [.bool _, _, _], .cons h _ => cases h
        | [_, .bool _, _], .cons _ (.cons h _) => cases h
        | [_, .bin _, _], .cons _ (.cons h _) => cases h
        | [_, _, .expr _], .cons _ (.cons _ (.cons h _)) => cases h
        | [_, _, .bin _], .cons _ (.cons _ (.cons h _)) => cases h
      · rfl
    rw [h1, h2]
    exact panic

theorem callPath {F : Expression p → BinaryExpression p → List (Expression p) → B p (List (Obj p))}
    {G : Elem p → List Bool → List (Elem p) → Option γ} {os : List (Obj p)} {vs : List (Val p)}
    {W : Assign p} (hW : MeansAll W os vs) (hk : Knows Γ .objs os vs)
    (h : ∀ x l xs a c ys, (l.bits.map fun b => b.eval W) = c.map Elem.ofBool → Knows Γ .expr x a →
      Knows Γ .bin l c → List.Forall₂ (Knows Γ .expr) xs ys →
      Tells Γ (F x l xs) ((G a c ys).map g) .objs) :
    Tells Γ (Language.callPath F os) ((funPath G vs).map g) .objs := by
  by_cases hc : ∃ x l os', os = .expr x :: .bin l :: os'
  · obtain ⟨x, l, os, rfl⟩ := hc
    match vs, hW with
    | .elem a :: .bits c :: vs, .cons _ (.cons hl hW) =>
      refine (onAll (G := fun ys => (G a c ys).map g) hW hk.tail.tail fun xs ys hh =>
        h x l xs a c ys hl hk.head_expr hk.tail.head_bin hh).of_eq ?_
      show _ = Option.map g (vs.mapM elem? >>= G a c)
      cases vs.mapM elem? <;> rfl
    | .bits _ :: _ :: _, .cons h _ => cases h
    | .bool _ :: _ :: _, .cons h _ => cases h
    | _ :: .bool _ :: _, .cons _ (.cons h _) => cases h
    | _ :: .elem _ :: _, .cons _ (.cons h _) => cases h
  · have h1 : Language.callPath F os = B.panic := by
      unfold Language.callPath
      split
      · exact absurd ⟨_, _, _, rfl⟩ hc
      · rfl
    have h2 : funPath G vs = none := by
      unfold funPath
      split
      · match os, hW with
        | .expr _ :: .bin _ :: _, _ => exact absurd ⟨_, _, _, rfl⟩ hc
        | .bin _ :: _ :: _, .cons h _ => cases h
        | .bool _ :: _ :: _, .cons h _ => cases h
        | _ :: .bool _ :: _, .cons _ (.cons h _) => cases h
        | _ :: .expr _ :: _, .cons _ (.cons h _) => cases h
      · rfl
    rw [h1, h2]
    exact panic

theorem callPath2 {F : Expression p → Expression p → BinaryExpression p → List (Expression p) →
      B p (List (Obj p))} {G : Elem p → Elem p → List Bool → List (Elem p) → Option γ}
    {os : List (Obj p)} {vs : List (Val p)}
    {W : Assign p} (hW : MeansAll W os vs) (hk : Knows Γ .objs os vs)
    (h : ∀ x y l xs a b c ys, (l.bits.map fun b => b.eval W) = c.map Elem.ofBool →
      Knows Γ .expr x a → Knows Γ .expr y b →
      Knows Γ .bin l c → List.Forall₂ (Knows Γ .expr) xs ys →
      Tells Γ (F x y l xs) ((G a b c ys).map g) .objs) :
    Tells Γ (Language.callPath2 F os) ((funPath2 G vs).map g) .objs := by
  by_cases hc : ∃ x y l os', os = .expr x :: .expr y :: .bin l :: os'
  · obtain ⟨x, y, l, os, rfl⟩ := hc
    match vs, hW with
    | .elem a :: .elem b :: .bits c :: vs, .cons _ (.cons _ (.cons hl hW)) =>
      refine (onAll (G := fun ys => (G a b c ys).map g) hW hk.tail.tail.tail fun xs ys hh =>
        h x y l xs a b c ys hl hk.head_expr hk.tail.head_expr hk.tail.tail.head_bin hh).of_eq ?_
      show _ = Option.map g (vs.mapM elem? >>= G a b c)
      cases vs.mapM elem? <;> rfl
    | .bits _ :: _ :: _ :: _, .cons h _ => cases h
    | .bool _ :: _ :: _ :: _, .cons h _ => cases h
    | _ :: .bool _ :: _ :: _, .cons _ (.cons h _) => cases h
    | _ :: .bits _ :: _ :: _, .cons _ (.cons h _) => cases h
    | _ :: _ :: .bool _ :: _, .cons _ (.cons _ (.cons h _)) => cases h
    | _ :: _ :: .elem _ :: _, .cons _ (.cons _ (.cons h _)) => cases h
  · have h1 : Language.callPath2 F os = B.panic := by
      unfold Language.callPath2
      split
      · exact absurd ⟨_, _, _, _, rfl⟩ hc
      · rfl
    have h2 : funPath2 G vs = none := by
      unfold funPath2
      split
      · match os, hW with
        | .expr _ :: .expr _ :: .bin _ :: _, _ => exact absurd ⟨_, _, _, _, rfl⟩ hc
        | .bin _ :: _ :: _ :: _, .cons h _ => cases h
        | .bool _ :: _ :: _ :: _, .cons h _ => cases h
        | _ :: .bool _ :: _ :: _, .cons _ (.cons h _) => cases h
        | _ :: .bin _ :: _ :: _, .cons _ (.cons h _) => cases h
        | _ :: _ :: .bool _ :: _, .cons _ (.cons _ (.cons h _)) => cases h
        | _ :: _ :: .expr _ :: _, .cons _ (.cons _ (.cons h _)) => cases h
      · rfl
    rw [h1, h2]
    exact panic

theorem retPoint {m : B p (EdwardsExpression p)} {e : Option ((Elem p × Elem p) × Bool)}
    (h : Tells Γ m e .point) :
    Tells Γ (Language.retPoint m) (e.map fun r => ([.elem r.1.1, .elem r.1.2], r.2)) .objs :=
  map (S := .objs) (f := fun P : EdwardsExpression p => [.expr P.x, .expr P.y])
    (g := fun v : Elem p × Elem p => [.elem v.1, .elem v.2]) h
    (fun n P _ hP => by simpa [Obj.Scoped] using hP)
    (fun W P v _ _ h => List.Forall₂.cons (show Means W (.expr P.x) (.elem v.1) from h.1)
      (.cons (show Means W (.expr P.y) (.elem v.2) from h.2) .nil))

theorem retExpr {m : B p (Expression p)} {e : Option (Elem p × Bool)} (h : Tells Γ m e .expr) :
    Tells Γ (Language.retExpr m) (e.map fun r => ([.elem r.1], r.2)) .objs :=
  map (S := .objs) (f := fun x => [.expr x]) (g := fun v => [.elem v]) h
    (fun n P _ hP => by simpa [Obj.Scoped] using hP) (fun W P v _ _ h => .cons h .nil)

theorem retNone {m : B p Unit} {e : Option (Unit × Bool)} (h : Tells Γ m e .unit) :
    Tells Γ (Language.retNone m) (e.map fun r => ([], r.2)) .objs :=
  map (S := .objs) (f := fun _ => []) (g := fun _ => []) h (fun n P _ hP => by simp)
    (fun W P v _ _ h => .nil)

end Tells

theorem Tidy.retPoint {m : B p (EdwardsExpression p)} (h : Tidy m) : Tidy (Language.retPoint m) :=
  h.bind fun _ => Tidy.pure _

theorem Tidy.onAll {kind : Obj p → Option α} {f : List α → B p β} {os : List (Obj p)}
    (h : ∀ as, Tidy (f as)) : Tidy (Language.onAll kind f os) :=
  (Tidy.ofOption _).bind fun as => h as

theorem Tidy.call2 {f : α → α → B p β} (h : ∀ x y, Tidy (f x y)) : ∀ as, Tidy (Language.call2 f as)
  | [x, y] => h x y
  | [] => Tidy.panic
  | [_] => Tidy.panic
  | _ :: _ :: _ :: _ => Tidy.panic

theorem Tidy.call3 {f : α → α → α → B p β} (h : ∀ x y z, Tidy (f x y z)) :
    ∀ as, Tidy (Language.call3 f as)
  | [x, y, z] => h x y z
  | [] => Tidy.panic
  | [_] => Tidy.panic
  | [_, _] => Tidy.panic
  | _ :: _ :: _ :: _ :: _ => Tidy.panic

theorem Tidy.call4 {f : α → α → α → α → B p β} (h : ∀ x y z t, Tidy (f x y z t)) :
    ∀ as, Tidy (Language.call4 f as)
  | [x, y, z, t] => h x y z t
  | [] => Tidy.panic
  | [_] => Tidy.panic
  | [_, _] => Tidy.panic
  | [_, _, _] => Tidy.panic
  | _ :: _ :: _ :: _ :: _ :: _ => Tidy.panic

theorem Tidy.call5 {f : α → α → α → α → α → B p β} (h : ∀ x y z t u, Tidy (f x y z t u)) :
    ∀ as, Tidy (Language.call5 f as)
  | [x, y, z, t, u] => h x y z t u
  | [] => Tidy.panic
  | [_] => Tidy.panic
  | [_, _] => Tidy.panic
  | [_, _, _] => Tidy.panic
  | [_, _, _, _] => Tidy.panic
  | _ :: _ :: _ :: _ :: _ :: _ :: _ => Tidy.panic

theorem Tidy.callPointBool {f : Expression p → Expression p → BooleanExpression p → B p β}
    (h : ∀ x y z, Tidy (f x y z)) {os} : Tidy (Language.callPointBool f os) := by
  unfold Language.callPointBool
  split
  · exact h _ _ _
  · exact Tidy.panic

theorem Tidy.callPath {f : Expression p → BinaryExpression p → List (Expression p) → B p β}
    (h : ∀ x y z, Tidy (f x y z)) {os} : Tidy (Language.callPath f os) := by
  unfold Language.callPath
  split
  · exact Tidy.onAll fun _ => h _ _ _
  · exact Tidy.panic

theorem Tidy.callPath2 {f : Expression p → Expression p → BinaryExpression p →
    List (Expression p) → B p β} (h : ∀ x y z t, Tidy (f x y z t)) {os} :
    Tidy (Language.callPath2 f os) := by
  unfold Language.callPath2
  split
  · exact Tidy.onAll fun _ => h _ _ _ _
  · exact Tidy.panic

namespace Op

theorem meaning_iff (o : Op p) (vs rs : List (Val p)) :
    o.meaning vs = some rs ↔ o.outcome vs = some (rs, true) := by
  have hj : ∀ {c : Prop} [Decidable c], check (p := p) c = some rs ↔ judge c = some (rs, true) := by
    intro c _
    unfold check judge
    by_cases h : c <;> simp [h, eq_comm]
  have h1 : ∀ {α : Type} {l : List α} {f : α → Option (List (Val p))}
      {g : α → Option (List (Val p) × Bool)}, (∀ x, f x = some rs ↔ g x = some (rs, true)) →
      (fun1 f l = some rs ↔ fun1 g l = some (rs, true)) := by
    intro α l f g h
    match l with
    | [x] => exact h x
    | [] => simp [fun1]
    | _ :: _ :: _ => simp [fun1]
  have h2 : ∀ {α : Type} {l : List α} {f : α → α → Option (List (Val p))}
      {g : α → α → Option (List (Val p) × Bool)}, (∀ x y, f x y = some rs ↔ g x y = some (rs, true)) →
      (fun2 f l = some rs ↔ fun2 g l = some (rs, true)) := by
    intro α l f g h
    match l with
    | [x, y] => exact h x y
    | [] => simp [fun2]
    | [_] => simp [fun2]
    | _ :: _ :: _ :: _ => simp [fun2]
  have h3 : ∀ {α : Type} {l : List α} {f : α → α → α → Option (List (Val p))}
      {g : α → α → α → Option (List (Val p) × Bool)},
      (∀ x y z, f x y z = some rs ↔ g x y z = some (rs, true)) →
      (fun3 f l = some rs ↔ fun3 g l = some (rs, true)) := by
    intro α l f g h
    match l with
    | [x, y, z] => exact h x y z
    | [] => simp [fun3]
    | [_] => simp [fun3]
    | [_, _] => simp [fun3]
    | _ :: _ :: _ :: _ :: _ => simp [fun3]
  have h5 : ∀ {α : Type} {l : List α} {f : α → α → α → α → α → Option (List (Val p))}
      {g : α → α → α → α → α → Option (List (Val p) × Bool)},
      (∀ x y z t u, f x y z t u = some rs ↔ g x y z t u = some (rs, true)) →
      (fun5 f l = some rs ↔ fun5 g l = some (rs, true)) := by
    intro α l f g h
    match l with
    | [x, y, z, t, u] => exact h x y z t u
    | [] => simp [fun5]
    | [_] => simp [fun5]
    | [_, _] => simp [fun5]
    | [_, _, _] => simp [fun5]
    | [_, _, _, _] => simp [fun5]
    | _ :: _ :: _ :: _ :: _ :: _ :: _ => simp [fun5]
  have hb : ∀ {α : Type} {m : Option α} {f : α → Option (List (Val p))}
      {g : α → Option (List (Val p) × Bool)}, (∀ x, f x = some rs ↔ g x = some (rs, true)) →
      ((m >>= f) = some rs ↔ (m >>= g) = some (rs, true)) := by
    intro α m f g h
    cases m with
    | none => simp
    | some x => exact h x
  have hp : ∀ {f : Elem p → Elem p → List Bool → List (Elem p) → Option (List (Val p))}
      {g : Elem p → Elem p → List Bool → List (Elem p) → Option (List (Val p) × Bool)},
      (∀ x y l xs, f x y l xs = some rs ↔ g x y l xs = some (rs, true)) →
      (funPath2 f vs = some rs ↔ funPath2 g vs = some (rs, true)) := by
    intro f g h
    unfold funPath2
    split
    · exact hb fun xs => h _ _ _ xs
    · simp
  have hd : o.meaning vs = some rs ↔ ((o.meaning vs).map fun rs => (rs, true)) = some (rs, true) := by
    cases o.meaning vs <;> simp
  cases o with
  | assertEqual => exact hb fun _ => h2 fun _ _ => hj
  | assertZero => exact hb fun _ => h1 fun _ => hj
  | assertProduct => exact hb fun _ => h3 fun _ _ _ => hj
  | assertTrue => exact hb fun _ => h1 fun _ => hj
  | assertFalse => exact hb fun _ => h1 fun _ => hj
  | assertLt => exact hb fun _ => h2 fun _ _ => hj
  | assertLe => exact hb fun _ => h2 fun _ _ => hj
  | assertGt => exact hb fun _ => h2 fun _ _ => hj
  | assertGe => exact hb fun _ => h2 fun _ _ => hj
  | assertCmpBinary r =>
    refine hb fun _ => h2 fun l k => ?_
    unfold check
    by_cases h : Comparable (Elem.maxBits p) l k <;> by_cases h' : r.holds (natOf l) (natOf k) = true
      <;> simp [h, h', eq_comm]
  | binaryAssertZero => exact hb fun _ => h1 fun _ => hj
  | binarySumAssertingNoOverflow =>
    refine hb fun ls => ?_
    by_cases h : sumWidth ls < Elem.maxBits p
    · by_cases h' : (ls.map natOf).sum < 2 ^ maxLength ls
      · rw [if_pos ⟨h, h'⟩, if_pos h]; simp [h']
      · rw [if_neg (fun hc => h' hc.2), if_pos h]; simp [h']
    · rw [if_neg (fun hc => h hc.1), if_neg h]; simp
  | assertPermutation k =>
    refine hb fun xs => ?_
    unfold check
    by_cases h : (xs.take k).Perm (xs.drop k)
    · rw [if_pos h, if_pos ⟨h.length_eq, .inr h⟩]; simp [h]
    · rw [if_neg h]
      split <;> simp [h]
  | edwardsNew C =>
    refine hb fun _ => h2 fun x y => ?_
    by_cases h : Edwards.OnCurve C.a C.d x y <;> simp [h]
  | schnorrVerify C G h =>
    refine hb fun _ => h5 fun s e m x y => ?_
    cases signatureCheck C (G.x, G.y) h.value s e m (x, y) with
    | none => simp
    | some b => cases b <;> simp [check, eq_comm]
  | assertMembership h =>
    refine hp fun x r l xs => ?_
    unfold check
    by_cases h1 : l.length = xs.length
    · by_cases h2 : r = pathRoot h.value (l.zip xs) x <;> simp [h1, h2, eq_comm]
    · simp [h1]
  | _ => exact hd

/-! ## The gadgets -/

theorem told_edwardsNew (C : EdwardsCurve p) : Told (edwardsNew C).run (edwardsNew C).outcome := by
  have ht : ∀ os, Tidy ((edwardsNew C).run os) := fun os => Tidy.onAll (Tidy.call2 fun x y =>
    (Tidy.edwardsNew C x y).retPoint)
  refine Told.cases ht fun Γ os vs W hk hW => Tells.onAll hW hk fun xs ys h => ?_
  have := Tells.call2 (g := fun r => r)
    (G := fun x y => some ([.elem x, .elem y], decide (OnCurve C.a C.d x y)))
    (fun x y a b hx hy => (Tells.edwardsNew C hx hy).retPoint.of_eq rfl) h
  rwa [Option.map_id'] at this

theorem told_edwardsAdd (h2 : 2 < p) (C : EdwardsCurve p) :
    Told (edwardsAdd C).run (edwardsAdd C).outcome := by
  have ht : ∀ os, Tidy ((edwardsAdd C).run os) := fun os => Tidy.onAll (Tidy.call4 fun _ _ _ _ =>
    (Tidy.edwardsAdd C _ _).retPoint)
  refine Told.cases ht fun Γ os vs W hk hW => (Tells.onAll hW hk fun xs ys h =>
    Tells.call4 (g := fun r => (r, true)) (G := fun x y x' y' =>
      (pointSum C (x, y) (x', y')).map fun P => [.elem P.1, .elem P.2])
    (fun x y z t a b c d hx hy hz ht =>
      (Tells.edwardsAdd h2 C (hx.point hy) (hz.point ht)).retPoint.of_eq (by
        cases pointSum C (a, b) (c, d) <;> rfl)) h).of_eq ?_
  show _ = ((vs.mapM elem? >>= _).map _)
  cases vs.mapM elem? <;> rfl

theorem told_edwardsDouble (h2 : 2 < p) (C : EdwardsCurve p) :
    Told (edwardsDouble C).run (edwardsDouble C).outcome := by
  have ht : ∀ os, Tidy ((edwardsDouble C).run os) := fun os => Tidy.onAll (Tidy.call2 fun _ _ =>
    (Tidy.edwardsDouble C _).retPoint)
  refine Told.cases ht fun Γ os vs W hk hW => (Tells.onAll hW hk fun xs ys h =>
    Tells.call2 (g := fun r => (r, true)) (G := fun x y =>
      (pointDouble C (x, y)).map fun P => [.elem P.1, .elem P.2])
    (fun x y a b hx hy =>
      (Tells.edwardsDouble h2 C (hx.point hy)).retPoint.of_eq (by
        cases pointDouble C (a, b) <;> rfl)) h).of_eq ?_
  show _ = ((vs.mapM elem? >>= _).map _)
  cases vs.mapM elem? <;> rfl

theorem told_edwardsMulScalar (h2 : 2 < p) (C : EdwardsCurve p) :
    Told (edwardsMulScalar C).run (edwardsMulScalar C).outcome := by
  have ht : ∀ os, Tidy ((edwardsMulScalar C).run os) := fun os => Tidy.onAll (Tidy.call3 fun _ _ _ =>
    (Tidy.mulScalar (.edwardsAdd C) (.edwardsDouble C) _ _).retPoint)
  refine Told.cases ht fun Γ os vs W hk hW => (Tells.onAll hW hk fun xs ys h =>
    Tells.call3 (g := fun r => (r, true)) (G := fun x y k =>
      (pointMultiple C k (x, y)).map fun P => [.elem P.1, .elem P.2])
    (fun x y z a b c hx hy hz =>
      (Tells.mulScalar h2 C (hx.point hy) hz).retPoint.of_eq (by
        cases pointMultiple C c (a, b) <;> rfl)) h).of_eq ?_
  show _ = ((vs.mapM elem? >>= _).map _)
  cases vs.mapM elem? <;> rfl

theorem told_schnorrVerify (h2 : 2 < p) (C : EdwardsCurve p) (G : EdwardsPoint p) (h : PairHash p) :
    Told (schnorrVerify C G h).run (schnorrVerify C G h).outcome := by
  have ht : ∀ os, Tidy ((schnorrVerify C G h).run os) := fun os => Tidy.onAll (Tidy.call5
    fun _ _ _ _ _ => (Tidy.schnorr (C := cyclicSubgroup (EdwardsGroup.ops C) (some G))
      (.edwardsAdd C) (.edwardsDouble C) h.tidy _ _ _).retNone)
  refine Told.cases ht fun Γ os vs W hk hW => Tells.onAll hW hk fun xs ys hh => ?_
  have := Tells.call5 (g := fun r => r) (G := fun s e m x y =>
      (signatureCheck C (G.x, G.y) h.value s e m (x, y)).map fun b => ([], b))
    (fun x y z t u a b c d e hx hy hz ht hu =>
      (Tells.schnorr h2 C G h (σ := ⟨x, y⟩) hx hy hz (ht.point hu)).retNone.of_eq (by
        cases signatureCheck C (G.x, G.y) h.value a b c (d, e) <;> rfl)) hh
  rwa [Option.map_id'] at this

theorem told_edwardsMulBoolean (C : EdwardsCurve p) :
    Told (edwardsMulBoolean C).run (edwardsMulBoolean C).outcome := by
  have ht : ∀ os, Tidy ((edwardsMulBoolean C).run os) := fun os =>
    Tidy.callPointBool fun _ _ _ => (Tidy.mulBoolean _ _).retPoint
  refine Told.cases ht fun Γ os vs W hk hW => (Tells.callPointBool (g := fun r => (r, true))
    (G := fun x y b => some (if b then [.elem x, .elem y] else [.elem 0, .elem 1])) hW hk
    fun x y b a a' c hx hy hb => (Tells.mulBoolean C (hx.point hy) hb).retPoint.of_eq ?_)
  cases c <;> rfl

theorem path_eq {l : BinaryExpression p} {c : List Bool} {W : Assign p} {xs : List (Expression p)}
    {ys : List (Elem p)} (hl : (l.bits.map fun b => b.eval W) = c.map Elem.ofBool)
    (he : xs.length = ys.length) : MerklePath.new l xs =
      if c.length = ys.length then some ⟨l, xs⟩ else none := by
  have hlen : l.bits.length = c.length := by simpa using congrArg List.length hl
  unfold MerklePath.new BinaryExpression.len
  rw [hlen, he]

theorem told_merkleRoot (h : PairHash p) : Told (merkleRoot h).run (merkleRoot h).outcome := by
  have ht : ∀ os, Tidy ((merkleRoot h).run os) := fun os => Tidy.callPath fun _ _ _ =>
    (Tidy.ofOption _).bind fun _ => (Tidy.merkleTreeLoop h.tidy _ _).retExpr
  refine Told.cases ht fun Γ os vs W hk hW => (Tells.callPath (g := fun r => (r, true))
    (G := fun x l xs => if l.length = xs.length then
      some [.elem (pathRoot h.value (l.zip xs) x)] else none) hW hk
    fun x l xs a c ys hl hx hb hxs => ?_)
  rw [path_eq hl hxs.length_eq]
  by_cases he : c.length = ys.length
  · rw [if_pos he, if_pos he]
    exact Tells.ofOption_bind rfl (Tells.merkleRoot h hx hb hxs).retExpr
  · rw [if_neg he, if_neg he]
    exact Tells.panic

theorem told_assertMembership (h : PairHash p) :
    Told (assertMembership h).run (assertMembership h).outcome := by
  have ht : ∀ os, Tidy ((assertMembership h).run os) := fun os => Tidy.callPath2 fun _ _ _ _ =>
    (Tidy.ofOption _).bind fun _ => ((Tidy.merkleTreeLoop h.tidy _ _).bind fun _ =>
      Tidy.assertEqual _ _).retNone
  refine Told.cases ht fun Γ os vs W hk hW => ?_
  have := Tells.callPath2 (g := fun r => r)
    (G := fun x r l xs => if l.length = xs.length then
      some ([], decide (r = pathRoot h.value (l.zip xs) x)) else none)
    (F := fun x r l xs => do
      let path ← B.ofOption (MerklePath.new l xs)
      Language.retNone (B.assertMerkleTreeMembership x r path h.code)) hW hk
    fun x r l xs a b c ys hl hx hr hb hxs => by
      rw [path_eq hl hxs.length_eq]
      by_cases he : c.length = ys.length
      · rw [if_pos he, if_pos he]
        exact Tells.ofOption_bind rfl (Tells.membership h hx hr hb hxs).retNone
      · rw [if_neg he, if_neg he]
        exact Tells.panic
  rwa [Option.map_id'] at this

/-! ## Constraints -/

theorem _root_.R1CS.Enforces.onExprs' {F : List (Expression p) → B p (List (Obj p))}
    {Q : List (Elem p) → List (Obj p) → Assign p → Prop}
    (h : ∀ xs, Enforces (F xs) fun os W => ∀ ys, List.Forall₂ (fun x a => x.eval W = a) xs ys →
      Q ys os W) (os : List (Obj p)) :
    Enforces (onAll expr? F os) fun os' W => ∀ vs, MeansAll W os vs →
      ∃ ys, vs.mapM elem? = some ys ∧ Q ys os' W := by
  unfold onAll
  cases e : os.mapM expr? with
  | none => exact Enforces.panic
  | some as =>
    show Enforces (F as) _
    refine (h as).mono fun os' W _ hW vs hvs => ?_
    rcases Kind.expr.meansAll hvs with ⟨as', bs, e1, e2, e3⟩ | ⟨e1, _⟩
    · rw [show os.mapM expr? = some as' from e1] at e; cases e
      exact ⟨bs, e2, hW bs e3⟩
    · rw [show os.mapM expr? = none from e1] at e; cases e

theorem _root_.R1CS.Enforces.onExprs {F : List (Expression p) → B p (List (Obj p))}
    {G : List (Elem p) → Option (List (Val p))}
    (h : ∀ xs, Enforces (F xs) fun os W => ∀ ys, List.Forall₂ (fun x a => x.eval W = a) xs ys →
      ∃ rs, G ys = some rs ∧ MeansAll W os rs) (os : List (Obj p)) :
    Enforces (onAll expr? F os) fun os' W => ∀ vs, MeansAll W os vs →
      ∃ rs, (vs.mapM elem? >>= G) = some rs ∧ MeansAll W os' rs :=
  (Enforces.onExprs' h os).mono fun _ _ _ hW vs hvs => by
    obtain ⟨ys, e, rs, e1, e2⟩ := hW vs hvs
    exact ⟨rs, by rw [e]; exact e1, e2⟩

theorem _root_.R1CS.Enforces.retPoint {m : B p (EdwardsExpression p)}
    {Q : EdwardsExpression p → Assign p → Prop} (h : Enforces m Q) :
    Enforces (Language.retPoint m) fun os W => ∃ P, os = [.expr P.x, .expr P.y] ∧ Q P W :=
  h.bind fun P => Enforces.pure fun _ _ hP => ⟨P, rfl, hP⟩

theorem pins_edwardsNew (C : EdwardsCurve p) (os : List (Obj p)) :
    Enforces ((edwardsNew C).run os) fun os' W => ∀ vs, MeansAll W os vs →
      ∃ rs, (edwardsNew C).meaning vs = some rs ∧ MeansAll W os' rs := by
  refine Enforces.onExprs (fun xs => ?_) os
  match xs with
  | [x, y] =>
    refine (C64_expression_enforced C x y).retPoint.mono fun os W _ ⟨P, e, e1, e2, h⟩ ys hys => ?_
    match ys, hys with
    | [a, b], .cons g1 (.cons g2 .nil) =>
      rw [g1, g2] at h
      refine ⟨_, if_pos h, ?_⟩
      rw [e, e1, e2]
      exact .cons g1 (.cons g2 .nil)
  | [] => exact Enforces.panic
  | [_] => exact Enforces.panic
  | _ :: _ :: _ :: _ => exact Enforces.panic

theorem pins_edwardsMulBoolean (C : EdwardsCurve p) (os : List (Obj p)) :
    Enforces ((edwardsMulBoolean C).run os) fun os' W => ∀ vs, MeansAll W os vs →
      ∃ rs, (edwardsMulBoolean C).meaning vs = some rs ∧ MeansAll W os' rs := by
  show Enforces (callPointBool _ os) _
  unfold callPointBool
  split
  · rename_i x y b
    refine (C66_mul_boolean_partial C ⟨x, y⟩ b).retPoint.mono fun os W _ ⟨P, e, h1, h0⟩ vs hvs => ?_
    match vs, hvs with
    | [.elem a, .elem a', .bool c], .cons g1 (.cons g2 (.cons g3 .nil)) =>
      refine ⟨_, rfl, ?_⟩
      rw [e]
      cases c with
      | true =>
        obtain ⟨k1, k2⟩ := h1 (g3.trans Elem.ofBool_true)
        exact .cons (k1.trans g1) (.cons (k2.trans g2) .nil)
      | false =>
        obtain ⟨k1, k2⟩ := h0 (g3.trans Elem.ofBool_false)
        exact .cons k1 (.cons k2 .nil)
    | [.bits _, _, _], .cons h _ => cases h
    | [.bool _, _, _], .cons h _ => cases h
    | [_, .bool _, _], .cons _ (.cons h _) => cases h
    | [_, .bits _, _], .cons _ (.cons h _) => cases h
    | [_, _, .elem _], .cons _ (.cons _ (.cons h _)) => cases h
    | [_, _, .bits _], .cons _ (.cons _ (.cons h _)) => cases h
  · exact Enforces.panic

theorem pins_merkleRoot (h : PairHash p) (os : List (Obj p)) :
    Enforces ((merkleRoot h).run os) fun os' W => ∀ vs, MeansAll W os vs →
      ∃ rs, (merkleRoot h).meaning vs = some rs ∧ MeansAll W os' rs := by
  show Enforces (callPath _ os) _
  unfold callPath
  split
  swap
  · exact Enforces.panic
  rename_i x l os
  refine (Enforces.onExprs' (Q := fun ys os' W => ∀ (a : Elem p) (c : List Bool), x.eval W = a →
    (l.bits.map fun b => b.eval W) = c.map Elem.ofBool →
    c.length = ys.length ∧ MeansAll W os' [.elem (pathRoot h.value (c.zip ys) a)])
    (fun xs => ?_) os).mono fun os' W _ hQ vs hvs => ?_
  · refine (Enforces.ofOption (Q := fun path _ => path = ⟨l, xs⟩ ∧ l.bits.length = xs.length)
      fun path hpath _ _ => ?_).bind fun path => (C60_root_enforced h.sound x path).retExpr.mono
        fun os' W _ ⟨_, z, hz, hr⟩ ⟨hpath, hlen⟩ ys hys a c ha hc => ?_
    · unfold MerklePath.new BinaryExpression.len at hpath
      split at hpath
      · rename_i he
        cases hpath
        exact ⟨rfl, he⟩
      · cases hpath
    · subst hz hpath
      have := hr c hc
      rw [values_of_rel hys, ha] at this
      refine ⟨?_, .cons this .nil⟩
      rw [← hys.length_eq, ← hlen]
      simpa using (congrArg List.length hc).symm
  · match vs, hvs with
    | .elem a :: .bits c :: vs, .cons g1 (.cons g2 g3) =>
      obtain ⟨ys, e1, e2⟩ := hQ vs g3
      obtain ⟨e3, e4⟩ := e2 a c g1 g2
      refine ⟨_, ?_, e4⟩
      show (vs.mapM elem? >>= _) = _
      rw [e1]
      exact if_pos e3
    | .bits _ :: _ :: _, .cons h _ => cases h
    | .bool _ :: _ :: _, .cons h _ => cases h
    | _ :: .bool _ :: _, .cons _ (.cons h _) => cases h
    | _ :: .elem _ :: _, .cons _ (.cons h _) => cases h

theorem pins_assertMembership (h : PairHash p) (os : List (Obj p)) :
    Enforces ((assertMembership h).run os) fun os' W => ∀ vs, MeansAll W os vs →
      ∃ rs, (assertMembership h).meaning vs = some rs ∧ MeansAll W os' rs := by
  show Enforces (callPath2 _ os) _
  unfold callPath2
  split
  swap
  · exact Enforces.panic
  rename_i x r l os
  refine (Enforces.onExprs' (Q := fun ys os' W => ∀ (a b : Elem p) (c : List Bool),
    x.eval W = a → r.eval W = b →
    (l.bits.map fun b => b.eval W) = c.map Elem.ofBool →
    (c.length = ys.length ∧ b = pathRoot h.value (c.zip ys) a) ∧ os' = [])
    (fun xs => ?_) os).mono fun os' W _ hQ vs hvs => ?_
  · refine (Enforces.ofOption (Q := fun path _ => path = ⟨l, xs⟩ ∧ l.bits.length = xs.length)
      fun path hpath _ _ => ?_).bind fun path => (C60_membership_enforced h.sound x r path).retNone.mono
        fun os' W _ ⟨_, ho, _, hr⟩ ⟨hpath, hlen⟩ ys hys a b c ha hb hc => ?_
    · unfold MerklePath.new BinaryExpression.len at hpath
      split at hpath
      · rename_i he
        cases hpath
        exact ⟨rfl, he⟩
      · cases hpath
    · subst hpath
      have := hr c hc
      rw [values_of_rel hys, ha, hb] at this
      refine ⟨⟨?_, this⟩, ho⟩
      rw [← hys.length_eq, ← hlen]
      simpa using (congrArg List.length hc).symm
  · match vs, hvs with
    | .elem a :: .elem b :: .bits c :: vs, .cons g1 (.cons g2 (.cons g3 g4)) =>
      obtain ⟨ys, e1, e2⟩ := hQ vs g4
      obtain ⟨e3, e4⟩ := e2 a b c g1 g2 g3
      refine ⟨[], ?_, e4 ▸ .nil⟩
      show (vs.mapM elem? >>= _) = _
      rw [e1]
      exact if_pos e3
    | .bits _ :: _ :: _ :: _, .cons h _ => cases h
    | .bool _ :: _ :: _ :: _, .cons h _ => cases h
    | _ :: .bool _ :: _ :: _, .cons _ (.cons h _) => cases h
    | _ :: .bits _ :: _ :: _, .cons _ (.cons h _) => cases h
    | _ :: _ :: .bool _ :: _, .cons _ (.cons _ (.cons h _)) => cases h
    | _ :: _ :: .elem _ :: _, .cons _ (.cons _ (.cons h _)) => cases h

/-! ## Laws -/

theorem lawful_edwardsNew (C : EdwardsCurve p) : OpLaw (edwardsNew C).run (edwardsNew C).meaning
    (edwardsNew C).pinned :=
  (told_edwardsNew C).law (meaning_iff _) fun _ => pins_edwardsNew C

theorem lawful_edwardsAdd (h2 : 2 < p) (C : EdwardsCurve p) :
    OpLaw (edwardsAdd C).run (edwardsAdd C).meaning (edwardsAdd C).pinned :=
  (told_edwardsAdd h2 C).law (meaning_iff _) fun h => by cases h

theorem lawful_edwardsDouble (h2 : 2 < p) (C : EdwardsCurve p) :
    OpLaw (edwardsDouble C).run (edwardsDouble C).meaning (edwardsDouble C).pinned :=
  (told_edwardsDouble h2 C).law (meaning_iff _) fun h => by cases h

theorem lawful_edwardsMulBoolean (C : EdwardsCurve p) :
    OpLaw (edwardsMulBoolean C).run (edwardsMulBoolean C).meaning (edwardsMulBoolean C).pinned :=
  (told_edwardsMulBoolean C).law (meaning_iff _) fun _ => pins_edwardsMulBoolean C

theorem lawful_edwardsMulScalar (h2 : 2 < p) (C : EdwardsCurve p) :
    OpLaw (edwardsMulScalar C).run (edwardsMulScalar C).meaning (edwardsMulScalar C).pinned :=
  (told_edwardsMulScalar h2 C).law (meaning_iff _) fun h => by cases h

theorem lawful_schnorrVerify (h2 : 2 < p) (C : EdwardsCurve p) (G : EdwardsPoint p)
    (h : PairHash p) :
    OpLaw (schnorrVerify C G h).run (schnorrVerify C G h).meaning (schnorrVerify C G h).pinned :=
  (told_schnorrVerify h2 C G h).law (meaning_iff _) fun h => by cases h

theorem lawful_merkleRoot (h : PairHash p) :
    OpLaw (merkleRoot h).run (merkleRoot h).meaning (merkleRoot h).pinned :=
  (told_merkleRoot h).law (meaning_iff _) fun _ => pins_merkleRoot h

theorem lawful_assertMembership (h : PairHash p) :
    OpLaw (assertMembership h).run (assertMembership h).meaning (assertMembership h).pinned :=
  (told_assertMembership h).law (meaning_iff _) fun _ => pins_assertMembership h

end Op

end R1CS
