import Verif.Spec.Outcome
import Verif.Lemmas.Run
import Verif.Lemmas.LanguageMore

/-!
# How executions of circuits end: proofs
-/

set_option linter.unusedSectionVars false
set_option linter.unusedVariables false

namespace R1CS

variable {p : ℕ} [hp : Fact p.Prime] {X Y α β γ : Type}

open Language

/-! ## Executions which return -/

namespace Locally

theorem trivial {m : B p α} {n : ℕ} : Locally n m fun _ _ => True :=
  fun _ _ _ _ _ _ _ _ _ _ _ _ _ _ _ _ _ _ _ _ _ _ => True.intro

theorem of_none {m : B p α} {n : ℕ} {Q : α → Assign p → Prop} (h : ∀ b, m b = none) :
    Locally n m Q := by
  intro γ δ pre k c a z b b1 b2 _ _ _ _ h1
  rw [h] at h1; cases h1

theorem panic {n : ℕ} {Q : α → Assign p → Prop} : Locally n (B.panic : B p α) Q :=
  of_none fun _ => rfl

/-- What comes later does not matter. -/
theorem ret {m : B p α} {f : α → B p β} {n : ℕ} {Q : Assign p → Prop}
    (hf : ∀ a, Tidy (f a)) (h : Locally n m fun _ W => Q W) :
    Locally n (m >>= f) fun _ W => Q W := by
  intro γ δ pre k c a z b b1 b2 hpre hk hb hn h1 h3 v v' ok hv1 hv hex
  obtain ⟨a', b', e1, e2⟩ := B.bind_run h1
  have hle := (C23_appends (hf a').1 e2).1
  exact h γ δ pre (fun c a => f a >>= fun d => k c d) c a' z b b' b2 hpre
    (fun c a => (hf a).bind fun d => hk c d) hb hn e1 (by rw [B.bind_eq e2, h3]) v v' ok hv1
    (fun i g1 g2 => hv i g1 (by omega)) hex

end Locally

/-! ## Laws -/

/-- What is left behind: results, and whether the constraints hold. -/
def Leaves (s : Run p) (rs : List (Val p)) (ok : Bool) (os : List (Obj p)) (t : Run p) : Prop :=
  t.D = s.D ∧ (∀ o ∈ os, o.Scoped t.next) ∧ MeansAll t.W os rs ∧ (t.Holds ↔ s.Holds ∧ ok = true)

/-- The call has the outcome `e`, if `e` is not a panic. -/
def Outs (rel : Assign p → X → Y → Prop) (within : ℕ → X → Prop)
    (r : X → B p (List (Obj p))) (e : Y → Option (List (Val p) × Bool)) : Prop :=
  ∀ (s : Run p) x y rs ok, within s.next x → rel s.W x y → e y = some (rs, ok) →
    Does (r x) s (Leaves s rs ok)

/-- If `e` is a panic, executions do not return. -/
def Safe (rel : Assign p → X → Y → Prop) (within : ℕ → X → Prop)
    (r : X → B p (List (Obj p))) (e : Y → Option γ) : Prop :=
  ∀ n x, within n x → Locally n (r x) fun _ W => ∀ y, rel W x y → (e y).isSome = true

/-- Laws of an operation. -/
abbrev OpOuts (r : List (Obj p) → B p (List (Obj p)))
    (e : List (Val p) → Option (List (Val p) × Bool)) : Prop :=
  Outs MeansAll (fun n os => ∀ o ∈ os, Obj.Scoped n o) r e

/-- Laws of an operation. -/
abbrev OpSafe (r : List (Obj p) → B p (List (Obj p))) (e : List (Val p) → Option γ) : Prop :=
  Safe MeansAll (fun n os => ∀ o ∈ os, Obj.Scoped n o) r e

theorem Told.outs {r : List (Obj p) → B p (List (Obj p))}
    {e : List (Val p) → Option (List (Val p) × Bool)} (h : Told r e) : OpOuts r e :=
  fun _ _ _ _ _ hs hm he => h.does hs hm he

theorem Told.opSafe {r : List (Obj p) → B p (List (Obj p))}
    {e : List (Val p) → Option (List (Val p) × Bool)} (h : Told r e) : OpSafe r e :=
  fun _ _ hs => h.safe hs

theorem OpOuts.of_law {r : List (Obj p) → B p (List (Obj p))}
    {m : List (Val p) → Option (List (Val p))} {pin : Bool} (h : OpLaw r m pin) :
    OpOuts r fun vs => (m vs).map fun rs => (rs, true) := by
  intro s os vs rs ok hs hr he
  obtain ⟨rs', h1, h2⟩ := Option.map_eq_some_iff.1 he
  cases h2
  refine (Does.lift (X := []) (Q := fun os' n W => (∀ o ∈ os', Obj.Scoped n o) ∧ MeansAll W os' rs)
    (h.tidy os).1 (h.comp (Hon.free s.next s.pos s.W s.one) os vs rs hs hr h1)).mono
    fun os' t _ ⟨e1, e2, e3, e4⟩ => ⟨e1, e3, e4, by rw [e2]; simp⟩

namespace Kind

variable (K : Kind p α β)

/-- Laws of a call on a list of operands of one kind. -/
abbrev ListOuts (f : List α → B p (List (Obj p))) (g : List β → Option (List (Val p) × Bool)) :
    Prop :=
  Outs (fun W => List.Forall₂ (K.rel W)) (fun n as => ∀ a ∈ as, K.within n a) f g

/-- Laws of a call on a list of operands of one kind. -/
abbrev ListSafe (f : List α → B p (List (Obj p))) (g : List β → Option γ) : Prop :=
  Safe (fun W => List.Forall₂ (K.rel W)) (fun n as => ∀ a ∈ as, K.within n a) f g

theorem onAll_some {f : List α → B p (List (Obj p))} {os : List (Obj p)} {as : List α}
    (h : os.mapM K.obj = some as) : Language.onAll K.obj f os = f as := by
  unfold Language.onAll; rw [h]; rfl

theorem onAll_none {f : List α → B p (List (Obj p))} {os : List (Obj p)}
    (h : os.mapM K.obj = none) : Language.onAll K.obj f os = B.panic := by
  unfold Language.onAll; rw [h]; rfl

theorem outs {f : List α → B p (List (Obj p))} {g : List β → Option (List (Val p) × Bool)}
    (h : K.ListOuts f g) : OpOuts (Language.onAll K.obj f) (fun vs => vs.mapM K.val >>= g) := by
  intro s os vs rs ok h1 h2 h3
  rcases K.meansAll h2 with ⟨as, bs, e1, e2, e3⟩ | ⟨e1, e2⟩
  · rw [K.onAll_some e1]
    dsimp only at h3; rw [e2] at h3
    exact h s as bs rs ok (K.scopedAll h1 e1) e3 h3
  · dsimp only at h3; rw [e2] at h3; cases h3

theorem safe {f : List α → B p (List (Obj p))} {g : List β → Option γ}
    (h : K.ListSafe f g) : OpSafe (Language.onAll K.obj f) (fun vs => vs.mapM K.val >>= g) := by
  intro n os h1
  cases e : os.mapM K.obj with
  | none => rw [K.onAll_none e]; exact Locally.panic
  | some as =>
    rw [K.onAll_some e]
    refine (h n as (K.scopedAll h1 e)).mono fun os' W hW vs hvs => ?_
    rcases K.meansAll hvs with ⟨as', bs, e1, e2, e3⟩ | ⟨e1, _⟩
    · rw [e] at e1; cases e1
      dsimp only; rw [e2]
      exact hW bs e3
    · rw [e] at e1; cases e1

theorem outs1 {F : α → B p (List (Obj p))} {G : β → Option (List (Val p) × Bool)}
    (h : Outs K.rel K.within F G) : K.ListOuts (Language.call1 F) (fun1 G) := by
  intro s as bs rs ok h1 h2 h3
  match as, bs, h2 with
  | [x], [a], .cons e .nil => exact h s x a rs ok (h1 x (by simp)) e h3
  | [], [], _ => cases h3
  | _ :: _ :: _, _ :: _ :: _, _ => cases h3

theorem safe1 {F : α → B p (List (Obj p))} {G : β → Option γ}
    (h : Safe K.rel K.within F G) : K.ListSafe (Language.call1 F) (fun1 G) := by
  intro n as h1
  match as with
  | [x] =>
    refine (h n x (h1 x (by simp))).mono fun os W hW bs hbs => ?_
    match bs, hbs with
    | [a], .cons e .nil => exact hW a e
  | [] => exact Locally.panic
  | _ :: _ :: _ => exact Locally.panic

/-- Laws of a call on two operands. -/
abbrev Outs2 (F : α → α → B p (List (Obj p))) (G : β → β → Option (List (Val p) × Bool)) : Prop :=
  Outs (fun W (x : α × α) (y : β × β) => K.rel W x.1 y.1 ∧ K.rel W x.2 y.2)
    (fun n x => K.within n x.1 ∧ K.within n x.2) (fun x => F x.1 x.2) (fun y => G y.1 y.2)

/-- Laws of a call on two operands. -/
abbrev Safe2 (F : α → α → B p (List (Obj p))) (G : β → β → Option γ) : Prop :=
  Safe (fun W (x : α × α) (y : β × β) => K.rel W x.1 y.1 ∧ K.rel W x.2 y.2)
    (fun n x => K.within n x.1 ∧ K.within n x.2) (fun x => F x.1 x.2) (fun y => G y.1 y.2)

theorem outs2 {F : α → α → B p (List (Obj p))} {G : β → β → Option (List (Val p) × Bool)}
    (h : K.Outs2 F G) : K.ListOuts (Language.call2 F) (fun2 G) := by
  intro s as bs rs ok h1 h2 h3
  match as, bs, h2 with
  | [x, y], [a, b], .cons e (.cons e' .nil) =>
    exact h s (x, y) (a, b) rs ok ⟨h1 x (by simp), h1 y (by simp)⟩ ⟨e, e'⟩ h3
  | [], [], _ => cases h3
  | [_], [_], _ => cases h3
  | _ :: _ :: _ :: _, _ :: _ :: _ :: _, _ => cases h3

theorem safe2 {F : α → α → B p (List (Obj p))} {G : β → β → Option γ}
    (h : K.Safe2 F G) : K.ListSafe (Language.call2 F) (fun2 G) := by
  intro n as h1
  match as with
  | [x, y] =>
    refine (h n (x, y) ⟨h1 x (by simp), h1 y (by simp)⟩).mono fun os W hW bs hbs => ?_
    match bs, hbs with
    | [a, b], .cons e (.cons e' .nil) => exact hW (a, b) ⟨e, e'⟩
  | [] => exact Locally.panic
  | [_] => exact Locally.panic
  | _ :: _ :: _ :: _ => exact Locally.panic

theorem outs3 {F : α → α → α → B p (List (Obj p))} {G : β → β → β → Option (List (Val p) × Bool)}
    (h : Outs (fun W (x : α × α × α) (y : β × β × β) =>
        K.rel W x.1 y.1 ∧ K.rel W x.2.1 y.2.1 ∧ K.rel W x.2.2 y.2.2)
      (fun n x => K.within n x.1 ∧ K.within n x.2.1 ∧ K.within n x.2.2)
      (fun x => F x.1 x.2.1 x.2.2) (fun y => G y.1 y.2.1 y.2.2)) :
    K.ListOuts (Language.call3 F) (fun3 G) := by
  intro s as bs rs ok h1 h2 h3
  match as, bs, h2 with
  | [x, y, z], [a, b, c], .cons e (.cons e' (.cons e'' .nil)) =>
    exact h s (x, y, z) (a, b, c) rs ok ⟨h1 x (by simp), h1 y (by simp), h1 z (by simp)⟩
      ⟨e, e', e''⟩ h3
  | [], [], _ => cases h3
  | [_], [_], _ => cases h3
  | [_, _], [_, _], _ => cases h3
  | _ :: _ :: _ :: _ :: _, _ :: _ :: _ :: _ :: _, _ => cases h3

theorem safe3 {F : α → α → α → B p (List (Obj p))} {G : β → β → β → Option γ}
    (h : Safe (fun W (x : α × α × α) (y : β × β × β) =>
        K.rel W x.1 y.1 ∧ K.rel W x.2.1 y.2.1 ∧ K.rel W x.2.2 y.2.2)
      (fun n x => K.within n x.1 ∧ K.within n x.2.1 ∧ K.within n x.2.2)
      (fun x => F x.1 x.2.1 x.2.2) (fun y => G y.1 y.2.1 y.2.2)) :
    K.ListSafe (Language.call3 F) (fun3 G) := by
  intro n as h1
  match as with
  | [x, y, z] =>
    refine (h n (x, y, z) ⟨h1 x (by simp), h1 y (by simp), h1 z (by simp)⟩).mono
      fun os W hW bs hbs => ?_
    match bs, hbs with
    | [a, b, c], .cons e (.cons e' (.cons e'' .nil)) => exact hW (a, b, c) ⟨e, e', e''⟩
  | [] => exact Locally.panic
  | [_] => exact Locally.panic
  | [_, _] => exact Locally.panic
  | _ :: _ :: _ :: _ :: _ => exact Locally.panic

theorem safeList {F : α → List α → B p (List (Obj p))} {G : β → List β → Option γ}
    (h : Safe (fun W (x : α × List α) (y : β × List β) =>
        K.rel W x.1 y.1 ∧ List.Forall₂ (K.rel W) x.2 y.2)
      (fun n x => K.within n x.1 ∧ ∀ a ∈ x.2, K.within n a)
      (fun x => F x.1 x.2) (fun y => G y.1 y.2)) :
    K.ListSafe (Language.callList F) (funList G) := by
  intro n as h1
  match as with
  | x :: xs =>
    refine (h n (x, xs) ⟨h1 x (by simp), fun y hy => h1 y (by simp [hy])⟩).mono
      fun os W hW bs hbs => ?_
    match bs, hbs with
    | a :: bs, .cons e e' => exact hW (a, bs) ⟨e, e'⟩
  | [] => exact Locally.panic

end Kind

namespace Safe

variable {rel : Assign p → X → Y → Prop} {within : ℕ → X → Prop} {r : X → B p (List (Obj p))}
  {e : Y → Option γ}

/-- Nothing can go wrong. -/
theorem total (h : ∀ y, (e y).isSome = true) : Safe rel within r e :=
  fun _ _ _ => Locally.trivial.mono fun _ _ _ y _ => h y

/-- Only the construction can go wrong, for reasons visible in the operands. -/
theorem built (h : ∀ W x y, rel W x y → (e y).isSome = true ∨ ∀ b, r x b = none) :
    Safe rel within r e := by
  intro n x _
  by_cases hx : ∃ W y, rel W x y ∧ (e y).isSome = false
  · obtain ⟨W, y, h1, h2⟩ := hx
    rcases h W x y h1 with h3 | h3
    · rw [h3] at h2; cases h2
    · exact Locally.of_none h3
  · refine Locally.trivial.mono fun _ W _ y hy => ?_
    by_contra hc
    exact hx ⟨W, y, hy, by simpa using hc⟩

end Safe

end R1CS
