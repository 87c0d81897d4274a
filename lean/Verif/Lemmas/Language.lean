import Verif.Spec.Language
import Verif.Lemmas.Relations
import Verif.Props.Tidy
import Verif.Props.Relations

/-!
# Circuits as programs: proofs
-/

set_option linter.unusedSectionVars false

namespace R1CS

variable {p : ℕ} [hp : Fact p.Prime] {α β : Type}

open Language

/-! ## Accepted executions -/

/-- Like `Locally`, for executions which accept. -/
def Accepted (n : ℕ) (m : B p α) (Q : α → Assign p → Prop) : Prop :=
  ∀ (γ δ : Type) (pre : B p γ) (k : γ → α → B p δ) (c : γ) (a : α) (z : δ)
    (b b1 b2 : Builder p), Tidy pre → (∀ c a, Tidy (k c a)) →
    pre Builder.new = some (c, b) → b.nextWireIndex = n → m b = some (a, b1) →
    k c a b1 = some (z, b2) →
    ∀ (v v' : WireValues p), v ONE = some 1 →
      (∀ i, n ≤ i → i < b1.nextWireIndex → v i = none) →
      b2.build.execute v = some (v', true) → Q a v'.total

namespace Accepted

theorem of_locally {m : B p α} {n : ℕ} {Q : α → Assign p → Prop} (h : Locally n m Q) :
    Accepted n m Q :=
  fun γ δ pre k c a z b b1 b2 e1 e2 e3 e4 e5 e6 v v' e7 e8 e9 =>
    h γ δ pre k c a z b b1 b2 e1 e2 e3 e4 e5 e6 v v' true e7 e8 e9

theorem mono {m : B p α} {n : ℕ} {Q R : α → Assign p → Prop} (h : Accepted n m Q)
    (hqr : ∀ a W, Q a W → R a W) : Accepted n m R :=
  fun γ δ pre k c a z b b1 b2 e1 e2 e3 e4 e5 e6 v v' e7 e8 e9 =>
    hqr _ _ (h γ δ pre k c a z b b1 b2 e1 e2 e3 e4 e5 e6 v v' e7 e8 e9)

/-- An accepting execution satisfies the constraints. -/
theorem satisfies {m : B p α} (hm : Tidy m) {a : α} {b : Builder p}
    (h : m Builder.new = some (a, b)) {v v' : WireValues p} (hv : v ONE = some 1)
    (hex : b.build.execute v = some (v', true)) : Satisfies v'.total b.constraints := by
  have h1 := C22_library hm h hex hv
  refine C19_accept_satisfies b.build v v' hex _ (by simp [WireValues.total, h1]) fun i x hi => ?_
  simp [WireValues.total, hi]

theorem of_enforces {m : B p α} (hm : Tidy m) {n : ℕ} {Q : α → Assign p → Prop}
    (h : Enforces m Q) : Accepted n m Q := by
  intro γ δ pre k c a z b b1 b2 hpre hk hb hn h1 h2 v v' hv1 hv hex
  have hall : (pre >>= fun c => m >>= fun a => k c a) Builder.new = some (z, b2) := by
    rw [B.bind_eq hb, B.bind_eq h1, h2]
  have hs := satisfies (hpre.bind fun c => hm.bind fun a => hk c a) hall hv1 hex
  exact (h _ _ _ h1 _ ((hk c a).1.enforces _ _ _ h2 _ hs).1).2

/-- A call followed by one whose constraints say something. -/
theorem bind {m : B p α} {f : α → B p β} {n : ℕ} {Q : α → Assign p → Prop}
    {R : α → β → Assign p → Prop} (hm : Tidy m) (hf : ∀ a, Tidy (f a)) (h : Accepted n m Q)
    (h2 : ∀ a, Enforces (f a) (R a)) :
    Accepted n (m >>= f) fun b W => ∃ a, Q a W ∧ R a b W := by
  intro γ δ pre k c a z b b1 b2 hpre hk hb hn h1 h3 v v' hv1 hv hex
  obtain ⟨a', b', e1, e2⟩ := B.bind_run h1
  have hle := (C23_appends (hf a').1 e2).1
  refine ⟨a', h γ δ pre (fun c a => f a >>= fun d => k c d) c a' z b b' b2 hpre
    (fun c a => (hf a).bind fun d => hk c d) hb hn e1 (by rw [B.bind_eq e2, h3]) v v' hv1
    (fun i g1 g2 => hv i g1 (by omega)) hex, ?_⟩
  have hall : (pre >>= fun c => (m >>= f) >>= fun a => k c a) Builder.new = some (z, b2) := by
    rw [B.bind_eq hb, B.bind_eq h1, h3]
  have hs := satisfies (hpre.bind fun c => (hm.bind hf).bind fun a => hk c a) hall hv1 hex
  exact (h2 a' _ _ _ e2 _ ((hk c a).1.enforces _ _ _ h3 _ hs).1).2

end Accepted

/-! ## Laws of an operation -/

/-- The results are the given values. -/
def Yields (s : Hon p) (rs : List (Val p)) (os : List (Obj p)) (t : Hon p) : Prop :=
  t.D = s.D ∧ (∀ o ∈ os, o.Scoped t.next) ∧ MeansAll t.W os rs

/-- If the meaning is defined, the call succeeds and computes it. -/
def Completes (r : List (Obj p) → B p (List (Obj p))) (m : List (Val p) → Option (List (Val p))) :
    Prop :=
  ∀ (s : Hon p) (os : List (Obj p)) (vs rs : List (Val p)), (∀ o ∈ os, o.Scoped s.next) →
    MeansAll s.W os vs → m vs = some rs → Comp (r os) s (Yields s rs)

/-- The constraints can only be satisfied if the meaning is defined, and give the result. -/
def Pins (r : List (Obj p) → B p (List (Obj p))) (m : List (Val p) → Option (List (Val p))) :
    Prop :=
  ∀ os : List (Obj p), Enforces (r os) fun os' W => ∀ vs, MeansAll W os vs →
    ∃ rs, m vs = some rs ∧ MeansAll W os' rs

/-- Executions are accepted only if the meaning is defined. -/
def Checks (r : List (Obj p) → B p (List (Obj p))) (m : List (Val p) → Option (List (Val p))) :
    Prop :=
  ∀ (n : ℕ) (os : List (Obj p)), (∀ o ∈ os, o.Scoped n) → Accepted n (r os) fun _ W =>
    ∀ vs, MeansAll W os vs → (m vs).isSome = true

theorem Pins.checks {r : List (Obj p) → B p (List (Obj p))}
    {m : List (Val p) → Option (List (Val p))} (h : Pins r m) (ht : ∀ os, Tidy (r os)) :
    Checks r m :=
  fun _ os _ => (Accepted.of_enforces (ht os) (h os)).mono fun _ W hW vs hvs => by
    obtain ⟨rs, h1, _⟩ := hW vs hvs
    rw [h1]; rfl

/-! ## Objects and values -/

theorem Obj.Scoped.mono {n m : ℕ} {o : Obj p} (h : o.Scoped n) (hnm : n ≤ m) : o.Scoped m := by
  cases o with
  | expr e => exact Expression.Scoped.mono h hnm
  | bool e => exact BooleanExpression.Scoped.mono h hnm
  | bin e => exact BinaryExpression.Scoped.mono h hnm

theorem Means.congr {n : ℕ} {W W' : Assign p} (hW : ∀ i < n, W i = W' i) {o : Obj p}
    (ho : o.Scoped n) {v : Val p} (h : Means W' o v) : Means W o v := by
  have hb : ∀ b : BooleanExpression p, b.Scoped n → b.eval W = b.eval W' := fun b hb =>
    Expression.eval_congr fun i hi => hW i (hb i hi)
  cases o with
  | expr e =>
    cases v with
    | elem x => exact (Expression.eval_congr fun i hi => hW i (ho i hi)).trans h
    | _ => exact h
  | bool e =>
    cases v with
    | bool x => exact (hb e ho).trans h
    | _ => exact h
  | bin e =>
    cases v with
    | bits l =>
      have h' : (e.bits.map fun b => b.eval W') = l.map Elem.ofBool := h
      show (e.bits.map fun b => b.eval W) = _
      rw [← h']
      exact List.map_congr_left fun b hb' => hb b (ho b hb')
    | _ => exact h

theorem MeansAll.congr {n : ℕ} {W W' : Assign p} (hW : ∀ i < n, W i = W' i) {os : List (Obj p)}
    {vs : List (Val p)} (h : MeansAll W' os vs) (ho : ∀ o ∈ os, o.Scoped n) : MeansAll W os vs := by
  unfold MeansAll at h ⊢
  induction h with
  | nil => exact .nil
  | cons h1 _ ih =>
    exact .cons (h1.congr hW (ho _ (by simp))) (ih fun o h => ho o (by simp [h]))

theorem Means.unique {W : Assign p} {o : Obj p} {v v' : Val p} (h : Means W o v)
    (h' : Means W o v') : v = v' := by
  have inj : Function.Injective (Elem.ofBool (p := p)) := by
    intro a b hab
    cases a <;> cases b <;> simp [Elem.ofBool_true, Elem.ofBool_false] at hab ⊢
  cases o <;> cases v <;> cases v' <;> simp only [Means] at h h'
  · rw [h.symm.trans h']
  · rw [inj (h.symm.trans h')]
  · rw [List.map_injective_iff.2 inj (h.symm.trans h')]

theorem MeansAll.unique {W : Assign p} {os : List (Obj p)} {vs vs' : List (Val p)}
    (h : MeansAll W os vs) (h' : MeansAll W os vs') : vs = vs' := by
  unfold MeansAll at h h'
  induction h generalizing vs' with
  | nil => cases h'; rfl
  | cons h1 _ ih =>
    cases h' with
    | cons g1 g2 => rw [h1.unique g1, ih g2]

theorem MeansAll.append {W : Assign p} {os os' : List (Obj p)} {vs vs' : List (Val p)}
    (h : MeansAll W os vs) (h' : MeansAll W os' vs') : MeansAll W (os ++ os') (vs ++ vs') :=
  List.rel_append h h'

/-- Looking up operands. -/
theorem MeansAll.lookup {W : Assign p} {os : List (Obj p)} {vs : List (Val p)}
    (h : MeansAll W os vs) : ∀ js : List ℕ,
    (∃ as bs, js.mapM (fun j => os[j]?) = some as ∧ js.mapM (fun j => vs[j]?) = some bs ∧
      MeansAll W as bs ∧ ∀ o ∈ as, o ∈ os) ∨
    (js.mapM (fun j => os[j]?) = none ∧ js.mapM (fun j => vs[j]?) = none)
  | [] => .inl ⟨[], [], rfl, rfl, .nil, by simp⟩
  | j :: js => by
    have hlen : os.length = vs.length := List.Forall₂.length_eq h
    by_cases hj : j < os.length
    · have e1 : os[j]? = some os[j] := List.getElem?_eq_getElem hj
      have e2 : vs[j]? = some (vs[j]'(by omega)) := List.getElem?_eq_getElem (by omega)
      rcases MeansAll.lookup h js with ⟨as, bs, g1, g2, g3, g4⟩ | ⟨g1, g2⟩
      · refine .inl ⟨os[j] :: as, vs[j]'(by omega) :: bs, ?_, ?_, .cons ?_ g3, ?_⟩
        · rw [List.mapM_cons, e1, g1]; rfl
        · rw [List.mapM_cons, e2, g2]; rfl
        · exact List.Forall₂.get h (by simpa using hj) (by simpa using hlen ▸ hj)
        · intro o ho
          rcases List.mem_cons.1 ho with rfl | ho
          · exact List.getElem_mem _
          · exact g4 o ho
      · refine .inr ⟨?_, ?_⟩
        · rw [List.mapM_cons, e1, g1]; rfl
        · rw [List.mapM_cons, e2, g2]; rfl
    · have e1 : os[j]? = none := List.getElem?_eq_none (by omega)
      have e2 : vs[j]? = none := List.getElem?_eq_none (by omega)
      exact .inr ⟨by rw [List.mapM_cons, e1]; rfl, by rw [List.mapM_cons, e2]; rfl⟩

theorem mem_of_lookup {os : List (Obj p)} : ∀ {js : List ℕ} {as : List (Obj p)},
    js.mapM (fun j => os[j]?) = some as → ∀ o ∈ as, o ∈ os
  | [], as, h => by
    simp only [List.mapM_nil] at h
    cases h; simp
  | j :: js, as, h => by
    rw [List.mapM_cons] at h
    cases hj : os[j]? with
    | none => rw [hj] at h; cases h
    | some o =>
      rw [hj] at h
      cases hs : js.mapM (fun j => os[j]?) with
      | none => rw [hs] at h; cases h
      | some as' =>
        rw [hs] at h
        cases h
        intro o' ho'
        rcases List.mem_cons.1 ho' with rfl | h
        · exact List.mem_of_getElem? hj
        · exact mem_of_lookup hs o' h

/-! ## Circuits -/

namespace Circuit

/-- The laws of the operations of a circuit. -/
def All (P : Op p → Prop) (c : Circuit p) : Prop := ∀ i ∈ c, P i.1

theorem tidy_step {i : Op p × List ℕ} (h : ∀ os, Tidy (i.1.run os)) (os : List (Obj p)) :
    Tidy (step i os) :=
  (Tidy.ofOption _).bind fun _ => (h _).bind fun _ => Tidy.pure _

theorem tidy_runFrom : ∀ {c : Circuit p}, All (fun o => ∀ os, Tidy (o.run os)) c →
    ∀ os, Tidy (runFrom c os)
  | [], _, _ => Tidy.pure _
  | i :: c, h, _ => (tidy_step (h i (by simp)) _).bind fun _ =>
    tidy_runFrom (fun j hj => h j (by simp [hj])) _

theorem comp_step {i : Op p × List ℕ} (h : Completes i.1.run i.1.meaning) {s : Hon p}
    {os : List (Obj p)} {vs rs : List (Val p)} (hs : ∀ o ∈ os, o.Scoped s.next)
    (hm : MeansAll s.W os vs) (hr : stepMeaning i vs = some rs) :
    Comp (step i os) s (Yields s rs) := by
  unfold stepMeaning at hr
  unfold step
  rcases hm.lookup i.2 with ⟨as, bs, g1, g2, g3, g4⟩ | ⟨_, g2⟩
  · rw [g2] at hr
    cases hb : i.1.meaning bs with
    | none => simp [hb] at hr
    | some r =>
      have hr' : vs ++ r = rs := by simpa [hb] using hr
      subst hr'
      refine Comp.ofOption_bind g1 ?_
      refine (h s as bs r (fun o ho => hs o (g4 o ho)) g3 hb).bind fun os' t l ⟨h1, h2, h3⟩ =>
        Comp.pure ⟨h1, fun o ho => ?_, ?_⟩
      · rcases List.mem_append.1 ho with ho | ho
        · exact (hs o ho).mono l.1
        · exact h2 o ho
      · exact (hm.congr l.2 hs).append h3
  · rw [g2] at hr; cases hr

theorem comp_runFrom : ∀ {c : Circuit p}, All (fun o => Completes o.run o.meaning) c →
    ∀ {s : Hon p} {os : List (Obj p)} {vs rs : List (Val p)}, (∀ o ∈ os, o.Scoped s.next) →
    MeansAll s.W os vs → meaningFrom c vs = some rs → Comp (runFrom c os) s (Yields s rs)
  | [], _, s, os, vs, rs, hs, hm, hr => by
    cases hr
    exact Comp.pure ⟨rfl, hs, hm⟩
  | i :: c, h, s, os, vs, rs, hs, hm, hr => by
    unfold meaningFrom at hr
    cases hv : stepMeaning i vs with
    | none => rw [hv] at hr; cases hr
    | some vs' =>
      rw [hv] at hr
      unfold runFrom
      exact (comp_step (h i (by simp)) hs hm hv).bind fun os' t l ⟨h1, h2, h3⟩ =>
        (comp_runFrom (fun j hj => h j (by simp [hj])) h2 h3 hr).mono
          fun os'' u l' ⟨g1, g2, g3⟩ => ⟨g1.trans h1, g2, g3⟩

theorem enforces_step {i : Op p × List ℕ} (h : Pins i.1.run i.1.meaning) (os : List (Obj p)) :
    Enforces (step i os) fun os' W => ∀ vs, MeansAll W os vs →
      ∃ rs, stepMeaning i vs = some rs ∧ MeansAll W os' rs := by
  unfold step stepMeaning
  refine (Enforces.ofOption (Q := fun a _ => (i.2.mapM fun j => os[j]?) = some a)
    fun a h _ _ => h).bind fun as => (h as).bind fun os' => Enforces.pure fun W _ hW has vs hvs => ?_
  rcases hvs.lookup i.2 with ⟨as', bs, g1, g2, g3, g4⟩ | ⟨g1, _⟩
  · rw [g1] at has
    cases has
    obtain ⟨r, h1, h2⟩ := hW bs g3
    exact ⟨vs ++ r, by rw [g2]; simp [h1], hvs.append h2⟩
  · rw [g1] at has; cases has

theorem enforces_runFrom : ∀ {c : Circuit p}, All (fun o => Pins o.run o.meaning) c →
    ∀ os : List (Obj p), Enforces (runFrom c os) fun os' W => ∀ vs, MeansAll W os vs →
      ∃ rs, meaningFrom c vs = some rs ∧ MeansAll W os' rs
  | [], _, os => Enforces.pure fun W _ vs hvs => ⟨vs, rfl, hvs⟩
  | i :: c, h, os => by
    unfold runFrom
    refine (enforces_step (h i (by simp)) os).bind fun os' =>
      (enforces_runFrom (fun j hj => h j (by simp [hj])) os').mono fun os'' W _ h2 h1 vs hvs => ?_
    obtain ⟨rs, e1, e2⟩ := h1 vs hvs
    obtain ⟨rs', e3, e4⟩ := h2 rs e2
    exact ⟨rs', by unfold meaningFrom; rw [e1]; exact e3, e4⟩

/-- The result of a call is that of the same call in any honest state with as many wires. -/
theorem _root_.R1CS.Prog.same {m : B p α} (hm : Prog m) {b b1 : Builder p} {a : α}
    (h : m b = some (a, b1)) {s : Hon p} (hs : s.b = ⟨b.nextWireIndex, [], []⟩)
    {Q : α → Hon p → Prop} (hc : Comp m s Q) : ∃ t : Hon p, t.next = b1.nextWireIndex ∧ Q a t := by
  obtain ⟨a', t, h1, _, h3⟩ := hc
  obtain ⟨cs, gs, _, _, hfr⟩ := hm.frame_append h
  have := hfr [] []
  rw [hs, this] at h1
  obtain ⟨rfl, h4⟩ := Prod.ext_iff.1 (Option.some.inj h1)
  refine ⟨t, ?_, h3⟩
  show t.b.nextWireIndex = _
  rw [← show _ = t.b from h4]

theorem accepted_runFrom (hc : ∀ o : Op p, Completes o.run o.meaning)
    (hk : ∀ o : Op p, Checks o.run o.meaning) (ht : ∀ (o : Op p) os, Tidy (o.run os)) :
    ∀ (c : Circuit p) {pre : B p (List (Obj p))} {os rs : List (Obj p)} {vs : List (Val p)}
      {b b1 : Builder p} {v v' : WireValues p}, Tidy pre → pre Builder.new = some (os, b) →
      runFrom c os b = some (rs, b1) → (∀ o ∈ os, o.Scoped b.nextWireIndex) → v ONE = some 1 →
      (∀ i, b.nextWireIndex ≤ i → i < b1.nextWireIndex → v i = none) →
      b1.build.execute v = some (v', true) → MeansAll v'.total os vs →
      ∃ ys, meaningFrom c vs = some ys ∧ MeansAll v'.total rs ys
  | [], pre, os, rs, vs, b, b1, v, v', _, _, hr, _, _, _, _, hm => by
    obtain ⟨rfl, _⟩ := Prod.ext_iff.1 (Option.some.inj hr)
    exact ⟨vs, rfl, hm⟩
  | i :: c, pre, os, rs, vs, b, b1, v, v', hpre, hb, hr, hs, hv1, hv, hex, hm => by
    have hr0 : (step i os >>= fun os' => runFrom c os') b = some (rs, b1) := hr
    obtain ⟨os', b', e1, e2⟩ := B.bind_run hr0
    have hle := (C23_appends (tidy_runFrom (c := c) (fun j _ => ht j.1) os').1 e2).1
    have hle0 := (C23_appends hpre.1 hb).1
    have hst := tidy_step (i := i) (ht i.1) os
    -- the meaning of this instruction is defined
    obtain ⟨as, b0, e3, e4⟩ := B.bind_run e1
    obtain ⟨e3', rfl⟩ := B.ofOption_eq_some e3
    clear e3
    rename' e3' => e3, b0 => b
    obtain ⟨r, b2, e5, e6⟩ := B.bind_run e4
    have e7 : os ++ r = os' ∧ b2 = b' := Prod.ext_iff.1 (Option.some.inj e6)
    obtain ⟨rfl, rfl⟩ := e7
    have hdef := hk i.1 _ as (fun o ho => hs o (mem_of_lookup e3 o ho)) _ _ pre
      (fun os0 r => runFrom c (os0 ++ r)) os r rs _ b2 b1 hpre
      (fun _ _ => tidy_runFrom (fun j _ => ht j.1) _) hb rfl e5 e2 v v' hv1
      (fun j g1 g2 => hv j g1 (by omega)) hex
    obtain ⟨as', bs, g1, g2, g3, g4⟩ | ⟨g1, _⟩ := hm.lookup i.2
    swap
    · rw [g1] at e3; cases e3
    rw [g1] at e3
    cases e3
    obtain ⟨r', hr'⟩ := Option.isSome_iff_exists.1 (hdef bs g3)
    have hstep : stepMeaning i vs = some (vs ++ r') := by
      unfold stepMeaning
      rw [g2]; simp [hr']
    -- hence its results have their values
    have hloc := Locally.of_comp hst (n := b.nextWireIndex)
      (P := fun W => MeansAll W os vs) (Q := fun os' W => MeansAll W os' (vs ++ r'))
      fun s hsn hP => (comp_step (hc i.1) (by rw [hsn]; exact hs) hP hstep).mono
        fun os' t _ ⟨h1, h2, h3⟩ => ⟨h1.symm, fun W hW => h3.congr hW h2⟩
    have hval := hloc _ _ pre (fun _ os' => runFrom c os') os (os ++ r) rs b b2 b1 hpre
      (fun _ _ => tidy_runFrom (fun j _ => ht j.1) _) hb rfl e1 e2 v v' true hv1
      (fun j g1 g2 => hv j g1 (by omega)) hex hm
    have hone : v'.total ONE = 1 := by
      have hall : (pre >>= fun os => runFrom (i :: c) os) Builder.new = some (rs, b1) := by
        rw [B.bind_eq hb, hr]
      exact (Accepted.satisfies (hpre.bind fun os => tidy_runFrom (fun j _ => ht j.1) os) hall hv1
        hex).one
    obtain ⟨t, ht1, _, ht2, _⟩ := hst.1.same e1
      (s := Hon.free b.nextWireIndex (le_trans (by simp [Builder.new]) hle0) v'.total hone) rfl
      (comp_step (hc i.1) (s := Hon.free b.nextWireIndex _ v'.total hone) hs hm hstep)
    have hle2 := (C23_appends hst.1 e1).1
    obtain ⟨ys, h1, h2⟩ := accepted_runFrom hc hk ht c (pre := pre >>= step i) (os := os ++ r)
      (vs := vs ++ r') (hpre.bind fun _ => tidy_step (ht i.1) _) (by rw [B.bind_eq hb, e1]) e2
      (by rw [← ht1]; exact ht2) hv1 (fun j g1 g2 => hv j (by omega) g2) hex hval
    exact ⟨ys, by unfold meaningFrom; rw [hstep]; exact h1, h2⟩

end Circuit

end R1CS
