import Verif.Spec.Admission
import Verif.Lemmas.LanguageMore
import Verif.Props.Language

/-!
# What straight-line code admits: proofs
-/

set_option linter.unusedSectionVars false
set_option linter.unusedVariables false

namespace R1CS

variable {p : ℕ} [hp : Fact p.Prime] {α β : Type}

open Language

/-! ## Laws -/

/-- The constraints admit no results but those related to the operands. -/
def Bounds (r : List (Obj p) → B p (List (Obj p))) (A : List (Val p) → List (Val p) → Prop) : Prop :=
  ∀ os : List (Obj p), Enforces (r os) fun os' W => ∀ vs, MeansAll W os vs →
    ∃ rs, A vs rs ∧ MeansAll W os' rs

/-- The results are the given values. -/
def Gives (rs : List (Val p)) (os : List (Obj p)) (t : Wit p) : Prop :=
  (∀ o ∈ os, o.Scoped t.next) ∧ MeansAll t.W os rs

/-- All results related to the operands can be reached. -/
def Reaches (r : List (Obj p) → B p (List (Obj p))) (A : List (Val p) → List (Val p) → Prop) : Prop :=
  ∀ (s : Wit p) (os : List (Obj p)) (vs rs : List (Val p)), (∀ o ∈ os, o.Scoped s.next) →
    MeansAll s.W os vs → A vs rs → Can (r os) s (Gives rs)

/-! ## Operands -/

theorem mapM_expr : ∀ {os : List (Obj p)} {es : List (Expression p)},
    os.mapM expr? = some es → os = es.map .expr
  | [], es, h => by simp only [List.mapM_nil] at h; cases h; rfl
  | o :: os, es, h => by
    rw [List.mapM_cons] at h
    cases o with
    | expr e =>
      cases hs : os.mapM expr? with
      | none => rw [hs] at h; cases h
      | some es' =>
        rw [hs] at h
        cases h
        rw [mapM_expr hs]
        rfl
    | bool e => cases h
    | bin e => cases h

theorem mapM_elem : ∀ {vs : List (Val p)} {xs : List (Elem p)},
    vs.mapM elem? = some xs → vs = xs.map .elem
  | [], xs, h => by simp only [List.mapM_nil] at h; cases h; rfl
  | v :: vs, xs, h => by
    rw [List.mapM_cons] at h
    cases v with
    | elem x =>
      cases hs : vs.mapM elem? with
      | none => rw [hs] at h; cases h
      | some xs' =>
        rw [hs] at h
        cases h
        rw [mapM_elem hs]
        rfl
    | bool e => cases h
    | bits e => cases h

theorem mapM_bits : ∀ {vs : List (Val p)} {xs : List (List Bool)},
    vs.mapM bits? = some xs → vs = xs.map .bits
  | [], xs, h => by simp only [List.mapM_nil] at h; cases h; rfl
  | v :: vs, xs, h => by
    rw [List.mapM_cons] at h
    cases v with
    | bits x =>
      cases hs : vs.mapM bits? with
      | none => rw [hs] at h; cases h
      | some xs' =>
        rw [hs] at h
        cases h
        rw [mapM_bits hs]
        rfl
    | bool e => cases h
    | elem e => cases h

/-- Objects standing for elements are expressions. -/
theorem MeansAll.elems {W : Assign p} : ∀ {os : List (Obj p)} {xs : List (Elem p)},
    MeansAll W os (xs.map .elem) → ∃ es, os = es.map .expr ∧ values W es = xs
  | [], [], _ => ⟨[], rfl, rfl⟩
  | o :: os, x :: xs, .cons h h' => by
    obtain ⟨es, rfl, rfl⟩ := MeansAll.elems h'
    cases o with
    | expr e => exact ⟨e :: es, rfl, by rw [← show e.eval W = x from h]; rfl⟩
    | bool e => exact absurd h id
    | bin e => exact absurd h id

theorem MeansAll.elem1 {W : Assign p} {os : List (Obj p)} {x : Elem p}
    (h : MeansAll W os [.elem x]) : ∃ e, os = [.expr e] ∧ e.eval W = x := by
  obtain ⟨es, rfl, g⟩ := MeansAll.elems (xs := [x]) h
  match es, g with
  | [e], g => exact ⟨e, rfl, by simpa [values] using g⟩

theorem MeansAll.elem2 {W : Assign p} {os : List (Obj p)} {x y : Elem p}
    (h : MeansAll W os [.elem x, .elem y]) :
    ∃ e f, os = [.expr e, .expr f] ∧ e.eval W = x ∧ f.eval W = y := by
  obtain ⟨es, rfl, g⟩ := MeansAll.elems (xs := [x, y]) h
  match es, g with
  | [e, f], g => exact ⟨e, f, rfl, by simpa [values] using g⟩

theorem MeansAll.elem3 {W : Assign p} {os : List (Obj p)} {x y z : Elem p}
    (h : MeansAll W os [.elem x, .elem y, .elem z]) :
    ∃ e f i, os = [.expr e, .expr f, .expr i] ∧ e.eval W = x ∧ f.eval W = y ∧ i.eval W = z := by
  obtain ⟨es, rfl, g⟩ := MeansAll.elems (xs := [x, y, z]) h
  match es, g with
  | [e, f, i], g => exact ⟨e, f, i, rfl, by simpa [values] using g⟩

theorem MeansAll.elem4 {W : Assign p} {os : List (Obj p)} {x y z t : Elem p}
    (h : MeansAll W os [.elem x, .elem y, .elem z, .elem t]) :
    ∃ e f i j, os = [.expr e, .expr f, .expr i, .expr j] ∧ e.eval W = x ∧ f.eval W = y ∧
      i.eval W = z ∧ j.eval W = t := by
  obtain ⟨es, rfl, g⟩ := MeansAll.elems (xs := [x, y, z, t]) h
  match es, g with
  | [e, f, i, j], g => exact ⟨e, f, i, j, rfl, by simpa [values] using g⟩

theorem MeansAll.elem5 {W : Assign p} {os : List (Obj p)} {x y z t u : Elem p}
    (h : MeansAll W os [.elem x, .elem y, .elem z, .elem t, .elem u]) :
    ∃ e f i j k, os = [.expr e, .expr f, .expr i, .expr j, .expr k] ∧ e.eval W = x ∧ f.eval W = y ∧
      i.eval W = z ∧ j.eval W = t ∧ k.eval W = u := by
  obtain ⟨es, rfl, g⟩ := MeansAll.elems (xs := [x, y, z, t, u]) h
  match es, g with
  | [e, f, i, j, k], g => exact ⟨e, f, i, j, k, rfl, by simpa [values] using g⟩

theorem MeansAll.bits2 {W : Assign p} {os : List (Obj p)} {l k : List Bool}
    (h : MeansAll W os [.bits l, .bits k]) :
    ∃ x y, os = [.bin x, .bin y] ∧ Kind.bin.rel W x l ∧ Kind.bin.rel W y k := by
  cases h with | cons h1 h => cases h with | cons h2 h => cases h with | nil =>
  rename_i o1 o2
  cases o1 <;> cases o2 <;> first
    | exact ⟨_, _, rfl, h1, h2⟩ | exact absurd h1 id | exact absurd h2 id

/-! ## Bounds -/

theorem bounds_exprs {F : List (Expression p) → B p (List (Obj p))}
    {A : List (Val p) → List (Val p) → Prop}
    (h : ∀ es, Enforces (F es) fun os' W => ∃ rs, A ((values W es).map .elem) rs ∧
      MeansAll W os' rs) : Bounds (onAll expr? F) A := by
  intro os
  unfold onAll
  refine (Enforces.ofOption (Q := fun a _ => os.mapM expr? = some a) fun a h _ _ => h).bind
    fun as => (h as).mono fun os' W _ hW has vs hvs => ?_
  rcases Kind.expr.meansAll hvs with ⟨as', bs, g1, g2, g3⟩ | ⟨g1, _⟩
  · rw [g1] at has
    cases has
    rw [mapM_elem g2, ← values_of_rel g3]
    exact hW
  · rw [g1] at has; cases has

theorem bounds_call1 {F : Expression p → B p (List (Obj p))}
    {A : List (Val p) → List (Val p) → Prop}
    (h : ∀ x, Enforces (F x) fun os' W => ∃ rs, A [.elem (x.eval W)] rs ∧ MeansAll W os' rs) :
    Bounds (onAll expr? (call1 F)) A :=
  bounds_exprs fun es => match es with
    | [x] => h x
    | [] | _ :: _ :: _ => Enforces.panic

theorem bounds_call2 {F : Expression p → Expression p → B p (List (Obj p))}
    {A : List (Val p) → List (Val p) → Prop}
    (h : ∀ x y, Enforces (F x y) fun os' W => ∃ rs, A [.elem (x.eval W), .elem (y.eval W)] rs ∧
      MeansAll W os' rs) : Bounds (onAll expr? (call2 F)) A :=
  bounds_exprs fun es => match es with
    | [x, y] => h x y
    | [] | [_] | _ :: _ :: _ :: _ => Enforces.panic

theorem bounds_call3 {F : Expression p → Expression p → Expression p → B p (List (Obj p))}
    {A : List (Val p) → List (Val p) → Prop}
    (h : ∀ x y z, Enforces (F x y z) fun os' W =>
      ∃ rs, A [.elem (x.eval W), .elem (y.eval W), .elem (z.eval W)] rs ∧ MeansAll W os' rs) :
    Bounds (onAll expr? (call3 F)) A :=
  bounds_exprs fun es => match es with
    | [x, y, z] => h x y z
    | [] | [_] | [_, _] | _ :: _ :: _ :: _ :: _ => Enforces.panic

theorem bounds_call4
    {F : Expression p → Expression p → Expression p → Expression p → B p (List (Obj p))}
    {A : List (Val p) → List (Val p) → Prop}
    (h : ∀ x y z t, Enforces (F x y z t) fun os' W =>
      ∃ rs, A [.elem (x.eval W), .elem (y.eval W), .elem (z.eval W), .elem (t.eval W)] rs ∧
        MeansAll W os' rs) :
    Bounds (onAll expr? (call4 F)) A :=
  bounds_exprs fun es => match es with
    | [x, y, z, t] => h x y z t
    | [] | [_] | [_, _] | [_, _, _] | _ :: _ :: _ :: _ :: _ :: _ => Enforces.panic

theorem bounds_call5 {F : Expression p → Expression p → Expression p → Expression p →
      Expression p → B p (List (Obj p))}
    {A : List (Val p) → List (Val p) → Prop}
    (h : ∀ x y z t u, Enforces (F x y z t u) fun os' W =>
      ∃ rs, A [.elem (x.eval W), .elem (y.eval W), .elem (z.eval W), .elem (t.eval W),
        .elem (u.eval W)] rs ∧ MeansAll W os' rs) :
    Bounds (onAll expr? (call5 F)) A :=
  bounds_exprs fun es => match es with
    | [x, y, z, t, u] => h x y z t u
    | [] | [_] | [_, _] | [_, _, _] | [_, _, _, _] | _ :: _ :: _ :: _ :: _ :: _ :: _ =>
      Enforces.panic

theorem bounds_bins2 {F : BinaryExpression p → BinaryExpression p → B p (List (Obj p))}
    {A : List (Val p) → List (Val p) → Prop}
    (h : ∀ x y, Enforces (F x y) fun os' W => ∀ l k, Kind.bin.rel W x l → Kind.bin.rel W y k →
      ∃ rs, A [.bits l, .bits k] rs ∧ MeansAll W os' rs) : Bounds (onAll bin? (call2 F)) A := by
  intro os
  unfold onAll
  refine (Enforces.ofOption (Q := fun a _ => os.mapM bin? = some a) fun a h _ _ => h).bind
    fun as => ?_
  match as with
  | [x, y] =>
    refine (h x y).mono fun os' W _ hW has vs hvs => ?_
    rcases Kind.bin.meansAll hvs with ⟨as', bs, g1, g2, g3⟩ | ⟨g1, _⟩
    · rw [g1] at has
      cases has
      match bs, g3 with
      | [l, k], .cons e1 (.cons e2 .nil) =>
        rw [mapM_bits g2]
        exact hW l k e1 e2
    · rw [g1] at has; cases has
  | [] => exact Enforces.panic
  | [_] => exact Enforces.panic
  | _ :: _ :: _ :: _ => exact Enforces.panic

theorem IsBool.exists_ofBool {x : Elem p} (h : IsBool x) : ∃ b, x = Elem.ofBool b := by
  rcases h with h | h
  · exact ⟨false, h.trans Elem.ofBool_false.symm⟩
  · exact ⟨true, h.trans Elem.ofBool_true.symm⟩

theorem ofBool_one (b : Bool) : (Elem.ofBool b : Elem p) = 1 ↔ b = true := by
  cases b <;> simp [Elem.ofBool_true, Elem.ofBool_false]

theorem ofBool_zero (b : Bool) : (Elem.ofBool b : Elem p) = 0 ↔ b = false := by
  cases b <;> simp [Elem.ofBool_true, Elem.ofBool_false]

theorem bitsOf_natOf (l : List Bool) : bitsOf l.length (natOf l) = l := by
  induction l with
  | nil => rfl
  | cons b l ih =>
    have h1 : (natOf (b :: l)).testBit 0 = b := by
      rw [natOf, Nat.testBit_zero]
      cases b <;> simp [Nat.add_mod]
    have h2 : natOf (b :: l) / 2 = natOf l := by
      rw [natOf]
      cases b <;> simp <;> omega
    rw [List.length_cons, bitsOf, List.range_succ_eq_map, List.map_cons, List.map_map, h1]
    refine congrArg _ (Eq.trans (List.map_congr_left fun i _ => ?_) ih)
    rw [Function.comp_apply, Nat.succ_eq_add_one, Nat.testBit_succ, h2]

theorem elem_eq_add (x : Elem p) : x = ((x.n + p : ℕ) : Elem p) := by
  have h0 : ((p : ℕ) : Elem p) = 0 := by
    refine Elem.ext_n ?_
    rw [Elem.natCast_n, Nat.mod_self]; rfl
  rw [Nat.cast_add, Elem.natCast_self_n, h0, add_zero]

theorem mapM_map_expr : ∀ es : List (Expression p), (es.map Obj.expr).mapM expr? = some es
  | [] => rfl
  | e :: es => by
    rw [List.map_cons, List.mapM_cons, mapM_map_expr es]
    rfl

theorem mapM_map_elem : ∀ xs : List (Elem p), (xs.map Val.elem).mapM elem? = some xs
  | [] => rfl
  | x :: xs => by
    rw [List.map_cons, List.mapM_cons, mapM_map_elem xs]
    rfl

/-! ## Reaching -/

namespace Can

theorem givesExpr {m : B p (Expression p)} {s : Wit p} {v : Elem p}
    (h : Can m s fun z t => z.Scoped t.next ∧ z.eval t.W = v) :
    Can (Language.retExpr m) s (Gives [.elem v]) :=
  h.bind fun z t _ ⟨h1, h2⟩ => Can.pure ⟨by simpa [Obj.Scoped] using h1, meansAll_one h2⟩

theorem givesBool {m : B p (BooleanExpression p)} {s : Wit p} {v : Bool}
    (h : Can m s fun z t => z.Scoped t.next ∧ z.eval t.W = Elem.ofBool v) :
    Can (Language.retBool m) s (Gives [.bool v]) :=
  h.bind fun z t _ ⟨h1, h2⟩ => Can.pure ⟨by simpa [Obj.Scoped] using h1, meansAll_one h2⟩

theorem givesBin {m : B p (BinaryExpression p)} {s : Wit p} {v : List Bool}
    (h : Can m s fun z t => z.Scoped t.next ∧ (z.bits.map fun b => b.eval t.W) = v.map Elem.ofBool) :
    Can (Language.retBin m) s (Gives [.bits v]) :=
  h.bind fun z t _ ⟨h1, h2⟩ => Can.pure ⟨by simpa [Obj.Scoped] using h1, meansAll_one h2⟩

theorem givesNone {m : B p α} {s : Wit p} (h : Can m s fun _ _ => True) :
    Can (Language.retNone m) s (Gives []) :=
  h.bind fun z t _ _ => Can.pure ⟨by simp, .nil⟩

theorem givesPoint {m : B p (EdwardsExpression p)} {s : Wit p} {u v : Elem p}
    (h : Can m s fun P t => P.Scoped t.next ∧ P.x.eval t.W = u ∧ P.y.eval t.W = v) :
    Can (Language.retPoint m) s (Gives [.elem u, .elem v]) :=
  h.bind fun P t _ ⟨h1, h2, h3⟩ => Can.pure ⟨by
    intro o ho
    simp only [List.mem_cons, List.not_mem_nil, or_false] at ho
    rcases ho with rfl | rfl
    · exact h1.1
    · exact h1.2, .cons h2 (.cons h3 .nil)⟩

end Can

namespace Op

/-- What is meant can be reached. -/
theorem can_meaning (h4 : 4 ≤ Elem.maxBits p) (o : Op p) {s : Wit p} {os : List (Obj p)}
    {vs rs : List (Val p)} (hs : ∀ o ∈ os, o.Scoped s.next) (hm : MeansAll s.W os vs)
    (h : o.meaning vs = some rs) : Can (o.run os) s (Gives rs) :=
  (Can.ofComp (o.tidy h4 os).1 ((o.lawful h4).comp s.toHon os vs rs hs hm h)).mono
    fun os' t _ ⟨u, h1, h2, _, h3, h5⟩ => ⟨h1 ▸ h3, h2 ▸ h5⟩

/-- Results are within scope where the meaning is defined. -/
theorem can_scoped (h4 : 4 ≤ Elem.maxBits p) (o : Op p) {s : Wit p} {os : List (Obj p)}
    {vs rs rs' : List (Val p)} (hs : ∀ o ∈ os, o.Scoped s.next) (hm : MeansAll s.W os vs)
    (h : o.meaning vs = some rs) (hc : Can (o.run os) s fun os' t => MeansAll t.W os' rs') :
    Can (o.run os) s (Gives rs') := by
  obtain ⟨a, t, e1, e2, e3⟩ := hc
  obtain ⟨a', t', e1', _, e3', _⟩ := can_meaning h4 o hs hm h
  rw [e1] at e1'
  obtain ⟨rfl, h5⟩ := Prod.ext_iff.1 (Option.some.inj e1')
  refine ⟨a, t, e1, e2, ?_, e3⟩
  show ∀ o ∈ a, o.Scoped t.b.nextWireIndex
  rw [show t.b = t'.b from h5]
  exact e3'

/-- Gadgets which pin their results down admit only what is meant. -/
theorem admits_pinned (o : Op p) (h : o.pinned = true) (vs rs : List (Val p)) :
    o.admits vs rs ↔ o.meaning vs = some rs := by
  cases o with
  | cmpBinary r => cases h
  | assertCmpBinary r => cases r <;> first | exact Iff.rfl | cases h
  | _ => first | exact Iff.rfl | cases h

theorem bounds_pinned (h4 : 4 ≤ Elem.maxBits p) (o : Op p) (h : o.pinned = true) :
    Bounds o.run fun vs rs => o.meaning vs = some rs :=
  fun os => (o.lawful h4).pins h os

/-! ### What is admitted at most -/

theorem bounds_bool2 {m : Expression p → Expression p → B p (BooleanExpression p)}
    {A : List (Val p) → List (Val p) → Prop}
    (h : ∀ x y, Enforces (m x y) fun z W => ∃ b, z.eval W = Elem.ofBool b ∧
      A [.elem (x.eval W), .elem (y.eval W)] [.bool b]) :
    Bounds (onAll expr? (call2 fun x y => retBool (m x y))) A :=
  bounds_call2 fun x y => (h x y).retBool.mono fun os' W _ hz => by
    obtain ⟨_, z, rfl, b, h1, h2⟩ := hz
    exact ⟨_, h2, meansAll_one h1⟩

theorem bounds_cmp {less strict : Bool} {R : Elem p → ℕ → ℕ → Prop}
    {A : List (Val p) → List (Val p) → Prop}
    (h : ∀ x y : BinaryExpression p, Enforces (B.cmpBinary x y less strict) fun z W =>
      IsBool (z.eval W) ∧ (x.AllBool W → y.AllBool W → R (z.eval W) (x.val W) (y.val W)))
    (hA : ∀ l k b, Comparable (Elem.maxBits p) l k → R (Elem.ofBool b) (natOf l) (natOf k) →
      A [.bits l, .bits k] [.bool b]) :
    Bounds (onAll bin? (call2 fun x y => retBool (B.cmpBinary x y less strict))) A := by
  refine bounds_bins2 fun x y => ?_
  unfold retBool
  refine enforces_comparable fun hc => (h x y).bind fun z => Enforces.pure fun W _ hz l k hl hk => ?_
  obtain ⟨x1, x2, x3⟩ := bin_val hl
  obtain ⟨y1, y2, y3⟩ := bin_val hk
  obtain ⟨b, hb⟩ := hz.1.exists_ofBool
  have := hz.2 x1 y1
  rw [hb, x3, y3] at this
  exact ⟨[.bool b], hA l k b ((comparable_iff hl hk).2 hc) this, meansAll_one hb⟩

theorem bounds_assertCmp {less strict : Bool} {A : List (Val p) → List (Val p) → Prop}
    (hA : ∀ l k, Comparable (Elem.maxBits p) l k → A [.bits l, .bits k] []) :
    Bounds (onAll bin? (call2 fun x y => retNone
      (B.cmpBinary x y less strict >>= fun r => B.assertTrue r))) A := by
  refine bounds_bins2 fun x y => ?_
  have : retNone (B.cmpBinary x y less strict >>= fun r => B.assertTrue r) =
      B.cmpBinary x y less strict >>= fun r => retNone (B.assertTrue r) := by
    unfold retNone; rw [bind_assoc]
  rw [this]
  refine enforces_comparable fun hc => (Prog.cmpBinary _ _ _ _).enforces.bind fun z =>
    (Tidy.assertTrue z).1.enforces.retNone.mono fun os' W _ hz _ l k hl hk => ?_
  obtain ⟨_, rfl, _⟩ := hz
  exact ⟨[], hA l k ((comparable_iff hl hk).2 hc), .nil⟩

theorem bounds_signature (C : EdwardsCurve p) (G : EdwardsPoint p) (h : PairHash p) :
    Bounds (schnorrVerify C G h : Op p).run (schnorrVerify C G h : Op p).admits := by
  have key : ∀ s e m x y : Expression p, Enforces (retNone (R1CS.schnorrVerify
      (cyclicSubgroup (EdwardsGroup.ops C) (some G)) h.code ⟨s, e⟩ m ⟨x, y⟩))
      fun os' W => ∃ rs, (schnorrVerify C G h : Op p).admits [.elem (s.eval W), .elem (e.eval W),
        .elem (m.eval W), .elem (x.eval W), .elem (y.eval W)] rs ∧ MeansAll W os' rs := by
    intro s e m x y
    have h1 := C69_hash_enforced (cyclicSubgroup (EdwardsGroup.ops C) (some G))
      (EdwardsGroup.prog_add C) (EdwardsGroup.prog_double C) (c := h.code) h.sound ⟨s, e⟩ m ⟨x, y⟩
    refine h1.retNone.mono fun os' W _ hz => ?_
    obtain ⟨_, rfl, _, t, ht⟩ := hz
    exact ⟨[], ⟨_, _, _, _, _, t, rfl, rfl, ht⟩, .nil⟩
  exact bounds_call5 key

theorem bounds_admits (h4 : 4 ≤ Elem.maxBits p) (o : Op p) : Bounds o.run o.admits := by
  by_cases hpin : o.pinned = true
  · intro os
    refine (o.bounds_pinned h4 hpin os).mono fun _ _ _ h vs hvs => ?_
    obtain ⟨rs, h1, h2⟩ := h vs hvs
    exact ⟨rs, (o.admits_pinned hpin vs rs).2 h1, h2⟩
  cases o with
  | lt =>
    refine bounds_bool2 fun x y => (C39_comparisons_partial x y).1.mono fun z W _ ⟨h1, h2⟩ => ?_
    obtain ⟨b, hb⟩ := h1.exists_ofBool
    exact ⟨b, hb, _, _, _, rfl, rfl, fun e => h2 (hb.trans ((ofBool_one b).2 e))⟩
  | gt =>
    refine bounds_bool2 fun x y => (C39_comparisons_partial x y).2.1.mono fun z W _ ⟨h1, h2⟩ => ?_
    obtain ⟨b, hb⟩ := h1.exists_ofBool
    exact ⟨b, hb, _, _, _, rfl, rfl, fun e => h2 (hb.trans ((ofBool_one b).2 e))⟩
  | le =>
    refine bounds_bool2 fun x y => (C39_comparisons_partial x y).2.2.1.mono fun z W _ ⟨h1, h2⟩ => ?_
    obtain ⟨b, hb⟩ := h1.exists_ofBool
    exact ⟨b, hb, _, _, _, rfl, rfl, fun e => h2 (hb.trans ((ofBool_zero b).2 e))⟩
  | ge =>
    refine bounds_bool2 fun x y => (C39_comparisons_partial x y).2.2.2.mono fun z W _ ⟨h1, h2⟩ => ?_
    obtain ⟨b, hb⟩ := h1.exists_ofBool
    exact ⟨b, hb, _, _, _, rfl, rfl, fun e => h2 (hb.trans ((ofBool_zero b).2 e))⟩
  | divides =>
    refine bounds_bool2 fun x y => (C43_divides_partial x y).mono fun z W _ ⟨h1, h2, h3⟩ => ?_
    obtain ⟨b, hb⟩ := h1.exists_ofBool
    refine ⟨b, hb, _, _, _, rfl, rfl, fun e => h2 (Elem.ext_n (e.trans Elem.zero_n.symm)), ?_⟩
    rintro rfl e
    have := h3 e
    rw [hb] at this
    exact absurd ((ofBool_one _).1 this) (by simp)
  | inverseOrZero =>
    refine bounds_call1 fun x => (Enforces.inverseOrZero x).retExpr.mono fun os' W _ hz => ?_
    obtain ⟨_, z, rfl, h⟩ := hz
    refine ⟨[.elem (z.eval W)], ⟨_, _, rfl, rfl, ?_⟩, meansAll_one rfl⟩
    by_cases h0 : x.eval W = 0
    · exact Or.inl h0
    · exact Or.inr (by rw [h h0, inv_mul_cancel₀ h0])
  | quotientUnsafe =>
    refine bounds_call2 fun x y => (Prog.quotientUnsafe x y).enforces.retExpr.mono
      fun os' W _ hz => ?_
    obtain ⟨_, z, rfl, _⟩ := hz
    exact ⟨[.elem (z.eval W)], ⟨_, _, _, rfl, rfl⟩, meansAll_one rfl⟩
  | assertLe =>
    refine bounds_call2 fun x y => (Tidy.assertLe x y).1.enforces.retNone.mono fun os' W _ hz => ?_
    obtain ⟨_, rfl, _⟩ := hz
    exact ⟨[], ⟨_, _, rfl, rfl⟩, .nil⟩
  | assertGe =>
    refine bounds_call2 fun x y => (Tidy.assertGe x y).1.enforces.retNone.mono fun os' W _ hz => ?_
    obtain ⟨_, rfl, _⟩ := hz
    exact ⟨[], ⟨_, _, rfl, rfl⟩, .nil⟩
  | modulus =>
    refine bounds_call2 fun x y => (C43_modulus_partial x y).retExpr.mono fun os' W _ hz => ?_
    obtain ⟨_, z, rfl, h, _⟩ := hz
    exact ⟨[.elem (z.eval W)], ⟨_, _, _, rfl, rfl, h⟩, meansAll_one rfl⟩
  | splitAllowingAmbiguity =>
    refine bounds_call1 fun x => (Enforces.splitAllowingAmbiguity x).retBin.mono fun os' W _ hz => ?_
    obtain ⟨_, z, rfl, h1, h2, h3⟩ := hz
    have hb := bin_of_val h1
    obtain ⟨_, b2, b3⟩ := bin_val hb
    exact ⟨[.bits (bitsOf z.len (z.val W))], ⟨_, _, rfl, rfl, by rw [← b2, h2], by rwa [← b3]⟩,
      meansAll_one hb⟩
  | cmpBinary r =>
    cases r with
    | lt =>
      exact bounds_cmp (R := fun z a b => z = 1 → a < b)
        (fun x y => (C39_binary_comparisons_partial x y).1)
        fun l k b hc hr => ⟨_, _, _, rfl, rfl, hc, fun e => hr ((ofBool_one b).2 e)⟩
    | gt =>
      exact bounds_cmp (R := fun z a b => z = 1 → a > b)
        (fun x y => (C39_binary_comparisons_partial x y).2.1)
        fun l k b hc hr => ⟨_, _, _, rfl, rfl, hc, fun e => hr ((ofBool_one b).2 e)⟩
    | le =>
      exact bounds_cmp (R := fun z a b => z = 0 → a > b)
        (fun x y => (C39_binary_comparisons_partial x y).2.2.1)
        fun l k b hc hr => ⟨_, _, _, rfl, rfl, hc, fun e => hr ((ofBool_zero b).2 e)⟩
    | ge =>
      exact bounds_cmp (R := fun z a b => z = 0 → a < b)
        (fun x y => (C39_binary_comparisons_partial x y).2.2.2)
        fun l k b hc hr => ⟨_, _, _, rfl, rfl, hc, fun e => hr ((ofBool_zero b).2 e)⟩
  | assertCmpBinary r =>
    cases r with
    | lt => exact absurd rfl hpin
    | gt => exact absurd rfl hpin
    | le => exact bounds_assertCmp fun l k hc => ⟨_, _, rfl, rfl, hc⟩
    | ge => exact bounds_assertCmp fun l k hc => ⟨_, _, rfl, rfl, hc⟩
  | sortAscending =>
    refine bounds_exprs fun es => ?_
    by_cases he : es = []
    · subst he
      intro b os' b' h
      cases h
    refine (C54_sort_partial es).1.retExprs.mono fun os' W _ hz => ?_
    obtain ⟨_, z, rfl, _, h⟩ := hz
    exact ⟨(values W z).map .elem, ⟨_, _, rfl, rfl, by simpa [values] using he, h⟩, meansAll_exprs rfl⟩
  | sortDescending =>
    refine bounds_exprs fun es => ?_
    by_cases he : es = []
    · subst he
      intro b os' b' h
      cases h
    refine (C54_sort_partial es).2.retExprs.mono fun os' W _ hz => ?_
    obtain ⟨_, z, rfl, _, h⟩ := hz
    exact ⟨(values W z).map .elem, ⟨_, _, rfl, rfl, by simpa [values] using he, h⟩, meansAll_exprs rfl⟩
  | edwardsAdd C =>
    refine bounds_call4 fun x y x' y' => (EdwardsGroup.prog_add C _ _).enforces.retPoint.mono
      fun os' W _ hz => ?_
    obtain ⟨P, rfl, _⟩ := hz
    exact ⟨[.elem (P.x.eval W), .elem (P.y.eval W)], ⟨_, _, _, _, _, _, rfl, rfl⟩,
      .cons rfl (.cons rfl .nil)⟩
  | edwardsDouble C =>
    refine bounds_call2 fun x y => (EdwardsGroup.prog_double C _).enforces.retPoint.mono
      fun os' W _ hz => ?_
    obtain ⟨P, rfl, _⟩ := hz
    exact ⟨[.elem (P.x.eval W), .elem (P.y.eval W)], ⟨_, _, _, _, rfl, rfl⟩,
      .cons rfl (.cons rfl .nil)⟩
  | edwardsMulScalar C =>
    refine bounds_call3 fun x y k => (GroupOps.prog_mulScalar (EdwardsGroup.prog_add C)
      (EdwardsGroup.prog_double C) _ _).enforces.retPoint.mono fun os' W _ hz => ?_
    obtain ⟨P, rfl, _⟩ := hz
    exact ⟨[.elem (P.x.eval W), .elem (P.y.eval W)], ⟨_, _, _, _, _, rfl, rfl⟩,
      .cons rfl (.cons rfl .nil)⟩
  | schnorrVerify C G h =>
    exact bounds_signature C G h
  | _ => exact absurd rfl hpin

/-! ### What can be reached -/

theorem can_cmp (h2p : 2 < p) {s : Wit p} {os : List (Obj p)} {l k : List Bool}
    (hs : ∀ o ∈ os, o.Scoped s.next) (hm : MeansAll s.W os [.bits l, .bits k])
    (hc : Comparable (Elem.maxBits p) l k) (less strict : Bool) :
    Can (onAll bin? (call2 fun x y => retBool (B.cmpBinary x y less strict)) os) s
      (Gives [.bool !strict]) := by
  obtain ⟨x, y, rfl, hl, hk⟩ := hm.bits2
  obtain ⟨c1, c2, c3⟩ := (comparable_iff hl hk).1 hc
  exact Can.givesBool (Can.cmpBinary_zero h2p (hs (.bin x) (by simp)) (hs (.bin y) (by simp))
    (bin_val hl).1 (bin_val hk).1 c1 c2 c3 less strict)

theorem can_assertCmp (h2p : 2 < p) {s : Wit p} {os : List (Obj p)} {l k : List Bool}
    (hs : ∀ o ∈ os, o.Scoped s.next) (hm : MeansAll s.W os [.bits l, .bits k])
    (hc : Comparable (Elem.maxBits p) l k) (less : Bool) :
    Can (onAll bin? (call2 fun x y => retNone
      (B.cmpBinary x y less false >>= fun r => B.assertTrue r)) os) s (Gives []) := by
  obtain ⟨x, y, rfl, hl, hk⟩ := hm.bits2
  obtain ⟨c1, c2, c3⟩ := (comparable_iff hl hk).1 hc
  exact Can.givesNone ((Can.cmpBinary_zero h2p (hs (.bin x) (by simp)) (hs (.bin y) (by simp))
    (bin_val hl).1 (bin_val hk).1 c1 c2 c3 less false).bind fun r s1 _ ⟨h1, h2⟩ =>
      (Can.assertTrue h1 (by rw [h2]; rfl)).mono fun _ _ _ _ => trivial)

theorem can_signature (h2p : 2 < p) (C : EdwardsCurve p) (G : EdwardsPoint p) (h' : PairHash p)
    {s : Wit p} {e1 e2 e3 e4 e5 : Expression p} (h1 : e1.Scoped s.next) (h2 : e2.Scoped s.next)
    (h3 : e3.Scoped s.next) (h5 : e4.Scoped s.next) (h6 : e5.Scoped s.next)
    (ht : ∃ t, h'.value t (e3.eval s.W) = e2.eval s.W) :
    Can ((schnorrVerify C G h' : Op p).run [.expr e1, .expr e2, .expr e3, .expr e4, .expr e5]) s
      (Gives []) := by
  have := Can.givesNone (C69_forgery_refuted h2p C (g := G) h'.complete
    (fun x y => (h'.tidy x y).1) s (σ := ⟨e1, e2⟩) (m := e3) (pk := ⟨e4, e5⟩) h1 h2 h3 ⟨h5, h6⟩ ht)
  exact this

theorem can_run_exprs {F : List (Expression p) → B p (List (Obj p))} {s : Wit p}
    {es : List (Expression p)} {Q : List (Obj p) → Wit p → Prop} (h : Can (F es) s Q) :
    Can (onAll expr? F (es.map .expr)) s Q := by
  exact Can.ofOption_bind (a := es) (mapM_map_expr es) h

theorem reaches_admits (h4 : 4 ≤ Elem.maxBits p) (o : Op p) : Reaches o.run o.admits := by
  have h2p := two_lt_of_maxBits h4
  intro s os vs rs hs hm h
  by_cases hpin : o.pinned = true
  · exact o.can_meaning h4 hs hm ((o.admits_pinned hpin vs rs).1 h)
  cases o with
  | lt =>
    obtain ⟨x, y, r, rfl, rfl, hr⟩ := h
    cases r with
    | true => exact can_meaning h4 _ hs hm (by simpa [meaning, elem?, fun2] using hr rfl)
    | false =>
      obtain ⟨e, f, rfl, rfl, rfl⟩ := hm.elem2
      exact Can.givesBool (Can.cmp_zero h4 (hs (.expr e) (by simp)) (hs (.expr f) (by simp)) true true)
  | gt =>
    obtain ⟨x, y, r, rfl, rfl, hr⟩ := h
    cases r with
    | true => exact can_meaning h4 _ hs hm (by simpa [meaning, elem?, fun2] using hr rfl)
    | false =>
      obtain ⟨e, f, rfl, rfl, rfl⟩ := hm.elem2
      exact Can.givesBool (Can.cmp_zero h4 (hs (.expr e) (by simp)) (hs (.expr f) (by simp)) false true)
  | le =>
    obtain ⟨x, y, r, rfl, rfl, hr⟩ := h
    cases r with
    | true =>
      obtain ⟨e, f, rfl, rfl, rfl⟩ := hm.elem2
      exact Can.givesBool (Can.cmp_zero h4 (hs (.expr e) (by simp)) (hs (.expr f) (by simp)) true false)
    | false =>
      rcases hr rfl with hr' | hr'
      · exact can_meaning h4 _ hs hm (by simpa [meaning, elem?, fun2] using hr')
      · obtain ⟨e, f, rfl, rfl, rfl⟩ := hm.elem2
        exact Can.givesBool (Can.cmp_ambiguous h4 (hs (.expr e) (by simp)) (hs (.expr f) (by simp)) true hr')
  | ge =>
    obtain ⟨x, y, r, rfl, rfl, hr⟩ := h
    cases r with
    | true =>
      obtain ⟨e, f, rfl, rfl, rfl⟩ := hm.elem2
      exact Can.givesBool (Can.cmp_zero h4 (hs (.expr e) (by simp)) (hs (.expr f) (by simp)) false false)
    | false =>
      rcases hr rfl with hr' | hr'
      · exact can_meaning h4 _ hs hm (by simpa [meaning, elem?, fun2] using hr')
      · obtain ⟨e, f, rfl, rfl, rfl⟩ := hm.elem2
        exact Can.givesBool (Can.cmp_ambiguous h4 (hs (.expr e) (by simp)) (hs (.expr f) (by simp)) false hr')
  | inverseOrZero =>
    obtain ⟨x, r, rfl, rfl, hr⟩ := h
    obtain ⟨e, rfl, rfl⟩ := hm.elem1
    by_cases h0 : e.eval s.W = 0
    · exact Can.givesExpr (Can.inverseOrZero_zero s (hs (.expr e) (by simp)) h0 r)
    · rcases hr with hr | hr
      · exact absurd hr h0
      · rw [eq_inv_of_mul_eq_one_left hr]
        exact Can.givesExpr (Can.inverseOrZero (hs (.expr e) (by simp)) h0)
  | quotientUnsafe =>
    obtain ⟨x, y, r, rfl, rfl⟩ := h
    obtain ⟨e, f, rfl, rfl, rfl⟩ := hm.elem2
    exact Can.givesExpr (Can.quotientUnsafe s e f r)
  | assertLe =>
    obtain ⟨x, y, rfl, rfl⟩ := h
    obtain ⟨e, f, rfl, rfl, rfl⟩ := hm.elem2
    exact Can.givesNone (C38_assert_le_unconstrained_refuted h4 s (hs (.expr e) (by simp))
      (hs (.expr f) (by simp))).1
  | assertGe =>
    obtain ⟨x, y, rfl, rfl⟩ := h
    obtain ⟨e, f, rfl, rfl, rfl⟩ := hm.elem2
    exact Can.givesNone (C38_assert_le_unconstrained_refuted h4 s (hs (.expr e) (by simp))
      (hs (.expr f) (by simp))).2
  | modulus =>
    obtain ⟨x, y, r, rfl, rfl, hr⟩ := h
    obtain ⟨e, f, rfl, rfl, rfl⟩ := hm.elem2
    exact Can.givesExpr (Can.modulus_any h4 (hs (.expr e) (by simp)) (hs (.expr f) (by simp)) hr)
  | divides =>
    obtain ⟨x, y, r, rfl, rfl, h0, hr⟩ := h
    refine can_scoped h4 _ hs hm (rs := [.bool (x.n ∣ y.n)]) ?_ ?_
    · have : x ≠ 0 := by rintro rfl; exact h0 Elem.zero_n
      simp [meaning, elem?, fun2, this]
    · obtain ⟨e, f, rfl, rfl, rfl⟩ := hm.elem2
      have := (C43_divides_any_refuted h4 s (hs (.expr e) (by simp)) (hs (.expr f) (by simp))
        r ?_).bind (f := fun z => pure [.bool z]) (R := fun os t => MeansAll t.W os [.bool r])
        fun z t _ hz => Can.pure (meansAll_one (o := .bool z) (v := .bool r) hz)
      · exact this
      cases r with
      | true => exact fun h => h0 (by rw [h]; rfl)
      | false =>
        have := hr rfl
        show 1 < _
        omega
  | splitAllowingAmbiguity =>
    obtain ⟨x, l, rfl, rfl, hl, hr⟩ := h
    obtain ⟨e, rfl, rfl⟩ := hm.elem1
    have hlt : natOf l < 2 ^ Elem.maxBits p := by rw [← hl]; exact natOf_lt l
    refine Can.givesBin ((Can.splitWithoutRangeCheck (hs (.expr e) (by simp)) le_rfl hlt ?_).mono
      fun z t _ ⟨h1, h2, h3, h4⟩ => ⟨h1, ?_⟩)
    · rcases hr with hr | hr
      · rw [hr, Elem.natCast_self_n]
      · rw [hr]; exact elem_eq_add _
    · rw [bin_of_val h2, h3, h4, ← hl, bitsOf_natOf]
  | cmpBinary r =>
    cases r with
    | lt =>
      obtain ⟨l, k, r, rfl, rfl, hc, hr⟩ := h
      cases r with
      | true => exact can_meaning h4 _ hs hm (by simpa [meaning, bits?, fun2, hc, Cmp.holds] using hr rfl)
      | false => exact can_cmp h2p hs hm hc true true
    | gt =>
      obtain ⟨l, k, r, rfl, rfl, hc, hr⟩ := h
      cases r with
      | true => exact can_meaning h4 _ hs hm (by simpa [meaning, bits?, fun2, hc, Cmp.holds] using hr rfl)
      | false => exact can_cmp h2p hs hm hc false true
    | le =>
      obtain ⟨l, k, r, rfl, rfl, hc, hr⟩ := h
      cases r with
      | true => exact can_cmp h2p hs hm hc true false
      | false => exact can_meaning h4 _ hs hm (by simpa [meaning, bits?, fun2, hc, Cmp.holds] using hr rfl)
    | ge =>
      obtain ⟨l, k, r, rfl, rfl, hc, hr⟩ := h
      cases r with
      | true => exact can_cmp h2p hs hm hc false false
      | false => exact can_meaning h4 _ hs hm (by simpa [meaning, bits?, fun2, hc, Cmp.holds] using hr rfl)
  | assertCmpBinary r =>
    cases r with
    | lt => exact absurd rfl hpin
    | gt => exact absurd rfl hpin
    | le =>
      obtain ⟨l, k, rfl, rfl, hc⟩ := h
      exact can_assertCmp h2p hs hm hc true
    | ge =>
      obtain ⟨l, k, rfl, rfl, hc⟩ := h
      exact can_assertCmp h2p hs hm hc false
  | sortAscending =>
    obtain ⟨xs, ys, rfl, rfl, h0, hr⟩ := h
    refine can_scoped h4 _ hs hm
      (rs := (xs.mergeSort fun x y => decide (x.n ≤ y.n)).map .elem) ?_ ?_
    · show ((xs.map Val.elem).mapM elem? >>= _) = _
      rw [mapM_map_elem]
      exact if_neg h0
    · obtain ⟨es, rfl, rfl⟩ := hm.elems
      refine can_run_exprs ?_
      have := (C54_sort_any_order_refuted h4 s (a := es) (ys := ys) (by simpa [values] using h0)
        (fun e he => hs (.expr e) (List.mem_map_of_mem he)) hr.symm).bind
        (f := fun z : List (Expression p) => pure (z.map .expr)) (R := fun os t => MeansAll t.W os (ys.map .elem))
        fun z t _ hz => Can.pure (meansAll_exprs hz)
      exact this
  | sortDescending =>
    obtain ⟨xs, ys, rfl, rfl, h0, hr⟩ := h
    refine can_scoped h4 _ hs hm
      (rs := (xs.mergeSort fun x y => decide (x.n ≤ y.n)).reverse.map .elem) ?_ ?_
    · show ((xs.map Val.elem).mapM elem? >>= _) = _
      rw [mapM_map_elem]
      exact if_neg h0
    · obtain ⟨es, rfl, rfl⟩ := hm.elems
      refine can_run_exprs ?_
      have := ((C54_sort_any_order_refuted h4 s (a := es) (ys := ys.reverse)
        (by simpa [values] using h0)
        (fun e he => hs (.expr e) (List.mem_map_of_mem he))
        ((List.reverse_perm ys).trans hr).symm).bind
        (f := fun z => pure z.reverse) (R := fun z t => (z.map fun e => e.eval t.W) = ys)
        fun z t _ hz => Can.pure (by rw [List.map_reverse, hz, List.reverse_reverse])).bind
        (f := fun z : List (Expression p) => pure (z.map .expr)) (R := fun os t => MeansAll t.W os (ys.map .elem))
        fun z t _ hz => Can.pure (meansAll_exprs hz)
      exact this
  | edwardsAdd C =>
    obtain ⟨x, y, x', y', u, v, rfl, rfl⟩ := h
    obtain ⟨e, f, e', f', rfl, rfl, rfl, rfl, rfl⟩ := hm.elem4
    exact Can.givesPoint (EdwardsGroup.can_add C (s := s) (P := ⟨e, f⟩) (Q := ⟨e', f'⟩) ⟨hs (.expr e) (by simp), hs (.expr f) (by simp)⟩
      ⟨hs (.expr e') (by simp), hs (.expr f') (by simp)⟩ u v)
  | edwardsDouble C =>
    obtain ⟨x, y, u, v, rfl, rfl⟩ := h
    obtain ⟨e, f, rfl, rfl, rfl⟩ := hm.elem2
    exact Can.givesPoint (EdwardsGroup.can_double h2p C (s := s) (P := ⟨e, f⟩)
      ⟨hs (.expr e) (by simp), hs (.expr f) (by simp)⟩ u v)
  | edwardsMulScalar C =>
    obtain ⟨x, y, k, u, v, rfl, rfl⟩ := h
    obtain ⟨e, f, g, rfl, rfl, rfl, rfl⟩ := hm.elem3
    exact Can.givesPoint (EdwardsGroup.can_mulScalar h2p C (s := s) (P := ⟨e, f⟩)
      ⟨hs (.expr e) (by simp), hs (.expr f) (by simp)⟩ (hs (.expr g) (by simp)) u v)
  | schnorrVerify C G h' =>
    obtain ⟨σ, e, m, x, y, t, rfl, rfl, ht⟩ := h
    obtain ⟨e1, e2, e3, e4, e5, rfl, rfl, rfl, rfl, rfl, rfl⟩ := hm.elem5
    exact can_signature h2p C G h' (hs (.expr e1) (by simp)) (hs (.expr e2) (by simp))
      (hs (.expr e3) (by simp)) (hs (.expr e4) (by simp)) (hs (.expr e5) (by simp)) ⟨t, ht⟩
  | _ => exact absurd rfl hpin

end Op

/-! ## What is meant is admitted -/

/-- Constants with given values. -/
theorem exists_constants (W : Assign p) (h1 : W ONE = 1) : ∀ vs : List (Val p),
    ∃ os : List (Obj p), (∀ n, 1 ≤ n → ∀ o ∈ os, o.Scoped n) ∧ MeansAll W os vs
  | [] => ⟨[], by simp, .nil⟩
  | v :: vs => by
    obtain ⟨os, h2, h3⟩ := exists_constants W h1 vs
    have hb : ∀ n, 1 ≤ n → ∀ b, (BooleanExpression.ofBool b : BooleanExpression p).Scoped n :=
      fun n hn b => by cases b <;> exact Expression.Scoped.ofElem hn _
    have : ∃ o : Obj p, (∀ n, 1 ≤ n → o.Scoped n) ∧ Means W o v := by
      cases v with
      | elem x =>
        exact ⟨.expr (Expression.ofElem x), fun n hn => Expression.Scoped.ofElem hn x,
          Expression.eval_ofElem h1 x⟩
      | bool b =>
        exact ⟨.bool (BooleanExpression.ofBool b), fun n hn => hb n hn b,
          BooleanExpression.eval_ofBool h1 b⟩
      | bits l =>
        refine ⟨.bin ⟨l.map BooleanExpression.ofBool⟩, fun n hn => ?_, ?_⟩
        · intro e he
          obtain ⟨b, _, rfl⟩ := List.mem_map.1 he
          exact hb n hn b
        · show ((l.map BooleanExpression.ofBool).map fun b => b.eval W) = _
          rw [List.map_map]
          exact List.map_congr_left fun b _ => BooleanExpression.eval_ofBool h1 b
    obtain ⟨o, h4, h5⟩ := this
    refine ⟨o :: os, fun n hn o' ho => ?_, .cons h5 h3⟩
    rcases List.mem_cons.1 ho with rfl | ho
    · exact h4 n hn
    · exact h2 n hn o' ho

theorem Op.admits_meaning (h4 : 4 ≤ Elem.maxBits p) (o : Op p) {vs rs : List (Val p)}
    (h : o.meaning vs = some rs) : o.admits vs rs := by
  let s : Wit p := ⟨⟨1, [], []⟩, fun _ => 1, le_rfl, ⟨rfl, by simp⟩, by simp⟩
  obtain ⟨os, h1, h2⟩ := exists_constants s.W rfl vs
  obtain ⟨os', t, e1, e2, ⟨_, e3⟩, e4⟩ := (o.can_meaning h4 (h1 1 le_rfl) h2 h).enforced
    (o.bounds_admits h4 os)
  obtain ⟨rs', g1, g2⟩ := e4 vs (h2.congr e2.2 (h1 1 le_rfl))
  rwa [e3.unique g2]

namespace Circuit

theorem meaningFrom_cons (i : Op p × List ℕ) (c : Circuit p) (vs ys : List (Val p)) :
    meaningFrom (i :: c) vs = some ys ↔ ∃ args rs, (i.2.mapM fun j => vs[j]?) = some args ∧
      i.1.meaning args = some rs ∧ meaningFrom c (vs ++ rs) = some ys := by
  rw [meaningFrom, stepMeaning]
  cases h1 : (i.2.mapM fun j => vs[j]?) with
  | none => simp
  | some args =>
    cases h2 : i.1.meaning args with
    | none => simp [h2]
    | some rs => simp [h2]

theorem admitsFrom_append (c d : Circuit p) (vs ys : List (Val p)) :
    admitsFrom (c ++ d) vs ys ↔ ∃ zs, admitsFrom c vs zs ∧ admitsFrom d zs ys := by
  induction c generalizing vs with
  | nil => simp [admitsFrom]
  | cons i c ih =>
    simp only [List.cons_append, admitsFrom, ih]
    constructor
    · rintro ⟨args, rs, h1, h2, zs, h3, h4⟩
      exact ⟨zs, ⟨args, rs, h1, h2, h3⟩, h4⟩
    · rintro ⟨zs, ⟨args, rs, h1, h2, h3⟩, h4⟩
      exact ⟨args, rs, h1, h2, zs, h3, h4⟩

theorem meaningFrom_append (c d : Circuit p) (vs : List (Val p)) :
    meaningFrom (c ++ d) vs = meaningFrom c vs >>= meaningFrom d := by
  induction c generalizing vs with
  | nil => rfl
  | cons i c ih =>
    simp only [List.cons_append, meaningFrom]
    cases stepMeaning i vs with
    | none => rfl
    | some vs' => exact ih vs'

theorem admitsFrom_meaning (h4 : 4 ≤ Elem.maxBits p) : ∀ (c : Circuit p) {vs ys : List (Val p)},
    meaningFrom c vs = some ys → admitsFrom c vs ys
  | [], vs, ys, h => by cases h; rfl
  | i :: c, vs, ys, h => by
    obtain ⟨args, rs, h1, h2, h3⟩ := (meaningFrom_cons i c vs ys).1 h
    exact ⟨args, rs, h1, i.1.admits_meaning h4 h2, admitsFrom_meaning h4 c h3⟩

theorem lookup1 {vs args : List (Val p)} {i : ℕ} (h : [i].mapM (fun j => vs[j]?) = some args) :
    ∃ u, vs[i]? = some u ∧ args = [u] := by
  rw [List.mapM_cons, List.mapM_nil] at h
  cases hi : vs[i]? with
  | none => rw [hi] at h; cases h
  | some u => rw [hi] at h; cases h; exact ⟨u, rfl, rfl⟩

theorem lookup2 {vs args : List (Val p)} {i k : ℕ}
    (h : [i, k].mapM (fun j => vs[j]?) = some args) :
    ∃ u v, vs[i]? = some u ∧ vs[k]? = some v ∧ args = [u, v] := by
  rw [List.mapM_cons] at h
  cases hi : vs[i]? with
  | none => rw [hi] at h; cases h
  | some u =>
    rw [hi] at h
    cases hk : [k].mapM (fun j => vs[j]?) with
    | none => rw [hk] at h; cases h
    | some as =>
      rw [hk] at h
      cases h
      obtain ⟨v, h1, rfl⟩ := lookup1 hk
      exact ⟨u, v, rfl, h1, rfl⟩

theorem lookup2_eq {vs : List (Val p)} {i k : ℕ} {u v : Val p} (h : vs[i]? = some u)
    (h' : vs[k]? = some v) : [i, k].mapM (fun j => vs[j]?) = some [u, v] := by
  simp [List.mapM_cons, h, h']

theorem lookup1_eq {vs : List (Val p)} {i : ℕ} {u : Val p} (h : vs[i]? = some u) :
    [i].mapM (fun j => vs[j]?) = some [u] := by
  simp [List.mapM_cons, h]

theorem lookup_length {vs : List (Val p)} : ∀ {js : List ℕ} {args : List (Val p)},
    js.mapM (fun j => vs[j]?) = some args → args.length = js.length
  | [], args, h => by cases h; rfl
  | j :: js, args, h => by
    rw [List.mapM_cons] at h
    cases hi : vs[j]? with
    | none => rw [hi] at h; cases h
    | some u =>
      rw [hi] at h
      cases hk : js.mapM (fun j => vs[j]?) with
      | none => rw [hk] at h; cases h
      | some as =>
        rw [hk] at h
        cases h
        simp [lookup_length hk]

theorem meaning_assertLt : ∀ (l : List (ℕ × ℕ)) {vs : List (Val p)}, (∀ i ∈ l, ∃ x y,
      vs[i.1]? = some (.elem x) ∧ vs[i.2]? = some (.elem y) ∧ x.n < y.n) →
    meaningFrom (l.map fun i => ((Op.assertLt : Op p), [i.1, i.2])) vs = some vs
  | [], vs, h => rfl
  | i :: l, vs, h => by
    obtain ⟨x, y, e1, e2, e3⟩ := h i (by simp)
    refine (meaningFrom_cons _ _ _ _).2 ⟨_, [], lookup2_eq e1 e2, if_pos e3, ?_⟩
    rw [List.append_nil]
    exact meaning_assertLt l fun j hj => h j (by simp [hj])

/-- Asserting strict comparisons. -/
theorem admits_assertLt : ∀ (l : List (ℕ × ℕ)) {vs ys : List (Val p)},
    admitsFrom (l.map fun i => (Op.assertLt, [i.1, i.2])) vs ys → ys = vs ∧ ∀ i ∈ l, ∃ x y,
      vs[i.1]? = some (.elem x) ∧ vs[i.2]? = some (.elem y) ∧ x.n < y.n
  | [], vs, ys, h => ⟨h, by simp⟩
  | i :: l, vs, ys, h => by
    obtain ⟨args, rs, h1, h2, h3⟩ := h
    obtain ⟨u, v, e1, e2, rfl⟩ := lookup2 h1
    have h2 : Op.meaning Op.assertLt [u, v] = some rs := h2
    cases u with
    | elem x =>
      cases v with
      | elem y =>
        by_cases hxy : x.n < y.n
        · have : rs = [] := by
            have : some rs = some [] := h2.symm.trans (if_pos hxy)
            exact Option.some.inj this
          subst this
          rw [List.append_nil] at h3
          obtain ⟨h4, h5⟩ := admits_assertLt l h3
          refine ⟨h4, fun j hj => ?_⟩
          rcases List.mem_cons.1 hj with rfl | hj
          · exact ⟨x, y, e1, e2, hxy⟩
          · exact h5 j hj
        · have : some rs = none := h2.symm.trans (if_neg hxy)
          cases this
      | bool _ => cases h2
      | bits _ => cases h2
    | bool _ => cases v <;> cases h2
    | bits _ => cases v <;> cases h2

/-! ## Circuits -/

theorem bounds_runFrom (h4 : 4 ≤ Elem.maxBits p) : ∀ (c : Circuit p) (os : List (Obj p)),
    Enforces (runFrom c os) fun os' W => ∀ vs, MeansAll W os vs →
      ∃ ys, admitsFrom c vs ys ∧ MeansAll W os' ys
  | [], os => Enforces.pure fun W _ vs hvs => ⟨vs, rfl, hvs⟩
  | i :: c, os => by
    unfold runFrom step
    rw [bind_assoc]
    refine (Enforces.ofOption (Q := fun a _ => (i.2.mapM fun j => os[j]?) = some a)
      fun a h _ _ => h).bind fun as => ?_
    rw [bind_assoc]
    refine (i.1.bounds_admits h4 as).bind fun rs => ?_
    rw [pure_bind]
    refine (bounds_runFrom h4 c (os ++ rs)).mono fun os'' W _ h2 h1 has vs hvs => ?_
    rcases hvs.lookup i.2 with ⟨as', bs, g1, g2, g3, g4⟩ | ⟨g1, _⟩
    · rw [g1] at has
      cases has
      obtain ⟨r, e1, e2⟩ := h1 bs g3
      obtain ⟨ys, e3, e4⟩ := h2 (vs ++ r) (hvs.append e2)
      exact ⟨ys, ⟨bs, r, g2, e1, e3⟩, e4⟩
    · rw [g1] at has; cases has

theorem reaches_runFrom (h4 : 4 ≤ Elem.maxBits p) : ∀ (c : Circuit p) {s : Wit p}
    {os : List (Obj p)} {vs ys : List (Val p)}, (∀ o ∈ os, o.Scoped s.next) → MeansAll s.W os vs →
    admitsFrom c vs ys → Can (runFrom c os) s (Gives ys)
  | [], s, os, vs, ys, hs, hm, h => by
    cases h
    exact Can.pure ⟨hs, hm⟩
  | i :: c, s, os, vs, ys, hs, hm, h => by
    obtain ⟨bs, r, e1, e2, e3⟩ := h
    unfold runFrom step
    rcases hm.lookup i.2 with ⟨as, bs', g1, g2, g3, g4⟩ | ⟨_, g2⟩
    · rw [g2] at e1
      cases e1
      rw [bind_assoc]
      refine Can.ofOption_bind g1 ?_
      rw [bind_assoc]
      refine (i.1.reaches_admits h4 s as bs r (fun o ho => hs o (g4 o ho)) g3 e2).bind
        fun os' t l ⟨h2, h3⟩ => ?_
      rw [pure_bind]
      refine reaches_runFrom h4 c (fun o ho => ?_) ((hm.congr l.2 hs).append h3) e3
      rcases List.mem_append.1 ho with ho | ho
      · exact (hs o ho).mono l.1
      · exact h2 o ho
    · rw [g2] at e1; cases e1

end Circuit

end R1CS
