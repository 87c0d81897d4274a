import Verif.Lemmas.Execute
import Mathlib.Data.List.Perm.Basic

/-!
# Proof rules for builder methods
-/

set_option linter.unusedSectionVars false

namespace R1CS

variable {p : ℕ} [hp : Fact p.Prime] {α β : Type}

/-! ## Running -/

theorem B.bind_run {m : B p α} {f : α → B p β} {b : Builder p} {r : β × Builder p}
    (h : (m >>= f) b = some r) : ∃ a b', m b = some (a, b') ∧ f a b' = some r := by
  have h' : (m b >>= fun x => f x.1 x.2) = some r := h
  cases hm : m b with
  | none => rw [hm] at h'; exact absurd h' (by simp)
  | some x => rw [hm] at h'; exact ⟨x.1, x.2, rfl, h'⟩

theorem B.bind_eq {m : B p α} {f : α → B p β} {b b' : Builder p} {a : α}
    (h : m b = some (a, b')) : (m >>= f) b = f a b' := by
  change (m b >>= fun x => f x.1 x.2) = _
  rw [h]; rfl

theorem B.bind_eq_none {m : B p α} {f : α → B p β} {b : Builder p}
    (h : m b = none) : (m >>= f) b = none := by
  change (m b >>= fun x => f x.1 x.2) = _
  rw [h]; rfl

theorem B.pure_eq (a : α) (b : Builder p) : (pure a : B p α) b = some (a, b) := rfl

theorem B.ofOption_some {o : Option α} {a : α} (h : o = some a) (b : Builder p) :
    (B.ofOption o) b = some (a, b) := by rw [h]; rfl

theorem B.ofOption_eq_some {o : Option α} {a : α} {b b' : Builder p}
    (h : (B.ofOption o) b = some (a, b')) : o = some a ∧ b' = b := by
  cases o with
  | none => exact absurd h (by simp [B.ofOption])
  | some x => simp [B.ofOption] at h; simp [h]

theorem B.require_eq_some {c : Prop} [Decidable c] {a : Unit} {b b' : Builder p}
    (h : (B.require c) b = some (a, b')) : c ∧ b' = b := by
  unfold B.require at h
  split at h
  · next hc => exact ⟨hc, by rw [B.pure_eq] at h; simpa using h.symm⟩
  · exact absurd h (by simp [B.panic])

theorem B.require_pos {c : Prop} [Decidable c] (h : c) (b : Builder p) :
    (B.require c) b = some ((), b) := by
  unfold B.require; rw [if_pos h]; rfl

/-! ## Soundness -/

namespace Enforces

theorem bind {m : B p α} {f : α → B p β} {Q : α → Assign p → Prop} {R : β → Assign p → Prop}
    (hm : Enforces m Q) (hf : ∀ a, Enforces (f a) (fun z w => Q a w → R z w)) :
    Enforces (m >>= f) R := by
  intro b z b' h w hw
  obtain ⟨a, b1, h1, h2⟩ := B.bind_run h
  obtain ⟨hs, hR⟩ := hf a b1 z b' h2 w hw
  obtain ⟨hs', hQ⟩ := hm b a b1 h1 w hs
  exact ⟨hs', hR hQ⟩

theorem mono {m : B p α} {Q R : α → Assign p → Prop} (hm : Enforces m Q)
    (h : ∀ a w, w ONE = 1 → Q a w → R a w) : Enforces m R := by
  intro b a b' hr w hw
  obtain ⟨h1, h2⟩ := hm b a b' hr w hw
  exact ⟨h1, h a w hw.one h2⟩

theorem conj {m : B p α} {Q R : α → Assign p → Prop} (h1 : Enforces m Q) (h2 : Enforces m R) :
    Enforces m (fun a w => Q a w ∧ R a w) := by
  intro b a b' hr w hw
  exact ⟨(h1 b a b' hr w hw).1, (h1 b a b' hr w hw).2, (h2 b a b' hr w hw).2⟩

theorem pure {a : α} {Q : α → Assign p → Prop} (h : ∀ w : Assign p, w ONE = 1 → Q a w) :
    Enforces (pure a : B p α) Q := by
  intro b a' b' hr w hw
  rw [B.pure_eq] at hr
  obtain ⟨rfl, rfl⟩ := Prod.ext_iff.1 (Option.some.inj hr)
  exact ⟨hw, h w hw.one⟩

theorem ofOption {o : Option α} {Q : α → Assign p → Prop}
    (h : ∀ a, o = some a → ∀ w : Assign p, w ONE = 1 → Q a w) : Enforces (B.ofOption o) Q := by
  intro b a b' hr w hw
  obtain ⟨h1, rfl⟩ := B.ofOption_eq_some hr
  exact ⟨hw, h a h1 w hw.one⟩

theorem require (c : Prop) [Decidable c] : Enforces (B.require c : B p Unit) (fun _ _ => c) := by
  intro b a b' hr w hw
  obtain ⟨h1, rfl⟩ := B.require_eq_some hr
  exact ⟨hw, h1⟩

theorem panic {Q : α → Assign p → Prop} : Enforces (B.panic : B p α) Q := by
  intro b a b' hr
  exact absurd hr (by simp [B.panic])

theorem wire : Enforces (B.wire : B p Wire) (fun _ _ => True) := by
  intro b a b' hr w hw
  simp only [B.wire, Option.some.injEq, Prod.mk.injEq] at hr
  obtain ⟨-, rfl⟩ := hr
  exact ⟨hw, trivial⟩

theorem generator (d : List Wire) (f : WireValues p → Option (WireValues p)) :
    Enforces (B.generator d f) (fun _ _ => True) := by
  intro b a b' hr w hw
  simp only [B.generator, Option.some.injEq, Prod.mk.injEq, true_and] at hr
  subst hr
  exact ⟨hw, trivial⟩

theorem assertProduct (x y z : Expression p) :
    Enforces (B.assertProduct x y z) (fun _ w => x.eval w * y.eval w = z.eval w) := by
  intro b a b' hr w hw
  simp only [B.assertProduct, Option.some.injEq, Prod.mk.injEq, true_and] at hr
  subst hr
  refine ⟨⟨hw.one, fun c hc => hw.all c (by simp [hc])⟩, ?_⟩
  exact hw.all ⟨x, y, z⟩ (by simp)

/-- Sequencing where the result of the first method is not used in the specification. -/
theorem seq {m : B p α} {f : α → B p β} {R : β → Assign p → Prop} {Q : α → Assign p → Prop}
    (hm : Enforces m Q) (hf : ∀ a, Enforces (f a) R) : Enforces (m >>= f) R :=
  hm.bind fun a => (hf a).mono fun _ _ _ h _ => h

end Enforces

/-! ## Scopes -/

namespace Expression

theorem Scoped.mono {n m : ℕ} {e : Expression p} (h : e.Scoped n) (hnm : n ≤ m) : e.Scoped m :=
  fun i hi => lt_of_lt_of_le (h i hi) hnm

theorem Scoped.add {n : ℕ} {a b : Expression p} (ha : a.Scoped n) (hb : b.Scoped n) :
    (a + b).Scoped n := by
  intro i hi
  rcases mem_deps_add hi with h | h
  · exact ha i h
  · exact hb i h

theorem Scoped.sub {n : ℕ} {a b : Expression p} (ha : a.Scoped n) (hb : b.Scoped n) :
    (a - b).Scoped n := by
  intro i hi
  rcases mem_deps_sub hi with h | h
  · exact ha i h
  · exact hb i h

theorem Scoped.neg {n : ℕ} {a : Expression p} (ha : a.Scoped n) : (-a).Scoped n :=
  fun i hi => ha i (mem_deps_neg hi)

theorem Scoped.mulElem {n : ℕ} {a : Expression p} (ha : a.Scoped n) (c : Elem p) :
    (a.mulElem c).Scoped n := fun i hi => ha i (mem_deps_mulElem hi)

theorem Scoped.zero {n : ℕ} : (0 : Expression p).Scoped n :=
  fun _ hi => absurd hi not_mem_deps_zero

theorem Scoped.ofElem {n : ℕ} (hn : 1 ≤ n) (c : Elem p) : (ofElem c).Scoped n := by
  intro i hi
  rw [mem_deps_ofElem hi]; exact hn

theorem Scoped.one {n : ℕ} (hn : 1 ≤ n) : (1 : Expression p).Scoped n := Scoped.ofElem hn 1

theorem dependencies_ofWire (i : Wire) : (ofWire i : Expression p).dependencies = [i] := by
  have h : ((1 : Elem p)).isNonzero = true := by
    show (!((1 : ℕ) == 0)) = true
    rfl
  simp [dependencies, Expression.ofWire, new, h]

theorem Scoped.ofWire {n : ℕ} {i : Wire} (h : i < n) : (ofWire i : Expression p).Scoped n := by
  intro j hj
  rw [mem_deps_ofWire hj]; exact h

theorem Scoped.sumOfExpressions {n : ℕ} {es : List (Expression p)}
    (h : ∀ e ∈ es, e.Scoped n) : (sumOfExpressions es).Scoped n := by
  intro i hi
  obtain ⟨e, he, hie⟩ := mem_deps_sumOfExpressions hi
  exact h e he i hie

theorem Scoped.sumOfWires {n : ℕ} {ws : List Wire}
    (h : ∀ i ∈ ws, i < n) : (sumOfWires ws : Expression p).Scoped n :=
  fun i hi => h i (mem_deps_sumOfWires hi)

end Expression

namespace BooleanExpression

theorem Scoped.mono {n m : ℕ} {e : BooleanExpression p} (h : e.Scoped n) (hnm : n ≤ m) :
    e.Scoped m := Expression.Scoped.mono h hnm

theorem Scoped.ofBool {n : ℕ} (hn : 1 ≤ n) (b : Bool) :
    (ofBool b : BooleanExpression p).Scoped n := Expression.Scoped.ofElem hn _

end BooleanExpression

namespace BinaryExpression

theorem Scoped.mono {n m : ℕ} {e : BinaryExpression p} (h : e.Scoped n) (hnm : n ≤ m) :
    e.Scoped m := fun b hb => (h b hb).mono hnm

end BinaryExpression

/-! ## Honest states -/

namespace Hon

theorem Le.refl (s : Hon p) : s.Le s := ⟨le_refl _, fun _ _ => rfl⟩

theorem Le.trans {s t u : Hon p} (h1 : s.Le t) (h2 : t.Le u) : s.Le u :=
  ⟨le_trans h1.1 h2.1, fun i hi => by rw [h2.2 i (lt_of_lt_of_le hi h1.1), h1.2 i hi]⟩

theorem Le.eval {s s' : Hon p} (h : s.Le s') {e : Expression p} (he : e.Scoped s.next) :
    e.eval s'.W = e.eval s.W := Expression.eval_congr fun i hi => h.2 i (he i hi)

theorem Le.beval {s s' : Hon p} (h : s.Le s') {e : BooleanExpression p} (he : e.Scoped s.next) :
    e.eval s'.W = e.eval s.W := h.eval he

theorem Le.digits {s s' : Hon p} (h : s.Le s') {e : BinaryExpression p} (he : e.Scoped s.next) :
    e.digits s'.W = e.digits s.W := by
  unfold BinaryExpression.digits
  apply List.map_congr_left
  intro b hb
  rw [h.beval (he b hb)]

theorem Le.val {s s' : Hon p} (h : s.Le s') {e : BinaryExpression p} (he : e.Scoped s.next) :
    e.val s'.W = e.val s.W := by
  unfold BinaryExpression.val
  rw [h.digits he]

theorem Le.allBool {s s' : Hon p} (h : s.Le s') {e : BinaryExpression p} (he : e.Scoped s.next)
    (hb : e.AllBool s.W) : e.AllBool s'.W := by
  intro b hmem
  rw [h.beval (he b hmem)]
  exact hb b hmem

theorem Le.scoped {s s' : Hon p} (h : s.Le s') {e : Expression p} (he : e.Scoped s.next) :
    e.Scoped s'.next := he.mono h.1

theorem Le.bscoped {s s' : Hon p} (h : s.Le s') {e : BooleanExpression p} (he : e.Scoped s.next) :
    e.Scoped s'.next := he.mono h.1

theorem Le.nscoped {s s' : Hon p} (h : s.Le s') {e : BinaryExpression p} (he : e.Scoped s.next) :
    e.Scoped s'.next := he.mono h.1

theorem pos (s : Hon p) : 1 ≤ s.next := s.ok.pos

theorem one (s : Hon p) : s.W ONE = 1 := s.ok.one

theorem satisfies (s : Hon p) : Satisfies s.W s.b.constraints :=
  ⟨s.ok.one, fun c hc => (s.ok.constraints c hc).1⟩

end Hon

theorem GenOK.congr {g : WitnessGenerator p} {outs : List Wire} {W W' : Assign p}
    (h : GenOK g outs W) (h1 : ∀ i ∈ g.inputs, W' i = W i) (h2 : ∀ i ∈ outs, W' i = W i) :
    GenOK g outs W' := by
  intro v hin hout
  rw [h v (fun i hi => by rw [hin i hi, h1 i hi]) hout]
  congr 1
  funext i
  split
  · next hi => rw [h2 i hi]
  · rfl

namespace Comp

theorem bind {m : B p α} {f : α → B p β} {s : Hon p} {Q : α → Hon p → Prop}
    {R : β → Hon p → Prop} (hm : Comp m s Q)
    (hf : ∀ a s', s.Le s' → Q a s' → Comp (f a) s' R) : Comp (m >>= f) s R := by
  obtain ⟨a, s1, h1, h2, h3⟩ := hm
  obtain ⟨z, s2, g1, g2, g3⟩ := hf a s1 h2 h3
  exact ⟨z, s2, by rw [B.bind_eq h1, g1], h2.trans g2, g3⟩

theorem mono {m : B p α} {s : Hon p} {Q R : α → Hon p → Prop} (hm : Comp m s Q)
    (h : ∀ a s', s.Le s' → Q a s' → R a s') : Comp m s R := by
  obtain ⟨a, s1, h1, h2, h3⟩ := hm
  exact ⟨a, s1, h1, h2, h a s1 h2 h3⟩

theorem pure {a : α} {s : Hon p} {Q : α → Hon p → Prop} (h : Q a s) :
    Comp (pure a : B p α) s Q := ⟨a, s, rfl, Hon.Le.refl s, h⟩

theorem ofOption {o : Option α} {a : α} {s : Hon p} {Q : α → Hon p → Prop} (ho : o = some a)
    (h : Q a s) : Comp (B.ofOption o) s Q := ⟨a, s, B.ofOption_some ho _, Hon.Le.refl s, h⟩

theorem require {c : Prop} [Decidable c] {s : Hon p} {Q : Unit → Hon p → Prop} (hc : c)
    (h : Q () s) : Comp (B.require c) s Q := ⟨(), s, B.require_pos hc _, Hon.Le.refl s, h⟩

theorem ofOption_bind {o : Option α} {a : α} {s : Hon p} {f : α → B p β} {R : β → Hon p → Prop}
    (ho : o = some a) (h : Comp (f a) s R) : Comp (B.ofOption o >>= f) s R := by
  obtain ⟨z, s', h1, h2, h3⟩ := h
  exact ⟨z, s', by rw [B.bind_eq (B.ofOption_some ho _), h1], h2, h3⟩

theorem require_bind {c : Prop} [Decidable c] {s : Hon p} {f : Unit → B p β}
    {R : β → Hon p → Prop} (hc : c) (h : Comp (f ()) s R) : Comp (B.require c >>= f) s R := by
  obtain ⟨z, s', h1, h2, h3⟩ := h
  exact ⟨z, s', by rw [B.bind_eq (B.require_pos hc _), h1], h2, h3⟩

/-- A new wire, with any value; it is owed to a later generator (or to the user). -/
theorem wire (s : Hon p) (x : Elem p) :
    Comp B.wire s fun i s' => i = s.next ∧ s'.next = s.next + 1 ∧ s'.D = i :: s.D ∧
      s'.W i = x := by
  have h := s.ok
  have hpos := h.pos
  let W' : Assign p := fun i => if i = s.next then x else s.W i
  have hW : ∀ i < s.next, W' i = s.W i := fun i hi => if_neg (by omega)
  have hE : ∀ e : Expression p, e.Scoped s.next → e.eval W' = e.eval s.W :=
    fun e he => Expression.eval_congr fun i hi => hW i (he i hi)
  refine ⟨s.next, ⟨{ s.b with nextWireIndex := s.next + 1 }, s.next :: s.D, W', ?_⟩, rfl,
    ⟨Nat.le_succ _, hW⟩, rfl, rfl, rfl, if_pos rfl⟩
  constructor
  · rw [hW _ hpos, h.one]
  · simp
  · intro c hc
    obtain ⟨h1, h2, h3, h4⟩ := h.constraints c hc
    refine ⟨?_, h2.mono (Nat.le_succ _), h3.mono (Nat.le_succ _), h4.mono (Nat.le_succ _)⟩
    unfold Constraint.Holds
    rw [hE _ h2, hE _ h3, hE _ h4]
    exact h1
  · obtain ⟨A, h1, h2, h3⟩ := h.generators
    refine ⟨A, h1, ?_, ?_⟩
    · intro e he
      obtain ⟨g1, g2⟩ := h2 e he
      refine ⟨g1.congr (fun i hi => hW i (g2 i hi).1) fun i hi => hW i ?_,
        fun i hi => ⟨Nat.lt_succ_of_lt (g2 i hi).1, (g2 i hi).2⟩⟩
      have : i ∈ List.range' 1 (s.next - 1) := by
        rw [← h3.mem_iff]
        simp only [List.mem_append, List.mem_flatten, List.mem_map]
        exact Or.inl ⟨e.2, ⟨e, he, rfl⟩, hi⟩
      rw [List.mem_range'_1] at this
      omega
    · change List.Perm _ (List.range' 1 (s.next + 1 - 1))
      have : s.next + 1 - 1 = (s.next - 1) + 1 := (Nat.sub_add_cancel hpos).symm
      rw [this, List.range'_concat]
      have e1 : 1 + 1 * (s.next - 1) = s.next := by rw [one_mul]; exact Nat.add_sub_cancel' hpos
      rw [e1]
      refine (List.perm_middle).trans ?_
      refine (List.Perm.cons _ h3).trans ?_
      exact (List.perm_append_singleton _ _).symm

theorem assertProduct {s : Hon p} {x y z : Expression p} (hx : x.Scoped s.next)
    (hy : y.Scoped s.next) (hz : z.Scoped s.next) (h : x.eval s.W * y.eval s.W = z.eval s.W) :
    Comp (B.assertProduct x y z) s fun _ s' => s'.next = s.next ∧ s'.D = s.D ∧ s'.W = s.W := by
  refine ⟨(), ⟨_, s.D, s.W, ?_⟩, rfl, ⟨le_refl _, fun _ _ => rfl⟩, rfl, rfl, rfl⟩
  refine ⟨s.ok.one, s.ok.pos, ?_, s.ok.generators⟩
  intro c hc
  rcases List.mem_append.1 hc with hc | hc
  · exact s.ok.constraints c hc
  · rw [List.mem_singleton] at hc
    subst hc
    exact ⟨h, hx, hy, hz⟩

/-- Pushing a generator discharges its outputs. -/
theorem generator {s : Hon p} {d : List Wire} {f : WireValues p → Option (WireValues p)}
    (outs D' : List Wire) (hD : List.Perm s.D (outs ++ D')) (hg : GenOK ⟨d, f⟩ outs s.W)
    (hd : ∀ i ∈ d, i < s.next ∧ ∀ o ∈ outs, i < o) :
    Comp (B.generator d f) s fun _ s' => s'.next = s.next ∧ s'.D = D' ∧ s'.W = s.W := by
  refine ⟨(), ⟨_, D', s.W, ?_⟩, rfl, ⟨le_refl _, fun _ _ => rfl⟩, rfl, rfl, rfl⟩
  refine ⟨s.ok.one, s.ok.pos, s.ok.constraints, ?_⟩
  obtain ⟨A, h1, h2, h3⟩ := s.ok.generators
  refine ⟨A ++ [(⟨d, f⟩, outs)], by simp [h1], ?_, ?_⟩
  · intro e he
    rcases List.mem_append.1 he with he | he
    · exact h2 e he
    · rw [List.mem_singleton] at he
      subst he
      exact ⟨hg, hd⟩
  · refine List.Perm.trans ?_ h3
    simp only [List.map_append, List.map_cons, List.map_nil, List.flatten_append,
      List.flatten_cons, List.flatten_nil, List.append_nil, List.append_assoc]
    exact List.Perm.append_left _ hD.symm

theorem computes {m : B p α} {s : Hon p} {Q : α → Hon p → Prop}
    (h : Comp m s fun a s' => s'.D = s.D ∧ Q a s') : Computes m s Q :=
  h.mono fun _ s' _ hq => ⟨hq.1, s'.executes, hq.2⟩

end Comp

theorem Computes.mono {m : B p α} {s : Hon p} {Q R : α → Hon p → Prop} (hm : Computes m s Q)
    (h : ∀ a s', s.Le s' → Q a s' → R a s') : Computes m s R :=
  Comp.mono hm fun a s' l hq => ⟨hq.1, hq.2.1, h a s' l hq.2.2⟩

/-! ## Witness generators setting wires -/

theorem set_eq_some {v : WireValues p} {i : Wire} (h : v i = none) (x : Elem p) :
    v.set i x = some (fun j => if j = i then some x else v j) := by
  unfold WireValues.set WireValues.contains
  rw [h]; rfl

/-- A closure which evaluates to a value and sets one wire. -/
theorem GenOK.single {d : List Wire} {f : WireValues p → Option (WireValues p)} {o : Wire}
    {W : Assign p}
    (h : ∀ v : WireValues p, (∀ i ∈ d, v i = some (W i)) → f v = v.set o (W o)) :
    GenOK ⟨d, f⟩ [o] W := by
  intro v hin hout
  change f v = _
  rw [h v hin, set_eq_some (hout o (by simp))]
  congr 1
  funext j
  by_cases hj : j = o
  · simp [hj]
  · simp [hj]

end R1CS
