import Verif.Spec.Forge
import Verif.Lemmas.Programs

/-!
# Proof rules for extending satisfying assignments
-/

set_option linter.unusedSectionVars false

namespace R1CS

variable {p : ℕ} [hp : Fact p.Prime] {α β : Type}

namespace Wit

theorem Le.refl (s : Wit p) : s.Le s := ⟨le_refl _, fun _ _ => rfl⟩

theorem Le.trans {s t u : Wit p} (h1 : s.Le t) (h2 : t.Le u) : s.Le u :=
  ⟨le_trans h1.1 h2.1, fun i hi => by rw [h2.2 i (lt_of_lt_of_le hi h1.1), h1.2 i hi]⟩

theorem Le.eval {s s' : Wit p} (h : s.Le s') {e : Expression p} (he : e.Scoped s.next) :
    e.eval s'.W = e.eval s.W := Expression.eval_congr fun i hi => h.2 i (he i hi)

theorem Le.scoped {s s' : Wit p} (h : s.Le s') {e : Expression p} (he : e.Scoped s.next) :
    e.Scoped s'.next := he.mono h.1

theorem pos (s : Wit p) : 1 ≤ s.next := s.next_pos

theorem one (s : Wit p) : s.W ONE = 1 := s.sat.one

/-- The same assignment, as an honest state in which every wire is supplied from outside. -/
def toHon (s : Wit p) : Hon p where
  b := { s.b with witnessGenerators := [] }
  D := List.range' 1 (s.next - 1)
  W := s.W
  ok := ⟨s.sat.one, s.pos, fun c hc => ⟨s.sat.all c hc, s.inScope c hc⟩, [], rfl, by simp, by simp⟩

end Wit

/-- Every honest state is a satisfying assignment. -/
def Hon.toWit (s : Hon p) : Wit p where
  b := s.b
  W := s.W
  next_pos := s.pos
  sat := s.satisfies
  inScope := fun c hc => (s.ok.constraints c hc).2

/-- Programs do not look at the generators already present. -/
theorem Prog.frame {m : B p α} (hm : Prog m) : ∀ {b b' : Builder p} {a : α}
    (gs : List (WitnessGenerator p)), m b = some (a, b') →
    ∃ gs', m { b with witnessGenerators := gs } = some (a, { b' with witnessGenerators := gs' }) := by
  induction hm with
  | pure a =>
    intro b b' a' gs h
    rw [B.pure_eq] at h
    obtain ⟨rfl, rfl⟩ := Prod.ext_iff.1 (Option.some.inj h)
    exact ⟨gs, rfl⟩
  | bind _ _ ih1 ih2 =>
    intro b b' a' gs h
    obtain ⟨x, b1, h1, h2⟩ := B.bind_run h
    obtain ⟨gs1, h1'⟩ := ih1 gs h1
    obtain ⟨gs2, h2'⟩ := ih2 x gs1 h2
    exact ⟨gs2, by rw [B.bind_eq h1', h2']⟩
  | wire =>
    intro b b' a gs h
    obtain ⟨rfl, rfl⟩ := Prod.ext_iff.1 (Option.some.inj h)
    exact ⟨gs, rfl⟩
  | assertProduct x y z =>
    intro b b' a gs h
    obtain ⟨rfl, rfl⟩ := Prod.ext_iff.1 (Option.some.inj h)
    exact ⟨gs, rfl⟩
  | generator d f hf =>
    intro b b' a gs h
    obtain ⟨rfl, rfl⟩ := Prod.ext_iff.1 (Option.some.inj h)
    exact ⟨gs ++ [⟨d, f⟩], rfl⟩
  | panic => intro b b' a gs h; exact absurd h (by simp [B.panic])

namespace Can

theorem bind {m : B p α} {f : α → B p β} {s : Wit p} {Q : α → Wit p → Prop}
    {R : β → Wit p → Prop} (hm : Can m s Q)
    (hf : ∀ a s', s.Le s' → Q a s' → Can (f a) s' R) : Can (m >>= f) s R := by
  obtain ⟨a, s1, h1, h2, h3⟩ := hm
  obtain ⟨z, s2, g1, g2, g3⟩ := hf a s1 h2 h3
  exact ⟨z, s2, by rw [B.bind_eq h1, g1], h2.trans g2, g3⟩

theorem mono {m : B p α} {s : Wit p} {Q R : α → Wit p → Prop} (hm : Can m s Q)
    (h : ∀ a s', s.Le s' → Q a s' → R a s') : Can m s R := by
  obtain ⟨a, s1, h1, h2, h3⟩ := hm
  exact ⟨a, s1, h1, h2, h a s1 h2 h3⟩

theorem pure {a : α} {s : Wit p} {Q : α → Wit p → Prop} (h : Q a s) :
    Can (pure a : B p α) s Q := ⟨a, s, rfl, Wit.Le.refl s, h⟩

theorem ofOption {o : Option α} {a : α} {s : Wit p} {Q : α → Wit p → Prop} (ho : o = some a)
    (h : Q a s) : Can (B.ofOption o) s Q := ⟨a, s, B.ofOption_some ho _, Wit.Le.refl s, h⟩

theorem require {c : Prop} [Decidable c] {s : Wit p} {Q : Unit → Wit p → Prop} (hc : c)
    (h : Q () s) : Can (B.require c) s Q := ⟨(), s, B.require_pos hc _, Wit.Le.refl s, h⟩

theorem ofOption_bind {o : Option α} {a : α} {s : Wit p} {f : α → B p β} {R : β → Wit p → Prop}
    (ho : o = some a) (h : Can (f a) s R) : Can (B.ofOption o >>= f) s R := by
  obtain ⟨z, s', h1, h2, h3⟩ := h
  exact ⟨z, s', by rw [B.bind_eq (B.ofOption_some ho _), h1], h2, h3⟩

theorem require_bind {c : Prop} [Decidable c] {s : Wit p} {f : Unit → B p β}
    {R : β → Wit p → Prop} (hc : c) (h : Can (f ()) s R) : Can (B.require c >>= f) s R := by
  obtain ⟨z, s', h1, h2, h3⟩ := h
  exact ⟨z, s', by rw [B.bind_eq (B.require_pos hc _), h1], h2, h3⟩

/-- A new wire can take any value. -/
theorem wire (s : Wit p) (x : Elem p) :
    Can B.wire s fun i s' => i = s.next ∧ s'.next = s.next + 1 ∧ s'.W i = x := by
  have hpos := s.pos
  let W' : Assign p := fun i => if i = s.next then x else s.W i
  have hW : ∀ i < s.next, W' i = s.W i := fun i hi => if_neg (by omega)
  have hE : ∀ e : Expression p, e.Scoped s.next → e.eval W' = e.eval s.W :=
    fun e he => Expression.eval_congr fun i hi => hW i (he i hi)
  refine ⟨s.next, ⟨{ s.b with nextWireIndex := s.next + 1 }, W', by simp, ⟨?_, ?_⟩, ?_⟩, rfl,
    ⟨Nat.le_succ _, hW⟩, rfl, rfl, if_pos rfl⟩
  · rw [hW _ hpos, s.sat.one]
  · intro c hc
    obtain ⟨h2, h3, h4⟩ := s.inScope c hc
    unfold Constraint.Holds
    rw [hE _ h2, hE _ h3, hE _ h4]
    exact s.sat.all c hc
  · intro c hc
    obtain ⟨h2, h3, h4⟩ := s.inScope c hc
    exact ⟨h2.mono (Nat.le_succ _), h3.mono (Nat.le_succ _), h4.mono (Nat.le_succ _)⟩

theorem assertProduct {s : Wit p} {x y z : Expression p} (hx : x.Scoped s.next)
    (hy : y.Scoped s.next) (hz : z.Scoped s.next) (h : x.eval s.W * y.eval s.W = z.eval s.W) :
    Can (B.assertProduct x y z) s fun _ s' => s'.next = s.next ∧ s'.W = s.W := by
  refine ⟨(), ⟨{ s.b with constraints := s.b.constraints ++ [⟨x, y, z⟩] }, s.W, s.pos,
    ⟨s.sat.one, ?_⟩, ?_⟩, rfl, ⟨le_refl _, fun _ _ => rfl⟩, rfl, rfl⟩
  · intro c hc
    rcases List.mem_append.1 hc with hc | hc
    · exact s.sat.all c hc
    · rw [List.mem_singleton] at hc; subst hc; exact h
  · intro c hc
    rcases List.mem_append.1 hc with hc | hc
    · exact s.inScope c hc
    · rw [List.mem_singleton] at hc; subst hc; exact ⟨hx, hy, hz⟩

theorem generator {s : Wit p} (d : List Wire) (f : WireValues p → Option (WireValues p)) :
    Can (B.generator d f) s fun _ s' => s'.next = s.next ∧ s'.W = s.W :=
  ⟨(), ⟨{ s.b with witnessGenerators := s.b.witnessGenerators ++ [⟨d, f⟩] }, s.W, s.pos, s.sat,
    s.inScope⟩, rfl, ⟨le_refl _, fun _ _ => rfl⟩, rfl, rfl⟩

/-- Completeness lemmas give extensions of assignments. -/
theorem ofComp {m : B p α} (hm : Prog m) {s : Wit p} {Q : α → Hon p → Prop}
    (h : Comp m s.toHon Q) :
    Can m s fun a s' => ∃ t : Hon p, t.next = s'.next ∧ t.W = s'.W ∧ Q a t := by
  obtain ⟨a, t, h1, h2, h3⟩ := h
  obtain ⟨gs, h4⟩ := hm.frame s.b.witnessGenerators h1
  refine ⟨a, ⟨{ t.b with witnessGenerators := gs }, t.W, t.pos, t.satisfies,
    fun c hc => (t.ok.constraints c hc).2⟩, h4, h2, t, rfl, rfl, h3⟩

/-- Values in an extension obey what is enforced. -/
theorem enforced {m : B p α} {s : Wit p} {Q : α → Wit p → Prop} {R : α → Assign p → Prop}
    (h : Can m s Q) (he : Enforces m R) : Can m s fun a s' => Q a s' ∧ R a s'.W := by
  obtain ⟨a, s', h1, h2, h3⟩ := h
  exact ⟨a, s', h1, h2, h3, (he _ _ _ h1 s'.W s'.sat).2⟩

end Can

/-- If something can be reached and something else is enforced, the two are compatible: the form
used for refutations. -/
theorem Can.not_enforces {m : B p α} {s : Wit p} {Q : α → Wit p → Prop} {R : α → Assign p → Prop}
    (h : Can m s Q) (hQR : ∀ a s', s.Le s' → Q a s' → ¬ R a s'.W) : ¬ Enforces m R := by
  intro he
  obtain ⟨a, s', h1, h2, h3⟩ := h
  exact hQR a s' h2 h3 (he _ _ _ h1 s'.W s'.sat).2

open Expression (eval_ofWire) in
/-- The inverse of zero can be any value. -/
theorem Can.inverseOrZero_zero (s : Wit p) {x : Expression p} (hx : x.Scoped s.next)
    (h0 : x.eval s.W = 0) (y : Elem p) :
    Can (B.inverseOrZero x) s fun z s' => z.Scoped s'.next ∧ z.eval s'.W = y := by
  unfold B.inverseOrZero B.nonzero
  refine (Can.wire s y).bind fun i s1 l1 ⟨e1, n1, v1⟩ => ?_
  refine Can.bind (Q := fun z s' => z.Scoped s'.next ∧ z.eval s'.W = 0) ?_
    fun nz s5 l5 ⟨sc, v5⟩ => ?_
  · refine (Can.wire s1 0).bind fun a s2 l2 ⟨e2, n2, v2⟩ => ?_
    refine (Can.wire s2 1).bind fun m s3 l3 ⟨e3, n3, v3⟩ => ?_
    have hx3 := (l1.trans (l2.trans l3)).scoped hx
    have ex3 := ((l1.trans (l2.trans l3)).eval hx).trans h0
    have ea : s3.W a = 0 := by rw [l3.2 a (by omega), v2]
    refine (Can.assertProduct hx3 (.ofWire (by omega)) (.ofWire (by omega))
      (by rw [ex3, eval_ofWire, eval_ofWire, ea, zero_mul])).bind fun _ s4 l4 ⟨n4, W4⟩ => ?_
    refine (Can.assertProduct ((Expression.Scoped.one s4.pos).sub (.ofWire (by omega)))
      (l4.scoped hx3) .zero (by rw [l4.eval hx3, ex3, mul_zero, Expression.eval_zero])).bind
      fun _ s5 l5 ⟨n5, W5⟩ => ?_
    refine (Can.generator _ _).bind fun _ s6 l6 ⟨n6, W6⟩ => Can.pure ⟨.ofWire (by omega), ?_⟩
    rw [BooleanExpression.eval_mk, eval_ofWire, W6, W5, W4, ea]
  · have hl := l5.1
    refine (Can.assertProduct ((l1.trans l5).scoped hx) (.ofWire (by omega)) sc ?_).bind
      fun _ s6 l6 ⟨n6, W6⟩ => ?_
    · rw [(l1.trans l5).eval hx, h0, zero_mul]; exact v5.symm
    · refine (Can.generator _ _).bind fun _ s7 l7 ⟨n7, W7⟩ => Can.pure
        ⟨.ofWire (by have := l6.1; have := l7.1; omega), ?_⟩
      rw [eval_ofWire, W7, W6, l5.2 i (by omega), v1]

end R1CS
