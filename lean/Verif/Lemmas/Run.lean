import Verif.Lemmas.Local

/-!
# Circuits with constraints which need not hold

`Hon` states have witnesses satisfying every constraint.  Here the witness is only what the
generators compute, and the constraints may or may not hold.
-/

set_option linter.unusedSectionVars false

namespace R1CS

variable {p : ℕ} [hp : Fact p.Prime] {α β : Type}

/-- A builder state with the witness which execution produces when the wires `D` are supplied from
outside, whether the constraints hold or not. -/
structure Run (p : ℕ) [Fact p.Prime] where
  b : Builder p
  D : List Wire
  W : Assign p
  ok : Honest { b with constraints := [] } D W
  within : ∀ c ∈ b.constraints,
    c.a.Scoped b.nextWireIndex ∧ c.b.Scoped b.nextWireIndex ∧ c.c.Scoped b.nextWireIndex

namespace Run

/-- The number of wires. -/
abbrev next (s : Run p) : ℕ := s.b.nextWireIndex

/-- The later state extends the earlier one. -/
def Le (s t : Run p) : Prop := s.next ≤ t.next ∧ ∀ i < s.next, t.W i = s.W i

/-- All constraints hold. -/
def Holds (s : Run p) : Prop := ∀ c ∈ s.b.constraints, c.Holds s.W

theorem pos (s : Run p) : 1 ≤ s.next := s.ok.pos
theorem one (s : Run p) : s.W ONE = 1 := s.ok.one

theorem Le.refl (s : Run p) : s.Le s := ⟨le_refl _, fun _ _ => rfl⟩

theorem Le.trans {s t u : Run p} (h1 : s.Le t) (h2 : t.Le u) : s.Le u :=
  ⟨le_trans h1.1 h2.1, fun i hi => by rw [h2.2 i (lt_of_lt_of_le hi h1.1), h1.2 i hi]⟩

theorem Le.eval {s t : Run p} (h : s.Le t) {e : Expression p} (he : e.Scoped s.next) :
    e.eval t.W = e.eval s.W := Expression.eval_congr fun i hi => h.2 i (he i hi)

/-- A state without generators, all of whose wires are supplied. -/
def free (n : ℕ) (hn : 1 ≤ n) (W : Assign p) (h1 : W ONE = 1) : Run p where
  b := { nextWireIndex := n, constraints := [], witnessGenerators := [] }
  D := List.range' 1 (n - 1)
  W := W
  ok := (Hon.free n hn W h1).ok
  within := by simp

theorem free_holds {n : ℕ} {hn : 1 ≤ n} {W : Assign p} {h1 : W ONE = 1} :
    (free n hn W h1).Holds := by
  intro c hc
  cases hc

theorem checkAll {W : Assign p} {v : WireValues p} {n : ℕ} (hv : ∀ i < n, v i = some (W i)) :
    ∀ cs : List (Constraint p), (∀ c ∈ cs, c.a.Scoped n ∧ c.b.Scoped n ∧ c.c.Scoped n) →
    ∃ ok, Gadget.checkAll cs v = some ok ∧ (ok = true ↔ ∀ c ∈ cs, c.Holds W)
  | [], _ => ⟨true, rfl, by simp⟩
  | c :: cs, h => by
    obtain ⟨h1, h2, h3⟩ := h c (by simp)
    obtain ⟨ok, e1, e2⟩ := checkAll hv cs fun c' hc' => h c' (by simp [hc'])
    simp only [Gadget.checkAll, Constraint.evaluate]
    rw [Expression.evaluate_eq (w := W) (fun i hi => hv i (h1 i hi)),
      Expression.evaluate_eq (w := W) (fun i hi => hv i (h2 i hi)),
      Expression.evaluate_eq (w := W) (fun i hi => hv i (h3 i hi)), e1]
    by_cases hc : c.a.eval W * c.b.eval W = c.c.eval W
    · refine ⟨ok, by simp [hc], ?_⟩
      rw [e2, List.forall_mem_cons]
      exact ⟨fun h => ⟨hc, h⟩, fun h => h.2⟩
    · refine ⟨false, by simp [hc], ?_⟩
      simp only [Bool.false_eq_true, List.forall_mem_cons, false_iff, not_and]
      exact fun h => absurd h hc

/-- The values handed to `execute`. -/
def Inputs (s : Run p) (v : WireValues p) : Prop :=
  v ONE = some 1 ∧ (∀ i ∈ s.D, v i = some (s.W i)) ∧
    ∀ i < s.next, i ≠ ONE → i ∉ s.D → v i = none

/-- Execution produces the witness and tells whether the constraints hold. -/
theorem executes_exactly (s : Run p) {v : WireValues p} (hv : s.Inputs v) :
    ∃ v' ok, s.b.build.execute v = some (v', ok) ∧ (ok = true ↔ s.Holds) ∧
      (∀ i < s.next, v' i = some (s.W i)) ∧ ∀ i, s.next ≤ i → v' i = v i := by
  obtain ⟨v', h1, h2, h6⟩ := s.ok.execute_perm hv.1 hv.2.1 hv.2.2 _ (List.Perm.refl _)
  obtain ⟨ok, h3, h4⟩ := checkAll h2 s.b.constraints s.within
  refine ⟨v', ok, ?_, h4, h2, h6⟩
  have h5 : (Gadget.execute ⟨[], s.b.witnessGenerators⟩ v) = some (v', true) := h1
  show Gadget.execute ⟨s.b.constraints, s.b.witnessGenerators⟩ v = _
  unfold Gadget.execute at h5 ⊢
  dsimp only at h5 ⊢
  cases hl : Gadget.loop (s.b.witnessGenerators.length + 1) s.b.witnessGenerators v with
  | none => rw [hl] at h5; cases h5
  | some r =>
    rw [hl] at h5
    simp only [Option.bind_eq_bind, Option.bind_some, Gadget.checkAll] at h5 ⊢
    by_cases hr : r.1.length = 0
    · rw [if_pos hr] at h5 ⊢
      have : r.2 = v' := by simpa using h5
      rw [this, h3]
      rfl
    · rw [if_neg hr] at h5; cases h5

theorem executes (s : Run p) {v : WireValues p} (hv : s.Inputs v) :
    ∃ v' ok, s.b.build.execute v = some (v', ok) ∧ (ok = true ↔ s.Holds) ∧
      ∀ i < s.next, v' i = some (s.W i) := by
  obtain ⟨v', ok, h1, h2, h3, _⟩ := s.executes_exactly hv
  exact ⟨v', ok, h1, h2, h3⟩

end Run

/-! ## What calls do -/

/-- Running the method succeeds, and the resulting state satisfies `Q`. -/
def Does (m : B p α) (s : Run p) (Q : α → Run p → Prop) : Prop :=
  ∃ a t, m s.b = some (a, t.b) ∧ s.Le t ∧ Q a t

namespace Does

theorem bind {m : B p α} {f : α → B p β} {s : Run p} {Q : α → Run p → Prop}
    {R : β → Run p → Prop} (hm : Does m s Q)
    (hf : ∀ a s', s.Le s' → Q a s' → Does (f a) s' R) : Does (m >>= f) s R := by
  obtain ⟨a, s1, h1, h2, h3⟩ := hm
  obtain ⟨z, s2, g1, g2, g3⟩ := hf a s1 h2 h3
  exact ⟨z, s2, by rw [B.bind_eq h1, g1], h2.trans g2, g3⟩

theorem mono {m : B p α} {s : Run p} {Q R : α → Run p → Prop} (hm : Does m s Q)
    (h : ∀ a s', s.Le s' → Q a s' → R a s') : Does m s R := by
  obtain ⟨a, s1, h1, h2, h3⟩ := hm
  exact ⟨a, s1, h1, h2, h a s1 h2 h3⟩

theorem pure {a : α} {s : Run p} {Q : α → Run p → Prop} (h : Q a s) :
    Does (pure a : B p α) s Q := ⟨a, s, rfl, Run.Le.refl s, h⟩

theorem ofOption_bind {o : Option α} {a : α} {s : Run p} {f : α → B p β} {R : β → Run p → Prop}
    (ho : o = some a) (h : Does (f a) s R) : Does (B.ofOption o >>= f) s R := by
  obtain ⟨z, s', h1, h2, h3⟩ := h
  exact ⟨z, s', by rw [B.bind_eq (B.ofOption_some ho _), h1], h2, h3⟩

theorem require_bind {c : Prop} [Decidable c] {s : Run p} {f : Unit → B p β}
    {R : β → Run p → Prop} (hc : c) (h : Does (f ()) s R) : Does (B.require c >>= f) s R := by
  obtain ⟨z, s', h1, h2, h3⟩ := h
  exact ⟨z, s', by rw [B.bind_eq (B.require_pos hc _), h1], h2, h3⟩

/-- A constraint which may or may not hold. -/
theorem assertProduct {s : Run p} {x y z : Expression p} (hx : x.Scoped s.next)
    (hy : y.Scoped s.next) (hz : z.Scoped s.next) :
    Does (B.assertProduct x y z) s fun _ t => t.next = s.next ∧ t.D = s.D ∧ t.W = s.W ∧
      (t.Holds ↔ s.Holds ∧ x.eval s.W * y.eval s.W = z.eval s.W) := by
  refine ⟨(), ⟨{ s.b with constraints := s.b.constraints ++ [⟨x, y, z⟩] }, s.D, s.W, s.ok, ?_⟩, rfl,
    ⟨le_refl _, fun _ _ => rfl⟩, rfl, rfl, rfl, ?_⟩
  · intro c hc
    rcases List.mem_append.1 hc with hc | hc
    · exact s.within c hc
    · rw [List.mem_singleton] at hc
      subst hc
      exact ⟨hx, hy, hz⟩
  · unfold Run.Holds
    simp only [List.forall_mem_append, List.forall_mem_singleton]
    rfl

/-- A generator for wires allocated before. -/
theorem generator {s : Run p} {d : List Wire} {f : WireValues p → Option (WireValues p)}
    (outs D' : List Wire) (hD : List.Perm s.D (outs ++ D')) (hg : GenOK ⟨d, f⟩ outs s.W)
    (hd : ∀ i ∈ d, i < s.next ∧ ∀ o ∈ outs, i < o) :
    Does (B.generator d f) s fun _ t => t.next = s.next ∧ t.D = D' ∧ t.W = s.W ∧
      (t.Holds ↔ s.Holds) := by
  obtain ⟨_, t, h1, _, h3, h4, h5⟩ := Comp.generator (s := ⟨_, s.D, s.W, s.ok⟩) outs D' hD hg hd
  have h6 := t.ok
  have h7 : t.b = ⟨s.next, [], s.b.witnessGenerators ++ [⟨d, f⟩]⟩ :=
    (Prod.ext_iff.1 (Option.some.inj h1)).2.symm
  rw [h7, h4, h5] at h6
  exact ⟨(), ⟨⟨s.next, s.b.constraints, s.b.witnessGenerators ++ [⟨d, f⟩]⟩, D', s.W, h6, s.within⟩,
    rfl, ⟨le_refl _, fun _ _ => rfl⟩, rfl, rfl, rfl, Iff.rfl⟩

/-- What a call computes when all wires are supplied and nothing is constrained, it computes in
every state; the constraints it adds hold. -/
theorem lift {m : B p α} (hm : Prog m) {s : Run p} {X : List Wire} {Q : α → ℕ → Assign p → Prop}
    (h : Comp m (Hon.free s.next s.pos s.W s.one) fun a t =>
      t.D = X ++ List.range' 1 (s.next - 1) ∧ Q a t.next t.W) :
    Does m s fun a t => t.D = X ++ s.D ∧ (t.Holds ↔ s.Holds) ∧ Q a t.next t.W := by
  obtain ⟨a, t, h1, h2, h3, h4⟩ := h
  obtain ⟨cs, gs, e1, e2, e3⟩ := hm.frame_append h1
  have e1 : t.b.constraints = cs := e1
  have e2 : t.b.witnessGenerators = gs := e2
  have e3 := e3 s.b.constraints s.b.witnessGenerators
  have hle : s.next ≤ t.next := h2.1
  have hW : ∀ i < s.next, t.W i = s.W i := h2.2
  have hpos := s.pos
  obtain ⟨A, a1, a2, a3⟩ := s.ok.generators
  obtain ⟨A', a1', a2', a3'⟩ := t.ok.generators
  have hA : ∀ e ∈ A, ∀ i ∈ e.2, i < s.next := by
    intro e he i hi
    have : i ∈ List.range' 1 (s.next - 1) := by
      refine (a3.mem_iff (a := i)).1 ?_
      simp only [List.mem_append, List.mem_flatten, List.mem_map]
      exact Or.inl ⟨e.2, ⟨e, he, rfl⟩, hi⟩
    rw [List.mem_range'_1] at this
    omega
  refine ⟨a, ⟨⟨t.next, s.b.constraints ++ cs, s.b.witnessGenerators ++ gs⟩, X ++ s.D, t.W,
    ⟨t.one, t.pos, by simp, A ++ A', ?_, ?_, ?_⟩, ?_⟩, e3, h2, rfl, ?_, h4⟩
  · rw [List.map_append, a1, a1', e2]
  · intro e he
    rcases List.mem_append.1 he with he | he
    · obtain ⟨g1, g2⟩ := a2 e he
      exact ⟨g1.congr (fun i hi => hW i (g2 i hi).1) fun i hi => hW i (hA e he i hi),
        fun i hi => ⟨lt_of_lt_of_le (g2 i hi).1 hle, (g2 i hi).2⟩⟩
    · exact a2' e he
  · rw [h3] at a3'
    refine List.Perm.trans ?_ a3'
    rw [List.map_append, List.flatten_append, List.append_assoc]
    refine (List.perm_append_comm_assoc _ _ _).trans ?_
    refine List.Perm.append_left _ ?_
    refine (List.perm_append_comm_assoc _ _ _).trans ?_
    exact List.Perm.append_left _ a3
  · intro c hc
    rcases List.mem_append.1 hc with hc | hc
    · obtain ⟨g1, g2, g3⟩ := s.within c hc
      exact ⟨g1.mono hle, g2.mono hle, g3.mono hle⟩
    · rw [← e1] at hc
      exact (t.ok.constraints c hc).2
  · unfold Run.Holds
    simp only [List.forall_mem_append]
    constructor
    · rintro ⟨h, _⟩ c hc
      obtain ⟨g1, g2, g3⟩ := s.within c hc
      have := h c hc
      unfold Constraint.Holds at this ⊢
      rwa [Expression.eval_congr fun i hi => hW i (g1 i hi),
        Expression.eval_congr fun i hi => hW i (g2 i hi),
        Expression.eval_congr fun i hi => hW i (g3 i hi)] at this
    · intro h
      refine ⟨fun c hc => ?_, fun c hc => ?_⟩
      · obtain ⟨g1, g2, g3⟩ := s.within c hc
        have := h c hc
        unfold Constraint.Holds at this ⊢
        rwa [Expression.eval_congr fun i hi => hW i (g1 i hi),
          Expression.eval_congr fun i hi => hW i (g2 i hi),
          Expression.eval_congr fun i hi => hW i (g3 i hi)]
      · rw [← e1] at hc
        exact (t.ok.constraints c hc).1

theorem assertEqual {s : Run p} {x y : Expression p} (hx : x.Scoped s.next)
    (hy : y.Scoped s.next) :
    Does (B.assertEqual x y) s fun _ t => t.next = s.next ∧ t.D = s.D ∧ t.W = s.W ∧
      (t.Holds ↔ s.Holds ∧ x.eval s.W = y.eval s.W) := by
  refine (assertProduct hx (Expression.Scoped.one s.pos) hy).mono fun _ t _ ⟨h1, h2, h3, h4⟩ =>
    ⟨h1, h2, h3, ?_⟩
  rw [h4, Expression.eval_one s.one, mul_one]

end Does

theorem Locally.of_does {m : B p α} (hm : Tidy m) {n : ℕ} {P : Assign p → Prop}
    {Q : α → Assign p → Prop}
    (h : ∀ s : Run p, s.next = n → P s.W → Does m s fun a t => t.D = s.D ∧
      ∀ W, (∀ i < t.next, W i = t.W i) → Q a W) :
    Locally n m fun a W => P W → Q a W := by
  refine Locally.of_generators hm fun hn W h1 hP => ?_
  obtain ⟨a, t, e1, e2, e3, e4⟩ := h (Run.free n hn W h1) rfl hP
  refine ⟨a, t.b, t.W, e1, ?_, e2.2, e4⟩
  have := t.ok
  rw [e3] at this
  exact this

end R1CS
