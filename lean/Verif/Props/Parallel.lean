import Verif.Spec.Parallel
import Verif.Props.Execute
import Verif.Props.Renumber
import Verif.Props.Language

/-!
# Property C101: parts which do not use one another do not disturb one another
-/

set_option linter.unusedSectionVars false

namespace R1CS

variable {p : ℕ} [hp : Fact p.Prime]

open Exec

namespace Parallel

variable {R S : Wire → Prop}

theorem Joins.swap {v v1 v2 : WireValues p} (h : Joins R S v v1 v2) : Joins S R v v2 v1 := ⟨h.2, h.1⟩

theorem Joins.unique {v v' v1 v2 : WireValues p} (hd : ∀ i, R i → ¬ S i) (h : Joins R S v v1 v2)
    (h' : Joins R S v' v1 v2) : v = v' := by
  funext i
  by_cases hs : S i
  · have hr : ¬ R i := fun hr => hd i hr hs
    rw [h.2 i hr, h'.2 i hr]
  · rw [h.1 i hs, h'.1 i hs]

/-- One generator of the first part. -/
theorem generate_left (hd : ∀ i, R i → ¬ S i) {g : WitnessGenerator p} (hg : Minds R g)
    (hi : ∀ i ∈ g.inputs, ¬ S i) {v v1 v2 : WireValues p} (hJ : Joins R S v v1 v2) :
    (g.generate v1 = none ∧ g.generate v = none) ∨
    ∃ u u1, g.generate v1 = some u1 ∧ g.generate v = some u ∧ Joins R S u u1 v2 := by
  rcases h1 : g.generate v1 with _ | u1
  · left
    refine ⟨rfl, ?_⟩
    rcases h : g.generate v with _ | u
    · rfl
    · obtain ⟨u1, e, _⟩ := hg.reads v v1 u (fun i hm => (hJ.1 i (hi i hm)).symm)
        (fun i hR => (hJ.1 i (hd i hR)).symm) h
      rw [e] at h1
      cases h1
  · right
    obtain ⟨u, e, e'⟩ := hg.reads v1 v u1 (fun i hm => hJ.1 i (hi i hm)) (fun i hR => hJ.1 i (hd i hR))
      h1
    refine ⟨u, u1, rfl, e, fun i hS => ?_, fun i hR => ?_⟩
    · by_cases hR : R i
      · exact e' i hR
      · rw [hg.writes v u e i hR, hJ.1 i hS, hg.writes v1 u1 h1 i hR]
    · rw [hg.writes v u e i hR, hJ.2 i hR]

/-- One pass over the generators of the first part. -/
theorem pass_left (hd : ∀ i, R i → ¬ S i) : ∀ (gs : List (WitnessGenerator p)),
    (∀ g ∈ gs, Minds R g) → (∀ g ∈ gs, ∀ i ∈ g.inputs, ¬ S i) → ∀ {v v1 v2 : WireValues p},
    Joins R S v v1 v2 →
    (Gadget.pass gs v1 = none ∧ Gadget.pass gs v = none) ∨
    ∃ ks u u1 fl, Gadget.pass gs v1 = some (ks, u1, fl) ∧ Gadget.pass gs v = some (ks, u, fl) ∧
      Joins R S u u1 v2
  | [], _, _, v, v1, v2, hJ => .inr ⟨[], v, v1, false, rfl, rfl, hJ⟩
  | g :: gs, h1, h2, v, v1, v2, hJ => by
    have hr : v.containsAll g.inputs = v1.containsAll g.inputs := by
      have : ∀ i ∈ g.inputs, v i = v1 i := fun i hm => hJ.1 i (h2 g (by simp) i hm)
      simp only [WireValues.containsAll, WireValues.contains]
      rw [Bool.eq_iff_iff]
      simp only [List.all_eq_true]
      exact forall₂_congr fun i hm => by rw [this i hm]
    have ih := @pass_left hd gs (fun g hg => h1 g (by simp [hg])) fun g hg => h2 g (by simp [hg])
    simp only [Gadget.pass]
    rw [hr]
    split
    · rcases generate_left hd (h1 g (by simp)) (h2 g (by simp)) hJ with ⟨e1, e2⟩ | ⟨u, u1, e1, e2, e3⟩
      · exact .inl ⟨by simp [e1], by simp [e2]⟩
      · rcases ih e3 with ⟨i1, i2⟩ | ⟨ks, w, w1, fl, i1, i2, i3⟩
        · exact .inl ⟨by simp [e1, i1], by simp [e2, i2]⟩
        · exact .inr ⟨ks, w, w1, true, by simp [e1, i1], by simp [e2, i2], i3⟩
    · rcases ih hJ with ⟨i1, i2⟩ | ⟨ks, w, w1, fl, i1, i2, i3⟩
      · exact .inl ⟨by simp [i1], by simp [i2]⟩
      · exact .inr ⟨g :: ks, w, w1, fl, by simp [i1], by simp [i2], i3⟩

theorem pass_append : ∀ (gs hs : List (WitnessGenerator p)) (v : WireValues p),
    Gadget.pass (gs ++ hs) v = (Gadget.pass gs v).bind fun r => (Gadget.pass hs r.2.1).map fun t =>
      (r.1 ++ t.1, t.2.1, r.2.2 || t.2.2)
  | [], hs, v => by
    rcases h : Gadget.pass hs v with _ | ⟨ks, u, fl⟩ <;> simp [Gadget.pass, h]
  | g :: gs, hs, v => by
    simp only [List.cons_append, Gadget.pass]
    split
    · rcases g.generate v with _ | u
      · rfl
      · simp only [Option.bind_eq_bind, Option.bind_some, pass_append gs hs u]
        rcases Gadget.pass gs u with _ | ⟨ks, w, fl⟩
        · rfl
        · rcases h : Gadget.pass hs w with _ | ⟨ls, x, fl'⟩ <;> simp [h]
    · simp only [Option.bind_eq_bind, pass_append gs hs v]
      rcases Gadget.pass gs v with _ | ⟨ks, w, fl⟩
      · rfl
      · rcases h : Gadget.pass hs w with _ | ⟨ls, x, fl'⟩ <;> simp [h]

/-- What a pass leaves: some of the generators, fewer if there was progress, and otherwise the
same state. -/
theorem pass_rest {gs ks : List (WitnessGenerator p)} {v u : WireValues p} {fl : Bool}
    (h : Gadget.pass gs v = some (ks, u, fl)) :
    (∀ g ∈ ks, g ∈ gs) ∧ (fl = true → ks.length < gs.length) ∧ (fl = false → ks = gs ∧ u = v) := by
  rcases pass_cases gs v with ⟨rest, v', fl', σ, e, h2, h3, h4, h5⟩ | ⟨e, _⟩
  · rw [h] at e
    obtain ⟨rfl, e⟩ := Prod.ext_iff.1 (Option.some.inj e)
    obtain ⟨rfl, rfl⟩ := Prod.ext_iff.1 e
    refine ⟨fun g hg => h2.mem_iff.1 (List.mem_append_right _ hg), fun hf => ?_, fun hf => ?_⟩
    · have := h2.length_eq
      have := List.length_pos_of_ne_nil (h4.1 hf)
      simp only [List.length_append] at *
      omega
    · have hσ : σ = [] := by
        by_contra hne
        exact absurd (h4.2 hne) (by simp [show fl = false from hf])
      subst hσ
      cases h3
      exact ⟨(h5 hf).1, rfl⟩
  · rw [h] at e
    cases e

/-- The loops of the two parts. -/
theorem loop_join (hd : ∀ i, R i → ¬ S i) : ∀ (n n1 n2 : ℕ) (gs hs : List (WitnessGenerator p)),
    (∀ g ∈ gs, Minds R g) → (∀ g ∈ gs, ∀ i ∈ g.inputs, ¬ S i) →
    (∀ g ∈ hs, Minds S g) → (∀ g ∈ hs, ∀ i ∈ g.inputs, ¬ R i) →
    gs.length + hs.length < n → gs.length < n1 → hs.length < n2 →
    ∀ {v v1 v2 : WireValues p}, Joins R S v v1 v2 →
    ((Gadget.loop n1 gs v1 = none ∨ Gadget.loop n2 hs v2 = none) ∧ Gadget.loop n (gs ++ hs) v = none) ∨
    ∃ ks ls u u1 u2, Gadget.loop n1 gs v1 = some (ks, u1) ∧ Gadget.loop n2 hs v2 = some (ls, u2) ∧
      Gadget.loop n (gs ++ hs) v = some (ks ++ ls, u) ∧ Joins R S u u1 u2
  | 0, _, _, _, _, _, _, _, _, h, _, _, _, _, _, _ => absurd h (by simp)
  | n + 1, n1, n2, gs, hs, g1, g2, g3, g4, l, l1, l2, v, v1, v2, hJ => by
    have hd' : ∀ i, S i → ¬ R i := fun i hS hR => hd i hR hS
    obtain ⟨n1, rfl⟩ : ∃ k, n1 = k + 1 := ⟨n1 - 1, by omega⟩
    obtain ⟨n2, rfl⟩ : ∃ k, n2 = k + 1 := ⟨n2 - 1, by omega⟩
    rcases pass_left hd gs g1 g2 hJ with ⟨e1, e2⟩ | ⟨ks, u, u1, fl, e1, e2, e3⟩
    · refine .inl ⟨.inl ?_, ?_⟩
      · simp [Gadget.loop, e1]
      · simp [Gadget.loop, pass_append, e2]
    rcases pass_left hd' hs g3 g4 (Joins.swap e3) with ⟨i1, i2⟩ | ⟨ls, w, u2, fl', i1, i2, i3⟩
    · refine .inl ⟨.inr ?_, ?_⟩
      · simp [Gadget.loop, i1]
      · simp [Gadget.loop, pass_append, e2, i2]
    have i3 := Joins.swap i3
    obtain ⟨r1, r2, r3⟩ := pass_rest e1
    obtain ⟨s1, s2, s3⟩ := pass_rest i1
    have hstep : Gadget.loop (n + 1) (gs ++ hs) v =
        if fl || fl' then Gadget.loop n (ks ++ ls) w else some (ks ++ ls, w) := by
      simp [Gadget.loop, pass_append, e2, i2]
    have hstep1 : Gadget.loop (n1 + 1) gs v1 = if fl then Gadget.loop n1 ks u1 else some (ks, u1) := by
      simp [Gadget.loop, e1]
    have hstep2 : Gadget.loop (n2 + 1) hs v2 = if fl' then Gadget.loop n2 ls u2 else some (ls, u2) := by
      simp [Gadget.loop, i1]
    have ih := fun m1 m2 => @loop_join hd n m1 m2 ks ls (fun g h => g1 g (r1 g h))
      (fun g h => g2 g (r1 g h)) (fun g h => g3 g (s1 g h)) (fun g h => g4 g (s1 g h))
    cases fl with
    | false =>
      obtain ⟨rfl, rfl⟩ := r3 rfl
      cases fl' with
      | false =>
        obtain ⟨rfl, rfl⟩ := s3 rfl
        exact .inr ⟨ks, ls, w, u1, u2, hstep1, hstep2, hstep, i3⟩
      | true =>
        have := s2 rfl
        have h := ih (n1 + 1) n2 (by omega) (by omega) (by omega) i3
        rw [hstep, hstep2]
        exact h
    | true =>
      have := r2 rfl
      cases fl' with
      | false =>
        obtain ⟨rfl, rfl⟩ := s3 rfl
        have h := ih n1 (n2 + 1) (by omega) (by omega) (by omega) i3
        rw [hstep, hstep1]
        exact h
      | true =>
        have := s2 rfl
        have h := ih n1 n2 (by omega) (by omega) (by omega) i3
        rw [hstep, hstep1, hstep2]
        exact h

theorem evaluate_agree {e : Expression p} {v v' : WireValues p}
    (h : ∀ i ∈ e.dependencies, v i = v' i) : e.evaluate v = e.evaluate v' := by
  have key : ∀ {v v' : WireValues p} {x}, (∀ i ∈ e.dependencies, v i = v' i) →
      e.evaluate v = some x → e.evaluate v' = some x := by
    intro v v' x h hx
    obtain ⟨h1, h2⟩ := Expression.evaluate_eq_some_iff.1 hx
    refine Expression.evaluate_eq_some_iff.2 ⟨fun i hi => by rw [← h i hi]; exact h1 i hi, ?_⟩
    rw [h2]
    refine Expression.eval_congr fun i hi => ?_
    simp only [WireValues.total, h i hi]
  rcases h1 : e.evaluate v with _ | x
  · rcases h2 : e.evaluate v' with _ | y
    · rfl
    · rw [key (fun i hi => (h i hi).symm) h2] at h1
      cases h1
  · exact (key h h1).symm

theorem checkAll_agree {v v' : WireValues p} : ∀ {cs : List (Constraint p)},
    (∀ c ∈ cs, ∀ e ∈ [c.a, c.b, c.c], ∀ i ∈ e.dependencies, v i = v' i) →
    Gadget.checkAll cs v = Gadget.checkAll cs v'
  | [], _ => rfl
  | c :: cs, h => by
    have h1 := h c (by simp)
    simp only [Gadget.checkAll, Constraint.evaluate, evaluate_agree (h1 c.a (by simp)),
      evaluate_agree (h1 c.b (by simp)), evaluate_agree (h1 c.c (by simp)),
      checkAll_agree (cs := cs) fun c hc => h c (by simp [hc])]

theorem checkAll_append (v : WireValues p) : ∀ cs ds : List (Constraint p),
    Gadget.checkAll (cs ++ ds) v =
      (Gadget.checkAll cs v).bind fun ok => if ok then Gadget.checkAll ds v else some false
  | [], ds => by simp [Gadget.checkAll]
  | c :: cs, ds => by
    simp only [List.cons_append, Gadget.checkAll, checkAll_append v cs ds]
    rcases c.evaluate v with _ | ok
    · rfl
    · cases ok <;> rfl

end Parallel

open Parallel

/-- Two gadgets on different wires, neither of which names wires of the other (they may have inputs in
common).  If each executes from the given values, then so do both together: the verdict is that both
accept, and each wire gets the value which it gets from its own part.  Both together accept only if
each accepts. -/
theorem C101_joined (R S : Wire → Prop) (hd : ∀ i, R i → ¬ S i) (g g' : Gadget p)
    (hg : g.Apart R S) (hg' : g'.Apart S R) (v : WireValues p) :
    (∀ u1 u2 ok1 ok2, g.execute v = some (u1, ok1) → g'.execute v = some (u2, ok2) →
      ∃ u, (g.join g').execute v = some (u, ok1 && ok2) ∧ Joins R S u u1 u2) ∧
    ∀ u, (g.join g').execute v = some (u, true) →
      ∃ u1 u2, g.execute v = some (u1, true) ∧ g'.execute v = some (u2, true) ∧ Joins R S u u1 u2 := by
  have hJ : Joins R S v v v := ⟨fun _ _ => rfl, fun _ _ => rfl⟩
  have key := loop_join hd ((g.join g').witnessGenerators.length + 1) (g.witnessGenerators.length + 1)
    (g'.witnessGenerators.length + 1) g.witnessGenerators g'.witnessGenerators hg.minds hg.awaits
    hg'.minds hg'.awaits (by simp [Gadget.join]) (by simp) (by simp) hJ
  simp only [Gadget.execute]
  rcases key with ⟨h1, h2⟩ | ⟨ks, ls, u, u1, u2, e1, e2, e3, e4⟩
  · have h2' : Gadget.loop ((g.join g').witnessGenerators.length + 1) (g.join g').witnessGenerators v =
        none := h2
    rw [h2']
    refine ⟨fun w1 w2 ok1 ok2 k1 k2 => ?_, fun w h => by simp at h⟩
    rcases h1 with h1 | h1
    · rw [h1] at k1; simp at k1
    · rw [h1] at k2; simp at k2
  · have e3' : Gadget.loop ((g.join g').witnessGenerators.length + 1) (g.join g').witnessGenerators v =
        some (ks ++ ls, u) := e3
    rw [e1, e2, e3']
    simp only [Option.bind_eq_bind, Option.bind_some, Option.pure_def]
    have c1 : Gadget.checkAll g.constraints u = Gadget.checkAll g.constraints u1 :=
      checkAll_agree fun c hc e he i hi => e4.1 i (hg.checks c hc e he i hi)
    have c2 : Gadget.checkAll g'.constraints u = Gadget.checkAll g'.constraints u2 :=
      checkAll_agree fun c hc e he i hi => e4.2 i (hg'.checks c hc e he i hi)
    have c3 : Gadget.checkAll (g.join g').constraints u = (Gadget.checkAll g.constraints u1).bind
        fun ok => if ok then Gadget.checkAll g'.constraints u2 else some false := by
      rw [← c1, ← c2]
      exact Parallel.checkAll_append u _ _
    rw [c3]
    constructor
    · intro w1 w2 ok1 ok2 k1 k2
      split at k1
      · split at k2
        · rcases q1 : Gadget.checkAll g.constraints u1 with _ | t1
          · simp [q1] at k1
          rcases q2 : Gadget.checkAll g'.constraints u2 with _ | t2
          · simp [q2] at k2
          simp only [q1, q2, Option.bind_some, Option.some.injEq, Prod.mk.injEq] at k1 k2
          obtain ⟨rfl, rfl⟩ := k1
          obtain ⟨rfl, rfl⟩ := k2
          refine ⟨u, ?_, e4⟩
          rw [if_pos (by simp only [List.length_append]; omega)]
          cases t1 <;> simp
        · simp at k2
      · simp at k1
    · intro w h
      split at h
      · rename_i hl
        simp only [List.length_append, Nat.add_eq_zero_iff] at hl
        rw [if_pos hl.1, if_pos hl.2]
        rcases q1 : Gadget.checkAll g.constraints u1 with _ | t1
        · simp [q1] at h
        cases t1 with
        | false => simp [q1] at h
        | true =>
          rcases q2 : Gadget.checkAll g'.constraints u2 with _ | t2
          · simp [q1, q2] at h
          simp only [q1, q2, Option.bind_some, if_true, Option.some.injEq, Prod.mk.injEq] at h
          obtain ⟨rfl, rfl⟩ := h
          exact ⟨u1, u2, by simp, by simp, e4⟩
      · simp at h

/-- Which of the two parts comes first makes no difference. -/
theorem C101_order (R S : Wire → Prop) (hd : ∀ i, R i → ¬ S i) (g g' : Gadget p)
    (hg : g.Apart R S) (hg' : g'.Apart S R) (v u : WireValues p) :
    (g.join g').execute v = some (u, true) ↔ (g'.join g).execute v = some (u, true) := by
  have hd' : ∀ i, S i → ¬ R i := fun i hS hR => hd i hR hS
  constructor
  · intro h
    obtain ⟨u1, u2, e1, e2, e3⟩ := (C101_joined R S hd g g' hg hg' v).2 u h
    obtain ⟨w, k1, k2⟩ := (C101_joined S R hd' g' g hg' hg v).1 _ _ _ _ e2 e1
    rw [Joins.unique hd e3 (Joins.swap k2)]
    exact k1
  · intro h
    obtain ⟨u1, u2, e1, e2, e3⟩ := (C101_joined S R hd' g' g hg' hg v).2 u h
    obtain ⟨w, k1, k2⟩ := (C101_joined R S hd g g' hg hg' v).1 _ _ _ _ e2 e1
    rw [Joins.unique hd' e3 (Joins.swap k2)]
    exact k1

/-- The values of the wires outside of the other part are those of one part alone, so further
constraints and generators do not matter to it: a part accepts within the whole as on its own. -/
theorem C101_alone (R S : Wire → Prop) (hd : ∀ i, R i → ¬ S i) (g g' : Gadget p)
    (hg : g.Apart R S) (hg' : g'.Apart S R) (v u u2 : WireValues p)
    (h2 : g'.execute v = some (u2, true)) :
    (∃ u1, g.execute v = some (u1, true) ∧ Joins R S u u1 u2) ↔
      (g.join g').execute v = some (u, true) := by
  constructor
  · rintro ⟨u1, e1, e2⟩
    obtain ⟨w, k1, k2⟩ := (C101_joined R S hd g g' hg hg' v).1 _ _ _ _ e1 h2
    rw [Joins.unique hd e2 k2]
    exact k1
  · intro h
    obtain ⟨u1, w2, e1, e2, e3⟩ := (C101_joined R S hd g g' hg hg' v).2 u h
    rw [h2] at e2
    obtain ⟨rfl, _⟩ := Prod.ext_iff.1 (Option.some.inj e2)
    exact ⟨u1, e1, e3⟩

/-! ## Calls -/

/-- Two calls on operands over wires allocated before, the second one not using the result of the
first.  The second adds what it would have added without the first, with the numbers of its wires
increased.  If each part executes from the given values (the second one as it would be without the
first), then so do both together, with the values of the parts, and they accept if both do; and both
together accept only if each accepts.  The generators of both together panic, or some of them are left without
inputs, if and only if this happens to those of one part. -/
theorem C101_calls {α β : Type} (m1 : B p α) (m2 : B p β) (f1 : Renumbering → α → α)
    (f2 : Renumbering → β → β) (b b1 b2 : Builder p) (a1 : α) (a2 : β) (n m : ℕ)
    (hb : b.nextWireIndex = n + 1) (hm : b1.nextWireIndex = n + 1 + m) (t1 : Tidy m1) (t2 : Tidy m2)
    (hm1 : ∀ r : Renumbering, (∀ i < n + 1, r i = i) → Alike r (f1 r) m1 m1)
    (hm2 : ∀ r : Renumbering, (∀ i < n + 1, r i = i) → Alike r (f2 r) m2 m2)
    (h1 : m1 b = some (a1, b1)) (h2 : m2 b = some (a2, b2)) :
    ∃ b12 cs1 gs1 cs2 gs2 gs2', m2 b1 = some (f2 (Renumbering.shift n m) a2, b12) ∧
      b1.constraints = b.constraints ++ cs1 ∧ b1.witnessGenerators = b.witnessGenerators ++ gs1 ∧
      b2.constraints = b.constraints ++ cs2 ∧ b2.witnessGenerators = b.witnessGenerators ++ gs2 ∧
      b12.nextWireIndex = b2.nextWireIndex + m ∧
      b12.constraints = b.constraints ++ (cs1 ++ cs2.map (Constraint.renumber (Renumbering.shift n m))) ∧
      b12.witnessGenerators = b.witnessGenerators ++ (gs1 ++ gs2') ∧
      (∀ v : WireValues p, Gadget.execute ⟨[], gs1 ++ gs2'⟩ v = none ↔ Gadget.execute ⟨[], gs1⟩ v = none ∨
        Gadget.execute ⟨[], gs2⟩ (v.through (Renumbering.shift n m)) = none) ∧
      ∀ v : WireValues p,
        (∀ u1 u2 ok1 ok2, Gadget.execute ⟨cs1, gs1⟩ v = some (u1, ok1) →
          Gadget.execute ⟨cs2, gs2⟩ (v.through (Renumbering.shift n m)) = some (u2, ok2) →
          ∃ u, Gadget.execute ⟨cs1 ++ cs2.map (Constraint.renumber (Renumbering.shift n m)),
              gs1 ++ gs2'⟩ v = some (u, ok1 && ok2) ∧
            (∀ i < b1.nextWireIndex, u i = u1 i) ∧ u.through (Renumbering.shift n m) = u2) ∧
        ∀ u, Gadget.execute ⟨cs1 ++ cs2.map (Constraint.renumber (Renumbering.shift n m)),
            gs1 ++ gs2'⟩ v = some (u, true) →
          (∃ u1, Gadget.execute ⟨cs1, gs1⟩ v = some (u1, true) ∧
            ∀ i < b1.nextWireIndex, u1 i = u i) ∧
          Gadget.execute ⟨cs2, gs2⟩ (v.through (Renumbering.shift n m)) =
            some (u.through (Renumbering.shift n m), true) := by
  set r := Renumbering.shift n m with hr
  have hfix : ∀ i < n + 1, r i = i := fun i hi => if_pos (by omega)
  have hup : ∀ i, n < i → r i = i + m := fun i hi => if_neg (by omega)
  have himg : ∀ i, ¬ (n + 1 ≤ r i ∧ r i < n + 1 + m) := by
    intro i
    by_cases hi : n < i
    · rw [hup i hi]; omega
    · rw [hfix i (by omega)]; omega
  obtain ⟨_, _, cs1, gs1, p1, p2, p3, p4⟩ := C100_scoped m1 f1 b b1 a1 (by omega)
    (by rw [hb]; exact hm1) h1
  obtain ⟨q0, q⟩ := (hm2 r hfix b b1).2 a2 b2 h2
  obtain ⟨b12, q1, q2, cs2, gs2, gs2', q3, q4, q5, q6, q7⟩ := q fun k _ => by
    rw [hb, hm, hup _ (by omega)]; omega
  refine ⟨b12, cs1, gs1, cs2, gs2, gs2', q1, p1, p2, q3, q5, by omega, ?_, ?_, ?_⟩
  · rw [q4, p1, List.append_assoc]
  · rw [q6, p2, List.append_assoc]
  let R : Wire → Prop := fun i => n + 1 ≤ i ∧ i < n + 1 + m
  let S : Wire → Prop := fun i => n + 1 + m ≤ i ∧ i < b12.nextWireIndex
  have hd : ∀ i, R i → ¬ S i := fun i h1 h2 => by
    simp only [R, S] at h1 h2
    omega
  have hminds : ∀ {lo hi : ℕ} {g : WitnessGenerator p}, Confined lo hi g →
      Minds (fun i => lo ≤ i ∧ i < hi) g := fun hg =>
    ⟨fun u u' hu i hi => by
      by_contra hne
      exact hi (hg.writes u u' hu i hne).2,
    fun u1 u2 u1' k1 k2 k3 => by
      obtain ⟨u2', k4, k5⟩ := hg.reads u1 u2 u1' k1 (fun i a b => k2 i ⟨a, b⟩) k3
      exact ⟨u2', k4, fun i hi => k5 i hi.1 hi.2⟩⟩
  have A1 : Gadget.Apart R S (⟨cs1, gs1⟩ : Gadget p) := by
    refine ⟨fun g hg => ?_, fun g hg i hi hS => ?_, fun c hc e he i hi hS => ?_⟩
    · have := t1.2 b a1 b1 h1 g (by rw [p2]; simpa using hg)
      rw [hb, hm] at this
      exact hminds this
    · have := (p4 g hg).1 i hi
      simp only [S] at hS
      omega
    · have hlt : i < b1.nextWireIndex := by
        simp only [List.mem_cons, List.not_mem_nil, or_false] at he
        rcases he with rfl | rfl | rfl
        · exact (p3 c hc).1 i hi
        · exact (p3 c hc).2.1 i hi
        · exact (p3 c hc).2.2 i hi
      simp only [S] at hS
      omega
  have A2 : Gadget.Apart S R (⟨cs2.map (Constraint.renumber r), gs2'⟩ : Gadget p) := by
    refine ⟨fun g hg => ?_, fun g hg i hi hR => ?_, fun c hc e he i hi hR => ?_⟩
    · have := t2.2 b1 _ b12 q1 g (by rw [q6]; simpa using hg)
      rw [hm] at this
      exact hminds this
    · obtain ⟨g0, h0⟩ : ∃ g0, WitnessGenerator.Alike r g0 g := by
        clear q5 q6 A1
        induction q7 with
        | nil => simp at hg
        | cons h _ ih =>
          rcases List.mem_cons.1 hg with rfl | hg
          · exact ⟨_, h⟩
          · exact ih hg
      rw [h0.1] at hi
      obtain ⟨j, _, rfl⟩ := List.mem_map.1 hi
      exact himg j hR
    · obtain ⟨c0, _, rfl⟩ := List.mem_map.1 hc
      have : ∃ e0 : Expression p, e = e0.renumber r := by
        simp only [List.mem_cons, List.not_mem_nil, or_false] at he
        rcases he with rfl | rfl | rfl <;> exact ⟨_, rfl⟩
      obtain ⟨e0, rfl⟩ := this
      rw [renumber_dependencies] at hi
      obtain ⟨j, _, rfl⟩ := List.mem_map.1 hi
      exact himg j hR
  refine ⟨fun v => ?_, fun v => ?_⟩
  · obtain ⟨k1, k2⟩ := C101_joined R S hd ⟨[], gs1⟩ ⟨[], gs2'⟩ ⟨A1.minds, A1.awaits, by simp⟩
      ⟨A2.minds, A2.awaits, by simp⟩ v
    have hx := (C100_execute r (⟨[], gs2⟩ : Gadget p) ⟨[], gs2'⟩ rfl q7 v).1
    rw [← hx, Option.map_eq_none_iff]
    constructor
    · intro h
      by_contra hn
      push Not at hn
      obtain ⟨⟨u1, ok1⟩, e1⟩ := Option.ne_none_iff_exists'.1 hn.1
      obtain ⟨⟨u2, ok2⟩, e2⟩ := Option.ne_none_iff_exists'.1 hn.2
      obtain ⟨u, e3, -⟩ := k1 u1 u2 ok1 ok2 e1 e2
      have e3 : Gadget.execute ⟨[], gs1 ++ gs2'⟩ v = _ := e3
      rw [h] at e3
      cases e3
    · intro h
      by_contra hn
      obtain ⟨⟨u, ok⟩, e⟩ := Option.ne_none_iff_exists'.1 hn
      have hok : ok = true := by
        unfold Gadget.execute at e
        obtain ⟨r, _, e⟩ := Option.bind_eq_some_iff.1 e
        split at e
        · exact ((Prod.ext_iff.1 (Option.some.inj e)).2).symm
        · cases e
      subst hok
      obtain ⟨u1, u2, e1, e2, -⟩ := k2 u e
      rcases h with h | h
      · rw [h] at e1
        cases e1
      · rw [h] at e2
        cases e2
  obtain ⟨k1, k2⟩ := C101_joined R S hd _ _ A1 A2 v
  have hx := C100_execute r (⟨cs2, gs2⟩ : Gadget p) ⟨cs2.map (Constraint.renumber r), gs2'⟩ rfl q7 v
  have hnR : ∀ i, ¬ R (r i) := himg
  have hnS : ∀ i < b1.nextWireIndex, ¬ S i := fun i hi hS => by
    simp only [S] at hS
    omega
  constructor
  · intro u1 u2 ok1 ok2 e1 e2
    rw [← hx.1] at e2
    obtain ⟨⟨w2, ok⟩, e3, e4⟩ := Option.map_eq_some_iff.1 e2
    obtain ⟨rfl, rfl⟩ := Prod.ext_iff.1 e4
    obtain ⟨u, e5, e6⟩ := k1 u1 w2 ok1 ok e1 e3
    exact ⟨u, e5, fun i hi => e6.1 i (hnS i hi), funext fun i => e6.2 _ (hnR i)⟩
  · intro u h
    obtain ⟨u1, w2, e1, e2, e3⟩ := k2 u h
    refine ⟨⟨u1, e1, fun i hi => (e3.1 i (hnS i hi)).symm⟩, ?_⟩
    rw [← hx.1, e2]
    refine congrArg some (Prod.ext (funext fun i => ?_) rfl)
    exact (e3.2 _ (hnR i)).symm

/-- Two circuits over the same inputs, the second built after the first: they are satisfied, and they
execute and accept, just as the circuits apart. -/
theorem C101_circuits (h4 : 4 ≤ Elem.maxBits p) (c1 c2 : Circuit p) (k m : ℕ)
    (hc1 : ∀ r, ∀ i ∈ c1, Alike.Given r i.1) (hc2 : ∀ r, ∀ i ∈ c2, Alike.Given r i.1)
    (os1 os2 : List (Obj p)) (d1 d2 : Builder p)
    (h1 : Circuit.build k c1 Builder.new = some (os1, d1))
    (h2 : Circuit.build k c2 Builder.new = some (os2, d2)) (hm : d1.nextWireIndex = k + 1 + m) :
    ∃ d, (do
        let ws ← B.wires k
        let a ← Circuit.runFrom c1 (ws.map fun w => .expr (Expression.ofWire w))
        let b ← Circuit.runFrom c2 (ws.map fun w => .expr (Expression.ofWire w))
        return (a, b) : B p _) Builder.new =
          some ((os1, os2.map (Obj.renumber (Renumbering.shift k m))), d) ∧
      d.nextWireIndex = d2.nextWireIndex + m ∧
      (∀ W, Satisfies W d.constraints ↔ Satisfies W d1.constraints ∧
        Satisfies (fun i => W (Renumbering.shift k m i)) d2.constraints) ∧
      (∀ v : WireValues p, Gadget.execute ⟨[], d.build.witnessGenerators⟩ v = none ↔
        Gadget.execute ⟨[], d1.build.witnessGenerators⟩ v = none ∨
        Gadget.execute ⟨[], d2.build.witnessGenerators⟩ (v.through (Renumbering.shift k m)) = none) ∧
      ∀ v : WireValues p,
        (∀ u1 u2 ok1 ok2, d1.build.execute v = some (u1, ok1) →
          d2.build.execute (v.through (Renumbering.shift k m)) = some (u2, ok2) →
          ∃ u, d.build.execute v = some (u, ok1 && ok2) ∧ (∀ i < d1.nextWireIndex, u i = u1 i) ∧
            u.through (Renumbering.shift k m) = u2) ∧
        ∀ u, d.build.execute v = some (u, true) →
          (∃ u1, d1.build.execute v = some (u1, true) ∧ ∀ i < d1.nextWireIndex, u1 i = u i) ∧
          d2.build.execute (v.through (Renumbering.shift k m)) =
            some (u.through (Renumbering.shift k m), true) := by
  obtain ⟨ws, b, e0, h1⟩ := B.bind_run h1
  obtain ⟨ws', b', e0', h2⟩ := B.bind_run h2
  rw [e0] at e0'
  obtain ⟨rfl, rfl⟩ := Prod.ext_iff.1 (Option.some.inj e0')
  rw [Enforces.wires_run] at e0
  obtain ⟨rfl, rfl⟩ := Prod.ext_iff.1 (Option.some.inj e0)
  simp only at h1 h2
  set os : List (Obj p) := (List.range' (Builder.new : Builder p).nextWireIndex k).map
    fun w => Obj.expr (Expression.ofWire w) with hos
  have hs : ∀ o ∈ os, o.Scoped (k + 1) := by
    intro o ho
    obtain ⟨w, hw, rfl⟩ := List.mem_map.1 ho
    have := List.mem_range'_1.1 hw
    simp only [Builder.new] at this
    exact Expression.Scoped.ofWire (by omega)
  have hal : ∀ c : Circuit p, (∀ r, ∀ i ∈ c, Alike.Given r i.1) → ∀ r : Renumbering,
      (∀ i < k + 1, r i = i) →
      Alike r (List.map (Obj.renumber r)) (Circuit.runFrom c os) (Circuit.runFrom c os) := by
    intro c hc r hr
    have hfix : os.map (Obj.renumber r) = os := by
      conv_rhs => rw [← List.map_id os]
      exact List.map_congr_left fun o ho => Obj.renumber_of_fixed hr (hs o ho)
    have := Alike.runFrom (hc r) os
    rwa [hfix] at this
  obtain ⟨d, cs1, gs1, cs2, gs2, gs2', q1, q2, q3, q4, q5, q6, q7, q8, q9p, q9⟩ :=
    C101_calls (Circuit.runFrom c1 os) (Circuit.runFrom c2 os) (fun r => List.map (Obj.renumber r))
      (fun r => List.map (Obj.renumber r)) _ d1 d2 os1 os2 k m (by simp [Builder.new]; omega) hm
      (Circuit.tidy_runFrom (fun i _ => Op.tidy i.1 h4) os)
      (Circuit.tidy_runFrom (fun i _ => Op.tidy i.1 h4) os) (hal c1 hc1) (hal c2 hc2) h1 h2
  simp only [Builder.new, List.nil_append] at q2 q3 q4 q5 q7 q8
  subst q2 q3 q4 q5
  refine ⟨d, ?_, q6, fun W => ?_, ?_, ?_⟩
  · show (B.wires k >>= _) _ = _
    rw [B.bind_eq (Enforces.wires_run k _), B.bind_eq h1, B.bind_eq q1]
    rfl
  · rw [q7, ← C100_satisfied]
    constructor
    · exact fun h => ⟨⟨h.one, fun c hm => h.all c (by simp [hm])⟩,
        ⟨h.one, fun c hm => h.all c (List.mem_append_right _ hm)⟩⟩
    · refine fun h => ⟨h.1.one, fun c hm => ?_⟩
      rcases List.mem_append.1 hm with hm | hm
      · exact h.1.all c hm
      · exact h.2.all c hm
  · have hd : d.build.witnessGenerators = d1.witnessGenerators ++ gs2' := by
      rw [← q8]
      rfl
    rw [hd]
    exact q9p
  · have hd : d.build = ⟨d1.constraints ++
        d2.constraints.map (Constraint.renumber (Renumbering.shift k m)),
        d1.witnessGenerators ++ gs2'⟩ := by
      rw [← q7, ← q8]
      rfl
    rw [hd]
    exact q9

/-- Two circuits over the same inputs, the second built after the first, accept values for the inputs
if and only if each of them does; so it makes no difference which one is built first. -/
theorem C101_inputs (h4 : 4 ≤ Elem.maxBits p) (c1 c2 : Circuit p) (k : ℕ)
    (hc1 : ∀ r, ∀ i ∈ c1, Alike.Given r i.1) (hc2 : ∀ r, ∀ i ∈ c2, Alike.Given r i.1)
    (os1 os2 : List (Obj p)) (d1 d2 : Builder p)
    (h1 : Circuit.build k c1 Builder.new = some (os1, d1))
    (h2 : Circuit.build k c2 Builder.new = some (os2, d2)) :
    ∃ os12 d12 os21 d21, (do
        let ws ← B.wires k
        let a ← Circuit.runFrom c1 (ws.map fun w => .expr (Expression.ofWire w))
        let b ← Circuit.runFrom c2 (ws.map fun w => .expr (Expression.ofWire w))
        return (a, b) : B p _) Builder.new = some (os12, d12) ∧
      (do
        let ws ← B.wires k
        let b ← Circuit.runFrom c2 (ws.map fun w => .expr (Expression.ofWire w))
        let a ← Circuit.runFrom c1 (ws.map fun w => .expr (Expression.ofWire w))
        return (b, a) : B p _) Builder.new = some (os21, d21) ∧
      ∀ v : WireValues p, (∀ i, k < i → v i = none) →
        ((∃ u, d12.build.execute v = some (u, true)) ↔
          (∃ u, d1.build.execute v = some (u, true)) ∧ ∃ u, d2.build.execute v = some (u, true)) ∧
        ((∃ u, d12.build.execute v = some (u, true)) ↔ ∃ u, d21.build.execute v = some (u, true)) := by
  have hle : ∀ (c : Circuit p) os d, Circuit.build k c Builder.new = some (os, d) →
      k + 1 ≤ d.nextWireIndex := by
    intro c os d h
    obtain ⟨ws, b, e0, h⟩ := B.bind_run h
    rw [Enforces.wires_run] at e0
    obtain ⟨rfl, rfl⟩ := Prod.ext_iff.1 (Option.some.inj e0)
    have := (C23_appends (Circuit.tidy_runFrom (c := c) (fun i _ => Op.tidy i.1 h4) _).1 h).1
    simp only [Builder.new] at this
    omega
  obtain ⟨m1, hm1⟩ := Nat.exists_eq_add_of_le (hle c1 os1 d1 h1)
  obtain ⟨m2, hm2⟩ := Nat.exists_eq_add_of_le (hle c2 os2 d2 h2)
  obtain ⟨d12, e1, _, _, _, e2⟩ := C101_circuits h4 c1 c2 k m1 hc1 hc2 os1 os2 d1 d2 h1 h2 hm1
  obtain ⟨d21, i1, _, _, _, i2⟩ := C101_circuits h4 c2 c1 k m2 hc2 hc1 os2 os1 d2 d1 h2 h1 hm2
  refine ⟨_, d12, _, d21, e1, i1, fun v hv => ?_⟩
  have hth : ∀ m, v.through (Renumbering.shift k m) = v := by
    intro m
    funext i
    by_cases hi : i ≤ k
    · simp [WireValues.through, Renumbering.shift, hi]
    · simp only [WireValues.through, Renumbering.shift, if_neg hi]
      rw [hv _ (by omega), hv _ (by omega)]
  have e2 := e2 v
  have i2 := i2 v
  rw [hth] at e2 i2
  have A : (∃ u, d12.build.execute v = some (u, true)) ↔
      (∃ u, d1.build.execute v = some (u, true)) ∧ ∃ u, d2.build.execute v = some (u, true) := by
    constructor
    · rintro ⟨u, h⟩
      obtain ⟨⟨u1, k1, _⟩, k2⟩ := e2.2 u h
      exact ⟨⟨u1, k1⟩, _, k2⟩
    · rintro ⟨⟨u1, k1⟩, u2, k2⟩
      obtain ⟨u, h, _⟩ := e2.1 u1 u2 true true k1 k2
      exact ⟨u, h⟩
  refine ⟨A, A.trans ?_⟩
  constructor
  · rintro ⟨⟨u1, k1⟩, u2, k2⟩
    obtain ⟨u, h, _⟩ := i2.1 u2 u1 true true k2 k1
    exact ⟨u, h⟩
  · rintro ⟨u, h⟩
    obtain ⟨⟨u1, k1, _⟩, k2⟩ := i2.2 u h
    exact ⟨⟨_, k2⟩, u1, k1⟩

/-! ## Examples -/

private def sq (i o : Wire) : Gadget 13 :=
  ⟨[⟨Expression.ofWire i, Expression.ofWire i, Expression.ofWire o⟩],
    [⟨[i], fun v => do
      let x ← v i
      return fun j => if j = o then some (x * x) else v j⟩]⟩

private def just (n : ℕ) (i : Wire) : Prop := i = n

private theorem sq_apart (i o o' : Wire) (h : i ≠ o') (h' : o ≠ o') :
    (sq i o).Apart (just o) (just o') := by
  have hdep : ∀ j : Wire, (Expression.ofWire j : Expression 13).dependencies = [j] := fun _ => rfl
  refine ⟨fun g hg => ?_, fun g hg j hj => ?_, fun c hc e he j hj => ?_⟩
  · simp only [sq, List.mem_singleton] at hg
    subst hg
    constructor
    · intro u u' hu j hj
      obtain ⟨x, _, hx⟩ := Option.bind_eq_some_iff.1 hu
      cases hx
      exact if_neg hj
    · intro u1 u2 u1' k1 _ hu
      obtain ⟨x, hx, hx'⟩ := Option.bind_eq_some_iff.1 hu
      cases hx'
      refine ⟨fun j => if j = o then some (x * x) else u2 j, ?_, fun j hj => ?_⟩
      · show (u2 i).bind _ = _
        rw [k1 i (by simp), hx]
        rfl
      · have hj : j = o := hj
        simp [hj]
  · simp only [sq, List.mem_singleton] at hg
    subst hg
    rw [List.mem_singleton.1 hj]
    exact h
  · simp only [sq, List.mem_singleton] at hc
    subst hc
    simp only [List.mem_cons, List.not_mem_nil, or_false] at he
    rcases he with rfl | rfl | rfl <;> rw [hdep] at hj <;> rw [List.mem_singleton.1 hj]
    · exact h
    · exact h
    · exact h'

/-- Two gadgets which square the same wire, to wires 2 and 3, are apart; together they accept, in
either order. -/
example : (sq 1 2).Apart (just 2) (just 3) ∧ (sq 1 3).Apart (just 3) (just 2) ∧
    (((sq 1 2).join (sq 1 3)).execute fun i => [some 1, some 5].getD i none).map
      (fun t => (t.1 2, t.1 3, t.2)) = some (some 12, some 12, true) ∧
    (((sq 1 3).join (sq 1 2)).execute fun i => [some 1, some 5].getD i none).map
      (fun t => (t.1 2, t.1 3, t.2)) = some (some 12, some 12, true) :=
  ⟨sq_apart _ _ _ (by decide) (by decide), sq_apart _ _ _ (by decide) (by decide),
    by decide +kernel, by decide +kernel⟩

/-- If the second squares the result of the first, then they are not apart, and indeed the second on
its own cannot be executed, although both together can. -/
example : (((sq 1 2).join (sq 2 3)).execute fun i => [some 1, some 5].getD i none).map
      (fun t => (t.1 2, t.1 3, t.2)) = some (some 12, some 1, true) ∧
    ((sq 2 3).execute fun i => [some 1, some 5].getD i none).isNone = true := by
  constructor <;> decide +kernel

private abbrev first : Circuit 13 := [(.lt, [0, 1])]
private abbrev second : Circuit 13 := [(.product, [0, 1]), (.inverse, [2])]

/-- A comparison of two numbers, and the inverse of their product: two circuits over the same
inputs. -/
example : ∃ os1 os2 d1 d2 m, Circuit.build 2 first Builder.new = some (os1, d1) ∧
    Circuit.build 2 second Builder.new = some (os2, d2) ∧ d1.nextWireIndex = 2 + 1 + m ∧
    (∀ r, ∀ i ∈ first, Alike.Given r i.1) ∧ (∀ r, ∀ i ∈ second, Alike.Given r i.1) ∧
    4 ≤ Elem.maxBits 13 := by
  have h1 : ((Circuit.build 2 first Builder.new).map fun t => t.2.nextWireIndex) = some 25 := by
    decide +kernel
  have h2 : ((Circuit.build 2 second Builder.new).map fun t => t.2.nextWireIndex) = some 5 := by
    decide +kernel
  obtain ⟨⟨os1, d1⟩, e1, k1⟩ := Option.map_eq_some_iff.1 h1
  obtain ⟨⟨os2, d2⟩, e2, _⟩ := Option.map_eq_some_iff.1 h2
  refine ⟨os1, os2, d1, d2, 22, e1, e2, k1, fun r i hi => ?_, fun r i hi => ?_, by rw [maxBits13]⟩
  · simp only [first, List.mem_singleton] at hi
    subst hi
    trivial
  · simp only [second, List.mem_cons, List.not_mem_nil, or_false] at hi
    rcases hi with rfl | rfl <;> trivial

/-- The two built one after the other, executed: on 3 and 5 they accept; on 3 and 0 the product is 0,
which has no inverse, and the whole panics as the second does alone. -/
example :
    ((do
        let ws ← B.wires 2
        let a ← Circuit.runFrom first (ws.map fun w => .expr (Expression.ofWire w))
        let b ← Circuit.runFrom second (ws.map fun w => .expr (Expression.ofWire w))
        return (a, b) : B 13 _) Builder.new).map (fun t =>
      ((t.2.build.execute (Circuit.inputs [3, 5])).map (fun t => (t.1 25, t.1 26, t.2)),
        (t.2.build.execute (Circuit.inputs [3, 0])).isNone)) =
      some (some (some 2, some 7, true), true) := by
  decide +kernel

end R1CS
