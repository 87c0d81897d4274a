import Verif.Spec.Schedule
import Verif.Lemmas.Gadgets
import Verif.Spec.Examples

/-!
# C19-C22: `execute`
-/

namespace R1CS

variable {p : ℕ} [hp : Fact p.Prime]

/-! ## The pass structure -/

namespace Exec

omit hp in
theorem Runs.append {v v1 v2 : WireValues p} {σ τ : List (WitnessGenerator p)}
    (h1 : Runs v σ v1) (h2 : Runs v1 τ v2) : Runs v (σ ++ τ) v2 := by
  induction h1 with
  | nil => exact h2
  | cons hin hg _ ih => exact Runs.cons hin hg (ih h2)

omit hp in
theorem ready_iff (v : WireValues p) (g : WitnessGenerator p) :
    v.containsAll g.inputs = true ↔ Ready v g := by
  simp [WireValues.containsAll, WireValues.contains, Ready]

/-- What a panicking closure looks like: after some run, a ready generator fails. -/
def ClosurePanic (v : WireValues p) (gs : List (WitnessGenerator p)) : Prop :=
  ∃ σ g ρ v', List.Perm (σ ++ g :: ρ) gs ∧ Runs v σ v' ∧ Ready v' g ∧ g.generate v' = none

omit hp in
theorem pass_cases : ∀ (gs : List (WitnessGenerator p)) (v : WireValues p),
    (∃ rest v' fl σ, Gadget.pass gs v = some (rest, v', fl) ∧ List.Perm (σ ++ rest) gs ∧
      Runs v σ v' ∧ (fl = true ↔ σ ≠ []) ∧ (fl = false → rest = gs ∧ ∀ g ∈ gs, ¬ Ready v g)) ∨
    (Gadget.pass gs v = none ∧ ClosurePanic v gs)
  | [], v => Or.inl ⟨[], v, false, [], rfl, List.Perm.refl _, Runs.nil v, by simp, by simp⟩
  | g :: gs, v => by
    unfold Gadget.pass
    by_cases hr : v.containsAll g.inputs = true
    · rw [if_pos hr]
      have hr' := (ready_iff v g).1 hr
      cases hg : g.generate v with
      | none =>
        right
        exact ⟨rfl, [], g, gs, v, List.Perm.refl _, Runs.nil v, hr', hg⟩
      | some v1 =>
        rcases pass_cases gs v1 with ⟨rest, v', fl, σ, h1, h2, h3, h4, h5⟩ | ⟨h1, σ, g', ρ, v', h2, h3, h4, h5⟩
        · left
          refine ⟨rest, v', true, g :: σ, by simp [h1], ?_, Runs.cons hr' hg h3, by simp, by simp⟩
          exact List.Perm.cons g h2
        · right
          refine ⟨by simp [h1], g :: σ, g', ρ, v', List.Perm.cons g h2, Runs.cons hr' hg h3, h4, h5⟩
    · rw [if_neg hr]
      have hr' : ¬ Ready v g := fun h => hr ((ready_iff v g).2 h)
      rcases pass_cases gs v with ⟨rest, v', fl, σ, h1, h2, h3, h4, h5⟩ | ⟨h1, σ, g', ρ, v', h2, h3, h4, h5⟩
      · left
        refine ⟨g :: rest, v', fl, σ, by simp [h1], ?_, h3, h4, ?_⟩
        · exact List.perm_middle.trans (List.Perm.cons g h2)
        · intro hf
          obtain ⟨a1, a2⟩ := h5 hf
          refine ⟨by rw [a1], ?_⟩
          intro g' hg'
          rcases List.mem_cons.1 hg' with rfl | h
          · exact hr'
          · exact a2 g' h
      · right
        refine ⟨by simp [h1], σ, g', ρ ++ [g], v', ?_, h3, h4, h5⟩
        have : σ ++ g' :: (ρ ++ [g]) = (σ ++ g' :: ρ) ++ [g] := by simp
        rw [this]
        exact (List.perm_append_singleton _ _).trans (List.Perm.cons g h2)

omit hp in
theorem loop_cases : ∀ (fuel : ℕ) (gs : List (WitnessGenerator p)) (v : WireValues p),
    gs.length < fuel →
    (∃ rest v' σ, Gadget.loop fuel gs v = some (rest, v') ∧ List.Perm (σ ++ rest) gs ∧
      Runs v σ v' ∧ ∀ g ∈ rest, ¬ Ready v' g) ∨
    (Gadget.loop fuel gs v = none ∧ ClosurePanic v gs)
  | 0, _, _, h => absurd h (by simp)
  | fuel + 1, gs, v, hlen => by
    unfold Gadget.loop
    rcases pass_cases gs v with ⟨rest, v1, fl, σ, h1, h2, h3, h4, h5⟩ | ⟨h1, h2⟩
    · rw [h1]
      simp only [Option.bind_eq_bind, Option.bind_some]
      cases fl with
      | false =>
        obtain ⟨rfl, a2⟩ := h5 rfl
        left
        have hσ : σ = [] := by
          by_contra hne
          exact absurd (h4.2 hne) (by simp)
        subst hσ
        cases h3
        exact ⟨rest, v, [], by simp, List.Perm.refl _, Runs.nil v, a2⟩
      | true =>
        have hσ : σ ≠ [] := h4.1 rfl
        have hl : rest.length < fuel := by
          have := h2.length_eq
          rw [List.length_append] at this
          have := List.length_pos_of_ne_nil hσ
          omega
        rcases loop_cases fuel rest v1 hl with ⟨rest', v', τ, k1, k2, k3, k4⟩ | ⟨k1, τ, g, ρ, v', k2, k3, k4, k5⟩
        · left
          refine ⟨rest', v', σ ++ τ, by simp [k1], ?_, Runs.append h3 k3, k4⟩
          rw [List.append_assoc]
          exact (List.Perm.append_left σ k2).trans h2
        · right
          refine ⟨by simp [k1], σ ++ τ, g, ρ, v', ?_, Runs.append h3 k3, k4, k5⟩
          rw [List.append_assoc]
          exact (List.Perm.append_left σ k2).trans h2
    · right
      exact ⟨by simp [h1], h2⟩

theorem checkAll_iff {v : WireValues p} : ∀ {cs : List (Constraint p)} {ok : Bool},
    Gadget.checkAll cs v = some ok → (ok = true ↔ ∀ c ∈ cs, c.Holds v.total)
  | [], ok, h => by
    simp only [Gadget.checkAll, Option.some.injEq] at h
    simp [← h]
  | c :: cs, ok, h => by
    simp only [Gadget.checkAll, Constraint.evaluate] at h
    cases ha : c.a.evaluate v with
    | none => simp [ha] at h
    | some a =>
    cases hb : c.b.evaluate v with
    | none => simp [ha, hb] at h
    | some b =>
    cases hc : c.c.evaluate v with
    | none => simp [ha, hb, hc] at h
    | some d =>
      have ea := (Expression.evaluate_eq_some_iff.1 ha).2
      have eb := (Expression.evaluate_eq_some_iff.1 hb).2
      have ec := (Expression.evaluate_eq_some_iff.1 hc).2
      have hiff : c.Holds v.total ↔ a * b = d := by
        unfold Constraint.Holds; rw [ea, eb, ec]
      by_cases hd : a * b = d
      · simp [ha, hb, hc, hd] at h
        rw [checkAll_iff h]
        simp [hiff, hd]
      · simp [ha, hb, hc, hd] at h
        subst h
        simp [hiff, hd]

end Exec

open Exec

/-! ## C19 -/

/-- C19: if `execute` returns, its verdict is the truth about the final values. -/
theorem C19_execute_decides (g : Gadget p) (v v' : WireValues p) (ok : Bool)
    (h : g.execute v = some (v', ok)) :
    ok = true ↔ ∀ c ∈ g.constraints, c.Holds v'.total := by
  unfold Gadget.execute at h
  cases hl : Gadget.loop (g.witnessGenerators.length + 1) g.witnessGenerators v with
  | none => simp [hl] at h
  | some r =>
    simp only [hl, Option.bind_eq_bind, Option.bind_some] at h
    split at h
    · cases hc : Gadget.checkAll g.constraints r.2 with
      | none => simp [hc] at h
      | some ok' =>
        simp [hc] at h
        obtain ⟨rfl, rfl⟩ := h
        exact checkAll_iff hc
    · exact absurd h (by simp)

/-- C19: an accepting execution has given a value to every wire mentioned in a constraint, so the
final values satisfy the system in every completion. -/
theorem C19_accept_satisfies (g : Gadget p) (v v' : WireValues p)
    (h : g.execute v = some (v', true)) (w : Assign p) (h1 : w ONE = 1)
    (hw : ∀ i x, v' i = some x → w i = x) : Satisfies w g.constraints := by
  have hv : ∀ c ∈ g.constraints, ∀ e, e = c.a ∨ e = c.b ∨ e = c.c →
      ∀ i ∈ e.dependencies, (v' i).isSome := by
    unfold Gadget.execute at h
    cases hl : Gadget.loop (g.witnessGenerators.length + 1) g.witnessGenerators v with
    | none => simp [hl] at h
    | some r =>
      simp only [hl, Option.bind_eq_bind, Option.bind_some] at h
      split at h
      · cases hc : Gadget.checkAll g.constraints r.2 with
        | none => simp [hc] at h
        | some ok' =>
          simp [hc] at h
          obtain ⟨rfl, rfl⟩ := h
          clear hl
          generalize g.constraints = cs at hc
          induction cs with
          | nil => intro c hcm; simp at hcm
          | cons c cs ih =>
            simp only [Gadget.checkAll, Constraint.evaluate] at hc
            cases ha : c.a.evaluate r.2 with
            | none => simp [ha] at hc
            | some a =>
            cases hb : c.b.evaluate r.2 with
            | none => simp [ha, hb] at hc
            | some b =>
            cases hd : c.c.evaluate r.2 with
            | none => simp [ha, hb, hd] at hc
            | some d =>
              by_cases hh : a * b = d
              · simp [ha, hb, hd, hh] at hc
                intro c' hc'
                rcases List.mem_cons.1 hc' with rfl | hc'
                · rintro e (rfl | rfl | rfl)
                  · exact (Expression.evaluate_eq_some_iff.1 ha).1
                  · exact (Expression.evaluate_eq_some_iff.1 hb).1
                  · exact (Expression.evaluate_eq_some_iff.1 hd).1
                · exact ih hc c' hc'
              · simp [ha, hb, hd, hh] at hc
      · exact absurd h (by simp)
  refine ⟨h1, fun c hc => ?_⟩
  have hh := (C19_execute_decides g v v' true h).1 rfl c hc
  have he : ∀ e, e = c.a ∨ e = c.b ∨ e = c.c → e.eval w = e.eval v'.total := by
    intro e he
    apply Expression.eval_congr
    intro i hi
    obtain ⟨x, hx⟩ := Option.isSome_iff_exists.1 (hv c hc e he i hi)
    rw [hw i x hx]; simp [WireValues.total, hx]
  unfold Constraint.Holds at hh ⊢
  rw [he _ (by simp), he _ (by simp), he _ (by simp)]
  exact hh

/-- A gadget with one input wire `1`, one computed wire `2 = 1 * 1`. -/
def squareGadget : Gadget 7 :=
  ⟨[⟨Expression.ofWire 1, Expression.ofWire 1, Expression.ofWire 2⟩],
   [⟨[1], B.productGen (Expression.ofWire 1) (Expression.ofWire 1) 2⟩]⟩

example : ∃ v', squareGadget.execute ((WireValues.new : WireValues 7).insert 1 3)
    = some (v', true) ∧ v' 2 = some 2 := ⟨_, rfl, by decide⟩

/-! ## C21 -/

/-- C21: the number of passes given to the model's loop is never exhausted: the loop ends with a
schedule of the generators that were run (each once, when ready) and a rest of which none is ready,
unless a closure panics. -/
theorem C21_terminates (gs : List (WitnessGenerator p)) (v : WireValues p) :
    (∃ rest v' σ, Gadget.loop (gs.length + 1) gs v = some (rest, v') ∧
      List.Perm (σ ++ rest) gs ∧ Runs v σ v' ∧ ∀ g ∈ rest, ¬ Ready v' g) ∨
    (Gadget.loop (gs.length + 1) gs v = none ∧
      ∃ σ g ρ v', List.Perm (σ ++ g :: ρ) gs ∧ Runs v σ v' ∧ Ready v' g ∧ g.generate v' = none) :=
  loop_cases _ gs v (Nat.lt_succ_self _)

/-- C21: if `execute` returns, every generator ran exactly once, when its inputs had values. -/
theorem C21_exactly_once (g : Gadget p) (v v' : WireValues p) (ok : Bool)
    (h : g.execute v = some (v', ok)) :
    ∃ σ, List.Perm σ g.witnessGenerators ∧ Runs v σ v' := by
  unfold Gadget.execute at h
  rcases loop_cases _ g.witnessGenerators v (Nat.lt_succ_self _) with
    ⟨rest, v1, σ, h1, h2, h3, h4⟩ | ⟨h1, _⟩
  · rw [h1] at h
    simp only [Option.bind_eq_bind, Option.bind_some] at h
    split at h
    · next hlen =>
      have : rest = [] := List.length_eq_zero_iff.1 hlen
      subst this
      cases hc : Gadget.checkAll g.constraints v1 with
      | none => simp [hc] at h
      | some ok' =>
        simp [hc] at h
        obtain ⟨rfl, rfl⟩ := h
        exact ⟨σ, by simpa using h2, h3⟩
    · exact absurd h (by simp)
  · rw [h1] at h
    exact absurd h (by simp)

/-- C21: when `execute` panics, the cause is one of: a ready generator's closure panics; some
generators never become ready; a constraint mentions a wire that never gets a value. -/
theorem C21_panics (g : Gadget p) (v : WireValues p) (h : g.execute v = none) :
    (∃ σ k ρ v', List.Perm (σ ++ k :: ρ) g.witnessGenerators ∧ Runs v σ v' ∧ Ready v' k ∧
      k.generate v' = none) ∨
    (∃ σ rest v', rest ≠ [] ∧ List.Perm (σ ++ rest) g.witnessGenerators ∧ Runs v σ v' ∧
      ∀ k ∈ rest, ¬ Ready v' k) ∨
    (∃ σ v', List.Perm σ g.witnessGenerators ∧ Runs v σ v' ∧ ∃ c ∈ g.constraints, ∃ e i,
      (e = c.a ∨ e = c.b ∨ e = c.c) ∧ i ∈ e.dependencies ∧ v' i = none) := by
  unfold Gadget.execute at h
  rcases loop_cases _ g.witnessGenerators v (Nat.lt_succ_self _) with
    ⟨rest, v1, σ, h1, h2, h3, h4⟩ | ⟨h1, h2⟩
  · rw [h1] at h
    simp only [Option.bind_eq_bind, Option.bind_some] at h
    split at h
    · next hlen =>
      have : rest = [] := List.length_eq_zero_iff.1 hlen
      subst this
      right; right
      refine ⟨σ, v1, by simpa using h2, h3, ?_⟩
      cases hc : Gadget.checkAll g.constraints v1 with
      | some ok' => simp [hc] at h
      | none =>
        clear h h1 h2 h3 h4
        generalize g.constraints = cs at hc
        induction cs with
        | nil => simp [Gadget.checkAll] at hc
        | cons c cs ih =>
          by_contra hne
          push Not at hne
          have hsome : ∀ e, e = c.a ∨ e = c.b ∨ e = c.c → ∃ x, e.evaluate v1 = some x := by
            intro e he
            refine ⟨_, Expression.evaluate_eq (w := v1.total) fun i hi => ?_⟩
            have := hne c (by simp) e i he hi
            obtain ⟨y, hy⟩ := Option.ne_none_iff_exists'.1 this
            simp [WireValues.total, hy]
          obtain ⟨a, ha⟩ := hsome c.a (by simp)
          obtain ⟨b, hb⟩ := hsome c.b (by simp)
          obtain ⟨d, hd⟩ := hsome c.c (by simp)
          simp only [Gadget.checkAll, Constraint.evaluate, ha, hb, hd, Option.bind_eq_bind,
            Option.bind_some, Option.pure_def] at hc
          split at hc
          · obtain ⟨c', h1, e, i, h2⟩ := ih hc
            exact hne c' (by simp [h1]) e i h2.1 h2.2.1 h2.2.2
          · exact absurd hc (by simp)
    · next hlen =>
      right; left
      exact ⟨σ, rest, v1, fun h0 => hlen (by simp [h0]), h2, h3, h4⟩
  · left; exact h2

/-! ## C22 -/

/-- Existing values are never changed. -/
def Monotone (g : WitnessGenerator p) : Prop :=
  ∀ v v', g.generate v = some v' → ∀ i x, v i = some x → v' i = some x

omit hp in
theorem Runs.mono {v v' : WireValues p} {σ : List (WitnessGenerator p)} (h : Runs v σ v')
    (hm : ∀ g ∈ σ, Monotone g) : ∀ i x, v i = some x → v' i = some x := by
  induction h with
  | nil => intro i x h; exact h
  | cons _ hg _ ih =>
    intro i x h
    exact ih (fun g hg => hm g (by simp [hg])) i x (hm _ (by simp) _ _ hg i x h)

omit hp in
theorem set_keeps {v v' : WireValues p} {w : Wire} {y : Elem p} (h : v.set w y = some v') :
    ∀ i x, v i = some x → v' i = some x := by
  intro i x hi
  unfold WireValues.set at h
  split at h
  · cases h
  · next hc =>
    obtain rfl := Option.some.inj h
    have : i ≠ w := by
      rintro rfl
      exact hc (by simp [WireValues.contains, hi])
    simpa [WireValues.insert, this] using hi

theorem setBits_keeps (value : ℕ) : ∀ (ws : List BooleanWire) (k : ℕ) {v v' : WireValues p},
    v.setBits value k ws = some v' → ∀ i x, v i = some x → v' i = some x
  | [], _, v, v', h, i, x, hi => by
    obtain rfl := Option.some.inj h
    exact hi
  | w :: ws, k, v, v', h, i, x, hi => by
    unfold WireValues.setBits at h
    obtain ⟨v1, h1, h2⟩ := Option.bind_eq_some_iff.1 h
    exact setBits_keeps value ws _ h2 i x (set_keeps h1 i x hi)

/-- The setters never overwrite. -/
theorem ViaInterface.keeps {f : WireValues p → Option (WireValues p)} (h : ViaInterface f) :
    ∀ v v', f v = some v' → ∀ i x, v i = some x → v' i = some x := by
  induction h with
  | done =>
    intro v v' h i x hi
    obtain rfl := Option.some.inj h
    exact hi
  | panic => intro v v' h; cases h
  | read h ih => intro v v' h; exact ih v v v' h
  | set w y _ ih =>
    intro v v' h i x hi
    obtain ⟨v1, h1, h2⟩ := Option.bind_eq_some_iff.1 h
    exact ih _ _ h2 i x (set_keeps h1 i x hi)
  | setBoolean w y _ ih =>
    intro v v' h i x hi
    obtain ⟨v1, h1, h2⟩ := Option.bind_eq_some_iff.1 h
    exact ih _ _ h2 i x (set_keeps h1 i x hi)
  | setBinary w y _ ih =>
    intro v v' h i x hi
    obtain ⟨v1, h1, h2⟩ := Option.bind_eq_some_iff.1 h
    unfold WireValues.setBinaryUnsigned at h1
    split at h1
    · exact ih _ _ h2 i x (setBits_keeps y _ _ h1 i x hi)
    · cases h1

/-- C22: whatever the generators read and compute, if they write through the setters then values
present before `execute` are unchanged after it. -/
theorem C22_inputs_preserved (g : Gadget p)
    (hg : ∀ k ∈ g.witnessGenerators, ViaInterface k.generate)
    (v v' : WireValues p) (ok : Bool) (h : g.execute v = some (v', ok)) (i : Wire) (x : Elem p)
    (hi : v i = some x) : v' i = some x := by
  obtain ⟨σ, h1, h2⟩ := C21_exactly_once g v v' ok h
  exact h2.mono (fun k hk => (hg k (h1.mem_iff.1 hk)).keeps) i x hi

/-- A generator which reads wire 1 and sets wire 2 to its square and, if that is not 4, the boolean
wire 3. -/
def readAndSet : WitnessGenerator 13 where
  inputs := [1]
  generate v := (v.get 1).bind fun x => (v.set 2 (x * x)).bind fun v =>
    if x * x = 4 then some v else (v.setBoolean ⟨3⟩ true).bind some

example : ViaInterface readAndSet.generate := by
  refine .read (f := fun u v => (u.get 1).bind fun x => (v.set 2 (x * x)).bind fun v =>
    if x * x = 4 then some v else (v.setBoolean ⟨3⟩ true).bind some) fun u => ?_
  cases h : u.get 1 with
  | none => exact .panic
  | some x =>
    refine .set 2 (x * x) ?_
    by_cases h4 : x * x = 4
    · simp only [h4, if_true]; exact .done
    · simp only [h4, if_false]; exact .setBoolean ⟨3⟩ true .done

/-- It panics when wire 2 is given, and keeps wire 1 otherwise. -/
example :
    ((⟨[], [readAndSet]⟩ : Gadget 13).execute fun i => if i = 1 then some 5 else none).map
      (fun e => ((e.1 1, e.1 2), e.1 3)) = some ((some 5, some 12), some 1) ∧
    ((⟨[], [readAndSet]⟩ : Gadget 13).execute fun i => if i = 1 then some 5 else
      if i = 2 then some 7 else none).isNone := by decide +kernel

/-! ## C20 -/

namespace Exec

/-- In a run of local generators with disjoint outputs, each generator's contribution survives. -/
theorem Runs.local {v v' : WireValues p} {A : List (WitnessGenerator p × List Wire)}
    (h : Runs v (A.map (·.1)) v') (hl : ∀ e ∈ A, LocalGen e.1 e.2)
    (hnd : ((A.map (·.2)).flatten).Nodup) (hnone : ∀ o ∈ (A.map (·.2)).flatten, v o = none) :
    (∀ i, i ∉ (A.map (·.2)).flatten → v' i = v i) ∧
    (∀ o ∈ (A.map (·.2)).flatten, (v' o).isSome) ∧
    (∀ e ∈ A, (∀ i ∈ e.1.inputs, (v' i).isSome) ∧
      ∀ u : WireValues p, (∀ i ∈ e.1.inputs, u i = v' i) → (∀ o ∈ e.2, u o = none) →
        e.1.generate u = some (fun i => if i ∈ e.2 then v' i else u i)) ∧
    (∀ B C e, A = B ++ e :: C → ∀ i ∈ e.1.inputs, (v i).isSome ∨ i ∈ (B.map (·.2)).flatten) := by
  generalize hσ : A.map (·.1) = σ at h
  induction h generalizing A with
  | nil v =>
    have : A = [] := List.map_eq_nil_iff.1 hσ
    subst this
    refine ⟨fun i _ => rfl, by simp, by simp, ?_⟩
    intro B C e hA; simp at hA
  | @cons v v1 v' g σ hin hg h ih =>
    match A, hσ with
    | e :: A, hσ' =>
      simp only [List.map_cons, List.cons.injEq] at hσ'
      obtain ⟨rfl, hσ2⟩ := hσ'
      simp only [List.map_cons, List.flatten_cons] at hnd hnone ⊢
      rw [List.nodup_append] at hnd
      obtain ⟨nd1, nd2, nd3⟩ := hnd
      obtain ⟨f, hf⟩ := hl e (by simp) v hin (fun o ho => hnone o (by simp [ho]))
      have hv1 : v1 = fun i => if i ∈ e.2 then some (f i) else v i := by
        have := hf v (fun _ _ => rfl) (fun o ho => hnone o (by simp [ho]))
        rw [hg] at this
        exact Option.some.inj this
      have hdis : ∀ o ∈ (A.map (·.2)).flatten, o ∉ e.2 := fun o ho hoe => nd3 o hoe o ho rfl
      obtain ⟨k1, k2, k3, k4⟩ := ih (fun e' he' => hl e' (by simp [he'])) nd2 (by
        intro o ho
        rw [hv1]
        simp only [hdis o ho, if_false]
        exact hnone o (by rw [List.mem_append]; exact Or.inr ho)) hσ2
      have hin' : ∀ i ∈ e.1.inputs, v' i = v i := by
        intro i hi
        have hs := hin i hi
        have hni : i ∉ e.2 := by
          intro h; rw [hnone i (by simp [h])] at hs; simp at hs
        have hni' : i ∉ (A.map (·.2)).flatten := by
          intro h
          rw [hnone i (by rw [List.mem_append]; exact Or.inr h)] at hs; simp at hs
        rw [k1 i hni', hv1]; simp [hni]
      have hout : ∀ o ∈ e.2, v' o = some (f o) := by
        intro o ho
        rw [k1 o (fun h => hdis o h ho), hv1]; simp [ho]
      refine ⟨?_, ?_, ?_, ?_⟩
      · intro i hi
        rw [List.mem_append, not_or] at hi
        rw [k1 i hi.2, hv1]; simp [hi.1]
      · intro o ho
        rcases List.mem_append.1 ho with ho | ho
        · rw [hout o ho]; rfl
        · exact k2 o ho
      · intro e' he'
        rcases List.mem_cons.1 he' with rfl | he'
        · refine ⟨fun i hi => by rw [hin' i hi]; exact hin i hi, ?_⟩
          intro u hu hun
          rw [hf u (fun i hi => by rw [hu i hi, hin' i hi]) hun]
          congr 1
          funext i
          by_cases hi : i ∈ e'.2
          · simp [hi, hout i hi]
          · simp [hi]
        · exact k3 e' he'
      · intro B C e' hA i hi
        match B, hA with
        | [], hA =>
          simp only [List.nil_append, List.cons.injEq] at hA
          obtain ⟨rfl, rfl⟩ := hA
          exact Or.inl (hin i hi)
        | b :: B, hA =>
          simp only [List.cons_append, List.cons.injEq] at hA
          obtain ⟨rfl, rfl⟩ := hA
          rcases k4 B C e' rfl i hi with h | h
          · rw [hv1] at h
            by_cases hie : i ∈ e.2
            · right; simp [hie]
            · left; simpa [hie] using h
          · right; simp only [List.map_cons, List.flatten_cons, List.mem_append]; exact Or.inr h

/-- Running local generators from values below the final ones leads to values below them. -/
theorem Runs.agree {u u2 v' : WireValues p} {B : List (WitnessGenerator p × List Wire)}
    (h : Runs u (B.map (·.1)) u2)
    (hB : ∀ e ∈ B, ∀ u : WireValues p, (∀ i ∈ e.1.inputs, u i = v' i) → (∀ o ∈ e.2, u o = none) →
        e.1.generate u = some (fun i => if i ∈ e.2 then v' i else u i))
    (hu : ∀ i, (u i).isSome → u i = v' i)
    (hnd : ((B.map (·.2)).flatten).Nodup) (hnone : ∀ o ∈ (B.map (·.2)).flatten, u o = none) :
    u2 = fun i => if i ∈ (B.map (·.2)).flatten then v' i else u i := by
  generalize hσ : B.map (·.1) = σ at h
  induction h generalizing B with
  | nil v =>
    have : B = [] := List.map_eq_nil_iff.1 hσ
    subst this
    simp
  | @cons v v1 v2 g σ hin hg h ih =>
    match B, hσ with
    | e :: B, hσ' =>
      simp only [List.map_cons, List.cons.injEq] at hσ'
      obtain ⟨rfl, hσ2⟩ := hσ'
      simp only [List.map_cons, List.flatten_cons] at hnd hnone ⊢
      rw [List.nodup_append] at hnd
      obtain ⟨nd1, nd2, nd3⟩ := hnd
      have hv1 : v1 = fun i => if i ∈ e.2 then v' i else v i := by
        have := hB e (by simp) v (fun i hi => hu i (hin i hi)) (fun o ho => hnone o (by simp [ho]))
        rw [hg] at this
        exact Option.some.inj this
      rw [ih (fun e' he' => hB e' (by simp [he'])) ?_ nd2 ?_ hσ2]
      · funext i
        by_cases h1 : i ∈ (B.map (·.2)).flatten
        · simp only [h1, if_true, List.mem_append, or_true]
        · by_cases h2 : i ∈ e.2
          · simp only [h1, if_false, hv1, h2, if_true, List.mem_append, true_or]
          · simp only [h1, if_false, hv1, h2, List.mem_append, or_self]
      · intro i hi
        rw [hv1] at hi ⊢
        by_cases h2 : i ∈ e.2
        · simp [h2]
        · simp only [h2, if_false] at hi ⊢
          exact hu i hi
      · intro o ho
        have : o ∉ e.2 := fun h => nd3 o h o ho rfl
        rw [hv1]
        simp only [this, if_false]
        exact hnone o (by rw [List.mem_append]; exact Or.inr ho)

theorem lift_perm {α β : Type} {f : α → β} {l : List β} {A : List α} (h : List.Perm l (A.map f)) :
    ∃ A', List.Perm A' A ∧ A'.map f = l := by
  have := congrFun (congrFun (List.eq_map_comp_perm f) l) A
  simp only [Relation.Comp, eq_iff_iff] at this
  obtain ⟨A', h1, h2⟩ := this.2 h
  exact ⟨A', h2, h1.symm⟩

theorem first_mem {α : Type} {R : List α} : ∀ (A : List α), (∃ e ∈ A, e ∈ R) →
    ∃ B e C, A = B ++ e :: C ∧ e ∈ R ∧ ∀ b ∈ B, b ∉ R
  | [], h => by simp at h
  | a :: A, h => by
    classical
    by_cases ha : a ∈ R
    · exact ⟨[], a, A, rfl, ha, by simp⟩
    · obtain ⟨B, e, C, h1, h2, h3⟩ := first_mem A (by
        obtain ⟨e, he, hr⟩ := h
        rcases List.mem_cons.1 he with rfl | he
        · exact absurd hr ha
        · exact ⟨e, he, hr⟩)
      refine ⟨a :: B, e, C, by rw [h1]; rfl, h2, ?_⟩
      intro b hb
      rcases List.mem_cons.1 hb with rfl | hb
      · exact ha
      · exact h3 b hb

theorem outs_perm {A B : List (WitnessGenerator p × List Wire)} (h : List.Perm A B) :
    List.Perm (A.map (·.2)).flatten (B.map (·.2)).flatten := (h.map _).flatten

/-- Once one order of local generators can be run to the end, the loop of `execute` succeeds with
the same values for every order. -/
theorem loop_of_runs (A A1 : List (WitnessGenerator p × List Wire))
    (hl : ∀ e ∈ A, LocalGen e.1 e.2)
    (hnd : ((A.map (·.2)).flatten).Nodup) (v v' : WireValues p)
    (hnone : ∀ o ∈ (A.map (·.2)).flatten, v o = none)
    (hA1 : List.Perm A1 A) (hrun : Runs v (A1.map (·.1)) v')
    (gs : List (WitnessGenerator p)) (hgs : List.Perm gs (A.map (·.1))) :
    Gadget.loop (gs.length + 1) gs v = some ([], v') := by
  have hp1 := outs_perm hA1
  obtain ⟨f1, f2, f3, f4⟩ := Runs.local hrun (fun e he => hl e (hA1.mem_iff.1 he))
    (hp1.nodup_iff.2 hnd) (fun o ho => hnone o (hp1.mem_iff.1 ho))
  have hv : ∀ i, (v i).isSome → v i = v' i := by
    intro i hi
    rw [f1 i]
    intro hm
    rw [hnone i (hp1.mem_iff.1 hm)] at hi
    simp at hi
  -- what any partial run from `v` looks like
  have key : ∀ (B R : List (WitnessGenerator p × List Wire)) (u : WireValues p),
      List.Perm (B ++ R) A → Runs v (B.map (·.1)) u →
      u = (fun i => if i ∈ (B.map (·.2)).flatten then v' i else v i) ∧
      (∀ e ∈ R, ∀ o ∈ e.2, u o = none) ∧ (∀ i, (u i).isSome → u i = v' i) := by
    intro B R u hBR hr
    have hpo := outs_perm hBR
    rw [List.map_append, List.flatten_append] at hpo
    have hnd' := hpo.nodup_iff.2 hnd
    rw [List.nodup_append] at hnd'
    obtain ⟨n1, n2, n3⟩ := hnd'
    have hu := Runs.agree (v' := v') hr
      (fun e he => (f3 e (hA1.mem_iff.2 (hBR.mem_iff.1 (by simp [he])))).2) hv n1
      (fun o ho => hnone o (hpo.mem_iff.1 (List.mem_append.2 (Or.inl ho))))
    refine ⟨hu, ?_, ?_⟩
    · intro e he o ho
      have hm : o ∈ (R.map (·.2)).flatten := List.mem_flatten.2 ⟨e.2, List.mem_map.2 ⟨e, he, rfl⟩, ho⟩
      have : o ∉ (B.map (·.2)).flatten := fun h => n3 o h o hm rfl
      rw [hu]; simp only [this, if_false]
      exact hnone o (hpo.mem_iff.1 (List.mem_append.2 (Or.inr hm)))
    · intro i hi
      rw [hu] at hi ⊢
      by_cases hb : i ∈ (B.map (·.2)).flatten
      · simp only [hb, if_true]
      · simp only [hb, if_false] at hi ⊢
        exact hv i hi
  have hsplit : ∀ (τ ρ : List (WitnessGenerator p)), List.Perm (τ ++ ρ) gs →
      ∃ B R, List.Perm (B ++ R) A ∧ B.map (·.1) = τ ∧ R.map (·.1) = ρ := by
    intro τ ρ hτ
    obtain ⟨L, hL, hLm⟩ := lift_perm (hτ.trans hgs)
    obtain ⟨B, R, rfl, h1, h2⟩ := List.map_eq_append_iff.1 hLm
    exact ⟨B, R, hL, h1, h2⟩
  rcases loop_cases _ gs v (Nat.lt_succ_self _) with ⟨rest, v2, τ, h1, h2, h3, h4⟩ | ⟨h1, τ, g, ρ, u, h2, h3, h4, h5⟩
  · obtain ⟨B, R, hBR, rfl, rfl⟩ := hsplit τ rest h2
    obtain ⟨k1, k2, k3⟩ := key B R v2 hBR h3
    have hR : R = [] := by
      by_contra hne
      obtain ⟨e0, he0⟩ := List.exists_mem_of_ne_nil R hne
      obtain ⟨B1, e, C1, m1, m2, m3⟩ := first_mem (R := R) A1
        ⟨e0, hA1.mem_iff.2 (hBR.mem_iff.1 (by simp [he0])), he0⟩
      refine h4 e.1 (List.mem_map.2 ⟨e, m2, rfl⟩) ?_
      intro i hi
      rcases f4 B1 C1 e m1 i hi with hvi | hib
      · rw [k1]
        by_cases hb : i ∈ (B.map (·.2)).flatten
        · simp only [hb, if_true]
          rw [← hv i hvi]; exact hvi
        · simp only [hb, if_false]; exact hvi
      · obtain ⟨os, ho, hio⟩ := List.mem_flatten.1 hib
        obtain ⟨e', he', rfl⟩ := List.mem_map.1 ho
        have heB : e' ∈ B := by
          have : e' ∈ B ++ R := hBR.mem_iff.2 (hA1.mem_iff.1 (by rw [m1]; simp [he']))
          rcases List.mem_append.1 this with h | h
          · exact h
          · exact absurd h (m3 e' he')
        have hb : i ∈ (B.map (·.2)).flatten :=
          List.mem_flatten.2 ⟨_, List.mem_map.2 ⟨e', heB, rfl⟩, hio⟩
        rw [k1]
        simp only [hb, if_true]
        exact f2 i (List.mem_flatten.2 ⟨_, List.mem_map.2 ⟨e', by rw [m1]; simp [he'], rfl⟩, hio⟩)
    subst hR
    have hv2 : v2 = v' := by
      rw [k1]
      funext i
      by_cases hb : i ∈ (B.map (·.2)).flatten
      · simp only [hb, if_true]
      · simp only [hb, if_false]
        rw [f1 i]
        intro hm
        exact hb ((outs_perm (by simpa using hBR)).mem_iff.2 (hp1.mem_iff.1 hm))
    rw [h1, hv2]
    rfl
  · exfalso
    obtain ⟨B, R, hBR, rfl, hR⟩ := hsplit τ (g :: ρ) h2
    match R, hR with
    | e :: R, hR =>
      simp only [List.map_cons, List.cons.injEq] at hR
      obtain ⟨rfl, rfl⟩ := hR
      obtain ⟨k1, k2, k3⟩ := key B (e :: R) u hBR h3
      have := (f3 e (hA1.mem_iff.2 (hBR.mem_iff.1 (by simp)))).2 u
        (fun i hi => k3 i (h4 i hi)) (k2 e (by simp))
      rw [h5] at this
      exact absurd this (by simp)

/-- A static order in which inputs are produced before they are needed can be run. -/
theorem runs_of_order : ∀ (A : List (WitnessGenerator p × List Wire)) (v : WireValues p),
    (∀ e ∈ A, LocalGen e.1 e.2) → ((A.map (·.2)).flatten).Nodup →
    (∀ o ∈ (A.map (·.2)).flatten, v o = none) →
    (∀ B e C, A = B ++ e :: C → ∀ i ∈ e.1.inputs, (v i).isSome ∨ i ∈ (B.map (·.2)).flatten) →
    ∃ v', Runs v (A.map (·.1)) v'
  | [], v, _, _, _, _ => ⟨v, Runs.nil v⟩
  | e :: A, v, hl, hnd, hnone, hord => by
    simp only [List.map_cons, List.flatten_cons] at hnd hnone
    rw [List.nodup_append] at hnd
    obtain ⟨nd1, nd2, nd3⟩ := hnd
    have hin : Ready v e.1 := fun i hi => by
      rcases hord [] e A rfl i hi with h | h
      · exact h
      · simp at h
    have hn : ∀ o ∈ e.2, v o = none := fun o ho => hnone o (by simp [ho])
    obtain ⟨f, hf⟩ := hl e (by simp) v hin hn
    have hg := hf v (fun _ _ => rfl) hn
    obtain ⟨v', hv'⟩ := runs_of_order A (fun i => if i ∈ e.2 then some (f i) else v i)
      (fun e' he' => hl e' (by simp [he'])) nd2 (by
        intro o ho
        have : o ∉ e.2 := fun h => nd3 o h o ho rfl
        simp only [this, if_false]
        exact hnone o (by rw [List.mem_append]; exact Or.inr ho)) (by
        intro B e' C hA i hi
        rcases hord (e :: B) e' C (by rw [hA]; rfl) i hi with h | h
        · left
          by_cases hie : i ∈ e.2
          · simp [hie]
          · simpa [hie] using h
        · simp only [List.map_cons, List.flatten_cons, List.mem_append] at h
          rcases h with h | h
          · left; simp [h]
          · right; exact h)
    exact ⟨v', Runs.cons hin hg hv'⟩

end Exec

open Exec in
/-- C20: for generators reading only their declared inputs and writing disjoint sets of previously
unset wires, every order of the generators leads `execute` to the same result: if it returns for
one order, it returns the same final values and the same verdict for every other. -/
theorem C20_order_independent (cs : List (Constraint p))
    (A : List (WitnessGenerator p × List Wire)) (hl : ∀ e ∈ A, LocalGen e.1 e.2)
    (hnd : ((A.map (·.2)).flatten).Nodup) (v : WireValues p)
    (hnone : ∀ o ∈ (A.map (·.2)).flatten, v o = none)
    (gs : List (WitnessGenerator p)) (hgs : List.Perm gs (A.map (·.1))) (r : WireValues p × Bool)
    (h : Gadget.execute ⟨cs, A.map (·.1)⟩ v = some r) :
    Gadget.execute ⟨cs, gs⟩ v = some r := by
  obtain ⟨v', ok⟩ := r
  obtain ⟨σ, hσ, hrun⟩ := C21_exactly_once _ v v' ok h
  obtain ⟨A1, hA1, rfl⟩ := lift_perm hσ
  have l1 := loop_of_runs A A1 hl hnd v v' hnone hA1 hrun gs hgs
  have l2 := loop_of_runs A A1 hl hnd v v' hnone hA1 hrun _ (List.Perm.refl _)
  unfold Gadget.execute at h ⊢
  simp only [l1, l2] at h ⊢
  exact h

open Exec in
/-- C20: if the generators can be ordered so that inputs are produced before they are needed, and
the constraints only mention wires which are supplied or computed, `execute` does not panic,
whatever order the generators were added in. -/
theorem C20_no_missing_inputs (cs : List (Constraint p))
    (A A1 : List (WitnessGenerator p × List Wire)) (hl : ∀ e ∈ A, LocalGen e.1 e.2)
    (hnd : ((A.map (·.2)).flatten).Nodup) (v : WireValues p)
    (hnone : ∀ o ∈ (A.map (·.2)).flatten, v o = none) (hA1 : List.Perm A1 A)
    (hord : ∀ B e C, A1 = B ++ e :: C →
      ∀ i ∈ e.1.inputs, (v i).isSome ∨ i ∈ (B.map (·.2)).flatten)
    (hcs : ∀ c ∈ cs, ∀ e, e = c.a ∨ e = c.b ∨ e = c.c → ∀ i ∈ e.dependencies,
      (v i).isSome ∨ i ∈ (A.map (·.2)).flatten) :
    ∃ r, Gadget.execute ⟨cs, A.map (·.1)⟩ v = some r := by
  have hp1 := outs_perm hA1
  have hl1 : ∀ e ∈ A1, LocalGen e.1 e.2 := fun e he => hl e (hA1.mem_iff.1 he)
  have hn1 : ∀ o ∈ (A1.map (·.2)).flatten, v o = none := fun o ho => hnone o (hp1.mem_iff.1 ho)
  obtain ⟨v', hrun⟩ := runs_of_order A1 v hl1 (hp1.nodup_iff.2 hnd) hn1 hord
  obtain ⟨f1, f2, _, _⟩ := Runs.local hrun hl1 (hp1.nodup_iff.2 hnd) hn1
  have l2 := loop_of_runs A A1 hl hnd v v' hnone hA1 hrun _ (List.Perm.refl _)
  cases hx : Gadget.execute ⟨cs, A.map (·.1)⟩ v with
  | some r => exact ⟨r, rfl⟩
  | none =>
    exfalso
    have hsome : ∀ i, ((v i).isSome ∨ i ∈ (A.map (·.2)).flatten) → (v' i).isSome := by
      intro i hi
      by_cases hm : i ∈ (A1.map (·.2)).flatten
      · exact f2 i hm
      · rw [f1 i hm]
        rcases hi with h | h
        · exact h
        · exact absurd (hp1.mem_iff.2 h) hm
    unfold Gadget.execute at hx
    simp only [l2, Option.bind_eq_bind, Option.bind_some, List.length_nil, if_true] at hx
    cases hc : Gadget.checkAll cs v' with
    | some ok => simp [hc] at hx
    | none =>
      clear hx
      induction cs with
      | nil => simp [Gadget.checkAll] at hc
      | cons c cs ih =>
        have hev : ∀ e, e = c.a ∨ e = c.b ∨ e = c.c → ∃ x, e.evaluate v' = some x := by
          intro e he
          refine ⟨_, Expression.evaluate_eq (w := v'.total) fun i hi => ?_⟩
          obtain ⟨y, hy⟩ := Option.isSome_iff_exists.1 (hsome i (hcs c (by simp) e he i hi))
          simp [WireValues.total, hy]
        obtain ⟨a, ha⟩ := hev c.a (by simp)
        obtain ⟨b, hb⟩ := hev c.b (by simp)
        obtain ⟨d, hd⟩ := hev c.c (by simp)
        simp only [Gadget.checkAll, Constraint.evaluate, ha, hb, hd, Option.bind_eq_bind,
          Option.bind_some, Option.pure_def] at hc
        split at hc
        · exact ih (fun c' hc' => hcs c' (by simp [hc'])) hc
        · exact absurd hc (by simp)

/-! ## A concrete case

Two chained squarings, `2 = 1 * 1` and `3 = 2 * 2`, over the field of order 7: the second generator
needs the output of the first. -/

/-- The generator computing `o` as the square of `i`. -/
def squareGen (i o : Wire) : WitnessGenerator 7 :=
  ⟨[i], B.productGen (Expression.ofWire i) (Expression.ofWire i) o⟩

theorem squareGen_local (i o : Wire) (hio : i ≠ o) : LocalGen (squareGen i o) [o] := by
  intro v hr hn
  obtain ⟨x, hx⟩ := Option.isSome_iff_exists.1 (hr i (by simp [squareGen]))
  refine ⟨fun _ => x * x, ?_⟩
  intro v' h1 h2
  have hvi : v' i = some x := by rw [h1 i (by simp [squareGen]), hx]
  have hev : (Expression.ofWire i : Expression 7).evaluate v' = some x := by
    have := Expression.evaluate_eq (e := (Expression.ofWire i : Expression 7)) (v := v')
      (w := fun _ => x) (by
        intro j hj
        rw [Expression.dependencies_ofWire] at hj
        rw [List.mem_singleton.1 hj, hvi])
    rw [this, Expression.eval_ofWire]
  simp only [squareGen, B.productGen, hev, Option.bind_eq_bind, Option.bind_some]
  rw [set_eq_some (h2 o (by simp))]
  congr 1
  funext j
  by_cases hj : j = o <;> simp [hj]

example : ∃ v', Gadget.execute
      ⟨[⟨Expression.ofWire 2, Expression.ofWire 2, Expression.ofWire 3⟩],
       [squareGen 2 3, squareGen 1 2]⟩ ((WireValues.new : WireValues 7).insert 1 3)
    = some (v', true) ∧ v' 3 = some 4 ∧ v' 1 = some 3 := ⟨_, rfl, by decide, by decide⟩

/-- The hypotheses of `C20_no_missing_inputs` hold for the two squarings in either order. -/
example : ∃ r, Gadget.execute
      ⟨[⟨Expression.ofWire 2, Expression.ofWire 2, Expression.ofWire 3⟩],
       [squareGen 2 3, squareGen 1 2]⟩ ((WireValues.new : WireValues 7).insert 1 3) = some r := by
  refine C20_no_missing_inputs _ [(squareGen 2 3, [3]), (squareGen 1 2, [2])]
    [(squareGen 1 2, [2]), (squareGen 2 3, [3])] ?_ (by decide) _ (by decide)
    (List.Perm.swap _ _ _) ?_ ?_
  · intro e he
    simp only [List.mem_cons, List.not_mem_nil, or_false] at he
    rcases he with rfl | rfl
    · exact squareGen_local 2 3 (by decide)
    · exact squareGen_local 1 2 (by decide)
  · intro B e C h i hi
    match B, h with
    | [], h =>
      simp only [List.nil_append, List.cons.injEq] at h
      rw [← h.1] at hi
      simp only [squareGen, List.mem_singleton] at hi
      subst hi; left; decide
    | [b], h =>
      simp only [List.cons_append, List.nil_append, List.cons.injEq] at h
      rw [← h.2.1] at hi
      simp only [squareGen, List.mem_singleton] at hi
      subst hi; right; rw [← h.1]; simp
    | b :: c :: B, h => simp at h
  · intro c hc e he i hi
    simp only [List.mem_cons, List.not_mem_nil, or_false] at hc
    subst hc
    have h2 : i = 2 ∨ i = 3 := by
      rcases he with rfl | rfl | rfl <;> rw [Expression.dependencies_ofWire] at hi <;>
        simp at hi <;> simp [hi]
    rcases h2 with rfl | rfl <;> simp

end R1CS
