import Verif.Spec.Honest
import Verif.Lemmas.Expression
import Mathlib.Data.List.Perm.Basic

/-!
# Honest circuits execute

Whatever the order of the generators, `execute` runs all of them and accepts.
-/

set_option linter.unusedSectionVars false

namespace R1CS

variable {p : ℕ} [hp : Fact p.Prime]

namespace Exec

/-- The annotated generators which are still to run. -/
abbrev Ann (p : ℕ) := List (WitnessGenerator p × List Wire)

/-- All outputs of the annotated generators. -/
def outsOf (A : Ann p) : List Wire := (A.map (·.2)).flatten

theorem mem_outsOf {A : Ann p} {o : Wire} : o ∈ outsOf A ↔ ∃ e ∈ A, o ∈ e.2 := by
  simp only [outsOf, List.mem_flatten, List.mem_map]
  constructor
  · rintro ⟨l, ⟨e, he, rfl⟩, ho⟩; exact ⟨e, he, ho⟩
  · rintro ⟨e, he, ho⟩; exact ⟨_, ⟨e, he, rfl⟩, ho⟩

structure Inv (n : ℕ) (W : Assign p) (A : Ann p) (v : WireValues p) : Prop where
  ok : ∀ e ∈ A, GenOK e.1 e.2 W ∧ ∀ i ∈ e.1.inputs, i < n ∧ ∀ o ∈ e.2, i < o
  nodup : (outsOf A).Nodup
  bound : ∀ o ∈ outsOf A, o < n
  done : ∀ i < n, i ∉ outsOf A → v i = some (W i)
  todo : ∀ o ∈ outsOf A, v o = none

theorem Inv.values {n : ℕ} {W : Assign p} {A : Ann p} {v : WireValues p} (h : Inv n W A v)
    {i : Wire} (hi : i < n) {x : Elem p} (hx : v i = some x) : x = W i := by
  by_cases ho : i ∈ outsOf A
  · rw [h.todo i ho] at hx; exact absurd hx (by simp)
  · rw [h.done i hi ho] at hx; exact (Option.some.inj hx).symm

theorem containsAll_iff (v : WireValues p) (l : List Wire) :
    v.containsAll l = true ↔ ∀ i ∈ l, (v i).isSome := by
  simp [WireValues.containsAll, WireValues.contains]

theorem outsOf_middle (K A : Ann p) (e : WitnessGenerator p × List Wire) :
    outsOf (K ++ e :: A) = outsOf K ++ (e.2 ++ outsOf A) := by
  simp [outsOf]

theorem outsOf_append (K A : Ann p) : outsOf (K ++ A) = outsOf K ++ outsOf A := by
  simp [outsOf]

/-- Running one ready generator. -/
theorem Inv.step {n : ℕ} {W : Assign p} {K A : Ann p} {e : WitnessGenerator p × List Wire}
    {v : WireValues p} (h : Inv n W (K ++ e :: A) v)
    (hr : v.containsAll e.1.inputs = true) :
    ∃ v', e.1.generate v = some v' ∧ Inv n W (K ++ A) v' ∧ ∀ i, n ≤ i → v' i = v i := by
  have he := h.ok e (by simp)
  have hnd := h.nodup
  rw [outsOf_middle] at hnd
  have hin : ∀ i ∈ e.1.inputs, v i = some (W i) := by
    intro i hi
    obtain ⟨x, hx⟩ := Option.isSome_iff_exists.1 ((containsAll_iff _ _).1 hr i hi)
    rw [hx, h.values ((he.2 i hi).1) hx]
  have hout : ∀ o ∈ e.2, v o = none := by
    intro o ho
    exact h.todo o (by rw [outsOf_middle]; simp [ho])
  refine ⟨_, he.1 v hin hout, ?_, ?_⟩
  · have hdisj : ∀ i, i ∈ outsOf (K ++ A) → i ∉ e.2 := by
      intro i hi hi2
      rw [outsOf_append] at hi
      rw [List.nodup_append] at hnd
      obtain ⟨h1, h2, h3⟩ := hnd
      rw [List.nodup_append] at h2
      rcases List.mem_append.1 hi with hi | hi
      · exact h3 i hi i (by simp [hi2]) rfl
      · exact h2.2.2 i hi2 i hi rfl
    constructor
    · intro e' he'
      apply h.ok e'
      rcases List.mem_append.1 he' with h' | h'
      · simp [h']
      · simp [h']
    · rw [outsOf_append]
      exact hnd.sublist (List.Sublist.append (List.Sublist.refl _) (List.sublist_append_right _ _))
    · intro o ho
      apply h.bound
      rw [outsOf_append] at ho
      rw [outsOf_middle]
      rcases List.mem_append.1 ho with h' | h' <;> simp [h']
    · intro i hi hni
      split
      · rfl
      · next hne =>
        apply h.done i hi
        rw [outsOf_middle]
        rw [outsOf_append] at hni
        simp at hni ⊢
        exact ⟨hni.1, hne, hni.2⟩
    · intro o ho
      rw [if_neg (hdisj o ho)]
      apply h.todo
      rw [outsOf_append] at ho
      rw [outsOf_middle]
      rcases List.mem_append.1 ho with h' | h' <;> simp [h']
  · intro i hi
    rw [if_neg]
    intro hi2
    have := h.bound i (by rw [outsOf_middle]; simp [hi2])
    omega

theorem pass_spec {n : ℕ} {W : Assign p} (A : Ann p) : ∀ (K : Ann p) (v : WireValues p),
    Inv n W (K ++ A) v → ∃ A' v' fl, Gadget.pass (A.map (·.1)) v = some (A'.map (·.1), v', fl) ∧
      Inv n W (K ++ A') v' ∧ (∀ i, n ≤ i → v' i = v i) ∧
      A'.length ≤ A.length ∧
      (fl = true → A'.length < A.length) ∧
      (fl = false → A' = A ∧ v' = v ∧ ∀ e ∈ A, ¬ v.containsAll e.1.inputs = true) := by
  induction A with
  | nil => intro K v h; exact ⟨[], v, false, rfl, h, by simp, by simp, by simp, by simp⟩
  | cons e A ih =>
    intro K v h
    simp only [List.map_cons, Gadget.pass]
    by_cases hr : v.containsAll e.1.inputs = true
    · rw [if_pos hr]
      obtain ⟨v1, h1, h2, h3⟩ := h.step hr
      obtain ⟨A', v', fl, g1, g2, g3, g4, -, -⟩ := ih K v1 h2
      refine ⟨A', v', true, ?_, g2, ?_, ?_, ?_, ?_⟩
      · rw [h1]; simp [g1]
      · intro i hi; rw [g3 i hi, h3 i hi]
      · simp; omega
      · intro _; simp; omega
      · simp
    · rw [if_neg hr]
      have h' : Inv n W ((K ++ [e]) ++ A) v := by simpa using h
      obtain ⟨A', v', fl, g1, g2, g3, g4, g5, g6⟩ := ih (K ++ [e]) v h'
      refine ⟨e :: A', v', fl, ?_, by simpa using g2, g3, ?_, ?_, ?_⟩
      · simp [g1]
      · simpa using g4
      · intro hf; simpa using g5 hf
      · intro hf
        obtain ⟨a1, a2, a3⟩ := g6 hf
        refine ⟨by rw [a1], a2, ?_⟩
        intro e' he'
        rcases List.mem_cons.1 he' with h0 | h0
        · rw [h0]; exact hr
        · exact a3 e' h0

theorem exists_min (l : List ℕ) (h : l ≠ []) : ∃ o ∈ l, ∀ o' ∈ l, o ≤ o' := by
  induction l with
  | nil => exact absurd rfl h
  | cons a l ih =>
    by_cases hl : l = []
    · exact ⟨a, by simp, by simp [hl]⟩
    · obtain ⟨o, h1, h2⟩ := ih hl
      by_cases hao : a ≤ o
      · refine ⟨a, by simp, fun o' ho' => ?_⟩
        rcases List.mem_cons.1 ho' with h0 | h0
        · omega
        · have := h2 o' h0; omega
      · refine ⟨o, by simp [h1], fun o' ho' => ?_⟩
        rcases List.mem_cons.1 ho' with h0 | h0
        · omega
        · exact h2 o' h0

theorem Inv.progress {n : ℕ} {W : Assign p} {A : Ann p} {v : WireValues p} (h : Inv n W A v)
    (hA : A ≠ []) : ∃ e ∈ A, v.containsAll e.1.inputs = true := by
  by_cases ho : outsOf A = []
  · obtain ⟨e, he⟩ := List.exists_mem_of_ne_nil A hA
    refine ⟨e, he, (containsAll_iff _ _).2 fun i hi => ?_⟩
    rw [h.done i ((h.ok e he).2 i hi).1 (by simp [ho])]; rfl
  · obtain ⟨o, h1, h2⟩ := exists_min _ ho
    obtain ⟨e, he, heo⟩ := mem_outsOf.1 h1
    refine ⟨e, he, (containsAll_iff _ _).2 fun i hi => ?_⟩
    have hio := ((h.ok e he).2 i hi)
    rw [h.done i hio.1]
    · rfl
    · intro hmem
      have := h2 i hmem
      have := hio.2 o heo
      omega

theorem loop_spec {n : ℕ} {W : Assign p} : ∀ (fuel : ℕ) (A : Ann p) (v : WireValues p),
    Inv n W A v → A.length < fuel → ∃ v', Gadget.loop fuel (A.map (·.1)) v = some ([], v') ∧
      Inv n W [] v' ∧ ∀ i, n ≤ i → v' i = v i := by
  intro fuel
  induction fuel with
  | zero => intro A v _ h; omega
  | succ fuel ih =>
    intro A v h hl
    obtain ⟨A', v', fl, g1, g2, g3, g4, g5, g6⟩ := pass_spec A [] v (by simpa using h)
    simp only [List.nil_append] at g2
    simp only [Gadget.loop, g1, Option.bind_eq_bind, Option.bind_some]
    cases fl with
    | true =>
      obtain ⟨v'', k1, k2, k3⟩ := ih A' v' g2 (by have := g5 rfl; omega)
      refine ⟨v'', ?_, k2, ?_⟩
      · simpa using k1
      · intro i hi; rw [k3 i hi, g3 i hi]
    | false =>
      obtain ⟨a1, a2, a3⟩ := g6 rfl
      have hA : A = [] := by
        by_contra hA
        obtain ⟨e, he, hr⟩ := h.progress hA
        exact a3 e he hr
      subst hA
      subst a1
      refine ⟨v', by simp, ?_, g3⟩
      exact g2

theorem checkAll_spec {W : Assign p} {v : WireValues p} (cs : List (Constraint p)) (n : ℕ)
    (hv : ∀ i < n, v i = some (W i))
    (h : ∀ c ∈ cs, c.Holds W ∧ c.a.Scoped n ∧ c.b.Scoped n ∧ c.c.Scoped n) :
    Gadget.checkAll cs v = some true := by
  induction cs with
  | nil => rfl
  | cons c cs ih =>
    obtain ⟨h0, h1, h2, h3⟩ := h c (by simp)
    simp only [Gadget.checkAll, Constraint.evaluate]
    rw [Expression.evaluate_eq (w := W) (fun i hi => hv i (h1 i hi)),
      Expression.evaluate_eq (w := W) (fun i hi => hv i (h2 i hi)),
      Expression.evaluate_eq (w := W) (fun i hi => hv i (h3 i hi))]
    have : c.a.eval W * c.b.eval W = c.c.eval W := h0
    simp [this, ih (fun c' hc' => h c' (by simp [hc']))]

end Exec

open Exec in
/-- Honest circuits execute as intended, whatever the order of their generators. -/
theorem Honest.execute_perm {b : Builder p} {D : List Wire} {W : Assign p} (h : Honest b D W)
    {v : WireValues p} (h1 : v ONE = some 1) (hD : ∀ i ∈ D, v i = some (W i))
    (hN : ∀ i < b.nextWireIndex, i ≠ ONE → i ∉ D → v i = none)
    (gs : List (WitnessGenerator p)) (hgs : List.Perm gs b.witnessGenerators) :
    ∃ v', Gadget.execute ⟨b.constraints, gs⟩ v = some (v', true) ∧
      (∀ i < b.nextWireIndex, v' i = some (W i)) ∧ ∀ i, b.nextWireIndex ≤ i → v' i = v i := by
  obtain ⟨A0, hA0, hok0, hperm0⟩ := h.generators
  obtain ⟨A, hAA, hA⟩ : ∃ A : Ann p, List.Perm A A0 ∧ A.map (·.1) = gs := by
    rw [← hA0] at hgs
    clear hA0 hok0 hperm0
    have := List.eq_map_comp_perm (fun e : WitnessGenerator p × List Wire => e.1)
    have h2 := congrFun (congrFun this gs) A0
    have h3 : Relation.Comp (fun x1 x2 => x1 = List.map (fun e : WitnessGenerator p × List Wire => e.1) x2)
      List.Perm gs A0 := by rw [h2]; exact hgs
    obtain ⟨l, hl1, hl2⟩ := h3
    exact ⟨l, hl2, hl1.symm⟩
  have hpermF : List.Perm (outsOf A) (outsOf A0) := (hAA.map _).flatten
  have hperm : List.Perm (outsOf A ++ D) (List.range' 1 (b.nextWireIndex - 1)) :=
    (hpermF.append_right D).trans hperm0
  have hnd : (outsOf A ++ D).Nodup := hperm.nodup_iff.2 List.nodup_range'
  have hmem : ∀ i, i ∈ outsOf A ++ D ↔ 1 ≤ i ∧ i < b.nextWireIndex := by
    intro i
    rw [hperm.mem_iff, List.mem_range'_1]
    have := h.pos
    omega
  have hinv : Inv b.nextWireIndex W A v := by
    constructor
    · intro e he; exact hok0 e (hAA.mem_iff.1 he)
    · exact (List.nodup_append.1 hnd).1
    · intro o ho; exact ((hmem o).1 (by simp [ho])).2
    · intro i hi hni
      by_cases h0 : i = ONE
      · rw [h0, h1, h.one]
      · have hi1 : 1 ≤ i := Nat.pos_of_ne_zero h0
        have := (hmem i).2 ⟨hi1, hi⟩
        rcases List.mem_append.1 this with h' | h'
        · exact absurd h' hni
        · exact hD i h'
    · intro o ho
      obtain ⟨h2, h3⟩ := (hmem o).1 (by simp [ho])
      apply hN o h3
      · intro h0; rw [h0] at h2; simp at h2
      · intro hoD
        exact (List.nodup_append.1 hnd).2.2 o ho o hoD rfl
  obtain ⟨v', g1, g2, g3⟩ := loop_spec (gs.length + 1) A v hinv (by rw [← hA]; simp)
  rw [hA] at g1
  have hv' : ∀ i < b.nextWireIndex, v' i = some (W i) := fun i hi => g2.done i hi (by simp [outsOf])
  refine ⟨v', ?_, hv', g3⟩
  simp only [Gadget.execute, g1, Option.bind_eq_bind, Option.bind_some, List.length_nil, if_true]
  rw [checkAll_spec b.constraints b.nextWireIndex hv' h.constraints]
  rfl

theorem Hon.executes (s : Hon p) : s.Executes := by
  intro v ⟨h1, h2, h3⟩
  exact s.ok.execute_perm h1 h2 h3 _ (List.Perm.refl _)

end R1CS
