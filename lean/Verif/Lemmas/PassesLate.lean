import Verif.Lemmas.RigidRoutes
import Verif.Lemmas.Strict
import Verif.Lemmas.Tidy
import Verif.Spec.Passes
import Mathlib.Data.Nat.Log

/-!
# Generators which cannot run early

From passes over the pending generators we get the pass in which each of them runs.  A generator
whose input has no value in the beginning runs after one which writes this input: in the same pass if
that one comes earlier in the list, in a later pass otherwise.  Following the first switch of each
layer of a permutation network, this shows that the network needs all the passes which
`Lemmas/PassesMore.lean` allows for.
-/

set_option linter.unusedSectionVars false

namespace R1CS

variable {p : ℕ} [hp : Fact p.Prime] {α β : Type}

/-- The generator can change the wire. -/
def Writes (g : WitnessGenerator p) (i : Wire) : Prop :=
  ∃ u u', g.generate u = some u' ∧ u' i ≠ u i

/-- `ρ` gives the pass in which the generator at each position runs, starting from the values `v`. -/
def Schedule (gs : List (WitnessGenerator p)) (v : WireValues p) (ρ : ℕ → ℕ) : Prop :=
  ∀ q g, gs[q]? = some g → ∀ i ∈ g.inputs, v i = none →
    ∃ q' g', gs[q']? = some g' ∧ Writes g' i ∧ (q' < q ∧ ρ q' ≤ ρ q ∨ q < q' ∧ ρ q' < ρ q)

namespace Late

theorem containsAll_iff {v : WireValues p} {l : List Wire} :
    v.containsAll l = true ↔ ∀ i ∈ l, (v i).isSome := by
  simp [WireValues.containsAll, WireValues.contains]

/-- What a pass over some of the generators does. -/
theorem pass (G : ℕ → WitnessGenerator p) : ∀ (l : List ℕ) (v v' : WireValues p)
    (rest : List (WitnessGenerator p)) (fl : Bool), l.Pairwise (· < ·) →
    Gadget.pass (l.map G) v = some (rest, v', fl) →
    ∃ l' : List ℕ, l'.Sublist l ∧ rest = l'.map G ∧
      (∀ i, v i = none → v' i ≠ none → ∃ q ∈ l, q ∉ l' ∧ Writes (G q) i) ∧
      (∀ q ∈ l, q ∉ l' → ∀ i ∈ (G q).inputs, v i = none →
        ∃ q' ∈ l, q' ∉ l' ∧ q' < q ∧ Writes (G q') i)
  | [], v, v', rest, fl, _, h => by
    simp only [List.map_nil, Gadget.pass, Option.some.injEq, Prod.mk.injEq] at h
    obtain ⟨rfl, rfl, rfl⟩ := h
    exact ⟨[], List.Sublist.refl _, rfl, fun i h1 h2 => absurd h1 h2, by simp⟩
  | q0 :: l, v, v', rest, fl, hl, h => by
    simp only [List.map_cons, Gadget.pass] at h
    obtain ⟨hq, hl⟩ := List.pairwise_cons.1 hl
    split at h
    · next hr =>
      obtain ⟨v1, h1, h⟩ := Option.bind_eq_some_iff.1 h
      obtain ⟨⟨rest', v2, fl'⟩, h2, h⟩ := Option.bind_eq_some_iff.1 h
      obtain ⟨rfl, e⟩ := Prod.ext_iff.1 (Option.some.inj h)
      obtain ⟨rfl, _⟩ := Prod.ext_iff.1 e
      dsimp only at *
      obtain ⟨l', a1, a2, a3, a4⟩ := pass G l v1 v2 rest' fl' hl h2
      have hn : q0 ∉ l' := fun hc => absurd (hq q0 (a1.subset hc)) (lt_irrefl _)
      have hw : ∀ i, v i = none → v1 i ≠ none → Writes (G q0) i := fun i e1 e2 =>
        ⟨v, v1, h1, by rw [e1]; exact e2⟩
      refine ⟨l', a1.cons _, a2, fun i e1 e2 => ?_, fun q hq1 hq2 i hi e1 => ?_⟩
      · by_cases e3 : v1 i = none
        · obtain ⟨q, b1, b2, b3⟩ := a3 i e3 e2
          exact ⟨q, by simp [b1], b2, b3⟩
        · exact ⟨q0, by simp, hn, hw i e1 e3⟩
      · rcases List.mem_cons.1 hq1 with rfl | hq1
        · have := containsAll_iff.1 hr i hi
          rw [e1] at this
          exact absurd this (by simp)
        · by_cases e3 : v1 i = none
          · obtain ⟨q', b1, b2, b3⟩ := a4 q hq1 hq2 i hi e3
            exact ⟨q', by simp [b1], b2, b3⟩
          · exact ⟨q0, by simp, hn, hq q hq1, hw i e1 e3⟩
    · obtain ⟨⟨rest', v2, fl'⟩, h2, h⟩ := Option.bind_eq_some_iff.1 h
      obtain ⟨rfl, e⟩ := Prod.ext_iff.1 (Option.some.inj h)
      obtain ⟨rfl, _⟩ := Prod.ext_iff.1 e
      dsimp only at *
      obtain ⟨l', a1, a2, a3, a4⟩ := pass G l v v2 rest' fl' hl h2
      have hn : ∀ q ∈ l, q ∉ l' → q ∉ q0 :: l' := fun q h1 h2 hc => by
        rcases List.mem_cons.1 hc with rfl | hc
        · exact absurd (hq q h1) (lt_irrefl _)
        · exact h2 hc
      refine ⟨q0 :: l', a1.cons_cons _, by rw [a2]; rfl, fun i e1 e2 => ?_, fun q hq1 hq2 i hi e1 => ?_⟩
      · obtain ⟨q, b1, b2, b3⟩ := a3 i e1 e2
        exact ⟨q, by simp [b1], hn q b1 b2, b3⟩
      · rcases List.mem_cons.1 hq1 with rfl | hq1
        · exact absurd (by simp) hq2
        · obtain ⟨q', b1, b2, b3⟩ := a4 q hq1 (fun h => hq2 (by simp [h])) i hi e1
          exact ⟨q', by simp [b1], hn q' b1 b2, b3⟩

/-- The passes in which the generators run. -/
theorem passes (G : ℕ → WitnessGenerator p) : ∀ (k : ℕ) (l : List ℕ) (v v' : WireValues p),
    l.Pairwise (· < ·) → InPasses k (l.map G) v v' → ∃ ρ : ℕ → ℕ, ∀ q ∈ l, ρ q < k ∧
      ∀ i ∈ (G q).inputs, v i = none →
        ∃ q' ∈ l, Writes (G q') i ∧ (q' < q ∧ ρ q' ≤ ρ q ∨ q < q' ∧ ρ q' < ρ q)
  | 0, l, v, v', _, h => by
    have : l.map G = [] := by
      generalize l.map G = gs at h
      cases h
      rfl
    rw [List.map_eq_nil_iff] at this
    subst this
    exact ⟨fun _ => 0, by simp⟩
  | k + 1, l, v, v', hl, h => by
    classical
    cases h with
    | @pass _ _ gs' _ v1 _ h h' =>
      obtain ⟨l', a1, rfl, a3, a4⟩ := pass G l v v1 gs' true hl h
      obtain ⟨ρ, hρ⟩ := passes G k l' v1 v' (hl.sublist a1) h'
      refine ⟨fun q => if q ∈ l' then ρ q + 1 else 0, fun q hq => ?_⟩
      dsimp only
      by_cases hq' : q ∈ l'
      · obtain ⟨b1, b2⟩ := hρ q hq'
        rw [if_pos hq']
        refine ⟨by omega, fun i hi e1 => ?_⟩
        by_cases e2 : v1 i = none
        · obtain ⟨q', c1, c2, c3⟩ := b2 i hi e2
          exact ⟨q', a1.subset c1, c2, by rw [if_pos c1]; omega⟩
        · obtain ⟨q', c1, c2, c3⟩ := a3 i e1 e2
          refine ⟨q', c1, c3, ?_⟩
          rw [if_neg c2]
          have : q' ≠ q := by rintro rfl; exact c2 hq'
          omega
      · rw [if_neg hq']
        refine ⟨by omega, fun i hi e1 => ?_⟩
        obtain ⟨q', c1, c2, c3, c4⟩ := a4 q hq hq' i hi e1
        exact ⟨q', c1, c4, by rw [if_neg c2]; omega⟩

end Late

/-- Passes over the generators which run all of them have a schedule. -/
theorem InPasses.schedule {k : ℕ} {gs : List (WitnessGenerator p)} {v v' : WireValues p}
    (h : InPasses k gs v v') :
    ∃ ρ : ℕ → ℕ, (∀ q < gs.length, ρ q < k) ∧ Schedule gs v ρ := by
  have e : (List.range gs.length).map (fun q => gs[q]?.getD ⟨[], fun _ => none⟩) = gs := by
    refine List.ext_getElem (by simp) fun q h1 h2 => ?_
    simp [List.getElem?_eq_getElem h2]
  rw [← e] at h
  obtain ⟨ρ, hρ⟩ := Late.passes _ k _ v v' List.pairwise_lt_range h
  refine ⟨ρ, fun q hq => (hρ q (by simpa using hq)).1, fun q g hg i hi hv => ?_⟩
  obtain ⟨hq, rfl⟩ := List.getElem?_eq_some_iff.1 hg
  obtain ⟨q', h1, h2, h3⟩ := (hρ q (by simpa using hq)).2 i (by simpa [hg] using hi) hv
  have hq' : q' < gs.length := by simpa using h1
  refine ⟨q', gs[q'], List.getElem?_eq_getElem hq', ?_, h3⟩
  simpa [List.getElem?_eq_getElem hq'] using h2

namespace Late

variable {gs : List (WitnessGenerator p)} {v : WireValues p} {ρ : ℕ → ℕ}

/-- A generator runs after those which write one of its inputs. -/
theorem waits (hs : Schedule gs v ρ) {q : ℕ} {g : WitnessGenerator p} (hq : gs[q]? = some g)
    {i : Wire} (hi : i ∈ g.inputs) (hv : v i = none) {T : ℕ}
    (h : ∀ q' g', gs[q']? = some g' → Writes g' i →
      (q' < q ∧ T ≤ ρ q') ∨ (q' = q) ∨ (q < q' ∧ T ≤ ρ q' + 1)) : T ≤ ρ q := by
  obtain ⟨q', g', h1, h2, h3⟩ := hs q g hq i hi hv
  have := h q' g' h1 h2
  omega

/-- The wires written by the generators of a call. -/
theorem segment {m : B p α} (hm : Tidy m) {b b' : Builder p} {a : α} (h : m b = some (a, b'))
    (hgs : b'.witnessGenerators <+: gs) : b.nextWireIndex ≤ b'.nextWireIndex ∧
    b.witnessGenerators <+: b'.witnessGenerators ∧
    b.witnessGenerators.length ≤ b'.witnessGenerators.length ∧
    ∀ q g, gs[q]? = some g → b.witnessGenerators.length ≤ q → q < b'.witnessGenerators.length →
      ∀ i, Writes g i → b.nextWireIndex ≤ i ∧ i < b'.nextWireIndex := by
  obtain ⟨h1, _, gs1, h2, _⟩ := C23_appends hm.1 h
  refine ⟨h1, ⟨gs1, h2.symm⟩, by rw [h2]; simp, fun q g hg q1 q2 i ⟨u, u', w1, w2⟩ => ?_⟩
  obtain ⟨t, rfl⟩ := hgs
  rw [List.getElem?_append_left q2] at hg
  have hm' : g ∈ b'.witnessGenerators.drop b.witnessGenerators.length := by
    rw [List.mem_iff_getElem?]
    exact ⟨q - b.witnessGenerators.length, by rw [List.getElem?_drop, ← hg]; congr 1; omega⟩
  exact ((hm.2 b a b' h g hm').writes u u' w1 i w2).2

/-! ## Expressions which change with a wire -/

/-- The value of the expression changes with the wire. -/
def Moves (i : Wire) (x : Expression p) : Prop :=
  ∃ w w' : Assign p, (∀ j, j ≠ i → w j = w' j) ∧ x.eval w ≠ x.eval w'

theorem Moves.dep {i : Wire} {x : Expression p} (h : Moves i x) : i ∈ x.dependencies := by
  obtain ⟨w, w', h1, h2⟩ := h
  by_contra hn
  exact h2 (Expression.eval_congr fun j hj => h1 j (by rintro rfl; exact hn hj))

theorem Moves.not_constant {i : Wire} {x : Expression p} (h : Moves i x) (hi : i ≠ ONE) :
    x.asConstant = none := by
  cases hc : x.asConstant with
  | none => rfl
  | some c =>
    have h1 := Expression.mem_deps.1 h.dep
    rw [Expression.asConstant_eq_some hc] at h1
    obtain ⟨d, hd⟩ := h1
    simp only [List.mem_singleton, Prod.mk.injEq] at hd
    exact absurd hd.1 hi

theorem still {i : Wire} {x : Expression p} (h : i ∉ x.dependencies) {w w' : Assign p}
    (hw : ∀ j, j ≠ i → w j = w' j) : x.eval w = x.eval w' :=
  Expression.eval_congr fun j hj => hw j (by rintro rfl; exact h hj)

theorem Moves.add_right {i : Wire} {x y : Expression p} (h : Moves i y) (hx : i ∉ x.dependencies) :
    Moves i (x + y) := by
  obtain ⟨w, w', h1, h2⟩ := h
  refine ⟨w, w', h1, fun he => h2 ?_⟩
  rw [Expression.eval_add, Expression.eval_add, still hx h1] at he
  exact add_left_cancel he

theorem Moves.sub_right {i : Wire} {x y : Expression p} (h : Moves i y) (hx : i ∉ x.dependencies) :
    Moves i (x - y) := by
  obtain ⟨w, w', h1, h2⟩ := h
  refine ⟨w, w', h1, fun he => h2 ?_⟩
  rw [Expression.eval_sub, Expression.eval_sub, still hx h1] at he
  exact sub_right_injective he

theorem Moves.mulElem {i : Wire} {x : Expression p} (h : Moves i x) {c : Elem p} (hc : c ≠ 0) :
    Moves i (x.mulElem c) := by
  obtain ⟨w, w', h1, h2⟩ := h
  refine ⟨w, w', h1, fun he => h2 ?_⟩
  rw [Expression.eval_mulElem, Expression.eval_mulElem] at he
  exact mul_right_cancel₀ hc he

theorem Moves.ofWire (i : Wire) : Moves i (Expression.ofWire i : Expression p) := by
  refine ⟨fun _ => 0, fun j => if j = i then 1 else 0, fun j hj => by simp [hj], ?_⟩
  simp

theorem ofWire_not_constant {i : Wire} (hi : i ≠ ONE) :
    (Expression.ofWire i : Expression p).asConstant = none := (Moves.ofWire i).not_constant hi

theorem sub_constant_ne {x y : Expression p} {c : Elem p} (h : (x - y).asConstant = some c) :
    c ≠ 0 := by
  have h1 : ((ONE, c) : Wire × Elem p) ∈ (x - y).coefficients := by
    rw [Expression.asConstant_eq_some h]; simp
  have h2 := (List.mem_filter.1 (h1 : _ ∈ List.filter _ _)).2
  rintro rfl
  exact absurd h2 (by simp [Elem.isNonzero])

/-! ## Networks -/

theorem createSwitch_deps {x y : Expression p} {b b' : Builder p}
    {r : BooleanWire × Expression p × Expression p} (h : B.createSwitch x y b = some (r, b')) :
    ∀ i ∈ r.2.2.dependencies, i ∈ x.dependencies ∨ i ∈ y.dependencies ∨ b.nextWireIndex ≤ i := by
  unfold B.createSwitch B.selection at h
  obtain ⟨w, b1, h1, h⟩ := B.bind_run h
  have e : w.wire = b.nextWireIndex ∧ b1.nextWireIndex = b.nextWireIndex + 1 := by
    obtain ⟨rfl, rfl⟩ := Prod.ext_iff.1 (Option.some.inj h1)
    exact ⟨rfl, rfl⟩
  obtain ⟨c, b2, h2, h⟩ := B.bind_run h
  obtain ⟨d, b3, h3, h2⟩ := B.bind_run h2
  obtain ⟨rfl, rfl⟩ := Prod.ext_iff.1 (Option.some.inj h)
  obtain ⟨rfl, rfl⟩ := Prod.ext_iff.1 (Option.some.inj h2)
  have hd : ∀ i ∈ d.dependencies, i ∈ x.dependencies ∨ i ∈ y.dependencies ∨ b.nextWireIndex ≤ i := by
    intro i hi
    have hs : ∀ i ∈ (BooleanExpression.ofWire w : BooleanExpression p).expression.dependencies,
        b.nextWireIndex ≤ i := by
      intro i hi
      have := Expression.mem_deps_ofWire hi
      omega
    unfold B.product at h3
    cases hc : (BooleanExpression.ofWire w : BooleanExpression p).expression.asConstant with
    | some c =>
      rw [hc] at h3
      obtain ⟨rfl, rfl⟩ := Prod.ext_iff.1 (Option.some.inj h3)
      rcases Expression.mem_deps_sub (Expression.mem_deps_mulElem hi) with h | h
      · exact Or.inr (Or.inl h)
      · exact Or.inl h
    | none =>
      rw [hc] at h3
      cases hc' : (y - x).asConstant with
      | some c =>
        rw [hc'] at h3
        obtain ⟨rfl, rfl⟩ := Prod.ext_iff.1 (Option.some.inj h3)
        exact Or.inr (Or.inr (hs i (Expression.mem_deps_mulElem hi)))
      | none =>
        rw [hc'] at h3
        obtain ⟨rfl, rfl⟩ := Prod.ext_iff.1 (Option.some.inj h3)
        have := Expression.mem_deps_ofWire hi
        omega
  intro i hi
  rcases Expression.mem_deps_sub hi with hi | hi
  · rcases Expression.mem_deps_add hi with hi | hi
    · exact Or.inl hi
    · exact Or.inr (Or.inl hi)
  · rcases Expression.mem_deps_add hi with hi | hi
    · exact Or.inl hi
    · exact hd i hi

theorem switchLayer_deps : ∀ (k : ℕ) (xs : List (Expression p)) {b b' : Builder p}
    {r : List BooleanWire × List (Expression p) × List (Expression p)},
    B.switchLayer k xs b = some (r, b') → ∀ e ∈ r.2.2, ∀ i ∈ e.dependencies,
      (∃ x ∈ xs, i ∈ x.dependencies) ∨ b.nextWireIndex ≤ i
  | 0, xs, b, b', r, h => by
    unfold B.switchLayer at h
    obtain ⟨rfl, _⟩ := Prod.ext_iff.1 (Option.some.inj h)
    simp
  | k + 1, x :: y :: rest, b, b', r, h => by
    unfold B.switchLayer at h
    obtain ⟨r1, b1, h1, h⟩ := B.bind_run h
    obtain ⟨r2, b2, h2, h⟩ := B.bind_run h
    obtain ⟨rfl, _⟩ := Prod.ext_iff.1 (Option.some.inj h)
    have hle := (C23_appends (Tidy.createSwitch x y).1 h1).1
    intro e he i hi
    rcases List.mem_cons.1 he with rfl | he
    · rcases createSwitch_deps h1 i hi with h | h | h
      · exact Or.inl ⟨x, by simp, h⟩
      · exact Or.inl ⟨y, by simp, h⟩
      · exact Or.inr h
    · rcases switchLayer_deps k rest h2 e he i hi with ⟨z, hz, h⟩ | h
      · exact Or.inl ⟨z, by simp [hz], h⟩
      · exact Or.inr (hle.trans h)
  | k + 1, [], b, b', r, h => by
    unfold B.switchLayer at h
    exact absurd h (by simp [B.panic])
  | k + 1, [x], b, b', r, h => by
    unfold B.switchLayer at h
    exact absurd h (by simp [B.panic])

/-- A switch: the second output changes with a wire, which is the setting of the switch, or is
calculated from it by the one generator. -/
theorem createSwitch {x y : Expression p} {b b' : Builder p}
    {r : BooleanWire × Expression p × Expression p} (h : B.createSwitch x y b = some (r, b'))
    (hx : x.Scoped b.nextWireIndex) (hy : y.Scoped b.nextWireIndex) (h1 : 1 ≤ b.nextWireIndex) :
    r.1.wire = b.nextWireIndex ∧ b.nextWireIndex < b'.nextWireIndex ∧
    ((b'.witnessGenerators = b.witnessGenerators ∧ Moves b.nextWireIndex r.2.2 ∧
        (y - x).asConstant ≠ none) ∨
      ∃ (j : Wire) (g : WitnessGenerator p), b'.witnessGenerators = b.witnessGenerators ++ [g] ∧
        b.nextWireIndex ∈ g.inputs ∧ b.nextWireIndex ≤ j ∧ j < b'.nextWireIndex ∧ Moves j r.2.2) := by
  unfold B.createSwitch B.selection at h
  obtain ⟨w, b1, k1, h⟩ := B.bind_run h
  obtain ⟨rfl, rfl⟩ := Prod.ext_iff.1 (Option.some.inj k1)
  obtain ⟨c, b2, h2, h⟩ := B.bind_run h
  obtain ⟨d, b3, h3, h2⟩ := B.bind_run h2
  obtain ⟨rfl, rfl⟩ := Prod.ext_iff.1 (Option.some.inj h)
  obtain ⟨rfl, rfl⟩ := Prod.ext_iff.1 (Option.some.inj h2)
  have hns : ∀ j, b.nextWireIndex ≤ j → j ∉ x.dependencies ∧ j ∉ y.dependencies ∧
      j ∉ (x + y).dependencies := by
    intro j hj
    have hx' : j ∉ x.dependencies := fun h => absurd (hx j h) (by omega)
    have hy' : j ∉ y.dependencies := fun h => absurd (hy j h) (by omega)
    exact ⟨hx', hy', fun h => (Expression.mem_deps_add h).elim hx' hy'⟩
  have hmv : ∀ j, b.nextWireIndex ≤ j → Moves j d → Moves j (x + y - (x + d)) := fun j hj hd =>
    (hd.add_right (hns j hj).1).sub_right (hns j hj).2.2
  have hsw : (BooleanExpression.ofWire (⟨b.nextWireIndex⟩ : BooleanWire) :
      BooleanExpression p).expression.asConstant = none :=
    ofWire_not_constant (show b.nextWireIndex ≠ 0 by omega)
  unfold B.product at h3
  dsimp only at h3 ⊢
  refine ⟨rfl, ?_⟩
  rw [hsw] at h3
  dsimp only at h3
  cases hc : (y - x).asConstant with
  | some c =>
    rw [hc] at h3
    obtain ⟨rfl, rfl⟩ := Prod.ext_iff.1 (Option.some.inj h3)
    refine ⟨by simp, Or.inl ⟨rfl, hmv _ le_rfl ((Moves.ofWire _).mulElem (sub_constant_ne hc)),
      by simp⟩⟩
  | none =>
    rw [hc] at h3
    obtain ⟨rfl, rfl⟩ := Prod.ext_iff.1 (Option.some.inj h3)
    refine ⟨by simp, Or.inr ⟨b.nextWireIndex + 1, _, rfl,
      List.mem_append_left _ (Moves.ofWire _).dep, by omega, by simp,
      hmv _ (by omega) (Moves.ofWire _)⟩⟩

theorem tidy_switchLayer (k : ℕ) (xs : List (Expression p)) : Tidy (B.switchLayer k xs) :=
  Tidy.mk (Tidy.switchLayer_prog k xs) fun n => Own.switchLayer k xs n le_rfl

/-- The wires from `lo` up to `hi` are written only by the generators from `g0` up to `g1`. -/
def Alone (gs : List (WitnessGenerator p)) (lo hi g0 g1 : ℕ) : Prop :=
  ∀ q g i, gs[q]? = some g → Writes g i → lo ≤ i → i < hi → g0 ≤ q ∧ q < g1

/-- One of the expressions mentions a wire which is not written before the pass `T`, as seen from the
generators from `g0` up to `g1`. -/
def Starts (gs : List (WitnessGenerator p)) (v : WireValues p) (ρ : ℕ → ℕ) (g0 g1 T : ℕ)
    (es : List (Expression p)) : Prop :=
  T = 0 ∨ ∃ i, v i = none ∧ (∃ e ∈ es, i ∈ e.dependencies) ∧
    ∀ q g, gs[q]? = some g → Writes g i → (q < g0 ∧ T ≤ ρ q) ∨ (g1 ≤ q ∧ T ≤ ρ q + 1)

/-- A generator which reads all these expressions. -/
theorem Starts.waits {g0 g1 T : ℕ} {es : List (Expression p)} (h : Starts gs v ρ g0 g1 T es)
    (hs : Schedule gs v ρ) {q : ℕ} {g : WitnessGenerator p} (hq : gs[q]? = some g)
    (hg : ∀ e ∈ es, ∀ i ∈ e.dependencies, i ∈ g.inputs) (h0 : g0 ≤ q) (h1 : q < g1) : T ≤ ρ q := by
  rcases h with rfl | ⟨i, hv, ⟨e, he, hi⟩, hw⟩
  · exact Nat.zero_le _
  · refine Late.waits hs hq (hg e he i hi) hv fun q' g' a1 a2 => ?_
    have := hw q' g' a1 a2
    omega

/-- The last generator of a prefix. -/
theorem last_get {l : List (WitnessGenerator p)} {g : WitnessGenerator p} (h : l ++ [g] <+: gs) :
    gs[l.length]? = some g := by
  obtain ⟨t, rfl⟩ := h
  simp

theorem permutation2x2 (hs : Schedule gs v ρ) {x y z t : Expression p} {b0 b1 : Builder p} {u : Unit}
    (h : B.assertPermutation2x2 x y z t b0 = some (u, b1)) (h1 : 1 ≤ b0.nextWireIndex)
    (hx : x.Scoped b0.nextWireIndex) (hy : y.Scoped b0.nextWireIndex)
    (hc : (y - x).asConstant = none) (hgs : b1.witnessGenerators <+: gs)
    (hv : ∀ i, b0.nextWireIndex ≤ i → i < b1.nextWireIndex → v i = none)
    (ha : Alone gs b0.nextWireIndex b1.nextWireIndex b0.witnessGenerators.length
      b1.witnessGenerators.length) {T : ℕ}
    (hT : Starts gs v ρ b0.witnessGenerators.length b1.witnessGenerators.length T [x, y, z, t]) :
    ∃ q, b0.witnessGenerators.length ≤ q ∧ q < b1.witnessGenerators.length ∧ T + 1 ≤ ρ q := by
  unfold B.assertPermutation2x2 at h
  obtain ⟨r, c1, k1, h⟩ := B.bind_run h
  obtain ⟨_, c2, k2, h⟩ := B.bind_run h
  obtain ⟨_, c3, k3, h⟩ := B.bind_run h
  obtain ⟨_, rfl⟩ := Prod.ext_iff.1 (Option.some.inj k2)
  obtain ⟨_, rfl⟩ := Prod.ext_iff.1 (Option.some.inj k3)
  obtain ⟨_, rfl⟩ := Prod.ext_iff.1 (Option.some.inj h)
  dsimp only at *
  obtain ⟨e1, e2, e3⟩ := createSwitch k1 hx hy h1
  rcases e3 with ⟨_, _, e3⟩ | ⟨j, g, e3, e4, _⟩
  · exact absurd hc e3
  have hroot := last_get hgs
  have hT' := hT.waits hs hroot (fun e he i hi => by
    simp only [List.mem_cons, List.not_mem_nil, or_false] at he
    simp only [List.mem_append]
    rcases he with rfl | rfl | rfl | rfl <;> simp [hi]) (by rw [e3]; simp) (by simp)
  refine ⟨b0.witnessGenerators.length, le_rfl, by rw [e3]; simp, ?_⟩
  rw [e3] at hgs ha hT'
  have hg : gs[b0.witnessGenerators.length]? = some g := last_get ((List.prefix_append _ _).trans hgs)
  refine waits hs hg e4 (hv _ le_rfl e2) fun q' g' a1 a2 => ?_
  have := ha q' g' _ a1 a2 le_rfl e2
  simp only [List.length_append, List.length_cons, List.length_nil, zero_add] at this hT'
  by_cases hq : q' = b0.witnessGenerators.length + 1
  · subst hq; omega
  · omega

/-- The two subnetworks, whatever the parity. -/
theorem children_cases {fuel : ℕ} {a b : List (Expression p)} {r : Layers p} {b2 b4 : Builder p}
    {u : Unit} (hk : a.length / 2 ≤ r.1.2.2.length) (hr : r.1.2.2.length = a.length / 2)
    (h : children fuel a b r b2 = some (u, b4)) :
    ∃ (x1 y1 x2 y2 : List (Expression p)) (b3 : Builder p),
      B.assertPermutationFuel fuel x1 y1 b2 = some ((), b3) ∧
      B.assertPermutationFuel fuel x2 y2 b3 = some ((), b4) ∧
      x2.length = (a.length + 1) / 2 ∧
      (∃ z, x2 = r.1.2.2 ++ z ∧ ∀ e ∈ z, e ∈ a) ∧ ∃ z, y2 = r.2.2.2 ++ z ∧ ∀ e ∈ z, e ∈ b := by
  unfold children at h
  split at h
  · obtain ⟨e1, c1, k1, h1⟩ := B.bind_run h
    obtain ⟨e2, c2, k2, h2⟩ := B.bind_run h1
    obtain ⟨_, b3, k3, h3⟩ := B.bind_run h2
    unfold B.ofOption at k1 k2
    obtain ⟨x1, m1, k1⟩ := Option.map_eq_some_iff.1 k1
    obtain ⟨x2, m2, k2⟩ := Option.map_eq_some_iff.1 k2
    obtain ⟨rfl, rfl⟩ := Prod.ext_iff.1 k1
    obtain ⟨rfl, rfl⟩ := Prod.ext_iff.1 k2
    exact ⟨_, _, _, _, b3, k3, h3, by omega, ⟨[], by simp, by simp⟩, [_], rfl, by
      simpa using List.mem_of_getElem? m2⟩
  · obtain ⟨e1, c1, k1, h1⟩ := B.bind_run h
    obtain ⟨e2, c2, k2, h2⟩ := B.bind_run h1
    obtain ⟨_, b3, k3, h3⟩ := B.bind_run h2
    unfold B.ofOption at k1 k2
    obtain ⟨x1, m1, k1⟩ := Option.map_eq_some_iff.1 k1
    obtain ⟨x2, m2, k2⟩ := Option.map_eq_some_iff.1 k2
    obtain ⟨rfl, rfl⟩ := Prod.ext_iff.1 k1
    obtain ⟨rfl, rfl⟩ := Prod.ext_iff.1 k2
    exact ⟨_, _, _, _, b3, k3, h3, by simp; omega, ⟨[_], rfl, by
      simpa using List.mem_of_getElem? m1⟩, [_], rfl, by
      simpa using List.mem_of_getElem? m2⟩

/-- A permutation network of `n` elements which starts in the pass `T` or later runs a generator in
the pass `T + ⌈log₂ n⌉` or later. -/
theorem network (hs : Schedule gs v ρ) : ∀ (fuel : ℕ) (a b : List (Expression p)) (b0 b1 : Builder p)
    (u : Unit), B.assertPermutationFuel fuel a b b0 = some (u, b1) → 2 ≤ a.length →
    1 ≤ b0.nextWireIndex → (∀ e ∈ a, e.Scoped b0.nextWireIndex) →
    (∀ e ∈ b, e.Scoped b0.nextWireIndex) →
    (∀ x y, a = [x, y] → (y - x).asConstant = none) → b1.witnessGenerators <+: gs →
    (∀ i, b0.nextWireIndex ≤ i → i < b1.nextWireIndex → v i = none) →
    Alone gs b0.nextWireIndex b1.nextWireIndex b0.witnessGenerators.length
      b1.witnessGenerators.length →
    ∀ T, Starts gs v ρ b0.witnessGenerators.length b1.witnessGenerators.length T (a ++ b) →
    ∃ q, b0.witnessGenerators.length ≤ q ∧ q < b1.witnessGenerators.length ∧
      T + Nat.clog 2 a.length ≤ ρ q
  | 0, a, b, b0, b1, u, h, hn, _, _, _, _, _, _, _, _, _ => by
    obtain ⟨_, c1, _, h⟩ := B.bind_run h
    unfold B.require at h
    rw [if_neg (by omega)] at h
    exact absurd h (by simp [B.panic])
  | fuel + 1, a, b, b0, b1, u, h, hn, h1, hsa, hsb, hc, hgs, hv, ha, T, hT => by
    by_cases hn3 : a.length = 2
    · -- a single switch
      obtain ⟨x, y, rfl⟩ := List.length_eq_two.1 hn3
      have hlen : b.length = 2 := by
        unfold B.assertPermutationFuel at h
        obtain ⟨_, c1, k1, _⟩ := B.bind_run h
        unfold B.require at k1
        split at k1
        · next e => simpa using e.symm
        · exact absurd k1 (by simp [B.panic])
      obtain ⟨z, t, rfl⟩ := List.length_eq_two.1 hlen
      have h' : B.assertPermutation2x2 x y z t b0 = some (u, b1) := h
      obtain ⟨q, q1, q2, q3⟩ := permutation2x2 hs h' h1 (hsa x (by simp)) (hsa y (by simp))
        (hc x y rfl) hgs hv ha hT
      refine ⟨q, q1, q2, ?_⟩
      have : Nat.clog 2 [x, y].length = 1 := show Nat.clog 2 2 = 1 by decide
      omega
    · have hn' : 3 ≤ a.length := by omega
      rw [assertPermutationFuel_eq hn'] at h
      obtain ⟨_, c0, k0, g1⟩ := B.bind_run h
      have hc0 : c0 = b0 ∧ b.length = a.length := by
        unfold B.require at k0
        split at k0
        · next e =>
          obtain ⟨_, rfl⟩ := Prod.ext_iff.1 (Option.some.inj k0)
          exact ⟨rfl, e.symm⟩
        · exact absurd k0 (by simp [B.panic])
      obtain ⟨rfl, hlen⟩ := hc0
      obtain ⟨r, b2, k1, g2⟩ := B.bind_run g1
      obtain ⟨_, b4, k3, g3⟩ := B.bind_run g2
      unfold layers at k1
      obtain ⟨ra, c2, ka, k4⟩ := B.bind_run k1
      obtain ⟨rb, c3, kb, k5⟩ := B.bind_run k4
      obtain ⟨rfl, rfl⟩ := Prod.ext_iff.1 (Option.some.inj k5)
      have hla := Insists.switchLayer_length _ _ ka
      obtain ⟨x1, y1, x2, y2, b3, kc1, kc2, hx2, ⟨za, rfl, hza⟩, zb, rfl, hzb⟩ :=
        children_cases (by rw [hla]) hla k3
      obtain ⟨la, ⟨sa1, sa2, sa3⟩, _, _⟩ := DetBy.switchLayer _ hsa c0 c2 ra rfl ka
      obtain ⟨lb, ⟨sb1, sb2, sb3⟩, _, _⟩ := DetBy.switchLayer _ (n := c2.nextWireIndex)
        (fun e he => (hsb e he).mono la) c2 c3 rb rfl kb
      obtain ⟨x, y, rest, rfl⟩ : ∃ x y rest, a = x :: y :: rest := by
        rcases a with _ | ⟨x, _ | ⟨y, rest⟩⟩
        · simp at hn
        · simp at hn
        · exact ⟨x, y, rest, rfl⟩
      have hk : (x :: y :: rest).length / 2 = (x :: y :: rest).length / 2 - 1 + 1 := by
        simp only [List.length_cons] at *; omega
      have ka' := ka
      rw [hk, B.switchLayer] at ka'
      obtain ⟨r1, c1, ks, ka2⟩ := B.bind_run ka'
      obtain ⟨r2, c2', kl, ka3⟩ := B.bind_run ka2
      obtain ⟨era, ec⟩ := Prod.ext_iff.1 (Option.some.inj ka3)
      dsimp only at era ec
      subst ec
      -- the parts of the list of generators
      obtain ⟨_, eb1⟩ := Prod.ext_iff.1 (Option.some.inj g3)
      dsimp only at eb1
      have hn1 : b1.nextWireIndex = b4.nextWireIndex := by rw [← eb1]
      have hgs1 : b1.witnessGenerators = b4.witnessGenerators ++
          [⟨(x :: y :: rest).flatMap Expression.dependencies ++ b.flatMap Expression.dependencies,
            B.routeGen (x :: y :: rest) b ra.1 rb.1⟩] := by rw [← eb1]
      have hgs4 : b4.witnessGenerators <+: gs := by
        rw [hgs1] at hgs
        exact (List.prefix_append _ _).trans hgs
      obtain ⟨n4, p4, l4, w4⟩ := segment (Tidy.assertPermutationFuel _ _ _) kc2 hgs4
      obtain ⟨n3, p3, l3, w3⟩ := segment (Tidy.assertPermutationFuel _ _ _) kc1 (p4.trans hgs4)
      have hgs3 := p3.trans (p4.trans hgs4)
      obtain ⟨n2, p2, l2, w2⟩ := segment (tidy_switchLayer _ _) kb hgs3
      obtain ⟨n1, p1, l1, w1⟩ := segment (tidy_switchLayer _ _) kl (p2.trans hgs3)
      obtain ⟨n0, p0, l0, w0⟩ := segment (Tidy.createSwitch _ _) ks (p1.trans (p2.trans hgs3))
      have hlen1 : b1.witnessGenerators.length = b4.witnessGenerators.length + 1 := by
        rw [hgs1]; simp
      dsimp only at n2 n3 l2 l3 w2 w3 l4 w4 n4
      -- the generator of the outer switches
      have hroot := last_get (hgs1 ▸ hgs)
      have wr : ∀ g i, gs[b4.witnessGenerators.length]? = some g → Writes g i →
          c0.nextWireIndex ≤ i ∧ i < c3.nextWireIndex := by
        rintro g i hg ⟨w, w', e1, e2⟩
        rw [hroot] at hg
        obtain rfl := Option.some.inj hg
        have hA : ∀ w ∈ ra.1, c0.nextWireIndex ≤ w.wire ∧ w.wire < c3.nextWireIndex := fun w hw => by
          have := (Own.switchLayer _ _ c0.nextWireIndex le_rfl c0 ra c2' rfl ka).2.2 w hw
          omega
        have hB : ∀ w ∈ rb.1, c0.nextWireIndex ≤ w.wire ∧ w.wire < c3.nextWireIndex := fun w hw => by
          have := (Own.switchLayer _ _ c2'.nextWireIndex le_rfl c2' rb c3 rfl kb).2.2 w hw
          omega
        exact ((Conf.routeGen hA hB).writes w w' e1 i e2).2
      have hTr : T ≤ ρ b4.witnessGenerators.length := by
        refine hT.waits hs hroot (fun e he i hi => ?_) (by omega) (by omega)
        rw [List.mem_append]
        rcases List.mem_append.1 he with he | he
        · exact Or.inl (List.mem_flatMap.2 ⟨e, he, hi⟩)
        · exact Or.inr (List.mem_flatMap.2 ⟨e, he, hi⟩)
      obtain ⟨s1, s2, s3⟩ := createSwitch ks (hsa x (by simp)) (hsa y (by simp)) h1
      -- a wire with which what enters the second subnetwork changes
      obtain ⟨j, j1, j2, hm, hj⟩ : ∃ j, c0.nextWireIndex ≤ j ∧ j < c1.nextWireIndex ∧
          Moves j r1.2.2 ∧ ∀ q g, gs[q]? = some g → Writes g j →
            (q < b3.witnessGenerators.length ∧ T + 1 ≤ ρ q) ∨
            (b4.witnessGenerators.length ≤ q ∧ T + 1 ≤ ρ q + 1) := by
        have hw : ∀ j, c0.nextWireIndex ≤ j → j < c1.nextWireIndex → ∀ q g, gs[q]? = some g →
            Writes g j → (c0.witnessGenerators.length ≤ q ∧ q < c1.witnessGenerators.length) ∨
              q = b4.witnessGenerators.length := by
          intro j j1 j2 q g hg hw
          have a0 := ha q g j hg hw j1 (by omega)
          by_contra hcon
          have a1 : c1.witnessGenerators.length ≤ q ∧ q < b4.witnessGenerators.length := by omega
          by_cases q1 : q < c2'.witnessGenerators.length
          · have := w1 q g hg a1.1 q1 j hw; omega
          · by_cases q2 : q < c3.witnessGenerators.length
            · have := w2 q g hg (by omega) q2 j hw; omega
            · by_cases q3 : q < b3.witnessGenerators.length
              · have := w3 q g hg (by omega) q3 j hw; omega
              · have := w4 q g hg (by omega) a1.2 j hw; omega
        rcases s3 with ⟨s3, s4, _⟩ | ⟨j, g, s3, s4, j1, j2, hm⟩
        · refine ⟨c0.nextWireIndex, le_rfl, s2, s4, fun q g hg hwr => ?_⟩
          rcases hw _ le_rfl s2 q g hg hwr with h | rfl
          · rw [s3] at h; omega
          · right; omega
        · have hlen : c1.witnessGenerators.length = c0.witnessGenerators.length + 1 := by
            rw [s3]; simp
          have hgp : gs[c0.witnessGenerators.length]? = some g := by
            have := p1.trans (p2.trans hgs3)
            rw [s3] at this
            exact last_get this
          have hprod : T + 1 ≤ ρ c0.witnessGenerators.length := by
            refine waits hs hgp s4 (hv _ le_rfl (by omega)) fun q g' hg' hwr => ?_
            rcases hw _ le_rfl s2 q g' hg' hwr with h | rfl
            · right; left; omega
            · right; right; omega
          refine ⟨j, j1, j2, hm, fun q g' hg' hwr => ?_⟩
          rcases hw _ j1 j2 q g' hg' hwr with h | rfl
          · obtain rfl : q = c0.witnessGenerators.length := by omega
            left; omega
          · right; omega
      have hjv : v j = none := hv j j1 (by omega)
      have hra : ra.2.2 = r1.2.2 :: r2.2.2 := by rw [← era]
      obtain ⟨q, q1, q2, q3⟩ := network hs fuel _ _ b3 b4 () kc2 (by rw [hx2]; omega) (by omega)
        (fun e he => by
          rcases List.mem_append.1 he with he | he
          · exact (sa3 e he).mono (by omega)
          · exact (hsa e (hza e he)).mono (by omega))
        (fun e he => by
          rcases List.mem_append.1 he with he | he
          · exact (sb3 e he).mono (by omega)
          · exact (hsb e (hzb e he)).mono (by omega))
        (fun o e ho => by
          dsimp only at ho
          rw [hra, List.cons_append, List.cons.injEq] at ho
          obtain ⟨rfl, ho⟩ := ho
          have he : e ∈ r2.2.2 ++ za := by rw [ho]; simp
          refine (hm.sub_right fun hj' => ?_).not_constant (show j ≠ 0 by omega)
          rcases List.mem_append.1 he with he | he
          · rcases switchLayer_deps _ _ kl e he j hj' with ⟨z, hz, h⟩ | h
            · have := hsa z (by simp [hz]) j h; omega
            · omega
          · have := hsa e (hza e he) j hj'; omega)
        hgs4 (fun i i1 i2 => hv i (by omega) (by omega))
        (fun q g i hg hw i1 i2 => by
          have a0 := ha q g i hg hw (by omega) (by omega)
          by_cases q0 : q = b4.witnessGenerators.length
          · subst q0
            have := wr g i hg hw; omega
          · refine ⟨?_, by omega⟩
            by_contra hcon
            by_cases q1 : q < c1.witnessGenerators.length
            · have := w0 q g hg a0.1 q1 i hw; omega
            · by_cases q2 : q < c2'.witnessGenerators.length
              · have := w1 q g hg (by omega) q2 i hw; omega
              · by_cases q3 : q < c3.witnessGenerators.length
                · have := w2 q g hg (by omega) q3 i hw; omega
                · have := w3 q g hg (by omega) (by omega) i hw; omega)
        (T + 1) (Or.inr ⟨j, hjv, ⟨r1.2.2, by rw [hra]; simp, hm.dep⟩, hj⟩)
      refine ⟨q, by omega, by omega, ?_⟩
      rw [hx2] at q3
      rw [Nat.clog_of_two_le (le_refl 2) hn]
      have : ((x :: y :: rest).length + 2 - 1) / 2 = ((x :: y :: rest).length + 1) / 2 := by congr 1
      rw [this]
      omega

end Late

end R1CS
