import Verif.Lemmas.Programs
import Verif.Props.Execute

/-!
# C18 and C23: fresh wires, composition of gadget calls
-/

set_option linter.unusedSectionVars false

namespace R1CS

variable {p : ℕ} [hp : Fact p.Prime]

/-! ## C18 -/

/-- `Steps b ws b'`: the builder goes from `b` to `b'` by calls of its three primitive methods, and
`ws` are the wires handed out on the way, in order. -/
inductive Steps : Builder p → List Wire → Builder p → Prop
  | nil (b : Builder p) : Steps b [] b
  | wire {b b1 b' : Builder p} {i : Wire} {ws : List Wire} (h : B.wire b = some (i, b1))
      (hs : Steps b1 ws b') : Steps b (i :: ws) b'
  | assertProduct {b b1 b' : Builder p} {x y z : Expression p} {ws : List Wire}
      (h : B.assertProduct x y z b = some ((), b1)) (hs : Steps b1 ws b') : Steps b ws b'
  | generator {b b1 b' : Builder p} {d : List Wire} {f : WireValues p → Option (WireValues p)}
      {ws : List Wire} (h : B.generator d f b = some ((), b1)) (hs : Steps b1 ws b') : Steps b ws b'

theorem Steps.append {b b1 b2 : Builder p} {ws us : List Wire} (h : Steps b ws b1)
    (h' : Steps b1 us b2) : Steps b (ws ++ us) b2 := by
  induction h with
  | nil => exact h'
  | wire h _ ih => exact .wire h (ih h')
  | assertProduct h _ ih => exact .assertProduct h (ih h')
  | generator h _ ih => exact .generator h (ih h')

/-- Running any program, in particular any gadget of the library, is such a sequence of calls. -/
theorem Prog.steps {α : Type} {m : B p α} (hm : Prog m) :
    ∀ {b b' : Builder p} {a : α}, m b = some (a, b') → ∃ ws, Steps b ws b' := by
  induction hm with
  | pure a =>
    intro b b' a' h
    rw [B.pure_eq] at h
    obtain ⟨_, rfl⟩ := Prod.ext_iff.1 (Option.some.inj h)
    exact ⟨[], .nil _⟩
  | bind _ _ ih1 ih2 =>
    intro b b' a' h
    obtain ⟨x, b1, h1, h2⟩ := B.bind_run h
    obtain ⟨ws, hws⟩ := ih1 h1
    obtain ⟨us, hus⟩ := ih2 x h2
    exact ⟨ws ++ us, hws.append hus⟩
  | wire => intro b b' a h; exact ⟨[a], .wire h (.nil _)⟩
  | assertProduct x y z => intro b b' a h; exact ⟨[], .assertProduct h (.nil _)⟩
  | generator d f hf => intro b b' a h; exact ⟨[], .generator h (.nil _)⟩
  | panic => intro b b' a h; exact absurd h (by simp [B.panic])

theorem Steps.range {b b' : Builder p} {ws : List Wire} (h : Steps b ws b') :
    ws = List.range' b.nextWireIndex ws.length ∧
      b'.nextWireIndex = b.nextWireIndex + ws.length := by
  induction h with
  | nil => simp
  | wire h _ ih =>
    obtain ⟨rfl, rfl⟩ := Prod.ext_iff.1 (Option.some.inj h)
    obtain ⟨h1, h2⟩ := ih
    refine ⟨?_, ?_⟩
    · rw [List.length_cons, List.range'_succ]
      exact congrArg _ h1
    · rw [h2]; simp; omega
  | assertProduct h _ ih =>
    obtain ⟨_, rfl⟩ := Prod.ext_iff.1 (Option.some.inj h)
    exact ih
  | generator h _ ih =>
    obtain ⟨_, rfl⟩ := Prod.ext_iff.1 (Option.some.inj h)
    exact ih

/-- C18: all wires handed out by one builder, whatever is done with it (by the library's gadgets,
which are programs by `Lemmas/Programs.lean`, or by client code), are different from each other and
from the constant wire. -/
theorem C18_fresh_wires {α : Type} {m : B p α} (hm : Prog m) {a : α} {b' : Builder p}
    (h : m Builder.new = some (a, b')) :
    (∃ ws, Steps Builder.new ws b') ∧
    ∀ ws, Steps (p := p) Builder.new ws b' → ws.Nodup ∧ ONE ∉ ws := by
  refine ⟨hm.steps h, fun ws hs => ?_⟩
  obtain ⟨h1, _⟩ := hs.range
  rw [h1]
  refine ⟨List.nodup_range', ?_⟩
  rw [List.mem_range'_1]
  simp [Builder.new]

/-- C18, between two points in time: a wire obtained after any program has run is different from
the constant wire and from every wire obtained before. -/
theorem C18_fresh_later {α : Type} {m : B p α} (hm : Prog m) {a : α} {b0 b b1 b2 : Builder p}
    {i j : Wire} {us : List Wire} (h0 : Steps Builder.new us b0) (hi : B.wire b0 = some (i, b))
    (h : m b = some (a, b1)) (hj : B.wire b1 = some (j, b2)) :
    j ≠ i ∧ j ∉ us ∧ j ≠ ONE ∧ i ≠ ONE := by
  obtain ⟨ws, hws⟩ := hm.steps h
  have hs := h0.append (.wire hi (hws.append (.wire hj (.nil _))))
  obtain ⟨h1, _⟩ := hs.range
  have nd : (us ++ i :: (ws ++ [j])).Nodup := by rw [h1]; exact List.nodup_range'
  have one : ONE ∉ us ++ i :: (ws ++ [j]) := by
    rw [h1, List.mem_range'_1]; simp [Builder.new]
  simp only [List.nodup_append, List.nodup_cons, List.mem_append, List.mem_singleton] at nd
  simp only [List.mem_append, List.mem_cons, not_or] at one
  refine ⟨fun h => nd.2.1.1 (Or.inr h.symm), fun h => ?_, fun h => one.2.2.2.1 h.symm,
    fun h => one.2.1 h.symm⟩
  exact nd.2.2 j h j (by simp) rfl

/-- The `k`-th wire index handed out by a builder with the 32-bit counter of the code
(src/gadget_builder.rs:13, 31-35), in a build where `+=` wraps. -/
def counter32 : ℕ → ℕ
  | 0 => 1
  | k + 1 => (counter32 k + 1) % 2 ^ 32

theorem counter32_eq (k : ℕ) : counter32 k = (k + 1) % 2 ^ 32 := by
  induction k with
  | zero => rfl
  | succ k ih => rw [counter32, ih, Nat.mod_add_mod]

/-- C18, the bound: the first 2^32 - 1 wires of the 32-bit counter are those of the model; the
next one is the constant wire (in a build without overflow checks; otherwise that allocation
panics). -/
theorem C18_counter_limit :
    (∀ k < 2 ^ 32 - 1, counter32 k = k + 1 ∧ counter32 k ≠ ONE) ∧
    (∀ j < 2 ^ 32 - 1, ∀ k < 2 ^ 32 - 1, counter32 j = counter32 k → j = k) ∧
    counter32 (2 ^ 32 - 1) = ONE := by
  have h : ∀ k < 2 ^ 32 - 1, counter32 k = k + 1 := by
    intro k hk
    rw [counter32_eq, Nat.mod_eq_of_lt (by omega)]
  refine ⟨fun k hk => ⟨h k hk, by rw [h k hk]; exact Nat.succ_ne_zero k⟩, ?_, ?_⟩
  · intro j hj k hk he
    rw [h j hj, h k hk] at he
    omega
  · rw [counter32_eq]; rfl

/-- An inverse and a product of wires over the field of order 13. -/
example : ∃ a b', (do let x ← B.wire; let y ← B.inverse (Expression.ofWire x)
                      B.product y (Expression.ofWire x) : B 13 _) Builder.new = some (a, b') ∧
    b'.nextWireIndex = 4 :=
  ⟨_, _, rfl, rfl⟩

/-! ## C23 -/

/-- C23: any program only appends constraints and generators, and only allocates new wires. -/
theorem C23_appends {α : Type} {m : B p α} (hm : Prog m) :
    ∀ {b b' : Builder p} {a : α}, m b = some (a, b') →
      b.nextWireIndex ≤ b'.nextWireIndex ∧ b.constraints <+: b'.constraints ∧
      ∃ gs, b'.witnessGenerators = b.witnessGenerators ++ gs ∧
        ∀ g ∈ gs, KeepsValues g.generate := by
  induction hm with
  | pure a =>
    intro b b' a' h
    rw [B.pure_eq] at h
    obtain ⟨_, rfl⟩ := Prod.ext_iff.1 (Option.some.inj h)
    exact ⟨le_refl _, List.prefix_rfl, [], by simp, by simp⟩
  | bind _ _ ih1 ih2 =>
    intro b b' a' h
    obtain ⟨x, b1, h1, h2⟩ := B.bind_run h
    obtain ⟨l1, c1, gs, g1, k1⟩ := ih1 h1
    obtain ⟨l2, c2, hs, g2, k2⟩ := ih2 x h2
    refine ⟨le_trans l1 l2, c1.trans c2, gs ++ hs, by rw [g2, g1, List.append_assoc], ?_⟩
    intro g hg
    rcases List.mem_append.1 hg with h | h
    · exact k1 g h
    · exact k2 g h
  | wire =>
    intro b b' a h
    obtain ⟨_, rfl⟩ := Prod.ext_iff.1 (Option.some.inj h)
    exact ⟨Nat.le_succ _, List.prefix_rfl, [], by simp, by simp⟩
  | assertProduct x y z =>
    intro b b' a h
    obtain ⟨_, rfl⟩ := Prod.ext_iff.1 (Option.some.inj h)
    exact ⟨le_refl _, List.prefix_append _ _, [], by simp, by simp⟩
  | generator d f hf =>
    intro b b' a h
    obtain ⟨_, rfl⟩ := Prod.ext_iff.1 (Option.some.inj h)
    refine ⟨le_refl _, List.prefix_rfl, [⟨d, f⟩], rfl, ?_⟩
    intro g hg
    rw [List.mem_singleton] at hg
    subst hg; exact hf
  | panic => intro b b' a h; exact absurd h (by simp [B.panic])

/-- C23: what a call `m` enforces stays enforced after any later program. -/
theorem C23_stays_enforced {α β : Type} {m : B p α} {Q : α → Assign p → Prop} (hm : Enforces m Q)
    {k : B p β} (hk : Prog k) {b b1 b2 : Builder p} {a : α} {c : β} (h1 : m b = some (a, b1))
    (h2 : k b1 = some (c, b2)) (w : Assign p) (hw : Satisfies w b2.constraints) : Q a w := by
  obtain ⟨_, hpre, _⟩ := C23_appends hk h2
  exact (hm b a b1 h1 w ⟨hw.one, fun c hc => hw.all c (hpre.subset hc)⟩).2

namespace Exec

/-- Invariant of a run in which some generators belong to an honest circuit and the others do not
write its wires. -/
theorem Runs.honest {n : ℕ} {W : Assign p} {v v' : WireValues p} {σ : List (WitnessGenerator p)}
    (h : Runs v σ v') : ∀ (A : Ann p) (R : List (WitnessGenerator p)), Inv n W A v →
    List.Perm σ (A.map (·.1) ++ R) →
    (∀ g ∈ R, ∀ u u', g.generate u = some u' → ∀ i < n, u' i = u i) →
    ∀ i < n, v' i = some (W i) := by
  induction h with
  | nil v =>
    intro A R hI hp _ i hi
    have hA : A = [] := by
      have h := List.Perm.eq_nil hp.symm
      simp at h
      exact h.1
    subst hA
    exact hI.done i hi (by simp [outsOf])
  | @cons v v1 v' g σ hin hg h ih =>
    intro A R hI hp hR
    have hmem : g ∈ A.map (·.1) ++ R := hp.subset (by simp)
    rcases List.mem_append.1 hmem with hm | hm
    · obtain ⟨e, he, rfl⟩ := List.mem_map.1 hm
      obtain ⟨K, A', rfl⟩ := List.append_of_mem he
      obtain ⟨v2, h1, h2, _⟩ := hI.step ((containsAll_iff _ _).2 hin)
      rw [hg] at h1
      obtain rfl := Option.some.inj h1
      refine ih (K ++ A') R h2 ?_ hR
      have : List.Perm (e.1 :: σ) (e.1 :: ((K ++ A').map (·.1) ++ R)) := by
        refine hp.trans ?_
        simp only [List.map_append, List.map_cons, List.append_assoc, List.cons_append]
        exact List.perm_middle
      exact this.cons_inv
    · obtain ⟨R1, R2, rfl⟩ := List.append_of_mem hm
      have hold := hR g hm v v1 hg
      refine ih A (R1 ++ R2) ?_ ?_ (fun g' hg' => hR g' ?_)
      · refine ⟨hI.ok, hI.nodup, hI.bound, ?_, ?_⟩
        · intro i hi hni; rw [hold i hi]; exact hI.done i hi hni
        · intro o ho; rw [hold o (hI.bound o ho)]; exact hI.todo o ho
      · have : List.Perm (g :: σ) (g :: (A.map (·.1) ++ (R1 ++ R2))) := by
          refine hp.trans ?_
          rw [← List.append_assoc, ← List.append_assoc]
          exact List.perm_middle
        exact this.cons_inv
      · rcases List.mem_append.1 hg' with h | h <;> simp [h]

end Exec

open Exec in
/-- C23: whatever an earlier part of a circuit computes in an honest execution is still computed,
with the same values, after arbitrary further calls whose generators write only wires of their own:
if the whole gadget's `execute` returns, the wires of the earlier part carry their honest values. -/
theorem C23_still_computed (s : Hon p) {α : Type} {k : B p α} (hk : Prog k) {c : α}
    {b2 : Builder p} (h2 : k s.b = some (c, b2))
    (hown : ∀ g ∈ b2.witnessGenerators.drop s.b.witnessGenerators.length,
      ∀ u u', g.generate u = some u' → ∀ i < s.next, u' i = u i)
    (v v' : WireValues p) (ok : Bool) (hv : s.Inputs v) (h : b2.build.execute v = some (v', ok)) :
    ∀ i < s.next, v' i = some (s.W i) := by
  obtain ⟨_, _, gs, hgs, _⟩ := C23_appends hk h2
  rw [hgs, List.drop_left] at hown
  obtain ⟨σ, hσ, hrun⟩ := C21_exactly_once _ v v' ok h
  obtain ⟨A, hA1, hA2, hA3⟩ := s.ok.generators
  have hperm : List.Perm σ (A.map (·.1) ++ gs) := by
    refine hσ.trans ?_
    change List.Perm b2.witnessGenerators _
    rw [hgs, hA1]
  have hmem : ∀ i, i ∈ outsOf A ∨ i ∈ s.D ↔ 1 ≤ i ∧ i < s.next := by
    intro i
    have := hA3.mem_iff (a := i)
    rw [List.mem_append, List.mem_range'_1] at this
    rw [show outsOf A = (A.map (·.2)).flatten from rfl, this]
    have := s.pos
    simp only [Hon.next] at this ⊢
    omega
  have hnd : (outsOf A ++ s.D).Nodup := hA3.nodup_iff.2 List.nodup_range'
  rw [List.nodup_append] at hnd
  refine Runs.honest hrun A gs ⟨hA2, hnd.1, ?_, ?_, ?_⟩ hperm hown
  · intro o ho; exact ((hmem o).1 (Or.inl ho)).2
  · intro i hi hni
    by_cases h0 : i = 0
    · subst h0; rw [hv.1, s.one]
    · rcases (hmem i).2 ⟨by omega, hi⟩ with h | h
      · exact absurd h hni
      · exact hv.2.1 i h
  · intro o ho
    have hb := (hmem o).1 (Or.inl ho)
    exact hv.2.2 o hb.2 (by intro h; rw [h] at hb; exact absurd hb.1 (by decide)) (fun hD => hnd.2.2 o ho o hD rfl)

/-- C23: honest calls compose: if `m` computes `Q`, and `f` computes `R` in whatever state `m`
leads to, then `m` followed by `f` computes `R`, and the wires known after `m` keep their values. -/
theorem C23_composes {α β : Type} {m : B p α} {f : α → B p β} {s : Hon p}
    {Q : α → Hon p → Prop} {R : α → β → Hon p → Prop} (hm : Computes m s Q)
    (hf : ∀ a s', s.Le s' → Q a s' → Computes (f a) s' (R a)) :
    Computes (m >>= f) s fun z s2 => ∃ a s1, Q a s1 ∧ s1.Le s2 ∧ R a z s2 := by
  refine Comp.bind hm fun a s1 l1 ⟨h1, _, h3⟩ => ?_
  exact Comp.mono (hf a s1 l1 h3) fun z s2 l2 ⟨g1, g2, g3⟩ => ⟨by rw [g1, h1], g2, a, s1, h3, l2, g3⟩

/-- An honest state over the field of order 13: one external wire with value 5. -/
def honest5 : Hon 13 where
  b := { (Builder.new : Builder 13) with nextWireIndex := 2 }
  D := [1]
  W := fun i => if i = 1 then 5 else 1
  ok := by
    refine ⟨rfl, by decide, by simp [Builder.new], [], rfl, by simp, ?_⟩
    simp

example : Computes (do let y ← B.inverse (Expression.ofWire 1)
                       B.product y y) honest5 (fun _ _ => True) := by
  refine (C23_composes (Q := fun z s => z.Scoped s.next) (R := fun _ _ _ => True) ?_ ?_).mono
    fun _ _ _ _ => trivial
  · exact ((Comp.inverse (by decide) (.ofWire (by decide)) (by
      rw [Expression.eval_ofWire]; decide)).mono
        fun z s _ h => ⟨h.1, h.2.1⟩).computes
  · intro a s _ h
    exact ((Comp.product h h).mono fun z s _ h => ⟨h.1, trivial⟩).computes

end R1CS
