import Verif.Spec.Passes
import Verif.Lemmas.Programs
import Verif.Lemmas.Tidy

/-!
# Timetables of generators
-/

set_option linter.unusedSectionVars false

namespace R1CS

variable {p : ℕ} [hp : Fact p.Prime] {α β : Type}

/-- The wires with a value. -/
def Dom (v : WireValues p) : Set Wire := {i | (v i).isSome}

omit hp in
theorem KeepsValues.dom {f : WireValues p → Option (WireValues p)} (h : KeepsValues f)
    {v v' : WireValues p} (hv : f v = some v') : Dom v ⊆ Dom v' := by
  intro i hi
  obtain ⟨x, hx⟩ := Option.isSome_iff_exists.1 hi
  exact Option.isSome_iff_exists.2 ⟨x, h v v' hv i x hx⟩

/-! ## Passes -/

namespace Timetable

omit hp in
theorem mono {K L : Set Wire} {A : List (Slot p)} (h : Timetable K A) (hKL : K ⊆ L) :
    Timetable L A := fun B e C hA i hi => (h B e C hA i hi).imp_left fun h => hKL h

omit hp in
/-- A generator which has run can be taken out. -/
theorem remove {K L : Set Wire} {B C : List (Slot p)} {e : Slot p}
    (h : Timetable K (B ++ e :: C)) (hKL : K ⊆ L) (he : ∀ o ∈ e.outs, o ∈ L) :
    Timetable L (B ++ C) := by
  intro B' f C' hA i hi
  rcases List.append_eq_append_iff.1 hA with ⟨l, h1, h2⟩ | ⟨l, h1, h2⟩
  · -- `B' = B ++ l`, `C = l ++ f :: C'`
    subst h1 h2
    rcases h (B ++ e :: l) f C' (by simp) i hi with h | ⟨g, hg, h3, h4⟩ | ⟨g, hg, h3, h4⟩
    · exact .inl (hKL h)
    · rw [List.mem_append, List.mem_cons] at hg
      rcases hg with hg | rfl | hg
      · exact .inr (.inl ⟨g, by simp [hg], h3, h4⟩)
      · exact .inl (he i h3)
      · exact .inr (.inl ⟨g, by simp [hg], h3, h4⟩)
    · exact .inr (.inr ⟨g, hg, h3, h4⟩)
  · cases l with
    | nil =>
      rw [List.append_nil] at h1
      rw [List.nil_append] at h2
      subst h1 h2
      rcases h (B ++ [e]) f C' (by simp) i hi with h | ⟨g, hg, h3, h4⟩ | ⟨g, hg, h3, h4⟩
      · exact .inl (hKL h)
      · rw [List.mem_append, List.mem_singleton] at hg
        rcases hg with hg | rfl
        · exact .inr (.inl ⟨g, hg, h3, h4⟩)
        · exact .inl (he i h3)
      · exact .inr (.inr ⟨g, hg, h3, h4⟩)
    | cons f' l =>
      rw [List.cons_append, List.cons.injEq] at h2
      obtain ⟨rfl, rfl⟩ := h2
      subst h1
      rcases h B' f (l ++ e :: C) (by simp) i hi with h | ⟨g, hg, h3, h4⟩ | ⟨g, hg, h3, h4⟩
      · exact .inl (hKL h)
      · exact .inr (.inl ⟨g, hg, h3, h4⟩)
      · rw [List.mem_append, List.mem_cons] at hg
        rcases hg with hg | rfl | hg
        · exact .inr (.inr ⟨g, by simp [hg], h3, h4⟩)
        · exact .inl (he i h3)
        · exact .inr (.inr ⟨g, by simp [hg], h3, h4⟩)

omit hp in
/-- Consecutive pieces of code. -/
theorem append {K : Set Wire} {A A' : List (Slot p)} (h : Timetable K A)
    (h' : Timetable (K ∪ Prompt A) A') : Timetable K (A ++ A') := by
  intro B e C hA i hi
  rcases List.append_eq_append_iff.1 hA with ⟨l, h1, h2⟩ | ⟨l, h1, h2⟩
  · subst h1 h2
    rcases h' l e C rfl i hi with (h | ⟨f, hf, h3, h4⟩) | ⟨f, hf, h3, h4⟩ | ⟨f, hf, h3, h4⟩
    · exact .inl h
    · exact .inr (.inl ⟨f, by simp [hf], h4, by omega⟩)
    · exact .inr (.inl ⟨f, by simp [hf], h3, h4⟩)
    · exact .inr (.inr ⟨f, hf, h3, h4⟩)
  · cases l with
    | nil =>
      rw [List.append_nil] at h1
      rw [List.nil_append] at h2
      subst h1 h2
      rcases h' [] e C rfl i hi with (h | ⟨f, hf, h3, h4⟩) | ⟨f, hf, h3, h4⟩ | ⟨f, hf, h3, h4⟩
      · exact .inl h
      · exact .inr (.inl ⟨f, hf, h4, by omega⟩)
      · cases hf
      · exact .inr (.inr ⟨f, hf, h3, h4⟩)
    | cons f' l =>
      rw [List.cons_append, List.cons.injEq] at h2
      obtain ⟨rfl, rfl⟩ := h2
      subst h1
      rcases h B e l rfl i hi with h | ⟨f, hf, h3, h4⟩ | ⟨f, hf, h3, h4⟩
      · exact .inl h
      · exact .inr (.inl ⟨f, hf, h3, h4⟩)
      · exact .inr (.inr ⟨f, by simp [hf], h3, h4⟩)

omit hp in
/-- A pass leaves a timetable, in which no generator runs in the pass just made. -/
theorem pass {t : ℕ} : ∀ (A P : List (Slot p)) (v : WireValues p) (rest : List (WitnessGenerator p))
    (v' : WireValues p) (fl : Bool), (∀ e ∈ A, e.Sets) → Timetable (Dom v) (P ++ A) →
    (∀ e ∈ P, t < e.time) → (∀ e ∈ A, t ≤ e.time) →
    Gadget.pass (A.map (·.gen)) v = some (rest, v', fl) →
    ∃ A', A'.Sublist A ∧ rest = A'.map (·.gen) ∧ Timetable (Dom v') (P ++ A') ∧
      (∀ e ∈ A', t < e.time) ∧ (fl = false → A' = A) := by
  intro A
  induction A with
  | nil =>
    intro P v rest v' fl _ hT hP _ h
    simp only [List.map_nil, Gadget.pass, Option.some.injEq, Prod.mk.injEq] at h
    obtain ⟨rfl, rfl, rfl⟩ := h
    exact ⟨[], List.Sublist.refl _, rfl, hT, by simp, fun _ => rfl⟩
  | cons e A ih =>
    intro P v rest v' fl hS hT hP hA h
    simp only [List.map_cons, Gadget.pass] at h
    split at h
    · obtain ⟨v1, h1, h⟩ := Option.bind_eq_some_iff.1 h
      obtain ⟨r, h2, h⟩ := Option.bind_eq_some_iff.1 h
      obtain ⟨r1, r2, r3⟩ := r
      simp only [Option.pure_def, Option.some.injEq, Prod.mk.injEq] at h
      obtain ⟨rfl, rfl, rfl⟩ := h
      have hs := hS e (by simp)
      obtain ⟨A', k1, k2, k3, k4, _⟩ := ih P v1 _ _ _ (fun f hf => hS f (by simp [hf]))
        (hT.remove (hs.1.dom h1) fun o ho => hs.2 v v1 h1 o ho) hP
        (fun f hf => hA f (by simp [hf])) h2
      exact ⟨A', k1.cons _, k2, k3, k4, by simp⟩
    · next hc =>
      obtain ⟨r, h2, h⟩ := Option.bind_eq_some_iff.1 h
      obtain ⟨r1, r2, r3⟩ := r
      simp only [Option.pure_def, Option.some.injEq, Prod.mk.injEq] at h
      obtain ⟨rfl, rfl, rfl⟩ := h
      have he : t < e.time := by
        by_contra hlt
        have het : e.time = t := le_antisymm (by omega) (hA e (by simp))
        refine hc ?_
        unfold WireValues.containsAll
        rw [List.all_eq_true]
        intro i hi
        rcases hT P e A rfl i hi with h | ⟨f, hf, _, h4⟩ | ⟨f, hf, _, h4⟩
        · exact h
        · have := hP f hf
          omega
        · have := hA f (by simp [hf])
          omega
      obtain ⟨A', k1, k2, k3, k4, k5⟩ := ih (P ++ [e]) v _ _ _ (fun f hf => hS f (by simp [hf]))
        (by simpa using hT) (by
          intro f hf
          rcases List.mem_append.1 hf with hf | hf
          · exact hP f hf
          · rw [List.mem_singleton] at hf
            rw [hf]; exact he)
        (fun f hf => hA f (by simp [hf])) h2
      refine ⟨e :: A', k1.cons₂ _, by simp [k2], by simpa using k3, ?_, fun hf => by rw [k5 hf]⟩
      intro f hf
      rcases List.mem_cons.1 hf with rfl | hf
      · exact he
      · exact k4 f hf

omit hp in
/-- All generators run in the passes of the timetable, unless a closure panics. -/
theorem passes {d : ℕ} : ∀ (n t : ℕ) (fuel : ℕ) (A : List (Slot p)) (v : WireValues p)
    (rest : List (WitnessGenerator p)) (v' : WireValues p), d + 1 - t = n → (∀ e ∈ A, e.Sets) →
    Timetable (Dom v) A → (∀ e ∈ A, t ≤ e.time ∧ e.time ≤ d) →
    Gadget.loop fuel (A.map (·.gen)) v = some (rest, v') →
    rest = [] ∧ ∃ k ≤ n, InPasses k (A.map (·.gen)) v v' := by
  intro n
  induction n with
  | zero =>
    intro t fuel A v rest v' hn hS hT hA h
    have : A = [] := by
      rcases A with _ | ⟨e, A⟩
      · rfl
      · have := hA e (by simp)
        omega
    subst this
    cases fuel with
    | zero => cases h
    | succ fuel =>
      simp only [List.map_nil, Gadget.loop, Gadget.pass, Option.bind_eq_bind, Option.bind_some,
        Bool.false_eq_true, if_false, Option.pure_def, Option.some.injEq, Prod.mk.injEq] at h
      obtain ⟨rfl, rfl⟩ := h
      exact ⟨rfl, 0, le_refl _, .done v⟩
  | succ n ih =>
    intro t fuel A v rest v' hn hS hT hA h
    by_cases hex : ∃ e ∈ A, e.time = t
    · cases fuel with
      | zero => cases h
      | succ fuel =>
        unfold Gadget.loop at h
        obtain ⟨r, h1, h⟩ := Option.bind_eq_some_iff.1 h
        obtain ⟨r1, r2, r3⟩ := r
        obtain ⟨A', k1, rfl, k3, k4, k5⟩ := hT.pass A [] v r1 r2 r3 hS (by simp)
          (fun e he => (hA e he).1) h1
        cases r3 with
        | false =>
          obtain ⟨e, he, het⟩ := hex
          rw [k5 rfl] at k4
          have := k4 e he
          omega
        | true =>
          dsimp only at h
          rw [if_pos rfl] at h
          obtain ⟨g1, k, g2, g3⟩ := ih (t + 1) fuel A' r2 rest v' (by omega)
            (fun e he => hS e (k1.mem he)) k3
            (fun e he => ⟨k4 e he, (hA e (k1.mem he)).2⟩) h
          exact ⟨g1, k + 1, by omega, .pass h1 g3⟩
    · obtain ⟨g1, k, g2, g3⟩ := ih (t + 1) fuel A v rest v' (by omega) hS hT
        (fun e he => ⟨by
          have h1 := (hA e he).1
          have h2 : e.time ≠ t := fun h => hex ⟨e, he, h⟩
          omega, (hA e he).2⟩) h
      exact ⟨g1, k, by omega, g3⟩

end Timetable

/-! ## Stretches of generators -/

omit hp in
/-- The generators added between two states of a builder have a timetable. -/
def Stretch (d : ℕ) (K : Set Wire) (b b' : Builder p) (Q : Set Wire → Prop) : Prop :=
  ∃ A : List (Slot p), b'.witnessGenerators = b.witnessGenerators ++ A.map (·.gen) ∧
    (∀ e ∈ A, e.Sets ∧ e.time ≤ d) ∧ Timetable K A ∧ Q (K ∪ Prompt A)

namespace Stretch

variable {d : ℕ} {K : Set Wire}

omit hp in
theorem prompt_append {A A' : List (Slot p)} : Prompt (A ++ A') = Prompt A ∪ Prompt A' := by
  ext i
  simp only [Prompt, Set.mem_setOf_eq, Set.mem_union, List.mem_append]
  constructor
  · rintro ⟨f, h | h, h'⟩
    · exact .inl ⟨f, h, h'⟩
    · exact .inr ⟨f, h, h'⟩
  · rintro (⟨f, h, h'⟩ | ⟨f, h, h'⟩)
    · exact ⟨f, .inl h, h'⟩
    · exact ⟨f, .inr h, h'⟩

omit hp in
theorem trans {b b1 b2 : Builder p} {Q R : Set Wire → Prop} (h : Stretch d K b b1 Q)
    (h' : ∀ K', K ⊆ K' → Q K' → Stretch d K' b1 b2 R) : Stretch d K b b2 R := by
  obtain ⟨A, k1, k2, k3, k4⟩ := h
  obtain ⟨A', l1, l2, l3, l4⟩ := h' _ Set.subset_union_left k4
  refine ⟨A ++ A', by rw [l1, k1, List.append_assoc, List.map_append], ?_, k3.append l3, ?_⟩
  · intro e he
    rcases List.mem_append.1 he with he | he
    · exact k2 e he
    · exact l2 e he
  · rw [prompt_append, ← Set.union_assoc]
    exact l4

omit hp in
theorem mono {b b' : Builder p} {Q R : Set Wire → Prop} (h : Stretch d K b b' Q)
    (hQ : ∀ K', K ⊆ K' → Q K' → R K') : Stretch d K b b' R := by
  obtain ⟨A, h1, h2, h3, h4⟩ := h
  exact ⟨A, h1, h2, h3, hQ _ Set.subset_union_left h4⟩

omit hp in
theorem silent {b b' : Builder p} {Q : Set Wire → Prop}
    (h : b'.witnessGenerators = b.witnessGenerators) (hQ : Q K) : Stretch d K b b' Q := by
  refine ⟨[], by simp [h], by simp, ?_, ?_⟩
  · intro B e C hA
    simp at hA
  · have : K ∪ Prompt ([] : List (Slot p)) = K := by simp [Prompt]
    rw [this]; exact hQ

omit hp in
/-- A generator on whose outputs the generators before it depend. -/
theorem wait {b b1 b2 : Builder p} {Q : Set Wire → Prop} {i : List Wire}
    {f : WireValues p → Option (WireValues p)} (outs : List Wire)
    (h : Stretch d (K ∪ {w | w ∈ outs}) b b1 Q)
    (hi : ∀ w ∈ i, w ∈ K) (hk : KeepsValues f)
    (hs : ∀ v v', f v = some v' → ∀ o ∈ outs, (v' o).isSome)
    (h2 : b2.witnessGenerators = b1.witnessGenerators ++ [⟨i, f⟩]) :
    Stretch (d + 1) K b b2 fun K' => ∀ o ∈ outs, o ∈ K' := by
  obtain ⟨A, k1, k2, k3, _⟩ := h
  set g : Slot p := ⟨⟨i, f⟩, outs, 0⟩ with hg
  set A' : List (Slot p) := A.map fun e => ⟨e.gen, e.outs, e.time + 1⟩ with hA'
  refine ⟨A' ++ [g], by simp [h2, k1, hA', hg, Function.comp_def], ?_, ?_, ?_⟩
  · intro e he
    rcases List.mem_append.1 he with he | he
    · obtain ⟨e', he', rfl⟩ := List.mem_map.1 he
      exact ⟨(k2 e' he').1, by have := (k2 e' he').2; simpa using this⟩
    · rw [List.mem_singleton] at he
      subst he
      exact ⟨⟨hk, hs⟩, Nat.zero_le _⟩
  · intro B e C hA w hw
    rcases List.append_eq_append_iff.1 hA with ⟨l, e1, e2⟩ | ⟨l, e1, e2⟩
    · rcases l with _ | ⟨e', l⟩
      · simp only [List.nil_append, List.cons.injEq] at e2
        obtain ⟨rfl, rfl⟩ := e2
        exact .inl (hi w hw)
      · simp at e2
    · rcases l with _ | ⟨e', l⟩
      · simp only [List.nil_append, List.cons.injEq] at e2
        obtain ⟨rfl, rfl⟩ := e2
        exact .inl (hi w hw)
      · rw [List.cons_append, List.cons.injEq] at e2
        obtain ⟨rfl, rfl⟩ := e2
        rw [hA', List.map_eq_append_iff] at e1
        obtain ⟨B0, C0, rfl, rfl, e3⟩ := e1
        obtain ⟨e0, C1, rfl, rfl, rfl⟩ := List.map_eq_cons_iff.1 e3
        rcases k3 B0 e0 C1 rfl w hw with (h | h) | ⟨g', hg', h3, h4⟩ | ⟨g', hg', h3, h4⟩
        · exact .inl h
        · exact .inr (.inr ⟨g, by simp, h, by simp [hg]⟩)
        · exact .inr (.inl ⟨_, List.mem_map.2 ⟨g', hg', rfl⟩, h3, by simpa using h4⟩)
        · exact .inr (.inr ⟨_, List.mem_append_left _ (List.mem_map.2 ⟨g', hg', rfl⟩), h3,
            by simpa using h4⟩)
  · intro o ho
    exact .inr ⟨g, by simp, rfl, ho⟩


end Stretch

/-! ## Pieces of code -/

namespace Timely

variable {d : ℕ} {K : Set Wire}

omit hp in
theorem mono {m : B p α} {Q R : α → Set Wire → Prop} (hm : Timely d K m Q)
    (h : ∀ a K', K ⊆ K' → Q a K' → R a K') : Timely d K m R := by
  intro b a b' hb
  obtain ⟨A, h1, h2, h3, h4⟩ := hm b a b' hb
  exact ⟨A, h1, h2, h3, h a _ Set.subset_union_left h4⟩

omit hp in
theorem later {d' : ℕ} {m : B p α} {Q : α → Set Wire → Prop} (hm : Timely d K m Q) (h : d ≤ d') :
    Timely d' K m Q := by
  intro b a b' hb
  obtain ⟨A, h1, h2, h3, h4⟩ := hm b a b' hb
  exact ⟨A, h1, fun e he => ⟨(h2 e he).1, le_trans (h2 e he).2 h⟩, h3, h4⟩

omit hp in
/-- No generators. -/
theorem silent {m : B p α} {Q : α → Set Wire → Prop} (h : ∀ b a b', m b = some (a, b') →
    b'.witnessGenerators = b.witnessGenerators ∧ Q a K) : Timely d K m Q := by
  intro b a b' hb
  obtain ⟨h1, h2⟩ := h b a b' hb
  refine ⟨[], by simp [h1], by simp, ?_, ?_⟩
  · intro B e C hA
    simp at hA
  · have : K ∪ Prompt ([] : List (Slot p)) = K := by simp [Prompt]
    rw [this]; exact h2

omit hp in
theorem pure {a : α} {Q : α → Set Wire → Prop} (h : Q a K) : Timely (p := p) d K (pure a) Q :=
  silent fun b a' b' hb => by
    obtain ⟨rfl, rfl⟩ := Prod.ext_iff.1 (Option.some.inj hb)
    exact ⟨rfl, h⟩

theorem bind {m : B p α} {f : α → B p β} {Q : α → Set Wire → Prop} {R : β → Set Wire → Prop}
    (hm : Timely d K m Q) (hf : ∀ a K', K ⊆ K' → Q a K' → Timely d K' (f a) R) :
    Timely d K (m >>= f) R := by
  intro b z b' h
  obtain ⟨a, b1, h1, h2⟩ := B.bind_run h
  exact Stretch.trans (hm b a b1 h1) fun K' hK h => hf a K' hK h b1 z b' h2

omit hp in
theorem panic {Q : α → Set Wire → Prop} : Timely (p := p) d K B.panic Q :=
  fun _ _ _ h => absurd h (by simp [B.panic])

omit hp in
theorem ofOption (o : Option α) :
    Timely (p := p) d K (B.ofOption o) fun a K' => o = some a ∧ K' = K :=
  silent fun b a b' hb => by
    unfold B.ofOption at hb
    obtain ⟨x, rfl, h2⟩ := Option.map_eq_some_iff.1 hb
    obtain ⟨rfl, rfl⟩ := Prod.ext_iff.1 h2
    exact ⟨rfl, rfl, rfl⟩

omit hp in
theorem require (c : Prop) [Decidable c] :
    Timely (p := p) d K (B.require c) fun _ K' => c ∧ K' = K := by
  unfold B.require
  split
  · next h => exact pure ⟨h, rfl⟩
  · exact panic

omit hp in
theorem ite {c : Prop} [Decidable c] {m k : B p α} {Q : α → Set Wire → Prop}
    (hm : c → Timely d K m Q) (hk : ¬ c → Timely d K k Q) :
    Timely d K (if c then m else k) Q := by
  split
  · next h => exact hm h
  · next h => exact hk h

omit hp in
theorem wire : Timely (p := p) d K B.wire fun _ K' => K' = K :=
  silent fun b a b' hb => by
    obtain ⟨rfl, rfl⟩ := Prod.ext_iff.1 (Option.some.inj hb)
    exact ⟨rfl, rfl⟩

omit hp in
theorem assertProduct (x y z : Expression p) :
    Timely d K (B.assertProduct x y z) fun _ K' => K' = K :=
  silent fun b a b' hb => by
    obtain ⟨_, rfl⟩ := Prod.ext_iff.1 (Option.some.inj hb)
    exact ⟨rfl, rfl⟩

omit hp in
/-- A generator whose inputs have values. -/
theorem generator {i : List Wire} {f : WireValues p → Option (WireValues p)} (outs : List Wire)
    (hi : ∀ w ∈ i, w ∈ K) (hk : KeepsValues f)
    (hs : ∀ v v', f v = some v' → ∀ o ∈ outs, (v' o).isSome) :
    Timely d K (B.generator i f) fun _ K' => ∀ o ∈ outs, o ∈ K' := by
  intro b a b' hb
  obtain ⟨_, rfl⟩ := Prod.ext_iff.1 (Option.some.inj hb)
  refine ⟨[⟨⟨i, f⟩, outs, 0⟩], by simp, ?_, ?_, ?_⟩
  · intro e he
    rw [List.mem_singleton] at he
    subst he
    exact ⟨⟨hk, hs⟩, Nat.zero_le _⟩
  · intro B e C hA
    rcases B with _ | ⟨e', B⟩
    · simp only [List.nil_append, List.cons.injEq] at hA
      obtain ⟨rfl, rfl⟩ := hA
      exact fun w hw => .inl (hi w hw)
    · simp at hA
  · intro o ho
    exact .inr ⟨_, List.mem_singleton.2 rfl, rfl, ho⟩

/-- Code standing before a generator on whose outputs it depends: it waits for one more pass. -/
theorem wait {m : B p α} {i : List Wire} {f : WireValues p → Option (WireValues p)}
    (outs : List Wire) {Q : α → Set Wire → Prop} (hm : Timely d (K ∪ {w | w ∈ outs}) m Q)
    (hi : ∀ w ∈ i, w ∈ K) (hk : KeepsValues f)
    (hs : ∀ v v', f v = some v' → ∀ o ∈ outs, (v' o).isSome) :
    Timely (d + 1) K (m >>= fun _ => B.generator i f) fun _ K' => ∀ o ∈ outs, o ∈ K' := by
  intro b z b' h
  obtain ⟨a, b1, h1, h2⟩ := B.bind_run h
  obtain ⟨_, rfl⟩ := Prod.ext_iff.1 (Option.some.inj h2)
  exact Stretch.wait outs (hm b a b1 h1) hi hk hs rfl

omit hp in
/-- The number of passes which `execute` makes. -/
theorem inPasses {m : B p α} {Q : α → Set Wire → Prop} {v : WireValues p}
    (hm : Timely d (Dom v) m Q) {a : α} {b b' : Builder p} (hb : m b = some (a, b'))
    (h0 : b.witnessGenerators = []) {fuel : ℕ} {rest : List (WitnessGenerator p)}
    {v' : WireValues p} (h : Gadget.loop fuel b'.witnessGenerators v = some (rest, v')) :
    rest = [] ∧ ∃ k ≤ d + 1, InPasses k b'.witnessGenerators v v' := by
  obtain ⟨A, h1, h2, h3, _⟩ := hm b a b' hb
  rw [h0, List.nil_append] at h1
  rw [h1] at h ⊢
  exact Timetable.passes (d + 1) 0 fuel A v rest v' (by omega) (fun e he => (h2 e he).1) h3
    (fun e he => ⟨Nat.zero_le _, (h2 e he).2⟩) h

end Timely

end R1CS
