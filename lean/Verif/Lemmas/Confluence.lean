import Verif.Spec.Apiece
import Verif.Props.Execute
import Mathlib.Data.Multiset.AddSub

/-!
# Running generators in any order (`Spec/Apiece.lean`)
-/

set_option linter.unusedSectionVars false

namespace R1CS

variable {p : ℕ} [hp : Fact p.Prime]

/-- A generator with the wires which are its own. -/
abbrev Piece (p : ℕ) := WitnessGenerator p × List Wire

/-- What can become of values `v` and generators `G`, some one of them running when it is ready: one panics
(`none`), or some are left which are not ready. -/
inductive Ends : WireValues p → Multiset (Piece p) → Option (Multiset (Piece p) × WireValues p) → Prop
  | panic {v : WireValues p} {g : Piece p} {G : Multiset (Piece p)} (h1 : Ready v g.1)
      (h2 : g.1.generate v = none) : Ends v (g ::ₘ G) none
  | stuck {v : WireValues p} {G : Multiset (Piece p)} (h : ∀ g ∈ G, ¬ Ready v g.1) : Ends v G (some (G, v))
  | step {v v1 : WireValues p} {g : Piece p} {G : Multiset (Piece p)}
      {o : Option (Multiset (Piece p) × WireValues p)} (h1 : Ready v g.1) (h2 : g.1.generate v = some v1)
      (h3 : Ends v1 G o) : Ends v (g ::ₘ G) o

/-- Wires apiece. -/
structure Split (G : Multiset (Piece p)) : Prop where
  minds : ∀ e ∈ G, Minds (· ∈ e.2) e.1 ∧ KeepsValues e.1.generate
  apart : (G.bind fun e => (e.2 : Multiset Wire)).Nodup

namespace Split

theorem tail {g : Piece p} {G : Multiset (Piece p)} (h : Split (g ::ₘ G)) : Split G where
  minds e he := h.minds e (Multiset.mem_cons_of_mem he)
  apart := by
    have := h.apart
    rw [Multiset.cons_bind] at this
    exact (Multiset.nodup_add.1 this).2.1

theorem disj {g g' : Piece p} {G : Multiset (Piece p)} (h : Split (g ::ₘ g' ::ₘ G)) :
    ∀ i ∈ g.2, i ∉ g'.2 := by
  have := h.apart
  rw [Multiset.cons_bind, Multiset.cons_bind] at this
  intro i h1 h2
  have := Multiset.disjoint_left.1 (Multiset.nodup_add.1 this).2.2 (Multiset.mem_coe.2 h1)
  exact this (Multiset.mem_add.2 (.inl (Multiset.mem_coe.2 h2)))

end Split

theorem Ready.later {v v1 : WireValues p} {g h : WitnessGenerator p} (hr : Ready v g)
    (hk : KeepsValues h.generate) (hv : h.generate v = some v1) : Ready v1 g := fun i hi => by
  obtain ⟨x, hx⟩ := Option.isSome_iff_exists.1 (hr i hi)
  rw [hk v v1 hv i x hx]
  rfl

/-- A generator which is ready reads the same after another one has run. -/
theorem Minds.after {v v1 : WireValues p} {g h : WitnessGenerator p} {R S : List Wire}
    (hk : KeepsValues h.generate) (hm : Minds (· ∈ S) h) (hd : ∀ i ∈ R, i ∉ S) (hr : Ready v g)
    (hv : h.generate v = some v1) :
    (∀ i ∈ g.inputs, v1 i = v i) ∧ ∀ i, i ∈ R → v1 i = v i := by
  refine ⟨fun i hi => ?_, fun i hi => hm.writes v v1 hv i (hd i hi)⟩
  obtain ⟨x, hx⟩ := Option.isSome_iff_exists.1 (hr i hi)
  rw [hx, hk v v1 hv i x hx]

/-- Two generators which are both ready. -/
theorem diamond {v v1 : WireValues p} {g h : Piece p} {G : Multiset (Piece p)}
    (hs : Split (g ::ₘ h ::ₘ G)) (hg : Ready v g.1) (hh : Ready v h.1)
    (h1 : h.1.generate v = some v1) :
    (g.1.generate v = none → g.1.generate v1 = none) ∧
      ∀ u, g.1.generate v = some u → ∃ w, g.1.generate v1 = some w ∧ h.1.generate u = some w := by
  have mg := hs.minds g (by simp)
  have mh := hs.minds h (by simp)
  have d1 := hs.disj
  have d2 : ∀ i ∈ h.2, i ∉ g.2 := fun i a b => d1 i b a
  obtain ⟨a1, a2⟩ := mh.1.after mh.2 d1 hg h1
  constructor
  · intro hn
    rcases hc : g.1.generate v1 with _ | w
    · rfl
    · obtain ⟨u, hu, _⟩ := mg.1.reads v1 v w (fun i hi => (a1 i hi).symm) (fun i hi => (a2 i hi).symm) hc
      rw [hn] at hu
      cases hu
  · intro u hu
    obtain ⟨b1, b2⟩ := mg.1.after mg.2 d2 hh hu
    obtain ⟨w, hw, hw'⟩ := mg.1.reads v v1 u a1 a2 hu
    obtain ⟨w2, k1, k2⟩ := mh.1.reads v u v1 b1 b2 h1
    have : w2 = w := by
      funext i
      by_cases hi : i ∈ h.2
      · rw [k2 i hi, mg.1.writes v1 w hw i (d2 i hi)]
      · rw [mh.1.writes u w2 k1 i hi]
        by_cases hi' : i ∈ g.2
        · rw [hw' i hi']
        · rw [mg.1.writes v u hu i hi', mg.1.writes v1 w hw i hi', mh.1.writes v v1 h1 i hi]
    exact ⟨w, hw, this ▸ k1⟩

/-- Any generator which is ready may run first. -/
theorem Ends.first {v : WireValues p} {G : Multiset (Piece p)}
    {o : Option (Multiset (Piece p) × WireValues p)} (he : Ends v G o) :
    ∀ {h : Piece p} {H : Multiset (Piece p)} {v1 : WireValues p}, G = h ::ₘ H → Split G → Ready v h.1 →
      h.1.generate v = some v1 → Ends v1 H o := by
  induction he with
  | @panic v g G h1 h2 =>
    intro h H v1 e hs hr hv
    rcases Multiset.cons_eq_cons.1 e with ⟨rfl, rfl⟩ | ⟨_, K, rfl, rfl⟩
    · rw [h2] at hv
      cases hv
    · have d := diamond hs h1 hr hv
      have mh := hs.minds h (by simp)
      exact .panic (h1.later mh.2 hv) (d.1 h2)
  | @stuck v G h1 =>
    intro h H v1 e hs hr _
    exact absurd hr (h1 h (by rw [e]; simp))
  | @step v u g G o h1 h2 h3 ih =>
    intro h H v1 e hs hr hv
    rcases Multiset.cons_eq_cons.1 e with ⟨rfl, rfl⟩ | ⟨_, K, rfl, rfl⟩
    · rw [h2] at hv
      obtain rfl := Option.some.inj hv
      exact h3
    · have mg := hs.minds g (by simp)
      have mh := hs.minds h (by simp)
      obtain ⟨w, hw, hw'⟩ := (diamond hs h1 hr hv).2 u h2
      exact .step (h1.later mh.2 hv) hw (ih rfl hs.tail (hr.later mg.2 h2) hw')

/-- If one which is ready panics, that is how it ends. -/
theorem Ends.bad {v : WireValues p} {G : Multiset (Piece p)}
    {o : Option (Multiset (Piece p) × WireValues p)} (he : Ends v G o) :
    ∀ {h : Piece p}, h ∈ G → Split G → Ready v h.1 → h.1.generate v = none → o = none := by
  induction he with
  | panic _ _ => intros; rfl
  | stuck h1 => intro h hG _ hr _; exact absurd hr (h1 h hG)
  | @step v u g G o h1 h2 h3 ih =>
    intro h hG hs hr hn
    obtain ⟨H, hH⟩ := Multiset.exists_cons_of_mem hG
    rcases Multiset.cons_eq_cons.1 hH with ⟨rfl, rfl⟩ | ⟨_, K, rfl, rfl⟩
    · rw [h2] at hn
      cases hn
    · have mg := hs.minds g (by simp)
      rw [Multiset.cons_swap] at hs
      exact ih (by simp) (Multiset.cons_swap g h K ▸ hs).tail (hr.later mg.2 h2) ((diamond hs hr h1 h2).1 hn)

/-- There is one end. -/
theorem Ends.unique {v : WireValues p} {G : Multiset (Piece p)}
    {o o' : Option (Multiset (Piece p) × WireValues p)} (he : Ends v G o) (hs : Split G) (he' : Ends v G o') :
    o = o' := by
  induction he with
  | @panic v g G h1 h2 => exact (he'.bad (by simp) hs h1 h2).symm
  | @stuck v G h1 =>
    cases he' with
    | panic h2 _ => exact absurd h2 (h1 _ (by simp))
    | stuck _ => rfl
    | step h2 _ _ => exact absurd h2 (h1 _ (by simp))
  | @step v u g G o h1 h2 h3 ih => exact ih hs.tail (he'.first rfl hs h1 h2)

/-- A run. -/
theorem Ends.ofRuns {o : Option (Multiset (Piece p) × WireValues p)} :
    ∀ {A : List (Piece p)} {v v' : WireValues p} {G : Multiset (Piece p)}, Runs v (A.map Prod.fst) v' →
      Ends v' G o → Ends v ((A : Multiset (Piece p)) + G) o
  | [], _, _, G, h, he => by
    cases h
    simpa using he
  | g :: A, _, _, G, h, he => by
    cases h with
    | cons h1 h2 h3 =>
      rw [← Multiset.cons_coe, Multiset.cons_add]
      exact .step h1 h2 (ofRuns h3 he)

/-- What `loop` does is how it ends. -/
theorem Ends.ofLoop {A : List (Piece p)} {gs : List (WitnessGenerator p)} (hA : List.Perm gs (A.map Prod.fst))
    (v : WireValues p) :
    (Gadget.loop (gs.length + 1) gs v = none ∧ Ends v (A : Multiset (Piece p)) none) ∨
      ∃ (R : List (Piece p)) (v' : WireValues p), Gadget.loop (gs.length + 1) gs v = some (R.map Prod.fst, v') ∧
        Ends v (A : Multiset (Piece p)) (some (R, v')) := by
  rcases C21_terminates gs v with ⟨rest, v', σ, h1, h2, h3, h4⟩ | ⟨h1, σ, g, ρ, v', h2, h3, h4, h5⟩
  · obtain ⟨A', k1, k2⟩ := Exec.lift_perm (h2.trans hA)
    obtain ⟨S, R, rfl, rfl, rfl⟩ := List.map_eq_append_iff.1 k2
    refine .inr ⟨R, v', h1, ?_⟩
    rw [← Multiset.coe_eq_coe.2 k1, ← Multiset.coe_add]
    exact ofRuns h3 (.stuck fun g hg => h4 _ (List.mem_map_of_mem (Multiset.mem_coe.1 hg)))
  · obtain ⟨A', k1, k2⟩ := Exec.lift_perm (h2.trans hA)
    obtain ⟨S, R, rfl, rfl, e⟩ := List.map_eq_append_iff.1 k2
    obtain ⟨e0, R', rfl, rfl, rfl⟩ := List.map_eq_cons_iff.1 e
    refine .inl ⟨h1, ?_⟩
    rw [← Multiset.coe_eq_coe.2 k1, ← Multiset.coe_add]
    exact ofRuns h3 (by rw [← Multiset.cons_coe]; exact .panic h4 h5)

/-- The result of `execute`, from how it ends. -/
theorem Ends.execute {A : List (Piece p)} (hs : Split (A : Multiset (Piece p)))
    {gs : List (WitnessGenerator p)} (hA : List.Perm gs (A.map Prod.fst)) {v : WireValues p}
    {o : Option (Multiset (Piece p) × WireValues p)} (he : Ends v (A : Multiset (Piece p)) o)
    (cs : List (Constraint p)) :
    Gadget.execute ⟨cs, gs⟩ v = o.bind fun r =>
      if r.1.card = 0 then (Gadget.checkAll cs r.2).map fun ok => (r.2, ok) else none := by
  unfold Gadget.execute
  rcases ofLoop hA v with ⟨h1, h2⟩ | ⟨R, v', h1, h2⟩
  · rw [he.unique hs h2, h1]
    rfl
  · rw [he.unique hs h2, h1]
    cases R with
    | nil =>
      rcases hc : Gadget.checkAll cs v' with _ | ok <;> simp [hc]
    | cons e R => simp

end R1CS
