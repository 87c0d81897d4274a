import Verif.Lemmas.Forge
import Verif.Props.Arithmetic
import Verif.Props.Execute
import Verif.Lemmas.Tidy

/-!
# Lemmas about executions of circuits of which only one part is known
-/

set_option linter.unusedSectionVars false

namespace R1CS

variable {p : ℕ} [hp : Fact p.Prime] {α β : Type}

/-- What a program appends does not depend on the constraints and generators already present. -/
theorem Prog.frame_append {m : B p α} (hm : Prog m) : ∀ {b b' : Builder p} {a : α},
    m b = some (a, b') → ∃ cs gs, b'.constraints = b.constraints ++ cs ∧
      b'.witnessGenerators = b.witnessGenerators ++ gs ∧
      ∀ (cs0 : List (Constraint p)) (gs0 : List (WitnessGenerator p)),
        m { nextWireIndex := b.nextWireIndex, constraints := cs0, witnessGenerators := gs0 } =
          some (a, { nextWireIndex := b'.nextWireIndex, constraints := cs0 ++ cs,
                     witnessGenerators := gs0 ++ gs }) := by
  induction hm with
  | pure a =>
    intro b b' a' h
    rw [B.pure_eq] at h
    obtain ⟨rfl, rfl⟩ := Prod.ext_iff.1 (Option.some.inj h)
    exact ⟨[], [], by simp, by simp, fun cs0 gs0 => by simp [B.pure_eq]⟩
  | bind _ _ ih1 ih2 =>
    intro b b' a' h
    obtain ⟨x, b1, h1, h2⟩ := B.bind_run h
    obtain ⟨cs1, gs1, hc1, hg1, hf1⟩ := ih1 h1
    obtain ⟨cs2, gs2, hc2, hg2, hf2⟩ := ih2 x h2
    refine ⟨cs1 ++ cs2, gs1 ++ gs2, by rw [hc2, hc1, List.append_assoc],
      by rw [hg2, hg1, List.append_assoc], fun cs0 gs0 => ?_⟩
    rw [B.bind_eq (hf1 cs0 gs0), hf2, List.append_assoc, List.append_assoc]
  | wire =>
    intro b b' a h
    obtain ⟨rfl, rfl⟩ := Prod.ext_iff.1 (Option.some.inj h)
    exact ⟨[], [], by simp, by simp, fun cs0 gs0 => by simp [B.wire]⟩
  | assertProduct x y z =>
    intro b b' a h
    obtain ⟨rfl, rfl⟩ := Prod.ext_iff.1 (Option.some.inj h)
    exact ⟨[⟨x, y, z⟩], [], rfl, by simp, fun cs0 gs0 => by simp [B.assertProduct]⟩
  | generator d f hf =>
    intro b b' a h
    obtain ⟨rfl, rfl⟩ := Prod.ext_iff.1 (Option.some.inj h)
    exact ⟨[], [⟨d, f⟩], by simp, rfl, fun cs0 gs0 => by simp [B.generator]⟩
  | panic => intro b b' a h; exact absurd h (by simp [B.panic])

namespace Exec

/-- Invariant of a run of generators some of which (`A`) compute the wires from `n` to `n1` of `W`,
while the others (`R`) do not write these wires. -/
theorem Runs.own {n n1 : ℕ} {W : Assign p} {v v' : WireValues p} {σ : List (WitnessGenerator p)}
    (h : Runs v σ v') : ∀ (A : Ann p) (R : List (WitnessGenerator p)),
    (∀ e ∈ A, GenOK e.1 e.2 W ∧ ∀ i ∈ e.1.inputs, i < n1) →
    (outsOf A).Nodup → (∀ o ∈ outsOf A, n ≤ o ∧ o < n1) →
    (∀ o ∈ outsOf A, v o = none) →
    (∀ i, n ≤ i → i < n1 → i ∉ outsOf A → v i = some (W i)) →
    (∀ i < n, ∀ x, v' i = some x → W i = x) →
    (∀ g ∈ σ, KeepsValues g.generate) →
    List.Perm σ (A.map (·.1) ++ R) →
    (∀ g ∈ R, ∀ u u', g.generate u = some u' → ∀ i, n ≤ i → i < n1 → u' i = u i) →
    ∀ i, n ≤ i → i < n1 → v' i = some (W i) := by
  induction h with
  | nil v =>
    intro A R _ _ _ _ hdone _ _ hp _ i hi hi'
    have hA : A = [] := by
      have h := List.Perm.eq_nil hp.symm
      simp at h
      exact h.1
    subst hA
    exact hdone i hi hi' (by simp [outsOf])
  | @cons v v1 v' g σ hin hg h ih =>
    intro A R hok hnd hb htodo hdone hW hk hp hR
    have hmono : ∀ i x, v i = some x → v' i = some x := fun i x hi =>
      h.mono (fun g' hg' => hk g' (List.mem_cons_of_mem _ hg')) i x
        (hk g (by simp) v v1 hg i x hi)
    have hmem : g ∈ A.map (·.1) ++ R := hp.subset (by simp)
    have hk' : ∀ g ∈ σ, KeepsValues g.generate := fun g' hg' => hk g' (List.mem_cons_of_mem _ hg')
    rcases List.mem_append.1 hmem with hm | hm
    · obtain ⟨e, he, rfl⟩ := List.mem_map.1 hm
      obtain ⟨K, A', rfl⟩ := List.append_of_mem he
      obtain ⟨hgen, hlt⟩ := hok e he
      rw [outsOf_middle] at hnd hb htodo hdone
      have hins : ∀ i ∈ e.1.inputs, v i = some (W i) := by
        intro i hi
        obtain ⟨x, hx⟩ := Option.isSome_iff_exists.1 (hin i hi)
        by_cases hin' : i < n
        · rw [hx, hW i hin' x (hmono i x hx)]
        · refine hdone i (by omega) (hlt i hi) fun ho => ?_
          rw [htodo i ho] at hx
          exact absurd hx (by simp)
      have houts : ∀ o ∈ e.2, v o = none := fun o ho => htodo o (by simp [ho])
      have hv1 := hgen v hins houts
      rw [hg] at hv1
      obtain rfl := Option.some.inj hv1
      have hnd' : (outsOf (K ++ A')).Nodup := by
        rw [outsOf_append]
        exact hnd.sublist (List.Sublist.append_left (List.sublist_append_right _ _) _)
      have hdisj : ∀ o ∈ outsOf (K ++ A'), o ∉ e.2 := by
        intro o ho hoe
        rw [outsOf_append] at ho
        rw [List.nodup_append] at hnd
        rcases List.mem_append.1 ho with h | h
        · exact hnd.2.2 o h o (by simp [hoe]) rfl
        · exact (List.nodup_append.1 hnd.2.1).2.2 o hoe o h rfl
      have hsub : ∀ o ∈ outsOf (K ++ A'), o ∈ outsOf K ++ (e.2 ++ outsOf A') := by
        intro o ho
        rw [outsOf_append] at ho
        rcases List.mem_append.1 ho with h | h <;> simp [h]
      refine ih (K ++ A') R (fun e' he' => hok e' ?_) hnd' (fun o ho => hb o (hsub o ho)) ?_ ?_ hW
        hk' ?_ hR
      · rcases List.mem_append.1 he' with h | h <;> simp [h]
      · intro o ho
        beta_reduce
        rw [if_neg (hdisj o ho)]
        exact htodo o (hsub o ho)
      · intro i hi hi' hni
        beta_reduce
        by_cases hie : i ∈ e.2
        · rw [if_pos hie]
        · rw [if_neg hie]
          refine hdone i hi hi' fun hc => ?_
          rw [outsOf_append] at hni
          simp only [List.mem_append] at hc hni
          tauto
      · have : List.Perm (e.1 :: σ) (e.1 :: ((K ++ A').map (·.1) ++ R)) := by
          refine hp.trans ?_
          simp only [List.map_append, List.map_cons, List.append_assoc, List.cons_append]
          exact List.perm_middle
        exact this.cons_inv
    · obtain ⟨R1, R2, rfl⟩ := List.append_of_mem hm
      have hold := hR g hm v v1 hg
      refine ih A (R1 ++ R2) hok hnd hb ?_ ?_ hW hk' ?_ (fun g' hg' => hR g' ?_)
      · intro o ho; rw [hold o (hb o ho).1 (hb o ho).2]; exact htodo o ho
      · intro i hi hi' hni; rw [hold i hi hi']; exact hdone i hi hi' hni
      · have : List.Perm (g :: σ) (g :: (A.map (·.1) ++ (R1 ++ R2))) := by
          refine hp.trans ?_
          rw [← List.append_assoc, ← List.append_assoc]
          exact List.perm_middle
        exact this.cons_inv
      · rcases List.mem_append.1 hg' with h | h <;> simp [h]

end Exec

/-- An honest state in which every wire is supplied from outside and nothing is constrained. -/
def Hon.free (n : ℕ) (hn : 1 ≤ n) (W : Assign p) (h1 : W ONE = 1) : Hon p where
  b := { nextWireIndex := n, constraints := [], witnessGenerators := [] }
  D := List.range' 1 (n - 1)
  W := W
  ok := ⟨h1, hn, by simp, [], rfl, by simp, by simp⟩

open Exec in
/-- What the generators of a call compute on their own is what the call achieves locally. -/
theorem Locally.of_generators {m : B p α} (hm : Tidy m) {n : ℕ} {P : Assign p → Prop}
    {Q : α → Assign p → Prop}
    (h : 1 ≤ n → ∀ W : Assign p, W ONE = 1 → P W → ∃ (a : α) (t : Builder p) (T : Assign p),
      m ⟨n, [], []⟩ = some (a, t) ∧
      Honest { t with constraints := [] } (List.range' 1 (n - 1)) T ∧ (∀ i < n, T i = W i) ∧
      ∀ W', (∀ i < t.nextWireIndex, W' i = T i) → Q a W') :
    Locally n m fun a W => P W → Q a W := by
  intro γ δ pre k c a z b b1 b2 hpre hk hb hn h1 h2 v v' ok hv1 hv hex
  change P v'.total → Q a v'.total
  intro hP
  obtain ⟨l0, _, gs0, hgs0, -⟩ := C23_appends hpre.1 hb
  obtain ⟨l1, _, gs1, hgs1, -⟩ := C23_appends hm.1 h1
  obtain ⟨l2, _, gs2, hgs2, -⟩ := C23_appends (hk c a).1 h2
  have hc0 := hpre.2 _ _ _ hb
  have hc1 := hm.2 _ _ _ h1
  have hc2 := (hk c a).2 _ _ _ h2
  rw [hgs0, List.drop_left] at hc0
  rw [hgs1, List.drop_left] at hc1
  rw [hgs2, List.drop_left] at hc2
  have hn1 : 1 ≤ n := by rw [← hn]; exact le_trans (by simp [Builder.new]) l0
  have hkeep : ∀ g ∈ b2.witnessGenerators, KeepsValues g.generate := by
    intro g hg
    rw [hgs2, hgs1, hgs0] at hg
    simp only [List.mem_append] at hg
    rcases hg with ((hg | hg) | hg) | hg
    · exact absurd hg (by simp [Builder.new])
    · exact (hc0 g hg).keeps
    · exact (hc1 g hg).keeps
    · exact (hc2 g hg).keeps
  obtain ⟨σ, hσ, hrun⟩ := C21_exactly_once _ v v' ok hex
  have hkσ : ∀ g ∈ σ, KeepsValues g.generate := fun g hg => hkeep g (hσ.subset hg)
  have hone : v'.total ONE = 1 := by simp [WireValues.total, hrun.mono hkσ ONE 1 hv1]
  obtain ⟨a', t, T, ht1, ht, ht2, ht4⟩ := h hn1 v'.total hone hP
  obtain ⟨cs, gs, hcs, hgs, hfr⟩ := hm.1.frame_append h1
  have hfr' := hfr [] []
  rw [hn] at hfr'
  have he : some (a', t) = some (a, _) := ht1.symm.trans hfr'
  obtain ⟨rfl, hb'⟩ := Prod.ext_iff.1 (Option.some.inj he)
  replace hb' : t = _ := hb'
  have hgg : gs = gs1 := List.append_cancel_left (hgs.symm.trans hgs1)
  subst hgg
  have htn : t.nextWireIndex = b1.nextWireIndex := by
    rw [hb']
  have htg : t.witnessGenerators = gs := by rw [hb']; simp
  obtain ⟨A, hA1, hA2, hA3⟩ := ht.generators
  have hmem : ∀ i, i ∈ outsOf A ∨ i ∈ List.range' 1 (n - 1) ↔ 1 ≤ i ∧ i < t.nextWireIndex := by
    intro i
    have := hA3.mem_iff (a := i)
    rw [List.mem_append, List.mem_range'_1 (m := i) (n := t.nextWireIndex - 1)] at this
    rw [show outsOf A = (A.map (·.2)).flatten from rfl, this]
    have : 1 ≤ t.nextWireIndex := ht.pos
    omega
  have hD : ∀ i, i ∈ List.range' 1 (n - 1) ↔ 1 ≤ i ∧ i < n := by
    intro i
    rw [List.mem_range'_1]
    omega
  have hnd : (outsOf A ++ List.range' 1 (n - 1)).Nodup := hA3.nodup_iff.2 List.nodup_range'
  rw [List.nodup_append] at hnd
  have hout : ∀ o, o ∈ outsOf A ↔ n ≤ o ∧ o < t.nextWireIndex := by
    intro o
    have h1 := hmem o
    have h2 := hD o
    constructor
    · intro ho
      have h3 := h1.1 (Or.inl ho)
      refine ⟨?_, h3.2⟩
      by_contra hc
      exact hnd.2.2 o ho o (h2.2 ⟨h3.1, by omega⟩) rfl
    · intro ho
      rcases h1.2 ⟨by omega, ho.2⟩ with h | h
      · exact h
      · have := h2.1 h
        omega
  have hW : ∀ i < n, T i = v'.total i := ht2
  refine ht4 _ fun i hi => ?_
  by_cases hin : i < n
  · exact (hW i hin).symm
  · have hfin := Runs.own (n := n) (n1 := t.nextWireIndex) (W := T) hrun A (gs0 ++ gs2)
      (fun e he => ⟨(hA2 e he).1, fun i hi => ((hA2 e he).2 i hi).1⟩) hnd.1
      (fun o ho => (hout o).1 ho) ?_ ?_ ?_ hkσ ?_ ?_ i (by omega) hi
    · simp [WireValues.total, hfin]
    · intro o ho
      obtain ⟨k1, k2⟩ := (hout o).1 ho
      exact hv o k1 (by omega)
    · intro j h1 h2 h3
      exact absurd ((hout j).2 ⟨h1, h2⟩) h3
    · intro j hj x hx
      rw [hW j hj]
      simp [WireValues.total, hx]
    · refine hσ.trans ?_
      change List.Perm b2.witnessGenerators _
      rw [hgs2, hgs1, hgs0, hA1, htg, show (Builder.new : Builder p).witnessGenerators = [] from rfl,
        List.nil_append]
      refine (List.Perm.append_right gs2 List.perm_append_comm).trans ?_
      rw [List.append_assoc]
    · intro g hg u u' hgu j hj1 hj2
      by_contra hc
      rcases List.mem_append.1 hg with hg | hg
      · have := (hc0 g hg).writes u u' hgu j hc
        omega
      · have := (hc2 g hg).writes u u' hgu j hc
        omega

/-- An honest state without its constraints. -/
theorem Honest.strip {b : Builder p} {D : List Wire} {W : Assign p} (h : Honest b D W) :
    Honest { b with constraints := [] } D W :=
  ⟨h.one, h.pos, fun c hc => absurd hc (by simp), h.generators⟩

/-- Completeness makes a call achieve locally what it computes in honest states. -/
theorem Locally.of_comp {m : B p α} (hm : Tidy m) {n : ℕ} {P : Assign p → Prop}
    {Q : α → Assign p → Prop}
    (h : ∀ s : Hon p, s.next = n → P s.W → Comp m s fun a t => s.D = t.D ∧
      ∀ W, (∀ i < t.next, W i = t.W i) → Q a W) :
    Locally n m fun a W => P W → Q a W := by
  refine Locally.of_generators hm fun hn W h1 hP => ?_
  obtain ⟨a, t, e1, e2, e3, e4⟩ := h (Hon.free n hn W h1) rfl hP
  refine ⟨a, t.b, t.W, e1, ?_, e2.2, e4⟩
  have := t.ok.strip
  rw [← e3] at this
  exact this

namespace Locally

theorem mono {m : B p α} {n : ℕ} {Q R : α → Assign p → Prop} (h : Locally n m Q)
    (hqr : ∀ a W, Q a W → R a W) : Locally n m R :=
  fun γ δ pre k c a z b b1 b2 e1 e2 e3 e4 e5 e6 v v' ok e7 e8 e9 =>
    hqr _ _ (h γ δ pre k c a z b b1 b2 e1 e2 e3 e4 e5 e6 v v' ok e7 e8 e9)

/-- Gadgets with one expression as result. -/
theorem expr {m : B p (Expression p)} (hm : Tidy m) {n : ℕ} {P : Assign p → Prop}
    {F : Assign p → Elem p} (hF : ∀ W W' : Assign p, (∀ i < n, W i = W' i) → F W = F W')
    (h : ∀ s : Hon p, s.next = n → P s.W → Comp m s fun z t => t.D = s.D ∧ z.Scoped t.next ∧
      z.eval t.W = F s.W) : Locally n m fun z W => P W → z.eval W = F W := by
  refine of_comp hm fun s hn hP => (h s hn hP).mono fun z t l ⟨h1, h2, h3⟩ =>
    ⟨h1.symm, fun W hW => ?_⟩
  rw [Expression.eval_congr (w' := t.W) fun i hi => hW i (h2 i hi), h3]
  refine hF _ _ fun i hi => ?_
  have := l.1
  rw [hW i (by omega), l.2 i (by omega)]

/-- Gadgets with one boolean expression as result. -/
theorem bool {m : B p (BooleanExpression p)} (hm : Tidy m) {n : ℕ} {P : Assign p → Prop}
    {F : Assign p → Elem p} (hF : ∀ W W' : Assign p, (∀ i < n, W i = W' i) → F W = F W')
    (h : ∀ s : Hon p, s.next = n → P s.W → Comp m s fun z t => t.D = s.D ∧ z.Scoped t.next ∧
      z.eval t.W = F s.W) : Locally n m fun z W => P W → z.eval W = F W := by
  refine of_comp hm fun s hn hP => (h s hn hP).mono fun z t l ⟨h1, h2, h3⟩ =>
    ⟨h1.symm, fun W hW => ?_⟩
  have : z.eval W = z.eval t.W := Expression.eval_congr fun i hi => hW i (h2 i hi)
  rw [this, h3]
  refine hF _ _ fun i hi => ?_
  have := l.1
  rw [hW i (by omega), l.2 i (by omega)]

/-- Gadgets with a digit string as result. -/
theorem binary {m : B p (BinaryExpression p)} (hm : Tidy m) {n : ℕ} {P : Assign p → Prop}
    {F : Assign p → List ℕ} (hF : ∀ W W' : Assign p, (∀ i < n, W i = W' i) → F W = F W')
    (h : ∀ s : Hon p, s.next = n → P s.W → Comp m s fun z t => t.D = s.D ∧ z.Scoped t.next ∧
      z.digits t.W = F s.W) : Locally n m fun z W => P W → z.digits W = F W := by
  refine of_comp hm fun s hn hP => (h s hn hP).mono fun z t l ⟨h1, h2, h3⟩ =>
    ⟨h1.symm, fun W hW => ?_⟩
  have : z.digits W = z.digits t.W := by
    unfold BinaryExpression.digits
    apply List.map_congr_left
    intro b hb
    have : b.eval W = b.eval t.W := Expression.eval_congr fun i hi => hW i (h2 b hb i hi)
    rw [this]
  rw [this, h3]
  refine hF _ _ fun i hi => ?_
  have := l.1
  rw [hW i (by omega), l.2 i (by omega)]

/-- Gadgets with a list of expressions as result. -/
theorem list {m : B p (List (Expression p))} (hm : Tidy m) {n : ℕ} {P : Assign p → Prop}
    {F : Assign p → List (Elem p)} (hF : ∀ W W' : Assign p, (∀ i < n, W i = W' i) → F W = F W')
    (h : ∀ s : Hon p, s.next = n → P s.W → Comp m s fun z t => t.D = s.D ∧
      (∀ e ∈ z, e.Scoped t.next) ∧ (z.map fun e => e.eval t.W) = F s.W) :
    Locally n m fun z W => P W → (z.map fun e => e.eval W) = F W := by
  refine of_comp hm fun s hn hP => (h s hn hP).mono fun z t l ⟨h1, h2, h3⟩ =>
    ⟨h1.symm, fun W hW => ?_⟩
  have : (z.map fun e => e.eval W) = z.map fun e => e.eval t.W :=
    List.map_congr_left fun e he => Expression.eval_congr fun i hi => hW i (h2 e he i hi)
  rw [this, h3]
  refine hF _ _ fun i hi => ?_
  have := l.1
  rw [hW i (by omega), l.2 i (by omega)]

/-- What holds whenever an execution returns need not be assumed. -/
theorem returning {m : B p α} {n : ℕ} {P : Assign p → Prop} {Q : α → Assign p → Prop}
    (h : Locally n m fun a W => P W → Q a W) (hP : Locally n m fun _ W => P W) :
    Locally n m Q :=
  fun γ δ pre k c a z b b1 b2 e1 e2 e3 e4 e5 e6 v v' ok e7 e8 e9 =>
    h γ δ pre k c a z b b1 b2 e1 e2 e3 e4 e5 e6 v v' ok e7 e8 e9
      (hP γ δ pre k c a z b b1 b2 e1 e2 e3 e4 e5 e6 v v' ok e7 e8 e9)

end Locally

theorem Tidy.keeps {m : B p α} (hm : Tidy m) {a : α} {b : Builder p}
    (h : m Builder.new = some (a, b)) : ∀ g ∈ b.witnessGenerators, KeepsValues g.generate := by
  obtain ⟨_, _, gs, hgs, hk⟩ := C23_appends hm.1 h
  intro g hg
  rw [hgs] at hg
  exact hk g (by simpa [Builder.new] using hg)

/-- Whenever an execution returns, each generator of the call has run, on values extended by the
final ones. -/
theorem Locally.of_generator {m : B p α} (hm : Tidy m) {n : ℕ} {P : α → Assign p → Prop}
    (h : ∀ (b b1 : Builder p) (a : α), b.nextWireIndex = n → m b = some (a, b1) →
      ∃ g ∈ b1.witnessGenerators, ∀ u u' v' : WireValues p, g.generate u = some u' →
        (∀ i x, u i = some x → v' i = some x) → (∀ i x, u' i = some x → v' i = some x) →
        P a v'.total) :
    Locally n m P := by
  intro γ δ pre k c a z b b1 b2 hpre hk hb hn h1 h2 v v' ok hv1 hv hex
  obtain ⟨g, hg, hall⟩ := h b b1 a hn h1
  obtain ⟨_, _, gs1, hgs1, hk1⟩ := C23_appends hm.1 h1
  obtain ⟨_, _, gs2, hgs2, hk2⟩ := C23_appends (hk c a).1 h2
  have hkeep : ∀ g ∈ b2.build.witnessGenerators, KeepsValues g.generate := by
    change ∀ g ∈ b2.witnessGenerators, _
    intro g hg
    rw [hgs2, hgs1] at hg
    rcases List.mem_append.1 hg with hg | hg
    · rcases List.mem_append.1 hg with hg | hg
      · exact hpre.keeps hb g hg
      · exact hk1 g hg
    · exact hk2 g hg
  obtain ⟨u, u', _, hgen, hu, hu'⟩ := ran_of_execute hkeep hex (k := g) (by
    change g ∈ b2.witnessGenerators
    rw [hgs2]
    exact List.mem_append_left _ hg)
  exact hall u u' v' hgen hu hu'

end R1CS
