import Verif.Lemmas.RouteSim
import Verif.Lemmas.PermutationSound
import Verif.Lemmas.Splitting

/-!
# Completeness of the permutation network
-/

set_option linter.unusedSectionVars false

namespace R1CS

variable {p : ℕ} [hp : Fact p.Prime]

open Expression (eval_add eval_sub eval_neg eval_ofWire eval_mulElem)

theorem mapM_evaluate {v : WireValues p} {w : Assign p} : ∀ {es : List (Expression p)},
    (∀ i ∈ es.flatMap Expression.dependencies, v i = some (w i)) →
    (es.mapM fun e => e.evaluate v) = some (evals w es)
  | [], _ => rfl
  | e :: es, h => by
    rw [List.mapM_cons, Expression.evaluate_eq (w := w) fun i hi => h i (by simp [hi]),
      mapM_evaluate fun i hi => h i (by
        rw [List.flatMap_cons]; exact List.mem_append_right _ hi)]
    rfl

theorem Hon.Le.evals {s s' : Hon p} (h : s.Le s') {es : List (Expression p)}
    (he : ∀ e ∈ es, e.Scoped s.next) : evals s'.W es = evals s.W es :=
  List.map_congr_left fun e hm => h.eval (he e hm)

/-! ## The outputs of a layer -/

theorem layer_fst {α : Type} (x : ℕ → α) (C : ℕ → Bool) (k : ℕ)
    (hC : ∀ i < k, C (2 * i + 1) = !C (2 * i)) :
    (List.range k).map (fun i => if C (2 * i) then x (2 * i + 1) else x (2 * i)) =
      ((List.range (2 * k)).filter fun i => C i == false).map x := by
  induction k with
  | zero => rfl
  | succ k ih =>
    have e : 2 * (k + 1) = 2 * k + 1 + 1 := by ring
    rw [e, List.range_succ, List.range_succ, List.range_succ, List.map_append,
      ih fun i hi => hC i (by omega)]
    have := hC k (by omega)
    cases h : C (2 * k) <;> simp [List.filter_append, h, this]

theorem layer_snd {α : Type} (x : ℕ → α) (C : ℕ → Bool) (k : ℕ)
    (hC : ∀ i < k, C (2 * i + 1) = !C (2 * i)) :
    (List.range k).map (fun i => if C (2 * i) then x (2 * i) else x (2 * i + 1)) =
      ((List.range (2 * k)).filter fun i => C i == true).map x := by
  induction k with
  | zero => rfl
  | succ k ih =>
    have e : 2 * (k + 1) = 2 * k + 1 + 1 := by ring
    rw [e, List.range_succ, List.range_succ, List.range_succ, List.map_append,
      ih fun i hi => hC i (by omega)]
    have := hC k (by omega)
    cases h : C (2 * k) <;> simp [List.filter_append, h, this]

/-- The wires which a valid colouring sends to a subnetwork carry the same values on both sides. -/
theorem sides_perm {α : Type} {n : ℕ} {f : Bool → ℕ → ℕ} {C : Bool → ℕ → Bool} (hf : Pairing n f)
    (hC : Valid n f C) (xa xb : ℕ → α) (hx : ∀ i < n, xa i = xb (f false i)) (u : Bool) :
    (((List.range n).filter fun i => C false i == u).map xa).Perm
      (((List.range n).filter fun i => C true i == u).map xb) := by
  have hperm : ((List.range n).map (f false)).Perm (List.range n) := by
    refine (List.subperm_of_subset ?_ ?_).perm_of_length_le (by simp)
    · refine List.Nodup.map_on ?_ List.nodup_range
      intro i hi j hj he
      have h1 := (hf false i (List.mem_range.1 hi)).2
      have h2 := (hf false j (List.mem_range.1 hj)).2
      rw [← h1, ← h2, he]
    · intro j hj
      obtain ⟨i, hi, rfl⟩ := List.mem_map.1 hj
      exact List.mem_range.2 (hf false i (List.mem_range.1 hi)).1
  refine List.Perm.trans ?_ ((hperm.filter fun i => C true i == u).map xb)
  rw [List.filter_map, List.map_map]
  have e1 : (List.range n).filter ((fun i => C true i == u) ∘ f false) =
      (List.range n).filter fun i => C false i == u := by
    apply List.filter_congr
    intro i hi
    have := hC.partner false i (List.mem_range.1 hi)
    simp only [Function.comp, Bool.not_false] at this ⊢
    rw [this]
  rw [e1]
  have e2 : ((List.range n).filter fun i => C false i == u).map xa =
      ((List.range n).filter fun i => C false i == u).map (xb ∘ f false) := by
    apply List.map_congr_left
    intro i hi
    exact hx i (List.mem_range.1 (List.mem_filter.1 hi).1)
  rw [e2]

namespace Comp

theorem createSwitch {s : Hon p} {a b : Expression p} (ha : a.Scoped s.next) (hb : b.Scoped s.next)
    (g : Bool) : Comp (B.createSwitch a b) s fun r s' => r.1.wire = s.next ∧ s.next < s'.next ∧
      s'.D = r.1.wire :: s.D ∧ s'.W r.1.wire = Elem.ofBool g ∧ r.2.1.Scoped s'.next ∧
      r.2.2.Scoped s'.next ∧ r.2.1.eval s'.W = (if g then b.eval s.W else a.eval s.W) ∧
      r.2.2.eval s'.W = (if g then a.eval s.W else b.eval s.W) := by
  have H : Comp (B.createSwitch a b) s fun r s' => r.1.wire = s.next ∧ s.next < s'.next ∧
      s'.D = r.1.wire :: s.D ∧ s'.W r.1.wire = Elem.ofBool g ∧ r.2.1.Scoped s'.next ∧
      r.2.2.Scoped s'.next := by
    unfold B.createSwitch
    refine (Comp.booleanWire s (isBool_ofBool g)).bind fun sw s1 l1 ⟨e1, n1, D1, v1⟩ => ?_
    have hw : sw.wire = s.next := by rw [e1]
    refine (Comp.selection (c := BooleanExpression.ofWire sw) (.ofWire (by omega)) (l1.scoped hb)
      (l1.scoped ha)).bind fun c s2 l2 ⟨D2, sc2, v2⟩ => Comp.pure ?_
    have := l2.1
    refine ⟨hw, by omega, by rw [D2, D1], (l2.2 sw.wire (by omega)).trans v1, sc2, ?_⟩
    exact (((l1.trans l2).scoped ha).add ((l1.trans l2).scoped hb)).sub sc2
  refine (H.enforced (Enforces.createSwitch a b)).mono
    fun r s' l ⟨⟨h1, h2, h3, h4, h5, h6⟩, _, h7, h8⟩ => ⟨h1, h2, h3, h4, h5, h6, ?_, ?_⟩
  · rw [h7, h4, l.eval ha, l.eval hb]
    cases g <;> simp [Elem.ofBool_true, Elem.ofBool_false]
  · rw [h8, h4, l.eval ha, l.eval hb]
    cases g <;> simp [Elem.ofBool_true, Elem.ofBool_false]

theorem switchLayer (k : ℕ) : ∀ {s : Hon p} {xs : List (Expression p)} (g : ℕ → Bool),
    2 * k ≤ xs.length → (∀ e ∈ xs, e.Scoped s.next) →
    Comp (B.switchLayer k xs) s fun r s' =>
      r.1.length = k ∧ s'.D = (r.1.map (·.wire)).reverse ++ s.D ∧
      (r.1.map (·.wire)).Pairwise (· < ·) ∧ (∀ w ∈ r.1, s.next ≤ w.wire ∧ w.wire < s'.next) ∧
      (∀ i w, r.1[i]? = some w → s'.W w.wire = Elem.ofBool (g i)) ∧
      (∀ e ∈ r.2.1, e.Scoped s'.next) ∧ (∀ e ∈ r.2.2, e.Scoped s'.next) ∧
      evals s'.W r.2.1 = (List.range k).map (fun i => if g i then (evals s.W xs).getD (2 * i + 1) 0
        else (evals s.W xs).getD (2 * i) 0) ∧
      evals s'.W r.2.2 = (List.range k).map (fun i => if g i then (evals s.W xs).getD (2 * i) 0
        else (evals s.W xs).getD (2 * i + 1) 0) := by
  induction k with
  | zero =>
    intro s xs g _ _
    unfold B.switchLayer
    exact Comp.pure ⟨rfl, rfl, by simp, by simp, by simp, by simp, by simp, rfl, rfl⟩
  | succ k ih =>
    intro s xs g hlen hsc
    match xs, hlen, hsc with
    | [], h, _ => simp at h
    | [_], h, _ => exact absurd h (by simp; omega)
    | x :: y :: rest, h, hsc =>
      unfold B.switchLayer
      have hx := hsc x (by simp)
      have hy := hsc y (by simp)
      refine (Comp.createSwitch hx hy (g 0)).bind
        fun r s1 l1 ⟨h1, h2, h3, h4, h5, h6, h7, h8⟩ => ?_
      refine (ih (s := s1) (fun i => g (i + 1)) (by simp at h; omega)
        fun e he => l1.scoped (hsc e (by simp [he]))).bind
        fun q s2 l2 ⟨g1, g2, g3, g4, g5, g6, g7, g8, g9⟩ => Comp.pure ?_
      have hle := l2.1
      have hev : evals s1.W rest = evals s.W rest := l1.evals fun e he => hsc e (by simp [he])
      refine ⟨by simp [g1], by rw [g2, h3]; simp, ?_, ?_, ?_, ?_, ?_, ?_, ?_⟩
      · rw [List.map_cons, List.pairwise_cons]
        refine ⟨?_, g3⟩
        intro i hi
        obtain ⟨w, hw, rfl⟩ := List.mem_map.1 hi
        have := (g4 w hw).1
        omega
      · intro w hw
        rcases List.mem_cons.1 hw with rfl | hw
        · omega
        · have := g4 w hw
          omega
      · intro i w hw
        cases i with
        | zero =>
          simp only [List.getElem?_cons_zero, Option.some.injEq] at hw
          rw [← hw, l2.2 _ (by omega), h4]
        | succ i => exact g5 i w (by simpa using hw)
      · intro e he
        rcases List.mem_cons.1 he with rfl | he
        · exact l2.scoped h5
        · exact g6 e he
      · intro e he
        rcases List.mem_cons.1 he with rfl | he
        · exact l2.scoped h6
        · exact g7 e he
      · rw [List.range_succ_eq_map]
        simp only [List.map_cons, List.map_map]
        rw [l2.eval h5, h7]
        congr 1
        refine g8.trans ?_
        apply List.map_congr_left
        intro i _
        simp only [Function.comp, hev]
        rw [show 2 * (i + 1) + 1 = 2 * i + 1 + 1 + 1 by ring, show 2 * (i + 1) = 2 * i + 1 + 1 by ring]
        simp only [List.getD_cons_succ]
      · rw [List.range_succ_eq_map]
        simp only [List.map_cons, List.map_map]
        rw [l2.eval h6, h8]
        congr 1
        refine g9.trans ?_
        apply List.map_congr_left
        intro i _
        simp only [Function.comp, hev]
        rw [show 2 * (i + 1) + 1 = 2 * i + 1 + 1 + 1 by ring, show 2 * (i + 1) = 2 * i + 1 + 1 by ring]
        simp only [List.getD_cons_succ]

theorem assertPermutation2x2 {s : Hon p} {a b c d : Expression p} (ha : a.Scoped s.next)
    (hb : b.Scoped s.next) (hc : c.Scoped s.next) (hd : d.Scoped s.next)
    (h : (evals s.W [a, b]).Perm (evals s.W [c, d])) :
    Comp (B.assertPermutation2x2 a b c d) s fun _ s' => s'.D = s.D := by
  have hcase : (a.eval s.W = c.eval s.W ∧ b.eval s.W = d.eval s.W) ∨
      (a.eval s.W = d.eval s.W ∧ b.eval s.W = c.eval s.W) := by
    simp only [List.map_cons, List.map_nil] at h
    have ha : a.eval s.W ∈ [c.eval s.W, d.eval s.W] := by rw [← h.mem_iff]; simp
    rcases List.mem_cons.1 ha with ha | ha
    · left
      rw [ha] at h
      have := (List.perm_cons _).1 h
      exact ⟨ha, by simpa using this⟩
    · right
      rw [List.mem_singleton] at ha
      rw [ha] at h
      have h' := h.trans (List.Perm.swap _ _ _)
      have := (List.perm_cons _).1 h'
      exact ⟨ha, by simpa using this⟩
  let g : Bool := !decide (a.eval s.W = c.eval s.W ∧ b.eval s.W = d.eval s.W)
  unfold B.assertPermutation2x2
  refine (Comp.createSwitch ha hb g).bind fun r s1 l1 ⟨h1, h2, h3, h4, h5, h6, h7, h8⟩ => ?_
  have e1 : c.eval s.W = (if g then b.eval s.W else a.eval s.W) := by
    by_cases hh : a.eval s.W = c.eval s.W ∧ b.eval s.W = d.eval s.W
    · simp [g, hh]
    · rcases hcase with h | h
      · exact absurd h hh
      · simp only [g, hh, decide_false, Bool.not_false, if_true]; exact h.2.symm
  have e2 : d.eval s.W = (if g then a.eval s.W else b.eval s.W) := by
    by_cases hh : a.eval s.W = c.eval s.W ∧ b.eval s.W = d.eval s.W
    · simp [g, hh]
    · rcases hcase with h | h
      · exact absurd h hh
      · simp only [g, hh, decide_false, Bool.not_false, if_true]; exact h.1.symm
  refine (Comp.assertEqual (l1.scoped hc) h5 (by rw [l1.eval hc, h7, e1])).bind
    fun _ s2 l2 ⟨n2, D2, W2⟩ => ?_
  refine (Comp.assertEqual (l2.scoped (l1.scoped hd)) (l2.scoped h6)
    (by rw [W2, l1.eval hd, h8, e2])).bind fun _ s3 l3 ⟨n3, D3, W3⟩ => ?_
  refine (Comp.generator [r.1.wire] s.D ?_ ?_ ?_).mono fun _ s4 _ ⟨n4, D4, W4⟩ => D4
  · rw [D3, D2, h3]; rfl
  · refine GenOK.single fun v hin => ?_
    rw [W3, W2] at hin ⊢
    unfold B.permutation2x2Gen
    rw [Expression.evaluate_eq (w := s1.W) fun i hi => hin i (by simp [hi]),
      Expression.evaluate_eq (w := s1.W) fun i hi => hin i (by simp [hi]),
      Expression.evaluate_eq (w := s1.W) fun i hi => hin i (by simp [hi]),
      Expression.evaluate_eq (w := s1.W) fun i hi => hin i (by simp [hi]),
      l1.eval ha, l1.eval hb, l1.eval hc, l1.eval hd, h4]
    dsimp only [Option.bind_eq_bind, Option.bind_some]
    by_cases hh : a.eval s.W = c.eval s.W ∧ b.eval s.W = d.eval s.W
    · rw [if_pos hh]
      have : g = false := by simp [g, hh]
      rw [this]; rfl
    · rw [if_neg hh]
      rcases hcase with h | h
      · exact absurd h hh
      · rw [if_pos h]
        have : g = true := by simp only [g, hh, decide_false, Bool.not_false]
        rw [this]; rfl
  · intro i hi
    have hlt : i < s.next := by
      simp only [List.mem_append] at hi
      rcases hi with ((hi | hi) | hi) | hi
      · exact ha i hi
      · exact hb i hi
      · exact hc i hi
      · exact hd i hi
    refine ⟨by omega, fun o ho => ?_⟩
    rw [List.mem_singleton] at ho
    omega

theorem getD_evals (w : Assign p) (xs : List (Expression p)) {i : ℕ} {e : Expression p}
    (h : xs[i]? = some e) : (evals w xs).getD i 0 = e.eval w := by
  rw [List.getD_eq_getElem?_getD, List.getElem?_map, h]; rfl

theorem assertPermutationFuel (fuel : ℕ) : ∀ {s : Hon p} {a b : List (Expression p)},
    a.length ≤ fuel → (∀ e ∈ a, e.Scoped s.next) → (∀ e ∈ b, e.Scoped s.next) →
    (evals s.W a).Perm (evals s.W b) →
    Comp (B.assertPermutationFuel fuel a b) s fun _ s' => s'.D = s.D := by
  induction fuel with
  | zero =>
    intro s a b hl ha hb h
    unfold B.assertPermutationFuel
    have hlen : a.length = b.length := by simpa using h.length_eq
    exact Comp.require_bind hlen (Comp.require (by omega) rfl)
  | succ fuel ih =>
    intro s a b hl ha hb h
    have hlen : a.length = b.length := by simpa using h.length_eq
    unfold B.assertPermutationFuel
    refine Comp.require_bind hlen ?_
    split
    · exact Comp.pure rfl
    · next a0 b0 =>
      refine (Comp.assertEqual (ha a0 (by simp)) (hb b0 (by simp)) ?_).mono fun _ s' _ h => h.2.1
      simpa using h
    · next a0 a1 b0 b1 =>
      exact Comp.assertPermutation2x2 (ha _ (by simp)) (ha _ (by simp)) (hb _ (by simp))
        (hb _ (by simp)) h
    · next hne0 hne1 hne2 =>
      have hn3 : 3 ≤ a.length := by
        match a, b, hlen, hne0, hne1, hne2 with
        | [], _, _, h, _, _ => exact absurd rfl h
        | [x], [y], _, _, h, _ => exact absurd rfl (h x y rfl)
        | [x, y], [z, w], _, _, _, h => exact absurd rfl (h x y z w rfl)
        | _ :: _ :: _ :: _, _, _, _, _, _ => simp
      dsimp only
      have hal : (evals s.W a).length = a.length := by simp
      obtain ⟨f, C, hf, hC, hval, hroute⟩ := route_ok h (by rw [hal]; omega)
      rw [hal] at hf hC hval hroute
      generalize hn : a.length = n at *
      have hLa : numSwitches n false = n / 2 := rfl
      have hLb : numSwitches n true = if n % 2 = 0 then n / 2 - 1 else n / 2 := rfl
      rw [← hLb, ← hLa]
      have h2a := two_mul_numSwitches_le n false
      have h2b := two_mul_numSwitches_le n true
      refine (Comp.switchLayer (numSwitches n false) (fun k => C false (2 * k)) (by omega) ha).bind
        fun ra s1 l1 ⟨a1, a2, a3, a4, a5, a6, a7, a8, a9⟩ => ?_
      refine (Comp.switchLayer (numSwitches n true) (fun k => C true (2 * k)) (by omega)
        fun e he => l1.scoped (hb e he)).bind
        fun rb s2 l2 ⟨b1, b2, b3, b4, b5, b6, b7, b8, b9⟩ => ?_
      rw [l1.evals hb] at b8 b9
      have l12 := l1.trans l2
      let xa : ℕ → Elem p := fun i => (evals s.W a).getD i 0
      let xb : ℕ → Elem p := fun i => (evals s.W b).getD i 0
      have hx : ∀ i < n, xa i = xb (f false i) := by
        intro i hi
        simp only [xa, xb, List.getD_eq_getElem?_getD, hval i hi]
      have hside := sides_perm hf hC xa xb hx
      have ca1 := a8.trans (layer_fst xa (C false) _ fun i hi => hC.switch false i hi)
      have ca2 := a9.trans (layer_snd xa (C false) _ fun i hi => hC.switch false i hi)
      have cb1 := b8.trans (layer_fst xb (C true) _ fun i hi => hC.switch true i hi)
      have cb2 := b9.trans (layer_snd xb (C true) _ fun i hi => hC.switch true i hi)
      rw [← l2.evals a6] at ca1
      rw [← l2.evals a7] at ca2
      have hchild : Comp (if n % 2 = 0 then do
          let b1 ← B.ofOption b[n - 2]?
          let b2 ← B.ofOption b[n - 1]?
          B.assertPermutationFuel fuel ra.2.1 (rb.2.1 ++ [b1])
          B.assertPermutationFuel fuel ra.2.2 (rb.2.2 ++ [b2])
        else do
          let a2 ← B.ofOption a[n - 1]?
          let b2 ← B.ofOption b[n - 1]?
          B.assertPermutationFuel fuel ra.2.1 rb.2.1
          B.assertPermutationFuel fuel (ra.2.2 ++ [a2]) (rb.2.2 ++ [b2]) : B p Unit) s2
          fun _ s' => s'.D = s2.D := by
        have la1 : ra.2.1.length = numSwitches n false := by
          have := congrArg List.length a8
          simpa using this
        have la2 : ra.2.2.length = numSwitches n false := by
          have := congrArg List.length a9
          simpa using this
        split
        · next he =>
          obtain ⟨y1, hy1⟩ : ∃ y, b[n - 2]? = some y := ⟨_, List.getElem?_eq_getElem (by omega)⟩
          obtain ⟨y2, hy2⟩ : ∃ y, b[n - 1]? = some y := ⟨_, List.getElem?_eq_getElem (by omega)⟩
          have hm1 := List.mem_of_getElem? hy1
          have hm2 := List.mem_of_getElem? hy2
          have ev := hC.even he
          have eLb : 2 * numSwitches n true = n - 2 := by rw [hLb, if_pos he]; omega
          have eLa : 2 * numSwitches n false = n := by rw [hLa]; omega
          have e1 : evals s2.W [y1] = [xb (n - 2)] := by
            simp only [List.map_cons, List.map_nil, xb]
            rw [getD_evals _ _ hy1, l12.eval (hb y1 hm1)]
          have e2 : evals s2.W [y2] = [xb (n - 1)] := by
            simp only [List.map_cons, List.map_nil, xb]
            rw [getD_evals _ _ hy2, l12.eval (hb y2 hm2)]
          have hrange : List.range n = List.range (n - 2) ++ [n - 2, n - 1] := by
            conv_lhs => rw [show n = n - 2 + 1 + 1 by omega, List.range_succ, List.range_succ]
            rw [show n - 2 + 1 = n - 1 by omega]; simp
          refine Comp.ofOption_bind hy1 (Comp.ofOption_bind hy2 ?_)
          refine (ih (s := s2) (by omega) (fun e he => l2.scoped (a6 e he)) ?_ ?_).bind
            fun _ s3 l3 D3 => ?_
          · intro e he
            rcases List.mem_append.1 he with he | he
            · exact b6 e he
            · rw [List.mem_singleton] at he
              rw [he]; exact l12.scoped (hb y1 hm1)
          · have := hside false
            rw [evals, evals, List.map_append]
            change (evals s2.W ra.2.1).Perm (evals s2.W rb.2.1 ++ evals s2.W [y1])
            rw [ca1, cb1, e1]
            rw [eLa, eLb]
            refine this.trans ?_
            rw [hrange, List.filter_append, List.map_append]
            simp [ev.1, ev.2]
          · refine (ih (s := s3) (by omega) (fun e he => (l2.trans l3).scoped (a7 e he)) ?_ ?_).mono
              fun _ s4 _ D4 => by rw [D4, D3]
            · intro e he
              rcases List.mem_append.1 he with he | he
              · exact l3.scoped (b7 e he)
              · rw [List.mem_singleton] at he
                rw [he]; exact (l12.trans l3).scoped (hb y2 hm2)
            · have := hside true
              rw [l3.evals (fun e he => l2.scoped (a7 e he)), l3.evals (es := rb.2.2 ++ [y2])
                (by
                  intro e he
                  rcases List.mem_append.1 he with he | he
                  · exact b7 e he
                  · rw [List.mem_singleton] at he
                    rw [he]; exact l12.scoped (hb y2 hm2))]
              rw [evals, evals, List.map_append]
              change (evals s2.W ra.2.2).Perm (evals s2.W rb.2.2 ++ evals s2.W [y2])
              rw [ca2, cb2, e2]
              rw [eLa, eLb]
              refine this.trans ?_
              rw [hrange, List.filter_append, List.map_append]
              simp [ev.1, ev.2]
        · next ho =>
          obtain ⟨y1, hy1⟩ : ∃ y, a[n - 1]? = some y := ⟨_, List.getElem?_eq_getElem (by omega)⟩
          obtain ⟨y2, hy2⟩ : ∃ y, b[n - 1]? = some y := ⟨_, List.getElem?_eq_getElem (by omega)⟩
          have hm1 := List.mem_of_getElem? hy1
          have hm2 := List.mem_of_getElem? hy2
          have od := hC.odd (by omega)
          have eLb : 2 * numSwitches n true = n - 1 := by rw [hLb, if_neg ho]; omega
          have eLa : 2 * numSwitches n false = n - 1 := by rw [hLa]; omega
          have e1 : evals s2.W [y1] = [xa (n - 1)] := by
            simp only [List.map_cons, List.map_nil, xa]
            rw [getD_evals _ _ hy1, l12.eval (ha y1 hm1)]
          have e2 : evals s2.W [y2] = [xb (n - 1)] := by
            simp only [List.map_cons, List.map_nil, xb]
            rw [getD_evals _ _ hy2, l12.eval (hb y2 hm2)]
          have hrange : List.range n = List.range (n - 1) ++ [n - 1] := by
            conv_lhs => rw [show n = n - 1 + 1 by omega, List.range_succ]
          refine Comp.ofOption_bind hy1 (Comp.ofOption_bind hy2 ?_)
          refine (ih (s := s2) (by omega) (fun e he => l2.scoped (a6 e he)) b6 ?_).bind
            fun _ s3 l3 D3 => ?_
          · have := hside false
            rw [ca1, cb1, eLa, eLb]
            rw [hrange, List.filter_append, List.filter_append, List.map_append,
              List.map_append] at this
            simpa [od false, od true] using this
          · have sc1 : ∀ e ∈ ra.2.2 ++ [y1], e.Scoped s2.next := by
              intro e he
              rcases List.mem_append.1 he with he | he
              · exact l2.scoped (a7 e he)
              · rw [List.mem_singleton] at he
                rw [he]; exact l12.scoped (ha y1 hm1)
            have sc2 : ∀ e ∈ rb.2.2 ++ [y2], e.Scoped s2.next := by
              intro e he
              rcases List.mem_append.1 he with he | he
              · exact b7 e he
              · rw [List.mem_singleton] at he
                rw [he]; exact l12.scoped (hb y2 hm2)
            refine (ih (s := s3) ?_ (fun e he => l3.scoped (sc1 e he))
              (fun e he => l3.scoped (sc2 e he)) ?_).mono fun _ s4 _ D4 => by rw [D4, D3]
            · rw [List.length_append, la2, hLa]; simp; omega
            · have := hside true
              rw [l3.evals sc1, l3.evals sc2]
              rw [evals, evals, List.map_append, List.map_append]
              change (evals s2.W ra.2.2 ++ evals s2.W [y1]).Perm
                (evals s2.W rb.2.2 ++ evals s2.W [y2])
              rw [ca2, cb2, e1, e2, eLa, eLb]
              rw [hrange, List.filter_append, List.filter_append, List.map_append,
                List.map_append] at this
              simpa [od false, od true] using this
      refine hchild.bind fun _ s3 l3 D3 => ?_
      refine (Comp.generator ((rb.1.map (·.wire)).reverse ++ (ra.1.map (·.wire)).reverse) s.D
        ?_ ?_ ?_).mono fun _ s4 _ ⟨n4, D4, W4⟩ => D4
      · rw [D3, b2, a2, List.append_assoc]
      · intro v hin hout
        change B.routeGen a b ra.1 rb.1 v = _
        have hle2 := l2.1
        let sw : Bool → List BooleanWire := fun s => if s then rb.1 else ra.1
        have hmem : ∀ i, i ∈ ((rb.1.map (·.wire)).reverse ++ (ra.1.map (·.wire)).reverse) ↔
            ∃ s, ∃ w ∈ sw s, w.wire = i := by
          intro i
          simp only [List.mem_append, List.mem_reverse, List.mem_map]
          constructor
          · rintro (⟨w, h1, h2⟩ | ⟨w, h1, h2⟩)
            · exact ⟨true, w, h1, h2⟩
            · exact ⟨false, w, h1, h2⟩
          · rintro ⟨s, w, h1, h2⟩
            cases s
            · exact Or.inr ⟨w, h1, h2⟩
            · exact Or.inl ⟨w, h1, h2⟩
        have hinja : ∀ (k k' : ℕ) (w w' : BooleanWire), ra.1[k]? = some w → ra.1[k']? = some w' → w.wire = w'.wire →
            k = k' := by
          intro k k' w w' hk hk' he
          have hnd : (ra.1.map (·.wire)).Nodup := a3.imp fun h => Nat.ne_of_lt h
          obtain ⟨q1, q2⟩ := List.getElem?_eq_some_iff.1 hk
          obtain ⟨q3, q4⟩ := List.getElem?_eq_some_iff.1 hk'
          refine (List.Nodup.getElem_inj_iff hnd (hi := by simpa using q1)
            (hj := by simpa using q3)).1 ?_
          simp only [List.getElem_map, q2, q4, he]
        have hinjb : ∀ (k k' : ℕ) (w w' : BooleanWire), rb.1[k]? = some w → rb.1[k']? = some w' → w.wire = w'.wire →
            k = k' := by
          intro k k' w w' hk hk' he
          have hnd : (rb.1.map (·.wire)).Nodup := b3.imp fun h => Nat.ne_of_lt h
          obtain ⟨q1, q2⟩ := List.getElem?_eq_some_iff.1 hk
          obtain ⟨q3, q4⟩ := List.getElem?_eq_some_iff.1 hk'
          refine (List.Nodup.getElem_inj_iff hnd (hi := by simpa using q1)
            (hj := by simpa using q3)).1 ?_
          simp only [List.getElem_map, q2, q4, he]
        have hab : ∀ w ∈ ra.1, ∀ w' ∈ rb.1, w.wire ≠ w'.wire := by
          intro w hw w' hw' he
          have q1 := (a4 w hw).2
          have q2 := (b4 w' hw').1
          omega
        obtain ⟨v', e, hv1, hv2⟩ := hroute sw (by intro s; cases s; exacts [a1, b1])
          (by
            intro s s' k k' w w' hk hk' he
            cases s <;> cases s'
            · exact ⟨rfl, hinja k k' w w' hk hk' he⟩
            · exact absurd he (hab w (List.mem_of_getElem? hk) w' (List.mem_of_getElem? hk'))
            · exact absurd he.symm (hab w' (List.mem_of_getElem? hk') w (List.mem_of_getElem? hk))
            · exact ⟨rfl, hinjb k k' w w' hk hk' he⟩)
          v (by
            intro s w hw
            exact hout _ ((hmem _).2 ⟨s, w, hw, rfl⟩))
        have l13 := l12.trans l3
        unfold B.routeGen
        rw [mapM_evaluate (w := s3.W) fun i hi => hin i (List.mem_append_left _ hi),
          mapM_evaluate (w := s3.W) fun i hi => hin i (List.mem_append_right _ hi),
          l13.evals ha, l13.evals hb]
        dsimp only [Option.bind_eq_bind, Option.bind_some]
        refine (show route _ _ (sw false) (sw true) v = _ from e).trans ?_
        congr 1
        funext i
        by_cases hi : i ∈ ((rb.1.map (·.wire)).reverse ++ (ra.1.map (·.wire)).reverse)
        · rw [if_pos hi]
          obtain ⟨sd, w, hw, rfl⟩ := (hmem i).1 hi
          obtain ⟨k, hk, hkw⟩ := List.getElem_of_mem hw
          have hk' : (sw sd)[k]? = some w := by rw [List.getElem?_eq_getElem hk, hkw]
          rw [hv1 sd k w hk']
          congr 1
          cases sd
          · rw [l3.2 _ (lt_of_lt_of_le (a4 w hw).2 hle2), l2.2 _ (a4 w hw).2, a5 k w hk']
          · rw [l3.2 _ (b4 w hw).2, b5 k w hk']
        · rw [if_neg hi]
          refine hv2 i fun sd w hw he => hi ((hmem i).2 ⟨sd, w, hw, he⟩)
      · intro i hi
        have hlt : i < s.next := by
          rcases List.mem_append.1 hi with hi | hi
          · obtain ⟨e, he, hie⟩ := List.mem_flatMap.1 hi
            exact ha e he i hie
          · obtain ⟨e, he, hie⟩ := List.mem_flatMap.1 hi
            exact hb e he i hie
        have q1 := l1.1
        have q2 := (l12.trans l3).1
        refine ⟨by omega, fun o ho => ?_⟩
        simp only [List.mem_append, List.mem_reverse, List.mem_map] at ho
        rcases ho with ⟨w, h1, rfl⟩ | ⟨w, h1, rfl⟩
        · have := (b4 w h1).1; omega
        · have := (a4 w h1).1; omega

theorem assertPermutation {s : Hon p} {a b : List (Expression p)}
    (ha : ∀ e ∈ a, e.Scoped s.next) (hb : ∀ e ∈ b, e.Scoped s.next)
    (h : (evals s.W a).Perm (evals s.W b)) :
    Comp (B.assertPermutation a b) s fun _ s' => s'.D = s.D :=
  assertPermutationFuel _ (le_refl _) ha hb h

end Comp

end R1CS
