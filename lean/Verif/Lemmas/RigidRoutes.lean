import Verif.Lemmas.RigidNetwork

/-!
# Wires which are determined: networks which carry the values in one way only
-/

set_option linter.unusedSectionVars false

namespace R1CS

variable {p : ℕ} [hp : Fact p.Prime] {α β γ : Type}

/-- The wires allocated by the call are determined by the earlier ones and by something observed. -/
def DetBy (n : ℕ) (m : B p α) (obs : α → Assign p → γ) (S : α → ℕ → Prop) : Prop :=
  ∀ (b b' : Builder p) (a : α), b.nextWireIndex = n → m b = some (a, b') →
    n ≤ b'.nextWireIndex ∧ S a b'.nextWireIndex ∧
    (∀ W, Satisfies W b'.constraints → Satisfies W b.constraints) ∧
    ∀ W1 W2 : Assign p, Satisfies W1 b'.constraints → Satisfies W2 b'.constraints →
      Agree n W1 W2 → obs a W1 = obs a W2 → Agree b'.nextWireIndex W1 W2

namespace Det

variable {n : ℕ} {P : Assign p → Prop} {S : α → ℕ → Prop}

/-- A call which is determined by something that the rest determines. -/
theorem ofBy {m : B p α} {f : α → B p β} {obs : α → Assign p → γ} {T : α → Assign p → Prop}
    {U : α → Assign p → Prop} {R : β → ℕ → Prop} (hm : DetBy n m obs S) (E : Enforces m T)
    (Ef : ∀ a k, n ≤ k → S a k → Enforces (f a) fun _ W => U a W)
    (hd : ∀ a W1 W2, Agree n W1 W2 → P W1 → P W2 → T a W1 → T a W2 → U a W1 → U a W2 →
      obs a W1 = obs a W2)
    (hf : ∀ a k, n ≤ k → S a k → Det k (fun W => P W ∧ T a W ∧ U a W) (f a) R) :
    Det n P (m >>= f) R := by
  intro b b' c hb hr
  obtain ⟨a, b1, r1, r2⟩ := B.bind_run hr
  obtain ⟨l1, s1, m1, d1⟩ := hm b b1 a hb r1
  obtain ⟨l2, s2, m2, d2⟩ := hf a _ l1 s1 b1 b' c rfl r2
  refine ⟨l1.trans l2, s2, fun W hW => m1 W (m2 W hW), fun W1 W2 h1 h2 ha p1 p2 => ?_⟩
  have t1 := (E _ _ _ r1 _ (m2 _ h1)).2
  have t2 := (E _ _ _ r1 _ (m2 _ h2)).2
  have u1 := (Ef a _ l1 s1 _ _ _ r2 _ h1).2
  have u2 := (Ef a _ l1 s1 _ _ _ r2 _ h2).2
  exact d2 W1 W2 h1 h2 (d1 W1 W2 (m2 _ h1) (m2 _ h2) ha (hd a W1 W2 ha p1 p2 t1 t2 u1 u2))
    ⟨p1, t1, u1⟩ ⟨p2, t2, u2⟩

end Det

namespace DetBy

theorem createSwitch {n : ℕ} {x y : Expression p} (hx : x.Scoped n) (hy : y.Scoped n) :
    DetBy n (B.createSwitch x y) (fun r W => W r.1.wire) fun r k => r.1.wire < k ∧
      r.2.1.Scoped k ∧ r.2.2.Scoped k := by
  intro b b' r hb hr
  unfold B.createSwitch at hr
  obtain ⟨w, b1, r1, r2⟩ := B.bind_run hr
  have h1 : w = ⟨n⟩ ∧ b1.nextWireIndex = n + 1 ∧
      ∀ W, Satisfies W b1.constraints → Satisfies W b.constraints := by
    subst hb
    have e : (B.booleanWire : B p BooleanWire) b = some (⟨b.nextWireIndex⟩,
      { b with nextWireIndex := b.nextWireIndex + 1, constraints := b.constraints ++
        [⟨Expression.ofWire b.nextWireIndex, Expression.ofWire b.nextWireIndex - 1, 0⟩] }) := rfl
    rw [e] at r1
    injection r1 with r1
    injection r1 with ra rb
    subst ra
    subst rb
    exact ⟨rfl, rfl, fun W hW => ⟨hW.one, fun c hc => hW.all c (List.mem_append_left _ hc)⟩⟩
  obtain ⟨rfl, n1, m1⟩ := h1
  obtain ⟨c, b2, r3, r4⟩ := B.bind_run r2
  obtain ⟨l2, s2, m2, d2⟩ := Det.selection (n := n + 1) (P := fun _ => True)
    (c := BooleanExpression.ofWire (p := p) ⟨n⟩) (x := y) (y := x)
    (.ofWire (Nat.lt_succ_self n)) (hy.mono (Nat.le_succ n)) (hx.mono (Nat.le_succ n)) b1 b2 c n1 r3
  rw [B.pure_eq] at r4
  obtain ⟨rfl, rfl⟩ := Prod.ext_iff.1 (Option.some.inj r4)
  dsimp only at *
  refine ⟨by omega, ⟨by omega, s2, ((hx.mono (by omega)).add (hy.mono (by omega))).sub s2⟩,
    fun W hW => m1 W (m2 W hW), fun W1 W2 h1 h2 ha ho => d2 W1 W2 h1 h2 (fun i hi => ?_) trivial
      trivial⟩
  rcases Nat.lt_succ_iff_lt_or_eq.1 hi with hi | rfl
  · exact ha i hi
  · exact ho

theorem switchLayer (k : ℕ) : ∀ {n : ℕ} {xs : List (Expression p)}, (∀ e ∈ xs, e.Scoped n) →
    DetBy n (B.switchLayer k xs) (fun r W => r.1.map fun w => W w.wire) fun r k =>
      (∀ w ∈ r.1, w.wire < k) ∧ (∀ e ∈ r.2.1, e.Scoped k) ∧ ∀ e ∈ r.2.2, e.Scoped k := by
  induction k with
  | zero =>
    intro n xs _ b b' r hb hr
    unfold B.switchLayer at hr
    rw [B.pure_eq] at hr
    obtain ⟨rfl, rfl⟩ := Prod.ext_iff.1 (Option.some.inj hr)
    exact ⟨hb.ge, by simp, fun _ h => h, fun _ _ _ _ ha _ => hb ▸ ha⟩
  | succ k ih =>
    intro n xs hx b b' r hb hr
    match xs, hx with
    | [], _ => exact absurd hr (by simp [B.switchLayer, B.panic])
    | [_], _ => exact absurd hr (by simp [B.switchLayer, B.panic])
    | x :: y :: rest, hx =>
      unfold B.switchLayer at hr
      obtain ⟨q, b1, r1, r2⟩ := B.bind_run hr
      obtain ⟨q', b2, r3, r4⟩ := B.bind_run r2
      obtain ⟨l1, ⟨s1, s2, s3⟩, m1, d1⟩ := createSwitch (hx x (by simp)) (hx y (by simp)) b b1 q hb r1
      obtain ⟨l2, ⟨t1, t2, t3⟩, m2, d2⟩ := ih (n := b1.nextWireIndex) (xs := rest)
        (fun e he => (hx e (by simp [he])).mono l1) b1 b2 q' rfl r3
      change some _ = some _ at r4
      obtain ⟨rfl, rfl⟩ := Prod.ext_iff.1 (Option.some.inj r4)
      refine ⟨l1.trans l2, ⟨?_, ?_, ?_⟩, fun W hW => m1 W (m2 W hW), fun W1 W2 h1 h2 ha ho => ?_⟩
      · intro w hw
        rcases List.mem_cons.1 hw with rfl | hw
        · exact lt_of_lt_of_le s1 l2
        · exact t1 w hw
      · intro e he
        rcases List.mem_cons.1 he with rfl | he
        · exact s2.mono l2
        · exact t2 e he
      · intro e he
        rcases List.mem_cons.1 he with rfl | he
        · exact s3.mono l2
        · exact t3 e he
      · simp only [List.map_cons, List.cons.injEq] at ho
        exact d2 W1 W2 h1 h2 (d1 W1 W2 (m2 _ h1) (m2 _ h2) ha ho.1) ho.2

theorem layers {n : ℕ} {a b : List (Expression p)} (ha : ∀ e ∈ a, e.Scoped n)
    (hb : ∀ e ∈ b, e.Scoped n) :
    DetBy n (R1CS.layers a b) (fun r W => r.settings W) Layers.Scoped := by
  intro c c' r hn hr
  unfold R1CS.layers at hr
  obtain ⟨q, b1, r1, r2⟩ := B.bind_run hr
  obtain ⟨q', b2, r3, r4⟩ := B.bind_run r2
  obtain ⟨l1, ⟨s1, s2, s3⟩, m1, d1⟩ := switchLayer _ ha c b1 q hn r1
  obtain ⟨l2, ⟨t1, t2, t3⟩, m2, d2⟩ := switchLayer _ (n := b1.nextWireIndex)
    (fun e he => (hb e he).mono l1) b1 b2 q' rfl r3
  rw [B.pure_eq] at r4
  obtain ⟨rfl, rfl⟩ := Prod.ext_iff.1 (Option.some.inj r4)
  refine ⟨l1.trans l2, ⟨⟨fun w hw => lt_of_lt_of_le (s1 w hw) l2, t1⟩,
    fun e he => (s2 e he).mono l2, fun e he => (s3 e he).mono l2, t2, t3⟩,
    fun W hW => m1 W (m2 W hW), fun W1 W2 h1 h2 hag ho => ?_⟩
  obtain ⟨o1, o2⟩ := Prod.ext_iff.1 ho
  exact d2 W1 W2 h1 h2 (d1 W1 W2 (m2 _ h1) (m2 _ h2) hag o1) o2

end DetBy

/-- The setting of a list of switches. -/
def settingOf (ws : List BooleanWire) (W : Assign p) (i : ℕ) : Bool :=
  decide ((ws.map fun w => W w.wire).getD i 0 = 1)

theorem settingOf_inj {ws : List BooleanWire} {k : ℕ} (hk : ws.length = k) {W1 W2 : Assign p}
    (h1 : ∀ w ∈ ws, IsBool (W1 w.wire)) (h2 : ∀ w ∈ ws, IsBool (W2 w.wire))
    (h : ∀ i < k, settingOf ws W1 i = settingOf ws W2 i) :
    ws.map (fun w => W1 w.wire) = ws.map fun w => W2 w.wire := by
  refine List.ext_getElem (by simp) fun i hi _ => ?_
  simp only [List.length_map] at hi
  have e := h i (by omega)
  unfold settingOf at e
  rw [List.getD_eq_getElem?_getD, List.getD_eq_getElem?_getD, List.getElem?_map,
    List.getElem?_map, List.getElem?_eq_getElem hi] at e
  simp only [Option.map_some, Option.getD_some] at e
  simp only [List.getElem_map]
  have b1 := h1 _ (List.getElem_mem hi)
  have b2 := h2 _ (List.getElem_mem hi)
  rcases b1 with b1 | b1 <;> rcases b2 with b2 | b2 <;> simp [b1, b2] at e ⊢

namespace Enforces

theorem switchLayer_settings (k : ℕ) : ∀ xs : List (Expression p),
    Enforces (B.switchLayer k xs) fun r W => r.1.length = k ∧ (∀ w ∈ r.1, IsBool (W w.wire)) ∧
      evals W r.2.1 = firstOutputs k (settingOf r.1 W) (evals W xs) ∧
      evals W r.2.2 = secondOutputs k (settingOf r.1 W) (evals W xs) := by
  induction k with
  | zero =>
    intro xs
    unfold B.switchLayer
    exact Enforces.pure fun W _ => ⟨rfl, by simp, rfl, rfl⟩
  | succ k ih =>
    intro xs
    match xs with
    | [] => exact Enforces.panic
    | [_] => exact Enforces.panic
    | x :: y :: rest =>
      unfold B.switchLayer
      refine (Enforces.createSwitch x y).bind fun q => (ih rest).bind fun q' =>
        Enforces.pure fun W _ ⟨h1, h2, h3, h4⟩ ⟨g1, g2, g3⟩ => ?_
      have e0 : settingOf (q.1 :: q'.1) W 0 = decide (W q.1.wire = 1) := rfl
      have e1 : ∀ i, settingOf (q.1 :: q'.1) W (i + 1) = settingOf q'.1 W i := fun i => rfl
      refine ⟨by simp [h1], ?_, ?_, ?_⟩
      · intro w hw
        rcases List.mem_cons.1 hw with rfl | hw
        · exact g1
        · exact h2 w hw
      · unfold firstOutputs at h3 ⊢
        rw [List.range_succ_eq_map]
        simp only [List.map_cons, List.map_map, e0]
        refine List.cons_eq_cons.2 ⟨?_, ?_⟩
        · rw [g2]; by_cases hw : W q.1.wire = 1 <;> simp [hw]
        · refine h3.trans (List.map_congr_left fun i _ => ?_)
          simp only [Function.comp, e1, Nat.succ_eq_add_one]
          rw [show 2 * (i + 1) + 1 = 2 * i + 1 + 1 + 1 by ring, show 2 * (i + 1) = 2 * i + 1 + 1 by ring]
          simp only [List.getD_cons_succ]
      · unfold secondOutputs at h4 ⊢
        rw [List.range_succ_eq_map]
        simp only [List.map_cons, List.map_map, e0]
        refine List.cons_eq_cons.2 ⟨?_, ?_⟩
        · rw [g3]; by_cases hw : W q.1.wire = 1 <;> simp [hw]
        · refine h4.trans (List.map_congr_left fun i _ => ?_)
          simp only [Function.comp, e1, Nat.succ_eq_add_one]
          rw [show 2 * (i + 1) + 1 = 2 * i + 1 + 1 + 1 by ring, show 2 * (i + 1) = 2 * i + 1 + 1 by ring]
          simp only [List.getD_cons_succ]

theorem layers {a b : List (Expression p)} (hlen : b.length = a.length) :
    Enforces (R1CS.layers a b) fun r W => (r.1.1.length = a.length / 2 ∧
        r.2.1.length = (a.length - 1) / 2 ∧ (∀ w ∈ r.1.1, IsBool (W w.wire)) ∧
        ∀ w ∈ r.2.1, IsBool (W w.wire)) ∧
      r.Fits (evals W a) (evals W b) (settingOf r.1.1 W) (settingOf r.2.1 W) W := by
  unfold R1CS.layers
  refine (switchLayer_settings _ _).bind fun q => (switchLayer_settings _ _).bind fun q' =>
    Enforces.pure fun W _ ⟨h1, h2, h3, h4⟩ ⟨g1, g2, g3, g4⟩ => ?_
  refine ⟨⟨g1, h1, g2, h2⟩, ?_⟩
  unfold Layers.Fits
  simp only [List.length_map, hlen]
  exact ⟨g3, g4, h3, h4⟩

end Enforces

/-- A network which can carry the values in at most one way determines its wires. -/
theorem Det.assertPermutationFuel (fuel : ℕ) : ∀ {n : ℕ} {P : Assign p → Prop}
    {a b : List (Expression p)}, (∀ e ∈ a, e.Scoped n) → (∀ e ∈ b, e.Scoped n) →
    (∀ W, P W → ¬ TwoRoutes fuel (evals W a) (evals W b)) →
    Det n P (B.assertPermutationFuel fuel a b) fun _ _ => True := by
  induction fuel with
  | zero =>
    intro n P a b _ _ _
    unfold B.assertPermutationFuel
    exact (Det.require _).bind fun _ _ _ _ => (Det.require _).post fun _ _ _ _ => trivial
  | succ fuel ih =>
    intro n P a b ha hb hP
    by_cases h3 : 3 ≤ a.length
    · rw [assertPermutationFuel_eq h3]
      refine (Det.require _).bind fun _ k0 _ ⟨hlen, hk0⟩ => ?_
      subst hk0
      have hlen := hlen.symm
      refine Det.ofBy (DetBy.layers ha hb) (Enforces.layers hlen)
        (U := fun r W => ∀ g h, r.Fits (evals W a) (evals W b) g h W →
          Balanced (evals W a) (evals W b) g h) ?_ ?_ ?_
      · intro r k hk hr
        obtain ⟨A1, A2, B1, B2, e, -, -, -, -, v⟩ := children_eq (fuel := fuel) hlen h3 ha hb hk hr
        rw [e]
        refine Enforces.bind (Q := fun _ W => (evals W A1).Perm (evals W B1) ∧
          (evals W A2).Perm (evals W B2)) ?_ fun _ => (Enforces.generator _ _).mono
          fun _ W _ _ h g h' hf => ?_
        · exact (Enforces.assertPermutationFuel _ _ _).bind fun _ =>
            (Enforces.assertPermutationFuel _ _ _).mono fun _ W _ h1 h2 => ⟨h2, h1⟩
        · obtain ⟨v1, v2, v3, v4⟩ := v W g h' hf
          unfold Balanced
          rw [← v1, ← v2, ← v3, ← v4]
          exact h
      · intro r W1 W2 hag p1 p2 ⟨⟨t1, t2, t3, t4⟩, f1⟩ ⟨⟨_, _, t5, t6⟩, f2⟩ u1 u2
        have ea : evals W2 a = evals W1 a := List.map_congr_left fun e he => (hag.eval (ha e he)).symm
        have eb : evals W2 b = evals W1 b := List.map_congr_left fun e he => (hag.eval (hb e he)).symm
        have b1 := u1 _ _ f1
        have b2 := u2 _ _ f2
        rw [ea, eb] at b2
        have hno := hP W1 p1
        have hset : (∀ k < a.length / 2, settingOf r.1.1 W1 k = settingOf r.1.1 W2 k) ∧
            ∀ k < (a.length - 1) / 2, settingOf r.2.1 W1 k = settingOf r.2.1 W2 k := by
          by_contra hc
          refine hno (Or.inr ⟨by simpa using h3, _, _, b1, Or.inl ⟨_, _, b2, ?_⟩⟩)
          simp only [List.length_map]
          rw [not_and_or] at hc
          push Not at hc
          exact hc
        exact Prod.ext (settingOf_inj t1 t3 t5 hset.1) (settingOf_inj t2 t4 t6 hset.2)
      · intro r k hk hr
        obtain ⟨A1, A2, B1, B2, e, sA1, sB1, sA2, sB2, v⟩ :=
          children_eq (fuel := fuel) hlen h3 ha hb hk hr
        rw [e]
        have hno : ∀ W, (P W ∧ ((r.1.1.length = a.length / 2 ∧
              r.2.1.length = (a.length - 1) / 2 ∧ (∀ w ∈ r.1.1, IsBool (W w.wire)) ∧
              ∀ w ∈ r.2.1, IsBool (W w.wire)) ∧
            r.Fits (evals W a) (evals W b) (settingOf r.1.1 W) (settingOf r.2.1 W) W) ∧
            ∀ g h, r.Fits (evals W a) (evals W b) g h W →
              Balanced (evals W a) (evals W b) g h) →
            ¬ TwoRoutes fuel (evals W A1) (evals W B1) ∧
            ¬ TwoRoutes fuel (evals W A2) (evals W B2) := by
          rintro W ⟨p1, ⟨-, f1⟩, u1⟩
          obtain ⟨v1, v2, v3, v4⟩ := v W _ _ f1
          have b1 := u1 _ _ f1
          rw [v1, v2, v3, v4]
          exact ⟨fun hc => hP W p1 (Or.inr ⟨by simpa using h3, _, _, b1, Or.inr (Or.inl hc)⟩),
            fun hc => hP W p1 (Or.inr ⟨by simpa using h3, _, _, b1, Or.inr (Or.inr hc)⟩)⟩
        refine Det.bind (S := fun _ _ => True) ?_ fun _ k2 _ _ =>
          (Det.generator _ _).post fun _ _ _ _ => trivial
        exact (ih sA1 sB1 fun W h => (hno W h).1).bind fun _ k1 hk1 _ =>
          ih (fun e he => (sA2 e he).mono hk1) (fun e he => (sB2 e he).mono hk1)
            fun W h => (hno W h).2
    · unfold B.assertPermutationFuel
      refine (Det.require _).bind fun _ k0 _ ⟨hlen, hk0⟩ => ?_
      subst hk0
      split
      · exact Det.pure trivial
      · exact (Det.assertEqual _ _).post fun _ _ _ _ => trivial
      · next x y z w _ =>
        refine Det.assertPermutation2x2 (ha x (by simp)) (ha y (by simp)) (hb z (by simp))
          fun W hW hc => hP W hW (Or.inl ⟨rfl, ?_, ?_⟩)
        · simp [hc.1, hc.2.1, hc.2.2]
        · simp [hc.1]
      · next h0 h1 h2 =>
        match a, b, hlen, h3, h0, h1, h2 with
        | [], _, _, _, h, _, _ => exact absurd rfl h
        | [x], [y], _, _, _, h, _ => exact absurd rfl (h x y rfl)
        | [x, y], [z, w], _, _, _, _, h => exact absurd rfl (h x y z w rfl)
        | _ :: _ :: _ :: _, _, _, h, _, _, _ => simp at h

/-- For three elements the condition on the outer switches is exact. -/
theorem twoRoutes_three {x0 x1 x2 y0 y1 y2 : Elem p} :
    TwoRoutes 3 [x0, x1, x2] [y0, y1, y2] ↔
      [x0, x1, x2].Perm [y0, y1, y2] ∧ Doubtful [x0, x1, x2] [y0, y1, y2] := by
  refine ⟨fun h => ?_, fun h => h.2.twoRoutes (le_refl 3) h.1⟩
  have s1 : ∀ g, enteringFirst g [x0, x1, x2] = [if g 0 then x1 else x0] := fun g => by
    simp [enteringFirst, firstOutputs]
  have s2 : ∀ g, enteringSecond g [x0, x1, x2] = [(if g 0 then x0 else x1), x2] := fun g => by
    simp [enteringSecond, secondOutputs]
  have s3 : ∀ h, leavingFirst h [y0, y1, y2] = [if h 0 then y1 else y0] := fun g => by
    simp [leavingFirst, firstOutputs]
  have s4 : ∀ h, leavingSecond h [y0, y1, y2] = [(if h 0 then y0 else y1), y2] := fun g => by
    simp [leavingSecond, secondOutputs]
  have bal : ∀ g h, Balanced [x0, x1, x2] [y0, y1, y2] g h →
      (if g 0 then x1 else x0) = (if h 0 then y1 else y0) ∧
      [(if g 0 then x0 else x1), x2].Perm [(if h 0 then y0 else y1), y2] := by
    intro g h hb
    unfold Balanced at hb
    rw [s1, s2, s3, s4] at hb
    exact ⟨List.singleton_perm_singleton.1 hb.1, hb.2⟩
  rcases h with ⟨h, -⟩ | ⟨-, g, h, hbal, hc⟩
  · simp at h
  obtain ⟨e1, e2⟩ := bal g h hbal
  constructor
  · have sw : ∀ (c : Bool) (u v w : Elem p), [u, v, w].Perm
        ((if c then v else u) :: [(if c then u else v), w]) := by
      intro c u v w
      cases c
      · exact List.Perm.refl _
      · exact List.Perm.swap _ _ _
    refine (sw (g 0) x0 x1 x2).trans (List.Perm.trans ?_ (sw (h 0) y0 y1 y2).symm)
    rw [e1]
    exact e2.cons _
  · have two : ∀ k < 3 / 2, k = 0 := by decide
    have D1 : x0 = x1 → Doubtful [x0, x1, x2] [y0, y1, y2] := fun e => Or.inl ⟨0, by simp, e⟩
    have D2 : y0 = y1 → Doubtful [x0, x1, x2] [y0, y1, y2] := fun e => Or.inr (Or.inl ⟨0, by simp, e⟩)
    have D3 : x0 = y0 ∧ x1 = y1 ∨ x0 = y1 ∧ x1 = y0 → Doubtful [x0, x1, x2] [y0, y1, y2] :=
      fun e => Or.inr (Or.inr ⟨0, 0, by simp, by simp, e⟩)
    rcases hc with ⟨g', h', hbal', hne⟩ | hc | hc
    · obtain ⟨e3, -⟩ := bal g' h' hbal'
      have hne' : g 0 ≠ g' 0 ∨ h 0 ≠ h' 0 := by
        simp only [List.length_cons, List.length_nil] at hne
        rcases hne with ⟨k, hk, hne⟩ | ⟨k, hk, hne⟩
        · rw [two k hk] at hne; exact Or.inl hne
        · rw [two k hk] at hne; exact Or.inr hne
      generalize g 0 = c1 at *
      generalize g' 0 = c2 at *
      generalize h 0 = c3 at *
      generalize h' 0 = c4 at *
      cases c1 <;> cases c2 <;> cases c3 <;> cases c4 <;> simp at hne' e1 e3 <;>
        first
        | exact D1 (e1.trans e3.symm)
        | exact D1 (e3.trans e1.symm)
        | exact D2 (e1.symm.trans e3)
        | exact D2 (e3.symm.trans e1)
        | exact D3 (Or.inl ⟨e1, e3⟩)
        | exact D3 (Or.inl ⟨e3, e1⟩)
        | exact D3 (Or.inr ⟨e1, e3⟩)
        | exact D3 (Or.inr ⟨e3, e1⟩)
    · rcases hc with ⟨h, -⟩ | ⟨h, -⟩ <;> simp [enteringFirst, firstOutputs] at h
    · rcases hc with ⟨-, hp, ha⟩ | ⟨h, -⟩
      · have q := fun x hx y hy => ha x hx y hy
        have m1 : (if h 0 then y0 else y1) ∈ enteringSecond g [x0, x1, x2] :=
          hbal.2.mem_iff.2 (by rw [s4]; simp)
        have m2 : (if g 0 then x0 else x1) ∈ enteringSecond g [x0, x1, x2] := by rw [s2]; simp
        have e3 := q _ m2 _ m1
        apply D3
        generalize g 0 = c1 at *
        generalize h 0 = c3 at *
        cases c1 <;> cases c3 <;> simp at e1 e3 <;> simp [e1, e3]
      · simp [enteringSecond, secondOutputs] at h

end R1CS
