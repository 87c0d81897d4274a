import Verif.Lemmas.Routing
import Verif.Lemmas.Logic

/-!
# `route` on wires follows the abstract routing algorithm
-/

set_option linter.unusedSectionVars false

namespace R1CS

variable {p : ℕ} [hp : Fact p.Prime]

/-- What is fixed during routing. -/
structure RouteCtx (n : ℕ) (f : Bool → ℕ → ℕ) (abMap : BiMap) (sw : Bool → List BooleanWire) :
    Prop where
  map : ∀ s i, i < n → abMapBySide abMap s i = some (f s i)
  len : ∀ s, (sw s).length = numSwitches n s
  inj : ∀ (s s' : Bool) (k k' : ℕ) (w w' : BooleanWire), (sw s)[k]? = some w → (sw s')[k']? = some w' → w.wire = w'.wire →
    s = s' ∧ k = k'

/-- The wire values hold exactly the settings of the abstract state, and those of `v0` elsewhere. -/
structure Sim (sw : Bool → List BooleanWire) (v0 : WireValues p) (st : RouteState p) (t : RS) :
    Prop where
  set : ∀ (s : Bool) (k : ℕ) (w : BooleanWire), (sw s)[k]? = some w → st.values w.wire = (t.set s k).map Elem.ofBool
  frame : ∀ i, (∀ s, ∀ w ∈ sw s, w.wire ≠ i) → st.values i = v0 i
  pend : st.partialRoutes = t.pend
  scan : st.scanIndex = t.scan

variable {n : ℕ} {f : Bool → ℕ → ℕ} {abMap : BiMap} {sw : Bool → List BooleanWire}
  {v0 : WireValues p} {st : RouteState p} {t t' : RS}

theorem Sim.contains (h : Sim sw v0 st t) {s : Bool} {k : ℕ} {w : BooleanWire}
    (hw : (sw s)[k]? = some w) : st.values.containsBoolean w = (t.set s k).isSome := by
  unfold WireValues.containsBoolean WireValues.contains
  rw [h.set s k w hw, Option.isSome_map]

theorem sim_enqueue (hc : RouteCtx n f abMap sw) (h : Sim sw v0 st t) {s : Bool} {i : ℕ} {u : Bool}
    (ha : absEnqueue n f s i u t = some t') :
    ∃ st', enqueueOtherSide abMap sw s i u st = some st' ∧ Sim sw v0 st' t' := by
  unfold absEnqueue at ha
  split at ha
  · simp at ha
  next hi =>
  unfold enqueueOtherSide
  rw [hc.map s i (by omega)]
  dsimp only [Option.bind_eq_bind, Option.bind_some]
  split at ha
  · next hL =>
    rw [List.getElem?_eq_none (by rw [hc.len]; exact hL)]
    rw [← Option.some.inj ha]
    exact ⟨st, rfl, h⟩
  next hL =>
  have hlt : f s i / 2 < (sw !s).length := by rw [hc.len]; omega
  obtain ⟨w, hw⟩ : ∃ w, (sw !s)[f s i / 2]? = some w := ⟨_, List.getElem?_eq_getElem hlt⟩
  rw [hw]
  dsimp only
  rw [h.contains hw]
  split at ha
  · next hs =>
    rw [if_pos hs, ← Option.some.inj ha]
    exact ⟨st, rfl, h⟩
  next hs =>
  rw [if_neg hs, h.pend]
  have hpend : Sim sw v0 { st with partialRoutes := fun s_1 =>
      if s_1 = !s then ((t.pend !s).insert compare (f s i) u) else t.pend s_1 }
      { t with pend := upd t.pend (!s) ((t.pend !s).insert compare (f s i) u) } :=
    ⟨h.set, h.frame, rfl, h.scan⟩
  change ∃ st', (match BMap.get compare (sibling (f s i)) (t.pend !s) with
      | some siblingSubnet => if u ≠ siblingSubnet then pure st else none
      | none => _) = some st' ∧ _
  split at ha
  · next u' hg =>
    rw [hg]
    dsimp only
    split at ha
    · next hne =>
      rw [if_pos hne, ← Option.some.inj ha]
      exact ⟨st, rfl, h⟩
    · simp at ha
  · next hg =>
    rw [hg]
    dsimp only
    split at ha
    · next o ho =>
      rw [ho]
      dsimp only
      split at ha
      · next he =>
        rw [if_pos he, ← Option.some.inj ha]
        exact ⟨_, rfl, hpend⟩
      · simp at ha
    · next ho =>
      rw [ho, ← Option.some.inj ha]
      exact ⟨_, rfl, hpend⟩

theorem sim_switch (hc : RouteCtx n f abMap sw) (h : Sim sw v0 st t) {s : Bool} {k : ℕ} {b : Bool}
    (ha : absSwitch n f s k b t = some t') :
    ∃ st', routeSwitch abMap sw s k b st = some st' ∧ Sim sw v0 st' t' := by
  unfold absSwitch at ha
  split at ha
  · simp at ha
  next hk =>
  split at ha
  · simp at ha
  next hs =>
  have hlt : k < (sw s).length := by rw [hc.len]; omega
  obtain ⟨w, hw⟩ : ∃ w, (sw s)[k]? = some w := ⟨_, List.getElem?_eq_getElem hlt⟩
  unfold routeSwitch
  rw [hw]
  dsimp only [Option.bind_eq_bind, Option.bind_some]
  have hnone : st.values w.wire = none := by
    rw [h.set s k w hw]
    have : t.set s k = none := by simpa using hs
    rw [this]; rfl
  have hset : st.values.setBoolean w b =
      some (fun j => if j = w.wire then some (Elem.ofBool b) else st.values j) :=
    set_eq_some hnone _
  rw [hset]
  dsimp only [Option.bind_some]
  obtain ⟨t1, ht1, ht2⟩ := Option.bind_eq_some_iff.1 ha
  have h1 : Sim sw v0
      { st with values := fun j => if j = w.wire then some (Elem.ofBool b) else st.values j }
      { t with set := setSwitch t.set s k b } := by
    refine ⟨?_, ?_, h.pend, h.scan⟩
    · intro s' k' w' hw'
      dsimp only
      unfold setSwitch
      by_cases he : s' = s ∧ k' = k
      · rw [if_pos he]
        obtain ⟨rfl, rfl⟩ := he
        rw [hw] at hw'
        rw [Option.some.inj hw', if_pos rfl]; rfl
      · rw [if_neg he, if_neg]
        · exact h.set s' k' w' hw'
        · intro hww
          exact he (hc.inj _ _ _ _ _ _ hw' hw hww)
    · intro i hi
      dsimp only
      rw [if_neg]
      · exact h.frame i hi
      · intro he
        exact hi s w (List.mem_of_getElem? hw) he.symm
  obtain ⟨st1, e1, h2⟩ := sim_enqueue hc h1 ht1
  rw [e1]
  exact sim_enqueue hc h2 ht2

theorem sim_partial (hc : RouteCtx n f abMap sw) {s : Bool} (rem : List (ℕ × Bool)) :
    ∀ {st : RouteState p} {t t' : RS}, Sim sw v0 st t → absPartial n f s rem t = some t' →
      ∃ st', routePartial abMap sw s rem st = some st' ∧ Sim sw v0 st' t' := by
  induction rem with
  | nil =>
    intro st t t' h ha
    rw [← Option.some.inj ha]
    exact ⟨st, rfl, h⟩
  | cons q rem ih =>
    intro st t t' h ha
    obtain ⟨t1, ht1, ht2⟩ := Option.bind_eq_some_iff.1 ha
    obtain ⟨st1, e1, h1⟩ := sim_switch hc h ht1
    obtain ⟨st2, e2, h2⟩ := ih h1 ht2
    refine ⟨st2, ?_, h2⟩
    unfold routePartial
    rw [e1]
    exact e2

theorem sim_scan (hc : RouteCtx n f abMap sw) (h : Sim sw v0 st t) (s : Bool) (fuel : ℕ) : ∀ i,
    scanSwitches (sw s) st.values fuel i = absScan (numSwitches n s) (t.set s) fuel i := by
  induction fuel with
  | zero => intro i; rfl
  | succ fuel ih =>
    intro i
    unfold scanSwitches absScan
    by_cases hi : numSwitches n s ≤ i
    · rw [if_pos hi, List.getElem?_eq_none (by rw [hc.len]; exact hi)]
    · rw [if_neg hi]
      obtain ⟨w, hw⟩ : ∃ w, (sw s)[i]? = some w :=
        ⟨_, List.getElem?_eq_getElem (by rw [hc.len]; omega)⟩
      rw [hw]
      dsimp only
      rw [h.contains hw, ih]

theorem sim_side (hc : RouteCtx n f abMap sw) (h : Sim sw v0 st t) {s : Bool}
    (ha : absSide n f s t = some t') :
    ∃ st', routeSide abMap sw s st = some st' ∧ Sim sw v0 st' t' := by
  unfold absSide at ha
  unfold routeSide
  rw [h.pend]
  split at ha
  · next hp =>
    rw [if_pos hp]
    obtain ⟨t1, ht1, ht2⟩ := Option.bind_eq_some_iff.1 ha
    obtain ⟨st1, e1, h1⟩ := sim_partial hc _ h ht1
    rw [e1]
    rw [← Option.some.inj ht2]
    refine ⟨_, rfl, h1.set, h1.frame, ?_, h1.scan⟩
    dsimp only
    rw [h1.pend]; rfl
  · next hp =>
    rw [if_neg hp]
    rw [hc.len, sim_scan hc h, h.scan]
    dsimp only at ha ⊢
    split at ha
    · next hi =>
      rw [if_pos hi]
      obtain ⟨t1, ht1, ht2⟩ := Option.bind_eq_some_iff.1 ha
      obtain ⟨st1, e1, h1⟩ := sim_switch hc h ht1
      rw [e1, ← Option.some.inj ht2]
      refine ⟨_, rfl, h1.set, h1.frame, h1.pend, ?_⟩
      dsimp only
      rw [h1.scan]; rfl
    · next hi =>
      rw [if_neg hi, ← Option.some.inj ha]
      refine ⟨_, rfl, h.set, h.frame, rfl, ?_⟩
      dsimp only
      rfl

theorem sim_loop (hc : RouteCtx n f abMap sw) (fuel : ℕ) : ∀ {st : RouteState p} {t t' : RS},
    Sim sw v0 st t → absLoop n f fuel t = some t' →
      ∃ st', routeLoop abMap sw fuel st = some st' ∧ Sim sw v0 st' t' := by
  induction fuel with
  | zero =>
    intro st t t' h ha
    unfold absLoop at ha
    unfold routeLoop
    rw [hc.len, hc.len, h.scan]
    split at ha
    · simp at ha
    · next hcond =>
      rw [if_neg hcond, ← Option.some.inj ha]
      exact ⟨st, rfl, h⟩
  | succ fuel ih =>
    intro st t t' h ha
    unfold absLoop at ha
    unfold routeLoop
    rw [hc.len, hc.len, h.scan]
    split at ha
    · next hcond =>
      rw [if_pos hcond]
      obtain ⟨t1, ht1, ha⟩ := Option.bind_eq_some_iff.1 ha
      obtain ⟨t2, ht2, ha⟩ := Option.bind_eq_some_iff.1 ha
      obtain ⟨st1, e1, h1⟩ := sim_side hc h ht1
      obtain ⟨st2, e2, h2⟩ := sim_side hc h1 ht2
      obtain ⟨st3, e3, h3⟩ := ih h2 ha
      refine ⟨st3, ?_, h3⟩
      dsimp only
      rw [e1]
      change (routeSide abMap sw true st1 >>= _) = _
      rw [e2]
      exact e3
    · next hcond =>
      rw [if_neg hcond, ← Option.some.inj ha]
      exact ⟨st, rfl, h⟩

/-- `route` on the values of two rearrangements sets all switches according to a valid colouring,
which does not depend on the wires. -/
theorem route_ok {a b : List (Elem p)} (h : a.Perm b) (hn : 2 ≤ a.length) :
    ∃ (f : Bool → ℕ → ℕ) (C : Bool → ℕ → Bool), Pairing a.length f ∧ Valid a.length f C ∧
      (∀ i < a.length, a[i]? = b[f false i]?) ∧
      ∀ (sw : Bool → List BooleanWire), (∀ s, (sw s).length = numSwitches a.length s) →
        (∀ (s s' : Bool) (k k' : ℕ) (w w' : BooleanWire), (sw s)[k]? = some w → (sw s')[k']? = some w' → w.wire = w'.wire →
          s = s' ∧ k = k') →
        ∀ v : WireValues p, (∀ s, ∀ w ∈ sw s, v w.wire = none) →
          ∃ v', route a b (sw false) (sw true) v = some v' ∧
            (∀ (s : Bool) (k : ℕ) (w : BooleanWire), (sw s)[k]? = some w → v' w.wire = some (Elem.ofBool (C s (2 * k)))) ∧
            ∀ i, (∀ s, ∀ w ∈ sw s, w.wire ≠ i) → v' i = v i := by
  obtain ⟨r, er, h1, h2, -, -⟩ := bimapFromLists_spec h
  let f : Bool → ℕ → ℕ := fun s i => (abMapBySide r s i).getD 0
  have hmap : ∀ s i, i < a.length → abMapBySide r s i = some (f s i) ∧ f s i < a.length ∧
      f (!s) (f s i) = i := by
    intro s i hi
    cases s
    · obtain ⟨j, hj, e1, e2, -⟩ := h1 i hi
      have ef : f false i = j := by simp [f, abMapBySide, e1]
      refine ⟨by rw [ef]; simpa [abMapBySide] using e1, by rw [ef, h.length_eq]; exact hj, ?_⟩
      rw [ef]
      simp [f, abMapBySide, e2]
    · obtain ⟨j, hj, e1, e2, -⟩ := h2 i (by rw [← h.length_eq]; exact hi)
      have ef : f true i = j := by simp [f, abMapBySide, e1]
      refine ⟨by rw [ef]; simpa [abMapBySide] using e1, by rw [ef]; exact hj, ?_⟩
      rw [ef]
      simp [f, abMapBySide, e2]
  have hf : Pairing a.length f := fun s i hi => (hmap s i hi).2
  obtain ⟨t, C, et, hC, hset⟩ := absRoute_ok hf hn
  refine ⟨f, C, hf, hC, ?_, ?_⟩
  · intro i hi
    obtain ⟨j, hj, e1, e2, e3⟩ := h1 i hi
    have ef : f false i = j := by simp [f, abMapBySide, e1]
    rw [ef]; exact e3
  intro sw hlen hinj v hv
  have hc : RouteCtx a.length f r sw := ⟨fun s i hi => (hmap s i hi).1, hlen, hinj⟩
  have h0 : Sim sw v (⟨v, fun _ => [], fun _ => 0⟩ : RouteState p)
      ⟨fun _ _ => none, fun _ => [], fun _ => 0⟩ := by
    refine ⟨?_, fun _ _ => rfl, rfl, rfl⟩
    intro s k w hw
    exact hv s w (List.mem_of_getElem? hw)
  have hsw : (fun side : Bool => if side = true then sw true else sw false) = sw := by
    funext s; cases s <;> rfl
  unfold route
  rw [if_neg (by rw [h.length_eq]; simp)]
  dsimp only
  rw [er, hsw]
  dsimp only [Option.bind_eq_bind, Option.bind_some]
  unfold absRoute at et
  dsimp only at et
  rw [hlen, hlen]
  obtain ⟨t1, ht1, ht2⟩ := Option.bind_eq_some_iff.1 et
  have hst1 : ∃ st1, (if a.length % 2 = 0 then
        (enqueueOtherSide r sw true (a.length - 2) false
          (⟨v, fun _ => [], fun _ => 0⟩ : RouteState p)).bind fun st =>
          enqueueOtherSide r sw true (a.length - 1) true st
      else (enqueueOtherSide r sw false (a.length - 1) true
          (⟨v, fun _ => [], fun _ => 0⟩ : RouteState p)).bind fun st =>
          enqueueOtherSide r sw true (a.length - 1) true st) = some st1 ∧ Sim sw v st1 t1 := by
    split at ht1
    · next he =>
      rw [if_pos he]
      obtain ⟨t2, ht2, ht3⟩ := Option.bind_eq_some_iff.1 ht1
      obtain ⟨st2, e2, h2⟩ := sim_enqueue hc h0 ht2
      obtain ⟨st3, e3, h3⟩ := sim_enqueue hc h2 ht3
      exact ⟨st3, by rw [e2]; exact e3, h3⟩
    · next he =>
      rw [if_neg he]
      obtain ⟨t2, ht2, ht3⟩ := Option.bind_eq_some_iff.1 ht1
      obtain ⟨st2, e2, h2⟩ := sim_enqueue hc h0 ht2
      obtain ⟨st3, e3, h3⟩ := sim_enqueue hc h2 ht3
      exact ⟨st3, by rw [e2]; exact e3, h3⟩
  obtain ⟨st1, e1, h1⟩ := hst1
  rw [e1]
  obtain ⟨st2, e2, h2⟩ := sim_loop hc _ h1 ht2
  dsimp only [Option.bind_some]
  rw [e2]
  refine ⟨st2.values, rfl, ?_, h2.frame⟩
  intro s k w hw
  rw [h2.set s k w hw, hset s k]
  · rfl
  · rw [← hlen]
    exact (List.getElem?_eq_some_iff.1 hw).1

end R1CS
