import Verif.Lemmas.Renumber

/-!
# Closures of generators under new numbers for the wires (`Spec/Renumber.lean`)
-/

set_option linter.unusedSectionVars false

namespace R1CS

variable {p : ℕ} [hp : Fact p.Prime] {α β : Type} {r : Renumbering}

/-- `WitnessGenerator.Alike` for closures. -/
def Cl (r : Renumbering) (f f' : WireValues p → Option (WireValues p)) : Prop :=
  ∀ v, (f' v).map (WireValues.through r) = f (v.through r) ∧
    ∀ u, f' v = some u → ∀ i, (∀ j, r j ≠ i) → u i = v i

namespace Cl

theorem id : Cl (p := p) r (fun v => some v) (fun v => some v) :=
  fun _ => ⟨rfl, fun _ h _ _ => by rw [← Option.some.inj h]⟩

theorem none : Cl (p := p) r (fun _ => Option.none) (fun _ => Option.none) :=
  fun _ => ⟨rfl, fun _ h => absurd h (by simp)⟩

theorem seq {f f' g g' : WireValues p → Option (WireValues p)} (hf : Cl r f f') (hg : Cl r g g') :
    Cl r (fun v => (f v).bind g) (fun v => (f' v).bind g') := by
  intro v
  obtain ⟨h1, h2⟩ := hf v
  beta_reduce
  rw [← h1]
  rcases hv : f' v with _ | u
  · exact ⟨rfl, fun _ h => absurd h (by simp)⟩
  · obtain ⟨h3, h4⟩ := hg u
    refine ⟨h3, fun w hw i hi => ?_⟩
    rw [h4 w hw i hi, h2 u hv i hi]

theorem read {q q' : WireValues p → Option β} {k k' : β → WireValues p → Option (WireValues p)}
    (hq : ∀ v, q' v = q (v.through r)) (hk : ∀ x, Cl r (k x) (k' x)) :
    Cl r (fun v => (q v).bind fun x => k x v) (fun v => (q' v).bind fun x => k' x v) := by
  intro v
  beta_reduce
  rw [hq v]
  rcases q (v.through r) with _ | x
  · exact ⟨rfl, fun _ h => absurd h (by simp)⟩
  · exact hk x v

theorem ite {c : Prop} [Decidable c] {f f' g g' : WireValues p → Option (WireValues p)}
    (hf : Cl r f f') (hg : Cl r g g') :
    Cl r (fun v => if c then f v else g v) (fun v => if c then f' v else g' v) := by
  by_cases h : c
  · simpa [h] using hf
  · simpa [h] using hg

theorem set (w : Wire) (x : Elem p) : Cl r (fun v => v.set w x) (fun v => v.set (r w) x) := by
  intro v
  simp only [WireValues.set]
  rw [show (v.through r).contains w = v.contains (r w) from rfl]
  split
  · exact ⟨rfl, fun _ h => absurd h (by simp)⟩
  · refine ⟨?_, fun u h i hi => ?_⟩
    · refine congrArg some (funext fun i => ?_)
      simp only [WireValues.through, WireValues.insert, r.inj]
    · rw [← Option.some.inj h]
      exact if_neg fun e => hi w e.symm

/-- A reading of an expression. -/
theorem eval (x : Expression p) (v : WireValues p) :
    (x.renumber r).evaluate v = x.evaluate (v.through r) := renumber_evaluate x v

theorem evals (xs : List (Expression p)) (v : WireValues p) :
    List.mapM (m := Option) (fun e : Expression p => e.evaluate v) (xs.map (Expression.renumber r)) =
      List.mapM (m := Option) (fun e : Expression p => e.evaluate (v.through r)) xs := by
  rw [mapM_renumber (f := fun e : Expression p => e.evaluate (v.through r)) (h := fun x => x)
    (fun x => by simp)]
  simp

theorem nonzeroGen (x : Expression p) (y m : Wire) :
    Cl r (B.nonzeroGen x y m) (B.nonzeroGen (x.renumber r) (r y) (r m)) :=
  read (eval x) fun _ => read (q := fun _ => _) (fun _ => rfl) fun _ => seq (set _ _) (set _ _)

theorem productGen (x y : Expression p) (w : Wire) :
    Cl r (B.productGen x y w) (B.productGen (x.renumber r) (y.renumber r) (r w)) :=
  read (eval x) fun _ => read (eval y) fun _ => set _ _

theorem inverseGen (x : Expression p) (w : Wire) :
    Cl r (B.inverseGen x w) (B.inverseGen (x.renumber r) (r w)) :=
  read (eval x) fun _ => read (q := fun _ => _) (fun _ => rfl) fun _ => set _ _

theorem inverseOrZeroGen (x : Expression p) (w : Wire) :
    Cl r (B.inverseOrZeroGen x w) (B.inverseOrZeroGen (x.renumber r) (r w)) :=
  read (eval x) fun _ => read (q := fun _ => _) (fun _ => rfl) fun _ => set _ _

theorem quotientUnsafeGen (x y : Expression p) (w : Wire) :
    Cl r (B.quotientUnsafeGen x y w) (B.quotientUnsafeGen (x.renumber r) (y.renumber r) (r w)) :=
  read (eval x) fun _ => read (eval y) fun _ =>
    ite (read (q := fun _ => _) (fun _ => rfl) fun _ => set _ _) none

theorem setBitsOf (x : Elem p) : ∀ (ws : List BooleanWire) (i : ℕ),
    Cl r (B.setBitsOf x i ws) (B.setBitsOf x i (ws.map (BooleanWire.renumber r)))
  | [], _ => id
  | w :: ws, i =>
    show Cl r (fun v => (v.setBoolean w (x.bit i)).bind (B.setBitsOf x (i + 1) ws))
        (fun v => (v.setBoolean (w.renumber r) (x.bit i)).bind
          (B.setBitsOf x (i + 1) (ws.map (BooleanWire.renumber r)))) from
      seq (set _ _) (setBitsOf x ws (i + 1))

theorem splitGen (x : Expression p) (n : ℕ) (w : BinaryWire) :
    Cl r (B.splitGen x n w) (B.splitGen (x.renumber r) n (w.renumber r)) :=
  read (eval x) fun _ => ite (setBitsOf _ _ _) none

theorem setBits (n : ℕ) : ∀ (ws : List BooleanWire) (i : ℕ),
    Cl (p := p) r (fun v => v.setBits n i ws)
      (fun v => v.setBits n i (ws.map (BooleanWire.renumber r)))
  | [], _ => id
  | w :: ws, i =>
    show Cl r (fun v => (v.setBoolean w ((n >>> i) &&& 1 == 1)).bind fun v => v.setBits n (i + 1) ws)
        (fun v => (v.setBoolean (w.renumber r) ((n >>> i) &&& 1 == 1)).bind fun v =>
          v.setBits n (i + 1) (ws.map (BooleanWire.renumber r))) from
      seq (set _ _) (setBits n ws (i + 1))

theorem summationGen (x : Expression p) (w : BinaryWire) :
    Cl r (B.summationGen x w) (B.summationGen (x.renumber r) (w.renumber r)) := by
  refine read (eval x) fun s => ?_
  unfold WireValues.setBinaryUnsigned BinaryWire.len
  rw [List.length_map]
  exact ite (setBits _ _ _) none

/-- Renumber a wire and two expressions. -/
abbrev chunk (r : Renumbering) (t : Wire × Expression p × Expression p) :
    Wire × Expression p × Expression p := (r t.1, t.2.1.renumber r, t.2.2.renumber r)

theorem maskGen : ∀ (l : List (Wire × Expression p × Expression p)) (b : Bool),
    Cl r (B.maskGen l b) (B.maskGen (l.map (chunk r)) b)
  | [], _ => id
  | (m, x, y) :: l, b =>
    show Cl r (fun v => (x.evaluate v).bind fun xv => (y.evaluate v).bind
        fun yv => (v.set m (Elem.ofBool (decide (xv ≠ yv) && !b))).bind
          (B.maskGen l (b || decide (xv ≠ yv))))
        (fun v => ((x.renumber r).evaluate v).bind fun xv => ((y.renumber r).evaluate v).bind
        fun yv => (v.set (r m) (Elem.ofBool (decide (xv ≠ yv) && !b))).bind
          (B.maskGen (l.map (chunk r)) (b || decide (xv ≠ yv)))) from
      read (eval x) fun _ => read (eval y) fun _ => seq (set _ _) (maskGen l _)

theorem modulusGen (x y : Expression p) (q s : Wire) :
    Cl r (B.modulusGen x y q s) (B.modulusGen (x.renumber r) (y.renumber r) (r q) (r s)) :=
  read (eval x) fun _ => read (eval y) fun _ => read (q := fun _ => _) (fun _ => rfl) fun _ =>
    seq (set _ _) (read (q := fun _ => _) (fun _ => rfl) fun _ => set _ _)

theorem permutation2x2Gen (x y z t : Expression p) (s : BooleanWire) :
    Cl r (B.permutation2x2Gen x y z t s)
      (B.permutation2x2Gen (x.renumber r) (y.renumber r) (z.renumber r) (t.renumber r)
        (s.renumber r)) :=
  read (eval x) fun _ => read (eval y) fun _ => read (eval z) fun _ => read (eval t) fun _ =>
    ite (set _ _) (ite (set _ _) none)

theorem setItems : ∀ (ws : List Wire) (xs : List (Elem p)),
    Cl r (B.setItems ws xs) (B.setItems (ws.map r) xs)
  | [], [] => id
  | _ :: _, [] => id
  | [], _ :: _ => none
  | w :: ws, x :: xs =>
    show Cl r (fun v => (v.set w x).bind (B.setItems ws xs))
        (fun v => (v.set (r w) x).bind (B.setItems (ws.map r) xs)) from
      seq (set _ _) (setItems ws xs)

theorem sortGen (xs : List (Expression p)) (ws : List Wire) :
    Cl r (B.sortGen xs ws) (B.sortGen (xs.map (Expression.renumber r)) (ws.map r)) :=
  read (evals xs) fun _ => setItems _ _

theorem rootGen (x : Expression p) (k : Elem p) (w : Wire) :
    Cl r (MonomialPermutation.rootGen x k w) (MonomialPermutation.rootGen (x.renumber r) k (r w)) :=
  read (eval x) fun _ => set _ _

end Cl

/-! ## Routing -/

/-- The state of `route`, its values read through the new numbers. -/
abbrev RouteState.through (r : Renumbering) (st : RouteState p) : RouteState p :=
  { st with values := st.values.through r }

/-- `Cl` for the steps of `route`. -/
def ClR (r : Renumbering) (f f' : RouteState p → Option (RouteState p)) : Prop :=
  ∀ st, (f' st).map (RouteState.through r) = f (st.through r) ∧
    ∀ u, f' st = some u → ∀ i, (∀ j, r j ≠ i) → u.values i = st.values i

namespace ClR

theorem id : ClR (p := p) r (fun v => some v) (fun v => some v) :=
  fun _ => ⟨rfl, fun _ h _ _ => by rw [← Option.some.inj h]⟩

theorem none : ClR (p := p) r (fun _ => Option.none) (fun _ => Option.none) :=
  fun _ => ⟨rfl, fun _ h => absurd h (by simp)⟩

theorem seq {f f' g g' : RouteState p → Option (RouteState p)} (hf : ClR r f f') (hg : ClR r g g') :
    ClR r (fun v => (f v).bind g) (fun v => (f' v).bind g') := by
  intro v
  obtain ⟨h1, h2⟩ := hf v
  beta_reduce
  rw [← h1]
  rcases hv : f' v with _ | u
  · exact ⟨rfl, fun _ h => absurd h (by simp)⟩
  · obtain ⟨h3, h4⟩ := hg u
    refine ⟨h3, fun w hw i hi => ?_⟩
    rw [h4 w hw i hi, h2 u hv i hi]

/-- A step after which only the bookkeeping changes. -/
theorem after {f f' : RouteState p → Option (RouteState p)} (hf : ClR r f f')
    {k : RouteState p → RouteState p} (hk : ∀ u, k (u.through r) = (k u).through r)
    (hv : ∀ u, (k u).values = u.values) :
    ClR r (fun v => (f v).bind fun u => some (k u)) (fun v => (f' v).bind fun u => some (k u)) :=
  seq hf fun u => ⟨congrArg some (hk u).symm, fun w hw i _ => by
    rw [← Option.some.inj hw, hv]⟩

/-- The switches, renumbered. -/
abbrev sw (r : Renumbering) (switches : Bool → List BooleanWire) : Bool → List BooleanWire :=
  fun s => (switches s).map (BooleanWire.renumber r)

theorem enqueue (m : BiMap) (switches : Bool → List BooleanWire) (side : Bool) (i : ℕ)
    (subnet : Bool) :
    ClR (p := p) r (enqueueOtherSide m switches side i subnet)
      (enqueueOtherSide m (sw r switches) side i subnet) := by
  intro st
  unfold enqueueOtherSide
  rcases abMapBySide m side i with _ | j
  · exact ⟨rfl, fun _ h => absurd h (by simp)⟩
  · simp only [Option.bind_eq_bind, Option.bind_some, sw, List.getElem?_map]
    rcases (switches !side)[j / 2]? with _ | w
    · exact id st
    · have hc : (RouteState.through r st).values.containsBoolean w =
          st.values.containsBoolean (w.renumber r) := rfl
      simp only [Option.map_some, hc]
      split
      · exact id st
      · rcases (st.partialRoutes !side).get compare (4 * (j / 2) + 1 - j) with _ | s
        · rcases (st.partialRoutes !side).get compare j with _ | s
          · exact ⟨rfl, fun u h i _ => by rw [← Option.some.inj h]⟩
          · simp only
            split
            · exact ⟨rfl, fun u h i _ => by rw [← Option.some.inj h]⟩
            · exact none st
        · simp only
          split
          · exact id st
          · exact none st

theorem routeSwitch (m : BiMap) (switches : Bool → List BooleanWire) (side : Bool) (i : ℕ)
    (swap : Bool) :
    ClR (p := p) r (routeSwitch m switches side i swap)
      (R1CS.routeSwitch m (sw r switches) side i swap) := by
  unfold R1CS.routeSwitch
  simp only [sw, List.getElem?_map]
  rcases (switches side)[i]? with _ | w
  · exact none
  · have hset : ClR (p := p) r (fun st => (st.values.setBoolean w swap).bind fun vs =>
        some { st with values := vs })
        (fun st => (st.values.setBoolean (w.renumber r) swap).bind fun vs =>
        some { st with values := vs }) := by
      intro st
      obtain ⟨h1, h2⟩ := Cl.set (p := p) (r := r) w.wire (Elem.ofBool swap) st.values
      beta_reduce at h1 h2 ⊢
      simp only [WireValues.setBoolean]
      rw [← h1]
      rcases hv : st.values.set (r w.wire) (Elem.ofBool swap) with _ | u
      · exact ⟨rfl, fun _ h => absurd h (by simp)⟩
      · refine ⟨rfl, fun s hs i hi => ?_⟩
        rw [← Option.some.inj hs]
        exact h2 u hv i hi
    have := seq hset (seq (enqueue m switches side (i * 2) swap)
      (enqueue m switches side (i * 2 + 1) (!swap)))
    intro st
    obtain ⟨h1, h2⟩ := this st
    simp only [Option.bind_assoc, Option.bind_some] at h1 h2
    exact ⟨h1, h2⟩

theorem routePartial (m : BiMap) (switches : Bool → List BooleanWire) (side : Bool) :
    ∀ l : List (ℕ × Bool), ClR (p := p) r (routePartial m switches side l)
      (R1CS.routePartial m (sw r switches) side l)
  | [] => id
  | (i, s) :: l => show ClR r
      (fun st => (R1CS.routeSwitch m switches side (i / 2) ((i % 2 == 0) == s) st).bind
        (R1CS.routePartial m switches side l))
      (fun st => (R1CS.routeSwitch m (sw r switches) side (i / 2) ((i % 2 == 0) == s) st).bind
        (R1CS.routePartial m (sw r switches) side l)) from
    seq (routeSwitch m switches side _ _) (routePartial m switches side l)

theorem scan (ws : List BooleanWire) (v : WireValues p) : ∀ (fuel i : ℕ),
    scanSwitches (ws.map (BooleanWire.renumber r)) v fuel i =
      scanSwitches ws (v.through r) fuel i
  | 0, _ => rfl
  | fuel + 1, i => by
    simp only [scanSwitches, List.getElem?_map]
    rcases ws[i]? with _ | w
    · rfl
    · simp only [Option.map_some]
      rw [scan ws v fuel (i + 1)]
      rfl

theorem routeSide (m : BiMap) (switches : Bool → List BooleanWire) (side : Bool) :
    ClR (p := p) r (routeSide m switches side) (R1CS.routeSide m (sw r switches) side) := by
  intro st
  unfold R1CS.routeSide
  by_cases h : st.partialRoutes side = []
  · simp only [h, ne_eq, not_true_eq_false, if_false, scan, List.length_map]
    split
    · exact after (routeSwitch m switches side _ _) (k := fun st => { st with
        scanIndex := fun s => if s = side then _ else st.scanIndex s }) (fun _ => rfl)
        (fun _ => rfl) st
    · exact ⟨rfl, fun u hu i _ => by rw [← Option.some.inj hu]⟩
  · simp only [h, ne_eq, not_false_eq_true, if_true]
    exact after (routePartial m switches side _) (k := fun st => { st with
      partialRoutes := fun s => if s = side then [] else st.partialRoutes s }) (fun _ => rfl)
      (fun _ => rfl) st

theorem routeLoop (m : BiMap) (switches : Bool → List BooleanWire) : ∀ fuel : ℕ,
    ClR (p := p) r (routeLoop m switches fuel) (R1CS.routeLoop m (sw r switches) fuel)
  | 0 => by
    intro st
    unfold R1CS.routeLoop
    simp only [sw, List.length_map]
    split
    · exact none st
    · exact id st
  | fuel + 1 => by
    intro st
    unfold R1CS.routeLoop
    simp only [List.length_map]
    split
    · exact seq (routeSide m switches false) (seq (routeSide m switches true)
        (routeLoop m switches fuel)) st
    · exact id st

end ClR

theorem Cl.routeGen (a b : List (Expression p)) (s t : List BooleanWire) :
    Cl r (B.routeGen a b s t) (B.routeGen (a.map (Expression.renumber r))
      (b.map (Expression.renumber r)) (s.map (BooleanWire.renumber r))
      (t.map (BooleanWire.renumber r))) := by
  refine read (evals a) fun xs => read (evals b) fun ys => ?_
  unfold route
  split
  · exact none
  · refine read (q := fun _ => _) (fun _ => rfl) fun m => ?_
    intro v
    have hsw : (fun side => if side = true then t.map (BooleanWire.renumber r)
        else s.map (BooleanWire.renumber r)) =
        ClR.sw r (fun side => if side = true then t else s) := by
      funext side
      cases side <;> rfl
    have key : ∀ f f' : RouteState p → Option (RouteState p), ClR r f f' →
        ((f' ⟨v, fun _ => [], fun _ => 0⟩).bind fun st => some st.values).map
          (WireValues.through r) =
          ((f ⟨v.through r, fun _ => [], fun _ => 0⟩).bind fun st => some st.values) ∧
        ∀ u, ((f' ⟨v, fun _ => [], fun _ => 0⟩).bind fun st => some st.values) = some u →
          ∀ i, (∀ j, r j ≠ i) → u i = v i := by
      intro f f' h
      obtain ⟨h1, h2⟩ := h ⟨v, fun _ => [], fun _ => 0⟩
      rw [← show f _ = f _ from rfl, ← h1]
      rcases hv : f' ⟨v, fun _ => [], fun _ => 0⟩ with _ | u
      · exact ⟨rfl, fun _ h => absurd h (by simp)⟩
      · exact ⟨rfl, fun w hw i hi => by rw [← Option.some.inj hw]; exact h2 u hv i hi⟩
    simp only [hsw, List.length_map]
    split
    all_goals simp only [Option.bind_eq_bind, Option.bind_assoc]
    · have := key _ _ (ClR.seq (ClR.enqueue m (fun side => if side = true then t else s) true
        (xs.length - 2) false) (ClR.seq
        (ClR.enqueue m (fun side => if side = true then t else s) true (xs.length - 1) true)
        (ClR.routeLoop m (fun side => if side = true then t else s) (2 * (s.length + t.length)))))
      simp only [Option.bind_assoc] at this
      exact this
    · have := key _ _ (ClR.seq (ClR.enqueue m (fun side => if side = true then t else s) false
        (xs.length - 1) true) (ClR.seq
        (ClR.enqueue m (fun side => if side = true then t else s) true (xs.length - 1) true)
        (ClR.routeLoop m (fun side => if side = true then t else s) (2 * (s.length + t.length)))))
      simp only [Option.bind_assoc] at this
      exact this

end R1CS
