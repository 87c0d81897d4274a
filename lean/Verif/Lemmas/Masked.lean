import Verif.Lemmas.PassesMore
import Verif.Spec.Parallel

/-!
# What closures of generators read and write (`Spec/Parallel.lean`)

A closure which reads and writes wires of `S` only does the same when all other values are taken away.
-/

set_option linter.unusedSectionVars false

namespace R1CS

variable {p : ℕ} [hp : Fact p.Prime] {α β : Type} {S O : Set Wire}

open Classical in
/-- The values of the wires of `S`, without the others. -/
noncomputable def WireValues.mask (S : Set Wire) (v : WireValues p) : WireValues p :=
  fun i => if i ∈ S then v i else none

theorem WireValues.mask_of_mem {S : Set Wire} {i : Wire} (h : i ∈ S) (v : WireValues p) : v.mask S i = v i :=
  if_pos h

theorem WireValues.mask_eq {S : Set Wire} {v v' : WireValues p} :
    v.mask S = v'.mask S ↔ ∀ i ∈ S, v i = v' i := by
  constructor
  · intro h i hi
    rw [← mask_of_mem hi v, h, mask_of_mem hi]
  · intro h
    funext i
    by_cases hi : i ∈ S
    · rw [mask_of_mem hi, mask_of_mem hi, h i hi]
    · simp [mask, hi]

/-- A closure which reads wires of `S` only and sets wires of `O` only. -/
def Co (S O : Set Wire) (f : WireValues p → Option (WireValues p)) : Prop :=
  ∀ v, (f v).map (WireValues.mask S) = f (v.mask S) ∧ ∀ u, f v = some u → ∀ i ∉ O, u i = v i

namespace Co

theorem id : Co (p := p) S O (fun v => some v) :=
  fun _ => ⟨rfl, fun _ h _ _ => by rw [← Option.some.inj h]⟩

theorem none : Co (p := p) S O (fun _ => Option.none) :=
  fun _ => ⟨rfl, fun _ h => absurd h (by simp)⟩

theorem seq {f g : WireValues p → Option (WireValues p)} (hf : Co S O f) (hg : Co S O g) :
    Co S O (fun v => (f v).bind g) := by
  intro v
  obtain ⟨h1, h2⟩ := hf v
  beta_reduce
  rw [← h1]
  rcases hv : f v with _ | u
  · exact ⟨rfl, fun _ h => absurd h (by simp)⟩
  · obtain ⟨h3, h4⟩ := hg u
    refine ⟨h3, fun w hw i hi => ?_⟩
    rw [h4 w hw i hi, h2 u hv i hi]

theorem read {q : WireValues p → Option β} {k : β → WireValues p → Option (WireValues p)}
    (hq : ∀ v, q v = q (v.mask S)) (hk : ∀ x, Co S O (k x)) :
    Co S O (fun v => (q v).bind fun x => k x v) := by
  intro v
  beta_reduce
  rw [← hq v]
  rcases q v with _ | x
  · exact ⟨rfl, fun _ h => absurd h (by simp)⟩
  · exact hk x v

theorem ite {c : Prop} [Decidable c] {f g : WireValues p → Option (WireValues p)}
    (hf : Co S O f) (hg : Co S O g) : Co S O (fun v => if c then f v else g v) := by
  by_cases h : c
  · simpa [h] using hf
  · simpa [h] using hg

theorem set {w : Wire} (hS : w ∈ S) (hO : w ∈ O) (x : Elem p) : Co S O (fun v => v.set w x) := by
  intro v
  simp only [WireValues.set]
  rw [show (v.mask S).contains w = v.contains w from by
    unfold WireValues.contains; rw [WireValues.mask_of_mem hS]]
  split
  · exact ⟨rfl, fun _ h => absurd h (by simp)⟩
  · refine ⟨?_, fun u h i hi => ?_⟩
    · refine congrArg some (funext fun i => ?_)
      by_cases hi : i = w
      · subst hi
        simp [WireValues.mask, WireValues.insert, hS]
      · simp [WireValues.mask, WireValues.insert, hi]
    · rw [← Option.some.inj h]
      exact if_neg fun (e : i = w) => hi (by rw [e]; exact hO)

/-- A reading of an expression. -/
theorem eval {x : Expression p} (h : ∀ i ∈ x.dependencies, i ∈ S) (v : WireValues p) :
    x.evaluate v = x.evaluate (v.mask S) := by
  by_cases hv : ∀ i ∈ x.dependencies, (v i).isSome
  · have h1 : ∀ i ∈ x.dependencies, v i = some ((v i).getD 0) := fun i hi => by
      obtain ⟨y, hy⟩ := Option.isSome_iff_exists.1 (hv i hi)
      rw [hy]; rfl
    rw [Expression.evaluate_eq (w := fun i => (v i).getD 0) h1,
      Expression.evaluate_eq (w := fun i => (v i).getD 0) fun i hi => by
        rw [WireValues.mask_of_mem (h i hi)]; exact h1 i hi]
  · push Not at hv
    obtain ⟨i, hi, hn⟩ := hv
    have hn : v i = Option.none := by simpa using hn
    rw [Expression.evaluate_eq_none hi hn,
      Expression.evaluate_eq_none hi (by rw [WireValues.mask_of_mem (h i hi), hn])]

theorem evals {xs : List (Expression p)} (h : ∀ x ∈ xs, ∀ i ∈ x.dependencies, i ∈ S) (v : WireValues p) :
    List.mapM (m := Option) (fun e : Expression p => e.evaluate v) xs =
      List.mapM (m := Option) (fun e : Expression p => e.evaluate (v.mask S)) xs := by
  induction xs with
  | nil => rfl
  | cons x xs ih =>
    rw [List.mapM_cons, List.mapM_cons, eval (h x (by simp)) v, ih fun y hy => h y (by simp [hy])]

variable {x y z t : Expression p} {w w' : Wire}

theorem nonzeroGen (hx : ∀ i ∈ x.dependencies, i ∈ S) (h1 : w ∈ S) (h2 : w ∈ O) (h3 : w' ∈ S) (h4 : w' ∈ O) :
    Co S O (B.nonzeroGen x w w') :=
  read (eval hx) fun _ => read (q := fun _ => _) (fun _ => rfl) fun _ => seq (set h3 h4 _) (set h1 h2 _)

theorem productGen (hx : ∀ i ∈ x.dependencies, i ∈ S) (hy : ∀ i ∈ y.dependencies, i ∈ S) (h1 : w ∈ S)
    (h2 : w ∈ O) : Co S O (B.productGen x y w) :=
  read (eval hx) fun _ => read (eval hy) fun _ => set h1 h2 _

theorem inverseGen (hx : ∀ i ∈ x.dependencies, i ∈ S) (h1 : w ∈ S) (h2 : w ∈ O) :
    Co S O (B.inverseGen x w) :=
  read (eval hx) fun _ => read (q := fun _ => _) (fun _ => rfl) fun _ => set h1 h2 _

theorem inverseOrZeroGen (hx : ∀ i ∈ x.dependencies, i ∈ S) (h1 : w ∈ S) (h2 : w ∈ O) :
    Co S O (B.inverseOrZeroGen x w) :=
  read (eval hx) fun _ => read (q := fun _ => _) (fun _ => rfl) fun _ => set h1 h2 _

theorem quotientUnsafeGen (hx : ∀ i ∈ x.dependencies, i ∈ S) (hy : ∀ i ∈ y.dependencies, i ∈ S) (h1 : w ∈ S)
    (h2 : w ∈ O) : Co S O (B.quotientUnsafeGen x y w) :=
  read (eval hx) fun _ => read (eval hy) fun _ =>
    ite (read (q := fun _ => _) (fun _ => rfl) fun _ => set h1 h2 _) none

theorem setBitsOf (x : Elem p) : ∀ (ws : List BooleanWire) (i : ℕ), (∀ w ∈ ws, w.wire ∈ S ∧ w.wire ∈ O) →
    Co S O (B.setBitsOf x i ws)
  | [], _, _ => id
  | w :: ws, i, h =>
    show Co S O (fun v => (v.setBoolean w (x.bit i)).bind (B.setBitsOf x (i + 1) ws)) from
      seq (set (h w (by simp)).1 (h w (by simp)).2 _) (setBitsOf x ws (i + 1) fun w hw => h w (by simp [hw]))

theorem splitGen (hx : ∀ i ∈ x.dependencies, i ∈ S) (n : ℕ) {w : BinaryWire}
    (h : ∀ b ∈ w.bits, b.wire ∈ S ∧ b.wire ∈ O) : Co S O (B.splitGen x n w) :=
  read (eval hx) fun _ => ite (setBitsOf _ _ _ h) none

theorem setBits (n : ℕ) : ∀ (ws : List BooleanWire) (i : ℕ), (∀ w ∈ ws, w.wire ∈ S ∧ w.wire ∈ O) →
    Co (p := p) S O (fun v => v.setBits n i ws)
  | [], _, _ => id
  | w :: ws, i, h =>
    show Co S O (fun v => (v.setBoolean w ((n >>> i) &&& 1 == 1)).bind fun v => v.setBits n (i + 1) ws) from
      seq (set (h w (by simp)).1 (h w (by simp)).2 _) (setBits n ws (i + 1) fun w hw => h w (by simp [hw]))

theorem summationGen (hx : ∀ i ∈ x.dependencies, i ∈ S) {w : BinaryWire}
    (h : ∀ b ∈ w.bits, b.wire ∈ S ∧ b.wire ∈ O) : Co S O (B.summationGen x w) :=
  read (eval hx) fun _ => ite (setBits _ _ _ h) none

theorem maskGen : ∀ (l : List (Wire × Expression p × Expression p)) (b : Bool),
    (∀ q ∈ l, (q.1 ∈ S ∧ q.1 ∈ O) ∧ (∀ i ∈ q.2.1.dependencies, i ∈ S) ∧ ∀ i ∈ q.2.2.dependencies, i ∈ S) →
    Co S O (B.maskGen l b)
  | [], _, _ => id
  | (m, x, y) :: l, b, h =>
    show Co S O (fun v => (x.evaluate v).bind fun xv => (y.evaluate v).bind
        fun yv => (v.set m (Elem.ofBool (decide (xv ≠ yv) && !b))).bind
          (B.maskGen l (b || decide (xv ≠ yv)))) from
      read (eval (h (m, x, y) (by simp)).2.1) fun _ => read (eval (h (m, x, y) (by simp)).2.2) fun _ =>
        seq (set (h (m, x, y) (by simp)).1.1 (h (m, x, y) (by simp)).1.2 _) (maskGen l _ fun q hq => h q (by simp [hq]))

theorem modulusGen (hx : ∀ i ∈ x.dependencies, i ∈ S) (hy : ∀ i ∈ y.dependencies, i ∈ S) (h1 : w ∈ S)
    (h2 : w ∈ O) (h3 : w' ∈ S) (h4 : w' ∈ O) : Co S O (B.modulusGen x y w w') :=
  read (eval hx) fun _ => read (eval hy) fun _ => read (q := fun _ => _) (fun _ => rfl) fun _ =>
    seq (set h1 h2 _) (read (q := fun _ => _) (fun _ => rfl) fun _ => set h3 h4 _)

theorem permutation2x2Gen (hx : ∀ i ∈ x.dependencies, i ∈ S) (hy : ∀ i ∈ y.dependencies, i ∈ S)
    (hz : ∀ i ∈ z.dependencies, i ∈ S) (ht : ∀ i ∈ t.dependencies, i ∈ S) {s : BooleanWire}
    (h1 : s.wire ∈ S) (h2 : s.wire ∈ O) : Co S O (B.permutation2x2Gen x y z t s) :=
  read (eval hx) fun _ => read (eval hy) fun _ => read (eval hz) fun _ => read (eval ht) fun _ =>
    ite (set h1 h2 _) (ite (set h1 h2 _) none)

theorem setItems : ∀ (ws : List Wire) (xs : List (Elem p)), (∀ w ∈ ws, w ∈ S ∧ w ∈ O) →
    Co S O (B.setItems ws xs)
  | [], [], _ => id
  | _ :: _, [], _ => id
  | [], _ :: _, _ => none
  | w :: ws, x :: xs, h =>
    show Co S O (fun v => (v.set w x).bind (B.setItems ws xs)) from
      seq (set (h w (by simp)).1 (h w (by simp)).2 _) (setItems ws xs fun w hw => h w (by simp [hw]))

theorem sortGen {xs : List (Expression p)} (hx : ∀ x ∈ xs, ∀ i ∈ x.dependencies, i ∈ S) {ws : List Wire}
    (h : ∀ w ∈ ws, w ∈ S ∧ w ∈ O) : Co S O (B.sortGen xs ws) :=
  read (evals hx) fun _ => setItems _ _ h

theorem rootGen (hx : ∀ i ∈ x.dependencies, i ∈ S) (k : Elem p) (h1 : w ∈ S) (h2 : w ∈ O) :
    Co S O (MonomialPermutation.rootGen x k w) :=
  read (eval hx) fun _ => set h1 h2 _

end Co

/-! ## Routing -/

/-- The state of `route`, without the values of other wires. -/
noncomputable abbrev RouteState.mask (S : Set Wire) (st : RouteState p) : RouteState p :=
  { st with values := st.values.mask S }

/-- `Co` for the steps of `route`. -/
def CoR (S O : Set Wire) (f : RouteState p → Option (RouteState p)) : Prop :=
  ∀ st, (f st).map (RouteState.mask S) = f (st.mask S) ∧
    ∀ u, f st = some u → ∀ i ∉ O, u.values i = st.values i

namespace CoR

theorem id : CoR (p := p) S O (fun v => some v) :=
  fun _ => ⟨rfl, fun _ h _ _ => by rw [← Option.some.inj h]⟩

theorem none : CoR (p := p) S O (fun _ => Option.none) :=
  fun _ => ⟨rfl, fun _ h => absurd h (by simp)⟩

theorem seq {f g : RouteState p → Option (RouteState p)} (hf : CoR S O f) (hg : CoR S O g) :
    CoR S O (fun v => (f v).bind g) := by
  intro v
  obtain ⟨h1, h2⟩ := hf v
  beta_reduce
  rw [← h1]
  rcases hv : f v with _ | u
  · exact ⟨rfl, fun _ h => absurd h (by simp)⟩
  · obtain ⟨h3, h4⟩ := hg u
    refine ⟨h3, fun w hw i hi => ?_⟩
    rw [h4 w hw i hi, h2 u hv i hi]

/-- A step after which only the bookkeeping changes. -/
theorem after {f : RouteState p → Option (RouteState p)} (hf : CoR S O f)
    {k : RouteState p → RouteState p} (hk : ∀ u, k (u.mask S) = (k u).mask S)
    (hv : ∀ u, (k u).values = u.values) :
    CoR S O (fun v => (f v).bind fun u => some (k u)) :=
  seq hf fun u => ⟨congrArg some (hk u).symm, fun w hw i _ => by
    rw [← Option.some.inj hw, hv]⟩

variable {switches : Bool → List BooleanWire} (hs : ∀ s, ∀ w ∈ switches s, w.wire ∈ S ∧ w.wire ∈ O)

include hs

theorem enqueue (m : BiMap) (side : Bool) (i : ℕ) (subnet : Bool) :
    CoR (p := p) S O (enqueueOtherSide m switches side i subnet) := by
  intro st
  unfold enqueueOtherSide
  rcases abMapBySide m side i with _ | j
  · exact ⟨rfl, fun _ h => absurd h (by simp)⟩
  · simp only [Option.bind_eq_bind, Option.bind_some]
    rcases hw : (switches !side)[j / 2]? with _ | w
    · exact id st
    · have hc : (RouteState.mask S st).values.containsBoolean w = st.values.containsBoolean w := by
        show (st.values.mask S).contains w.wire = st.values.contains w.wire
        unfold WireValues.contains
        rw [WireValues.mask_of_mem (hs _ w (List.mem_of_getElem? hw)).1]
      simp only [hc]
      split
      · exact id st
      · rcases (st.partialRoutes !side).get compare (4 * (j / 2) + 1 - j) with _ | s
        · rcases (st.partialRoutes !side).get compare j with _ | s
          · exact ⟨rfl, fun u h i _ => by rw [← Option.some.inj h]⟩
          · simp only
            split
            · exact ⟨rfl, fun u h i _ => by rw [← Option.some.inj h]⟩
            · exact none st
        · simp only
          split
          · exact id st
          · exact none st

theorem routeSwitch (m : BiMap) (side : Bool) (i : ℕ) (swap : Bool) :
    CoR (p := p) S O (routeSwitch m switches side i swap) := by
  unfold R1CS.routeSwitch
  rcases hw : (switches side)[i]? with _ | w
  · exact none
  · have hset : CoR (p := p) S O (fun st => (st.values.setBoolean w swap).bind fun vs =>
        some { st with values := vs }) := by
      intro st
      have hm := hs _ w (List.mem_of_getElem? hw)
      obtain ⟨h1, h2⟩ := Co.set (p := p) hm.1 hm.2 (Elem.ofBool swap) st.values
      beta_reduce at h1 h2 ⊢
      simp only [WireValues.setBoolean]
      rw [← h1]
      rcases hv : st.values.set w.wire (Elem.ofBool swap) with _ | u
      · exact ⟨rfl, fun _ h => absurd h (by simp)⟩
      · refine ⟨rfl, fun s hs i hi => ?_⟩
        rw [← Option.some.inj hs]
        exact h2 u hv i hi
    have := seq hset (seq (enqueue hs m side (i * 2) swap) (enqueue hs m side (i * 2 + 1) (!swap)))
    intro st
    obtain ⟨h1, h2⟩ := this st
    simp only [Option.bind_assoc, Option.bind_some] at h1 h2
    exact ⟨h1, h2⟩

theorem routePartial (m : BiMap) (side : Bool) :
    ∀ l : List (ℕ × Bool), CoR (p := p) S O (routePartial m switches side l)
  | [] => id
  | (i, s) :: l => show CoR S O
      (fun st => (R1CS.routeSwitch m switches side (i / 2) ((i % 2 == 0) == s) st).bind
        (R1CS.routePartial m switches side l)) from
    seq (routeSwitch hs m side _ _) (routePartial m side l)

omit hs in
theorem scan {ws : List BooleanWire} (hs : ∀ w ∈ ws, w.wire ∈ S) (v : WireValues p) : ∀ (fuel i : ℕ),
    scanSwitches ws (v.mask S) fuel i = scanSwitches ws v fuel i
  | 0, _ => rfl
  | fuel + 1, i => by
    simp only [scanSwitches]
    rcases hw : ws[i]? with _ | w
    · rfl
    · have hc : (v.mask S).containsBoolean w = v.containsBoolean w := by
        show (v.mask S).contains w.wire = v.contains w.wire
        unfold WireValues.contains
        rw [WireValues.mask_of_mem (hs w (List.mem_of_getElem? hw))]
      simp only [hc, scan hs v fuel (i + 1)]

theorem routeSide (m : BiMap) (side : Bool) : CoR (p := p) S O (routeSide m switches side) := by
  intro st
  unfold R1CS.routeSide
  by_cases h : st.partialRoutes side = []
  · simp only [h, ne_eq, not_true_eq_false, if_false, scan (fun w hw => (hs side w hw).1)]
    split
    · exact after (routeSwitch hs m side _ _) (k := fun st => { st with
        scanIndex := fun s => if s = side then _ else st.scanIndex s }) (fun _ => rfl)
        (fun _ => rfl) st
    · exact ⟨rfl, fun u hu i _ => by rw [← Option.some.inj hu]⟩
  · simp only [h, ne_eq, not_false_eq_true, if_true]
    exact after (routePartial hs m side _) (k := fun st => { st with
      partialRoutes := fun s => if s = side then [] else st.partialRoutes s }) (fun _ => rfl)
      (fun _ => rfl) st

theorem routeLoop (m : BiMap) : ∀ fuel : ℕ, CoR (p := p) S O (routeLoop m switches fuel)
  | 0 => by
    intro st
    unfold R1CS.routeLoop
    split
    · exact none st
    · exact id st
  | fuel + 1 => by
    intro st
    unfold R1CS.routeLoop
    split
    · exact seq (routeSide hs m false) (seq (routeSide hs m true) (routeLoop m fuel)) st
    · exact id st

end CoR

theorem Co.routeGen {a b : List (Expression p)} (ha : ∀ x ∈ a, ∀ i ∈ x.dependencies, i ∈ S)
    (hb : ∀ x ∈ b, ∀ i ∈ x.dependencies, i ∈ S) {s t : List BooleanWire}
    (h : ∀ w ∈ s ++ t, w.wire ∈ S ∧ w.wire ∈ O) : Co S O (B.routeGen a b s t) := by
  refine read (evals ha) fun xs => read (evals hb) fun ys => ?_
  have hs : ∀ side, ∀ w ∈ (fun side : Bool => if side = true then t else s) side,
      w.wire ∈ S ∧ w.wire ∈ O := by
    intro side w hw
    cases side <;> exact h w (by simpa using by first | exact Or.inl hw | exact Or.inr hw)
  unfold route
  split
  · exact none
  · refine read (q := fun _ => _) (fun _ => rfl) fun m => ?_
    intro v
    have key : ∀ f : RouteState p → Option (RouteState p), CoR S O f →
        ((f ⟨v, fun _ => [], fun _ => 0⟩).bind fun st => some st.values).map
          (WireValues.mask S) =
          ((f ⟨v.mask S, fun _ => [], fun _ => 0⟩).bind fun st => some st.values) ∧
        ∀ u, ((f ⟨v, fun _ => [], fun _ => 0⟩).bind fun st => some st.values) = some u →
          ∀ i ∉ O, u i = v i := by
      intro f h
      obtain ⟨h1, h2⟩ := h ⟨v, fun _ => [], fun _ => 0⟩
      rw [show f ⟨v.mask S, fun _ => [], fun _ => 0⟩ = f (RouteState.mask S ⟨v, fun _ => [], fun _ => 0⟩)
        from rfl, ← h1]
      rcases hv : f ⟨v, fun _ => [], fun _ => 0⟩ with _ | u
      · exact ⟨rfl, fun _ h => absurd h (by simp)⟩
      · exact ⟨rfl, fun w hw i hi => by rw [← Option.some.inj hw]; exact h2 u hv i hi⟩
    split
    all_goals simp only [Option.bind_eq_bind, Option.bind_assoc]
    · have := key _ (CoR.seq (CoR.enqueue hs m true (xs.length - 2) false) (CoR.seq
        (CoR.enqueue hs m true (xs.length - 1) true) (CoR.routeLoop hs m (2 * (s.length + t.length)))))
      simp only [Option.bind_assoc] at this
      exact this
    · have := key _ (CoR.seq (CoR.enqueue hs m false (xs.length - 1) true) (CoR.seq
        (CoR.enqueue hs m true (xs.length - 1) true) (CoR.routeLoop hs m (2 * (s.length + t.length)))))
      simp only [Option.bind_assoc] at this
      exact this

/-- So the generator minds the wires it sets. -/
theorem Co.minds {d : List Wire} {f : WireValues p → Option (WireValues p)} {R : List Wire}
    (h : Co ({i | i ∈ d} ∪ {i | i ∈ R}) {i | i ∈ R} f) : Minds (· ∈ R) ⟨d, f⟩ where
  writes u u' hu i hi := (h u).2 u' hu i hi
  reads u1 u2 u1' h1 h2 hu := by
    have hm : u1.mask ({i | i ∈ d} ∪ {i | i ∈ R}) = u2.mask ({i | i ∈ d} ∪ {i | i ∈ R}) :=
      WireValues.mask_eq.2 fun i hi => hi.elim (fun hi => (h1 i hi).symm) fun hi => (h2 i hi).symm
    have e : (f u2).map (WireValues.mask ({i | i ∈ d} ∪ {i | i ∈ R})) =
        (f u1).map (WireValues.mask ({i | i ∈ d} ∪ {i | i ∈ R})) := by
      rw [(h u1).1, (h u2).1, hm]
    have hu : f u1 = some u1' := hu
    rw [hu] at e
    obtain ⟨u2', e1, e2⟩ := Option.map_eq_some_iff.1 e
    exact ⟨u2', e1, fun i hi => WireValues.mask_eq.1 e2 i (.inr hi)⟩

end R1CS
