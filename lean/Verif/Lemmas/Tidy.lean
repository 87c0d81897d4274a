import Verif.Spec.Tidy
import Verif.Lemmas.Programs
import Verif.Lemmas.Comparisons
import Verif.Props.Builder
import Verif.Model.BinaryOps
import Verif.Model.Permutation
import Verif.Model.Permutations
import Verif.Model.Hashes
import Verif.Model.Matrices
import Verif.Model.Curves
import Verif.Model.Traits
import Verif.Model.Readme

/-!
# Every gadget is tidy in the sense of `Spec/Tidy.lean`
-/

set_option linter.unusedSectionVars false

namespace R1CS

variable {p : ℕ} [hp : Fact p.Prime] {α β : Type}

/-! ## Closures -/

/-- `Confined` for a closure with declared inputs `d`. -/
abbrev Conf (d : List Wire) (lo hi : ℕ) (f : WireValues p → Option (WireValues p)) : Prop :=
  Confined lo hi ⟨d, f⟩

namespace Conf

variable {d : List Wire} {lo hi : ℕ}

theorem id : Conf (p := p) d lo hi (fun v => some v) := by
  refine ⟨fun u u' h i hi => ?_, fun u1 u2 u1' _ hown h => ⟨u2, rfl, ?_⟩⟩
  · obtain rfl := Option.some.inj h
    exact absurd rfl hi
  · obtain rfl := Option.some.inj h
    exact hown

theorem none : Conf (p := p) d lo hi (fun _ => Option.none) :=
  ⟨fun _ _ h => absurd h (by simp), fun _ _ _ _ _ h => absurd h (by simp)⟩

theorem seq {f g : WireValues p → Option (WireValues p)} (hf : Conf d lo hi f)
    (hg : Conf d lo hi g) : Conf d lo hi (fun v => (f v).bind g) := by
  refine ⟨fun u u' h i hi => ?_, fun u1 u2 u1' hd hown h => ?_⟩
  · obtain ⟨v, h1, h2⟩ := Option.bind_eq_some_iff.1 h
    by_cases hv : v i = u i
    · have := hg.writes v u' h2 i (by rw [hv]; exact hi)
      rw [hv] at this
      exact this
    · exact hf.writes u v h1 i hv
  · obtain ⟨v1, h1, h2⟩ := Option.bind_eq_some_iff.1 h
    obtain ⟨v2, g1, g2⟩ := hf.reads u1 u2 v1 hd hown h1
    have hd' : ∀ i ∈ d, v2 i = v1 i := by
      intro i hi'
      by_cases hr : lo ≤ i ∧ i < hi
      · exact g2 i hr.1 hr.2
      · have e1 : v1 i = u1 i := by
          by_contra hc
          exact hr (hf.writes u1 v1 h1 i hc).2
        have e2 : v2 i = u2 i := by
          by_contra hc
          exact hr (hf.writes u2 v2 g1 i hc).2
        rw [e1, e2]
        exact hd i hi'
    obtain ⟨u2', k1, k2⟩ := hg.reads v1 v2 u1' hd' g2 h2
    exact ⟨u2', Option.bind_eq_some_iff.2 ⟨v2, g1, k1⟩, k2⟩

/-- Reading declared inputs, then continuing. -/
theorem read {r : WireValues p → Option β}
    (hr : ∀ u1 u2 : WireValues p, (∀ i ∈ d, u2 i = u1 i) → r u2 = r u1)
    {k : β → WireValues p → Option (WireValues p)} (hk : ∀ x, Conf d lo hi (k x)) :
    Conf d lo hi (fun v => (r v).bind fun x => k x v) := by
  refine ⟨fun u u' h => ?_, fun u1 u2 u1' hd hown h => ?_⟩
  · obtain ⟨x, _, h2⟩ := Option.bind_eq_some_iff.1 h
    exact (hk x).writes u u' h2
  · obtain ⟨x, h1, h2⟩ := Option.bind_eq_some_iff.1 h
    obtain ⟨u2', k1, k2⟩ := (hk x).reads u1 u2 u1' hd hown h2
    exact ⟨u2', Option.bind_eq_some_iff.2 ⟨x, by rw [hr u1 u2 hd, h1], k1⟩, k2⟩

/-- Computing something which does not depend on the values of wires. -/
theorem const {o : Option β} {k : β → WireValues p → Option (WireValues p)}
    (hk : ∀ x, Conf d lo hi (k x)) : Conf d lo hi (fun v => o.bind fun x => k x v) :=
  read (r := fun _ => o) (fun _ _ _ => rfl) hk

theorem ite {c : Prop} [Decidable c] {f g : WireValues p → Option (WireValues p)}
    (hf : Conf d lo hi f) (hg : Conf d lo hi g) : Conf d lo hi (fun v => if c then f v else g v) := by
  by_cases h : c
  · simpa [h] using hf
  · simpa [h] using hg

theorem set {w : Wire} (h1 : lo ≤ w) (h2 : w < hi) (x : Elem p) :
    Conf d lo hi (fun v => v.set w x) := by
  have key : ∀ u u' : WireValues p, u.set w x = some u' ↔ u w = Option.none ∧ u' = u.insert w x := by
    intro u u'
    unfold WireValues.set WireValues.contains
    rcases hu : u w with _ | y <;> simp [eq_comm]
  refine ⟨fun u u' h i hi => ?_, fun u1 u2 u1' _ hown h => ?_⟩
  · obtain ⟨g1, rfl⟩ := (key u u').1 h
    by_cases hw : i = w
    · subst hw; exact ⟨g1, h1, h2⟩
    · exact absurd (if_neg hw) hi
  · obtain ⟨g1, rfl⟩ := (key u1 u1').1 h
    refine ⟨u2.insert w x, (key u2 _).2 ⟨by rw [hown w h1 h2, g1], rfl⟩, fun i l1 l2 => ?_⟩
    unfold WireValues.insert
    rw [hown i l1 l2]

theorem evaluate {e : Expression p} (he : ∀ i ∈ e.dependencies, i ∈ d) :
    ∀ u1 u2 : WireValues p, (∀ i ∈ d, u2 i = u1 i) → e.evaluate u2 = e.evaluate u1 := by
  intro u1 u2 h
  have hi : ∀ i ∈ e.dependencies, u2 i = u1 i := fun i hi => h i (he i hi)
  rcases h1 : e.evaluate u1 with _ | x
  · rcases h2 : e.evaluate u2 with _ | y
    · rfl
    · obtain ⟨k1, k2⟩ := Expression.evaluate_eq_some_iff.1 h2
      have : e.evaluate u1 = some y := by
        refine Expression.evaluate_eq_some_iff.2 ⟨fun i hj => by rw [← hi i hj]; exact k1 i hj, ?_⟩
        rw [k2]
        exact Expression.eval_congr fun i hj => by simp [WireValues.total, hi i hj]
      rw [h1] at this
      exact absurd this (by simp)
  · obtain ⟨k1, k2⟩ := Expression.evaluate_eq_some_iff.1 h1
    refine Expression.evaluate_eq_some_iff.2 ⟨fun i hj => by rw [hi i hj]; exact k1 i hj, ?_⟩
    rw [k2]
    exact Expression.eval_congr fun i hj => by simp [WireValues.total, hi i hj]

theorem evaluateAll {es : List (Expression p)}
    (he : ∀ e ∈ es, ∀ i ∈ e.dependencies, i ∈ d) :
    ∀ u1 u2 : WireValues p, (∀ i ∈ d, u2 i = u1 i) →
      es.mapM (fun e => e.evaluate u2) = es.mapM (fun e => e.evaluate u1) := by
  intro u1 u2 h
  induction es with
  | nil => rfl
  | cons e es ih =>
    rw [List.mapM_cons, List.mapM_cons, evaluate (he e (by simp)) u1 u2 h,
      ih fun e' he' => he e' (by simp [he'])]

theorem nonzeroGen {x : Expression p} {y m : Wire} (hy : lo ≤ y ∧ y < hi) (hm : lo ≤ m ∧ m < hi) :
    Conf x.dependencies lo hi (B.nonzeroGen x y m) :=
  read (evaluate fun _ h => h) fun _ => const fun _ => seq (set hm.1 hm.2 _) (set hy.1 hy.2 _)

theorem productGen {x y : Expression p} {w : Wire} (hw : lo ≤ w ∧ w < hi) :
    Conf (x.dependencies ++ y.dependencies) lo hi (B.productGen x y w) :=
  read (evaluate fun _ h => by simp [h]) fun _ => read (evaluate fun _ h => by simp [h]) fun _ =>
    set hw.1 hw.2 _

theorem inverseGen {x : Expression p} {w : Wire} (hw : lo ≤ w ∧ w < hi) :
    Conf x.dependencies lo hi (B.inverseGen x w) :=
  read (evaluate fun _ h => h) fun _ => const fun _ => set hw.1 hw.2 _

theorem inverseOrZeroGen {x : Expression p} {w : Wire} (hw : lo ≤ w ∧ w < hi) :
    Conf x.dependencies lo hi (B.inverseOrZeroGen x w) :=
  read (evaluate fun _ h => h) fun _ => const fun _ => set hw.1 hw.2 _

theorem quotientUnsafeGen {x y : Expression p} {w : Wire} (hw : lo ≤ w ∧ w < hi) :
    Conf (x.dependencies ++ y.dependencies) lo hi (B.quotientUnsafeGen x y w) :=
  read (evaluate fun _ h => by simp [h]) fun _ => read (evaluate fun _ h => by simp [h]) fun _ =>
    ite (const fun _ => set hw.1 hw.2 _) none

theorem setBitsOf (x : Elem p) : ∀ (ws : List BooleanWire) (i : ℕ),
    (∀ w ∈ ws, lo ≤ w.wire ∧ w.wire < hi) → Conf d lo hi (B.setBitsOf x i ws)
  | [], _, _ => id
  | w :: ws, i, h =>
    show Conf d lo hi (fun v => (v.setBoolean w (x.bit i)).bind (B.setBitsOf x (i + 1) ws)) from
      seq (set (h w (by simp)).1 (h w (by simp)).2 _)
        (setBitsOf x ws (i + 1) fun w' hw' => h w' (by simp [hw']))

theorem splitGen {x : Expression p} {n : ℕ} {w : BinaryWire}
    (hw : ∀ b ∈ w.bits, lo ≤ b.wire ∧ b.wire < hi) :
    Conf x.dependencies lo hi (B.splitGen x n w) :=
  read (evaluate fun _ h => h) fun _ => ite (setBitsOf _ _ _ hw) none

theorem setBits (n : ℕ) : ∀ (ws : List BooleanWire) (i : ℕ),
    (∀ w ∈ ws, lo ≤ w.wire ∧ w.wire < hi) →
    Conf (p := p) d lo hi (fun v => v.setBits n i ws)
  | [], _, _ => id
  | w :: ws, i, h =>
    show Conf d lo hi (fun v => (v.setBoolean w ((n >>> i) &&& 1 == 1)).bind
        fun v => v.setBits n (i + 1) ws) from
      seq (set (h w (by simp)).1 (h w (by simp)).2 _)
        (setBits n ws (i + 1) fun w' hw' => h w' (by simp [hw']))

theorem summationGen {x : Expression p} {w : BinaryWire}
    (hw : ∀ b ∈ w.bits, lo ≤ b.wire ∧ b.wire < hi) :
    Conf x.dependencies lo hi (B.summationGen x w) :=
  read (evaluate fun _ h => h) fun _ => ite (setBits _ _ _ hw) none

theorem maskGen : ∀ (l : List (Wire × Expression p × Expression p)) (b : Bool),
    (∀ q ∈ l, (lo ≤ q.1 ∧ q.1 < hi) ∧ (∀ i ∈ q.2.1.dependencies, i ∈ d) ∧
      ∀ i ∈ q.2.2.dependencies, i ∈ d) → Conf d lo hi (B.maskGen l b)
  | [], _, _ => id
  | (m, x, y) :: l, b, h => by
    obtain ⟨h1, h2, h3⟩ := h (m, x, y) (by simp)
    exact (show Conf d lo hi (fun v => (x.evaluate v).bind fun xv => (y.evaluate v).bind fun yv =>
        (v.set m (Elem.ofBool (decide (xv ≠ yv) && !b))).bind
          (B.maskGen l (b || decide (xv ≠ yv)))) from
      read (evaluate h2) fun _ => read (evaluate h3) fun _ => seq (set h1.1 h1.2 _)
        (maskGen l _ fun q hq => h q (by simp [hq])))

theorem modulusGen {x y : Expression p} {q r : Wire} (hq : lo ≤ q ∧ q < hi)
    (hr : lo ≤ r ∧ r < hi) :
    Conf (x.dependencies ++ y.dependencies) lo hi (B.modulusGen x y q r) :=
  read (evaluate fun _ h => by simp [h]) fun _ => read (evaluate fun _ h => by simp [h]) fun _ =>
    const fun _ => seq (set hq.1 hq.2 _) (const fun _ => set hr.1 hr.2 _)

theorem permutation2x2Gen {x y z t : Expression p} {s : BooleanWire}
    (hs : lo ≤ s.wire ∧ s.wire < hi) :
    Conf (x.dependencies ++ y.dependencies ++ z.dependencies ++ t.dependencies) lo hi
      (B.permutation2x2Gen x y z t s) :=
  read (evaluate fun _ h => by simp [h]) fun _ => read (evaluate fun _ h => by simp [h]) fun _ =>
    read (evaluate fun _ h => by simp [h]) fun _ => read (evaluate fun _ h => by simp [h]) fun _ =>
      ite (set hs.1 hs.2 _) (ite (set hs.1 hs.2 _) none)

theorem setItems : ∀ (ws : List Wire) (xs : List (Elem p)), (∀ w ∈ ws, lo ≤ w ∧ w < hi) →
    Conf d lo hi (B.setItems ws xs)
  | [], [], _ => id
  | _ :: _, [], _ => id
  | [], _ :: _, _ => none
  | w :: ws, x :: xs, h =>
    show Conf d lo hi (fun v => (v.set w x).bind (B.setItems ws xs)) from
      seq (set (h w (by simp)).1 (h w (by simp)).2 _)
        (setItems ws xs fun w' hw' => h w' (by simp [hw']))

theorem sortGen {xs : List (Expression p)} {ws : List Wire} (hw : ∀ w ∈ ws, lo ≤ w ∧ w < hi) :
    Conf (xs.flatMap Expression.dependencies) lo hi (B.sortGen xs ws) :=
  read (evaluateAll fun e he _ hi => List.mem_flatMap.2 ⟨e, he, hi⟩) fun _ => setItems _ _ hw

theorem rootGen {x : Expression p} {k : Elem p} {w : Wire} (hw : lo ≤ w ∧ w < hi) :
    Conf x.dependencies lo hi (MonomialPermutation.rootGen x k w) :=
  read (evaluate fun _ h => h) fun _ => set hw.1 hw.2 _

end Conf

/-! ## Routing -/

/-- A step of `route` which minds the wires from `lo` up to `hi`. -/
structure RouteConf (lo hi : ℕ) (F : RouteState p → Option (RouteState p)) : Prop where
  writes : ∀ s s', F s = some s' → ∀ i, s'.values i ≠ s.values i →
    s.values i = none ∧ lo ≤ i ∧ i < hi
  reads : ∀ s s' (v : WireValues p), (∀ i, lo ≤ i → i < hi → v i = s.values i) → F s = some s' →
    ∃ v', F { s with values := v } = some { s' with values := v' } ∧
      ∀ i, lo ≤ i → i < hi → v' i = s'.values i

namespace RouteConf

variable {lo hi : ℕ}

theorem seq {F : RouteState p → Option (RouteState p)}
    {G : RouteState p → Option (RouteState p)} (hF : RouteConf lo hi F) (hG : RouteConf lo hi G) :
    RouteConf lo hi (fun s => (F s).bind G) := by
  refine ⟨fun s s' h i hi => ?_, fun s s' v hv h => ?_⟩
  · obtain ⟨t, h1, h2⟩ := Option.bind_eq_some_iff.1 h
    by_cases ht : t.values i = s.values i
    · have := hG.writes t s' h2 i (by rw [ht]; exact hi)
      rw [ht] at this
      exact this
    · exact hF.writes s t h1 i ht
  · obtain ⟨t, h1, h2⟩ := Option.bind_eq_some_iff.1 h
    obtain ⟨v1, g1, g2⟩ := hF.reads s t v hv h1
    obtain ⟨v2, k1, k2⟩ := hG.reads t s' v1 g2 h2
    exact ⟨v2, Option.bind_eq_some_iff.2 ⟨_, g1, k1⟩, k2⟩

/-- Steps which keep the values of wires. -/
theorem pure {f : RouteState p → RouteState p} (h1 : ∀ s, (f s).values = s.values)
    (h2 : ∀ s v, f { s with values := v } = { f s with values := v }) :
    RouteConf lo hi (fun s => some (f s)) := by
  refine ⟨fun s s' h i hi => ?_, fun s s' v hv h => ⟨v, ?_, ?_⟩⟩
  · obtain rfl := Option.some.inj h
    exact absurd (by rw [h1]) hi
  · obtain rfl := Option.some.inj h
    rw [h2]
  · obtain rfl := Option.some.inj h
    rw [h1]; exact hv

variable {sw : Bool → List BooleanWire}

theorem contains_congr {w : BooleanWire} (hw : lo ≤ w.wire ∧ w.wire < hi) {v u : WireValues p}
    (h : ∀ i, lo ≤ i → i < hi → v i = u i) : v.containsBoolean w = u.containsBoolean w := by
  unfold WireValues.containsBoolean WireValues.contains
  rw [h _ hw.1 hw.2]

theorem enqueueOtherSide (m : BiMap) (hs : ∀ b, ∀ w ∈ sw b, lo ≤ w.wire ∧ w.wire < hi)
    (side : Bool) (i : ℕ) (subnet : Bool) :
    RouteConf (p := p) lo hi (R1CS.enqueueOtherSide m sw side i subnet) := by
  have hval : ∀ s s' : RouteState p, R1CS.enqueueOtherSide m sw side i subnet s = some s' →
      s'.values = s.values := by
    intro s s' h
    unfold R1CS.enqueueOtherSide at h
    obtain ⟨j, _, h⟩ := Option.bind_eq_some_iff.1 h
    dsimp only at h
    repeat' split at h
    all_goals first
      | (obtain rfl := Option.some.inj h; rfl)
      | cases h
  refine ⟨fun s s' h j hj => absurd (by rw [hval s s' h]) hj, fun s s' v hv h => ⟨v, ?_, ?_⟩⟩
  · unfold R1CS.enqueueOtherSide at h ⊢
    obtain ⟨j, h1, h⟩ := Option.bind_eq_some_iff.1 h
    refine Option.bind_eq_some_iff.2 ⟨j, h1, ?_⟩
    dsimp only at h ⊢
    rcases hsw : (sw !side)[j / 2]? with _ | w
    · rw [hsw] at h
      obtain rfl := Option.some.inj h
      rfl
    · rw [hsw] at h
      have hw := hs _ w (List.mem_of_getElem? hsw)
      dsimp only at h ⊢
      rw [contains_congr hw hv]
      repeat' split at h
      all_goals first
        | (obtain rfl := Option.some.inj h; simp_all)
        | cases h
  · intro j l1 l2
    rw [hval s s' h]
    exact hv j l1 l2

/-- Setting a switch. -/
theorem setSwitch {w : BooleanWire} (hw : lo ≤ w.wire ∧ w.wire < hi) (b : Bool) :
    RouteConf (p := p) lo hi
      (fun s => (s.values.setBoolean w b).map fun v => { s with values := v }) := by
  have hc := Conf.set (p := p) (d := []) hw.1 hw.2 (Elem.ofBool b)
  refine ⟨fun s s' h => ?_, fun s s' v hv h => ?_⟩
  · obtain ⟨u, h1, rfl⟩ := Option.map_eq_some_iff.1 h
    exact hc.writes s.values u h1
  · obtain ⟨u, h1, rfl⟩ := Option.map_eq_some_iff.1 h
    obtain ⟨u2, g1, g2⟩ := hc.reads s.values v u (by simp) hv h1
    exact ⟨u2, Option.map_eq_some_iff.2 ⟨u2, g1, rfl⟩, g2⟩

theorem none : RouteConf (p := p) lo hi (fun _ => Option.none) :=
  ⟨fun _ _ h => absurd h (by simp), fun _ _ _ _ h => absurd h (by simp)⟩

theorem routeSwitch (m : BiMap) (hs : ∀ b, ∀ w ∈ sw b, lo ≤ w.wire ∧ w.wire < hi) (side : Bool)
    (i : ℕ) (swap : Bool) : RouteConf (p := p) lo hi (R1CS.routeSwitch m sw side i swap) := by
  rcases hw : (sw side)[i]? with _ | w
  · have : R1CS.routeSwitch (p := p) m sw side i swap = fun _ => Option.none := by
      funext s; simp [R1CS.routeSwitch, hw]
    rw [this]; exact none
  · have : R1CS.routeSwitch (p := p) m sw side i swap = fun s =>
        (((s.values.setBoolean w swap).map fun v => { s with values := v }).bind
          fun s => (R1CS.enqueueOtherSide m sw side (i * 2) swap s).bind
            (R1CS.enqueueOtherSide m sw side (i * 2 + 1) (!swap))) := by
      funext s
      rcases hv : s.values.setBoolean w swap with _ | v <;> simp [R1CS.routeSwitch, hw, hv] <;> rfl
    rw [this]
    exact seq (setSwitch (hs _ w (List.mem_of_getElem? hw)) swap)
      (seq (enqueueOtherSide m hs side _ _) (enqueueOtherSide m hs side _ _))

theorem routePartial (m : BiMap) (hs : ∀ b, ∀ w ∈ sw b, lo ≤ w.wire ∧ w.wire < hi) (side : Bool) :
    ∀ l : List (ℕ × Bool), RouteConf (p := p) lo hi (R1CS.routePartial m sw side l)
  | [] => pure (fun _ => rfl) fun _ _ => rfl
  | (i, b) :: l => seq (routeSwitch m hs side _ _) (routePartial m hs side l)

/-- A step which looks at the pending routes and the scan indices. -/
theorem depends {F : (Bool → BMap ℕ Bool) → (Bool → ℕ) → RouteState p → Option (RouteState p)}
    (h : ∀ r i, RouteConf lo hi (F r i)) :
    RouteConf lo hi (fun s => F s.partialRoutes s.scanIndex s) :=
  ⟨fun s s' hs => (h _ _).writes s s' hs, fun s s' v hv hs => (h _ _).reads s s' v hv hs⟩

theorem scan_congr {l : List BooleanWire} (hs : ∀ w ∈ l, lo ≤ w.wire ∧ w.wire < hi)
    {v u : WireValues p} (h : ∀ i, lo ≤ i → i < hi → v i = u i) :
    ∀ fuel i, scanSwitches l v fuel i = scanSwitches l u fuel i
  | 0, _ => rfl
  | fuel + 1, i => by
    unfold scanSwitches
    rcases hl : l[i]? with _ | w
    · rfl
    · dsimp only
      rw [contains_congr (hs w (List.mem_of_getElem? hl)) h, scan_congr hs h fuel (i + 1)]

/-- A step which looks at the first switch not set. -/
theorem scanned {l : List BooleanWire} (hs : ∀ w ∈ l, lo ≤ w.wire ∧ w.wire < hi)
    {fuel : ℕ} {side : Bool} {F : ℕ → RouteState p → Option (RouteState p)}
    (h : ∀ i, RouteConf lo hi (F i)) :
    RouteConf lo hi (fun s => F (scanSwitches l s.values fuel (s.scanIndex side)) s) := by
  refine ⟨fun s s' hF => (h _).writes s s' hF, fun s s' v hv hF => ?_⟩
  beta_reduce
  rw [scan_congr hs hv]
  exact (h _).reads s s' v hv hF

theorem ite {c : Prop} [Decidable c] {F G : RouteState p → Option (RouteState p)}
    (hF : RouteConf lo hi F) (hG : RouteConf lo hi G) :
    RouteConf lo hi (fun s => if c then F s else G s) := by
  by_cases h : c
  · simpa [h] using hF
  · simpa [h] using hG

theorem routeSide (m : BiMap) (hs : ∀ b, ∀ w ∈ sw b, lo ≤ w.wire ∧ w.wire < hi) (side : Bool) :
    RouteConf (p := p) lo hi (R1CS.routeSide m sw side) := by
  refine depends (F := fun r _ (s : RouteState p) => if r side ≠ [] then
      (R1CS.routePartial m sw side (r side) s).bind fun s =>
        some { s with partialRoutes := fun t => if t = side then [] else s.partialRoutes t }
    else (fun i => if i < (sw side).length then
        (R1CS.routeSwitch m sw side i false s).bind fun s =>
          some { s with scanIndex := fun t => if t = side then i + 1 else s.scanIndex t }
      else some { s with scanIndex := fun t => if t = side then i else s.scanIndex t })
      (scanSwitches (sw side) s.values (sw side).length (s.scanIndex side))) fun r _ => ?_
  refine ite (seq (routePartial m hs side _) (pure (fun _ => rfl) fun _ _ => rfl)) ?_
  refine scanned (hs side) (F := fun i (s : RouteState p) => if i < (sw side).length then
        (R1CS.routeSwitch m sw side i false s).bind fun s =>
          some { s with scanIndex := fun t => if t = side then i + 1 else s.scanIndex t }
      else some { s with scanIndex := fun t => if t = side then i else s.scanIndex t }) fun i => ?_
  exact ite (seq (routeSwitch m hs side i false) (pure (fun _ => rfl) fun _ _ => rfl))
    (pure (fun _ => rfl) fun _ _ => rfl)

theorem routeLoop (m : BiMap) (hs : ∀ b, ∀ w ∈ sw b, lo ≤ w.wire ∧ w.wire < hi) :
    ∀ fuel, RouteConf (p := p) lo hi (R1CS.routeLoop m sw fuel)
  | 0 => by
    rw [show R1CS.routeLoop (p := p) m sw 0 = fun s => if s.scanIndex false < (sw false).length ∨
      s.scanIndex true < (sw true).length then Option.none else some s from
      funext fun s => by rw [R1CS.routeLoop]]
    exact depends (F := fun _ i s => if i false < (sw false).length ∨ i true < (sw true).length
      then Option.none else some s) fun _ _ => ite none (pure (fun _ => rfl) fun _ _ => rfl)
  | fuel + 1 => by
    rw [show R1CS.routeLoop (p := p) m sw (fuel + 1) = fun s =>
      if s.scanIndex false < (sw false).length ∨ s.scanIndex true < (sw true).length then
        (R1CS.routeSide m sw false s).bind fun s => (R1CS.routeSide m sw true s).bind
          (R1CS.routeLoop m sw fuel) else some s from
      funext fun s => by rw [R1CS.routeLoop]; rfl]
    exact depends (F := fun _ i s => if i false < (sw false).length ∨ i true < (sw true).length
      then (R1CS.routeSide m sw false s).bind fun s => (R1CS.routeSide m sw true s).bind
        (R1CS.routeLoop m sw fuel) else some s) fun _ _ =>
      ite (seq (routeSide m hs false) (seq (routeSide m hs true) (routeLoop m hs fuel)))
        (pure (fun _ => rfl) fun _ _ => rfl)

end RouteConf

namespace Conf

variable {d : List Wire} {lo hi : ℕ}

theorem ofRoute {F G : RouteState p → Option (RouteState p)} (hF' : RouteConf lo hi F)
    (hG : RouteConf lo hi G) (r : Bool → BMap ℕ Bool) (k : Bool → ℕ) :
    Conf d lo hi (fun v => (F ⟨v, r, k⟩).bind fun s => (G s).bind fun s => some s.values) := by
  have hF := RouteConf.seq hF' hG
  simp only [← Option.bind_assoc]
  refine ⟨fun u u' h => ?_, fun u1 u2 u1' _ hown h => ?_⟩
  · obtain ⟨s, h1, h2⟩ := Option.bind_eq_some_iff.1 h
    obtain rfl := Option.some.inj h2
    exact hF.writes _ s h1
  · obtain ⟨s, h1, h2⟩ := Option.bind_eq_some_iff.1 h
    obtain rfl := Option.some.inj h2
    obtain ⟨v', g1, g2⟩ := hF.reads _ s u2 hown h1
    exact ⟨v', Option.bind_eq_some_iff.2 ⟨_, g1, rfl⟩, g2⟩

theorem route (xs ys : List (Elem p)) {sa sb : List BooleanWire}
    (ha : ∀ w ∈ sa, lo ≤ w.wire ∧ w.wire < hi) (hb : ∀ w ∈ sb, lo ≤ w.wire ∧ w.wire < hi) :
    Conf d lo hi (R1CS.route xs ys sa sb) := by
  have hs : ∀ b : Bool, ∀ w ∈ (fun side : Bool => if side then sb else sa) b,
      lo ≤ w.wire ∧ w.wire < hi := by
    intro b
    cases b
    · simpa using ha
    · simpa using hb
  unfold R1CS.route
  refine ite none (const fun m => ?_)
  by_cases hn : xs.length % 2 = 0
  · simp only [hn, if_true]
    exact ofRoute (p := p) (RouteConf.seq (RouteConf.enqueueOtherSide m hs _ _ _)
      (RouteConf.enqueueOtherSide m hs _ _ _)) (RouteConf.routeLoop m hs _) (fun _ => []) fun _ => 0
  · simp only [hn, if_false]
    exact ofRoute (p := p) (RouteConf.seq (RouteConf.enqueueOtherSide m hs _ _ _)
      (RouteConf.enqueueOtherSide m hs _ _ _)) (RouteConf.routeLoop m hs _) (fun _ => []) fun _ => 0

theorem routeGen {xs ys : List (Expression p)} {sa sb : List BooleanWire}
    (ha : ∀ w ∈ sa, lo ≤ w.wire ∧ w.wire < hi) (hb : ∀ w ∈ sb, lo ≤ w.wire ∧ w.wire < hi) :
    Conf (xs.flatMap Expression.dependencies ++ ys.flatMap Expression.dependencies) lo hi
      (B.routeGen xs ys sa sb) :=
  read (evaluateAll fun e he _ hi => List.mem_append_left _ (List.mem_flatMap.2 ⟨e, he, hi⟩))
    fun _ => read
      (evaluateAll fun e he _ hi => List.mem_append_right _ (List.mem_flatMap.2 ⟨e, he, hi⟩))
      fun _ => route _ _ ha hb

end Conf

/-! ## Programs -/

theorem Confined.mono {lo lo' hi hi' : ℕ} {g : WitnessGenerator p} (h : Confined lo hi g)
    (hl : lo' ≤ lo) (hh : hi ≤ hi') : Confined lo' hi' g := by
  refine ⟨fun u u' hg i hi => ?_, fun u1 u2 u1' hd hown hg => ?_⟩
  · obtain ⟨h1, h2, h3⟩ := h.writes u u' hg i hi
    exact ⟨h1, by omega, by omega⟩
  · obtain ⟨u2', k1, k2⟩ := h.reads u1 u2 u1' hd
      (fun i l1 l2 => hown i (by omega) (by omega)) hg
    refine ⟨u2', k1, fun i l1 l2 => ?_⟩
    by_cases hr : lo ≤ i ∧ i < hi
    · exact k2 i hr.1 hr.2
    · have e1 : u1' i = u1 i := by
        by_contra hc
        exact hr (h.writes u1 u1' hg i hc).2
      have e2 : u2' i = u2 i := by
        by_contra hc
        exact hr (h.writes u2 u2' k1 i hc).2
      rw [e1, e2]
      exact hown i l1 l2

theorem Confined.keeps {lo hi : ℕ} {g : WitnessGenerator p} (h : Confined lo hi g) :
    KeepsValues g.generate := by
  intro u u' hg i x hx
  by_contra hc
  have := (h.writes u u' hg i (by rw [hx]; exact hc)).1
  rw [hx] at this
  exact absurd this (by simp)

/-- `m`, called when the next wire is `n`, adds generators minding the wires from `lo` up to the
next wire after the call, and its result and the next wire satisfy `R`. -/
def Own (lo n : ℕ) (m : B p α) (R : α → ℕ → Prop) : Prop :=
  ∀ b a b', b.nextWireIndex = n → m b = some (a, b') → n ≤ b'.nextWireIndex ∧
    (∃ gs, b'.witnessGenerators = b.witnessGenerators ++ gs ∧
      ∀ g ∈ gs, Confined lo b'.nextWireIndex g) ∧ R a b'.nextWireIndex

namespace Own

variable {lo n : ℕ}

theorem pure {a : α} : Own (p := p) lo n (pure a) fun a' n' => a' = a ∧ n' = n := by
  intro b a' b' hn h
  obtain ⟨rfl, rfl⟩ := Prod.ext_iff.1 (Option.some.inj h)
  exact ⟨le_of_eq hn.symm, ⟨[], by simp⟩, rfl, hn⟩

theorem bind {m : B p α} {f : α → B p β} {R : α → ℕ → Prop} {S : β → ℕ → Prop}
    (hm : Own lo n m R) (hf : ∀ a n', n ≤ n' → R a n' → Own lo n' (f a) S) :
    Own lo n (m >>= f) S := by
  intro b z b' hn h
  obtain ⟨a, b1, h1, h2⟩ := B.bind_run h
  obtain ⟨l1, ⟨gs1, g1, c1⟩, r1⟩ := hm b a b1 hn h1
  obtain ⟨l2, ⟨gs2, g2, c2⟩, r2⟩ := hf a _ l1 r1 b1 z b' rfl h2
  refine ⟨by omega, ⟨gs1 ++ gs2, by rw [g2, g1, List.append_assoc], fun g hg => ?_⟩, r2⟩
  rcases List.mem_append.1 hg with h | h
  · exact (c1 g h).mono (le_refl _) l2
  · exact c2 g h

theorem mono {m : B p α} {R S : α → ℕ → Prop} (hm : Own lo n m R)
    (h : ∀ a n', n ≤ n' → R a n' → S a n') : Own lo n m S := by
  intro b a b' hn hb
  obtain ⟨l, g, r⟩ := hm b a b' hn hb
  exact ⟨l, g, h a _ l r⟩

theorem wire : Own (p := p) lo n B.wire fun i n' => i = n ∧ n' = n + 1 := by
  intro b a b' hn h
  obtain ⟨rfl, rfl⟩ := Prod.ext_iff.1 (Option.some.inj h)
  exact ⟨by simp [hn], ⟨[], by simp⟩, hn, by simp [hn]⟩

theorem assertProduct (x y z : Expression p) :
    Own lo n (B.assertProduct x y z) fun _ n' => n' = n := by
  intro b a b' hn h
  obtain ⟨_, rfl⟩ := Prod.ext_iff.1 (Option.some.inj h)
  exact ⟨by simp [hn], ⟨[], by simp⟩, hn⟩

theorem generator {d : List Wire} {f : WireValues p → Option (WireValues p)}
    (h : Conf d lo n f) : Own lo n (B.generator d f) fun _ n' => n' = n := by
  intro b a b' hn hb
  obtain ⟨_, rfl⟩ := Prod.ext_iff.1 (Option.some.inj hb)
  refine ⟨by simp [hn], ⟨[⟨d, f⟩], rfl, fun g hg => ?_⟩, hn⟩
  rw [List.mem_singleton] at hg
  subst hg
  simpa [hn] using h

theorem ofOption (o : Option α) : Own (p := p) lo n (B.ofOption o) fun a n' => o = some a ∧ n' = n := by
  intro b a b' hn h
  unfold B.ofOption at h
  obtain ⟨x, rfl, h2⟩ := Option.map_eq_some_iff.1 h
  obtain ⟨rfl, rfl⟩ := Prod.ext_iff.1 h2
  exact ⟨le_of_eq hn.symm, ⟨[], by simp⟩, rfl, hn⟩

theorem require (c : Prop) [Decidable c] : Own (p := p) lo n (B.require c) fun _ n' => n' = n := by
  unfold B.require
  split
  · exact pure.mono fun _ _ _ h => h.2
  · intro b a b' _ h
    exact absurd h (by simp [B.panic])

end Own

namespace Tidy

theorem own {m : B p α} (hm : Tidy m) {lo n : ℕ} (h : lo ≤ n) : Own lo n m fun _ _ => True := by
  intro b a b' hn hb
  obtain ⟨l, _, gs, hgs, _⟩ := C23_appends hm.1 hb
  refine ⟨by omega, ⟨gs, hgs, fun g hg => ?_⟩, trivial⟩
  exact (hm.2 b a b' hb g (by rw [hgs, List.drop_left]; exact hg)).mono (by omega) (le_refl _)

theorem mk {m : B p α} (hm : Prog m) {R : ℕ → α → ℕ → Prop} (h : ∀ n, Own n n m (R n)) : Tidy m := by
  refine ⟨hm, fun b a b' hb g hg => ?_⟩
  obtain ⟨_, ⟨gs, hgs, hc⟩, _⟩ := h _ b a b' rfl hb
  rw [hgs, List.drop_left] at hg
  exact hc g hg

theorem pure (a : α) : Tidy (pure a : B p α) := mk (.pure a) fun _ => Own.pure

theorem bind {m : B p α} {f : α → B p β} (hm : Tidy m) (hf : ∀ a, Tidy (f a)) :
    Tidy (m >>= f) :=
  mk (.bind hm.1 fun a => (hf a).1) fun _ => Own.bind (hm.own (le_refl _)) fun a _ hn _ =>
    (hf a).own hn

theorem panic : Tidy (B.panic : B p α) :=
  ⟨.panic, fun _ _ _ h => absurd h (by simp [B.panic])⟩

theorem ofOption (o : Option α) : Tidy (B.ofOption o : B p α) :=
  mk (.ofOption o) fun _ => Own.ofOption o

theorem require (c : Prop) [Decidable c] : Tidy (B.require c : B p Unit) :=
  mk (.require c) fun _ => Own.require c

theorem ite {c : Prop} [Decidable c] {m k : B p α} (hm : Tidy m) (hk : Tidy k) :
    Tidy (if c then m else k) := by
  split
  · exact hm
  · exact hk

theorem wire : Tidy (B.wire : B p Wire) := mk .wire fun _ => Own.wire

theorem assertProduct (x y z : Expression p) : Tidy (B.assertProduct x y z) :=
  mk (.assertProduct x y z) fun _ => Own.assertProduct x y z

theorem assertBoolean (x : Expression p) : Tidy (B.assertBoolean x) :=
  bind (assertProduct _ _ _) fun _ => pure _

theorem assertEqual (x y : Expression p) : Tidy (B.assertEqual x y) := assertProduct _ _ _

theorem assertZero (x : Expression p) : Tidy (B.assertZero x) := assertProduct _ _ _

theorem assertTrue (x : BooleanExpression p) : Tidy (B.assertTrue x) := assertProduct _ _ _

theorem assertFalse (x : BooleanExpression p) : Tidy (B.assertFalse x) := assertProduct _ _ _

end Tidy

namespace Own

variable {lo n : ℕ}

theorem booleanWire : Own (p := p) lo n B.booleanWire fun w n' => n ≤ w.wire ∧ w.wire < n' := by
  unfold B.booleanWire
  refine wire.bind fun i n1 h1 h2 => ?_
  refine Own.bind (R := fun _ n' => n' = n1) ?_ fun _ n2 h3 h4 => ?_
  · exact (assertProduct _ _ _).bind fun _ _ _ h => pure.mono fun _ _ _ h' => h'.2.trans h
  · exact pure.mono fun a n3 _ h => by
      obtain ⟨rfl, rfl⟩ := h
      dsimp only
      omega

theorem wires : ∀ (k n : ℕ), Own (p := p) lo n (B.wires k) fun ws n' => ∀ w ∈ ws, n ≤ w ∧ w < n'
  | 0, n => pure.mono fun a n' _ h => by
      obtain ⟨rfl, rfl⟩ := h
      simp
  | k + 1, n => by
    unfold B.wires
    refine wire.bind fun i n1 h1 h2 => (wires k n1).bind fun ws n2 h3 h4 => ?_
    refine pure.mono fun a n3 _ h => ?_
    obtain ⟨rfl, rfl⟩ := h
    intro w hw
    rcases List.mem_cons.1 hw with rfl | hw
    · omega
    · have := h4 w hw
      omega

theorem booleanWires : ∀ (k n : ℕ), Own (p := p) lo n (B.booleanWires k)
    fun ws n' => ∀ w ∈ ws, n ≤ w.wire ∧ w.wire < n'
  | 0, n => pure.mono fun a n' _ h => by
      obtain ⟨rfl, rfl⟩ := h
      simp
  | k + 1, n => by
    unfold B.booleanWires
    refine booleanWire.bind fun i n1 h1 h2 => (booleanWires k n1).bind fun ws n2 h3 h4 => ?_
    refine pure.mono fun a n3 _ h => ?_
    obtain ⟨rfl, rfl⟩ := h
    intro w hw
    rcases List.mem_cons.1 hw with rfl | hw
    · omega
    · have := h4 w hw
      omega

theorem binaryWire (k n : ℕ) : Own (p := p) lo n (B.binaryWire k)
    fun w n' => ∀ b ∈ w.bits, n ≤ b.wire ∧ b.wire < n' := by
  unfold B.binaryWire
  refine (booleanWires k n).bind fun ws n1 h1 h2 => pure.mono fun a n2 _ h => ?_
  obtain ⟨rfl, rfl⟩ := h
  exact h2

end Own

namespace Tidy

theorem booleanWire : Tidy (B.booleanWire : B p BooleanWire) :=
  mk .booleanWire fun _ => Own.booleanWire

theorem wires (k : ℕ) : Tidy (B.wires k : B p (List Wire)) := mk (.wires k) fun n => Own.wires k n

theorem booleanWires (k : ℕ) : Tidy (B.booleanWires k : B p (List BooleanWire)) :=
  mk (.booleanWires k) fun n => Own.booleanWires k n

theorem binaryWire (k : ℕ) : Tidy (B.binaryWire k : B p BinaryWire) :=
  mk (.binaryWire k) fun n => Own.binaryWire k n

theorem nonzero (x : Expression p) : Tidy (B.nonzero x) := by
  refine mk (R := fun _ _ _ => True) (.nonzero x) fun n => ?_
  unfold B.nonzero
  refine Own.wire.bind fun y n1 h1 e1 => Own.wire.bind fun m n2 h2 e2 =>
    (Own.assertProduct _ _ _).bind fun _ n3 h3 e3 => (Own.assertProduct _ _ _).bind
      fun _ n4 h4 e4 => (Own.generator (Conf.nonzeroGen ?_ ?_)).bind fun _ n5 h5 e5 =>
        Own.pure.mono fun _ _ _ _ => trivial
  · omega
  · omega

theorem not (x : BooleanExpression p) : Tidy (B.not x) := pure _

theorem zero (x : Expression p) : Tidy (B.zero x) := bind (nonzero x) fun _ => not _

theorem equal (x y : Expression p) : Tidy (B.equal x y) := zero _

theorem product (x y : Expression p) : Tidy (B.product x y) := by
  refine mk (R := fun _ _ _ => True) (.product x y) fun n => ?_
  unfold B.product
  split
  · exact Own.pure.mono fun _ _ _ _ => trivial
  · split
    · exact Own.pure.mono fun _ _ _ _ => trivial
    · refine Own.wire.bind fun w n1 h1 e1 => (Own.assertProduct _ _ _).bind fun _ n2 h2 e2 =>
        (Own.generator (Conf.productGen ?_)).bind fun _ n5 h5 e5 =>
          Own.pure.mono fun _ _ _ _ => trivial
      omega

theorem selection (c : BooleanExpression p) (x y : Expression p) : Tidy (B.selection c x y) :=
  bind (product _ _) fun _ => pure _

theorem expLoop (x : Expression p) (k : Elem p) : ∀ (r i : ℕ) (e f : Expression p),
    Tidy (B.expLoop x k i r e f)
  | 0, _, _, _ => pure _
  | r + 1, i, _, _ =>
    bind (ite (pure _) (product _ _)) fun _ => bind (ite (product _ _) (pure _)) fun _ =>
      expLoop x k r (i + 1) _ _

theorem exponentiation (x : Expression p) (k : Elem p) : Tidy (B.exponentiation x k) :=
  expLoop _ _ _ _ _ _

theorem inverse (x : Expression p) : Tidy (B.inverse x) := by
  refine mk (R := fun _ _ _ => True) (.inverse x) fun n => ?_
  unfold B.inverse
  refine Own.wire.bind fun w n1 h1 e1 => (Own.assertProduct _ _ _).bind fun _ n2 h2 e2 =>
    (Own.generator (Conf.inverseGen ?_)).bind fun _ n5 h5 e5 => Own.pure.mono fun _ _ _ _ => trivial
  omega

theorem assertNonzero (x : Expression p) : Tidy (B.assertNonzero x) :=
  bind (inverse x) fun _ => pure _

theorem assertNonequal (x y : Expression p) : Tidy (B.assertNonequal x y) := assertNonzero _

theorem inverseOrZero (x : Expression p) : Tidy (B.inverseOrZero x) := by
  refine mk (R := fun _ _ _ => True) (.inverseOrZero x) fun n => ?_
  unfold B.inverseOrZero
  refine Own.wire.bind fun w n1 h1 e1 => ((nonzero x).own (by omega)).bind fun _ n2 h2 _ =>
    (Own.assertProduct _ _ _).bind fun _ n3 h3 e3 =>
    (Own.generator (Conf.inverseOrZeroGen ?_)).bind fun _ n5 h5 e5 =>
      Own.pure.mono fun _ _ _ _ => trivial
  omega

theorem quotient (x y : Expression p) : Tidy (B.quotient x y) :=
  bind (inverse y) fun _ => product _ _

theorem quotientUnsafe (x y : Expression p) : Tidy (B.quotientUnsafe x y) := by
  refine mk (R := fun _ _ _ => True) (.quotientUnsafe x y) fun n => ?_
  unfold B.quotientUnsafe
  refine Own.wire.bind fun w n1 h1 e1 =>
    (Own.generator (Conf.quotientUnsafeGen ?_)).bind fun _ n5 h5 e5 =>
      Own.pure.mono fun _ _ _ _ => trivial
  omega

theorem and (x y : BooleanExpression p) : Tidy (B.and x y) := bind (product _ _) fun _ => pure _

theorem or (x y : BooleanExpression p) : Tidy (B.or x y) := bind (product _ _) fun _ => pure _

theorem xor (x y : BooleanExpression p) : Tidy (B.xor x y) :=
  bind (product _ _) fun _ => bind (ofOption _) fun _ => pure _

theorem splitWithoutRangeCheck (x : Expression p) (k : ℕ) :
    Tidy (B.splitWithoutRangeCheck x k) := by
  refine mk (R := fun _ _ _ => True) (.splitWithoutRangeCheck x k) fun n => ?_
  unfold B.splitWithoutRangeCheck
  refine (Own.binaryWire k n).bind fun w n1 h1 e1 => (Own.ofOption _).bind fun _ n2 h2 e2 =>
    (Own.assertProduct _ _ _).bind fun _ n3 h3 e3 =>
    (Own.generator (Conf.splitGen fun b hb => ?_)).bind fun _ n5 h5 e5 =>
      Own.pure.mono fun _ _ _ _ => trivial
  have := e1 b hb
  omega

theorem splitAllowingAmbiguity (x : Expression p) : Tidy (B.splitAllowingAmbiguity x) :=
  splitWithoutRangeCheck _ _

theorem splitBounded (x : Expression p) (k : ℕ) : Tidy (B.splitBounded x k) :=
  bind (require _) fun _ => splitWithoutRangeCheck _ _

theorem cmpSubtractive (d : Expression p) (l s : Bool) (k : ℕ) : Tidy (B.cmpSubtractive d l s k) :=
  bind (ofOption _) fun _ => bind (splitBounded _ _) fun _ => ofOption _

theorem assertBooleans : ∀ l : List Wire, Tidy (B.assertBooleans l : B p Unit)
  | [] => pure _
  | _ :: ms => bind (assertBoolean _) fun _ => assertBooleans ms

theorem maskedSum : ∀ (l : List (Wire × Expression p × Expression p)) (e : Expression p),
    Tidy (B.maskedSum l e)
  | [], _ => pure _
  | (_, _, _) :: l, _ => bind (product _ _) fun _ => maskedSum l _

theorem assertMoreSignificantEqual : ∀ (l : List (Wire × Expression p × Expression p))
    (e : Expression p), Tidy (B.assertMoreSignificantEqual l e)
  | [], _ => pure _
  | (_, _, _) :: l, _ => bind (assertProduct _ _ _) fun _ => assertMoreSignificantEqual l _

theorem cmpTail (z : List (Wire × Expression p × Expression p)) (d : BooleanExpression p)
    (l s : Bool) (c : ℕ) : Tidy (B.cmpTail z d l s c) := by
  refine bind (maskedSum _ _) fun _ => ?_
  split
  · exact panic
  · exact bind (assertMoreSignificantEqual _ _) fun _ =>
      bind (ite (pure _) (bind (selection _ _ _) fun _ => assertNonzero _)) fun _ =>
        cmpSubtractive _ _ _ _

/-- Chunks only mention wires of the whole. -/
theorem chunks_deps {x : BinaryExpression p} {k : ℕ} {cs : List (BinaryExpression p)}
    {es : List (Expression p)} (hc : x.chunks k = some cs)
    (he : cs.mapM BinaryExpression.join = some es) :
    ∀ e ∈ es, ∀ i ∈ e.dependencies, i ∈ x.dependencies := by
  intro e h i hi
  unfold BinaryExpression.chunks chunks? at hc
  split at hc
  · exact absurd hc (by simp)
  · next hk =>
    obtain rfl := Option.some.inj hc
    obtain ⟨c, hc, hic⟩ := mapM_join_deps he e h i hi
    obtain ⟨c', hc', rfl⟩ := List.mem_map.1 hc
    exact chunk_deps (Nat.pos_of_ne_zero hk) hc' i hic

theorem cmpBinary (x y : BinaryExpression p) (l s : Bool) : Tidy (B.cmpBinary x y l s) := by
  refine mk (R := fun _ _ _ => True) (.cmpBinary x y l s) fun n => ?_
  unfold B.cmpBinary
  refine (Own.require _).bind fun _ n0 h0 e0 => (Own.ofOption _).bind fun xc n1 h1 e1 =>
    (Own.ofOption _).bind fun xs n2 h2 e2 => (Own.ofOption _).bind fun yc n3 h3 e3 =>
    (Own.ofOption _).bind fun ys n4 h4 e4 => (Own.wires _ _).bind fun ms n5 h5 e5 =>
    ((assertBooleans _).own (by omega)).bind fun _ n6 h6 _ =>
    ((assertBoolean _).own (by omega)).bind fun _ n7 h7 _ =>
    (Own.generator (Conf.maskGen _ _ fun q hq => ?_)).bind fun _ n8 h8 e8 =>
      (cmpTail _ _ _ _ _).own (by omega)
  rw [List.mem_reverse] at hq
  obtain ⟨q1, q2, q3⟩ := q
  have hm := List.of_mem_zip hq
  have hxy := List.of_mem_zip hm.2
  have := e5 q1 hm.1
  refine ⟨by omega, fun i hi => ?_, fun i hi => ?_⟩
  · exact List.mem_append_left _ (chunks_deps e1.1 e2.1 q2 hxy.1 i hi)
  · exact List.mem_append_right _ (chunks_deps e3.1 e4.1 q3 hxy.2 i hi)

theorem assertLtBinary (x y : BinaryExpression p) : Tidy (B.assertLtBinary x y) :=
  bind (cmpBinary _ _ _ _) fun _ => assertTrue _

theorem assertLeBinary (x y : BinaryExpression p) : Tidy (B.assertLeBinary x y) :=
  bind (cmpBinary _ _ _ _) fun _ => assertTrue _

theorem assertGtBinary (x y : BinaryExpression p) : Tidy (B.assertGtBinary x y) :=
  bind (cmpBinary _ _ _ _) fun _ => assertTrue _

theorem assertGeBinary (x y : BinaryExpression p) : Tidy (B.assertGeBinary x y) :=
  bind (cmpBinary _ _ _ _) fun _ => assertTrue _

theorem split (x : Expression p) : Tidy (B.split x) :=
  bind (splitWithoutRangeCheck _ _) fun _ => bind (assertLtBinary _ _) fun _ => pure _

theorem cmp (x y : Expression p) (l s : Bool) : Tidy (B.cmp x y l s) :=
  ite (bind (splitAllowingAmbiguity _) fun _ => bind (split _) fun _ => cmpBinary _ _ _ _)
    (bind (split _) fun _ => bind (splitAllowingAmbiguity _) fun _ => cmpBinary _ _ _ _)

theorem assertLt (x y : Expression p) : Tidy (B.assertLt x y) :=
  bind (cmp _ _ _ _) fun _ => assertTrue _

theorem assertLe (x y : Expression p) : Tidy (B.assertLe x y) :=
  bind (cmp _ _ _ _) fun _ => assertTrue _

theorem assertGt (x y : Expression p) : Tidy (B.assertGt x y) :=
  bind (cmp _ _ _ _) fun _ => assertTrue _

theorem assertGe (x y : Expression p) : Tidy (B.assertGe x y) :=
  bind (cmp _ _ _ _) fun _ => assertTrue _

theorem modulus (x y : Expression p) : Tidy (B.modulus x y) := by
  refine mk (R := fun _ _ _ => True) (.modulus x y) fun n => ?_
  unfold B.modulus
  refine Own.wire.bind fun q n1 h1 e1 => Own.wire.bind fun r n2 h2 e2 =>
    (Own.assertProduct _ _ _).bind fun _ n3 h3 e3 => ((assertLt _ _).own (by omega)).bind
      fun _ n4 h4 _ => (Own.generator (Conf.modulusGen ?_ ?_)).bind fun _ n5 h5 e5 =>
        Own.pure.mono fun _ _ _ _ => trivial
  · omega
  · omega

theorem divides (x y : Expression p) : Tidy (B.divides x y) := bind (modulus _ _) fun _ => zero _

/-! ### Binary and bitwise operations, random access -/

theorem bound (l : List BooleanWire) : ∃ h, ∀ w ∈ l, 0 ≤ w.wire ∧ w.wire < h := by
  induction l with
  | nil => exact ⟨0, by simp⟩
  | cons a l ih =>
    obtain ⟨h, hh⟩ := ih
    refine ⟨a.wire + 1 + h, fun w hw => ⟨Nat.zero_le _, ?_⟩⟩
    rcases List.mem_cons.1 hw with rfl | hw
    · omega
    · have := hh w hw
      omega

theorem binarySummation (terms : List (BinaryExpression p)) : Tidy (B.binarySummation terms) := by
  refine mk (R := fun _ _ _ => True) ?_ fun n => ?_
  · refine .bind (.require _) fun _ => .bind (.binaryWire _) fun w => .bind (.ofOption _) fun _ =>
      .bind (.ofOption _) fun _ => .bind (.assertEqual _ _) fun _ =>
      .bind (.generator _ _ ?_) fun _ => .pure _
    obtain ⟨h, hh⟩ := bound w.bits
    exact (Conf.summationGen hh).keeps
  · unfold B.binarySummation
    refine (Own.require _).bind fun _ n0 h0 e0 => (Own.binaryWire _ _).bind fun w n1 h1 e1 =>
      (Own.ofOption _).bind fun _ n2 h2 e2 => (Own.ofOption _).bind fun _ n3 h3 e3 =>
      (Own.assertProduct _ _ _).bind fun _ n4 h4 e4 =>
      (Own.generator (Conf.summationGen fun b hb => ?_)).bind fun _ n5 h5 e5 =>
        Own.pure.mono fun _ _ _ _ => trivial
    have := e1 b hb
    omega

theorem binarySummationIgnoringOverflow (terms : List (BinaryExpression p)) :
    Tidy (B.binarySummationIgnoringOverflow terms) :=
  bind (binarySummation _) fun _ => ofOption _

theorem assertZeros : ∀ cs : List (BinaryExpression p), Tidy (B.assertZeros cs)
  | [] => pure _
  | _ :: cs => bind (ofOption _) fun _ => bind (assertZero _) fun _ => assertZeros cs

theorem binaryAssertZero (x : BinaryExpression p) : Tidy (B.binaryAssertZero x) :=
  bind (ofOption _) fun _ => assertZeros _

theorem binarySummationAssertingNoOverflow (terms : List (BinaryExpression p)) :
    Tidy (B.binarySummationAssertingNoOverflow terms) :=
  bind (binarySummation _) fun _ => bind (require _) fun _ => bind (binaryAssertZero _) fun _ =>
    ofOption _

theorem notBits : ∀ bs : List (BooleanExpression p), Tidy (B.notBits bs)
  | [] => pure _
  | _ :: bs => bind (not _) fun _ => bind (notBits bs) fun _ => pure _

theorem bitwiseNot (x : BinaryExpression p) : Tidy (B.bitwiseNot x) :=
  bind (notBits _) fun _ => pure _

theorem zipBits {op : BooleanExpression p → BooleanExpression p → B p (BooleanExpression p)}
    (h : ∀ x y, Tidy (op x y)) : ∀ bs cs : List (BooleanExpression p), Tidy (B.zipBits op bs cs)
  | [], _ => pure _
  | _ :: _, [] => pure _
  | _ :: bs, _ :: cs => bind (h _ _) fun _ => bind (zipBits h bs cs) fun _ => pure _

theorem bitwiseAnd (x y : BinaryExpression p) : Tidy (B.bitwiseAnd x y) :=
  bind (require _) fun _ => bind (zipBits and _ _) fun _ => pure _

theorem bitwiseOr (x y : BinaryExpression p) : Tidy (B.bitwiseOr x y) :=
  bind (require _) fun _ => bind (zipBits or _ _) fun _ => pure _

theorem bitwiseXor (x y : BinaryExpression p) : Tidy (B.bitwiseXor x y) :=
  bind (require _) fun _ => bind (zipBits xor _ _) fun _ => pure _

theorem parentLayer (b : BooleanExpression p) : ∀ items : List (Expression p),
    Tidy (B.parentLayer b items)
  | [] => pure _
  | [_] => pure _
  | _ :: _ :: rest => bind (selection _ _ _) fun _ => bind (parentLayer b rest) fun _ => pure _

theorem randomAccessBinary : ∀ (bits : List (BooleanExpression p)) (items : List (Expression p)),
    Tidy (B.randomAccessBinary bits items)
  | [], [] => panic
  | [], [_] => pure _
  | [], _ :: _ :: _ => panic
  | _ :: _, [_] => panic
  | _ :: bits, [] => bind (parentLayer _ _) fun _ => randomAccessBinary bits _
  | _ :: bits, _ :: _ :: _ => bind (parentLayer _ _) fun _ => randomAccessBinary bits _

theorem randomAccess (items : List (Expression p)) (index : Expression p) :
    Tidy (B.randomAccess items index) :=
  bind (splitBounded _ _) fun _ => randomAccessBinary _ _

/-! ### Permutation networks and sorting -/

theorem createSwitch (a b : Expression p) : Tidy (B.createSwitch a b) :=
  bind booleanWire fun _ => bind (selection _ _ _) fun _ => pure _

end Tidy

namespace Own

variable {lo n : ℕ}

theorem createSwitch (a b : Expression p) (h : lo ≤ n) : Own lo n (B.createSwitch a b)
    fun r n' => n ≤ r.1.wire ∧ r.1.wire < n' := by
  unfold B.createSwitch
  refine booleanWire.bind fun w n1 h1 e1 => ((Tidy.selection _ _ _).own (by omega)).bind
    fun _ n2 h2 _ => pure.mono fun r n3 _ e => ?_
  obtain ⟨rfl, rfl⟩ := e
  dsimp only
  omega

theorem switchLayer : ∀ (k : ℕ) (xs : List (Expression p)) (n : ℕ), lo ≤ n →
    Own lo n (B.switchLayer k xs) fun r n' => ∀ w ∈ r.1, n ≤ w.wire ∧ w.wire < n'
  | 0, xs, n, h => by
    unfold B.switchLayer
    refine pure.mono fun r n1 _ e => ?_
    obtain ⟨rfl, rfl⟩ := e
    simp
  | k + 1, x :: y :: rest, n, h => by
    unfold B.switchLayer
    refine (createSwitch x y h).bind fun r n1 h1 e1 => (switchLayer k rest n1 (by omega)).bind
      fun r2 n2 h2 e2 => pure.mono fun r3 n3 _ e => ?_
    obtain ⟨rfl, rfl⟩ := e
    intro w hw
    rcases List.mem_cons.1 hw with rfl | hw
    · omega
    · have := e2 w hw
      omega
  | k + 1, [], n, h => by
    unfold B.switchLayer
    intro b a b' _ h
    exact absurd h (by simp [B.panic])
  | k + 1, [x], n, h => by
    unfold B.switchLayer
    intro b a b' _ h
    exact absurd h (by simp [B.panic])

end Own

namespace Tidy

theorem switchLayer_prog : ∀ (k : ℕ) (xs : List (Expression p)), Prog (B.switchLayer k xs)
  | 0, _ => .pure _
  | k + 1, x :: y :: rest => .bind (createSwitch x y).1 fun _ =>
    .bind (switchLayer_prog k rest) fun _ => .pure _
  | _ + 1, [] => .panic
  | _ + 1, [_] => .panic

theorem assertPermutation2x2 (a b c d : Expression p) : Tidy (B.assertPermutation2x2 a b c d) := by
  refine mk (R := fun _ _ _ => True) ?_ fun n => ?_
  · refine .bind (createSwitch a b).1 fun r => .bind (.assertEqual _ _) fun _ =>
      .bind (.assertEqual _ _) fun _ => .generator _ _ ?_
    obtain ⟨h, hh⟩ := bound [r.1]
    exact (Conf.permutation2x2Gen (hh r.1 (by simp))).keeps
  · unfold B.assertPermutation2x2
    refine (Own.createSwitch a b (le_refl n)).bind fun r n1 h1 e1 =>
      (Own.assertProduct _ _ _).bind fun _ n2 h2 e2 => (Own.assertProduct _ _ _).bind
        fun _ n3 h3 e3 => (Own.generator (Conf.permutation2x2Gen ?_)).mono fun _ _ _ _ => trivial
    omega

theorem assertPermutationFuel : ∀ (fuel : ℕ) (a b : List (Expression p)),
    Tidy (B.assertPermutationFuel fuel a b)
  | 0, _, _ => bind (require _) fun _ => require _
  | fuel + 1, a, b => by
    unfold B.assertPermutationFuel
    refine bind (require _) fun _ => ?_
    split
    · exact pure _
    · exact assertEqual _ _
    · exact assertPermutation2x2 _ _ _ _
    · have hmid : ∀ (x1 x2 y1 y2 : List (Expression p)), Tidy (if a.length % 2 = 0 then do
          let b1 ← B.ofOption b[a.length - 2]?
          let b2 ← B.ofOption b[a.length - 1]?
          B.assertPermutationFuel fuel x1 (y1 ++ [b1])
          B.assertPermutationFuel fuel x2 (y2 ++ [b2])
        else do
          let a2 ← B.ofOption a[a.length - 1]?
          let b2 ← B.ofOption b[a.length - 1]?
          B.assertPermutationFuel fuel x1 y1
          B.assertPermutationFuel fuel (x2 ++ [a2]) (y2 ++ [b2])) := fun x1 x2 y1 y2 =>
        ite (bind (ofOption _) fun _ => bind (ofOption _) fun _ =>
            bind (assertPermutationFuel fuel _ _) fun _ => assertPermutationFuel fuel _ _)
          (bind (ofOption _) fun _ => bind (ofOption _) fun _ =>
            bind (assertPermutationFuel fuel _ _) fun _ => assertPermutationFuel fuel _ _)
      refine mk (R := fun _ _ _ => True) ?_ fun n => ?_
      · refine .bind (switchLayer_prog _ _) fun r1 => .bind (switchLayer_prog _ _) fun r2 =>
          .bind (hmid _ _ _ _).1 fun _ => .generator _ _ ?_
        obtain ⟨h, hh⟩ := bound (r1.1 ++ r2.1)
        exact (Conf.routeGen (fun w hw => hh w (by simp [hw])) fun w hw => hh w (by simp [hw])).keeps
      · refine (Own.switchLayer _ _ n (le_refl n)).bind fun r1 n1 h1 e1 =>
          (Own.switchLayer _ _ n1 (by omega)).bind fun r2 n2 h2 e2 =>
          ((hmid _ _ _ _).own (by omega)).bind fun _ n3 h3 _ =>
          (Own.generator (Conf.routeGen (fun w hw => ?_) fun w hw => ?_)).mono fun _ _ _ _ => trivial
        · have := e1 w hw
          omega
        · have := e2 w hw
          omega

theorem assertPermutation (a b : List (Expression p)) : Tidy (B.assertPermutation a b) :=
  assertPermutationFuel _ _ _

theorem splitOutputs : ∀ es : List (Expression p), Tidy (B.splitOutputs es)
  | [] => panic
  | [_] => bind (split _) fun _ => pure _
  | _ :: e :: rest => bind (splitAllowingAmbiguity _) fun _ => bind (splitOutputs (e :: rest))
    fun _ => pure _

theorem assertAscending : ∀ xs : List (BinaryExpression p), Tidy (B.assertAscending xs)
  | [] => pure _
  | [_] => pure _
  | _ :: y :: rest => bind (assertLeBinary _ _) fun _ => assertAscending (y :: rest)

theorem sortAscending (xs : List (Expression p)) : Tidy (B.sortAscending xs) := by
  refine mk (R := fun _ _ _ => True) ?_ fun n => ?_
  · refine .bind (.wires _) fun ws => .bind (assertPermutation _ _).1 fun _ =>
      .bind (splitOutputs _).1 fun _ => .bind (assertAscending _).1 fun _ =>
      .bind (.generator _ _ ?_) fun _ => .pure _
    obtain ⟨h, hh⟩ := bound (ws.map BooleanWire.mk)
    exact (Conf.sortGen fun w hw => hh ⟨w⟩ (by simp [hw])).keeps
  · unfold B.sortAscending
    refine (Own.wires _ n).bind fun ws n1 h1 e1 => ((assertPermutation _ _).own (by omega)).bind
      fun _ n2 h2 _ => ((splitOutputs _).own (by omega)).bind fun _ n3 h3 _ =>
      ((assertAscending _).own (by omega)).bind fun _ n4 h4 _ =>
      (Own.generator (Conf.sortGen fun w hw => ?_)).bind fun _ n5 h5 e5 =>
        Own.pure.mono fun _ _ _ _ => trivial
    have := e1 w hw
    omega

theorem sortDescending (xs : List (Expression p)) : Tidy (B.sortDescending xs) :=
  bind (sortAscending _) fun _ => pure _

/-! ### Permutations, ciphers, hash functions -/

theorem monomial (f : MonomialPermutation p) (x : Expression p) : Tidy (f.permute x) :=
  exponentiation x f.n

theorem root (f : MonomialPermutation p) (x : Expression p) : Tidy (f.inverse x) := by
  refine mk (R := fun _ _ _ => True) ?_ fun n => ?_
  · refine .bind .wire fun w => .bind (.exponentiation _ _) fun _ => .bind (.assertEqual _ _)
      fun _ => .bind (.ofOption _) fun _ => .bind (.generator _ _ ?_) fun _ => .pure _
    exact (Conf.rootGen ⟨Nat.zero_le w, Nat.lt_succ_self w⟩).keeps
  · unfold MonomialPermutation.inverse
    refine Own.wire.bind fun w n1 h1 e1 => ((exponentiation _ _).own (by omega)).bind
      fun _ n2 h2 _ => (Own.assertProduct _ _ _).bind fun _ n3 h3 e3 =>
      (Own.ofOption _).bind fun _ n4 h4 e4 => (Own.generator (Conf.rootGen ?_)).bind
        fun _ n5 h5 e5 => Own.pure.mono fun _ _ _ _ => trivial
    omega

theorem encryptRounds (c : MiMC p) (key : Expression p) : ∀ (rcs : List (Elem p))
    (x : Expression p), Tidy (c.encryptRounds key rcs x)
  | [], _ => pure _
  | _ :: rcs, _ => bind (monomial _ _) fun z => encryptRounds c key rcs z

theorem encrypt (c : MiMC p) (key x : Expression p) : Tidy (c.encrypt key x) :=
  bind (monomial _ _) fun _ => bind (encryptRounds _ _ _ _) fun _ => pure _

theorem decryptRounds (c : MiMC p) (key : Expression p) : ∀ (rcs : List (Elem p))
    (x : Expression p), Tidy (c.decryptRounds key rcs x)
  | [], _ => pure _
  | _ :: rcs, _ => bind (root _ _) fun _ => decryptRounds c key rcs _

theorem decrypt (c : MiMC p) (key x : Expression p) : Tidy (c.decrypt key x) :=
  bind (decryptRounds _ _ _ _) fun _ => bind (root _ _) fun _ => pure _

theorem absorb {h : MerkleDamgard p} (hc : ∀ x y, Tidy (h.compress.compress x y)) :
    ∀ (blocks : List (Expression p)) (x : Expression p), Tidy (h.absorb blocks x)
  | [], _ => pure _
  | _ :: blocks, _ => bind (hc _ _) fun z => absorb hc blocks z

theorem hash {h : MerkleDamgard p} (hc : ∀ x y, Tidy (h.compress.compress x y))
    (blocks : List (Expression p)) : Tidy (h.hash blocks) :=
  bind (absorb hc _ _) fun _ => bind (ofOption _) fun _ => hc _ _

theorem merkleTreeLoop {c : CompressionFunction p} (hc : ∀ x y, Tidy (c.compress x y)) :
    ∀ (l : List (BooleanExpression p × Expression p)) (x : Expression p),
      Tidy (B.merkleTreeLoop c l x)
  | [], _ => pure _
  | (_, _) :: l, _ => bind (bind (selection _ _ _) fun _ => hc _ _) fun _ => merkleTreeLoop hc l _

theorem permuteState {sp : Sponge p} (hp : ∀ xs, Tidy (sp.permutation.permute xs))
    (i c : List (Expression p)) : Tidy (sp.permuteState i c) :=
  bind (hp _) fun _ => bind (require _) fun _ => bind (require _) fun _ => pure _

theorem spongeAbsorb {sp : Sponge p} (hp : ∀ xs, Tidy (sp.permutation.permute xs)) :
    ∀ (cs : List (List (Expression p))) (i c : List (Expression p)), Tidy (sp.absorb cs i c)
  | [], _, _ => pure _
  | _ :: cs, _, _ => bind (ofOption _) fun _ => bind (permuteState hp _ _) fun _ =>
    spongeAbsorb hp cs _ _

theorem squeeze {sp : Sponge p} (hp : ∀ xs, Tidy (sp.permutation.permute xs)) (k : ℕ) :
    ∀ (fuel : ℕ) (i c o : List (Expression p)), Tidy (sp.squeeze k fuel i c o)
  | 0, _, _, _ => ite panic (pure _)
  | fuel + 1, _, _, _ => ite (bind (permuteState hp _ _) fun _ => squeeze hp k fuel _ _ _) (pure _)

theorem sponge {sp : Sponge p} (hp : ∀ xs, Tidy (sp.permutation.permute xs))
    (xs : List (Expression p)) (k : ℕ) : Tidy (sp.evaluate xs k) :=
  bind (ofOption _) fun _ => bind (spongeAbsorb hp _ _ _) fun _ => bind (squeeze hp _ _ _ _ _)
    fun _ => pure _

theorem mapExpressions {f : Expression p → B p (Expression p)} (hf : ∀ x, Tidy (f x)) :
    ∀ xs, Tidy (B.mapExpressions f xs)
  | [] => pure _
  | _ :: xs => bind (hf _) fun _ => bind (mapExpressions hf xs) fun _ => pure _

theorem ofOption_bind {o : Option α} {f : α → B p β} (h : ∀ a, o = some a → Tidy (f a)) :
    Tidy (B.ofOption o >>= f) := by
  rcases o with _ | a
  · exact (panic : Tidy (B.panic : B p β))
  · exact h a rfl

theorem sboxPermute (f : Poseidon p) (x : Expression p) : Tidy (f.sboxPermute x) := by
  refine ofOption_bind fun s hs => ?_
  unfold Poseidon.sboxPermutation at hs
  split at hs
  · obtain rfl := Option.some.inj hs
    exact inverseOrZero x
  all_goals
    obtain ⟨n, _, hs⟩ := Option.bind_eq_some_iff.1 hs
    obtain ⟨m, _, hs⟩ := Option.bind_eq_some_iff.1 hs
    obtain rfl := Option.some.inj hs
    exact monomial m x

theorem sboxFirst (f : Poseidon p) : ∀ xs, Tidy (f.sboxFirst xs)
  | [] => panic
  | _ :: _ => bind (sboxPermute f _) fun _ => pure _

theorem poseidonRounds (f : Poseidon p) : ∀ (left round : ℕ) (xs : List (Expression p)),
    Tidy (f.rounds round left xs)
  | 0, _, _ => pure _
  | left + 1, round, _ => bind (ite (mapExpressions (sboxPermute f) _) (sboxFirst f _)) fun _ =>
    poseidonRounds f left (round + 1) _

theorem poseidon (f : Poseidon p) (xs : List (Expression p)) : Tidy (f.permute xs) :=
  bind (require _) fun _ => bind (require _) fun _ => poseidonRounds f _ _ _

theorem rescueRounds (f : Rescue p) : ∀ (left : ℕ) (xs : List (Expression p)),
    Tidy (f.rounds left xs)
  | 0, _ => pure _
  | left + 1, _ => bind (mapExpressions (fun x => bind (ofOption _) fun m => monomial m x) _) fun _ =>
    bind (mapExpressions (fun x => bind (ofOption _) fun m => root m x) _) fun _ =>
      rescueRounds f left _

theorem rescue (f : Rescue p) (xs : List (Expression p)) : Tidy (f.permute xs) := rescueRounds f _ _

/-! ### Curves and signatures -/

theorem edwardsNew (C : EdwardsCurve p) (x y : Expression p) : Tidy (EdwardsExpression.new C x y) :=
  bind (product _ _) fun _ => bind (product _ _) fun _ => bind (product _ _) fun _ =>
    bind (assertEqual _ _) fun _ => pure _

theorem edwardsAdd (C : EdwardsCurve p) (P Q : EdwardsExpression p) :
    Tidy (EdwardsGroup.addExpressions C P Q) :=
  bind (product _ _) fun _ => bind (product _ _) fun _ => bind (product _ _) fun _ =>
  bind (product _ _) fun _ => bind (product _ _) fun _ => bind (quotientUnsafe _ _) fun _ =>
  bind (quotientUnsafe _ _) fun _ => pure _

theorem edwardsDouble (C : EdwardsCurve p) (P : EdwardsExpression p) :
    Tidy (EdwardsGroup.doubleExpression C P) :=
  bind (product _ _) fun _ => bind (product _ _) fun _ => bind (product _ _) fun _ =>
  bind (ofOption _) fun _ => bind (quotientUnsafe _ _) fun _ => bind (ofOption _) fun _ =>
  bind (quotientUnsafe _ _) fun _ => pure _

section
variable {GE GX : Type} {G : GroupOps p GE GX}

theorem selectAll (b : BooleanExpression p) : ∀ xs is : List (Expression p),
    Tidy (GroupOps.selectAll b xs is)
  | [], _ => pure _
  | _ :: _, [] => panic
  | _ :: xs, _ :: is => bind (selection _ _ _) fun _ => bind (selectAll b xs is) fun _ => pure _

theorem mulBoolean (x : GX) (b : BooleanExpression p) : Tidy (G.mulBooleanExpression x b) :=
  bind (ofOption _) fun _ => bind (selectAll _ _ _) fun _ => ofOption _

theorem mulLoop (ha : ∀ x y, Tidy (G.addExpressions x y))
    (hd : ∀ x, Tidy (G.doubleExpression x)) :
    ∀ (bits : List (BooleanExpression p)) (sum current : GX), Tidy (G.mulLoop bits sum current)
  | [], _, _ => pure _
  | _ :: bits, _, _ => bind (mulBoolean _ _) fun _ => bind (ha _ _) fun _ =>
    bind (hd _) fun _ => mulLoop ha hd bits _ _

theorem mulScalar (ha : ∀ x y, Tidy (G.addExpressions x y))
    (hd : ∀ x, Tidy (G.doubleExpression x)) (x : GX) (k : Expression p) :
    Tidy (G.mulScalarExpression x k) :=
  bind (splitAllowingAmbiguity _) fun _ => bind (ofOption _) fun _ => mulLoop ha hd _ _ _

theorem schnorr {C : CyclicGroupOps p GE GX} (ha : ∀ x y, Tidy (C.addExpressions x y))
    (hd : ∀ x, Tidy (C.doubleExpression x)) {c : CompressionFunction p}
    (hc : ∀ x y, Tidy (c.compress x y)) (σ : SignatureExpression p) (m : Expression p) (Y : GX) :
    Tidy (schnorrVerify C c σ m Y) :=
  bind (ofOption _) fun _ => bind (mulScalar ha hd _ _) fun _ => bind (mulScalar ha hd _ _) fun _ =>
    bind (ha _ _) fun _ => bind (hc _ _) fun _ => assertEqual _ _

end

/-! ### Examples of the README -/

theorem readmeCube (x : Expression p) : Tidy (Readme.cube x) :=
  bind (product _ _) fun _ => product _ _

theorem readmeInverse (x : Expression p) : Tidy (Readme.inverse x) := inverse x

theorem readmeHash (rounds : ℕ) (blocks : List (Expression p)) :
    Tidy (Readme.hash rounds blocks) := by
  refine ofOption_bind fun c _ => ofOption_bind fun h hh => ?_
  unfold MerkleDamgard.newDefaults at hh
  obtain ⟨_, _, hh⟩ := Option.bind_eq_some_iff.1 hh
  obtain rfl := Option.some.inj hh
  exact hash (fun _ _ => bind (encrypt c _ _) fun _ => pure _) blocks

end Tidy

end R1CS
