import Verif.Lemmas.Raw
import Verif.Spec.RawGens

/-!
# The closures on the stored data agree with those of the model
-/

namespace R1CS.Raw

variable {p : ℕ} [hp : Fact p.Prime] {m : Values} {v : WireValues p}

omit hp in
theorem Agree.num {o : Option ℕ} {o' : Option (Elem p)} {f : ℕ → Option Values}
    {f' : Elem p → Option (WireValues p)} (h : o = o'.map (·.n)) (hf : ∀ x : Elem p, Agree (f x.n) (f' x)) :
    Agree (o >>= f) (o' >>= f') := by
  subst h
  cases o' with
  | none => exact Or.inl ⟨rfl, rfl⟩
  | some x => exact hf x

omit hp in
theorem Agree.num' {o : Option ℕ} {x : Elem p} {f : ℕ → Option Values} {o' : Option (WireValues p)}
    (h : o = some x.n) (hf : Agree (f x.n) o') : Agree (o >>= f) o' := by
  subst h
  exact hf

omit hp in
theorem Agree.none : Agree (p := p) none none := Or.inl ⟨rfl, rfl⟩

omit hp in
theorem Agree.ite {c c' : Prop} [Decidable c] [Decidable c'] {a b : Option Values} {a' b' : Option (WireValues p)}
    (hc : c ↔ c') (ha : Agree a a') (hb : Agree b b') : Agree (if c then a else b) (if c' then a' else b') := by
  by_cases h : c
  · rw [if_pos h, if_pos (hc.1 h)]
    exact ha
  · rw [if_neg h, if_neg fun h' => h (hc.2 h')]
    exact hb

omit hp in
theorem isNonzero_eq (x : Elem p) : isNonzero x.n = x.isNonzero := by
  unfold isNonzero toBig Elem.isNonzero
  simp

theorem nonzero_agrees (h : Holds m v) (x : Expression p) (y w : Wire) :
    Agree (nonzeroGen p (expr x) y w m) (B.nonzeroGen x y w v) := by
  refine Agree.num (h.evaluate x) fun xv => ?_
  dsimp only
  rw [isNonzero_eq]
  cases xv.isNonzero
  · refine Agree.num' (x := (0 : Elem p)) zero_eq (Agree.num (o' := some (1 : Elem p)) one_eq fun mv => ?_)
    exact (h.set w mv).bind fun m v h => h.set y _
  · refine Agree.num' (x := (1 : Elem p)) one_eq (Agree.num (divRR_eq 1 xv) fun mv => ?_)
    exact (h.set w mv).bind fun m v h => h.set y _

theorem inverse_agrees (h : Holds m v) (x : Expression p) (w : Wire) :
    Agree (inverseGen p (expr x) w m) (B.inverseGen x w v) :=
  Agree.num (h.evaluate x) fun _ => Agree.num (inverse_eq _) fun _ => h.set _ _

theorem inverseOrZero_agrees (h : Holds m v) (x : Expression p) (w : Wire) :
    Agree (inverseOrZeroGen p (expr x) w m) (B.inverseOrZeroGen x w v) :=
  Agree.num (h.evaluate x) fun _ => Agree.num (inverseOrZero_eq _) fun _ => h.set _ _

theorem quotientUnsafe_agrees (h : Holds m v) (x y : Expression p) (w : Wire) :
    Agree (quotientUnsafeGen p (expr x) (expr y) w m) (B.quotientUnsafeGen x y w v) :=
  Agree.num (h.evaluate x) fun _ => Agree.num (h.evaluate y) fun yv =>
    Agree.ite (by rw [isNonzero_eq]) (Agree.num (divRR_eq _ _) fun _ => h.set _ _) .none

theorem modulus_agrees (h : Holds m v) (x y : Expression p) (w r : Wire) :
    Agree (modulusGen p (expr x) (expr y) w r m) (B.modulusGen x y w r v) :=
  Agree.num (h.evaluate x) fun _ => Agree.num (h.evaluate y) fun _ => Agree.num (integerDivision_eq _ _) fun _ =>
    (h.set _ _).bind fun _ _ h => Agree.num (integerModulus_eq _ _) fun _ => h.set _ _

theorem bit_eq (x : Elem p) (i : ℕ) : bit x.n i = x.bit i := by
  rfl

theorem setBitsAt_agrees (w : BinaryWire) (x : Elem p) : ∀ (k i : ℕ) (m : Values) (v : WireValues p), Holds m v →
    w.bits.length = i + k →
    Agree (setBitsAt p w x.n (List.range' i k) m) (B.setBitsOf x i (w.bits.drop i) v)
  | 0, i, m, v, h, hl => by
    rw [List.drop_eq_nil_of_le (by omega)]
    exact Or.inr ⟨m, v, rfl, rfl, h⟩
  | k + 1, i, m, v, h, hl => by
    have hi : i < w.bits.length := by omega
    rw [List.range'_succ, List.drop_eq_getElem_cons hi]
    unfold setBitsAt B.setBitsOf
    rw [List.getElem?_eq_getElem hi]
    exact (h.setBoolean w.bits[i] (x.bit i)).bind fun m v h => setBitsAt_agrees w x k (i + 1) m v h (by omega)

theorem split_agrees (h : Holds m v) (x : Expression p) {count : ℕ} {w : BinaryWire} (hl : w.bits.length = count) :
    Agree (splitGen p (expr x) count w m) (B.splitGen x count w v) := by
  refine Agree.num (h.evaluate x) fun xv => Agree.ite Iff.rfl ?_ .none
  have := setBitsAt_agrees w xv count 0 m v h (by omega)
  rw [List.range_eq_range']
  simpa using this

omit hp in
theorem eq_iff (x y : Elem p) : eq x.n y.n = true ↔ x = y := by
  unfold eq toBig
  rw [beq_iff_eq]
  exact ⟨fun h => Elem.ext_n h, fun h => by rw [h]⟩

theorem maskLoop_agrees {xs ys : List (Expression p)} : ∀ (l : List (Wire × ℕ)) (s : Bool) (m : Values)
    (v : WireValues p) (l' : List (Wire × Expression p × Expression p)), Holds m v →
    List.Forall₂ (fun a b => a.1 = b.1 ∧ xs[a.2]? = some b.2.1 ∧ ys[a.2]? = some b.2.2) l l' →
    Agree (maskLoop p (xs.map expr) (ys.map expr) l s m) (B.maskGen l' s v)
  | [], s, m, v, l', h, hl => by
    cases hl
    exact Or.inr ⟨m, v, rfl, rfl, h⟩
  | (w, i) :: l, s, m, v, l', h, hl => by
    cases hl with
    | @cons _ b _ l' hb hl =>
      obtain ⟨w', x, y⟩ := b
      obtain ⟨rfl, hx, hy⟩ := hb
      dsimp only at hx hy
      unfold maskLoop B.maskGen
      rw [List.getElem?_map, List.getElem?_map, hx, hy]
      refine Agree.num (h.evaluate x) fun xv => Agree.num (h.evaluate y) fun yv => ?_
      have hd : (!eq xv.n yv.n) = decide (xv ≠ yv) := by
        rw [Bool.eq_iff_iff, Bool.not_eq_true', decide_eq_true_eq, ← Bool.not_eq_true, eq_iff]
      dsimp only
      rw [hd]
      exact Agree.num' (ofBool_eq _) ((h.set w _).bind fun m v h => maskLoop_agrees l _ m v l' h hl)

omit hp in
theorem forall₂_zipIdx {xs ys : List (Expression p)} : ∀ (mask : List Wire) (i : ℕ) (xs' ys' : List (Expression p)),
    xs.drop i = xs' → ys.drop i = ys' → xs'.length = mask.length → ys'.length = mask.length →
    List.Forall₂ (fun (a : Wire × ℕ) (b : Wire × Expression p × Expression p) =>
      a.1 = b.1 ∧ xs[a.2]? = some b.2.1 ∧ ys[a.2]? = some b.2.2) (mask.zipIdx i) (mask.zip (xs'.zip ys'))
  | [], _, _, _, _, _, _, _ => by simp
  | w :: mask, i, [], _, _, _, hx, _ => by simp at hx
  | w :: mask, i, _ :: _, [], _, _, _, hy => by simp at hy
  | w :: mask, i, x :: xs', y :: ys', hx, hy, hlx, hly => by
    have hd : ∀ {zs : List (Expression p)} {z zs'}, zs.drop i = z :: zs' → zs[i]? = some z ∧ zs.drop (i + 1) = zs' := by
      intro zs z zs' h
      constructor
      · rw [← List.head?_drop, h]; rfl
      · rw [← List.tail_drop, h]; rfl
    rw [List.zipIdx_cons, List.zip_cons_cons, List.zip_cons_cons]
    refine .cons ⟨rfl, (hd hx).1, (hd hy).1⟩ (forall₂_zipIdx mask (i + 1) xs' ys' (hd hx).2 (hd hy).2 ?_ ?_)
    · simpa using hlx
    · simpa using hly

theorem mask_agrees (h : Holds m v) {mask : List Wire} {xs ys : List (Expression p)}
    (hx : xs.length = mask.length) (hy : ys.length = mask.length) :
    Agree (maskGen p mask (xs.map expr) (ys.map expr) m) (B.maskGen (mask.zip (xs.zip ys)).reverse false v) :=
  maskLoop_agrees _ _ _ _ _ h (List.rel_reverse (forall₂_zipIdx mask 0 xs ys rfl rfl hx hy))

theorem summation_agrees (h : Holds m v) (s : Expression p) (w : BinaryWire) :
    Agree (summationGen p (expr s) w m) (B.summationGen s w v) :=
  Agree.num (h.evaluate s) fun _ => h.setBinaryUnsigned _ _

theorem root_agrees (h : Holds m v) (x : Expression p) (e : Elem p) (w : Wire) :
    Agree (rootGen p (expr x) e.n w m) (MonomialPermutation.rootGen x e w v) :=
  Agree.num (h.evaluate x) fun _ => Agree.num' (exponentiation_eq _ _) (h.set _ _)

theorem permutation2x2_agrees (h : Holds m v) (a b c d : Expression p) (s : BooleanWire) :
    Agree (permutation2x2Gen p (expr a) (expr b) (expr c) (expr d) s m) (B.permutation2x2Gen a b c d s v) :=
  Agree.num (h.evaluate a) fun _ => Agree.num (h.evaluate b) fun _ => Agree.num (h.evaluate c) fun _ =>
  Agree.num (h.evaluate d) fun _ => Agree.ite (by rw [Bool.and_eq_true, eq_iff, eq_iff]) (h.setBoolean _ _)
    (Agree.ite (by rw [Bool.and_eq_true, eq_iff, eq_iff]) (h.setBoolean _ _) .none)

/-! ## Sorting -/

theorem Agree.nums {es : List (Expression p)} (h : Holds m v) {f : List ℕ → Option Values}
    {f' : List (Elem p) → Option (WireValues p)} (hf : ∀ xs : List (Elem p), Agree (f (xs.map (·.n))) (f' xs)) :
    Agree ((es.map expr).mapM (fun e => Raw.evaluate p e m) >>= f) (es.mapM (fun e => e.evaluate v) >>= f') := by
  have : (es.map expr).mapM (fun e => Raw.evaluate p e m) =
      (es.mapM fun e : Expression p => e.evaluate v).map (List.map (·.n)) := by
    induction es with
    | nil => rfl
    | cons e es ih =>
      rw [List.map_cons, List.mapM_cons, List.mapM_cons, h.evaluate, ih]
      cases e.evaluate v with
      | none => rfl
      | some x => cases es.mapM fun e => e.evaluate v <;> rfl
  rw [this]
  cases es.mapM fun e => e.evaluate v with
  | none => exact .none
  | some xs => exact hf xs

omit hp in
theorem setItems_agrees (ws : List Wire) : ∀ (xs : List (Elem p)) (i : ℕ) (m : Values) (v : WireValues p),
    Holds m v → Agree (setItems ws ((xs.map (·.n)).zipIdx i) m) (B.setItems (ws.drop i) xs v)
  | [], i, m, v, h => by
    unfold B.setItems
    exact Or.inr ⟨m, v, rfl, rfl, h⟩
  | x :: xs, i, m, v, h => by
    rw [List.map_cons, List.zipIdx_cons]
    unfold setItems
    by_cases hi : i < ws.length
    · rw [List.drop_eq_getElem_cons hi, List.getElem?_eq_getElem hi]
      unfold B.setItems
      exact (h.set _ _).bind fun m v h => setItems_agrees ws xs (i + 1) m v h
    · rw [List.drop_eq_nil_of_le (by omega), List.getElem?_eq_none (by omega)]
      exact .none

theorem sort_agrees (h : Holds m v) (xs : List (Expression p)) (ws : List Wire) :
    Agree (sortGen p (xs.map expr) ws m) (B.sortGen xs ws v) := by
  refine Agree.nums h fun items => ?_
  have : (items.map (·.n)).mergeSort (fun x y => (cmp x y).isLE) =
      (items.mergeSort fun x y => decide (x.n ≤ y.n)).map (·.n) := by
    symm
    refine List.map_mergeSort fun a _ b _ => ?_
    unfold cmp
    rw [Bool.eq_iff_iff, decide_eq_true_eq, Nat.isLE_compare]
  rw [this]
  have := setItems_agrees ws (items.mergeSort fun x y => decide (x.n ≤ y.n)) 0 m v h
  simpa using this

/-! ## Routing -/

/-- States which belong together. -/
structure Routes (r : Routing) (st : RouteState p) : Prop where
  values : Holds r.values st.values
  routes : r.partialRoutes = st.partialRoutes
  scan : r.scanIndex = st.scanIndex

/-- Both panic, or both succeed with states which belong together. -/
def RoutesTo (o : Option Routing) (o' : Option (RouteState p)) : Prop :=
  (o = none ∧ o' = none) ∨ ∃ r st, o = some r ∧ o' = some st ∧ Routes r st

omit hp in
theorem RoutesTo.none : RoutesTo (p := p) none none := Or.inl ⟨rfl, rfl⟩

omit hp in
theorem RoutesTo.some {r : Routing} {st : RouteState p} (h : Routes r st) : RoutesTo (some r) (some st) :=
  Or.inr ⟨r, st, rfl, rfl, h⟩

omit hp in
theorem RoutesTo.bind {o : Option Routing} {o' : Option (RouteState p)} {f : Routing → Option Routing}
    {f' : RouteState p → Option (RouteState p)} (h : RoutesTo o o')
    (hf : ∀ r st, Routes r st → RoutesTo (f r) (f' st)) : RoutesTo (o >>= f) (o' >>= f') := by
  rcases h with ⟨rfl, rfl⟩ | ⟨r, st, rfl, rfl, h⟩
  · exact .none
  · exact hf r st h

omit hp in
theorem enqueue_agrees (abMap : BiMap) (sw : Bool → List BooleanWire) (side : Bool) (i : ℕ) (subnet : Bool)
    {r : Routing} {st : RouteState p} (h : Routes r st) :
    RoutesTo (Raw.enqueueOtherSide abMap sw side i subnet r) (R1CS.enqueueOtherSide abMap sw side i subnet st) := by
  unfold Raw.enqueueOtherSide R1CS.enqueueOtherSide
  cases abMapBySide abMap side i with
  | none => exact .none
  | some o =>
    simp only [Option.bind_eq_bind, Option.bind_some]
    by_cases hl : o / 2 < (sw !side).length
    · rw [if_neg (by omega), List.getElem?_eq_getElem hl]
      simp only [Option.pure_def, Option.bind_some]
      have hc : Raw.containsBoolean r.values (sw !side)[o / 2] = st.values.containsBoolean (sw !side)[o / 2] :=
        h.values.contains _
      rw [hc]
      by_cases hb : st.values.containsBoolean (sw !side)[o / 2] = true
      · rw [if_pos hb, if_pos hb]
        exact .some h
      · rw [if_neg hb, if_neg hb, h.routes]
        cases (st.partialRoutes !side).get compare (4 * (o / 2) + 1 - o) with
        | some s =>
          dsimp only
          by_cases hs : subnet = s
          · rw [if_pos hs, if_neg (not_not.2 hs)]
            exact .none
          · rw [if_neg hs, if_pos hs]
            exact .some h
        | none =>
          dsimp only
          cases (st.partialRoutes !side).get compare o with
          | none => exact .some ⟨h.values, rfl, h.scan⟩
          | some old =>
            dsimp only
            split
            · exact .some ⟨h.values, rfl, h.scan⟩
            · exact .none
    · rw [if_pos (by omega), List.getElem?_eq_none (by omega)]
      exact .some h

theorem routeSwitch_agrees (abMap : BiMap) (sw : Bool → List BooleanWire) (side : Bool) (i : ℕ) (swap : Bool)
    {r : Routing} {st : RouteState p} (h : Routes r st) :
    RoutesTo (Raw.routeSwitch p abMap sw side i swap r) (R1CS.routeSwitch abMap sw side i swap st) := by
  unfold Raw.routeSwitch R1CS.routeSwitch
  cases (sw side)[i]? with
  | none => exact .none
  | some s =>
    simp only [Option.bind_eq_bind, Option.bind_some]
    rcases h.values.setBoolean s swap with ⟨h1, h2⟩ | ⟨m, v, h1, h2, h3⟩
    · rw [h1, h2]
      exact .none
    · rw [h1, h2]
      exact (enqueue_agrees abMap sw side _ _ (r := { r with values := m }) (st := { st with values := v })
        ⟨h3, h.routes, h.scan⟩).bind fun r st h =>
        enqueue_agrees abMap sw side _ _ h

theorem routePartial_agrees (abMap : BiMap) (sw : Bool → List BooleanWire) (side : Bool) :
    ∀ (l : List (ℕ × Bool)) {r : Routing} {st : RouteState p}, Routes r st →
    RoutesTo (Raw.routePartial p abMap sw side l r) (R1CS.routePartial abMap sw side l st)
  | [], _, _, h => .some h
  | (_, _) :: l, _, _, h => (routeSwitch_agrees abMap sw side _ _ h).bind fun _ _ h =>
    routePartial_agrees abMap sw side l h

omit hp in
theorem scan_agrees (sw : List BooleanWire) (h : Holds m v) : ∀ fuel i : ℕ,
    Raw.scanSwitches sw m fuel i = R1CS.scanSwitches sw v fuel i
  | 0, _ => rfl
  | fuel + 1, i => by
    unfold Raw.scanSwitches R1CS.scanSwitches
    cases sw[i]? with
    | none => rfl
    | some s =>
      have hc : Raw.containsBoolean m s = v.containsBoolean s := h.contains _
      dsimp only
      rw [hc, scan_agrees sw h fuel (i + 1)]

theorem routeSide_agrees (abMap : BiMap) (sw : Bool → List BooleanWire) (side : Bool)
    {r : Routing} {st : RouteState p} (h : Routes r st) :
    RoutesTo (Raw.routeSide p abMap sw side r) (R1CS.routeSide abMap sw side st) := by
  unfold Raw.routeSide R1CS.routeSide
  rw [h.routes]
  by_cases he : st.partialRoutes side = []
  · rw [if_neg (show ¬(!(st.partialRoutes side).isEmpty) = true by simp [he]),
      if_neg (show ¬st.partialRoutes side ≠ [] by simp [he])]
    dsimp only
    rw [h.scan, scan_agrees _ h.values]
    generalize R1CS.scanSwitches (sw side) st.values (sw side).length (st.scanIndex side) = i
    split
    · exact (routeSwitch_agrees abMap sw side i false h).bind fun r st h =>
        RoutesTo.some (r := { r with scanIndex := _ }) (st := { st with scanIndex := _ })
          ⟨h.values, h.routes, by simp only [h.scan]⟩
    · exact Or.inr ⟨_, _, rfl, rfl, h.values, rfl, rfl⟩
  · rw [if_pos (show (!(st.partialRoutes side).isEmpty) = true by simpa using he), if_pos he]
    exact (routePartial_agrees abMap sw side _ h).bind fun r st h =>
      RoutesTo.some (r := { r with partialRoutes := _ }) (st := { st with partialRoutes := _ })
        ⟨h.values, by simp only [h.routes], h.scan⟩

theorem routeLoop_agrees (abMap : BiMap) (sw : Bool → List BooleanWire) :
    ∀ (fuel : ℕ) {r : Routing} {st : RouteState p}, Routes r st →
    RoutesTo (Raw.routeLoop p abMap sw fuel r) (R1CS.routeLoop abMap sw fuel st)
  | 0, r, st, h => by
    unfold Raw.routeLoop R1CS.routeLoop
    rw [h.scan]
    split
    · exact .none
    · exact .some h
  | fuel + 1, r, st, h => by
    unfold Raw.routeLoop R1CS.routeLoop
    rw [h.scan]
    split
    · exact (routeSide_agrees abMap sw false h).bind fun _ _ h => (routeSide_agrees abMap sw true h).bind
        fun _ _ h => routeLoop_agrees abMap sw fuel h
    · exact .some h

theorem route_agrees (h : Holds m v) (a b : List (Elem p)) (s t : List BooleanWire) :
    Agree (Raw.route p (a.map (·.n)) (b.map (·.n)) s t m) (R1CS.route a b s t v) := by
  unfold Raw.route R1CS.route
  rw [List.length_map, List.length_map, bimapFromLists_eq]
  split
  · exact .none
  · cases R1CS.bimapFromLists a b with
    | none => exact .none
    | some ab =>
      simp only [Option.bind_eq_bind, Option.bind_some]
      have h0 : Routes ⟨m, fun _ => [], fun _ => 0⟩ (⟨v, fun _ => [], fun _ => 0⟩ : RouteState p) := ⟨h, rfl, rfl⟩
      have finish : ∀ {o : Option Routing} {o' : Option (RouteState p)}, RoutesTo o o' →
          Agree (o.bind fun st => (Raw.routeLoop p ab (fun side => if side then t else s)
              (2 * (s.length + t.length)) st).bind fun st => pure st.values)
            (o'.bind fun st => (R1CS.routeLoop ab (fun side => if side then t else s)
              (2 * (s.length + t.length)) st).bind fun st => pure st.values) := by
        intro o o' ho
        rcases ho with ⟨rfl, rfl⟩ | ⟨r, st, rfl, rfl, h⟩
        · exact .none
        · rw [Option.bind_some, Option.bind_some]
          rcases routeLoop_agrees ab (fun side => if side then t else s) (2 * (s.length + t.length)) h with
            ⟨h1, h2⟩ | ⟨r', st', h1, h2, h3⟩
          · rw [h1, h2]
            exact .none
          · rw [h1, h2]
            exact Or.inr ⟨_, _, rfl, rfl, h3.values⟩
      by_cases hn : a.length % 2 = 0
      · rw [if_pos hn, if_pos hn]
        exact finish ((enqueue_agrees ab _ true _ _ h0).bind fun _ _ h => enqueue_agrees ab _ true _ _ h)
      · rw [if_neg hn, if_neg hn]
        exact finish ((enqueue_agrees ab _ false _ _ h0).bind fun _ _ h => enqueue_agrees ab _ true _ _ h)

theorem routeGen_agrees (h : Holds m v) (a b : List (Expression p)) (s t : List BooleanWire) :
    Agree (Raw.routeGen p (a.map expr) (b.map expr) s t m) (B.routeGen a b s t v) :=
  Agree.nums h fun _ => Agree.nums h fun _ => route_agrees h _ _ _ _

theorem product_agrees (h : Holds m v) (x y : Expression p) (w : Wire) :
    Agree (productGen p (expr x) (expr y) w m) (B.productGen x y w v) :=
  Agree.num (h.evaluate x) fun _ => Agree.num (h.evaluate y) fun _ => Agree.num' (mulRR_eq _ _) (h.set _ _)

omit hp in
theorem dependencies_expr (e : Expression p) : dependencies (expr e) = e.dependencies := by
  unfold dependencies expr stored Expression.dependencies
  rw [List.map_map]
  rfl

omit hp in
theorem flatMap_dependencies (es : List (Expression p)) :
    (es.map expr).flatMap dependencies = es.flatMap Expression.dependencies := by
  rw [List.flatMap_map]
  exact congrArg (List.flatMap · es) (funext dependencies_expr)

omit hp in
theorem binaryDependencies_expr (e : BinaryExpression p) :
    binaryDependencies (e.bits.map fun b => expr b.expression) = e.dependencies := by
  unfold binaryDependencies BinaryExpression.dependencies
  rw [List.foldl_map]
  simp only [dependencies_expr]
  rfl

theorem Transcribes.agrees {r : RawGenerator} {g : WitnessGenerator p} (h : Transcribes r g) :
    GeneratorAgrees r g := by
  cases h with
  | product x y w => exact ⟨by simp only [dependencies_expr], fun _ _ h => product_agrees h _ _ _⟩
  | nonzero x y w => exact ⟨dependencies_expr _, fun _ _ h => nonzero_agrees h _ _ _⟩
  | inverse x w => exact ⟨dependencies_expr _, fun _ _ h => inverse_agrees h _ _⟩
  | inverseOrZero x w => exact ⟨dependencies_expr _, fun _ _ h => inverseOrZero_agrees h _ _⟩
  | quotientUnsafe x y w => exact ⟨by simp only [dependencies_expr], fun _ _ h => quotientUnsafe_agrees h _ _ _⟩
  | modulus x y w r => exact ⟨by simp only [dependencies_expr], fun _ _ h => modulus_agrees h _ _ _ _⟩
  | split x count w hl => exact ⟨dependencies_expr _, fun _ _ h => split_agrees h _ hl⟩
  | mask xb yb mask xs ys hx hy =>
    exact ⟨by simp only [binaryDependencies_expr], fun _ _ h => mask_agrees h hx hy⟩
  | summation s w => exact ⟨dependencies_expr _, fun _ _ h => summation_agrees h _ _⟩
  | root x e w => exact ⟨dependencies_expr _, fun _ _ h => root_agrees h _ _ _⟩
  | permutation2x2 a b c d s =>
    exact ⟨by simp only [dependencies_expr], fun _ _ h => permutation2x2_agrees h _ _ _ _ _⟩
  | route a b s t => exact ⟨by simp only [flatMap_dependencies], fun _ _ h => routeGen_agrees h _ _ _ _⟩
  | sort xs ws => exact ⟨flatMap_dependencies _, fun _ _ h => sort_agrees h _ _⟩

end R1CS.Raw
