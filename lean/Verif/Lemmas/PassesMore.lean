import Verif.Lemmas.PassesOps
import Verif.Lemmas.Matrices

/-!
# Timetables of networks, sorting, hash functions, curves
-/

set_option linter.unusedSectionVars false

namespace R1CS

variable {p : ℕ} [hp : Fact p.Prime] {α β : Type}

/-! ## Routing sets every switch -/

namespace Fills

/-- The switches before the scan index are set. -/
def Scanned (sw : Bool → List BooleanWire) (st : RouteState p) : Prop :=
  ∀ s k w, k < st.scanIndex s → (sw s)[k]? = some w → (st.values w.wire).isSome

theorem grows_isSome {st st' : RouteState p} (h : KeepsValues.Grows st st') {i : Wire}
    (hi : (st.values i).isSome) : (st'.values i).isSome := by
  obtain ⟨x, hx⟩ := Option.isSome_iff_exists.1 hi
  exact Option.isSome_iff_exists.2 ⟨x, h i x hx⟩

theorem enqueueOtherSide_scan {m : BiMap} {sw : Bool → List BooleanWire} {sd : Bool} {i : ℕ}
    {u : Bool} {st st' : RouteState p} (h : R1CS.enqueueOtherSide m sw sd i u st = some st') :
    st'.scanIndex = st.scanIndex := by
  unfold R1CS.enqueueOtherSide at h
  obtain ⟨o, -, h⟩ := Option.bind_eq_some_iff.1 h
  dsimp only at h
  repeat' split at h
  all_goals first
    | (cases h; done)
    | (cases h; rfl)

theorem routeSwitch {m : BiMap} {sw : Bool → List BooleanWire} {sd : Bool} {i : ℕ} {u : Bool}
    {st st' : RouteState p} (h : R1CS.routeSwitch m sw sd i u st = some st') :
    st'.scanIndex = st.scanIndex ∧
      ∀ w, (sw sd)[i]? = some w → (st'.values w.wire).isSome := by
  unfold R1CS.routeSwitch at h
  obtain ⟨switch, hs, h⟩ := Option.bind_eq_some_iff.1 h
  obtain ⟨v, hv, h⟩ := Option.bind_eq_some_iff.1 h
  obtain ⟨s1, h1, h⟩ := Option.bind_eq_some_iff.1 h
  refine ⟨by rw [enqueueOtherSide_scan h, enqueueOtherSide_scan h1], fun w hw => ?_⟩
  rw [hs] at hw
  obtain rfl := Option.some.inj hw
  rw [KeepsValues.enqueueOtherSide h, KeepsValues.enqueueOtherSide h1]
  exact Fills.set switch.wire (Elem.ofBool u) st.values v hv _ (by simp)

theorem routePartial {m : BiMap} {sw : Bool → List BooleanWire} {sd : Bool} :
    ∀ {l : List (ℕ × Bool)} {st st' : RouteState p},
    R1CS.routePartial m sw sd l st = some st' → st'.scanIndex = st.scanIndex
  | [], st, st', h => by rw [← Option.some.inj h]
  | (i, u) :: l, st, st', h => by
    unfold R1CS.routePartial at h
    obtain ⟨s1, h1, h⟩ := Option.bind_eq_some_iff.1 h
    rw [routePartial h, (routeSwitch h1).1]

theorem scanSwitches {l : List BooleanWire} {v : WireValues p} : ∀ (fuel i : ℕ),
    (∀ k w, k < i → l[k]? = some w → (v w.wire).isSome) →
    ∀ k w, k < R1CS.scanSwitches l v fuel i → l[k]? = some w → (v w.wire).isSome
  | 0, _, h => h
  | fuel + 1, i, h => by
    unfold R1CS.scanSwitches
    split
    · exact h
    · next s hs =>
      split
      · next hc =>
        refine scanSwitches fuel (i + 1) fun k w hk hw => ?_
        rcases Nat.lt_succ_iff_lt_or_eq.1 hk with hk | rfl
        · exact h k w hk hw
        · rw [hs] at hw
          obtain rfl := Option.some.inj hw
          exact hc
      · exact h

theorem routeSide {m : BiMap} {sw : Bool → List BooleanWire} {sd : Bool} {st st' : RouteState p}
    (h : R1CS.routeSide m sw sd st = some st') (hst : Scanned sw st) : Scanned sw st' := by
  have hg := KeepsValues.routeSide h
  unfold R1CS.routeSide at h
  split at h
  · obtain ⟨s1, h1, h⟩ := Option.bind_eq_some_iff.1 h
    obtain rfl := Option.some.inj h
    intro s k w hk hw
    exact grows_isSome hg (hst s k w (by rw [← routePartial h1]; exact hk) hw)
  · dsimp only at h
    have hscan := scanSwitches (sw sd).length (st.scanIndex sd) (hst sd)
    split at h
    · obtain ⟨s1, h1, h⟩ := Option.bind_eq_some_iff.1 h
      obtain rfl := Option.some.inj h
      obtain ⟨h2, h3⟩ := routeSwitch h1
      intro s k w hk hw
      dsimp only at hk ⊢
      split at hk
      · next hs =>
        subst hs
        rcases Nat.lt_succ_iff_lt_or_eq.1 hk with hk | rfl
        · exact grows_isSome hg (hscan k w hk hw)
        · exact h3 w hw
      · rw [h2] at hk
        exact grows_isSome hg (hst s k w hk hw)
    · obtain rfl := Option.some.inj h
      intro s k w hk hw
      dsimp only at hk ⊢
      split at hk
      · next hs =>
        subst hs
        exact hscan k w hk hw
      · exact hst s k w hk hw

theorem routeLoop {m : BiMap} {sw : Bool → List BooleanWire} : ∀ {fuel : ℕ}
    {st st' : RouteState p}, R1CS.routeLoop m sw fuel st = some st' → Scanned sw st →
    ∀ s, ∀ w ∈ sw s, (st'.values w.wire).isSome := by
  have done : ∀ st : RouteState p, Scanned sw st →
      ¬ (st.scanIndex false < (sw false).length ∨ st.scanIndex true < (sw true).length) →
      ∀ s, ∀ w ∈ sw s, (st.values w.wire).isSome := by
    intro st hst hc s w hw
    rw [not_or] at hc
    obtain ⟨k, hk, rfl⟩ := List.getElem_of_mem hw
    refine hst s k _ ?_ (List.getElem?_eq_getElem hk)
    cases s
    · omega
    · omega
  intro fuel
  induction fuel with
  | zero =>
    intro st st' h hst
    unfold R1CS.routeLoop at h
    split at h
    · exact absurd h (by simp)
    · next hc =>
      obtain rfl := Option.some.inj h
      exact done st hst hc
  | succ fuel ih =>
    intro st st' h hst
    unfold R1CS.routeLoop at h
    split at h
    · obtain ⟨s1, h1, h⟩ := Option.bind_eq_some_iff.1 h
      obtain ⟨s2, h2, h⟩ := Option.bind_eq_some_iff.1 h
      exact ih h (routeSide h2 (routeSide h1 hst))
    · next hc =>
      obtain rfl := Option.some.inj h
      exact done st hst hc

theorem route (a b : List (Elem p)) (sa sb : List BooleanWire) :
    Fills ((sa ++ sb).map (·.wire)) (fun v => R1CS.route a b sa sb v) := by
  intro v v' h
  dsimp only at h
  unfold R1CS.route at h
  split at h
  · exact absurd h (by simp)
  · obtain ⟨m, -, h⟩ := Option.bind_eq_some_iff.1 h
    dsimp only at h
    obtain ⟨s1, h1, h⟩ := Option.bind_eq_some_iff.1 h
    obtain ⟨s2, h2, h⟩ := Option.bind_eq_some_iff.1 h
    have e1 : s1.scanIndex = fun _ => 0 := by
      split at h1
      · obtain ⟨s0, h0, h1⟩ := Option.bind_eq_some_iff.1 h1
        rw [enqueueOtherSide_scan h1, enqueueOtherSide_scan h0]
      · obtain ⟨s0, h0, h1⟩ := Option.bind_eq_some_iff.1 h1
        rw [enqueueOtherSide_scan h1, enqueueOtherSide_scan h0]
    obtain rfl := Option.some.inj h
    have key := routeLoop h2 (fun s k w hk => by
      rw [e1] at hk
      exact absurd hk (Nat.not_lt_zero _))
    intro o ho
    obtain ⟨w, hw, rfl⟩ := List.mem_map.1 ho
    rcases List.mem_append.1 hw with hw | hw
    · exact key false w hw
    · exact key true w hw

theorem routeGen (a b : List (Expression p)) (sa sb : List BooleanWire) :
    Fills ((sa ++ sb).map (·.wire)) (B.routeGen a b sa sb) :=
  read fun _ => read fun _ => route _ _ _ _

end Fills

/-! ## Networks -/

theorem Timely.stretch {d : ℕ} {K : Set Wire} {m : B p α} {Q : α → Set Wire → Prop}
    (hm : Timely d K m Q) {b b' : Builder p} {a : α} (h : m b = some (a, b')) :
    Stretch d K b b' (Q a) := hm b a b' h

namespace Stretch

variable {d : ℕ} {K : Set Wire}

theorem createSwitch {x y : Expression p} (hx : x.Over K) (hy : y.Over K) {b b' : Builder p}
    {r : BooleanWire × Expression p × Expression p} (h : B.createSwitch x y b = some (r, b'))
    (hr : r.1.wire ∈ K) : Stretch d K b b' fun K' => r.2.1.Over K' ∧ r.2.2.Over K' := by
  unfold B.createSwitch at h
  obtain ⟨w, b1, h1, h⟩ := B.bind_run h
  obtain ⟨c, b2, h2, h⟩ := B.bind_run h
  obtain ⟨rfl, rfl⟩ := Prod.ext_iff.1 (Option.some.inj h)
  refine (silent (Q := fun K' => K' = K) (Silent.booleanWire b w b1 h1).1 rfl).trans fun K' _ e => ?_
  subst e
  refine mono ((Timely.selection (c := BooleanExpression.ofWire w) (Expression.Over.ofWire hr) hy
    hx).stretch h2) fun K' hK hc => ⟨hc, ?_⟩
  exact ((hx.mono hK).add (hy.mono hK)).sub hc

theorem switchLayer : ∀ (k : ℕ) {K : Set Wire} {xs : List (Expression p)} {b b' : Builder p}
    {r : List BooleanWire × List (Expression p) × List (Expression p)}, ListOver K xs →
    B.switchLayer k xs b = some (r, b') → (∀ w ∈ r.1, w.wire ∈ K) →
    r.2.1.length = k ∧ r.2.2.length = k ∧
    Stretch d K b b' fun K' => ListOver K' r.2.1 ∧ ListOver K' r.2.2
  | 0, K, xs, b, b', r, hx, h, hr => by
    unfold B.switchLayer at h
    obtain ⟨rfl, rfl⟩ := Prod.ext_iff.1 (Option.some.inj h)
    exact ⟨rfl, rfl, silent rfl ⟨fun _ h => (by cases h), fun _ h => (by cases h)⟩⟩
  | k + 1, K, x :: y :: rest, b, b', r, hx, h, hr => by
    unfold B.switchLayer at h
    obtain ⟨r1, b1, h1, h⟩ := B.bind_run h
    obtain ⟨r2, b2, h2, h⟩ := B.bind_run h
    obtain ⟨rfl, rfl⟩ := Prod.ext_iff.1 (Option.some.inj h)
    dsimp only at hr ⊢
    have hs := createSwitch (d := d) (hx x (by simp)) (hx y (by simp)) h1 (hr _ (by simp))
    have hlen := switchLayer k (K := K) (fun e he => hx e (by simp [he])) h2
      fun w hw => hr w (by simp [hw])
    refine ⟨by simp [hlen.1], by simp [hlen.2.1], hs.trans fun K1 k1 e1 => ?_⟩
    refine mono (switchLayer k (K := K1) (fun e he => (hx e (by simp [he])).mono k1) h2
      fun w hw => k1 (hr w (by simp [hw]))).2.2 fun K2 k2 e2 => ⟨?_, ?_⟩
    · intro e he
      rcases List.mem_cons.1 he with rfl | he
      · exact e1.1.mono k2
      · exact e2.1 e he
    · intro e he
      rcases List.mem_cons.1 he with rfl | he
      · exact e1.2.mono k2
      · exact e2.2 e he
  | k + 1, K, [], b, b', r, hx, h, hr => by
    unfold B.switchLayer at h
    exact absurd h (by simp [B.panic])
  | k + 1, K, [x], b, b', r, hx, h, hr => by
    unfold B.switchLayer at h
    exact absurd h (by simp [B.panic])

end Stretch

namespace Timely

variable {d : ℕ} {K : Set Wire}

theorem assertPermutation2x2 {x y z t : Expression p} (hx : x.Over K) (hy : y.Over K)
    (hz : z.Over K) (ht : t.Over K) :
    Timely (d + 1) K (B.assertPermutation2x2 x y z t) fun _ _ => True := by
  intro b u b' h
  unfold B.assertPermutation2x2 at h
  obtain ⟨r, b1, h1, h⟩ := B.bind_run h
  obtain ⟨_, b2, h2, h⟩ := B.bind_run h
  obtain ⟨_, b3, h3, h⟩ := B.bind_run h
  obtain ⟨_, rfl⟩ := Prod.ext_iff.1 (Option.some.inj h)
  have e3 : b3.witnessGenerators = b1.witnessGenerators :=
    ((Silent.assertEqual _ _) _ _ _ h3).1.trans ((Silent.assertEqual _ _) _ _ _ h2).1
  refine Stretch.mono (Stretch.wait [r.1.wire] (K := K) (Q := fun _ => True) (b1 := b3) (d := d)
    (i := x.dependencies ++ y.dependencies ++ z.dependencies ++ t.dependencies)
    (f := B.permutation2x2Gen x y z t r.1) ?_ ?_ (KeepsValues.permutation2x2Gen _ _ _ _ _)
    (Fills.permutation2x2Gen _ _ _ _ _) rfl) fun _ _ _ => trivial
  · refine (Stretch.createSwitch (hx.mono Set.subset_union_left) (hy.mono Set.subset_union_left) h1
      (.inr (by simp))).trans fun K' _ _ => Stretch.silent e3 trivial
  · intro w hw
    simp only [List.mem_append] at hw
    rcases hw with ((hw | hw) | hw) | hw
    · exact hx w hw
    · exact hy w hw
    · exact hz w hw
    · exact ht w hw

theorem listOver_snoc {xs : List (Expression p)} {x : Expression p} (hxs : ListOver K xs)
    (hx : x.Over K) : ListOver K (xs ++ [x]) := by
  intro e he
  rcases List.mem_append.1 he with he | he
  · exact hxs e he
  · rw [List.mem_singleton] at he
    rw [he]; exact hx

theorem half_le (n : ℕ) : n / 2 ≤ (n + 1) / 2 := by omega

theorem half_succ {n : ℕ} (h : ¬ n % 2 = 0) : n / 2 + 1 ≤ (n + 1) / 2 := by omega

theorem assertPermutationFuel : ∀ (fuel : ℕ) (K : Set Wire) (a b : List (Expression p)),
    ListOver K a → ListOver K b →
    Timely (Nat.clog 2 a.length) K (B.assertPermutationFuel fuel a b) fun _ _ => True
  | 0, _, _, _, _, _ => skip (.require _) fun _ _ => quiet (.require _) fun _ _ => trivial
  | fuel + 1, K, a, b, ha, hb => by
    unfold B.assertPermutationFuel
    refine skip (.require _) fun _ hl => ?_
    split
    · exact pure trivial
    · exact quiet (.assertEqual _ _) fun _ _ => trivial
    · refine later (assertPermutation2x2 (d := 0) (ha _ (by simp)) (ha _ (by simp)) (hb _ (by simp))
        (hb _ (by simp))) ?_
      simp only [List.length_cons, List.length_nil]
      exact Nat.clog_pos one_lt_two (by omega)
    · next h0 h1 h2 =>
      have hn : 3 ≤ a.length := by
        rcases a with _ | ⟨a0, _ | ⟨a1, _ | ⟨a2, a⟩⟩⟩
        · exact absurd rfl h0
        · rcases b with _ | ⟨b0, _ | ⟨b1, b⟩⟩
          · simp at hl
          · exact absurd rfl (h1 _ _ rfl)
          · simp at hl
        · rcases b with _ | ⟨b0, _ | ⟨b1, _ | ⟨b2, b⟩⟩⟩
          · simp at hl
          · simp at hl
          · exact absurd rfl (h2 _ _ _ _ rfl)
          · simp at hl
        · simp
      have hc : Nat.clog 2 a.length = Nat.clog 2 ((a.length + 1) / 2) + 1 := by
        rw [Nat.clog_of_two_le one_lt_two (by omega)]
        rfl
      rw [hc]
      intro b0 u b' h
      obtain ⟨r1, b1, g1, h⟩ := B.bind_run h
      obtain ⟨r2, b2, g2, h⟩ := B.bind_run h
      obtain ⟨_, b3, g3, h⟩ := B.bind_run h
      obtain ⟨_, rfl⟩ := Prod.ext_iff.1 (Option.some.inj h)
      have hsub : K ⊆ K ∪ {w | w ∈ (r1.1 ++ r2.1).map BooleanWire.wire} := Set.subset_union_left
      refine Stretch.mono (Stretch.wait ((r1.1 ++ r2.1).map BooleanWire.wire) (K := K) (Q := fun _ => True)
        (b1 := b3) (i := a.flatMap Expression.dependencies ++ b.flatMap Expression.dependencies)
        (f := B.routeGen a b r1.1 r2.1) ?_ ?_ (KeepsValues.routeGen _ _ _ _)
        (Fills.routeGen _ _ _ _) rfl) fun _ _ _ => trivial
      · obtain ⟨l1, l2, s1⟩ := Stretch.switchLayer (d := Nat.clog 2 ((a.length + 1) / 2)) _
          (fun e he => (ha e he).mono hsub) g1 fun w hw => .inr (List.mem_map.2 ⟨w, by simp [hw], rfl⟩)
        refine s1.trans fun K1 k1 e1 => ?_
        obtain ⟨m1, m2, s2⟩ := Stretch.switchLayer (d := Nat.clog 2 ((a.length + 1) / 2)) (K := K1) _
          (fun e he => (hb e he).mono (hsub.trans k1)) g2
          fun w hw => k1 (.inr (List.mem_map.2 ⟨w, by simp [hw], rfl⟩))
        refine s2.trans fun K2 k2 e2 => ?_
        have sub2 : K ⊆ K2 := (hsub.trans k1).trans k2
        have hx1 : ListOver K2 r1.2.1 := fun e he => (e1.1 e he).mono k2
        have hx2 : ListOver K2 r1.2.2 := fun e he => (e1.2 e he).mono k2
        have hle1 : r1.2.1.length ≤ (a.length + 1) / 2 := l1.trans_le (half_le _)
        have hle2 : r1.2.2.length ≤ (a.length + 1) / 2 := l2.trans_le (half_le _)
        have child : ∀ (K' : Set Wire) (x y : List (Expression p)), ListOver K' x → ListOver K' y →
            x.length ≤ (a.length + 1) / 2 → Timely (Nat.clog 2 ((a.length + 1) / 2)) K'
              (B.assertPermutationFuel fuel x y) fun _ _ => True := fun K' x y hx hy hle =>
          later (assertPermutationFuel fuel K' x y hx hy) (Nat.clog_mono_right 2 hle)
        refine Timely.stretch (Q := fun _ _ => True) (ite (fun hpar => ?_) fun hpar => ?_) g3
        · refine skip (.ofOption _) fun c1 q1 => skip (.ofOption _) fun c2 q2 =>
            bind (child K2 _ _ hx1 (listOver_snoc e2.1 ((hb _ (List.mem_of_getElem? q1)).mono sub2))
              hle1) fun _ K3 k3 _ => ?_
          exact child K3 _ _ (fun e he => (hx2 e he).mono k3)
            (listOver_snoc (fun e he => (e2.2 e he).mono k3)
              ((hb _ (List.mem_of_getElem? q2)).mono (sub2.trans k3))) hle2
        · refine skip (.ofOption _) fun c1 q1 => skip (.ofOption _) fun c2 q2 =>
            bind (child K2 _ _ hx1 e2.1 hle1) fun _ K3 k3 _ => ?_
          exact child K3 _ _ (listOver_snoc (fun e he => (hx2 e he).mono k3)
              ((ha _ (List.mem_of_getElem? q1)).mono (sub2.trans k3)))
            (listOver_snoc (fun e he => (e2.2 e he).mono k3)
              ((hb _ (List.mem_of_getElem? q2)).mono (sub2.trans k3)))
            (by
              rw [List.length_append, List.length_singleton, show r1.2.2.length = a.length / 2 from l2]
              exact half_succ hpar)
      · intro w hw
        rcases List.mem_append.1 hw with hw | hw
        · obtain ⟨e, he, hw⟩ := List.mem_flatMap.1 hw
          exact ha e he w hw
        · obtain ⟨e, he, hw⟩ := List.mem_flatMap.1 hw
          exact hb e he w hw

theorem assertPermutation {a b : List (Expression p)} (ha : ListOver K a) (hb : ListOver K b) :
    Timely (Nat.clog 2 a.length) K (B.assertPermutation a b) fun _ _ => True :=
  assertPermutationFuel _ K a b ha hb

/-! ### Sorting -/

theorem splitOutputs : ∀ (es : List (Expression p)) (K : Set Wire), ONE ∈ K → ListOver K es →
    Timely d K (B.splitOutputs es) fun z K' => ∀ x ∈ z, x.Over K'
  | [], _, _, _ => panic
  | [e], _, h1, h => bind (split h1 (h e (by simp))) fun x K' _ hx => pure (by
      intro y hy
      rw [List.mem_singleton] at hy
      rw [hy]; exact hx)
  | e :: e' :: rest, K, h1, h => bind (splitAllowingAmbiguity (h e (by simp))) fun x K1 k1 hx =>
    bind (splitOutputs (e' :: rest) K1 (k1 h1) fun y hy => (h y (by simp [hy])).mono k1)
      fun xs K2 k2 hxs => pure (by
        intro y hy
        rcases List.mem_cons.1 hy with rfl | hy
        · exact hx.mono k2
        · exact hxs y hy)

theorem assertAscending : ∀ (xs : List (BinaryExpression p)) (K : Set Wire), ONE ∈ K →
    (∀ x ∈ xs, x.Over K) → Timely d K (B.assertAscending xs) fun _ _ => True
  | [], _, _, _ => pure trivial
  | [_], _, _, _ => pure trivial
  | x :: y :: rest, K, h1, h => bind (assertCmpBinary h1 (h x (by simp)) (h y (by simp)) _ _)
    fun _ K' hK _ => assertAscending (y :: rest) K' (hK h1) fun z hz =>
      (h z (List.mem_cons_of_mem _ hz)).mono hK

theorem sortAscending (h1 : ONE ∈ K) {xs : List (Expression p)} (hx : ListOver K xs) :
    Timely (Nat.clog 2 xs.length + 1) K (B.sortAscending xs) fun z K' => ListOver K' z := by
  refine skip (.wires _) fun ws hws => ?_
  have hsub : K ⊆ K ∪ {w | w ∈ ws} := Set.subset_union_left
  have hout : ListOver (K ∪ {w | w ∈ ws}) (ws.map (Expression.ofWire : Wire → Expression p)) := by
    intro e he
    obtain ⟨w, hw, rfl⟩ := List.mem_map.1 he
    exact .ofWire (.inr hw)
  have h := wait (K := K) (d := Nat.clog 2 xs.length) ws (m := do
      B.assertPermutation xs (ws.map Expression.ofWire)
      let outputsBinary ← B.splitOutputs (ws.map Expression.ofWire)
      B.assertAscending outputsBinary) (Q := fun _ _ => True)
    (bind (assertPermutation (fun e he => (hx e he).mono hsub) hout) fun _ K1 k1 _ =>
      bind (splitOutputs _ K1 (k1 (.inl h1)) fun e he => (hout e he).mono k1) fun _ K2 k2 h' =>
        assertAscending _ K2 (k2 (k1 (.inl h1))) h')
    (i := xs.flatMap Expression.dependencies) (fun i hi => by
      obtain ⟨e, he, hi⟩ := List.mem_flatMap.1 hi
      exact hx e he i hi)
    (KeepsValues.sortGen xs ws) (Fills.sortGen xs ws hws.symm)
  have h' := h.bind (f := fun _ => (Pure.pure (ws.map Expression.ofWire) : B p (List (Expression p))))
    (R := fun z K' => ListOver K' z) fun _ K' _ h => pure (by
      intro e he
      obtain ⟨w, hw, rfl⟩ := List.mem_map.1 he
      exact .ofWire (h w hw))
  simpa only [bind_assoc] using h'

theorem sortDescending (h1 : ONE ∈ K) {xs : List (Expression p)} (hx : ListOver K xs) :
    Timely (Nat.clog 2 xs.length + 1) K (B.sortDescending xs) fun z K' => ListOver K' z :=
  bind (sortAscending h1 hx) fun _ _ _ h => pure fun e he => h e (List.mem_reverse.1 he)

/-! ### Permutations, ciphers, hash functions -/

theorem monomial (h1 : ONE ∈ K) (f : MonomialPermutation p) {x : Expression p} (hx : x.Over K) :
    Timely d K (f.permute x) fun z K' => z.Over K' := exponentiation h1 hx f.n

theorem root (h1 : ONE ∈ K) (f : MonomialPermutation p) {x : Expression p} (hx : x.Over K) :
    Timely (d + 1) K (f.inverse x) fun z K' => z.Over K' := by
  refine skip .wire fun w _ => ?_
  intro b z b' h
  obtain ⟨y, b1, g1, h⟩ := B.bind_run h
  obtain ⟨_, b2, g2, h⟩ := B.bind_run h
  obtain ⟨k, b3, g3, h⟩ := B.bind_run h
  obtain ⟨_, b4, g4, h⟩ := B.bind_run h
  obtain ⟨_, h4⟩ := Prod.ext_iff.1 (Option.some.inj g4)
  obtain ⟨rfl, h5⟩ := Prod.ext_iff.1 (Option.some.inj h)
  dsimp only at h4 h5
  subst h5
  subst h4
  refine Stretch.mono (Stretch.wait [w] (K := K) (Q := fun _ => True) (b1 := b3) (d := d)
    (i := x.dependencies) (f := MonomialPermutation.rootGen x k w) ?_ hx
    (KeepsValues.read fun _ => KeepsValues.set _ _) (Fills.rootGen _ _ _) rfl)
    fun K' _ h => Expression.Over.ofWire (h w (by simp))
  refine (Timely.stretch (exponentiation (.inl h1) (.ofWire (.inr (by simp))) f.n) g1).trans
    fun _ _ _ => Stretch.silent ?_ trivial
  exact (Silent.ofOption _ _ _ _ g3).1.trans (Silent.assertEqual _ _ _ _ _ g2).1

theorem encryptRounds (c : MiMC p) : ∀ (rcs : List (Elem p)) (K : Set Wire) (key x : Expression p),
    ONE ∈ K → key.Over K → x.Over K → Timely d K (c.encryptRounds key rcs x) fun z K' => z.Over K'
  | [], _, _, _, _, _, hx => pure hx
  | r :: rcs, _, key, _, h1, hk, hx =>
    bind (monomial h1 _ (hx.add (hk.add (.ofElem h1 r)))) fun z K' hK hz =>
      encryptRounds c rcs K' key z (hK h1) (hk.mono hK) hz

theorem encrypt (h1 : ONE ∈ K) (c : MiMC p) {key x : Expression p} (hk : key.Over K)
    (hx : x.Over K) : Timely d K (c.encrypt key x) fun z K' => z.Over K' :=
  bind (monomial h1 _ (hx.add hk)) fun z K1 k1 hz =>
    bind (encryptRounds c _ K1 key z (k1 h1) (hk.mono k1) hz) fun _ _ k2 h =>
      pure (h.add (hk.mono (k1.trans k2)))

theorem decryptRounds (c : MiMC p) : ∀ (rcs : List (Elem p)) (K : Set Wire) (key x : Expression p),
    ONE ∈ K → key.Over K → x.Over K →
    Timely (d + 1) K (c.decryptRounds key rcs x) fun z K' => z.Over K'
  | [], _, _, _, _, _, hx => pure hx
  | r :: rcs, _, key, _, h1, hk, hx =>
    bind (root h1 _ hx) fun _ K' hK hz => decryptRounds c rcs K' key _ (hK h1) (hk.mono hK)
      (hz.sub ((hk.mono hK).add (.ofElem (hK h1) r)))

theorem decrypt (h1 : ONE ∈ K) (c : MiMC p) {key x : Expression p} (hk : key.Over K)
    (hx : x.Over K) : Timely (d + 1) K (c.decrypt key x) fun z K' => z.Over K' :=
  bind (decryptRounds c _ K key _ h1 hk (hx.sub hk)) fun _ _ k1 hz =>
    bind (root (k1 h1) _ hz) fun _ _ k2 h => pure (h.sub (hk.mono (k1.trans k2)))

theorem absorb {h : MerkleDamgard p} (hc : ∀ (K : Set Wire) x y, ONE ∈ K → x.Over K → y.Over K →
      Timely d K (h.compress.compress x y) fun z K' => z.Over K') :
    ∀ (blocks : List (Expression p)) (K : Set Wire) (x : Expression p), ONE ∈ K →
      ListOver K blocks → x.Over K → Timely d K (h.absorb blocks x) fun z K' => z.Over K'
  | [], _, _, _, _, hx => pure hx
  | b :: blocks, K, x, h1, hb, hx => bind (hc K x b h1 hx (hb b (by simp))) fun z K' hK hz =>
    absorb hc blocks K' z (hK h1) (fun e he => (hb e (by simp [he])).mono hK) hz

theorem hash {h : MerkleDamgard p} (hc : ∀ (K : Set Wire) x y, ONE ∈ K → x.Over K → y.Over K →
      Timely d K (h.compress.compress x y) fun z K' => z.Over K') (h1 : ONE ∈ K)
    {blocks : List (Expression p)} (hb : ListOver K blocks) :
    Timely d K (h.hash blocks) fun z K' => z.Over K' :=
  bind (absorb hc _ K _ h1 hb (.ofElem h1 _)) fun _ K' hK hz => skip (.ofOption _) fun _ e =>
    hc K' _ _ (hK h1) hz (.ofNat? (hK h1) e)

theorem merkleTreeLoop {c : CompressionFunction p} (hc : ∀ (K : Set Wire) x y, ONE ∈ K →
      x.Over K → y.Over K → Timely d K (c.compress x y) fun z K' => z.Over K') :
    ∀ (l : List (BooleanExpression p × Expression p)) (K : Set Wire) (x : Expression p), ONE ∈ K →
      (∀ q ∈ l, q.1.Over K ∧ q.2.Over K) → x.Over K →
      Timely d K (B.merkleTreeLoop c l x) fun z K' => z.Over K'
  | [], _, _, _, _, hx => pure hx
  | (b, s) :: l, K, x, h1, hl, hx => by
    obtain ⟨hb, hs⟩ := hl _ (List.mem_cons_self ..)
    refine bind (Q := fun z K' => z.Over K') (bind (selection hb hs hx) fun z K1 k1 hz =>
      hc K1 _ _ (k1 h1) hz (((hs.mono k1).add (hx.mono k1)).sub hz)) fun z K' hK hz => ?_
    exact merkleTreeLoop hc l K' z (hK h1) (fun q hq => by
      obtain ⟨k1, k2⟩ := hl q (List.mem_cons_of_mem _ hq)
      exact ⟨Expression.Over.mono k1 hK, k2.mono hK⟩) hz

theorem merkleTreeRoot {c : CompressionFunction p} (hc : ∀ (K : Set Wire) x y, ONE ∈ K →
      x.Over K → y.Over K → Timely d K (c.compress x y) fun z K' => z.Over K') (h1 : ONE ∈ K)
    {x : Expression p} (hx : x.Over K) {path : MerklePath p} (hb : path.pathBits.Over K)
    (hs : ListOver K path.siblings) :
    Timely d K (B.merkleTreeRoot x path c) fun z K' => z.Over K' :=
  merkleTreeLoop hc _ K x h1 (fun q hq => ⟨hb _ (List.of_mem_zip hq).1, hs _ (List.of_mem_zip hq).2⟩)
    hx

theorem permuteState {sp : Sponge p} (hp : ∀ (K : Set Wire) xs, ONE ∈ K → ListOver K xs →
      Timely d K (sp.permutation.permute xs) fun z K' => ListOver K' z) (h1 : ONE ∈ K)
    {i c : List (Expression p)} (hi : ListOver K i) (hc : ListOver K c) :
    Timely d K (sp.permuteState i c) fun z K' => ListOver K' z.1 ∧ ListOver K' z.2 :=
  bind (hp K _ h1 fun e he => (List.mem_append.1 he).elim (hi e) (hc e)) fun _ _ _ h =>
    skip (.require _) fun _ _ => skip (.require _) fun _ _ =>
      pure ⟨fun e he => h e (List.mem_of_mem_take he), fun e he => h e (List.mem_of_mem_drop he)⟩

theorem addChunk : ∀ {i c z : List (Expression p)}, ListOver K i → ListOver K c →
    Sponge.addChunk i c = some z → ListOver K z
  | i, [], z, hi, _, h => by
    have : some i = some z := by
      cases i <;> exact h
    obtain rfl := Option.some.inj this
    exact hi
  | [], _ :: _, _, _, _, h => absurd h (by simp [Sponge.addChunk])
  | s :: ss, e :: es, z, hi, hc, h => by
    unfold Sponge.addChunk at h
    obtain ⟨r, hr, h⟩ := Option.bind_eq_some_iff.1 h
    obtain rfl := Option.some.inj h
    intro x hx
    rcases List.mem_cons.1 hx with rfl | hx
    · exact (hi s (by simp)).add (hc e (by simp))
    · exact addChunk (fun y hy => hi y (by simp [hy])) (fun y hy => hc y (by simp [hy])) hr x hx

theorem spongeAbsorb {sp : Sponge p} (hp : ∀ (K : Set Wire) xs, ONE ∈ K → ListOver K xs →
      Timely d K (sp.permutation.permute xs) fun z K' => ListOver K' z) :
    ∀ (cs : List (List (Expression p))) (K : Set Wire) (i c : List (Expression p)), ONE ∈ K →
      (∀ x ∈ cs, ListOver K x) → ListOver K i → ListOver K c →
      Timely d K (sp.absorb cs i c) fun z K' => ListOver K' z.1 ∧ ListOver K' z.2
  | [], _, _, _, _, _, hi, hc => pure ⟨hi, hc⟩
  | x :: cs, K, i, c, h1, hx, hi, hc => skip (.ofOption _) fun _ e =>
    bind (permuteState hp h1 (addChunk hi (hx x (by simp)) e) hc) fun z K' hK hz =>
      spongeAbsorb hp cs K' z.1 z.2 (hK h1)
        (fun y hy e he => (hx y (by simp [hy]) e he).mono hK) hz.1 hz.2

theorem squeeze {sp : Sponge p} (hp : ∀ (K : Set Wire) xs, ONE ∈ K → ListOver K xs →
      Timely d K (sp.permutation.permute xs) fun z K' => ListOver K' z) (k : ℕ) :
    ∀ (fuel : ℕ) (K : Set Wire) (i c o : List (Expression p)), ONE ∈ K → ListOver K i →
      ListOver K c → ListOver K o → Timely d K (sp.squeeze k fuel i c o) fun z K' => ListOver K' z
  | 0, _, _, _, _, _, _, _, ho => ite (fun _ => panic) fun _ => pure ho
  | fuel + 1, _, _, _, _, h1, hi, hc, ho => ite (fun _ => bind (permuteState hp h1 hi hc)
      fun z K' hK hz => squeeze hp k fuel K' z.1 z.2 _ (hK h1) hz.1 hz.2
        fun e he => (List.mem_append.1 he).elim (fun h => (ho e h).mono hK) (hz.1 e))
      fun _ => pure ho

theorem sponge {sp : Sponge p} (hp : ∀ (K : Set Wire) xs, ONE ∈ K → ListOver K xs →
      Timely d K (sp.permutation.permute xs) fun z K' => ListOver K' z) (h1 : ONE ∈ K)
    {xs : List (Expression p)} (hx : ListOver K xs) (k : ℕ) :
    Timely d K (sp.evaluate xs k) fun z K' => ListOver K' z := by
  have h0 : ∀ n, ListOver K (List.replicate n (0 : Expression p)) := fun n e he => by
    rw [List.eq_of_mem_replicate he]; exact .zero
  refine skip (.ofOption _) fun cs e => bind (spongeAbsorb hp cs K _ _ h1 ?_ (h0 _) (h0 _))
    fun z K' hK hz => bind (squeeze hp k _ K' z.1 z.2 _ (hK h1) hz.1 hz.2 hz.1)
      fun _ _ _ h => pure fun e he => h e (List.mem_of_mem_take he)
  intro c hc y hy
  unfold chunks? at e
  split at e
  · exact absurd e (by simp)
  · next hk =>
    obtain rfl := Option.some.inj e
    refine hx y ?_
    rw [← chunksOf_flatten (Nat.pos_of_ne_zero hk) xs]
    exact List.mem_flatten.2 ⟨c, hc, hy⟩

theorem mapExpressions {f : Expression p → B p (Expression p)} (hf : ∀ (K : Set Wire) x, ONE ∈ K →
      x.Over K → Timely d K (f x) fun z K' => z.Over K') :
    ∀ (xs : List (Expression p)) (K : Set Wire), ONE ∈ K → ListOver K xs →
      Timely d K (B.mapExpressions f xs) fun z K' => ListOver K' z
  | [], _, _, h => pure h
  | x :: xs, K, h1, h => bind (hf K x h1 (h x (by simp))) fun y K1 k1 hy =>
    bind (mapExpressions hf xs K1 (k1 h1) fun e he => (h e (by simp [he])).mono k1)
      fun ys K2 k2 hys => pure (by
        intro e he
        rcases List.mem_cons.1 he with rfl | he
        · exact hy.mono k2
        · exact hys e he)

theorem mulExpressions (m : ElementMatrix p) {v : List (Expression p)} (hv : ListOver K v) :
    ListOver K (m.mulExpressions v) := by
  have fold : ∀ {x : Expression p} (_ : x.Over K) (row : List (Elem p)) {a : Expression p},
      a.Over K → (row.foldl (fun sum row_i => sum + x.mulElem row_i) a).Over K := by
    intro x hx row
    induction row with
    | nil => exact fun ha => ha
    | cons r row ih => exact fun ha => ih (ha.add (hx.mulElem r))
  intro e he
  unfold ElementMatrix.mulExpressions at he
  obtain ⟨⟨row, x⟩, hm, rfl⟩ := List.mem_map.1 he
  exact fold (hv x (List.of_mem_zip hm).2) row .zero

theorem sboxPermute (f : Poseidon p) (K : Set Wire) (x : Expression p) (h1 : ONE ∈ K)
    (hx : x.Over K) : Timely d K (f.sboxPermute x) fun z K' => z.Over K' := by
  refine skip (.ofOption _) fun s hs => ?_
  unfold Poseidon.sboxPermutation at hs
  split at hs
  · obtain rfl := Option.some.inj hs
    exact inverseOrZero hx
  all_goals
    obtain ⟨n, _, hs⟩ := Option.bind_eq_some_iff.1 hs
    obtain ⟨m, _, hs⟩ := Option.bind_eq_some_iff.1 hs
    obtain rfl := Option.some.inj hs
    exact monomial h1 m hx

theorem sboxFirst (f : Poseidon p) (h1 : ONE ∈ K) : ∀ {xs : List (Expression p)}, ListOver K xs →
    Timely d K (f.sboxFirst xs) fun z K' => ListOver K' z
  | [], _ => panic
  | x :: xs, h => bind (sboxPermute f K x h1 (h x (by simp))) fun y K1 k1 hy => pure (by
      intro e he
      rcases List.mem_cons.1 he with rfl | he
      · exact hy
      · exact (h e (by simp [he])).mono k1)

theorem poseidonRounds (f : Poseidon p) : ∀ (left round : ℕ) (K : Set Wire)
    (xs : List (Expression p)), ONE ∈ K → ListOver K xs →
    Timely d K (f.rounds round left xs) fun z K' => ListOver K' z
  | 0, _, _, _, _, h => pure h
  | left + 1, round, K, xs, h1, h => bind (Q := fun z K' => ListOver K' z)
      (ite (fun _ => mapExpressions (sboxPermute f) xs K h1 h) fun _ => sboxFirst f h1 h)
      fun _ K' hK hz => poseidonRounds f left (round + 1) K' _ (hK h1) (mulExpressions f.mds hz)

theorem poseidon (h1 : ONE ∈ K) (f : Poseidon p) {xs : List (Expression p)} (hx : ListOver K xs) :
    Timely d K (f.permute xs) fun z K' => ListOver K' z :=
  skip (.require _) fun _ _ => skip (.require _) fun _ _ => poseidonRounds f _ _ K xs h1 hx

theorem rescueRounds (f : Rescue p) : ∀ (left : ℕ) (K : Set Wire) (xs : List (Expression p)),
    ONE ∈ K → ListOver K xs → Timely (d + 1) K (f.rounds left xs) fun z K' => ListOver K' z
  | 0, _, _, _, h => pure h
  | left + 1, K, xs, h1, h =>
    bind (mapExpressions (fun _ _ h1 hx => skip (.ofOption _) fun m _ => monomial h1 m hx) xs K h1 h)
      fun _ K1 k1 hz => bind (mapExpressions
        (fun _ _ h1 hx => skip (.ofOption _) fun m _ => root h1 m hx) _ K1 (k1 h1)
        (mulExpressions f.mds hz)) fun _ K2 k2 hy =>
          rescueRounds f left K2 _ (k2 (k1 h1)) (mulExpressions f.mds hy)

theorem rescue (h1 : ONE ∈ K) (f : Rescue p) {xs : List (Expression p)} (hx : ListOver K xs) :
    Timely (d + 1) K (f.permute xs) fun z K' => ListOver K' z := rescueRounds f _ K xs h1 hx

/-! ### Curves and signatures -/

/-- The coordinates mention only wires in `K`. -/
abbrev _root_.R1CS.EdwardsExpression.Over (K : Set Wire) (P : EdwardsExpression p) : Prop :=
  P.x.Over K ∧ P.y.Over K

theorem _root_.R1CS.EdwardsExpression.Over.mono {K L : Set Wire} {P : EdwardsExpression p}
    (h : P.Over K) (hK : K ⊆ L) : P.Over L := ⟨h.1.mono hK, h.2.mono hK⟩

theorem edwardsNew (C : EdwardsCurve p) {x y : Expression p} (hx : x.Over K) (hy : y.Over K) :
    Timely d K (EdwardsExpression.new C x y) fun z K' => z.Over K' :=
  bind (product hx hx) fun _ _ k1 e1 => bind (product (hy.mono k1) (hy.mono k1)) fun _ _ k2 e2 =>
    bind (product (e1.mono k2) e2) fun _ _ k3 _ => skip (.assertEqual _ _) fun _ _ =>
      pure ⟨hx.mono ((k1.trans k2).trans k3), hy.mono ((k1.trans k2).trans k3)⟩

theorem edwardsAdd (h1 : ONE ∈ K) (C : EdwardsCurve p) {P Q : EdwardsExpression p} (hP : P.Over K)
    (hQ : Q.Over K) : Timely d K (EdwardsGroup.addExpressions C P Q) fun z K' => z.Over K' :=
  bind (product hP.1 hQ.2) fun _ _ k1 e1 =>
  bind (product (hP.2.mono k1) (hQ.1.mono k1)) fun _ _ k2 e2 =>
  bind (product (hP.1.mono (k1.trans k2)) (hQ.1.mono (k1.trans k2))) fun _ _ k3 e3 =>
  bind (product (e1.mono (k2.trans k3)) (e2.mono k3)) fun _ _ k4 e4 =>
  bind (product (hP.2.mono (k1.trans (k2.trans (k3.trans k4))))
    (hQ.2.mono (k1.trans (k2.trans (k3.trans k4))))) fun _ _ k5 e5 =>
  bind (quotientUnsafe ((e1.mono (k2.trans (k3.trans (k4.trans k5)))).add
      (e2.mono (k3.trans (k4.trans k5))))
    (((e4.mono k5).mulElem _).add (.one (k5 (k4 (k3 (k2 (k1 h1)))))))) fun _ _ k6 e6 =>
  bind (quotientUnsafe ((e5.mono k6).sub ((e3.mono (k4.trans (k5.trans k6))).mulElem _))
    (((e4.mono (k5.trans k6)).mulElem _).add (.one (k6 (k5 (k4 (k3 (k2 (k1 h1))))))))) fun _ _ k7 e7 =>
  pure ⟨e6.mono k7, e7⟩

theorem edwardsDouble (h1 : ONE ∈ K) (C : EdwardsCurve p) {P : EdwardsExpression p}
    (hP : P.Over K) : Timely d K (EdwardsGroup.doubleExpression C P) fun z K' => z.Over K' :=
  bind (product hP.1 hP.2) fun _ _ k1 e1 =>
  bind (product (hP.1.mono k1) (hP.1.mono k1)) fun _ _ k2 e2 =>
  bind (product (hP.2.mono (k1.trans k2)) (hP.2.mono (k1.trans k2))) fun _ _ k3 e3 =>
  skip (.ofOption _) fun _ _ =>
  bind (quotientUnsafe ((e1.mono (k2.trans k3)).mulElem _) (((e2.mono k3).mulElem _).add e3))
    fun _ _ k4 e4 => skip (.ofOption _) fun _ q =>
  bind (quotientUnsafe ((e3.mono k4).sub ((e2.mono (k3.trans k4)).mulElem _))
    ((((e2.mono (k3.trans k4)).neg.mulElem _).sub (e3.mono k4)).add
      (.ofNat? (k4 (k3 (k2 (k1 h1)))) q))) fun _ _ k5 e5 => pure ⟨e4.mono k5, e5⟩

theorem selectAll : ∀ (xs is : List (Expression p)) (K : Set Wire) (b : BooleanExpression p),
    b.Over K → ListOver K xs → ListOver K is →
    Timely d K (GroupOps.selectAll b xs is) fun z K' => ListOver K' z
  | [], _, _, _, _, h, _ => pure h
  | _ :: _, [], _, _, _, _, _ => panic
  | x :: xs, i :: is, K, b, hb, hx, hi => bind (selection hb (hx x (by simp)) (hi i (by simp)))
    fun _ K1 k1 hr => bind (selectAll xs is K1 b (Expression.Over.mono hb k1)
        (fun e he => (hx e (by simp [he])).mono k1) fun e he => (hi e (by simp [he])).mono k1)
      fun _ K2 k2 hrs => pure (by
        intro e he
        rcases List.mem_cons.1 he with rfl | he
        · exact hr.mono k2
        · exact hrs e he)

theorem identity (h1 : ONE ∈ K) {C : EdwardsCurve p} {P : EdwardsExpression p}
    (h : (EdwardsGroup.ops C).identityExpression = some P) : P.Over K := by
  obtain ⟨e, _, rfl⟩ := Option.map_eq_some_iff.1 h
  exact ⟨.ofElem h1 _, .ofElem h1 _⟩

theorem mulBoolean (h1 : ONE ∈ K) (C : EdwardsCurve p) {P : EdwardsExpression p} (hP : P.Over K)
    {b : BooleanExpression p} (hb : b.Over K) :
    Timely d K ((EdwardsGroup.ops C).mulBooleanExpression P b) fun z K' => z.Over K' := by
  have comps : ∀ {Q : EdwardsExpression p}, Q.Over K → ListOver K Q.toComponents := by
    intro Q hQ e he
    simp only [EdwardsExpression.toComponents, List.mem_cons, List.not_mem_nil, or_false] at he
    rcases he with rfl | rfl
    · exact hQ.1
    · exact hQ.2
  refine skip (.ofOption _) fun I hI => bind (selectAll _ _ K b hb (comps hP) (comps (identity h1 hI)))
    fun zs K' _ hz => quiet (.ofOption _) fun R hR => ?_
  change EdwardsExpression.ofComponents zs = some R at hR
  rcases zs with _ | ⟨z1, _ | ⟨z2, zs⟩⟩
  · exact absurd hR (by simp [EdwardsExpression.ofComponents])
  · exact absurd hR (by simp [EdwardsExpression.ofComponents])
  · obtain rfl := Option.some.inj hR
    exact ⟨hz _ (by simp), hz _ (by simp)⟩

theorem mulLoop (C : EdwardsCurve p) : ∀ (bits : List (BooleanExpression p)) (K : Set Wire)
    (P Q : EdwardsExpression p), ONE ∈ K → (∀ b ∈ bits, b.Over K) → P.Over K → Q.Over K →
    Timely d K ((EdwardsGroup.ops C).mulLoop bits P Q) fun z K' => z.Over K'
  | [], _, _, _, _, _, hP, _ => pure hP
  | b :: bits, K, P, Q, h1, hb, hP, hQ => bind (mulBoolean h1 C hQ (hb b (by simp))) fun _ _ k1 e1 =>
    bind (edwardsAdd (k1 h1) C (hP.mono k1) e1) fun _ _ k2 e2 =>
    bind (edwardsDouble (k2 (k1 h1)) C (hQ.mono (k1.trans k2))) fun _ K3 k3 e3 =>
      mulLoop C bits K3 _ _ (k3 (k2 (k1 h1)))
        (fun b' hb' => Expression.Over.mono (hb b' (by simp [hb'])) ((k1.trans k2).trans k3))
        (e2.mono k3) e3

theorem mulScalar (h1 : ONE ∈ K) (C : EdwardsCurve p) {P : EdwardsExpression p} (hP : P.Over K)
    {k : Expression p} (hk : k.Over K) :
    Timely d K ((EdwardsGroup.ops C).mulScalarExpression P k) fun z K' => z.Over K' :=
  bind (splitAllowingAmbiguity hk) fun _ K1 k1 hb => skip (.ofOption _) fun _ hI =>
    mulLoop C _ K1 _ _ (k1 h1) hb (identity (k1 h1) hI) (hP.mono k1)

theorem schnorr (h1 : ONE ∈ K) (C : EdwardsCurve p) (G : EdwardsPoint p)
    {c : CompressionFunction p} (hc : ∀ (K : Set Wire) x y, ONE ∈ K → x.Over K → y.Over K →
      Timely d K (c.compress x y) fun z K' => z.Over K')
    {σ : SignatureExpression p} (hs : σ.s.Over K) (he : σ.e.Over K) {m : Expression p}
    (hm : m.Over K) {Y : EdwardsExpression p} (hY : Y.Over K) :
    Timely d K (schnorrVerify (cyclicSubgroup (EdwardsGroup.ops C) (some G)) c σ m Y)
      fun _ _ => True := by
  refine skip (.ofOption _) fun P hP => ?_
  obtain ⟨Q, _, rfl⟩ := Option.map_eq_some_iff.1 hP
  refine bind (mulScalar h1 C ⟨.ofElem h1 _, .ofElem h1 _⟩ hs) fun _ K1 k1 e1 =>
    bind (mulScalar (k1 h1) C (hY.mono k1) (he.mono k1)) fun _ K2 k2 e2 =>
    bind (edwardsAdd (k2 (k1 h1)) C (e1.mono k2) e2) fun R K3 k3 e3 => ?_
  exact bind (hc K3 R.y m (k3 (k2 (k1 h1))) e3.2 (hm.mono ((k1.trans k2).trans k3))) fun _ _ _ _ =>
    quiet (.assertEqual _ _) fun _ _ => trivial

end Timely

end R1CS
