import Verif.Lemmas.PermutationComp
import Verif.Lemmas.Compare

/-!
# Sorting
-/

set_option linter.unusedSectionVars false

namespace R1CS

variable {p : ℕ} [hp : Fact p.Prime]

/-! ## The permutation network as a program -/

namespace KeepsValues

/-- `st'` has at least the values of `st`. -/
def Grows (st st' : RouteState p) : Prop := ∀ i x, st.values i = some x → st'.values i = some x

theorem enqueueOtherSide {m : BiMap} {sw : Bool → List BooleanWire} {sd : Bool} {i : ℕ} {u : Bool}
    {st st' : RouteState p} (h : R1CS.enqueueOtherSide m sw sd i u st = some st') :
    st'.values = st.values := by
  unfold R1CS.enqueueOtherSide at h
  obtain ⟨o, -, h⟩ := Option.bind_eq_some_iff.1 h
  dsimp only at h
  repeat' split at h
  all_goals first
    | (cases h; done)
    | (cases h; rfl)

theorem routeSwitch {m : BiMap} {sw : Bool → List BooleanWire} {sd : Bool} {i : ℕ} {u : Bool}
    {st st' : RouteState p} (h : R1CS.routeSwitch m sw sd i u st = some st') : Grows st st' := by
  unfold R1CS.routeSwitch at h
  obtain ⟨switch, -, h⟩ := Option.bind_eq_some_iff.1 h
  obtain ⟨v, hv, h⟩ := Option.bind_eq_some_iff.1 h
  obtain ⟨s1, h1, h⟩ := Option.bind_eq_some_iff.1 h
  intro j x hj
  rw [enqueueOtherSide h, enqueueOtherSide h1]
  exact of_set hv j x hj

theorem routePartial {m : BiMap} {sw : Bool → List BooleanWire} {sd : Bool} :
    ∀ {l : List (ℕ × Bool)} {st st' : RouteState p},
    R1CS.routePartial m sw sd l st = some st' → Grows st st'
  | [], st, st', h => by
    rw [← Option.some.inj h]; exact fun _ _ h => h
  | (i, u) :: l, st, st', h => by
    unfold R1CS.routePartial at h
    obtain ⟨s1, h1, h⟩ := Option.bind_eq_some_iff.1 h
    exact fun j x hj => routePartial h j x (routeSwitch h1 j x hj)

theorem routeSide {m : BiMap} {sw : Bool → List BooleanWire} {sd : Bool} {st st' : RouteState p}
    (h : R1CS.routeSide m sw sd st = some st') : Grows st st' := by
  unfold R1CS.routeSide at h
  split at h
  · obtain ⟨s1, h1, h⟩ := Option.bind_eq_some_iff.1 h
    rw [← Option.some.inj h]
    exact fun j x hj => routePartial h1 j x hj
  · dsimp only at h
    split at h
    · obtain ⟨s1, h1, h⟩ := Option.bind_eq_some_iff.1 h
      rw [← Option.some.inj h]
      exact fun j x hj => routeSwitch h1 j x hj
    · rw [← Option.some.inj h]; exact fun _ _ h => h

theorem routeLoop {m : BiMap} {sw : Bool → List BooleanWire} : ∀ {fuel : ℕ}
    {st st' : RouteState p}, R1CS.routeLoop m sw fuel st = some st' → Grows st st'
  | 0, st, st', h => by
    unfold R1CS.routeLoop at h
    split at h
    · exact absurd h (by simp)
    · rw [← Option.some.inj h]; exact fun _ _ h => h
  | fuel + 1, st, st', h => by
    unfold R1CS.routeLoop at h
    split at h
    · obtain ⟨s1, h1, h⟩ := Option.bind_eq_some_iff.1 h
      obtain ⟨s2, h2, h⟩ := Option.bind_eq_some_iff.1 h
      exact fun j x hj => routeLoop h j x (routeSide h2 j x (routeSide h1 j x hj))
    · rw [← Option.some.inj h]; exact fun _ _ h => h

theorem route (a b : List (Elem p)) (sa sb : List BooleanWire) :
    KeepsValues (fun v => R1CS.route a b sa sb v) := by
  intro v v' h
  unfold R1CS.route at h
  split at h
  · exact absurd h (by simp)
  · obtain ⟨m, -, h⟩ := Option.bind_eq_some_iff.1 h
    dsimp only at h
    obtain ⟨s1, h1, h⟩ := Option.bind_eq_some_iff.1 h
    obtain ⟨s2, h2, h⟩ := Option.bind_eq_some_iff.1 h
    have e1 : s1.values = v := by
      split at h1
      · obtain ⟨s0, h0, h1⟩ := Option.bind_eq_some_iff.1 h1
        rw [enqueueOtherSide h1, enqueueOtherSide h0]
      · obtain ⟨s0, h0, h1⟩ := Option.bind_eq_some_iff.1 h1
        rw [enqueueOtherSide h1, enqueueOtherSide h0]
    rw [← Option.some.inj h]
    intro i x hi
    exact routeLoop h2 i x (by rw [e1]; exact hi)

theorem routeGen (a b : List (Expression p)) (sa sb : List BooleanWire) :
    KeepsValues (B.routeGen a b sa sb) := read fun _ => read fun _ => route _ _ _ _

theorem permutation2x2Gen (a b c d : Expression p) (s : BooleanWire) :
    KeepsValues (B.permutation2x2Gen a b c d s) := by
  refine read fun _ => read fun _ => read fun _ => read fun _ => ?_
  intro v v' h
  dsimp only at h
  split at h
  · exact set _ _ v v' h
  · split at h
    · exact set _ _ v v' h
    · exact absurd h (by simp)

theorem setItems : ∀ (ws : List Wire) (xs : List (Elem p)), KeepsValues (B.setItems ws xs)
  | [], [] => fun v v' h => id v v' (by unfold B.setItems at h; exact h)
  | _ :: _, [] => fun v v' h => id v v' (by unfold B.setItems at h; exact h)
  | w :: ws, x :: xs =>
    show KeepsValues (fun v => (v.set w x).bind fun v => B.setItems ws xs v) from
      seq (set _ _) (setItems ws xs)
  | [], x :: xs => show KeepsValues (fun _ => Option.none) from none

theorem sortGen (a : List (Expression p)) (ws : List Wire) : KeepsValues (B.sortGen a ws) :=
  read fun _ => setItems _ _

end KeepsValues

namespace Prog

theorem createSwitch (a b : Expression p) : Prog (B.createSwitch a b) :=
  bind booleanWire fun _ => bind (selection _ _ _) fun _ => .pure _

theorem assertPermutation2x2 (a b c d : Expression p) : Prog (B.assertPermutation2x2 a b c d) :=
  bind (createSwitch _ _) fun _ => bind (assertEqual _ _) fun _ => bind (assertEqual _ _) fun _ =>
    .generator _ _ (KeepsValues.permutation2x2Gen _ _ _ _ _)

theorem switchLayer : ∀ (k : ℕ) (xs : List (Expression p)), Prog (B.switchLayer k xs)
  | 0, _ => .pure _
  | k + 1, _ :: _ :: rest => bind (createSwitch _ _) fun _ => bind (switchLayer k rest) fun _ =>
      .pure _
  | _ + 1, [] => .panic
  | _ + 1, [_] => .panic

theorem assertPermutationFuel : ∀ (fuel : ℕ) (a b : List (Expression p)),
    Prog (B.assertPermutationFuel fuel a b)
  | 0, _, _ => bind (require _) fun _ => require _
  | fuel + 1, a, b => by
    unfold B.assertPermutationFuel
    refine bind (require _) fun _ => ?_
    split
    · exact .pure _
    · exact assertEqual _ _
    · exact assertPermutation2x2 _ _ _ _
    · exact bind (switchLayer _ _) fun _ => bind (switchLayer _ _) fun _ =>
        bind (ite
          (bind (ofOption _) fun _ => bind (ofOption _) fun _ =>
            bind (assertPermutationFuel _ _ _) fun _ => assertPermutationFuel _ _ _)
          (bind (ofOption _) fun _ => bind (ofOption _) fun _ =>
            bind (assertPermutationFuel _ _ _) fun _ => assertPermutationFuel _ _ _)) fun _ =>
        .generator _ _ (KeepsValues.routeGen _ _ _ _)

theorem assertPermutation (a b : List (Expression p)) : Prog (B.assertPermutation a b) :=
  assertPermutationFuel _ _ _

theorem splitOutputs : ∀ es : List (Expression p), Prog (B.splitOutputs es)
  | [] => .panic
  | [_] => bind (split _) fun _ => .pure _
  | _ :: e' :: rest => bind (splitAllowingAmbiguity _) fun _ => bind (splitOutputs (e' :: rest))
      fun _ => .pure _

theorem assertAscending : ∀ es : List (BinaryExpression p), Prog (B.assertAscending es)
  | [] => .pure _
  | [_] => .pure _
  | _ :: y :: rest => bind (assertLeBinary _ _) fun _ => assertAscending (y :: rest)

theorem sortAscending (es : List (Expression p)) : Prog (B.sortAscending es) :=
  bind (wires _) fun _ => bind (assertPermutation _ _) fun _ => bind (splitOutputs _) fun _ =>
    bind (assertAscending _) fun _ => bind (.generator _ _ (KeepsValues.sortGen _ _)) fun _ =>
    .pure _

theorem sortDescending (es : List (Expression p)) : Prog (B.sortDescending es) :=
  bind (sortAscending _) fun _ => .pure _

end Prog

/-! ## What is enforced -/

namespace Enforces

theorem sortAscending (a : List (Expression p)) :
    Enforces (B.sortAscending a) fun r w => r.length = a.length ∧
      (evals w a).Perm (evals w r) := by
  unfold B.sortAscending
  refine (Enforces.wires _).bind fun ws => (Enforces.assertPermutation _ _).bind fun _ => ?_
  have triv : ∀ {α : Type} {m : B p α}, Prog m → Enforces m fun _ _ => True := by
    intro α m hm
    induction hm with
    | pure a => exact Enforces.pure fun _ _ => trivial
    | bind _ _ ih1 ih2 => exact ih1.bind fun a => (ih2 a).mono fun _ _ _ _ _ => trivial
    | wire => exact Enforces.wire
    | assertProduct x y z => exact (Enforces.assertProduct x y z).mono fun _ _ _ _ => trivial
    | generator d f hf => exact (Enforces.generator d f).mono fun _ _ _ _ => trivial
    | panic => exact Enforces.panic
  refine (triv (Prog.splitOutputs _)).bind fun _ => (triv (Prog.assertAscending _)).bind fun _ =>
    (Enforces.generator _ _).bind fun _ => Enforces.pure fun w h1 _ _ _ hperm hlen => ?_
  exact ⟨by simp [hlen.1], hperm⟩

theorem sortDescending (a : List (Expression p)) :
    Enforces (B.sortDescending a) fun r w => r.length = a.length ∧
      (evals w a).Perm (evals w r) := by
  unfold B.sortDescending
  refine (Enforces.sortAscending a).bind fun r => Enforces.pure fun w _ h => ?_
  refine ⟨by simp [h.1], h.2.trans ?_⟩
  simpa using (List.reverse_perm (evals w r)).symm

end Enforces

/-! ## Honest execution -/

theorem setItems_eq : ∀ (ws : List Wire) (xs : List (Elem p)) (v : WireValues p),
    xs.length = ws.length → B.setItems ws xs v = setAll v (ws.zip xs)
  | [], [], v, _ => by simp [B.setItems, setAll]
  | w :: ws, x :: xs, v, h => by
    unfold B.setItems
    rw [List.zip_cons_cons, setAll]
    change (v.set w x).bind _ = _
    congr 1
    funext v'
    exact setItems_eq ws xs v' (by simpa using h)

/-- The order of field elements used by sorting. -/
abbrev leB (x y : Elem p) : Bool := decide (x.n ≤ y.n)

theorem sorted_mergeSort (xs : List (Elem p)) :
    (xs.mergeSort leB).Pairwise fun x y => x.n ≤ y.n := by
  have := List.pairwise_mergeSort (le := leB (p := p))
    (by intro a b c h1 h2; simp only [leB, decide_eq_true_eq] at *; omega)
    (by intro a b; simp only [leB, Bool.or_eq_true, decide_eq_true_eq]; omega) xs
  exact this.imp fun h => by simpa [leB] using h

/-- The digits of a list of numbers. -/
def Digits (s : Hon p) (bs : List (BinaryExpression p)) (xs : List (Elem p)) : Prop :=
  List.Forall₂ (fun e x => e.Scoped s.next ∧ e.AllBool s.W ∧ e.len = Elem.maxBits p ∧
    e.val s.W = x.n) bs xs

theorem Digits.le {s s' : Hon p} (l : s.Le s') {bs : List (BinaryExpression p)}
    {xs : List (Elem p)} (h : Digits s bs xs) : Digits s' bs xs :=
  List.Forall₂.imp (fun _ _ ⟨h1, h2, h3, h4⟩ =>
    ⟨l.nscoped h1, l.allBool h1 h2, h3, by rw [l.val h1, h4]⟩) h

namespace Comp

theorem splitOutputs (h4 : 4 ≤ Elem.maxBits p) : ∀ {es : List (Expression p)} {s : Hon p},
    es ≠ [] → (∀ e ∈ es, e.Scoped s.next) → Comp (B.splitOutputs es) s fun bs s' =>
      s'.D = s.D ∧ Digits s' bs (evals s.W es)
  | [], _, h, _ => absurd rfl h
  | [e], s, _, h => by
    unfold B.splitOutputs
    refine (Comp.split h4 (h e (by simp))).bind fun X s1 l1 ⟨a1, a2, a3, a4, a5⟩ => Comp.pure ?_
    exact ⟨a1, .cons ⟨a2, a3, a4, a5⟩ .nil⟩
  | e :: e' :: rest, s, _, h => by
    unfold B.splitOutputs
    refine (Comp.splitAllowingAmbiguity (h e (by simp))).bind
      fun X s1 l1 ⟨a1, a2, a3, a4, a5⟩ => ?_
    refine (splitOutputs h4 (es := e' :: rest) (s := s1) (by simp)
      fun x hx => l1.scoped (h x (List.mem_cons_of_mem _ hx))).bind
      fun bs s2 l2 ⟨b1, b2⟩ => Comp.pure ⟨by rw [b1, a1], ?_⟩
    rw [l1.evals fun x hx => h x (List.mem_cons_of_mem _ hx)] at b2
    exact .cons ⟨l2.nscoped a2, l2.allBool a2 a3, a4, by rw [l2.val a2, a5]⟩ b2

theorem assertLeBinary (h4 : 4 ≤ Elem.maxBits p) {s : Hon p} {x y : BinaryExpression p}
    (hx : x.Scoped s.next) (hy : y.Scoped s.next) (hxb : x.AllBool s.W) (hyb : y.AllBool s.W)
    (hxl : x.len = Elem.maxBits p) (hyl : y.len = Elem.maxBits p)
    (hlt : x.val s.W ≤ y.val s.W) :
    Comp (B.assertLeBinary x y) s fun _ s' => s'.D = s.D := by
  unfold B.assertLeBinary B.leBinary
  refine assertOfHolds ((Comp.cmpBinary (two_lt_of_maxBits h4) hx hy hxb hyb (by omega) (by omega)
    (by rw [hxl]; exact cmpChunkBits_self h4) true false).mono
    fun r s' _ ⟨h1, h2, h3⟩ => ⟨h1, h2, ?_⟩)
  rw [h3, ofBool_ne, cmpHolds_iff]
  simp
  omega

theorem assertAscending (h4 : 4 ≤ Elem.maxBits p) : ∀ {bs : List (BinaryExpression p)}
    {xs : List (Elem p)} {s : Hon p}, Digits s bs xs → xs.Pairwise (fun x y => x.n ≤ y.n) →
    Comp (B.assertAscending bs) s fun _ s' => s'.D = s.D
  | [], _, _, _, _ => Comp.pure rfl
  | [_], _, _, _, _ => Comp.pure rfl
  | x :: y :: rest, xs, s, h, hs => by
    unfold B.assertAscending
    obtain _ | ⟨⟨x1, x2, x3, x4⟩, hr⟩ := h
    obtain _ | ⟨⟨y1, y2, y3, y4⟩, hr'⟩ := hr
    rw [List.pairwise_cons] at hs
    refine (Comp.assertLeBinary h4 x1 y1 x2 y2 x3 y3 ?_).bind fun _ s1 l1 D1 => ?_
    · rw [x4, y4]; exact hs.1 _ (by simp)
    · exact (assertAscending h4 (Digits.le l1 (.cons ⟨y1, y2, y3, y4⟩ hr')) hs.2).mono
        fun _ s2 _ D2 => by rw [D2, D1]

theorem sortAscendingScoped (h4 : 4 ≤ Elem.maxBits p) {s : Hon p} {a : List (Expression p)}
    (hne : a ≠ []) (ha : ∀ e ∈ a, e.Scoped s.next) :
    Comp (B.sortAscending a) s fun r s' => s'.D = s.D ∧
      evals s'.W r = (evals s.W a).mergeSort leB ∧ ∀ e ∈ r, e.Scoped s'.next := by
  unfold B.sortAscending
  have hperm := List.mergeSort_perm (evals s.W a) leB
  refine (Comp.wires a.length s ((evals s.W a).mergeSort leB) (by simp)).bind
    fun ws s1 l1 ⟨e1, n1, D1, v1⟩ => ?_
  have hws : ∀ i ∈ ws, s.next ≤ i ∧ i < s1.next := by
    intro i hi
    rw [e1, List.mem_range'_1] at hi
    omega
  have ho : ∀ e ∈ ws.map (Expression.ofWire (p := p)), e.Scoped s1.next := by
    intro e he
    obtain ⟨i, hi, rfl⟩ := List.mem_map.1 he
    exact .ofWire (hws i hi).2
  have hev : ∀ w : Assign p, evals w (ws.map Expression.ofWire) = ws.map w := by
    intro w
    rw [evals, List.map_map]
    apply List.map_congr_left
    intro i _
    exact Expression.eval_ofWire _ _
  have hlen : ws.length = a.length := by rw [e1]; simp
  refine (Comp.assertPermutation (fun e he => l1.scoped (ha e he)) ho ?_).bind
    fun _ s2 l2 D2 => ?_
  · rw [l1.evals ha, hev, v1]; exact hperm.symm
  refine (Comp.splitOutputs h4 (by
    intro h0
    have := congrArg List.length h0
    simp [hlen] at this
    exact hne this) fun e he => l2.scoped (ho e he)).bind fun bs s3 l3 ⟨D3, h3⟩ => ?_
  rw [l2.evals ho, hev, v1] at h3
  refine (Comp.assertAscending h4 h3 (sorted_mergeSort _)).bind fun _ s4 l4 D4 => ?_
  have l14 := (l2.trans l3).trans l4
  have hW : ws.map s4.W = (evals s.W a).mergeSort leB := by
    rw [← v1]
    apply List.map_congr_left
    intro i hi
    exact l14.2 i (hws i hi).2
  refine (Comp.generator ws s.D ?_ ?_ ?_).bind fun _ s5 l5 ⟨n5, D5, W5⟩ => Comp.pure ⟨D5, ?_,
    fun e he => ((l14.trans l5).scoped (ho e he))⟩
  · rw [D4, D3, D2, D1]
    exact List.Perm.append_right _ (List.reverse_perm _)
  · refine GenOK.setAll (by rw [e1]; exact List.nodup_range') fun v hin => ?_
    unfold B.sortGen
    rw [mapM_evaluate (w := s4.W) hin, (l1.trans l14).evals ha]
    dsimp only [Option.bind_eq_bind, Option.bind_some]
    rw [setItems_eq _ _ _ (by simp [hlen])]
    congr 1
    change ws.zip ((evals s.W a).mergeSort leB) = _
    rw [← hW]
    apply List.ext_getElem (by simp)
    intro i h5 h6
    simp
  · intro i hi
    obtain ⟨e, he, hie⟩ := List.mem_flatMap.1 hi
    have := ha e he i hie
    have := (l1.trans l14).1
    refine ⟨by omega, fun o ho => ?_⟩
    have := (hws o ho).1
    omega
  · rw [hev, W5, hW]

theorem sortAscending (h4 : 4 ≤ Elem.maxBits p) {s : Hon p} {a : List (Expression p)}
    (hne : a ≠ []) (ha : ∀ e ∈ a, e.Scoped s.next) :
    Comp (B.sortAscending a) s fun r s' => s'.D = s.D ∧
      evals s'.W r = (evals s.W a).mergeSort leB :=
  (sortAscendingScoped h4 hne ha).mono fun _ _ _ h => ⟨h.1, h.2.1⟩

end Comp

/-! ## Forging -/

namespace Can

theorem assertAscending (h4 : 4 ≤ Elem.maxBits p) : ∀ {bs : List (BinaryExpression p)}
    {s : Wit p}, (∀ e ∈ bs, e.Scoped s.next ∧ e.AllBool s.W ∧ e.len = Elem.maxBits p) →
    Can (B.assertAscending bs) s fun _ _ => True
  | [], _, _ => Can.pure trivial
  | [_], _, _ => Can.pure trivial
  | x :: y :: rest, s, h => by
    unfold B.assertAscending
    obtain ⟨x1, x2, x3⟩ := h x (by simp)
    obtain ⟨y1, y2, y3⟩ := h y (by simp)
    have hle : Can (B.assertLeBinary x y) s fun _ _ => True :=
      (Can.cmpBinary_zero (two_lt_of_maxBits h4) x1 y1 x2 y2 (by omega) (by omega)
        (by rw [x3]; exact cmpChunkBits_self h4) true false).bind fun r s1 _ ⟨h1, h2⟩ =>
        (Can.assertTrue h1 (by rw [h2]; rfl)).mono fun _ _ _ _ => trivial
    refine hle.bind fun _ s1 l1 _ => assertAscending h4 fun e he => ?_
    obtain ⟨e1, e2, e3⟩ := h e (List.mem_cons_of_mem _ he)
    exact ⟨e1.mono l1.1, Wit.Le.allBool l1 e1 e2, e3⟩

theorem sortAscending (h4 : 4 ≤ Elem.maxBits p) {s : Wit p} {a : List (Expression p)}
    (hne : a ≠ []) (ha : ∀ e ∈ a, e.Scoped s.next) {ys : List (Elem p)}
    (hy : (evals s.W a).Perm ys) :
    Can (B.sortAscending a) s fun r s' => evals s'.W r = ys := by
  unfold B.sortAscending
  refine (Can.ofComp (Prog.wires _) (Comp.wires a.length s.toHon ys
    (by rw [← hy.length_eq]; simp))).bind fun ws s1 l1 ⟨t1, tn1, tW1, e1, n1, _, v1⟩ => ?_
  have n1' : s1.next = s.next + a.length := by rw [← tn1, n1]; rfl
  have e1' : ws = List.range' s.next a.length := e1
  rw [tW1] at v1
  have hws : ∀ i ∈ ws, s.next ≤ i ∧ i < s1.next := by
    intro i hi
    rw [e1', List.mem_range'_1] at hi
    omega
  have ho : ∀ e ∈ ws.map (Expression.ofWire (p := p)), e.Scoped s1.next := by
    intro e he
    obtain ⟨i, hi, rfl⟩ := List.mem_map.1 he
    exact .ofWire (hws i hi).2
  have hev : ∀ w : Assign p, evals w (ws.map Expression.ofWire) = ws.map w := by
    intro w
    rw [evals, List.map_map]
    apply List.map_congr_left
    intro i _
    exact Expression.eval_ofWire _ _
  have hlen : ws.length = a.length := by rw [e1']; simp
  have hea : evals s1.W a = evals s.W a := List.map_congr_left fun e he => l1.eval (ha e he)
  refine (Can.ofComp (Prog.assertPermutation _ _) (Comp.assertPermutation (s := s1.toHon)
    (fun e he => l1.scoped (ha e he)) ho ?_)).bind fun _ s2 l2 _ => ?_
  · change (evals s1.W a).Perm (evals s1.W _)
    rw [hea, hev, v1]; exact hy
  refine (Can.ofComp (Prog.splitOutputs _) (Comp.splitOutputs (s := s2.toHon) h4 (by
    intro h0
    have := congrArg List.length h0
    simp [hlen] at this
    exact hne this) fun e he => l2.scoped (ho e he))).bind
    fun bs s3 l3 ⟨t3, tn3, tW3, _, h3⟩ => ?_
  refine (Can.assertAscending h4 (bs := bs) ?_).bind fun _ s4 l4 _ => ?_
  · intro e he
    obtain ⟨i, hi, rfl⟩ := List.getElem_of_mem he
    have hi' := hi
    rw [List.Forall₂.length_eq h3] at hi'
    have := (List.forall₂_iff_get.1 h3).2 i hi hi'
    rw [tn3, tW3] at this
    exact ⟨this.1, this.2.1, this.2.2.1⟩
  refine (Can.generator _ _).bind fun _ s5 l5 ⟨n5, W5⟩ => Can.pure ?_
  rw [hev, W5, ← v1]
  apply List.map_congr_left
  intro i hi
  exact ((l2.trans l3).trans l4).2 i (hws i hi).2

end Can

end R1CS
