import Verif.Lemmas.Words
import Verif.Lemmas.Returns
import Verif.Lemmas.Plan
import Verif.Spec.Words

/-!
# Calculating with machine words: whole networks, sorting, numbers of rounds
-/

namespace R1CS

namespace Machine

variable {M : Machine} {p : ℕ} [hp : Fact p.Prime]

theorem switchLayer_length0 : ∀ (k : ℕ) (xs : List (Expression p)) {b b' : Builder p}
    {r : List BooleanWire × List (Expression p) × List (Expression p)},
    B.switchLayer k xs b = some (r, b') → r.1.length = k
  | 0, xs, b, b', r, h => by
    unfold B.switchLayer at h
    obtain ⟨rfl, _⟩ := Prod.ext_iff.1 (Option.some.inj h)
    simp
  | k + 1, [], b, b', r, h => by cases h
  | k + 1, [x], b, b', r, h => by cases h
  | k + 1, x :: y :: rest, b, b', r, h => by
    unfold B.switchLayer at h
    obtain ⟨q, b1, _, h⟩ := B.bind_run h
    obtain ⟨qs, b2, h2, h⟩ := B.bind_run h
    obtain ⟨rfl, _⟩ := Prod.ext_iff.1 (Option.some.inj h)
    simp [switchLayer_length0 k rest h2]

theorem mapM_length {α β : Type} {f : α → Option β} : ∀ {l : List α} {r : List β},
    l.mapM f = some r → r.length = l.length
  | [], r, h => by
    obtain rfl := Option.some.inj h
    rfl
  | x :: l, r, h => by
    rw [List.mapM_cons] at h
    obtain ⟨y, -, h⟩ := Option.bind_eq_some_iff.1 h
    obtain ⟨ys, h2, h⟩ := Option.bind_eq_some_iff.1 h
    obtain rfl := Option.some.inj h
    simp [mapM_length h2]

theorem routeGen_eq {a b : List (Expression p)} {sa sb : List BooleanWire} (ha : 2 ≤ a.length)
    (h1 : 4 * sa.length < 2 ^ M.bits) (h2 : 4 * sb.length < 2 ^ M.bits) :
    M.routeGen a b sa sb = B.routeGen a b sa sb := by
  funext v
  unfold Machine.routeGen B.routeGen
  cases h : a.mapM fun e => e.evaluate v with
  | none => rfl
  | some va =>
    simp only [Option.bind_eq_bind, Option.bind_some]
    cases b.mapM fun e => e.evaluate v with
    | none => rfl
    | some vb =>
      simp only [Option.bind_some]
      exact route_eq (by rw [mapM_length h]; exact ha) h1 h2 v

theorem assertPermutationFuel_eq : ∀ (fuel : ℕ) (a b : List (Expression p)),
    4 * a.length < 2 ^ M.bits → M.assertPermutationFuel fuel a b = B.assertPermutationFuel fuel a b
  | 0, a, b, h => rfl
  | fuel + 1, a, b, h => by
    by_cases h3 : 3 ≤ a.length
    · rw [Machine.assertPermutationFuel.eq_def, B.assertPermutationFuel.eq_def]
      dsimp only
      refine bind_congr fun _ => ?_
      match a, h3, h with
      | x :: y :: z :: l, h3, h =>
        dsimp only
        generalize x :: y :: z :: l = A at h3 h ⊢
        rw [rem_two, ofOption_bind, div_two, ofOption_bind]
        have hsub : (if A.length % 2 = 0 then M.sub (A.length / 2) 1 else some (A.length / 2)) =
            some (if A.length % 2 = 0 then A.length / 2 - 1 else A.length / 2) := by
          split
          · exact sub_of_le (by omega)
          · rfl
        rw [hsub, ofOption_bind, switchLayer_zero _ (by omega), switchLayer_zero _ (by split <;> omega)]
        funext s
        refine Loop.bind_congr_run fun ra s1 hra => Loop.bind_congr_run fun rb s2 hrb => ?_
        have l0 := switchLayer_length0 _ _ hra
        have l1 := Loop.switchLayer_length1 _ _ hra
        have l2 := Insists.switchLayer_length _ _ hra
        have k0 := switchLayer_length0 _ _ hrb
        obtain ⟨sa, c1, c2⟩ := ra
        obtain ⟨sb, d1, d2⟩ := rb
        dsimp only at l0 l1 l2 k0 ⊢
        have hsb : sb.length ≤ A.length := by
          rw [k0]; split <;> omega
        rw [routeGen_eq (by omega) (by omega) (by omega)]
        rw [sub_of_le (show 2 ≤ A.length by omega), sub_of_le (show 1 ≤ A.length by omega)]
        have ih : ∀ c d : List (Expression p), c.length ≤ A.length →
            M.assertPermutationFuel fuel c d = B.assertPermutationFuel fuel c d := fun c d hc =>
          assertPermutationFuel_eq fuel c d (by omega)
        have ih1 : ∀ d, M.assertPermutationFuel fuel c1 d = B.assertPermutationFuel fuel c1 d :=
          fun d => ih c1 d (by omega)
        have ih2 : ∀ d, M.assertPermutationFuel fuel c2 d = B.assertPermutationFuel fuel c2 d :=
          fun d => ih c2 d (by omega)
        have ih3 : ∀ e d, M.assertPermutationFuel fuel (c2 ++ [e]) d =
            B.assertPermutationFuel fuel (c2 ++ [e]) d := fun e d =>
          ih _ d (by rw [List.length_append, List.length_singleton]; omega)
        simp only [ofOption_bind, ih1, ih2, ih3]
    · rw [Machine.assertPermutationFuel.eq_def, B.assertPermutationFuel.eq_def]
      dsimp only
      funext s
      refine Loop.bind_congr_run fun _ s1 hr => ?_
      have hl : a.length = b.length := by
        by_contra hc
        unfold B.require at hr
        rw [if_neg hc] at hr
        cases hr
      match a, b, h3, hl with
      | [], _, _, _ => rfl
      | [x], [y], _, _ => rfl
      | [x, y], [z, w], _, _ => rfl
      | x :: y :: z :: l, _, h3, _ => exact absurd (by simp) h3

theorem assertPermutation_eq (a b : List (Expression p)) (h : 4 * a.length < 2 ^ M.bits) :
    M.assertPermutation a b = B.assertPermutation a b := assertPermutationFuel_eq _ a b h

/-! ## Sorting -/

theorem splitOutputs_eq : ∀ (es : List (Expression p)), es ≠ [] → B.splitOutputs es =
    splitFirst (es.take (es.length - 1)) >>= fun firsts => B.ofOption es[es.length - 1]? >>= fun e =>
      B.split e >>= fun x => pure (firsts ++ [x])
  | [], h => absurd rfl h
  | [e], _ => by
    unfold B.splitOutputs
    simp [splitFirst, ofOption_bind]
  | e :: e' :: rest, _ => by
    have ih := splitOutputs_eq (e' :: rest) (by simp)
    unfold B.splitOutputs
    rw [ih]
    simp only [List.length_cons, Nat.add_sub_cancel, List.take_succ_cons, splitFirst, bind_assoc,
      pure_bind, List.getElem?_cons_succ]
    rfl

theorem assertAscending_eq (xs : List (BinaryExpression p)) (h : xs.length < 2 ^ M.bits) :
    ∀ left i, left = xs.length - 1 - i → i < xs.length →
      M.assertAscending xs left i = B.assertAscending (xs.drop i)
  | 0, i, hl, hi => by
    rw [List.drop_eq_getElem_cons hi, List.drop_eq_nil_of_le (by omega)]
    rfl
  | left + 1, i, hl, hi => by
    have h1 : i + 1 < xs.length := by omega
    unfold Machine.assertAscending
    rw [List.getElem?_eq_getElem hi, ofOption_bind, add_of_lt (by omega), ofOption_bind,
      List.getElem?_eq_getElem h1, ofOption_bind, assertAscending_eq xs h left (i + 1) (by omega) h1,
      List.drop_eq_getElem_cons hi, List.drop_eq_getElem_cons h1]
    conv_rhs => unfold B.assertAscending

theorem splitFirst_length : ∀ (es : List (Expression p)) {b b' : Builder p}
    {r : List (BinaryExpression p)}, splitFirst es b = some (r, b') → r.length = es.length
  | [], b, b', r, h => by
    unfold splitFirst at h
    obtain ⟨rfl, _⟩ := Prod.ext_iff.1 (Option.some.inj h)
    simp
  | e :: es, b, b', r, h => by
    unfold splitFirst at h
    obtain ⟨x, b1, _, h⟩ := B.bind_run h
    obtain ⟨xs, b2, h2, h⟩ := B.bind_run h
    obtain ⟨rfl, _⟩ := Prod.ext_iff.1 (Option.some.inj h)
    simp [splitFirst_length es h2]

theorem wires_length : ∀ (n : ℕ) {b b' : Builder p} {r : List Wire},
    B.wires n b = some (r, b') → r.length = n
  | 0, b, b', r, h => by
    unfold B.wires at h
    obtain ⟨rfl, _⟩ := Prod.ext_iff.1 (Option.some.inj h)
    simp
  | n + 1, b, b', r, h => by
    unfold B.wires at h
    obtain ⟨x, b1, _, h⟩ := B.bind_run h
    obtain ⟨xs, b2, h2, h⟩ := B.bind_run h
    obtain ⟨rfl, _⟩ := Prod.ext_iff.1 (Option.some.inj h)
    simp [wires_length n h2]

theorem sortAscending_eq (es : List (Expression p)) (h : 4 * es.length < 2 ^ M.bits) :
    M.sortAscending es = B.sortAscending es := by
  unfold Machine.sortAscending B.sortAscending
  funext s
  refine Loop.bind_congr_run fun ws s1 hw => ?_
  have hl := wires_length _ hw
  rw [assertPermutation_eq _ _ h]
  refine Loop.bind_congr_run fun _ s2 _ => ?_
  by_cases h0 : es.length = 0
  · have : ws = [] := List.length_eq_zero_iff.1 (hl.trans h0)
    subst this
    rw [h0]
    have e : ∀ k, ([] : List (Expression p))[k]? = none := fun k => List.getElem?_nil
    unfold B.splitOutputs
    simp only [List.map_nil, List.take_nil, splitFirst, pure_bind, e, ofOption_none, panic_bind]
    cases M.sub 0 1 <;> rfl
  · rw [splitOutputs_eq _ (by rw [ne_eq, List.map_eq_nil_iff, ← List.length_eq_zero_iff]; omega)]
    rw [sub_of_le (show 1 ≤ es.length by omega)]
    simp only [ofOption_bind, bind_assoc, pure_bind, List.length_map, hl]
    refine Loop.bind_congr_run fun firsts s3 hf => Loop.bind_congr_run fun e s4 _ =>
      Loop.bind_congr_run fun x s5 _ => ?_
    have hf' := splitFirst_length _ hf
    rw [List.length_take, List.length_map, hl] at hf'
    have hx : (firsts ++ [x]).length = es.length := by
      rw [List.length_append, List.length_singleton]; omega
    rw [assertAscending_eq (firsts ++ [x]) (by omega) _ 0 (by omega) (by omega), List.drop_zero]

/-! ## Numbers of rounds -/

theorem rescueRounds_zero (s : ℕ) : M.rescueRounds s 0 = none := by
  unfold Machine.rescueRounds Machine.integerDivisionCeil
  have h : M.mul 4 0 = some 0 := if_pos (by positivity)
  rw [h]
  simp only [Option.bind_eq_bind, Option.bind_some]
  cases M.add s 0 with
  | none => rfl
  | some t =>
    simp only [Option.bind_some]
    cases M.sub t 1 <;> rfl

theorem rescueRounds_eq {s w : ℕ} (h : s + 4 * w < 2 ^ M.bits) :
    M.rescueRounds s w = Rescue.secureNumRounds s w := by
  by_cases hw : w = 0
  · subst hw
    rw [rescueRounds_zero]
    rfl
  · have h1 : (s + 4 * w - 1) / (4 * w) * 2 ≤ s + 4 * w - 1 :=
      (Nat.mul_le_mul_left _ (by omega : 2 ≤ 4 * w)).trans (Nat.div_mul_le_self _ _)
    unfold Machine.rescueRounds Rescue.secureNumRounds Machine.integerDivisionCeil
      Rescue.integerDivisionCeil
    rw [mul_of_lt (by omega), if_neg (by omega)]
    simp only [Option.bind_eq_bind, Option.bind_some]
    rw [add_of_lt h, Option.bind_some, sub_of_le (by omega), Option.bind_some,
      div_of_pos (by omega), Option.bind_some, mul_of_lt (by omega), Option.bind_some]

theorem poseidonRounds_eq (f : Poseidon p) : ∀ (left round : ℕ) (es : List (Expression p)),
    M.poseidonRounds f (f.full + f.partial_) (f.full / 2) round left es = f.rounds round left es
  | 0, round, es => rfl
  | left + 1, round, es => by
    unfold Machine.poseidonRounds Poseidon.rounds
    dsimp only
    rw [sub_of_le (by omega)]
    by_cases h : round < f.full / 2
    · rw [if_pos h, if_pos (Or.inl h), ofOption_bind]
      simp only [poseidonRounds_eq f left]
      rfl
    · rw [if_neg h]
      simp only [Option.bind_eq_bind, Option.bind_some, Option.pure_def, ofOption_bind,
        poseidonRounds_eq f left, decide_eq_true_eq, h, false_or]

theorem poseidonPermute_eq (f : Poseidon p) (es : List (Expression p))
    (h : f.full + f.partial_ < 2 ^ M.bits) : M.poseidonPermute f es = f.permute es := by
  unfold Machine.poseidonPermute Poseidon.permute
  rw [add_of_lt h]
  simp only [ofOption_bind, rem_two, div_two, poseidonRounds_eq]

section Search

variable {s : PoseidonSbox} {w f r bits : ℕ}

theorem weightedRounds_eq (hw : 0 < w) (h : w * f + r < 2 ^ M.bits) :
    M.weightedRounds w f r = some ((w - 1) * f + r) := by
  unfold Machine.weightedRounds
  have h1 : (w - 1) * f ≤ w * f := Nat.mul_le_mul_right f (by omega)
  rw [sub_of_le (by omega)]
  simp only [Option.bind_eq_bind, Option.bind_some]
  rw [mul_of_lt (by omega), Option.bind_some, add_of_lt (by omega)]

theorem isAttackable_eq (hw : 0 < w) (h : w * f + r < 2 ^ M.bits) :
    M.isAttackable p s w f r bits = Poseidon.isAttackable p s w f r bits := by
  have h1 : f ≤ w * f := Nat.le_mul_of_pos_left f hw
  have e := weightedRounds_eq (M := M) hw h
  have e' : M.add f r = some (f + r) := add_of_lt (by omega)
  have hw' : w ≠ 0 := by omega
  cases s with
  | exponentiation3 =>
    show M.isAttackable3 p w f r bits = Poseidon.isAttackable3 p w f r bits
    unfold Machine.isAttackable3 Poseidon.isAttackable3
    dsimp only
    rw [e, e', if_neg hw']
    rfl
  | exponentiation5 =>
    show M.isAttackable5 p w f r bits = Poseidon.isAttackable5 p w f r bits
    unfold Machine.isAttackable5 Poseidon.isAttackable5
    dsimp only
    rw [e, e', if_neg hw']
    rfl
  | inverse =>
    show M.isAttackableInverse p w f r bits = Poseidon.isAttackableInverse p w f r bits
    unfold Machine.isAttackableInverse Poseidon.isAttackableInverse
    dsimp only
    rw [e, if_neg hw']
    rfl

theorem partialLoop_eq (hw : 0 < w) : ∀ n r, w * f + (r + n) < 2 ^ M.bits →
    M.partialLoop p s w f bits n r = Poseidon.partialLoop p s w f bits n r
  | 0, r, _ => rfl
  | n + 1, r, h => by
    unfold Machine.partialLoop Poseidon.partialLoop
    rw [isAttackable_eq hw (by omega), add_of_lt (by omega)]
    simp only [Option.bind_eq_bind, Option.bind_some, partialLoop_eq hw n (r + 1) (by omega)]

theorem partialLoop_lt : ∀ n r {t}, Poseidon.partialLoop p s w f bits n r = some t → t < r + n
  | 0, r, t, h => by cases h
  | n + 1, r, t, h => by
    unfold Poseidon.partialLoop at h
    obtain ⟨a, -, h⟩ := Option.bind_eq_some_iff.1 h
    split at h
    · have := partialLoop_lt n (r + 1) h
      omega
    · obtain rfl := Option.some.inj h
      omega

theorem securePartialRounds_eq (hw : 0 < w) (h : w * f + (bits + w + 3) < 2 ^ M.bits) :
    M.securePartialRounds p s w f bits = Poseidon.securePartialRounds p s w f bits :=
  partialLoop_eq hw _ _ (by omega)

theorem securePartialRounds_lt {t : ℕ} (h : Poseidon.securePartialRounds p s w f bits = some t) :
    t < bits + w + 3 := by
  have := partialLoop_lt _ _ h
  omega

theorem numSboxes_eq (h : w * f + r < 2 ^ M.bits) :
    M.numSboxes w f r = some (Poseidon.numSboxes w f r) := by
  unfold Machine.numSboxes Poseidon.numSboxes
  rw [Nat.mul_comm w f] at h
  rw [mul_of_lt (by omega)]
  exact add_of_lt h

theorem roundsLoop_eq (hw : 0 < w) : ∀ n f best sb,
    w * (f + 2 * n) + (bits + w + 3) < 2 ^ M.bits →
    M.roundsLoop p s w bits n f best sb = Poseidon.roundsLoop p s w bits n f best sb
  | 0, f, best, sb, _ => rfl
  | n + 1, f, best, sb, h => by
    unfold Machine.roundsLoop Poseidon.roundsLoop
    have h1 : f + 2 ≤ w * (f + 2) := Nat.le_mul_of_pos_left _ hw
    have h2 : w * (f + 2) ≤ w * (f + 2 * (n + 1)) := Nat.mul_le_mul_left w (by omega)
    have h3 : w * (f + 2 * (n + 1)) = w * (f + 2 + 2 * n) := by congr 1; omega
    rw [add_of_lt (by omega)]
    simp only [Option.bind_eq_bind, Option.bind_some]
    rw [securePartialRounds_eq hw (by omega)]
    cases hr : Poseidon.securePartialRounds p s w (f + 2) bits with
    | none => rfl
    | some r =>
      have := securePartialRounds_lt hr
      simp only [Option.bind_some]
      rw [numSboxes_eq (by omega), Option.bind_some, roundsLoop_eq hw n _ _ _ (by omega)]

theorem secureRoundsUnpadded_eq (hw : 0 < w)
    (h : w * (6 + 2 * (bits + w + 3)) + (bits + w + 3) < 2 ^ M.bits) :
    M.secureRoundsUnpadded p s w bits = Poseidon.secureRoundsUnpadded p s w bits := by
  unfold Machine.secureRoundsUnpadded Poseidon.secureRoundsUnpadded
  have h2 : w * 6 ≤ w * (6 + 2 * (bits + w + 3)) := Nat.mul_le_mul_left w (by omega)
  dsimp only
  rw [securePartialRounds_eq hw (by omega)]
  cases hr : Poseidon.securePartialRounds p s w 6 bits with
  | none => rfl
  | some r =>
    have := securePartialRounds_lt hr
    simp only [Option.bind_eq_bind, Option.bind_some]
    rw [numSboxes_eq (by omega), Option.bind_some, roundsLoop_eq hw _ _ _ _ h]

theorem roundsLoop_le : ∀ n f best sb {t : ℕ × ℕ}, best.1 ≤ f + 2 * n → best.2 < bits + w + 3 →
    Poseidon.roundsLoop p s w bits n f best sb = some t → t.1 ≤ f + 2 * n ∧ t.2 < bits + w + 3
  | 0, f, best, sb, t, _, _, h => by cases h
  | n + 1, f, best, sb, t, h1, h2, h => by
    unfold Poseidon.roundsLoop at h
    obtain ⟨r, hr, h⟩ := Option.bind_eq_some_iff.1 h
    dsimp only at h
    split at h
    · obtain rfl := Option.some.inj h
      exact ⟨h1, h2⟩
    · have := roundsLoop_le n _ _ _ (by dsimp only; omega) (securePartialRounds_lt hr) h
      omega

theorem secureRoundsPadded_eq (hw : 0 < w)
    (h : w * (6 + 2 * (bits + w + 3)) + 2 * (bits + w + 3) < 2 ^ M.bits) :
    M.secureRoundsPadded p s w bits = Poseidon.secureRoundsPadded p s w bits := by
  unfold Machine.secureRoundsPadded Poseidon.secureRoundsPadded
  rw [secureRoundsUnpadded_eq hw (by omega)]
  cases hr : Poseidon.secureRoundsUnpadded p s w bits with
  | none => rfl
  | some t =>
    obtain ⟨f, r⟩ := t
    have hb : f ≤ 6 + 2 * (bits + w + 3) ∧ r < bits + w + 3 := by
      unfold Poseidon.secureRoundsUnpadded at hr
      dsimp only at hr
      obtain ⟨r0, h0, hr⟩ := Option.bind_eq_some_iff.1 hr
      exact roundsLoop_le _ _ _ _ (by dsimp only; omega) (securePartialRounds_lt h0) hr
    have h6 : 6 + 2 * (bits + w + 3) ≤ w * (6 + 2 * (bits + w + 3)) := Nat.le_mul_of_pos_left _ hw
    simp only [Option.bind_eq_bind, Option.bind_some]
    rw [add_of_lt (by omega), Option.bind_some, min_eq_left]
    refine Nat.le_sub_one_of_lt ((Nat.floor_lt (by positivity)).2 ?_)
    have h7 : (r : ℝ) + 1 ≤ (bits + w + 3 : ℕ) := by exact_mod_cast hb.2
    have h8 : (2 * (bits + w + 3 : ℕ) : ℝ) < (2 ^ M.bits : ℕ) := by
      exact_mod_cast (by omega : 2 * (bits + w + 3) < 2 ^ M.bits)
    have h9 : (0 : ℝ) ≤ r := Nat.cast_nonneg r
    linarith

end Search

/-! ## The counter of wires -/

section Wires

variable {α : Type} {m m' : B p α} {c : Bool}

omit hp in
theorem wire_of_lt {b : Builder p} (h : b.nextWireIndex + 1 < 2 ^ 32) :
    Machine.wire c b = B.wire b := by
  unfold Machine.wire
  rw [add_of_lt (M := ⟨32, c⟩) h]
  rfl

theorem _root_.R1CS.Same32.mono (h : Same32 c m m') : ∀ {b b' : Builder p} {a : α}, m b = some (a, b') →
    b.nextWireIndex ≤ b'.nextWireIndex := by
  induction h with
  | pure a =>
    intro b b' x h
    obtain ⟨_, rfl⟩ := Prod.ext_iff.1 (Option.some.inj h)
    exact le_refl _
  | bind _ _ ih1 ih2 =>
    intro b b' x h
    obtain ⟨y, b1, h1, h2⟩ := B.bind_run h
    exact (ih1 h1).trans (ih2 y h2)
  | wire =>
    intro b b' x h
    obtain ⟨_, rfl⟩ := Prod.ext_iff.1 (Option.some.inj h)
    exact Nat.le_succ _
  | assertProduct _ _ _ =>
    intro b b' x h
    obtain ⟨_, rfl⟩ := Prod.ext_iff.1 (Option.some.inj h)
    exact le_refl _
  | generator _ _ _ =>
    intro b b' x h
    obtain ⟨_, rfl⟩ := Prod.ext_iff.1 (Option.some.inj h)
    exact le_refl _
  | panic =>
    intro b b' x h
    cases h

theorem _root_.R1CS.Same32.run (h : Same32 c m m') : ∀ {b b' : Builder p} {a : α}, m b = some (a, b') →
    b'.nextWireIndex < 2 ^ 32 → m' b = some (a, b') := by
  induction h with
  | pure a => exact fun h _ => h
  | @bind α β m m' f f' _ hf ih1 ih2 =>
    intro b b' x h hb
    obtain ⟨y, b1, h1, h2⟩ := B.bind_run h
    have := ih1 h1 (((hf y).mono h2).trans_lt hb)
    show (m' b).bind _ = _
    rw [this]
    exact ih2 y h2 hb
  | wire =>
    intro b b' x h hb
    obtain ⟨_, rfl⟩ := Prod.ext_iff.1 (Option.some.inj h)
    exact (wire_of_lt hb).trans h
  | assertProduct _ _ _ => exact fun h _ => h
  | generator _ _ _ => exact fun h _ => h
  | panic => exact fun h _ => h

theorem _root_.R1CS.Same32.checked (h : Same32 true m m') : ∀ {b b' : Builder p} {a : α},
    b.nextWireIndex < 2 ^ 32 → m' b = some (a, b') →
    m b = some (a, b') ∧ b'.nextWireIndex < 2 ^ 32 := by
  generalize hc : true = c at h
  induction h with
  | pure a =>
    intro b b' x hb h
    obtain ⟨_, rfl⟩ := Prod.ext_iff.1 (Option.some.inj h)
    exact ⟨h, hb⟩
  | @bind α β m m' f f' _ hf ih1 ih2 =>
    intro b b' x hb h
    obtain ⟨y, b1, h1, h2⟩ := B.bind_run h
    obtain ⟨k1, hb1⟩ := ih1 hb h1
    obtain ⟨k2, hb2⟩ := ih2 y hb1 h2
    refine ⟨?_, hb2⟩
    show (m b).bind _ = _
    rw [k1]
    exact k2
  | wire =>
    intro b b' x hb h
    subst hc
    by_cases hn : b.nextWireIndex + 1 < 2 ^ 32
    · rw [wire_of_lt hn] at h
      obtain ⟨_, rfl⟩ := Prod.ext_iff.1 (Option.some.inj h)
      exact ⟨h, hn⟩
    · exfalso
      unfold Machine.wire Machine.add at h
      rw [if_neg hn] at h
      cases h
  | assertProduct _ _ _ =>
    intro b b' x hb h
    obtain ⟨_, rfl⟩ := Prod.ext_iff.1 (Option.some.inj h)
    exact ⟨h, hb⟩
  | generator _ _ _ =>
    intro b b' x hb h
    obtain ⟨_, rfl⟩ := Prod.ext_iff.1 (Option.some.inj h)
    exact ⟨h, hb⟩
  | panic =>
    intro b b' x hb h
    cases h

omit hp in
theorem _root_.R1CS.Prog.same32 (hm : Prog m) (c : Bool) : ∃ m', Same32 c m m' := by
  induction hm with
  | pure a => exact ⟨_, .pure a⟩
  | bind _ _ ih1 ih2 =>
    obtain ⟨m', h1⟩ := ih1
    choose f' h2 using ih2
    exact ⟨_, .bind h1 h2⟩
  | wire => exact ⟨_, .wire⟩
  | assertProduct x y z => exact ⟨_, .assertProduct x y z⟩
  | generator d f hf => exact ⟨_, .generator d f hf⟩
  | panic => exact ⟨_, .panic⟩

end Wires

end Machine

end R1CS
