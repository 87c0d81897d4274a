import Verif.Model.Words
import Verif.Spec.Loops
import Verif.Lemmas.Loops
import Verif.Lemmas.LoopNetwork
import Verif.Lemmas.Bitwise

/-!
# Calculating with machine words

Where no calculation overflows, the functions of `Model/Words.lean` are those of the rest of the model.
-/

namespace R1CS

namespace Machine

variable {M : Machine} {p : ℕ} [hp : Fact p.Prime]

theorem add_of_lt {a b : ℕ} (h : a + b < 2 ^ M.bits) : M.add a b = some (a + b) := if_pos h

theorem sub_of_le {a b : ℕ} (h : b ≤ a) : M.sub a b = some (a - b) := if_pos h

theorem mul_of_lt {a b : ℕ} (h : a * b < 2 ^ M.bits) : M.mul a b = some (a * b) := if_pos h

theorem div_two (a : ℕ) : div a 2 = some (a / 2) := rfl

theorem rem_two (a : ℕ) : rem a 2 = some (a % 2) := rfl

theorem div_of_pos {a b : ℕ} (h : b ≠ 0) : div a b = some (a / b) := if_neg h

theorem rem_of_pos {a b : ℕ} (h : b ≠ 0) : rem a b = some (a % b) := if_neg h

theorem mapM_congr {α β : Type} {f g : α → Option β} : ∀ {l : List α}, (∀ i ∈ l, f i = g i) →
    l.mapM f = l.mapM g
  | [], _ => rfl
  | i :: l, h => by
    rw [List.mapM_cons, List.mapM_cons, h i (by simp), mapM_congr fun j hj => h j (by simp [hj])]

omit hp in
theorem rotateInc_eq (x : BinaryExpression p) (n : ℕ) (h : 2 * x.len ≤ 2 ^ M.bits) :
    M.rotateInc x n = B.rotateInc x n := by
  unfold Machine.rotateInc B.rotateInc
  dsimp only
  rw [mapM_congr (g := fun i => x.bits[(x.len + i - n % x.len) % x.len]?)]
  intro i hi
  have hi' := List.mem_range.1 hi
  have hm := Nat.mod_lt n (show x.len > 0 by omega)
  rw [add_of_lt (by omega), rem_of_pos (by omega)]
  simp only [Option.bind_eq_bind, Option.bind_some]
  rw [sub_of_le (by omega), Option.bind_some, rem_of_pos (by omega), Option.bind_some]

omit hp in
theorem rotateDec_eq (x : BinaryExpression p) (n : ℕ) (h : x.len + n ≤ 2 ^ M.bits) :
    M.rotateDec x n = B.rotateDec x n := by
  unfold Machine.rotateDec B.rotateDec
  dsimp only
  rw [mapM_congr (g := fun i => x.bits[(i + n) % x.len]?)]
  intro i hi
  have hi' := List.mem_range.1 hi
  rw [add_of_lt (by omega)]
  simp only [Option.bind_eq_bind, Option.bind_some]
  rw [rem_of_pos (by omega), Option.bind_some]

theorem shiftInc_eq (x : BinaryExpression p) (n : ℕ) : M.shiftInc x n = B.shiftInc x n := by
  unfold Machine.shiftInc B.shiftInc
  rw [mapM_congr (g := fun i => if i < n then some BooleanExpression.false else x.bits[i - n]?)]
  intro i hi
  split
  · rfl
  · rw [sub_of_le (by omega)]; rfl

theorem shiftDec_eq (x : BinaryExpression p) (n : ℕ) (h : x.len < 2 ^ M.bits) (hn : n < 2 ^ M.bits) :
    M.shiftDec x n = B.shiftDec x n := by
  unfold Machine.shiftDec B.shiftDec
  dsimp only
  by_cases hc : n ≤ x.len
  · rw [mapM_congr (g := fun i => if n ≤ x.len then
      if i < x.len - n then x.bits[i + n]? else some BooleanExpression.false else none)]
    intro i hi
    rw [sub_of_le hc, if_pos hc]
    simp only [Option.bind_eq_bind, Option.bind_some]
    split
    · rw [add_of_lt (by omega)]; rfl
    · rfl
  · by_cases h0 : x.len = 0
    · rw [h0]; rfl
    · rw [mapM_none _ 0 (List.mem_range.2 (by omega)), mapM_none _ 0 (List.mem_range.2 (by omega))]
      · exact if_neg hc
      · unfold Machine.sub
        rw [if_neg hc]
        split
        · rfl
        · simp only [Option.bind_eq_bind, Option.bind_some]
          rw [if_pos (by omega), add_of_lt (by omega), Option.bind_some]
          exact List.getElem?_eq_none (by unfold BinaryExpression.len at *; omega)

theorem indexBits_ends {len : ℕ} (h : 2 * len ≤ 2 ^ M.bits) {k b : ℕ} {o : Option ℕ}
    (hk : Loop.Ends (Loop.indexBitsBody len) k b o) (hb : b < M.bits) :
    Loop.Ends (M.indexBitsBody len) k b o := by
  have key : ∀ b < M.bits, M.indexBitsBody len b = Loop.indexBitsBody len b := by
    intro b hb
    unfold Loop.indexBitsBody Machine.indexBitsBody Machine.shl
    have h1 : 2 ^ b < 2 ^ M.bits := Nat.pow_lt_pow_right (by norm_num) hb
    rw [if_pos hb, Nat.one_shiftLeft, Nat.mod_eq_of_lt h1]
    simp only [Option.bind_eq_bind, Option.bind_some]
    split
    · rw [add_of_lt (by have := Nat.lt_pow_self (n := b) (a := 2) (by norm_num); omega)]; rfl
    · rfl
  induction hk with
  | panics e => exact .panics ((key _ hb).trans e)
  | leaves e => exact .leaves ((key _ hb).trans e)
  | @goesOn s s' n o e _ ih =>
    refine .goesOn ((key _ hb).trans e) (ih ?_)
    unfold Loop.indexBitsBody at e
    split at e
    · rename_i hs
      obtain rfl := Sum.inl.inj (Option.some.inj e)
      rw [Nat.one_shiftLeft] at hs
      have : 2 ^ (s + 1) < 2 ^ M.bits := by rw [Nat.pow_succ]; omega
      exact (Nat.pow_lt_pow_iff_right (by norm_num)).1 this
    · cases Option.some.inj e

omit hp in
theorem ofOption_bind {α β : Type} (a : α) (f : α → B p β) : (B.ofOption (some a) >>= f) = f a := rfl

omit hp in
theorem panic_bind {α β : Type} (f : α → B p β) : ((B.panic : B p α) >>= f) = B.panic := rfl

omit hp in
theorem ofOption_none {α : Type} : (B.ofOption none : B p α) = B.panic := rfl

theorem parentLayer_eq (lsb : BooleanExpression p) (items : List (Expression p))
    (h : items.length + 1 < 2 ^ M.bits) : ∀ (left i : ℕ) (layer : List (Expression p)),
    left = (items.length + 1) / 2 - i →
    M.parentLayer lsb items left i layer =
      B.parentLayer lsb (items.drop (2 * i)) >>= fun r => pure (layer ++ r)
  | 0, i, layer, hl => by
    unfold Machine.parentLayer
    rw [List.drop_eq_nil_of_le (by omega)]
    unfold B.parentLayer
    simp
  | left + 1, i, layer, hl => by
    unfold Machine.parentLayer
    rw [mul_of_lt (by omega), ofOption_bind, ofOption_bind, add_of_lt (by omega), ofOption_bind]
    have h1 : i * 2 < items.length := by omega
    rw [List.getElem?_eq_getElem h1, ofOption_bind]
    have e1 : items.drop (2 * i) = items[i * 2] :: items.drop (i * 2 + 1) := by
      rw [Nat.mul_comm, List.drop_eq_getElem_cons h1]
    by_cases h2 : i * 2 + 1 = items.length
    · rw [if_pos h2, parentLayer_eq lsb items h left (i + 1) _ (by omega), e1,
        List.drop_eq_nil_of_le (by omega), List.drop_eq_nil_of_le (by omega)]
      unfold B.parentLayer
      simp
    · have h3 : i * 2 + 1 < items.length := by omega
      rw [if_neg h2, List.getElem?_eq_getElem h3, ofOption_bind, e1, List.drop_eq_getElem_cons h3]
      conv_rhs => unfold B.parentLayer
      rw [bind_assoc]
      refine bind_congr fun parent => ?_
      rw [parentLayer_eq lsb items h left (i + 1) _ (by omega), bind_assoc]
      have e2 : 2 * (i + 1) = i * 2 + 1 + 1 := by omega
      rw [e2]
      refine bind_congr fun r => ?_
      simp

theorem parentLayer_length (lsb : BooleanExpression p) : ∀ {items : List (Expression p)}
    {b b' : Builder p} {r : List (Expression p)}, B.parentLayer lsb items b = some (r, b') →
    r.length = (items.length + 1) / 2
  | [], b, b', r, h => by
    unfold B.parentLayer at h
    obtain ⟨rfl, _⟩ := Prod.ext_iff.1 (Option.some.inj h)
    simp
  | [x], b, b', r, h => by
    unfold B.parentLayer at h
    obtain ⟨rfl, _⟩ := Prod.ext_iff.1 (Option.some.inj h)
    simp
  | x :: y :: rest, b, b', r, h => by
    unfold B.parentLayer at h
    obtain ⟨q, b1, _, h⟩ := B.bind_run h
    obtain ⟨qs, b2, h2, h⟩ := B.bind_run h
    obtain ⟨rfl, _⟩ := Prod.ext_iff.1 (Option.some.inj h)
    have := parentLayer_length lsb h2
    simp only [List.length_cons, this]
    omega

theorem randomAccessBinary_eq : ∀ (bits : List (BooleanExpression p)) (items : List (Expression p)),
    items.length + 1 < 2 ^ M.bits → M.randomAccessBinary bits items = B.randomAccessBinary bits items
  | [], [], h => rfl
  | [], [x], h => rfl
  | [], x :: y :: rest, h => rfl
  | lsb :: bits, items, h => by
    unfold Machine.randomAccessBinary
    match items, h with
    | [x], _ => rfl
    | [], h =>
      rw [if_neg (by simp), add_of_lt (by omega), ofOption_bind, div_two, ofOption_bind,
        parentLayer_eq lsb _ h _ _ _ (by simp)]
      unfold B.randomAccessBinary
      rw [bind_assoc]
      funext b
      refine Loop.bind_congr_run fun r b1 hr => ?_
      have := parentLayer_length lsb hr
      rw [pure_bind, List.nil_append, randomAccessBinary_eq bits r (by rw [this]; simp at h ⊢; omega)]
    | x :: y :: rest, h =>
      rw [if_neg (by simp), add_of_lt (by omega), ofOption_bind, div_two, ofOption_bind,
        parentLayer_eq lsb _ h _ _ _ (by simp)]
      unfold B.randomAccessBinary
      rw [bind_assoc]
      funext b
      refine Loop.bind_congr_run fun r b1 hr => ?_
      have := parentLayer_length lsb hr
      rw [pure_bind, List.nil_append, randomAccessBinary_eq bits r (by
        rw [this]; simp only [List.drop_zero, Nat.mul_zero]; omega)]

theorem cmpConstraints_eq {o c : ℕ} (hc : 0 < c) (h : 3 * o + c + 2 < 2 ^ M.bits) :
    M.cmpConstraints o c = some (R1CS.cmpConstraints o c) := by
  have h1 : (o + c - 1) / c ≤ o := by
    rw [Nat.div_le_iff_le_mul_add_pred hc]
    have : o ≤ c * o := Nat.le_mul_of_pos_left o hc
    omega
  unfold Machine.cmpConstraints R1CS.cmpConstraints
  rw [add_of_lt (by omega)]
  simp only [Option.bind_eq_bind, Option.bind_some]
  rw [sub_of_le (by omega), Option.bind_some, div_of_pos (by omega), Option.bind_some,
    mul_of_lt (by omega), Option.bind_some, add_of_lt (by omega), Option.bind_some,
    add_of_lt (by omega)]

theorem cmpChunkBitsLoop_eq {o : ℕ} : ∀ (left c best bc : ℕ), 0 < c →
    3 * o + (c + left) + 2 < 2 ^ M.bits →
    M.cmpChunkBitsLoop o left c best bc = some (R1CS.cmpChunkBitsLoop o left c best bc)
  | 0, c, best, bc, _, _ => rfl
  | left + 1, c, best, bc, hc, h => by
    unfold Machine.cmpChunkBitsLoop R1CS.cmpChunkBitsLoop
    rw [cmpConstraints_eq hc (by omega)]
    simp only [Option.bind_eq_bind, Option.bind_some]
    split
    · exact cmpChunkBitsLoop_eq left (c + 1) _ _ (by omega) (by omega)
    · exact cmpChunkBitsLoop_eq left (c + 1) _ _ (by omega) (by omega)

theorem cmpChunkBits_eq {m o : ℕ} (h : 3 * o + m + 4 < 2 ^ M.bits) :
    M.cmpChunkBits m o = some (R1CS.cmpChunkBits m o) := by
  unfold Machine.cmpChunkBits R1CS.cmpChunkBits
  rw [cmpConstraints_eq (by norm_num) (by omega)]
  exact cmpChunkBitsLoop_eq _ _ _ _ (by norm_num) (by omega)

theorem cmpSubtractive_eq (d : Expression p) (less strict : Bool) (bits : ℕ)
    (h : Elem.maxBits p < 2 ^ M.bits) :
    M.cmpSubtractive d less strict bits = B.cmpSubtractive d less strict bits := by
  unfold Machine.cmpSubtractive B.cmpSubtractive
  cases hs : (1 : Elem p).shl bits with
  | none => rfl
  | some pow =>
    have hb : bits < Elem.maxBits p := by
      by_contra hc
      have h1 : p ≤ 2 ^ bits := (Elem.le_two_pow_maxBits (p := p)).trans
        (Nat.pow_le_pow_right (by norm_num) (not_lt.1 hc))
      rw [Elem.shl_eq_none (by rw [Elem.one_n]; omega)] at hs
      cases hs
    rw [ofOption_bind, ofOption_bind]
    dsimp only
    rw [add_of_lt (by omega), ofOption_bind]

/-! ## Networks -/

/-- Both layers of switches are small enough. -/
def Small (M : Machine) (sw : Bool → List BooleanWire) : Prop :=
  ∀ s, 4 * (sw s).length < 2 ^ M.bits

variable {m : BiMap} {sw : Bool → List BooleanWire}

theorem enqueue_eq (hs : M.Small sw) (side : Bool) (i : ℕ) (subnet : Bool) (st : RouteState p) :
    M.enqueueOtherSide m sw side i subnet st = R1CS.enqueueOtherSide m sw side i subnet st := by
  unfold Machine.enqueueOtherSide R1CS.enqueueOtherSide
  cases ho : abMapBySide m side i with
  | none => rfl
  | some o =>
    simp only [Option.bind_eq_bind, Option.bind_some, div_two]
    by_cases hl : o / 2 ≥ (sw !side).length
    · rw [if_pos hl, List.getElem?_eq_none hl]
    · have h := hs !side
      have hl' : o / 2 < (sw !side).length := by omega
      rw [if_neg hl, List.getElem?_eq_getElem hl']
      simp only [Option.bind_some]
      rw [mul_of_lt (by omega), Option.bind_some, add_of_lt (by omega), Option.bind_some,
        sub_of_le (by omega), Option.bind_some]
      rfl

theorem routeSwitch_eq (hs : M.Small sw) (side : Bool) (i : ℕ) (swap : Bool) (st : RouteState p) :
    M.routeSwitch m sw side i swap st = R1CS.routeSwitch m sw side i swap st := by
  unfold Machine.routeSwitch R1CS.routeSwitch
  have h := hs side
  cases hi : (sw side)[i]? with
  | none => rfl
  | some w =>
    obtain ⟨hl, -⟩ := List.getElem?_eq_some_iff.1 hi
    simp only [Option.bind_eq_bind, Option.bind_some]
    cases st.values.setBoolean w swap with
    | none => rfl
    | some v =>
      simp only [Option.bind_some]
      rw [mul_of_lt (by omega), Option.bind_some, add_of_lt (by omega), Option.bind_some,
        enqueue_eq hs]
      simp only [enqueue_eq hs]

theorem routePartial_eq (hs : M.Small sw) (side : Bool) : ∀ (l : List (ℕ × Bool)) (st : RouteState p),
    M.routePartial m sw side l st = R1CS.routePartial m sw side l st
  | [], st => rfl
  | (i, s) :: l, st => by
    unfold Machine.routePartial R1CS.routePartial
    simp only [Option.bind_eq_bind, Option.bind_some, div_two, rem_two, routeSwitch_eq hs,
      routePartial_eq hs side l]

theorem scanSwitches_eq {l : List BooleanWire} (h : 4 * l.length < 2 ^ M.bits) (v : WireValues p) :
    ∀ n i, M.scanSwitches l v n i = some (R1CS.scanSwitches l v n i)
  | 0, i => rfl
  | n + 1, i => by
    unfold Machine.scanSwitches R1CS.scanSwitches
    cases hi : l[i]? with
    | none => rfl
    | some w =>
      obtain ⟨hl, -⟩ := List.getElem?_eq_some_iff.1 hi
      dsimp only
      split
      · rw [add_of_lt (by omega)]
        exact scanSwitches_eq h v n (i + 1)
      · rfl

theorem routeSide_eq (hs : M.Small sw) (side : Bool) (st : RouteState p) :
    M.routeSide m sw side st = R1CS.routeSide m sw side st := by
  unfold Machine.routeSide R1CS.routeSide
  have h := hs side
  rw [scanSwitches_eq (hs side), routePartial_eq hs]
  simp only [Option.bind_eq_bind, Option.bind_some, routeSwitch_eq hs]
  split
  · rfl
  · split
    · rw [add_of_lt (by omega)]
      simp only [Option.bind_some]
    · rfl

theorem routeLoop_eq (hs : M.Small sw) : ∀ (n : ℕ) (st : RouteState p),
    M.routeLoop m sw n st = R1CS.routeLoop m sw n st
  | 0, st => by
    rw [Machine.routeLoop.eq_def, R1CS.routeLoop.eq_def]
  | n + 1, st => by
    rw [Machine.routeLoop.eq_def, R1CS.routeLoop.eq_def]
    simp only [routeSide_eq hs, routeLoop_eq hs n]

theorem route_eq {a b : List (Elem p)} {sa sb : List BooleanWire} (ha : 2 ≤ a.length)
    (h1 : 4 * sa.length < 2 ^ M.bits) (h2 : 4 * sb.length < 2 ^ M.bits) (v : WireValues p) :
    M.route a b sa sb v = R1CS.route a b sa sb v := by
  have hs : M.Small fun side => if side then sb else sa := fun s => by cases s <;> simpa
  unfold Machine.route R1CS.route
  simp only [Option.bind_eq_bind, Option.bind_some, rem_two, enqueue_eq hs, routeLoop_eq hs,
    sub_of_le ha, sub_of_le (show 1 ≤ a.length by omega)]

theorem switchLayer_eq (xs : List (Expression p)) : ∀ (left i : ℕ)
    (made : List BooleanWire × List (Expression p) × List (Expression p)),
    2 * (i + left) < 2 ^ M.bits →
    M.switchLayer xs left i made = B.switchLayer left (xs.drop (2 * i)) >>= fun r =>
      pure (made.1 ++ r.1, made.2.1 ++ r.2.1, made.2.2 ++ r.2.2)
  | 0, i, made, h => by
    unfold Machine.switchLayer B.switchLayer
    simp
  | left + 1, i, made, h => by
    unfold Machine.switchLayer
    rw [mul_of_lt (by omega), ofOption_bind]
    simp only [ofOption_bind, add_of_lt (show i * 2 + 1 < 2 ^ M.bits by omega)]
    by_cases h1 : i * 2 < xs.length
    · have e1 : xs.drop (2 * i) = xs[i * 2] :: xs.drop (i * 2 + 1) := by
        rw [Nat.mul_comm, List.drop_eq_getElem_cons h1]
      rw [List.getElem?_eq_getElem h1, ofOption_bind]
      by_cases h3 : i * 2 + 1 < xs.length
      · rw [List.getElem?_eq_getElem h3, ofOption_bind, e1, List.drop_eq_getElem_cons h3]
        conv_rhs => unfold B.switchLayer
        rw [bind_assoc]
        refine bind_congr fun s => ?_
        rw [switchLayer_eq xs left (i + 1) _ (by omega)]
        dsimp only
        rw [bind_assoc]
        have e2 : 2 * (i + 1) = i * 2 + 1 + 1 := by omega
        rw [e2]
        refine bind_congr fun r => ?_
        simp
      · rw [List.getElem?_eq_none (by omega), ofOption_none, panic_bind, e1,
          List.drop_eq_nil_of_le (by omega)]
        rfl
    · rw [List.getElem?_eq_none (by omega), ofOption_none, panic_bind,
        List.drop_eq_nil_of_le (by omega)]
      rfl

theorem switchLayer_zero (xs : List (Expression p)) {k : ℕ} (h : 2 * k < 2 ^ M.bits) :
    M.switchLayer xs k 0 ([], [], []) = B.switchLayer k xs := by
  rw [switchLayer_eq xs k 0 _ (by omega)]
  simp

end Machine

end R1CS
