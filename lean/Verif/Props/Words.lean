import Verif.Lemmas.WordsMore

/-!
# C103: the integers of the machine

The functions of `Model/Words.lean` calculate with the machine's integers, those of the rest of the model
with natural numbers.  For all lists which fit into memory they agree, with or without overflow checks;
where an argument which is not the length of a list can make a calculation overflow, it is shown when this
happens and what it leads to.  `M.bits` is the number of bits of a `usize`; a vector of expressions or bits
with `n` members takes more than `8 * n` bytes and at most `2 ^ (M.bits - 1)` bytes, so that `16 * n` is
below `2 ^ M.bits`.
-/

namespace R1CS

variable {p : ℕ} [hp : Fact p.Prime]

/-- C103: rotations towards the more significant bits and shifts in both directions never overflow, by
whatever distance. -/
theorem C103_bitwise (M : Machine) (x : BinaryExpression p) {n : ℕ} (h : 2 * x.len ≤ 2 ^ M.bits)
    (hn : n < 2 ^ M.bits) :
    M.rotateInc x n = B.rotateInc x n ∧ M.shiftInc x n = B.shiftInc x n ∧
    M.shiftDec x n = B.shiftDec x n := by
  refine ⟨Machine.rotateInc_eq x n h, Machine.shiftInc_eq x n, Machine.shiftDec_eq x n ?_ hn⟩
  have : 0 < 2 ^ M.bits := by positivity
  omega

example (x : BinaryExpression 7) (h : x.len = 3) :
    Machine.rotateInc ⟨64, false⟩ x (2 ^ 64 - 1) = B.rotateInc x (2 ^ 64 - 1) :=
  (C103_bitwise ⟨64, false⟩ x (by norm_num [h]) (by norm_num)).1

omit hp in
/-- C103: rotations towards the less significant bits calculate `i + n`.  With overflow checks they are
right or panic, and they panic exactly where the last of these sums is too large. -/
theorem C103_rotate_dec (M : Machine) (x : BinaryExpression p) (n : ℕ) :
    (x.len + n ≤ 2 ^ M.bits → M.rotateDec x n = B.rotateDec x n) ∧
    (x.len = 0 → M.rotateDec x n = B.rotateDec x n) ∧
    (M.checks → 0 < x.len → 2 ^ M.bits < x.len + n → M.rotateDec x n = none) := by
  refine ⟨Machine.rotateDec_eq x n, fun h => ?_, fun hc h0 h => ?_⟩
  · unfold Machine.rotateDec B.rotateDec
    rw [h]; rfl
  · unfold Machine.rotateDec
    dsimp only
    rw [mapM_none _ (x.len - 1) (List.mem_range.2 (by omega))]
    · rfl
    · unfold Machine.add
      rw [if_neg (by omega), if_pos hc]
      rfl

/-- The distance `2 ^ 64 - 1` is one too far for three bits. -/
example (x : BinaryExpression 7) (h : x.len = 3) :
    Machine.rotateDec ⟨64, true⟩ x (2 ^ 64 - 1) = none ∧
    Machine.rotateDec ⟨64, true⟩ x (2 ^ 64 - 3) = B.rotateDec x (2 ^ 64 - 3) :=
  ⟨(C103_rotate_dec ⟨64, true⟩ x _).2.2 rfl (by omega) (by norm_num [h]),
    (C103_rotate_dec ⟨64, true⟩ x _).1 (by norm_num [h])⟩

omit hp in
/-- C103: without overflow checks a rotation towards the less significant bits never panics, but it is a
rotation by `n` only if no sum is too large or the number of bits divides `2 ^ M.bits`, i.e. is a power of
two (as long as the bits are different expressions). -/
theorem C103_rotate_dec_unchecked (M : Machine) (hc : M.checks = false) (x : BinaryExpression p) {n : ℕ}
    (hx : x.bits.Nodup) (hl : x.len ≤ 2 ^ M.bits) (hn : n < 2 ^ M.bits) :
    (∃ y, M.rotateDec x n = some y ∧ y.len = x.len) ∧
    (M.rotateDec x n = B.rotateDec x n ↔ x.len + n ≤ 2 ^ M.bits ∨ x.len ∣ 2 ^ M.bits) := by
  have hidx : ∀ k, x.len ≠ 0 → k % x.len < x.bits.length := fun k h =>
    Nat.mod_lt k (Nat.pos_of_ne_zero h)
  have hbody : ∀ i < x.len, (do
      let s ← M.add i n
      let fromIdx ← Machine.rem s x.len
      x.bits[fromIdx]?) = x.bits[(i + n) % 2 ^ M.bits % x.len]? := by
    intro i hi
    unfold Machine.add Machine.rem
    rw [hc]
    simp only [Bool.false_eq_true, if_false, if_neg (show x.len ≠ 0 by omega)]
    split
    · rename_i h
      rw [Nat.mod_eq_of_lt h]; rfl
    · rfl
  have hW : M.rotateDec x n = ((List.range x.len).mapM fun i =>
      x.bits[(i + n) % 2 ^ M.bits % x.len]?).map BinaryExpression.mk := by
    unfold Machine.rotateDec
    dsimp only
    rw [Machine.mapM_congr fun i hi => hbody i (List.mem_range.1 hi)]
    cases (List.range x.len).mapM fun i => x.bits[(i + n) % 2 ^ M.bits % x.len]? <;> rfl
  have hB : B.rotateDec x n = ((List.range x.len).mapM fun i =>
      x.bits[(i + n) % x.len]?).map BinaryExpression.mk := by
    unfold B.rotateDec
    dsimp only
    cases (List.range x.len).mapM fun i => x.bits[(i + n) % x.len]? <;> rfl
  have hget : ∀ g : ℕ → ℕ, (List.range x.len).mapM (fun i => x.bits[g i % x.len]?) =
      some ((List.range x.len).map fun i => x.bits.getD (g i % x.len) ⟨⟨[]⟩⟩) := by
    intro g
    refine mapM_some_eq _ fun i hi => ?_
    have h := hidx (g i) (by have := List.mem_range.1 hi; omega)
    rw [List.getElem?_eq_getElem h, List.getD_eq_getElem _ _ h]
  rw [hW, hB, hget fun i => (i + n) % 2 ^ M.bits, hget fun i => i + n]
  refine ⟨⟨_, rfl, by simp [BinaryExpression.len]⟩, ?_⟩
  simp only [Option.map_some, Option.some.injEq, BinaryExpression.mk.injEq]
  constructor
  · intro h
    by_contra hcon
    rw [not_or] at hcon
    have h0 : x.len ≠ 0 := by
      intro h0
      omega
    have hi : 2 ^ M.bits - n < x.len := by omega
    have := List.map_inj_left.1 h (2 ^ M.bits - n) (List.mem_range.2 hi)
    rw [Nat.sub_add_cancel hn.le, Nat.mod_self, List.getD_eq_getElem _ _ (hidx _ h0),
      List.getD_eq_getElem _ _ (hidx _ h0)] at this
    have := (List.Nodup.getElem_inj_iff hx).1 this
    rw [Nat.zero_mod] at this
    exact hcon.2 (Nat.dvd_of_mod_eq_zero this.symm)
  · intro h
    refine List.map_congr_left fun i hi => ?_
    have hi' := List.mem_range.1 hi
    congr 1
    rcases h with h | h
    · rw [Nat.mod_eq_of_lt (by omega : i + n < 2 ^ M.bits)]
    · exact Nat.mod_mod_of_dvd _ h

/-- Three bits, rotated by `2 ^ 64 - 1` in a release build: the result is not the rotation. -/
example (x : BinaryExpression 7) (h : x.len = 3) (hx : x.bits.Nodup) :
    Machine.rotateDec ⟨64, false⟩ x (2 ^ 64 - 1) ≠ B.rotateDec x (2 ^ 64 - 1) := by
  intro e
  have := (C103_rotate_dec_unchecked ⟨64, false⟩ rfl x hx (by norm_num [h]) (by norm_num)).2.1 e
  norm_num [h] at this

/-- C103: `random_access` finds the number of bits of an index with the machine's shifts, and the layers
of its tree are those of the model. -/
theorem C103_random_access (M : Machine) (items : List (Expression p)) (hM : 1 < M.bits)
    (h : 2 * items.length ≤ 2 ^ M.bits) :
    (∃ k, Loop.Ends (M.indexBitsBody items.length) k 0 (some (B.indexBits items.length))) ∧
    ∀ bits, M.randomAccessBinary bits items = B.randomAccessBinary bits items := by
  constructor
  · obtain ⟨k, -, hk⟩ := Loop.indexBits_ends items.length items.length 0 (by omega)
    exact ⟨k, Machine.indexBits_ends h hk (by omega)⟩
  · intro bits
    refine Machine.randomAccessBinary_eq bits items ?_
    have : 2 ^ 2 ≤ 2 ^ M.bits := Nat.pow_le_pow_right (by norm_num) hM
    omega

example (x : Expression 7) (bits : List (BooleanExpression 7)) :
    Machine.randomAccessBinary ⟨32, true⟩ bits [x, x, x] = B.randomAccessBinary bits [x, x, x] :=
  haveI : Fact (Nat.Prime 7) := ⟨by decide⟩
  (C103_random_access ⟨32, true⟩ [x, x, x] (by norm_num) (by norm_num)).2 bits

/-- C103: comparisons choose the same size of the chunks, and split at the same bit. -/
theorem C103_comparisons (M : Machine) {m o : ℕ} (h : 3 * o + m + 4 < 2 ^ M.bits) :
    M.cmpChunkBits m o = some (cmpChunkBits m o) ∧
    (Elem.maxBits p < 2 ^ M.bits → ∀ (d : Expression p) less strict bits,
      M.cmpSubtractive d less strict bits = B.cmpSubtractive d less strict bits) :=
  ⟨Machine.cmpChunkBits_eq h, fun h d less strict bits => Machine.cmpSubtractive_eq d less strict bits h⟩

example : Machine.cmpChunkBits ⟨32, false⟩ 255 254 = some (cmpChunkBits 255 254) :=
  haveI : Fact (Nat.Prime 7) := ⟨by decide⟩
  (C103_comparisons (p := 7) ⟨32, false⟩ (by norm_num)).1

/-- C103: building and routing a permutation network, and sorting. -/
theorem C103_networks (M : Machine) :
    (∀ a b : List (Expression p), 4 * a.length < 2 ^ M.bits →
      M.assertPermutation a b = B.assertPermutation a b) ∧
    (∀ (a b : List (Elem p)) (sa sb : List BooleanWire) (v : WireValues p), 2 ≤ a.length →
      4 * sa.length < 2 ^ M.bits → 4 * sb.length < 2 ^ M.bits →
      M.route a b sa sb v = route a b sa sb v) ∧
    (∀ es : List (Expression p), 4 * es.length < 2 ^ M.bits →
      M.sortAscending es = B.sortAscending es) :=
  ⟨Machine.assertPermutation_eq, fun _ _ _ _ v ha h1 h2 => Machine.route_eq ha h1 h2 v,
    Machine.sortAscending_eq⟩

example (x y z : Expression 7) : Machine.sortAscending ⟨32, false⟩ [x, y, z] =
    B.sortAscending [x, y, z] :=
  haveI : Fact (Nat.Prime 7) := ⟨by decide⟩
  (C103_networks (p := 7) ⟨32, false⟩).2.2 _ (by norm_num)

omit hp in
/-- C103: a sponge is made for the bitrate and the capacity it is given if and only if they add up to the
width, except that without overflow checks sums which are too large are reduced: then there are sponges
whose bitrate alone is larger than their width. -/
theorem C103_sponge (M : Machine) (f : MultiPermutation p) (b c : ℕ) :
    (b + c < 2 ^ M.bits → M.newSponge f b c = Sponge.new f b c) ∧
    (2 ^ M.bits ≤ b + c → M.checks → M.newSponge f b c = none) ∧
    (M.checks = false → f.width + 1 < 2 ^ M.bits →
      M.newSponge f (f.width + 1) (2 ^ M.bits - 1) = some ⟨f, f.width + 1, 2 ^ M.bits - 1⟩ ∧
      Sponge.new f (f.width + 1) (2 ^ M.bits - 1) = none) := by
  refine ⟨fun h => ?_, fun h hc => ?_, fun hc h => ⟨?_, ?_⟩⟩
  · unfold Machine.newSponge Sponge.new
    rw [Machine.add_of_lt h]
    rfl
  · unfold Machine.newSponge Machine.add
    rw [if_neg (by omega), if_pos hc]
    rfl
  · unfold Machine.newSponge Machine.add
    rw [if_neg (by omega), hc]
    have : (f.width + 1 + (2 ^ M.bits - 1)) % 2 ^ M.bits = f.width := by
      rw [show f.width + 1 + (2 ^ M.bits - 1) = f.width + 2 ^ M.bits by omega, Nat.add_mod_right,
        Nat.mod_eq_of_lt (by omega)]
    simp [this]
  · unfold Sponge.new
    rw [if_neg (by omega)]

example (f : MultiPermutation 7) (h : f.width = 3) :
    Machine.newSponge ⟨64, false⟩ f 2 1 = Sponge.new f 2 1 :=
  (C103_sponge ⟨64, false⟩ f 2 1).1 (by norm_num)

/-- C103: the number of rounds of Rescue.  With overflow checks it is right or there is a panic; without,
it may be far too small: for the width 1 and the largest number of bits there is, it is 10. -/
theorem C103_rescue (M : Machine) (s w : ℕ) :
    (s + 4 * w < 2 ^ M.bits → M.rescueRounds s w = Rescue.secureNumRounds s w) ∧
    (2 ^ M.bits ≤ s + 4 * w → M.checks → M.rescueRounds s w = none) ∧
    (M.checks = false → 3 < M.bits → M.rescueRounds (2 ^ M.bits - 1) 1 = some 10 ∧
      Rescue.secureNumRounds (2 ^ M.bits - 1) 1 = some (max (2 ^ M.bits / 2) 10)) := by
  refine ⟨Machine.rescueRounds_eq, fun h hc => ?_, fun hc hb => ?_⟩
  · unfold Machine.rescueRounds
    by_cases h4 : 4 * w < 2 ^ M.bits
    · rw [Machine.mul_of_lt h4]
      unfold Machine.integerDivisionCeil Machine.add
      simp only [Option.bind_eq_bind, Option.bind_some]
      rw [if_neg (by omega), if_pos hc]
      rfl
    · unfold Machine.mul
      rw [if_neg h4, if_pos hc]
      rfl
  · obtain ⟨k, hk⟩ : ∃ k, M.bits = k + 4 := ⟨M.bits - 4, by omega⟩
    have h16 : 2 ^ M.bits = 16 * 2 ^ k := by rw [hk, Nat.pow_add]; ring
    have hpos : 0 < 2 ^ k := by positivity
    constructor
    · unfold Machine.rescueRounds
      rw [Machine.mul_of_lt (by omega)]
      unfold Machine.integerDivisionCeil
      have e : M.add (2 ^ M.bits - 1) (4 * 1) = some 3 := by
        unfold Machine.add
        rw [if_neg (by omega), hc]
        have : (2 ^ M.bits - 1 + 4 * 1) % 2 ^ M.bits = 3 := by
          rw [show 2 ^ M.bits - 1 + 4 * 1 = 3 + 2 ^ M.bits by omega, Nat.add_mod_right,
            Nat.mod_eq_of_lt (by omega)]
        simp [this]
      simp only [Option.bind_eq_bind, Option.bind_some, e]
      rw [Machine.sub_of_le (by omega), Option.bind_some, Machine.div_of_pos (by norm_num),
        Option.bind_some, Machine.mul_of_lt (by norm_num)]
      rfl
    · unfold Rescue.secureNumRounds Rescue.integerDivisionCeil
      rw [if_neg (by norm_num)]
      simp only [Option.bind_eq_bind, Option.bind_some, Option.pure_def, Option.some.injEq]
      congr 1
      omega

example : Machine.rescueRounds ⟨64, true⟩ 128 3 = Rescue.secureNumRounds 128 3 :=
  (C103_rescue ⟨64, true⟩ 128 3).1 (by norm_num)

/-- C103: Poseidon.  A permutation whose number of rounds fits is that of the model; without overflow
checks there are permutations with partial rounds which do nothing at all. -/
theorem C103_poseidon (M : Machine) (f : Poseidon p) (es : List (Expression p)) :
    (f.full + f.partial_ < 2 ^ M.bits → M.poseidonPermute f es = f.permute es) ∧
    (2 ^ M.bits ≤ f.full + f.partial_ → M.checks → M.poseidonPermute f es = B.panic) ∧
    (M.checks = false → f.full + f.partial_ = 2 ^ M.bits → f.full % 2 = 0 → es.length = f.width →
      M.poseidonPermute f es = pure es) := by
  refine ⟨Machine.poseidonPermute_eq f es, fun h hc => ?_, fun hc h h2 hl => ?_⟩
  · unfold Machine.poseidonPermute Machine.add
    rw [if_neg (by omega), if_pos hc]
    funext b
    unfold B.require
    split <;> rfl
  · unfold Machine.poseidonPermute Machine.add
    rw [if_neg (by omega), hc, h, Nat.mod_self]
    simp only [Machine.rem_two, Machine.div_two, Machine.ofOption_bind, B.require, hl, h2, if_true,
      Bool.false_eq_true, if_false, pure_bind]
    rfl

/-- Two full rounds and `2 ^ 64 - 2` partial rounds, in a release build. -/
example (mds : ElementMatrix 7) (x y z : Expression 7) : Machine.poseidonPermute ⟨64, false⟩
    ⟨3, 2, 2 ^ 64 - 2, PoseidonSbox.inverse, mds⟩ [x, y, z] = pure [x, y, z] :=
  haveI : Fact (Nat.Prime 7) := ⟨by decide⟩
  (C103_poseidon (p := 7) ⟨64, false⟩ ⟨3, 2, 2 ^ 64 - 2, PoseidonSbox.inverse, mds⟩ [x, y, z]).2.2 rfl
    (by norm_num) (by norm_num) rfl

example (mds : ElementMatrix 7) (x y z : Expression 7) : Machine.poseidonPermute ⟨32, true⟩
    ⟨3, 8, 57, PoseidonSbox.inverse, mds⟩ [x, y, z] =
      Poseidon.permute ⟨3, 8, 57, PoseidonSbox.inverse, mds⟩ [x, y, z] :=
  haveI : Fact (Nat.Prime 7) := ⟨by decide⟩
  (C103_poseidon (p := 7) ⟨32, true⟩ ⟨3, 8, 57, PoseidonSbox.inverse, mds⟩ [x, y, z]).1 (by norm_num)

/-- C103: the search for a secure number of rounds of Poseidon does not overflow, unless the width or the
number of bits is gigantic. -/
theorem C103_poseidon_search (M : Machine) (s : PoseidonSbox) {w bits : ℕ} (hw : 0 < w)
    (h : w * (6 + 2 * (bits + w + 3)) + 2 * (bits + w + 3) < 2 ^ M.bits) :
    M.secureRoundsPadded p s w bits = Poseidon.secureRoundsPadded p s w bits :=
  Machine.secureRoundsPadded_eq hw h

example : Machine.secureRoundsPadded ⟨32, false⟩ 7 PoseidonSbox.inverse 12 256 =
    Poseidon.secureRoundsPadded 7 PoseidonSbox.inverse 12 256 :=
  haveI : Fact (Nat.Prime 7) := ⟨by decide⟩
  C103_poseidon_search (p := 7) ⟨32, false⟩ PoseidonSbox.inverse (by norm_num) (by norm_num)

/-- C103: the same program with a 32-bit counter of wires: every program has one, it does the same as long
as the counter does not overflow, and with overflow checks whatever it does is what the program does. -/
theorem C103_wires {α : Type} {m : B p α} (hm : Prog m) (checks : Bool) :
    (∃ m', Same32 checks m m') ∧
    ∀ m', Same32 checks m m' → ∀ (b b' : Builder p) (a : α),
      (m b = some (a, b') → b'.nextWireIndex < 2 ^ 32 → m' b = some (a, b')) ∧
      (checks → b.nextWireIndex < 2 ^ 32 → m' b = some (a, b') →
        m b = some (a, b') ∧ b'.nextWireIndex < 2 ^ 32) := by
  refine ⟨hm.same32 checks, fun m' h b b' a => ⟨h.run, fun hc => ?_⟩⟩
  subst hc
  exact h.checked

/-- A program which makes two wires. -/
example : Prog (do let x ← B.wire; let y ← B.wire
                   B.assertProduct (Expression.ofWire x) (Expression.ofWire y) 1 : B 7 Unit) :=
  .bind .wire fun _ => .bind .wire fun _ => .assertProduct _ _ _

omit hp in
/-- C103: where the counter does overflow without checks: the wire handed out after the last one is the
constant wire, and the one after that has been handed out before. -/
theorem C103_wires_unchecked (b : Builder p) (h : b.nextWireIndex = 2 ^ 32 - 1) :
    (do let x ← Machine.wire false; let y ← Machine.wire false; let z ← Machine.wire false
        return [x, y, z] : B p (List Wire)) b =
      some ([2 ^ 32 - 1, ONE, 1], { b with nextWireIndex := 2 }) ∧
    (Machine.wire true : B p Wire) b = none := by
  have hw : ∀ b : Builder p, Machine.wire false b =
      some (b.nextWireIndex, { b with nextWireIndex := (b.nextWireIndex + 1) % 2 ^ 32 }) := by
    intro b
    unfold Machine.wire Machine.add
    by_cases hb : b.nextWireIndex + 1 < 2 ^ 32
    · rw [if_pos hb, Nat.mod_eq_of_lt hb]
      rfl
    · rw [if_neg hb]
      rfl
  constructor
  · show ((Machine.wire false : B p Wire) b).bind _ = _
    rw [hw]
    show ((Machine.wire false : B p Wire) _).bind _ = _
    rw [hw]
    show ((Machine.wire false : B p Wire) _).bind _ = _
    rw [hw]
    simp only [h]
    rfl
  · unfold Machine.wire Machine.add
    rw [if_neg (by dsimp only; omega)]
    rfl

example : ∃ b : Builder 7, b.nextWireIndex = 2 ^ 32 - 1 := ⟨⟨2 ^ 32 - 1, [], []⟩, rfl⟩

end R1CS
