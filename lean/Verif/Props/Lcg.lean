import Verif.Lemmas.Lcg

/-!
# C70: the linear congruential generator
-/

namespace R1CS

open LCG

/-- C70: the generator has full period: from every state, the state after `m` steps is the same
state exactly if `2 ^ 32` divides `m`, and every `u32` is drawn within a period. -/
theorem C70_full_period (s : ℕ) (hs : s < 2 ^ 32) :
    (∀ m, (fun g => (nextU32 g).2)^[m] ⟨s⟩ = ⟨s⟩ ↔ 2 ^ 32 ∣ m) ∧
    (∀ t < 2 ^ 32, ∃ m < 2 ^ 32, (nextU32 ((fun g => (nextU32 g).2)^[m] ⟨s⟩)).1 = t) := by
  refine ⟨fun m => after_eq_iff (g := ⟨s⟩) hs m, fun t ht => ?_⟩
  obtain ⟨m, hm, he⟩ := after_surjective (g := (nextU32 ⟨s⟩).2) (h := ⟨t⟩) (nextU32_lt _) ht
  refine ⟨m, hm, ?_⟩
  have h : after (m + 1) ⟨s⟩ = ⟨t⟩ := by rw [after_succ, he]
  rw [nextU32_pair]
  change (after 1 (after m ⟨s⟩)).state = t
  rw [← after_add, Nat.add_comm, h]

/-- From the initial state. -/
example : (fun g => (nextU32 g).2)^[2 ^ 31] ⟨0⟩ ≠ ⟨0⟩ := by
  rw [Ne, (C70_full_period 0 (Nat.two_pow_pos 32)).1]
  exact Nat.not_dvd_of_pos_of_lt (Nat.two_pow_pos 31) (Nat.pow_lt_pow_right (by norm_num) (by norm_num))

/-- C70: every draw is a `u32`, and a draw of `bits` bits is below `2 ^ bits`. -/
theorem C70_draw_range (bits : ℕ) (g : LCG) :
    (nextU32 g).1 < 2 ^ 32 ∧ (nextU32 g).2.state = (nextU32 g).1 ∧
    (nextBiguintBits bits g).1 < 2 ^ bits := by
  refine ⟨?_, ?_, nextBiguintBits_lt bits g⟩
  · have := nextU32_lt g
    rw [nextU32_pair] at this ⊢
    exact this
  · rw [nextU32_pair]

/-- C70: whatever `next_biguint` returns is below the limit, and `next_element` returns the element
drawn, without a panic of the conversion. -/
theorem C70_biguint_range (limit : ℕ) (g g' : LCG) :
    (∀ n, nextBiguint limit g = some (n, g') → n < limit) ∧
    (∀ e : Elem limit, nextElement limit g = some (e, g') ↔ nextBiguint limit g = some (e.n, g')) := by
  have h1 : ∀ n g', nextBiguint limit g = some (n, g') → n < limit := by
    intro n g' h
    unfold nextBiguint at h
    by_cases h0 : limit = 0
    · rw [if_pos h0] at h
      cases h
    · rw [if_neg h0] at h
      exact (drawLoop_some h).1
  refine ⟨fun n h => h1 n g' h, fun e => ?_⟩
  unfold nextElement
  cases h : nextBiguint limit g with
  | none => simp
  | some r =>
    obtain ⟨n, g1⟩ := r
    have hn := h1 n g1 h
    have ho : Elem.ofNat? limit n = some ⟨n, hn⟩ := by
      unfold Elem.ofNat?
      rw [dif_pos hn]
    simp only [Option.bind_eq_bind, Option.bind_some, ho, Option.pure_def, Option.some.injEq,
      Prod.mk.injEq]
    constructor
    · rintro ⟨rfl, rfl⟩
      exact ⟨rfl, rfl⟩
    · rintro ⟨h2, h3⟩
      refine ⟨?_, h3⟩
      cases e
      simp only at h2
      subst h2
      rfl

/-- C70: the loop of `next_biguint` ends, from every state, if the limit is large enough compared to
the common divisor of the number of 32-bit chunks and the period.  That is the case for every limit
with an odd number of chunks. -/
theorem C70_biguint_terminates_partial {limit : ℕ} (hl : 0 < limit) (g : LCG)
    (hg : g.state < 2 ^ 32)
    (h : Nat.gcd (chunks (limit - 1).size) (2 ^ 32) * 2 ^ (32 * (chunks (limit - 1).size - 1)) ≤ limit) :
    ∃ n g', nextBiguint limit g = some (n, g') ∧ n < limit := by
  suffices hs : nextBiguint limit g ≠ none by
    obtain ⟨⟨n, g'⟩, hr⟩ := Option.ne_none_iff_exists'.1 hs
    exact ⟨n, g', hr, (C70_biguint_range limit g g').1 n hr⟩
  unfold nextBiguint
  rw [if_neg (by omega)]
  intro hnone
  rw [drawLoop_none] at hnone
  generalize hbits : (limit - 1).size = bits at h hnone
  rcases Nat.eq_zero_or_pos bits with h0 | hpos
  · have := hnone 0 (by norm_num)
    have hlt := nextBiguintBits_lt bits (after (chunks bits * 0) g)
    rw [h0] at hlt this
    rw [pow_zero] at hlt
    omega
  · have hd : 0 < Nat.gcd (chunks bits) (2 ^ 32) := Nat.gcd_pos_of_pos_right _ (by norm_num)
    have hmod : g.state % Nat.gcd (chunks bits) (2 ^ 32) < Nat.gcd (chunks bits) (2 ^ 32) :=
      Nat.mod_lt _ hd
    obtain ⟨j, hj, he⟩ := after_mul_surjective (g := g)
      (h := ⟨g.state % Nat.gcd (chunks bits) (2 ^ 32)⟩) hg
      (lt_of_le_of_lt (Nat.mod_le _ _) hg) (chunks bits) (Nat.mod_modEq _ _)
    have hge := hnone j hj
    obtain ⟨low, hlow, top, hn, htop⟩ := nextBiguintBits_top hpos (after (chunks bits * j) g)
    rw [← after_add, show chunks bits + chunks bits * j = chunks bits * (j + 1) by ring, he] at htop
    have ht : top < Nat.gcd (chunks bits) (2 ^ 32) := by
      rcases htop with ⟨rfl, -⟩ | ⟨rfl, -⟩
      · exact hmod
      · exact lt_of_le_of_lt (Nat.mod_le _ _) hmod
    rw [hn] at hge
    have h1 := Nat.mul_le_mul_left (2 ^ (32 * (chunks bits - 1))) (Nat.succ_le_of_lt ht)
    rw [Nat.mul_succ] at h1
    rw [Nat.mul_comm] at h
    omega

/-- C70: over the shipped fields `next_element` returns from every state. -/
theorem C70_element_terminates (g : LCG) (hg : g.state < 2 ^ 32) :
    (nextElement bn128Order g).isSome ∧ (nextElement bls12_381Order g).isSome := by
  have key : ∀ limit, (∃ n g', nextBiguint limit g = some (n, g') ∧ n < limit) →
      (nextElement limit g).isSome := by
    rintro limit ⟨n, g', h, hn⟩
    rw [((C70_biguint_range limit g g').2 ⟨n, hn⟩).2 h]
    rfl
  have hs1 : Nat.size (bn128Order - 1) = 254 := by decide +kernel
  have hs2 : Nat.size (bls12_381Order - 1) = 255 := by decide +kernel
  constructor
  · apply key
    refine C70_biguint_terminates_partial (by decide +kernel) g hg ?_
    rw [hs1]
    decide +kernel
  · apply key
    refine C70_biguint_terminates_partial (by decide +kernel) g hg ?_
    rw [hs2]
    decide +kernel

/-- The hypothesis of `C70_biguint_terminates_partial` holds for three chunks. -/
example (g : LCG) (hg : g.state < 2 ^ 32) :
    ∃ n g', nextBiguint (2 ^ 70) g = some (n, g') ∧ n < 2 ^ 70 := by
  have hs : Nat.size (2 ^ 70 - 1) = 70 := by decide +kernel
  refine C70_biguint_terminates_partial (by norm_num) g hg ?_
  rw [hs]
  decide +kernel

theorem nextU32_state (g : LCG) :
    (nextU32 g).2.state = (g.state * 1664525 % 2 ^ 32 + 1013904223) % 2 ^ 32 := by
  rw [nextU32]

theorem nextBiguintBits_remaining {bits full rem : ℕ} (hf : bits / 32 = full)
    (hr : bits % 32 = rem) (h : 0 < rem) (g : LCG) :
    (nextBiguintBits bits g).1 =
      ofDigits ((fullChunks full g).1 ++ [(after (1 + full) g).state % 2 ^ rem]) := by
  unfold nextBiguintBits
  subst hf hr
  obtain ⟨h1, -, -⟩ := fullChunks_spec (bits / 32) g
  simp only [if_pos h]
  rw [Nat.one_shiftLeft, after_add, ← h1, nextU32_pair]

theorem fullChunks_three (g : LCG) : (fullChunks 3 g).1 =
    [(after 1 g).state, (after 2 g).state, (after 3 g).state] := by
  rw [fullChunks_succ, fullChunks_succ, fullChunks_succ, fullChunks]
  simp only [List.nil_append, List.cons_append, Nat.zero_add, Nat.reduceAdd]

theorem ofDigits_four (x y z t : ℕ) :
    ofDigits ([x, y, z] ++ [t]) = x + 2 ^ 32 * (y + 2 ^ 32 * (z + 2 ^ 32 * t)) := by
  simp only [List.cons_append, List.nil_append, ofDigits, Nat.mul_zero, Nat.add_zero]

theorem draw_97 (g : LCG) : (nextBiguintBits 97 g).1 = (after 1 g).state +
    2 ^ 32 * ((after 2 g).state + 2 ^ 32 * ((after 3 g).state +
      2 ^ 32 * ((after 4 g).state % 2))) := by
  rw [nextBiguintBits_remaining (full := 3) (rem := 1) (by norm_num) (by norm_num) (by norm_num),
    fullChunks_three, ofDigits_four, Nat.pow_one]

theorem not_two_zeros (g : LCG) : (after 1 g).state ≠ 0 ∨ (after 2 g).state ≠ 0 := by
  by_contra hcon
  have h1 : (after 1 g).state = 0 := by omega
  have h2 : (after 2 g).state = 0 := by omega
  have h3 : after 2 g = (nextU32 (after 1 g)).2 := by
    rw [show after 2 g = after 1 (after 1 g) from (after_add 1 1 g), after_succ, after_zero]
  rw [h3, nextU32_state, h1] at h2
  norm_num at h2

theorem draw_97_ge {g : LCG} (h4 : (after 4 g).state % 2 = 1) :
    2 ^ 96 + 1 ≤ (nextBiguintBits 97 g).1 := by
  rw [draw_97, h4]
  have h12 := not_two_zeros g
  generalize (after 1 g).state = x at *
  generalize (after 2 g).state = y at *
  generalize (after 3 g).state = z at *
  have h13 : 2 ^ 96 = 2 ^ 32 * (2 ^ 32 * 2 ^ 32) := by norm_num
  rw [h13]
  omega

theorem drawLoop_97 (fuel : ℕ) : drawLoop (2 ^ 96 + 1) 97 fuel (nextU32 new).2 = none := by
  rw [drawLoop_none]
  intro i _
  apply draw_97_ge
  rw [← after_add]
  have h1 := (after_modEq_iff (k := 1) (by norm_num) (4 + chunks 97 * i) (nextU32 new).2).2
    (by rw [show chunks 97 = 4 from rfl]; exact ⟨2 + 2 * i, by ring⟩)
  have h2 : (nextU32 new).2.state % 2 = 1 := by
    rw [nextU32_state]
    norm_num [new]
  unfold Nat.ModEq at h1
  rw [pow_one] at h1
  rw [h1, h2]

/-- C70 fails for some limits: after one draw from the new generator, `next_biguint(2^96 + 1)` never
returns.  Four chunks are drawn each time, of which the last is reduced to one bit; that bit is the
parity of the state and always the same.  It is 1, and the three other chunks are never all 0. -/
theorem C70_biguint_refuted :
    (∀ fuel, drawLoop (2 ^ 96 + 1) (2 ^ 96 + 1 - 1).size fuel (nextU32 new).2 = none) ∧
    nextBiguint (2 ^ 96 + 1) (nextU32 new).2 = none := by
  have hsize : (2 ^ 96 + 1 - 1).size = 97 := by decide +kernel
  refine ⟨fun fuel => by rw [hsize, drawLoop_97], ?_⟩
  unfold nextBiguint
  rw [if_neg (by norm_num), hsize, drawLoop_97]

/-- The generator is at 1196435762 after two steps. -/
example : (nextU32 (nextU32 new).2).1 = 1196435762 := by decide +kernel



end R1CS
