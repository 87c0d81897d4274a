import Verif.Props.Lcg
import Verif.Model.Hashes
import Verif.Spec.Examples
import Mathlib.Data.Nat.Count

/-!
# C98: the constants drawn from the generator

Round constants and initial values are drawn from a linear congruential generator with a state of 32
bits, each from its initial state.  What an element drawn says about the others.
-/

namespace R1CS

open LCG

namespace LCG

/-- The last digit of a draw of at least one full chunk is the next state. -/
theorem nextBiguintBits_low {bits : ℕ} (h : 32 ≤ bits) (g : LCG) :
    (nextBiguintBits bits g).1 % 2 ^ 32 = (after 1 g).state := by
  obtain ⟨n, hn⟩ : ∃ n, bits / 32 = n + 1 := ⟨bits / 32 - 1, by omega⟩
  have hlt : (after 1 g).state < 2 ^ 32 := by
    rw [after_succ, after_zero]
    exact nextU32_lt g
  have hc : (fullChunks (bits / 32) g).1 = (after 1 g).state ::
      (fullChunks n (nextU32 g).2).1 := by
    rw [hn, fullChunks_cons, nextU32_pair]
  unfold nextBiguintBits
  by_cases hr : bits % 32 > 0
  · simp only [if_pos hr]
    rw [hc, List.cons_append, ofDigits, Nat.add_mul_mod_self_left, Nat.mod_eq_of_lt hlt]
  · simp only [if_neg hr]
    rw [hc, ofDigits, Nat.add_mul_mod_self_left, Nat.mod_eq_of_lt hlt]

/-- The attempt `t` to draw an element is in range. -/
def accepted (p : ℕ) (g : LCG) (t : ℕ) : Prop :=
  (nextBiguintBits (p - 1).size (after (chunks (p - 1).size * t) g)).1 < p

instance (p : ℕ) (g : LCG) : DecidablePred (accepted p g) := fun _ => by
  unfold accepted
  infer_instance

/-- An element drawn is that of the first attempt in range. -/
theorem nextElement_spec {p : ℕ} {g g' : LCG} {e : Elem p} (h : nextElement p g = some (e, g')) :
    ∃ i, e.n = (nextBiguintBits (p - 1).size (after (chunks (p - 1).size * i) g)).1 ∧
      g' = after (chunks (p - 1).size * (i + 1)) g ∧ accepted p g i ∧
      ∀ j < i, ¬ accepted p g j := by
  have h1 := ((C70_biguint_range p g g').2 e).1 h
  unfold nextBiguint at h1
  by_cases h0 : p = 0
  · rw [if_pos h0] at h1
    cases h1
  rw [if_neg h0] at h1
  obtain ⟨h2, i, -, h3, h4, h5⟩ := drawLoop_some h1
  refine ⟨i, h3, h4, ?_, fun j hj hacc => ?_⟩
  · unfold accepted
    rw [← h3]
    exact h2
  · have := h5 j hj
    unfold accepted at hacc
    omega

theorem nextElements_cons {p n : ℕ} {g g' : LCG} {es : List (Elem p)}
    (h : nextElements p (n + 1) g = some (es, g')) :
    ∃ e g1 es', es = e :: es' ∧ nextElement p g = some (e, g1) ∧
      nextElements p n g1 = some (es', g') := by
  rw [nextElements] at h
  cases h1 : nextElement p g with
  | none => rw [h1] at h; simp at h
  | some r =>
    obtain ⟨e, g1⟩ := r
    rw [h1] at h
    simp only [Option.bind_eq_bind, Option.bind_some] at h
    cases h2 : nextElements p n g1 with
    | none => rw [h2] at h; simp at h
    | some r2 =>
      obtain ⟨es', g2⟩ := r2
      rw [h2] at h
      simp only [Option.bind_some, Option.pure_def, Option.some.injEq, Prod.mk.injEq] at h
      exact ⟨e, g1, es', h.1.symm, rfl, by rw [h2, h.2]⟩

/-- Drawing `n` elements ends with the attempt which is the `n`-th in range. -/
theorem nextElements_count {p : ℕ} : ∀ {n : ℕ} {g g' : LCG} {es : List (Elem p)},
    nextElements p n g = some (es, g') →
      ∃ T, g' = after (chunks (p - 1).size * T) g ∧ Nat.count (accepted p g) T = n
  | 0, g, g', es, h => by
    rw [nextElements] at h
    injection h with h
    injection h with h1 h2
    exact ⟨0, by rw [← h2, Nat.mul_zero, after_zero], rfl⟩
  | n + 1, g, g', es, h => by
    obtain ⟨e, g1, es', -, h1, h2⟩ := nextElements_cons h
    obtain ⟨i, -, hg1, hacc, hno⟩ := nextElement_spec h1
    obtain ⟨T, hg', hT⟩ := nextElements_count h2
    refine ⟨i + 1 + T, ?_, ?_⟩
    · rw [hg', hg1, ← after_add]
      congr 1
      ring
    · have hz : Nat.count (accepted p g) i = 0 := by
        rw [Nat.count_iff_forall_not]
        exact fun j hj => hno j hj
      have hshift : (fun k => accepted p g (i + 1 + k)) = accepted p g1 := by
        funext k
        unfold accepted
        rw [hg1, ← after_add]
        congr 4
        ring
      rw [Nat.count_add, Nat.count_succ, hz, if_pos hacc]
      have : Nat.count (fun k => accepted p g (i + 1 + k)) T = Nat.count (accepted p g1) T := by
        congr 1
      rw [this, hT]
      omega

end LCG

/-- C98: the last `k` bits of the states have a period of `2 ^ k`. -/
theorem C98_low_bits {k : ℕ} (hk : k ≤ 32) (m : ℕ) (g : LCG) :
    ((fun g => (nextU32 g).2)^[m] g).state % 2 ^ k = g.state % 2 ^ k ↔ 2 ^ k ∣ m :=
  after_modEq_iff hk m g

/-- C98: an element of a field of at least 32 bits determines the state in which it leaves the
generator: from its last 32 bits, it is the state as many steps later as there are further chunks. -/
theorem C98_determined {p : ℕ} (h32 : 32 ≤ (p - 1).size) {g g' : LCG} {e : Elem p}
    (h : nextElement p g = some (e, g')) :
    g' = (fun g => (nextU32 g).2)^[((p - 1).size + 31) / 32 - 1] ⟨e.n % 2 ^ 32⟩ := by
  obtain ⟨i, he, hg', -, -⟩ := nextElement_spec h
  have hlow := nextBiguintBits_low h32 (after (chunks (p - 1).size * i) g)
  rw [he, hlow]
  change _ = after _ (after 1 (after (chunks (p - 1).size * i) g))
  rw [hg', ← after_add, ← after_add]
  congr 1
  unfold chunks
  have : ((p - 1).size + 31) / 32 ≥ 1 := by omega
  obtain ⟨c, hc⟩ : ∃ c, ((p - 1).size + 31) / 32 = c + 1 := ⟨_, (Nat.sub_add_cancel this).symm⟩
  rw [hc, Nat.add_sub_cancel]
  ring

/-- C98: hence from an element all elements drawn later are known, whatever came before. -/
theorem C98_following {p : ℕ} (h32 : 32 ≤ (p - 1).size) {g1 g2 g1' g2' : LCG} {e : Elem p}
    {n : ℕ} {es1 es2 : List (Elem p)} (h1 : nextElements p (n + 1) g1 = some (e :: es1, g1'))
    (h2 : nextElements p (n + 1) g2 = some (e :: es2, g2')) : es1 = es2 ∧ g1' = g2' := by
  obtain ⟨e1, k1, t1, heq1, hd1, hr1⟩ := nextElements_cons h1
  obtain ⟨e2, k2, t2, heq2, hd2, hr2⟩ := nextElements_cons h2
  injection heq1 with hh1 ht1
  injection heq2 with hh2 ht2
  subst hh1 hh2 ht1 ht2
  rw [C98_determined h32 hd1, ← C98_determined h32 hd2, hr2] at hr1
  injection hr1 with hr1
  injection hr1 with a b
  exact ⟨a.symm, b.symm⟩

/-- C98: the last `k` bits of all elements drawn are the same, if `2 ^ k` divides the number of
32-bit chunks of the order. -/
theorem C98_constant_bits {p k : ℕ} (h32 : 32 ≤ (p - 1).size) (hk : k ≤ 32)
    (hdvd : 2 ^ k ∣ ((p - 1).size + 31) / 32) : ∀ {n : ℕ} {g g' : LCG} {es : List (Elem p)},
    nextElements p n g = some (es, g') → ∀ e ∈ es, e.n % 2 ^ k = (nextU32 g).1 % 2 ^ k
  | 0, g, g', es, h, e, he => by
    rw [nextElements] at h
    injection h with h
    injection h with h1 h2
    rw [← h1] at he
    cases he
  | n + 1, g, g', es, h, e, he => by
    obtain ⟨e1, g1, es', rfl, hd, hr⟩ := nextElements_cons h
    obtain ⟨i, he1, hg1, -, -⟩ := nextElement_spec hd
    have hstep : ∀ j, (after 1 (after (chunks (p - 1).size * j) g)).state % 2 ^ k =
        (nextU32 g).1 % 2 ^ k := by
      intro j
      rw [nextU32_pair, ← after_add, Nat.add_comm, after_add]
      exact (after_modEq_iff hk _ _).2 (Dvd.dvd.mul_right hdvd j)
    rcases List.mem_cons.1 he with rfl | he
    · have hlow := nextBiguintBits_low h32 (after (chunks (p - 1).size * i) g)
      rw [← he1] at hlow
      rw [← hstep i, ← hlow, Nat.mod_mod_of_dvd _ (pow_dvd_pow 2 hk)]
    · rw [C98_constant_bits h32 hk hdvd hr e he, hg1, nextU32_pair]
      exact hstep (i + 1)

/-- C98: over the shipped fields every element drawn from the initial state is 7 modulo 8. -/
theorem C98_seven {p : ℕ} (hp : p = bn128Order ∨ p = bls12_381Order) {n : ℕ} {g' : LCG}
    {es : List (Elem p)} (h : nextElements p n LCG.new = some (es, g')) : ∀ e ∈ es, e.n % 8 = 7 := by
  have hs : (p - 1).size = 254 ∨ (p - 1).size = 255 := by
    rcases hp with rfl | rfl
    · left; decide +kernel
    · right; decide +kernel
  intro e he
  have := C98_constant_bits (k := 3) (by omega) (by norm_num) ⟨1, by omega⟩ h e he
  have h7 : (nextU32 LCG.new).1 % 2 ^ 3 = 7 := by decide +kernel
  omega

namespace LCG

/-- The elements up to one of those drawn, and the state it leaves. -/
theorem nextElements_upto {p : ℕ} (h32 : 32 ≤ (p - 1).size) : ∀ {n : ℕ} {g g' : LCG}
    {es : List (Elem p)}, nextElements p n g = some (es, g') → ∀ e ∈ es, ∃ m < n, ∃ es',
      nextElements p (m + 1) g =
        some (es', after (((p - 1).size + 31) / 32 - 1) ⟨e.n % 2 ^ 32⟩)
  | 0, g, g', es, h, e, he => by
    rw [nextElements] at h
    injection h with h
    injection h with h1 h2
    rw [← h1] at he
    cases he
  | n + 1, g, g', es, h, e, he => by
    obtain ⟨e1, g1, es', rfl, hd, hr⟩ := nextElements_cons h
    rcases List.mem_cons.1 he with rfl | he
    · refine ⟨0, by omega, [e], ?_⟩
      rw [nextElements, hd]
      simp only [Option.bind_eq_bind, Option.bind_some, nextElements, Option.pure_def]
      rw [C98_determined h32 hd]
      rfl
    · obtain ⟨m, hm, es2, h2⟩ := nextElements_upto h32 hr e he
      refine ⟨m + 1, by omega, e1 :: es2, ?_⟩
      rw [nextElements, hd]
      simp only [Option.bind_eq_bind, Option.bind_some, h2, Option.pure_def]

/-- Attempts in range within a period. -/
theorem le_count_accepted {p : ℕ} (hb : 0 < (p - 1).size) {g : LCG} (hg : g.state < 2 ^ 32)
    {T N : ℕ} (hT : 0 < T) (hdvd : 2 ^ 32 ∣ chunks (p - 1).size * T)
    (hN : Nat.gcd (chunks (p - 1).size) (2 ^ 32) * N * 2 ^ (32 * (chunks (p - 1).size - 1)) ≤ p) :
    N ≤ Nat.count (accepted p g) T := by
  generalize hbits : (p - 1).size = bits at *
  have hp0 : p - 1 < 2 ^ bits := hbits ▸ Nat.lt_size_self (p - 1)
  generalize hc : chunks bits = c at *
  generalize hd : Nat.gcd c (2 ^ 32) = d at *
  have hdpos : 0 < d := hd ▸ Nat.gcd_pos_of_pos_right _ (by norm_num)
  have hc1 : 0 < c ∧ bits ≤ 32 * c := by
    unfold chunks at hc
    omega
  have hpow : 2 ^ (32 * c) = 2 ^ 32 * 2 ^ (32 * (c - 1)) := by
    rw [← pow_add]
    congr 1
    omega
  have hdN : d * N ≤ 2 ^ 32 := by
    have h1 : 2 ^ bits ≤ 2 ^ (32 * c) := Nat.pow_le_pow_right (by norm_num) hc1.2
    have h2 : d * N * 2 ^ (32 * (c - 1)) ≤ 2 ^ 32 * 2 ^ (32 * (c - 1)) := by
      rw [← hpow]
      omega
    exact Nat.le_of_mul_le_mul_right h2 (Nat.two_pow_pos _)
  have hs : ∀ t, t < N → g.state % d + d * t < d * N := by
    intro t ht
    have h1 := Nat.mod_lt g.state hdpos
    have h2 := Nat.mul_le_mul_left d (Nat.succ_le_of_lt ht)
    rw [Nat.mul_succ] at h2
    omega
  have hex : ∀ t, ∃ u, t < N → u < T ∧ after (c * (u + 1)) g = ⟨g.state % d + d * t⟩ := by
    intro t
    by_cases ht : t < N
    · have h1 := hs t ht
      obtain ⟨j, -, hj⟩ := after_mul_surjective (g := g) (h := ⟨g.state % d + d * t⟩) hg
        (by change g.state % d + d * t < 2 ^ 32; omega) c (by
          rw [hd]
          change (g.state % d + d * t) ≡ g.state [MOD d]
          unfold Nat.ModEq
          rw [Nat.add_mul_mod_self_left, Nat.mod_mod])
      refine ⟨j % T, fun _ => ⟨Nat.mod_lt _ hT, ?_⟩⟩
      have hsplit : c * (j + 1) = c * T * (j / T) + c * (j % T + 1) := by
        have := Nat.div_add_mod j T
        calc c * (j + 1) = c * (T * (j / T) + j % T + 1) := by rw [this]
          _ = _ := by ring
      rw [hsplit, after_add, (after_eq_iff (after_lt hg _) _).2 (Dvd.dvd.mul_right hdvd _)] at hj
      exact hj
    · exact ⟨0, fun h => absurd h ht⟩
  choose f hf using hex
  rw [Nat.count_eq_card_filter_range]
  refine Finset.le_card_of_inj_on_range f (fun t ht => ?_) fun t ht t' ht' he => ?_
  · obtain ⟨h1, h2⟩ := hf t ht
    rw [Finset.mem_filter, Finset.mem_range]
    refine ⟨h1, ?_⟩
    unfold accepted
    rw [hbits, hc]
    obtain ⟨low, hlow, top, hval, htop⟩ := nextBiguintBits_top hb (after (c * f t) g)
    rw [hc] at hlow hval htop
    rw [← after_add, show c + c * f t = c * (f t + 1) by ring, h2] at htop
    have htop' : top + 1 ≤ d * N := by
      have := hs t ht
      have hm := Nat.mod_le (g.state % d + d * t) (2 ^ (bits % 32))
      rcases htop with ⟨rfl, -⟩ | ⟨rfl, -⟩
      · exact this
      · exact lt_of_le_of_lt hm this
    have h3 := Nat.mul_le_mul_right (2 ^ (32 * (c - 1))) htop'
    rw [Nat.succ_mul, Nat.mul_comm] at h3
    rw [hval]
    omega
  · have h1 := (hf t ht).2
    rw [he, (hf t' ht').2] at h1
    injection h1 with h1
    exact (Nat.eq_of_mul_eq_mul_left hdpos (by omega)).symm

end LCG

/-- C98: elements drawn are different from each other, as long as there are at most as many as there
are states, among those at the ends of chunks, which give a leading chunk below that of the order. -/
theorem C98_distinct {p : ℕ} (h32 : 32 ≤ (p - 1).size) : ∀ {n : ℕ} {g g' : LCG}
    {es : List (Elem p)}, g.state < 2 ^ 32 → nextElements p n g = some (es, g') →
    Nat.gcd (((p - 1).size + 31) / 32) (2 ^ 32) * n *
      2 ^ (32 * (((p - 1).size + 31) / 32 - 1)) ≤ p → es.Nodup
  | 0, g, g', es, _, h, _ => by
    rw [nextElements] at h
    injection h with h
    injection h with h1 h2
    rw [← h1]
    exact List.nodup_nil
  | n + 1, g, g', es, hg, h, hn => by
    obtain ⟨e, g1, es', rfl, hd, hr⟩ := nextElements_cons h
    obtain ⟨i, -, hg1, -, -⟩ := nextElement_spec hd
    have hg1' : g1.state < 2 ^ 32 := hg1 ▸ after_lt hg _
    rw [List.nodup_cons]
    refine ⟨fun he => ?_, C98_distinct h32 hg1' hr (le_trans ?_ hn)⟩
    · obtain ⟨m, hm, es2, h2⟩ := nextElements_upto h32 hr e he
      obtain ⟨T, hT, hcount⟩ := nextElements_count h2
      have hdet : after (((p - 1).size + 31) / 32 - 1) ⟨e.n % 2 ^ 32⟩ = g1 :=
        (C98_determined h32 hd).symm
      rw [hdet] at hT
      have hdvd := (after_eq_iff hg1' _).1 hT.symm
      have hpos : 0 < T := by
        rcases Nat.eq_zero_or_pos T with h0 | h0
        · rw [h0, Nat.count_zero] at hcount
          omega
        · exact h0
      have := le_count_accepted (N := n + 1) (by omega) hg1' hpos hdvd hn
      omega
    · exact Nat.mul_le_mul_right _ (Nat.mul_le_mul_left _ (Nat.le_succ n))

/-- C98: over the shipped fields, a hundred million elements drawn from any state are different from
each other. -/
theorem C98_distinct_shipped {p : ℕ} (hp : p = bn128Order ∨ p = bls12_381Order) {n : ℕ}
    {g g' : LCG} (hg : g.state < 2 ^ 32) {es : List (Elem p)}
    (h : nextElements p n g = some (es, g')) (hn : n ≤ 10 ^ 8) : es.Nodup := by
  have hs : (p - 1).size = 254 ∨ (p - 1).size = 255 := by
    rcases hp with rfl | rfl
    · left; decide +kernel
    · right; decide +kernel
  have hc : ((p - 1).size + 31) / 32 = 8 := by omega
  refine C98_distinct (by omega) hg h ?_
  rw [hc]
  have h1 : Nat.gcd 8 (2 ^ 32) * 10 ^ 8 * 2 ^ (32 * (8 - 1)) ≤ p := by
    rcases hp with rfl | rfl <;> decide +kernel
  exact le_trans (Nat.mul_le_mul_right _ (Nat.mul_le_mul_left _ hn)) h1

/-- C98: all users of the generator start it anew, so that the default initial value of a
Merkle-Damgård hash is the first round constant of the default MiMC cipher over the same field. -/
theorem C98_initial_value {p : ℕ} [Fact p.Prime] {rounds : ℕ} {c : MiMC p} {f : CompressionFunction p}
    {h : MerkleDamgard p} (hc : MiMC.default rounds = some c) (hr : 0 < rounds)
    (hh : MerkleDamgard.newDefaults f = some h) :
    c.roundConstants.head? = some h.initialValue := by
  obtain ⟨n, rfl⟩ : ∃ n, rounds = n + 1 := ⟨rounds - 1, by omega⟩
  unfold MiMC.default at hc
  unfold MerkleDamgard.newDefaults at hh
  cases h1 : nextElements p (n + 1) LCG.new with
  | none => rw [h1] at hc; simp at hc
  | some r =>
    obtain ⟨es, g'⟩ := r
    obtain ⟨e, g1, es', rfl, hd, -⟩ := nextElements_cons h1
    rw [h1] at hc
    simp only [Option.bind_eq_bind, Option.bind_some] at hc
    rw [hd] at hh
    simp only [Option.bind_eq_bind, Option.bind_some, Option.pure_def, Option.some.injEq] at hh
    unfold MiMC.new at hc
    cases h3 : Elem.ofNat? p 3 with
    | none => rw [h3] at hc; simp at hc
    | some three =>
      rw [h3] at hc
      simp only [Option.bind_eq_bind, Option.bind_some] at hc
      cases h4 : MonomialPermutation.new three with
      | none => rw [h4] at hc; simp at hc
      | some m =>
        rw [h4] at hc
        simp only [Option.bind_some, Option.pure_def, Option.some.injEq] at hc
        rw [← hc, ← hh]
        rfl

/-- The last bit of the state changes in every step. -/
example (g : LCG) : (nextU32 g).2.state % 2 ≠ g.state % 2 := fun h => by
  have := (C98_low_bits (k := 1) (by norm_num) 1 g).1 (by simpa using h)
  norm_num at this

/-- The first elements drawn over a shipped field, all 7 modulo 8. -/
theorem first_elements : (nextElements bn128Order 3 LCG.new).map (fun r => (r.1.map (·.n), r.2)) =
    some ([16215015717912050927689091717569668836441100626338278585444785582033645531999,
      1708018735896034091452831910974454560207493950529541782088529695665645534951,
      2564996942147979938978115846712314303044517634699373963541266445542957631735],
      ⟨95141024⟩) := by
  decide +kernel

/-- They are drawn, 7 modulo 8 and different. -/
example : ∃ es g', nextElements bn128Order 3 LCG.new = some (es, g') ∧ es.length = 3 ∧
    (∀ e ∈ es, e.n % 8 = 7) ∧ es.Nodup := by
  cases h : nextElements bn128Order 3 LCG.new with
  | none =>
    have := first_elements
    rw [h] at this
    cases this
  | some r =>
    have h1 := first_elements
    rw [h, Option.map_some] at h1
    injection h1 with h1
    injection h1 with h1 h2
    refine ⟨r.1, r.2, rfl, ?_, C98_seven (Or.inl rfl) h,
      C98_distinct_shipped (Or.inl rfl) (by decide) h (by norm_num)⟩
    have := congrArg List.length h1
    simpa using this

/-- The first of them determines the state it leaves. -/
example : ∃ e g', nextElement bn128Order LCG.new = some (e, g') ∧ g' = ⟨2748932008⟩ ∧
    g' = (fun g => (nextU32 g).2)^[7] ⟨1013904223⟩ := by
  obtain ⟨⟨e, g'⟩, h⟩ := Option.isSome_iff_exists.1 (C70_element_terminates LCG.new (by decide)).1
  have hn : (nextElement bn128Order LCG.new).map (fun r => (r.1.n % 2 ^ 32, r.2)) =
      some (1013904223, ⟨2748932008⟩) := by
    decide +kernel
  rw [h, Option.map_some] at hn
  injection hn with hn
  injection hn with h1 h2
  have hs : (bn128Order - 1).size = 254 := by decide +kernel
  have h3 := C98_determined (by omega) h
  simp only at h1
  rw [h1, hs] at h3
  exact ⟨e, g', h, h2, h3⟩

/-- The initial value over the field of order 11, which is that of its first round constant. -/
example : ∃ (c : MiMC 11) (h : MerkleDamgard 11), MiMC.default 2 = some c ∧
    MerkleDamgard.newDefaults (daviesMeyer c.toBlockCipher) = some h ∧
    c.roundConstants.head? = some h.initialValue := by
  have h1 : (MiMC.default 2 : Option (MiMC 11)).isSome := by decide +kernel
  obtain ⟨c, hc⟩ := Option.isSome_iff_exists.1 h1
  have h2 : ∀ f : CompressionFunction 11, (MerkleDamgard.newDefaults f).isSome := by
    intro f
    have h3 : (nextElement 11 LCG.new).isSome := by decide +kernel
    obtain ⟨r, hr⟩ := Option.isSome_iff_exists.1 h3
    unfold MerkleDamgard.newDefaults
    rw [hr]
    rfl
  obtain ⟨h, hh⟩ := Option.isSome_iff_exists.1 (h2 (daviesMeyer c.toBlockCipher))
  exact ⟨c, h, hc, hh, C98_initial_value hc Nat.two_pos hh⟩

end R1CS
