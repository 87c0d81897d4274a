import Verif.Props.Lcg

/-!
# C70: for which limits `next_biguint` returns

The limit is described by the 32-bit words of the largest number allowed: there are `k` of them, and the
topmost is `t`, a number of `r` bits.
-/

namespace R1CS

open LCG

theorem size_words {k r t l : ℕ} (hk : 0 < k) (hr : 0 < r) (ht : 2 ^ (r - 1) ≤ t)
    (ht' : t < 2 ^ r) (hl : l < 2 ^ (32 * (k - 1))) :
    (2 ^ (32 * (k - 1)) * t + l).size = 32 * (k - 1) + r := by
  apply le_antisymm
  · rw [Nat.size_le, pow_add]
    have := Nat.mul_le_mul_left (2 ^ (32 * (k - 1))) (Nat.succ_le_of_lt ht')
    rw [Nat.mul_succ] at this
    omega
  · have h : 32 * (k - 1) + (r - 1) < (2 ^ (32 * (k - 1)) * t + l).size := by
      rw [Nat.lt_size, pow_add]
      have := Nat.mul_le_mul_left (2 ^ (32 * (k - 1))) ht
      omega
    omega

/-- The topmost word of a draw of `k` words, the topmost of `r` bits. -/
theorem draw_top {k r : ℕ} (hk : 0 < k) (hr : 0 < r) (hr' : r ≤ 32) {g : LCG}
    (hg : g.state < 2 ^ 32) :
    ∃ low < 2 ^ (32 * (k - 1)), (nextBiguintBits (32 * (k - 1) + r) g).1 =
      low + 2 ^ (32 * (k - 1)) * ((after k g).state % 2 ^ r) := by
  have hc : chunks (32 * (k - 1) + r) = k := by unfold chunks; omega
  obtain ⟨low, hlow, top, hn, ht⟩ := nextBiguintBits_top (bits := 32 * (k - 1) + r) (by omega) g
  rw [hc] at hlow hn ht
  refine ⟨low, hlow, ?_⟩
  rcases ht with ⟨rfl, h⟩ | ⟨rfl, h⟩
  · have : r = 32 := by omega
    subst this
    rw [hn, Nat.mod_eq_of_lt (after_lt hg k)]
  · rw [hn]
    by_cases h32 : r = 32
    · subst h32; omega
    · rw [show (32 * (k - 1) + r) % 32 = r by omega]

/-- C70, for which limits the loop of `next_biguint` ends.  Let the largest number allowed have `k` words of
32 bits, the topmost being `t`, a number of `r` bits.

* If `2 ^ r` does not divide `k`, it returns from every state.
* Otherwise the topmost word of every draw is the same, the low `r` bits of the state.  If it is below `t`,
  the first draw is returned; if it is above `t`, no number of draws is enough.  If it is `t`, the
  other words decide: see `C70_biguint_exact_partial`. -/
theorem C70_biguint_limits_partial {k r t l limit : ℕ} (hk : 0 < k) (hr : 0 < r) (hr' : r ≤ 32)
    (ht : 2 ^ (r - 1) ≤ t) (ht' : t < 2 ^ r) (hl : l < 2 ^ (32 * (k - 1)))
    (hlimit : limit = 2 ^ (32 * (k - 1)) * t + l + 1) (g : LCG) (hg : g.state < 2 ^ 32) :
    (¬ 2 ^ r ∣ k → ∃ n g', nextBiguint limit g = some (n, g')) ∧
    (2 ^ r ∣ k → g.state % 2 ^ r < t →
      nextBiguint limit g = some (nextBiguintBits (32 * (k - 1) + r) g)) ∧
    (2 ^ r ∣ k → t < g.state % 2 ^ r →
      ∀ fuel, drawLoop limit (limit - 1).size fuel g = none) := by
  have hsize : (limit - 1).size = 32 * (k - 1) + r := by
    rw [hlimit, Nat.add_sub_cancel, size_words hk hr ht ht' hl]
  have hc : chunks (32 * (k - 1) + r) = k := by unfold chunks; omega
  have hsame : 2 ^ r ∣ k → ∀ i, (after (k * i) g).state % 2 ^ r = g.state % 2 ^ r := fun h i =>
    (after_modEq_iff hr' (k * i) g).2 (Dvd.dvd.mul_right h i)
  have hu : nextBiguint limit g = drawLoop limit (32 * (k - 1) + r) (2 ^ 32) g := by
    unfold nextBiguint
    rw [if_neg (by omega), hsize]
  refine ⟨fun h => ?_, fun h hlt => ?_, fun h hgt fuel => ?_⟩
  · suffices hs : nextBiguint limit g ≠ none by
      obtain ⟨⟨n, g'⟩, hr⟩ := Option.ne_none_iff_exists'.1 hs
      exact ⟨n, g', hr⟩
    rw [hu]
    intro hnone
    rw [drawLoop_none, hc] at hnone
    obtain ⟨e, he, hd⟩ := (Nat.dvd_prime_pow Nat.prime_two).1 (Nat.gcd_dvd_right k (2 ^ 32))
    have her : e < r := by
      by_contra hcon
      exact h (dvd_trans (pow_dvd_pow 2 (by omega)) (hd ▸ Nat.gcd_dvd_left k (2 ^ 32)))
    obtain ⟨j, hj, hjs⟩ := after_mul_surjective (g := g) (h := ⟨g.state % Nat.gcd k (2 ^ 32)⟩) hg
      (lt_of_le_of_lt (Nat.mod_le _ _) hg) k (Nat.mod_modEq _ _)
    have hge := hnone j hj
    obtain ⟨low, hlow, hn⟩ := draw_top hk hr hr' (after_lt hg (k * j))
    rw [← after_add, show k + k * j = k * (j + 1) by ring, hjs] at hn
    dsimp only at hn
    have h1 : g.state % Nat.gcd k (2 ^ 32) % 2 ^ r < t := by
      refine lt_of_le_of_lt (Nat.mod_le _ _) (lt_of_lt_of_le (Nat.mod_lt _ ?_) (le_trans ?_ ht))
      · rw [hd]; exact Nat.two_pow_pos e
      · rw [hd]; exact Nat.pow_le_pow_right (by norm_num) (by omega)
    have h2 := Nat.mul_le_mul_left (2 ^ (32 * (k - 1))) (Nat.succ_le_of_lt h1)
    rw [Nat.mul_succ] at h2
    rw [hn] at hge
    omega
  · obtain ⟨low, hlow, hn⟩ := draw_top hk hr hr' hg
    have h1 := hsame h 1
    rw [Nat.mul_one] at h1
    rw [h1] at hn
    have h2 := Nat.mul_le_mul_left (2 ^ (32 * (k - 1))) (Nat.succ_le_of_lt hlt)
    rw [Nat.mul_succ] at h2
    have h3 : (nextBiguintBits (32 * (k - 1) + r) g).1 < limit := by omega
    rw [hu, show (2 : ℕ) ^ 32 = 4294967295 + 1 by norm_num, drawLoop]
    exact if_pos h3
  · rw [hsize, drawLoop_none, hc]
    intro i _
    obtain ⟨low, hlow, hn⟩ := draw_top hk hr hr' (after_lt hg (k * i))
    rw [← after_add, show k + k * i = k * (i + 1) by ring, hsame h] at hn
    have h2 := Nat.mul_le_mul_left (2 ^ (32 * (k - 1))) (Nat.succ_le_of_lt hgt)
    rw [Nat.mul_succ] at h2
    omega

/-- The two topmost words of a draw of at least two words. -/
theorem draw_top_two {k r : ℕ} (hk : 2 ≤ k) (hr : 0 < r) (hr' : r ≤ 32) {g : LCG}
    (hg : g.state < 2 ^ 32) :
    ∃ low < 2 ^ (32 * (k - 2)), (nextBiguintBits (32 * (k - 1) + r) g).1 =
      low + 2 ^ (32 * (k - 2)) * (after (k - 1) g).state +
        2 ^ (32 * (k - 1)) * ((after k g).state % 2 ^ r) := by
  obtain ⟨n, rfl⟩ : ∃ n, k = n + 2 := ⟨k - 2, by omega⟩
  simp only [Nat.add_sub_cancel, show n + 2 - 1 = n + 1 by omega]
  have hlow := ofDigits_lt (fullChunks_spec n g).2.2
  rw [(fullChunks_spec n g).2.1] at hlow
  refine ⟨_, hlow, ?_⟩
  have h1 : ofDigits (fullChunks (n + 1) g).1 =
      ofDigits (fullChunks n g).1 + 2 ^ (32 * n) * (after (n + 1) g).state := by
    rw [fullChunks_succ, ofDigits_append, (fullChunks_spec n g).2.1]
  unfold nextBiguintBits
  by_cases h32 : r = 32
  · subst h32
    have hm : ¬ (32 * (n + 1) + 32) % 32 > 0 := by omega
    simp only [if_neg hm]
    rw [show (32 * (n + 1) + 32) / 32 = n + 1 + 1 by omega, fullChunks_succ, ofDigits_append, h1,
      (fullChunks_spec (n + 1) g).2.1, Nat.mod_eq_of_lt (after_lt hg (n + 2))]
  · have hm : (32 * (n + 1) + r) % 32 > 0 := by omega
    simp only [if_pos hm]
    rw [show (32 * (n + 1) + r) / 32 = n + 1 by omega, show (32 * (n + 1) + r) % 32 = r by omega,
      ofDigits_append, h1, (fullChunks_spec (n + 1) g).2.1, (fullChunks_spec (n + 1) g).1,
      nextU32_pair, ← after_add, Nat.one_shiftLeft, show 1 + (n + 1) = n + 2 by omega]

theorem after_period {g : LCG} (hg : g.state < 2 ^ 32) (m : ℕ) : after (2 ^ 32 * m) g = g :=
  (after_eq_iff hg _).2 ⟨m, rfl⟩

theorem after_injective {g h : LCG} (hg : g.state < 2 ^ 32) (hh : h.state < 2 ^ 32) {m : ℕ}
    (e : after m g = after m h) : g = h := by
  have h1 := congrArg (after (2 ^ 32 * m - m)) e
  have h2 : 2 ^ 32 * m - m + m = 2 ^ 32 * m := Nat.sub_add_cancel (Nat.le_mul_of_pos_left m (by norm_num))
  rwa [← after_add, ← after_add, h2, after_period hg, after_period hh] at h1

/-- C70, what remains when `2 ^ r` divides the number of words: among the draws there is one whose second word
from the top is less than the highest power of 2 dividing the number of words (at most `2 ^ 32`).  It is the
smallest of all draws, so that `next_biguint` returns exactly if it is in range. -/
theorem C70_biguint_exact_partial {k r t l limit : ℕ} (hk : 0 < k) (hr : 0 < r) (hr' : r ≤ 32)
    (ht : 2 ^ (r - 1) ≤ t) (ht' : t < 2 ^ r) (hl : l < 2 ^ (32 * (k - 1)))
    (hlimit : limit = 2 ^ (32 * (k - 1)) * t + l + 1) (hd : 2 ^ r ∣ k) (g : LCG)
    (hg : g.state < 2 ^ 32) :
    (∃ j < 2 ^ 32, (after (k - 1) (after (k * j) g)).state < Nat.gcd k (2 ^ 32)) ∧
    ∀ j, (after (k - 1) (after (k * j) g)).state < Nat.gcd k (2 ^ 32) →
      (∀ i, (nextBiguintBits (32 * (k - 1) + r) (after (k * j) g)).1 ≤
        (nextBiguintBits (32 * (k - 1) + r) (after (k * i) g)).1) ∧
      ((∃ n g', nextBiguint limit g = some (n, g')) ↔
        (nextBiguintBits (32 * (k - 1) + r) (after (k * j) g)).1 < limit) := by
  have hsize : (limit - 1).size = 32 * (k - 1) + r := by
    rw [hlimit, Nat.add_sub_cancel, size_words hk hr ht ht' hl]
  have hc : chunks (32 * (k - 1) + r) = k := by unfold chunks; omega
  have hk2 : 2 ≤ k := le_trans (by
    calc 2 = 2 ^ 1 := rfl
      _ ≤ 2 ^ r := Nat.pow_le_pow_right (by norm_num) hr) (Nat.le_of_dvd hk hd)
  have hu : nextBiguint limit g = drawLoop limit (32 * (k - 1) + r) (2 ^ 32) g := by
    unfold nextBiguint
    rw [if_neg (by omega), hsize]
  obtain ⟨e, he, hde⟩ := (Nat.dvd_prime_pow Nat.prime_two).1 (Nat.gcd_dvd_right k (2 ^ 32))
  have hdk : 2 ^ e ∣ k := hde ▸ Nat.gcd_dvd_left k (2 ^ 32)
  have hcomm : ∀ i, after (k - 1) (after (k * i) g) = after (k * i) (after (k - 1) g) := fun i => by
    rw [← after_add, ← after_add, Nat.add_comm]
  have hclass : ∀ i, (after (k - 1) (after (k * i) g)).state % 2 ^ e =
      (after (k - 1) g).state % 2 ^ e := fun i => by
    rw [hcomm]
    exact (after_modEq_iff he (k * i) _).2 (Dvd.dvd.mul_right hdk i)
  refine ⟨?_, fun j hj => ?_⟩
  · obtain ⟨j, hj, hjs⟩ := after_mul_surjective (g := after (k - 1) g)
      (h := ⟨(after (k - 1) g).state % Nat.gcd k (2 ^ 32)⟩) (after_lt hg _)
      (lt_of_le_of_lt (Nat.mod_le _ _) (after_lt hg _)) k (Nat.mod_modEq _ _)
    have hlt : (after (k - 1) (after (k * (j + 1)) g)).state < Nat.gcd k (2 ^ 32) := by
      rw [hcomm, hjs]
      exact Nat.mod_lt _ (by rw [hde]; exact Nat.two_pow_pos e)
    by_cases hj1 : j + 1 < 2 ^ 32
    · exact ⟨j + 1, hj1, hlt⟩
    · have : j + 1 = 2 ^ 32 := by omega
      rw [this, Nat.mul_comm k, after_period hg] at hlt
      exact ⟨0, by norm_num, hlt⟩
  · rw [hde] at hj
    have hmin : ∀ i, (nextBiguintBits (32 * (k - 1) + r) (after (k * j) g)).1 ≤
        (nextBiguintBits (32 * (k - 1) + r) (after (k * i) g)).1 := by
      intro i
      obtain ⟨lj, hlj, hnj⟩ := draw_top_two hk2 hr hr' (after_lt hg (k * j))
      obtain ⟨li, hli, hni⟩ := draw_top_two hk2 hr hr' (after_lt hg (k * i))
      have htop : ∀ i, (after k (after (k * i) g)).state % 2 ^ r = g.state % 2 ^ r := fun i => by
        rw [← after_add, show k + k * i = k * (i + 1) by ring]
        exact (after_modEq_iff hr' _ g).2 (Dvd.dvd.mul_right hd _)
      rw [htop] at hnj hni
      have hle : (after (k - 1) (after (k * j) g)).state ≤ (after (k - 1) (after (k * i) g)).state := by
        have h1 := hclass j
        rw [Nat.mod_eq_of_lt hj, ← hclass i] at h1
        rw [h1]
        exact Nat.mod_le _ _
      rcases hle.eq_or_lt with heq | hlt
      · have h1 : after (k - 1) (after (k * j) g) = after (k - 1) (after (k * i) g) := by
          cases h2 : after (k - 1) (after (k * j) g)
          cases h3 : after (k - 1) (after (k * i) g)
          rw [h2, h3] at heq
          exact congrArg LCG.mk heq
        rw [after_injective (after_lt hg _) (after_lt hg _) h1]
      · have h2 := Nat.mul_le_mul_left (2 ^ (32 * (k - 2))) (Nat.succ_le_of_lt hlt)
        rw [Nat.mul_succ] at h2
        rw [hnj, hni]
        omega
    refine ⟨hmin, ?_, fun h => ?_⟩
    · rintro ⟨n, g', h⟩
      rw [hu] at h
      obtain ⟨hn, i, -, hni, -, -⟩ := drawLoop_some h
      rw [hc] at hni
      exact lt_of_le_of_lt (hmin i) (hni ▸ hn)
    · suffices hs : nextBiguint limit g ≠ none by
        obtain ⟨⟨n, g'⟩, hr⟩ := Option.ne_none_iff_exists'.1 hs
        exact ⟨n, g', hr⟩
      rw [hu]
      intro hnone
      rw [drawLoop_none, hc] at hnone
      have h1 := hnone (j % 2 ^ 32) (Nat.mod_lt _ (by norm_num))
      have h2 : after (k * j) g = after (k * (j % 2 ^ 32)) g := by
        conv_lhs => rw [← Nat.mod_add_div j (2 ^ 32)]
        rw [Nat.mul_add, after_add, show k * (2 ^ 32 * (j / 2 ^ 32)) = 2 ^ 32 * (k * (j / 2 ^ 32)) by ring,
          after_period hg]
      rw [h2] at h
      omega

/-- C70: so there is a state from which `next_biguint` never returns, as soon as `2 ^ r` divides the number
of words and the topmost word of the limit is not made of ones only. -/
theorem C70_biguint_never_refuted {k r t l limit : ℕ} (hk : 0 < k) (hr : 0 < r) (hr' : r ≤ 32)
    (ht : 2 ^ (r - 1) ≤ t) (ht' : t + 1 < 2 ^ r) (hl : l < 2 ^ (32 * (k - 1)))
    (hlimit : limit = 2 ^ (32 * (k - 1)) * t + l + 1) (hd : 2 ^ r ∣ k) :
    ∃ g : LCG, g.state < 2 ^ 32 ∧ ∀ fuel, drawLoop limit (limit - 1).size fuel g = none := by
  have h32 : 2 ^ r ≤ 2 ^ 32 := Nat.pow_le_pow_right (by norm_num) hr'
  refine ⟨⟨2 ^ r - 1⟩, by show 2 ^ r - 1 < _; omega, ?_⟩
  refine (C70_biguint_limits_partial hk hr hr' ht (by omega) hl hlimit _
    (by show 2 ^ r - 1 < _; omega)).2.2 hd ?_
  show t < (2 ^ r - 1) % 2 ^ r
  rw [Nat.mod_eq_of_lt (by omega)]
  omega

/-- The words of a number. -/
theorem words_of {n : ℕ} (hn : 0 < n) : ∃ k r t l, 0 < k ∧ 0 < r ∧ r ≤ 32 ∧ 2 ^ (r - 1) ≤ t ∧
    t < 2 ^ r ∧ l < 2 ^ (32 * (k - 1)) ∧ n = 2 ^ (32 * (k - 1)) * t + l ∧ chunks n.size = k := by
  have hs : 0 < n.size := Nat.size_pos.2 hn
  have hc : chunks n.size = (n.size + 31) / 32 := rfl
  refine ⟨chunks n.size, n.size - 32 * (chunks n.size - 1), n / 2 ^ (32 * (chunks n.size - 1)),
    n % 2 ^ (32 * (chunks n.size - 1)), by omega, by omega, by omega, ?_, ?_,
    Nat.mod_lt _ (Nat.two_pow_pos _), (Nat.div_add_mod _ _).symm, rfl⟩
  · rw [Nat.le_div_iff_mul_le (Nat.two_pow_pos _), ← pow_add]
    exact Nat.lt_size.1 (by omega)
  · rw [Nat.div_lt_iff_lt_mul (Nat.two_pow_pos _), ← pow_add]
    exact Nat.size_le.1 (by omega)

/-- A state with as many zeros at the end as the number of words has factors 2 leads to a draw in
range, and to such a state. -/
theorem nextBiguint_aligned {limit : ℕ} (hl : 0 < limit) {i : ℕ} :
    ∃ n j, nextBiguint limit (after (chunks (limit - 1).size * i) new) =
      some (n, after (chunks (limit - 1).size * j) new) ∧ n < limit := by
  have hlt : (after (chunks (limit - 1).size * i) new).state < 2 ^ 32 := after_lt (by decide) _
  suffices hs : nextBiguint limit (after (chunks (limit - 1).size * i) new) ≠ none by
    obtain ⟨⟨n, g'⟩, hr⟩ := Option.ne_none_iff_exists'.1 hs
    have hr' := hr
    unfold nextBiguint at hr'
    rw [if_neg hl.ne'] at hr'
    obtain ⟨hn, j, -, -, hg, -⟩ := drawLoop_some hr'
    refine ⟨n, j + 1 + i, ?_, hn⟩
    rw [hr, hg, ← after_add, ← Nat.mul_add]
  rcases Nat.eq_zero_or_pos (limit - 1) with h0 | hpos
  · have : limit = 1 := by omega
    subst this
    intro hnone
    unfold nextBiguint at hnone
    rw [if_neg (by norm_num), drawLoop_none] at hnone
    have h1 := hnone 0 (by norm_num)
    have h2 := nextBiguintBits_lt (1 - 1 : ℕ).size (after (chunks (1 - 1 : ℕ).size * 0)
      (after (chunks (1 - 1 : ℕ).size * i) new))
    rw [Nat.sub_self, Nat.size_zero, pow_zero] at h2
    rw [Nat.sub_self, Nat.size_zero] at h1
    omega
  · obtain ⟨k, r, t, l, hk, hr, hr', ht, ht', hl', hn, hc⟩ := words_of hpos
    rw [hc] at hlt ⊢
    obtain ⟨h1, h2, -⟩ := C70_biguint_limits_partial hk hr hr' ht ht' hl'
      (show limit = _ by omega) (after (k * i) new) hlt
    by_cases hd : 2 ^ r ∣ k
    · have hz : (after (k * i) new).state % 2 ^ r = 0 :=
        (after_modEq_iff hr' (k * i) new).2 (Dvd.dvd.mul_right hd i)
      rw [h2 hd (by rw [hz]; exact lt_of_lt_of_le (Nat.two_pow_pos _) ht)]
      simp
    · obtain ⟨n, g', h⟩ := h1 hd
      rw [h]
      simp

/-- C70: from a new generator, `next_biguint` returns for every limit above 0, and any number of elements
of any field can be drawn. -/
theorem C70_new_returns :
    (∀ limit, 0 < limit → ∃ n g', nextBiguint limit new = some (n, g') ∧ n < limit) ∧
    ∀ (p : ℕ), 0 < p → ∀ n, ∃ (es : List (Elem p)) (g' : LCG),
      nextElements p n new = some (es, g') ∧ es.length = n := by
  refine ⟨fun limit hl => ?_, fun p hp n => ?_⟩
  · obtain ⟨n, j, h, hn⟩ := nextBiguint_aligned hl (i := 0)
    exact ⟨n, _, h, hn⟩
  · have key : ∀ n i, ∃ (es : List (Elem p)) (g' : LCG),
        nextElements p n (after (chunks (p - 1).size * i) new) = some (es, g') ∧ es.length = n := by
      intro n
      induction n with
      | zero => exact fun i => ⟨[], _, rfl, rfl⟩
      | succ n ih =>
        intro i
        obtain ⟨m, j, h, hm⟩ := nextBiguint_aligned hp (i := i)
        obtain ⟨es, g', h2, hlen⟩ := ih j
        have h1 := ((C70_biguint_range p _ _).2 ⟨m, hm⟩).2 h
        refine ⟨⟨m, hm⟩ :: es, g', ?_, by rw [List.length_cons, hlen]⟩
        rw [nextElements, h1]
        simp only [Option.bind_eq_bind, Option.bind_some, h2, Option.pure_def]
    exact key n 0

/-- From a new generator `next_biguint(2 ^ 96 + 1)` returns, although it does not after one draw
(`C70_biguint_refuted`). -/
example : ∃ n g', nextBiguint (2 ^ 96 + 1) new = some (n, g') ∧ n < 2 ^ 96 + 1 :=
  C70_new_returns.1 _ (by norm_num)

/-- Three words, the topmost of 6 bits: `next_biguint(2 ^ 69 + 1)` returns from every state. -/
example (g : LCG) (hg : g.state < 2 ^ 32) : ∃ n g', nextBiguint (2 ^ 69 + 1) g = some (n, g') :=
  (C70_biguint_limits_partial (k := 3) (r := 6) (t := 32) (l := 0) (by norm_num) (by norm_num)
    (by norm_num) (by norm_num) (by norm_num) (by norm_num) (by norm_num) g hg).1 (by decide)

/-- Four words, the topmost of 2 bits: from a new generator the first draw below `2 ^ 97 + 1` is
returned, and from the state 3 none ever is. -/
example : nextBiguint (2 ^ 97 + 1) new = some (nextBiguintBits 98 new) ∧
    ∀ fuel, drawLoop (2 ^ 97 + 1) (2 ^ 97 + 1 - 1).size fuel ⟨3⟩ = none :=
  ⟨(C70_biguint_limits_partial (k := 4) (r := 2) (t := 2) (l := 0) (limit := 2 ^ 97 + 1)
    (by norm_num) (by norm_num) (by norm_num) (by norm_num) (by norm_num) (by norm_num) (by norm_num)
    new (by decide)).2.1 (by decide) (by decide),
  (C70_biguint_limits_partial (k := 4) (r := 2) (t := 2) (l := 0) (limit := 2 ^ 97 + 1)
    (by norm_num) (by norm_num) (by norm_num) (by norm_num) (by norm_num) (by norm_num) (by norm_num)
    ⟨3⟩ (by decide)).2.2 (by decide) (by decide)⟩

/-- Four words, the topmost of one bit, the next one up to `2 ^ 31`: the smallest draw is always in range, so
`next_biguint(2 ^ 96 + 2 ^ 95 + 1)` returns from every state. -/
example (g : LCG) (hg : g.state < 2 ^ 32) :
    ∃ n g', nextBiguint (2 ^ 96 + 2 ^ 95 + 1) g = some (n, g') := by
  obtain ⟨⟨j, -, hj⟩, h⟩ := C70_biguint_exact_partial (k := 4) (r := 1) (t := 1) (l := 2 ^ 95)
    (limit := 2 ^ 96 + 2 ^ 95 + 1) (by norm_num) (by norm_num) (by norm_num) (by norm_num)
    (by norm_num) (by norm_num) (by norm_num) (by norm_num) g hg
  refine (h j hj).2.2 ?_
  obtain ⟨low, hlow, hn⟩ := draw_top_two (k := 4) (r := 1) (by norm_num) (by norm_num)
    (by norm_num) (after_lt hg (4 * j))
  rw [show Nat.gcd 4 (2 ^ 32) = 4 from rfl] at hj
  rw [hn]
  norm_num at hlow hj ⊢
  omega

/-- The refutation applies to a limit of 98 bits: four words, the topmost of 2 bits. -/
example : ∃ g : LCG, g.state < 2 ^ 32 ∧
    ∀ fuel, drawLoop (2 ^ 97 + 5) (2 ^ 97 + 5 - 1).size fuel g = none :=
  C70_biguint_never_refuted (k := 4) (r := 2) (t := 2) (l := 4) (by norm_num) (by norm_num)
    (by norm_num) (by norm_num) (by norm_num) (by norm_num) (by norm_num) (by decide)

end R1CS
