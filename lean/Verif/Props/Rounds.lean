import Verif.Props.HashBuilders
import Verif.Props.Hashes
import Verif.Props.Primes
import Verif.Props.Readme
import Verif.Model.Rounds
import Verif.Spec.Rounds
import Mathlib.Algebra.Polynomial.Eval.Degree

/-!
# C80, C81: numbers of rounds of Poseidon and MiMC
-/

set_option linter.unusedSectionVars false

namespace R1CS

variable {p : ℕ} [hp : Fact p.Prime]

namespace Poseidon

/-! ## Monotonicity -/

theorem logb_nonneg {w : ℕ} (hw : 0 < w) : 0 ≤ Real.logb 2 w :=
  Real.logb_nonneg (by norm_num) (by exact_mod_cast hw)

theorem logb_le {w : ℕ} (hw : 0 < w) : Real.logb 2 w ≤ w - 1 := by
  rw [Real.logb_le_iff_le_rpow (by norm_num) (by exact_mod_cast hw)]
  have h : w ≤ 2 ^ (w - 1) := by
    have := Nat.lt_two_pow_self (n := w - 1); omega
  have h2 : ((w : ℝ) - 1) = ((w - 1 : ℕ) : ℝ) := by rw [Nat.cast_sub hw]; simp
  rw [h2, Real.rpow_natCast]
  exact_mod_cast h

theorem Resists.mono {s : PoseidonSbox} {bits w f r f' r' : ℕ} (hw : 0 < w) (hf : f ≤ f')
    (hr : r ≤ r') (h : Resists p s bits w f r) : Resists p s bits w f' r' := by
  have hw' : (0 : ℝ) ≤ w - 1 := by
    have : (1 : ℝ) ≤ w := by exact_mod_cast hw
    linarith
  have hf' : (f : ℝ) ≤ f' := by exact_mod_cast hf
  have hr' : (r : ℝ) ≤ r' := by exact_mod_cast hr
  have hm := mul_le_mul_of_nonneg_left hf' hw'
  have hl := mul_le_mul_of_nonneg_right hf' (logb_nonneg hw)
  cases s
  · exact ⟨by have := h.1; linarith, by have := h.2; linarith, by have := h.3; linarith⟩
  · exact ⟨by have := h.1; linarith, by have := h.2; linarith, by have := h.3; linarith⟩
  · exact ⟨by have := h.1; linarith, by have := h.2; linarith⟩

/-- Trading a full round for `w` partial rounds keeps the conditions; for width at least 2, even for
`w - 1` partial rounds. -/
theorem Resists.trade {s : PoseidonSbox} {bits w f r k : ℕ} (hw : 0 < w) (hk : 1 ≤ k) (hk' : w ≤ k + 1)
    (h : Resists p s bits w (f + 1) r) : Resists p s bits w f (r + k) := by
  have h1 : (1 : ℝ) ≤ k := by exact_mod_cast hk
  have h2 : (w : ℝ) ≤ k + 1 := by exact_mod_cast hk'
  have h3 := logb_le hw
  cases s
  · have a := h.1; have b := h.2; have c := h.3
    push_cast at a b c
    refine ⟨?_, ?_, ?_⟩ <;> push_cast <;> linarith
  · have a := h.1; have b := h.2; have c := h.3
    push_cast at a b c
    refine ⟨?_, ?_, ?_⟩ <;> push_cast <;> linarith
  · have a := h.1; have b := h.2
    push_cast at a b
    refine ⟨?_, ?_⟩ <;> push_cast <;> linarith

theorem Resists.trade_many {s : PoseidonSbox} {bits w f k : ℕ} (hw : 0 < w) (hk : 1 ≤ k)
    (hk' : w ≤ k + 1) : ∀ {n r : ℕ}, Resists p s bits w (f + n) r → Resists p s bits w f (r + k * n)
  | 0, r, h => by simpa using h
  | n + 1, r, h => by
    have := Resists.trade_many hw hk hk' (n := n) (Resists.trade hw hk hk' h)
    rwa [show r + k * (n + 1) = r + k + k * n by ring]

/-- Enough partial rounds meet the conditions. -/
theorem Resists.of_large {s : PoseidonSbox} {bits w f r : ℕ} (hw : 0 < w) (hr : bits + w < r) :
    Resists p s bits w f r := by
  have hm : ((min bits (p - 1).size : ℕ) : ℝ) ≤ bits := by exact_mod_cast Nat.min_le_left _ _
  have hm0 : (0 : ℝ) ≤ ((min bits (p - 1).size : ℕ) : ℝ) := by positivity
  have hr' : (bits : ℝ) + w + 1 ≤ r := by exact_mod_cast hr
  have hw' : (0 : ℝ) ≤ w - 1 := by
    have : (1 : ℝ) ≤ w := by exact_mod_cast hw
    linarith
  have hf : (0 : ℝ) ≤ f := by positivity
  have hl := logb_le hw
  have hl0 := logb_nonneg hw
  have hm1 := mul_nonneg hw' hf
  have hm2 := mul_nonneg hf hl0
  have b3 : Real.logb 3 2 ≤ 1 := by
    rw [Real.logb_le_iff_le_rpow (by norm_num) (by norm_num)]; norm_num
  have b5 : Real.logb 5 2 ≤ 1 := by
    rw [Real.logb_le_iff_le_rpow (by norm_num) (by norm_num)]; norm_num
  have c3 := mul_le_mul_of_nonneg_right b3 hm0
  have c5 := mul_le_mul_of_nonneg_right b5 hm0
  cases s
  · refine ⟨?_, ?_, ?_⟩ <;> linarith
  · refine ⟨?_, ?_, ?_⟩ <;> linarith
  · refine ⟨?_, ?_⟩ <;> linarith

/-! ## The searches -/

theorem isAttackable_eq {s : PoseidonSbox} {bits w f r : ℕ} (hw : 0 < w) :
    ∃ a, isAttackable p s w f r bits = some a ∧ (a = false ↔ Resists p s bits w f r) := by
  have hb : (p - 1).size = Elem.maxBits p := (Elem.maxBits_eq).symm
  have hc : (((w - 1 : ℕ) : ℝ)) = w - 1 := by rw [Nat.cast_sub hw]; simp
  cases s
  · refine ⟨_, if_neg hw.ne', ?_⟩
    rw [Bool.or_eq_false_iff, Bool.or_eq_false_iff, decide_eq_false_iff_not, decide_eq_false_iff_not,
      decide_eq_false_iff_not, not_le, not_le, not_le]
    unfold minNM
    push_cast [hc]
    constructor
    · rintro ⟨⟨h1, h2⟩, h3⟩
      refine ⟨?_, ?_, ?_⟩ <;> rw [hb] <;> push_cast <;> linarith
    · rintro ⟨h1, h2, h3⟩
      rw [hb] at h1 h2 h3
      push_cast at h1 h2 h3
      refine ⟨⟨?_, ?_⟩, ?_⟩ <;> linarith
  · refine ⟨_, if_neg hw.ne', ?_⟩
    rw [Bool.or_eq_false_iff, Bool.or_eq_false_iff, decide_eq_false_iff_not, decide_eq_false_iff_not,
      decide_eq_false_iff_not, not_le, not_le, not_le]
    unfold minNM
    push_cast [hc]
    constructor
    · rintro ⟨⟨h1, h2⟩, h3⟩
      refine ⟨?_, ?_, ?_⟩ <;> rw [hb] <;> push_cast <;> linarith
    · rintro ⟨h1, h2, h3⟩
      rw [hb] at h1 h2 h3
      push_cast at h1 h2 h3
      refine ⟨⟨?_, ?_⟩, ?_⟩ <;> linarith
  · refine ⟨_, if_neg hw.ne', ?_⟩
    rw [Bool.or_eq_false_iff, decide_eq_false_iff_not, decide_eq_false_iff_not, not_le, not_le]
    unfold minNM
    push_cast [hc]
    constructor
    · rintro ⟨h1, h2⟩
      refine ⟨?_, ?_⟩ <;> rw [hb] <;> push_cast <;> linarith
    · rintro ⟨h1, h2⟩
      rw [hb] at h1 h2
      push_cast at h1 h2
      refine ⟨?_, ?_⟩ <;> linarith

theorem partialLoop_spec {s : PoseidonSbox} {bits w f : ℕ} (hw : 0 < w) :
    ∀ (fuel r : ℕ), (∀ r' < r, ¬ Resists p s bits w f r') → bits + w + 1 < fuel + r →
      ∃ r1, partialLoop p s w f bits fuel r = some r1 ∧ Resists p s bits w f r1 ∧
        ∀ r', Resists p s bits w f r' → r1 ≤ r'
  | 0, r, h, hf => absurd (Resists.of_large hw (Nat.lt_succ_self _)) (h (bits + w + 1) (by omega))
  | fuel + 1, r, h, hf => by
    obtain ⟨a, h1, h2⟩ := isAttackable_eq (p := p) (s := s) (bits := bits) (f := f) (r := r) hw
    rw [partialLoop, h1]
    simp only [Option.bind_eq_bind, Option.bind_some]
    cases a with
    | false =>
      refine ⟨r, rfl, h2.1 rfl, fun r' h' => ?_⟩
      by_contra hlt
      exact h r' (by omega) h'
    | true =>
      refine partialLoop_spec hw fuel (r + 1) (fun r' hr' h' => ?_) (by omega)
      rcases Nat.lt_succ_iff_lt_or_eq.1 hr' with hr' | rfl
      · exact h r' hr' h'
      · exact absurd (h2.2 h') (by decide)

/-- `secure_partial_rounds_unpadded` returns the least number of partial rounds. -/
theorem securePartialRounds_spec {s : PoseidonSbox} {bits w : ℕ} (hw : 0 < w) (f : ℕ) :
    ∃ r, securePartialRounds p s w f bits = some r ∧ Resists p s bits w f r ∧
      (∀ r', Resists p s bits w f r' → r ≤ r') ∧ r ≤ bits + w + 1 := by
  obtain ⟨r, h1, h2, h3⟩ := partialLoop_spec (p := p) (s := s) (bits := bits) (f := f) hw
    (bits + w + 3) 0 (by omega) (by omega)
  exact ⟨r, h1, h2, h3, h3 _ (Resists.of_large hw (Nat.lt_succ_self _))⟩

theorem roundsLoop_spec {s : PoseidonSbox} {bits w : ℕ} (hw : 0 < w) :
    ∀ (fuel f r : ℕ), 6 ≤ f → 2 ∣ f → Resists p s bits w f r →
      (∀ f' r', 6 ≤ f' → Resists p s bits w f' r' → f * w + r ≤ f' * w + r') → r < fuel →
      ∃ f1 r1, roundsLoop p s w bits fuel f (f, r) (numSboxes w f r) = some (f1, r1) ∧ f ≤ f1 ∧
        2 ∣ f1 ∧ Resists p s bits w f1 r1 ∧
        (∀ f' r', 6 ≤ f' → Resists p s bits w f' r' → f1 * w + r1 ≤ f' * w + r') ∧
        (2 ≤ w → (∀ r', Resists p s bits w f r' → r ≤ r') → f1 = f ∧ r1 = r)
  | 0, f, r, _, _, _, _, h => absurd h (by omega)
  | fuel + 1, f, r, h6, h2, hr, hmin, hfuel => by
    obtain ⟨r2, e, g1, g2, -⟩ := securePartialRounds_spec (p := p) (s := s) (bits := bits) hw (f + 2)
    have hl : roundsLoop p s w bits (fuel + 1) f (f, r) (numSboxes w f r) =
        if f * w + r < (f + 2) * w + r2 then some (f, r)
        else roundsLoop p s w bits fuel (f + 2) (f + 2, r2) (numSboxes w (f + 2) r2) := by
      rw [roundsLoop]
      simp only [e, Option.bind_eq_bind, Option.bind_some]
      rfl
    rw [hl]
    by_cases hlt : f * w + r < (f + 2) * w + r2
    · rw [if_pos hlt]
      exact ⟨f, r, rfl, le_refl _, h2, hr, hmin, fun _ _ => ⟨rfl, rfl⟩⟩
    · rw [if_neg hlt]
      rw [Nat.add_mul] at hlt
      obtain ⟨f1, r1, a1, a2, a3, a4, a5, -⟩ := roundsLoop_spec hw fuel (f + 2) r2 (by omega)
        (by omega) g1 (fun f' r' h6' h' => by
          have := hmin f' r' h6' h'
          rw [Nat.add_mul]; omega) (by omega)
      refine ⟨f1, r1, a1, by omega, a3, a4, a5, fun hw2 hl => ?_⟩
      exfalso
      have := hl _ (Resists.trade_many (k := w - 1) hw (by omega) (by omega) (n := 2) g1)
      have h3 : (w - 1) * 2 + 2 = 2 * w := by omega
      omega

theorem secureRoundsUnpadded_spec {s : PoseidonSbox} {bits w : ℕ} (hw : 0 < w) :
    ∃ f r, secureRoundsUnpadded p s w bits = some (f, r) ∧ 6 ≤ f ∧ 2 ∣ f ∧
      Resists p s bits w f r ∧
      (∀ f' r', 6 ≤ f' → Resists p s bits w f' r' → f * w + r ≤ f' * w + r') ∧
      (2 ≤ w → f = 6) := by
  obtain ⟨r, e, g1, g2, g3⟩ := securePartialRounds_spec (p := p) (s := s) (bits := bits) hw 6
  obtain ⟨f1, r1, a1, a2, a3, a4, a5, a6⟩ := roundsLoop_spec (p := p) (s := s) (bits := bits) hw
    (bits + w + 3) 6 r (le_refl _) (by decide) g1 (fun f' r' h6 h' => by
      obtain ⟨n, rfl⟩ := Nat.exists_eq_add_of_le h6
      have := g2 _ (Resists.trade_many (k := w) hw (by omega) (by omega) (n := n) h')
      rw [Nat.add_mul]
      have h3 : w * n = n * w := Nat.mul_comm _ _
      omega) (by omega)
  refine ⟨f1, r1, ?_, a2, a3, a4, a5, fun h => (a6 h g2).1⟩
  unfold secureRoundsUnpadded
  simp only [e, Option.bind_eq_bind, Option.bind_some]
  exact a1

theorem le_round (r : ℕ) : r ≤ ⌊(r : ℝ) * 1.075 + 1 / 2⌋₊ := by
  refine Nat.le_floor ?_
  have : (0 : ℝ) ≤ r := by positivity
  linarith

end Poseidon

open Poseidon

/-! ## C80 -/

/-- C80: for every S-box, every positive width and every security level `build` terminates; it starts
from an even number `f` of at least 6 full rounds and `r` partial rounds which resist the attacks of
the paper and take the fewest S-boxes among all such numbers, and adds 2 full rounds and 7.5% partial
rounds, so that the result resists as well. -/
theorem C80_secure_rounds {w : ℕ} (hw : 0 < w) (s : PoseidonSbox) (bits : ℕ) (m : ElementMatrix p) :
    ∃ f r : ℕ, Poseidon.build (secureRoundsPadded p) w none (some s) (some bits) (some m) =
        some ⟨w, f + 2, ⌊(r : ℝ) * 1.075 + 1 / 2⌋₊, s, m⟩ ∧
      6 ≤ f ∧ 2 ∣ f ∧ Resists p s bits w f r ∧
      (∀ f' r', 6 ≤ f' → Resists p s bits w f' r' → f * w + r ≤ f' * w + r') ∧
      Resists p s bits w (f + 2) ⌊(r : ℝ) * 1.075 + 1 / 2⌋₊ := by
  obtain ⟨f, r, h1, h2, h3, h4, h5, -⟩ := secureRoundsUnpadded_spec (p := p) (s := s) (bits := bits) hw
  refine ⟨f, r, ?_, h2, h3, h4, h5, h4.mono hw (by omega) (le_round r)⟩
  unfold Poseidon.build secureRoundsPadded
  simp only [Option.getD_some, h1, Option.bind_eq_bind, Option.bind_some]
  rfl

/-- C80: without options, the security level is 128 bits and the S-box the one of C75. -/
theorem C80_defaults (w : ℕ) (m : ElementMatrix p) :
    Poseidon.build (secureRoundsPadded p) w none none none (some m) =
      (PoseidonSbox.default p).bind fun s =>
        Poseidon.build (secureRoundsPadded p) w none (some s) (some 128) (some m) := by
  unfold Poseidon.build
  cases PoseidonSbox.default p <;> rfl

/-- C80: the search over the number of full rounds is in vain for every width of at least 2: there are
always 8 full rounds.  A width of 0 panics. -/
theorem C80_full_rounds (w : ℕ) (s : PoseidonSbox) (bits : ℕ) (m : ElementMatrix p) :
    (2 ≤ w → ∃ r, Poseidon.build (secureRoundsPadded p) w none (some s) (some bits) (some m) =
      some ⟨w, 8, r, s, m⟩) ∧
    (w = 0 → Poseidon.build (secureRoundsPadded p) w none (some s) (some bits) (some m) = none) := by
  constructor
  · intro hw
    obtain ⟨f, r, h1, -, -, -, -, h2⟩ := secureRoundsUnpadded_spec (p := p) (s := s) (bits := bits)
      (w := w) (by omega)
    obtain rfl := h2 hw
    refine ⟨⌊(r : ℝ) * 1.075 + 1 / 2⌋₊, ?_⟩
    unfold Poseidon.build secureRoundsPadded
    simp only [Option.getD_some, h1, Option.bind_eq_bind, Option.bind_some]
    rfl
  · rintro rfl
    have h : secureRoundsUnpadded p s 0 bits = none := by
      unfold secureRoundsUnpadded securePartialRounds
      cases s <;> rfl
    unfold Poseidon.build secureRoundsPadded
    simp [h]

/-- Over the BN128 field, at 128 bits, with the fifth power and width 2: 8 full and 55 partial
rounds. -/
example (m : ElementMatrix bn128Order) :
    Poseidon.build (secureRoundsPadded bn128Order) 2 none (some .exponentiation5) none (some m) =
      some ⟨2, 8, 55, .exponentiation5, m⟩ := by
  obtain ⟨f, r, h1, h2, h3, h4, h5, -⟩ := C80_secure_rounds (w := 2) (by decide) .exponentiation5 128 m
  obtain ⟨r0, h6⟩ := (C80_full_rounds 2 .exponentiation5 128 m).1 (le_refl _)
  have hf : f = 6 := by
    rw [h6] at h1
    have := congrArg Poseidon.full (Option.some.inj h1)
    simp only at this
    omega
  subst hf
  have hsz : (bn128Order - 1).size = 254 := by decide +kernel
  have hm : ((min 128 (bn128Order - 1).size : ℕ) : ℝ) = 128 := by rw [hsz]; norm_num
  have hl2 : Real.logb 2 ((2 : ℕ) : ℝ) = 1 := by
    rw [Nat.cast_ofNat]; exact Real.logb_self_eq_one (by norm_num)
  have l1 : Real.logb 5 2 * 128 < 56 := by
    have : Real.logb 5 2 * 128 = Real.logb 5 (2 ^ (128 : ℕ)) := by rw [Real.logb_pow]; ring
    rw [this, Real.logb_lt_iff_lt_rpow (by norm_num) (by norm_num)]
    have : ((2 : ℝ) ^ 128 < 5 ^ (56 : ℕ)) := by norm_num
    exact_mod_cast this
  have l2 : 55 ≤ Real.logb 5 2 * 128 := by
    have : Real.logb 5 2 * 128 = Real.logb 5 (2 ^ (128 : ℕ)) := by rw [Real.logb_pow]; ring
    rw [this, Real.le_logb_iff_rpow_le (by norm_num) (by norm_num)]
    have : ((5 : ℝ) ^ (55 : ℕ) ≤ 2 ^ 128) := by norm_num
    exact_mod_cast this
  have hr1 : 51 ≤ r := by
    have := h4.1
    rw [hm, hl2] at this
    have h7 : (50 : ℝ) < r := by push_cast at this; linarith
    exact_mod_cast h7
  have hr2 : r ≤ 51 := by
    have := h5 6 51 (le_refl _) ⟨by rw [hm, hl2]; push_cast; linarith, by rw [hm]; norm_num,
      by rw [hm]; norm_num⟩
    omega
  obtain rfl : r = 51 := by omega
  have hfl : ⌊((51 : ℕ) : ℝ) * 1.075 + 1 / 2⌋₊ = 55 := by
    rw [Nat.floor_eq_iff (by positivity)]
    norm_num
  rw [hfl] at h1
  exact h1

/-! ## C81 -/

/-- C81: the recommended number of rounds is the least `r` with `2 ^ n ≤ 3 ^ r`, where `n` is the number
of bits of the order. -/
theorem C81_recommended_rounds :
    2 ^ (p - 1).size ≤ 3 ^ MiMC.recommendedRounds p ∧
      ∀ r, 2 ^ (p - 1).size ≤ 3 ^ r → MiMC.recommendedRounds p ≤ r := by
  have hl : 0 < Real.logb 2 3 := Real.logb_pos (by norm_num) (by norm_num)
  have key : ∀ r : ℕ, MiMC.recommendedRounds p ≤ r ↔ 2 ^ (p - 1).size ≤ 3 ^ r := by
    intro r
    unfold MiMC.recommendedRounds
    rw [Nat.ceil_le, div_le_iff₀ hl, Elem.maxBits_eq, ← Real.logb_pow,
      Real.le_logb_iff_rpow_le (by norm_num) (by positivity), Real.rpow_natCast]
    exact_mod_cast Iff.rfl
  exact ⟨(key _).1 (le_refl _), fun r => (key r).2⟩

theorem mimcRounds_degree (k : Elem p) (P : Polynomial (Elem p)) (hP : 0 < P.natDegree) :
    ∀ cs : List (Elem p), ∃ Q : Polynomial (Elem p), Q.natDegree = P.natDegree * 3 ^ cs.length ∧
      ∀ x, cs.foldl (fun c rc => (c + k + rc) ^ 3) (P.eval x) = Q.eval x := by
  intro cs
  induction cs generalizing P with
  | nil => exact ⟨P, by simp, fun x => rfl⟩
  | cons rc cs ih =>
    have hd : ((P + Polynomial.C (k + rc)) ^ 3).natDegree = P.natDegree * 3 := by
      rw [Polynomial.natDegree_pow, Polynomial.natDegree_add_C, mul_comm]
    obtain ⟨Q, h1, h2⟩ := ih ((P + Polynomial.C (k + rc)) ^ 3) (by omega)
    refine ⟨Q, by rw [h1, hd, List.length_cons, pow_succ]; ring, fun x => ?_⟩
    rw [← h2, List.foldl_cons]
    simp [add_assoc]

/-- C81: the default instance exists over every field of order above 3 where cubing is a permutation.
It encrypts with one more cubing than recommended: under
every key it is a polynomial of degree `3 ^ (recommended + 1)`, more than three times the order. -/
theorem C81_default_partial (h3 : 3 < p) (hb : Function.Bijective fun x : Elem p => x ^ 3) :
    ∃ c cs, (MiMC.default (MiMC.recommendedRounds p) : Option (MiMC p)) = some c ∧
      Enforced2 c.toBlockCipher.encrypt (mimc cs) ∧ Computed2 c.toBlockCipher.encrypt (mimc cs) ∧
      (∀ k, ∃ Q : Polynomial (Elem p), Q.natDegree = 3 ^ (MiMC.recommendedRounds p + 1) ∧
        ∀ x, mimc cs k x = Q.eval x) ∧
      3 * p ≤ 3 ^ (MiMC.recommendedRounds p + 1) := by
  obtain ⟨cs, g, hcs, hl⟩ := C70_new_returns.2 p hp.out.pos (MiMC.recommendedRounds p)
  obtain ⟨c, hc⟩ := Option.isSome_iff_exists.1 ((C57_new cs).2 ⟨h3, hb⟩)
  have hE := C57_encrypt hc
  refine ⟨c, cs, ?_, hE.1, hE.2, fun k => ?_, ?_⟩
  · unfold MiMC.default
    rw [hcs]
    exact hc
  · have hd : ((Polynomial.X + Polynomial.C k) ^ 3 : Polynomial (Elem p)).natDegree = 3 := by
      rw [Polynomial.natDegree_pow, Polynomial.natDegree_X_add_C]
    obtain ⟨Q, h1, h2⟩ := mimcRounds_degree k ((Polynomial.X + Polynomial.C k) ^ 3) (by omega) cs
    refine ⟨Q + Polynomial.C k, ?_, fun x => ?_⟩
    · rw [Polynomial.natDegree_add_C, h1, hd, hl, pow_succ]; ring
    · unfold mimc
      rw [Polynomial.eval_add, Polynomial.eval_C, ← h2]
      simp
  · have h1 := (C81_recommended_rounds (p := p)).1
    have h2 := Nat.lt_size_self (p - 1)
    rw [pow_succ]
    omega

/-- C81, exactly where the default instance exists, whatever the number of rounds: over the fields of order
above 3 where cubing is a permutation. -/
theorem C81_default_exact_partial (rounds : ℕ) :
    (MiMC.default rounds : Option (MiMC p)).isSome ↔
      3 < p ∧ Function.Bijective fun x : Elem p => x ^ 3 := by
  obtain ⟨cs, g, hcs, -⟩ := C70_new_returns.2 p hp.out.pos rounds
  rw [← C57_new cs]
  unfold MiMC.default
  rw [hcs]
  rfl

/-- The field of order 11 is one of them, that of order 13 is not. -/
example : (MiMC.default 5 : Option (MiMC 11)).isSome ∧ ¬ (MiMC.default 5 : Option (MiMC 13)).isSome := by
  refine ⟨(C81_default_exact_partial 5).2 ⟨by decide,
    MonomialPermutation.bijective_of_coprime (by decide) (by decide) (by decide)⟩, fun h => ?_⟩
  have := ((C81_default_exact_partial 5).1 h).2.1 (show (1 : Elem 13) ^ 3 = 3 ^ 3 by decide +kernel)
  exact absurd this (by decide +kernel)

/-- C81 is false over both shipped fields: there the default instance panics, since cubing is not a
permutation. -/
theorem C81_default_refuted (rounds : ℕ) :
    (MiMC.default rounds : Option (MiMC bn128Order)) = none ∧
    (MiMC.default rounds : Option (MiMC bls12_381Order)) = none := by
  have key : ∀ {q : ℕ} [Fact q.Prime], 3 ∣ q - 1 →
      (MiMC.default rounds : Option (MiMC q)) = none := by
    intro q _ h3
    cases h : (MiMC.default rounds : Option (MiMC q)) with
    | none => rfl
    | some c =>
      unfold MiMC.default at h
      obtain ⟨⟨cs, g⟩, -, h⟩ := Option.bind_eq_some_iff.1 h
      have hc := (MiMC.new_eq_some h).2.1
      have := Nat.dvd_gcd h3 (dvd_refl 3)
      rw [hc] at this
      omega
  exact ⟨key (by decide +kernel), key (by decide +kernel)⟩

/-- Over the field of order 11, of 4 bits, 3 rounds are recommended, and the default instance
exists. -/
example : MiMC.recommendedRounds 11 = 3 ∧
    ((MiMC.default (MiMC.recommendedRounds 11) : Option (MiMC 11))).isSome := by
  constructor
  · obtain ⟨h1, h2⟩ := C81_recommended_rounds (p := 11)
    have h3 := h2 3 (by decide)
    by_contra hne
    have h4 : (3 : ℕ) ^ MiMC.recommendedRounds 11 ≤ 3 ^ 2 :=
      Nat.pow_le_pow_right (by decide) (by omega)
    exact absurd (h1.trans h4) (by decide)
  · obtain ⟨c, cs, h, -⟩ := C81_default_partial (p := 11) (by decide)
      (MonomialPermutation.bijective_of_coprime (by decide) (by decide) (by decide))
    rw [h]
    rfl

end R1CS
