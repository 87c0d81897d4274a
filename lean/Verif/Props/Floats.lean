import Verif.Lemmas.FloatRounds

/-!
# C89: numbers of rounds calculated in floating point
-/

set_option linter.unusedSectionVars false

namespace R1CS

variable {p : ℕ} [hp : Fact p.Prime]

open Poseidon

/-- C89: the rounding of the model is that of `f64`: to a multiple of the unit in the last place with a
factor of at most 53 bits, of which none is nearer, and to an even one if two are equally near. -/
theorem C89_rounding (x : ℝ) (hx : x ≠ 0) :
    ∃ (k e : ℤ), 2 ^ (e + 52) ≤ |x| ∧ |x| < 2 ^ (e + 53) ∧ fl x = k * 2 ^ e ∧ |k| ≤ 2 ^ 53 ∧
      (∀ j : ℤ, |fl x - x| ≤ |j * 2 ^ e - x|) ∧
      ∀ j : ℤ, j ≠ k → |fl x - x| = |j * 2 ^ e - x| → Even k := by
  have hpos : 0 < |x| := abs_pos.2 hx
  have hu : (0 : ℝ) < 2 ^ (Int.log 2 |x| - 52) := by positivity
  have h1 : (2 : ℝ) ^ (Int.log 2 |x|) ≤ |x| := by
    exact_mod_cast Int.zpow_log_le_self (b := 2) (by decide) hpos
  have h2 : |x| < (2 : ℝ) ^ (Int.log 2 |x| + 1) := by
    exact_mod_cast Int.lt_zpow_succ_log_self (b := 2) (by decide) |x|
  set e := Int.log 2 |x| - 52 with he
  set y := x / 2 ^ e with hy
  have hxy : x = y * 2 ^ e := by rw [hy]; field_simp
  have hfl : fl x = roundEven y * 2 ^ e := rfl
  have hdist : ∀ j : ℤ, |(j : ℝ) * 2 ^ e - x| = |j - y| * 2 ^ e := by
    intro j
    rw [hxy, ← sub_mul, abs_mul, abs_of_pos hu]
  have hr := abs_roundEven_sub_le y
  have hfar : ∀ j : ℤ, j ≠ roundEven y → 1 - |(roundEven y : ℝ) - y| ≤ |(j : ℝ) - y| := by
    intro j hj
    have h : (1 : ℝ) ≤ |(j : ℝ) - roundEven y| := by
      have : 1 ≤ |j - roundEven y| := Int.one_le_abs (sub_ne_zero.2 hj)
      exact_mod_cast this
    have h' : |(j : ℝ) - roundEven y| ≤ |(j : ℝ) - y| + |(roundEven y : ℝ) - y| := by
      rw [abs_sub_comm (roundEven y : ℝ) y]
      exact abs_sub_le _ _ _
    linarith
  refine ⟨roundEven y, e, ?_, ?_, hfl, ?_, fun j => ?_, fun j hj hd => ?_⟩
  · rwa [he, sub_add_cancel]
  · rwa [he, show Int.log 2 |x| - 52 + 53 = Int.log 2 |x| + 1 by ring]
  · have hy' : |y| < 2 ^ 53 := by
      have h3 : |x| = |y| * 2 ^ e := by rw [hxy, abs_mul, abs_of_pos hu]
      have h4 : (2 : ℝ) ^ (Int.log 2 |x| + 1) = 2 ^ 53 * 2 ^ e := by
        rw [show Int.log 2 |x| + 1 = 53 + e by rw [he]; ring, zpow_add₀ (by norm_num)]
        norm_cast
      rw [h4, h3] at h2
      exact lt_of_mul_lt_mul_right h2 hu.le
    have h5 : |(roundEven y : ℝ)| ≤ |y| + 1 / 2 := by
      have := abs_sub_abs_le_abs_sub (roundEven y : ℝ) y
      linarith
    have h6 : ((|roundEven y| : ℤ) : ℝ) < ((2 ^ 53 + 1 : ℤ) : ℝ) := by
      push_cast
      linarith
    have := Int.cast_lt.1 h6
    omega
  · rw [hfl, hdist, hdist]
    refine mul_le_mul_of_nonneg_right ?_ hu.le
    by_cases hj : j = roundEven y
    · rw [hj]
    · have := hfar j hj
      linarith
  · rw [hfl, hdist, hdist] at hd
    have hd' := mul_right_cancel₀ hu.ne' hd
    have := hfar j hj
    have hhalf : |(roundEven y : ℝ) - y| = 1 / 2 := by linarith
    exact roundEven_tie hhalf

/-- The number 2 ^ 53 + 1 lies in the middle between two and is rounded to the even multiple of 2. -/
example : fl (2 ^ 53 + 1) = 2 ^ 53 := by
  have hl : Int.log 2 |(2 ^ 53 + 1 : ℝ)| = 53 := by
    rw [abs_of_pos (by norm_num), show (2 ^ 53 + 1 : ℝ) = ((2 ^ 53 + 1 : ℕ) : ℝ) by norm_num,
      Int.log_natCast, (Nat.log_eq_iff (b := 2) (m := 53) (n := 2 ^ 53 + 1) (by norm_num)).2 (by norm_num)]
    rfl
  have hf : ⌊(2 ^ 53 + 1 : ℝ) / 2⌋ = 2 ^ 52 := by
    rw [Int.floor_eq_iff]
    norm_num
  have hfr : Int.fract ((2 ^ 53 + 1 : ℝ) / 2) = 1 / 2 := by
    rw [Int.fract, hf]
    norm_num
  unfold fl roundEven
  rw [hl, show ((53 : ℤ) - 52) = 1 by norm_num, zpow_one, hfr, hf, if_neg (lt_irrefl _),
    if_neg (lt_irrefl _), if_pos (by decide)]
  norm_num

/-- C89: whatever the rounding errors, `build` of Poseidon terminates for every S-box, positive width
and security level; it starts from an even number `f` of at least 6 full rounds (exactly 6 for widths of
at least 2) and a number `r` of partial rounds, which takes at most one S-box more than any choice
resisting the attacks of the paper; the margin is two full rounds and 7.5 per cent of the partial
rounds, rounded to an integer, and with it the attacks are resisted, exactly. -/
theorem C89_poseidon_rounds (L : Libm) {w bits : ℕ} (hw : 0 < w) (hb : bits + w ≤ 2 ^ 40)
    (s : PoseidonSbox) (m : ElementMatrix p) :
    ∃ f r r' : ℕ, Poseidon.build (L.secureRoundsPadded p) w none (some s) (some bits) (some m) =
        some ⟨w, f + 2, r', s, m⟩ ∧
      6 ≤ f ∧ 2 ∣ f ∧ (2 ≤ w → f = 6) ∧ r ≤ r' ∧
      |(r' : ℝ) - 1.075 * r| ≤ 1 / 2 + 2⁻¹ ^ 45 * r ∧
      (∀ f' r', 6 ≤ f' → Resists p s bits w f' r' → f * w + r ≤ f' * w + r' + 1) ∧
      Resists p s bits w (f + 2) r' := by
  obtain ⟨f, r, h1, h2, h3, h4, h5, h6⟩ := L.secureRoundsUnpadded_spec (p := p) (s := s) hw hb
  refine ⟨f, r, Libm.padded r, ?_, h2, h3, h6, Libm.le_padded r, Libm.abs_padded_sub_le r, h5, h4.resists_padded hw hb⟩
  unfold Poseidon.build Libm.secureRoundsPadded
  simp only [Option.getD_some, h1, Option.bind_eq_bind, Option.bind_some]
  rfl

/-- C89: for widths of at least 2 the numbers of rounds before padding are those calculated without
rounding errors, up to one partial round; more precisely, the number of partial rounds lies between
the least numbers for thresholds lowered and raised by a relative error of 2^-45. -/
theorem C89_poseidon_close (L : Libm) {w bits : ℕ} (hw : 2 ≤ w) (hb : bits + w ≤ 2 ^ 40)
    (s : PoseidonSbox) :
    ∃ r r0, L.secureRoundsUnpadded p s w bits = some (6, r) ∧
      Poseidon.secureRoundsUnpadded p s w bits = some (6, r0) ∧ r ≤ r0 + 1 ∧ r0 ≤ r + 1 ∧
      ResistsUpTo p (-2⁻¹ ^ 45) s bits w 6 r ∧
      ∀ r', ResistsUpTo p (2⁻¹ ^ 45) s bits w 6 r' → r ≤ r' := by
  have hw0 : 0 < w := by omega
  obtain ⟨f, r, h1, -, -, h4, -, h6⟩ := L.secureRoundsUnpadded_spec (p := p) (s := s) hw0 hb
  obtain ⟨f0, r0, g1, -, -, g4, g5, g6⟩ := Poseidon.secureRoundsUnpadded_spec (p := p) (s := s)
    (bits := bits) hw0
  obtain rfl := h6 hw
  obtain rfl := g6 hw
  have hres := h4.resists hw0 (by omega)
  refine ⟨r, r0, h1, g1, ?_, ?_, hres, h4.least⟩
  · refine h4.least _ (ResistsUpTo.step hw0 hb (ResistsUpTo.weaken hw0 ?_
      (ResistsUpTo.zero_iff.2 g4)))
    have := tol_pos
    linarith
  · have := g5 6 (r + 1) (le_refl _) (ResistsUpTo.zero_iff.1
      (ResistsUpTo.weaken hw0 tol_pos.le (hres.step hw0 hb)))
    omega

/-! ## MiMC -/

namespace Libm

variable (L : Libm)

theorem rel_recommended : Rel 4 (fl (fl (Elem.maxBits p : ℕ) / L.log2 3))
    (((p - 1).size : ℝ) / Real.logb 2 3) := by
  rw [Elem.maxBits_eq]
  have h3 : Rel 1 (L.log2 3) (Real.logb 2 3) :=
    Rel.of_abs (Real.logb_nonneg (by norm_num) (by norm_num)) (L.log2_accurate 3 (by norm_num))
  exact ((Rel.fl_self (by positivity)).div (Real.logb_pos (by norm_num) (by norm_num)) h3).rnd

theorem recommended_bounds :
    ((p - 1).size : ℝ) / Real.logb 2 3 * (1 - tol) ≤ fl (fl (Elem.maxBits p : ℕ) / L.log2 3) ∧
    fl (fl (Elem.maxBits p : ℕ) / L.log2 3) ≤ ((p - 1).size : ℝ) / Real.logb 2 3 * (1 + tol) := by
  have h := (L.rel_recommended (p := p)).mono (show 4 ≤ 16 by norm_num)
  exact ⟨le_trans (mul_le_mul_of_nonneg_left tol_bounds.2 h.1) h.2.1,
    le_trans h.2.2 (mul_le_mul_of_nonneg_left tol_bounds.1 h.1)⟩

/-- No power of 2 up to `2 ^ 4096` is close to a power of 3. -/
theorem powers_apart : ∀ i < 64, ∀ j < 64,
    2 ^ (64 * i + j + 1) * 65537 ≤
      3 ^ ((64 * i + j + 1) * 630929753571457 / 10 ^ 15 + 1) * 65536 ∧
    3 ^ ((64 * i + j + 1) * 630929753571457 / 10 ^ 15) * 65537 ≤ 2 ^ (64 * i + j + 1) * 65536 := by
  decide +kernel

theorem log_step : (1 : ℝ) / 65536 ≤ Real.logb 2 (1 + 1 / 65536) := by
  have key : ∀ k : ℕ, 0 < k → (1 : ℝ) / k ≤ Real.logb 2 (1 + 1 / k) := by
    intro k hk
    have hk' : (0 : ℝ) < k := by exact_mod_cast hk
    have hb : (2 : ℝ) ≤ (1 + 1 / k) ^ k := by
      have h0 : (-2 : ℝ) ≤ 1 / k := by have : (0 : ℝ) ≤ 1 / k := by positivity
                                       linarith
      have h1 := one_add_mul_le_pow h0 k
      rw [mul_one_div_cancel hk'.ne'] at h1
      linarith
    have h2 := Real.logb_le_logb_of_le (b := 2) (by norm_num) (by norm_num) hb
    rw [Real.logb_self_eq_one (by norm_num), Real.logb_pow] at h2
    rw [div_le_iff₀ hk']
    linarith
  exact_mod_cast key 65536 (by norm_num)

theorem log_gap {a b : ℕ} (h : 2 ^ a * 65537 ≤ 3 ^ b * 65536) :
    (a : ℝ) + 1 / 65536 ≤ b * Real.logb 2 3 := by
  have h1 : (2 : ℝ) ^ a * (1 + 1 / 65536) ≤ 3 ^ b := by
    have : ((2 : ℝ) ^ a * 65537) ≤ 3 ^ b * 65536 := by exact_mod_cast h
    linarith
  have h2 := log_step
  have h3 := Real.logb_le_logb_of_le (b := 2) (by norm_num) (by positivity) h1
  rw [Real.logb_mul (by positivity) (by norm_num), Real.logb_pow, Real.logb_pow,
    Real.logb_self_eq_one (by norm_num)] at h3
  linarith

theorem log_gap' {a b : ℕ} (h : 3 ^ b * 65537 ≤ 2 ^ a * 65536) :
    (b : ℝ) * Real.logb 2 3 + 1 / 65536 ≤ a := by
  have h1 : (3 : ℝ) ^ b * (1 + 1 / 65536) ≤ 2 ^ a := by
    have : ((3 : ℝ) ^ b * 65537) ≤ 2 ^ a * 65536 := by exact_mod_cast h
    linarith
  have h2 := log_step
  have h3 := Real.logb_le_logb_of_le (b := 2) (by norm_num) (by positivity) h1
  rw [Real.logb_mul (by positivity) (by norm_num), Real.logb_pow, Real.logb_pow,
    Real.logb_self_eq_one (by norm_num)] at h3
  linarith

end Libm

/-- C89: the number of rounds calculated for MiMC is the exact one, whatever the rounding errors, for
every field whose order has at most 4096 bits: the least `r` with `2 ^ n ≤ 3 ^ r`. -/
theorem C89_mimc_rounds (L : Libm) (hn : (p - 1).size ≤ 4096) :
    L.recommendedRounds p = MiMC.recommendedRounds p ∧
    2 ^ (p - 1).size ≤ 3 ^ L.recommendedRounds p ∧
      ∀ r, 2 ^ (p - 1).size ≤ 3 ^ r → L.recommendedRounds p ≤ r := by
  have hl : 0 < Real.logb 2 3 := Real.logb_pos (by norm_num) (by norm_num)
  have hl2 : Real.logb 2 3 ≤ 2 := by
    rw [Real.logb_le_iff_le_rpow (by norm_num) (by norm_num)]; norm_num
  have hpos : 0 < (p - 1).size := Nat.size_pos.2 (by have := hp.out.two_le; omega)
  obtain ⟨k1, k2⟩ := Libm.powers_apart (((p - 1).size - 1) / 64) (by omega)
    (((p - 1).size - 1) % 64) (by omega)
  rw [show 64 * (((p - 1).size - 1) / 64) + ((p - 1).size - 1) % 64 + 1 = (p - 1).size by omega]
    at k1 k2
  set k := (p - 1).size * 630929753571457 / 10 ^ 15
  have g1 := Libm.log_gap k1
  have g2 := Libm.log_gap' k2
  obtain ⟨b1, b2⟩ := L.recommended_bounds (p := p)
  have hn' : ((p - 1).size : ℝ) ≤ 4096 := by exact_mod_cast hn
  have htn : tol * ((p - 1).size : ℝ) ≤ 1 / 100000 := by
    have := mul_le_mul_of_nonneg_left hn' tol_pos.le
    have h2 : tol * 4096 ≤ 1 / 100000 := by unfold tol; norm_num
    linarith
  have hx : ((p - 1).size : ℝ) = ((p - 1).size : ℝ) / Real.logb 2 3 * Real.logb 2 3 := by
    field_simp
  set x := ((p - 1).size : ℝ) / Real.logb 2 3
  have e1 : L.recommendedRounds p = k + 1 := by
    unfold Libm.recommendedRounds
    rw [Nat.ceil_eq_iff (by omega)]
    constructor
    · refine lt_of_lt_of_le ?_ b1
      rw [Nat.add_sub_cancel, ← mul_lt_mul_iff_left₀ hl,
        show x * (1 - tol) * Real.logb 2 3 = x * Real.logb 2 3 - tol * (x * Real.logb 2 3) by ring, ← hx]
      linarith
    · refine le_trans b2 ?_
      rw [← mul_le_mul_iff_left₀ hl,
        show x * (1 + tol) * Real.logb 2 3 = x * Real.logb 2 3 + tol * (x * Real.logb 2 3) by ring, ← hx]
      linarith
  have e2 : MiMC.recommendedRounds p = k + 1 := by
    unfold MiMC.recommendedRounds
    rw [Elem.maxBits_eq, Nat.ceil_eq_iff (by omega)]
    constructor
    · rw [Nat.add_sub_cancel, lt_div_iff₀ hl]; linarith
    · rw [div_le_iff₀ hl]; linarith
  have h := C81_recommended_rounds (p := p)
  rw [e2, ← e1] at h
  exact ⟨e1.trans e2.symm, h⟩

/-- C89: for larger orders (up to 2^40 bits) the number is off by one at most. -/
theorem C89_mimc_rounds_close (L : Libm) (hn : (p - 1).size ≤ 2 ^ 40) :
    L.recommendedRounds p ≤ MiMC.recommendedRounds p + 1 ∧
    MiMC.recommendedRounds p ≤ L.recommendedRounds p + 1 := by
  have hl : 1 ≤ Real.logb 2 3 := by
    rw [Real.le_logb_iff_rpow_le (by norm_num) (by norm_num)]; norm_num
  obtain ⟨b1, b2⟩ := L.recommended_bounds (p := p)
  have hn' : ((p - 1).size : ℝ) ≤ 2 ^ 40 := by exact_mod_cast hn
  have hx : ((p - 1).size : ℝ) / Real.logb 2 3 ≤ (p - 1).size := div_le_self (by positivity) hl
  have htn : tol * (((p - 1).size : ℝ) / Real.logb 2 3) ≤ 1 := by
    have := mul_le_mul_of_nonneg_left (hx.trans hn') tol_pos.le
    have h2 : tol * 2 ^ 40 ≤ 1 := by unfold tol; norm_num
    linarith
  unfold Libm.recommendedRounds MiMC.recommendedRounds
  constructor
  · rw [Nat.ceil_le]
    have := Nat.le_ceil (((Elem.maxBits p : ℕ) : ℝ) / Real.logb 2 3)
    rw [Elem.maxBits_eq] at this ⊢
    rw [Elem.maxBits_eq] at b2
    push_cast
    linarith
  · rw [Nat.ceil_le]
    have := Nat.le_ceil (fl (fl (Elem.maxBits p : ℕ) / L.log2 3))
    rw [Elem.maxBits_eq] at this ⊢
    rw [Elem.maxBits_eq] at b1
    push_cast
    linarith

/-! ## Instances -/

/-- Logarithms that are rounded correctly. -/
noncomputable def Libm.rounded : Libm where
  ln x := fl (Real.log x)
  log2 x := fl (Real.logb 2 x)
  ln_accurate x hx := by
    have h0 := Real.log_nonneg hx
    refine le_trans (abs_fl_sub_le _) ?_
    rw [abs_of_nonneg h0]
    exact mul_le_mul_of_nonneg_right (by norm_num) h0
  log2_accurate x hx := by
    have h0 := Real.logb_nonneg (b := 2) (by norm_num) hx
    refine le_trans (abs_fl_sub_le _) ?_
    rw [abs_of_nonneg h0]
    exact mul_le_mul_of_nonneg_right (by norm_num) h0

/-- Over the BN128 field, with its order of 254 bits, 161 rounds of MiMC are recommended. -/
example (L : Libm) : L.recommendedRounds bn128Order = 161 := by
  have hsz : (bn128Order - 1).size = 254 := by decide +kernel
  obtain ⟨-, h1, h2⟩ := C89_mimc_rounds L (p := bn128Order) (by rw [hsz]; norm_num)
  rw [hsz] at h1 h2
  have h3 := h2 161 (by norm_num)
  by_contra hne
  have h4 : (3 : ℕ) ^ L.recommendedRounds bn128Order ≤ 3 ^ 160 :=
    Nat.pow_le_pow_right (by decide) (by omega)
  exact absurd (h1.trans h4) (by norm_num)

/-- Over the BN128 field, at 128 bits, with the fifth power and width 2: 51 partial rounds before
padding, as without rounding errors. -/
example (L : Libm) :
    L.secureRoundsUnpadded bn128Order .exponentiation5 2 128 = some (6, 51) := by
  obtain ⟨r, r0, h1, -, -, -, h2, h3⟩ := C89_poseidon_close (p := bn128Order) L (w := 2) (bits := 128)
    (le_refl _) (by norm_num) .exponentiation5
  have hsz : (bn128Order - 1).size = 254 := by decide +kernel
  have hm : ((min 128 (bn128Order - 1).size : ℕ) : ℝ) = 128 := by rw [hsz]; norm_num
  have hl2 : Real.logb 2 ((2 : ℕ) : ℝ) = 1 := by
    rw [Nat.cast_ofNat]; exact Real.logb_self_eq_one (by norm_num)
  have l1 : Real.logb 5 2 * 256 < 111 := by
    have : Real.logb 5 2 * 256 = Real.logb 5 (2 ^ (256 : ℕ)) := by rw [Real.logb_pow]; ring
    rw [this, Real.logb_lt_iff_lt_rpow (by norm_num) (by norm_num)]
    have : ((2 : ℝ) ^ 256 < 5 ^ (111 : ℕ)) := by norm_num
    exact_mod_cast this
  have l2 : 441 ≤ Real.logb 5 2 * 1024 := by
    have : Real.logb 5 2 * 1024 = Real.logb 5 ((2 ^ 4) ^ (256 : ℕ)) := by
      rw [← pow_mul, Real.logb_pow]; push_cast; ring
    rw [this, Real.le_logb_iff_rpow_le (by norm_num) (by positivity)]
    have k1 : ((5 : ℝ) ^ (220 : ℕ) * 5 ^ (221 : ℕ) ≤ 2 ^ 256 * 2 ^ 256 * (2 ^ 256 * 2 ^ 256)) := by
      norm_num
    rw [← pow_add, ← pow_add, ← pow_add] at k1
    rw [← pow_mul]
    exact_mod_cast k1
  have hr1 : 51 ≤ r := by
    have := h2.1
    rw [hm, hl2] at this
    have h7 : (50 : ℝ) < r := by push_cast at this; linarith
    exact_mod_cast h7
  have hr2 : r ≤ 51 :=
    h3 51 ⟨by rw [hm, hl2]; push_cast; linarith, by rw [hm]; norm_num, by rw [hm]; norm_num⟩
  obtain rfl : r = 51 := by omega
  exact h1

/-- The hypotheses on the logarithms can be met. -/
example (m : ElementMatrix bn128Order) : ∃ f r',
    Poseidon.build (Libm.rounded.secureRoundsPadded bn128Order) 3 none (some .inverse) (some 80) (some m) =
      some ⟨3, f + 2, r', .inverse, m⟩ ∧ f = 6 := by
  obtain ⟨f, r, r', h1, -, -, h2, -⟩ := C89_poseidon_rounds (p := bn128Order) Libm.rounded
    (w := 3) (bits := 80) (by norm_num) (by norm_num) .inverse m
  exact ⟨f, r', h1, h2 (by norm_num)⟩

end R1CS
