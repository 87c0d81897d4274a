import Verif.Lemmas.Ieee
import Verif.Props.Floats

/-!
# C89: numbers of rounds calculated in floating point, with bounded exponents
-/

set_option linter.unusedSectionVars false

namespace R1CS

variable {p : ℕ} [hp : Fact p.Prime]

open Poseidon

/-- The finite numbers of the format `binary64` of IEEE 754: 53 bits times a power of 2 with a bounded
exponent. -/
def IsBinary64 (y : ℝ) : Prop := ∃ k e : ℤ, |k| < 2 ^ 53 ∧ -1074 ≤ e ∧ e ≤ 971 ∧ y = k * 2 ^ e

/-- C89: the rounding with bounded exponents is that of IEEE 754: the result is a number of the format, of
which none is nearer; if another one is as near, then the result is an even multiple of their distance.  (For
numbers which are not to be rounded to infinity.) -/
theorem C89_binary64 (L : F64) (x : ℝ) (hx : |x| < 2 ^ 1024 - 2 ^ 970) :
    IsBinary64 (L.rnd x) ∧ (∀ y, IsBinary64 y → |L.rnd x - x| ≤ |y - x|) ∧
    ∀ y, IsBinary64 y → y ≠ L.rnd x → |L.rnd x - x| = |y - x| →
      ∃ k : ℤ, L.rnd x = k * |y - L.rnd x| ∧ Even k := by
  by_cases hx0 : x = 0
  · have h0 : L.rnd x = 0 := by rw [F64.rnd_moderate (b := 0) (Or.inl hx0) (by norm_num), hx0, ← Nat.cast_zero, fl_natCast (by norm_num)]
    rw [h0, hx0, sub_zero, abs_zero]
    refine ⟨⟨0, 0, by norm_num, by norm_num, by norm_num, by simp⟩, fun _ _ => abs_nonneg _, fun y _ hy h => ?_⟩
    rw [sub_zero] at h
    exact absurd (abs_eq_zero.1 h.symm) hy
  set e := max (Int.log 2 |x|) (-1022) - 52 with he
  have hu : (0 : ℝ) < 2 ^ e := by positivity
  have h2e : (2 : ℝ) ^ (1024 : ℕ) = 2 ^ ((1024 : ℕ) : ℤ) := (zpow_natCast 2 1024).symm
  have h2f : (2 : ℝ) ^ (970 : ℕ) = 2 ^ ((970 : ℕ) : ℤ) := (zpow_natCast 2 970).symm
  rw [h2e, h2f, Nat.cast_ofNat, Nat.cast_ofNat] at hx
  have hp970 : (0 : ℝ) < 2 ^ (970 : ℤ) := by positivity
  -- the unit
  have hx1 : |x| < 2 ^ (e + 53) := by
    refine lt_of_lt_of_le (b := (2 : ℝ) ^ (Int.log 2 |x| + 1)) ?_ (zpow_le_zpow_right₀ (by norm_num) (by omega))
    exact_mod_cast Int.lt_zpow_succ_log_self (b := 2) (by decide) |x|
  have hx2 : -1074 < e → 2 ^ (e + 52) ≤ |x| := by
    intro h
    have hpos : 0 < |x| := abs_pos.2 hx0
    rw [show e + 52 = Int.log 2 |x| by omega]
    exact_mod_cast Int.zpow_log_le_self (b := 2) (by decide) hpos
  have he1 : -1074 ≤ e := by omega
  have he2 : e ≤ 971 := by
    by_contra hc
    have h1 := hx2 (by omega)
    have h2 : (2 : ℝ) ^ (1024 : ℤ) ≤ 2 ^ (e + 52) := zpow_le_zpow_right₀ (by norm_num) (by omega)
    exact absurd (h2.trans h1) (not_le.2 (hx.trans (sub_lt_self _ hp970)))
  set y := x / 2 ^ e with hy
  have hxy : x = y * 2 ^ e := by rw [hy]; field_simp
  have hdist : ∀ j : ℤ, |(j : ℝ) * 2 ^ e - x| = |j - y| * 2 ^ e := by
    intro j
    rw [hxy, ← sub_mul, abs_mul, abs_of_pos hu]
  have hr := abs_roundEven_sub_le y
  have hlt : |(roundEven y : ℝ) * 2 ^ e| < 2 ^ (1024 : ℤ) := by
    have h1 : |(roundEven y : ℝ) * 2 ^ e - x| ≤ 2 ^ (970 : ℤ) := by
      rw [hdist]
      calc |(roundEven y : ℝ) - y| * 2 ^ e ≤ 1 / 2 * 2 ^ e := mul_le_mul_of_nonneg_right hr hu.le
        _ = 2 ^ (e - 1) := by rw [zpow_sub₀ (by norm_num) e 1, zpow_one]; exact one_div_mul_eq_div _ _
        _ ≤ 2 ^ (970 : ℤ) := zpow_le_zpow_right₀ (by norm_num) (by omega)
    have h2 := abs_add_le ((roundEven y : ℝ) * 2 ^ e - x) x
    rw [sub_add_cancel] at h2
    generalize (2 : ℝ) ^ (1024 : ℤ) = M at hx ⊢
    generalize (2 : ℝ) ^ (970 : ℤ) = K at hx h1
    linarith
  have hrnd : L.rnd x = roundEven y * 2 ^ e := by
    have : L.rnd x = if |(roundEven y : ℝ) * 2 ^ e| < 2 ^ 1024 then (roundEven y : ℝ) * 2 ^ e else L.infinite x := rfl
    rw [this, h2e, Nat.cast_ofNat, if_pos hlt]
  have hk : |roundEven y| ≤ 2 ^ 53 := by
    have hy' : |y| < 2 ^ 53 := by
      have h3 : |x| = |y| * 2 ^ e := by rw [hxy, abs_mul, abs_of_pos hu]
      rw [h3, add_comm e, zpow_add₀ (by norm_num)] at hx1
      exact_mod_cast lt_of_mul_lt_mul_right hx1 hu.le
    have h5 : |(roundEven y : ℝ)| ≤ |y| + 1 / 2 := by
      have := abs_sub_abs_le_abs_sub (roundEven y : ℝ) y
      linarith
    have h6 : ((|roundEven y| : ℤ) : ℝ) < ((2 ^ 53 + 1 : ℤ) : ℝ) := by
      push_cast
      linarith
    have := Int.cast_lt.1 h6
    omega
  have hfar : ∀ j : ℤ, j ≠ roundEven y → 1 - |(roundEven y : ℝ) - y| ≤ |(j : ℝ) - y| := by
    intro j hj
    have h : (1 : ℝ) ≤ |(j : ℝ) - roundEven y| := by
      have : 1 ≤ |j - roundEven y| := Int.one_le_abs (sub_ne_zero.2 hj)
      exact_mod_cast this
    have h' : |(j : ℝ) - roundEven y| ≤ |(j : ℝ) - y| + |(roundEven y : ℝ) - y| := by
      rw [abs_sub_comm (roundEven y : ℝ) y]
      exact abs_sub_le _ _ _
    linarith
  have hgrid : ∀ j : ℤ, |(roundEven y : ℝ) * 2 ^ e - x| ≤ |(j : ℝ) * 2 ^ e - x| := by
    intro j
    rw [hdist, hdist]
    refine mul_le_mul_of_nonneg_right ?_ hu.le
    by_cases hj : j = roundEven y
    · rw [hj]
    · have := hfar j hj
      linarith
  -- other numbers are multiples of the unit or far away
  have hother : ∀ z, IsBinary64 z → (∃ j : ℤ, z = j * 2 ^ e) ∨ |(roundEven y : ℝ) * 2 ^ e - x| < |z - x| := by
    rintro z ⟨j, e', hj, h1, h2, rfl⟩
    rcases le_or_gt e e' with hee | hee
    · refine Or.inl ⟨j * 2 ^ (e' - e).toNat, ?_⟩
      have h3 : (2 : ℝ) ^ e' = 2 ^ (e' - e).toNat * 2 ^ e := by
        rw [← zpow_natCast, Int.toNat_of_nonneg (by omega), ← zpow_add₀ (by norm_num), sub_add_cancel]
      rw [h3]
      push_cast
      ring
    · refine Or.inr ?_
      have h3 := hx2 (by omega)
      have h4 : |(j : ℝ) * 2 ^ e'| < 2 ^ (e + 52) := by
        rw [abs_mul, abs_of_pos (show (0 : ℝ) < 2 ^ e' by positivity)]
        calc |(j : ℝ)| * 2 ^ e' < 2 ^ (53 : ℤ) * 2 ^ e' := by
              refine mul_lt_mul_of_pos_right ?_ (by positivity)
              exact_mod_cast hj
          _ = 2 ^ (53 + e') := by rw [zpow_add₀ (by norm_num)]
          _ ≤ 2 ^ (e + 52) := zpow_le_zpow_right₀ (by norm_num) (by omega)
      have h5 : (2 : ℝ) ^ (e + 52) = (2 ^ 52 : ℤ) * 2 ^ e := by
        rw [add_comm, zpow_add₀ (by norm_num)]
        norm_cast
      obtain ⟨h6, h7⟩ := abs_lt.1 h4
      rcases abs_cases x with ⟨hxa, hx0⟩ | ⟨hxa, hx0⟩
      · refine lt_of_le_of_lt (hgrid (2 ^ 52)) ?_
        rw [← h5, abs_of_nonpos (by linarith), abs_of_nonpos (by linarith)]
        linarith
      · refine lt_of_le_of_lt (hgrid (-2 ^ 52)) ?_
        rw [Int.cast_neg, neg_mul, ← h5, abs_of_nonneg (by linarith), abs_of_nonneg (by linarith)]
        linarith
  rw [hrnd]
  refine ⟨?_, fun z hz => ?_, fun z hz hne hd => ?_⟩
  · rcases lt_or_eq_of_le hk with hk' | hk'
    · exact ⟨_, e, hk', he1, he2, rfl⟩
    · have he3 : e + 1 ≤ 971 := by
        by_contra hc
        have h1 : |(roundEven y : ℝ) * 2 ^ e| = 2 ^ (53 + e) := by
          rw [abs_mul, abs_of_pos hu, zpow_add₀ (by norm_num)]
          congr 1
          exact_mod_cast congrArg (Int.cast (R := ℝ)) hk'
        rw [h1] at hlt
        have h2 : (2 : ℝ) ^ (1024 : ℤ) ≤ 2 ^ (53 + e) := zpow_le_zpow_right₀ (by norm_num) (by omega)
        exact absurd h2 (not_le.2 hlt)
      have h3 : ∃ m : ℤ, roundEven y = m * 2 ∧ |m| < 2 ^ 53 := by
        rcases abs_cases (roundEven y) with ⟨h4, _⟩ | ⟨h4, _⟩
        · exact ⟨2 ^ 52, by omega, by norm_num⟩
        · exact ⟨-2 ^ 52, by omega, by norm_num⟩
      obtain ⟨m, hm, hm'⟩ := h3
      refine ⟨m, e + 1, hm', by omega, he3, ?_⟩
      rw [hm, zpow_add₀ (by norm_num)]
      push_cast
      ring
  · rcases hother z hz with ⟨j, rfl⟩ | h
    · exact hgrid j
    · exact h.le
  · rcases hother z hz with ⟨j, rfl⟩ | h
    · have hj : j ≠ roundEven y := fun h => hne (by rw [h])
      rw [hdist, hdist] at hd
      have hd' := mul_right_cancel₀ hu.ne' hd
      have := hfar j hj
      have hhalf : |(roundEven y : ℝ) - y| = 1 / 2 := by linarith
      have hone : |(j : ℝ) - roundEven y| = 1 := by
        have h1 : |(j : ℝ) - roundEven y| ≤ |(j : ℝ) - y| + |(roundEven y : ℝ) - y| := by
          rw [abs_sub_comm (roundEven y : ℝ) y]
          exact abs_sub_le _ _ _
        have h2 : (1 : ℝ) ≤ |(j : ℝ) - roundEven y| := by
          have : 1 ≤ |j - roundEven y| := Int.one_le_abs (sub_ne_zero.2 hj)
          exact_mod_cast this
        linarith
      refine ⟨roundEven y, ?_, roundEven_tie hhalf⟩
      rw [← sub_mul, abs_mul, hone, one_mul, abs_of_pos hu]
    · exact absurd hd h.ne

/-- Numbers below half of the least one are rounded to 0. -/
example (L : F64) : L.rnd (2⁻¹ ^ 1076) = 0 := by
  have h : Int.log 2 |(2 : ℝ)⁻¹ ^ 1076| = -1076 := by
    rw [abs_of_pos (by positivity), inv_pow, ← zpow_natCast, ← zpow_neg]
    exact_mod_cast Int.log_zpow (R := ℝ) (b := 2) (by decide) (-1076)
  have h1 : (2 : ℝ)⁻¹ ^ 1076 / 2 ^ (-1074 : ℤ) = 1 / 4 := by
    rw [inv_pow, ← zpow_natCast, ← zpow_neg, ← zpow_sub₀ (by norm_num)]
    norm_num
  have h2 : roundEven (1 / 4) = 0 := by
    unfold roundEven
    have hf : ⌊(1 / 4 : ℝ)⌋ = 0 := by rw [Int.floor_eq_iff]; norm_num
    have hr : Int.fract (1 / 4 : ℝ) = 1 / 4 := by rw [Int.fract, hf]; norm_num
    rw [hf, hr, if_pos (by norm_num)]
  unfold F64.rnd
  rw [h, show max (-1076 : ℤ) (-1022) - 52 = -1074 by norm_num]
  dsimp only
  rw [h1, h2]
  simp

/-- C89: the bounds of the exponents play no part in the numbers of rounds, for all widths and security
levels whose sum is less than 2^99 and all fields whose order has at most 2^250 bits: no intermediate result is
infinite or too small. -/
theorem C89_exponents (L : F64) :
    (∀ (s : PoseidonSbox) (w bits : ℕ), bits + w + 7 ≤ 2 ^ 99 →
      L.secureRoundsPadded p s w bits = L.toLibm.secureRoundsPadded p s w bits) ∧
    ((p - 1).size ≤ 2 ^ 250 → L.recommendedRounds p = L.toLibm.recommendedRounds p) :=
  ⟨fun _ _ _ h => F64.secureRoundsPadded_eq h,
    fun h => F64.recommendedRounds_eq (by rw [Elem.maxBits_eq]; exact h)⟩

/-- C89: `C89_poseidon_rounds` with bounded exponents. -/
theorem C89_poseidon_binary64 (L : F64) {w bits : ℕ} (hw : 0 < w) (hb : bits + w ≤ 2 ^ 40)
    (s : PoseidonSbox) (m : ElementMatrix p) :
    ∃ f r r' : ℕ, Poseidon.build (L.secureRoundsPadded p) w none (some s) (some bits) (some m) =
        some ⟨w, f + 2, r', s, m⟩ ∧
      6 ≤ f ∧ 2 ∣ f ∧ (2 ≤ w → f = 6) ∧ r ≤ r' ∧
      |(r' : ℝ) - 1.075 * r| ≤ 1 / 2 + 2⁻¹ ^ 45 * r ∧
      (∀ f' r', 6 ≤ f' → Resists p s bits w f' r' → f * w + r ≤ f' * w + r' + 1) ∧
      Resists p s bits w (f + 2) r' := by
  obtain ⟨f, r, r', h, h'⟩ := C89_poseidon_rounds (p := p) L.toLibm hw hb s m
  refine ⟨f, r, r', ?_, h'⟩
  rw [← h]
  unfold Poseidon.build
  simp only [Option.getD_some, Option.bind_eq_bind, Option.bind_some, Option.isSome_none, Bool.false_and]
  rw [(C89_exponents (p := p) L).1 s w bits (by omega)]

/-- With the correctly rounded logarithms, whatever comes in the place of infinite results. -/
example (m : ElementMatrix bn128Order) (inf : ℝ → ℝ) : ∃ r',
    Poseidon.build ((F64.mk Libm.rounded inf).secureRoundsPadded bn128Order) 3 none (some .inverse) (some 80)
      (some m) = some ⟨3, 8, r', .inverse, m⟩ := by
  obtain ⟨f, r, r', h1, -, -, h2, -⟩ := C89_poseidon_binary64 (p := bn128Order) (F64.mk Libm.rounded inf)
    (w := 3) (bits := 80) (by norm_num) (by norm_num) .inverse m
  rw [h2 (by norm_num)] at h1
  exact ⟨r', h1⟩

/-- C89: `C89_mimc_rounds` with bounded exponents. -/
theorem C89_mimc_binary64 (L : F64) (hn : (p - 1).size ≤ 4096) :
    2 ^ (p - 1).size ≤ 3 ^ L.recommendedRounds p ∧
      ∀ r, 2 ^ (p - 1).size ≤ 3 ^ r → L.recommendedRounds p ≤ r := by
  rw [(C89_exponents (p := p) L).2 (by omega)]
  exact (C89_mimc_rounds (p := p) L.toLibm hn).2

/-- Over the field with 7 elements, 2 rounds are recommended. -/
example [Fact (Nat.Prime 7)] (L : F64) : L.recommendedRounds 7 = 2 := by
  have hsz : (7 - 1).size = 3 := by decide +kernel
  obtain ⟨h1, h2⟩ := C89_mimc_binary64 L (p := 7) (by rw [hsz]; norm_num)
  rw [hsz] at h1 h2
  have h3 := h2 2 (by norm_num)
  by_contra hne
  have h4 : (3 : ℕ) ^ L.recommendedRounds 7 ≤ 3 ^ 1 := Nat.pow_le_pow_right (by decide) (by omega)
  omega

end R1CS
