import Verif.Model.Ieee
import Verif.Lemmas.Floats
import Mathlib.Analysis.Complex.ExponentialBounds

/-!
# The bounds of the exponents play no part
-/

namespace R1CS

/-- Zero, or between `2 ^ -b` and `2 ^ b`. -/
def Moderate (b : ℕ) (x : ℝ) : Prop := x = 0 ∨ (2⁻¹ ^ b ≤ x ∧ x ≤ 2 ^ b)

namespace Moderate

variable {b c : ℕ} {x y : ℝ}

theorem nonneg (h : Moderate b x) : 0 ≤ x := by
  rcases h with rfl | ⟨h, _⟩
  · exact le_refl _
  · exact le_trans (by positivity) h

theorem le (h : Moderate b x) : x ≤ 2 ^ b := by
  rcases h with rfl | ⟨_, h⟩
  · positivity
  · exact h

theorem mono (h : Moderate b x) (hb : b ≤ c) : Moderate c x := by
  rcases h with h | ⟨h1, h2⟩
  · exact Or.inl h
  · exact Or.inr ⟨le_trans (pow_le_pow_of_le_one (by norm_num) (by norm_num) hb) h1,
      le_trans h2 (pow_le_pow_right₀ (by norm_num) hb)⟩

theorem mul (h : Moderate b x) (g : Moderate c y) : Moderate (b + c) (x * y) := by
  rcases h with rfl | ⟨h1, h2⟩
  · exact Or.inl (zero_mul _)
  · rcases g with rfl | ⟨g1, g2⟩
    · exact Or.inl (mul_zero _)
    · refine Or.inr ⟨?_, ?_⟩
      · rw [pow_add]
        exact mul_le_mul h1 g1 (by positivity) (le_trans (by positivity) h1)
      · rw [pow_add]
        exact mul_le_mul h2 g2 (le_trans (by positivity) g1) (by positivity)

theorem add (h : Moderate b x) (g : Moderate b y) : Moderate (b + 1) (x + y) := by
  have hm : (2 : ℝ)⁻¹ ^ (b + 1) ≤ 2⁻¹ ^ b := pow_le_pow_of_le_one (by norm_num) (by norm_num) (by omega)
  have hx := h.le
  have hy := g.le
  have hx0 := h.nonneg
  have hy0 := g.nonneg
  have h2 : x + y ≤ 2 ^ (b + 1) := by rw [pow_succ]; linarith
  rcases h with rfl | ⟨h1, _⟩
  · rcases g with rfl | ⟨g1, _⟩
    · exact Or.inl (add_zero _)
    · exact Or.inr ⟨by linarith, h2⟩
  · exact Or.inr ⟨by linarith, h2⟩

theorem div (h : Moderate b x) (g1 : 2⁻¹ ^ c ≤ y) (g2 : y ≤ 2 ^ c) : Moderate (b + c) (x / y) := by
  have hy : 0 < y := lt_of_lt_of_le (by positivity) g1
  rw [div_eq_mul_inv]
  refine h.mul (Or.inr ⟨?_, ?_⟩)
  · rw [inv_pow]
    exact inv_anti₀ hy g2
  · have := inv_anti₀ (by positivity) g1
    rwa [inv_pow, inv_inv] at this

theorem nat {n : ℕ} (h : n ≤ 2 ^ b) : Moderate b n := by
  rcases Nat.eq_zero_or_pos n with rfl | hn
  · exact Or.inl (by simp)
  · refine Or.inr ⟨le_trans (pow_le_one₀ (by norm_num) (by norm_num)) (by exact_mod_cast hn), by exact_mod_cast h⟩

theorem fl (h : Moderate b x) : Moderate (b + 1) (fl x) := by
  have h0 := h.nonneg
  have he := abs_fl_sub_le x
  rw [abs_of_nonneg h0, abs_le] at he
  have hs : (2 : ℝ)⁻¹ ^ 53 * x ≤ 2⁻¹ * x := mul_le_mul_of_nonneg_right (by norm_num) h0
  rcases h with rfl | ⟨h1, h2⟩
  · refine Or.inl ?_
    simp only [mul_zero] at he
    linarith
  · refine Or.inr ⟨?_, ?_⟩
    · rw [pow_succ]
      linarith
    · rw [pow_succ]
      linarith

end Moderate

namespace F64

variable {L : F64} {b c : ℕ} {x y : ℝ}

/-- Where the bounds of the exponents play no part. -/
theorem rnd_eq (h : x = 0 ∨ (2 : ℝ)⁻¹ ^ 1022 ≤ |x|) (h' : |x| ≤ 2 ^ 1022) : L.rnd x = fl x := by
  have hlog : max (Int.log 2 |x|) (-1022) = Int.log 2 |x| := by
    refine max_eq_left ?_
    rcases h with rfl | h
    · simp
    · have hpos : (0 : ℝ) < |x| := lt_of_lt_of_le (by positivity) h
      have : ((2 : ℕ) : ℝ) ^ (-1022 : ℤ) ≤ |x| := by
        rw [zpow_neg]
        rw [inv_pow] at h
        exact_mod_cast h
      exact (Int.zpow_le_iff_le_log (by norm_num) hpos).1 this
  have hr : (roundEven (x / 2 ^ (Int.log 2 |x| - 52)) * 2 ^ (Int.log 2 |x| - 52) : ℝ) = fl x := rfl
  unfold rnd
  rw [hlog]
  dsimp only
  rw [hr, if_pos]
  have he := abs_fl_sub_le x
  have hs : (2 : ℝ)⁻¹ ^ 53 * |x| ≤ |x| := mul_le_of_le_one_left (abs_nonneg _) (by norm_num)
  have h3 : |fl x| ≤ |fl x - x| + |x| := by
    have := abs_add_le (fl x - x) x
    rwa [sub_add_cancel] at this
  have h4 : (2 : ℝ) ^ 1024 = 2 ^ 1022 * 4 := by rw [show (1024 : ℕ) = 1022 + 2 by norm_num, pow_add]; norm_num
  have h5 : (0 : ℝ) < 2 ^ 1022 := by positivity
  rw [h4]
  generalize (2 : ℝ) ^ 1022 = M at h' h5 ⊢
  linarith

theorem rnd_moderate (h : Moderate b x) (hb : b ≤ 1022) : L.rnd x = fl x := by
  have h' := h.mono hb
  refine rnd_eq ?_ ?_
  · rw [abs_of_nonneg h.nonneg]
    rcases h' with h' | ⟨h', _⟩
    · exact Or.inl h'
    · exact Or.inr h'
  · rw [abs_of_nonneg h.nonneg]
    exact h'.le

/-- A difference is zero or not small. -/
theorem rnd_sub_one (h : Moderate b x) (hx : x = 0 ∨ 1 / 16 ≤ x) (hb : b ≤ 1000) :
    L.rnd (fl x - 1) = fl (fl x - 1) := by
  have hu := (h.fl).le
  have h0 := (h.fl).nonneg
  have hb2 : (2 : ℝ) ^ (b + 1) ≤ 2 ^ 1001 := pow_le_pow_right₀ (by norm_num) (by omega)
  refine rnd_eq ?_ ?_
  · -- both are multiples of `2 ^ -56`
    have key : ∃ k : ℤ, fl x = k * (2 : ℝ)⁻¹ ^ 56 := by
      rcases hx with rfl | hx
      · refine ⟨0, ?_⟩
        have he := abs_fl_sub_le 0
        simp only [abs_zero, mul_zero, sub_zero, abs_nonpos_iff] at he
        rw [he]
        simp
      · have hpos : (0 : ℝ) < |x| := by rw [abs_of_nonneg (by linarith)]; linarith
        have hl : (-4 : ℤ) ≤ Int.log 2 |x| := by
          refine (Int.zpow_le_iff_le_log (by norm_num) hpos).1 ?_
          rw [abs_of_nonneg (by linarith)]
          norm_num
          linarith
        obtain ⟨n, hn⟩ := Int.eq_ofNat_of_zero_le (show 0 ≤ Int.log 2 |x| + 4 by omega)
        refine ⟨roundEven (x / 2 ^ (Int.log 2 |x| - 52)) * 2 ^ n, ?_⟩
        unfold R1CS.fl
        rw [Int.cast_mul, mul_assoc]
        congr 1
        rw [show Int.log 2 |x| - 52 = (n : ℤ) + (-56) by omega, zpow_add₀ (by norm_num), zpow_natCast, inv_pow,
          Int.cast_pow, zpow_neg]
        norm_cast
    obtain ⟨k, hk⟩ := key
    rw [hk]
    have h56 : (k : ℝ) * (2 : ℝ)⁻¹ ^ 56 - 1 = ((k - 2 ^ 56 : ℤ) : ℝ) * 2⁻¹ ^ 56 := by
      have : (2 : ℝ) ^ 56 * 2⁻¹ ^ 56 = 1 := by rw [← mul_pow]; norm_num
      rw [Int.cast_sub, sub_mul, Int.cast_pow, Int.cast_ofNat, this]
    rw [h56]
    by_cases hz : k - 2 ^ 56 = 0
    · exact Or.inl (by rw [hz]; simp)
    · refine Or.inr ?_
      rw [abs_mul, abs_of_nonneg (show (0 : ℝ) ≤ 2⁻¹ ^ 56 by positivity)]
      have h1 : (1 : ℝ) ≤ |((k - 2 ^ 56 : ℤ) : ℝ)| := by
        have := Int.one_le_abs hz
        exact_mod_cast this
      calc (2 : ℝ)⁻¹ ^ 1022 ≤ 2⁻¹ ^ 56 := pow_le_pow_of_le_one (by norm_num) (by norm_num) (by norm_num)
        _ ≤ |((k - 2 ^ 56 : ℤ) : ℝ)| * 2⁻¹ ^ 56 := le_mul_of_one_le_left (by positivity) h1
  · rw [abs_le]
    constructor
    · have : (1 : ℝ) ≤ 2 ^ 1022 := one_le_pow₀ (by norm_num)
      generalize (2 : ℝ) ^ 1022 = M at this ⊢
      linarith
    · have : (2 : ℝ) ^ 1001 ≤ 2 ^ 1022 := pow_le_pow_right₀ (by norm_num) (by norm_num)
      generalize (2 : ℝ) ^ 1022 = M at this ⊢
      generalize (2 : ℝ) ^ 1001 = K at this hb2
      linarith

/-- Literals between 1/8 and 2. -/
theorem moderate_literal (h1 : 1 / 8 ≤ x) (h2 : x ≤ 2) : Moderate 3 x :=
  Or.inr ⟨le_trans (by norm_num) h1, le_trans h2 (by norm_num)⟩

theorem rnd_literal (h1 : 1 / 8 ≤ x) (h2 : x ≤ 2) : L.rnd x = fl x :=
  rnd_moderate (moderate_literal h1 h2) (by norm_num)

theorem rnd_nat {n : ℕ} (h : n ≤ 2 ^ 250) : L.rnd n = fl n := rnd_moderate (.nat h) (by norm_num)

theorem ln_bounds (hx : 1 ≤ x) : Real.log x / 2 ≤ L.ln x ∧ L.ln x ≤ 2 * Real.log x := by
  have h := L.ln_accurate x hx
  have h0 := Real.log_nonneg hx
  have hs : (2 : ℝ)⁻¹ ^ 50 * Real.log x ≤ 2⁻¹ * Real.log x := mul_le_mul_of_nonneg_right (by norm_num) h0
  rw [abs_le] at h
  constructor <;> linarith

theorem log2_bounds (hx : 1 ≤ x) : Real.logb 2 x / 2 ≤ L.log2 x ∧ L.log2 x ≤ 2 * Real.logb 2 x := by
  have h := L.log2_accurate x hx
  have h0 := Real.logb_nonneg (b := 2) (by norm_num) hx
  have hs : (2 : ℝ)⁻¹ ^ 50 * Real.logb 2 x ≤ 2⁻¹ * Real.logb 2 x := mul_le_mul_of_nonneg_right (by norm_num) h0
  rw [abs_le] at h
  constructor <;> linarith

theorem ln_moderate {n : ℕ} (hn : 2 ≤ n) (hn' : n ≤ 5) : (2 : ℝ)⁻¹ ^ 2 ≤ L.ln n ∧ L.ln n ≤ 2 ^ 2 := by
  obtain ⟨h1, h2⟩ := ln_bounds (L := L) (x := n) (by exact_mod_cast (by omega : 1 ≤ n))
  have h3 : Real.log 2 ≤ Real.log n := Real.log_le_log (by norm_num) (by exact_mod_cast hn)
  have h4 : Real.log n ≤ Real.log 5 := Real.log_le_log (by positivity) (by exact_mod_cast hn')
  have h5 := Real.log_two_gt_d9
  have h6 := Real.log_two_lt_d9
  have h7 : Real.log 5 ≤ 2 := by
    have : Real.log 5 ≤ Real.log (2 ^ 3 - 2) := Real.log_le_log (by norm_num) (by norm_num)
    have h8 : Real.log (6 : ℝ) = Real.log 2 + Real.log 3 := by
      rw [← Real.log_mul (by norm_num) (by norm_num)]; norm_num
    have h9 : Real.log 3 ≤ 3 / 2 * Real.log 2 + 1 / 8 := by
      have h10 : Real.log (9 : ℝ) = 2 * Real.log 3 := by
        rw [show (9 : ℝ) = 3 ^ 2 by norm_num, Real.log_pow]; norm_num
      have h11 : Real.log (8 : ℝ) = 3 * Real.log 2 := by
        rw [show (8 : ℝ) = 2 ^ 3 by norm_num, Real.log_pow]; norm_num
      have h12 : Real.log (9 : ℝ) - Real.log 8 = Real.log (9 / 8) := by
        rw [Real.log_div (by norm_num) (by norm_num)]
      have h13 := Real.log_le_sub_one_of_pos (show (0 : ℝ) < 9 / 8 by norm_num)
      linarith
    have h14 : Real.log (2 ^ 3 - 2 : ℝ) = Real.log 6 := by norm_num
    linarith
  constructor
  · norm_num
    linarith
  · norm_num
    linarith

theorem log_eq {n : ℕ} (hn : 2 ≤ n) (hn' : n ≤ 5) : L.log 2 n = L.toLibm.log 2 n ∧
    Moderate 5 (L.toLibm.log 2 n) := by
  have h2 := ln_moderate (L := L) (n := 2) (by norm_num) (by norm_num)
  have hn := ln_moderate (L := L) hn hn'
  have h : Moderate (2 + 2) (L.ln (2 : ℕ) / L.ln n) := Moderate.div (Or.inr h2) hn.1 hn.2
  have h' : Moderate (2 + 2) (L.ln 2 / L.ln n) := by exact_mod_cast h
  exact ⟨rnd_moderate h' (by norm_num), h'.fl⟩

/-- The logarithm of the width is zero or not small. -/
theorem log2_moderate {w : ℕ} (hw : 0 < w) (h : w ≤ 2 ^ 250) : Moderate 10 (L.log2 (fl w)) := by
  rcases Nat.lt_or_ge w 2 with h2 | h2
  · obtain rfl : w = 1 := by omega
    rw [fl_natCast (by norm_num)]
    refine Or.inl ?_
    have := L.log2_accurate 1 (le_refl _)
    simpa using this
  · have he := abs_fl_sub_le (w : ℝ)
    have hw2 : (2 : ℝ) ≤ w := by exact_mod_cast h2
    have hw' : (w : ℝ) ≤ 2 ^ 250 := by exact_mod_cast h
    rw [abs_of_nonneg (show (0 : ℝ) ≤ w by linarith), abs_le] at he
    have hs : (2 : ℝ)⁻¹ ^ 53 * w ≤ 1 / 8 * w := mul_le_mul_of_nonneg_right (by norm_num) (by linarith)
    have hlo : (3 / 2 : ℝ) ≤ fl w := by linarith
    have hhi : fl (w : ℝ) ≤ 2 ^ 251 := by
      rw [pow_succ]
      linarith
    obtain ⟨h5, h6⟩ := log2_bounds (L := L) (x := fl w) (by linarith)
    have h7 : (1 / 2 : ℝ) ≤ Real.logb 2 (fl w) := by
      rw [Real.le_logb_iff_rpow_le (by norm_num) (by linarith)]
      refine le_trans ?_ hlo
      rw [← Real.sqrt_eq_rpow, Real.sqrt_le_left (by norm_num)]
      norm_num
    have h8 : Real.logb 2 (fl w) ≤ 251 := by
      rw [Real.logb_le_iff_le_rpow (by norm_num) (by linarith)]
      exact_mod_cast hhi
    refine Or.inr ⟨?_, ?_⟩
    · norm_num
      linarith
    · norm_num
      linarith

variable {p : ℕ} [hp : Fact p.Prime] {w f r s : ℕ}

theorem minNM_eq (h : s ≤ 2 ^ 250) : L.minNM p s = Libm.minNM p s ∧ Moderate 251 (Libm.minNM p s) ∧
    (Libm.minNM p s = 0 ∨ 1 / 2 ≤ Libm.minNM p s) := by
  have hm : min s (Elem.maxBits p) ≤ 2 ^ 250 := le_trans (Nat.min_le_left _ _) h
  refine ⟨rnd_nat hm, (Moderate.nat hm).fl, ?_⟩
  unfold Libm.minNM
  rcases Nat.eq_zero_or_pos (min s (Elem.maxBits p)) with h0 | h0
  · refine Or.inl ?_
    rw [h0, fl_natCast (by norm_num)]
    simp
  · refine Or.inr ?_
    have he := abs_fl_sub_le ((min s (Elem.maxBits p) : ℕ) : ℝ)
    have h1 : (1 : ℝ) ≤ (min s (Elem.maxBits p) : ℕ) := by exact_mod_cast h0
    rw [abs_of_nonneg (le_trans zero_le_one h1), abs_le] at he
    have hs : (2 : ℝ)⁻¹ ^ 53 * ((min s (Elem.maxBits p) : ℕ) : ℝ) ≤ 1 / 2 * ((min s (Elem.maxBits p) : ℕ) : ℝ) :=
      mul_le_mul_of_nonneg_right (by norm_num) (by linarith)
    linarith

/-- A literal times the number of bits, less one. -/
theorem rnd_literal_sub_one (hs : s ≤ 2 ^ 250) (hx : Moderate 4 x) (hx' : 1 / 8 ≤ x) :
    L.rnd (x * Libm.minNM p s) = fl (x * Libm.minNM p s) ∧
    L.rnd (fl (x * Libm.minNM p s) - 1) = fl (fl (x * Libm.minNM p s) - 1) := by
  obtain ⟨_, h1, h2⟩ := minNM_eq (L := L) (p := p) hs
  have h := hx.mul h1
  refine ⟨rnd_moderate h (by norm_num), rnd_sub_one h ?_ (by norm_num)⟩
  rcases h2 with h2 | h2
  · exact Or.inl (by rw [h2, mul_zero])
  · refine Or.inr ?_
    calc (1 / 16 : ℝ) = 1 / 8 * (1 / 2) := by norm_num
      _ ≤ x * Libm.minNM p s := mul_le_mul hx' h2 (by norm_num) (by linarith)

theorem moderate_sum {n : ℕ} (hn : 2 ≤ n) (hn' : n ≤ 5) (hw : 0 < w) (hw' : w ≤ 2 ^ 250) (hs : s ≤ 2 ^ 250) :
    L.rnd (L.toLibm.log 2 n * Libm.minNM p s) = fl (L.toLibm.log 2 n * Libm.minNM p s) ∧
    L.rnd (fl (L.toLibm.log 2 n * Libm.minNM p s) + L.log2 (fl w)) =
      fl (fl (L.toLibm.log 2 n * Libm.minNM p s) + L.log2 (fl w)) := by
  have h := (log_eq (L := L) hn hn').2.mul (minNM_eq (L := L) (p := p) hs).2.1
  exact ⟨rnd_moderate h (by norm_num),
    rnd_moderate (h.fl.add ((log2_moderate (L := L) hw hw').mono (by norm_num))) (by norm_num)⟩

theorem fl_literal (h1 : 13 / 100 ≤ x) (h2 : x ≤ 2) :
    Moderate 4 (fl x) ∧ 1 / 8 ≤ fl x := by
  refine ⟨(moderate_literal (by linarith) h2).fl, ?_⟩
  have he := abs_fl_sub_le x
  rw [abs_of_nonneg (show (0 : ℝ) ≤ x by linarith), abs_le] at he
  have hs : (2 : ℝ)⁻¹ ^ 53 * x ≤ 1 / 1000 * x := mul_le_mul_of_nonneg_right (by norm_num) (by linarith)
  linarith

theorem isAttackable_eq {t : PoseidonSbox} (hw : w ≤ 2 ^ 100) (hf : f ≤ 2 ^ 100) (hr : r ≤ 2 ^ 100)
    (hs : s ≤ 2 ^ 100) : L.isAttackable p t w f r s = L.toLibm.isAttackable p t w f r s := by
  have e250 : (2 : ℕ) ^ 100 ≤ 2 ^ 250 := Nat.pow_le_pow_right (by norm_num) (by norm_num)
  have hsum : f + r ≤ 2 ^ 250 := le_trans (Nat.add_le_add hf hr) (by norm_num)
  have hprod : (w - 1) * f + r ≤ 2 ^ 250 := by
    refine le_trans (Nat.add_le_add (Nat.mul_le_mul (le_trans (Nat.sub_le _ _) hw) hf) hr) (by norm_num)
  have hw4 := hw.trans e250
  have hf4 := hf.trans e250
  have hr4 := hr.trans e250
  have hs4 := hs.trans e250
  have hm := (minNM_eq (L := L) (p := p) hs4).1
  rcases Nat.eq_zero_or_pos w with rfl | hw0
  · cases t <;> rfl
  cases t with
  | exponentiation3 =>
    show L.isAttackable3 p w f r s = L.toLibm.isAttackable3 p w f r s
    have hl := (log_eq (L := L) (n := 3) (by norm_num) (by norm_num)).1
    have h1 := moderate_sum (L := L) (p := p) (n := 3) (by norm_num) (by norm_num) hw0 hw4 hs4
    have c1 := fl_literal (x := 0.32) (by norm_num) (by norm_num)
    have c2 := fl_literal (x := 0.18) (by norm_num) (by norm_num)
    have h2 := rnd_literal_sub_one (L := L) (p := p) hs4 c1.1 c1.2
    have h3 := rnd_literal_sub_one (L := L) (p := p) hs4 c2.1 c2.2
    norm_cast at hl h1
    unfold isAttackable3 Libm.isAttackable3
    rw [rnd_nat hsum, rnd_nat hprod, rnd_nat hw4, hm, hl, h1.1, h1.2,
      rnd_literal (x := 0.32) (by norm_num) (by norm_num), rnd_literal (x := 0.18) (by norm_num) (by norm_num),
      h2.1, h3.1, h3.2]
  | exponentiation5 =>
    show L.isAttackable5 p w f r s = L.toLibm.isAttackable5 p w f r s
    have hl := (log_eq (L := L) (n := 5) (by norm_num) (by norm_num)).1
    have h1 := moderate_sum (L := L) (p := p) (n := 5) (by norm_num) (by norm_num) hw0 hw4 hs4
    have c1 := fl_literal (x := 0.21) (by norm_num) (by norm_num)
    have c2 := fl_literal (x := 0.14) (by norm_num) (by norm_num)
    have h2 := rnd_literal_sub_one (L := L) (p := p) hs4 c1.1 c1.2
    have h3 := rnd_literal_sub_one (L := L) (p := p) hs4 c2.1 c2.2
    norm_cast at hl h1
    unfold isAttackable5 Libm.isAttackable5
    rw [rnd_nat hsum, rnd_nat hprod, rnd_nat hw4, hm, hl, h1.1, h1.2,
      rnd_literal (x := 0.21) (by norm_num) (by norm_num), rnd_literal (x := 0.14) (by norm_num) (by norm_num),
      h2.1, h3.1, h3.2]
  | inverse =>
    show L.isAttackableInverse p w f r s = L.toLibm.isAttackableInverse p w f r s
    have hl := log2_moderate (L := L) hw0 hw4
    have h1 := (Moderate.nat hf4).fl.mul hl
    have h2 := h1.fl.add ((Moderate.nat hr4).fl.mono (c := 262) (by norm_num))
    have h3 := hl.add ((moderate_literal (x := 0.5) (by norm_num) (by norm_num)).mono (c := 10) (by norm_num))
    have h4 := (h3.fl.mono (c := 251) (by norm_num)).add (minNM_eq (L := L) (p := p) hs4).2.1
    have h5 := rnd_literal_sub_one (L := L) (p := p) (x := 0.25) hs4
      ((moderate_literal (by norm_num) (by norm_num)).mono (by norm_num)) (by norm_num)
    unfold isAttackableInverse Libm.isAttackableInverse
    rw [rnd_nat hf4, rnd_nat hr4, rnd_nat hprod, rnd_nat hw4, hm, rnd_moderate h1 (by norm_num),
      rnd_moderate h2 (by norm_num), rnd_moderate h3 (by norm_num), rnd_moderate h4 (by norm_num), h5.1, h5.2]

theorem partialLoop_eq {t : PoseidonSbox} (hw : w ≤ 2 ^ 100) (hf : f ≤ 2 ^ 100) (hs : s ≤ 2 ^ 100) :
    ∀ (fuel r : ℕ), r + fuel ≤ 2 ^ 100 →
      L.partialLoop p t w f s fuel r = L.toLibm.partialLoop p t w f s fuel r
  | 0, _, _ => rfl
  | fuel + 1, r, h => by
    unfold partialLoop Libm.partialLoop
    rw [isAttackable_eq hw hf (by omega) hs]
    congr 1
    funext a
    split
    · exact partialLoop_eq hw hf hs fuel (r + 1) (by omega)
    · rfl

theorem securePartialRounds_eq {t : PoseidonSbox} (h : s + w + 4 ≤ 2 ^ 99) (hf : f ≤ 2 ^ 100) :
    L.securePartialRounds p t w f s = L.toLibm.securePartialRounds p t w f s :=
  partialLoop_eq (by omega) hf (by omega) _ _ (by omega)

theorem roundsLoop_eq {t : PoseidonSbox} (h : s + w + 4 ≤ 2 ^ 99) : ∀ (fuel f : ℕ) (b : ℕ × ℕ) (k : ℕ),
    f + 2 * fuel ≤ 2 ^ 100 → L.roundsLoop p t w s fuel f b k = L.toLibm.roundsLoop p t w s fuel f b k
  | 0, _, _, _, _ => rfl
  | fuel + 1, f, b, k, hf => by
    unfold roundsLoop Libm.roundsLoop
    dsimp only
    rw [securePartialRounds_eq h (by omega)]
    congr 1
    funext a
    split
    · rfl
    · exact roundsLoop_eq h fuel (f + 2) _ _ (by omega)

theorem secureRoundsUnpadded_eq {t : PoseidonSbox} (h : s + w + 7 ≤ 2 ^ 99) :
    L.secureRoundsUnpadded p t w s = L.toLibm.secureRoundsUnpadded p t w s := by
  unfold secureRoundsUnpadded Libm.secureRoundsUnpadded
  dsimp only
  rw [securePartialRounds_eq (by omega) (by norm_num)]
  congr 1
  funext a
  exact roundsLoop_eq (by omega) _ _ _ _ (by omega)

theorem rnd_padded (h : r ≤ 2 ^ 100) : L.rnd (L.rnd r * L.rnd 1.075) = fl (fl r * fl 1.075) := by
  rw [rnd_nat (h.trans (Nat.pow_le_pow_right (by norm_num) (by norm_num))),
    rnd_literal (x := 1.075) (by norm_num) (by norm_num)]
  exact rnd_moderate ((Moderate.nat h).fl.mul (moderate_literal (by norm_num) (by norm_num)).fl) (by norm_num)

omit hp in
theorem partialLoop_le [Fact p.Prime] {L : Libm} {t : PoseidonSbox} : ∀ (fuel r : ℕ) {r' : ℕ},
    L.partialLoop p t w f s fuel r = some r' → r' ≤ r + fuel
  | 0, _, _, h => by simp [Libm.partialLoop] at h
  | fuel + 1, r, r', h => by
    unfold Libm.partialLoop at h
    simp only [Option.bind_eq_bind, Option.bind_eq_some_iff] at h
    obtain ⟨a, -, h⟩ := h
    split at h
    · have := partialLoop_le fuel (r + 1) h
      omega
    · obtain rfl : r = r' := Option.some.inj h
      omega

omit hp in
theorem roundsLoop_le [Fact p.Prime] {L : Libm} {t : PoseidonSbox} : ∀ (fuel f : ℕ) (b : ℕ × ℕ) (k : ℕ) {b' : ℕ × ℕ},
    L.roundsLoop p t w s fuel f b k = some b' → b.2 ≤ s + w + 4 → b'.2 ≤ s + w + 4
  | 0, _, _, _, _, h, _ => by simp [Libm.roundsLoop] at h
  | fuel + 1, f, b, k, b', h, hb => by
    unfold Libm.roundsLoop at h
    simp only [Option.bind_eq_bind, Option.bind_eq_some_iff] at h
    obtain ⟨a, ha, h⟩ := h
    split at h
    · obtain rfl : b = b' := Option.some.inj h
      exact hb
    · refine roundsLoop_le fuel _ _ _ h ?_
      have := partialLoop_le _ _ ha
      simpa using this

omit hp in
theorem secureRoundsUnpadded_le [Fact p.Prime] {L : Libm} {t : PoseidonSbox} {b : ℕ × ℕ}
    (h : L.secureRoundsUnpadded p t w s = some b) : b.2 ≤ s + w + 4 := by
  unfold Libm.secureRoundsUnpadded at h
  simp only [Option.bind_eq_bind, Option.bind_eq_some_iff] at h
  obtain ⟨a, ha, h⟩ := h
  refine roundsLoop_le _ _ _ _ h ?_
  have := partialLoop_le _ _ ha
  simpa using this

theorem secureRoundsPadded_eq {t : PoseidonSbox} (h : s + w + 7 ≤ 2 ^ 99) :
    L.secureRoundsPadded p t w s = L.toLibm.secureRoundsPadded p t w s := by
  unfold secureRoundsPadded Libm.secureRoundsPadded
  rw [secureRoundsUnpadded_eq h]
  rcases he : L.toLibm.secureRoundsUnpadded p t w s with _ | b
  · rfl
  · have hb := secureRoundsUnpadded_le he
    simp only [Option.bind_eq_bind, Option.bind_some]
    rw [rnd_padded (by omega)]

theorem recommendedRounds_eq (h : Elem.maxBits p ≤ 2 ^ 250) :
    L.recommendedRounds p = L.toLibm.recommendedRounds p := by
  obtain ⟨h1, h2⟩ := log2_bounds (L := L) (x := 3) (by norm_num)
  have h3 : (1 : ℝ) ≤ Real.logb 2 3 := by
    rw [Real.le_logb_iff_rpow_le (by norm_num) (by norm_num)]
    norm_num
  have h4 : Real.logb 2 3 ≤ 2 := by
    rw [Real.logb_le_iff_le_rpow (by norm_num) (by norm_num)]
    norm_num
  have h5 : Moderate (251 + 2) (fl (Elem.maxBits p : ℕ) / L.log2 3) :=
    Moderate.div (Moderate.nat h).fl (by norm_num; linarith) (by norm_num; linarith)
  unfold recommendedRounds Libm.recommendedRounds
  rw [rnd_nat h, rnd_moderate h5 (by norm_num)]

end F64

end R1CS
