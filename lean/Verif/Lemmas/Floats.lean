import Verif.Model.Floats

/-!
# Accuracy of floating point arithmetic
-/

namespace R1CS

theorem abs_roundEven_sub_le (y : ℝ) : |(roundEven y : ℝ) - y| ≤ 1 / 2 := by
  have h := Int.floor_add_fract y
  have h0 := Int.fract_nonneg y
  have h1 := Int.fract_lt_one y
  unfold roundEven
  rw [abs_le]
  split_ifs with a b c
  · constructor <;> linarith
  · push_cast; constructor <;> linarith
  · constructor <;> linarith
  · push_cast; constructor <;> linarith

/-- In the middle the even neighbour is taken. -/
theorem roundEven_tie {y : ℝ} (h : |(roundEven y : ℝ) - y| = 1 / 2) : Even (roundEven y) := by
  have h' := Int.floor_add_fract y
  have h0 := Int.fract_nonneg y
  have h1 := Int.fract_lt_one y
  unfold roundEven at *
  split_ifs at * with c1 c2 c3
  · rw [abs_sub_comm, abs_of_nonneg (by linarith)] at h
    linarith
  · push_cast at h
    rw [abs_of_nonneg (by linarith)] at h
    linarith
  · exact even_iff_two_dvd.2 c3
  · rw [Int.even_add_one, even_iff_two_dvd]
    exact c3

theorem roundEven_intCast (k : ℤ) : roundEven (k : ℝ) = k := by
  unfold roundEven
  rw [if_pos (by simp)]
  simp

/-- Rounding has a relative error of at most 2^-53. -/
theorem abs_fl_sub_le (x : ℝ) : |fl x - x| ≤ 2⁻¹ ^ 53 * |x| := by
  rcases eq_or_ne x 0 with rfl | hx
  · have h0 : roundEven 0 = 0 := by exact_mod_cast roundEven_intCast 0
    simp [fl, h0]
  · have hpos : 0 < |x| := abs_pos.2 hx
    have h1 := Int.zpow_log_le_self (b := 2) (by norm_num) hpos
    push_cast at h1
    set e := Int.log 2 |x|
    have hu : (0 : ℝ) < 2 ^ (e - 52) := by positivity
    have h2 := abs_roundEven_sub_le (x / 2 ^ (e - 52))
    have h3 : fl x - x = ((roundEven (x / 2 ^ (e - 52)) : ℝ) - x / 2 ^ (e - 52)) * 2 ^ (e - 52) := by
      rw [sub_mul, div_mul_cancel₀ _ hu.ne']
      rfl
    rw [h3, abs_mul, abs_of_pos hu]
    have h4 : (2 : ℝ) ^ (e - 52) = 2 ^ e * 2⁻¹ ^ 52 := by
      rw [zpow_sub₀ (by norm_num), div_eq_mul_inv, inv_pow]
      norm_cast
    have h5 : (2 : ℝ) ^ e * 2⁻¹ ^ 52 ≤ |x| * 2⁻¹ ^ 52 :=
      mul_le_mul_of_nonneg_right h1 (by positivity)
    calc _ ≤ 1 / 2 * (2 : ℝ) ^ (e - 52) := mul_le_mul_of_nonneg_right h2 hu.le
      _ ≤ 1 / 2 * (|x| * 2⁻¹ ^ 52) := by rw [h4]; linarith
      _ = _ := by ring

/-- Integers of at most 53 bits are not rounded. -/
theorem fl_natCast {n : ℕ} (h : n < 2 ^ 53) : fl n = n := by
  rcases Nat.eq_zero_or_pos n with rfl | hn
  · have h0 : roundEven 0 = 0 := by exact_mod_cast roundEven_intCast 0
    simp [fl, h0]
  · unfold fl
    rw [abs_of_nonneg (by positivity), Int.log_natCast]
    have hl : Nat.log 2 n ≤ 52 := by
      have := (Nat.log_lt_iff_lt_pow (b := 2) (by norm_num) hn.ne').2 h
      omega
    obtain ⟨k, hk⟩ := Nat.exists_eq_add_of_le hl
    have he : ((Nat.log 2 n : ℕ) : ℤ) - 52 = -(k : ℤ) := by omega
    rw [he, zpow_neg, zpow_natCast, div_inv_eq_mul]
    have hc : ((n : ℝ) * 2 ^ k) = (((n * 2 ^ k : ℕ) : ℤ) : ℝ) := by push_cast; ring
    rw [hc, roundEven_intCast]
    push_cast
    field_simp

/-! ## Relative errors -/

/-- The unit of the relative errors. -/
noncomputable def ulp : ℝ := 2⁻¹ ^ 50

/-- `a` is the non-negative number `b` up to `k` relative errors. -/
def Rel (k : ℕ) (a b : ℝ) : Prop := 0 ≤ b ∧ b * (1 - ulp) ^ k ≤ a ∧ a ≤ b * (1 + ulp) ^ k

theorem ulp_pos : 0 < ulp := by unfold ulp; positivity
theorem ulp_lt : ulp < 1 / 1024 := by unfold ulp; norm_num

theorem one_sub_ulp_pos : 0 < 1 - ulp := by have := ulp_lt; linarith
theorem one_sub_ulp_le : 1 - ulp ≤ 1 := by have := ulp_pos; linarith
theorem one_le_one_add_ulp : 1 ≤ 1 + ulp := by have := ulp_pos; linarith

theorem one_le_ulp : 1 ≤ (1 - ulp) * (1 + ulp) ^ 2 := by
  have h1 := ulp_pos
  have h2 := ulp_lt
  have h3 : (1 - ulp) * (1 + ulp) ^ 2 = 1 + ulp * (1 - ulp - ulp * ulp) := by ring
  have h4 : 0 ≤ ulp * (1 - ulp - ulp * ulp) := mul_nonneg h1.le (by nlinarith)
  linarith

namespace Rel

theorem refl {b : ℝ} (h : 0 ≤ b) : Rel 0 b b := ⟨h, by simp, by simp⟩

theorem nonneg {k : ℕ} {a b : ℝ} (h : Rel k a b) : 0 ≤ a :=
  le_trans (mul_nonneg h.1 (pow_nonneg one_sub_ulp_pos.le k)) h.2.1

theorem mono {k l : ℕ} {a b : ℝ} (h : Rel k a b) (hkl : k ≤ l) : Rel l a b :=
  ⟨h.1, le_trans (mul_le_mul_of_nonneg_left
      (pow_le_pow_of_le_one one_sub_ulp_pos.le one_sub_ulp_le hkl) h.1) h.2.1,
    le_trans h.2.2 (mul_le_mul_of_nonneg_left (pow_le_pow_right₀ one_le_one_add_ulp hkl) h.1)⟩

theorem trans {k l : ℕ} {a b c : ℝ} (h : Rel k a b) (g : Rel l b c) : Rel (k + l) a c := by
  have hu := one_sub_ulp_pos.le
  have hv := one_le_one_add_ulp
  refine ⟨g.1, ?_, ?_⟩
  · rw [pow_add, mul_comm ((1 - ulp) ^ k), ← mul_assoc]
    exact le_trans (mul_le_mul_of_nonneg_right g.2.1 (pow_nonneg hu k)) h.2.1
  · rw [pow_add, mul_comm ((1 + ulp) ^ k), ← mul_assoc]
    exact le_trans h.2.2 (mul_le_mul_of_nonneg_right g.2.2 (pow_nonneg (by linarith) k))

theorem of_abs {a b : ℝ} (hb : 0 ≤ b) (h : |a - b| ≤ ulp * b) : Rel 1 a b := by
  rw [abs_le] at h
  exact ⟨hb, by rw [pow_one]; linarith, by rw [pow_one]; linarith⟩

theorem fl_self {b : ℝ} (hb : 0 ≤ b) : Rel 1 (fl b) b := by
  refine of_abs hb (le_trans (abs_fl_sub_le b) ?_)
  rw [abs_of_nonneg hb]
  refine mul_le_mul_of_nonneg_right ?_ hb
  unfold ulp
  norm_num

theorem rnd {k : ℕ} {a b : ℝ} (h : Rel k a b) : Rel (k + 1) (fl a) b := by
  rw [add_comm]
  exact (fl_self h.nonneg).trans h

theorem mul {k l : ℕ} {a b c d : ℝ} (h : Rel k a b) (g : Rel l c d) :
    Rel (k + l) (a * c) (b * d) := by
  have hu := one_sub_ulp_pos.le
  have hv := one_le_one_add_ulp
  refine ⟨mul_nonneg h.1 g.1, ?_, ?_⟩
  · calc _ = (b * (1 - ulp) ^ k) * (d * (1 - ulp) ^ l) := by rw [pow_add]; ring
      _ ≤ a * c := mul_le_mul h.2.1 g.2.1 (mul_nonneg g.1 (pow_nonneg hu l)) h.nonneg
  · calc a * c ≤ (b * (1 + ulp) ^ k) * (d * (1 + ulp) ^ l) :=
        mul_le_mul h.2.2 g.2.2 g.nonneg (mul_nonneg h.1 (pow_nonneg (by linarith) k))
      _ = _ := by rw [pow_add]; ring

theorem add {k : ℕ} {a b c d : ℝ} (h : Rel k a b) (g : Rel k c d) : Rel k (a + c) (b + d) :=
  ⟨add_nonneg h.1 g.1, by rw [add_mul]; exact add_le_add h.2.1 g.2.1,
    by rw [add_mul]; exact add_le_add h.2.2 g.2.2⟩

theorem inv {k : ℕ} {a b : ℝ} (hb : 0 < b) (h : Rel k a b) : Rel (2 * k) a⁻¹ b⁻¹ := by
  have hu := one_sub_ulp_pos
  have hv := one_le_one_add_ulp
  have hup := ulp_pos
  have hlt := ulp_lt
  have hlo : 0 < b * (1 - ulp) ^ k := mul_pos hb (pow_pos hu k)
  have ha : 0 < a := lt_of_lt_of_le hlo h.2.1
  refine ⟨(inv_pos.2 hb).le, ?_, ?_⟩
  · have h1 : (1 - ulp) * (1 + ulp) ≤ 1 := by nlinarith
    have h2 : ((1 - ulp) * (1 + ulp)) ^ k ≤ 1 :=
      pow_le_one₀ (mul_nonneg hu.le (by linarith)) h1
    have h3 : (1 - ulp) ^ (2 * k) ≤ (1 - ulp) ^ k :=
      pow_le_pow_of_le_one hu.le one_sub_ulp_le (by omega)
    have h4 : (1 - ulp) ^ k * a ≤ b := by
      calc _ ≤ (1 - ulp) ^ k * (b * (1 + ulp) ^ k) :=
            mul_le_mul_of_nonneg_left h.2.2 (pow_nonneg hu.le k)
        _ = b * ((1 - ulp) * (1 + ulp)) ^ k := by rw [mul_pow]; ring
        _ ≤ b := by nlinarith
    calc b⁻¹ * (1 - ulp) ^ (2 * k) ≤ b⁻¹ * (1 - ulp) ^ k :=
          mul_le_mul_of_nonneg_left h3 (inv_pos.2 hb).le
      _ ≤ a⁻¹ := by
        rw [inv_mul_le_iff₀ hb, ← div_eq_mul_inv, le_div_iff₀ ha]
        exact h4
  · have h2 : 1 ≤ ((1 - ulp) * (1 + ulp) ^ 2) ^ k := one_le_pow₀ one_le_ulp
    have h4 : b ≤ (1 + ulp) ^ (2 * k) * a := by
      calc b ≤ b * ((1 - ulp) * (1 + ulp) ^ 2) ^ k := by nlinarith
        _ = (1 + ulp) ^ (2 * k) * (b * (1 - ulp) ^ k) := by rw [mul_pow, pow_mul]; ring
        _ ≤ _ := mul_le_mul_of_nonneg_left h.2.1 (pow_nonneg (by linarith) _)
    rw [mul_comm, ← div_eq_mul_inv, le_div_iff₀ hb, mul_comm, ← div_eq_mul_inv, div_le_iff₀ ha]
    exact h4

theorem div {k l : ℕ} {a b c d : ℝ} (hd : 0 < d) (h : Rel k a b) (g : Rel l c d) :
    Rel (k + 2 * l) (a / c) (b / d) := by
  rw [div_eq_mul_inv, div_eq_mul_inv]
  exact h.mul (g.inv hd)

end Rel

/-- The tolerance: sixteen relative errors amount to less than 2^-45. -/
noncomputable def tol : ℝ := 2⁻¹ ^ 45

theorem tol_bounds : (1 + ulp) ^ 16 ≤ 1 + tol ∧ 1 - tol ≤ (1 - ulp) ^ 16 := by
  unfold ulp tol
  constructor <;> norm_num

theorem le_tol {k l : ℕ} (hk : k + l ≤ 8) {b d : ℝ} (hb : 0 ≤ b) (hd : 0 ≤ d)
    (h : b * (1 - ulp) ^ k ≤ d * (1 + ulp) ^ l) : b ≤ d * (1 + tol) := by
  have hv := one_le_one_add_ulp
  have h2 : 1 ≤ ((1 - ulp) * (1 + ulp) ^ 2) ^ k := one_le_pow₀ one_le_ulp
  calc b ≤ b * ((1 - ulp) * (1 + ulp) ^ 2) ^ k := by nlinarith
    _ = (b * (1 - ulp) ^ k) * (1 + ulp) ^ (2 * k) := by rw [mul_pow, pow_mul]; ring
    _ ≤ (d * (1 + ulp) ^ l) * (1 + ulp) ^ (2 * k) :=
      mul_le_mul_of_nonneg_right h (by positivity)
    _ = d * (1 + ulp) ^ (l + 2 * k) := by rw [pow_add]; ring
    _ ≤ d * (1 + ulp) ^ 16 :=
      mul_le_mul_of_nonneg_left (pow_le_pow_right₀ hv (by omega)) hd
    _ ≤ _ := mul_le_mul_of_nonneg_left tol_bounds.1 hd

theorem le_of_tol {k l : ℕ} (hk : k + l ≤ 8) {b d : ℝ} (hd : 0 ≤ d)
    (h : b ≤ d * (1 - tol)) : b * (1 + ulp) ^ k ≤ d * (1 - ulp) ^ l := by
  have hu := one_sub_ulp_pos
  have hup := ulp_pos
  have h1 : (1 - ulp) * (1 + ulp) ≤ 1 := by nlinarith
  have h2 : ((1 - ulp) * (1 + ulp)) ^ k ≤ 1 :=
    pow_le_one₀ (mul_nonneg hu.le (by linarith)) h1
  calc b * (1 + ulp) ^ k ≤ (d * (1 - tol)) * (1 + ulp) ^ k :=
        mul_le_mul_of_nonneg_right h (by positivity)
    _ ≤ (d * (1 - ulp) ^ 16) * (1 + ulp) ^ k :=
      mul_le_mul_of_nonneg_right (mul_le_mul_of_nonneg_left tol_bounds.2 hd) (by positivity)
    _ ≤ (d * (1 - ulp) ^ (l + k)) * (1 + ulp) ^ k :=
      mul_le_mul_of_nonneg_right (mul_le_mul_of_nonneg_left
        (pow_le_pow_of_le_one hu.le one_sub_ulp_le (by omega)) hd) (by positivity)
    _ = (d * (1 - ulp) ^ l) * ((1 - ulp) * (1 + ulp)) ^ k := by rw [pow_add, mul_pow]; ring
    _ ≤ (d * (1 - ulp) ^ l) * 1 :=
      mul_le_mul_of_nonneg_left h2 (mul_nonneg hd (by positivity))
    _ = _ := mul_one _

/-- If a calculated number is not above another one, neither is the exact number, up to the
tolerance, and conversely. -/
theorem Rel.compare {k l : ℕ} (hk : k + l ≤ 8) {a b c d : ℝ} (h : Rel k a b) (g : Rel l c d) :
    (a ≤ c → b ≤ d * (1 + tol)) ∧ (b ≤ d * (1 - tol) → a ≤ c) :=
  ⟨fun hac => le_tol hk h.1 g.1 (le_trans h.2.1 (le_trans hac g.2.2)),
    fun hbd => le_trans h.2.2 (le_trans (le_of_tol hk g.1 hbd) g.2.1)⟩

theorem abs_fl_sub_one {c : ℝ} (hc : 0 ≤ c) : |fl (c - 1) - (c - 1)| ≤ ulp * (c + 1) := by
  refine le_trans (abs_fl_sub_le _) ?_
  have h1 : |c - 1| ≤ c + 1 := by rw [abs_le]; constructor <;> linarith
  have h2 : (2 : ℝ)⁻¹ ^ 53 ≤ ulp := by unfold ulp; norm_num
  exact mul_le_mul h2 h1 (abs_nonneg _) ulp_pos.le

/-- The same with 1 subtracted from the right hand side. -/
theorem Rel.compare_sub {k l : ℕ} (hk : k + l ≤ 7) {a b c d : ℝ} (h : Rel k a b) (g : Rel l c d) :
    (a ≤ fl (c - 1) → b ≤ d * (1 + tol) - 1 + tol) ∧
      (b ≤ d * (1 - tol) - 1 - tol → a ≤ fl (c - 1)) := by
  have hu := one_sub_ulp_pos
  have hv := one_le_one_add_ulp
  have hup := ulp_pos
  have htol : ulp ≤ tol := by unfold ulp tol; norm_num
  have hfl := abs_le.1 (abs_fl_sub_one g.nonneg)
  have hb := h.1
  constructor
  · intro hac
    have h1 : b * (1 - ulp) ^ k + (1 - ulp) ≤ c * (1 + ulp) := by
      have := h.2.1
      linarith [hfl.2]
    have h2 : (b + (1 - ulp)) * (1 - ulp) ^ k ≤ d * (1 + ulp) ^ (l + 1) := by
      have h3 : (1 - ulp) ^ k ≤ 1 := pow_le_one₀ hu.le one_sub_ulp_le
      have h4 : c * (1 + ulp) ≤ d * (1 + ulp) ^ (l + 1) := by
        rw [pow_succ, ← mul_assoc]
        exact mul_le_mul_of_nonneg_right g.2.2 (by linarith)
      have h5 : (1 - ulp) * (1 - ulp) ^ k ≤ (1 - ulp) * 1 := mul_le_mul_of_nonneg_left h3 hu.le
      rw [add_mul]
      linarith
    have := le_tol (by omega) (by linarith) g.1 h2
    linarith
  · intro hbd
    have h1 := le_of_tol (k := k) (l := l + 1) (b := b + (1 + ulp)) (by omega) g.1 (by linarith)
    have h3 : 1 ≤ (1 + ulp) ^ k := one_le_pow₀ hv
    have h4 : d * (1 - ulp) ^ (l + 1) ≤ c * (1 - ulp) := by
      rw [pow_succ, ← mul_assoc]
      exact mul_le_mul_of_nonneg_right g.2.1 hu.le
    have h5 : (1 + ulp) * 1 ≤ (1 + ulp) * (1 + ulp) ^ k :=
      mul_le_mul_of_nonneg_left h3 (by linarith)
    rw [add_mul] at h1
    have := h.2.2
    linarith [hfl.1]

end R1CS
