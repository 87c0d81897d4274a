import Verif.Lemmas.Field
import Verif.Spec.Examples
import Mathlib.Algebra.BigOperators.Intervals
import Mathlib.Data.Nat.Bitwise

/-!
# C01-C06, C08: field elements
-/

namespace R1CS

variable {p : ℕ} [hp : Fact p.Prime]

/-! ## C01 -/

/-- C01: the operators agree with integer arithmetic modulo the order. -/
theorem C01_integer_agreement (a b : Elem p) :
    (a + b).n < p ∧ (a - b).n < p ∧ (-a).n < p ∧ (a * b).n < p ∧
    ((a + b).n : ℤ) = ((a.n : ℤ) + b.n) % p ∧ ((a - b).n : ℤ) = ((a.n : ℤ) - b.n) % p ∧
    ((-a).n : ℤ) = (-(a.n : ℤ)) % p ∧ ((a * b).n : ℤ) = ((a.n : ℤ) * b.n) % p := by
  have key : ∀ (x : Elem p) (z : ℤ), ((x.n : ℤ) : ZMod p) = (z : ZMod p) → (x.n : ℤ) = z % p := by
    intro x z h
    rw [ZMod.intCast_eq_intCast_iff] at h
    have h1 : (x.n : ℤ) % p = z % p := h
    rw [← h1, Int.emod_eq_of_lt (by positivity) (by exact_mod_cast x.lt)]
  have e : ∀ x : Elem p, ((x.n : ℤ) : ZMod p) = x.toZMod := fun x => by simp [Elem.toZMod]
  have e' : ∀ x : Elem p, ((x.n : ℕ) : ZMod p) = x.toZMod := fun x => by simp [Elem.toZMod]
  refine ⟨Elem.lt _, Elem.lt _, Elem.lt _, Elem.lt _, key _ _ ?_, key _ _ ?_, key _ _ ?_, key _ _ ?_⟩
  · rw [e]; push_cast; rw [e', e', Elem.toZMod_add]
  · rw [e]; push_cast; rw [e', e', Elem.toZMod_sub]
  · rw [e]; push_cast; rw [e', Elem.toZMod_neg]
  · rw [e]; push_cast; rw [e', e', Elem.toZMod_mul]

/-- C01: commutative-ring laws (and no zero divisors). -/
theorem C01_ring_laws (a b c : Elem p) :
    a + b = b + a ∧ a + b + c = a + (b + c) ∧ a + 0 = a ∧ a + -a = 0 ∧ a - b = a + -b ∧
    a * b = b * a ∧ a * b * c = a * (b * c) ∧ a * 1 = a ∧ a * (b + c) = a * b + a * c ∧
    (a * b = 0 → a = 0 ∨ b = 0) ∧ (0 : Elem p) ≠ 1 :=
  ⟨add_comm a b, add_assoc a b c, add_zero a, add_neg_cancel a, sub_eq_add_neg a b, mul_comm a b,
    mul_assoc a b c, mul_one a, mul_add a b c, fun h => mul_eq_zero.1 h, zero_ne_one⟩

example : ((⟨3, by decide⟩ : Elem 7) - ⟨5, by decide⟩).n = 5 ∧ (-(⟨0, by decide⟩ : Elem 7)).n = 0 := by
  decide

/-! ## C02 -/

/-- C02: inverses and quotients of field elements. -/
theorem C02_inverse (h2 : 2 < p) (x : Elem p) (hx : x ≠ 0) :
    (∃ y, x.multiplicativeInverse = some y ∧ x * y = 1) ∧
    (∃ y, x.multiplicativeInverseOrZero = some y ∧ x * y = 1) ∧
    ∀ y : Elem p, ∃ z, y.div x = some z ∧ ∀ z', z' * x = y ↔ z' = z := by
  refine ⟨⟨_, Elem.multiplicativeInverse_eq h2 x hx, mul_inv_cancel₀ hx⟩,
    ⟨_, Elem.multiplicativeInverseOrZero_eq h2 x, mul_inv_cancel₀ hx⟩, fun y =>
    ⟨_, Elem.div_eq h2 y x hx, fun z' => ?_⟩⟩
  rw [eq_div_iff hx]

/-- C02: at zero. -/
theorem C02_zero (y : Elem p) : (0 : Elem p).multiplicativeInverse = none ∧
    y.div 0 = none ∧ (0 : Elem p).multiplicativeInverseOrZero = some 0 :=
  ⟨Elem.multiplicativeInverse_zero, Elem.div_zero' y, by
    unfold Elem.multiplicativeInverseOrZero
    rw [if_pos ((Elem.isZero_iff _).2 rfl)]; rfl⟩

/-- C02: in the field of order 2 every inverse panics. -/
theorem C02_order_two (x y : Elem 2) : x.multiplicativeInverse = none ∧ y.div x = none := by
  have h : x.multiplicativeInverse = none := by
    unfold Elem.multiplicativeInverse
    split
    · rfl
    · rw [Elem.ofNat?_eq_none (le_refl 2)]; rfl
  exact ⟨h, by unfold Elem.div; rw [h]; rfl⟩

example : (⟨3, by decide⟩ : Elem 7).multiplicativeInverse = some ⟨5, by decide⟩ := by decide

/-! ## C03 -/

/-- C03: exponentiation is iterated multiplication. -/
theorem C03_exponentiation (x k : Elem p) :
    x.exponentiation k = (List.replicate k.n x).prod ∧ x.exponentiation 0 = 1 := by
  refine ⟨?_, ?_⟩
  · rw [Elem.exponentiation_eq, List.prod_replicate]
  · rw [Elem.exponentiation_eq, Elem.zero_n, pow_zero]

example : (⟨3, by decide⟩ : Elem 7).exponentiation ⟨4, by decide⟩ = ⟨4, by decide⟩ ∧
    (0 : Elem 7).exponentiation 0 = 1 := by decide

/-! ## C04 -/

/-- C04: `gcd` returns the greatest common divisor of the representatives. -/
theorem C04_gcd (a b : Elem p) : (a.gcd b).n ∣ a.n ∧ (a.gcd b).n ∣ b.n ∧
    ∀ d, d ∣ a.n → d ∣ b.n → d ∣ (a.gcd b).n := by
  have h : (a.gcd b).n = Nat.gcd a.n b.n := by
    induction a, b using Elem.gcd.induct with
    | case1 a b h => rw [Elem.gcd, dif_pos h, h, Nat.gcd_zero_right]
    | case2 a b h ih =>
      rw [Elem.gcd, dif_neg h, ih, Nat.gcd_comm a.n b.n, Nat.gcd_rec b.n a.n, Nat.gcd_comm]
  rw [h]
  exact ⟨Nat.gcd_dvd_left _ _, Nat.gcd_dvd_right _ _, fun d => Nat.dvd_gcd⟩

example : ((⟨8, by decide⟩ : Elem 13).gcd ⟨12, by decide⟩).n = 4 := by
  have := C04_gcd (⟨8, by decide⟩ : Elem 13) ⟨12, by decide⟩
  simp [Elem.gcd]

/-! ## C05 -/

theorem isPrimeLoop_spec (x : Elem p) (hx : 2 ≤ x.n) : ∀ (fuel : ℕ) (d : Elem p), 2 ≤ d.n →
    d.n ≤ x.n → x.n + 1 ≤ fuel + d.n → (∀ e, 2 ≤ e → e < d.n → ¬ e ∣ x.n ∧ e * e % p ≤ x.n) →
    ∃ r, Elem.isPrimeLoop fuel x d = some r ∧
      (r = true ↔ x.n.Prime ∧ ∃ e, 2 ≤ e ∧ e ≤ x.n ∧ x.n < e * e % p) := by
  intro fuel
  induction fuel with
  | zero => intro d _ h1 h2; omega
  | succ fuel ih =>
    intro d hd hdx hf hprev
    unfold Elem.isPrimeLoop
    by_cases hsq : (d * d).n ≤ x.n
    · rw [if_pos hsq]
      have hd0 : d.n ≠ 0 := by omega
      have hmod : x.n % d.n < p := lt_trans (Nat.mod_lt _ (by omega)) d.lt
      simp only [Elem.integerModulus, hd0, if_false, Elem.ofNat?_eq_some hmod, Option.bind_eq_bind,
        Option.bind_some]
      by_cases hz : x.n % d.n = 0
      · refine ⟨false, by simp [Elem.isZero, hz], ?_⟩
        simp only [Bool.false_eq_true, false_iff, not_and, not_exists]
        intro hpr e he2 hex
        have hdvd : d.n ∣ x.n := Nat.dvd_of_mod_eq_zero hz
        have hdx' : d.n = x.n := by
          rcases (Nat.dvd_prime hpr).1 hdvd with h | h
          · omega
          · exact h
        by_cases hed : e < d.n
        · have := (hprev e he2 hed).2; omega
        · have : e = d.n := by omega
          subst this
          have : d.n * d.n % p ≤ x.n := hsq
          omega
      · have hne : d.n ≠ x.n := by
          intro h; rw [h, Nat.mod_self] at hz; exact hz rfl
        have hlt : d.n < x.n := by omega
        have hd1 : (d + Elem.one).n = d.n + 1 := by
          change (d.n + 1) % p = _
          exact Nat.mod_eq_of_lt (by have := x.lt; omega)
        obtain ⟨r, h1, h2⟩ := ih (d + Elem.one) (by omega) (by omega) (by omega) (by
          intro e he1 he2
          by_cases hed : e < d.n
          · exact hprev e he1 hed
          · have : e = d.n := by omega
            subst this
            exact ⟨fun h => hz (Nat.mod_eq_zero_of_dvd h), hsq⟩)
        refine ⟨r, ?_, h2⟩
        simp [Elem.isZero, hz, h1]
    · rw [if_neg hsq]
      refine ⟨true, rfl, ?_⟩
      simp only [true_iff]
      have hsq' : x.n < d.n * d.n % p := not_le.1 hsq
      refine ⟨?_, d.n, hd, hdx, hsq'⟩
      by_contra hnp
      have hm := Nat.minFac_sq_le_self (by omega : 0 < x.n) hnp
      have hm2 := (Nat.minFac_prime (by omega : x.n ≠ 1)).two_le
      have hmd := Nat.minFac_dvd x.n
      have : ¬ x.n.minFac < d.n := fun h => (hprev _ hm2 h).1 hmd
      have h3 : d.n * d.n ≤ x.n.minFac * x.n.minFac := Nat.mul_le_mul (by omega) (by omega)
      have h4 : d.n * d.n % p ≤ d.n * d.n := Nat.mod_le _ _
      rw [pow_two] at hm
      omega

/-- C05, what `is_prime` computes for a representative of at least 2: it terminates, and its answer
is "prime, and some candidate divisor up to `x` has a square which, *reduced modulo the order*,
exceeds `x`". -/
theorem C05_is_prime_partial (h2 : 2 < p) (x : Elem p) (hx : 2 ≤ x.n) :
    ∃ r, x.isPrime = some r ∧
      (r = true ↔ x.n.Prime ∧ ∃ e, 2 ≤ e ∧ e ≤ x.n ∧ x.n < e * e % p) := by
  unfold Elem.isPrime
  rw [Elem.ofNat?_eq_some h2]
  simp only [Option.bind_eq_bind, Option.bind_some]
  apply isPrimeLoop_spec x hx
  · exact le_refl 2
  · exact hx
  · have := x.lt; change x.n + 1 ≤ p + 1 + 2; omega
  · intro e h1 h3; change e < 2 at h3; omega

/-- C05, the intended meaning where no square wraps around: missing are `x < 2` and `x` close to
the order. -/
theorem C05_is_prime_small_partial (x : Elem p) (hx : 2 ≤ x.n)
    (hs : (Nat.sqrt x.n + 1) * (Nat.sqrt x.n + 1) < p) :
    x.isPrime = some (decide x.n.Prime) := by
  have h2 : 2 < p := by have := x.lt; omega
  obtain ⟨r, h1, h3⟩ := C05_is_prime_partial h2 x hx
  rw [h1]
  congr 1
  rw [Bool.eq_iff_iff, h3, decide_eq_true_iff]
  constructor
  · exact fun h => h.1
  · intro h
    refine ⟨h, Nat.sqrt x.n + 1, ?_, ?_, ?_⟩
    · have : 0 < Nat.sqrt x.n := Nat.sqrt_pos.2 (by omega)
      omega
    · have : Nat.sqrt x.n < x.n := Nat.sqrt_lt_self (by omega)
      omega
    · rw [Nat.mod_eq_of_lt hs]
      exact Nat.lt_succ_sqrt x.n

example : (Nat.sqrt 7 + 1) * (Nat.sqrt 7 + 1) < 13 ∧
    (⟨7, by decide⟩ : Elem 13).isPrime = some true := by decide +kernel

/-- C05 is false: in the field of order 7 the prime 5 is reported composite, and 1 is reported
prime. -/
theorem C05_is_prime_refuted :
    ¬ ∀ (q : ℕ) [Fact q.Prime] (x : Elem q), 2 < q → x.isPrime = some (decide x.n.Prime) := by
  intro h
  have := h 7 ⟨5, by decide⟩ (by decide)
  have h5 : (⟨5, by decide⟩ : Elem 7).isPrime = some false := by decide
  rw [h5] at this
  revert this
  decide

/-- C05: 0 and 1 are reported prime in every field of order at least 5. -/
theorem C05_zero_one_refuted (h : 5 ≤ p) (x : Elem p) (hx : x.n ≤ 1) : x.isPrime = some true := by
  unfold Elem.isPrime
  rw [Elem.ofNat?_eq_some (by omega : 2 < p)]
  simp only [Option.bind_eq_bind, Option.bind_some]
  unfold Elem.isPrimeLoop
  rw [if_neg]
  have : (((⟨2, by omega⟩ : Elem p) * ⟨2, by omega⟩)).n = 4 := by
    change 2 * 2 % p = 4
    exact Nat.mod_eq_of_lt (by omega)
  rw [this]; omega

example : (1 : Elem 7).isPrime = some true ∧ ¬ Nat.Prime (1 : Elem 7).n := by
  refine ⟨by decide, by norm_num⟩

/-! ## C06 -/

/-- The integer with binary digits `f 0, f 1, …, f (k-1)`. -/
def sumBits (f : ℕ → Bool) (k : ℕ) : ℕ := ∑ i ∈ Finset.range k, (f i).toNat * 2 ^ i

theorem sumBits_testBit (n k : ℕ) : sumBits n.testBit k = n % 2 ^ k := by
  induction k with
  | zero => simp [sumBits, Nat.mod_one]
  | succ k ih =>
    unfold sumBits at *
    rw [Finset.sum_range_succ, ih, Nat.mod_pow_succ, Nat.testBit_eq_decide_div_mod_eq]
    rcases Nat.mod_two_eq_zero_or_one (n / 2 ^ k) with h | h <;> simp [h]

/-- C06: digits, number of digits, and reconstruction. -/
theorem C06_bits (x : Elem p) :
    sumBits x.bit x.bits = x.n ∧ (∀ i, x.bits ≤ i → x.bit i = false) ∧
    (∀ b, x.n < 2 ^ b ↔ x.bits ≤ b) ∧ x.bits ≤ Elem.maxBits p ∧
    (∃ y : Elem p, y.bits = Elem.maxBits p) ∧
    (∀ i, x.bit i = true ↔ x.n / 2 ^ i % 2 = 1) := by
  have hb : x.bit = x.n.testBit := funext fun i => Elem.bit_eq x i
  refine ⟨?_, ?_, ?_, Elem.size_le_maxBits x, ⟨_, rfl⟩, ?_⟩
  · rw [hb, sumBits_testBit, Nat.mod_eq_of_lt]
    exact Nat.lt_size_self _
  · intro i hi
    rw [hb]
    exact Nat.testBit_lt_two_pow (Nat.size_le.1 hi)
  · intro b
    exact Nat.size_le.symm
  · intro i
    rw [hb, Nat.testBit_eq_decide_div_mod_eq]; simp

example : (⟨6, by decide⟩ : Elem 13).bits = 3 ∧ (⟨6, by decide⟩ : Elem 13).bit 1 = true ∧
    Elem.maxBits 13 = 4 := by decide

/-! ## C08 -/

/-- C08: conversion from integers succeeds exactly in range. -/
theorem C08_from (k : ℕ) :
    (∀ x, Elem.ofNat? p k = some x ↔ x.n = k) ∧ (Elem.ofNat? p k = none ↔ p ≤ k) := by
  constructor
  · intro x
    constructor
    · intro h
      unfold Elem.ofNat? at h
      split at h
      · rw [← Option.some.inj h]
      · exact absurd h (by simp)
    · rintro rfl
      rw [Elem.ofNat?_eq_some x.lt]
  · constructor
    · intro h
      by_contra hk
      rw [Elem.ofNat?_eq_some (not_le.1 hk)] at h
      exact absurd h (by simp)
    · exact Elem.ofNat?_eq_none

/-- C08: shifting never wraps around. -/
theorem C08_shl (x : Elem p) (k : ℕ) :
    (∀ y, x.shl k = some y ↔ y.n = x.n * 2 ^ k) ∧ (x.shl k = none ↔ p ≤ x.n * 2 ^ k) := by
  unfold Elem.shl
  rw [Nat.shiftLeft_eq]
  exact C08_from _

/-- C08: multiplication and division by an integer succeed exactly when the integer is an element
(and non-zero for division). -/
theorem C08_mul_div_nat (h2 : 2 < p) (x : Elem p) (k : ℕ) :
    (∀ y, x.mulNat k = some y ↔ k < p ∧ (y.n = x.n * k % p)) ∧
    (∀ y, x.divNat k = some y ↔ k < p ∧ k ≠ 0 ∧ y.n * k % p = x.n) := by
  constructor
  · intro y
    unfold Elem.mulNat
    by_cases hk : k < p
    · rw [Elem.ofNat?_eq_some hk]
      simp only [Option.bind_eq_bind, Option.bind_some, Option.pure_def, Option.some.injEq, hk,
        true_and]
      constructor
      · rintro rfl; rfl
      · intro h; exact Elem.ext_n h.symm
    · rw [Elem.ofNat?_eq_none (not_lt.1 hk)]
      simp [hk]
  · intro y
    unfold Elem.divNat
    by_cases hk : k < p
    · rw [Elem.ofNat?_eq_some hk]
      simp only [Option.bind_eq_bind, Option.bind_some, hk, true_and]
      by_cases hz : k = 0
      · subst hz
        have : (⟨0, hk⟩ : Elem p) = 0 := rfl
        rw [this, Elem.div_zero']
        simp
      · have hne : (⟨k, hk⟩ : Elem p) ≠ 0 := fun h => hz (congrArg Elem.n h)
        rw [Elem.div_eq h2 _ _ hne, Option.some.injEq]
        have : (x / ⟨k, hk⟩ = y) ↔ y * ⟨k, hk⟩ = x := by
          rw [div_eq_iff hne, eq_comm]
        rw [this]
        constructor
        · rintro rfl; exact ⟨hz, rfl⟩
        · rintro ⟨_, h⟩; exact Elem.ext_n h
    · rw [Elem.ofNat?_eq_none (not_lt.1 hk)]
      simp [hk]

example : (⟨3, by decide⟩ : Elem 13).shl 2 = some ⟨12, by decide⟩ ∧
    (⟨3, by decide⟩ : Elem 13).shl 3 = none ∧
    (⟨3, by decide⟩ : Elem 13).divNat 2 = some ⟨8, by decide⟩ := by decide

end R1CS
