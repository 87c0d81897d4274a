import Verif.Props.Matrices
import Verif.Props.Field
import Mathlib.NumberTheory.Bertrand
import Mathlib.Tactic.IntervalCases

/-!
# C74, C75: default parameters of Rescue and Poseidon
-/

set_option linter.unusedSectionVars false

namespace R1CS

variable {p : ℕ} [hp : Fact p.Prime]

/-! ## C74: the exponent of Rescue -/

theorem gcd_isOne_iff (a b : Elem p) : (a.gcd b).isOne = true ↔ Nat.Coprime a.n b.n := by
  obtain ⟨h1, h2, h3⟩ := C04_gcd a b
  have : (a.gcd b).n = Nat.gcd a.n b.n :=
    Nat.dvd_antisymm (Nat.dvd_gcd h1 h2) (h3 _ (Nat.gcd_dvd_left _ _) (Nat.gcd_dvd_right _ _))
  unfold Elem.isOne
  rw [beq_iff_eq, this]

theorem largestElement_n : (Elem.largestElement : Elem p).n = p - 1 := rfl

theorem succ_n {a : Elem p} (h : a.n + 1 < p) : (a + 1).n = a.n + 1 := by
  change (a.n + (1 : Elem p).n) % p = _
  have h1 : (1 : Elem p).n = 1 := by
    have := Elem.natCast_n_of_lt (p := p) (k := 1) hp.out.one_lt
    simpa using this
  rw [h1, Nat.mod_eq_of_lt h]

theorem sqrt_bound {a q : ℕ} (h : a ≤ q) (hs : (Nat.sqrt q + 1) * (Nat.sqrt q + 1) < p) :
    (Nat.sqrt a + 1) * (Nat.sqrt a + 1) < p := by
  have := Nat.sqrt_le_sqrt h
  exact lt_of_le_of_lt (Nat.mul_le_mul (by omega) (by omega)) hs

theorem nextPrime_spec {q : ℕ} (hq : q.Prime) (hqp : q < p)
    (hs : (Nat.sqrt q + 1) * (Nat.sqrt q + 1) < p) : ∀ (fuel : ℕ) (a : Elem p), 2 ≤ a.n →
    a.n ≤ q → q < fuel + a.n →
    ∃ r, Rescue.nextPrime fuel a = some r ∧ r.n.Prime ∧ a.n ≤ r.n ∧
      ∀ t, t.Prime → a.n ≤ t → r.n ≤ t
  | 0, a, _, h, h' => by omega
  | fuel + 1, a, h2, haq, hf => by
    unfold Rescue.nextPrime
    rw [C05_is_prime_small_partial a h2 (sqrt_bound haq hs)]
    simp only [Option.bind_eq_bind, Option.bind_some]
    by_cases hpr : a.n.Prime
    · rw [decide_eq_true hpr]
      exact ⟨a, rfl, hpr, le_refl _, fun t _ ht => ht⟩
    · rw [decide_eq_false hpr]
      have hne : a.n ≠ q := fun h => hpr (h ▸ hq)
      have h1 : (a + 1).n = a.n + 1 := succ_n (by omega)
      obtain ⟨r, g1, g2, g3, g4⟩ := nextPrime_spec hq hqp hs fuel (a + 1) (by omega) (by omega)
        (by omega)
      refine ⟨r, g1, g2, by omega, fun t ht hat => g4 t ht ?_⟩
      have : a.n ≠ t := fun h => hpr (h ▸ ht)
      omega

theorem alphaLoop_spec {q : ℕ} (hq : q.Prime) (hqp : q < p) (hc : Nat.Coprime (p - 1) q)
    (hs : (Nat.sqrt q + 1) * (Nat.sqrt q + 1) < p) : ∀ (fuel : ℕ) (a : Elem p), a.n.Prime →
    3 ≤ a.n → a.n ≤ q → q < fuel + a.n →
    (∀ t, t.Prime → 3 ≤ t → t < a.n → ¬ Nat.Coprime (p - 1) t) →
    ∃ r, Rescue.alphaLoop fuel a = some r ∧ r.n.Prime ∧ 3 ≤ r.n ∧ Nat.Coprime (p - 1) r.n ∧
      ∀ t, t.Prime → 3 ≤ t → Nat.Coprime (p - 1) t → r.n ≤ t
  | 0, a, _, _, h, h', _ => by omega
  | fuel + 1, a, hpr, h3, haq, hf, hmin => by
    unfold Rescue.alphaLoop
    by_cases hco : Nat.Coprime (p - 1) a.n
    · rw [if_pos ((gcd_isOne_iff _ _).2 (by rw [largestElement_n]; exact hco))]
      refine ⟨a, rfl, hpr, h3, hco, fun t ht h3' hct => ?_⟩
      by_contra hlt
      exact hmin t ht h3' (by omega) hct
    · rw [if_neg fun h => hco (by
        have := (gcd_isOne_iff _ _).1 h
        rwa [largestElement_n] at this)]
      have hne : a.n ≠ q := fun h => hco (h ▸ hc)
      have h1 : (a + 1).n = a.n + 1 := succ_n (by omega)
      obtain ⟨r, g1, g2, g3, g4⟩ := nextPrime_spec hq hqp hs p (a + 1) (by omega) (by omega)
        (by omega)
      rw [g1]
      simp only [Option.bind_eq_bind, Option.bind_some]
      refine alphaLoop_spec hq hqp hc hs fuel r g2 (by omega) (g4 q hq (by omega)) (by omega) ?_
      intro t ht h3' hlt
      by_cases hta : t < a.n
      · exact hmin t ht h3' hta
      · rcases Nat.lt_or_ge a.n t with hat | hat
        · have := g4 t ht (by omega)
          omega
        · have : t = a.n := by omega
          rw [this]
          exact hco

/-- In every field of order above 3, other than 7, there is a small prime to be found. -/
theorem exists_alpha (h3 : 3 < p) (h7 : p ≠ 7) : ∃ q, q.Prime ∧ 3 ≤ q ∧ q < p ∧
    Nat.Coprime (p - 1) q ∧ (Nat.sqrt q + 1) * (Nat.sqrt q + 1) < p := by
  have hpr := hp.out
  by_cases hbig : 64 ≤ p
  · obtain ⟨q1, hq1, h11, h12⟩ := Nat.exists_prime_lt_and_le_two_mul (p / 8) (by omega)
    obtain ⟨q2, hq2, h21, h22⟩ := Nat.exists_prime_lt_and_le_two_mul (p / 4) (by omega)
    have hbound : ∀ q, q ≤ p / 2 → (Nat.sqrt q + 1) * (Nat.sqrt q + 1) < p := by
      intro q hq
      have hr := Nat.sqrt_le q
      generalize Nat.sqrt q = r at hr
      have h1 : 2 * (r * r) ≤ p := by omega
      by_cases h4 : r < 4
      · interval_cases r <;> omega
      · nlinarith
    by_cases hd1 : q1 ∣ p - 1
    · by_cases hd2 : q2 ∣ p - 1
      · exfalso
        have hcop : Nat.Coprime q1 q2 := (Nat.coprime_primes hq1 hq2).2 (by omega)
        have := Nat.le_of_dvd (by omega) (hcop.mul_dvd_of_dvd_of_dvd hd1 hd2)
        have h8 : p < 8 * q1 := by omega
        have h4 : p < 4 * q2 := by omega
        have h32 : p * p ≤ (8 * q1) * (4 * q2) := Nat.mul_le_mul h8.le h4.le
        have hle : q1 * q2 ≤ p := by omega
        have h64 : 64 * p ≤ p * p := Nat.mul_le_mul hbig (le_refl p)
        have : (8 * q1) * (4 * q2) = 32 * (q1 * q2) := by ring
        omega
      · exact ⟨q2, hq2, by omega, by omega, ((Nat.Prime.coprime_iff_not_dvd hq2).2 hd2).symm,
          hbound q2 (by omega)⟩
    · exact ⟨q1, hq1, by omega, by omega, ((Nat.Prime.coprime_iff_not_dvd hq1).2 hd1).symm,
        hbound q1 (by omega)⟩
  · have hlt : p < 64 := by omega
    clear hbig
    clear hp
    interval_cases p <;> first
      | exact absurd rfl h7
      | exact absurd hpr (by decide)
      | exact ⟨3, by decide +kernel⟩
      | exact ⟨5, by decide +kernel⟩
      | exact ⟨7, by decide +kernel⟩

/-- C74: in every field of order above 3, except 7, the default exponent of Rescue is found, and it
is the smallest odd prime for which the power map is a permutation. -/
theorem C74_smallest_alpha_partial (h3 : 3 < p) (h7 : p ≠ 7) :
    ∃ a, Rescue.smallestAlpha p = some a ∧ a.n.Prime ∧ 3 ≤ a.n ∧
      Function.Bijective (fun x : Elem p => x ^ a.n) ∧
      ∀ t, t.Prime → 3 ≤ t → Function.Bijective (fun x : Elem p => x ^ t) → a.n ≤ t := by
  obtain ⟨q, hq, hq3, hqp, hc, hs⟩ := exists_alpha (p := p) h3 h7
  unfold Rescue.smallestAlpha
  rw [Elem.ofNat?_eq_some h3]
  simp only [Option.bind_eq_bind, Option.bind_some]
  obtain ⟨r, g1, g2, g3, g4, g5⟩ := alphaLoop_spec hq hqp hc hs p ⟨3, h3⟩ Nat.prime_three
    (le_refl 3) hq3 (by show q < p + 3; omega) (by intro t _ h3' hlt; change t < 3 at hlt; omega)
  refine ⟨r, g1, g2, g3, MonomialPermutation.bijective_of_coprime (by omega) r.lt g4,
    fun t ht h3' hb => g5 t ht h3' (MonomialPermutation.coprime_of_injective hb.1)⟩

/-- C74 fails in the field of order 7: the search passes the prime 5, which `is_prime` rejects, wraps
around, and returns the exponent 1, with which the permutation panics. -/
theorem C74_smallest_alpha_refuted :
    Rescue.smallestAlpha 7 = some 1 ∧ Function.Bijective (fun x : Elem 7 => x ^ 5) ∧
    ∀ (row : List (Elem 7)) (rows : List (List (Elem 7)))
      (x : Expression 7) (xs : List (Expression 7)) (b : Builder 7) (n r : ℕ),
      (Rescue.mk n 1 (r + 1) ⟨row :: rows⟩ : Rescue 7).permute (x :: xs) b = none := by
  refine ⟨?_, MonomialPermutation.bijective_of_coprime (by decide) (by decide) (by decide), ?_⟩
  · have hg : ∀ a : Elem 7, (Elem.largestElement : Elem 7).gcd a = ⟨Nat.gcd 6 a.n % 7, by omega⟩ := by
      intro a
      apply Elem.ext_n
      obtain ⟨h1, h2, h3⟩ := C04_gcd (Elem.largestElement : Elem 7) a
      have hn : ((Elem.largestElement : Elem 7).gcd a).n = Nat.gcd 6 a.n :=
        Nat.dvd_antisymm (Nat.dvd_gcd h1 h2) (h3 _ (Nat.gcd_dvd_left _ _) (Nat.gcd_dvd_right _ _))
      rw [hn]
      exact (Nat.mod_eq_of_lt (lt_of_le_of_lt (Nat.gcd_le_left _ (by decide)) (by decide))).symm
    have h3 : Rescue.nextPrime 7 ((⟨3, by decide⟩ : Elem 7) + 1) = some 0 := by decide +kernel
    have h0 : Rescue.nextPrime 7 ((0 : Elem 7) + 1) = some 1 := by decide +kernel
    unfold Rescue.smallestAlpha
    rw [Elem.ofNat?_eq_some (by decide)]
    simp only [Option.bind_eq_bind, Option.bind_some]
    unfold Rescue.alphaLoop
    rw [hg, if_neg (by decide), h3]
    simp only [Option.bind_eq_bind, Option.bind_some]
    unfold Rescue.alphaLoop
    rw [hg, if_neg (by decide), h0]
    simp only [Option.bind_eq_bind, Option.bind_some]
    unfold Rescue.alphaLoop
    rw [hg, if_pos (by decide)]
  · intro row rows x xs b n r
    unfold Rescue.permute
    show Rescue.rounds _ (r + 1) _ b = none
    unfold Rescue.rounds
    cases hr : B.mapExpressions (Rescue.pi1 (⟨n, 1, r + 1, ⟨row :: rows⟩⟩ : Rescue 7)) (x :: xs) b with
    | none => exact B.bind_eq_none hr
    | some res =>
      obtain ⟨ys, b1⟩ := res
      rw [B.bind_eq hr]
      apply B.bind_eq_none
      cases ys with
      | nil =>
        exfalso
        unfold B.mapExpressions at hr
        obtain ⟨_, _, -, hr⟩ := B.bind_run hr
        obtain ⟨_, _, -, hr⟩ := B.bind_run hr
        rw [B.pure_eq] at hr
        injection hr with hr
        injection hr with hr _
        exact absurd hr (by simp)
      | cons y ys =>
        change B.mapExpressions _ (_ :: _) b1 = none
        unfold B.mapExpressions
        apply B.bind_eq_none
        unfold Rescue.pi2
        obtain ⟨f, hf, hinv⟩ := C55_inverse_exponent_one_refuted (p := 7)
        rw [B.bind_eq (B.ofOption_some hf _)]
        exact hinv _ _

/-- C74: the default number of rounds is at least 10 and leaves a margin of a factor 2 over the
attack bound `4 * width * rounds`; `build` succeeds for every positive width. -/
theorem C74_rounds {width bits : ℕ} (hw : 0 < width) (a : Elem p) (m : ElementMatrix p) :
    ∃ r, Rescue.build width (some a) none (some bits) (some m) = some ⟨width, a, r, m⟩ ∧
      10 ≤ r ∧ 2 * bits ≤ 4 * width * r := by
  refine ⟨max ((bits + 4 * width - 1) / (4 * width) * 2) 10, ?_, le_max_right _ _, ?_⟩
  · unfold Rescue.build Rescue.secureNumRounds Rescue.integerDivisionCeil
    rw [if_neg (by omega)]
    simp only [Option.getD_some]
    rw [if_neg (by omega)]
    rfl
  · have h1 := Nat.div_add_mod (bits + 4 * width - 1) (4 * width)
    have h2 := Nat.mod_lt (bits + 4 * width - 1) (show 0 < 4 * width by omega)
    have h3 : bits ≤ 4 * width * ((bits + 4 * width - 1) / (4 * width)) := by omega
    have h4 := le_max_left ((bits + 4 * width - 1) / (4 * width) * 2) 10
    calc 2 * bits ≤ 2 * (4 * width * ((bits + 4 * width - 1) / (4 * width))) := by omega
      _ = 4 * width * ((bits + 4 * width - 1) / (4 * width) * 2) := by ring
      _ ≤ _ := Nat.mul_le_mul (le_refl _) h4

/-- C74: what `RescueBuilder` makes of its settings.  It panics if the width is zero, there is no
matrix, or both a number of rounds and a security level are given.  Settings are taken over; the
default security level is 128 bits, and the number of rounds for a security level is the least even
number of at least 10 for which `4 * width * rounds` is twice the level. -/
theorem C74_build (width : ℕ) (alpha : Option (Elem p)) (rounds bits : Option ℕ)
    (mds : Option (ElementMatrix p)) (f : Rescue p) :
    Rescue.build width alpha rounds bits mds = some f ↔
      0 < width ∧ f.width = width ∧ mds = some f.mds ∧ (rounds = none ∨ bits = none) ∧
      (alpha = some f.alpha ∨ alpha = none ∧ Rescue.smallestAlpha p = some f.alpha) ∧
      (rounds = some f.numRounds ∨ rounds = none ∧
        IsLeast {r | 10 ≤ r ∧ 2 ∣ r ∧ 2 * bits.getD 128 ≤ 4 * width * r} f.numRounds) := by
  have key : ∀ (w b : ℕ), 0 < w → ∃ k, Rescue.secureNumRounds b w = some k ∧
      IsLeast {r | 10 ≤ r ∧ 2 ∣ r ∧ 2 * b ≤ 4 * w * r} k := by
    intro w b hw
    refine ⟨max ((b + 4 * w - 1) / (4 * w) * 2) 10, ?_, ⟨le_max_right _ _, ?_, ?_⟩, ?_⟩
    · unfold Rescue.secureNumRounds Rescue.integerDivisionCeil
      rw [if_neg (by omega)]
      rfl
    · rcases max_choice ((b + 4 * w - 1) / (4 * w) * 2) 10 with h | h <;> rw [h]
      · exact ⟨_, Nat.mul_comm _ _⟩
      · decide
    · have h1 := Nat.div_add_mod (b + 4 * w - 1) (4 * w)
      have h2 := Nat.mod_lt (b + 4 * w - 1) (show 0 < 4 * w by omega)
      have h3 : b ≤ 4 * w * ((b + 4 * w - 1) / (4 * w)) := by omega
      calc 2 * b ≤ 2 * (4 * w * ((b + 4 * w - 1) / (4 * w))) := by omega
        _ = 4 * w * ((b + 4 * w - 1) / (4 * w) * 2) := by ring
        _ ≤ _ := Nat.mul_le_mul (le_refl _) (le_max_left _ _)
    · rintro r ⟨h1, ⟨k, rfl⟩, h2⟩
      refine max_le ?_ h1
      have h3 : b ≤ 4 * w * k := by
        have : 4 * w * (2 * k) = 2 * (4 * w * k) := by ring
        omega
      have h4 : (b + 4 * w - 1) / (4 * w) < k + 1 := by
        rw [Nat.div_lt_iff_lt_mul (by omega)]
        have : (k + 1) * (4 * w) = 4 * w * k + 4 * w := by ring
        omega
      omega
  obtain ⟨fw, fa, fr, fm⟩ := f
  unfold Rescue.build
  dsimp only
  by_cases hw : width = 0
  · simp [hw]
  · obtain ⟨k, hk, hl⟩ := key width (bits.getD 128) (Nat.pos_of_ne_zero hw)
    have hu : ∀ r, IsLeast {r | 10 ≤ r ∧ 2 ∣ r ∧ 2 * bits.getD 128 ≤ 4 * width * r} r ↔ k = r :=
      fun r => ⟨fun h => hl.unique h, fun h => h ▸ hl⟩
    rw [hu, eq_comm (a := fw)]
    cases alpha <;> cases mds <;> cases rounds <;> cases bits <;>
      simp_all [Nat.pos_iff_ne_zero, Option.bind_eq_some_iff] <;> tauto

example : Rescue.build 3 (some (5 : Elem 13)) none none (some ⟨[[1]]⟩) =
    some ⟨3, 5, 22, ⟨[[1]]⟩⟩ := by
  refine (C74_build ..).2 ⟨by decide, rfl, rfl, .inl rfl, .inl rfl, .inr ⟨rfl, ⟨by decide, ?_⟩⟩⟩
  rintro r ⟨_, _, h⟩
  simp only [Option.getD_none] at h
  show 22 ≤ r
  omega

/-- The default exponent modulo 13 is 5: 3 divides 12. -/
example : ∃ a, Rescue.smallestAlpha 13 = some a ∧ a.n = 5 := by
  obtain ⟨a, h1, h2, h3, h4, h5⟩ := C74_smallest_alpha_partial (p := 13) (by decide) (by decide)
  refine ⟨a, h1, ?_⟩
  have h6 := h5 5 (by decide) (by decide)
    (MonomialPermutation.bijective_of_coprime (by decide) (by decide) (by decide))
  have hc := MonomialPermutation.coprime_of_injective h4.1
  have : ∀ k, 3 ≤ k → k ≤ 5 → Nat.Coprime 12 k → k = 5 := by
    intro k h h' hc
    interval_cases k
    · exact absurd hc (by decide)
    · exact absurd hc (by decide)
    · rfl
  exact this _ h3 h6 hc

example : ∃ r, Rescue.build 3 (some (5 : Elem 13)) none (some 128) (some ⟨[[1]]⟩) =
    some ⟨3, 5, r, ⟨[[1]]⟩⟩ ∧ 10 ≤ r ∧ 2 * 128 ≤ 4 * 3 * r := C74_rounds (by decide) _ _

/-! ## C75: the S-box of Poseidon -/

/-- The function of an S-box. -/
def PoseidonSbox.fn : PoseidonSbox → Elem p → Elem p
  | .exponentiation3, x => x ^ 3
  | .exponentiation5, x => x ^ 5
  | .inverse, x => x⁻¹

/-- C75: what `PoseidonBuilder` makes of its settings.  It panics if there is no matrix, or both
numbers of rounds and a security level are given.  Settings are taken over; the default security level
is 128 bits; `rounds` is the function calculating the numbers of rounds (C80, C89). -/
theorem C75_build (rounds : PoseidonSbox → ℕ → ℕ → Option (ℕ × ℕ)) (width : ℕ)
    (numbers : Option (ℕ × ℕ)) (sbox : Option PoseidonSbox) (bits : Option ℕ)
    (mds : Option (ElementMatrix p)) (f : Poseidon p) :
    Poseidon.build rounds width numbers sbox bits mds = some f ↔
      f.width = width ∧ mds = some f.mds ∧ (numbers = none ∨ bits = none) ∧
      (sbox = some f.sbox ∨ sbox = none ∧ PoseidonSbox.default p = some f.sbox) ∧
      (numbers = some (f.full, f.partial_) ∨
        numbers = none ∧ rounds f.sbox width (bits.getD 128) = some (f.full, f.partial_)) := by
  obtain ⟨fw, ff, fp, fs, fm⟩ := f
  unfold Poseidon.build
  dsimp only
  rw [eq_comm (a := fw)]
  cases sbox <;> cases mds <;> cases numbers <;> cases bits <;>
    simp_all [Option.bind_eq_some_iff, Prod.ext_iff] <;>
    first
    | tauto
    | constructor <;> (rintro ⟨h1, h2, h3, h4⟩; subst_vars; simp_all)

example : Poseidon.build (fun _ _ _ => none) 4 (some (8, 9)) (some .inverse) none
    (some (⟨[[1]]⟩ : ElementMatrix 13)) = some ⟨4, 8, 9, .inverse, ⟨[[1]]⟩⟩ :=
  (C75_build ..).2 ⟨rfl, rfl, .inr rfl, .inl rfl, .inl rfl⟩

/-- C75: in every field of order above 3 the default S-box of Poseidon is a permutation of the field,
and the cheapest one: cubing if that is a permutation, else the fifth power if that is, else the
inverse.  In smaller fields the choice panics. -/
theorem C75_default_sbox :
    (3 < p → ∃ s, PoseidonSbox.default p = some s ∧ Function.Bijective (s.fn : Elem p → Elem p) ∧
      (Function.Bijective (fun x : Elem p => x ^ 3) → s = .exponentiation3) ∧
      (¬ Function.Bijective (fun x : Elem p => x ^ 3) →
        Function.Bijective (fun x : Elem p => x ^ 5) → s = .exponentiation5)) ∧
    (p ≤ 3 → PoseidonSbox.default p = none) := by
  constructor
  · intro h3
    have c3 : Function.Bijective (fun x : Elem p => x ^ 3) ↔ Nat.Coprime (p - 1) 3 :=
      ⟨fun h => MonomialPermutation.coprime_of_injective h.1,
        MonomialPermutation.bijective_of_coprime (by decide) h3⟩
    unfold PoseidonSbox.default
    rw [Elem.ofNat?_eq_some h3]
    simp only [Option.bind_eq_bind, Option.bind_some]
    by_cases hc3 : Nat.Coprime (p - 1) 3
    · rw [if_pos ((gcd_isOne_iff _ _).2 (by rw [largestElement_n]; exact hc3))]
      exact ⟨_, rfl, c3.2 hc3, fun _ => rfl, fun h => absurd (c3.2 hc3) h⟩
    · rw [if_neg fun h => hc3 (by
        have := (gcd_isOne_iff _ _).1 h
        rwa [largestElement_n] at this)]
      have h5 : 5 < p := by
        have h4 : p ≠ 4 := fun h => absurd hp.out (h ▸ by decide)
        have h5 : p ≠ 5 := fun h => hc3 (h ▸ by decide)
        omega
      have c5 : Function.Bijective (fun x : Elem p => x ^ 5) ↔ Nat.Coprime (p - 1) 5 :=
        ⟨fun h => MonomialPermutation.coprime_of_injective h.1,
          MonomialPermutation.bijective_of_coprime (by decide) h5⟩
      rw [Elem.ofNat?_eq_some h5]
      simp only [Option.bind_eq_bind, Option.bind_some]
      by_cases hc5 : Nat.Coprime (p - 1) 5
      · rw [if_pos ((gcd_isOne_iff _ _).2 (by rw [largestElement_n]; exact hc5))]
        exact ⟨_, rfl, c5.2 hc5, fun h => absurd (c3.1 h) hc3, fun _ _ => rfl⟩
      · rw [if_neg fun h => hc5 (by
          have := (gcd_isOne_iff _ _).1 h
          rwa [largestElement_n] at this)]
        exact ⟨_, rfl, inv_involutive.bijective, fun h => absurd (c3.1 h) hc3,
          fun _ h => absurd (c5.1 h) hc5⟩
  · intro h
    unfold PoseidonSbox.default
    rw [Elem.ofNat?_eq_none h]
    rfl

/-- The defaults modulo 11, 13 and 31. -/
example : ∃ s, PoseidonSbox.default 11 = some s ∧ s = .exponentiation3 := by
  obtain ⟨s, h1, -, h2, -⟩ := (C75_default_sbox (p := 11)).1 (by decide)
  exact ⟨s, h1, h2 (MonomialPermutation.bijective_of_coprime (by decide) (by decide) (by decide))⟩

example : ∃ s, PoseidonSbox.default 13 = some s ∧ s = .exponentiation5 := by
  obtain ⟨s, h1, -, -, h2⟩ := (C75_default_sbox (p := 13)).1 (by decide)
  refine ⟨s, h1, h2 (fun h => ?_)
    (MonomialPermutation.bijective_of_coprime (by decide) (by decide) (by decide))⟩
  exact absurd (MonomialPermutation.coprime_of_injective h.1) (by decide)

end R1CS
