import Verif.Lemmas.Roots
import Verif.Lemmas.ShippedFields
import Mathlib.NumberTheory.LegendreSymbol.Basic

/-!
# C05: `is_prime` in fields of large order

The loop of `is_prime` squares its divisor in the field.  This makes it end too late for numbers above
all squares of the field, and only for them.
-/

namespace R1CS

variable {p : ℕ} [hp : Fact p.Prime]

theorem neg_square_mod {e : ℕ} (h : e ≤ p) : (p - e) * (p - e) % p = e * e % p := by
  obtain ⟨k, rfl⟩ := Nat.exists_eq_add_of_le h
  have : (e + k - e) * (e + k - e) + (e + k) * (2 * e) = e * e + (e + k) * (e + k) := by
    rw [Nat.add_sub_cancel_left]; ring
  have h1 := congrArg (· % (e + k)) this
  simp only [Nat.add_mul_mod_self_left] at h1
  exact h1

/-- C05, exactly: a number of at least 2 is reported to be prime if it is prime and there is a square in
the field above it.  Missing are 0 and 1 (`C05_zero_one_refuted`), and the primes above all squares. -/
theorem C05_is_prime_exact_partial (h2 : 2 < p) (x : Elem p) (hx : 2 ≤ x.n) :
    ∃ r, x.isPrime = some r ∧
      (r = true ↔ x.n.Prime ∧ ∃ y : Elem p, IsSquare y ∧ x.n < y.n) := by
  obtain ⟨r, h1, h3⟩ := C05_is_prime_partial h2 x hx
  refine ⟨r, h1, h3.trans (and_congr_right fun _ => ?_)⟩
  have hodd : p % 2 = 1 := (hp.out.eq_two_or_odd).resolve_left (by omega)
  have hxp := x.lt
  constructor
  · rintro ⟨e, he, hex, hlt⟩
    let f : Elem p := ⟨e, by omega⟩
    exact ⟨f * f, ⟨f, rfl⟩, hlt⟩
  · rintro ⟨y, ⟨e, rfl⟩, hlt⟩
    change x.n < e.n * e.n % p at hlt
    have hep := e.lt
    obtain ⟨f, hf, hf2, hfe⟩ : ∃ f, f * f % p = e.n * e.n % p ∧ 2 * f < p ∧ 2 ≤ f := by
      have key : ∀ f, f * f % p = e.n * e.n % p → 2 ≤ f := by
        intro f hf
        rcases Nat.lt_or_ge f 2 with h | h
        · exfalso
          have : f * f % p ≤ f * f := Nat.mod_le _ _
          have : f * f ≤ 1 := by
            have : f ≤ 1 := by omega
            nlinarith
          omega
        · exact h
      by_cases h : 2 * e.n < p
      · exact ⟨e.n, rfl, h, key _ rfl⟩
      · have := neg_square_mod (p := p) hep.le
        exact ⟨p - e.n, this, by omega, key _ this⟩
    by_cases hle : f ≤ x.n
    · exact ⟨f, hfe, hle, by rw [hf]; exact hlt⟩
    · have h2x : 2 * x.n + 2 < p := by omega
      refine ⟨Nat.sqrt x.n + 1, ?_, ?_, ?_⟩
      · have : 0 < Nat.sqrt x.n := Nat.sqrt_pos.2 (by omega)
        omega
      · have := Nat.sqrt_lt_self (n := x.n) (by omega)
        omega
      · have a := Nat.sqrt_le x.n
        have b := Nat.lt_succ_sqrt x.n
        have c : (Nat.sqrt x.n + 1) * (Nat.sqrt x.n + 1) < p := by
          set q := Nat.sqrt x.n
          rcases Nat.lt_or_ge q 2 with h | h
          · have : q = 1 ∨ q = 0 := by omega
            rcases this with h | h <;> rw [h] <;> omega
          · nlinarith
        rw [Nat.mod_eq_of_lt c]
        exact b

/-- In the field of order 7 the squares are 0, 1, 2 and 4: of the primes 2, 3 and 5 just 5 is above them. -/
example : (⟨3, by decide⟩ : Elem 7).isPrime = some true ∧
    (⟨5, by decide⟩ : Elem 7).isPrime = some false ∧
    (∀ y : Elem 7, IsSquare y → y.n ≤ 4) := by
  refine ⟨by decide +kernel, by decide +kernel, ?_⟩
  rintro _ ⟨⟨e, he⟩, rfl⟩
  change e * e % 7 ≤ 4
  interval_cases e <;> decide

/-- C05: in a field whose order is one more than a multiple of 4 the largest number is a square, so that
`is_prime` is right about all numbers but 0 and 1. -/
theorem C05_is_prime_one_mod_four_partial (h : p % 4 = 1) (x : Elem p) (hx : 2 ≤ x.n) :
    x.isPrime = some (decide x.n.Prime) := by
  have hp2 := hp.out.two_le
  have h2 : 2 < p := by omega
  obtain ⟨r, h1, h3⟩ := C05_is_prime_exact_partial h2 x hx
  rw [h1]
  congr 1
  rw [Bool.eq_iff_iff, h3, decide_eq_true_iff]
  refine ⟨And.left, fun hprime => ⟨hprime, -1, ?_, ?_⟩⟩
  · have hs : IsSquare (-1 : ZMod p) := ZMod.exists_sq_eq_neg_one_iff.2 (by omega)
    have := hs.map Elem.equivZMod.symm
    rwa [map_neg, map_one] at this
  · have hn : (-1 : Elem p).n = p - 1 := by
      have h0 : ((-1 : Elem p)).n = (((p - 1 : ℕ) : Elem p)).n := by
        congr 1
        rw [Nat.cast_sub (by omega), Nat.cast_one]
        have h00 : ((p : ℕ) : Elem p) = 0 := by
          refine Elem.ext_n ?_
          rw [Elem.natCast_n, Nat.mod_self]; rfl
        rw [h00, zero_sub]
      rw [h0, Elem.natCast_n, Nat.mod_eq_of_lt (by omega)]
    rw [hn]
    have hxp := x.lt
    have : x.n ≠ p - 1 := by
      intro he
      have h2d : 2 ∣ x.n := by omega
      have := (Nat.prime_dvd_prime_iff_eq Nat.prime_two hprime).1 h2d
      omega
    omega

/-- C05: both shipped fields are such fields. -/
theorem C05_is_prime_shipped_partial :
    (∀ x : Elem bn128Order, 2 ≤ x.n → x.isPrime = some (decide x.n.Prime)) ∧
    (∀ x : Elem bls12_381Order, 2 ≤ x.n → x.isPrime = some (decide x.n.Prime)) :=
  ⟨C05_is_prime_one_mod_four_partial (by decide +kernel),
    C05_is_prime_one_mod_four_partial (by decide +kernel)⟩

end R1CS
