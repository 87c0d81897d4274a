import Mathlib.NumberTheory.LucasPrimality
import Mathlib.Algebra.BigOperators.Associated
import Mathlib.Data.List.Prime
import Mathlib.Data.Nat.Prime.Basic
import Mathlib.Tactic.Ring

/-!
# Certificates of primality
-/

namespace R1CS

/-- `acc * b ^ e` modulo `m` by repeated squaring. -/
def powModAux (m : ℕ) : ℕ → ℕ → ℕ → ℕ → ℕ
  | 0, _, _, acc => acc % m
  | fuel + 1, b, e, acc =>
    if e = 0 then acc % m
    else powModAux m fuel (b * b % m) (e / 2) (if e % 2 = 1 then acc * b % m else acc)

theorem powModAux_modEq (m : ℕ) : ∀ (fuel b e acc : ℕ), e < 2 ^ fuel →
    powModAux m fuel b e acc ≡ acc * b ^ e [MOD m]
  | 0, b, e, acc, h => by
    have : e = 0 := by simpa using h
    subst this
    rw [powModAux, pow_zero, mul_one]
    exact Nat.mod_modEq _ _
  | fuel + 1, b, e, acc, h => by
    unfold powModAux
    by_cases h0 : e = 0
    · rw [if_pos h0, h0, pow_zero, mul_one]
      exact Nat.mod_modEq _ _
    · rw [if_neg h0]
      refine (powModAux_modEq m fuel _ _ _ (by rw [pow_succ] at h; omega)).trans ?_
      have hb : (b * b % m) ^ (e / 2) ≡ (b * b) ^ (e / 2) [MOD m] := (Nat.mod_modEq _ _).pow _
      have he := Nat.div_add_mod e 2
      by_cases h1 : e % 2 = 1
      · rw [if_pos h1]
        refine ((Nat.mod_modEq (acc * b) m).mul hb).trans ?_
        have : acc * b * (b * b) ^ (e / 2) = acc * b ^ e := by
          conv_rhs => rw [← he, h1]
          rw [pow_add, pow_mul]
          ring
        rw [this]
      · rw [if_neg h1]
        refine (Nat.ModEq.mul_left _ hb).trans ?_
        have h2 : e % 2 = 0 := by omega
        have : acc * (b * b) ^ (e / 2) = acc * b ^ e := by
          conv_rhs => rw [← he, h2]
          rw [Nat.add_zero, pow_mul]
          ring
        rw [this]

/-- `b ^ e` modulo `m`, for exponents of up to 512 bits. -/
def powMod (m b e : ℕ) : ℕ := powModAux m 512 b e 1

theorem powMod_eq_one_iff {m b e : ℕ} (hm : 1 < m) (he : e < 2 ^ 512) :
    powMod m b e % m = 1 ↔ (b : ZMod m) ^ e = 1 := by
  have h := powModAux_modEq m 512 b e 1 he
  rw [one_mul] at h
  have h1 : (b : ZMod m) ^ e = ((powMod m b e : ℕ) : ZMod m) := by
    rw [← Nat.cast_pow]
    exact ((ZMod.natCast_eq_natCast_iff _ _ _).2 h).symm
  rw [h1]
  have h2 : ((powMod m b e : ℕ) : ZMod m) = ((1 : ℕ) : ZMod m) ↔ powMod m b e % m = 1 % m :=
    ZMod.natCast_eq_natCast_iff' _ _ _
  rw [Nat.cast_one, Nat.mod_eq_of_lt hm] at h2
  exact h2.symm

/-- A prime, a primitive root, and the prime factors of the predecessor with multiplicity. -/
structure PrattCert where
  prime : ℕ
  root : ℕ
  factors : List ℕ

/-- Checks one certificate, given primes already known. -/
def checkCert (known : List ℕ) (c : PrattCert) : Bool :=
  decide (1 < c.prime) && decide (c.prime < 2 ^ 512) && decide (c.factors.prod = c.prime - 1) &&
    c.factors.all (fun q => known.contains q) &&
    decide (powMod c.prime c.root (c.prime - 1) % c.prime = 1) &&
    c.factors.all (fun q => decide (powMod c.prime c.root ((c.prime - 1) / q) % c.prime ≠ 1))

/-- Checks certificates in order. -/
def checkCerts : List ℕ → List PrattCert → Bool
  | _, [] => true
  | known, c :: cs => checkCert known c && checkCerts (c.prime :: known) cs

theorem prime_of_checkCert {known : List ℕ} {c : PrattCert} (hk : ∀ q ∈ known, q.Prime)
    (h : checkCert known c = true) : c.prime.Prime := by
  unfold checkCert at h
  simp only [Bool.and_eq_true, decide_eq_true_eq, List.all_eq_true, List.contains_iff_mem] at h
  obtain ⟨⟨⟨⟨⟨h1, h2⟩, h3⟩, h4⟩, h5⟩, h6⟩ := h
  refine lucas_primality c.prime (c.root : ZMod c.prime)
    ((powMod_eq_one_iff h1 (by omega)).1 h5) ?_
  intro q hq hd hone
  rw [← h3] at hd
  obtain ⟨r, hr, hqr⟩ := (Prime.dvd_prod_iff hq.prime).1 hd
  have : q = r := (Nat.prime_dvd_prime_iff_eq hq (hk r (h4 r hr))).1 hqr
  subst this
  exact h6 q hr ((powMod_eq_one_iff h1
    (lt_of_le_of_lt (Nat.div_le_self _ _) (by omega))).2 hone)

theorem prime_of_checkCerts : ∀ {cs : List PrattCert} {known : List ℕ}, checkCerts known cs = true →
    (∀ q ∈ known, q.Prime) → ∀ {p}, p ∈ cs.map PrattCert.prime → p.Prime
  | [], _, _, _, p, hp => absurd hp (by simp)
  | c :: cs, known, h, hk, p, hp => by
    unfold checkCerts at h
    rw [Bool.and_eq_true] at h
    have hc := prime_of_checkCert hk h.1
    rcases List.mem_cons.1 hp with hpc | hp
    · rw [hpc]; exact hc
    · refine prime_of_checkCerts h.2 ?_ hp
      intro q hq
      rcases List.mem_cons.1 hq with hqc | hq
      · rw [hqc]; exact hc
      · exact hk q hq

end R1CS
