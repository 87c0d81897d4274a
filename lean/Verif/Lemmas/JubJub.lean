import Verif.Model.JubJub
import Verif.Lemmas.Projective
import Verif.Lemmas.Roots
import Verif.Lemmas.Curves
import Mathlib.NumberTheory.LegendreSymbol.Basic
import Mathlib.GroupTheory.OrderOfElement

/-!
# JubJub
-/

namespace R1CS

open Edwards

/-- An odd number below the order whose power is not one is no square. -/
theorem not_isSquare_of_powMod {p : ℕ} [hp : Fact p.Prime] {e : Elem p} (hlt : p / 2 < 2 ^ 512)
    (h0 : e.n ≠ 0) (h : powMod p e.n (p / 2) % p ≠ 1) : ¬ IsSquare e := by
  intro ⟨r, hr⟩
  apply h
  rw [powMod_eq_one_iff hp.out.one_lt hlt]
  have h1 : (e.n : ZMod p) = Elem.equivZMod e := by
    have h3 : ((e.n : ℕ) : Elem p) = e := Elem.ext_n (Elem.natCast_n_of_lt e.lt)
    conv_rhs => rw [← h3, map_natCast]
  have h2 : (e.n : ZMod p) ≠ 0 := by
    rw [h1]
    intro h4
    apply h0
    have : e = 0 := Elem.equivZMod.injective (by rw [h4, map_zero])
    rw [this]
    rfl
  rw [← ZMod.euler_criterion p h2, h1, hr, map_mul]
  exact ⟨_, rfl⟩

theorem isSquare_of_n {p : ℕ} [hp : Fact p.Prime] {e : Elem p} {r : ℕ} (h : r * r % p = e.n) :
    IsSquare e := by
  refine ⟨(r : Elem p), Elem.ext_n ?_⟩
  rw [← Nat.cast_mul, Elem.natCast_n, h]

instance jubjub_complete : Complete jubjub.a jubjub.d where
  two_ne := by
    intro h
    have h1 := congrArg Elem.n h
    have h2 : ((2 : ℕ) : Elem bls12_381Order).n = 2 := Elem.natCast_n_of_lt (by decide +kernel)
    rw [Nat.cast_ofNat, h1] at h2
    exact absurd h2 (by decide +kernel)
  square := isSquare_of_n (r := 3465144826073652318776269530687742778270252468765361963008)
    (by decide +kernel)
  nonsquare := not_isSquare_of_powMod (by decide +kernel) (by decide +kernel) (by decide +kernel)

theorem jubjubGenerator_onCurve : OnCurve jubjub.a jubjub.d jubjubGeneratorX jubjubGeneratorY := by
  have h : jubjub.a * jubjubGeneratorX * jubjubGeneratorX + jubjubGeneratorY * jubjubGeneratorY =
      1 + jubjub.d * jubjubGeneratorX * jubjubGeneratorX * jubjubGeneratorY * jubjubGeneratorY := by
    decide +kernel
  unfold OnCurve
  linear_combination h

/-- The shipped generator as a point. -/
def jubjubG : Point jubjub.a jubjub.d := ⟨jubjubGeneratorX, jubjubGeneratorY, jubjubGenerator_onCurve⟩

theorem jubjubGenerator_eq : jubjubGenerator = some jubjubG.toModel := by
  unfold jubjubGenerator EdwardsPoint.new
  rw [if_pos (by have := jubjubGenerator_onCurve; unfold OnCurve at this; linear_combination this)]
  rfl

/-- The order of the prime-order subgroup of JubJub. -/
def jubjubSubgroupOrder : ℕ :=
  6554484396890773809930967563523245729705921265872317281365359162392183254199

theorem jubjubSubgroupOrder_prime : jubjubSubgroupOrder.Prime :=
  prime_of_mem_primeCerts (List.contains_iff_mem.1 (by decide +kernel))

/-- A projective form of `k` times the generator. -/
def jubjubMul (k : ℕ) : ℕ × ℕ × ℕ :=
  projMul bls12_381Order 1 jubjub.d.n 512 k (jubjubGeneratorX.n, jubjubGeneratorY.n, 1) (0, 1, 1)

theorem jubjubMul_repr {k : ℕ} (hk : k < 2 ^ 512) : Repr (jubjubMul k) (k • jubjubG) := by
  have h := Repr.mul (a := jubjub.a) (d := jubjub.d) (na := 1) (nd := jubjub.d.n)
    (by rw [Nat.cast_one]; exact (neg_neg (1 : Elem bls12_381Order)).symm)
    (Elem.ext_n (Elem.natCast_n_of_lt jubjub.d.lt)) 512 k hk (Repr.affine jubjubG) Repr.zero
  rw [zero_add] at h
  exact h

/-- The order of the shipped generator is eight times a prime. -/
theorem jubjubG_order : addOrderOf jubjubG = 8 * jubjubSubgroupOrder := by
  apply addOrderOf_eq_of_nsmul_and_div_prime_nsmul
  · decide +kernel
  · have hr := jubjubMul_repr (k := 8 * jubjubSubgroupOrder) (by decide +kernel)
    have hx := (hr.x_eq_iff Repr.zero).2 (by decide +kernel)
    have hy := (hr.y_eq_iff Repr.zero).2 (by decide +kernel)
    exact Point.ext hx hy
  · intro q hq hdvd h0
    have hcase : q = 2 ∨ q = jubjubSubgroupOrder := by
      rcases (Nat.Prime.dvd_mul hq).1 hdvd with h | h
      · left
        have h8 : 8 = 2 ^ 3 := by norm_num
        rw [h8] at h
        exact (Nat.prime_dvd_prime_iff_eq hq Nat.prime_two).1 (hq.dvd_of_dvd_pow h)
      · right
        exact (Nat.prime_dvd_prime_iff_eq hq jubjubSubgroupOrder_prime).1 h
    rcases hcase with rfl | rfl
    · have hr := jubjubMul_repr (k := 8 * jubjubSubgroupOrder / 2) (by decide +kernel)
      have hy := (hr.y_eq_iff Repr.zero).1 (by rw [h0])
      exact absurd hy (by decide +kernel)
    · have hr := jubjubMul_repr (k := 8 * jubjubSubgroupOrder / jubjubSubgroupOrder)
        (by decide +kernel)
      have hy := (hr.y_eq_iff Repr.zero).1 (by rw [h0])
      exact absurd hy (by decide +kernel)

end R1CS
