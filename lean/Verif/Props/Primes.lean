import Verif.Lemmas.ShippedFields

/-!
# C07: the shipped field orders
-/

namespace R1CS

/-- C07: the orders of the two shipped fields are prime. -/
theorem C07_orders_prime : bn128Order.Prime ∧ bls12_381Order.Prime :=
  ⟨fact_bn128.out, fact_bls12_381.out⟩

/-- Hence no number between 1 and the order divides it. -/
example (k : ℕ) (h1 : 1 < k) (h2 : k < bls12_381Order) : ¬ k ∣ bls12_381Order := by
  intro h
  rcases (Nat.dvd_prime C07_orders_prime.2).1 h with h | h <;> omega

end R1CS
