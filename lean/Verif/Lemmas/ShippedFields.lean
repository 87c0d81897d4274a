import Verif.Model.Field
import Verif.Lemmas.Primes

/-!
# The shipped fields
-/

namespace R1CS

instance fact_bn128 : Fact bn128Order.Prime :=
  ⟨prime_of_mem_primeCerts (List.contains_iff_mem.1 (by decide +kernel))⟩

instance fact_bls12_381 : Fact bls12_381Order.Prime :=
  ⟨prime_of_mem_primeCerts (List.contains_iff_mem.1 (by decide +kernel))⟩

end R1CS
