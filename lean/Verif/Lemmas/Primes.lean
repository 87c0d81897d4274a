import Verif.Lemmas.Pratt

/-!
# Certificates of primality

Generated by `tools/gen_primes.py`.
-/

namespace R1CS

/-- Primes with a primitive root and the factors of the predecessor. -/
def primeCerts : List PrattCert :=
  [ ⟨2, 1, []⟩,
    ⟨3, 2, [2]⟩,
    ⟨13, 2, [2, 2, 3]⟩,
    ⟨7, 3, [2, 3]⟩,
    ⟨29, 2, [2, 2, 7]⟩,
    ⟨5, 2, [2, 2]⟩,
    ⟨491, 2, [2, 5, 7, 7]⟩,
    ⟨983, 5, [2, 491]⟩,
    ⟨11, 2, [2, 5]⟩,
    ⟨5501, 2, [2, 2, 5, 5, 5, 11]⟩,
    ⟨11003, 2, [2, 5501]⟩,
    ⟨449, 3, [2, 2, 2, 2, 2, 2, 7]⟩,
    ⟨237073, 15, [2, 2, 2, 2, 3, 11, 449]⟩,
    ⟨41, 6, [2, 2, 2, 5]⟩,
    ⟨3691, 2, [2, 3, 3, 5, 41]⟩,
    ⟨17, 3, [2, 2, 2, 2]⟩,
    ⟨4999, 3, [2, 3, 7, 7, 17]⟩,
    ⟨405928799, 22, [2, 11, 3691, 4999]⟩,
    ⟨53, 2, [2, 2, 13]⟩,
    ⟨107, 2, [2, 53]⟩,
    ⟨661, 2, [2, 2, 3, 5, 11]⟩,
    ⟨31, 3, [2, 3, 5]⟩,
    ⟨93001, 14, [2, 2, 2, 3, 5, 5, 5, 31]⟩,
    ⟨12048837557, 2, [2, 2, 7, 7, 661, 93001]⟩,
    ⟨5156902474397, 2, [2, 2, 107, 12048837557]⟩,
    ⟨1670836401704629, 2, [2, 2, 3, 3, 3, 3, 5156902474397]⟩,
    ⟨137, 3, [2, 2, 2, 17]⟩,
    ⟨823, 3, [2, 3, 137]⟩,
    ⟨19, 2, [2, 3, 3]⟩,
    ⟨23, 5, [2, 11]⟩,
    ⟨47, 5, [2, 23]⟩,
    ⟨37, 2, [2, 2, 3, 3]⟩,
    ⟨223, 3, [2, 3, 37]⟩,
    ⟨20963, 2, [2, 47, 223]⟩,
    ⟨41927, 5, [2, 20963]⟩,
    ⟨1593227, 2, [2, 19, 41927]⟩,
    ⟨83, 2, [2, 41]⟩,
    ⟨379, 2, [2, 3, 3, 3, 7]⟩,
    ⟨409, 21, [2, 2, 2, 3, 17]⟩,
    ⟨1637, 2, [2, 2, 409]⟩,
    ⟨229, 6, [2, 2, 3, 19]⟩,
    ⟨71, 7, [2, 5, 7]⟩,
    ⟨853, 2, [2, 2, 3, 71]⟩,
    ⟨639533339, 2, [2, 229, 853, 1637]⟩,
    ⟨65865678001877903, 5, [2, 83, 379, 1637, 639533339]⟩,
    ⟨13818364434197438864469338081, 3,
      [2, 2, 2, 2, 2, 5, 823, 1593227, 65865678001877903]⟩,
    ⟨21888242871839275222246405745257275088548364400416034343698204186575808495617, 5,
      [2, 2, 2, 2, 2, 2, 2, 2, 2, 2, 2, 2, 2, 2, 2, 2, 2, 2, 2, 2, 2, 2, 2, 2, 2, 2, 2, 2, 3, 3,
        13, 29, 983, 11003, 237073, 405928799, 1670836401704629, 13818364434197438864469338081]⟩,
    ⟨10177, 7, [2, 2, 2, 2, 2, 2, 3, 53]⟩,
    ⟨523, 2, [2, 3, 3, 29]⟩,
    ⟨20921, 3, [2, 2, 2, 5, 523]⟩,
    ⟨125527, 5, [2, 3, 20921]⟩,
    ⟨47737, 5, [2, 2, 2, 3, 3, 3, 13, 17]⟩,
    ⟨859267, 2, [2, 3, 3, 47737]⟩,
    ⟨73, 5, [2, 2, 2, 3, 3]⟩,
    ⟨1607, 5, [2, 11, 73]⟩,
    ⟨906349, 2, [2, 2, 3, 47, 1607]⟩,
    ⟨79, 3, [2, 3, 13]⟩,
    ⟨2508409, 11,
      [2, 2, 2, 3, 3, 3, 3, 7, 7, 79]⟩,
    ⟨18329, 3, [2, 2, 2, 29, 79]⟩,
    ⟨2529403, 2, [2, 3, 23, 18329]⟩,
    ⟨43, 3, [2, 3, 7]⟩,
    ⟨97, 5, [2, 2, 2, 2, 2, 3]⟩,
    ⟨609743, 5, [2, 7, 97, 449]⟩,
    ⟨52437899, 2, [2, 43, 609743]⟩,
    ⟨89, 3, [2, 2, 2, 11]⟩,
    ⟨179, 2, [2, 89]⟩,
    ⟨359, 7, [2, 179]⟩,
    ⟨110573, 3, [2, 2, 7, 11, 359]⟩,
    ⟨2653753, 5, [2, 2, 2, 3, 110573]⟩,
    ⟨63690073, 7, [2, 2, 2, 3, 2653753]⟩,
    ⟨254760293, 2, [2, 2, 63690073]⟩,
    ⟨52435875175126190479447740508185965837690552500527637822603658699938581184513, 7,
      [2, 2, 2, 2, 2, 2, 2, 2, 2, 2, 2, 2, 2, 2, 2, 2, 2, 2, 2, 2, 2, 2, 2, 2, 2, 2, 2, 2, 2, 2,
        2, 2, 3, 11, 19, 10177, 125527, 859267, 906349, 906349, 2508409, 2529403, 52437899,
        254760293, 254760293]⟩,
    ⟨307, 5, [2, 3, 3, 17]⟩,
    ⟨12281, 3, [2, 2, 2, 5, 307]⟩,
    ⟨283, 3, [2, 3, 47]⟩,
    ⟨1699, 3, [2, 3, 283]⟩,
    ⟨499, 7, [2, 3, 83]⟩,
    ⟨167, 5, [2, 83]⟩,
    ⟨74149, 2, [2, 2, 3, 37, 167]⟩,
    ⟨1036009829, 2, [2, 2, 7, 499, 74149]⟩,
    ⟨35203613989421, 2, [2, 2, 5, 1699, 1036009829]⟩,
    ⟨12954929948106929, 3, [2, 2, 2, 2, 23, 35203613989421]⟩,
    ⟨1710050753150114629, 6, [2, 2, 3, 11, 12954929948106929]⟩,
    ⟨44371, 2, [2, 3, 3, 5, 17, 29]⟩,
    ⟨6566909, 2, [2, 2, 37, 44371]⟩,
    ⟨457, 13, [2, 2, 2, 3, 19]⟩,
    ⟨157, 5, [2, 2, 3, 13]⟩,
    ⟨1571, 2, [2, 5, 157]⟩,
    ⟨2837227, 2, [2, 3, 7, 43, 1571]⟩,
    ⟨187256983, 5, [2, 3, 11, 2837227]⟩,
    ⟨2567293236931, 2, [2, 3, 5, 457, 187256983]⟩,
    ⟨431305263804409, 13, [2, 2, 2, 3, 7, 2567293236931]⟩,
    ⟨203928654140967434528233, 5, [2, 2, 2, 3, 3, 6566909, 431305263804409]⟩,
    ⟨311, 17, [2, 5, 31]⟩,
    ⟨5521, 11, [2, 2, 2, 2, 3, 5, 23]⟩,
    ⟨331, 3, [2, 3, 5, 11]⟩,
    ⟨19861, 11, [2, 2, 3, 5, 331]⟩,
    ⟨1361, 3, [2, 2, 2, 2, 5, 17]⟩,
    ⟨62701, 2, [2, 2, 3, 5, 5, 11, 19]⟩,
    ⟨23629, 2, [2, 2, 3, 11, 179]⟩,
    ⟨567097, 7, [2, 2, 2, 3, 23629]⟩,
    ⟨16356472538621, 2, [2, 2, 5, 23, 62701, 567097]⟩,
    ⟨623312455501769069, 2, [2, 2, 7, 1361, 16356472538621]⟩,
    ⟨255074062430788457494141376149, 2, [2, 2, 3, 311, 5521, 19861, 623312455501769069]⟩,
    ⟨6554484396890773809930967563523245729705921265872317281365359162392183254199, 6, [2, 3, 12281, 1710050753150114629, 203928654140967434528233, 255074062430788457494141376149]⟩ ]

theorem primeCerts_ok : checkCerts [] primeCerts = true := by decide +kernel

theorem prime_of_mem_primeCerts {p : ℕ} (h : p ∈ primeCerts.map PrattCert.prime) : p.Prime :=
  prime_of_checkCerts primeCerts_ok (by simp) h

end R1CS
