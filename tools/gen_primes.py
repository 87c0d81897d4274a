"""Writes lean/Verif/Lemmas/Primes.lean: certificates of primality, checked by the kernel.

The list gives for each prime p a primitive root and the prime factors of p - 1, with multiplicity;
every factor occurs earlier in the list."""
import os

R_BLS = 52435875175126190479447740508185965837690552500527637822603658699938581184513
R_BN = 21888242871839275222246405745257275088548364400416034343698204186575808495617
R_JUB = 6554484396890773809930967563523245729705921265872317281365359162392183254199

KNOWN = {
    R_JUB: [2, 3, 12281, 1710050753150114629, 203928654140967434528233,
            255074062430788457494141376149],
    R_BLS: [2] * 32 + [3, 11, 19, 10177, 125527, 859267, 906349, 906349, 2508409, 2529403,
                       52437899, 254760293, 254760293],
    R_BN: [2] * 28 + [3, 3, 13, 29, 983, 11003, 237073, 405928799, 1670836401704629,
                      13818364434197438864469338081],
    1710050753150114629: [2, 2, 3, 11, 12954929948106929],
    12954929948106929: [2, 2, 2, 2, 23, 35203613989421],
    203928654140967434528233: [2, 2, 2, 3, 3, 6566909, 431305263804409],
    255074062430788457494141376149: [2, 2, 3, 311, 5521, 19861, 623312455501769069],
    13818364434197438864469338081: [2] * 5 + [5, 823, 1593227, 65865678001877903],
    1670836401704629: [2, 2, 3, 3, 3, 3, 5156902474397],
}


def factor(n):
    out, q = [], 2
    while q * q <= n:
        while n % q == 0:
            out.append(q)
            n //= q
        q += 1
    return out + ([n] if n > 1 else [])


done, certs = set(), []


def cert(p):
    if p in done:
        return
    done.add(p)
    fs = KNOWN.get(p) or factor(p - 1)
    for q in sorted(set(fs)):
        cert(q)
    a = 1
    while not (pow(a, p - 1, p) == 1 and all(pow(a, (p - 1) // q, p) != 1 for q in set(fs))):
        a += 1
    certs.append((p, a, fs))


for r in (R_BN, R_BLS, R_JUB):
    cert(r)


def wrap(items, indent):
    lines, cur = [], ""
    for it in items:
        if cur and len(indent) + len(cur) + len(it) + 2 > 98:
            lines.append(cur)
            cur = it
        else:
            cur = cur + ", " + it if cur else it
    lines.append(cur)
    return (",\n" + indent).join(lines)


rows = ["⟨%d, %d,\n      [%s]⟩" % (p, a, wrap([str(f) for f in fs], "        ")) if len(fs) > 8
        else "⟨%d, %d, %s⟩" % (p, a, "[" + ", ".join(map(str, fs)) + "]") for p, a, fs in certs]
src = """import Verif.Lemmas.Pratt

/-!
# Certificates of primality

Generated by `tools/gen_primes.py`.
-/

namespace R1CS

/-- Primes with a primitive root and the factors of the predecessor. -/
def primeCerts : List PrattCert :=
  [ %s ]

theorem primeCerts_ok : checkCerts [] primeCerts = true := by decide +kernel

theorem prime_of_mem_primeCerts {p : ℕ} (h : p ∈ primeCerts.map PrattCert.prime) : p.Prime :=
  prime_of_checkCerts primeCerts_ok (by simp) h

end R1CS
""" % ",\n    ".join(rows)
here = os.path.dirname(os.path.abspath(__file__))
with open(os.path.join(here, "..", "lean", "Verif", "Lemmas", "Primes.lean"), "w") as f:
    f.write(src)
