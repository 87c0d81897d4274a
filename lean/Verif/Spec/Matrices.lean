import Verif.Spec.Gadgets

/-!
# Specification vocabulary: matrices, Poseidon and Rescue as functions on field elements
-/

namespace R1CS

variable {p : ℕ} [hp : Fact p.Prime]

/-- The product of a matrix, given by its rows, and a vector: row `i` gives the inner product of row
`i` with the vector. -/
def matVec (rows : List (List (Elem p))) (v : List (Elem p)) : List (Elem p) :=
  rows.map fun row => (List.zipWith (· * ·) row v).sum

/-- What the code computes instead: element `i` of the vector times the sum of row `i`. -/
def scaleRows (rows : List (List (Elem p))) (v : List (Elem p)) : List (Elem p) :=
  List.zipWith (fun row x => x * row.sum) rows v

/-- A full round of Poseidon: S-box on all elements, then the mix layer. -/
def poseidonFull (σ : Elem p → Elem p) (mix : List (Elem p) → List (Elem p))
    (xs : List (Elem p)) : List (Elem p) := mix (xs.map σ)

/-- A partial round of Poseidon: S-box on the first element, then the mix layer. -/
def poseidonPartial (σ : Elem p → Elem p) (mix : List (Elem p) → List (Elem p))
    (xs : List (Elem p)) : List (Elem p) := mix (xs.modifyHead σ)

/-- Poseidon: `h` full rounds, `t` partial rounds, `h` full rounds. -/
def poseidonFn (σ : Elem p → Elem p) (mix : List (Elem p) → List (Elem p)) (h t : ℕ)
    (xs : List (Elem p)) : List (Elem p) :=
  (poseidonFull σ mix)^[h] ((poseidonPartial σ mix)^[t] ((poseidonFull σ mix)^[h] xs))

/-- Rescue: in every round the power map, the mix layer, the inverse of the power map, and the mix
layer. -/
def rescueFn (pow root : Elem p → Elem p) (mix : List (Elem p) → List (Elem p)) (n : ℕ)
    (xs : List (Elem p)) : List (Elem p) :=
  (fun xs => mix ((mix (xs.map pow)).map root))^[n] xs

end R1CS
