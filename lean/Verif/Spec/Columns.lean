import Verif.Spec.Matrices
import Verif.Spec.Hashes

/-!
# Specification vocabulary: functions on lists which treat every position separately
-/

namespace R1CS

variable {p : ℕ} [hp : Fact p.Prime]

/-- On lists of `n` elements, `f` applies to the element at position `i` a function `g i` of that
element only. -/
def Columnwise (n : ℕ) (g : ℕ → Elem p → Elem p) (f : List (Elem p) → List (Elem p)) : Prop :=
  ∀ xs, xs.length = n → f xs = xs.mapIdx g

/-- The sum of row `i` of a matrix. -/
def rowSum (rows : List (List (Elem p))) (i : ℕ) : Elem p := (rows.getD i []).sum

/-- The sum `1 + k + … + k ^ (n - 1)`. -/
def geometric (k : ℕ) : ℕ → ℕ
  | 0 => 0
  | n + 1 => geometric k n * k + 1

/-- Element `j` of chunk `i` of a message cut into chunks of `r` elements; zero after its end. -/
def chunkElem (r : ℕ) (inputs : List (Elem p)) (i j : ℕ) : Elem p := inputs.getD (i * r + j) 0

/-- What happens to position `j` of the state of a sponge whose permutation works by `g` at that
position, while `n` chunks are absorbed. -/
def columnState (g : Elem p → Elem p) (r : ℕ) (inputs : List (Elem p)) (j : ℕ) : ℕ → Elem p
  | 0 => 0
  | i + 1 => g (columnState g r inputs j i + chunkElem r inputs i j)

end R1CS
