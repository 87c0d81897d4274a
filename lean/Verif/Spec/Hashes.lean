import Verif.Spec.Gadgets

/-!
# Specification vocabulary: hash constructions as functions on field elements
-/

namespace R1CS

variable {p : ℕ} [hp : Fact p.Prime]

/-- MiMC with exponent 3, key `k` and round constants `cs`. -/
def mimc (cs : List (Elem p)) (k x : Elem p) : Elem p :=
  cs.foldl (fun c rc => (c + k + rc) ^ 3) ((x + k) ^ 3) + k

/-- Two different inputs of a two-argument function with the same image, one in each of two given
lists.  (Without the lists this would say nothing: a function of two elements which yields one
element always has collisions.) -/
def CollisionAmong (c : Elem p → Elem p → Elem p) (l l' : List (Elem p × Elem p)) : Prop :=
  ∃ a ∈ l, ∃ a' ∈ l', a ≠ a' ∧ c a.1 a.2 = c a'.1 a'.2

/-- The inputs on which `c` is evaluated while blocks are folded into a value. -/
def foldCalls (c : Elem p → Elem p → Elem p) : Elem p → List (Elem p) → List (Elem p × Elem p)
  | _, [] => []
  | x, b :: bs => (x, b) :: foldCalls c (c x b) bs

/-- The Merkle-Damgård hash: fold the blocks into the initial value, then the number of blocks. -/
def merkleDamgardHash (iv : Elem p) (c : Elem p → Elem p → Elem p) (blocks : List (Elem p)) :
    Elem p :=
  c (blocks.foldl c iv) (blocks.length : Elem p)

/-- The inputs on which `c` is evaluated in that hash. -/
def hashCalls (iv : Elem p) (c : Elem p → Elem p → Elem p) (blocks : List (Elem p)) :
    List (Elem p × Elem p) :=
  foldCalls c iv (blocks ++ [(blocks.length : Elem p)])

/-- The root reached from a leaf value going up a path: at each step the bit says whether the node
is the right child, and the second component is its sibling. -/
def pathRoot (c : Elem p → Elem p → Elem p) : List (Bool × Elem p) → Elem p → Elem p
  | [], x => x
  | (isRight, sibling) :: rest, x => pathRoot c rest (if isRight then c sibling x else c x sibling)

/-- The inputs on which `c` is evaluated on that way. -/
def pathCalls (c : Elem p → Elem p → Elem p) : List (Bool × Elem p) → Elem p →
    List (Elem p × Elem p)
  | [], _ => []
  | (isRight, sibling) :: rest, x =>
    (if isRight then (sibling, x) else (x, sibling)) ::
      pathCalls c rest (if isRight then c sibling x else c x sibling)

/-- Binary trees with values at the leaves. -/
inductive MerkleTree (p : ℕ)
  | leaf (x : Elem p)
  | node (l r : MerkleTree p)

namespace MerkleTree

/-- The root hash. -/
def root (c : Elem p → Elem p → Elem p) : MerkleTree p → Elem p
  | leaf x => x
  | node l r => c (l.root c) (r.root c)

/-- The inputs on which `c` is evaluated in a tree: the hashes of the children of every node. -/
def calls (c : Elem p → Elem p → Elem p) : MerkleTree p → List (Elem p × Elem p)
  | leaf _ => []
  | node l r => (l.root c, r.root c) :: (l.calls c ++ r.calls c)

/-- The leaf at a position, given as turns from the root (`true` = right), with its path upwards. -/
def path (c : Elem p → Elem p → Elem p) : MerkleTree p → List Bool →
    Option (Elem p × List (Bool × Elem p))
  | leaf x, [] => some (x, [])
  | node l r, turn :: turns => do
    let (x, up) ← path c (if turn then r else l) turns
    return (x, up ++ [(turn, (if turn then l else r).root c)])
  | _, _ => none

/-- The perfect tree of depth `d` with leaves `f 0`, `f 1`, … from left to right. -/
def ofLeaves : ℕ → (ℕ → Elem p) → MerkleTree p
  | 0, f => leaf (f 0)
  | d + 1, f => node (ofLeaves d f) (ofLeaves d fun i => f (2 ^ d + i))

end MerkleTree

/-- The state of a sponge with rate `r` and capacity `c` after absorbing `i` chunks: the state
starts as zeros; each step adds the next `r` input elements (as many as there are) to the first `r`
elements of the state and applies `f`. -/
def spongeState (f : List (Elem p) → List (Elem p)) (r c : ℕ) (inputs : List (Elem p)) :
    ℕ → List (Elem p)
  | 0 => List.replicate (r + c) 0
  | i + 1 => f ((List.range (r + c)).map fun j =>
      (spongeState f r c inputs i).getD j 0 + if j < r then inputs.getD (i * r + j) 0 else 0)

/-- The output of a sponge: `⌈|inputs| / r⌉` chunks are absorbed; then output number `j` is element
`j % r` of the state after `j / r` further applications of `f`. -/
def spongeOutput (f : List (Elem p) → List (Elem p)) (r c : ℕ) (inputs : List (Elem p))
    (outputLen : ℕ) : List (Elem p) :=
  (List.range outputLen).map fun j =>
    (f^[j / r] (spongeState f r c inputs ((inputs.length + r - 1) / r))).getD (j % r) 0

end R1CS
