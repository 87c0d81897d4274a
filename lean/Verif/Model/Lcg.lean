import Verif.Model.Field

/-!
# Model of `src/lcg.rs`

A method taking `&mut self` is a function from the state to a result and the new state.  The state,
a `u32`, is a natural number below `2 ^ 32`.
-/

namespace R1CS

/-- `LCG` (src/lcg.rs:13-16). -/
structure LCG where
  state : ℕ
  deriving DecidableEq

namespace LCG

/-- `LCG::new` (src/lcg.rs:19-21). -/
def new : LCG := ⟨0⟩

/-- `next_u32` (src/lcg.rs:23-26): `wrapping_mul` and `wrapping_add` of `u32`. -/
def nextU32 (g : LCG) : ℕ × LCG :=
  let s := (g.state * 1664525 % 2 ^ 32 + 1013904223) % 2 ^ 32
  (s, ⟨s⟩)

/-- The loop drawing full chunks (src/lcg.rs:48-50). -/
def fullChunks : ℕ → LCG → List ℕ × LCG
  | 0, g => ([], g)
  | n + 1, g =>
    let (c, g) := g.nextU32
    let (cs, g) := fullChunks n g
    (c :: cs, g)

/-- `BigUint::new` of `u32` digits, least significant first. -/
def ofDigits : List ℕ → ℕ
  | [] => 0
  | d :: ds => d + 2 ^ 32 * ofDigits ds

/-- `next_biguint_bits` (src/lcg.rs:42-55). -/
def nextBiguintBits (bits : ℕ) (g : LCG) : ℕ × LCG :=
  let full := bits / 32
  let remaining := bits % 32
  let (chunks, g) := fullChunks full g
  if remaining > 0 then
    let (c, g) := g.nextU32
    (ofDigits (chunks ++ [c % (1 <<< remaining)]), g)
  else (ofDigits chunks, g)

/-- The rejection loop of `next_biguint` (src/lcg.rs:34-39), with at most `fuel` draws; `none` means
that none of them was in range. -/
def drawLoop (limit bits : ℕ) : ℕ → LCG → Option (ℕ × LCG)
  | 0, _ => none
  | fuel + 1, g =>
    let (n, g) := nextBiguintBits bits g
    if n < limit then some (n, g) else drawLoop limit bits fuel g

/-- `next_biguint` (src/lcg.rs:32-40); `limit - 1` panics for limit 0.  The loop has no bound in the
code; after `2 ^ 32` draws the state, and with it the sequence of draws, repeats (see
`Props/Lcg.lean`), so running out of this fuel means that the loop never ends. -/
def nextBiguint (limit : ℕ) (g : LCG) : Option (ℕ × LCG) :=
  if limit = 0 then none else drawLoop limit (limit - 1).size (2 ^ 32) g

/-- `next_element` (src/lcg.rs:28-30). -/
def nextElement (p : ℕ) (g : LCG) : Option (Elem p × LCG) := do
  let (n, g) ← g.nextBiguint p
  let e ← Elem.ofNat? p n
  return (e, g)

/-- Drawing a list of elements (src/mimc.rs:36-40). -/
def nextElements (p : ℕ) : ℕ → LCG → Option (List (Elem p) × LCG)
  | 0, g => some ([], g)
  | n + 1, g => do
    let (e, g) ← g.nextElement p
    let (es, g) ← nextElements p n g
    return (e :: es, g)

end LCG

end R1CS
