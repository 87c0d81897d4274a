import Verif.Model.Permutations
import Verif.Model.Comparisons
import Verif.Model.Lcg

/-!
# Model of `src/mimc.rs`, `src/davies_meyer.rs`, `src/miyaguchi_preneel.rs`,
`src/merkle_damgard.rs`, `src/merkle_trees.rs` and `src/sponge.rs`
-/

namespace R1CS

variable {p : ℕ} [hp : Fact p.Prime]

/-! ## MiMC -/

/-- `MiMCBlockCipher` (src/mimc.rs:14-17). -/
structure MiMC (p : ℕ) where
  roundConstants : List (Elem p)
  roundPermutation : MonomialPermutation p

namespace MiMC

/-- `MiMCBlockCipher::new` (src/mimc.rs:25-29): `Element::from(3)` panics for orders up to 3. -/
def new (roundConstants : List (Elem p)) : Option (MiMC p) := do
  let three ← Elem.ofNat? p 3
  let f ← MonomialPermutation.new three
  return ⟨roundConstants, f⟩

/-- `Default for MiMCBlockCipher` (src/mimc.rs:35-42).  Simplification: the recommended number of
rounds (107-111), a floating point computation, is a parameter (see Verif.Model.Rounds and Verif.Model.Floats). -/
def default (rounds : ℕ) : Option (MiMC p) := do
  let (cs, _) ← LCG.nextElements p rounds LCG.new
  new cs

/-- The loop of `encrypt` (src/mimc.rs:56-62). -/
def encryptRounds (c : MiMC p) (key : Expression p) :
    List (Elem p) → Expression p → B p (Expression p)
  | [], current => return current
  | rc :: rcs, current => do
    let current ← c.roundPermutation.permute (current + (key + Expression.ofElem rc))
    encryptRounds c key rcs current

/-- `encrypt` (src/mimc.rs:46-66). -/
def encrypt (c : MiMC p) (key input : Expression p) : B p (Expression p) := do
  let current ← c.roundPermutation.permute (input + key)
  let current ← encryptRounds c key c.roundConstants current
  return current + key

/-- The loop of `decrypt` (src/mimc.rs:75-81), given the reversed constants. -/
def decryptRounds (c : MiMC p) (key : Expression p) :
    List (Elem p) → Expression p → B p (Expression p)
  | [], current => return current
  | rc :: rcs, current => do
    let current ← c.roundPermutation.inverse current
    decryptRounds c key rcs (current - (key + Expression.ofElem rc))

/-- `decrypt` (src/mimc.rs:68-86). -/
def decrypt (c : MiMC p) (key output : Expression p) : B p (Expression p) := do
  let current ← decryptRounds c key c.roundConstants.reverse (output - key)
  let current ← c.roundPermutation.inverse current
  return current - key

/-- `impl BlockCipher for MiMCBlockCipher` (src/mimc.rs:45-87). -/
def toBlockCipher (c : MiMC p) : BlockCipher p where
  encrypt := c.encrypt
  decrypt := c.decrypt

/-- `impl Permutation for MiMCPermutation` (src/mimc.rs:92-105): the key is zero. -/
def toPermutation (c : MiMC p) : Permutation p where
  permute x := c.encrypt 0 x
  inverse x := c.decrypt 0 x

end MiMC

/-! ## Compression functions from block ciphers -/

/-- `DaviesMeyer` (src/davies_meyer.rs:24-29). -/
def daviesMeyer (cipher : BlockCipher p) : CompressionFunction p where
  compress x y := do
    let e ← cipher.encrypt y x
    return e + x

/-- `MiyaguchiPreneel` (src/miyaguchi_preneel.rs:22-27). -/
def miyaguchiPreneel (cipher : BlockCipher p) : CompressionFunction p where
  compress x y := do
    let e ← cipher.encrypt x y
    return e + x + y

/-! ## Merkle-Damgård -/

/-- `MerkleDamgard` (src/merkle_damgard.rs:10-13). -/
structure MerkleDamgard (p : ℕ) where
  initialValue : Elem p
  compress : CompressionFunction p

namespace MerkleDamgard

/-- `new_defaults` (src/merkle_damgard.rs:24-27). -/
def newDefaults (compress : CompressionFunction p) : Option (MerkleDamgard p) := do
  let (iv, _) ← LCG.new.nextElement p
  return ⟨iv, compress⟩

/-- The loop over the blocks (src/merkle_damgard.rs:33-35). -/
def absorb (h : MerkleDamgard p) : List (Expression p) → Expression p → B p (Expression p)
  | [], current => return current
  | block :: blocks, current => do
    let current ← h.compress.compress current block
    absorb h blocks current

/-- `hash` (src/merkle_damgard.rs:31-39); `Expression::from(usize)` panics when the number of blocks
is not below the order. -/
def hash (h : MerkleDamgard p) (blocks : List (Expression p)) : B p (Expression p) := do
  let current ← absorb h blocks (Expression.ofElem h.initialValue)
  let len ← B.ofOption (Expression.ofNat? blocks.length)
  h.compress.compress current len

/-- `impl HashFunction for MerkleDamgard` (src/merkle_damgard.rs:30-40). -/
def toHashFunction (h : MerkleDamgard p) : HashFunction p := ⟨h.hash⟩

end MerkleDamgard

/-! ## Merkle trees -/

/-- `MerklePath` (src/merkle_trees.rs:11-18). -/
structure MerklePath (p : ℕ) where
  pathBits : BinaryExpression p
  siblings : List (Expression p)

/-- `MerklePath::new` (src/merkle_trees.rs:21-24). -/
def MerklePath.new (pathBits : BinaryExpression p) (siblings : List (Expression p)) :
    Option (MerklePath p) :=
  if pathBits.len = siblings.length then some ⟨pathBits, siblings⟩ else none

namespace B

/-- `merkle_tree_step` (src/merkle_trees.rs:38-48). -/
def merkleTreeStep (node sibling : Expression p) (bit : BooleanExpression p)
    (c : CompressionFunction p) : B p (Expression p) := do
  let left ← selection bit sibling node
  let right := sibling + node - left
  c.compress left right

/-- The loop of `merkle_tree_root` (src/merkle_trees.rs:58-61). -/
def merkleTreeLoop (c : CompressionFunction p) :
    List (BooleanExpression p × Expression p) → Expression p → B p (Expression p)
  | [], current => return current
  | (bit, sibling) :: rest, current => do
    let current ← merkleTreeStep current sibling bit c
    merkleTreeLoop c rest current

/-- `merkle_tree_root` (src/merkle_trees.rs:51-63). -/
def merkleTreeRoot (leaf : Expression p) (path : MerklePath p) (c : CompressionFunction p) :
    B p (Expression p) :=
  merkleTreeLoop c (path.pathBits.bits.zip path.siblings) leaf

/-- `assert_merkle_tree_membership` (src/merkle_trees.rs:65-74). -/
def assertMerkleTreeMembership (leaf purportedRoot : Expression p) (path : MerklePath p)
    (c : CompressionFunction p) : B p Unit := do
  let computedRoot ← merkleTreeRoot leaf path c
  assertEqual purportedRoot computedRoot

end B

/-! ## Sponge -/

/-- `Sponge` (src/sponge.rs:21-26). -/
structure Sponge (p : ℕ) where
  permutation : MultiPermutation p
  bitrate : ℕ
  capacity : ℕ

namespace Sponge

/-- `Sponge::new` (src/sponge.rs:35-39). -/
def new (f : MultiPermutation p) (bitrate capacity : ℕ) : Option (Sponge p) :=
  if bitrate + capacity = f.width then some ⟨f, bitrate, capacity⟩ else none

/-- The loop `input_section[i] += element` (src/sponge.rs:52-54): panics if the chunk is longer than
the section. -/
def addChunk : List (Expression p) → List (Expression p) → Option (List (Expression p))
  | section_, [] => some section_
  | [], _ :: _ => none
  | s :: ss, e :: es => do
    let rest ← addChunk ss es
    return (s + e) :: rest

/-- Applying the permutation to the two sections (src/sponge.rs:57-62 and 68-73): `assert_eq!` on
the lengths, `split_at` panics when the bitrate exceeds the length. -/
def permuteState (sp : Sponge p) (input capacity : List (Expression p)) :
    B p (List (Expression p) × List (Expression p)) := do
  let old := input ++ capacity
  let new ← sp.permutation.permute old
  B.require (old.length = new.length)
  B.require (sp.bitrate ≤ new.length)
  return (new.take sp.bitrate, new.drop sp.bitrate)

/-- The absorbing loop (src/sponge.rs:50-63). -/
def absorb (sp : Sponge p) : List (List (Expression p)) → List (Expression p) →
    List (Expression p) → B p (List (Expression p) × List (Expression p))
  | [], input, capacity => return (input, capacity)
  | chunk :: chunks, input, capacity => do
    let input ← B.ofOption (addChunk input chunk)
    let (input, capacity) ← permuteState sp input capacity
    absorb sp chunks input capacity

/-- The squeezing loop (src/sponge.rs:66-76).  Every iteration adds `bitrate` outputs, so that with
a positive bitrate `output_len` iterations are enough. -/
def squeeze (sp : Sponge p) (outputLen : ℕ) : ℕ → List (Expression p) → List (Expression p) →
    List (Expression p) → B p (List (Expression p))
  | 0, _, _, outputs => if outputs.length < outputLen then B.panic else return outputs
  | fuel + 1, input, capacity, outputs =>
    if outputs.length < outputLen then do
      let (input, capacity) ← permuteState sp input capacity
      squeeze sp outputLen fuel input capacity (outputs ++ input)
    else return outputs

/-- `evaluate` (src/sponge.rs:41-83); `chunks(0)` panics. -/
def evaluate (sp : Sponge p) (inputs : List (Expression p)) (outputLen : ℕ) :
    B p (List (Expression p)) := do
  let input := List.replicate sp.bitrate (0 : Expression p)
  let capacity := List.replicate sp.capacity (0 : Expression p)
  let chunks ← B.ofOption (chunks? sp.bitrate inputs)
  let (input, capacity) ← absorb sp chunks input capacity
  let outputs ← squeeze sp outputLen outputLen input capacity input
  return outputs.take outputLen

end Sponge

end R1CS
