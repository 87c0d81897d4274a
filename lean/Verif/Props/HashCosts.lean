import Verif.Props.Costs
import Verif.Props.Hashes
import Verif.Props.Matrices
import Verif.Lemmas.HashCost

/-!
# Property C83: the number of constraints of ciphers, hash functions and permutations
-/

set_option linter.unusedSectionVars false

namespace R1CS

variable {p : ℕ} [hp : Fact p.Prime]

open Expression

/-- C83: encryption with MiMC adds two constraints for each of its rounds, one more than it has
round constants. -/
theorem C83_mimc_encrypt_size {cs : List (Elem p)} {c : MiMC p} (hc : MiMC.new cs = some c)
    {b : Builder p} (hb : 1 ≤ b.nextWireIndex) {key x : Expression p}
    (hk : key.Scoped b.nextWireIndex) (hx : x.Scoped b.nextWireIndex) (hxb : x.Built)
    (hv : (x + key).Varies) :
    AddsExactly (c.toBlockCipher.encrypt key x) b (2 * (cs.length + 1)) := by
  obtain ⟨-, -, rfl, h3⟩ := MiMC.new_eq_some hc
  exact (Cost.mimc_encrypt h3 hb hk (Varies.live (canonical_add (C10_canonical _ hxb)) hv)).built
    (Prog.mimc_encrypt c key x) hb (c.comp_encrypt hk hx)

/-- C83: decryption adds three constraints for each round, whatever the inputs are. -/
theorem C83_mimc_decrypt_size {cs : List (Elem p)} {c : MiMC p} (hc : MiMC.new cs = some c)
    {b : Builder p} (hb : 1 ≤ b.nextWireIndex) {key x : Expression p}
    (hk : key.Scoped b.nextWireIndex) (hx : x.Scoped b.nextWireIndex) :
    AddsExactly (c.toBlockCipher.decrypt key x) b (3 * (cs.length + 1)) := by
  obtain ⟨-, hco, rfl, h3⟩ := MiMC.new_eq_some hc
  exact (Cost.mimc_decrypt h3 key x hb).built (Prog.mimc_decrypt c key x) hb
    (c.comp_decrypt h3 hco hk hx)

/-- C83: for arbitrary inputs, the cost of encryption is an upper bound. -/
theorem C83_mimc_encrypt_bound {cs : List (Elem p)} {c : MiMC p} (hc : MiMC.new cs = some c)
    (key x : Expression p) :
    AddsAtMost (c.toBlockCipher.encrypt key x) (2 * (cs.length + 1)) := by
  obtain ⟨-, -, rfl, h3⟩ := MiMC.new_eq_some hc
  exact (AtMost.mimc_encrypt h3 key x).addsAtMost

/-- C83: and so is the number for decryption. -/
theorem C83_mimc_decrypt_bound {cs : List (Elem p)} {c : MiMC p} (hc : MiMC.new cs = some c)
    (key x : Expression p) :
    AddsAtMost (c.toBlockCipher.decrypt key x) (3 * (cs.length + 1)) := by
  obtain ⟨-, -, rfl, h3⟩ := MiMC.new_eq_some hc
  exact (AtMost.mimc_decrypt h3 key x).addsAtMost

/-- C83: the two ways to turn a cipher into a compression function add no constraint. -/
theorem C83_compress_size (c : BlockCipher p) (x y : Expression p) (b : Builder p) (k : ℕ) :
    (AddsExactly (c.encrypt y x) b k ↔ AddsExactly ((daviesMeyer c).compress x y) b k) ∧
    (AddsExactly (c.encrypt x y) b k ↔ AddsExactly ((miyaguchiPreneel c).compress x y) b k) := by
  have key : ∀ (m : B p (Expression p)) (f : Expression p → Expression p),
      AddsExactly m b k ↔ AddsExactly (do let e ← m; return f e) b k := by
    intro m f
    constructor
    · rintro ⟨a, b', h1, h2⟩
      exact ⟨f a, b', by rw [B.bind_eq h1]; rfl, h2⟩
    · rintro ⟨a, b', h1, h2⟩
      cases hm : m b with
      | none => rw [B.bind_eq_none hm] at h1; cases h1
      | some r =>
        obtain ⟨e, b1⟩ := r
        rw [B.bind_eq hm] at h1
        obtain ⟨-, rfl⟩ := Prod.ext_iff.1 (Option.some.inj h1)
        exact ⟨e, b1, hm, h2⟩
  exact ⟨key _ fun e => e + x, key _ fun e => e + x + y⟩

/-- C83: nor do they add one to an upper bound. -/
theorem C83_compress_bound (c : BlockCipher p) {k : ℕ} (hk : ∀ x y, AddsAtMost (c.encrypt x y) k)
    (x y : Expression p) : AddsAtMost ((daviesMeyer c).compress x y) k ∧
      AddsAtMost ((miyaguchiPreneel c).compress x y) k :=
  ⟨((AtMost.of (hk y x)).bind (l := 0) (R := fun _ => True) fun _ _ => AtMost.pure trivial).addsAtMost,
    ((AtMost.of (hk x y)).bind (l := 0) (R := fun _ => True) fun _ _ => AtMost.pure trivial).addsAtMost⟩

/-- C83: the hash of at least one block adds the constraints of one compression per block and one
for the length, if the first block is not a constant. -/
theorem C83_hash_size {cs : List (Elem p)} {c : MiMC p} (hc : MiMC.new cs = some c) (iv : Elem p)
    {e : Expression p} {blocks : List (Expression p)} {b : Builder p} (hb : 1 ≤ b.nextWireIndex)
    (hs : ∀ e' ∈ e :: blocks, e'.Scoped b.nextWireIndex) (hv : e.Varies)
    (hl : (e :: blocks).length < p) :
    AddsExactly ((MerkleDamgard.mk iv (daviesMeyer c.toBlockCipher)).hash (e :: blocks)) b
      (2 * (cs.length + 1) * ((e :: blocks).length + 1)) := by
  have hcomp := C58_davies_meyer.2 (C57_encrypt hc).2
  obtain ⟨-, -, rfl, h3⟩ := MiMC.new_eq_some hc
  exact (Cost.hash rfl h3 hb hs hv).built (Prog.hash (fun x y => .bind (Prog.mimc_encrypt c y x)
    fun _ => .pure _) _) hb ((C59_hash_computed ⟨iv, daviesMeyer c.toBlockCipher⟩ hcomp
      (freeHon p b.nextWireIndex hb) (blocks := e :: blocks) hs).1 hl)

/-- C83: with any compression function adding at most `k` constraints, the hash of `n` blocks adds at
most `k (n + 1)`. -/
theorem C83_hash_bound (h : MerkleDamgard p) {k : ℕ}
    (hk : ∀ x y, AddsAtMost (h.compress.compress x y) k) (blocks : List (Expression p)) :
    AddsAtMost (h.toHashFunction.hash blocks) (k * (blocks.length + 1)) :=
  (AtMost.hash hk blocks).addsAtMost

/-- C83: a Merkle path costs one selection and one compression for each level, and the check of the
root one more. -/
theorem C83_merkle_bound (c : CompressionFunction p) {k : ℕ}
    (hk : ∀ x y, AddsAtMost (c.compress x y) k) {bits : BinaryExpression p}
    {siblings : List (Expression p)} {path : MerklePath p}
    (hpath : MerklePath.new bits siblings = some path) (leaf root : Expression p) :
    AddsAtMost (B.merkleTreeRoot leaf path c) ((k + 1) * siblings.length) ∧
    AddsAtMost (B.assertMerkleTreeMembership leaf root path c) ((k + 1) * siblings.length + 1) := by
  have hlen : (path.pathBits.bits.zip path.siblings).length = siblings.length := by
    unfold MerklePath.new at hpath
    split at hpath
    · next h =>
      cases hpath
      rw [List.length_zip]
      exact Nat.min_eq_right (le_of_eq h.symm)
    · cases hpath
  have h1 : AtMost (B.merkleTreeRoot leaf path c) ((k + 1) * siblings.length) fun _ => True := by
    rw [← hlen]; exact AtMost.merkleTreeLoop hk _ _
  exact ⟨h1.addsAtMost, (h1.bind fun _ _ => AtMost.assertEqual _ _).addsAtMost⟩

/-- C83: exactly so with MiMC under Davies-Meyer, when the bits of the path are not constants and
the first sibling and the leaf are neither a fixed distance apart nor a fixed sum. -/
theorem C83_merkle_size {cs : List (Elem p)} {c : MiMC p} (hc : MiMC.new cs = some c)
    {bits : BinaryExpression p} {e : Expression p} {siblings : List (Expression p)}
    {path : MerklePath p} (hpath : MerklePath.new bits (e :: siblings) = some path)
    {leaf : Expression p} (root : Expression p) {b : Builder p} (hb : 1 ≤ b.nextWireIndex)
    (hl : leaf.Built ∧ leaf.Scoped b.nextWireIndex)
    (hs : ∀ e' ∈ e :: siblings, e'.Scoped b.nextWireIndex)
    (hbits : ∀ bit ∈ bits.bits, bit.expression.Varies)
    (hd : (e - leaf).Varies) (hv : (e + leaf).Varies) :
    CostsExactly (B.merkleTreeRoot leaf path (daviesMeyer c.toBlockCipher)) b
      ((2 * (cs.length + 1) + 1) * (e :: siblings).length) ∧
    CostsExactly (B.assertMerkleTreeMembership leaf root path (daviesMeyer c.toBlockCipher)) b
      ((2 * (cs.length + 1) + 1) * (e :: siblings).length + 1) := by
  obtain ⟨-, -, rfl, h3⟩ := MiMC.new_eq_some hc
  unfold MerklePath.new at hpath
  split at hpath
  swap
  · cases hpath
  next hlen =>
  cases hpath
  obtain ⟨_ | ⟨bit, bits⟩⟩ := bits
  · cases hlen
  have hlen' : bits.length = siblings.length := Nat.succ.inj hlen
  have h1 : Cost (B.merkleTreeRoot leaf ⟨⟨bit :: bits⟩, e :: siblings⟩
      (daviesMeyer c.toBlockCipher)) b ((2 * (c.roundConstants.length + 1) + 1) *
        (e :: siblings).length) fun z n => True := by
    unfold B.merkleTreeRoot
    rw [List.zip_cons_cons]
    unfold B.merkleTreeLoop
    refine ((Cost.merkleTreeStep h3 hb (C10_canonical _ hl.1) hl.2 (hs e List.mem_cons_self)
      (hbits bit List.mem_cons_self).asConstant hd.asConstant hv).bind fun z b1 hb1 hz =>
        (Cost.merkleTreeLoop h3 hb (bits.zip siblings) hb1 (fun q hq => ?_) hz).mono
          fun _ _ _ _ => trivial).congr ?_
    · have := List.of_mem_zip hq
      exact ⟨(hbits _ (List.mem_cons_of_mem _ this.1)).asConstant,
        hs _ (List.mem_cons_of_mem _ this.2)⟩
    · rw [List.length_zip, hlen', Nat.min_self, List.length_cons]
      ring
  exact ⟨h1.costsExactly, (h1.bind fun _ _ _ _ =>
    (Cost.assertEqual _ _).mono (R := fun _ _ => True) fun _ _ _ _ => trivial).costsExactly⟩

/-- C83: Poseidon applied to expressions that are not constants other than zero (which would be
folded) adds the constraints of one S-box for each item in a full round and of one in each partial
round.  An S-box costs two constraints for the cube, three for the fifth power and three for the
inverse. -/
theorem C83_poseidon_size (f : Poseidon p) (hm : f.mds.rows.length = f.width)
    {xs : List (Expression p)} (hx : ∀ x ∈ xs, x.Built ∧ ∀ c ≠ 0,
      ¬ ∀ w : Assign p, w ONE = 1 → x.eval w = c) {b : Builder p} (hb : 1 ≤ b.nextWireIndex) :
    CostsExactly (f.toMultiPermutation.permute xs) b
      ((match f.sbox with | .exponentiation3 => 2 | .exponentiation5 => 3 | .inverse => 3) *
        (f.full * f.width + f.partial_)) := by
  have := (Cost.poseidon f hm (fun x h => ⟨C10_canonical _ (hx x h).1, (hx x h).2⟩) hb).costsExactly
  have hs : Cost.sboxCost f.sbox =
      (match f.sbox with | .exponentiation3 => 2 | .exponentiation5 => 3 | .inverse => 3) := by
    cases f.sbox <;> rfl
  rwa [hs] at this

/-- C83: for arbitrary inputs that is an upper bound. -/
theorem C83_poseidon_bound (f : Poseidon p) (xs : List (Expression p)) :
    AddsAtMost (f.toMultiPermutation.permute xs)
      ((match f.sbox with | .exponentiation3 => 2 | .exponentiation5 => 3 | .inverse => 3) *
        (f.full * f.width + f.partial_)) := by
  have := (AtMost.poseidon f xs).addsAtMost
  have hs : Cost.sboxCost f.sbox =
      (match f.sbox with | .exponentiation3 => 2 | .exponentiation5 => 3 | .inverse => 3) := by
    cases f.sbox <;> rfl
  rwa [hs] at this

/-- C83: every round of Rescue costs two powers and one equation for each item. -/
theorem C83_rescue_size (f : Rescue p) (ha : f.alpha.n % 2 = 1) (hm : f.mds.rows.length = f.width)
    {xs : List (Expression p)} (hl : xs.length = f.width) (hx : ∀ x ∈ xs, x.Built ∧ ∀ c ≠ 0,
      ¬ ∀ w : Assign p, w ONE = 1 → x.eval w = c) {b : Builder p} (hb : 1 ≤ b.nextWireIndex) :
    CostsExactly (f.toMultiPermutation.permute xs) b (f.numRounds * f.width *
      (2 * ((f.alpha.n.size - 1) + ((List.range f.alpha.n.size).countP
        (fun j => f.alpha.n.testBit j) - 1)) + 1)) :=
  (Cost.rescue_rounds f ha hm f.numRounds hl (fun x h => ⟨C10_canonical _ (hx x h).1, (hx x h).2⟩)
    hb).costsExactly

/-- C83: for arbitrary inputs, and exponents of any parity, that is an upper bound. -/
theorem C83_rescue_bound (f : Rescue p) {xs : List (Expression p)} (hl : xs.length = f.width) :
    AddsAtMost (f.toMultiPermutation.permute xs) (f.numRounds * f.width *
      (2 * ((f.alpha.n.size - 1) + ((List.range f.alpha.n.size).countP
        (fun j => f.alpha.n.testBit j) - 1)) + 1)) :=
  (AtMost.rescue_rounds f f.numRounds (le_of_eq hl)).addsAtMost

/-- C83: a sponge with bitrate `r` permutes once for each `r` inputs, or part of `r`, and once for
each further `r` outputs, or part of `r`, after the first `r`. -/
theorem C83_sponge_bound {m : MultiPermutation p} {r c : ℕ} {sp : Sponge p}
    (hsp : Sponge.new m r c = some sp) {k : ℕ} (hk : ∀ xs, AddsAtMost (m.permute xs) k)
    (inputs : List (Expression p)) (len : ℕ) :
    AddsAtMost (sp.evaluate inputs len)
      (k * ((inputs.length + r - 1) / r + (len - r + r - 1) / r)) := by
  unfold Sponge.new at hsp
  split at hsp
  · cases hsp
    exact (AtMost.sponge (sp := ⟨m, r, c⟩) hk inputs len).addsAtMost
  · cases hsp

/-- C83: no more and no less: if every call of the permutation adds the same number of constraints,
the sponge adds exactly that number for every permutation counted above. -/
theorem C83_sponge_size {m : MultiPermutation p} {r c : ℕ} {sp : Sponge p}
    (hsp : Sponge.new m r c = some sp) {k : ℕ} (hk : ∀ xs b, CostsExactly (m.permute xs) b k)
    (inputs : List (Expression p)) (len : ℕ) (b : Builder p) :
    CostsExactly (sp.evaluate inputs len) b
      (k * ((inputs.length + r - 1) / r + (len - r + r - 1) / r)) := by
  unfold Sponge.new at hsp
  split at hsp
  · cases hsp
    exact fun a b' h => (Exactly.sponge (sp := ⟨m, r, c⟩) hk inputs len b a b' h).1
  · cases hsp

/-! ## Examples -/

/-- MiMC with two round constants over the field of order 11, on two input wires. -/
example : AddsExactly ((MiMC.toBlockCipher ⟨[2, 7], ⟨3⟩⟩ : BlockCipher 11).encrypt (ofWire 1)
    (ofWire 2)) ⟨3, [], []⟩ 6 ∧
    AddsExactly ((MiMC.toBlockCipher ⟨[2, 7], ⟨3⟩⟩ : BlockCipher 11).decrypt (ofWire 1)
    (ofWire 2)) ⟨3, [], []⟩ 9 ∧
    AddsExactly ((MerkleDamgard.mk 5 dm11).hash [ofWire 1, ofElem 3, ofWire 2]) ⟨3, [], []⟩ 24 :=
  ⟨C83_mimc_encrypt_size mimc11 (by decide) (.ofWire (by decide)) (.ofWire (by decide)) (.ofWire 2)
      (varies_of_wire (i := 2) (by decide) (by decide)),
    C83_mimc_decrypt_size mimc11 (by decide) (.ofWire (by decide)) (.ofWire (by decide)),
    C83_hash_size mimc11 5 (by decide) (by
      intro e he
      fin_cases he
      · exact .ofWire (by decide)
      · exact .ofElem (n := 3) (by decide) 3
      · exact .ofWire (by decide)) (varies_ofWire (by decide)) (by decide)⟩

/-- On constants the same cipher is free. -/
example : AddsExactly ((MiMC.toBlockCipher ⟨[2, 7], ⟨3⟩⟩ : BlockCipher 11).encrypt (ofElem 4)
    (ofElem 5)) ⟨3, [], []⟩ 0 :=
  ⟨_, _, rfl, rfl⟩

/-- Merkle paths with that compression function. -/
example (leaf root : Expression 11) (bits : BinaryExpression 11) (siblings : List (Expression 11))
    (path : MerklePath 11) (h : MerklePath.new bits siblings = some path) :
    AddsAtMost (B.assertMerkleTreeMembership leaf root path dm11) (7 * siblings.length + 1) :=
  (C83_merkle_bound dm11 (fun x y => (C83_compress_bound _ (C83_mimc_encrypt_bound mimc11) x y).1) h
    leaf root).2

/-- A path of two levels, all of it inputs: exactly fourteen constraints. -/
example (path : MerklePath 11)
    (h : MerklePath.new ⟨[⟨ofWire 3⟩, ⟨ofWire 4⟩]⟩ [ofWire 2, ofElem 5] = some path) :
    CostsExactly (B.merkleTreeRoot (ofWire 1) path dm11) ⟨5, [], []⟩ 14 :=
  (C83_merkle_size mimc11 h 0 (by decide) ⟨.ofWire 1, .ofWire (by decide)⟩ (by
      intro e he
      fin_cases he
      · exact .ofWire (by decide)
      · exact .ofElem (n := 5) (by decide) 5) (by
      intro bit hb
      fin_cases hb <;> exact varies_ofWire (by decide))
    (varies_of_wire (i := 2) (by decide) (by decide))
    (varies_of_wire (i := 2) (by decide) (by decide))).1

/-- A sponge around a function which inverts the sum of the state, and reverses the state: seven
inputs and five outputs in groups of two take six calls. -/
example (sp : Sponge 11) (h : Sponge.new ⟨3, fun xs => do
      let _ ← B.inverse xs.sum
      return xs.reverse, pure⟩ 2 1 = some sp) (inputs : List (Expression 11)) (hi : inputs.length = 7)
    (b : Builder 11) : CostsExactly (sp.evaluate inputs 5) b 6 := by
  have := C83_sponge_size h (k := 1) (fun xs b => ((Cost.inverse xs.sum).bind (l := 0)
    (R := fun _ _ => True) fun _ _ _ _ => Cost.pure trivial).costsExactly) inputs 5 b
  rwa [hi] at this

/-- Poseidon of width two over the field of order 11, with two full rounds and one partial round. -/
def poseidon11b : Poseidon 11 := ⟨2, 2, 1, .exponentiation3, ⟨[[1, 2], [3, 4]]⟩⟩

/-- It is built from two wires; the bound for a sponge around it. -/
example : AddsExactly (poseidon11b.toMultiPermutation.permute [ofWire 1, ofWire 2]) ⟨3, [], []⟩ 10 ∧
    ∀ (sp : Sponge 11), Sponge.new poseidon11b.toMultiPermutation 1 1 = some sp →
      ∀ inputs, AddsAtMost (sp.evaluate inputs 3) (10 * ((inputs.length + 1 - 1) / 1 + 2)) := by
  constructor
  · have h := C83_poseidon_size poseidon11b rfl (xs := [ofWire 1, ofWire 2]) (by
      intro x hx
      fin_cases hx
      · exact ⟨.ofWire 1, (live_ofWire (p := 11) (i := 1) (by decide)).2⟩
      · exact ⟨.ofWire 2, (live_ofWire (p := 11) (i := 2) (by decide)).2⟩) (b := ⟨3, [], []⟩) (by decide)
    have hs : (poseidon11b.toMultiPermutation.permute [ofWire 1, ofWire 2] ⟨3, [], []⟩).isSome := by
      decide +kernel
    obtain ⟨⟨a, b'⟩, hr⟩ := Option.isSome_iff_exists.1 hs
    exact ⟨a, b', hr, h a b' hr⟩
  · exact fun sp hsp inputs => C83_sponge_bound hsp (C83_poseidon_bound poseidon11b) inputs 3

/-- Rescue with cubes, three rounds and width two. -/
example : AddsExactly ((⟨2, 3, 3, ⟨[[1, 2], [3, 4]]⟩⟩ : Rescue 11).toMultiPermutation.permute
    [ofWire 1, ofWire 2]) ⟨3, [], []⟩ 30 := by
  have h := C83_rescue_size (⟨2, 3, 3, ⟨[[1, 2], [3, 4]]⟩⟩ : Rescue 11) rfl rfl
    (xs := [ofWire 1, ofWire 2]) rfl (by
      intro x hx
      fin_cases hx
      · exact ⟨.ofWire 1, (live_ofWire (p := 11) (i := 1) (by decide)).2⟩
      · exact ⟨.ofWire 2, (live_ofWire (p := 11) (i := 2) (by decide)).2⟩) (b := ⟨3, [], []⟩) (by decide)
  have hs : ((⟨2, 3, 3, ⟨[[1, 2], [3, 4]]⟩⟩ : Rescue 11).toMultiPermutation.permute
      [ofWire 1, ofWire 2] ⟨3, [], []⟩).isSome := by decide +kernel
  obtain ⟨⟨a, b'⟩, hr⟩ := Option.isSome_iff_exists.1 hs
  exact ⟨a, b', hr, h a b' hr⟩

end R1CS
