import Verif.Lemmas.Sponge
import Verif.Lemmas.Compare
import Verif.Props.Comparisons
import Verif.Props.Permutations

/-!
# C57-C61, C71: MiMC, compression functions, Merkle-Damgård, Merkle trees, sponges, and the
stand-alone evaluation helpers
-/

set_option linter.unusedSectionVars false

namespace R1CS

variable {p : ℕ} [hp : Fact p.Prime]

open Expression (eval_add eval_sub eval_ofElem eval_ofWire eval_zero)

/-! ## C57: MiMC -/

/-- C57: `MiMCBlockCipher::new` panics exactly when cubing is not a permutation, or the field is too
small to contain the exponent. -/
theorem C57_new (cs : List (Elem p)) :
    (MiMC.new cs).isSome ↔ 3 < p ∧ Function.Bijective fun x : Elem p => x ^ 3 := by
  by_cases h3 : 3 < p
  · have hn := C55_new (p := p) (by omega) ⟨3, h3⟩
    have : (MiMC.new cs).isSome = (MonomialPermutation.new (⟨3, h3⟩ : Elem p)).isSome := by
      unfold MiMC.new
      rw [Elem.ofNat?_eq_some h3]
      change ((MonomialPermutation.new ⟨3, h3⟩).bind _).isSome = _
      cases MonomialPermutation.new (⟨3, h3⟩ : Elem p) <;> rfl
    rw [this, hn]
    exact ⟨fun h => ⟨h3, h⟩, fun h => h.2⟩
  · refine ⟨fun h => ?_, fun h => absurd h.1 h3⟩
    obtain ⟨c, hc⟩ := Option.isSome_iff_exists.1 h
    exact absurd (MiMC.new_eq_some hc).1 h3

/-- C57: `encrypt` is enforced and computed as MiMC. -/
theorem C57_encrypt {cs : List (Elem p)} {c : MiMC p} (hc : MiMC.new cs = some c) :
    Enforced2 c.toBlockCipher.encrypt (mimc cs) ∧ Computed2 c.toBlockCipher.encrypt (mimc cs) := by
  obtain ⟨-, -, rfl, h3⟩ := MiMC.new_eq_some hc
  refine ⟨fun k x => c.enforces_encrypt h3 k x, fun s k x hk hx => ?_⟩
  exact (Comp.mono ((c.comp_encrypt hk hx).enforced (c.enforces_encrypt h3 k x))
    fun z s' l h => ⟨h.1.1, h.1.2, by rw [h.2, l.eval hk, l.eval hx]⟩).computes

/-- C57: in every satisfying assignment, `decrypt` yields the one block whose encryption is the
input. -/
theorem C57_decrypt_enforced {cs : List (Elem p)} {c : MiMC p} (hc : MiMC.new cs = some c)
    (k x : Expression p) :
    Enforces (c.toBlockCipher.decrypt k x) fun z w => ∀ y, mimc cs (k.eval w) y = x.eval w ↔
      y = z.eval w := by
  obtain ⟨h, hco, rfl, h3⟩ := MiMC.new_eq_some hc
  refine (c.enforces_decrypt h3 k x).mono fun z w _ hz y => ⟨fun hy => ?_, fun hy => hy ▸ hz⟩
  exact mimc_injective h hco _ _ (hy.trans hz.symm)

/-- C57: honest execution of `decrypt` yields that block. -/
theorem C57_decrypt_computed {cs : List (Elem p)} {c : MiMC p} (hc : MiMC.new cs = some c)
    (s : Hon p) {k x : Expression p} (hk : k.Scoped s.next) (hx : x.Scoped s.next) :
    Computes (c.toBlockCipher.decrypt k x) s fun z s' =>
      z.Scoped s'.next ∧ mimc cs (k.eval s.W) (z.eval s'.W) = x.eval s.W := by
  obtain ⟨-, hco, rfl, h3⟩ := MiMC.new_eq_some hc
  exact (Comp.mono ((c.comp_decrypt h3 hco hk hx).enforced (c.enforces_decrypt h3 k x))
    fun z s' l h => ⟨h.1.1, h.1.2, by rw [← l.eval hk, h.2, l.eval hx]⟩).computes

/-- C57: decryption inverts encryption and encryption inverts decryption, in every satisfying
assignment. -/
theorem C57_inverse_enforced {cs : List (Elem p)} {c : MiMC p} (hc : MiMC.new cs = some c)
    (k x : Expression p) :
    Enforces (c.toBlockCipher.encrypt k x >>= c.toBlockCipher.decrypt k)
      (fun z w => z.eval w = x.eval w) ∧
    Enforces (c.toBlockCipher.decrypt k x >>= c.toBlockCipher.encrypt k)
      (fun z w => z.eval w = x.eval w) := by
  constructor
  · refine ((C57_encrypt hc).1 k x).bind fun y => (C57_decrypt_enforced hc k y).mono
      fun z w _ hz hy => ((hz _).1 hy.symm).symm
  · refine (C57_decrypt_enforced hc k x).bind fun y => ((C57_encrypt hc).1 k y).mono
      fun z w _ hz hy => hz.trans ((hy _).2 rfl)

/-- C57: the same in honest execution. -/
theorem C57_inverse_computed {cs : List (Elem p)} {c : MiMC p} (hc : MiMC.new cs = some c)
    (s : Hon p) {k x : Expression p} (hk : k.Scoped s.next) (hx : x.Scoped s.next) :
    Computes (c.toBlockCipher.encrypt k x >>= c.toBlockCipher.decrypt k) s
      (fun z s' => z.eval s'.W = x.eval s.W) ∧
    Computes (c.toBlockCipher.decrypt k x >>= c.toBlockCipher.encrypt k) s
      (fun z s' => z.eval s'.W = x.eval s.W) := by
  obtain ⟨h, hco, -, -⟩ := MiMC.new_eq_some hc
  constructor
  · refine Comp.computes (((C57_encrypt hc).2.comp hk hx).bind fun y s1 l1 ⟨D1, sc1, v1⟩ => ?_)
    refine (C57_decrypt_computed hc s1 (l1.scoped hk) sc1).comp.mono
      fun z s2 l2 ⟨D2, sc2, v2⟩ => ⟨by rw [D2, D1], ?_⟩
    rw [l1.eval hk, v1] at v2
    exact mimc_injective h hco _ _ v2
  · refine Comp.computes ((C57_decrypt_computed hc s hk hx).comp.bind
      fun y s1 l1 ⟨D1, sc1, v1⟩ => ?_)
    refine ((C57_encrypt hc).2.comp (l1.scoped hk) sc1).mono
      fun z s2 l2 ⟨D2, sc2, v2⟩ => ⟨by rw [D2, D1], ?_⟩
    rw [v2, l1.eval hk, v1]

/-- C57: `MiMCPermutation` is MiMC with the zero key. -/
theorem C57_permutation {cs : List (Elem p)} {c : MiMC p} (hc : MiMC.new cs = some c) :
    Enforced1 c.toPermutation.permute (mimc cs 0) ∧ Computed1 c.toPermutation.permute (mimc cs 0) ∧
    ∀ x, Enforces (c.toPermutation.permute x >>= c.toPermutation.inverse)
      fun z w => z.eval w = x.eval w := by
  refine ⟨fun x => ?_, fun s x hx => ?_, fun x => (C57_inverse_enforced hc 0 x).1⟩
  · exact ((C57_encrypt hc).1 0 x).mono fun z w _ h => by rw [h, eval_zero]
  · exact ((C57_encrypt hc).2 s 0 x .zero hx).mono fun z s' _ h => by rw [← eval_zero s.W]; exact h

/-- A MiMC instance over the field of order 11. -/
theorem mimc11 : MiMC.new [(2 : Elem 11), 7] = some ⟨[2, 7], ⟨3⟩⟩ := by
  unfold MiMC.new
  rw [Elem.ofNat?_eq_some (by decide)]
  change (MonomialPermutation.new (⟨3, _⟩ : Elem 11)).bind _ = _
  rw [(MonomialPermutation.new_eq_some_iff (⟨3, by decide⟩ : Elem 11) ⟨3⟩).2 ⟨by decide, rfl⟩]
  rfl

example (k x : Expression 11) :
    Enforces ((⟨[2, 7], ⟨3⟩⟩ : MiMC 11).toBlockCipher.encrypt k x >>=
      (⟨[2, 7], ⟨3⟩⟩ : MiMC 11).toBlockCipher.decrypt k) (fun z w => z.eval w = x.eval w) :=
  (C57_inverse_enforced mimc11 k x).1

example : mimc [(2 : Elem 11), 7] 4 5 = 9 ∧ MiMC.new [(2 : Elem 13), 7] = none := by
  refine ⟨by decide, ?_⟩
  cases h : MiMC.new [(2 : Elem 13), 7] with
  | none => rfl
  | some c => exact absurd (MiMC.new_eq_some h).2.1 (by decide)

/-! ## C58: compression functions -/

/-- C58: Davies-Meyer, for every cipher gadget implementing `E key block`. -/
theorem C58_davies_meyer {cipher : BlockCipher p} {E : Elem p → Elem p → Elem p} :
    (Enforced2 cipher.encrypt E →
      Enforced2 (daviesMeyer cipher).compress fun x y => E y x + x) ∧
    (Computed2 cipher.encrypt E →
      Computed2 (daviesMeyer cipher).compress fun x y => E y x + x) := by
  refine ⟨fun h x y => ?_, fun h s x y hx hy => ?_⟩
  · exact (h y x).bind fun e => Enforces.pure fun w _ he => by rw [eval_add, he]
  · exact Comp.computes ((h.comp hy hx).bind fun e s1 l1 ⟨D1, sc1, v1⟩ =>
      Comp.pure ⟨D1, sc1.add (l1.scoped hx), by rw [eval_add, v1, l1.eval hx]⟩)

/-- C58: Miyaguchi-Preneel. -/
theorem C58_miyaguchi_preneel {cipher : BlockCipher p} {E : Elem p → Elem p → Elem p} :
    (Enforced2 cipher.encrypt E →
      Enforced2 (miyaguchiPreneel cipher).compress fun x y => E x y + x + y) ∧
    (Computed2 cipher.encrypt E →
      Computed2 (miyaguchiPreneel cipher).compress fun x y => E x y + x + y) := by
  refine ⟨fun h x y => ?_, fun h s x y hx hy => ?_⟩
  · exact (h x y).bind fun e => Enforces.pure fun w _ he => by rw [eval_add, eval_add, he]
  · exact Comp.computes ((h.comp hx hy).bind fun e s1 l1 ⟨D1, sc1, v1⟩ =>
      Comp.pure ⟨D1, (sc1.add (l1.scoped hx)).add (l1.scoped hy),
        by rw [eval_add, eval_add, v1, l1.eval hx, l1.eval hy]⟩)

/-- Davies-Meyer over MiMC in the field of order 11. -/
def dm11 : CompressionFunction 11 := daviesMeyer (MiMC.toBlockCipher ⟨[2, 7], ⟨3⟩⟩)

/-- The function it implements. -/
def dm11Fn (x y : Elem 11) : Elem 11 := mimc [2, 7] y x + x

theorem dm11_enforced : Enforced2 dm11.compress dm11Fn :=
  C58_davies_meyer.1 (C57_encrypt mimc11).1

theorem dm11_computed : Computed2 dm11.compress dm11Fn :=
  C58_davies_meyer.2 (C57_encrypt mimc11).2

example : Enforced2 (miyaguchiPreneel (MiMC.toBlockCipher ⟨[2, 7], ⟨3⟩⟩)).compress
    fun x y => mimc [(2 : Elem 11), 7] x y + x + y := C58_miyaguchi_preneel.1 (C57_encrypt mimc11).1

/-! ## C59: Merkle-Damgård -/

/-- C59: in every satisfying assignment the digest is the Merkle-Damgård hash of the blocks. -/
theorem C59_hash_enforced (h : MerkleDamgard p) {c : Elem p → Elem p → Elem p}
    (hc : Enforced2 h.compress.compress c) (blocks : List (Expression p)) :
    Enforces (h.hash blocks) fun z w =>
      z.eval w = merkleDamgardHash h.initialValue c (values w blocks) := by
  unfold MerkleDamgard.hash
  refine (h.enforces_absorb hc blocks _).bind fun y =>
    (Enforces.ofOption (Q := fun len w => w ONE = 1 → len.eval w = (blocks.length : Elem p))
      fun len hl w _ h1 => ?_).bind fun len => (hc y len).mono fun z w h1 hz hlen hy => ?_
  · by_cases hb : blocks.length < p
    · rw [Expression.ofNat?_eq hb] at hl
      injection hl with hl
      rw [← hl, eval_ofElem h1]
    · rw [Expression.ofNat?_eq_none (by omega)] at hl
      cases hl
  · rw [hz, hy, hlen h1, eval_ofElem h1, merkleDamgardHash, List.length_map]

/-- C59: honest execution computes the hash of fewer than `p` blocks; more blocks panic. -/
theorem C59_hash_computed (h : MerkleDamgard p) {c : Elem p → Elem p → Elem p}
    (hc : Computed2 h.compress.compress c) (s : Hon p) {blocks : List (Expression p)}
    (hb : ListScoped s.next blocks) :
    (blocks.length < p → Computes (h.hash blocks) s fun z s' => z.Scoped s'.next ∧
      z.eval s'.W = merkleDamgardHash h.initialValue c (values s.W blocks)) ∧
    (p ≤ blocks.length → h.hash blocks s.b = none) := by
  constructor
  · intro hl
    unfold MerkleDamgard.hash
    refine Comp.computes ((h.comp_absorb hc blocks hb (.ofElem s.pos _)).bind
      fun y s1 l1 ⟨D1, sc1, v1⟩ => ?_)
    refine Comp.ofOption_bind (Expression.ofNat?_eq hl) ?_
    refine (hc.comp sc1 (.ofElem s1.pos _)).mono fun z s2 l2 ⟨D2, sc2, v2⟩ =>
      ⟨by rw [D2, D1], sc2, ?_⟩
    rw [v2, v1, eval_ofElem s1.one, eval_ofElem s.one, merkleDamgardHash, List.length_map]
  · intro hl
    unfold MerkleDamgard.hash
    cases hr : h.absorb blocks (Expression.ofElem h.initialValue) s.b with
    | none => exact B.bind_eq_none hr
    | some r =>
      rw [B.bind_eq hr, Expression.ofNat?_eq_none hl]
      rfl

/-- C59: two different messages (each shorter than the order) with the same digest yield two
different inputs of the compression function with the same image, among those on which it is
evaluated while the two messages are hashed. -/
theorem C59_collision {iv : Elem p} {c : Elem p → Elem p → Elem p} {m1 m2 : List (Elem p)}
    (h1 : m1.length < p) (h2 : m2.length < p) (hne : m1 ≠ m2)
    (h : merkleDamgardHash iv c m1 = merkleDamgardHash iv c m2) :
    CollisionAmong c (hashCalls iv c m1) (hashCalls iv c m2) := by
  unfold hashCalls
  rw [foldCalls_append, foldCalls_append]
  by_cases he : (m1.foldl c iv, (m1.length : Elem p)) = (m2.foldl c iv, (m2.length : Elem p))
  · injection he with e1 e2
    have hl : m1.length = m2.length := by
      have := congrArg Elem.n e2
      rwa [Elem.natCast_n_of_lt h1, Elem.natCast_n_of_lt h2] at this
    rcases foldl_collision m1 m2 iv iv hl e1 with ⟨-, g⟩ | g
    · exact absurd g hne
    · exact g.mono (fun _ => List.mem_append_left _) fun _ => List.mem_append_left _
  · exact ⟨_, List.mem_append_right _ List.mem_cons_self, _,
      List.mem_append_right _ List.mem_cons_self, he, h⟩

/-- C59 on circuits: if two digests are asserted to be equal, then in every satisfying assignment
the messages are equal or hashing them meets a collision of the compression function. -/
theorem C59_binding (h : MerkleDamgard p) {c : Elem p → Elem p → Elem p}
    (hc : Enforced2 h.compress.compress c) {m1 m2 : List (Expression p)} (h1 : m1.length < p)
    (h2 : m2.length < p) :
    Enforces (do
      let d1 ← h.toHashFunction.hash m1
      let d2 ← h.toHashFunction.hash m2
      B.assertEqual d1 d2) fun _ w => values w m1 = values w m2 ∨
        CollisionAmong c (hashCalls h.initialValue c (values w m1))
          (hashCalls h.initialValue c (values w m2)) := by
  refine (C59_hash_enforced h hc m1).bind fun d1 => (C59_hash_enforced h hc m2).bind fun d2 =>
    (Enforces.assertEqual d1 d2).mono fun _ w _ he e2 e1 => ?_
  by_cases hne : values w m1 = values w m2
  · exact Or.inl hne
  · refine Or.inr (C59_collision (by rwa [List.length_map]) (by rwa [List.length_map]) hne ?_)
    rw [← e1, ← e2, he]

example : Enforces ((⟨3, dm11⟩ : MerkleDamgard 11).hash [0, 1, 1]) fun z w =>
    z.eval w = merkleDamgardHash 3 dm11Fn (values w [0, 1, 1]) :=
  C59_hash_enforced (⟨3, dm11⟩ : MerkleDamgard 11) dm11_enforced _

example : Computes ((⟨3, dm11⟩ : MerkleDamgard 11).hash [0, 1, 1]) (freeHon 11 1 (by decide))
    fun z s' => z.eval s'.W = merkleDamgardHash 3 dm11Fn [0, 1, 1] := by
  refine ((C59_hash_computed (⟨3, dm11⟩ : MerkleDamgard 11) dm11_computed
    (freeHon 11 1 (by decide)) (blocks := [0, 1, 1]) ?_).1 (by decide)).mono fun z s' _ h => ?_
  · intro e he
    simp only [List.mem_cons, List.not_mem_nil, or_false] at he
    rcases he with rfl | rfl | rfl
    · exact .zero
    · exact .one (le_refl _)
    · exact .one (le_refl _)
  · rw [h.2]
    decide

/-- A collision of the hash of the example, and the inputs of the compression function among which
the theorem finds a collision: it is `(6, 1)` and `(7, 1)`. -/
example : merkleDamgardHash 3 dm11Fn [0] = merkleDamgardHash 3 dm11Fn [1] ∧
    hashCalls 3 dm11Fn [0] = [(3, 0), (6, 1)] ∧ hashCalls 3 dm11Fn [1] = [(3, 1), (7, 1)] := by
  decide

example : CollisionAmong dm11Fn (hashCalls 3 dm11Fn [0]) (hashCalls 3 dm11Fn [1]) :=
  C59_collision (by decide) (by decide) (by decide) (by decide)

/-- Two messages hashed without meeting a collision. -/
example : ¬ CollisionAmong dm11Fn (hashCalls 3 dm11Fn [0]) (hashCalls 3 dm11Fn [2]) := by
  rintro ⟨a, ha, b, hb, hne, he⟩
  have : ∀ a ∈ hashCalls 3 dm11Fn [0], ∀ b ∈ hashCalls 3 dm11Fn [2],
      a ≠ b → dm11Fn a.1 a.2 ≠ dm11Fn b.1 b.2 := by decide
  exact this a ha b hb hne he

/-- Messages beyond the order can collide without a collision of the compression function being
implied; below it the two messages `[0]` and `[0, 0]` of the example do not collide. -/
example : merkleDamgardHash 3 dm11Fn [0] ≠ merkleDamgardHash 3 dm11Fn [0, 0] := by decide

/-! ## C60: Merkle trees -/

/-- C60: `MerklePath::new` panics exactly on a length mismatch. -/
theorem C60_path_new (bits : BinaryExpression p) (siblings : List (Expression p)) :
    (MerklePath.new bits siblings).isSome ↔ bits.bits.length = siblings.length := by
  unfold MerklePath.new
  change Option.isSome (if bits.bits.length = siblings.length then some _ else none) = true ↔ _
  split <;> simp_all

/-- C60: the root is the hash along the path, for all path bits with values 0 and 1. -/
theorem C60_root_enforced {cf : CompressionFunction p} {c : Elem p → Elem p → Elem p}
    (hc : Enforced2 cf.compress c) (leaf : Expression p) (path : MerklePath p) :
    Enforces (B.merkleTreeRoot leaf path cf) fun z w => ∀ bs : List Bool,
      (path.pathBits.bits.map fun b => b.eval w) = bs.map Elem.ofBool →
      z.eval w = pathRoot c (bs.zip (values w path.siblings)) (leaf.eval w) :=
  Enforces.merkleTreeLoop hc _ _ _

/-- C60: honest execution computes that root. -/
theorem C60_root_computed {cf : CompressionFunction p} {c : Elem p → Elem p → Elem p}
    (hc : Computed2 cf.compress c) (s : Hon p) {leaf : Expression p} {path : MerklePath p}
    (hl : leaf.Scoped s.next) (hb : path.pathBits.Scoped s.next)
    (hs : ListScoped s.next path.siblings) {bs : List Bool}
    (hbs : (path.pathBits.bits.map fun b => b.eval s.W) = bs.map Elem.ofBool) :
    Computes (B.merkleTreeRoot leaf path cf) s fun z s' => z.Scoped s'.next ∧
      z.eval s'.W = pathRoot c (bs.zip (values s.W path.siblings)) (leaf.eval s.W) :=
  (Comp.merkleTreeLoop hc _ _ bs hb hs hl hbs).computes

/-- C60: `assert_merkle_tree_membership` can be satisfied only if the purported root is the hash
along the path. -/
theorem C60_membership_enforced {cf : CompressionFunction p} {c : Elem p → Elem p → Elem p}
    (hc : Enforced2 cf.compress c) (leaf root : Expression p) (path : MerklePath p) :
    Enforces (B.assertMerkleTreeMembership leaf root path cf) fun _ w => ∀ bs : List Bool,
      (path.pathBits.bits.map fun b => b.eval w) = bs.map Elem.ofBool →
      root.eval w = pathRoot c (bs.zip (values w path.siblings)) (leaf.eval w) := by
  unfold B.assertMerkleTreeMembership
  refine (C60_root_enforced hc leaf path).bind fun z => (Enforces.assertEqual root z).mono
    fun _ w _ he hz bs hbs => ?_
  rw [he, hz bs hbs]

/-- C60: honest execution accepts if the purported root is right and rejects otherwise. -/
theorem C60_membership_computed {cf : CompressionFunction p} {c : Elem p → Elem p → Elem p}
    (hc : Computed2 cf.compress c) (s : Hon p) {leaf root : Expression p} {path : MerklePath p}
    (hl : leaf.Scoped s.next) (hr : root.Scoped s.next) (hb : path.pathBits.Scoped s.next)
    (hs : ListScoped s.next path.siblings) {bs : List Bool}
    (hbs : (path.pathBits.bits.map fun b => b.eval s.W) = bs.map Elem.ofBool) :
    (root.eval s.W = pathRoot c (bs.zip (values s.W path.siblings)) (leaf.eval s.W) →
      Computes (B.assertMerkleTreeMembership leaf root path cf) s fun _ _ => True) ∧
    (root.eval s.W ≠ pathRoot c (bs.zip (values s.W path.siblings)) (leaf.eval s.W) →
      Rejects (B.assertMerkleTreeMembership leaf root path cf) s) := by
  unfold B.assertMerkleTreeMembership
  have h := (C60_root_computed hc s hl hb hs hbs).comp
  constructor
  · intro he
    refine Comp.computes (h.bind fun z s1 l1 ⟨D1, sc1, v1⟩ => ?_)
    refine (Comp.assertEqual (l1.scoped hr) sc1 (by rw [l1.eval hr, v1, he])).mono
      fun _ s2 l2 ⟨n2, D2, W2⟩ => ⟨by rw [D2, D1], trivial⟩
  · intro he
    refine Comp.rejects (h.mono fun z s1 l1 ⟨D1, sc1, v1⟩ => ⟨D1, s.D_lt, ?_⟩)
    unfold B.assertEqual
    refine Rejects.assertProduct (l1.scoped hr) (.one s1.pos) sc1 ?_
    rw [l1.eval hr, Expression.eval_one s1.one, mul_one, v1]
    exact he

/-- C60: for a tree built from leaves `f 0, f 1, …`, leaf number `i` has a path whose bits are the
bits of `i`, least significant first, and the hash along it is the root. -/
theorem C60_honest_paths (c : Elem p → Elem p → Elem p) (d : ℕ) (f : ℕ → Elem p) {i : ℕ}
    (hi : i < 2 ^ d) :
    ∃ siblings : List (Elem p), siblings.length = d ∧
      pathRoot c (((List.range d).map i.testBit).zip siblings) (f i) =
        (MerkleTree.ofLeaves d f).root c := by
  obtain ⟨up, hup⟩ := MerkleTree.path_ofLeaves c d f i hi
  obtain ⟨h1, h2⟩ := MerkleTree.pathRoot_path c _ _ hup
  rw [List.reverse_reverse] at h2
  refine ⟨up.map (·.2), ?_, ?_⟩
  · have := congrArg List.length h2
    simpa using this
  · rw [← h1, ← h2]
    congr 1
    exact (List.zip_of_prod rfl rfl).symm

/-- C60: two different leaves which verify at the same position against the same root give a
collision of the compression function on the two ways to the root. -/
theorem C60_position_binding {c : Elem p → Elem p → Elem p} {bs : List Bool}
    {sibs1 sibs2 : List (Elem p)} {x y : Elem p} (h1 : sibs1.length = bs.length)
    (h2 : sibs2.length = bs.length)
    (h : pathRoot c (bs.zip sibs1) x = pathRoot c (bs.zip sibs2) y) (hne : x ≠ y) :
    CollisionAmong c (pathCalls c (bs.zip sibs1) x) (pathCalls c (bs.zip sibs2) y) := by
  rcases pathRoot_collision (bs.zip sibs1) (bs.zip sibs2) x y
    ((List.map_fst_zip (by omega)).trans (List.map_fst_zip (by omega)).symm) h with ⟨g, -⟩ | g
  · exact absurd g hne
  · exact g

/-- C60 on circuits: against the root of a tree with leaves `f 0, f 1, …`, a satisfying assignment
can only prove membership of the true leaf `f i` at position `i`, or else its path and the tree
contain a collision of the compression function. -/
theorem C60_tree_binding {cf : CompressionFunction p} {c : Elem p → Elem p → Elem p}
    (hc : Enforced2 cf.compress c) (d : ℕ) (f : ℕ → Elem p) {i : ℕ} (hi : i < 2 ^ d)
    (leaf root : Expression p) {path : MerklePath p} (hd : path.siblings.length = d) :
    Enforces (B.assertMerkleTreeMembership leaf root path cf) fun _ w =>
      (path.pathBits.bits.map fun b => b.eval w) =
        (List.range d).map (fun j => Elem.ofBool (i.testBit j)) →
      root.eval w = (MerkleTree.ofLeaves d f).root c →
      leaf.eval w = f i ∨ CollisionAmong c
        (pathCalls c (((List.range d).map i.testBit).zip (values w path.siblings)) (leaf.eval w))
        ((MerkleTree.ofLeaves d f).calls c) := by
  refine (C60_membership_enforced hc leaf root path).mono fun _ w _ h hb hr => ?_
  obtain ⟨up, hup⟩ := MerkleTree.path_ofLeaves c d f i hi
  obtain ⟨g1, g2⟩ := MerkleTree.pathRoot_path c _ _ hup
  rw [List.reverse_reverse] at g2
  have := h ((List.range d).map i.testBit) (by rw [hb, List.map_map]; rfl)
  rcases pathRoot_collision _ up _ _
    ((List.map_fst_zip (by simp [hd])).trans g2.symm) ((this.symm.trans hr).trans g1.symm) with
    ⟨e, -⟩ | e
  · exact Or.inl e
  · exact Or.inr (e.mono (fun _ => id) (MerkleTree.pathCalls_path c _ _ hup))

/-- A tree of depth 2 over Davies-Meyer-MiMC modulo 11: leaf number 2 with its path. -/
example : pathRoot dm11Fn [(false, 4), (true, dm11Fn 1 2)] 3 =
    (MerkleTree.ofLeaves 2 fun i => ((i + 1 : ℕ) : Elem 11)).root dm11Fn := by decide

example (leaf root : Expression 11) (path : MerklePath 11) (hd : path.siblings.length = 2) :
    Enforces (B.assertMerkleTreeMembership leaf root path dm11) fun _ w =>
      (path.pathBits.bits.map fun b => b.eval w) =
        (List.range 2).map (fun j => Elem.ofBool (Nat.testBit 2 j)) →
      root.eval w = (MerkleTree.ofLeaves 2 fun i => ((i + 1 : ℕ) : Elem 11)).root dm11Fn →
      leaf.eval w = ((2 + 1 : ℕ) : Elem 11) ∨ CollisionAmong dm11Fn
        (pathCalls dm11Fn (((List.range 2).map (Nat.testBit 2)).zip (values w path.siblings))
          (leaf.eval w))
        ((MerkleTree.ofLeaves 2 fun i => ((i + 1 : ℕ) : Elem 11)).calls dm11Fn) :=
  C60_tree_binding dm11_enforced 2 (fun i => ((i + 1 : ℕ) : Elem 11)) (i := 2) (by decide) leaf
    root hd

/-! ## C61: sponges -/

/-- C61: in every satisfying assignment the outputs are those of the sponge over the function
implemented by the permutation gadget. -/
theorem C61_sponge_enforced {m : MultiPermutation p} {r c : ℕ} {sp : Sponge p}
    (hsp : Sponge.new m r c = some sp) {f : List (Elem p) → List (Elem p)}
    (hlen : ∀ xs, xs.length = m.width → (f xs).length = m.width)
    (hf : EnforcedList m.width m.permute f) (inputs : List (Expression p)) (outputLen : ℕ) :
    Enforces (sp.evaluate inputs outputLen) fun zs w =>
      values w zs = spongeOutput f r c (values w inputs) outputLen := by
  unfold Sponge.new at hsp
  split at hsp
  swap
  · cases hsp
  rename_i hw
  injection hsp with hsp
  subst hsp
  unfold Sponge.evaluate
  refine (Enforces.ofOption (Q := fun ch _ => chunks? r inputs = some ch)
    fun a h _ _ => h).bind fun chunks =>
    (Sponge.enforces_absorb hw hf chunks _ _).bind fun st =>
    (Sponge.enforces_squeeze hw hf outputLen outputLen st.1 st.2 st.1).bind fun zs =>
    Enforces.pure fun w h1 hz hst hch => ?_
  obtain ⟨sh, v⟩ := hst ⟨by simp, by simp⟩
  have hz' := hz sh
  have hr : 0 < r ∧ chunks = chunksOf r inputs := by
    unfold chunks? at hch
    split at hch
    · cases hch
    · injection hch with hch
      exact ⟨by omega, hch.symm⟩
  have e0 : values w (List.replicate r (0 : Expression p) ++ List.replicate c 0) =
      List.replicate (r + c) 0 := by
    rw [← List.replicate_add, values, List.map_replicate, eval_zero]
  rw [values, List.map_take]
  change (values w zs).take _ = _
  rw [hz', ← Sponge.take_values_append (w := w) sh, v, e0, hr.2]
  change List.take outputLen (squeezeFn f r _ _ (absorbFn f ((chunksOf r inputs).map
    (List.map fun e => e.eval w)) _) _) = _
  rw [chunksOf_map]
  exact sponge_spec hr.1 (fun xs hx => by rw [hw] at hx ⊢; exact hlen xs hx) (values w inputs)
    outputLen

/-- C61: honest execution computes the sponge for every positive rate; rate 0 panics. -/
theorem C61_sponge_computed {m : MultiPermutation p} {r c : ℕ} {sp : Sponge p}
    (hsp : Sponge.new m r c = some sp) {f : List (Elem p) → List (Elem p)}
    (hlen : ∀ xs, xs.length = m.width → (f xs).length = m.width)
    (hf : ComputedList m.width m.permute f) (s : Hon p) {inputs : List (Expression p)}
    (hi : ListScoped s.next inputs) (outputLen : ℕ) :
    (0 < r → Computes (sp.evaluate inputs outputLen) s fun zs s' =>
      zs.length = outputLen ∧ ListScoped s'.next zs ∧
      values s'.W zs = spongeOutput f r c (values s.W inputs) outputLen) ∧
    (r = 0 → sp.evaluate inputs outputLen s.b = none) := by
  unfold Sponge.new at hsp
  split at hsp
  swap
  · cases hsp
  rename_i hw
  injection hsp with hsp
  subst hsp
  unfold Sponge.evaluate
  constructor
  · intro hr
    have hch : chunks? r inputs = some (chunksOf r inputs) := by
      unfold chunks?
      rw [if_neg (by omega)]
    refine Comp.computes (Comp.ofOption_bind hch ?_)
    have hz : ∀ k, ListScoped s.next (List.replicate k (0 : Expression p)) := by
      intro k e he
      rw [List.eq_of_mem_replicate he]
      exact .zero
    refine (Sponge.comp_absorb (sp := ⟨m, r, c⟩) hw hlen hf _ ⟨by simp, by simp⟩ (hz r) (hz c)
      ?_).bind fun st s1 l1 ⟨D1, sh1, a1, b1, v1⟩ => ?_
    · intro ch hm
      refine ⟨(chunksOf_lengths hr inputs ch hm).2, fun e he => ?_⟩
      have : e ∈ (chunksOf r inputs).flatten := List.mem_flatten.2 ⟨ch, hm, he⟩
      rw [chunksOf_flatten hr] at this
      exact hi e this
    refine (Sponge.comp_squeeze (sp := ⟨m, r, c⟩) hr hw hlen hf outputLen outputLen sh1 a1 b1 a1
      (by omega)).bind fun zs s2 l2 ⟨D2, sc2, v2⟩ => Comp.pure ?_
    have e0 : values s.W (List.replicate r (0 : Expression p) ++ List.replicate c 0) =
        List.replicate (r + c) 0 := by
      rw [← List.replicate_add, values, List.map_replicate, eval_zero]
    have hv : values s2.W (zs.take outputLen) =
        spongeOutput f r c (values s.W inputs) outputLen := by
      rw [values, List.map_take]
      change (values s2.W zs).take _ = _
      rw [v2, ← Sponge.take_values_append (w := s1.W) sh1, v1, e0]
      change List.take outputLen (squeezeFn f r _ _ (absorbFn f ((chunksOf r inputs).map
        (List.map fun e => e.eval s.W)) _) _) = _
      rw [chunksOf_map]
      exact sponge_spec hr (fun xs hx => by rw [hw] at hx ⊢; exact hlen xs hx) (values s.W inputs)
        outputLen
    refine ⟨by rw [D2, D1], ?_, sc2.take _, hv⟩
    have := congrArg List.length hv
    simpa [spongeOutput] using this
  · intro hr
    subst hr
    rfl

/-- C61: there is no padding, so an input and the same input followed by a zero, in the same chunk,
have the same outputs, whatever the permutation. -/
theorem C61_no_padding (f : List (Elem p) → List (Elem p)) {r c : ℕ} {inputs : List (Elem p)}
    (h : ¬ r ∣ inputs.length) (outputLen : ℕ) :
    spongeOutput f r c (inputs ++ [0]) outputLen = spongeOutput f r c inputs outputLen := by
  have hr : r ≠ 1 := fun h1 => h (h1 ▸ one_dvd _)
  have hst : ∀ i, spongeState f r c (inputs ++ [0]) i = spongeState f r c inputs i := by
    intro i
    induction i with
    | zero => rfl
    | succ i ih =>
      unfold spongeState
      rw [ih]
      congr 1
      refine List.map_congr_left fun j _ => ?_
      congr 2
      simp only [List.getD_eq_getElem?_getD]
      rcases Nat.lt_trichotomy (i * r + j) inputs.length with hlt | heq | hgt
      · rw [List.getElem?_append_left hlt]
      · rw [heq, List.getElem?_append_right (le_refl _), Nat.sub_self,
          List.getElem?_eq_none (l := inputs) (le_refl _)]
        rfl
      · rw [List.getElem?_eq_none (by simp; omega), List.getElem?_eq_none (by omega)]
  have hk : ((inputs ++ [0]).length + r - 1) / r = (inputs.length + r - 1) / r := by
    rw [List.length_append, List.length_singleton]
    rcases Nat.eq_zero_or_pos r with h0 | h0
    · rw [h0, Nat.div_zero, Nat.div_zero]
    · have hm : 0 < inputs.length % r := Nat.pos_of_ne_zero fun h' => h (Nat.dvd_of_mod_eq_zero h')
      have hd := Nat.div_add_mod inputs.length r
      have hlt := Nat.mod_lt inputs.length h0
      set q := inputs.length / r
      set t := inputs.length % r
      have e1 : inputs.length + 1 + r - 1 = t + r * (q + 1) := by rw [Nat.mul_succ]; omega
      have e2 : inputs.length + r - 1 = (t - 1) + r * (q + 1) := by rw [Nat.mul_succ]; omega
      rw [e1, e2, Nat.add_mul_div_left _ _ h0, Nat.add_mul_div_left _ _ h0, Nat.div_eq_of_lt hlt,
        Nat.div_eq_of_lt (by omega)]
  unfold spongeOutput
  rw [hk, hst]

/-- A permutation gadget of width 3, used as an example: rotate, and cube the first element. -/
def rotate11 : MultiPermutation 11 where
  width := 3
  permute xs := match xs with
    | [a, b, c] => do
      let a3 ← B.exponentiation a 3
      return [b, c, a3]
    | _ => B.panic
  inverse _ := B.panic

/-- The function it implements. -/
def rotate11Fn : List (Elem 11) → List (Elem 11)
  | [a, b, c] => [b, c, a ^ 3]
  | _ => []

theorem rotate11_enforced : EnforcedList 3 rotate11.permute rotate11Fn := by
  intro xs
  match xs with
  | [a, b, c] =>
    exact (Enforces.exponentiation a 3).bind fun z => Enforces.pure fun w _ h _ => by
      simp only [values, List.map_cons, List.map_nil, rotate11Fn, h]
      rfl
  | [] => exact Enforces.panic
  | [_] => exact Enforces.panic
  | [_, _] => exact Enforces.panic
  | _ :: _ :: _ :: _ :: _ => exact Enforces.panic

theorem rotate11_computed : ComputedList 3 rotate11.permute rotate11Fn := by
  intro s xs hl hx
  match xs, hl, hx with
  | [a, b, c], _, hx =>
    have ha := hx a (by simp)
    have hb := hx b (by simp)
    have hc := hx c (by simp)
    refine Comp.computes ((Comp.exponentiation ha 3).bind fun z s1 l1 ⟨D1, sc1, v1⟩ =>
      Comp.pure ⟨D1, ?_, ?_⟩)
    · intro e he
      simp only [List.mem_cons, List.not_mem_nil, or_false] at he
      rcases he with rfl | rfl | rfl
      · exact l1.scoped hb
      · exact l1.scoped hc
      · exact sc1
    · simp only [values, List.map_cons, List.map_nil, rotate11Fn, v1, l1.eval hb, l1.eval hc]
      rfl

theorem rotate11_length (xs : List (Elem 11)) (h : xs.length = 3) :
    (rotate11Fn xs).length = 3 := by
  match xs, h with
  | [a, b, c], _ => rfl

example (xs : List (Expression 11)) : Enforces ((⟨rotate11, 2, 1⟩ : Sponge 11).evaluate xs 5)
    fun zs w => values w zs = spongeOutput rotate11Fn 2 1 (values w xs) 5 :=
  C61_sponge_enforced (m := rotate11) (r := 2) (c := 1) rfl rotate11_length rotate11_enforced xs 5

example : spongeOutput rotate11Fn 2 1 [1, 2, 3] 5 = [0, 1, 1, 4, 4] := by decide

example : spongeOutput rotate11Fn 2 1 [1, 2, 3] 5 = spongeOutput rotate11Fn 2 1 [1, 2, 3, 0] 5 :=
  (C61_no_padding rotate11Fn (inputs := [1, 2, 3]) (by decide) 5).symm

/-! ## C71: the stand-alone evaluation helpers -/

/-- The state of a new builder. -/
def newHon (p : ℕ) [Fact p.Prime] : Hon p where
  b := Builder.new
  D := []
  W := fun _ => 1
  ok := ⟨rfl, le_refl _, by simp [Builder.new], [], rfl, by simp, by simp [Builder.new]⟩

theorem newHon_one : (newHon p).W ONE = 1 := rfl

theorem newHon_inputs {s : Hon p} (h : s.D = []) : s.Inputs WireValues.new := by
  refine ⟨by simp [WireValues.new], by simp [h], fun i _ hi _ => ?_⟩
  simp [WireValues.new, hi]

theorem evaluateGadget_eq {α β : Type} {m : B p α} {ev : α → WireValues p → Option β} {y : β}
    {Q : α → Hon p → Prop} (h : Computes m (newHon p) Q)
    (hev : ∀ a (s : Hon p) v, Q a s → (∀ i < s.next, v i = some (s.W i)) → ev a v = some y) :
    evaluateGadget m ev = some y := by
  obtain ⟨a, s', hm, -, hD, hex, hq⟩ := h
  obtain ⟨v', hv, hw, -⟩ := hex _ (newHon_inputs hD)
  unfold evaluateGadget
  change m Builder.new = _ at hm
  rw [hm]
  simp only [Option.bind_eq_bind, Option.bind_some]
  rw [hv]
  exact hev a s' v' hq hw

theorem evaluateGadget_expression {m : B p (Expression p)} {y : Elem p}
    (h : Computes m (newHon p) fun z s' => z.Scoped s'.next ∧ z.eval s'.W = y) :
    evaluateGadget m Expression.evaluate = some y :=
  evaluateGadget_eq h fun a s v hq hv => by
    rw [Expression.evaluate_eq (w := s.W) fun i hi => hv i (hq.1 i hi), hq.2]

theorem mapM_evaluate_list {w : Assign p} {v : WireValues p} : ∀ (es : List (Expression p)),
    (∀ e ∈ es, ∀ i ∈ e.dependencies, v i = some (w i)) →
    (es.mapM fun e => e.evaluate v) = some (values w es)
  | [], _ => rfl
  | e :: es, h => by
    rw [List.mapM_cons, Expression.evaluate_eq (w := w) (h e (by simp)),
      mapM_evaluate_list es fun e' he' => h e' (by simp [he'])]
    rfl

theorem evaluateGadget_list {m : B p (List (Expression p))} {ys : List (Elem p)}
    (h : Computes m (newHon p) fun zs s' => ListScoped s'.next zs ∧ values s'.W zs = ys) :
    evaluateGadget m evaluateList = some ys :=
  evaluateGadget_eq h fun a s v hq hv => by
    unfold evaluateList
    rw [mapM_evaluate_list (w := s.W) a fun e he i hi => hv i (hq.1 e he i hi), hq.2]

/-- C71: `encrypt_evaluate` and `decrypt_evaluate`. -/
theorem C71_block_cipher {c : BlockCipher p} {E : Elem p → Elem p → Elem p} (k x : Elem p) :
    (Computed2 c.encrypt E → c.encryptEvaluate k x = some (E k x)) ∧
    (Computed2 c.decrypt E → c.decryptEvaluate k x = some (E k x)) := by
  constructor <;>
  · intro h
    have := h (newHon p) (.ofElem k) (.ofElem x) (.ofElem (le_refl _) k) (.ofElem (le_refl _) x)
    rw [eval_ofElem newHon_one, eval_ofElem newHon_one] at this
    exact evaluateGadget_expression this

/-- C71: `compress_evaluate`. -/
theorem C71_compression_function {c : CompressionFunction p} {f : Elem p → Elem p → Elem p}
    (h : Computed2 c.compress f) (x y : Elem p) : c.compressEvaluate x y = some (f x y) := by
  have := h (newHon p) (.ofElem x) (.ofElem y) (.ofElem (le_refl _) x) (.ofElem (le_refl _) y)
  rw [eval_ofElem newHon_one, eval_ofElem newHon_one] at this
  exact evaluateGadget_expression this

/-- C71: `permute_evaluate` and `inverse_evaluate`. -/
theorem C71_permutation {m : Permutation p} {f : Elem p → Elem p} (x : Elem p) :
    (Computed1 m.permute f → m.permuteEvaluate x = some (f x)) ∧
    (Computed1 m.inverse f → m.inverseEvaluate x = some (f x)) := by
  constructor <;>
  · intro h
    have := h (newHon p) (.ofElem x) (.ofElem (le_refl _) x)
    rw [eval_ofElem newHon_one] at this
    exact evaluateGadget_expression this

/-- C71: `permute_evaluate` and `inverse_evaluate` of permutations of several elements. -/
theorem C71_multi_permutation {m : MultiPermutation p} {f : List (Elem p) → List (Elem p)}
    {xs : List (Elem p)} (hl : xs.length = m.width) :
    (ComputedList m.width m.permute f → m.permuteEvaluate xs = some (f xs)) ∧
    (ComputedList m.width m.inverse f → m.inverseEvaluate xs = some (f xs)) := by
  constructor <;>
  · intro h
    have := h (newHon p) (xs.map Expression.ofElem) (by simpa using hl) (.map_ofElem (le_refl _) xs)
    rw [values_ofElem newHon_one] at this
    exact evaluateGadget_list this

/-- C71: `hash_evaluate`, for a hash gadget which computes `f` on messages of this length. -/
theorem C71_hash_function {h : HashFunction p} {f : List (Elem p) → Elem p} {xs : List (Elem p)}
    (hh : ∀ (s : Hon p) (es : List (Expression p)), es.length = xs.length → ListScoped s.next es →
      Computes (h.hash es) s fun z s' => z.Scoped s'.next ∧ z.eval s'.W = f (values s.W es)) :
    h.hashEvaluate xs = some (f xs) := by
  have := hh (newHon p) (xs.map Expression.ofElem) (by simp) (.map_ofElem (le_refl _) xs)
  rw [values_ofElem newHon_one] at this
  exact evaluateGadget_expression this

/-- C71: the helpers applied to the gadgets of the library. -/
theorem C71_library {cs : List (Elem p)} {c : MiMC p} (hc : MiMC.new cs = some c)
    (iv k x y : Elem p) {blocks : List (Elem p)} (hb : blocks.length < p) :
    c.toBlockCipher.encryptEvaluate k x = some (mimc cs k x) ∧
    c.toBlockCipher.decryptEvaluate k (mimc cs k x) = some x ∧
    c.toPermutation.permuteEvaluate x = some (mimc cs 0 x) ∧
    c.toPermutation.inverseEvaluate (mimc cs 0 x) = some x ∧
    (daviesMeyer c.toBlockCipher).compressEvaluate x y = some (mimc cs y x + x) ∧
    (miyaguchiPreneel c.toBlockCipher).compressEvaluate x y = some (mimc cs x y + x + y) ∧
    (MerkleDamgard.mk iv (daviesMeyer c.toBlockCipher)).toHashFunction.hashEvaluate blocks =
      some (merkleDamgardHash iv (fun x y => mimc cs y x + x) blocks) := by
  obtain ⟨h, hco, -, -⟩ := MiMC.new_eq_some hc
  have hE := (C57_encrypt hc).2
  have hdec : ∀ k z : Elem p, c.toBlockCipher.decryptEvaluate k (mimc cs k z) = some z := by
    intro k z
    refine evaluateGadget_expression ((C57_decrypt_computed hc (newHon p) (.ofElem (le_refl _) k)
      (.ofElem (le_refl _) (mimc cs k z))).mono fun y s' _ hy => ⟨hy.1, ?_⟩)
    rw [eval_ofElem newHon_one, eval_ofElem newHon_one] at hy
    exact mimc_injective h hco _ _ hy.2
  refine ⟨(C71_block_cipher k x).1 hE, hdec k x, (C71_permutation x).1 (C57_permutation hc).2.1,
    ?_, C71_compression_function (C58_davies_meyer.2 hE) x y,
    C71_compression_function (C58_miyaguchi_preneel.2 hE) x y, C71_hash_function ?_⟩
  · refine evaluateGadget_expression ((C57_decrypt_computed hc (newHon p) .zero
      (.ofElem (le_refl _) (mimc cs 0 x))).mono fun y s' _ hy => ⟨hy.1, ?_⟩)
    rw [eval_zero, eval_ofElem newHon_one] at hy
    exact mimc_injective h hco _ _ hy.2
  · intro s es hl hes
    exact (C59_hash_computed _ (C58_davies_meyer.2 hE) s hes).1 (by omega)

example : (MiMC.mk [2, 7] ⟨3⟩ : MiMC 11).toBlockCipher.encryptEvaluate 4 5 = some 9 :=
  (C71_block_cipher (4 : Elem 11) 5).1 (C57_encrypt mimc11).2

example : rotate11.permuteEvaluate [2, 5, 6] = some [5, 6, 8] :=
  (C71_multi_permutation (m := rotate11) (xs := [2, 5, 6]) rfl).1 rotate11_computed

end R1CS
