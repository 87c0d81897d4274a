import Verif.Props.Hashes

/-!
# C96: what the hash constructions allow without collisions

Length extension of Merkle-Damgård, inner nodes as leaves of Merkle trees, fixed points of
Davies-Meyer.
-/

set_option linter.unusedSectionVars false

namespace R1CS

variable {p : ℕ} [hp : Fact p.Prime]

/-! ## Length extension -/

/-- C96: the digest of a message, its length and further blocks can be calculated from the digest
and the length of the message: the message itself is not needed. -/
theorem C96_extension (iv : Elem p) (c : Elem p → Elem p → Elem p) (m m' : List (Elem p)) :
    merkleDamgardHash iv c (m ++ (m.length : Elem p) :: m') =
      c (m'.foldl c (merkleDamgardHash iv c m)) ((m.length + 1 + m'.length : ℕ) : Elem p) := by
  unfold merkleDamgardHash
  rw [List.foldl_append, List.foldl_cons, List.length_append, List.length_cons]
  congr 2
  omega

/-- C96 on circuits: the digests of a message and of such an extension of it are related like this
in every satisfying assignment. -/
theorem C96_extension_circuit (h : MerkleDamgard p) {c : Elem p → Elem p → Elem p}
    (hc : Enforced2 h.compress.compress c) (m m' : List (Expression p)) (n : Expression p) :
    Enforces (do
      let d ← h.toHashFunction.hash m
      let d' ← h.toHashFunction.hash (m ++ n :: m')
      return (d, d')) fun ds w => n.eval w = (m.length : Elem p) →
        ds.2.eval w =
          c ((values w m').foldl c (ds.1.eval w)) ((m.length + 1 + m'.length : ℕ) : Elem p) := by
  refine (C59_hash_enforced h hc m).bind fun d => (C59_hash_enforced h hc _).bind fun d' =>
    Enforces.pure fun w _ h' hd hn => ?_
  have e : values w (m ++ n :: m') =
      values w m ++ ((values w m).length : Elem p) :: values w m' := by
    rw [values, List.map_append, List.map_cons, hn, List.length_map]
  rw [h', e, C96_extension, hd, List.length_map, List.length_map]

/-- The digest of `[5, 6, 2, 8]` follows from that of `[5, 6]`. -/
example : merkleDamgardHash 3 dm11Fn ([5, 6] ++ ((([5, 6] : List (Elem 11)).length : ℕ) : Elem 11) :: [8])
    = dm11Fn (dm11Fn (merkleDamgardHash 3 dm11Fn [5, 6]) 8) 4 :=
  C96_extension 3 dm11Fn [5, 6] [8]

example (x y : Expression 11) : Enforces (do
    let d ← (⟨3, dm11⟩ : MerkleDamgard 11).toHashFunction.hash [x]
    let d' ← (⟨3, dm11⟩ : MerkleDamgard 11).toHashFunction.hash ([x] ++ 1 :: [y])
    return (d, d')) fun ds w => (1 : Expression 11).eval w = ((1 : ℕ) : Elem 11) →
      ds.2.eval w = dm11Fn (dm11Fn (ds.1.eval w) (y.eval w)) ((3 : ℕ) : Elem 11) :=
  C96_extension_circuit (⟨3, dm11⟩ : MerkleDamgard 11) dm11_enforced [x] [y] 1

/-! ## Inner nodes as leaves -/

/-- C96: the root of a tree of depth `k + e` is the root of the tree of depth `k` which has the
nodes at that depth as leaves: two lists of leaves with the same root and no collision. -/
theorem C96_inner_leaves (c : Elem p → Elem p → Elem p) (k e : ℕ) (f : ℕ → Elem p) :
    (MerkleTree.ofLeaves (k + e) f).root c = (MerkleTree.ofLeaves k fun i =>
      (MerkleTree.ofLeaves e fun j => f (i * 2 ^ e + j)).root c).root c := by
  induction k generalizing f with
  | zero => simp [MerkleTree.ofLeaves, MerkleTree.root]
  | succ k ih =>
    rw [Nat.add_right_comm, MerkleTree.ofLeaves, MerkleTree.ofLeaves, MerkleTree.root,
      MerkleTree.root, ih, ih]
    congr 4
    funext i
    congr 2
    funext j
    congr 1
    rw [pow_add]
    ring

/-- C96 on circuits: for every node at depth `k` of a tree of depth `k + e` there is a path of
length `k` with which `assert_merkle_tree_membership` accepts the hash at that node as a leaf. -/
theorem C96_inner_accepted {cf : CompressionFunction p} {c : Elem p → Elem p → Elem p}
    (hc : Computed2 cf.compress c) (k e : ℕ) (f : ℕ → Elem p) {i : ℕ} (hi : i < 2 ^ k) :
    ∃ siblings : List (Elem p), siblings.length = k ∧
      ∀ (s : Hon p) (leaf root : Expression p) (path : MerklePath p), leaf.Scoped s.next →
        root.Scoped s.next → path.pathBits.Scoped s.next → ListScoped s.next path.siblings →
        (path.pathBits.bits.map fun b => b.eval s.W) =
          (List.range k).map (fun j => Elem.ofBool (i.testBit j)) →
        values s.W path.siblings = siblings →
        root.eval s.W = (MerkleTree.ofLeaves (k + e) f).root c →
        leaf.eval s.W = (MerkleTree.ofLeaves e fun j => f (i * 2 ^ e + j)).root c →
        Computes (B.assertMerkleTreeMembership leaf root path cf) s fun _ _ => True := by
  obtain ⟨sibs, hl, hr⟩ := C60_honest_paths c k (fun i =>
    (MerkleTree.ofLeaves e fun j => f (i * 2 ^ e + j)).root c) hi
  refine ⟨sibs, hl, fun s leaf root path h1 h2 h3 h4 hb hs hroot hleaf => ?_⟩
  refine (C60_membership_computed hc s h1 h2 h3 h4 (bs := (List.range k).map i.testBit)
    (by rw [hb, List.map_map]; rfl)).1 ?_
  rw [hs, hroot, hleaf, hr, C96_inner_leaves]

/-- C96: this is all that can be confused.  If a path from `x` and a longer one from `y`, whose last
turns are those of the first, lead to the same root, then `x` is the hash that the longer one
reaches at that depth and the siblings from there on are the same, or there is a collision of the
compression function on the two paths. -/
theorem C96_only_inner {c : Elem p → Elem p → Elem p} {path low high : List (Bool × Elem p)}
    {x y : Elem p} (ht : path.map (·.1) = high.map (·.1))
    (h : pathRoot c path x = pathRoot c (low ++ high) y) :
    (x = pathRoot c low y ∧ path = high) ∨
      CollisionAmong c (pathCalls c path x) (pathCalls c (low ++ high) y) := by
  rw [pathRoot_append] at h
  rcases pathRoot_collision path high x _ ht h with h | h
  · exact Or.inl h
  · refine Or.inr (h.mono (fun _ => id) fun a ha => ?_)
    rw [MerkleTree.pathCalls_append]
    exact List.mem_append_right _ ha

/-- C96 on circuits: against the root of a tree of depth `k + e` a path of length `k` proves nothing
but the hash at the node which its turns lead to, or its calls and those of the tree contain a
collision. -/
theorem C96_inner_binding {cf : CompressionFunction p} {c : Elem p → Elem p → Elem p}
    (hc : Enforced2 cf.compress c) (k e : ℕ) (f : ℕ → Elem p) {i : ℕ} (hi : i < 2 ^ k)
    (leaf root : Expression p) {path : MerklePath p} (hd : path.siblings.length = k) :
    Enforces (B.assertMerkleTreeMembership leaf root path cf) fun _ w =>
      (path.pathBits.bits.map fun b => b.eval w) =
        (List.range k).map (fun j => Elem.ofBool (i.testBit j)) →
      root.eval w = (MerkleTree.ofLeaves (k + e) f).root c →
      leaf.eval w = (MerkleTree.ofLeaves e fun j => f (i * 2 ^ e + j)).root c ∨ CollisionAmong c
        (pathCalls c (((List.range k).map i.testBit).zip (values w path.siblings)) (leaf.eval w))
        ((MerkleTree.ofLeaves (k + e) f).calls c) := by
  refine (C60_tree_binding hc k (fun i => (MerkleTree.ofLeaves e fun j =>
    f (i * 2 ^ e + j)).root c) hi leaf root hd).mono fun _ w _ h hb hr => ?_
  rcases h hb (hr.trans (C96_inner_leaves c k e f)) with g | g
  · exact Or.inl g
  · refine Or.inr (g.mono (fun _ => id) ?_)
    clear g h hb hr hd hi
    induction k generalizing f with
    | zero => simp [MerkleTree.ofLeaves, MerkleTree.calls]
    | succ k ih =>
      rw [Nat.add_right_comm, MerkleTree.ofLeaves, MerkleTree.ofLeaves, MerkleTree.calls,
        MerkleTree.calls]
      have e2 : (fun i => (MerkleTree.ofLeaves e fun j => f ((2 ^ k + i) * 2 ^ e + j)).root c) =
          fun i => (MerkleTree.ofLeaves e fun j =>
            (fun l => f (2 ^ (k + e) + l)) (i * 2 ^ e + j)).root c := by
        funext i
        congr 2
        funext j
        dsimp only
        congr 1
        rw [pow_add]
        ring
      rw [e2, ← C96_inner_leaves c k e f, ← C96_inner_leaves c k e fun l => f (2 ^ (k + e) + l)]
      intro a ha
      rcases List.mem_cons.1 ha with ha | ha
      · exact List.mem_cons.2 (Or.inl ha)
      · refine List.mem_cons_of_mem _ ?_
        rcases List.mem_append.1 ha with ha | ha
        · exact List.mem_append_left _ (ih f a ha)
        · exact List.mem_append_right _ (ih _ a ha)

/-- The tree with leaves 1, 2, 3, 4 and the tree whose leaves are its inner nodes. -/
example : (MerkleTree.ofLeaves (1 + 1) fun i => ((i + 1 : ℕ) : Elem 11)).root dm11Fn =
    (MerkleTree.ofLeaves 1 fun i => if i = 0 then dm11Fn 1 2 else dm11Fn 3 4).root dm11Fn ∧
    dm11Fn 1 2 ≠ 1 := by decide

/-- A circuit of depth 1 accepts the right inner node of the tree of depth 2. -/
example : ∃ siblings : List (Elem 11), siblings.length = 1 ∧
    ∀ (s : Hon 11) (leaf root : Expression 11) (path : MerklePath 11), leaf.Scoped s.next →
      root.Scoped s.next → path.pathBits.Scoped s.next → ListScoped s.next path.siblings →
      (path.pathBits.bits.map fun b => b.eval s.W) =
        (List.range 1).map (fun j => Elem.ofBool (Nat.testBit 1 j)) →
      values s.W path.siblings = siblings →
      root.eval s.W = (MerkleTree.ofLeaves (1 + 1) fun i => ((i + 1 : ℕ) : Elem 11)).root dm11Fn →
      leaf.eval s.W = (MerkleTree.ofLeaves 1 fun j =>
        ((1 * 2 ^ 1 + j + 1 : ℕ) : Elem 11)).root dm11Fn →
      Computes (B.assertMerkleTreeMembership leaf root path dm11) s fun _ _ => True :=
  C96_inner_accepted dm11_computed 1 1 (fun i => ((i + 1 : ℕ) : Elem 11)) (i := 1) (by decide)

/-- Paths of lengths 1 and 2 with the same root. -/
example : pathRoot dm11Fn [(true, dm11Fn 1 2)] (dm11Fn 3 4) =
    pathRoot dm11Fn ([(false, 4)] ++ [(true, dm11Fn 1 2)]) 3 := by decide

example (leaf root : Expression 11) (path : MerklePath 11) (hd : path.siblings.length = 1) :
    Enforces (B.assertMerkleTreeMembership leaf root path dm11) fun _ w =>
      (path.pathBits.bits.map fun b => b.eval w) =
        (List.range 1).map (fun j => Elem.ofBool (Nat.testBit 1 j)) →
      root.eval w = (MerkleTree.ofLeaves (1 + 1) fun i => ((i + 1 : ℕ) : Elem 11)).root dm11Fn →
      leaf.eval w = (MerkleTree.ofLeaves 1 fun j =>
          ((1 * 2 ^ 1 + j + 1 : ℕ) : Elem 11)).root dm11Fn ∨ CollisionAmong dm11Fn
        (pathCalls dm11Fn (((List.range 1).map (Nat.testBit 1)).zip (values w path.siblings))
          (leaf.eval w))
        ((MerkleTree.ofLeaves (1 + 1) fun i => ((i + 1 : ℕ) : Elem 11)).calls dm11Fn) :=
  C96_inner_binding dm11_enforced 1 1 (fun i => ((i + 1 : ℕ) : Elem 11)) (i := 1) (by decide) leaf
    root hd

/-! ## Fixed points -/

/-- C96: for every block, Davies-Meyer over MiMC has exactly one chaining value which that block
leaves unchanged, and decryption yields it. -/
theorem C96_fixed_point {cs : List (Elem p)} {c : MiMC p} (hc : MiMC.new cs = some c)
    (y : Elem p) :
    ∃ x, c.toBlockCipher.decryptEvaluate y 0 = some x ∧ ∀ x',
      (daviesMeyer c.toBlockCipher).compressEvaluate x' y = some x' ↔ x' = x := by
  obtain ⟨h3, hco, -, -⟩ := MiMC.new_eq_some hc
  have : Finite (Elem p) :=
    Finite.of_injective (fun x => (⟨x.n, x.lt⟩ : Fin p)) fun x y h => Elem.ext_n (Fin.mk.inj_iff.1 h)
  obtain ⟨x, hx⟩ := Finite.surjective_of_injective (mimc_injective h3 hco cs y) 0
  have hp0 : ([] : List (Elem p)).length < p := hp.out.pos
  refine ⟨x, ?_, fun x' => ?_⟩
  · have := (C71_library hc 0 y x x hp0).2.1
    rwa [hx] at this
  · rw [(C71_library hc 0 y x' y hp0).2.2.2.2.1, Option.some_inj, add_eq_right]
    exact ⟨fun h => mimc_injective h3 hco cs y (h.trans hx.symm), fun h => h ▸ hx⟩

/-- C96: blocks which leave the chaining value unchanged can be inserted any number of times; only
the block for the length changes. -/
theorem C96_insertion {iv : Elem p} {c : Elem p → Elem p → Elem p} {a : List (Elem p)} {y : Elem p}
    (hy : c (a.foldl c iv) y = a.foldl c iv) (b : List (Elem p)) (n : ℕ) :
    merkleDamgardHash iv c (a ++ List.replicate n y ++ b) =
      c ((a ++ b).foldl c iv) ((a.length + n + b.length : ℕ) : Elem p) := by
  have hr : (List.replicate n y).foldl c (a.foldl c iv) = a.foldl c iv := by
    induction n with
    | zero => rfl
    | succ n ih => rw [List.replicate_succ, List.foldl_cons, hy, ih]
  unfold merkleDamgardHash
  rw [List.foldl_append, List.foldl_append, hr, ← List.foldl_append, List.length_append,
    List.length_append, List.length_replicate]

/-- C96 for the crate's hash over MiMC: with the initial value found by decryption, any number of
copies of the block leaves the state as it is. -/
theorem C96_repeated_block {cs : List (Elem p)} {c : MiMC p} (hc : MiMC.new cs = some c)
    {y iv : Elem p} (hiv : c.toBlockCipher.decryptEvaluate y 0 = some iv) {n : ℕ} (hn : n < p) :
    (MerkleDamgard.mk iv (daviesMeyer c.toBlockCipher)).toHashFunction.hashEvaluate
        (List.replicate n y) =
      (daviesMeyer c.toBlockCipher).compressEvaluate iv (n : Elem p) := by
  obtain ⟨x, hx, hfix⟩ := C96_fixed_point hc y
  rw [hiv] at hx
  injection hx with hx
  have h0 : ([] : List (Elem p)).length < p := hp.out.pos
  have h := (hfix iv).2 hx
  rw [(C71_library hc 0 y iv y h0).2.2.2.2.1, Option.some_inj] at h
  have hl : (List.replicate n y).length < p := by rwa [List.length_replicate]
  rw [(C71_library hc iv y iv y hl).2.2.2.2.2.2, (C71_library hc 0 y iv (n : Elem p) h0).2.2.2.2.1]
  have := C96_insertion (iv := iv) (c := fun x y => mimc cs y x + x) (a := []) h [] n
  simpa using this

/-- Block 10 leaves the value found by decryption unchanged. -/
example : ∃ x, (MiMC.mk [2, 7] ⟨3⟩ : MiMC 11).toBlockCipher.decryptEvaluate 10 0 = some x ∧
    ∀ x', (daviesMeyer (MiMC.mk [2, 7] ⟨3⟩ : MiMC 11).toBlockCipher).compressEvaluate x' 10 =
      some x' ↔ x' = x := C96_fixed_point mimc11 10

/-- It is 7. -/
example : mimc [2, 7] (10 : Elem 11) 7 = 0 ∧
    dm11Fn (([] : List (Elem 11)).foldl dm11Fn 7) 10 = 7 := by decide

example : merkleDamgardHash 7 dm11Fn ([] ++ List.replicate 4 10 ++ [2]) =
    dm11Fn (([] ++ [2] : List (Elem 11)).foldl dm11Fn 7) ((0 + 4 + 1 : ℕ) : Elem 11) :=
  C96_insertion (by decide) [2] 4

example : (MerkleDamgard.mk 7 (daviesMeyer (MiMC.mk [2, 7] ⟨3⟩ : MiMC 11).toBlockCipher)
    ).toHashFunction.hashEvaluate (List.replicate 4 10) =
      (daviesMeyer (MiMC.mk [2, 7] ⟨3⟩ : MiMC 11).toBlockCipher).compressEvaluate 7
        ((4 : ℕ) : Elem 11) := by
  refine C96_repeated_block mimc11 (y := 10) ?_ (by decide)
  have h := (C71_library mimc11 0 10 7 0 (blocks := []) (by decide)).2.1
  rwa [show mimc [2, 7] (10 : Elem 11) 7 = 0 by decide] at h

end R1CS
