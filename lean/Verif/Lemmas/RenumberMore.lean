import Verif.Lemmas.RenumberGadgets

/-!
# Further gadgets under new numbers for the wires (`Spec/Renumber.lean`)
-/

set_option linter.unusedSectionVars false

namespace R1CS

variable {p : ℕ} [hp : Fact p.Prime] {α β γ δ : Type} {r : Renumbering}

theorem mapM_same {f : γ → Option δ} {f' : γ → Option α} {h : δ → α}
    (hf : ∀ x, f' x = (f x).map h) (l : List γ) :
    List.mapM (m := Option) f' l = (List.mapM (m := Option) f l).map (List.map h) := by
  have := mapM_renumber (g := fun x : γ => x) hf l
  rwa [List.map_id'] at this

namespace Alike

variable {x y z x' y' z' : Expression p} {c d c' d' : BooleanExpression p}
  {X Y X' Y' : BinaryExpression p} {xs ys xs' ys' : List (Expression p)}
  {Xs Xs' : List (BinaryExpression p)}

/-! ### Binary and bitwise operations, random access -/

theorem maxSum : B.maxSum (Xs.map (BinaryExpression.renumber r)) = B.maxSum Xs := by
  unfold B.maxSum
  rw [List.foldl_map]
  simp

theorem inputBits : B.inputBits (Xs.map (BinaryExpression.renumber r)) = B.inputBits Xs := by
  unfold B.inputBits
  rw [List.foldl_map]
  simp

theorem binarySummation (h : Xs' = Xs.map (BinaryExpression.renumber r) := by rn) :
    Alike r (BinaryExpression.renumber r) (B.binarySummation Xs) (B.binarySummation Xs') := by
  subst h
  have hj : List.mapM (m := Option) BinaryExpression.join (Xs.map (BinaryExpression.renumber r)) =
      (List.mapM (m := Option) BinaryExpression.join Xs).map (List.map (Expression.renumber r)) :=
    mapM_renumber (fun x => renumber_join x) Xs
  unfold B.binarySummation
  simp only [hj]
  rw [maxSum]
  refine bind (require Iff.rfl) fun _ => bind (binaryWire _) fun w => bind (ofOption rfl) fun js =>
    bind (ofOption (f := Expression.renumber r) ?_) fun _ => ?_
  · rw [← renumber_join, renumber_binaryOfWire]
  · simp only [← renumber_sumOfExpressions]
    exact bind assertEqual fun _ => bind (generator (Cl.summationGen _ _)
      (renumber_dependencies _)) fun _ => pure

theorem binarySummationIgnoringOverflow (h : Xs' = Xs.map (BinaryExpression.renumber r) := by rn) :
    Alike r (BinaryExpression.renumber r) (B.binarySummationIgnoringOverflow Xs)
      (B.binarySummationIgnoringOverflow Xs') := by
  subst h
  unfold B.binarySummationIgnoringOverflow
  rw [inputBits]
  exact bind binarySummation fun _ => ofOption

theorem assertZeros : ∀ cs : List (BinaryExpression p),
    Alike r id (B.assertZeros cs) (B.assertZeros (cs.map (BinaryExpression.renumber r)))
  | [] => pure
  | _ :: cs => bind (ofOption (f := Expression.renumber r)) fun _ => bind assertZero fun _ =>
    assertZeros cs

theorem binaryAssertZero (h : X' = X.renumber r := by rn) :
    Alike r id (B.binaryAssertZero X) (B.binaryAssertZero X') := by
  subst h
  exact bind (f := List.map (BinaryExpression.renumber r)) (ofOption (by simp)) fun _ =>
    assertZeros _

theorem binarySummationAssertingNoOverflow
    (h : Xs' = Xs.map (BinaryExpression.renumber r) := by rn) :
    Alike r (BinaryExpression.renumber r) (B.binarySummationAssertingNoOverflow Xs)
      (B.binarySummationAssertingNoOverflow Xs') := by
  subst h
  unfold B.binarySummationAssertingNoOverflow
  rw [inputBits]
  exact bind binarySummation fun _ => bind (require (by simp)) fun _ => bind binaryAssertZero fun _ => ofOption

theorem notBits : ∀ bs : List (BooleanExpression p),
    Alike r (List.map (BooleanExpression.renumber r)) (B.notBits bs)
      (B.notBits (bs.map (BooleanExpression.renumber r)))
  | [] => pure
  | _ :: bs => bind not fun _ => bind (notBits bs) fun _ => pure

theorem bitwiseNot (h : X' = X.renumber r := by rn) :
    Alike r (BinaryExpression.renumber r) (B.bitwiseNot X) (B.bitwiseNot X') := by
  subst h
  exact bind (notBits _) fun _ => pure

theorem zipBits {op : BooleanExpression p → BooleanExpression p → B p (BooleanExpression p)}
    (h : ∀ x y, Alike r (BooleanExpression.renumber r) (op x y) (op (x.renumber r) (y.renumber r))) :
    ∀ bs cs : List (BooleanExpression p), Alike r (List.map (BooleanExpression.renumber r))
      (B.zipBits op bs cs) (B.zipBits op (bs.map (BooleanExpression.renumber r))
        (cs.map (BooleanExpression.renumber r)))
  | [], _ => pure
  | _ :: _, [] => pure
  | _ :: bs, _ :: cs => bind (h _ _) fun _ => bind (zipBits h bs cs) fun _ => pure

theorem bitwiseAnd (hX : X' = X.renumber r := by rn) (hY : Y' = Y.renumber r := by rn) :
    Alike r (BinaryExpression.renumber r) (B.bitwiseAnd X Y) (B.bitwiseAnd X' Y') := by
  subst hX hY
  exact bind require fun _ => bind (zipBits (fun _ _ => and) _ _) fun _ => pure

theorem bitwiseOr (hX : X' = X.renumber r := by rn) (hY : Y' = Y.renumber r := by rn) :
    Alike r (BinaryExpression.renumber r) (B.bitwiseOr X Y) (B.bitwiseOr X' Y') := by
  subst hX hY
  exact bind require fun _ => bind (zipBits (fun _ _ => or) _ _) fun _ => pure

theorem bitwiseXor (hX : X' = X.renumber r := by rn) (hY : Y' = Y.renumber r := by rn) :
    Alike r (BinaryExpression.renumber r) (B.bitwiseXor X Y) (B.bitwiseXor X' Y') := by
  subst hX hY
  exact bind require fun _ => bind (zipBits (fun _ _ => xor) _ _) fun _ => pure

theorem bits_of {f f' : ℕ → Option (BooleanExpression p)}
    (h : ∀ i, f' i = (f i).map (BooleanExpression.renumber r)) (l : List ℕ) :
    (do let bits ← List.mapM (m := Option) f' l
        return (⟨bits⟩ : BinaryExpression p)) =
      (do let bits ← List.mapM (m := Option) f l
          return (⟨bits⟩ : BinaryExpression p)).map (BinaryExpression.renumber r) := by
  rw [mapM_same h]
  rcases List.mapM (m := Option) f l with _ | bs
  · rfl
  · rfl

theorem rotateInc (X : BinaryExpression p) (k : ℕ) :
    B.rotateInc (X.renumber r) k = (B.rotateInc X k).map (BinaryExpression.renumber r) := by
  unfold B.rotateInc
  rw [renumber_len]
  exact bits_of (fun i => by simp) _

theorem rotateDec (X : BinaryExpression p) (k : ℕ) :
    B.rotateDec (X.renumber r) k = (B.rotateDec X k).map (BinaryExpression.renumber r) := by
  unfold B.rotateDec
  rw [renumber_len]
  exact bits_of (fun i => by simp) _

theorem shiftInc (X : BinaryExpression p) (k : ℕ) :
    B.shiftInc (X.renumber r) k = (B.shiftInc X k).map (BinaryExpression.renumber r) := by
  unfold B.shiftInc
  rw [renumber_len]
  refine bits_of (fun i => ?_) _
  split
  · simp [BooleanExpression.false]
  · simp

theorem shiftDec (X : BinaryExpression p) (k : ℕ) :
    B.shiftDec (X.renumber r) k = (B.shiftDec X k).map (BinaryExpression.renumber r) := by
  unfold B.shiftDec
  rw [renumber_len]
  refine bits_of (fun i => ?_) _
  split
  · split
    · simp
    · simp [BooleanExpression.false]
  · rfl

theorem parentLayer (b : BooleanExpression p) : ∀ items : List (Expression p),
    Alike r (List.map (Expression.renumber r)) (B.parentLayer b items)
      (B.parentLayer (b.renumber r) (items.map (Expression.renumber r)))
  | [] => pure
  | [_] => pure
  | _ :: _ :: rest => bind selection fun _ => bind (parentLayer b rest) fun _ => pure

theorem randomAccessBinary : ∀ (bits : List (BooleanExpression p)) (items : List (Expression p)),
    Alike r (Expression.renumber r) (B.randomAccessBinary bits items)
      (B.randomAccessBinary (bits.map (BooleanExpression.renumber r))
        (items.map (Expression.renumber r)))
  | [], [] => panic
  | [], [_] => pure
  | [], _ :: _ :: _ => panic
  | _ :: _, [_] => panic
  | b :: bits, [] => bind (parentLayer b []) fun _ => randomAccessBinary bits _
  | b :: bits, x :: y :: l => bind (parentLayer b (x :: y :: l)) fun _ => randomAccessBinary bits _

theorem randomAccess (hs : xs' = xs.map (Expression.renumber r) := by rn)
    (hx : x' = x.renumber r := by rn) :
    Alike r (Expression.renumber r) (B.randomAccess xs x) (B.randomAccess xs' x') := by
  subst hs hx
  unfold B.randomAccess
  rw [List.length_map]
  exact bind (splitBounded _) fun _ => randomAccessBinary _ _

/-! ### Permutation networks and sorting -/

/-- Renumber a switch and its outputs. -/
abbrev switch (r : Renumbering) (t : BooleanWire × Expression p × Expression p) :
    BooleanWire × Expression p × Expression p :=
  (t.1.renumber r, t.2.1.renumber r, t.2.2.renumber r)

theorem createSwitch (hx : x' = x.renumber r := by rn) (hy : y' = y.renumber r := by rn) :
    Alike r (switch r) (B.createSwitch x y) (B.createSwitch x' y') := by
  subst hx hy
  exact bind booleanWire fun _ => bind selection fun _ => pure

theorem assertPermutation2x2 (a b c d : Expression p) :
    Alike r id (B.assertPermutation2x2 a b c d) (B.assertPermutation2x2 (a.renumber r)
      (b.renumber r) (c.renumber r) (d.renumber r)) :=
  bind createSwitch fun _ => bind assertEqual fun _ => bind assertEqual fun _ =>
    generator (Cl.permutation2x2Gen _ _ _ _ _)

/-- Renumber a layer of switches. -/
abbrev layer (r : Renumbering) (t : List BooleanWire × List (Expression p) × List (Expression p)) :
    List BooleanWire × List (Expression p) × List (Expression p) :=
  (t.1.map (BooleanWire.renumber r), t.2.1.map (Expression.renumber r),
    t.2.2.map (Expression.renumber r))

theorem switchLayer : ∀ (k : ℕ) (es : List (Expression p)),
    Alike r (layer r) (B.switchLayer k es) (B.switchLayer k (es.map (Expression.renumber r)))
  | 0, _ => pure
  | _ + 1, [] => panic
  | _ + 1, [_] => panic
  | k + 1, _ :: _ :: rest => bind createSwitch fun _ => bind (switchLayer k rest) fun _ => pure

theorem dependencies (es : List (Expression p)) :
    (es.map (Expression.renumber r)).flatMap Expression.dependencies =
      (es.flatMap Expression.dependencies).map r := by
  rw [List.flatMap_map, List.map_flatMap]
  simp

theorem assertPermutationFuel : ∀ (fuel : ℕ) (a b : List (Expression p)),
    Alike r id (B.assertPermutationFuel fuel a b) (B.assertPermutationFuel fuel
      (a.map (Expression.renumber r)) (b.map (Expression.renumber r)))
  | 0, a, b => bind require fun _ => require
  | fuel + 1, a, b => by
    have key : Alike r id (do
        let n := a.length
        let aNumSwitches := n / 2
        let bNumSwitches := if n % 2 = 0 then aNumSwitches - 1 else aNumSwitches
        let (aSwitches, child1A, child2A) ← B.switchLayer aNumSwitches a
        let (bSwitches, child1B, child2B) ← B.switchLayer bNumSwitches b
        (if n % 2 = 0 then do
          let b1 ← B.ofOption b[n - 2]?
          let b2 ← B.ofOption b[n - 1]?
          B.assertPermutationFuel fuel child1A (child1B ++ [b1])
          B.assertPermutationFuel fuel child2A (child2B ++ [b2])
        else do
          let a2 ← B.ofOption a[n - 1]?
          let b2 ← B.ofOption b[n - 1]?
          B.assertPermutationFuel fuel child1A child1B
          B.assertPermutationFuel fuel (child2A ++ [a2]) (child2B ++ [b2]))
        B.generator (a.flatMap Expression.dependencies ++ b.flatMap Expression.dependencies)
          (B.routeGen a b aSwitches bSwitches))
        (do
        let a := a.map (Expression.renumber r)
        let b := b.map (Expression.renumber r)
        let n := a.length
        let aNumSwitches := n / 2
        let bNumSwitches := if n % 2 = 0 then aNumSwitches - 1 else aNumSwitches
        let (aSwitches, child1A, child2A) ← B.switchLayer aNumSwitches a
        let (bSwitches, child1B, child2B) ← B.switchLayer bNumSwitches b
        (if n % 2 = 0 then do
          let b1 ← B.ofOption b[n - 2]?
          let b2 ← B.ofOption b[n - 1]?
          B.assertPermutationFuel fuel child1A (child1B ++ [b1])
          B.assertPermutationFuel fuel child2A (child2B ++ [b2])
        else do
          let a2 ← B.ofOption a[n - 1]?
          let b2 ← B.ofOption b[n - 1]?
          B.assertPermutationFuel fuel child1A child1B
          B.assertPermutationFuel fuel (child2A ++ [a2]) (child2B ++ [b2]))
        B.generator (a.flatMap Expression.dependencies ++ b.flatMap Expression.dependencies)
          (B.routeGen a b aSwitches bSwitches)) := by
      simp only [List.length_map, dependencies]
      refine bind (switchLayer _ _) fun s => bind (switchLayer _ _) fun t =>
        bind (f := id) (ite ?_ ?_) fun _ => generator (Cl.routeGen _ _ _ _)
      · refine bind (f := Expression.renumber r) (ofOption (by simp)) fun b1 =>
          bind (f := Expression.renumber r) (ofOption (by simp)) fun b2 => ?_
        have h1 := assertPermutationFuel fuel s.2.1 (t.2.1 ++ [b1])
        have h2 := assertPermutationFuel fuel s.2.2 (t.2.2 ++ [b2])
        rw [List.map_append] at h1 h2
        exact bind h1 fun _ => h2
      · refine bind (f := Expression.renumber r) (ofOption (by simp)) fun a2 =>
          bind (f := Expression.renumber r) (ofOption (by simp)) fun b2 => ?_
        have h1 := assertPermutationFuel fuel s.2.1 t.2.1
        have h2 := assertPermutationFuel fuel (s.2.2 ++ [a2]) (t.2.2 ++ [b2])
        rw [List.map_append, List.map_append] at h2
        exact bind h1 fun _ => h2
    refine bind require fun _ => ?_
    rcases a with _ | ⟨a0, _ | ⟨a1, _ | ⟨a2, a⟩⟩⟩
    · exact pure
    · rcases b with _ | ⟨b0, _ | ⟨b1, b⟩⟩
      · exact key
      · exact assertEqual
      · exact key
    · rcases b with _ | ⟨b0, _ | ⟨b1, _ | ⟨b2, b⟩⟩⟩
      · exact key
      · exact key
      · exact assertPermutation2x2 _ _ _ _
      · exact key
    · exact key

theorem assertPermutation (hx : xs' = xs.map (Expression.renumber r) := by rn)
    (hy : ys' = ys.map (Expression.renumber r) := by rn) :
    Alike r id (B.assertPermutation xs ys) (B.assertPermutation xs' ys') := by
  subst hx hy
  unfold B.assertPermutation
  rw [List.length_map]
  exact assertPermutationFuel _ _ _

theorem splitOutputs : ∀ es : List (Expression p),
    Alike r (List.map (BinaryExpression.renumber r)) (B.splitOutputs es)
      (B.splitOutputs (es.map (Expression.renumber r)))
  | [] => panic
  | [_] => bind split fun _ => pure
  | _ :: e :: rest => bind splitAllowingAmbiguity fun _ => bind (splitOutputs (e :: rest))
    fun _ => pure

theorem assertAscending : ∀ es : List (BinaryExpression p),
    Alike r id (B.assertAscending es) (B.assertAscending (es.map (BinaryExpression.renumber r)))
  | [] => pure
  | [_] => pure
  | _ :: y :: rest => bind assertLeBinary fun _ => assertAscending (y :: rest)

theorem sortAscending (hx : xs' = xs.map (Expression.renumber r) := by rn) :
    Alike r (List.map (Expression.renumber r)) (B.sortAscending xs) (B.sortAscending xs') := by
  subst hx
  unfold B.sortAscending
  rw [List.length_map, dependencies]
  refine bind (wires _) fun ws => ?_
  have hw : (ws.map r).map (Expression.ofWire (p := p)) =
      (ws.map Expression.ofWire).map (Expression.renumber r) := by simp [Function.comp_def]
  simp only [hw]
  exact bind assertPermutation fun _ => bind (splitOutputs _) fun _ =>
    bind (assertAscending _) fun _ => bind (generator (Cl.sortGen _ _)) fun _ => pure rfl

theorem sortDescending (hx : xs' = xs.map (Expression.renumber r) := by rn) :
    Alike r (List.map (Expression.renumber r)) (B.sortDescending xs) (B.sortDescending xs') :=
  bind sortAscending fun _ => pure

/-! ### Permutations, ciphers, hash functions -/

theorem monomial (f : MonomialPermutation p) (hx : x' = x.renumber r := by rn) :
    Alike r (Expression.renumber r) (f.permute x) (f.permute x') := exponentiation f.n

theorem root (f : MonomialPermutation p) (hx : x' = x.renumber r := by rn) :
    Alike r (Expression.renumber r) (f.inverse x) (f.inverse x') := by
  subst hx
  exact bind wire fun _ => bind (exponentiation _) fun _ => bind assertEqual fun _ =>
    bind (f := id) ofOption fun _ => bind (generator (Cl.rootGen _ _ _)) fun _ => pure

theorem encryptRounds (c : MiMC p) (key : Expression p) : ∀ (rcs : List (Elem p))
    (x : Expression p), Alike r (Expression.renumber r) (c.encryptRounds key rcs x)
      (c.encryptRounds (key.renumber r) rcs (x.renumber r))
  | [], _ => pure
  | _ :: rcs, _ => bind (monomial _) fun z => encryptRounds c key rcs z

theorem encrypt (c : MiMC p) (hx : x' = x.renumber r := by rn) (hy : y' = y.renumber r := by rn) :
    Alike r (Expression.renumber r) (c.encrypt x y) (c.encrypt x' y') := by
  subst hx hy
  exact bind (monomial _) fun _ => bind (encryptRounds _ _ _ _) fun _ => pure

theorem decryptRounds (c : MiMC p) (key : Expression p) : ∀ (rcs : List (Elem p))
    (x : Expression p), Alike r (Expression.renumber r) (c.decryptRounds key rcs x)
      (c.decryptRounds (key.renumber r) rcs (x.renumber r))
  | [], _ => pure
  | rc :: rcs, _ => bind (root _) fun z => by
    have := decryptRounds c key rcs (z - (key + Expression.ofElem rc))
    simp only [renumber_sub, renumber_add, renumber_ofElem] at this
    exact this

theorem decrypt (c : MiMC p) (hx : x' = x.renumber r := by rn) (hy : y' = y.renumber r := by rn) :
    Alike r (Expression.renumber r) (c.decrypt x y) (c.decrypt x' y') := by
  subst hx hy
  have := decryptRounds (r := r) c x c.roundConstants.reverse (y - x)
  rw [renumber_sub] at this
  exact bind this fun _ => bind (root _) fun _ => pure

theorem daviesMeyer {E : BlockCipher p} (h : Pairwise r E.encrypt) :
    Pairwise r (R1CS.daviesMeyer E).compress :=
  fun _ _ => bind (h _ _) fun _ => pure

theorem miyaguchiPreneel {E : BlockCipher p} (h : Pairwise r E.encrypt) :
    Pairwise r (R1CS.miyaguchiPreneel E).compress :=
  fun _ _ => bind (h _ _) fun _ => pure

theorem absorb {h : MerkleDamgard p} (hc : Pairwise r h.compress.compress) :
    ∀ (blocks : List (Expression p)) (x : Expression p), Alike r (Expression.renumber r)
      (h.absorb blocks x) (h.absorb (blocks.map (Expression.renumber r)) (x.renumber r))
  | [], _ => pure
  | _ :: blocks, _ => bind (hc _ _) fun z => absorb hc blocks z

theorem hash {h : MerkleDamgard p} (hc : Pairwise r h.compress.compress)
    (blocks : List (Expression p)) : Alike r (Expression.renumber r) (h.hash blocks)
      (h.hash (blocks.map (Expression.renumber r))) := by
  unfold MerkleDamgard.hash
  rw [List.length_map]
  have := absorb hc blocks (Expression.ofElem h.initialValue)
  rw [renumber_ofElem] at this
  exact bind this fun _ => bind (f := Expression.renumber r) (ofOption (by simp)) fun _ => hc _ _

theorem merklePath (l : BinaryExpression p) (s : List (Expression p)) :
    MerklePath.new (l.renumber r) (s.map (Expression.renumber r)) =
      (MerklePath.new l s).map (MerklePath.renumber r) := by
  unfold MerklePath.new
  rw [renumber_len, List.length_map]
  split <;> rfl

theorem merkleTreeLoop {c : CompressionFunction p} (hc : Pairwise r c.compress) :
    ∀ (l : List (BooleanExpression p × Expression p)) (x : Expression p),
      Alike r (Expression.renumber r) (B.merkleTreeLoop c l x) (B.merkleTreeLoop c
        (l.map (Prod.map (BooleanExpression.renumber r) (Expression.renumber r))) (x.renumber r))
  | [], _ => pure
  | (b, s) :: l, x => bind (bind selection fun z => by
      have := hc z (s + x - z)
      rw [renumber_sub, renumber_add] at this
      exact this) fun _ => merkleTreeLoop hc l _

theorem merkleTreeRoot {c : CompressionFunction p} (hc : Pairwise r c.compress) (x : Expression p)
    (path : MerklePath p) : Alike r (Expression.renumber r) (B.merkleTreeRoot x path c)
      (B.merkleTreeRoot (x.renumber r) (path.renumber r) c) := by
  have := merkleTreeLoop hc (path.pathBits.bits.zip path.siblings) x
  rw [← List.zip_map] at this
  exact this

theorem assertMerkleTreeMembership {c : CompressionFunction p} (hc : Pairwise r c.compress)
    (x y : Expression p) (path : MerklePath p) :
    Alike r id (B.assertMerkleTreeMembership x y path c)
      (B.assertMerkleTreeMembership (x.renumber r) (y.renumber r) (path.renumber r) c) :=
  bind (merkleTreeRoot hc _ _) fun _ => assertEqual

theorem addChunk : ∀ s e : List (Expression p),
    Sponge.addChunk (s.map (Expression.renumber r)) (e.map (Expression.renumber r)) =
      (Sponge.addChunk s e).map (List.map (Expression.renumber r))
  | [], [] => rfl
  | _ :: _, [] => rfl
  | [], _ :: _ => rfl
  | s :: ss, e :: es => by
    simp only [List.map_cons, Sponge.addChunk]
    rw [addChunk ss es]
    rcases Sponge.addChunk ss es with _ | l
    · rfl
    · simp

/-- Renumber the two sections of a sponge. -/
abbrev sections (r : Renumbering) (t : List (Expression p) × List (Expression p)) :
    List (Expression p) × List (Expression p) :=
  (t.1.map (Expression.renumber r), t.2.map (Expression.renumber r))

theorem permuteState {sp : Sponge p} (hs : Listwise r sp.permutation.permute)
    (i c : List (Expression p)) : Alike r (sections r) (sp.permuteState i c)
      (sp.permuteState (i.map (Expression.renumber r)) (c.map (Expression.renumber r))) := by
  unfold Sponge.permuteState
  rw [← List.map_append]
  exact bind (hs _) fun _ => bind require fun _ => bind require fun _ => pure

theorem spongeAbsorb {sp : Sponge p} (hs : Listwise r sp.permutation.permute) :
    ∀ (cs : List (List (Expression p))) (i c : List (Expression p)),
      Alike r (sections r) (sp.absorb cs i c) (sp.absorb (cs.map (List.map (Expression.renumber r)))
        (i.map (Expression.renumber r)) (c.map (Expression.renumber r)))
  | [], _, _ => pure
  | _ :: cs, _, _ => bind (ofOption (addChunk _ _)) fun _ => bind (permuteState hs _ _) fun _ =>
    spongeAbsorb hs cs _ _

theorem squeeze {sp : Sponge p} (hs : Listwise r sp.permutation.permute) (k : ℕ) :
    ∀ (fuel : ℕ) (i c o : List (Expression p)), Alike r (List.map (Expression.renumber r))
      (sp.squeeze k fuel i c o) (sp.squeeze k fuel (i.map (Expression.renumber r))
        (c.map (Expression.renumber r)) (o.map (Expression.renumber r)))
  | 0, _, _, _ => by
    unfold Sponge.squeeze
    rw [List.length_map]
    exact ite panic pure
  | fuel + 1, i, c, o => by
    unfold Sponge.squeeze
    rw [List.length_map]
    refine ite (bind (permuteState hs _ _) fun s => ?_) pure
    have := squeeze hs k fuel s.1 s.2 (o ++ s.1)
    rw [List.map_append] at this
    exact this

theorem sponge {sp : Sponge p} (hs : Listwise r sp.permutation.permute) (k : ℕ)
    (xs : List (Expression p)) : Alike r (List.map (Expression.renumber r)) (sp.evaluate xs k)
      (sp.evaluate (xs.map (Expression.renumber r)) k) := by
  refine bind (ofOption (chunks?_renumber _ _ _)) fun cs => ?_
  have := spongeAbsorb hs cs (List.replicate sp.bitrate (0 : Expression p))
    (List.replicate sp.capacity (0 : Expression p))
  simp only [List.map_replicate, renumber_zero] at this
  exact bind this fun _ => bind (squeeze hs _ _ _ _ _) fun _ => pure

theorem mapExpressions {f : Expression p → B p (Expression p)}
    (hf : ∀ x, Alike r (Expression.renumber r) (f x) (f (x.renumber r))) :
    Listwise r (B.mapExpressions f)
  | [] => pure
  | _ :: xs => bind (hf _) fun _ => bind (mapExpressions hf xs) fun _ => pure

theorem ofOption_bind {o : Option α} {f : γ → δ} {k : α → B p γ} {k' : α → B p δ}
    (h : ∀ a, o = some a → Alike r f (k a) (k' a)) :
    Alike r f (B.ofOption o >>= k) (B.ofOption o >>= k') := by
  rcases o with _ | a
  · exact (panic : Alike r f (B.panic : B p γ) B.panic)
  · exact h a rfl

theorem sboxPermute (f : Poseidon p) (x : Expression p) :
    Alike r (Expression.renumber r) (f.sboxPermute x) (f.sboxPermute (x.renumber r)) := by
  refine ofOption_bind fun s hs => ?_
  unfold Poseidon.sboxPermutation at hs
  split at hs
  · obtain rfl := Option.some.inj hs
    exact inverseOrZero
  all_goals
    obtain ⟨n, _, hs⟩ := Option.bind_eq_some_iff.1 hs
    obtain ⟨m, _, hs⟩ := Option.bind_eq_some_iff.1 hs
    obtain rfl := Option.some.inj hs
    exact monomial m

theorem sboxFirst (f : Poseidon p) : Listwise r f.sboxFirst
  | [] => panic
  | _ :: _ => bind (sboxPermute f _) fun _ => pure

theorem mulExpressions (m : ElementMatrix p) (xs : List (Expression p)) :
    m.mulExpressions (xs.map (Expression.renumber r)) =
      (m.mulExpressions xs).map (Expression.renumber r) := by
  have h : ∀ (row : List (Elem p)) (v s : Expression p),
      row.foldl (fun sum c => sum + (v.renumber r).mulElem c) (s.renumber r) =
        (row.foldl (fun sum c => sum + v.mulElem c) s).renumber r := by
    intro row v
    induction row with
    | nil => intro s; rfl
    | cons c row ih =>
      intro s
      simp only [List.foldl_cons]
      rw [← ih, renumber_add, renumber_mulElem]
  unfold ElementMatrix.mulExpressions
  rw [List.zip_map_right, List.map_map, List.map_map]
  refine List.map_congr_left fun t _ => ?_
  have := h t.1 t.2 0
  rw [renumber_zero] at this
  exact this

theorem poseidonRounds (f : Poseidon p) : ∀ (left round : ℕ), Listwise r (f.rounds round left)
  | 0, _, _ => pure
  | left + 1, round, xs => by
    refine bind (f := List.map (Expression.renumber r))
      (ite (mapExpressions (sboxPermute f) _) (sboxFirst f _)) fun ys => ?_
    rw [mulExpressions]
    exact poseidonRounds f left (round + 1) _

theorem poseidon (f : Poseidon p) : Listwise r f.permute :=
  fun _ => bind require fun _ => bind require fun _ => poseidonRounds f _ _ _

theorem rescueRounds (f : Rescue p) : ∀ left : ℕ, Listwise r (f.rounds left)
  | 0, _ => pure
  | left + 1, _ => by
    refine bind (mapExpressions (fun x => bind (f := id) ofOption fun m => monomial m) _) fun ys => ?_
    rw [mulExpressions]
    refine bind (mapExpressions (fun x => bind (f := id) ofOption fun m => root m) _) fun zs => ?_
    rw [mulExpressions]
    exact rescueRounds f left _

theorem rescue (f : Rescue p) : Listwise r f.permute := fun _ => rescueRounds f _ _

/-! ### Curves and signatures -/

theorem edwardsNew (C : EdwardsCurve p) (hx : x' = x.renumber r := by rn)
    (hy : y' = y.renumber r := by rn) :
    Alike r (EdwardsExpression.renumber r) (EdwardsExpression.new C x y)
      (EdwardsExpression.new C x' y') := by
  subst hx hy
  exact bind product fun _ => bind product fun _ => bind product fun _ => bind assertEqual fun _ => pure

theorem edwardsAdd (C : EdwardsCurve p) (P Q : EdwardsExpression p) :
    Alike r (EdwardsExpression.renumber r) (EdwardsGroup.addExpressions C P Q)
      (EdwardsGroup.addExpressions C (P.renumber r) (Q.renumber r)) :=
  bind product fun _ => bind product fun _ => bind product fun _ => bind product fun _ =>
  bind product fun _ => bind quotientUnsafe fun _ => bind quotientUnsafe fun _ => pure

theorem edwardsDouble (C : EdwardsCurve p) (P : EdwardsExpression p) :
    Alike r (EdwardsExpression.renumber r) (EdwardsGroup.doubleExpression C P)
      (EdwardsGroup.doubleExpression C (P.renumber r)) :=
  bind product fun _ => bind product fun _ => bind product fun _ => bind (f := id) ofOption fun _ =>
  bind quotientUnsafe fun _ => bind (f := Expression.renumber r) (ofOption (by simp)) fun _ =>
  bind quotientUnsafe fun _ => pure

theorem edwards (C : EdwardsCurve p) :
    Group r (EdwardsExpression.renumber r) (EdwardsGroup.ops C) where
  add := edwardsAdd C
  double := edwardsDouble C
  constant e := by simp [EdwardsGroup.ops, EdwardsExpression.ofPoint]
  components _ := rfl
  compressed _ := rfl
  fromComponents
    | [] => rfl
    | [_] => rfl
    | _ :: _ :: _ => rfl

section
variable {GE GX : Type} {G : GroupOps p GE GX} {f : GX → GX}

theorem selectAll (b : BooleanExpression p) : ∀ xs is : List (Expression p),
    Alike r (List.map (Expression.renumber r)) (GroupOps.selectAll b xs is)
      (GroupOps.selectAll (b.renumber r) (xs.map (Expression.renumber r))
        (is.map (Expression.renumber r)))
  | [], _ => pure
  | _ :: _, [] => panic
  | _ :: xs, _ :: is => bind selection fun _ => bind (selectAll b xs is) fun _ => pure

theorem identity (hG : Group r f G) : Alike (p := p) r f (B.ofOption G.identityExpression)
    (B.ofOption G.identityExpression) := by
  refine ofOption ?_
  unfold GroupOps.identityExpression
  rw [Option.map_map]
  exact congrArg (Option.map · _) (funext fun e => hG.constant e)

theorem mulBoolean (hG : Group r f G) (x : GX) (b : BooleanExpression p) :
    Alike r f (G.mulBooleanExpression x b) (G.mulBooleanExpression (f x) (b.renumber r)) := by
  refine bind (identity hG) fun i => ?_
  rw [hG.components, hG.components]
  exact bind (selectAll _ _ _) fun _ => ofOption (hG.fromComponents _)

theorem mulLoop (hG : Group r f G) : ∀ (bits : List (BooleanExpression p)) (sum current : GX),
    Alike r f (G.mulLoop bits sum current)
      (G.mulLoop (bits.map (BooleanExpression.renumber r)) (f sum) (f current))
  | [], _, _ => pure
  | _ :: bits, _, _ => bind (mulBoolean hG _ _) fun _ => bind (hG.add _ _) fun _ =>
    bind (hG.double _) fun _ => mulLoop hG bits _ _

theorem mulScalar (hG : Group r f G) (x : GX) (k : Expression p) :
    Alike r f (G.mulScalarExpression x k) (G.mulScalarExpression (f x) (k.renumber r)) :=
  bind splitAllowingAmbiguity fun _ => bind (identity hG) fun _ => mulLoop hG _ _ _

theorem schnorr {C : CyclicGroupOps p GE GX} (hG : Group r f C.toGroupOps)
    {c : CompressionFunction p} (hc : Pairwise r c.compress) (σ : SignatureExpression p)
    (m : Expression p) (Y : GX) : Alike r id (schnorrVerify C c σ m Y)
      (schnorrVerify C c (σ.renumber r) (m.renumber r) (f Y)) := by
  refine bind (f := f) (ofOption ?_) fun g => bind (mulScalar hG _ _) fun _ =>
    bind (mulScalar hG _ _) fun _ => bind (hG.add _ _) fun z => ?_
  · unfold CyclicGroupOps.generatorExpression
    rw [Option.map_map]
    exact congrArg (Option.map · _) (funext fun e => hG.constant e)
  · rw [hG.compressed]
    exact bind (hc _ _) fun _ => assertEqual

end

end Alike

end R1CS
