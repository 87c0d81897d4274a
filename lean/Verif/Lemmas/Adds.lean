import Verif.Lemmas.RawGens
import Verif.Lemmas.Binary
import Verif.Spec.Language

/-!
# The generators which gadgets add are those of the crate (`Spec/RawGens.lean`)
-/

set_option linter.unusedSectionVars false

namespace R1CS.Raw.AddsClosures

open R1CS.Language

variable {p : ℕ} [hp : Fact p.Prime] {α β : Type}

theorem pure {a : α} : AddsClosures (p := p) (Pure.pure a) := fun b a' b' h => by
  obtain ⟨_, rfl⟩ := Prod.ext_iff.1 (Option.some.inj h)
  exact ⟨[], [], by simp, .nil⟩

theorem panic : AddsClosures (p := p) (B.panic : B p α) := fun b a b' h => by cases h

theorem ofOption {o : Option α} : AddsClosures (p := p) (B.ofOption o) := by
  cases o
  · exact panic
  · exact pure

theorem require {c : Prop} [Decidable c] : AddsClosures (p := p) (B.require c) := by
  unfold B.require
  split
  · exact pure
  · exact panic

theorem bind' {m : B p α} {k : α → B p β} (hm : AddsClosures m)
    (hk : ∀ b a b', m b = some (a, b') → AddsClosures (k a)) : AddsClosures (m >>= k) := fun b z d h => by
  obtain ⟨a, c, h1, h2⟩ := B.bind_run h
  obtain ⟨gs, rs, e1, e2⟩ := hm b a c h1
  obtain ⟨gs', rs', e3, e4⟩ := hk b a c h1 c z d h2
  exact ⟨gs ++ gs', rs ++ rs', by rw [e3, e1, List.append_assoc], List.rel_append e2 e4⟩

theorem bind {m : B p α} {k : α → B p β} (hm : AddsClosures m) (hk : ∀ a, AddsClosures (k a)) : AddsClosures (m >>= k) :=
  bind' hm fun _ a _ _ => hk a

theorem ite {c : Prop} [Decidable c] {m k : B p α} (hm : AddsClosures m) (hk : AddsClosures k) :
    AddsClosures (if c then m else k) := by
  split
  · exact hm
  · exact hk

theorem wire : AddsClosures (B.wire : B p Wire) := fun b a b' h => by
  obtain ⟨_, rfl⟩ := Prod.ext_iff.1 (Option.some.inj h)
  exact ⟨[], [], by simp, .nil⟩

theorem assertProduct {x y z : Expression p} : AddsClosures (B.assertProduct x y z) := fun b a b' h => by
  obtain ⟨_, rfl⟩ := Prod.ext_iff.1 (Option.some.inj h)
  exact ⟨[], [], by simp, .nil⟩

theorem generator {d : List Wire} {f : WireValues p → Option (WireValues p)} {r : RawGenerator}
    (h : Transcribes r ⟨d, f⟩) : AddsClosures (B.generator d f) := fun b a b' e => by
  obtain ⟨_, rfl⟩ := Prod.ext_iff.1 (Option.some.inj e)
  exact ⟨[_], [r], rfl, .cons h .nil⟩

theorem wires : ∀ k : ℕ, AddsClosures (B.wires k : B p (List Wire))
  | 0 => pure
  | k + 1 => bind wire fun _ => bind (wires k) fun _ => pure

variable {x y z : Expression p} {c d : BooleanExpression p} {X Y : BinaryExpression p}
  {xs ys : List (Expression p)} {Xs : List (BinaryExpression p)}

theorem assertBoolean : AddsClosures (B.assertBoolean x) := bind assertProduct fun _ => pure

theorem assertEqual : AddsClosures (B.assertEqual x y) := assertProduct

theorem assertZero : AddsClosures (B.assertZero x) := assertProduct

theorem assertTrue : AddsClosures (B.assertTrue c) := assertProduct

theorem assertFalse : AddsClosures (B.assertFalse c) := assertProduct

theorem booleanWire : AddsClosures (B.booleanWire : B p BooleanWire) :=
  bind wire fun _ => bind assertBoolean fun _ => pure

theorem booleanWires : ∀ k : ℕ, AddsClosures (B.booleanWires k : B p (List BooleanWire))
  | 0 => pure
  | k + 1 => bind booleanWire fun _ => bind (booleanWires k) fun _ => pure

theorem binaryWire (k : ℕ) : AddsClosures (B.binaryWire k : B p BinaryWire) := bind (booleanWires k) fun _ => pure

theorem nonzero : AddsClosures (B.nonzero x) :=
  bind wire fun _ => bind wire fun _ => bind assertProduct fun _ => bind assertProduct fun _ =>
    bind (generator (.nonzero _ _ _)) fun _ => pure

theorem not : AddsClosures (B.not c) := pure

theorem zero : AddsClosures (B.zero x) := bind nonzero fun _ => not

theorem equal : AddsClosures (B.equal x y) := zero

theorem product : AddsClosures (B.product x y) := by
  unfold B.product
  split
  · exact pure
  · split
    · exact pure
    · exact bind wire fun _ => bind assertProduct fun _ => bind (generator (.product _ _ _)) fun _ => pure

theorem selection : AddsClosures (B.selection c x y) := bind product fun _ => pure

theorem expLoop (x : Expression p) (k : Elem p) : ∀ (n i : ℕ) (e f : Expression p), AddsClosures (B.expLoop x k i n e f)
  | 0, _, _, _ => pure
  | n + 1, i, _, _ =>
    bind (ite pure product) fun _ => bind (ite product pure) fun _ => expLoop x k n (i + 1) _ _

theorem exponentiation {k : Elem p} : AddsClosures (B.exponentiation x k) := expLoop _ _ _ _ _ _

theorem inverse : AddsClosures (B.inverse x) :=
  bind wire fun _ => bind assertProduct fun _ => bind (generator (.inverse _ _)) fun _ => pure

theorem assertNonzero : AddsClosures (B.assertNonzero x) := bind inverse fun _ => pure

theorem assertNonequal : AddsClosures (B.assertNonequal x y) := assertNonzero

theorem inverseOrZero : AddsClosures (B.inverseOrZero x) :=
  bind wire fun _ => bind nonzero fun _ => bind assertProduct fun _ =>
    bind (generator (.inverseOrZero _ _)) fun _ => pure

theorem quotient : AddsClosures (B.quotient x y) := bind inverse fun _ => product

theorem quotientUnsafe : AddsClosures (B.quotientUnsafe x y) :=
  bind wire fun _ => bind (generator (.quotientUnsafe _ _ _)) fun _ => pure

theorem and : AddsClosures (B.and c d) := bind product fun _ => pure

theorem or : AddsClosures (B.or c d) := bind product fun _ => pure

theorem xor : AddsClosures (B.xor c d) := bind product fun _ => bind ofOption fun _ => pure

/-! ### Splitting and comparison -/

theorem booleanWires_length : ∀ (k : ℕ) {b b' : Builder p} {ws : List BooleanWire},
    B.booleanWires k b = some (ws, b') → ws.length = k
  | 0, _, _, _, h => by
    obtain ⟨rfl, _⟩ := Prod.ext_iff.1 (Option.some.inj h)
    rfl
  | k + 1, _, _, _, h => by
    obtain ⟨w, _, _, h⟩ := B.bind_run h
    obtain ⟨ws, _, h1, h⟩ := B.bind_run h
    obtain ⟨rfl, _⟩ := Prod.ext_iff.1 (Option.some.inj h)
    rw [List.length_cons, booleanWires_length k h1]

theorem wires_length : ∀ (k : ℕ) {b b' : Builder p} {ws : List Wire}, B.wires k b = some (ws, b') → ws.length = k
  | 0, _, _, _, h => by
    obtain ⟨rfl, _⟩ := Prod.ext_iff.1 (Option.some.inj h)
    rfl
  | k + 1, _, _, _, h => by
    obtain ⟨w, _, _, h⟩ := B.bind_run h
    obtain ⟨ws, _, h1, h⟩ := B.bind_run h
    obtain ⟨rfl, _⟩ := Prod.ext_iff.1 (Option.some.inj h)
    rw [List.length_cons, wires_length k h1]

theorem splitWithoutRangeCheck (k : ℕ) : AddsClosures (B.splitWithoutRangeCheck x k) := by
  refine bind' (binaryWire k) fun b w b' h => ?_
  obtain ⟨ws, _, h1, h⟩ := B.bind_run h
  obtain ⟨rfl, _⟩ := Prod.ext_iff.1 (Option.some.inj h)
  exact bind ofOption fun _ => bind assertEqual fun _ =>
    bind (generator (.split _ _ _ (booleanWires_length k h1))) fun _ => pure

theorem splitAllowingAmbiguity : AddsClosures (B.splitAllowingAmbiguity x) := splitWithoutRangeCheck _

theorem splitBounded {k : ℕ} : AddsClosures (B.splitBounded x k) := bind require fun _ => splitWithoutRangeCheck _

theorem cmpSubtractive {l s : Bool} {k : ℕ} : AddsClosures (B.cmpSubtractive x l s k) :=
  bind ofOption fun _ => bind splitBounded fun _ => ofOption

theorem assertBooleans : ∀ l : List Wire, AddsClosures (B.assertBooleans l : B p Unit)
  | [] => pure
  | _ :: ms => bind assertBoolean fun _ => assertBooleans ms

theorem maskedSum : ∀ (l : List (Wire × Expression p × Expression p)) (e : Expression p), AddsClosures (B.maskedSum l e)
  | [], _ => pure
  | (_, _, _) :: l, _ => bind product fun _ => maskedSum l _

theorem assertMoreSignificantEqual : ∀ (l : List (Wire × Expression p × Expression p)) (e : Expression p),
    AddsClosures (B.assertMoreSignificantEqual l e)
  | [], _ => pure
  | (_, _, _) :: l, _ => bind assertProduct fun _ => assertMoreSignificantEqual l _

theorem cmpTail (zipped : List (Wire × Expression p × Expression p)) (d : BooleanExpression p)
    (l s : Bool) (n : ℕ) : AddsClosures (B.cmpTail zipped d l s n) := by
  refine bind (maskedSum _ _) fun e => ?_
  rcases zipped with _ | ⟨⟨m0, q⟩, rest⟩
  · exact panic
  · exact bind (assertMoreSignificantEqual _ _) fun _ =>
      bind (ite pure (bind selection fun _ => assertNonzero)) fun _ => cmpSubtractive

theorem mapM_length {f : α → Option β} : ∀ {l : List α} {l' : List β}, l.mapM f = some l' → l'.length = l.length
  | [], l', h => by
    rw [List.mapM_nil] at h
    cases h
    rfl
  | a :: l, l', h => by
    rw [List.mapM_cons] at h
    obtain ⟨b, _, h⟩ := Option.bind_eq_some_iff.1 h
    obtain ⟨bs, h1, h⟩ := Option.bind_eq_some_iff.1 h
    cases h
    rw [List.length_cons, List.length_cons, mapM_length h1]

theorem chunks_length {k : ℕ} {xc yc : List (BinaryExpression p)} (h : X.len = Y.len)
    (hx : X.chunks k = some xc) (hy : Y.chunks k = some yc) : xc.length = yc.length := by
  unfold BinaryExpression.chunks at hx hy
  obtain ⟨xs, hxs, rfl⟩ := Option.map_eq_some_iff.1 hx
  obtain ⟨ys, hys, rfl⟩ := Option.map_eq_some_iff.1 hy
  unfold chunks? at hxs hys
  by_cases hk : k = 0
  · rw [if_pos hk] at hxs
    cases hxs
  · rw [if_neg hk] at hxs hys
    cases hxs
    cases hys
    have := congrArg List.length (chunksOf_map_length (k := k) X.bits Y.bits h)
    simpa using this

theorem bindOption {o : Option α} {k : α → B p β} (h : ∀ a, o = some a → AddsClosures (k a)) :
    AddsClosures (B.ofOption o >>= k) := by
  cases o
  · exact fun b a b' h => by cases h
  · exact h _ rfl

theorem bindRequire {c : Prop} [Decidable c] {k : Unit → B p β} (h : c → AddsClosures (k ())) :
    AddsClosures (B.require c >>= k) := by
  by_cases hc : c
  · exact bind require fun _ => h hc
  · intro b a b' e
    unfold B.require at e
    rw [if_neg hc] at e
    cases e

theorem cmpBinary {l s : Bool} : AddsClosures (B.cmpBinary X Y l s) := by
  refine bindRequire fun hl => bindOption fun xc hxc => bindOption fun xs hxs => bindOption fun yc hyc =>
    bindOption fun ys hys => bind' (wires _) fun b mask b' hm => ?_
  have hlen : ys.length = xs.length := by
    rw [mapM_length hys, mapM_length hxs]
    exact (chunks_length hl hxc hyc).symm
  have hmask := wires_length _ hm
  exact bind (assertBooleans _) fun _ => bind assertBoolean fun _ =>
    bind (generator (.mask _ _ _ _ _ hmask.symm (hlen.trans hmask.symm))) fun _ => cmpTail _ _ _ _ _

theorem assertLtBinary : AddsClosures (B.assertLtBinary X Y) := bind cmpBinary fun _ => assertTrue

theorem assertLeBinary : AddsClosures (B.assertLeBinary X Y) := bind cmpBinary fun _ => assertTrue

theorem assertGtBinary : AddsClosures (B.assertGtBinary X Y) := bind cmpBinary fun _ => assertTrue

theorem assertGeBinary : AddsClosures (B.assertGeBinary X Y) := bind cmpBinary fun _ => assertTrue

theorem split : AddsClosures (B.split x) := bind (splitWithoutRangeCheck _) fun _ => bind assertLtBinary fun _ => pure

theorem cmp {l s : Bool} : AddsClosures (B.cmp x y l s) :=
  ite (bind splitAllowingAmbiguity fun _ => bind split fun _ => cmpBinary)
    (bind split fun _ => bind splitAllowingAmbiguity fun _ => cmpBinary)

theorem assertLt : AddsClosures (B.assertLt x y) := bind cmp fun _ => assertTrue

theorem assertLe : AddsClosures (B.assertLe x y) := bind cmp fun _ => assertTrue

theorem assertGt : AddsClosures (B.assertGt x y) := bind cmp fun _ => assertTrue

theorem assertGe : AddsClosures (B.assertGe x y) := bind cmp fun _ => assertTrue

theorem modulus : AddsClosures (B.modulus x y) :=
  bind wire fun _ => bind wire fun _ => bind assertProduct fun _ => bind assertLt fun _ =>
    bind (generator (.modulus _ _ _ _)) fun _ => pure

theorem divides : AddsClosures (B.divides x y) := bind modulus fun _ => zero

/-! ### Binary and bitwise operations, random access -/

theorem binarySummation : AddsClosures (B.binarySummation Xs) :=
  bind require fun _ => bind (binaryWire _) fun _ => bind ofOption fun _ => bind ofOption fun _ =>
    bind assertEqual fun _ => bind (generator (.summation _ _)) fun _ => pure

theorem binarySummationIgnoringOverflow : AddsClosures (B.binarySummationIgnoringOverflow Xs) :=
  bind binarySummation fun _ => ofOption

theorem assertZeros : ∀ cs : List (BinaryExpression p), AddsClosures (B.assertZeros cs)
  | [] => pure
  | _ :: cs => bind ofOption fun _ => bind assertZero fun _ => assertZeros cs

theorem binaryAssertZero : AddsClosures (B.binaryAssertZero X) := bind ofOption fun _ => assertZeros _

theorem binarySummationAssertingNoOverflow : AddsClosures (B.binarySummationAssertingNoOverflow Xs) :=
  bind binarySummation fun _ => bind require fun _ => bind binaryAssertZero fun _ => ofOption

theorem notBits : ∀ bs : List (BooleanExpression p), AddsClosures (B.notBits bs)
  | [] => pure
  | _ :: bs => bind not fun _ => bind (notBits bs) fun _ => pure

theorem bitwiseNot : AddsClosures (B.bitwiseNot X) := bind (notBits _) fun _ => pure

theorem zipBits {op : BooleanExpression p → BooleanExpression p → B p (BooleanExpression p)}
    (h : ∀ x y, AddsClosures (op x y)) : ∀ bs cs : List (BooleanExpression p), AddsClosures (B.zipBits op bs cs)
  | [], _ => pure
  | _ :: _, [] => pure
  | _ :: bs, _ :: cs => bind (h _ _) fun _ => bind (zipBits h bs cs) fun _ => pure

theorem bitwiseAnd : AddsClosures (B.bitwiseAnd X Y) :=
  bind require fun _ => bind (zipBits (fun _ _ => and) _ _) fun _ => pure

theorem bitwiseOr : AddsClosures (B.bitwiseOr X Y) :=
  bind require fun _ => bind (zipBits (fun _ _ => or) _ _) fun _ => pure

theorem bitwiseXor : AddsClosures (B.bitwiseXor X Y) :=
  bind require fun _ => bind (zipBits (fun _ _ => xor) _ _) fun _ => pure

theorem parentLayer (b : BooleanExpression p) : ∀ items : List (Expression p), AddsClosures (B.parentLayer b items)
  | [] => pure
  | [_] => pure
  | _ :: _ :: rest => bind selection fun _ => bind (parentLayer b rest) fun _ => pure

theorem randomAccessBinary : ∀ (bits : List (BooleanExpression p)) (items : List (Expression p)),
    AddsClosures (B.randomAccessBinary bits items)
  | [], [] => panic
  | [], [_] => pure
  | [], _ :: _ :: _ => panic
  | _ :: _, [_] => panic
  | b :: bits, [] => bind (parentLayer b []) fun _ => randomAccessBinary bits _
  | b :: bits, x :: y :: l => bind (parentLayer b (x :: y :: l)) fun _ => randomAccessBinary bits _

theorem randomAccess : AddsClosures (B.randomAccess xs x) := bind splitBounded fun _ => randomAccessBinary _ _

/-! ### Permutation networks and sorting -/

theorem createSwitch : AddsClosures (B.createSwitch x y) := bind booleanWire fun _ => bind selection fun _ => pure

theorem assertPermutation2x2 (a b c d : Expression p) : AddsClosures (B.assertPermutation2x2 a b c d) :=
  bind createSwitch fun _ => bind assertEqual fun _ => bind assertEqual fun _ =>
    generator (.permutation2x2 _ _ _ _ _)

theorem switchLayer : ∀ (k : ℕ) (es : List (Expression p)), AddsClosures (B.switchLayer k es)
  | 0, _ => pure
  | _ + 1, [] => panic
  | _ + 1, [_] => panic
  | k + 1, _ :: _ :: rest => bind createSwitch fun _ => bind (switchLayer k rest) fun _ => pure

theorem assertPermutationFuel : ∀ (fuel : ℕ) (a b : List (Expression p)), AddsClosures (B.assertPermutationFuel fuel a b)
  | 0, a, b => bind require fun _ => require
  | fuel + 1, a, b => by
    have key : AddsClosures (do
        let n := a.length
        let aNumSwitches := n / 2
        let bNumSwitches := if n % 2 = 0 then aNumSwitches - 1 else aNumSwitches
        let (aSwitches, child1A, child2A) ← B.switchLayer aNumSwitches a
        let (bSwitches, child1B, child2B) ← B.switchLayer bNumSwitches b
        (if n % 2 = 0 then do
          let b1 ← B.ofOption b[n - 2]?
          let b2 ← B.ofOption b[n - 1]?
          B.assertPermutationFuel fuel child1A (child1B ++ [b1])
          B.assertPermutationFuel fuel child2A (child2B ++ [b2])
        else do
          let a2 ← B.ofOption a[n - 1]?
          let b2 ← B.ofOption b[n - 1]?
          B.assertPermutationFuel fuel child1A child1B
          B.assertPermutationFuel fuel (child2A ++ [a2]) (child2B ++ [b2]))
        B.generator (a.flatMap Expression.dependencies ++ b.flatMap Expression.dependencies)
          (B.routeGen a b aSwitches bSwitches)) :=
      bind (switchLayer _ _) fun s => bind (switchLayer _ _) fun t =>
        bind (ite
          (bind ofOption fun _ => bind ofOption fun _ => bind (assertPermutationFuel fuel _ _) fun _ =>
            assertPermutationFuel fuel _ _)
          (bind ofOption fun _ => bind ofOption fun _ => bind (assertPermutationFuel fuel _ _) fun _ =>
            assertPermutationFuel fuel _ _)) fun _ => generator (.route _ _ _ _)
    refine bind require fun _ => ?_
    rcases a with _ | ⟨a0, _ | ⟨a1, _ | ⟨a2, a⟩⟩⟩
    · exact pure
    · rcases b with _ | ⟨b0, _ | ⟨b1, b⟩⟩
      · exact key
      · exact assertEqual
      · exact key
    · rcases b with _ | ⟨b0, _ | ⟨b1, _ | ⟨b2, b⟩⟩⟩
      · exact key
      · exact key
      · exact assertPermutation2x2 _ _ _ _
      · exact key
    · exact key

theorem assertPermutation : AddsClosures (B.assertPermutation xs ys) := assertPermutationFuel _ _ _

theorem splitOutputs : ∀ es : List (Expression p), AddsClosures (B.splitOutputs es)
  | [] => panic
  | [_] => bind split fun _ => pure
  | _ :: e :: rest => bind splitAllowingAmbiguity fun _ => bind (splitOutputs (e :: rest)) fun _ => pure

theorem assertAscending : ∀ es : List (BinaryExpression p), AddsClosures (B.assertAscending es)
  | [] => pure
  | [_] => pure
  | _ :: y :: rest => bind assertLeBinary fun _ => assertAscending (y :: rest)

theorem sortAscending : AddsClosures (B.sortAscending xs) :=
  bind (wires _) fun _ => bind assertPermutation fun _ => bind (splitOutputs _) fun _ =>
    bind (assertAscending _) fun _ => bind (generator (.sort _ _)) fun _ => pure

theorem sortDescending : AddsClosures (B.sortDescending xs) := bind sortAscending fun _ => pure

/-! ### Permutations, ciphers, hash functions -/

theorem monomial (f : MonomialPermutation p) : AddsClosures (f.permute x) := exponentiation

theorem root (f : MonomialPermutation p) : AddsClosures (f.inverse x) :=
  bind wire fun _ => bind exponentiation fun _ => bind assertEqual fun _ =>
    bind ofOption fun _ => bind (generator (.root _ _ _)) fun _ => pure

theorem encryptRounds (c : MiMC p) (key : Expression p) : ∀ (rcs : List (Elem p)) (x : Expression p),
    AddsClosures (c.encryptRounds key rcs x)
  | [], _ => pure
  | _ :: rcs, _ => bind (monomial _) fun z => encryptRounds c key rcs z

theorem encrypt (c : MiMC p) : AddsClosures (c.encrypt x y) :=
  bind (monomial _) fun _ => bind (encryptRounds _ _ _ _) fun _ => pure

theorem decryptRounds (c : MiMC p) (key : Expression p) : ∀ (rcs : List (Elem p)) (x : Expression p),
    AddsClosures (c.decryptRounds key rcs x)
  | [], _ => pure
  | _ :: rcs, _ => bind (root _) fun _ => decryptRounds c key rcs _

theorem decrypt (c : MiMC p) : AddsClosures (c.decrypt x y) :=
  bind (decryptRounds _ _ _ _) fun _ => bind (root _) fun _ => pure

theorem daviesMeyer {E : BlockCipher p} (h : ∀ x y, AddsClosures (E.encrypt x y)) :
    ∀ x y, AddsClosures ((R1CS.daviesMeyer E).compress x y) := fun _ _ => bind (h _ _) fun _ => pure

theorem miyaguchiPreneel {E : BlockCipher p} (h : ∀ x y, AddsClosures (E.encrypt x y)) :
    ∀ x y, AddsClosures ((R1CS.miyaguchiPreneel E).compress x y) := fun _ _ => bind (h _ _) fun _ => pure

theorem absorb {h : MerkleDamgard p} (hc : ∀ x y, AddsClosures (h.compress.compress x y)) :
    ∀ (blocks : List (Expression p)) (x : Expression p), AddsClosures (h.absorb blocks x)
  | [], _ => pure
  | _ :: blocks, _ => bind (hc _ _) fun z => absorb hc blocks z

theorem hash {h : MerkleDamgard p} (hc : ∀ x y, AddsClosures (h.compress.compress x y))
    (blocks : List (Expression p)) : AddsClosures (h.hash blocks) :=
  bind (absorb hc _ _) fun _ => bind ofOption fun _ => hc _ _

theorem merkleTreeLoop {c : CompressionFunction p} (hc : ∀ x y, AddsClosures (c.compress x y)) :
    ∀ (l : List (BooleanExpression p × Expression p)) (x : Expression p), AddsClosures (B.merkleTreeLoop c l x)
  | [], _ => pure
  | (_, _) :: l, _ => bind (bind selection fun _ => hc _ _) fun _ => merkleTreeLoop hc l _

theorem merkleTreeRoot {c : CompressionFunction p} (hc : ∀ x y, AddsClosures (c.compress x y)) (x : Expression p)
    (path : MerklePath p) : AddsClosures (B.merkleTreeRoot x path c) := merkleTreeLoop hc _ _

theorem assertMerkleTreeMembership {c : CompressionFunction p} (hc : ∀ x y, AddsClosures (c.compress x y))
    (x y : Expression p) (path : MerklePath p) : AddsClosures (B.assertMerkleTreeMembership x y path c) :=
  bind (merkleTreeRoot hc _ _) fun _ => assertEqual

theorem permuteState {sp : Sponge p} (hs : ∀ l, AddsClosures (sp.permutation.permute l)) (i c : List (Expression p)) :
    AddsClosures (sp.permuteState i c) :=
  bind (hs _) fun _ => bind require fun _ => bind require fun _ => pure

theorem spongeAbsorb {sp : Sponge p} (hs : ∀ l, AddsClosures (sp.permutation.permute l)) :
    ∀ (cs : List (List (Expression p))) (i c : List (Expression p)), AddsClosures (sp.absorb cs i c)
  | [], _, _ => pure
  | _ :: cs, _, _ => bind ofOption fun _ => bind (permuteState hs _ _) fun _ => spongeAbsorb hs cs _ _

theorem squeeze {sp : Sponge p} (hs : ∀ l, AddsClosures (sp.permutation.permute l)) (k : ℕ) :
    ∀ (fuel : ℕ) (i c o : List (Expression p)), AddsClosures (sp.squeeze k fuel i c o)
  | 0, _, _, _ => by
    unfold Sponge.squeeze
    exact ite panic pure
  | fuel + 1, i, c, o => by
    unfold Sponge.squeeze
    exact ite (bind (permuteState hs _ _) fun s => squeeze hs k fuel _ _ _) pure

theorem sponge {sp : Sponge p} (hs : ∀ l, AddsClosures (sp.permutation.permute l)) (k : ℕ) (xs : List (Expression p)) :
    AddsClosures (sp.evaluate xs k) :=
  bind ofOption fun _ => bind (spongeAbsorb hs _ _ _) fun _ => bind (squeeze hs _ _ _ _ _) fun _ => pure

theorem mapExpressions {f : Expression p → B p (Expression p)} (hf : ∀ x, AddsClosures (f x)) :
    ∀ l, AddsClosures (B.mapExpressions f l)
  | [] => pure
  | _ :: xs => bind (hf _) fun _ => bind (mapExpressions hf xs) fun _ => pure

theorem sboxPermute (f : Poseidon p) (x : Expression p) : AddsClosures (f.sboxPermute x) := by
  refine bindOption fun s hs => ?_
  unfold Poseidon.sboxPermutation at hs
  split at hs
  · obtain rfl := Option.some.inj hs
    exact inverseOrZero
  all_goals
    obtain ⟨n, _, hs⟩ := Option.bind_eq_some_iff.1 hs
    obtain ⟨m, _, hs⟩ := Option.bind_eq_some_iff.1 hs
    obtain rfl := Option.some.inj hs
    exact monomial m

theorem sboxFirst (f : Poseidon p) : ∀ l, AddsClosures (f.sboxFirst l)
  | [] => panic
  | _ :: _ => bind (sboxPermute f _) fun _ => pure

theorem poseidonRounds (f : Poseidon p) : ∀ (left round : ℕ) (l : List (Expression p)), AddsClosures (f.rounds round left l)
  | 0, _, _ => pure
  | left + 1, round, _ => bind (ite (mapExpressions (sboxPermute f) _) (sboxFirst f _)) fun _ =>
    poseidonRounds f left (round + 1) _

theorem poseidon (f : Poseidon p) (l : List (Expression p)) : AddsClosures (f.permute l) :=
  bind require fun _ => bind require fun _ => poseidonRounds f _ _ _

theorem rescueRounds (f : Rescue p) : ∀ (left : ℕ) (l : List (Expression p)), AddsClosures (f.rounds left l)
  | 0, _ => pure
  | left + 1, _ => bind (mapExpressions (fun _ => bind ofOption fun m => monomial m) _) fun _ =>
    bind (mapExpressions (fun _ => bind ofOption fun m => root m) _) fun _ => rescueRounds f left _

theorem rescue (f : Rescue p) (l : List (Expression p)) : AddsClosures (f.permute l) := rescueRounds f _ _

/-! ### Curves and signatures -/

theorem edwardsNew (C : EdwardsCurve p) : AddsClosures (EdwardsExpression.new C x y) :=
  bind product fun _ => bind product fun _ => bind product fun _ => bind assertEqual fun _ => pure

theorem edwardsAdd (C : EdwardsCurve p) (P Q : EdwardsExpression p) : AddsClosures (EdwardsGroup.addExpressions C P Q) :=
  bind product fun _ => bind product fun _ => bind product fun _ => bind product fun _ =>
  bind product fun _ => bind quotientUnsafe fun _ => bind quotientUnsafe fun _ => pure

theorem edwardsDouble (C : EdwardsCurve p) (P : EdwardsExpression p) : AddsClosures (EdwardsGroup.doubleExpression C P) :=
  bind product fun _ => bind product fun _ => bind product fun _ => bind ofOption fun _ =>
  bind quotientUnsafe fun _ => bind ofOption fun _ => bind quotientUnsafe fun _ => pure

section
variable {GE GX : Type} {G : GroupOps p GE GX}

theorem selectAll (b : BooleanExpression p) : ∀ xs is : List (Expression p), AddsClosures (GroupOps.selectAll b xs is)
  | [], _ => pure
  | _ :: _, [] => panic
  | _ :: xs, _ :: is => bind selection fun _ => bind (selectAll b xs is) fun _ => pure

theorem mulBoolean (x : GX) (b : BooleanExpression p) : AddsClosures (G.mulBooleanExpression x b) :=
  bind ofOption fun _ => bind (selectAll _ _ _) fun _ => ofOption

theorem mulLoop (ha : ∀ x y, AddsClosures (G.addExpressions x y)) (hd : ∀ x, AddsClosures (G.doubleExpression x)) :
    ∀ (bits : List (BooleanExpression p)) (sum current : GX), AddsClosures (G.mulLoop bits sum current)
  | [], _, _ => pure
  | _ :: bits, _, _ => bind (mulBoolean _ _) fun _ => bind (ha _ _) fun _ => bind (hd _) fun _ =>
    mulLoop ha hd bits _ _

theorem mulScalar (ha : ∀ x y, AddsClosures (G.addExpressions x y)) (hd : ∀ x, AddsClosures (G.doubleExpression x)) (x : GX)
    (k : Expression p) : AddsClosures (G.mulScalarExpression x k) :=
  bind splitAllowingAmbiguity fun _ => bind ofOption fun _ => mulLoop ha hd _ _ _

theorem schnorr {C : CyclicGroupOps p GE GX} (ha : ∀ x y, AddsClosures (C.addExpressions x y))
    (hd : ∀ x, AddsClosures (C.doubleExpression x)) {c : CompressionFunction p} (hc : ∀ x y, AddsClosures (c.compress x y))
    (σ : SignatureExpression p) (m : Expression p) (Y : GX) : AddsClosures (schnorrVerify C c σ m Y) :=
  bind ofOption fun _ => bind (mulScalar ha hd _ _) fun _ => bind (mulScalar ha hd _ _) fun _ =>
    bind (ha _ _) fun _ => bind (hc _ _) fun _ => assertEqual

end

/-! ### Straight-line code -/

theorem onAll {kind : Obj p → Option α} {f : List α → B p β} (hf : ∀ l, AddsClosures (f l)) (os : List (Obj p)) :
    AddsClosures (Language.onAll kind f os) := bind ofOption fun _ => hf _

theorem call1 {f : α → B p β} (hf : ∀ x, AddsClosures (f x)) : ∀ l : List α, AddsClosures (Language.call1 f l)
  | [] => panic
  | [_] => hf _
  | _ :: _ :: _ => panic

theorem call2 {f : α → α → B p β} (hf : ∀ x y, AddsClosures (f x y)) : ∀ l : List α, AddsClosures (Language.call2 f l)
  | [] => panic
  | [_] => panic
  | [_, _] => hf _ _
  | _ :: _ :: _ :: _ => panic

theorem call3 {f : α → α → α → B p β} (hf : ∀ x y z, AddsClosures (f x y z)) : ∀ l : List α, AddsClosures (Language.call3 f l)
  | [] => panic
  | [_] => panic
  | [_, _] => panic
  | [_, _, _] => hf _ _ _
  | _ :: _ :: _ :: _ :: _ => panic

theorem call4 {f : α → α → α → α → B p β} (hf : ∀ x y z t, AddsClosures (f x y z t)) :
    ∀ l : List α, AddsClosures (Language.call4 f l)
  | [] => panic
  | [_] => panic
  | [_, _] => panic
  | [_, _, _] => panic
  | [_, _, _, _] => hf _ _ _ _
  | _ :: _ :: _ :: _ :: _ :: _ => panic

theorem call5 {f : α → α → α → α → α → B p β} (hf : ∀ x y z t u, AddsClosures (f x y z t u)) :
    ∀ l : List α, AddsClosures (Language.call5 f l)
  | [] => panic
  | [_] => panic
  | [_, _] => panic
  | [_, _, _] => panic
  | [_, _, _, _] => panic
  | [_, _, _, _, _] => hf _ _ _ _ _
  | _ :: _ :: _ :: _ :: _ :: _ :: _ => panic

theorem callList {f : α → List α → B p β} (hf : ∀ x l, AddsClosures (f x l)) : ∀ l : List α, AddsClosures (Language.callList f l)
  | [] => panic
  | _ :: _ => hf _ _

theorem callPointBool {f : Expression p → Expression p → BooleanExpression p → B p β}
    (hf : ∀ x y b, AddsClosures (f x y b)) (os : List (Obj p)) : AddsClosures (Language.callPointBool f os) := by
  rcases os with _ | ⟨_ | _ | _, _ | ⟨_ | _ | _, _ | ⟨_ | _ | _, _ | ⟨_, _⟩⟩⟩⟩
  all_goals first | exact panic | exact hf _ _ _

theorem callPath {f : Expression p → BinaryExpression p → List (Expression p) → B p β}
    (hf : ∀ x l xs, AddsClosures (f x l xs)) (os : List (Obj p)) : AddsClosures (Language.callPath f os) := by
  rcases os with _ | ⟨_ | _ | _, _ | ⟨_ | _ | _, os⟩⟩
  all_goals first | exact panic | exact onAll (hf _ _) os

theorem callPath2 {f : Expression p → Expression p → BinaryExpression p → List (Expression p) → B p β}
    (hf : ∀ x y l xs, AddsClosures (f x y l xs)) (os : List (Obj p)) : AddsClosures (Language.callPath2 f os) := by
  rcases os with _ | ⟨_ | _ | _, _ | ⟨_ | _ | _, _ | ⟨_ | _ | _, os⟩⟩⟩
  all_goals first | exact panic | exact onAll (hf _ _ _) os

theorem ret {m : B p α} {f : α → List (Obj p)} (h : AddsClosures m) :
    AddsClosures (do return f (← m)) := bind h fun _ => pure

theorem run (o : Op p) (h : Given o) (os : List (Obj p)) : AddsClosures (o.run os) := by
  cases o with
  | cmpBinary r =>
    cases r
    · exact onAll (call2 fun _ _ => ret cmpBinary) _
    · exact onAll (call2 fun _ _ => ret cmpBinary) _
    · exact onAll (call2 fun _ _ => ret cmpBinary) _
    · exact onAll (call2 fun _ _ => ret cmpBinary) _
  | assertCmpBinary r =>
    cases r
    · exact onAll (call2 fun _ _ => ret assertLtBinary) _
    · exact onAll (call2 fun _ _ => ret assertLeBinary) _
    · exact onAll (call2 fun _ _ => ret assertGtBinary) _
    · exact onAll (call2 fun _ _ => ret assertGeBinary) _
  | select =>
    by_cases hc : ∃ c x y, os = [.bool c, .expr x, .expr y]
    · obtain ⟨c, x, y, rfl⟩ := hc
      exact ret selection
    · rcases os with _ | ⟨_ | _ | _, _ | ⟨_ | _ | _, _ | ⟨_ | _ | _, _ | ⟨_, _⟩⟩⟩⟩
      all_goals first | exact panic | exact absurd ⟨_, _, _, rfl⟩ hc
  | add => exact onAll (call2 fun _ _ => ret pure) _
  | sub => exact onAll (call2 fun _ _ => ret pure) _
  | neg => exact onAll (call1 fun _ => ret pure) _
  | scale _ => exact onAll (call1 fun _ => ret pure) _
  | product => exact onAll (call2 fun _ _ => ret product) _
  | exp _ => exact onAll (call1 fun _ => ret exponentiation) _
  | inverse => exact onAll (call1 fun _ => ret inverse) _
  | quotient => exact onAll (call2 fun _ _ => ret quotient) _
  | inverseOrZero => exact onAll (call1 fun _ => ret inverseOrZero) _
  | quotientUnsafe => exact onAll (call2 fun _ _ => ret quotientUnsafe) _
  | nonzero => exact onAll (call1 fun _ => ret nonzero) _
  | zero => exact onAll (call1 fun _ => ret zero) _
  | equal => exact onAll (call2 fun _ _ => ret equal) _
  | assertEqual => exact onAll (call2 fun _ _ => ret assertEqual) _
  | assertNonequal => exact onAll (call2 fun _ _ => ret assertNonequal) _
  | assertZero => exact onAll (call1 fun _ => ret assertZero) _
  | assertNonzero => exact onAll (call1 fun _ => ret assertNonzero) _
  | assertProduct => exact onAll (call3 fun _ _ _ => ret assertProduct) _
  | assertBoolean => exact onAll (call1 fun _ => ret assertBoolean) _
  | lt => exact onAll (call2 fun _ _ => ret cmp) _
  | le => exact onAll (call2 fun _ _ => ret cmp) _
  | gt => exact onAll (call2 fun _ _ => ret cmp) _
  | ge => exact onAll (call2 fun _ _ => ret cmp) _
  | assertLt => exact onAll (call2 fun _ _ => ret assertLt) _
  | assertLe => exact onAll (call2 fun _ _ => ret assertLe) _
  | assertGt => exact onAll (call2 fun _ _ => ret assertGt) _
  | assertGe => exact onAll (call2 fun _ _ => ret assertGe) _
  | modulus => exact onAll (call2 fun _ _ => ret modulus) _
  | divides => exact onAll (call2 fun _ _ => ret divides) _
  | split => exact onAll (call1 fun _ => ret split) _
  | splitAllowingAmbiguity => exact onAll (call1 fun _ => ret splitAllowingAmbiguity) _
  | splitBounded _ => exact onAll (call1 fun _ => ret splitBounded) _
  | join => exact onAll (call1 fun _ => ret ofOption) _
  | joinAllowingOverflow => exact onAll (call1 fun _ => ret ofOption) _
  | not => exact onAll (call1 fun _ => ret not) _
  | and => exact onAll (call2 fun _ _ => ret and) _
  | or => exact onAll (call2 fun _ _ => ret or) _
  | xor => exact onAll (call2 fun _ _ => ret xor) _
  | assertTrue => exact onAll (call1 fun _ => ret assertTrue) _
  | assertFalse => exact onAll (call1 fun _ => ret assertFalse) _
  | toExpr => exact onAll (call1 fun _ => ret pure) _
  | bitwiseNot => exact onAll (call1 fun _ => ret bitwiseNot) _
  | bitwiseAnd => exact onAll (call2 fun _ _ => ret bitwiseAnd) _
  | bitwiseOr => exact onAll (call2 fun _ _ => ret bitwiseOr) _
  | bitwiseXor => exact onAll (call2 fun _ _ => ret bitwiseXor) _
  | rotateInc _ => exact onAll (call1 fun _ => ret ofOption) _
  | rotateDec _ => exact onAll (call1 fun _ => ret ofOption) _
  | shiftInc _ => exact onAll (call1 fun _ => ret ofOption) _
  | shiftDec _ => exact onAll (call1 fun _ => ret ofOption) _
  | binaryAssertZero => exact onAll (call1 fun _ => ret binaryAssertZero) _
  | const _ => exact pure
  | constBool _ => exact pure
  | constBits _ => exact pure
  | pack => exact onAll (fun _ => ret pure) _
  | unpack => exact onAll (call1 fun _ => pure) _
  | binarySum => exact onAll (fun _ => ret binarySummation) _
  | binarySumIgnoringOverflow => exact onAll (fun _ => ret binarySummationIgnoringOverflow) _
  | binarySumAssertingNoOverflow => exact onAll (fun _ => ret binarySummationAssertingNoOverflow) _
  | randomAccess => exact onAll (callList fun _ _ => ret randomAccess) _
  | assertPermutation _ => exact onAll (fun _ => ret assertPermutation) _
  | sortAscending => exact onAll (fun _ => ret sortAscending) _
  | sortDescending => exact onAll (fun _ => ret sortDescending) _
  | function => exact onAll (fun _ => bind require fun _ => ret (h _)) _
  | edwardsNew _ => exact onAll (call2 fun _ _ => ret (edwardsNew _)) _
  | edwardsAdd _ => exact onAll (call4 fun _ _ _ _ => ret (edwardsAdd _ _ _)) _
  | edwardsDouble _ => exact onAll (call2 fun _ _ => ret (edwardsDouble _ _)) _
  | edwardsMulBoolean _ => exact callPointBool (fun _ _ _ => ret (mulBoolean _ _)) _
  | edwardsMulScalar C => exact onAll (call3 fun _ _ _ => ret (mulScalar (edwardsAdd C) (edwardsDouble C) _ _)) _
  | schnorrVerify C G k =>
    exact onAll (call5 fun _ _ _ _ _ => ret (schnorr (C := cyclicSubgroup (EdwardsGroup.ops C) (some G))
      (edwardsAdd C) (edwardsDouble C) h _ _ _)) _
  | merkleRoot _ => exact callPath (fun _ _ _ => bind ofOption fun _ => ret (merkleTreeRoot h _ _)) _
  | assertMembership _ =>
    exact callPath2 (fun _ _ _ _ => bind ofOption fun _ => ret (assertMerkleTreeMembership h _ _ _)) _

theorem step {i : Op p × List ℕ} (h : Given i.1) (os : List (Obj p)) : AddsClosures (Circuit.step i os) :=
  bind ofOption fun _ => bind (run _ h _) fun _ => pure

theorem runFrom : ∀ {c : Circuit p}, (∀ i ∈ c, Given i.1) → ∀ os, AddsClosures (Circuit.runFrom c os)
  | [], _, _ => pure
  | i :: c, h, _ => bind (step (h i (by simp)) _) fun _ => runFrom (fun j hj => h j (by simp [hj])) _

theorem build {c : Circuit p} (h : ∀ i ∈ c, Given i.1) (k : ℕ) : AddsClosures (Circuit.build k c) :=
  bind (wires k) fun _ => runFrom h _

end R1CS.Raw.AddsClosures
