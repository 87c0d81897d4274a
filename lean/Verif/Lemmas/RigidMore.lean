import Verif.Lemmas.Rigid
import Verif.Lemmas.BinaryOps
import Verif.Lemmas.Hashes
import Verif.Lemmas.Matrices
import Verif.Lemmas.Costs

/-!
# Wires which are determined: binary operations, random access, hash functions
-/

set_option linter.unusedSectionVars false

namespace R1CS

variable {p : ℕ} [hp : Fact p.Prime] {α β : Type}

namespace Det

variable {n : ℕ} {P : Assign p → Prop} {S : α → ℕ → Prop}

theorem determined {m : B p α} (h : Det n (fun _ => True) m S) : Determined n m S :=
  ⟨h.rigid, fun b b' a hb hr => ⟨(h b b' a hb hr).1, (h b b' a hb hr).2.1, (h b b' a hb hr).2.2.1⟩⟩

theorem ofDetermined {m : B p α} (h : Determined n m S) : Det n P m S := fun b b' a hb hr =>
  ⟨(h.2 b b' a hb hr).1, (h.2 b b' a hb hr).2.1, (h.2 b b' a hb hr).2.2,
    fun W1 W2 h1 h2 ha _ _ => h.1 b b' a hb hr W1 W2 h1 h2 ha trivial⟩

/-! ## Binary arithmetic -/

theorem mapM_join_scoped {ts : List (BinaryExpression p)} {es : List (Expression p)}
    (h : ts.mapM BinaryExpression.join = some es) (hs : ∀ t ∈ ts, t.Scoped n) :
    ∀ e ∈ es, e.Scoped n := by
  intro e he
  obtain ⟨c, hc, hj⟩ := mem_mapM_join h he
  exact BinaryExpression.join_scoped hj (hs c hc)

theorem binarySummation {ts : List (BinaryExpression p)} (hs : ∀ t ∈ ts, t.Scoped n) :
    Det n P (B.binarySummation ts) fun z k => z.Scoped k := by
  unfold B.binarySummation
  refine (Det.require _).bind fun _ k hk ⟨hlt, e⟩ => ?_
  subst e
  set K := (B.maxSum ts).size with hK
  have h2 := Elem.two_pow_lt_of_lt_maxBits hlt
  set e : BinaryExpression p := BinaryExpression.ofWire (bitsAt k K) with he
  have hlen : e.len = K := by rw [he, BinaryExpression.ofWire_len]; simp [bitsAt]
  refine Det.binaryWire (U := fun _ W => ∃ es, ts.mapM BinaryExpression.join = some es ∧
      (Expression.sumOfExpressions es).eval W = ((e.val W : ℕ) : Elem p)) ?_ ?_ ?_
  · refine (Enforces.ofOption (Q := fun es _ => ts.mapM BinaryExpression.join = some es)
      fun es hes _ _ => hes).bind fun es => (Enforces.ofOption (Q := fun s w => s.eval w
        = ((e.val w : ℕ) : Elem p)) ?_).bind fun s => (Enforces.assertEqual _ s).bind fun _ =>
        (Enforces.generator _ _).bind fun _ => Enforces.pure fun W _ _ h2 h3 h4 =>
          ⟨es, h4, h2.trans h3⟩
    intro s hs w _
    exact eval_join hs w
  · rintro _ W1 W2 _ _ ha _ _ b1 b2 ⟨es, h1, e1⟩ ⟨es', h1', e2⟩
    rw [h1] at h1'
    obtain rfl := Option.some.inj h1'
    have v1 := b1.val_lt
    have v2 := b2.val_lt
    rw [← he, hlen] at v1 v2
    have hsc : (Expression.sumOfExpressions es).Scoped k :=
      .sumOfExpressions (mapM_join_scoped h1 hs)
    rw [ha.eval hsc, e2] at e1
    have := congrArg Elem.n e1
    rw [Elem.natCast_n_of_lt (by omega), Elem.natCast_n_of_lt (by omega)] at this
    exact this.symm
  · exact (Det.ofOption (S := fun _ k' => k' = k + K) fun _ _ => rfl).bind fun es k1 _ h1 =>
      (Det.ofOption (S := fun _ k' => k' = k1) fun _ _ => rfl).bind fun s k2 _ h2 =>
      (assertEqual _ _).bind fun _ k3 _ h3 => (generator _ _).bind fun _ k4 _ h4 => Det.pure (by
        have : k4 = k + K := by rw [h4, h3, h2, h1]
        rw [this]
        exact bitsAt_scoped k K)

theorem truncated_scoped {e z : BinaryExpression p} {l : ℕ} (h : e.truncated l = some z)
    (he : e.Scoped n) : z.Scoped n := by
  unfold BinaryExpression.truncated at h
  split at h
  · injection h with h
    rw [← h]
    exact fun b hb => he b (List.mem_of_mem_take hb)
  · exact absurd h (by simp)

theorem binarySummationIgnoringOverflow {ts : List (BinaryExpression p)}
    (hs : ∀ t ∈ ts, t.Scoped n) :
    Det n P (B.binarySummationIgnoringOverflow ts) fun z k => z.Scoped k :=
  (binarySummation hs).bind fun _ _ _ h => Det.ofOption fun _ hz => truncated_scoped hz h

theorem assertZeros : ∀ l : List (BinaryExpression p), Det n P (B.assertZeros l) fun _ k => k = n
  | [] => Det.pure rfl
  | c :: cs => by
    unfold B.assertZeros
    refine (Det.ofOption (S := fun _ k => k = n) fun _ _ => rfl).bind fun j k _ h =>
      (assertZero j).bind fun _ k' _ h' => ?_
    rw [h', h]
    exact assertZeros cs

theorem binaryAssertZero (x : BinaryExpression p) :
    Det n P (B.binaryAssertZero x) fun _ k => k = n :=
  (Det.ofOption (S := fun _ k => k = n) fun _ _ => rfl).bind fun cs k _ h => by
    rw [h]
    exact assertZeros cs

theorem binarySummationAssertingNoOverflow {ts : List (BinaryExpression p)}
    (hs : ∀ t ∈ ts, t.Scoped n) :
    Det n P (B.binarySummationAssertingNoOverflow ts) fun z k => z.Scoped k :=
  (binarySummation hs).bind fun _ k1 _ h => (Det.require _).bind fun _ k2 _ ⟨_, h2⟩ =>
    (binaryAssertZero _).bind fun _ k3 _ h3 => Det.ofOption fun _ hz => truncated_scoped hz (by
      rw [h3, h2]
      exact h)

/-! ## Bitwise operations -/

theorem notBits (hn : 1 ≤ n) : ∀ (l : List (BooleanExpression p)), (∀ b ∈ l, b.Scoped n) →
    Det n P (B.notBits l) fun z k => (⟨z⟩ : BinaryExpression p).Scoped k := by
  intro l
  induction l generalizing n with
  | nil => exact fun _ => Det.pure (by intro b hb; cases hb)
  | cons b l ih =>
    intro h
    unfold B.notBits
    refine (not hn (h b (by simp))).bind fun c k hk hc => (ih (hn.trans hk) fun x hx =>
      Expression.Scoped.mono (h x (by simp [hx])) hk).bind fun cs k' hk' hcs => Det.pure ?_
    intro x hx
    rcases List.mem_cons.1 hx with rfl | hx
    · exact Expression.Scoped.mono hc hk'
    · exact hcs x hx

theorem zipBits {op : BooleanExpression p → BooleanExpression p → B p (BooleanExpression p)}
    (hop : ∀ n x y, x.Scoped n → y.Scoped n → Det n P (op x y) fun z k => z.Scoped k) :
    ∀ (l l' : List (BooleanExpression p)) (n : ℕ), (∀ b ∈ l, b.Scoped n) → (∀ b ∈ l', b.Scoped n) →
    Det n P (B.zipBits op l l') fun z k => (⟨z⟩ : BinaryExpression p).Scoped k
  | [], _, _, _, _ => Det.pure (by intro b hb; cases hb)
  | _ :: _, [], _, _, _ => Det.pure (by intro b hb; cases hb)
  | b :: l, c :: l', n, h, h' => by
    unfold B.zipBits
    refine (hop n b c (h b (by simp)) (h' c (by simp))).bind fun d k hk hd =>
      (zipBits hop l l' k (fun x hx => Expression.Scoped.mono (h x (by simp [hx])) hk)
        fun x hx => Expression.Scoped.mono (h' x (by simp [hx])) hk).bind
        fun cs k' hk' hcs => Det.pure ?_
    intro x hx
    rcases List.mem_cons.1 hx with rfl | hx
    · exact Expression.Scoped.mono hd hk'
    · exact hcs x hx

theorem bitwiseNot (hn : 1 ≤ n) {x : BinaryExpression p} (hx : x.Scoped n) :
    Det n P (B.bitwiseNot x) fun z k => z.Scoped k :=
  (notBits hn _ hx).bind fun _ _ _ h => Det.pure h

theorem bitwiseAnd {x y : BinaryExpression p} (hx : x.Scoped n) (hy : y.Scoped n) :
    Det n P (B.bitwiseAnd x y) fun z k => z.Scoped k :=
  (Det.require _).bind fun _ k _ ⟨_, h⟩ => by
    rw [h]
    exact (zipBits (fun n x y hx hy => and hx hy) _ _ _ hx hy).bind fun _ _ _ h => Det.pure h

theorem bitwiseOr {x y : BinaryExpression p} (hx : x.Scoped n) (hy : y.Scoped n) :
    Det n P (B.bitwiseOr x y) fun z k => z.Scoped k :=
  (Det.require _).bind fun _ k _ ⟨_, h⟩ => by
    rw [h]
    exact (zipBits (fun n x y hx hy => or hx hy) _ _ _ hx hy).bind fun _ _ _ h => Det.pure h

theorem bitwiseXor {x y : BinaryExpression p} (hx : x.Scoped n) (hy : y.Scoped n) :
    Det n P (B.bitwiseXor x y) fun z k => z.Scoped k :=
  (Det.require _).bind fun _ k _ ⟨_, h⟩ => by
    rw [h]
    exact (zipBits (fun n x y hx hy => xor hx hy) _ _ _ hx hy).bind fun _ _ _ h => Det.pure h

/-! ## Random access -/

theorem parentLayer {b : BooleanExpression p} : ∀ (l : List (Expression p)) (n : ℕ), b.Scoped n →
    ListScoped n l → Det n P (B.parentLayer b l) fun z k => ListScoped k z
  | [], _, _, h => Det.pure h
  | [_], _, _, h => Det.pure h
  | x :: y :: l, n, hb, h => by
    unfold B.parentLayer
    refine (selection hb (h y (by simp)) (h x (by simp))).bind fun z k hk hz =>
      (parentLayer l k (Expression.Scoped.mono hb hk) fun e he => (h e (by simp [he])).mono hk).bind
        fun zs k' hk' hzs => Det.pure ?_
    intro e he
    rcases List.mem_cons.1 he with rfl | he
    · exact hz.mono hk'
    · exact hzs e he

theorem randomAccessBinary : ∀ (bs : List (BooleanExpression p)) (l : List (Expression p)) (n : ℕ),
    (∀ b ∈ bs, b.Scoped n) → ListScoped n l →
    Det n P (B.randomAccessBinary bs l) fun z k => z.Scoped k
  | [], l, n, _, h => by
    unfold B.randomAccessBinary
    split
    · exact Det.pure (h _ (by simp))
    · exact Det.panic
    · simp_all
    · simp_all
  | b :: bs, l, n, hb, h => by
    unfold B.randomAccessBinary
    split
    · simp_all
    · simp_all
    · exact Det.panic
    · next lsb bits heq _ =>
      obtain ⟨rfl, rfl⟩ := List.cons.inj heq
      exact (parentLayer _ n (hb b (by simp)) h).bind fun ps k hk hps =>
        randomAccessBinary bs ps k (fun c hc => Expression.Scoped.mono (hb c (by simp [hc])) hk) hps

theorem randomAccess {l : List (Expression p)} {i : Expression p} (hl : ListScoped n l)
    (hi : i.Scoped n) : Det n P (B.randomAccess l i) fun z k => z.Scoped k :=
  (splitBounded hi _).bind fun _ k hk he => randomAccessBinary _ _ k he
    fun e h => (hl e h).mono hk

/-! ## Permutations and ciphers -/

/-- A method with one operand which determines its wires. -/
def Unary (P : Assign p → Prop) (f : Expression p → B p (Expression p)) : Prop :=
  ∀ n x, 1 ≤ n → x.Scoped n → Det n P (f x) fun z k => z.Scoped k

/-- A method with two operands which determines its wires. -/
def Binary (P : Assign p → Prop) (f : Expression p → Expression p → B p (Expression p)) : Prop :=
  ∀ n x y, 1 ≤ n → x.Scoped n → y.Scoped n → Det n P (f x y) fun z k => z.Scoped k

/-- A method on a list which determines its wires. -/
def Multi (P : Assign p → Prop) (f : List (Expression p) → B p (List (Expression p))) : Prop :=
  ∀ n x, 1 ≤ n → ListScoped n x → Det n P (f x) fun z k => ListScoped k z

theorem monomialPermute (f : MonomialPermutation p) : Unary P f.permute :=
  fun _ _ hn hx => exponentiation hn hx _

theorem monomialInverse {a : Elem p} {f : MonomialPermutation p}
    (hf : MonomialPermutation.new a = some f) : Unary P f.inverse := by
  obtain ⟨hc, rfl⟩ := (MonomialPermutation.new_eq_some_iff _ _).1 hf
  intro n x hn hx
  unfold MonomialPermutation.inverse
  refine Det.wire (U := fun _ W => a.n ≠ 0 ∧ W n ^ a.n = x.eval W) ?_ ?_ ?_
  · refine (Enforces.exponentiation _ _).bind fun z => (Enforces.assertEqual z x).bind fun _ =>
      (Enforces.ofOption (Q := fun _ _ => a.n ≠ 0) ?_).bind fun e =>
        (Enforces.generator _ _).bind fun _ => Enforces.pure fun W _ _ h1 h2 h3 => ⟨h1, ?_⟩
    · intro e he _ _ h0
      unfold MonomialPermutation.rootExponent at he
      rw [h0] at he
      simp [MonomialPermutation.exponentLoop] at he
    · rw [← h2, h3, Expression.eval_ofWire]
  · intro _ W1 W2 _ _ ha _ _ ⟨h0, h1⟩ ⟨_, h2⟩
    rw [ha.eval hx, ← h2] at h1
    exact (MonomialPermutation.bijective_of_coprime h0 a.lt hc).1 h1
  · exact (exponentiation (by omega) (.ofWire (by omega)) _).bind fun z k1 l1 _ =>
      (assertEqual _ _).bind fun _ k2 l2 h2 =>
      (Det.ofOption (S := fun _ k => k = k2) fun _ _ => rfl).bind fun e k3 l3 h3 =>
        (generator _ _).bind fun _ k4 l4 h4 => Det.pure (.ofWire (by omega))

theorem encryptRounds {c : MiMC p} {key : Expression p} : ∀ (rcs : List (Elem p))
    (x : Expression p) (n : ℕ), 1 ≤ n → key.Scoped n → x.Scoped n →
    Det n P (c.encryptRounds key rcs x) fun z k => z.Scoped k
  | [], _, _, _, _, hx => Det.pure hx
  | rc :: rcs, x, n, hn, hk, hx =>
    (monomialPermute _ n _ hn (hx.add (hk.add (.ofElem hn rc)))).bind fun z k l hz =>
      encryptRounds rcs z k (hn.trans l) (hk.mono l) hz

theorem encrypt (c : MiMC p) : Binary P c.encrypt := fun n key x hn hk hx =>
  (monomialPermute _ n _ hn (hx.add hk)).bind fun z k l hz =>
    (encryptRounds _ z k (hn.trans l) (hk.mono l) hz).bind fun _ _ l' h' =>
      Det.pure (h'.add (hk.mono (l.trans l')))

theorem decryptRounds {c : MiMC p} {a : Elem p}
    (hc : MonomialPermutation.new a = some c.roundPermutation) {key : Expression p} :
    ∀ (rcs : List (Elem p)) (x : Expression p) (n : ℕ), 1 ≤ n → key.Scoped n → x.Scoped n →
    Det n P (c.decryptRounds key rcs x) fun z k => z.Scoped k
  | [], _, _, _, _, hx => Det.pure hx
  | rc :: rcs, x, n, hn, hk, hx =>
    (monomialInverse hc n _ hn hx).bind fun z k l hz =>
      decryptRounds hc rcs _ k (hn.trans l) (hk.mono l)
        (hz.sub ((hk.mono l).add (.ofElem (hn.trans l) rc)))

theorem decrypt {c : MiMC p} {a : Elem p}
    (hc : MonomialPermutation.new a = some c.roundPermutation) : Binary P c.decrypt :=
  fun n key x hn hk hx => (decryptRounds hc _ _ n hn hk (hx.sub hk)).bind fun z k l hz =>
    (monomialInverse hc k _ (hn.trans l) hz).bind fun _ _ l' h' =>
      Det.pure (h'.sub (hk.mono (l.trans l')))

/-! ## Hash functions -/

theorem daviesMeyer {c : BlockCipher p} (h : Binary P c.encrypt) :
    Binary P (R1CS.daviesMeyer c).compress := fun n x y hn hx hy =>
  (h n y x hn hy hx).bind fun _ _ l hz => Det.pure (hz.add (hx.mono l))

theorem miyaguchiPreneel {c : BlockCipher p} (h : Binary P c.encrypt) :
    Binary P (R1CS.miyaguchiPreneel c).compress := fun n x y hn hx hy =>
  (h n x y hn hx hy).bind fun _ _ l hz => Det.pure ((hz.add (hx.mono l)).add (hy.mono l))

theorem merkleDamgardAbsorb {h : MerkleDamgard p} (hc : Binary P h.compress.compress) :
    ∀ (l : List (Expression p)) (x : Expression p) (n : ℕ), 1 ≤ n → ListScoped n l → x.Scoped n →
    Det n P (h.absorb l x) fun z k => z.Scoped k
  | [], _, _, _, _, hx => Det.pure hx
  | y :: l, x, n, hn, hl, hx =>
    (hc n x y hn hx (hl y (by simp))).bind fun z k lk hz => merkleDamgardAbsorb hc l z k
      (hn.trans lk) (fun e he => (hl e (by simp [he])).mono lk) hz

theorem merkleDamgard {h : MerkleDamgard p} (hc : Binary P h.compress.compress) (hn : 1 ≤ n)
    {l : List (Expression p)} (hl : ListScoped n l) :
    Det n P (h.hash l) fun z k => z.Scoped k :=
  (merkleDamgardAbsorb hc l _ n hn hl (.ofElem hn _)).bind fun z k lk hz =>
    (Det.ofOption (S := fun e k' => k' = k ∧ e.Scoped k) fun e he => ⟨rfl, by
      unfold Expression.ofNat? at he
      obtain ⟨c, _, rfl⟩ := Option.map_eq_some_iff.1 he
      exact .ofElem (hn.trans lk) c⟩).bind fun e k' _ ⟨h1, h2⟩ => by
        rw [h1]
        exact hc k z e (hn.trans lk) hz h2

theorem merkleTreeLoop {c : CompressionFunction p} (hc : Binary P c.compress) :
    ∀ (l : List (BooleanExpression p × Expression p)) (x : Expression p) (n : ℕ), 1 ≤ n →
    (∀ z ∈ l, z.1.Scoped n ∧ z.2.Scoped n) → x.Scoped n →
    Det n P (B.merkleTreeLoop c l x) fun z k => z.Scoped k
  | [], _, _, _, _, hx => Det.pure hx
  | (b, y) :: l, x, n, hn, hl, hx => by
    obtain ⟨hb, hy⟩ := hl (b, y) (by simp)
    unfold B.merkleTreeLoop B.merkleTreeStep
    refine Det.bind (S := fun z k => z.Scoped k) ((selection hb hy hx).bind fun left k lk hleft =>
      hc k left _ (hn.trans lk) hleft (((hy.mono lk).add (hx.mono lk)).sub hleft)) fun z k lk hz =>
        merkleTreeLoop hc l z k (hn.trans lk) (fun e he => ?_) hz
    obtain ⟨h1, h2⟩ := hl e (by simp [he])
    exact ⟨Expression.Scoped.mono h1 lk, h2.mono lk⟩

theorem merkleTreeRoot {c : CompressionFunction p} (hc : Binary P c.compress) (hn : 1 ≤ n)
    {x : Expression p} {path : MerklePath p} (hx : x.Scoped n) (hb : path.pathBits.Scoped n)
    (hs : ListScoped n path.siblings) : Det n P (B.merkleTreeRoot x path c) fun z k => z.Scoped k :=
  merkleTreeLoop hc _ x n hn (fun _ hz => ⟨hb _ (List.of_mem_zip hz).1,
    hs _ (List.of_mem_zip hz).2⟩) hx

theorem merkleMembership {c : CompressionFunction p} (hc : Binary P c.compress) (hn : 1 ≤ n)
    {x r : Expression p} {path : MerklePath p} (hx : x.Scoped n) (hb : path.pathBits.Scoped n)
    (hs : ListScoped n path.siblings) :
    Det n P (B.assertMerkleTreeMembership x r path c) fun _ _ => True :=
  (merkleTreeRoot hc hn hx hb hs).bind fun _ _ _ _ => (assertEqual _ _).post fun _ _ _ _ => trivial

/-! ## Sponges -/

theorem addChunk_scoped : ∀ {l c r : List (Expression p)}, Sponge.addChunk l c = some r →
    ListScoped n l → ListScoped n c → ListScoped n r
  | l, [], r, h, hl, _ => by
    simp only [Sponge.addChunk, Option.some.injEq] at h
    exact h ▸ hl
  | [], _ :: _, _, h, _, _ => absurd h (by simp [Sponge.addChunk])
  | s :: ss, e :: es, r, h, hl, hc => by
    simp only [Sponge.addChunk] at h
    rw [Option.bind_eq_bind, Option.bind_eq_some_iff] at h
    obtain ⟨rest, h1, h2⟩ := h
    obtain rfl := Option.some.inj h2
    have := addChunk_scoped h1 (fun x hx => hl x (by simp [hx])) fun x hx => hc x (by simp [hx])
    intro x hx
    rcases List.mem_cons.1 hx with rfl | hx
    · exact (hl s (by simp)).add (hc e (by simp))
    · exact this x hx

theorem permuteState {sp : Sponge p} (h : Multi P sp.permutation.permute) (hn : 1 ≤ n)
    {x y : List (Expression p)} (hx : ListScoped n x) (hy : ListScoped n y) :
    Det n P (sp.permuteState x y) fun z k => ListScoped k z.1 ∧ ListScoped k z.2 :=
  (h n _ hn (hx.append hy)).bind fun z k _ hz => (Det.require _).bind fun _ k1 _ ⟨_, h1⟩ =>
    (Det.require _).bind fun _ k2 _ ⟨_, h2⟩ => Det.pure (by
      rw [h2, h1]
      exact ⟨hz.take _, hz.drop _⟩)

theorem spongeAbsorb {sp : Sponge p} (h : Multi P sp.permutation.permute) :
    ∀ (cs : List (List (Expression p))) (x y : List (Expression p)) (n : ℕ), 1 ≤ n →
    (∀ c ∈ cs, ListScoped n c) → ListScoped n x → ListScoped n y →
    Det n P (sp.absorb cs x y) fun z k => ListScoped k z.1 ∧ ListScoped k z.2
  | [], _, _, _, _, _, hx, hy => Det.pure ⟨hx, hy⟩
  | c :: cs, x, y, n, hn, hc, hx, hy => by
    unfold Sponge.absorb
    refine (Det.ofOption (S := fun e k => k = n ∧ ListScoped n e) fun e he =>
      ⟨rfl, addChunk_scoped he hx (hc c (by simp))⟩).bind fun e k _ ⟨h1, h2⟩ => ?_
    rw [h1]
    exact (permuteState h hn h2 hy).bind fun z k l hz => spongeAbsorb h cs _ _ k (hn.trans l)
      (fun d hd => (hc d (by simp [hd])).mono l) hz.1 hz.2

theorem spongeSqueeze {sp : Sponge p} (h : Multi P sp.permutation.permute) (len : ℕ) :
    ∀ (fuel : ℕ) (x y out : List (Expression p)) (n : ℕ), 1 ≤ n → ListScoped n x → ListScoped n y →
    ListScoped n out → Det n P (sp.squeeze len fuel x y out) fun z k => ListScoped k z
  | 0, _, _, _, _, _, _, _, ho => by
    unfold Sponge.squeeze
    split
    · exact Det.panic
    · exact Det.pure ho
  | fuel + 1, x, y, out, n, hn, hx, hy, ho => by
    unfold Sponge.squeeze
    split
    · exact (permuteState h hn hx hy).bind fun z k l hz => spongeSqueeze h len fuel _ _ _ k
        (hn.trans l) hz.1 hz.2 ((ho.mono l).append hz.1)
    · exact Det.pure ho

theorem mem_chunksOf {a : α} {c : List α} (k : ℕ) : ∀ (fuel : ℕ) (l : List α),
    c ∈ chunksOf.go k fuel l → a ∈ c → a ∈ l
  | 0, _, hc, _ => absurd hc (by simp [chunksOf.go])
  | _ + 1, [], hc, _ => absurd hc (by simp [chunksOf.go])
  | fuel + 1, x :: xs, hc, ha => by
    unfold chunksOf.go at hc
    rcases List.mem_cons.1 hc with rfl | hc
    · exact List.mem_of_mem_take ha
    · exact List.mem_of_mem_drop (mem_chunksOf k fuel _ hc ha)

theorem spongeEvaluate {sp : Sponge p} (h : Multi P sp.permutation.permute) (hn : 1 ≤ n)
    {x : List (Expression p)} (hx : ListScoped n x) (len : ℕ) :
    Det n P (sp.evaluate x len) fun z k => ListScoped k z := by
  unfold Sponge.evaluate
  have h0 : ∀ m : ℕ, ListScoped n (List.replicate m (0 : Expression p)) := fun m e he => by
    rw [List.eq_of_mem_replicate he]
    exact .zero
  refine (Det.ofOption (S := fun cs k => k = n ∧ ∀ c ∈ cs, ListScoped n c) fun cs hcs => ⟨rfl, ?_⟩).bind
    fun cs k _ ⟨h1, h2⟩ => ?_
  · unfold chunks? at hcs
    split at hcs
    · exact absurd hcs (by simp)
    · obtain rfl := Option.some.inj hcs
      exact fun c hc e he => hx e (mem_chunksOf _ _ _ hc he)
  · rw [h1]
    exact (spongeAbsorb h cs _ _ n hn h2 (h0 _) (h0 _)).bind fun z k l hz =>
      (spongeSqueeze h len len _ _ _ k (hn.trans l) hz.1 hz.2 hz.1).bind fun z k _ hz =>
        Det.pure (hz.take _)

/-! ## Poseidon and Rescue -/

theorem mapExpressions {f : Expression p → B p (Expression p)} (hf : Unary P f) :
    ∀ (l : List (Expression p)) (n : ℕ), 1 ≤ n → ListScoped n l →
    Det n P (B.mapExpressions f l) fun z k => ListScoped k z
  | [], _, _, _ => Det.pure (by intro e he; cases he)
  | x :: l, n, hn, hl => by
    unfold B.mapExpressions
    refine (hf n x hn (hl x (by simp))).bind fun y k lk hy =>
      (mapExpressions hf l k (hn.trans lk) fun e he => (hl e (by simp [he])).mono lk).bind
        fun ys k' lk' hys => Det.pure ?_
    intro e he
    rcases List.mem_cons.1 he with rfl | he
    · exact hy.mono lk'
    · exact hys e he

theorem sboxPermute {f : Poseidon p} (hf : f.sbox ≠ .inverse) : Unary P f.sboxPermute := by
  intro n x hn hx
  unfold Poseidon.sboxPermute
  refine (Det.ofOption (S := fun s k => k = n ∧ ∃ m : MonomialPermutation p, s = m.toPermutation)
    fun s hs => ⟨rfl, ?_⟩).bind fun s k _ ⟨h1, m, h2⟩ => ?_
  · unfold Poseidon.sboxPermutation at hs
    cases hfs : f.sbox with
    | inverse => exact absurd hfs hf
    | exponentiation3 =>
      simp only [hfs] at hs
      simp only [Option.bind_eq_bind, Option.bind_eq_some_iff] at hs
      obtain ⟨_, _, m, _, hm⟩ := hs
      exact ⟨m, (Option.some.inj hm).symm⟩
    | exponentiation5 =>
      simp only [hfs] at hs
      simp only [Option.bind_eq_bind, Option.bind_eq_some_iff] at hs
      obtain ⟨_, _, m, _, hm⟩ := hs
      exact ⟨m, (Option.some.inj hm).symm⟩
  · rw [h1, h2]
    exact monomialPermute m n x hn hx

theorem poseidonRounds {f : Poseidon p} (hf : f.sbox ≠ .inverse) : ∀ (left round : ℕ)
    (l : List (Expression p)) (n : ℕ), 1 ≤ n → ListScoped n l →
    Det n P (f.rounds round left l) fun z k => ListScoped k z
  | 0, _, _, _, _, hl => Det.pure hl
  | left + 1, round, l, n, hn, hl => by
    unfold Poseidon.rounds
    refine Det.bind (S := fun z k => ListScoped k z) ?_ fun z k lk hz =>
      poseidonRounds hf left (round + 1) _ k (hn.trans lk) (ElementMatrix.scoped_mulExpressions _ hz)
    split
    · exact mapExpressions (sboxPermute hf) l n hn hl
    · cases l with
      | nil => exact Det.panic
      | cons x l =>
        refine (sboxPermute hf n x hn (hl x (by simp))).bind fun y k lk hy => Det.pure ?_
        intro e he
        rcases List.mem_cons.1 he with rfl | he
        · exact hy
        · exact (hl e (by simp [he])).mono lk

theorem poseidon {f : Poseidon p} (hf : f.sbox ≠ .inverse) : Multi P f.permute :=
  fun n x hn hx => (Det.require _).bind fun _ k1 _ ⟨_, h1⟩ => (Det.require _).bind
    fun _ k2 _ ⟨_, h2⟩ => by
      rw [h2, h1]
      exact poseidonRounds hf _ _ x n hn hx

theorem pi1 (f : Rescue p) : Unary P f.pi1 := fun n x hn hx =>
  (Det.ofOption (S := fun _ k => k = n) fun _ _ => rfl).bind fun m k _ h => by
    rw [h]
    exact monomialPermute m n x hn hx

theorem pi2 (f : Rescue p) : Unary P f.pi2 := fun n x hn hx =>
  (Det.ofOption (S := fun m k => k = n ∧ MonomialPermutation.new f.alpha = some m)
    fun _ h => ⟨rfl, h⟩).bind fun m k _ ⟨h, hm⟩ => by
    rw [h]
    exact monomialInverse hm n x hn hx

theorem rescueRounds (f : Rescue p) : ∀ (left : ℕ) (l : List (Expression p)) (n : ℕ), 1 ≤ n →
    ListScoped n l → Det n P (f.rounds left l) fun z k => ListScoped k z
  | 0, _, _, _, hl => Det.pure hl
  | left + 1, l, n, hn, hl =>
    (mapExpressions (pi1 f) l n hn hl).bind fun _ k lk hz =>
      (mapExpressions (pi2 f) _ k (hn.trans lk) (ElementMatrix.scoped_mulExpressions _ hz)).bind
        fun _ k' lk' hz' => rescueRounds f left _ k' ((hn.trans lk).trans lk')
          (ElementMatrix.scoped_mulExpressions _ hz')

theorem rescue (f : Rescue p) : Multi P f.permute := fun n x hn hx => rescueRounds f _ x n hn hx

end Det

end R1CS
