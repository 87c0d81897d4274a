import Verif.Lemmas.Compare

/-!
# Whether building a gadget panics
-/

set_option linter.unusedSectionVars false

namespace R1CS

variable {p : ℕ} [hp : Fact p.Prime] {α β : Type}

/-! ## Panics -/

theorem B.none_bind {m : B p α} {f : α → B p β} (h : ∀ b, m b = none) : ∀ b, (m >>= f) b = none := by
  intro b
  show (m b).bind _ = none
  rw [h]
  rfl

theorem B.none_bind' {m : B p α} {f : α → B p β} (h : ∀ a b, f a b = none) :
    ∀ b, (m >>= f) b = none := by
  intro b
  show (m b).bind _ = none
  cases m b with
  | none => rfl
  | some r => exact h r.1 r.2

theorem B.require_none {c : Prop} [Decidable c] (h : ¬ c) : ∀ b, B.require (p := p) c b = none := by
  intro b
  unfold B.require
  rw [if_neg h]
  rfl

theorem B.ofOption_none {o : Option α} (h : o = none) : ∀ b, B.ofOption (p := p) o b = none := by
  intro b
  subst h
  rfl

/-! ## Returning -/

/-- On every builder the gadget returns, with a result satisfying `Q`. -/
def Returns (m : B p α) (Q : α → Prop) : Prop := ∀ b, ∃ a b', m b = some (a, b') ∧ Q a

namespace Returns

theorem pure {a : α} {Q : α → Prop} (h : Q a) : Returns (Pure.pure a : B p α) Q :=
  fun b => ⟨a, b, rfl, h⟩

theorem bind {m : B p α} {f : α → B p β} {Q : α → Prop} {R : β → Prop} (h : Returns m Q)
    (h' : ∀ a, Q a → Returns (f a) R) : Returns (m >>= f) R := fun b => by
  obtain ⟨a, b1, h1, h2⟩ := h b
  obtain ⟨c, b2, h3, h4⟩ := h' a h2 b1
  exact ⟨c, b2, by rw [B.bind_eq h1, h3], h4⟩

theorem require {c : Prop} [Decidable c] (h : c) : Returns (B.require (p := p) c) fun _ => True :=
  fun b => ⟨(), b, by unfold B.require; rw [if_pos h]; rfl, trivial⟩

theorem ofOption {a : α} {o : Option α} {Q : α → Prop} (h : o = some a) (hQ : Q a) :
    Returns (B.ofOption (p := p) o) Q := fun b => ⟨a, b, by rw [h]; rfl, hQ⟩

theorem wire : Returns (B.wire : B p Wire) fun _ => True := fun _ => ⟨_, _, rfl, trivial⟩

theorem assertProduct (x y z : Expression p) : Returns (B.assertProduct x y z) fun _ => True :=
  fun _ => ⟨_, _, rfl, trivial⟩

theorem generator (deps : List Wire) (f : WireValues p → Option (WireValues p)) :
    Returns (B.generator deps f) fun _ => True := fun _ => ⟨_, _, rfl, trivial⟩

theorem assertBoolean (x : Expression p) : Returns (B.assertBoolean x) fun _ => True :=
  (assertProduct _ _ _).bind fun _ _ => pure trivial

theorem booleanWire : Returns (B.booleanWire : B p BooleanWire) fun _ => True :=
  wire.bind fun _ _ => (assertBoolean _).bind fun _ _ => pure trivial

theorem wires : ∀ n, Returns (B.wires n : B p (List Wire)) fun l => l.length = n
  | 0 => pure rfl
  | n + 1 => wire.bind fun _ _ => (wires n).bind fun _ h => pure (by simp [h])

theorem booleanWires : ∀ n, Returns (B.booleanWires n : B p _) fun l => l.length = n
  | 0 => pure rfl
  | n + 1 => booleanWire.bind fun _ _ => (booleanWires n).bind fun _ h => pure (by simp [h])

theorem product (x y : Expression p) : Returns (B.product x y) fun _ => True := by
  unfold B.product
  cases x.asConstant with
  | some c => exact pure trivial
  | none =>
    cases y.asConstant with
    | some c => exact pure trivial
    | none =>
      exact wire.bind fun _ _ => (generator _ _).bind fun _ _ => (assertProduct _ _ _).bind
        fun _ _ => pure trivial

theorem splitWithoutRangeCheck (x : Expression p) {k : ℕ} (hk : k ≤ Elem.maxBits p) :
    Returns (B.splitWithoutRangeCheck x k) fun e => e.len = k := by
  unfold B.splitWithoutRangeCheck B.binaryWire
  refine ((booleanWires k).bind (R := fun w => w.bits.length = k) fun l h => pure h).bind
    fun w hw => ?_
  have hl : (BinaryExpression.ofWire w : BinaryExpression p).len = k := by
    rw [BinaryExpression.ofWire_len]; exact hw
  obtain ⟨ws, e1, _⟩ := BinaryExpression.joinAllowingOverflow_eq (p := p)
    (e := BinaryExpression.ofWire w) (by rw [hl]; exact hk)
  exact (ofOption (Q := fun _ => True) e1 trivial).bind fun _ _ => (assertProduct _ _ _).bind
    fun _ _ => (generator _ _).bind fun _ _ => pure hl

theorem splitBounded (x : Expression p) {k : ℕ} (hk : k < Elem.maxBits p) :
    Returns (B.splitBounded x k) fun e => e.len = k :=
  (require hk).bind fun _ _ => splitWithoutRangeCheck x hk.le

theorem assertBooleans : ∀ ms : List Wire, Returns (B.assertBooleans ms : B p Unit) fun _ => True
  | [] => pure trivial
  | _ :: ms => (assertBoolean _).bind fun _ _ => assertBooleans ms

theorem maskedSum : ∀ (l : List (Wire × Expression p × Expression p)) (sum : Expression p),
    Returns (B.maskedSum l sum) fun _ => True
  | [], _ => pure trivial
  | (_, _, _) :: l, _ => (product _ _).bind fun _ _ => maskedSum l _

theorem assertMoreSignificantEqual : ∀ (l : List (Wire × Expression p × Expression p))
    (seen : Expression p), Returns (B.assertMoreSignificantEqual l seen) fun _ => True
  | [], _ => pure trivial
  | (_, _, _) :: l, _ => (assertProduct _ _ _).bind fun _ _ => assertMoreSignificantEqual l _

theorem selection (c : BooleanExpression p) (x y : Expression p) :
    Returns (B.selection c x y) fun _ => True :=
  (product _ _).bind fun _ _ => pure trivial

theorem inverse (x : Expression p) : Returns (B.inverse x) fun _ => True :=
  wire.bind fun _ _ => (assertProduct _ _ _).bind fun _ _ => (generator _ _).bind
    fun _ _ => pure trivial

theorem assertNonzero (x : Expression p) : Returns (B.assertNonzero x) fun _ => True :=
  (inverse x).bind fun _ _ => pure trivial

theorem cmpSubtractive (d : Expression p) (less strict : Bool) {k : ℕ}
    (hk : k + 1 < Elem.maxBits p) : Returns (B.cmpSubtractive d less strict k) fun _ => True := by
  unfold B.cmpSubtractive
  have hp2 : 2 ^ k < p := Elem.two_pow_lt_of_lt_maxBits (by omega)
  refine (ofOption (Q := fun _ => True) (Elem.one_shl hp2) trivial).bind fun _ _ => (splitBounded _ hk).bind
    fun s hs => ?_
  have : k < s.bits.length := by
    have : s.bits.length = k + 1 := hs
    omega
  exact ofOption (Q := fun _ => True) (List.getElem?_eq_getElem this) trivial

end Returns

/-! ## Comparisons -/

theorem cmpSubtractive_none (d : Expression p) (less strict : Bool) {k : ℕ}
    (hk : Elem.maxBits p ≤ k + 1) : ∀ b, B.cmpSubtractive d less strict k b = none :=
  B.none_bind' fun _ => B.none_bind (B.none_bind (B.require_none (by omega)))

theorem cmpTail_none (l : List (Wire × Expression p × Expression p)) (d : BooleanExpression p)
    (less strict : Bool) {k : ℕ} (h : l = [] ∨ Elem.maxBits p ≤ k + 1) :
    ∀ b, B.cmpTail l d less strict k b = none := by
  unfold B.cmpTail
  refine B.none_bind' fun _ => ?_
  match l, h with
  | [], _ => exact fun _ => rfl
  | (_, _) :: _, .inr h =>
    exact B.none_bind' fun _ => B.none_bind' fun _ => cmpSubtractive_none _ _ _ h

/-- A comparison of digit strings can be built exactly if the strings have the same positive length
and the size of the chunks leaves a spare bit. -/
theorem cmpBinary_isSome (x y : BinaryExpression p) (less strict : Bool) (b : Builder p) :
    (B.cmpBinary x y less strict b).isSome = true ↔ x.len = y.len ∧ 0 < x.len ∧
      cmpChunkBits (Elem.maxBits p) x.len + 1 < Elem.maxBits p := by
  have hc := cmpChunkBits_pos (Elem.maxBits p) x.len
  constructor
  · intro h
    by_contra hn
    have : B.cmpBinary x y less strict b = none := by
      unfold B.cmpBinary
      by_cases h1 : x.len = y.len
      swap
      · exact B.none_bind (B.require_none h1) b
      by_cases h2 : 0 < x.len
      swap
      · have hx : x.bits = [] := List.length_eq_zero_iff.1 (by unfold BinaryExpression.len at h2; omega)
        refine B.none_bind' (fun _ => ?_) b
        dsimp only
        rw [chunks_eq hc, hx]
        refine fun b => ?_
        rw [B.bind_eq (show B.ofOption _ b = some (_, b) from rfl),
          B.bind_eq (show B.ofOption _ b = some ([], b) from rfl)]
        exact B.none_bind' (fun _ => B.none_bind' fun _ => B.none_bind' fun _ => B.none_bind' fun _ =>
          B.none_bind' fun _ => B.none_bind' fun _ => cmpTail_none _ _ _ _ (.inl (by simp))) b
      · have h3 : Elem.maxBits p ≤ cmpChunkBits (Elem.maxBits p) x.len + 1 := by
          by_contra h3; exact hn ⟨h1, h2, by omega⟩
        exact B.none_bind' (fun _ => B.none_bind' fun _ => B.none_bind' fun _ => B.none_bind' fun _ =>
          B.none_bind' fun _ => B.none_bind' fun _ => B.none_bind' fun _ => B.none_bind' fun _ =>
          B.none_bind' fun _ => cmpTail_none _ _ _ _ (.inr h3)) b
    rw [this] at h
    cases h
  · rintro ⟨h1, h2, h3⟩
    have key : ∀ z : BinaryExpression p, z.len = x.len → ∃ es, ((chunksOf
        (cmpChunkBits (Elem.maxBits p) x.len) z.bits).map fun b => (⟨b⟩ : BinaryExpression p)).mapM
        BinaryExpression.join = some es ∧ es ≠ [] := by
      intro z hz
      obtain ⟨es, hes⟩ := mapM_join_some (p := p) (cs := (chunksOf
        (cmpChunkBits (Elem.maxBits p) x.len) z.bits).map fun b => ⟨b⟩) (by
          intro c hcm
          obtain ⟨l, hl, rfl⟩ := List.mem_map.1 hcm
          have := (chunksOf_lengths hc _ l hl).2
          exact (Elem.two_pow_lt_of_lt_maxBits (show l.length < Elem.maxBits p by omega)).le)
      refine ⟨es, hes, ?_⟩
      rintro rfl
      have hz0 : chunksOf (cmpChunkBits (Elem.maxBits p) x.len) z.bits = [] := by
        match h : chunksOf (cmpChunkBits (Elem.maxBits p) x.len) z.bits, hes with
        | [], _ => rfl
        | c :: cs, hes =>
          rw [List.map_cons, List.mapM_cons] at hes
          simp only [Option.bind_eq_bind, Option.bind_eq_some_iff] at hes
          obtain ⟨_, _, _, _, h⟩ := hes
          cases h
      have := chunksOf_flatten hc z.bits
      rw [hz0] at this
      have hl : z.bits.length = x.len := hz
      rw [← this] at hl
      simp at hl
      omega
    obtain ⟨xs, hx, hx0⟩ := key x rfl
    obtain ⟨ys, hy, hy0⟩ := key y h1.symm
    have : Returns (B.cmpBinary x y less strict) fun _ => True := by
      unfold B.cmpBinary
      refine (Returns.require h1).bind fun _ _ => ?_
      dsimp only
      refine (Returns.ofOption (Q := fun c => c = _) (chunks_eq hc) rfl).bind fun xc hxc => ?_
      subst hxc
      refine (Returns.ofOption (Q := fun c => c = xs) hx rfl).bind fun xc hxc => ?_
      subst hxc
      refine (Returns.ofOption (Q := fun c => c = _) (chunks_eq hc) rfl).bind fun yc hyc => ?_
      subst hyc
      refine (Returns.ofOption (Q := fun c => c = ys) hy rfl).bind fun yc hyc => ?_
      subst hyc
      refine (Returns.wires _).bind fun mask hm => (Returns.assertBooleans _).bind fun _ _ =>
        (Returns.assertBoolean _).bind fun de _ => (Returns.generator _ _).bind fun _ _ => ?_
      unfold B.cmpTail
      refine (Returns.maskedSum _ _).bind fun dc _ => ?_
      obtain ⟨z0, zs, hz⟩ : ∃ z0 zs, mask.zip (xc.zip yc) = z0 :: zs := by
        match mask, xc, yc, hm, hx0, hy0 with
        | m :: _, x :: _, y :: _, _, _, _ => exact ⟨_, _, rfl⟩
        | [], x :: _, y :: _, h, _, _ => simp at h
      rw [hz]
      obtain ⟨m0, z0⟩ := z0
      dsimp only
      refine (Returns.assertMoreSignificantEqual _ _).bind fun _ _ => ?_
      refine Returns.bind (Q := fun _ => True) ?_ fun _ _ => Returns.cmpSubtractive _ _ _ h3
      split
      · exact Returns.pure trivial
      · exact (Returns.selection _ _ _).bind fun _ _ => Returns.assertNonzero _
    obtain ⟨a, b', h, _⟩ := this b
    rw [h]; rfl

/-- Some chunk size leaving a spare bit is as cheap as the largest one. -/
theorem cmpChunkBits_fits {N L : ℕ} : cmpChunkBits N L + 1 < N ↔
    ∃ c, 1 ≤ c ∧ c + 1 < N ∧ 3 * ((L + c - 1) / c) + c ≤ 3 * ((L + (N - 1) - 1) / (N - 1)) + (N - 1) := by
  constructor
  · intro h
    refine ⟨_, cmpChunkBits_pos N L, h, ?_⟩
    have := cmpChunkBits_le (N := N) (L := L) (k := N - 1) (by omega) (by omega)
    unfold cmpConstraints at this
    dsimp only at this
    omega
  · rintro ⟨c, h1, h2, h3⟩
    refine cmpChunkBits_admissible h1 h2 ?_
    unfold cmpConstraints
    dsimp only
    omega

theorem Returns.cmpBinary {x y : BinaryExpression p} (h1 : x.len = y.len) (h2 : 0 < x.len)
    (h3 : cmpChunkBits (Elem.maxBits p) x.len + 1 < Elem.maxBits p) (less strict : Bool) :
    Returns (B.cmpBinary x y less strict) fun _ => True := fun b => by
  obtain ⟨⟨a, b'⟩, h⟩ := Option.isSome_iff_exists.1
    ((cmpBinary_isSome x y less strict b).2 ⟨h1, h2, h3⟩)
  exact ⟨a, b', h, trivial⟩

theorem Returns.split (h4 : 4 ≤ Elem.maxBits p) (x : Expression p) :
    Returns (B.split x) fun e => e.len = Elem.maxBits p := by
  unfold B.split B.assertLtBinary B.ltBinary
  refine (Returns.splitWithoutRangeCheck x le_rfl).bind fun e he => ?_
  refine Returns.bind (Q := fun _ => True) ?_ fun _ _ => Returns.pure he
  refine (Returns.cmpBinary (by rw [he, BinaryExpression.ofNat_len, size_eq_maxBits h4]) (by omega)
    (by rw [he]; exact cmpChunkBits_self h4) _ _).bind fun _ _ => ?_
  exact (Returns.assertProduct _ _ _)

theorem small_none {x : BinaryExpression p} (hN : Elem.maxBits p < 4) (hx : x.len = Elem.maxBits p)
    (y : BinaryExpression p) (less strict : Bool) (b : Builder p) :
    B.cmpBinary x y less strict b = none := by
  rw [← Option.not_isSome_iff_eq_none, cmpBinary_isSome]
  rintro ⟨h1, h2, h3⟩
  rw [hx] at h2 h3
  generalize Elem.maxBits p = N at *
  interval_cases N <;> revert h3 <;> decide +kernel

theorem Returns.none {m : B p α} {Q : α → Prop} {f : α → B p β} (h : Returns m Q)
    (h' : ∀ a, Q a → ∀ b, f a b = none) : ∀ b, (m >>= f) b = none := fun b => by
  obtain ⟨a, b', h1, h2⟩ := h b
  rw [B.bind_eq h1]
  exact h' a h2 b'

theorem split_none (hN : Elem.maxBits p < 4) (x : Expression p) : ∀ b, B.split x b = none :=
  (Returns.splitWithoutRangeCheck x le_rfl).none fun _ he =>
    B.none_bind (B.none_bind (small_none hN he _ _ _))

theorem split_isSome (x : Expression p) (b : Builder p) :
    (B.split x b).isSome = true ↔ 4 ≤ Elem.maxBits p := by
  by_cases h4 : 4 ≤ Elem.maxBits p
  · obtain ⟨a, b', h, _⟩ := Returns.split h4 x b
    simp [h, h4]
  · simp [split_none (by omega) x b, h4]

theorem cmp_isSome (x y : Expression p) (less strict : Bool) (b : Builder p) :
    (B.cmp x y less strict b).isSome = true ↔ 4 ≤ Elem.maxBits p := by
  by_cases h4 : 4 ≤ Elem.maxBits p
  · have : Returns (B.cmp x y less strict) fun _ => True := by
      unfold B.cmp B.splitAllowingAmbiguity
      split
      · exact (Returns.splitWithoutRangeCheck x le_rfl).bind fun _ h1 => (Returns.split h4 y).bind
          fun _ h2 => Returns.cmpBinary (h1.trans h2.symm) (by omega)
            (by rw [h1]; exact cmpChunkBits_self h4) _ _
      · exact (Returns.split h4 x).bind fun _ h1 => (Returns.splitWithoutRangeCheck y le_rfl).bind
          fun _ h2 => Returns.cmpBinary (h1.trans h2.symm) (by omega)
            (by rw [h1]; exact cmpChunkBits_self h4) _ _
    obtain ⟨a, b', h, _⟩ := this b
    simp [h, h4]
  · have : ∀ b, B.cmp x y less strict b = none := by
      unfold B.cmp
      split
      · exact B.none_bind' fun _ => B.none_bind (split_none (by omega) y)
      · exact B.none_bind (split_none (by omega) x)
    simp [this b, h4]

theorem four_le_maxBits : 4 ≤ Elem.maxBits p ↔ 8 < p := by
  have := hp.out.two_le
  have h := Nat.lt_size (m := 3) (n := p - 1)
  rw [Elem.maxBits_eq]
  omega

end R1CS
