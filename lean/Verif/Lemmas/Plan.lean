import Verif.Spec.Plan
import Verif.Lemmas.Returns
import Verif.Lemmas.HashCost
import Verif.Lemmas.OutcomeSafe

/-!
# Panics and sizes from shapes: the calculus, and the gadgets
-/

set_option linter.unusedSectionVars false

namespace R1CS

variable {p : ℕ} [hp : Fact p.Prime] {α β γ : Type}

open Language

/-! ## The calculus -/

/-- `m` never panics, adds at most `k` constraints, and `Q` holds of the result. -/
def Fits (m : B p α) (k : ℕ) (Q : α → Prop) : Prop :=
  ∀ b, ∃ a b', m b = some (a, b') ∧ b'.constraints.length ≤ b.constraints.length + k ∧ Q a

namespace Fits

theorem of {m : B p α} {k : ℕ} {Q R : α → Prop} (h : Returns m Q) (h' : AtMost m k R) :
    Fits m k fun a => Q a ∧ R a := fun b => by
  obtain ⟨a, b', h1, h2⟩ := h b
  exact ⟨a, b', h1, (h' b a b' h1).1, h2, (h' b a b' h1).2⟩

theorem of' {m : B p α} {k : ℕ} {Q R : α → Prop} (h : Returns m Q) (h' : AtMost m k R) :
    Fits m k Q := fun b => by
  obtain ⟨a, b', h1, h2⟩ := h b
  exact ⟨a, b', h1, (h' b a b' h1).1, h2⟩

theorem pure {a : α} {Q : α → Prop} (h : Q a) : Fits (Pure.pure a : B p α) 0 Q :=
  fun b => ⟨a, b, rfl, le_rfl, h⟩

theorem bind {m : B p α} {f : α → B p β} {k l : ℕ} {Q : α → Prop} {R : β → Prop}
    (hm : Fits m k Q) (hf : ∀ a, Q a → Fits (f a) l R) : Fits (m >>= f) (k + l) R := fun b => by
  obtain ⟨a, b1, h1, h2, h3⟩ := hm b
  obtain ⟨c, b2, h4, h5, h6⟩ := hf a h3 b1
  exact ⟨c, b2, by rw [B.bind_eq h1]; exact h4, by omega, h6⟩

/-- After something which adds no constraint. -/
theorem bind0 {m : B p α} {f : α → B p β} {l : ℕ} {Q : α → Prop} {R : β → Prop}
    (hm : Fits m 0 Q) (hf : ∀ a, Q a → Fits (f a) l R) : Fits (m >>= f) l R := by
  have := hm.bind hf
  rwa [zero_add] at this

theorem mono {m : B p α} {k : ℕ} {Q R : α → Prop} (hm : Fits m k Q) (h : ∀ a, Q a → R a) :
    Fits m k R := fun b => by
  obtain ⟨a, b1, h1, h2, h3⟩ := hm b
  exact ⟨a, b1, h1, h2, h a h3⟩

theorem le {m : B p α} {k l : ℕ} {Q : α → Prop} (hm : Fits m k Q) (h : k ≤ l) : Fits m l Q :=
  fun b => by
    obtain ⟨a, b1, h1, h2, h3⟩ := hm b
    exact ⟨a, b1, h1, by omega, h3⟩

theorem require {c : Prop} [Decidable c] (h : c) : Fits (B.require (p := p) c) 0 fun _ => True :=
  of' (.require h) .require

theorem ofOption {o : Option α} {a : α} (h : o = some a) :
    Fits (B.ofOption o : B p α) 0 fun x => x = a := of' (.ofOption h rfl) .ofOption

theorem wire : Fits (B.wire : B p Wire) 0 fun _ => True := fun _ => ⟨_, _, rfl, le_rfl, trivial⟩

theorem generator (deps : List Wire) (f : WireValues p → Option (WireValues p)) :
    Fits (B.generator deps f) 0 fun _ => True := fun _ => ⟨_, _, rfl, le_rfl, trivial⟩

theorem assertProduct (x y z : Expression p) : Fits (B.assertProduct x y z) 1 fun _ => True :=
  fun b => ⟨(), _, rfl, by simp, trivial⟩

theorem assertEqual (x y : Expression p) : Fits (B.assertEqual x y) 1 fun _ => True :=
  assertProduct _ _ _

theorem assertBoolean (x : Expression p) : Fits (B.assertBoolean x) 1 fun _ => True :=
  (assertProduct _ _ _).bind (l := 0) fun _ _ => pure trivial

theorem booleanWire : Fits (B.booleanWire : B p BooleanWire) 1 fun _ => True :=
  wire.bind0 fun _ _ => (assertBoolean _).bind (l := 0) fun _ _ => pure trivial

theorem wires (n : ℕ) : Fits (B.wires n : B p (List Wire)) 0 fun l => l.length = n :=
  of' (.wires n) (.wires n)

theorem booleanWires : ∀ n, Fits (B.booleanWires n : B p _) n fun l => l.length = n
  | 0 => pure rfl
  | n + 1 => (booleanWire.bind fun _ _ => (booleanWires n).bind (l := 0) fun _ h =>
      pure (by simp [h])).le (by omega)

theorem product (x y : Expression p) : Fits (B.product x y) 1 fun _ => True :=
  of' (.product x y) (.product x y)

theorem selection (c : BooleanExpression p) (x y : Expression p) :
    Fits (B.selection c x y) 1 fun _ => True :=
  (product _ _).bind (l := 0) fun _ _ => pure trivial

theorem inverse (x : Expression p) : Fits (B.inverse x) 1 fun _ => True :=
  wire.bind0 fun _ _ => (assertProduct _ _ _).bind (l := 0) fun _ _ => (generator _ _).bind0
    fun _ _ => pure trivial

theorem quotient (x y : Expression p) : Fits (B.quotient x y) 2 fun _ => True :=
  (inverse y).bind (l := 1) fun _ _ => product _ _

theorem quotientUnsafe (x y : Expression p) : Fits (B.quotientUnsafe x y) 0 fun _ => True :=
  wire.bind0 fun _ _ => (generator _ _).bind0 fun _ _ => pure trivial

theorem inverseOrZero (x : Expression p) : Fits (B.inverseOrZero x) 3 fun _ => True :=
  fun b => ⟨_, _, rfl, by simp, trivial⟩

theorem nonzero (x : Expression p) : Fits (B.nonzero x) 2 fun _ => True :=
  fun b => ⟨_, _, rfl, by simp, trivial⟩

theorem zero (x : Expression p) : Fits (B.zero x) 2 fun _ => True :=
  fun b => ⟨_, _, rfl, by simp, trivial⟩

theorem equal (x y : Expression p) : Fits (B.equal x y) 2 fun _ => True :=
  fun b => ⟨_, _, rfl, by simp, trivial⟩

theorem assertNonzero (x : Expression p) : Fits (B.assertNonzero x) 1 fun _ => True :=
  (inverse x).bind (l := 0) fun _ _ => pure trivial

theorem assertNonequal (x y : Expression p) : Fits (B.assertNonequal x y) 1 fun _ => True :=
  assertNonzero _

theorem expLoop (x : Expression p) (k : Elem p) : ∀ (r i : ℕ) (e f : Expression p),
    Returns (B.expLoop x k i r e f) fun _ => True
  | 0, _, _, _ => .pure trivial
  | r + 1, i, e, f => by
    unfold B.expLoop
    refine Returns.bind (Q := fun _ => True) ?_ fun _ _ => Returns.bind (Q := fun _ => True) ?_
      fun _ _ => expLoop x k r _ _ _
    · split
      · exact .pure trivial
      · exact .product _ _
    · split
      · exact .product _ _
      · exact .pure trivial

theorem exponentiation (x : Expression p) (k : Elem p) : Fits (B.exponentiation x k)
    ((k.n.size - 1) + ((List.range k.n.size).countP (fun j => k.n.testBit j) - 1))
    fun _ => True :=
  of' (expLoop x k _ _ _ _) (.exponentiation x k)

/-! ## Splitting and comparing -/

theorem splitWithoutRangeCheck (x : Expression p) {k : ℕ} (hk : k ≤ Elem.maxBits p) :
    Fits (B.splitWithoutRangeCheck x k) (k + 1) fun e => e.len = k :=
  of' (.splitWithoutRangeCheck x hk) (.splitWithoutRangeCheck x k)

theorem splitBounded (x : Expression p) {k : ℕ} (hk : k < Elem.maxBits p) :
    Fits (B.splitBounded x k) (k + 1) fun e => e.len = k :=
  (require hk).bind0 fun _ _ => splitWithoutRangeCheck x hk.le

theorem comparison_le {N n : ℕ} (hN : 2 ≤ N) :
    cmpConstraints n (cmpChunkBits N n) ≤ Plan.comparison N n := by
  have key : ∀ l : List ℕ, (∀ c ∈ l, c < N - 1) → cmpConstraints n (cmpChunkBits N n) ≤
      (l.map fun c => 3 * ((n + c) / (c + 1)) + (c + 1)).foldr min (3 * n + 1) + 2 := by
    intro l
    induction l with
    | nil =>
      intro _
      have := cmpChunkBits_le (N := N) (L := n) (k := 1) le_rfl (by omega)
      simp only [cmpConstraints, Nat.add_sub_cancel, Nat.div_one] at this ⊢
      simp only [List.map_nil, List.foldr_nil]
      omega
    | cons c l ih =>
      intro h
      have h1 := ih fun c hc => h c (by simp [hc])
      have h2 := cmpChunkBits_le (N := N) (L := n) (k := c + 1) (by omega)
        (by have := h c (by simp); omega)
      simp only [cmpConstraints] at h2 h1 ⊢
      rw [show n + (c + 1) - 1 = n + c by omega] at h2
      rw [List.map_cons, List.foldr_cons, ← min_add_add_right]
      exact le_min (by omega) h1
  exact key _ fun c hc => List.mem_range.1 hc

theorem comparable_iff {N n k : ℕ} : Plan.comparable N n k ↔
    n = k ∧ 0 < n ∧ cmpChunkBits N n + 1 < N := by
  rw [cmpChunkBits_fits, Plan.comparable, Nat.pos_iff_ne_zero]
  constructor
  · rintro ⟨h1, h2, c, h3, h4, h5⟩
    exact ⟨h1, h2, c, h4, by omega, h5⟩
  · rintro ⟨h1, h2, c, h3, h4, h5⟩
    exact ⟨h1, h2, c, by omega, h3, h5⟩

theorem comparable_self {N : ℕ} (h4 : 4 ≤ N) : Plan.comparable N N N :=
  comparable_iff.2 ⟨rfl, by omega, cmpChunkBits_self h4⟩

variable (h4 : 4 ≤ Elem.maxBits p)

include h4

theorem cmpBinary {x y : BinaryExpression p} (h : Plan.comparable (Elem.maxBits p) x.len y.len)
    (less strict : Bool) : Fits (B.cmpBinary x y less strict)
      (Plan.comparison (Elem.maxBits p) x.len + if strict then 0 else 2) fun _ => True := by
  obtain ⟨h1, h2, h3⟩ := comparable_iff.1 h
  refine (of' (.cmpBinary h1 h2 h3 less strict) (.cmpBinary x y less strict)).le ?_
  have := comparison_le (N := Elem.maxBits p) (n := x.len) (by omega)
  omega

omit h4 in
theorem assertTrue (x : BooleanExpression p) : Fits (B.assertTrue x) 1 fun _ => True :=
  assertEqual _ _

omit h4 in
theorem assertFalse (x : BooleanExpression p) : Fits (B.assertFalse x) 1 fun _ => True :=
  assertEqual _ _

theorem split (x : Expression p) : Fits (B.split x)
    (Elem.maxBits p + 1 + (Plan.comparison (Elem.maxBits p) (Elem.maxBits p) + 1))
    fun e => e.len = Elem.maxBits p := by
  unfold B.split B.assertLtBinary B.ltBinary
  refine (splitWithoutRangeCheck x le_rfl).bind fun e he => ?_
  have hl : (BinaryExpression.ofNat p : BinaryExpression p).len = Elem.maxBits p := by
    rw [BinaryExpression.ofNat_len, size_eq_maxBits h4]
  refine Fits.bind (l := 0) (Q := fun _ => True) ?_ fun _ _ => pure he
  have hc := cmpBinary h4 (x := e) (y := .ofNat p) (by rw [he, hl]; exact comparable_self h4) true true
  rw [he] at hc
  exact (hc.bind (l := 1) fun _ _ => assertTrue _).le (by simp)

theorem cmp (x y : Expression p) (less strict : Bool) : Fits (B.cmp x y less strict)
    (Plan.elements (Elem.maxBits p) + if strict then 0 else 2) fun _ => True := by
  have hc : ∀ e f : BinaryExpression p, e.len = Elem.maxBits p → f.len = Elem.maxBits p →
      Fits (B.cmpBinary e f less strict) (Plan.comparison (Elem.maxBits p) (Elem.maxBits p) +
        if strict then 0 else 2) fun _ => True := by
    intro e f he hf
    have hc := cmpBinary h4 (x := e) (y := f) (by rw [he, hf]; exact comparable_self h4) less strict
    rwa [he] at hc
  unfold B.cmp B.splitAllowingAmbiguity
  split
  · exact ((splitWithoutRangeCheck x le_rfl).bind fun e he => (split h4 y).bind fun f hf =>
      hc e f he hf).le (by unfold Plan.elements; omega)
  · exact ((split h4 x).bind fun e he => (splitWithoutRangeCheck y le_rfl).bind fun f hf =>
      hc e f he hf).le (by unfold Plan.elements; omega)

theorem modulus (x y : Expression p) : Fits (B.modulus x y) (Plan.elements (Elem.maxBits p) + 2)
    fun _ => True := by
  unfold B.modulus B.assertLt B.lt
  exact (wire.bind0 fun _ _ => wire.bind0 fun _ _ => (assertProduct _ _ _).bind fun _ _ =>
    ((cmp h4 _ _ true true).bind (l := 1) fun _ _ => assertTrue _).bind (l := 0) fun _ _ =>
    (generator _ _).bind0 fun _ _ => pure trivial).le (by simp; omega)

omit h4

/-! ## Digit strings -/

theorem binaryWire (n : ℕ) : Fits (B.binaryWire n : B p BinaryWire) n fun w => w.bits.length = n :=
  (booleanWires n).bind (l := 0) fun _ h => pure h

theorem notBits : ∀ l : List (BooleanExpression p), Fits (B.notBits l) 0
    fun r => r.length = l.length
  | [] => pure rfl
  | _ :: l => (pure (Q := fun _ => True) trivial).bind0 fun _ _ => (notBits l).bind0
      fun _ h => pure (by simp [h])

theorem zipBits {op : BooleanExpression p → BooleanExpression p → B p (BooleanExpression p)}
    (h : ∀ c d, Fits (op c d) 1 fun _ => True) : ∀ x y : List (BooleanExpression p),
    x.length = y.length → Fits (B.zipBits op x y) x.length fun r => r.length = x.length
  | [], _, _ => by unfold B.zipBits; exact pure rfl
  | _ :: _, [], hl => by simp at hl
  | c :: cs, d :: ds, hl => by
    unfold B.zipBits
    refine ((h c d).bind fun _ _ => (zipBits h cs ds (by simpa using hl)).bind (l := 0) fun _ h =>
      pure (by simp [h])).le ?_
    rw [List.length_cons]; omega

theorem bitwise {op : BooleanExpression p → BooleanExpression p → B p (BooleanExpression p)}
    (h : ∀ c d, Fits (op c d) 1 fun _ => True) {x y : BinaryExpression p} (hl : x.len = y.len) :
    Fits (do
        B.require (x.len = y.len)
        let bits ← B.zipBits op x.bits y.bits
        return (⟨bits⟩ : BinaryExpression p)) x.len fun r => r.len = x.len :=
  (require hl).bind0 fun _ _ => (zipBits h x.bits y.bits hl).bind (l := 0) fun _ h => pure h

theorem and (c d : BooleanExpression p) : Fits (B.and c d) 1 fun _ => True :=
  (product _ _).bind (l := 0) fun _ _ => pure trivial

theorem or (c d : BooleanExpression p) : Fits (B.or c d) 1 fun _ => True :=
  (product _ _).bind (l := 0) fun _ _ => pure trivial

theorem xor (h2 : 2 < p) (c d : BooleanExpression p) : Fits (B.xor c d) 1 fun _ => True := by
  unfold B.xor
  refine (product _ _).bind (l := 0) fun e _ => ?_
  exact (ofOption (e.mulNat_eq h2)).bind0 fun _ _ => pure trivial

theorem binarySummation {terms : List (BinaryExpression p)}
    (h : (B.maxSum terms).size < Elem.maxBits p) : Fits (B.binarySummation terms)
      ((B.maxSum terms).size + 1) fun e => e.len = (B.maxSum terms).size := by
  unfold B.binarySummation
  have hpow : ∀ {n}, n < Elem.maxBits p → 2 ^ n ≤ p := fun h => (Elem.two_pow_lt_of_lt_maxBits h).le
  refine (require h).bind0 fun _ _ => (binaryWire _).bind (l := 1) fun w hw => ?_
  obtain ⟨es, hes⟩ := mapM_join_some (cs := terms) fun c hc =>
    hpow (lt_of_le_of_lt (len_le_size_maxSum hc) h)
  have hl : (BinaryExpression.ofWire w : BinaryExpression p).len = (B.maxSum terms).size := by
    rw [BinaryExpression.ofWire_len]; exact hw
  obtain ⟨ws, e1, _⟩ := BinaryExpression.join_eq (p := p)
    (e := BinaryExpression.ofWire w) (by rw [hl]; exact hpow h)
  exact (ofOption hes).bind0 fun _ _ => (ofOption e1).bind0 fun _ _ =>
    (assertEqual _ _).bind (l := 0) fun _ _ => (generator _ _).bind0 fun _ _ => pure hl

theorem truncated {e : BinaryExpression p} {n : ℕ} (h : n ≤ e.len) :
    Fits (B.ofOption (p := p) (e.truncated n)) 0 fun r => r.len = n :=
  (ofOption (Comp.truncated_some h)).mono fun _ hr => by
    rw [hr]
    exact List.length_take_of_le h

theorem assertZeros : ∀ l : List (BinaryExpression p), (∀ c ∈ l, 2 ^ c.len ≤ p) →
    Fits (B.assertZeros l) l.length fun _ => True
  | [], _ => pure trivial
  | c :: cs, h => by
    unfold B.assertZeros
    obtain ⟨ws, e1, _⟩ := BinaryExpression.join_eq (p := p) (e := c) (h c (by simp))
    refine ((ofOption e1).bind0 fun _ _ => (assertEqual _ _).bind fun _ _ =>
      assertZeros cs fun c hc => h c (by simp [hc])).le ?_
    rw [List.length_cons]; omega

theorem binaryAssertZero (h4 : 2 ≤ Elem.maxBits p) (x : BinaryExpression p) :
    Fits (B.binaryAssertZero x) ((x.len + (Elem.maxBits p - 1) - 1) / (Elem.maxBits p - 1))
      fun _ => True := by
  unfold B.binaryAssertZero
  have hb : 0 < Elem.maxBits p - 1 := by omega
  refine (ofOption (chunks_eq hb)).bind0 fun cs hcs => ?_
  subst hcs
  refine (assertZeros _ fun c hc => ?_).le ?_
  · obtain ⟨l, hl, rfl⟩ := List.mem_map.1 hc
    have := (chunksOf_lengths hb _ l hl).2
    refine (Elem.two_pow_lt_of_lt_maxBits (p := p) ?_).le
    change l.length < _
    omega
  · rw [List.length_map, chunksOf_length hb]; rfl

theorem summationIgnoring {terms : List (BinaryExpression p)}
    (h : (B.maxSum terms).size < Elem.maxBits p) : Fits (B.binarySummationIgnoringOverflow terms)
      ((B.maxSum terms).size + 1) fun e => e.len = B.inputBits terms :=
  (binarySummation h).bind (l := 0) fun e he => truncated (by
    rw [he]; exact Comp.inputBits_le_size terms)

theorem summationAsserting (h4 : 2 ≤ Elem.maxBits p) {terms : List (BinaryExpression p)}
    (h : (B.maxSum terms).size < Elem.maxBits p) : Fits (B.binarySummationAssertingNoOverflow terms)
      ((B.maxSum terms).size + 1 + ((B.maxSum terms).size - B.inputBits terms + (Elem.maxBits p - 1) - 1) /
        (Elem.maxBits p - 1)) fun e => e.len = B.inputBits terms := by
  unfold B.binarySummationAssertingNoOverflow
  refine (binarySummation h).bind fun e he => ?_
  have hle : B.inputBits terms ≤ e.len := by rw [he]; exact Comp.inputBits_le_size terms
  refine (require hle).bind0 fun _ _ => ?_
  have hz := binaryAssertZero h4 (⟨e.bits.drop (B.inputBits terms)⟩ : BinaryExpression p)
  have hl : (⟨e.bits.drop (B.inputBits terms)⟩ : BinaryExpression p).len =
      (B.maxSum terms).size - B.inputBits terms := by
    rw [← he]; exact List.length_drop
  rw [hl] at hz
  exact hz.bind (l := 0) fun _ _ => truncated hle

/-! ## Random access -/

theorem parentLayer (c : BooleanExpression p) : ∀ l : List (Expression p),
    Fits (B.parentLayer c l) (l.length / 2) fun r => r.length = (l.length + 1) / 2
  | x :: y :: l => by
    unfold B.parentLayer
    refine ((selection c y x).bind fun _ _ => (parentLayer c l).bind (l := 0) fun r hr => pure ?_).le ?_
    · simp only [List.length_cons, hr]; omega
    · simp only [List.length_cons]; omega
  | [] => by unfold B.parentLayer; exact (pure (by simp)).le (by simp)
  | [_] => by unfold B.parentLayer; exact (pure (by simp)).le (by simp)

theorem randomAccessBinary : ∀ (bits : List (BooleanExpression p)) (l : List (Expression p)),
    0 < l.length → l.length ≤ 2 ^ bits.length →
    (bits.length = 0 ∨ 2 ^ (bits.length - 1) < l.length) →
    Fits (B.randomAccessBinary bits l) (l.length - 1) fun _ => True
  | [], [_], _, _, _ => by unfold B.randomAccessBinary; exact pure trivial
  | [], _ :: _ :: _, _, h, _ => by simp at h
  | _, [], h, _, _ => by simp at h
  | _ :: bits, [_], _, _, h => by
    have := Nat.two_pow_pos bits.length
    simp at h
  | c :: bits, x :: y :: l, _, h1, h2 => by
    unfold B.randomAccessBinary
    have h2' : 2 ^ bits.length < l.length + 2 := by
      simp at h2; omega
    have h1' : l.length + 2 ≤ 2 ^ bits.length * 2 := by
      rw [← pow_succ]; simp at h1; omega
    refine ((parentLayer c (x :: y :: l)).bind (l := (l.length + 3) / 2 - 1) fun r hr => ?_).le ?_
    · rw [List.length_cons, List.length_cons] at hr
      have hr' : r.length = (l.length + 3) / 2 := by omega
      rw [← hr']
      refine randomAccessBinary bits r (by omega) (by omega) ?_
      rcases Nat.eq_zero_or_pos bits.length with h0 | h0
      · exact .inl h0
      · have : 2 ^ bits.length = 2 ^ (bits.length - 1) * 2 := by
          rw [← pow_succ, Nat.sub_add_cancel h0]
        exact .inr (by omega)
    · simp only [List.length_cons]; omega

theorem randomAccess {items : List (Expression p)} (index : Expression p) (h0 : items ≠ [])
    (h : Nat.clog 2 items.length < Elem.maxBits p) : Fits (B.randomAccess items index)
      (Nat.clog 2 items.length + 1 + (items.length - 1)) fun _ => True := by
  obtain ⟨h1, h2⟩ := indexBits_spec items.length
  rw [indexBits_eq_clog] at h1 h2
  unfold B.randomAccess
  rw [indexBits_eq_clog]
  refine (splitBounded index h).bind fun e he => ?_
  have he' : e.bits.length = Nat.clog 2 items.length := he
  exact randomAccessBinary _ _ (List.length_pos_iff.2 h0) (by rw [he']; exact h1)
    (by rw [he']; exact h2)

end Fits

end R1CS
