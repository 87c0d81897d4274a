import Verif.Lemmas.Costs
import Verif.Lemmas.NetworkSize
import Verif.Lemmas.BinaryOps

/-!
# Counting constraints: splitting, comparisons, exponentiation, selection trees, networks
-/

set_option linter.unusedSectionVars false

namespace R1CS

variable {p : ℕ} [hp : Fact p.Prime] {α β : Type}

open Expression (eval_add eval_sub eval_neg eval_ofWire eval_mulElem)

/-! ## Upper bounds -/

/-- Whenever `m` returns, it has added at most `k` constraints, and `Q` holds of the result. -/
def AtMost (m : B p α) (k : ℕ) (Q : α → Prop) : Prop :=
  ∀ b a b', m b = some (a, b') → b'.constraints.length ≤ b.constraints.length + k ∧ Q a

namespace AtMost

theorem addsAtMost {m : B p α} {k : ℕ} {Q : α → Prop} (h : AtMost m k Q) : AddsAtMost m k :=
  fun b a b' hr => (h b a b' hr).1

theorem ofCost {m : B p α} {k : ℕ} {Q : α → Prop} {R : Builder p → α → ℕ → Prop}
    (h : ∀ b, Cost m b k (R b)) (hQ : ∀ b a n, R b a n → Q a) : AtMost m k Q :=
  fun b a b' hr => ⟨le_of_eq (h b a b' hr).1, hQ b a _ (h b a b' hr).2.2⟩

theorem pure {a : α} {Q : α → Prop} (h : Q a) : AtMost (Pure.pure a : B p α) 0 Q :=
  ofCost (R := fun _ a _ => Q a) (fun _ => Cost.pure h) fun _ _ _ h => h

theorem bind {m : B p α} {f : α → B p β} {k l : ℕ} {Q : α → Prop} {R : β → Prop}
    (hm : AtMost m k Q) (hf : ∀ a, Q a → AtMost (f a) l R) : AtMost (m >>= f) (k + l) R := by
  intro b a b' h
  obtain ⟨x, b1, h1, h2⟩ := B.bind_run h
  obtain ⟨h3, h4⟩ := hm b x b1 h1
  obtain ⟨h5, h6⟩ := hf x h4 b1 a b' h2
  exact ⟨by omega, h6⟩

theorem mono {m : B p α} {k : ℕ} {Q R : α → Prop} (hm : AtMost m k Q) (h : ∀ a, Q a → R a) :
    AtMost m k R := fun b a b' hr => ⟨(hm b a b' hr).1, h a (hm b a b' hr).2⟩

theorem le {m : B p α} {k l : ℕ} {Q : α → Prop} (hm : AtMost m k Q) (h : k ≤ l) :
    AtMost m l Q := fun b a b' hr => ⟨(hm b a b' hr).1.trans (by omega), (hm b a b' hr).2⟩

theorem panic {k : ℕ} {Q : α → Prop} : AtMost (B.panic : B p α) k Q :=
  fun _ _ _ h => absurd h (by simp [B.panic])

theorem require {c : Prop} [Decidable c] : AtMost (B.require c : B p Unit) 0 fun _ => c :=
  ofCost (R := fun _ _ _ => c) (fun _ => Cost.require) fun _ _ _ h => h

theorem ofOption {o : Option α} : AtMost (B.ofOption o : B p α) 0 fun a => o = some a :=
  ofCost (fun _ => Cost.ofOption) fun _ _ _ h => h.1

theorem assertProduct (x y z : Expression p) : AtMost (B.assertProduct x y z) 1 fun _ => True :=
  ofCost (fun _ => Cost.assertProduct x y z) fun _ _ _ _ => trivial

theorem assertEqual (x y : Expression p) : AtMost (B.assertEqual x y) 1 fun _ => True :=
  assertProduct _ _ _

theorem generator (d : List Wire) (f : WireValues p → Option (WireValues p)) :
    AtMost (B.generator d f) 0 fun _ => True :=
  ofCost (fun _ => Cost.generator d f) fun _ _ _ _ => trivial

theorem wires (n : ℕ) : AtMost (B.wires n : B p (List Wire)) 0 fun ws => ws.length = n :=
  ofCost (fun _ => Cost.wires n) fun _ _ _ h => h.1

theorem booleanWire : AtMost (B.booleanWire : B p BooleanWire) 1 fun _ => True :=
  ofCost (fun _ => Cost.booleanWire) fun _ _ _ _ => trivial

theorem product (x y : Expression p) : AtMost (B.product x y) 1 fun _ => True := by
  cases hx : x.asConstant with
  | some c =>
    exact (ofCost (fun _ => Cost.product_const (Or.inl hx)) fun _ _ _ _ => trivial).le (by omega)
  | none =>
    cases hy : y.asConstant with
    | some c =>
      exact (ofCost (fun _ => Cost.product_const (Or.inr hy)) fun _ _ _ _ => trivial).le (by omega)
    | none => exact ofCost (fun _ => Cost.product hx hy) fun _ _ _ _ => trivial

theorem selection (c : BooleanExpression p) (x y : Expression p) :
    AtMost (B.selection c x y) 1 fun _ => True :=
  (product _ _).bind (l := 0) fun _ _ => pure trivial

theorem splitWithoutRangeCheck (x : Expression p) (n : ℕ) :
    AtMost (B.splitWithoutRangeCheck x n) (n + 1) fun e => e.bits.length = n :=
  ofCost (fun _ => Cost.splitWithoutRangeCheck x n) fun _ e _ h => by
    obtain ⟨w, rfl, h, -⟩ := h
    simpa [BinaryExpression.ofWire] using h

/-- The comparison of two lists of bits never costs more than `cmp_constraints` predicts. -/
theorem maskedSum : ∀ (l : List (Wire × Expression p × Expression p)) (s : Expression p),
    AtMost (B.maskedSum l s) l.length fun _ => True
  | [], _ => pure trivial
  | (m, x, y) :: rest, s =>
    ((product _ _).bind fun _ _ => maskedSum rest _).le (by simp; omega)

theorem cmpTail (l : List (Wire × Expression p × Expression p)) (d : BooleanExpression p)
    (less strict : Bool) (n : ℕ) : AtMost (B.cmpTail l d less strict n)
      (l.length + (l.length - 1) + (if strict then 0 else 2) + (n + 2)) fun _ => True := by
  unfold B.cmpTail
  match l with
  | [] => exact ((maskedSum [] 0).bind fun _ _ => panic (k := n + 2)).le (by simp)
  | (m0, x, y) :: rest =>
    refine ((maskedSum _ 0).bind fun dc _ => (ofCost (Q := fun _ => True)
      (fun _ => Cost.assertMoreSignificantEqual rest _) fun _ _ _ _ => trivial).bind fun _ _ =>
      AtMost.bind (k := if strict then 0 else 2) (Q := fun _ => True) ?_ fun _ _ =>
      ofCost (Q := fun _ => True) (fun _ => Cost.cmpSubtractive dc less strict n)
        fun _ _ _ _ => trivial).le (by simp only [List.length_cons]; omega)
    cases strict with
    | true => exact pure trivial
    | false =>
      exact (selection _ _ _).bind fun z _ =>
        ofCost (Q := fun _ => True) (fun _ => Cost.assertNonzero z) fun _ _ _ _ => trivial

theorem cmpBinary (x y : BinaryExpression p) (less strict : Bool) :
    AtMost (B.cmpBinary x y less strict)
      (cmpConstraints x.len (cmpChunkBits (Elem.maxBits p) x.len) + if strict then 0 else 2)
      fun _ => 1 ≤ x.len := by
  have hk := cmpChunkBits_pos (Elem.maxBits p) x.len
  unfold B.cmpBinary
  simp only
  generalize hkk : cmpChunkBits (Elem.maxBits p) x.len = k at hk ⊢
  refine (require.bind fun _ _ => ofOption.bind fun xc hxc => ofOption.bind fun xs hxs =>
    ofOption.bind fun yc hyc => ofOption.bind (l := cmpConstraints x.len k + if strict then 0 else 2)
    fun ys hys => ?_).le (by omega)
  rw [chunks_eq hk] at hxc
  obtain rfl := Option.some.inj hxc
  have hxl : xs.length = (x.len + k - 1) / k := by
    rw [mapM_join_length hxs, List.length_map, chunksOf_length hk]; rfl
  by_cases h0 : x.len = 0
  · have hx0 : xs.length = 0 := by
      rw [hxl, h0, zero_add]; exact Nat.div_eq_of_lt (by omega)
    intro b a b' hrun
    obtain ⟨mask, c1, q1, hrun⟩ := B.bind_run hrun
    have hm := (wires _ _ _ _ q1).2
    obtain ⟨_, c2, q2, hrun⟩ := B.bind_run hrun
    obtain ⟨_, c3, q3, hrun⟩ := B.bind_run hrun
    obtain ⟨_, c4, q4, hrun⟩ := B.bind_run hrun
    rw [List.length_eq_zero_iff.1 hx0, List.zip_nil_left, List.zip_nil_right] at hrun
    obtain ⟨_, c5, q5, hrun⟩ := B.bind_run hrun
    exact absurd hrun (by simp [B.panic])
  · have hpos : 1 ≤ xs.length := by
      rw [hxl]; exact Nat.div_pos (by omega) hk
    refine ((wires xs.length).bind fun mask hm =>
      (ofCost (k := xs.length) (Q := fun _ => True) (fun _ => (Cost.assertBooleans mask).congr hm)
        fun _ _ _ _ => trivial).bind fun _ _ =>
      (ofCost (Q := fun _ => True) (fun _ => Cost.assertBoolean _) fun _ _ _ _ => trivial).bind
      fun d _ => (generator _ _).bind
        (l := xs.length + (xs.length - 1) + (if strict then 0 else 2) + (k + 2)) fun _ _ =>
        ((cmpTail _ _ less strict k).mono fun _ _ => Nat.one_le_iff_ne_zero.2 h0).le ?_).le ?_
    · rw [List.length_zip, List.length_zip, hm]
      have : min xs.length (min xs.length ys.length) ≤ xs.length := min_le_left _ _
      omega
    · simp only [cmpConstraints]
      rw [← hxl]
      omega

end AtMost

/-! ## Splitting and comparing field elements -/

theorem not_mem_deps_ofNat {i : Wire} (hi : i ≠ ONE) (v : ℕ) :
    ∀ c ∈ (BinaryExpression.ofNat v : BinaryExpression p).bits, i ∉ c.expression.dependencies := by
  intro c hc
  obtain ⟨j, -, rfl⟩ := List.mem_map.1 hc
  intro hm
  have : (Expression.ofBool ((v >>> j) &&& 1 == 1) : Expression p).Scoped 1 := .ofElem (by decide) _
  have := this i hm
  exact hi (by show i = 0; omega)

namespace Cost

theorem assertTrue (x : BooleanExpression p) {b : Builder p} :
    Cost (B.assertTrue x) b 1 fun _ n => n = b.nextWireIndex := assertEqual _ _

theorem split (x : Expression p) {b : Builder p} (hb : 1 ≤ b.nextWireIndex) :
    Cost (B.split x) b (Elem.maxBits p + 2 +
      cmpConstraints (Elem.maxBits p) (cmpChunkBits (Elem.maxBits p) (Elem.maxBits p)))
      fun e m => ∃ w : BinaryWire, e = BinaryExpression.ofWire w ∧
        w.bits.length = Elem.maxBits p ∧ w.bits.Nodup ∧
        ∀ i ∈ w.bits, b.nextWireIndex ≤ i.wire ∧ i.wire < m := by
  unfold B.split
  refine ((splitWithoutRangeCheck x (Elem.maxBits p)).bind fun e b1 hb1 h1 =>
    Cost.bind (k := 1 + cmpConstraints (Elem.maxBits p)
      (cmpChunkBits (Elem.maxBits p) (Elem.maxBits p))) (Q := fun _ _ => True) ?_
      fun _ b2 hb2 _ => pure ?_).congr (by ring)
  · obtain ⟨w, rfl, hl, hn, hw⟩ := h1
    have h1 : ∀ i ∈ w.bits, i.wire ≠ ONE := fun i hi => by
      have := (hw i hi).1
      show i.wire ≠ 0
      omega
    unfold B.assertLtBinary B.ltBinary
    refine ((cmpBinary (by omega) hn h1 (fun i hi => not_mem_deps_ofNat (h1 i hi) p) true
      true).bind fun r _ _ _ => (assertTrue r).mono fun _ _ _ _ => trivial).congr ?_
    rw [hl]
    simp
    ring
  · obtain ⟨w, rfl, hl, hn, hw⟩ := h1
    exact ⟨w, rfl, hl, hn, fun i hi => ⟨(hw i hi).1, by have := (hw i hi).2; omega⟩⟩

/-- Wires made after those of another list of bits do not occur in it. -/
theorem fresh_bits {w w' : BinaryWire} {m : ℕ} (hw : ∀ i ∈ w.bits, i.wire < m)
    (hw' : ∀ i ∈ w'.bits, m ≤ i.wire) : ∀ i ∈ w.bits,
    ∀ c ∈ (BinaryExpression.ofWire w' : BinaryExpression p).bits,
      i.wire ∉ c.expression.dependencies := by
  intro i hi c hc hm
  obtain ⟨j, hj, rfl⟩ := List.mem_map.1 hc
  have h1 := Expression.mem_deps_ofWire hm
  have h2 := hw i hi
  have h3 := hw' j hj
  omega

theorem cmp (x y : Expression p) {b : Builder p} (hb : 1 ≤ b.nextWireIndex) (less strict : Bool) :
    Cost (B.cmp x y less strict) b (2 * Elem.maxBits p + 3 +
      2 * cmpConstraints (Elem.maxBits p) (cmpChunkBits (Elem.maxBits p) (Elem.maxBits p)) +
      if strict then 0 else 2) fun _ _ => True := by
  unfold B.cmp B.splitAllowingAmbiguity
  split
  · refine ((splitWithoutRangeCheck x (Elem.maxBits p)).bind fun e b1 hb1 h1 =>
      (split y (by omega)).bind (l := cmpConstraints (Elem.maxBits p)
        (cmpChunkBits (Elem.maxBits p) (Elem.maxBits p)) + if strict then 0 else 2)
        fun e' b2 hb2 h2 => ?_).congr (by ring)
    obtain ⟨w, rfl, hl, hn, hw⟩ := h1
    obtain ⟨w', rfl, hl', hn', hw'⟩ := h2
    refine (cmpBinary (by omega) hn (fun i hi => ?_)
      (fresh_bits (fun i hi => (hw i hi).2) fun i hi => (hw' i hi).1) less strict).congr (by rw [hl])
    have := (hw i hi).1
    show i.wire ≠ 0
    omega
  · refine ((split x hb).bind fun e b1 hb1 h1 =>
      (splitWithoutRangeCheck y (Elem.maxBits p)).bind (l := cmpConstraints (Elem.maxBits p)
        (cmpChunkBits (Elem.maxBits p) (Elem.maxBits p)) + if strict then 0 else 2)
        fun e' b2 hb2 h2 => ?_).congr (by ring)
    obtain ⟨w, rfl, hl, hn, hw⟩ := h1
    obtain ⟨w', rfl, hl', hn', hw'⟩ := h2
    refine (cmpBinary (by omega) hn (fun i hi => ?_)
      (fresh_bits (fun i hi => (hw i hi).2) fun i hi => (hw' i hi).1) less strict).congr (by rw [hl])
    have := (hw i hi).1
    show i.wire ≠ 0
    omega

end Cost

end R1CS
