import Verif.Lemmas.Binary
import Verif.Spec.Examples
import Mathlib.Data.Nat.Digits.Defs

/-!
# C15–C17: binary expressions
-/

set_option linter.unusedSectionVars false

namespace R1CS

variable {p : ℕ} [hp : Fact p.Prime]

open BinaryExpression

/-- The specification's `digitsVal` is Mathlib's little-endian base-2 reading. -/
theorem digitsVal_eq_ofDigits (l : List ℕ) : digitsVal l = Nat.ofDigits 2 l := by
  induction l with
  | nil => rfl
  | cons d l ih => rw [digitsVal, ih, Nat.ofDigits_cons]

/-! ## C15 -/

theorem evaluateFrom_eq {v : WireValues p} (bs : List (BooleanExpression p)) (i sum : ℕ)
    (ts : List Bool) (h : bs.map (fun b => b.evaluate v) = ts.map some) :
    evaluateFrom v i sum bs = some (sum + 2 ^ i * digitsVal (ts.map Bool.toNat)) := by
  induction bs generalizing i sum ts with
  | nil =>
    have : ts = [] := by simpa using h.symm
    subst this
    simp [evaluateFrom, digitsVal]
  | cons b bs ih =>
    match ts, h with
    | [], h => simp at h
    | t :: ts, h =>
      simp only [List.map_cons, List.cons.injEq] at h
      unfold evaluateFrom
      rw [h.1]
      simp only [Option.bind_eq_bind, Option.bind_some]
      rw [ih (i + 1) _ ts h.2]
      congr 1
      simp only [List.map_cons, digitsVal, pow_succ, Nat.one_shiftLeft]
      cases t <;> simp <;> ring

theorem evaluateFrom_eq_none {v : WireValues p} (bs : List (BooleanExpression p)) (i sum : ℕ)
    (h : ∃ b ∈ bs, b.evaluate v = none) : evaluateFrom v i sum bs = none := by
  induction bs generalizing i sum with
  | nil => simp at h
  | cons b bs ih =>
    unfold evaluateFrom
    cases hb : b.evaluate v with
    | none => rfl
    | some t =>
      simp only [Option.bind_eq_bind, Option.bind_some]
      apply ih
      obtain ⟨c, hc, hn⟩ := h
      rcases List.mem_cons.1 hc with rfl | hc
      · rw [hb] at hn; exact absurd hn (by simp)
      · exact ⟨c, hc, hn⟩

/-- C15: `evaluate` gives the integer with the given digits when all digits are known truth values
(the little-endian reading), and panics when a digit is unknown or no truth value. -/
theorem C15_evaluate (e : BinaryExpression p) (v : WireValues p) :
    (∀ w : Assign p, (∀ b ∈ e.bits, ∀ i ∈ b.dependencies, v i = some (w i)) → e.AllBool w →
      e.evaluate v = some (Nat.ofDigits 2 (e.digits w))) ∧
    (∀ b ∈ e.bits, (∃ i ∈ b.dependencies, v i = none) → e.evaluate v = none) ∧
    (∀ w : Assign p, ∀ b ∈ e.bits, (∀ i ∈ b.dependencies, v i = some (w i)) → ¬ IsBool (b.eval w) →
      e.evaluate v = none) := by
  refine ⟨fun w h hb => ?_, fun b hb ⟨i, hi, hn⟩ => ?_, fun w b hb h hn => ?_⟩
  · unfold BinaryExpression.evaluate
    rw [evaluateFrom_eq e.bits 0 0 (e.bits.map fun b => decide (b.eval w = 1))]
    · rw [← digitsVal_eq_ofDigits, pow_zero, one_mul, zero_add, BinaryExpression.digits,
        List.map_map]
      congr 2
      apply List.map_congr_left
      intro b hb'
      rcases hb b hb' with h0 | h0 <;> simp [h0]
    · rw [List.map_map]
      apply List.map_congr_left
      intro b hb'
      exact BooleanExpression.evaluate_eq (h b hb') (hb b hb')
  · apply evaluateFrom_eq_none
    refine ⟨b, hb, ?_⟩
    unfold BooleanExpression.evaluate
    rw [Expression.evaluate_eq_none hi hn]
    rfl
  · apply evaluateFrom_eq_none
    refine ⟨b, hb, ?_⟩
    unfold BooleanExpression.evaluate
    rw [Expression.evaluate_eq (w := w) h]
    simp only [Option.bind_eq_bind, Option.bind_some]
    rw [if_neg, if_neg]
    · intro h1; exact hn (Or.inr ((Elem.isOne_iff _).1 h1))
    · intro h1; exact hn (Or.inl ((Elem.isZero_iff _).1 h1))

/-- C15: a constant evaluates to itself, with as many digits as it needs. -/
theorem C15_from_value (n : ℕ) (v : WireValues p) (hv : v ONE = some 1) :
    (BinaryExpression.ofNat n : BinaryExpression p).evaluate v = some n ∧
    (BinaryExpression.ofNat n : BinaryExpression p).len = n.size := by
  refine ⟨?_, ofNat_len n⟩
  rw [(C15_evaluate _ v).1 (fun _ => 1) ?_ (ofNat_allBool rfl n), ← digitsVal_eq_ofDigits]
  · exact congrArg some (ofNat_val (w := fun _ => 1) rfl n)
  · intro b hb i hi
    obtain ⟨k, _, rfl⟩ := List.mem_map.1 hb
    have : i = ONE := Expression.mem_deps_ofElem hi
    rw [this, hv]

example : (BinaryExpression.ofNat 6 : BinaryExpression 13).evaluate WireValues.new = some 6 :=
  (C15_from_value 6 _ rfl).1

/-- C15: truncation keeps the value modulo `2^l`, and panics exactly for `l` above the length. -/
theorem C15_truncate (e : BinaryExpression p) (l : ℕ) :
    (e.len < l → e.truncated l = none) ∧
    (l ≤ e.len → ∃ e', e.truncated l = some e' ∧ e'.len = l ∧
      ∀ w : Assign p, e.AllBool w → e'.AllBool w ∧ e'.val w = e.val w % 2 ^ l) := by
  refine ⟨fun h => if_neg (by omega), fun h => ⟨_, if_pos h, ?_, fun w hb => ⟨?_, ?_⟩⟩⟩
  · change (e.bits.take l).length = l
    rw [List.length_take]
    exact Nat.min_eq_left h
  · exact fun b hm => hb b (List.mem_of_mem_take hm)
  · unfold BinaryExpression.val
    rw [← digitsVal_take hb.digits_le (by rw [digits_length]; exact h)]
    simp [BinaryExpression.digits]

/-- C15: padding keeps the value, and panics exactly when the target is shorter. -/
theorem C15_pad (e : BinaryExpression p) (l : ℕ) :
    (l < e.len → e.padded l = none) ∧
    (e.len ≤ l → ∃ e', e.padded l = some e' ∧ e'.len = l ∧
      ∀ w : Assign p, w ONE = 1 → e'.val w = e.val w ∧ (e.AllBool w → e'.AllBool w)) := by
  refine ⟨fun h => if_neg (by omega), fun h => ⟨_, if_pos h, ?_, fun w h1 => ⟨?_, ?_⟩⟩⟩
  · simp only [BinaryExpression.len, List.length_append, List.length_replicate] at h ⊢
    omega
  · have hz : (BooleanExpression.false : BooleanExpression p).eval w = 0 :=
      BooleanExpression.eval_ofBool h1 false
    rw [val_append]
    have : val w ⟨List.replicate (l - e.len) (BooleanExpression.false : BooleanExpression p)⟩ = 0 := by
      simp only [BinaryExpression.val, BinaryExpression.digits, List.map_replicate, hz, Elem.zero_n]
      exact digitsVal_replicate_zero _
    rw [this, mul_zero, add_zero]
  · intro hb b hm
    rcases List.mem_append.1 hm with hm | hm
    · exact hb b hm
    · rw [List.eq_of_mem_replicate hm]
      exact Or.inl (BooleanExpression.eval_ofBool h1 false)

/-- C15: concatenation is the shifted sum. -/
theorem C15_concat (w : Assign p) (es : List (BinaryExpression p)) :
    (BinaryExpression.concat es).val w
      = es.foldr (fun e rest => e.val w + 2 ^ e.len * rest) 0 := by
  induction es with
  | nil => rfl
  | cons e es ih =>
    rw [List.foldr_cons, ← ih]
    exact val_append w e.bits _

/-- C15: a further digit counts `2^len`; the empty string is zero. -/
theorem C15_add_most_significant (w : Assign p) (e : BinaryExpression p) (b : BooleanExpression p) :
    (e.addMostSignificant b).len = e.len + 1 ∧
    (e.addMostSignificant b).val w = e.val w + 2 ^ e.len * (b.eval w).n ∧
    (BinaryExpression.zero : BinaryExpression p).len = 0 ∧
    (BinaryExpression.zero : BinaryExpression p).val w = 0 := by
  refine ⟨by simp [BinaryExpression.addMostSignificant, BinaryExpression.len], ?_, rfl, rfl⟩
  refine (val_append w e.bits [b]).trans ?_
  simp [BinaryExpression.val, BinaryExpression.digits, digitsVal, BinaryExpression.len]

/-- C15: `chunks` partitions the digits into consecutive non-empty pieces, all of length `k` except
possibly the last, and panics exactly for `k = 0`. -/
theorem C15_chunks (e : BinaryExpression p) (k : ℕ) :
    (k = 0 → e.chunks k = none) ∧
    (0 < k → ∃ cs, e.chunks k = some cs ∧ BinaryExpression.concat cs = e ∧
      (∀ c ∈ cs, 0 < c.len ∧ c.len ≤ k) ∧
      ∀ (a b : List (BinaryExpression p)) c, cs = a ++ c :: b → b ≠ [] → c.len = k) := by
  refine ⟨fun h => by simp [BinaryExpression.chunks, chunks?, h], fun h => ?_⟩
  refine ⟨(chunksOf k e.bits).map fun c => ⟨c⟩, ?_, ?_, ?_, ?_⟩
  · simp [BinaryExpression.chunks, chunks?, h.ne']
  · simp only [BinaryExpression.concat, List.map_map, Function.comp_def, List.map_id']
    rw [chunksOf_flatten h]
  · intro c hc
    obtain ⟨c, hc', rfl⟩ := List.mem_map.1 hc
    have := chunksOf_lengths h e.bits c hc'
    exact ⟨List.length_pos_of_ne_nil this.1, this.2⟩
  · intro a b c hs hb
    obtain ⟨a', cb, h1, rfl, h3⟩ := List.map_eq_append_iff.1 hs
    obtain ⟨c', b', h4, rfl, rfl⟩ := List.map_eq_cons_iff.1 h3
    rw [h4] at h1
    exact chunksOf_full e.bits a' b' c' h1 (by rintro rfl; exact hb rfl)

/-- Writing the bits of `n`, from bit `i` on. -/
theorem setBits_eq (n : ℕ) (ws : List BooleanWire) (i : ℕ) (v v' : WireValues p) :
    v.setBits n i ws = some v' ↔
      (ws.map (·.wire)).Nodup ∧ (∀ x ∈ ws, v x.wire = none) ∧
      (∀ (j : ℕ) (hj : j < ws.length), v' ws[j].wire = some (Elem.ofBool (n.testBit (i + j)))) ∧
      ∀ k, k ∉ ws.map (·.wire) → v' k = v k := by
  induction ws generalizing i v with
  | nil =>
    simp only [WireValues.setBits, Option.some.injEq]
    constructor
    · rintro rfl; simp
    · rintro ⟨-, -, -, h⟩
      funext k; exact (h k (by simp)).symm
  | cons x ws ih =>
    unfold WireValues.setBits
    rw [Elem.shr_and_one]
    by_cases hx : v x.wire = none
    · have e1 : v.setBoolean x (n.testBit i)
          = some (v.insert x.wire (Elem.ofBool (n.testBit i))) := set_eq_some hx _
      rw [e1]
      simp only [Option.bind_eq_bind, Option.bind_some]
      rw [ih]
      constructor
      · rintro ⟨h1, h2, h3, h4⟩
        have hxn : x.wire ∉ ws.map (·.wire) := by
          intro hm
          obtain ⟨y, hy, hyx⟩ := List.mem_map.1 hm
          have := h2 y hy
          rw [hyx] at this
          simp [WireValues.insert] at this
        refine ⟨by rw [List.map_cons, List.nodup_cons]; exact ⟨hxn, h1⟩, ?_, ?_, ?_⟩
        · intro y hy
          rcases List.mem_cons.1 hy with rfl | hy
          · exact hx
          · have h5 := h2 y hy
            unfold WireValues.insert at h5
            split at h5
            · exact absurd h5 (by simp)
            · exact h5
        · intro j hj
          cases j with
          | zero => simpa [WireValues.insert] using h4 x.wire hxn
          | succ j =>
            have := h3 j (by simpa using hj)
            rw [List.getElem_cons_succ, this]
            congr 3
            omega
        · intro k hk
          rw [List.map_cons, List.mem_cons, not_or] at hk
          rw [h4 k hk.2]
          simp [WireValues.insert, hk.1]
      · rintro ⟨h1, h2, h3, h4⟩
        rw [List.map_cons, List.nodup_cons] at h1
        refine ⟨h1.2, ?_, ?_, ?_⟩
        · intro y hy
          have : y.wire ≠ x.wire := by
            intro he; exact h1.1 (he ▸ List.mem_map.2 ⟨y, hy, rfl⟩)
          simp [WireValues.insert, this, h2 y (List.mem_cons_of_mem _ hy)]
        · intro j hj
          have := h3 (j + 1) (by simpa using hj)
          rw [List.getElem_cons_succ] at this
          rw [this]
          congr 3
          omega
        · intro k hk
          by_cases hkx : k = x.wire
          · subst hkx
            have := h3 0 (by simp)
            simpa [WireValues.insert] using this
          · rw [h4 k (by simp only [List.map_cons, List.mem_cons, not_or]; exact ⟨hkx, hk⟩)]
            simp [WireValues.insert, hkx]
    · have e1 : v.setBoolean x (n.testBit i) = none := by
        unfold WireValues.setBoolean WireValues.set WireValues.contains
        rw [if_pos (by rw [Option.isSome_iff_ne_none]; exact hx)]
      rw [e1]
      constructor
      · intro h; exact absurd h (by simp)
      · rintro ⟨-, h2, -⟩
        exact absurd (h2 x (by simp)) hx

/-- C15: writing `n` to a binary wire of distinct bits panics exactly when `n` does not fit or a bit
already has a value; otherwise reading the wire back gives `n` and no other value has changed. -/
theorem C15_write_read (v : WireValues p) (x : BinaryWire) (hx : (x.bits.map (·.wire)).Nodup)
    (n : ℕ) :
    (v.setBinaryUnsigned x n = none ↔ 2 ^ x.len ≤ n ∨ ∃ y ∈ x.bits, v y.wire ≠ none) ∧
    ∀ v', v.setBinaryUnsigned x n = some v' →
      (BinaryExpression.ofWire x : BinaryExpression p).evaluate v' = some n ∧
      ∀ i, i ∉ x.bits.map (·.wire) → v' i = v i := by
  constructor
  · constructor
    · intro h
      by_contra hc
      simp only [not_or, not_le, not_exists, not_and, ne_eq, not_not] at hc
      unfold WireValues.setBinaryUnsigned at h
      rw [if_pos (Nat.size_le.2 hc.1)] at h
      let v' : WireValues p := fun k =>
        match x.bits.findIdx? (fun y => y.wire = k) with
        | some j => some (Elem.ofBool (n.testBit j))
        | none => v k
      have := (setBits_eq n x.bits 0 v v').2 ⟨hx, hc.2, ?_, ?_⟩
      · rw [this] at h; exact absurd h (by simp)
      · intro j hj
        have : x.bits.findIdx? (fun y => y.wire = x.bits[j].wire) = some j := by
          rw [List.findIdx?_eq_some_iff_getElem]
          refine ⟨hj, by simp, fun i hi => ?_⟩
          simp only [decide_eq_true_eq]
          intro he
          have h1 : (x.bits.map (·.wire))[i]'(by simp; omega) = (x.bits.map (·.wire))[j]'(by simpa using hj) := by
            simpa using he
          have := (List.Nodup.getElem_inj_iff hx).1 h1
          omega
        simp only [v', this, Nat.zero_add]
      · intro k hk
        have : x.bits.findIdx? (fun y => y.wire = k) = none := by
          rw [List.findIdx?_eq_none_iff]
          intro y hy
          simp only [decide_eq_false_iff_not]
          rintro rfl
          exact hk (List.mem_map.2 ⟨y, hy, rfl⟩)
        simp only [v', this]
    · intro h
      unfold WireValues.setBinaryUnsigned
      split
      · next hs =>
        rw [Nat.size_le] at hs
        rcases h with h | ⟨y, hy, hv⟩
        · exact absurd h (by omega)
        · rw [Option.eq_none_iff_forall_ne_some]
          intro v' hv'
          exact hv (((setBits_eq n x.bits 0 v v').1 hv').2.1 y hy)
      · rfl
  · intro v' h
    unfold WireValues.setBinaryUnsigned at h
    split at h
    · next hs =>
      rw [Nat.size_le] at hs
      obtain ⟨-, -, h3, h4⟩ := (setBits_eq n x.bits 0 v v').1 h
      refine ⟨?_, h4⟩
      have hw : ∀ (j : ℕ) (hj : j < x.bits.length),
          (v' x.bits[j].wire).getD 0 = Elem.ofBool (n.testBit j) := by
        intro j hj
        rw [h3 j hj, Nat.zero_add, Option.getD_some]
      rw [(C15_evaluate _ v').1 (fun i => (v' i).getD 0)]
      · rw [ofWire_digits, ← digitsVal_eq_ofDigits]
        have : (x.bits.map fun y => ((v' y.wire).getD 0).n)
            = (List.range x.len).map fun i => (n.testBit i).toNat := by
          apply List.ext_getElem
          · simp [BinaryWire.len]
          · intro j h5 h6
            rw [List.getElem_map, List.getElem_map, List.getElem_range, hw, Elem.ofBool_n]
        rw [this, digitsVal_testBit_of_lt hs]
      · intro b hb i hi
        obtain ⟨y, hy, rfl⟩ := List.mem_map.1 hb
        have : i = y.wire := Expression.mem_deps_ofWire hi
        subst this
        obtain ⟨j, hj, rfl⟩ := List.getElem_of_mem hy
        rw [h3 j hj, Option.getD_some]
      · rw [ofWire_allBool]
        intro y hy
        obtain ⟨j, hj, rfl⟩ := List.getElem_of_mem hy
        rw [hw]
        exact isBool_ofBool _
    · exact absurd h (by simp)

example : ((WireValues.new : WireValues 13).setBinaryUnsigned ⟨[⟨1⟩, ⟨2⟩, ⟨3⟩]⟩ 6).isSome = true := by
  decide +kernel

example : (WireValues.new : WireValues 13).setBinaryUnsigned ⟨[⟨1⟩, ⟨2⟩, ⟨3⟩]⟩ 8 = none :=
  (C15_write_read _ _ (by decide) 8).1.2 (Or.inl (by decide))

/-! ## C16 -/

/-- C16: `join` succeeds exactly when every integer with that many binary digits is below the order
(`2^len ≤ p`), and then denotes exactly the integer with these digits. -/
theorem C16_join (e : BinaryExpression p) :
    (e.join.isSome ↔ ∀ n < 2 ^ e.len, n < p) ∧
    ∀ x, e.join = some x → ∀ w : Assign p, e.AllBool w → (x.eval w).n = e.val w := by
  have h0 : (∀ n < 2 ^ e.len, n < p) ↔ 2 ^ e.len ≤ p :=
    ⟨fun h => by
      have := h (2 ^ e.len - 1) (by have := Nat.two_pow_pos e.len; omega)
      omega, fun h n hn => by omega⟩
  rw [h0]
  constructor
  · constructor
    · intro h
      by_contra hc
      rw [join_eq_none (not_le.1 hc)] at h
      exact absurd h (by simp)
    · intro h
      obtain ⟨x, hx, _⟩ := join_eq h
      rw [hx]; rfl
  · intro x hx w hb
    have hle : 2 ^ e.len ≤ p := by
      by_contra hc
      rw [join_eq_none (not_le.1 hc)] at hx
      exact absurd hx (by simp)
    obtain ⟨y, hy, hev⟩ := join_eq hle
    rw [hx] at hy
    rw [Option.some.inj hy, hev, Elem.natCast_n_of_lt (lt_of_lt_of_le hb.val_lt hle)]

example : (BinaryExpression.ofNat 6 : BinaryExpression 13).join.isSome = true :=
  (C16_join _).1.2 (by rw [ofNat_len]; decide)

/-! ## C17 -/

/-- C17 (partial): up to the number of bits of the field, `join_allowing_overflow` works and gives
the denoted integer modulo the order.  Missing: longer expressions, where it panics. -/
theorem C17_join_allowing_overflow_partial (e : BinaryExpression p) (h : e.len ≤ Elem.maxBits p) :
    ∃ x, e.joinAllowingOverflow = some x ∧ ∀ w : Assign p, (x.eval w).n = e.val w % p := by
  obtain ⟨x, h1, h2⟩ := joinAllowingOverflow_eq h
  exact ⟨x, h1, fun w => by rw [h2, Elem.natCast_n]⟩

example : (BinaryExpression.ofNat 15 : BinaryExpression 13).len ≤ Elem.maxBits 13 := by
  rw [ofNat_len]; decide +kernel

/-- C17 fails: whatever the field, *every* binary expression longer than the field's bit length makes
`join_allowing_overflow` panic. -/
theorem C17_join_allowing_overflow_refuted (e : BinaryExpression p) (h : Elem.maxBits p < e.len) :
    e.joinAllowingOverflow = none :=
  joinAllowingOverflow_eq_none h

example : (BinaryExpression.ofNat 16 : BinaryExpression 13).joinAllowingOverflow = none :=
  C17_join_allowing_overflow_refuted _ (by rw [ofNat_len]; decide +kernel)

end R1CS
