import Verif.Lemmas.Bitwise
import Verif.Props.Comparisons
import Mathlib.Data.Nat.Log

/-!
# C44-C49: binary arithmetic, bitwise operations, random access
-/

set_option linter.unusedSectionVars false

namespace R1CS

variable {p : ℕ} [hp : Fact p.Prime] {α : Type}

open Expression (eval_ofWire)

/-! ## C44 -/

/-- The largest sum that operands of the given lengths can have. -/
def largestSum (terms : List (BinaryExpression p)) : ℕ :=
  (terms.map fun t => 2 ^ t.bits.length - 1).sum

/-- The length of the longest operand. -/
def longest (terms : List (BinaryExpression p)) : ℕ := (terms.map fun t => t.bits.length).foldr max 0

/-- The integer sum of the operands. -/
def intSum (w : Assign p) (terms : List (BinaryExpression p)) : ℕ :=
  (terms.map fun t => t.val w).sum

theorem largestSum_eq (terms : List (BinaryExpression p)) : B.maxSum terms = largestSum terms :=
  maxSum_eq terms

theorem longest_eq (terms : List (BinaryExpression p)) : B.inputBits terms = longest terms := by
  unfold B.inputBits
  rw [inputBits_eq, Nat.zero_max]
  rfl

/-- C44: `binary_summation` is forced to be the integer sum, in exactly as many bits as the largest
possible sum needs. -/
theorem C44_summation_enforced (terms : List (BinaryExpression p)) :
    Enforces (B.binarySummation terms) (fun e w => e.AllBool w ∧
      e.bits.length = (largestSum terms).size ∧
      ((∀ t ∈ terms, t.AllBool w) → e.val w = intSum w terms)) := by
  have := Enforces.binarySummation terms
  rw [largestSum_eq] at this
  exact this

theorem C44_sum_enforced (x y : BinaryExpression p) :
    Enforces (B.binarySum x y) (fun e w => e.AllBool w ∧
      (x.AllBool w → y.AllBool w → e.val w = x.val w + y.val w)) :=
  (C44_summation_enforced [x, y]).mono fun e w _ ⟨h1, _, h3⟩ => ⟨h1, fun hx hy => by
    have := h3 (by simp [hx, hy])
    simpa [intSum] using this⟩

/-- C44: ignoring overflow gives the sum modulo `2^longest`. -/
theorem C44_ignoring_overflow_enforced (terms : List (BinaryExpression p)) :
    Enforces (B.binarySummationIgnoringOverflow terms) (fun e w => e.AllBool w ∧
      e.bits.length = longest terms ∧
      ((∀ t ∈ terms, t.AllBool w) → e.val w = intSum w terms % 2 ^ longest terms)) := by
  have := Enforces.binarySummationIgnoringOverflow terms
  rw [longest_eq] at this
  exact this

theorem C44_sum_ignoring_overflow_enforced (x y : BinaryExpression p) :
    Enforces (B.binarySumIgnoringOverflow x y) (fun e w => e.AllBool w ∧
      e.bits.length = max x.bits.length y.bits.length ∧ (x.AllBool w → y.AllBool w →
        e.val w = (x.val w + y.val w) % 2 ^ max x.bits.length y.bits.length)) :=
  (C44_ignoring_overflow_enforced [x, y]).mono fun e w _ ⟨h1, h2, h3⟩ => by
    refine ⟨h1, by simpa [longest] using h2, fun hx hy => ?_⟩
    have := h3 (by simp [hx, hy])
    simpa [intSum, longest] using this

/-- C44: with overflow excluded, a satisfying assignment exists only if the sum fits in the length
of the longest operand, and the result is the sum. -/
theorem C44_asserting_no_overflow_enforced (terms : List (BinaryExpression p)) :
    Enforces (B.binarySummationAssertingNoOverflow terms) (fun e w => e.AllBool w ∧
      e.bits.length = longest terms ∧
      ((∀ t ∈ terms, t.AllBool w) → intSum w terms < 2 ^ longest terms ∧
        e.val w = intSum w terms)) := by
  have := Enforces.binarySummationAssertingNoOverflow terms
  rw [longest_eq] at this
  exact this

theorem C44_sum_asserting_no_overflow_enforced (x y : BinaryExpression p) :
    Enforces (B.binarySumAssertingNoOverflow x y) (fun e w => e.AllBool w ∧
      e.bits.length = max x.bits.length y.bits.length ∧ (x.AllBool w → y.AllBool w →
        x.val w + y.val w < 2 ^ max x.bits.length y.bits.length ∧
        e.val w = x.val w + y.val w)) :=
  (C44_asserting_no_overflow_enforced [x, y]).mono fun e w _ ⟨h1, h2, h3⟩ => by
    refine ⟨h1, by simpa [longest] using h2, fun hx hy => ?_⟩
    have := h3 (by simp [hx, hy])
    simpa [intSum, longest] using this

/-- C44: the honest results.  The code requires the largest possible sum to have fewer bits than
the field order. -/
theorem C44_summation_computed (s : Hon p) {terms : List (BinaryExpression p)}
    (hsc : ∀ t ∈ terms, t.Scoped s.next) (hb : ∀ t ∈ terms, t.AllBool s.W)
    (hlt : (largestSum terms).size < Elem.maxBits p) :
    Computes (B.binarySummation terms) s (fun e s' => e.bits.length = (largestSum terms).size ∧
      e.AllBool s'.W ∧ e.val s'.W = intSum s.W terms) ∧
    Computes (B.binarySummationIgnoringOverflow terms) s (fun e s' =>
      e.bits.length = longest terms ∧ e.AllBool s'.W ∧
      e.val s'.W = intSum s.W terms % 2 ^ longest terms) ∧
    (2 < p → intSum s.W terms < 2 ^ longest terms →
      Computes (B.binarySummationAssertingNoOverflow terms) s (fun e s' =>
        e.bits.length = longest terms ∧ e.AllBool s'.W ∧ e.val s'.W = intSum s.W terms)) := by
  rw [← largestSum_eq] at hlt ⊢
  rw [← longest_eq]
  refine ⟨((Comp.binarySummation hsc hb hlt).mono fun e s' _ ⟨h1, _, h3, h4, h5⟩ =>
      ⟨h1, h4, h3, h5⟩).computes,
    ((Comp.binarySummationIgnoringOverflow hsc hb hlt).mono fun e s' _ ⟨h1, _, h3, h4, h5⟩ =>
      ⟨h1, h4, h3, h5⟩).computes, fun h2 hfit =>
    ((Comp.binarySummationAssertingNoOverflow h2 hsc hb hlt hfit).mono
      fun e s' _ ⟨h1, _, h3, h4, h5⟩ => ⟨h1, h4, h3, h5⟩).computes⟩

/-- Operands whose largest sum is too long for the field panic. -/
theorem C44_too_long (terms : List (BinaryExpression p)) (b : Builder p)
    (h : Elem.maxBits p ≤ (largestSum terms).size) :
    B.binarySummation terms b = none ∧ B.binarySummationIgnoringOverflow terms b = none ∧
      B.binarySummationAssertingNoOverflow terms b = none := by
  have h1 : B.binarySummation terms b = none := by
    unfold B.binarySummation
    rw [largestSum_eq]
    exact B.bind_none (B.require_neg (by omega) b)
  exact ⟨h1, B.bind_none h1, B.bind_none h1⟩

/-- 2 + 1 over the field of order 13. -/
example : Computes (B.binarySummation [.ofNat 2, .ofNat 1]) honest5 (fun e s' =>
    e.bits.length = 3 ∧ e.val s'.W = 3) :=
  (C44_summation_computed honest5 (terms := [.ofNat 2, .ofNat 1])
    (by simp [BinaryExpression.ofNat_scoped (show 1 ≤ honest5.next by decide)])
    (by simp [BinaryExpression.ofNat_allBool honest5.one])
    (by rw [maxBits13]; decide +kernel)).1.mono fun e s' _ ⟨h1, _, h3⟩ => by
      refine ⟨by rw [h1]; decide +kernel, ?_⟩
      rw [h3, intSum]
      simp [BinaryExpression.ofNat_val honest5.one]

/-- C44: the documentation says that the result is (at least) one bit longer than the longest
operand.  That is false for a single operand. -/
theorem C44_width_refuted (t : BinaryExpression p) :
    Enforces (B.binarySummation [t]) (fun e _ => ¬ longest [t] < e.bits.length) ∧
    Enforces (B.binarySum t ⟨[]⟩) (fun e _ => e.bits.length ≠ longest [t, ⟨[]⟩] + 1) := by
  have h0 : (2 ^ t.bits.length - 1).size = t.bits.length := by
    apply le_antisymm
    · exact Nat.size_le.2 (by have := Nat.two_pow_pos t.bits.length; omega)
    · rcases Nat.eq_zero_or_pos t.bits.length with h | h
      · omega
      · have : 2 ^ t.bits.length = 2 * 2 ^ (t.bits.length - 1) := by
          rw [← pow_succ', Nat.sub_add_cancel h]
        have h2 := Nat.two_pow_pos (t.bits.length - 1)
        have := Nat.lt_size.2 (show 2 ^ (t.bits.length - 1) ≤ 2 ^ t.bits.length - 1 by omega)
        omega
  refine ⟨(C44_summation_enforced [t]).mono fun e w _ h => ?_,
    (C44_summation_enforced [t, ⟨[]⟩]).mono fun e w _ h => ?_⟩
  · rw [h.2.1]; simp [largestSum, longest, h0]
  · rw [h.2.1]; simp [largestSum, longest, h0]

/-- The refutation concerns gadgets that can be built: one 2-bit operand, over the field of
order 13. -/
example : (B.binarySummation [(BinaryExpression.ofNat 2 : BinaryExpression 13)]
    honest5.b).isSome := by
  obtain ⟨e, s', h, _⟩ := (C44_summation_computed honest5 (terms := [.ofNat 2])
    (by simp [BinaryExpression.ofNat_scoped (show 1 ≤ honest5.next by decide)])
    (by simp [BinaryExpression.ofNat_allBool honest5.one])
    (by rw [maxBits13]; decide +kernel)).1
  rw [h]; rfl

theorem count_le_largestSum (terms : List (BinaryExpression p)) :
    terms.countP (fun t => !t.bits.isEmpty) ≤ largestSum terms := by
  induction terms with
  | nil => simp
  | cons t l ih =>
    have : largestSum (t :: l) = 2 ^ t.bits.length - 1 + largestSum l := rfl
    rw [this, List.countP_cons]
    rcases t with ⟨_ | ⟨b, bs⟩⟩
    · simpa using ih
    · have := Nat.two_pow_pos bs.length
      simp only [List.isEmpty_cons, Bool.not_false, if_true, List.length_cons, pow_succ]
      omega

theorem pow_longest_le (terms : List (BinaryExpression p)) :
    2 ^ longest terms + terms.countP (fun t => !t.bits.isEmpty) ≤ largestSum terms + 2 := by
  induction terms with
  | nil => simp [longest]
  | cons t l ih =>
    have h1 : largestSum (t :: l) = 2 ^ t.bits.length - 1 + largestSum l := rfl
    have h2 : longest (t :: l) = max t.bits.length (longest l) := rfl
    have h3 := count_le_largestSum l
    rw [h1, h2, List.countP_cons]
    rcases t with ⟨_ | ⟨b, bs⟩⟩
    · simpa using ih
    · have := Nat.two_pow_pos bs.length
      simp only [List.isEmpty_cons, Bool.not_false, if_true, List.length_cons]
      rcases le_total (bs.length + 1) (longest l) with h | h
      · rw [max_eq_right h, pow_succ]; omega
      · rw [max_eq_left h, pow_succ]; omega

/-- C44: what holds about the width.  `binary_sum` of two non-empty operands is exactly one bit
longer than the longer one; with at least two non-empty operands a summation is longer than the
longest. -/
theorem C44_width_partial (x y : BinaryExpression p) (hx : x.bits ≠ []) (hy : y.bits ≠ []) :
    Enforces (B.binarySum x y) (fun e _ => e.bits.length = max x.bits.length y.bits.length + 1) ∧
    ∀ terms : List (BinaryExpression p), 2 ≤ terms.countP (fun t => !t.bits.isEmpty) →
      Enforces (B.binarySummation terms) (fun e _ => longest terms < e.bits.length) := by
  have key : ∀ terms : List (BinaryExpression p), 2 ≤ terms.countP (fun t => !t.bits.isEmpty) →
      longest terms < (largestSum terms).size := by
    intro terms h
    rw [Nat.lt_size]
    have := pow_longest_le terms
    omega
  refine ⟨(C44_summation_enforced [x, y]).mono fun e w _ h => ?_,
    fun terms ht => (C44_summation_enforced terms).mono fun e w _ h => ?_⟩
  · rw [h.2.1]
    have h1 := key [x, y] (by simp [List.countP_cons, hx, hy])
    have h2 : longest [x, y] = max x.bits.length y.bits.length := by simp [longest]
    rw [h2] at h1
    refine le_antisymm (Nat.size_le.2 ?_) h1
    have h3 : largestSum [x, y] = (2 ^ x.bits.length - 1) + (2 ^ y.bits.length - 1) := by
      simp [largestSum]
    rw [h3, pow_succ]
    have h4 := Nat.pow_le_pow_right (n := 2) (by simp) (le_max_left x.bits.length y.bits.length)
    have h5 := Nat.pow_le_pow_right (n := 2) (by simp) (le_max_right x.bits.length y.bits.length)
    have h6 := Nat.two_pow_pos x.bits.length
    have h7 := Nat.two_pow_pos y.bits.length
    omega
  · rw [h.2.1]; exact key terms ht

/-! ## C45 -/

/-- C45: `binary_assert_zero` forces every bit to be zero. -/
theorem C45_assert_zero_enforced (x : BinaryExpression p) :
    Enforces (B.binaryAssertZero x) (fun _ w => x.AllBool w → ∀ b ∈ x.bits, b.eval w = 0) :=
  Enforces.binaryAssertZero x

/-- C45: and it accepts zeros, for every length. -/
theorem C45_assert_zero_computed (h2 : 2 < p) (s : Hon p) {x : BinaryExpression p}
    (hx : x.Scoped s.next) (h : ∀ b ∈ x.bits, b.eval s.W = 0) :
    Computes (B.binaryAssertZero x) s fun _ _ => True :=
  ((Comp.binaryAssertZero h2 hx h).mono fun _ s' _ h => ⟨h.2.1, trivial⟩).computes

/-- Ten zeros over a field of four bits. -/
example : Computes (B.binaryAssertZero ⟨List.replicate 10 BooleanExpression.false⟩) honest5
    fun _ _ => True :=
  C45_assert_zero_computed (by decide) honest5
    (fun b hb => by rw [List.eq_of_mem_replicate hb]; exact .zero)
    (fun b hb => by rw [List.eq_of_mem_replicate hb]; rfl)

/-! ## C46 -/

/-- C46: the bitwise operations are forced to be those on the denoted integers. -/
theorem C46_bitwise_enforced (x y : BinaryExpression p) :
    Enforces (B.bitwiseNot x) (fun e w => x.AllBool w →
      e.AllBool w ∧ e.len = x.len ∧ e.val w = 2 ^ x.len - 1 - x.val w) ∧
    Enforces (B.bitwiseAnd x y) (fun e w => x.AllBool w → y.AllBool w →
      e.AllBool w ∧ e.len = x.len ∧ e.val w = x.val w &&& y.val w) ∧
    Enforces (B.bitwiseOr x y) (fun e w => x.AllBool w → y.AllBool w →
      e.AllBool w ∧ e.len = x.len ∧ e.val w = x.val w ||| y.val w) ∧
    Enforces (B.bitwiseXor x y) (fun e w => x.AllBool w → y.AllBool w →
      e.AllBool w ∧ e.len = x.len ∧ e.val w = x.val w ^^^ y.val w) := by
  refine ⟨?_, ?_, ?_, ?_⟩
  · unfold B.bitwiseNot
    refine (Enforces.notBits x.bits).bind fun ds => Enforces.pure fun w _ h hx => ?_
    obtain ⟨h1, h2⟩ := h hx
    exact ⟨h1, val_not hx h1 h2⟩
  · unfold B.bitwiseAnd
    refine (Enforces.require _).bind fun _ => (Enforces.zipBits opEnforces_and x.bits y.bits).bind
      fun ds => Enforces.pure fun w _ h hl hx hy => ?_
    obtain ⟨h1, h2⟩ := h hx hy
    obtain ⟨h3, h4⟩ := val_zip rfl hx hy h1 hl h2
    exact ⟨h1, h3, Nat.eq_of_testBit_eq fun i => by rw [h4, Nat.testBit_and]⟩
  · unfold B.bitwiseOr
    refine (Enforces.require _).bind fun _ => (Enforces.zipBits opEnforces_or x.bits y.bits).bind
      fun ds => Enforces.pure fun w _ h hl hx hy => ?_
    obtain ⟨h1, h2⟩ := h hx hy
    obtain ⟨h3, h4⟩ := val_zip rfl hx hy h1 hl h2
    exact ⟨h1, h3, Nat.eq_of_testBit_eq fun i => by rw [h4, Nat.testBit_or]⟩
  · unfold B.bitwiseXor
    refine (Enforces.require _).bind fun _ => (Enforces.zipBits opEnforces_xor x.bits y.bits).bind
      fun ds => Enforces.pure fun w _ h hl hx hy => ?_
    obtain ⟨h1, h2⟩ := h hx hy
    obtain ⟨h3, h4⟩ := val_zip rfl hx hy h1 hl h2
    exact ⟨h1, h3, Nat.eq_of_testBit_eq fun i => by rw [h4, Nat.testBit_xor]⟩

/-- C46: the bitwise operations are computed (`xor` needs an order above 2, see C34). -/
theorem C46_bitwise_computed (s : Hon p) {x y : BinaryExpression p} (hx : x.Scoped s.next)
    (hy : y.Scoped s.next) (hxb : x.AllBool s.W) (hyb : y.AllBool s.W) (hl : x.len = y.len) :
    Computes (B.bitwiseNot x) s (fun e s' => e.AllBool s'.W ∧ e.len = x.len ∧
      e.val s'.W = 2 ^ x.len - 1 - x.val s.W) ∧
    Computes (B.bitwiseAnd x y) s (fun e s' => e.AllBool s'.W ∧ e.len = x.len ∧
      e.val s'.W = x.val s.W &&& y.val s.W) ∧
    Computes (B.bitwiseOr x y) s (fun e s' => e.AllBool s'.W ∧ e.len = x.len ∧
      e.val s'.W = x.val s.W ||| y.val s.W) ∧
    (2 < p → Computes (B.bitwiseXor x y) s (fun e s' => e.AllBool s'.W ∧ e.len = x.len ∧
      e.val s'.W = x.val s.W ^^^ y.val s.W)) := by
  have C := C46_bitwise_enforced x y
  refine ⟨?_, ?_, ?_, fun h2 => ?_⟩
  · refine ((Comp.enforced ?_ C.1).mono fun e s' l ⟨D, h⟩ => ⟨D, ?_⟩).computes
    · unfold B.bitwiseNot
      exact (Comp.notBits x.bits s hx).bind fun ds s1 l1 ⟨D1, _⟩ => Comp.pure D1
    · have := h (l.allBool hx hxb); rw [l.val hx] at this; exact this
  · refine ((Comp.enforced ?_ C.2.1).mono fun e s' l ⟨D, h⟩ => ⟨D, ?_⟩).computes
    · unfold B.bitwiseAnd
      exact Comp.require_bind hl ((Comp.zipBits (fun s x y hx hy => (Comp.and hx hy).mono
        fun z s' _ h => ⟨h.1, h.2.1⟩) x.bits y.bits s hx hy).bind fun ds s1 l1 ⟨D1, _⟩ =>
          Comp.pure D1)
    · have := h (l.allBool hx hxb) (l.allBool hy hyb); rw [l.val hx, l.val hy] at this; exact this
  · refine ((Comp.enforced ?_ C.2.2.1).mono fun e s' l ⟨D, h⟩ => ⟨D, ?_⟩).computes
    · unfold B.bitwiseOr
      exact Comp.require_bind hl ((Comp.zipBits (fun s x y hx hy => (Comp.or hx hy).mono
        fun z s' _ h => ⟨h.1, h.2.1⟩) x.bits y.bits s hx hy).bind fun ds s1 l1 ⟨D1, _⟩ =>
          Comp.pure D1)
    · have := h (l.allBool hx hxb) (l.allBool hy hyb); rw [l.val hx, l.val hy] at this; exact this
  · refine ((Comp.enforced ?_ C.2.2.2).mono fun e s' l ⟨D, h⟩ => ⟨D, ?_⟩).computes
    · unfold B.bitwiseXor
      exact Comp.require_bind hl ((Comp.zipBits (fun s x y hx hy => (Comp.xor h2 hx hy).mono
        fun z s' _ h => ⟨h.1, h.2.1⟩) x.bits y.bits s hx hy).bind fun ds s1 l1 ⟨D1, _⟩ =>
          Comp.pure D1)
    · have := h (l.allBool hx hxb) (l.allBool hy hyb); rw [l.val hx, l.val hy] at this; exact this

/-- C46: operands of different lengths panic. -/
theorem C46_lengths_differ (x y : BinaryExpression p) (h : x.len ≠ y.len) (b : Builder p) :
    B.bitwiseAnd x y b = none ∧ B.bitwiseOr x y b = none ∧ B.bitwiseXor x y b = none :=
  ⟨B.bind_none (B.require_neg h b), B.bind_none (B.require_neg h b),
    B.bind_none (B.require_neg h b)⟩

/-- 12 xor 10 = 6; the operands have four bits, so the numbers may exceed the field's chunk size. -/
example : Computes (B.bitwiseXor (.ofNat 12) (.ofNat 10)) honest5 (fun e s' => e.val s'.W = 6) :=
  ((C46_bitwise_computed honest5
    (BinaryExpression.ofNat_scoped (show 1 ≤ honest5.next by decide) 12)
    (BinaryExpression.ofNat_scoped (show 1 ≤ honest5.next by decide) 10)
    (BinaryExpression.ofNat_allBool honest5.one _) (BinaryExpression.ofNat_allBool honest5.one _)
    (by rw [BinaryExpression.ofNat_len, BinaryExpression.ofNat_len]; decide +kernel)).2.2.2
    (by decide)).mono fun e s' _ h => by
      rw [h.2.2, BinaryExpression.ofNat_val honest5.one, BinaryExpression.ofNat_val honest5.one]
      decide

/-! ## C47 -/

/-- C47: the rotations are those of machine words of the same length, for every amount. -/
theorem C47_rotations (x : BinaryExpression p) (n : ℕ) :
    (∃ e, B.rotateInc x n = some e ∧ e.len = x.len ∧ ∀ w : Assign p, x.AllBool w → e.AllBool w ∧
      BitVec.ofNat x.len (e.val w) = (BitVec.ofNat x.len (x.val w)).rotateLeft n) ∧
    (∃ e, B.rotateDec x n = some e ∧ e.len = x.len ∧ ∀ w : Assign p, x.AllBool w → e.AllBool w ∧
      BitVec.ofNat x.len (e.val w) = (BitVec.ofNat x.len (x.val w)).rotateRight n) := by
  have hmod : ∀ (e : BinaryExpression p) (w : Assign p) (i : ℕ), i < x.len →
      (BitVec.ofNat x.len (e.val w)).getLsbD i = (e.val w).testBit i := by
    intro e w i hi
    rw [BitVec.getLsbD_ofNat, decide_eq_true hi, Bool.true_and]
  refine ⟨⟨_, rotateInc_eq x n, by simp [BinaryExpression.len], fun w hx => ?_⟩,
    ⟨_, rotateDec_eq x n, by simp [BinaryExpression.len], fun w hx => ?_⟩⟩
  · obtain ⟨h1, _, h3⟩ := val_range (w := w) (l := x.len)
      (g := fun i => x.bits.getD ((x.len + i - n % x.len) % x.len) BooleanExpression.false)
      (t := fun i => (x.val w).testBit ((x.len + i - n % x.len) % x.len))
      fun i hi => hx.getD (Nat.mod_lt _ (Nat.zero_lt_of_lt hi))
    refine ⟨h1, BitVec.eq_of_getLsbD_eq fun i hi => ?_⟩
    rw [hmod _ _ _ hi, h3, decide_eq_true hi, Bool.true_and, BitVec.getLsbD_rotateLeft,
      decide_eq_true hi, Bool.true_and]
    have hk := Nat.mod_lt n (Nat.zero_lt_of_lt hi)
    rw [Bool.cond_decide]
    split
    · next h =>
      rw [hmod _ _ _ (by omega), Nat.mod_eq_of_lt (by omega)]
      congr 1; omega
    · next h =>
      rw [hmod _ _ _ (by omega), Nat.mod_eq_sub_mod (by omega), Nat.mod_eq_of_lt (by omega)]
      congr 1; omega
  · obtain ⟨h1, _, h3⟩ := val_range (w := w) (l := x.len)
      (g := fun i => x.bits.getD ((i + n) % x.len) BooleanExpression.false)
      (t := fun i => (x.val w).testBit ((i + n) % x.len))
      fun i hi => hx.getD (Nat.mod_lt _ (Nat.zero_lt_of_lt hi))
    refine ⟨h1, BitVec.eq_of_getLsbD_eq fun i hi => ?_⟩
    rw [hmod _ _ _ hi, h3, decide_eq_true hi, Bool.true_and, BitVec.getLsbD_rotateRight,
      decide_eq_true hi, Bool.true_and]
    have hk := Nat.mod_lt n (Nat.zero_lt_of_lt hi)
    have hm : (i + n) % x.len = (i + n % x.len) % x.len := by rw [Nat.add_mod_mod]
    rw [hm, Bool.cond_decide]
    split
    · next h =>
      rw [hmod _ _ _ (by omega), Nat.mod_eq_of_lt (by omega)]
      congr 1; omega
    · next h =>
      rw [hmod _ _ _ (by omega), Nat.mod_eq_sub_mod (by omega), Nat.mod_eq_of_lt (by omega)]
      congr 1; omega

/-- C47: the shifts are those of machine words of the same length. -/
theorem C47_shifts (x : BinaryExpression p) (n : ℕ) :
    (∃ e, B.shiftInc x n = some e ∧ e.len = x.len ∧ ∀ w : Assign p, x.AllBool w → e.AllBool w ∧
      e.val w = x.val w * 2 ^ n % 2 ^ x.len) ∧
    (n ≤ x.len → ∃ e, B.shiftDec x n = some e ∧ e.len = x.len ∧ ∀ w : Assign p, x.AllBool w →
      e.AllBool w ∧ e.val w = x.val w / 2 ^ n) := by
  refine ⟨⟨_, shiftInc_eq x n, by simp [BinaryExpression.len], fun w hx => ?_⟩,
    fun hn => ⟨_, shiftDec_eq x hn, by simp [BinaryExpression.len], fun w hx => ?_⟩⟩
  · obtain ⟨h1, _, h3⟩ := val_range (w := w) (l := x.len)
      (g := fun i => if i < n then BooleanExpression.false
        else x.bits.getD (i - n) BooleanExpression.false)
      (t := fun i => if i < n then false else (x.val w).testBit (i - n))
      fun i hi => by
        split
        · exact truth_false w
        · exact hx.getD (by omega)
    refine ⟨h1, Nat.eq_of_testBit_eq fun i => ?_⟩
    rw [h3, Nat.testBit_mod_two_pow, Nat.testBit_mul_two_pow]
    by_cases hi : i < n
    · simp [hi, show ¬ n ≤ i by omega]
    · simp [hi, show n ≤ i by omega]
  · obtain ⟨h1, _, h3⟩ := val_range (w := w) (l := x.len)
      (g := fun i => if i < x.len - n then x.bits.getD (i + n) BooleanExpression.false
        else BooleanExpression.false)
      (t := fun i => (x.val w).testBit (i + n))
      fun i hi => by
        split
        · exact hx.getD (by omega)
        · rw [Nat.testBit_lt_two_pow (lt_of_lt_of_le hx.val_lt
            (Nat.pow_le_pow_right (by simp) (by omega)))]
          exact truth_false w
    refine ⟨h1, Nat.eq_of_testBit_eq fun i => ?_⟩
    rw [h3, Nat.testBit_div_two_pow]
    by_cases hi : i < x.len
    · simp [hi]
    · rw [decide_eq_false hi, Bool.false_and, Nat.testBit_lt_two_pow (lt_of_lt_of_le hx.val_lt
            (Nat.pow_le_pow_right (by simp) (by omega)))]

/-- C47: `bitwise_shift_dec_significance` panics instead of shifting everything out when the
amount exceeds the length. -/
theorem C47_shift_dec_refuted (x : BinaryExpression p) (n : ℕ) (h0 : 0 < x.len) (h : x.len < n) :
    B.shiftDec x n = none := by
  unfold B.shiftDec
  dsimp only
  rw [mapM_none _ 0 (List.mem_range.2 h0) (if_neg (by omega))]
  rfl

/-- C47: `rotate_dec` undoes `rotate_inc`, and conversely, expression by expression. -/
theorem C47_rotate_inverse (x : BinaryExpression p) (n : ℕ) :
    (∃ e, B.rotateInc x n = some e ∧ B.rotateDec e n = some x) ∧
    (∃ e, B.rotateDec x n = some e ∧ B.rotateInc e n = some x) := by
  have hlen : ∀ g : ℕ → BooleanExpression p,
      (⟨(List.range x.len).map g⟩ : BinaryExpression p).len = x.len := by
    intro g; simp [BinaryExpression.len]
  have hx : ∀ g : ℕ → BooleanExpression p, (∀ i < x.len, g i
      = x.bits.getD i BooleanExpression.false) → (⟨(List.range x.len).map g⟩ : BinaryExpression p) = x := by
    intro g hg
    have : (List.range x.len).map g = x.bits := by
      apply List.ext_getElem
      · simp [BinaryExpression.len]
      · intro i h1 h2
        rw [List.getElem_map, List.getElem_range, hg i h2]
        simp [h2]
    rw [this]
  have hget : ∀ (g : ℕ → BooleanExpression p) (i : ℕ), i < x.len →
      ((List.range x.len).map g).getD i BooleanExpression.false = g i := by
    intro g i hi; simp [hi]
  refine ⟨⟨_, rotateInc_eq x n, ?_⟩, ⟨_, rotateDec_eq x n, ?_⟩⟩
  · rw [rotateDec_eq, hlen]
    congr 1
    refine hx _ fun i hi => ?_
    have h0 := Nat.zero_lt_of_lt hi
    rw [hget _ _ (Nat.mod_lt _ h0)]
    congr 1
    have hk := Nat.mod_lt n h0
    have hm : (i + n) % x.len = (i + n % x.len) % x.len := by rw [Nat.add_mod_mod]
    rw [hm]
    rcases lt_or_ge (i + n % x.len) x.len with h | h
    · rw [Nat.mod_eq_of_lt h, show x.len + (i + n % x.len) - n % x.len = i + x.len by omega,
        Nat.add_mod_right, Nat.mod_eq_of_lt hi]
    · rw [Nat.mod_eq_sub_mod h, Nat.mod_eq_of_lt (by omega : i + n % x.len - x.len < x.len),
        show x.len + (i + n % x.len - x.len) - n % x.len = i by omega, Nat.mod_eq_of_lt hi]
  · rw [rotateInc_eq, hlen]
    congr 1
    refine hx _ fun i hi => ?_
    have h0 := Nat.zero_lt_of_lt hi
    rw [hget _ _ (Nat.mod_lt _ h0)]
    congr 1
    have hk := Nat.mod_lt n h0
    rw [Nat.mod_add_mod, ← Nat.add_mod_mod, show x.len + i - n % x.len + n % x.len = i + x.len by omega,
      Nat.add_mod_right, Nat.mod_eq_of_lt hi]

/-- A five-bit word rotated by 7, that is by 2: 19 = 10011 becomes 01110 = 14. -/
example : ∃ e, B.rotateInc (BinaryExpression.ofNat 19 : BinaryExpression 13) 7 = some e ∧
    BitVec.ofNat 5 (e.val honest5.W) = 14#5 := by
  obtain ⟨e, h1, _, h3⟩ := (C47_rotations (BinaryExpression.ofNat 19 : BinaryExpression 13) 7).1
  have h4 := (h3 honest5.W (BinaryExpression.ofNat_allBool honest5.one 19)).2
  rw [BinaryExpression.ofNat_val honest5.one, BinaryExpression.ofNat_len,
    show Nat.size 19 = 5 by decide +kernel] at h4
  exact ⟨e, h1, by rw [h4]; decide⟩

/-! ## C48 -/

/-- C48: the selected item, in every satisfying assignment. -/
theorem C48_random_access_enforced (items : List (Expression p)) (index : Expression p) :
    Enforces (B.randomAccess items index) (fun z w => ∀ h : (index.eval w).n < items.length,
      z.eval w = (items[(index.eval w).n]).eval w) := by
  unfold B.randomAccess
  refine (Enforces.splitBounded index _).bind fun ib =>
    (Enforces.randomAccessBinary ib.bits items).mono fun z w _ h ⟨hb, _, _, _, hv⟩ hlt => ?_
  have h1 := h hb
  have h2 : digitsVal ((ib.bits.map (BooleanExpression.truth w)).map Bool.toNat)
      = (index.eval w).n := by rw [← hv, ← hb.digits_eq]; rfl
  rw [pick_eq _ _ (by rw [h2, List.length_map]; exact hlt), h2, List.getElem?_map,
    List.getElem?_eq_getElem hlt] at h1
  exact (Option.some.inj h1).symm

theorem Comp.randomAccess {s : Hon p} {items : List (Expression p)} {index : Expression p}
    (hi : index.Scoped s.next) (hs : ∀ e ∈ items, e.Scoped s.next) (h0 : 0 < items.length)
    (hfit : (index.eval s.W).n < 2 ^ B.indexBits items.length)
    (hm : B.indexBits items.length < Elem.maxBits p) :
    Comp (B.randomAccess items index) s fun z s' => s'.D = s.D ∧ z.Scoped s'.next := by
  unfold B.randomAccess
  refine (Comp.splitBounded hi hm hfit).bind fun ib s1 l1 ⟨D1, sc1, _, n1, _⟩ => ?_
  have h2 := indexBits_spec items.length
  have h3 : ib.bits.length = B.indexBits items.length := n1
  rw [← h3] at h2
  exact (Comp.randomAccessBinary ib.bits items s1 sc1 (fun e he => l1.scoped (hs e he)) h0
    h2.1 h2.2).mono fun z s2 _ ⟨D2, sc2⟩ => ⟨by rw [D2, D1], sc2⟩

theorem indexBits_lt {n k : ℕ} (h : n ≤ 2 ^ k) : B.indexBits n ≤ k := by
  rcases (indexBits_spec n).2 with h1 | h1
  · omega
  · have : 2 ^ (B.indexBits n - 1) < 2 ^ k := by omega
    have := (Nat.pow_lt_pow_iff_right (by simp : 1 < 2)).1 this
    omega

/-- C48: honest execution accepts and selects the item, for every list short enough for its index
to fit in a field element with a spare bit. -/
theorem C48_random_access_computed (s : Hon p) {items : List (Expression p)}
    {index : Expression p} (hi : index.Scoped s.next) (hs : ∀ e ∈ items, e.Scoped s.next)
    (hlen : items.length ≤ 2 ^ (Elem.maxBits p - 1)) (h : (index.eval s.W).n < items.length) :
    Computes (B.randomAccess items index) s
      fun z s' => z.eval s'.W = (items[(index.eval s.W).n]).eval s.W := by
  have hm := BinaryExpression.maxBits_pos (p := p)
  have hb := indexBits_lt hlen
  refine (((Comp.randomAccess hi hs (by omega)
    (lt_of_lt_of_le h (indexBits_spec _).1) (by omega)).enforced
    (C48_random_access_enforced items index)).mono fun z s' l ⟨⟨D, _⟩, hz⟩ => ⟨D, ?_⟩).computes
  have he : index.eval s'.W = index.eval s.W := l.eval hi
  have hz' := hz (by rw [he]; exact h)
  rw [hz']
  have : items[(index.eval s'.W).n]'(by rw [he]; exact h) = items[(index.eval s.W).n] := by
    congr 2
  rw [this]
  exact l.eval (hs _ (List.getElem_mem _))

/-- Index 5 of a list of 7 items (the honest value of wire 1 is 5). -/
example : Computes (B.randomAccess
      [0, 0, 0, Expression.ofElem 7, 0, Expression.ofWire 1, Expression.ofElem 2]
      (Expression.ofWire 1)) honest5 (fun z s' => z.eval s'.W = 5) := by
  have h5 : ((Expression.ofWire 1).eval honest5.W) = (5 : Elem 13) := by rw [eval_ofWire]; rfl
  refine (C48_random_access_computed honest5 (items := [0, 0, 0, Expression.ofElem 7, 0,
    Expression.ofWire 1, Expression.ofElem 2]) (.ofWire (by decide)) ?_
    (by rw [maxBits13]; decide) (by rw [h5]; decide)).mono fun z s' _ h => ?_
  · intro e he
    simp only [List.mem_cons, List.not_mem_nil, or_false] at he
    rcases he with rfl | rfl | rfl | rfl | rfl | rfl | rfl
    all_goals first | exact .zero | exact .ofWire (by decide) | exact .ofElem (by decide) _
  · rw [h]
    have : ∀ (n : ℕ) (hn : n < 7), n = 5 → ([0, 0, 0, Expression.ofElem 7, 0,
      Expression.ofWire 1, Expression.ofElem 2] : List (Expression 13))[n] = Expression.ofWire 1 := by
      rintro n hn rfl; rfl
    rw [this _ _ (by rw [h5]; rfl), h5]

/-! ## C49 -/

theorem indexBits_eq_clog (n : ℕ) : B.indexBits n = Nat.clog 2 n := by
  apply le_antisymm
  · exact indexBits_lt (Nat.le_pow_clog (by simp) n)
  · exact Nat.clog_le_of_le_pow (indexBits_spec n).1

/-- C49: what holds instead, for every index: an index which needs more bits than the length of
the list is rejected, and otherwise the result is one of the items. -/
theorem C49_out_of_range_partial (items : List (Expression p)) (index : Expression p) :
    Enforces (B.randomAccess items index) (fun z w =>
      (index.eval w).n < 2 ^ Nat.clog 2 items.length ∧ ∃ e ∈ items, z.eval w = e.eval w) := by
  unfold B.randomAccess
  refine (Enforces.splitBounded index _).bind fun ib =>
    (Enforces.randomAccessBinary ib.bits items).mono fun z w _ h ⟨hb, hl, _, _, hv⟩ => ⟨?_, ?_⟩
  · rw [← indexBits_eq_clog, ← hv, ← hl]
    exact hb.val_lt
  · obtain ⟨e, he, hz⟩ := List.mem_map.1 (mem_of_pick (h hb))
    exact ⟨e, he, hz.symm⟩

/-- C49: out of range the result is not 0.  With three items `1, 1, 1` and index 3 the gadget is
satisfiable, honest execution accepts, and the result is 1. -/
theorem C49_out_of_range_refuted : ¬ ∀ (p : ℕ) (_ : Fact p.Prime) (items : List (Expression p))
    (index : Expression p), Enforces (B.randomAccess items index)
      (fun z w => items.length ≤ (index.eval w).n → z.eval w = 0) := by
  intro h
  have h3 : ((Expression.ofElem (3 : Elem 13)).eval honest5.W) = (3 : Elem 13) := by
    rw [Expression.eval_ofElem honest5.one]
  obtain ⟨z, s', hr, l, ⟨D, sc⟩, hz⟩ := (Comp.randomAccess (s := honest5)
    (items := [1, 1, 1]) (index := Expression.ofElem (3 : Elem 13)) (.ofElem (by decide) _)
    (by intro e he; simp at he; subst he; exact .one (by decide)) (by decide)
    (by rw [h3]; decide +kernel) (by rw [maxBits13]; decide +kernel)).enforced
      ((h 13 inferInstance [1, 1, 1] (Expression.ofElem 3)).conj
        (C49_out_of_range_partial [1, 1, 1] (Expression.ofElem 3)))
  have he : (Expression.ofElem (3 : Elem 13)).eval s'.W = 3 := by
    rw [Expression.eval_ofElem s'.one]
  have h0 := hz.1 (by rw [he]; decide)
  obtain ⟨e, he, hm⟩ := hz.2.2
  simp only [List.mem_cons, List.not_mem_nil, or_false, or_self] at he
  rw [h0, he, Expression.eval_one s'.one] at hm
  exact absurd hm (by decide)

end R1CS
