import Verif.Props.BinaryOps

/-!
# C44: how many bits a sum has
-/

namespace R1CS

variable {p : ℕ} [hp : Fact p.Prime]

omit hp in
theorem largestSum_le (terms : List (BinaryExpression p)) :
    largestSum terms ≤ terms.countP (fun t => !t.bits.isEmpty) * (2 ^ longest terms - 1) := by
  have key : ∀ L, longest terms ≤ L →
      largestSum terms ≤ terms.countP (fun t => !t.bits.isEmpty) * (2 ^ L - 1) := by
    intro L
    induction terms with
    | nil => simp [largestSum]
    | cons t l ih =>
      intro h
      have h1 : largestSum (t :: l) = 2 ^ t.bits.length - 1 + largestSum l := rfl
      have h2 : longest (t :: l) = max t.bits.length (longest l) := rfl
      rw [h2] at h
      have h3 := ih (le_trans (le_max_right _ _) h)
      have h4 := Nat.pow_le_pow_right (n := 2) (by simp) (le_trans (le_max_left _ _) h)
      rw [h1, List.countP_cons]
      rcases t with ⟨_ | ⟨b, bs⟩⟩
      · simpa using h3
      · simp only [List.isEmpty_cons, Bool.not_false, if_true]
        rw [Nat.add_mul, Nat.one_mul]
        dsimp only at h4 ⊢
        omega
  exact key _ le_rfl

omit hp in
theorem longest_eq_zero {terms : List (BinaryExpression p)}
    (h : terms.countP (fun t => !t.bits.isEmpty) = 0) : longest terms = 0 := by
  induction terms with
  | nil => rfl
  | cons t l ih =>
    have h2 : longest (t :: l) = max t.bits.length (longest l) := rfl
    rw [List.countP_cons] at h
    rcases t with ⟨_ | ⟨b, bs⟩⟩
    · rw [h2, ih (by simpa using h)]
      rfl
    · simp at h

/-- C44, how many bits the result of a summation has: never fewer than the longest operand, more
exactly if at least two operands are not empty, and by no more than the number of bits the count of those
operands needs. -/
theorem C44_width_exact_partial (terms : List (BinaryExpression p)) :
    Enforces (B.binarySummation terms) (fun e _ =>
      longest terms ≤ e.bits.length ∧
      (longest terms < e.bits.length ↔ 2 ≤ terms.countP (fun t => !t.bits.isEmpty)) ∧
      e.bits.length ≤ longest terms + Nat.clog 2 (terms.countP (fun t => !t.bits.isEmpty))) := by
  refine (C44_summation_enforced terms).mono fun e w _ h => ?_
  rw [h.2.1]
  have h1 := pow_longest_le terms
  have h2 := largestSum_le terms
  set c := terms.countP (fun t => !t.bits.isEmpty)
  set L := longest terms
  set S := largestSum terms
  have hpos := Nat.two_pow_pos L
  have hup : S.size ≤ L + Nat.clog 2 c := by
    rw [Nat.size_le, pow_add]
    have h3 := Nat.le_pow_clog (show 1 < 2 by simp) c
    rcases Nat.eq_zero_or_pos c with h0 | h0
    · rw [h0] at h2 ⊢
      have : S = 0 := by omega
      rw [this]
      positivity
    · calc S ≤ c * (2 ^ L - 1) := h2
        _ < c * 2 ^ L := Nat.mul_lt_mul_of_pos_left (by omega) h0
        _ ≤ 2 ^ Nat.clog 2 c * 2 ^ L := Nat.mul_le_mul_right _ h3
        _ = 2 ^ L * 2 ^ Nat.clog 2 c := Nat.mul_comm _ _
  by_cases hc : 2 ≤ c
  · have : L < S.size := by rw [Nat.lt_size]; omega
    exact ⟨this.le, ⟨fun _ => hc, fun _ => this⟩, hup⟩
  · have hle : S.size ≤ L := by
      rwa [Nat.clog_of_right_le_one (by omega), Nat.add_zero] at hup
    refine ⟨?_, ⟨fun h => by omega, fun h => absurd h hc⟩, hup⟩
    rcases Nat.eq_zero_or_pos L with h0 | h0
    · omega
    · have hL : 2 ^ L = 2 * 2 ^ (L - 1) := by rw [← pow_succ', Nat.sub_add_cancel h0]
      have := Nat.two_pow_pos (L - 1)
      have hc1 : c ≠ 0 := by
        intro hz
        have : L = 0 := longest_eq_zero hz
        omega
      have := Nat.lt_size.2 (show 2 ^ (L - 1) ≤ S by omega)
      omega

/-- C44: `binary_sum` gives one bit more than the longer operand exactly if both are not empty, and
otherwise as many. -/
theorem C44_sum_width_exact_partial (x y : BinaryExpression p) :
    Enforces (B.binarySum x y) (fun e _ => e.bits.length = max x.bits.length y.bits.length +
      if x.bits = [] ∨ y.bits = [] then 0 else 1) := by
  have h2 : longest [x, y] = max x.bits.length y.bits.length := by simp [longest]
  by_cases h : x.bits = [] ∨ y.bits = []
  · refine Enforces.mono (C44_width_exact_partial [x, y]) fun e w _ h1 => ?_
    rw [if_pos h, ← h2]
    have hc : ¬ 2 ≤ [x, y].countP (fun t => !t.bits.isEmpty) := by
      rcases h with h | h <;> simp only [List.countP_cons, h, List.countP_nil] <;>
        simp <;> split <;> omega
    have := fun hlt => hc (h1.2.1.1 hlt)
    omega
  · push Not at h
    refine Enforces.mono (C44_width_partial x y h.1 h.2).1 fun e w _ h1 => ?_
    rw [if_neg (by simp [h.1, h.2])]
    exact h1

/-- The bound is met by three operands of two bits, whose sum is at most 9 and has four bits. -/
example : largestSum (List.replicate 3 (⟨[.true, .false]⟩ : BinaryExpression 13)) = 9 ∧
    longest (List.replicate 3 (⟨[.true, .false]⟩ : BinaryExpression 13)) = 2 ∧
    Nat.size 9 = 2 + Nat.clog 2 3 := by
  refine ⟨by simp [largestSum, List.replicate], by simp [longest, List.replicate], by decide +kernel⟩

/-- The gadget can be built: a 2-bit and an empty operand, over the field of order 13. -/
example : Computes (B.binarySum (BinaryExpression.ofNat 2 : BinaryExpression 13) ⟨[]⟩) honest5
    fun e _ => e.bits.length = 2 := by
  have := (C44_summation_computed honest5 (terms := [.ofNat 2, ⟨[]⟩])
    (by
      intro t ht
      simp only [List.mem_cons, List.not_mem_nil, or_false] at ht
      rcases ht with rfl | rfl
      · exact BinaryExpression.ofNat_scoped (show 1 ≤ honest5.next by decide) _
      · intro b hb; cases hb)
    (by
      intro t ht
      simp only [List.mem_cons, List.not_mem_nil, or_false] at ht
      rcases ht with rfl | rfl
      · exact BinaryExpression.ofNat_allBool honest5.one _
      · intro b hb; cases hb)
    (by rw [maxBits13]; decide +kernel)).1
  refine this.mono fun e s' _ h => ?_
  rw [h.1]
  decide +kernel

end R1CS
