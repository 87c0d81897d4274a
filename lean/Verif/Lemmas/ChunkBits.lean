import Verif.Lemmas.Splitting

/-!
# The chunk size of comparisons, and comparing by chunks (pure arithmetic)
-/

set_option linter.unusedSectionVars false

namespace R1CS

/-! ## Chunk size -/

theorem cmpChunkBitsLoop_spec (L : ℕ) : ∀ (r c best : ℕ),
    let b := cmpChunkBitsLoop L r c best (cmpConstraints L best)
    (b = best ∨ (c ≤ b ∧ b < c + r)) ∧ cmpConstraints L b ≤ cmpConstraints L best ∧
    ∀ k, c ≤ k → k < c + r → cmpConstraints L b ≤ cmpConstraints L k
  | 0, c, best => ⟨Or.inl rfl, le_refl _, fun k h1 h2 => by omega⟩
  | r + 1, c, best => by
    intro b
    by_cases h : cmpConstraints L c < cmpConstraints L best
    · have hb : b = cmpChunkBitsLoop L r (c + 1) c (cmpConstraints L c) := by
        simp only [b]; rw [cmpChunkBitsLoop]; exact if_pos h
      obtain ⟨h1, h2, h3⟩ := cmpChunkBitsLoop_spec L r (c + 1) c
      rw [← hb] at h1 h2 h3
      refine ⟨by omega, by omega, fun k hk1 hk2 => ?_⟩
      by_cases hk : k = c
      · subst hk; exact h2
      · exact h3 k (by omega) (by omega)
    · have hb : b = cmpChunkBitsLoop L r (c + 1) best (cmpConstraints L best) := by
        simp only [b]; rw [cmpChunkBitsLoop]; exact if_neg h
      obtain ⟨h1, h2, h3⟩ := cmpChunkBitsLoop_spec L r (c + 1) best
      rw [← hb] at h1 h2 h3
      refine ⟨by omega, h2, fun k hk1 hk2 => ?_⟩
      by_cases hk : k = c
      · subst hk; omega
      · exact h3 k (by omega) (by omega)

/-- The first minimum: a later candidate is only taken when strictly better. -/
theorem cmpChunkBitsLoop_first (L : ℕ) : ∀ (r c best : ℕ), best < c →
    let b := cmpChunkBitsLoop L r c best (cmpConstraints L best)
    ∀ k, (k = best ∨ (c ≤ k ∧ k < c + r)) → k < b → cmpConstraints L b < cmpConstraints L k
  | 0, c, best, hbc => by
    intro b k hk hkb
    simp only [b, cmpChunkBitsLoop] at hkb
    omega
  | r + 1, c, best, hbc => by
    intro b k hk hkb
    by_cases h : cmpConstraints L c < cmpConstraints L best
    · have hb : b = cmpChunkBitsLoop L r (c + 1) c (cmpConstraints L c) := by
        simp only [b]; rw [cmpChunkBitsLoop]; exact if_pos h
      have ih := cmpChunkBitsLoop_first L r (c + 1) c (by omega)
      have sp := (cmpChunkBitsLoop_spec L r (c + 1) c).2.1
      rw [← hb] at ih sp
      rcases hk with rfl | hk
      · omega
      · exact ih k (by omega) hkb
    · have hb : b = cmpChunkBitsLoop L r (c + 1) best (cmpConstraints L best) := by
        simp only [b]; rw [cmpChunkBitsLoop]; exact if_neg h
      have ih := cmpChunkBitsLoop_first L r (c + 1) best (by omega)
      rw [← hb] at ih
      rcases hk with rfl | hk
      · exact ih k (Or.inl rfl) hkb
      · by_cases hkc : k = c
        · subst hkc
          have h1 := ih best (Or.inl rfl) (by omega)
          omega
        · exact ih k (by omega) hkb

theorem cmpChunkBits_pos (N L : ℕ) : 1 ≤ cmpChunkBits N L := by
  have := (cmpChunkBitsLoop_spec L (N - 2) 2 1).1
  unfold cmpChunkBits
  omega

theorem cmpChunkBits_lt {N : ℕ} (hN : 2 ≤ N) (L : ℕ) : cmpChunkBits N L < N := by
  have := (cmpChunkBitsLoop_spec L (N - 2) 2 1).1
  unfold cmpChunkBits
  omega

theorem cmpChunkBits_le {N L k : ℕ} (h1 : 1 ≤ k) (h2 : k < N) :
    cmpConstraints L (cmpChunkBits N L) ≤ cmpConstraints L k := by
  obtain ⟨-, h3, h4⟩ := cmpChunkBitsLoop_spec L (N - 2) 2 1
  unfold cmpChunkBits
  by_cases hk : k = 1
  · subst hk; exact h3
  · exact h4 k (by omega) (by omega)

theorem cmpChunkBits_first {N L k : ℕ} (h1 : 1 ≤ k) (h2 : k < N) (h : k < cmpChunkBits N L) :
    cmpConstraints L (cmpChunkBits N L) < cmpConstraints L k := by
  unfold cmpChunkBits at h ⊢
  exact cmpChunkBitsLoop_first L (N - 2) 2 1 (by omega) k (by omega) h

/-- When some chunk size leaving a spare bit is no worse than the largest one, such a size is
chosen. -/
theorem cmpChunkBits_admissible {N L k : ℕ} (h1 : 1 ≤ k) (h2 : k + 1 < N)
    (h : cmpConstraints L k ≤ cmpConstraints L (N - 1)) : cmpChunkBits N L + 1 < N := by
  have h3 := cmpChunkBits_lt (N := N) (by omega) L
  by_contra hc
  have h4 : cmpChunkBits N L = N - 1 := by omega
  have := cmpChunkBits_first (N := N) (L := L) h1 (by omega) (by omega)
  rw [h4] at this
  omega

theorem ceil_two {L c : ℕ} (h1 : c < L) (h2 : L ≤ 2 * c) : (L + c - 1) / c = 2 := by
  have hc : 0 < c := by omega
  rw [Nat.div_eq_iff hc]; omega

theorem ceil_one {L c : ℕ} (h1 : 0 < L) (h2 : L ≤ c) : (L + c - 1) / c = 1 := by
  have hc : 0 < c := by omega
  rw [Nat.div_eq_iff hc]; omega

/-- Comparing field elements (`L = N`). -/
theorem cmpChunkBits_self {N : ℕ} (hN : 4 ≤ N) : cmpChunkBits N N + 1 < N := by
  apply cmpChunkBits_admissible (k := N - 2) (by omega) (by omega)
  unfold cmpConstraints
  rw [ceil_two (by omega) (by omega), ceil_two (by omega) (by omega)]
  dsimp only
  omega

/-- Comparing strings no longer than a field element, in a field of at least 8 bits. -/
theorem cmpChunkBits_short {N L : ℕ} (hN : 8 ≤ N) (hL : 0 < L) (hLN : L ≤ N) :
    cmpChunkBits N L + 1 < N := by
  rcases Nat.lt_or_ge L (N - 1) with h | h
  · apply cmpChunkBits_admissible (k := N - 2) (by omega) (by omega)
    unfold cmpConstraints
    rw [ceil_one (by omega) (by omega), ceil_one (by omega) (by omega)]
    dsimp only
    omega
  · by_cases hL' : L = N
    · subst hL'; exact cmpChunkBits_self (by omega)
    · apply cmpChunkBits_admissible (k := N - 4) (by omega) (by omega)
      unfold cmpConstraints
      rw [ceil_two (by omega) (by omega), ceil_one (by omega) (by omega)]
      dsimp only
      omega

/-- Whenever the chosen chunk size leaves a spare bit, there are few chunks: fewer than the order of
any field with `N` bits. -/
theorem chunks_lt {N L : ℕ} (h : cmpChunkBits N L + 1 < N) :
    (L + cmpChunkBits N L - 1) / cmpChunkBits N L < 2 ^ (N - 1) := by
  have hc := cmpChunkBits_pos N L
  have hopt := cmpChunkBits_le (N := N) (L := L) (k := N - 1) (by omega) (by omega)
  generalize cmpChunkBits N L = c at *
  unfold cmpConstraints at hopt
  set a := (L + c - 1) / c with ha
  obtain ⟨M, rfl⟩ : ∃ M, N = M + 1 := ⟨N - 1, by omega⟩
  simp only [Nat.add_sub_cancel] at *
  -- L ≤ a * c
  have hLa : L ≤ a * c := by
    have h1 := Nat.div_add_mod (L + c - 1) c
    have h2 := Nat.mod_lt (L + c - 1) hc
    rw [← ha, Nat.mul_comm] at h1
    omega
  have hM : 0 < M := by omega
  set q := a / M with hq
  -- the number of chunks of size `M` is at most `a - q`
  have hb : (L + M - 1) / M ≤ a - q := by
    rw [← Nat.lt_add_one_iff, Nat.div_lt_iff_lt_mul hM]
    have h1 : a * c ≤ a * (M - 1) := Nat.mul_le_mul_left _ (by omega)
    have h2 : q * M ≤ a := Nat.div_mul_le_self a M
    have h3 : a < (q + 1) * M := by
      have := Nat.lt_div_mul_add hM (a := a)
      rw [← hq] at this
      rw [Nat.add_mul, Nat.one_mul]; omega
    have hqa : q ≤ a := Nat.div_le_self a M
    obtain ⟨M', rfl⟩ : ∃ M', M = M' + 1 := ⟨M - 1, by omega⟩
    obtain ⟨d, hd⟩ : ∃ d, a = q + d := ⟨a - q, by omega⟩
    have h4 : a - q = d := by omega
    rw [h4]
    simp only [Nat.add_sub_cancel] at h1
    have e1 : a * M' = q * M' + d * M' := by rw [hd, Nat.add_mul]
    have e2 : (d + 1) * (M' + 1) = d * M' + d + M' + 1 := by ring
    have e3 : q * (M' + 1) = q * M' + q := by ring
    rw [e2]
    omega
  have hqa : q ≤ a := Nat.div_le_self a M
  have h3q : 3 * q + c ≤ M := by omega
  have haM : a < (q + 1) * M := by
    have := Nat.lt_div_mul_add hM (a := a)
    rw [← hq] at this
    rw [Nat.add_mul, Nat.one_mul]; omega
  have hfin : 3 * a < (M + 2) * M := by
    have : (3 * q + 3) * M ≤ (M + 2) * M := Nat.mul_le_mul_right _ (by omega)
    have e : 3 * ((q + 1) * M) = (3 * q + 3) * M := by ring
    omega
  have hpow : ∀ M : ℕ, 1 ≤ M → (M + 2) * M ≤ 3 * 2 ^ M := by
    intro M hM
    induction M, hM using Nat.le_induction with
    | base => norm_num
    | succ n hn ih =>
      by_cases hn3 : n ≤ 2
      · interval_cases n <;> norm_num
      · have e : (n + 1 + 2) * (n + 1) = (n + 2) * n + (2 * n + 3) := by ring
        have : 2 * n + 3 ≤ (n + 2) * n := by nlinarith
        rw [e, pow_succ]; omega
  have := hpow M hM
  omega

/-! ## Integers by chunks -/

/-- The integer with the given base-`2^c` digits. -/
def chunkVal (c : ℕ) : List ℕ → ℕ
  | [] => 0
  | x :: xs => x + 2 ^ c * chunkVal c xs

theorem lt_of_chunks {c x y X Y : ℕ} (hx : x < 2 ^ c) (h : X < Y) : x + 2 ^ c * X < y + 2 ^ c * Y := by
  have : 2 ^ c * (X + 1) ≤ 2 ^ c * Y := Nat.mul_le_mul_left _ h
  rw [Nat.mul_add, Nat.mul_one] at this
  omega

variable {p : ℕ} [hp : Fact p.Prime]

theorem chunkVal_go (w : Assign p) {c : ℕ} (hc : 0 < c) : ∀ (fuel : ℕ)
    (l : List (BooleanExpression p)), l.length ≤ fuel →
    chunkVal c ((chunksOf.go c fuel l).map fun b => BinaryExpression.val w ⟨b⟩)
      = BinaryExpression.val w ⟨l⟩
  | 0, l, h => by
    rw [List.length_eq_zero_iff.1 (Nat.le_zero.1 h)]; rfl
  | fuel + 1, [], _ => rfl
  | fuel + 1, x :: xs, h => by
    unfold chunksOf.go
    rw [List.map_cons, chunkVal, chunkVal_go w hc fuel]
    · conv_rhs => rw [← List.take_append_drop c (x :: xs)]
      rw [BinaryExpression.val_append]
      by_cases hl : c ≤ (x :: xs).length
      · rw [List.length_take, Nat.min_eq_left hl]
      · rw [List.drop_eq_nil_of_le (by omega)]
        simp [BinaryExpression.val_nil]
    · rw [List.length_drop]
      simp at h ⊢
      omega

theorem chunkVal_chunks (w : Assign p) {c : ℕ} (hc : 0 < c) (e : BinaryExpression p) :
    chunkVal c ((chunksOf c e.bits).map fun b => BinaryExpression.val w ⟨b⟩) = e.val w :=
  chunkVal_go w hc _ _ le_rfl

theorem allBool_chunks {w : Assign p} {e : BinaryExpression p} (h : e.AllBool w) (c : ℕ)
    (hc : 0 < c) : ∀ b ∈ chunksOf c e.bits, BinaryExpression.AllBool w ⟨b⟩ := by
  intro b hb x hx
  apply h
  rw [← chunksOf_flatten hc e.bits]
  exact List.mem_flatten.2 ⟨b, hb, hx⟩

theorem chunk_lt {w : Assign p} {e : BinaryExpression p} (h : e.AllBool w) {c : ℕ}
    (hc : 0 < c) : ∀ b ∈ chunksOf c e.bits, BinaryExpression.val w ⟨b⟩ < 2 ^ c := by
  intro b hb
  have h1 := (allBool_chunks h c hc b hb).val_lt
  have h2 := (chunksOf_lengths hc e.bits b hb).2
  exact lt_of_lt_of_le h1 (Nat.pow_le_pow_right (by simp) h2)

/-! ## Masks -/

/-- What the constraints say about a mask, from the less significant side: once a bit of the mask has
been seen, the chunks agree. -/
def EqAbove : Elem p → List (Elem p × Elem p × Elem p) → Prop
  | _, [] => True
  | seen, (m, x, y) :: rest => seen * (x - y) = 0 ∧ EqAbove (seen + m) rest

/-- The chunk difference selected by the mask. -/
def maskDiff : List (Elem p × Elem p × Elem p) → Elem p
  | [] => 0
  | (m, x, y) :: rest => m * (x - y) + maskDiff rest

/-- Triples of a mask and chunk values. -/
def triples (ms : List (Elem p)) (xs ys : List ℕ) : List (Elem p × Elem p × Elem p) :=
  ms.zip ((xs.map fun x : ℕ => (x : Elem p)).zip (ys.map fun y : ℕ => (y : Elem p)))

theorem cast_inj {x y : ℕ} (hx : x < p) (hy : y < p) (h : (x : Elem p) = (y : Elem p)) : x = y := by
  rw [← Elem.natCast_n_of_lt hx, ← Elem.natCast_n_of_lt hy, h]

theorem mask_sound {c : ℕ} (hcp : 2 ^ c ≤ p) : ∀ (ms : List (Elem p)) (xs ys : List ℕ)
    (seen : Elem p), ms.length = xs.length → xs.length = ys.length →
    (∀ x ∈ xs, x < 2 ^ c) → (∀ y ∈ ys, y < 2 ^ c) → (∀ m ∈ ms, IsBool m) → IsBool seen →
    seen.n + (ms.map fun m => m.n).sum ≤ 1 → EqAbove seen (triples ms xs ys) →
    ∃ d : ℤ, |d| < 2 ^ c ∧ maskDiff (triples ms xs ys) = (d : Elem p) ∧
      (d < 0 → chunkVal c xs < chunkVal c ys) ∧ (0 < d → chunkVal c ys < chunkVal c xs) ∧
      (seen = 1 → xs = ys ∧ d = 0)
  | [], xs, ys, seen, h1, h2, _, _, _, _, _, _ => by
    have hx : xs = [] := List.length_eq_zero_iff.1 h1.symm
    subst hx
    have hy : ys = [] := List.length_eq_zero_iff.1 h2.symm
    subst hy
    exact ⟨0, by simp, by simp [maskDiff, triples], by simp, by simp, fun _ => ⟨rfl, rfl⟩⟩
  | m :: ms, [], ys, _, h1, _, _, _, _, _, _, _ => by simp at h1
  | m :: ms, x :: xs, [], _, _, h2, _, _, _, _, _, _ => by simp at h2
  | m :: ms, x :: xs, y :: ys, seen, h1, h2, hx, hy, hm, hs, hsum, he => by
    have hone : (1 : Elem p).n = 1 := rfl
    have hxc := hx x (by simp)
    have hyc := hy y (by simp)
    have he' : seen * ((x : Elem p) - (y : Elem p)) = 0 ∧ EqAbove (seen + m) (triples ms xs ys) := he
    rw [List.map_cons, List.sum_cons] at hsum
    have hdiff : maskDiff (triples (m :: ms) (x :: xs) (y :: ys))
        = m * ((x : Elem p) - (y : Elem p)) + maskDiff (triples ms xs ys) := rfl
    have hmb := hm m (by simp)
    have hsm : IsBool (seen + m) ∧ (seen + m).n = seen.n + m.n := by
      rcases hs with rfl | rfl <;> rcases hmb with rfl | rfl
      · simp [IsBool]
      · simp [IsBool]
      · simp [IsBool]
      · simp [hone] at hsum
    obtain ⟨d, hd1, hd2, hd3, hd4, hd5⟩ := mask_sound hcp ms xs ys (seen + m) (by simpa using h1)
      (by simpa using h2) (fun z hz => hx z (by simp [hz])) (fun z hz => hy z (by simp [hz]))
      (fun z hz => hm z (by simp [hz])) hsm.1 (by rw [hsm.2]; omega) he'.2
    rcases hmb with rfl | rfl
    · refine ⟨d, hd1, by rw [hdiff, hd2]; ring, fun h => lt_of_chunks hxc (hd3 h),
        fun h => lt_of_chunks hyc (hd4 h), fun h => ?_⟩
      obtain ⟨h5, h6⟩ := hd5 (by rw [h, add_zero])
      refine ⟨?_, h6⟩
      have h7 := he'.1
      rw [h, one_mul, sub_eq_zero] at h7
      rw [cast_inj (by omega) (by omega) h7, h5]
    · have hs0 : seen = 0 := by
        rcases hs with rfl | rfl
        · rfl
        · simp [hone] at hsum
      obtain ⟨h5, h6⟩ := hd5 (by rw [hs0, zero_add])
      subst h5
      refine ⟨(x : ℤ) - (y : ℤ), ?_, ?_, ?_, ?_, ?_⟩
      · rw [abs_lt]
        have h8 : (x : ℤ) < 2 ^ c := by exact_mod_cast hxc
        have h9 : (y : ℤ) < 2 ^ c := by exact_mod_cast hyc
        constructor <;> omega
      · rw [hdiff, hd2, h6]; push_cast; ring
      · intro h; simp only [chunkVal]; omega
      · intro h; simp only [chunkVal]; omega
      · intro h; rw [hs0] at h; exact absurd h (by simp)

/-- The honest mask: it marks the most significant pair of different chunks. -/
def honestMask : List ℕ → List ℕ → List (Elem p)
  | x :: xs, y :: ys => Elem.ofBool (decide (x ≠ y ∧ xs = ys)) :: honestMask xs ys
  | _, _ => []

theorem honestMask_length : ∀ (xs ys : List ℕ), xs.length = ys.length →
    (honestMask xs ys : List (Elem p)).length = xs.length
  | [], [], _ => rfl
  | [], _ :: _, h => by simp at h
  | _ :: _, [], h => by simp at h
  | x :: xs, y :: ys, h => by
    rw [honestMask, List.length_cons, honestMask_length xs ys (by simpa using h), List.length_cons]

theorem honestMask_isBool : ∀ (xs ys : List ℕ), ∀ m ∈ (honestMask xs ys : List (Elem p)), IsBool m
  | [], _ => by simp [honestMask]
  | _ :: _, [] => by simp [honestMask]
  | x :: xs, y :: ys => by
    intro m hm
    rw [honestMask, List.mem_cons] at hm
    rcases hm with rfl | hm
    · exact isBool_ofBool _
    · exact honestMask_isBool xs ys m hm

theorem honestMask_sum : ∀ (xs ys : List ℕ), xs.length = ys.length →
    ((honestMask xs ys : List (Elem p)).map fun m => m.n).sum = if xs = ys then 0 else 1
  | [], [], _ => by simp [honestMask]
  | [], _ :: _, h => by simp at h
  | _ :: _, [], h => by simp at h
  | x :: xs, y :: ys, h => by
    rw [honestMask, List.map_cons, List.sum_cons, honestMask_sum xs ys (by simpa using h),
      Elem.ofBool_n]
    by_cases h1 : x = y <;> by_cases h2 : xs = ys <;> simp [h1, h2]

theorem honestMask_eqAbove : ∀ (xs ys : List ℕ) (seen : Elem p), xs.length = ys.length →
    (seen ≠ 0 → xs = ys) → EqAbove seen (triples (honestMask xs ys) xs ys)
  | [], [], _, _, _ => trivial
  | [], _ :: _, _, h, _ => by simp at h
  | _ :: _, [], _, h, _ => by simp at h
  | x :: xs, y :: ys, seen, h, hs => by
    refine ⟨?_, honestMask_eqAbove xs ys _ (by simpa using h) ?_⟩
    · by_cases h0 : seen = 0
      · rw [h0, zero_mul]
      · have := hs h0
        simp only [List.cons.injEq] at this
        rw [this.1]; simp
    · intro h0
      by_cases hs0 : seen = 0
      · rw [hs0, zero_add] at h0
        by_contra hc
        exact h0 (by simp [hc, Elem.ofBool_false])
      · have := hs hs0
        simp only [List.cons.injEq] at this
        exact this.2

theorem honestMask_diff {c : ℕ} : ∀ (xs ys : List ℕ), xs.length = ys.length →
    (∀ x ∈ xs, x < 2 ^ c) → (∀ y ∈ ys, y < 2 ^ c) →
    ∃ d : ℤ, |d| < 2 ^ c ∧ maskDiff (triples (honestMask xs ys) xs ys) = (d : Elem p) ∧
      (d < 0 ↔ chunkVal c xs < chunkVal c ys) ∧ (0 < d ↔ chunkVal c ys < chunkVal c xs) ∧
      (d = 0 ↔ xs = ys)
  | [], [], _, _, _ => ⟨0, by simp, by simp [maskDiff, triples], by simp, by simp, by simp⟩
  | [], _ :: _, h, _, _ => by simp at h
  | _ :: _, [], h, _, _ => by simp at h
  | x :: xs, y :: ys, h, hx, hy => by
    have hxc := hx x (by simp)
    have hyc := hy y (by simp)
    obtain ⟨d, h1, h2, h3, h4, h5⟩ := honestMask_diff xs ys (by simpa using h)
      (fun z hz => hx z (by simp [hz])) (fun z hz => hy z (by simp [hz]))
    have hdiff : maskDiff (triples (honestMask (x :: xs) (y :: ys)) (x :: xs) (y :: ys))
        = (Elem.ofBool (decide (x ≠ y ∧ xs = ys)) : Elem p) * ((x : Elem p) - (y : Elem p))
          + maskDiff (triples (honestMask xs ys) xs ys) := rfl
    by_cases he : xs = ys
    · subst he
      have hd0 : d = 0 := h5.2 rfl
      refine ⟨(x : ℤ) - (y : ℤ), ?_, ?_, ?_, ?_, ?_⟩
      · rw [abs_lt]
        have h8 : (x : ℤ) < 2 ^ c := by exact_mod_cast hxc
        have h9 : (y : ℤ) < 2 ^ c := by exact_mod_cast hyc
        constructor <;> omega
      · rw [hdiff, h2, hd0]
        by_cases hxy : x = y
        · simp [hxy]
        · simp [hxy, Elem.ofBool_true]
      · simp only [chunkVal]; omega
      · simp only [chunkVal]; omega
      · simp only [List.cons.injEq, and_true]; omega
    · refine ⟨d, h1, ?_, ?_, ?_, ?_⟩
      · rw [hdiff, h2]; simp [he, Elem.ofBool_false]
      · have hd0 : d ≠ 0 := fun h0 => he (h5.1 h0)
        rw [h3]
        refine ⟨fun h => lt_of_chunks hxc h, fun h => ?_⟩
        by_contra hc
        have : 0 < d := by rw [← h3] at hc; omega
        have := lt_of_chunks (y := x) hyc (h4.1 this)
        simp only [chunkVal] at h
        omega
      · have hd0 : d ≠ 0 := fun h0 => he (h5.1 h0)
        rw [h4]
        refine ⟨fun h => lt_of_chunks hyc h, fun h => ?_⟩
        by_contra hc
        have : d < 0 := by rw [← h4] at hc; omega
        have := lt_of_chunks (y := y) hxc (h3.1 this)
        simp only [chunkVal] at h
        omega
      · simp only [List.cons.injEq]
        rw [h5]
        exact ⟨fun h => absurd h he, fun h => h.2⟩

theorem chunkVal_inj {c : ℕ} : ∀ (xs ys : List ℕ), xs.length = ys.length →
    (∀ x ∈ xs, x < 2 ^ c) → (∀ y ∈ ys, y < 2 ^ c) → chunkVal c xs = chunkVal c ys → xs = ys
  | [], [], _, _, _, _ => rfl
  | [], _ :: _, h, _, _, _ => by simp at h
  | _ :: _, [], h, _, _, _ => by simp at h
  | x :: xs, y :: ys, h, hx, hy, he => by
    have hxc := hx x (by simp)
    have hyc := hy y (by simp)
    simp only [chunkVal] at he
    have h1 : chunkVal c xs = chunkVal c ys := by
      rcases Nat.lt_trichotomy (chunkVal c xs) (chunkVal c ys) with h | h | h
      · have := lt_of_chunks (y := y) hxc h; omega
      · exact h
      · have := lt_of_chunks (y := x) hyc h; omega
    rw [h1] at he
    rw [chunkVal_inj xs ys (by simpa using h) (fun z hz => hx z (by simp [hz]))
      (fun z hz => hy z (by simp [hz])) h1]
    congr 1
    omega

/-- The all-zero mask. -/
theorem zeroMask_eqAbove (n : ℕ) : ∀ (xs ys : List ℕ),
    EqAbove (0 : Elem p) (triples (List.replicate n 0) xs ys) := by
  induction n with
  | zero => intro xs ys; simp [triples, EqAbove]
  | succ n ih =>
    intro xs ys
    cases xs with
    | nil => simp [triples, EqAbove]
    | cons x xs =>
      cases ys with
      | nil => simp [triples, EqAbove]
      | cons y ys => exact ⟨zero_mul _, by rw [add_zero]; exact ih xs ys⟩

theorem zeroMask_diff (n : ℕ) : ∀ (xs ys : List ℕ),
    maskDiff (triples (List.replicate n (0 : Elem p)) xs ys) = 0 := by
  induction n with
  | zero => intro xs ys; simp [triples, maskDiff]
  | succ n ih =>
    intro xs ys
    cases xs with
    | nil => simp [triples, maskDiff]
    | cons x xs =>
      cases ys with
      | nil => simp [triples, maskDiff]
      | cons y ys =>
        change 0 * _ + maskDiff (triples (List.replicate n 0) xs ys) = 0
        rw [ih, zero_mul, zero_add]

end R1CS
