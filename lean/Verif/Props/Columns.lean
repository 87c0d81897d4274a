import Verif.Spec.Columns
import Verif.Props.Matrices
import Mathlib.Algebra.BigOperators.Group.Finset.Basic
import Mathlib.Algebra.BigOperators.Ring.Finset

/-!
# C95: Poseidon, Rescue and sponges over them in closed form
-/

set_option linter.unusedSectionVars false

namespace R1CS

variable {p : ℕ} [hp : Fact p.Prime]

namespace Columnwise

variable {n : ℕ} {g g' : ℕ → Elem p → Elem p} {f f' : List (Elem p) → List (Elem p)}

theorem mapIdx_same (σ : Elem p → Elem p) (xs : List (Elem p)) :
    xs.mapIdx (fun _ => σ) = xs.map σ := by
  apply List.ext_getElem (by simp)
  intro i h1 h2
  rw [List.getElem_mapIdx, List.getElem_map]

theorem length (h : Columnwise n g f) {xs : List (Elem p)} (hx : xs.length = n) :
    (f xs).length = n := by rw [h xs hx, List.length_mapIdx, hx]

theorem getD (h : Columnwise n g f) {xs : List (Elem p)} (hx : xs.length = n) {i : ℕ} (hi : i < n) :
    (f xs).getD i 0 = g i (xs.getD i 0) := by
  rw [h xs hx, List.getD_eq_getElem _ _ (by simpa [hx] using hi), List.getElem_mapIdx,
    List.getD_eq_getElem _ _ (by omega)]

theorem congr (h : Columnwise n g f) (hg : ∀ i x, i < n → g i x = g' i x) : Columnwise n g' f := by
  intro xs hx
  rw [h xs hx]
  apply List.ext_getElem (by simp)
  intro i h1 h2
  rw [List.getElem_mapIdx, List.getElem_mapIdx, hg i _ (by simpa [hx] using h1)]

theorem comp (h : Columnwise n g f) (h' : Columnwise n g' f') :
    Columnwise n (fun i x => g' i (g i x)) fun xs => f' (f xs) := by
  intro xs hx
  dsimp only
  rw [h' _ (h.length hx), h xs hx, List.mapIdx_mapIdx]
  rfl

theorem iterate (h : Columnwise n g f) : ∀ k, Columnwise n (fun i => (g i)^[k]) f^[k]
  | 0 => fun xs _ => ((mapIdx_same id xs).trans (by simp)).symm
  | k + 1 => (h.comp (iterate h k)).congr fun _ _ _ => rfl

theorem map (n : ℕ) (σ : Elem p → Elem p) : Columnwise n (fun _ => σ) fun xs => xs.map σ :=
  fun xs _ => (mapIdx_same σ xs).symm

theorem modifyHead (n : ℕ) (σ : Elem p → Elem p) :
    Columnwise n (fun i x => if i = 0 then σ x else x) fun xs => xs.modifyHead σ := by
  intro xs _
  cases xs with
  | nil => rfl
  | cons x xs =>
    rw [List.mapIdx_cons]
    simpa using (mapIdx_same (fun x => x) xs).symm

theorem scaleRows (rows : List (List (Elem p))) :
    Columnwise rows.length (fun i x => x * rowSum rows i) (R1CS.scaleRows rows) := by
  intro xs hx
  unfold R1CS.scaleRows
  apply List.ext_getElem (by simp [hx])
  intro i h1 h2
  have hi : i < rows.length := by simpa [hx] using h2
  rw [List.getElem_zipWith, List.getElem_mapIdx, rowSum, List.getD_eq_getElem rows [] hi]

end Columnwise

/-- C95: with the product that the code computes, Poseidon and Rescue treat every position
separately, whatever the S-box and the matrix. -/
theorem C95_columnwise (σ pow root : Elem p → Elem p) (rows : List (List (Elem p))) (h t n : ℕ) :
    Columnwise rows.length (fun i x => (fun y => σ y * rowSum rows i)^[h]
        ((fun y => (if i = 0 then σ y else y) * rowSum rows i)^[t]
          ((fun y => σ y * rowSum rows i)^[h] x)))
      (poseidonFn σ (scaleRows rows) h t) ∧
    Columnwise rows.length (fun i => (fun y => root (pow y * rowSum rows i) * rowSum rows i)^[n])
      (rescueFn pow root (scaleRows rows) n) := by
  have hm := Columnwise.scaleRows rows
  have hF := ((Columnwise.map _ σ).comp hm).iterate h
  have hP := ((Columnwise.modifyHead _ σ).comp hm).iterate t
  exact ⟨(hF.comp hP).comp hF,
    ((((Columnwise.map _ pow).comp hm).comp (Columnwise.map _ root)).comp hm).iterate n⟩

/-! ## Rescue is linear -/

/-- C95: every power map with an inverse is undone by that inverse up to a constant factor, so that
Rescue, as implemented, multiplies every element by a constant. -/
theorem C95_rescue_linear {α : ℕ} {root : Elem p → Elem p} (hroot : ∀ x, root x ^ α = x)
    (rows : List (List (Elem p))) (n : ℕ) :
    Columnwise rows.length (fun i x => x * (root (rowSum rows i) * rowSum rows i) ^ n)
      (rescueFn (fun x => x ^ α) root (scaleRows rows) n) := by
  have : Finite (Elem p) := Finite.of_injective (fun x : Elem p => (⟨x.n, x.lt⟩ : Fin p))
    fun x y h => Elem.ext_n (Fin.mk.inj_iff.1 h)
  have hinj : Function.Injective fun x : Elem p => x ^ α :=
    Finite.injective_iff_surjective.2 fun x => ⟨root x, hroot x⟩
  have hmul : ∀ x s : Elem p, root (x ^ α * s) = x * root s := fun x s =>
    hinj (by simp only [hroot, mul_pow])
  refine (C95_columnwise id (fun x => x ^ α) root rows 0 0 n).2.congr fun i x _ => ?_
  induction n generalizing x with
  | zero => simp
  | succ n ih =>
    rw [Function.iterate_succ_apply, ih, hmul, pow_succ]
    ring

/-- C95 on circuits: every satisfying assignment gives a Rescue gadget outputs which are constant
multiples of its inputs. -/
theorem C95_rescue_enforced (h2 : 2 < p) (f : Rescue p) {root : Elem p → Elem p}
    (hroot : ∀ x, root x ^ f.alpha.n = x) {xs : List (Expression p)}
    (hx : xs.length = f.mds.rows.length) :
    Enforces (f.toMultiPermutation.permute xs) fun zs w =>
      values w zs = (values w xs).mapIdx fun i x =>
        x * (root (rowSum f.mds.rows i) * rowSum f.mds.rows i) ^ f.numRounds :=
  (C63_rescue_enforced_partial h2 f hroot xs.length xs).mono fun zs w _ hz => by
    rw [hz rfl]
    exact C95_rescue_linear hroot f.mds.rows f.numRounds _ (by simpa using hx)

/-- C95: hence sums of inputs give sums of outputs, and multiples give multiples. -/
theorem C95_rescue_additive {α : ℕ} {root : Elem p → Elem p} (hroot : ∀ x, root x ^ α = x)
    (rows : List (List (Elem p))) (n : ℕ) {xs ys : List (Elem p)} (hx : xs.length = rows.length)
    (hy : ys.length = rows.length) (a : Elem p) :
    let f := rescueFn (fun x => x ^ α) root (scaleRows rows) n
    f (List.zipWith (· + ·) xs ys) = List.zipWith (· + ·) (f xs) (f ys) ∧
    f (xs.map (a * ·)) = (f xs).map (a * ·) := by
  have h := C95_rescue_linear hroot rows n
  dsimp only
  constructor
  · rw [h _ (by simp [hx, hy]), h _ hx, h _ hy]
    apply List.ext_getElem (by simp [hx, hy])
    intro i h1 h2
    simp only [List.getElem_mapIdx, List.getElem_zipWith, add_mul]
  · rw [h _ (by simp [hx]), h _ hx]
    apply List.ext_getElem (by simp)
    intro i h1 h2
    simp only [List.getElem_mapIdx, List.getElem_map, mul_assoc]

/-! ## Poseidon is made of monomials -/

theorem iterate_pow (k : ℕ) (s : Elem p) : ∀ (n : ℕ) (x : Elem p),
    (fun y => y ^ k * s)^[n] x = s ^ geometric k n * x ^ k ^ n
  | 0, x => by simp [geometric]
  | n + 1, x => by
    rw [Function.iterate_succ_apply', iterate_pow k s n x, mul_pow, ← pow_mul, ← pow_mul, geometric,
      pow_succ s, ← pow_succ k]
    ring

theorem iterate_mul (s : Elem p) : ∀ (n : ℕ) (x : Elem p), (fun y => y * s)^[n] x = x * s ^ n
  | 0, x => by simp
  | n + 1, x => by rw [Function.iterate_succ_apply', iterate_mul s n x, pow_succ, mul_assoc]

/-- C95: with the S-box `x ^ k`, output `i` of Poseidon is a constant times a power of input `i`;
beyond the first position the partial rounds only contribute to the constant. -/
theorem C95_poseidon_monomial (k : ℕ) (rows : List (List (Elem p))) (h t : ℕ) :
    Columnwise rows.length (fun i x =>
        if i = 0 then rowSum rows i ^ geometric k (h + t + h) * x ^ k ^ (h + t + h)
        else rowSum rows i ^ ((geometric k h + t) * k ^ h + geometric k h) * x ^ k ^ (h + h))
      (poseidonFn (fun x => x ^ k) (scaleRows rows) h t) := by
  refine (C95_columnwise (fun x => x ^ k) id id rows h t 0).1.congr fun i x _ => ?_
  by_cases h0 : i = 0
  · simp only [h0, if_true]
    rw [← Function.iterate_add_apply, ← Function.iterate_add_apply, iterate_pow]
  · simp only [h0, if_false]
    rw [iterate_pow, iterate_pow, iterate_mul, mul_pow, mul_pow, ← pow_mul, ← pow_mul, ← pow_mul,
      pow_add, pow_add k, add_mul, pow_add]
    ring

/-- C95 on circuits. -/
theorem C95_poseidon_enforced (f : Poseidon p) {k : ℕ}
    (hk : (f.sbox = .exponentiation3 ∧ k = 3) ∨ (f.sbox = .exponentiation5 ∧ k = 5))
    {xs : List (Expression p)} (hx : xs.length = f.width) (hm : f.mds.rows.length = f.width) :
    Enforces (f.toMultiPermutation.permute xs) fun zs w =>
      values w zs = (values w xs).mapIdx fun i x =>
        if i = 0 then rowSum f.mds.rows i ^ geometric k (f.full / 2 + f.partial_ + f.full / 2) *
          x ^ k ^ (f.full / 2 + f.partial_ + f.full / 2)
        else rowSum f.mds.rows i ^ ((geometric k (f.full / 2) + f.partial_) * k ^ (f.full / 2) +
          geometric k (f.full / 2)) * x ^ k ^ (f.full / 2 + f.full / 2) :=
  (C63_poseidon_enforced_partial f hk xs).mono fun zs w _ hz => by
    rw [hz hx]
    exact C95_poseidon_monomial k f.mds.rows _ _ _ (by simpa [hm] using hx)

theorem iterate_inv {s : Elem p} (hs : s ≠ 0) : ∀ (n : ℕ) (x : Elem p),
    (fun y => y⁻¹ * s)^[n] x = if n % 2 = 0 then x else x⁻¹ * s
  | 0, x => by simp
  | n + 1, x => by
    rw [Function.iterate_succ_apply', iterate_inv hs n x]
    rcases Nat.mod_two_eq_zero_or_one n with h | h
    · rw [if_pos h, if_neg (by omega)]
    · rw [if_neg (by omega), if_pos (by omega)]
      rw [mul_inv, inv_inv, inv_mul_cancel_right₀ hs]

/-- C95: with the S-box `1 / x` and row sums other than zero, two rounds undo each other: the first
output is the first input, or a constant divided by it, and the others are constant multiples. -/
theorem C95_poseidon_inverse {rows : List (List (Elem p))}
    (hs : ∀ i < rows.length, rowSum rows i ≠ 0) (h t : ℕ) :
    Columnwise rows.length (fun i x =>
        if i = 0 then (if t % 2 = 0 then x else x⁻¹ * rowSum rows 0)
        else if h % 2 = 0 then x * rowSum rows i ^ t else x * (rowSum rows i)⁻¹ ^ t)
      (poseidonFn (fun x => x⁻¹) (scaleRows rows) h t) := by
  refine (C95_columnwise (fun x => x⁻¹) id id rows h t 0).1.congr fun i x hi => ?_
  by_cases h0 : i = 0
  · subst h0
    simp only [if_true]
    rw [← Function.iterate_add_apply, ← Function.iterate_add_apply, iterate_inv (hs 0 hi)]
    rcases Nat.mod_two_eq_zero_or_one t with ht | ht
    · rw [if_pos (by omega), if_pos ht]
    · rw [if_neg (by omega), if_neg (by omega)]
  · simp only [h0, if_false]
    rw [iterate_inv (hs i hi), iterate_inv (hs i hi), iterate_mul]
    split
    · rfl
    · rw [mul_inv, mul_inv, inv_inv, inv_pow]
      have := hs i hi
      field_simp

/-! ## Sponges over functions which treat every position separately -/

variable {r c : ℕ} {g : ℕ → Elem p → Elem p} {f : List (Elem p) → List (Elem p)}

/-- C95: position `j` of the state of a sponge depends only on element `j` of every chunk; the
positions beyond the rate do not depend on the message. -/
theorem C95_sponge_state (hf : Columnwise (r + c) g f) (inputs : List (Elem p)) (n : ℕ) {j : ℕ}
    (hj : j < r + c) :
    (spongeState f r c inputs n).getD j 0 =
      if j < r then columnState (g j) r inputs j n else (g j)^[n] 0 := by
  have hl := spongeState_length (fun xs hx => hf.length hx) inputs
  induction n with
  | zero =>
    unfold spongeState
    rw [List.getD_eq_getElem _ _ (by simpa using hj)]
    simp [columnState]
  | succ n ih =>
    unfold spongeState
    rw [hf.getD (by simp) hj, List.getD_eq_getElem _ _ (by simpa using hj), List.getElem_map,
      List.getElem_range, ih]
    split
    · rfl
    · rw [add_zero, Function.iterate_succ_apply']

/-- C95: so the capacity stays zero when the permutation maps zero to zero, as Poseidon and Rescue
do for want of round constants. -/
theorem C95_sponge_capacity (hf : Columnwise (r + c) g f) (hg : ∀ j, r ≤ j → j < r + c → g j 0 = 0)
    (inputs : List (Elem p)) (n : ℕ) :
    (spongeState f r c inputs n).drop r = List.replicate c 0 := by
  have hl := spongeState_length (fun xs hx => hf.length hx) inputs n
  apply List.ext_getElem (by simp [hl])
  intro j h1 h2
  have hj : j < c := by simpa using h2
  have := C95_sponge_state hf inputs n (j := r + j) (by omega)
  rw [if_neg (by omega), List.getD_eq_getElem _ _ (by rw [hl]; omega)] at this
  rw [List.getElem_drop, this, List.getElem_replicate]
  exact Function.iterate_fixed (hg _ (by omega) (by omega)) n

theorem spongeOutput_columns (hr : 0 < r) (hf : Columnwise (r + c) g f) (inputs : List (Elem p))
    (outputLen : ℕ) :
    spongeOutput f r c inputs outputLen = (List.range outputLen).map fun o =>
      (g (o % r))^[o / r] (columnState (g (o % r)) r inputs (o % r) ((inputs.length + r - 1) / r)) := by
  refine List.map_congr_left fun o _ => ?_
  have ho := Nat.mod_lt o hr
  have hl := spongeState_length (fun xs hx => hf.length hx) inputs ((inputs.length + r - 1) / r)
  rw [(hf.iterate _).getD hl (by omega), C95_sponge_state hf inputs _ (by omega), if_pos ho]

theorem columnState_congr {g : Elem p → Elem p} {r j : ℕ} {m m' : List (Elem p)} {n₀ : ℕ}
    (h0 : columnState g r m j n₀ = columnState g r m' j n₀)
    (hrest : ∀ i, n₀ ≤ i → chunkElem r m i j = chunkElem r m' i j) : ∀ n, n₀ ≤ n →
    columnState g r m j n = columnState g r m' j n := by
  intro n hn
  induction n, hn using Nat.le_induction with
  | base => exact h0
  | succ n hn ih => rw [columnState, columnState, ih, hrest n hn]

theorem chunkElem_first {r j : ℕ} (hj : j < r) {e rest : List (Elem p)} (he : e.length = r) :
    chunkElem r (e ++ rest) 0 j = e.getD j 0 := by
  unfold chunkElem
  rw [zero_mul, zero_add, List.getD_append _ _ _ _ (by omega)]

theorem chunkElem_later {r j : ℕ} {e rest : List (Elem p)} (he : e.length = r) (i : ℕ) :
    chunkElem r (e ++ rest) (i + 1) j = chunkElem r rest i j := by
  unfold chunkElem
  rw [List.getD_append_right _ _ _ _ (by rw [he, Nat.succ_mul]; omega), he]
  congr 1
  rw [Nat.succ_mul]; omega

/-- C95, second preimages: whatever the message, its first chunk can be replaced by any other when
the second chunk is replaced by a suitable one; all digests, of any length, remain the same. -/
theorem C95_second_preimage (hr : 0 < r) (hf : Columnwise (r + c) g f)
    {a b rest a' : List (Elem p)} (ha : a.length = r) (hb : b.length = r) (ha' : a'.length = r) :
    ∃ b' : List (Elem p), b'.length = r ∧ ∀ outputLen,
      spongeOutput f r c (a' ++ (b' ++ rest)) outputLen =
        spongeOutput f r c (a ++ (b ++ rest)) outputLen := by
  refine ⟨(List.range r).map fun j =>
    g j (a.getD j 0) + b.getD j 0 - g j (a'.getD j 0), by simp, fun outputLen => ?_⟩
  rw [spongeOutput_columns hr hf, spongeOutput_columns hr hf]
  refine List.map_congr_left fun o _ => ?_
  have ho := Nat.mod_lt o hr
  set j := o % r
  have hlen : (a' ++ (((List.range r).map fun j =>
      g j (a.getD j 0) + b.getD j 0 - g j (a'.getD j 0)) ++ rest)).length =
      (a ++ (b ++ rest)).length := by simp [ha, hb, ha']
  rw [hlen]
  congr 1
  refine columnState_congr (n₀ := 2) ?_ (fun i hi => ?_) _ ?_
  · simp only [columnState, zero_add]
    rw [chunkElem_first ho ha', chunkElem_first ho ha, chunkElem_later ha', chunkElem_later ha,
      chunkElem_first ho hb, chunkElem_first ho (by simp),
      List.getD_eq_getElem ((List.range r).map _) 0 (by simpa using ho), List.getElem_map,
      List.getElem_range]
    congr 1
    ring
  · obtain ⟨i, rfl⟩ : ∃ k, i = k + 1 + 1 := ⟨i - 2, by omega⟩
    rw [chunkElem_later ha', chunkElem_later ha, chunkElem_later hb, chunkElem_later (by simp)]
  · rw [Nat.le_div_iff_mul_le hr, List.length_append, List.length_append, ha, hb]
    omega

/-- C95, preimages: if the function is onto at the positions of the rate, every digest of one block
is that of a message of one chunk. -/
theorem C95_preimage (hr : 0 < r) (hf : Columnwise (r + c) g f)
    (hg : ∀ j < r, Function.Surjective (g j)) {digest : List (Elem p)} (hd : digest.length = r) :
    ∃ m : List (Elem p), m.length = r ∧ spongeOutput f r c m r = digest := by
  have : ∀ j, ∃ x, j < r → g j x = digest.getD j 0 := fun j => by
    by_cases hj : j < r
    · obtain ⟨x, hx⟩ := hg j hj (digest.getD j 0)
      exact ⟨x, fun _ => hx⟩
    · exact ⟨0, fun h => absurd h hj⟩
  choose x hx using this
  refine ⟨(List.range r).map x, by simp, ?_⟩
  rw [spongeOutput_columns hr hf]
  apply List.ext_getElem (by simp [hd])
  intro j h1 h2
  have hj : j < r := by omega
  have hk : (((List.range r).map x).length + r - 1) / r = 1 := by
    rw [List.length_map, List.length_range, Nat.div_eq_of_lt_le] <;> omega
  rw [List.getElem_map, List.getElem_range, hk, Nat.mod_eq_of_lt hj, Nat.div_eq_of_lt hj]
  simp only [Function.iterate_zero, id, columnState, zero_add, chunkElem, zero_mul]
  rw [List.getD_eq_getElem ((List.range r).map x) 0 (by simpa using hj), List.getElem_map,
    List.getElem_range, hx j hj, List.getD_eq_getElem _ _ (by omega)]

/-- C95: this applies to sponges over Rescue, and over Poseidon with an S-box onto all elements,
whenever no sum of a row is zero. -/
theorem C95_preimage_shipped (hr : 0 < r) {rows : List (List (Elem p))}
    (hrows : rows.length = r + c) (hs : ∀ i < r, rowSum rows i ≠ 0) {σ pow root : Elem p → Elem p}
    (hσ : Function.Surjective σ) (hpow : Function.Surjective pow)
    (hroot : Function.Surjective root) (h t n : ℕ) {digest : List (Elem p)}
    (hd : digest.length = r) :
    (∃ m : List (Elem p), m.length = r ∧
      spongeOutput (poseidonFn σ (scaleRows rows) h t) r c m r = digest) ∧
    ∃ m : List (Elem p), m.length = r ∧
      spongeOutput (rescueFn pow root (scaleRows rows) n) r c m r = digest := by
  have hmul : ∀ i < r, Function.Surjective fun y => y * rowSum rows i := fun i hi y =>
    ⟨y * (rowSum rows i)⁻¹, inv_mul_cancel_right₀ (hs i hi) y⟩
  obtain ⟨h1, h2⟩ := C95_columnwise σ pow root rows h t n
  rw [hrows] at h1 h2
  have hF : ∀ i < r, Function.Surjective fun y => σ y * rowSum rows i := fun i hi =>
    (hmul i hi).comp hσ
  refine ⟨C95_preimage hr h1 (fun i hi => ((hF i hi).iterate h).comp
    (Function.Surjective.comp (Function.Surjective.iterate ?_ t) ((hF i hi).iterate h))) hd,
    C95_preimage hr h2 (fun i hi => Function.Surjective.iterate
      ((hmul i hi).comp (hroot.comp ((hmul i hi).comp hpow))) n) hd⟩
  by_cases h0 : i = 0
  · simpa only [h0, if_true] using hF 0 (h0 ▸ hi)
  · simpa only [h0, if_false] using hmul i hi

theorem columnState_mul (l : Elem p) (r : ℕ) (m : List (Elem p)) (j : ℕ) : ∀ n,
    columnState (fun x => x * l) r m j n =
      ∑ i ∈ Finset.range n, chunkElem r m i j * l ^ (n - i)
  | 0 => by simp [columnState]
  | n + 1 => by
    rw [columnState, columnState_mul l r m j n, Finset.sum_range_succ, add_mul, Finset.sum_mul]
    congr 1
    · refine Finset.sum_congr rfl fun i hi => ?_
      rw [mul_assoc, ← pow_succ]
      congr 2
      have := Finset.mem_range.1 hi
      omega
    · rw [Nat.add_sub_cancel_left, pow_one]

/-- C95: the digest of a sponge over Rescue is a linear function of the message, with known
coefficients: powers of the constant by which Rescue multiplies the element. -/
theorem C95_rescue_sponge (hr : 0 < r) {α : ℕ} {root : Elem p → Elem p}
    (hroot : ∀ x, root x ^ α = x) {rows : List (List (Elem p))} (hrows : rows.length = r + c)
    (n : ℕ) (m : List (Elem p)) (outputLen : ℕ) :
    spongeOutput (rescueFn (fun x => x ^ α) root (scaleRows rows) n) r c m outputLen =
      (List.range outputLen).map fun o =>
        ∑ i ∈ Finset.range ((m.length + r - 1) / r), m.getD (i * r + o % r) 0 *
          (root (rowSum rows (o % r)) * rowSum rows (o % r)) ^
            (n * ((m.length + r - 1) / r - i + o / r)) := by
  have hf := C95_rescue_linear hroot rows n
  rw [hrows] at hf
  rw [spongeOutput_columns hr hf]
  refine List.map_congr_left fun o _ => ?_
  rw [iterate_mul, columnState_mul, Finset.sum_mul]
  refine Finset.sum_congr rfl fun i _ => ?_
  rw [mul_assoc, ← pow_add, ← pow_mul]
  rfl

/-- C95 on circuits: what the constraints of a sponge over Rescue enforce. -/
theorem C95_rescue_sponge_enforced (h2 : 2 < p) (hr : 0 < r) (f : Rescue p) {sp : Sponge p}
    (hsp : Sponge.new f.toMultiPermutation r c = some sp) (hm : f.mds.rows.length = f.width)
    {root : Elem p → Elem p} (hroot : ∀ x, root x ^ f.alpha.n = x) (inputs : List (Expression p))
    (outputLen : ℕ) :
    Enforces (sp.evaluate inputs outputLen) fun zs w =>
      values w zs = (List.range outputLen).map fun o =>
        ∑ i ∈ Finset.range ((inputs.length + r - 1) / r), (values w inputs).getD (i * r + o % r) 0 *
          (root (rowSum f.mds.rows (o % r)) * rowSum f.mds.rows (o % r)) ^
            (f.numRounds * ((inputs.length + r - 1) / r - i + o / r)) := by
  have hw : r + c = f.width := by
    unfold Sponge.new at hsp
    split at hsp
    · assumption
    · cases hsp
  have hf := C95_rescue_linear hroot f.mds.rows f.numRounds
  refine (C61_sponge_enforced hsp (fun xs hx => ?_)
    (C63_rescue_enforced_partial h2 f hroot _) inputs outputLen).mono fun zs w _ hz => ?_
  · exact (hf.length (hx.trans hm.symm)).trans hm
  · rw [hz, C95_rescue_sponge hr hroot (hm.trans hw.symm), List.length_map]

/-- C95 on circuits: two sponges over Poseidon in one circuit have equal outputs in every satisfying
assignment in which the messages differ as in `C95_second_preimage`: for all values of a message of
at least two chunks and all values of another first chunk, there are values of a second chunk. -/
theorem C95_poseidon_collision (hr : 0 < r) (f : Poseidon p) {k : ℕ}
    (hk : (f.sbox = .exponentiation3 ∧ k = 3) ∨ (f.sbox = .exponentiation5 ∧ k = 5))
    {sp : Sponge p} (hsp : Sponge.new f.toMultiPermutation r c = some sp)
    (hm : f.mds.rows.length = f.width) {a b rest a' : List (Elem p)} (ha : a.length = r)
    (hb : b.length = r) (ha' : a'.length = r) :
    ∃ b' : List (Elem p), b'.length = r ∧ ∀ (m m' : List (Expression p)) (outputLen : ℕ),
      Enforces (do
        let d ← sp.evaluate m outputLen
        let d' ← sp.evaluate m' outputLen
        return (d, d')) fun ds w =>
          values w m = a ++ (b ++ rest) → values w m' = a' ++ (b' ++ rest) →
            values w ds.1 = values w ds.2 := by
  have hw : r + c = f.width := by
    unfold Sponge.new at hsp
    split at hsp
    · assumption
    · cases hsp
  have hf := (C95_columnwise (fun x => x ^ k) id id f.mds.rows (f.full / 2) f.partial_ 0).1
  have hlen : ∀ xs : List (Elem p), xs.length = f.toMultiPermutation.width →
      (poseidonFn (fun x => x ^ k) (scaleRows f.mds.rows) (f.full / 2) f.partial_ xs).length =
        f.toMultiPermutation.width := fun xs hx => (hf.length (hx.trans hm.symm)).trans hm
  rw [hm, ← hw] at hf
  obtain ⟨b', hb', h⟩ := C95_second_preimage hr hf (rest := rest) ha hb ha'
  refine ⟨b', hb', fun m m' outputLen => ?_⟩
  have he := fun m => C61_sponge_enforced hsp hlen (C63_poseidon_enforced_partial f hk) m outputLen
  refine (he m).bind fun d => (he m').bind fun d' => Enforces.pure fun w _ h2 h1 e e' => ?_
  dsimp only
  rw [h1, h2, e, e', h]

/-! ## Instances -/

/-- The Rescue instance modulo 11 with exponent 3 and five rounds: the outputs are the inputs times
`(root s * s) ^ 5` where `s` is 5 and 3. -/
example : rescueFn (fun x : Elem 11 => x ^ 3) (fun x => x ^ 7) (scaleRows [[2, 3], [1, 2]]) 5 [4, 6] =
    [4 * ((5 : Elem 11) ^ 7 * 5) ^ 5, 6 * ((3 : Elem 11) ^ 7 * 3) ^ 5] := by decide +kernel

theorem root11 (x : Elem 11) : (x ^ 7) ^ 3 = x := by
  have : ∀ k : Fin 11, ((⟨k, k.2⟩ : Elem 11) ^ 7) ^ 3 = ⟨k, k.2⟩ := by decide
  exact this ⟨x.n, x.lt⟩

example : Enforces ((⟨2, 3, 5, ⟨[[2, 3], [1, 2]]⟩⟩ : Rescue 11).permute
      [Expression.ofWire 1, Expression.ofWire 2]) fun zs w =>
    values w zs = (values w [Expression.ofWire 1, Expression.ofWire 2]).mapIdx fun i x =>
      x * (rowSum [[2, 3], [1, 2]] i ^ 7 * rowSum [[2, 3], [1, 2]] i) ^ 5 :=
  C95_rescue_enforced (p := 11) (by decide) ⟨2, 3, 5, ⟨[[2, 3], [1, 2]]⟩⟩ root11 rfl

/-- The Poseidon instance of the test in the code. -/
example (xs : List (Expression 11)) (hx : xs.length = 4) :
    Enforces (poseidon11.permute xs) fun zs w =>
      values w zs = (values w xs).mapIdx fun i x =>
        if i = 0 then rowSum poseidon11.mds.rows i ^ geometric 3 10 * x ^ 3 ^ 10
        else rowSum poseidon11.mds.rows i ^ ((geometric 3 2 + 6) * 9 + geometric 3 2) * x ^ 3 ^ 4 :=
  C95_poseidon_enforced poseidon11 (.inl ⟨rfl, rfl⟩) hx rfl

/-- With the inverse as S-box, four full rounds and six partial rounds. -/
example : poseidonFn (fun x : Elem 11 => x⁻¹) (scaleRows [[2, 3], [1, 2]]) 2 6 [4, 6] =
    [4, 6 * 3 ^ 6] :=
  (C95_poseidon_inverse (rows := [[2, 3], [1, 2]]) (by decide) 2 6) [4, 6] rfl

/-- A sponge with rate 1 and capacity 1 over that Rescue instance, where the constant is 1: the
digest is the sum of the message. -/
example :
    let f := rescueFn (fun x : Elem 11 => x ^ 3) (fun x => x ^ 7) (scaleRows [[2, 3], [1, 2]]) 5
    spongeOutput f 1 1 [1, 2, 3] 2 = [6, 6] ∧ spongeOutput f 1 1 [5, 1] 2 = [6, 6] := by
  decide +kernel

example : spongeOutput (rescueFn (fun x : Elem 11 => x ^ 3) (fun x => x ^ 7)
      (scaleRows [[2, 5], [1, 2]]) 3) 1 1 [1, 2, 3] 2 =
    (List.range 2).map fun o => ∑ i ∈ Finset.range 3, [1, 2, 3].getD (i * 1 + o % 1) 0 *
      (rowSum [[2, 5], [1, 2]] (o % 1) ^ 7 * rowSum [[2, 5], [1, 2]] (o % 1)) ^ (3 * (3 - i + o / 1)) :=
  C95_rescue_sponge (r := 1) (c := 1) (by decide) root11 rfl 3 [1, 2, 3] 2

example : ∃ b' : List (Elem 11), b'.length = 2 ∧ ∀ outputLen,
    spongeOutput (poseidonFn (fun x => x ^ 3) (scaleRows poseidon11.mds.rows) 2 6) 2 2
        ([5, 6] ++ (b' ++ [7])) outputLen =
      spongeOutput (poseidonFn (fun x => x ^ 3) (scaleRows poseidon11.mds.rows) 2 6) 2 2
        ([1, 2] ++ ([3, 4] ++ [7])) outputLen :=
  C95_second_preimage (r := 2) (c := 2) (by decide) (C95_columnwise (fun x => x ^ 3) id id poseidon11.mds.rows 2 6 0).1
    rfl rfl rfl

example : ∃ b' : List (Elem 11), b'.length = 2 ∧ ∀ (m m' : List (Expression 11)) (outputLen : ℕ),
    Enforces (do
      let d ← (⟨poseidon11.toMultiPermutation, 2, 2⟩ : Sponge 11).evaluate m outputLen
      let d' ← (⟨poseidon11.toMultiPermutation, 2, 2⟩ : Sponge 11).evaluate m' outputLen
      return (d, d')) fun ds w =>
        values w m = [1, 2] ++ ([3, 4] ++ [7]) → values w m' = [5, 6] ++ (b' ++ [7]) →
          values w ds.1 = values w ds.2 :=
  C95_poseidon_collision (r := 2) (c := 2) (by decide) poseidon11 (.inl ⟨rfl, rfl⟩) rfl rfl rfl rfl rfl

example (inputs : List (Expression 11)) :
    Enforces ((⟨(⟨2, 3, 5, ⟨[[2, 3], [1, 2]]⟩⟩ : Rescue 11).toMultiPermutation, 1, 1⟩ :
      Sponge 11).evaluate inputs 1) fun zs w =>
        values w zs = (List.range 1).map fun o =>
          ∑ i ∈ Finset.range ((inputs.length + 1 - 1) / 1), (values w inputs).getD (i * 1 + o % 1) 0 *
            (rowSum [[2, 3], [1, 2]] (o % 1) ^ 7 * rowSum [[2, 3], [1, 2]] (o % 1)) ^
              (5 * ((inputs.length + 1 - 1) / 1 - i + o / 1)) :=
  C95_rescue_sponge_enforced (r := 1) (c := 1) (by decide) (by decide)
    (⟨2, 3, 5, ⟨[[2, 3], [1, 2]]⟩⟩ : Rescue 11) rfl rfl root11 inputs 1

/-- Every digest of two elements is that of a message of two elements. -/
example {digest : List (Elem 11)} (hd : digest.length = 2) : ∃ m : List (Elem 11), m.length = 2 ∧
    spongeOutput (poseidonFn (fun x => x ^ 3) (scaleRows poseidon11.mds.rows) 2 6) 2 2 m 2 = digest :=
  (C95_preimage_shipped (r := 2) (c := 2) (by decide) rfl (by decide)
    (MonomialPermutation.bijective_of_coprime (by decide) (by decide) (by decide)).2
    Function.surjective_id Function.surjective_id 2 6 0 hd).1

/-- The capacity of the sponge over the Poseidon instance stays zero. -/
example (m : List (Elem 11)) (n : ℕ) :
    (spongeState (poseidonFn (fun x => x ^ 3) (scaleRows poseidon11.mds.rows) 2 6) 2 2 m n).drop 2 =
      [0, 0] :=
  C95_sponge_capacity (r := 2) (c := 2)
    (C95_poseidon_monomial 3 poseidon11.mds.rows 2 6)
    (fun j h _ => by
      rw [if_neg (by omega), zero_pow (by decide), mul_zero]) m n

example (a : Elem 11) :
    rescueFn (fun x : Elem 11 => x ^ 3) (fun x => x ^ 7) (scaleRows [[2, 3], [1, 2]]) 5
        ([4, 6].map (a * ·)) =
      (rescueFn (fun x : Elem 11 => x ^ 3) (fun x => x ^ 7) (scaleRows [[2, 3], [1, 2]]) 5
        [4, 6]).map (a * ·) :=
  (C95_rescue_additive (p := 11) root11 [[2, 3], [1, 2]] 5 (xs := [4, 6]) (ys := [0, 0]) rfl rfl a).2

end R1CS
