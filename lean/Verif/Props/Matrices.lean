import Verif.Lemmas.Matrices
import Verif.Props.Hashes
import Mathlib.Algebra.BigOperators.Group.Finset.Basic
import Mathlib.Algebra.BigOperators.Ring.Finset

/-!
# C62, C63: the matrix-vector product, Poseidon and Rescue
-/

set_option linter.unusedSectionVars false

namespace R1CS

variable {p : ℕ} [hp : Fact p.Prime]

open Expression (eval_ofElem eval_one eval_zero)

/-! ## C62 -/

theorem sum_eq_range : ∀ row : List (Elem p),
    row.sum = ∑ k ∈ Finset.range row.length, row.getD k 0
  | [] => rfl
  | x :: row => by
    rw [List.sum_cons, List.length_cons, Finset.sum_range_succ', sum_eq_range row, add_comm]
    simp

theorem inner_eq_range : ∀ (row v : List (Elem p)), row.length = v.length →
    (List.zipWith (· * ·) row v).sum =
      ∑ k ∈ Finset.range row.length, row.getD k 0 * v.getD k 0
  | [], [], _ => rfl
  | x :: row, y :: v, h => by
    rw [List.zipWith_cons_cons, List.sum_cons, List.length_cons, Finset.sum_range_succ',
      inner_eq_range row v (by simpa using h), add_comm]
    simp

/-- C62: what the product is: element `i` of the vector times the sum of row `i`, with as many
elements as the shorter of rows and vector; mismatching dimensions are not noticed.  For vectors of
elements and of expressions. -/
theorem C62_product_computes_partial (m : ElementMatrix p) :
    (∀ v : List (Elem p), m.mulElems v = scaleRows m.rows v) ∧
    (∀ (v : List (Expression p)) (w : Assign p),
      values w (m.mulExpressions v) = scaleRows m.rows (values w v)) ∧
    ∀ v : List (Elem p), (scaleRows m.rows v).length = min m.rows.length v.length :=
  ⟨m.mulElems_eq, m.values_mulExpressions, fun v => by simp [scaleRows]⟩

/-- C62: for a square matrix the product is the mathematical one for all vectors exactly when the
matrix is diagonal. -/
theorem C62_product_partial {rows : List (List (Elem p))} {m : ElementMatrix p}
    (hm : ElementMatrix.new rows = some m) (hsq : ∀ row ∈ rows, row.length = rows.length) :
    (∀ v : List (Elem p), v.length = rows.length → m.mulElems v = matVec rows v) ↔
      ∀ i j, i < rows.length → j < rows.length → i ≠ j → (rows.getD i []).getD j 0 = 0 := by
  have hmr : m.rows = rows := by
    unfold ElementMatrix.new at hm
    split at hm
    · cases hm
    · split at hm
      · injection hm with hm; rw [← hm]
      · cases hm
  have key : ∀ (v : List (Elem p)) (i : ℕ) (_ : v.length = rows.length) (hi : i < rows.length),
      (m.mulElems v).getD i 0 = v.getD i 0 * ∑ k ∈ Finset.range rows.length,
        (rows.getD i []).getD k 0 ∧
      (matVec rows v).getD i 0 = ∑ k ∈ Finset.range rows.length,
        (rows.getD i []).getD k 0 * v.getD k 0 := by
    intro v i hv hi
    have hri : (rows[i]).length = rows.length := hsq _ (List.getElem_mem hi)
    rw [m.mulElems_eq, hmr, List.getD_eq_getElem rows [] hi]
    unfold scaleRows matVec
    constructor
    · rw [List.getD_eq_getElem _ _ (by simp; omega), List.getElem_zipWith, sum_eq_range, hri,
        List.getD_eq_getElem v 0 (by omega)]
    · rw [List.getD_eq_getElem _ _ (by simpa using hi), List.getElem_map,
        inner_eq_range _ _ (by omega), hri]
  constructor
  · intro h i j hi hj hne
    let v : List (Elem p) := (List.range rows.length).map fun k => if k = j then 1 else 0
    have hv : v.length = rows.length := by simp [v]
    have hvk : ∀ k < rows.length, v.getD k 0 = if k = j then 1 else 0 := by
      intro k hk
      rw [List.getD_eq_getElem _ _ (by omega)]
      simp [v]
    obtain ⟨h1, h2⟩ := key v i hv hi
    rw [h v hv, h2, hvk i hi, if_neg hne, zero_mul] at h1
    rw [Finset.sum_eq_single j] at h1
    · rwa [hvk j hj, if_pos rfl, mul_one] at h1
    · intro k hk hkj
      rw [hvk k (Finset.mem_range.1 hk), if_neg hkj, mul_zero]
    · intro hk
      exact absurd (Finset.mem_range.2 hj) hk
  · intro h v hv
    have hl1 : (m.mulElems v).length = rows.length := by
      rw [m.mulElems_eq, hmr]; simp [scaleRows, hv]
    have hl2 : (matVec rows v).length = rows.length := by simp [matVec]
    apply List.ext_getElem (hl1.trans hl2.symm)
    intro i hi _
    have hi' : i < rows.length := by omega
    obtain ⟨h1, h2⟩ := key v i hv hi'
    rw [← List.getD_eq_getElem _ 0, ← List.getD_eq_getElem _ 0, h1, h2]
    rw [Finset.sum_eq_single i, Finset.sum_eq_single i, mul_comm]
    · intro k hk hki
      rw [h i k hi' (Finset.mem_range.1 hk) (Ne.symm hki), zero_mul]
    · intro hk
      exact absurd (Finset.mem_range.2 hi') hk
    · intro k hk hki
      rw [h i k hi' (Finset.mem_range.1 hk) (Ne.symm hki)]
    · intro hk
      exact absurd (Finset.mem_range.2 hi') hk

/-- C62 is false in every field: the matrix which swaps two coordinates acts as the identity. -/
theorem C62_product_refuted :
    ∃ m : ElementMatrix p, ElementMatrix.new [[0, 1], [1, 0]] = some m ∧
      m.mulElems [1, 0] = [1, 0] ∧ matVec [[0, 1], [1, 0]] [(1 : Elem p), 0] = [0, 1] ∧
      ∀ w : Assign p, w ONE = 1 → values w (m.mulExpressions [1, 0]) = [1, 0] := by
  refine ⟨⟨[[0, 1], [1, 0]]⟩, ?_, ?_, ?_, fun w h1 => ?_⟩
  · unfold ElementMatrix.new
    dsimp only
    rw [if_pos ⟨by simp, by simp⟩]
  · rw [ElementMatrix.mulElems_eq]; simp [scaleRows]
  · simp [matVec]
  · rw [ElementMatrix.values_mulExpressions]; simp [scaleRows, eval_one h1, eval_zero]

/-- A diagonal matrix modulo 11, for which the product is right, and another one. -/
example : (ElementMatrix.mk [[2, 0], [0, 3]] : ElementMatrix 11).mulElems [4, 5] = [8, 4] ∧
    matVec [[(2 : Elem 11), 0], [0, 3]] [4, 5] = [8, 4] ∧
    (ElementMatrix.mk [[2, 1], [1, 3]] : ElementMatrix 11).mulElems [4, 5] = [1, 9] ∧
    matVec [[(2 : Elem 11), 1], [1, 3]] [4, 5] = [2, 8] := by decide

/-! ## C63 -/

/-- C63: with an exponentiation S-box, Poseidon is enforced as its rounds, with the mix layer that
the code has (see C62) in place of the product with the matrix. -/
theorem C63_poseidon_enforced_partial (f : Poseidon p) {k : ℕ}
    (hk : (f.sbox = .exponentiation3 ∧ k = 3) ∨ (f.sbox = .exponentiation5 ∧ k = 5)) :
    EnforcedList f.toMultiPermutation.width f.toMultiPermutation.permute
      (poseidonFn (fun x => x ^ k) (scaleRows f.mds.rows) (f.full / 2) f.partial_) :=
  Poseidon.enforced_permute (Poseidon.enforced_sbox_pow hk)

/-- C63: honest execution of Poseidon, for all three S-boxes. -/
theorem C63_poseidon_computed_partial (f : Poseidon p) {rows : List (List (Elem p))}
    (hm : ElementMatrix.new rows = some f.mds) (hw : 0 < f.width) (he : f.full % 2 = 0) :
    (f.sbox = .exponentiation3 → 3 < p → Function.Bijective (fun x : Elem p => x ^ 3) →
      ComputedList f.toMultiPermutation.width f.toMultiPermutation.permute
        (poseidonFn (fun x => x ^ 3) (scaleRows f.mds.rows) (f.full / 2) f.partial_)) ∧
    (f.sbox = .exponentiation5 → 5 < p → Function.Bijective (fun x : Elem p => x ^ 5) →
      ComputedList f.toMultiPermutation.width f.toMultiPermutation.permute
        (poseidonFn (fun x => x ^ 5) (scaleRows f.mds.rows) (f.full / 2) f.partial_)) ∧
    (f.sbox = .inverse → 2 < p →
      ComputedList f.toMultiPermutation.width f.toMultiPermutation.permute
        (poseidonFn (fun x => x⁻¹) (scaleRows f.mds.rows) (f.full / 2) f.partial_)) := by
  have hrows : f.mds.rows ≠ [] := by
    unfold ElementMatrix.new at hm
    split at hm
    · cases hm
    · split at hm
      · injection hm with hm; rw [← hm]; simp
      · cases hm
  refine ⟨fun hs h3 hb => ?_, fun hs h5 hb => ?_, fun hs h2 => ?_⟩
  · exact Poseidon.computed_permute (Poseidon.computed_sbox_pow (.inl ⟨hs, rfl⟩) h3
      (MonomialPermutation.coprime_of_injective (n := 3) hb.1)) hrows hw he
  · exact Poseidon.computed_permute (Poseidon.computed_sbox_pow (.inr ⟨hs, rfl⟩) h5
      (MonomialPermutation.coprime_of_injective (n := 5) hb.1)) hrows hw he
  · exact Poseidon.computed_permute (Poseidon.computed_sbox_inverse h2 hs) hrows hw he

/-- The head of the state under rounds with the inverse as S-box. -/
theorem applyRounds_head (σ : Elem p → Elem p) (row : List (Elem p)) (rows : List (List (Elem p))) :
    ∀ (flags : List Bool) (x : Elem p) (xs : List (Elem p)),
    ∃ ys, applyRounds σ (scaleRows (row :: rows)) flags (x :: xs) =
      (fun a => σ a * row.sum)^[flags.length] x :: ys
  | [], x, xs => ⟨xs, rfl⟩
  | b :: flags, x, xs => by
    unfold applyRounds
    rw [List.length_cons, Function.iterate_succ_apply]
    cases b
    · exact applyRounds_head σ row rows flags _ _
    · exact applyRounds_head σ row rows flags _ _

theorem Prog.mapExpressions {m : Expression p → B p (Expression p)} (hm : ∀ x, Prog (m x)) :
    ∀ xs, Prog (B.mapExpressions m xs)
  | [] => .pure _
  | x :: xs => .bind (hm x) fun _ => .bind (Prog.mapExpressions hm xs) fun _ => .pure _

theorem Poseidon.prog_rounds {f : Poseidon p} (hm : ∀ x, Prog (f.sboxPermute x)) :
    ∀ (left round : ℕ) (xs : List (Expression p)), Prog (f.rounds round left xs)
  | 0, _, _ => .pure _
  | left + 1, round, xs => by
    unfold Poseidon.rounds
    dsimp only
    split
    · exact .bind (Prog.mapExpressions hm xs) fun ys => prog_rounds hm left _ _
    · refine .bind ?_ fun ys => prog_rounds hm left _ _
      cases xs with
      | nil => exact .panic
      | cons x xs => exact .bind (hm x) fun _ => .pure _

/-- C63 fails with the inverse as S-box: if the first input is zero then, in any circuit, the first
output can be any value, for any positive number of rounds. -/
theorem C63_poseidon_inverse_refuted (h2 : 2 < p) (f : Poseidon p) (hs : f.sbox = .inverse)
    (he : f.full % 2 = 0) (hr : 0 < f.full + f.partial_) {row : List (Elem p)}
    {rows : List (List (Elem p))} (hm : f.mds.rows = row :: rows) (hrow : row.sum ≠ 0) (s : Wit p)
    {x : Expression p} {xs : List (Expression p)} (hl : (x :: xs).length = f.width)
    (hx : ListScoped s.next (x :: xs)) (h0 : x.eval s.W = 0) (t : Elem p) :
    Can (f.toMultiPermutation.permute (x :: xs)) s fun zs s' =>
      (values s'.W zs)[0]? = some t := by
  have hsurj : ∀ (n : ℕ) (t : Elem p), ∃ y, (fun a => a⁻¹ * row.sum)^[n] y = t := by
    intro n
    induction n with
    | zero => exact fun t => ⟨t, rfl⟩
    | succ n ih =>
      intro t
      obtain ⟨y, hy⟩ := ih t
      refine ⟨(y * row.sum⁻¹)⁻¹, ?_⟩
      rw [Function.iterate_succ_apply]
      simp only [inv_inv]
      rwa [inv_mul_cancel_right₀ hrow]
  obtain ⟨n, hn⟩ : ∃ n, f.full + f.partial_ = n + 1 := ⟨_, (Nat.succ_pred_eq_of_pos hr).symm⟩
  obtain ⟨y0, hy0⟩ := hsurj n t
  have hx0 := hx x (by simp)
  have hxs : ListScoped s.next xs := fun e he => hx e (by simp [he])
  have hperm : ∀ e, f.sboxPermute e = B.inverseOrZero e := by
    intro e
    unfold Poseidon.sboxPermute Poseidon.sboxPermutation
    rw [hs]
    rfl
  have hprog : ∀ e, Prog (f.sboxPermute e) := fun e => by rw [hperm]; exact .inverseOrZero e
  have hcomp := Poseidon.computed_sbox_inverse h2 hs
  have hfirst : Can (f.sboxPermute x) s fun z s' => z.Scoped s'.next ∧
      z.eval s'.W = y0 * row.sum⁻¹ := by
    rw [hperm]
    exact Can.inverseOrZero_zero s hx0 h0 _
  -- the first round
  have hround : Can (if 0 < f.full / 2 ∨ 0 ≥ f.full + f.partial_ - f.full / 2
      then B.mapExpressions f.sboxPermute (x :: xs) else f.sboxFirst (x :: xs)) s fun ys s' =>
      ListScoped s'.next ys ∧ ∃ tl, values s'.W ys = (y0 * row.sum⁻¹) :: tl := by
    split
    · unfold B.mapExpressions
      refine hfirst.bind fun y s1 l1 ⟨sc1, v1⟩ => ?_
      refine (Can.ofComp (Prog.mapExpressions hprog xs) (s := s1)
        (Comp.mapExpressions hcomp xs (s := s1.toHon) (hxs.mono l1.1))).bind
        fun ys s2 l2 ⟨u, hu1, hu2, _, sc2, v2⟩ => Can.pure ⟨?_, ?_⟩
      · intro e he
        rcases List.mem_cons.1 he with rfl | he
        · exact l2.scoped sc1
        · rw [← hu1]; exact sc2 e he
      · exact ⟨_, by rw [values, List.map_cons, l2.eval sc1, v1]⟩
    · unfold Poseidon.sboxFirst
      refine hfirst.bind fun y s1 l1 ⟨sc1, v1⟩ => Can.pure ⟨?_, ?_⟩
      · intro e he
        rcases List.mem_cons.1 he with rfl | he
        · exact sc1
        · exact l1.scoped (hxs e he)
      · exact ⟨_, by rw [values, List.map_cons, v1]⟩
  change Can (f.permute (x :: xs)) s _
  unfold Poseidon.permute
  refine Can.require_bind hl (Can.require_bind he ?_)
  rw [hn]
  unfold Poseidon.rounds
  dsimp only
  refine hround.bind fun ys s1 l1 ⟨sc1, tl, v1⟩ => ?_
  have hmul : f.mds.mulExpressions ys ≠ [] := by
    intro h0
    have h' := f.mds.values_mulExpressions ys s1.W
    rw [h0, v1, hm] at h'
    simp [scaleRows] at h'
  refine (Can.ofComp (Poseidon.prog_rounds hprog n 1 _) (s := s1)
    (Poseidon.comp_rounds hcomp (by rw [hm]; simp) n 1 (s := s1.toHon) hmul
      (f.mds.scoped_mulExpressions sc1))).mono fun zs s2 l2 ⟨u, hu1, hu2, _, _, v2⟩ => ?_
  have hv1 : values s1.toHon.W ys = (y0 * row.sum⁻¹) :: tl := v1
  rw [hu2, f.mds.values_mulExpressions, hv1, hm] at v2
  obtain ⟨zs', hz⟩ := applyRounds_head (fun x => x⁻¹) row rows
    ((List.range' 1 n).map f.isFull) (y0 * row.sum⁻¹ * row.sum)
    (List.zipWith (fun row x => x * row.sum) rows tl)
  rw [v2]
  change (applyRounds _ _ _ (_ :: _))[0]? = _
  rw [hz, List.length_map, List.length_range', inv_mul_cancel_right₀ hrow, hy0]
  rfl

/-- C63: Rescue is enforced as its rounds, where `root` is the inverse of the power map, with the
mix layer that the code has. -/
theorem C63_rescue_enforced_partial (h2 : 2 < p) (f : Rescue p) {root : Elem p → Elem p}
    (hroot : ∀ x, root x ^ f.alpha.n = x) (n : ℕ) :
    EnforcedList n f.toMultiPermutation.permute
      (rescueFn (fun x => x ^ f.alpha.n) root (scaleRows f.mds.rows) f.numRounds) :=
  fun xs => (Rescue.enforces_rounds h2 hroot f.numRounds xs).mono fun _ _ _ h _ => h

/-- C63: honest execution of Rescue, for every exponent other than 1 which gives a permutation. -/
theorem C63_rescue_computed_partial (h2 : 2 < p) (f : Rescue p) {root : Elem p → Elem p}
    (hb : Function.Bijective fun x : Elem p => x ^ f.alpha.n) (h1 : f.alpha ≠ 1)
    (hroot : ∀ x, root x ^ f.alpha.n = x) (n : ℕ) :
    ComputedList n f.toMultiPermutation.permute
      (rescueFn (fun x => x ^ f.alpha.n) root (scaleRows f.mds.rows) f.numRounds) := by
  intro s xs _ hx
  have hc := MonomialPermutation.coprime_of_injective hb.1
  have ha : 2 ≤ f.alpha.n := by
    by_contra hlt
    have : f.alpha.n = 0 ∨ f.alpha.n = 1 := by omega
    rcases this with h0 | h0
    · rw [h0, Nat.coprime_zero_right] at hc
      omega
    · exact h1 (Elem.ext_n h0)
  exact (Rescue.comp_rounds hc ha hroot f.numRounds hx).computes

/-- C63, diffusion is false for every choice of parameters: output `i` of Poseidon and of Rescue is
determined by input `i`, whatever the other inputs. -/
theorem C63_diffusion_refuted (σ pow root : Elem p → Elem p) (rows : List (List (Elem p)))
    (h t n : ℕ) {xs ys : List (Elem p)} (hl : xs.length = ys.length) {i : ℕ}
    (hi : xs[i]? = ys[i]?) :
    (poseidonFn σ (scaleRows rows) h t xs)[i]? = (poseidonFn σ (scaleRows rows) h t ys)[i]? ∧
    (rescueFn pow root (scaleRows rows) n xs)[i]? =
      (rescueFn pow root (scaleRows rows) n ys)[i]? :=
  have ha : AgreeAt i xs ys := ⟨hl, hi⟩
  ⟨(ha.poseidonFn σ rows h t).2, (ha.rescueFn pow root rows n).2⟩

/-- The same on circuits: two Poseidon instances in one circuit, whose inputs agree at position `i`,
have outputs which agree at position `i`. -/
theorem C63_diffusion_circuit_refuted (f : Poseidon p) {k : ℕ}
    (hk : (f.sbox = .exponentiation3 ∧ k = 3) ∨ (f.sbox = .exponentiation5 ∧ k = 5))
    {xs ys : List (Expression p)} (hx : xs.length = f.width) (hy : ys.length = f.width) (i : ℕ) :
    Enforces (do
      let a ← f.toMultiPermutation.permute xs
      let b ← f.toMultiPermutation.permute ys
      return (a, b)) fun r w => (values w xs)[i]? = (values w ys)[i]? →
        (values w r.1)[i]? = (values w r.2)[i]? := by
  refine (C63_poseidon_enforced_partial f hk xs).bind fun a =>
    (C63_poseidon_enforced_partial f hk ys).bind fun b => Enforces.pure fun w _ hb ha hi => ?_
  dsimp only
  rw [ha hx, hb hy]
  exact (C63_diffusion_refuted (fun x => x ^ k) id id f.mds.rows _ _ 0 (by simp [hx, hy]) hi).1

/-- C63: there are no round constants, so zeros are mapped to zeros by every instance. -/
theorem C63_zero_fixed {σ pow root : Elem p → Elem p} (hσ : σ 0 = 0) (hpow : pow 0 = 0)
    (hroot : root 0 = 0) (rows : List (List (Elem p))) (h t n : ℕ) {xs : List (Elem p)}
    (hx : ∀ x ∈ xs, x = 0) :
    (∀ z ∈ poseidonFn σ (scaleRows rows) h t xs, z = 0) ∧
    (∀ z ∈ rescueFn pow root (scaleRows rows) n xs, z = 0) := by
  have hmap : ∀ (g : Elem p → Elem p), g 0 = 0 → ∀ xs : List (Elem p), (∀ x ∈ xs, x = 0) →
      ∀ z ∈ xs.map g, z = 0 := by
    intro g hg xs hx z hz
    obtain ⟨y, hy, rfl⟩ := List.mem_map.1 hz
    rw [hx y hy, hg]
  have hhead : ∀ xs : List (Elem p), (∀ x ∈ xs, x = 0) → ∀ z ∈ xs.modifyHead σ, z = 0 := by
    intro xs hx z hz
    cases xs with
    | nil => simp at hz
    | cons x xs =>
      rw [List.modifyHead_cons] at hz
      rcases List.mem_cons.1 hz with rfl | hz
      · rw [hx x (by simp), hσ]
      · exact hx z (by simp [hz])
  have hmix : ∀ xs : List (Elem p), (∀ x ∈ xs, x = 0) → ∀ z ∈ scaleRows rows xs, z = 0 := by
    intro xs hx z hz
    unfold scaleRows at hz
    rw [← List.map_uncurry_zip_eq_zipWith] at hz
    obtain ⟨⟨row, x⟩, hm, rfl⟩ := List.mem_map.1 hz
    simp only [Function.uncurry]
    rw [hx x (List.of_mem_zip hm).2, zero_mul]
  have hit : ∀ (g : List (Elem p) → List (Elem p)),
      (∀ xs : List (Elem p), (∀ x ∈ xs, x = 0) → ∀ z ∈ g xs, z = 0) → ∀ (n : ℕ)
      (xs : List (Elem p)), (∀ x ∈ xs, x = 0) → ∀ z ∈ g^[n] xs, z = 0 := by
    intro g hg n
    induction n with
    | zero => exact fun xs h => h
    | succ n ih => exact fun xs h => ih _ (hg xs h)
  have hF := hit (poseidonFull σ (scaleRows rows)) fun xs hx => hmix _ (hmap σ hσ xs hx)
  have hP := hit (poseidonPartial σ (scaleRows rows)) fun xs hx => hmix _ (hhead xs hx)
  exact ⟨hF h _ (hP t _ (hF h xs hx)),
    hit _ (fun xs hx => hmix _ (hmap root hroot _ (hmix _ (hmap pow hpow xs hx)))) n xs hx⟩

/-- The instance of the test in the code (src/poseidon.rs:319-338), over the field of order 11. -/
def poseidon11 : Poseidon 11 :=
  ⟨4, 4, 6, .exponentiation3, ⟨[[2, 3, 1, 1], [1, 2, 3, 1], [1, 1, 2, 3], [3, 1, 1, 2]]⟩⟩

example : ComputedList 4 poseidon11.permute
    (poseidonFn (fun x => x ^ 3) (scaleRows poseidon11.mds.rows) 2 6) := by
  refine (C63_poseidon_computed_partial poseidon11
    (rows := [[2, 3, 1, 1], [1, 2, 3, 1], [1, 1, 2, 3], [3, 1, 1, 2]]) rfl (by decide)
    (by decide)).1 rfl (by decide) ?_
  exact MonomialPermutation.bijective_of_coprime (by decide) (by decide) (by decide)

example (xs : List (Expression 11)) : Enforces (poseidon11.permute xs) fun zs w =>
    xs.length = 4 → values w zs =
      poseidonFn (fun x => x ^ 3) (scaleRows poseidon11.mds.rows) 2 6 (values w xs) :=
  C63_poseidon_enforced_partial poseidon11 (.inl ⟨rfl, rfl⟩) xs

/-- Changing the last three inputs leaves the first output unchanged. -/
example : poseidonFn (fun x : Elem 11 => x ^ 3) (scaleRows poseidon11.mds.rows) 2 6 [5, 1, 2, 3] =
      [5, 3, 6, 9] ∧
    poseidonFn (fun x : Elem 11 => x ^ 3) (scaleRows poseidon11.mds.rows) 2 6 [5, 7, 8, 9] =
      [5, 10, 2, 5] := by decide +kernel

/-- A Rescue instance modulo 11: cubing, whose inverse is `x ^ 7`. -/
example (xs : List (Expression 11)) :
    Enforces ((⟨2, 3, 5, ⟨[[2, 3], [1, 2]]⟩⟩ : Rescue 11).permute xs) fun zs w =>
      xs.length = 2 → values w zs = rescueFn (fun x => x ^ 3) (fun x => x ^ 7)
        (scaleRows [[2, 3], [1, 2]]) 5 (values w xs) :=
  C63_rescue_enforced_partial (by decide) (⟨2, 3, 5, ⟨[[2, 3], [1, 2]]⟩⟩ : Rescue 11)
    (fun x => by
      have : ∀ k : Fin 11, ((⟨k, k.2⟩ : Elem 11) ^ 7) ^ 3 = ⟨k, k.2⟩ := by decide
      exact this ⟨x.n, x.lt⟩) 2 xs

end R1CS
