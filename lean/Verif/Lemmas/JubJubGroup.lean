import Verif.Lemmas.JubJub
import Mathlib.GroupTheory.Index
import Mathlib.GroupTheory.SpecificGroups.Cyclic
import Mathlib.SetTheory.Cardinal.Finite

/-!
# The number of points of JubJub

Without the theorem of Hasse: there are at most two points for each second coordinate, so that the order
`8 r` of the shipped generator leaves room for an index of 1 or 2.  The index is odd: there is just one
point of order 2, and the generator is not the double of a point, as a Legendre symbol shows.
-/

namespace R1CS

namespace Edwards

variable {F : Type} [Field F] {a d : F}

/-- What doubling does to the second coordinate. -/
theorem double_square [Complete a d] (P : Point a d) :
    IsSquare ((a - d) * (1 - (P + P).y ^ 2)) := by
  have h := P.on
  have hm := minus_ne (a := a) P.on P.on
  rw [Point.add_y, sumY]
  unfold OnCurve at h
  refine ⟨2 * P.x * P.y * (a - d) / (1 - d * P.x * P.x * P.y * P.y), ?_⟩
  rw [div_pow, div_mul_div_comm, ← pow_two (1 - d * P.x * P.x * P.y * P.y)]
  have hm2 : (1 - d * P.x * P.x * P.y * P.y) ^ 2 ≠ 0 := pow_ne_zero 2 hm
  rw [eq_div_iff hm2, mul_assoc, sub_mul (1 : F), div_mul_cancel₀ _ hm2]
  linear_combination (-(a - d) * (a * P.x ^ 2 + P.y ^ 2 + 1 + d * P.x ^ 2 * P.y ^ 2)) * h

/-- There is just one point of order 2. -/
theorem eq_of_double_eq_zero [hc : Complete a d] {P : Point a d} (h : P + P = 0) :
    P = 0 ∨ P = ⟨0, -1, by unfold OnCurve; ring⟩ := by
  have h1 : P = -P := eq_neg_of_add_eq_zero_left h
  have h2 : P.x = -P.x := congrArg Point.x h1
  have h3 : P.x = 0 := by
    have : 2 * P.x = 0 := by linear_combination h2
    exact (mul_eq_zero.1 this).resolve_left hc.two_ne
  have h4 := P.on
  unfold OnCurve at h4
  rw [h3] at h4
  have h5 : (P.y - 1) * (P.y + 1) = 0 := by linear_combination h4
  rcases mul_eq_zero.1 h5 with h6 | h6
  · exact .inl (Point.ext h3 (by rw [Point.zero_y]; linear_combination h6))
  · exact .inr (Point.ext h3 (by show P.y = -1; linear_combination h6))

/-- The second coordinate determines a point up to its sign. -/
theorem eq_or_neg_of_y [hc : Complete a d] {P Q : Point a d} (h : P.y = Q.y) : P = Q ∨ P = -Q := by
  have h1 := P.on
  have h2 := Q.on
  unfold OnCurve at h1 h2
  rw [h] at h1
  have h0 : a - d * Q.y ^ 2 ≠ 0 := by
    intro h3
    obtain ⟨r, hr⟩ := hc.square
    by_cases hy : Q.y = 0
    · rw [hy] at h3
      have ha : a = 0 := by linear_combination h3
      apply one_ne_zero (α := F)
      rw [hy] at h2
      linear_combination Q.x ^ 2 * ha - h2
    · refine hc.nonsquare ⟨r / Q.y, ?_⟩
      rw [div_mul_div_comm, eq_div_iff (mul_ne_zero hy hy), ← hr]
      linear_combination -h3
  have h3 : (a - d * Q.y ^ 2) * ((P.x - Q.x) * (P.x + Q.x)) = 0 := by linear_combination h1 - h2
  rcases mul_eq_zero.1 ((mul_eq_zero.1 h3).resolve_left h0) with h4 | h4
  · exact .inl (Point.ext (by linear_combination h4) h)
  · exact .inr (Point.ext (by rw [Point.neg_x]; linear_combination h4) h)

instance [Finite F] : Finite (Point a d) :=
  Finite.of_injective (fun P : Point a d => (P.x, P.y)) fun P Q h => by
    injection h with h1 h2
    exact Point.ext h1 h2

/-- There are at most two points for each second coordinate. -/
theorem card_points_le [Finite F] [hc : Complete a d] : Nat.card (Point a d) ≤ 2 * Nat.card F := by
  classical
  have := Fintype.ofFinite F
  have := Fintype.ofFinite (Point a d)
  rw [Nat.card_eq_fintype_card, Nat.card_eq_fintype_card]
  have h := Finset.card_le_mul_card_image_of_maps_to (s := (Finset.univ : Finset (Point a d)))
    (t := (Finset.univ : Finset F)) (f := fun P => P.y) (fun _ _ => Finset.mem_univ _) 2 ?_
  · simpa using h
  · intro y _
    rcases (Finset.univ.filter fun P : Point a d => P.y = y).eq_empty_or_nonempty with h0 | ⟨P, hP⟩
    · rw [h0]
      exact Nat.zero_le _
    · have hP' := (Finset.mem_filter.1 hP).2
      refine le_trans (Finset.card_le_card (t := {P, -P}) fun Q hQ => ?_) Finset.card_le_two
      rw [Finset.mem_insert, Finset.mem_singleton]
      exact eq_or_neg_of_y ((Finset.mem_filter.1 hQ).2.trans hP'.symm)

/-- If a point of even order is not a double, and its order is more than a third of the bound, it generates
all points. -/
theorem generates [Finite F] [hc : Complete a d] {G : Point a d} (hG : ¬ IsSquare ((a - d) * (1 - G.y ^ 2)))
    {n : ℕ} (hn : addOrderOf G = 2 * n) (hn0 : 0 < n) (hlt : 2 * Nat.card F < 3 * (2 * n)) (P : Point a d) :
    P ∈ AddSubgroup.zmultiples G := by
  have hord2 : n • G = ⟨0, -1, by unfold OnCurve; ring⟩ := by
    refine (eq_of_double_eq_zero (P := n • G) ?_).resolve_left ?_
    · rw [← two_nsmul, ← mul_nsmul', ← hn, addOrderOf_nsmul_eq_zero]
    · intro h0
      have := addOrderOf_dvd_of_nsmul_eq_zero h0
      rw [hn] at this
      have := Nat.le_of_dvd hn0 this
      omega
  have hodd : ∀ Q : Point a d, Q + Q ∈ AddSubgroup.zmultiples G → Q ∈ AddSubgroup.zmultiples G := by
    intro Q hQ
    obtain ⟨k, hk⟩ := AddSubgroup.mem_zmultiples_iff.1 hQ
    rcases Int.even_or_odd' k with ⟨j, rfl | rfl⟩
    · have h0 : (Q - j • G) + (Q - j • G) = 0 := by
        rw [two_mul, add_zsmul] at hk
        calc (Q - j • G) + (Q - j • G) = (Q + Q) - (j • G + j • G) := by abel
          _ = 0 := by rw [hk, sub_self]
      have hj : j • G ∈ AddSubgroup.zmultiples G := AddSubgroup.zsmul_mem_zmultiples G j
      rcases eq_of_double_eq_zero h0 with h1 | h1
      · rw [sub_eq_zero.1 h1]
        exact hj
      · rw [← hord2, sub_eq_iff_eq_add] at h1
        rw [h1]
        exact AddSubgroup.add_mem _ (AddSubgroup.nsmul_mem_zmultiples G n) hj
    · exfalso
      apply hG
      have h1 : G = (Q - j • G) + (Q - j • G) := by
        rw [two_mul, add_zsmul, add_zsmul, one_zsmul] at hk
        calc G = (j • G + j • G + G) - (j • G + j • G) := by abel
          _ = _ := by rw [hk]; abel
      rw [h1]
      exact double_square _
  have hcard : Nat.card (AddSubgroup.zmultiples G) = 2 * n := by
    rw [Nat.card_zmultiples, hn]
  have hidx := (AddSubgroup.zmultiples G).card_mul_index
  rw [hcard] at hidx
  have hle := card_points_le (a := a) (d := d)
  have h3 : (AddSubgroup.zmultiples G).index < 3 := by
    by_contra hcon
    have : 2 * n * 3 ≤ 2 * n * (AddSubgroup.zmultiples G).index := Nat.mul_le_mul_left _ (by omega)
    omega
  have h0 : (AddSubgroup.zmultiples G).index ≠ 0 := AddSubgroup.index_ne_zero_of_finite
  have hcase : (AddSubgroup.zmultiples G).index = 1 ∨ (AddSubgroup.zmultiples G).index = 2 := by omega
  rcases hcase with h | h
  · rw [AddSubgroup.index_eq_one.1 h]
    exact AddSubgroup.mem_top _
  · exact hodd P (AddSubgroup.add_self_mem_of_index_two h P)

end Edwards

/-- In a cyclic group of order `n m`, the elements which `n` annihilates are the multiples of `m`, and there
are `n` of them. -/
theorem annihilated {M : Type} [AddCommGroup M] {G : M} (hG : ∀ P : M, P ∈ AddSubgroup.zmultiples G)
    {n m : ℕ} (hn : 0 < n) (hm : 0 < m) (ho : addOrderOf G = n * m) :
    (∀ P : M, n • P = 0 ↔ ∃ Q, P = m • Q) ∧ Nat.card {P : M // n • P = 0} = n := by
  have h0 : ∀ P : M, n • P = 0 ↔ P ∈ AddSubgroup.zmultiples (m • G) := by
    intro P
    rw [AddSubgroup.mem_zmultiples_iff]
    constructor
    · intro h
      obtain ⟨k, rfl⟩ := AddSubgroup.mem_zmultiples_iff.1 (hG P)
      rw [← natCast_zsmul, ← mul_zsmul', ← addOrderOf_dvd_iff_zsmul_eq_zero, ho] at h
      push_cast at h
      rw [mul_comm k] at h
      obtain ⟨j, rfl⟩ := (mul_dvd_mul_iff_left (Nat.cast_ne_zero.2 hn.ne')).1 h
      exact ⟨j, by rw [← natCast_zsmul, ← mul_zsmul', mul_comm]⟩
    · rintro ⟨k, rfl⟩
      rw [← natCast_zsmul, ← natCast_zsmul, ← mul_zsmul', ← mul_zsmul', ← addOrderOf_dvd_iff_zsmul_eq_zero, ho]
      push_cast
      exact ⟨k, by ring⟩
  refine ⟨fun P => ⟨fun h => ?_, ?_⟩, ?_⟩
  · obtain ⟨k, rfl⟩ := AddSubgroup.mem_zmultiples_iff.1 ((h0 P).1 h)
    exact ⟨k • G, smul_comm _ _ _⟩
  · rintro ⟨Q, rfl⟩
    obtain ⟨k, rfl⟩ := AddSubgroup.mem_zmultiples_iff.1 (hG Q)
    rw [← mul_nsmul', smul_comm, ← ho, addOrderOf_nsmul_eq_zero, smul_zero]
  · have h1 : Nat.card {P : M // n • P = 0} = Nat.card (AddSubgroup.zmultiples (m • G)) :=
      Nat.card_congr (Equiv.subtypeEquivRight h0)
    rw [h1, Nat.card_zmultiples, addOrderOf_nsmul' _ hm.ne', ho, Nat.gcd_eq_right (Dvd.intro_left _ rfl),
      Nat.mul_div_cancel _ hm]

open Edwards

theorem jubjubG_generates (P : Point jubjub.a jubjub.d) : P ∈ AddSubgroup.zmultiples jubjubG := by
  have : Finite (Elem bls12_381Order) := Finite.of_equiv _ Elem.equivZMod.symm.toEquiv
  refine Edwards.generates (n := 4 * jubjubSubgroupOrder) ?_ ?_ (by decide +kernel) ?_ P
  · exact not_isSquare_of_powMod (by decide +kernel) (by decide +kernel) (by decide +kernel)
  · rw [jubjubG_order, ← mul_assoc]
    norm_num
  · have h : Nat.card (Elem bls12_381Order) = bls12_381Order := by
      rw [Nat.card_congr Elem.equivZMod.toEquiv, Nat.card_zmod]
    rw [h]
    decide +kernel

end R1CS
