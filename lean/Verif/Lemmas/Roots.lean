import Verif.Model.Permutations
import Verif.Props.Field
import Mathlib.FieldTheory.Finite.Basic
import Mathlib.GroupTheory.Perm.Cycle.Type

/-!
# Powers and roots in the field: Fermat's theorem and the exponent found by
`MonomialPermutation::inverse`
-/

set_option linter.unusedSectionVars false

namespace R1CS

variable {p : ℕ} [hp : Fact p.Prime]

namespace Elem

/-- The field of the library is the field of integers modulo `p`. -/
noncomputable def equivZMod : Elem p ≃+* ZMod p :=
  RingEquiv.ofBijective toZModHom ⟨toZMod_injective, fun z => by
    refine ⟨⟨z.val, z.val_lt⟩, ?_⟩
    show ((z.val : ℕ) : ZMod p) = z
    simp⟩

theorem pow_p (x : Elem p) : x ^ p = x := by
  apply equivZMod.injective
  rw [map_pow, ZMod.pow_card]

theorem pow_cycle (x : Elem p) (k : ℕ) : x ^ (p + (p - 1) * k) = x := by
  induction k with
  | zero => simpa using x.pow_p
  | succ k ih =>
    rw [Nat.mul_succ, ← Nat.add_assoc, pow_add, ih, ← pow_succ',
      Nat.sub_add_cancel hp.out.one_le, pow_p]

theorem exists_root_of_unity {q : ℕ} (hq : q.Prime) (h : q ∣ p - 1) :
    ∃ x : Elem p, x ≠ 1 ∧ x ^ q = 1 := by
  have : Fact q.Prime := ⟨hq⟩
  obtain ⟨u, hu⟩ := exists_prime_orderOf_dvd_card (G := (ZMod p)ˣ) q (by
    rw [ZMod.card_units]; exact h)
  refine ⟨equivZMod.symm u, fun h1 => ?_, ?_⟩
  · have : (u : ZMod p) = 1 := by
      have := congrArg equivZMod h1
      simpa using this
    have : u = 1 := Units.ext this
    rw [this, orderOf_one] at hu
    exact hq.one_lt.ne hu
  · apply equivZMod.injective
    rw [map_pow, RingEquiv.apply_symm_apply, map_one, ← Units.val_pow_eq_pow_val, ← hu,
      pow_orderOf_eq_one, Units.val_one]

end Elem

namespace MonomialPermutation

theorem new_eq_some_iff (n : Elem p) (f : MonomialPermutation p) :
    new n = some f ↔ Nat.Coprime (p - 1) n.n ∧ f = ⟨n⟩ := by
  unfold new
  have hg : ((Elem.largestElement : Elem p).gcd n).isOne = true ↔ Nat.Coprime (p - 1) n.n := by
    rw [Elem.isOne, beq_iff_eq]
    obtain ⟨h1, h2, h3⟩ := C04_gcd (Elem.largestElement : Elem p) n
    constructor
    · intro h
      have := h3 _ (Nat.gcd_dvd_left (p - 1) n.n) (Nat.gcd_dvd_right _ _)
      rw [h] at this
      exact Nat.dvd_one.1 this
    · intro h
      have := Nat.dvd_gcd (show _ ∣ p - 1 from h1) h2
      rw [h] at this
      exact Nat.dvd_one.1 this
  split
  · rename_i h
    rw [hg] at h
    simp [h, eq_comm]
  · rename_i h
    rw [hg] at h
    simp [h]

theorem exponentLoop_some {p n fuel m e : ℕ} (h : exponentLoop p n fuel m = some e) :
    ∃ k, 1 ≤ k ∧ k ≤ fuel ∧ n * e = m + (p - 1) * k ∧
      ∀ j, 1 ≤ j → j < k → ¬ n ∣ m + (p - 1) * j := by
  induction fuel generalizing m with
  | zero => cases h
  | succ fuel ih =>
    unfold exponentLoop at h
    dsimp only at h
    split at h
    · rename_i hd
      injection h with h
      refine ⟨1, le_rfl, by omega, ?_, fun j h1 h2 => by omega⟩
      rw [← h, Nat.mul_div_cancel' hd, Nat.mul_one]
    · rename_i hd
      obtain ⟨k, h1, h2, h3, h4⟩ := ih h
      refine ⟨k + 1, by omega, by omega, by rw [h3]; ring, fun j hj1 hj2 hj => ?_⟩
      rcases Nat.eq_or_lt_of_le hj1 with rfl | hj1
      · exact hd (by simpa using hj)
      · refine h4 (j - 1) (by omega) (by omega) ?_
        obtain ⟨i, rfl⟩ := Nat.exists_eq_add_of_le' hj1.le
        rw [Nat.add_sub_cancel]
        have : m + (p - 1) + (p - 1) * i = m + (p - 1) * (i + 1) := by ring
        rw [this]; exact hj

theorem exponentLoop_isSome {p n fuel m k : ℕ} (h1 : 1 ≤ k) (h2 : k ≤ fuel)
    (hk : n ∣ m + (p - 1) * k) : (exponentLoop p n fuel m).isSome := by
  induction fuel generalizing m k with
  | zero => omega
  | succ fuel ih =>
    unfold exponentLoop
    dsimp only
    split
    · rfl
    · rename_i hd
      rcases Nat.eq_or_lt_of_le h1 with rfl | h1
      · exact absurd (by simpa using hk) hd
      · obtain ⟨i, rfl⟩ := Nat.exists_eq_add_of_le' h1.le
        refine ih (k := i) (by omega) (by omega) ?_
        have : m + (p - 1) + (p - 1) * i = m + (p - 1) * (i + 1) := by ring
        rw [this]; exact hk

theorem exists_multiple {n : ℕ} (h2 : 2 ≤ n) (hc : Nat.Coprime (p - 1) n) :
    ∃ k, 1 ≤ k ∧ k ≤ n ∧ n ∣ p + (p - 1) * k := by
  obtain ⟨m, hm⟩ := Nat.exists_mul_mod_eq_one_of_coprime hc (by omega)
  have key : ∀ k, k % n = (m * (p * (n - 1))) % n → n ∣ p + (p - 1) * k := by
    intro k hk
    have h1 : (p - 1) * k ≡ p * (n - 1) [MOD n] := by
      calc (p - 1) * k ≡ (p - 1) * (m * (p * (n - 1))) [MOD n] := Nat.ModEq.mul_left _ hk
        _ = (p - 1) * m * (p * (n - 1)) := by ring
        _ ≡ 1 * (p * (n - 1)) [MOD n] := Nat.ModEq.mul_right _ (by
            show _ % _ = _ % _
            rw [hm.2, Nat.mod_eq_of_lt (by omega)])
        _ = p * (n - 1) := one_mul _
    have h3 : p + (p - 1) * k ≡ p + p * (n - 1) [MOD n] := Nat.ModEq.add_left _ h1
    have h4 : p + p * (n - 1) = p * n := by
      obtain ⟨j, rfl⟩ := Nat.exists_eq_add_of_le' (by omega : 1 ≤ n)
      rw [Nat.add_sub_cancel]; ring
    rw [h4] at h3
    exact (Nat.modEq_zero_iff_dvd.1 (h3.trans (Nat.modEq_zero_iff_dvd.2 (dvd_mul_left _ _))))
  set r := (m * (p * (n - 1))) % n with hr
  have hrn : r < n := Nat.mod_lt _ (by omega)
  rcases Nat.eq_zero_or_pos r with h0 | h0
  · exact ⟨n, by omega, le_rfl, key n (by rw [Nat.mod_self, h0])⟩
  · exact ⟨r, h0, hrn.le, key r (by rw [Nat.mod_eq_of_lt hrn])⟩

/-- The exponent exists for every admissible `n ≥ 2`, and is that of the `n`-th root. -/
theorem rootExponent_some {n : Elem p} (h2 : 2 ≤ n.n) (hc : Nat.Coprime (p - 1) n.n) :
    ∃ e, rootExponent n = some e ∧ ∀ x : Elem p, x ^ (n.n * e.n) = x := by
  obtain ⟨k, k1, k2, k3⟩ := exists_multiple h2 hc
  obtain ⟨e, he⟩ := Option.isSome_iff_exists.1 (exponentLoop_isSome k1 k2 k3)
  obtain ⟨j, j1, j2, j3, -⟩ := exponentLoop_some he
  have hj : j < n.n := by
    refine lt_of_le_of_ne j2 fun hjn => ?_
    have h : n.n ∣ p := by
      have h1 : n.n ∣ p + (p - 1) * j := ⟨e, j3.symm⟩
      exact (Nat.dvd_add_left (hjn ▸ dvd_mul_left j (p - 1))).1 (hjn ▸ h1)
    rcases (Nat.dvd_prime hp.out).1 h with h | h
    · omega
    · exact absurd n.lt (by omega)
  have hlt : e < p := by
    have hp1 := hp.out.one_lt
    obtain ⟨q, rfl⟩ := Nat.exists_eq_add_of_le' hp.out.one_le
    rw [Nat.add_sub_cancel] at j3
    have h5 : q * j ≤ q * (n.n - 1) := Nat.mul_le_mul_left _ (by omega)
    have h6 : q * (n.n - 1) + q = q * n.n := by
      obtain ⟨i, hi⟩ := Nat.exists_eq_add_of_le' (by omega : 1 ≤ n.n)
      rw [hi, Nat.add_sub_cancel]; ring
    have h7 : n.n * e < n.n * (q + 1) := by
      calc n.n * e = q + 1 + q * j := j3
        _ ≤ q * n.n + 1 := by omega
        _ < n.n * (q + 1) := by rw [Nat.mul_add, Nat.mul_comm q]; omega
    exact lt_of_mul_lt_mul_left h7 (Nat.zero_le _)
  refine ⟨⟨e, hlt⟩, ?_, fun x => ?_⟩
  · unfold rootExponent
    rw [he]
    exact Elem.ofNat?_eq_some hlt
  · show x ^ (n.n * e) = x
    rw [j3, Elem.pow_cycle]

theorem rootExponent_one {n : Elem p} (h : n.n = 1) : rootExponent n = none := by
  unfold rootExponent exponentLoop
  rw [h]
  simp only [one_dvd, if_true, Nat.div_one]
  exact Elem.ofNat?_eq_none (by omega)

/-- Coprime exponents give bijections. -/
theorem bijective_of_coprime {n : ℕ} (hn : n ≠ 0) (hlt : n < p) (hc : Nat.Coprime (p - 1) n) :
    Function.Bijective fun x : Elem p => x ^ n := by
  rcases Nat.lt_or_ge n 2 with h | h
  · have : n = 1 := by omega
    subst this
    simp only [pow_one]
    exact Function.bijective_id
  · obtain ⟨e, -, he⟩ := rootExponent_some (n := ⟨n, hlt⟩) h hc
    exact Function.bijective_iff_has_inverse.2 ⟨fun x => x ^ e.n,
      fun x => by show (x ^ n) ^ e.n = x; rw [← pow_mul]; exact he x,
      fun x => by show (x ^ e.n) ^ n = x; rw [← pow_mul, mul_comm]; exact he x⟩

theorem coprime_of_injective {n : ℕ} (h : Function.Injective fun x : Elem p => x ^ n) :
    Nat.Coprime (p - 1) n := by
  by_contra hc
  obtain ⟨q, hq, h1, h2⟩ := Nat.Prime.not_coprime_iff_dvd.1 hc
  obtain ⟨x, hx, hxq⟩ := Elem.exists_root_of_unity hq h1
  apply hx
  apply h
  obtain ⟨j, rfl⟩ := h2
  show x ^ (q * j) = 1 ^ (q * j)
  rw [pow_mul, hxq, one_pow, one_pow]

end MonomialPermutation

end R1CS
