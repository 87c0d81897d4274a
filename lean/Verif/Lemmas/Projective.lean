import Verif.Lemmas.Edwards
import Verif.Lemmas.Field
import Verif.Model.Field
import Mathlib.Tactic.LinearCombination

/-!
# Computing multiples of points in projective coordinates

The functions here are only a means of proof: they compute on natural numbers, so that the kernel can
evaluate them, and are proved to represent the operations of the group.
-/

set_option linter.unusedSectionVars false

namespace R1CS

namespace Edwards

/-- Projective addition modulo `q` on the curve with `-a` and `d` given as numbers. -/
def projAdd (q a d : ℕ) (P Q : ℕ × ℕ × ℕ) : ℕ × ℕ × ℕ :=
  let A := P.2.2 * Q.2.2 % q
  let b := A * A % q
  let c := P.1 * Q.1 % q
  let e := P.2.1 * Q.2.1 % q
  let t := d * c % q * e % q
  let f := b + (q - t)
  let g := b + t
  (A * f % q * (P.1 * Q.2.1 + P.2.1 * Q.1) % q, A * g % q * (e + a * c) % q, f * g % q)

/-- `acc + k * P` by doubling and adding. -/
def projMul (q a d : ℕ) : ℕ → ℕ → ℕ × ℕ × ℕ → ℕ × ℕ × ℕ → ℕ × ℕ × ℕ
  | 0, _, _, acc => acc
  | fuel + 1, k, P, acc =>
    projMul q a d fuel (k / 2) (projAdd q a d P P)
      (if k % 2 = 1 then projAdd q a d acc P else acc)

variable {p : ℕ} [hp : Fact p.Prime] {a d : Elem p}

/-- `T` represents the point `P`. -/
def Repr (T : ℕ × ℕ × ℕ) (P : Point a d) : Prop :=
  (T.1 : Elem p) = P.x * (T.2.2 : Elem p) ∧ (T.2.1 : Elem p) = P.y * (T.2.2 : Elem p) ∧
    (T.2.2 : Elem p) ≠ 0

theorem cast_mod (k : ℕ) : ((k % p : ℕ) : Elem p) = (k : Elem p) := by
  apply Elem.ext_n
  rw [Elem.natCast_n, Elem.natCast_n, Nat.mod_mod]

theorem cast_order : ((p : ℕ) : Elem p) = 0 := by
  apply Elem.ext_n
  rw [Elem.natCast_n, Nat.mod_self]
  rfl

variable [Complete a d]

theorem Repr.add {na nd : ℕ} (ha : (na : Elem p) = -a) (hd : (nd : Elem p) = d)
    {T U : ℕ × ℕ × ℕ} {P Q : Point a d} (hT : Repr T P) (hU : Repr U Q) :
    Repr (projAdd p na nd T U) (P + Q) := by
  obtain ⟨x1, y1, z1⟩ := T
  obtain ⟨x2, y2, z2⟩ := U
  obtain ⟨h1, h2, h3⟩ := hT
  obtain ⟨h4, h5, h6⟩ := hU
  simp only at h1 h2 h3 h4 h5 h6
  have hp1 := plus_ne P.on Q.on
  have hm1 := minus_ne P.on Q.on
  have ht : nd * (x1 * x2 % p) % p * (y1 * y2 % p) % p ≤ p := (Nat.mod_lt _ hp.out.pos).le
  have hf : (((z1 * z2 % p) * (z1 * z2 % p) % p +
      (p - nd * (x1 * x2 % p) % p * (y1 * y2 % p) % p) : ℕ) : Elem p) =
      (z1 * z2 : Elem p) ^ 2 * (1 - d * P.x * Q.x * P.y * Q.y) := by
    rw [Nat.cast_add, Nat.cast_sub ht, cast_order, cast_mod, cast_mod, Nat.cast_mul, Nat.cast_mul,
      cast_mod, cast_mod, cast_mod, Nat.cast_mul, Nat.cast_mul, Nat.cast_mul, cast_mod, hd,
      Nat.cast_mul, h1, h2, h4, h5]
    ring
  have hg : (((z1 * z2 % p) * (z1 * z2 % p) % p +
      nd * (x1 * x2 % p) % p * (y1 * y2 % p) % p : ℕ) : Elem p) =
      (z1 * z2 : Elem p) ^ 2 * (1 + d * P.x * Q.x * P.y * Q.y) := by
    rw [Nat.cast_add, cast_mod, cast_mod, Nat.cast_mul, Nat.cast_mul,
      cast_mod, cast_mod, cast_mod, Nat.cast_mul, Nat.cast_mul, Nat.cast_mul, cast_mod, hd,
      Nat.cast_mul, h1, h2, h4, h5]
    ring
  refine ⟨?_, ?_, ?_⟩
  · simp only [projAdd]
    rw [cast_mod, cast_mod, Nat.cast_mul, cast_mod, Nat.cast_mul, Nat.cast_mul, hf, hg, cast_mod,
      Nat.cast_add, Nat.cast_mul, Nat.cast_mul, Nat.cast_mul, h1, h2, h4, h5, Point.add_x, sumX]
    field_simp
  · simp only [projAdd]
    rw [cast_mod, cast_mod, Nat.cast_mul, cast_mod, Nat.cast_mul, Nat.cast_mul, hf, hg, cast_mod,
      Nat.cast_add, Nat.cast_mul, Nat.cast_mul, cast_mod, cast_mod, Nat.cast_mul, Nat.cast_mul,
      h1, h2, h4, h5, ha, Point.add_y, sumY]
    field_simp
    ring
  · simp only [projAdd]
    rw [cast_mod, Nat.cast_mul, hf, hg]
    have hz := mul_ne_zero h3 h6
    exact mul_ne_zero (mul_ne_zero (pow_ne_zero 2 hz) hm1) (mul_ne_zero (pow_ne_zero 2 hz) hp1)

theorem Repr.mul {na nd : ℕ} (ha : (na : Elem p) = -a) (hd : (nd : Elem p) = d) :
    ∀ (fuel k : ℕ) {T U : ℕ × ℕ × ℕ} {P S : Point a d}, k < 2 ^ fuel → Repr T P → Repr U S →
    Repr (projMul p na nd fuel k T U) (S + k • P)
  | 0, k, T, U, P, S, hk, _, hU => by
    have : k = 0 := by simpa using hk
    subst this
    rw [zero_smul, add_zero]
    exact hU
  | fuel + 1, k, T, U, P, S, hk, hT, hU => by
    unfold projMul
    have hk' : k / 2 < 2 ^ fuel := by rw [pow_succ] at hk; omega
    have he := Nat.div_add_mod k 2
    have hsm : ∀ b : ℕ, b = k % 2 → b • P + (k / 2) • (P + P) = k • P := by
      intro b hb
      conv_rhs => rw [← he, ← hb, add_smul, mul_comm, mul_smul, two_smul, add_comm]
    by_cases h1 : k % 2 = 1
    · rw [if_pos h1]
      have := Repr.mul ha hd fuel (k / 2) hk' (hT.add ha hd hT) (hU.add ha hd hT)
      rw [← hsm 1 h1.symm, one_smul, ← add_assoc]
      exact this
    · rw [if_neg h1]
      have := Repr.mul ha hd fuel (k / 2) hk' (hT.add ha hd hT) hU
      rw [← hsm 0 (by omega), zero_smul, zero_add]
      exact this

theorem Repr.zero : Repr (a := a) (d := d) (0, 1, 1) 0 := by
  refine ⟨?_, ?_, ?_⟩
  · simp [Point.zero_x]
  · simp [Point.zero_y]
  · simp

theorem Repr.affine (P : Point a d) : Repr (P.x.n, P.y.n, 1) P := by
  have h : ∀ e : Elem p, ((e.n : ℕ) : Elem p) = e := fun e =>
    Elem.ext_n (Elem.natCast_n_of_lt e.lt)
  refine ⟨?_, ?_, ?_⟩
  · simp [h]
  · simp [h]
  · simp

/-- Two represented points have the same second coordinate iff the cross products agree. -/
theorem Repr.y_eq_iff {T U : ℕ × ℕ × ℕ} {P Q : Point a d} (hT : Repr T P) (hU : Repr U Q) :
    P.y = Q.y ↔ T.2.1 * U.2.2 % p = U.2.1 * T.2.2 % p := by
  obtain ⟨h1, h2, h3⟩ := hT
  obtain ⟨h4, h5, h6⟩ := hU
  have h : T.2.1 * U.2.2 % p = U.2.1 * T.2.2 % p ↔
      ((T.2.1 * U.2.2 : ℕ) : Elem p) = ((U.2.1 * T.2.2 : ℕ) : Elem p) := by
    rw [← Elem.natCast_n, ← Elem.natCast_n]
    exact ⟨Elem.ext_n, fun h => by rw [h]⟩
  rw [h, Nat.cast_mul, Nat.cast_mul, h2, h5]
  constructor
  · intro e
    rw [e]
    ring
  · intro e
    have : (P.y - Q.y) * ((T.2.2 : Elem p) * U.2.2) = 0 := by linear_combination e
    rcases mul_eq_zero.1 this with h | h
    · exact sub_eq_zero.1 h
    · exact absurd h (mul_ne_zero h3 h6)

/-- As `y_eq_iff`. -/
theorem Repr.x_eq_iff {T U : ℕ × ℕ × ℕ} {P Q : Point a d} (hT : Repr T P) (hU : Repr U Q) :
    P.x = Q.x ↔ T.1 * U.2.2 % p = U.1 * T.2.2 % p := by
  obtain ⟨h1, h2, h3⟩ := hT
  obtain ⟨h4, h5, h6⟩ := hU
  have h : T.1 * U.2.2 % p = U.1 * T.2.2 % p ↔
      ((T.1 * U.2.2 : ℕ) : Elem p) = ((U.1 * T.2.2 : ℕ) : Elem p) := by
    rw [← Elem.natCast_n, ← Elem.natCast_n]
    exact ⟨Elem.ext_n, fun h => by rw [h]⟩
  rw [h, Nat.cast_mul, Nat.cast_mul, h1, h4]
  constructor
  · intro e
    rw [e]
    ring
  · intro e
    have : (P.x - Q.x) * ((T.2.2 : Elem p) * U.2.2) = 0 := by linear_combination e
    rcases mul_eq_zero.1 this with h | h
    · exact sub_eq_zero.1 h
    · exact absurd h (mul_ne_zero h3 h6)

/-- The second coordinate of a represented point. -/
theorem Repr.y_lit {T : ℕ × ℕ × ℕ} {P : Point a d} (hT : Repr T P) {l : ℕ} (hl : l < p)
    (h : T.2.1 % p = l * T.2.2 % p) : P.y = ⟨l, hl⟩ := by
  obtain ⟨-, h2, h3⟩ := hT
  refine mul_right_cancel₀ h3 (h2.symm.trans ?_)
  rw [Elem.mk_eq_natCast hl, ← Nat.cast_mul]
  apply Elem.ext_n
  rw [Elem.natCast_n, Elem.natCast_n, h]

end Edwards

end R1CS
