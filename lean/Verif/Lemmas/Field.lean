import Verif.Model.Field
import Mathlib.Data.ZMod.Basic
import Mathlib.FieldTheory.Finite.Basic
import Mathlib.Tactic.Ring
import Mathlib.Tactic.LinearCombination
import Mathlib.Tactic.FieldSimp

/-!
# `Elem p` is the field with `p` elements
-/

set_option linter.unusedSectionVars false

namespace R1CS
namespace Elem

variable {p : ℕ}

/-- The residue class of an element. -/
def toZMod (a : Elem p) : ZMod p := (a.n : ZMod p)

theorem toZMod_injective : Function.Injective (toZMod : Elem p → ZMod p) := by
  intro a b h
  apply ext_n
  have h' := (ZMod.natCast_eq_natCast_iff _ _ _).mp h
  unfold Nat.ModEq at h'
  rwa [Nat.mod_eq_of_lt a.lt, Nat.mod_eq_of_lt b.lt] at h'

variable [hp : Fact p.Prime]

@[simp] theorem zero_n : (0 : Elem p).n = 0 := rfl
@[simp] theorem one_n : (1 : Elem p).n = 1 := rfl
theorem add_n (a b : Elem p) : (a + b).n = (a.n + b.n) % p := rfl
theorem mul_n (a b : Elem p) : (a * b).n = (a.n * b.n) % p := rfl

@[simp] theorem toZMod_zero : (0 : Elem p).toZMod = 0 := by simp [toZMod]
@[simp] theorem toZMod_one : (1 : Elem p).toZMod = 1 := by simp [toZMod]
@[simp] theorem toZMod_add (a b : Elem p) : (a + b).toZMod = a.toZMod + b.toZMod := by
  simp [toZMod, add_n]
@[simp] theorem toZMod_mul (a b : Elem p) : (a * b).toZMod = a.toZMod * b.toZMod := by
  simp [toZMod, mul_n]

theorem neg_n (a : Elem p) : (-a).n = (p - a.n) % p := by
  change (neg a).n = _
  unfold neg
  split
  · next h => simp [h, zero]
  · next h =>
      rw [Nat.mod_eq_of_lt]
      exact Nat.sub_lt hp.out.pos (Nat.pos_of_ne_zero h)

@[simp] theorem toZMod_neg (a : Elem p) : (-a).toZMod = -a.toZMod := by
  unfold toZMod
  rw [neg_n, ZMod.natCast_mod, Nat.cast_sub a.lt.le]
  simp

@[simp] theorem toZMod_sub (a b : Elem p) : (a - b).toZMod = a.toZMod - b.toZMod := by
  change (a + -b).toZMod = _
  rw [toZMod_add, toZMod_neg, sub_eq_add_neg]

/-- The inverse used for the `Field` instance: the exponent of Fermat's little theorem. -/
def fieldInv (a : Elem p) : Elem p :=
  if a.n = 0 then 0 else ⟨a.n ^ (p - 2) % p, Nat.mod_lt _ hp.out.pos⟩

theorem toZMod_ne_zero {a : Elem p} (h : a ≠ 0) : a.toZMod ≠ 0 := by
  intro h0
  apply h
  apply toZMod_injective
  simpa using h0

theorem zmod_pow_sub_two (z : ZMod p) (hz : z ≠ 0) : z * z ^ (p - 2) = 1 := by
  have h2 : 2 ≤ p := hp.out.two_le
  rw [← pow_succ', show p - 2 + 1 = p - 1 by omega]
  exact ZMod.pow_card_sub_one_eq_one hz

instance instCommRing : CommRing (Elem p) where
  add_assoc a b c := toZMod_injective (by simp [add_assoc])
  zero_add a := toZMod_injective (by simp)
  add_zero a := toZMod_injective (by simp)
  add_comm a b := toZMod_injective (by simp [add_comm])
  left_distrib a b c := toZMod_injective (by simp [mul_add])
  right_distrib a b c := toZMod_injective (by simp [add_mul])
  zero_mul a := toZMod_injective (by simp)
  mul_zero a := toZMod_injective (by simp)
  mul_assoc a b c := toZMod_injective (by simp [mul_assoc])
  one_mul a := toZMod_injective (by simp)
  mul_one a := toZMod_injective (by simp)
  neg_add_cancel a := toZMod_injective (by simp)
  mul_comm a b := toZMod_injective (by simp [mul_comm])
  sub_eq_add_neg a b := rfl
  nsmul := nsmulRec
  zsmul := zsmulRec

theorem mul_fieldInv (a : Elem p) (h : a ≠ 0) : a * fieldInv a = 1 := by
  apply toZMod_injective
  have hn : a.n ≠ 0 := fun h0 => h (ext_n h0)
  rw [toZMod_mul, toZMod_one, fieldInv, if_neg hn]
  have : (⟨a.n ^ (p - 2) % p, Nat.mod_lt _ hp.out.pos⟩ : Elem p).toZMod = a.toZMod ^ (p - 2) := by
    simp [toZMod]
  rw [this]
  exact zmod_pow_sub_two _ (toZMod_ne_zero h)

instance instField : Field (Elem p) where
  inv := fieldInv
  exists_pair_ne := ⟨0, 1, fun h => by simpa using congrArg n h⟩
  mul_inv_cancel := mul_fieldInv
  inv_zero := by simp [fieldInv]
  nnqsmul := _
  nnqsmul_def := fun _ _ => rfl
  qsmul := _
  qsmul_def := fun _ _ => rfl

/-- The ring isomorphism with `ZMod p`. -/
def toZModHom : Elem p →+* ZMod p where
  toFun := toZMod
  map_one' := toZMod_one
  map_mul' := toZMod_mul
  map_zero' := toZMod_zero
  map_add' := toZMod_add

theorem ofNat?_eq_some {n : ℕ} (h : n < p) : ofNat? p n = some ⟨n, h⟩ := by
  simp [ofNat?, h]

theorem ofNat?_eq_none {n : ℕ} (h : p ≤ n) : ofNat? p n = none := by
  simp [ofNat?, h]

theorem natCast_n (k : ℕ) : ((k : Elem p)).n = k % p := by
  have h : ((k : Elem p)).toZMod = (k : ZMod p) := map_natCast (toZModHom (p := p)) k
  have h2 := (ZMod.natCast_eq_natCast_iff _ _ _).mp h
  unfold Nat.ModEq at h2
  rwa [Nat.mod_eq_of_lt (Elem.lt _)] at h2

@[simp] theorem natCast_self_n (a : Elem p) : ((a.n : ℕ) : Elem p) = a :=
  ext_n (by rw [natCast_n, Nat.mod_eq_of_lt a.lt])

theorem mk_eq_natCast {k : ℕ} (h : k < p) : (⟨k, h⟩ : Elem p) = (k : Elem p) :=
  ext_n (by rw [natCast_n, Nat.mod_eq_of_lt h])

theorem natCast_n_of_lt {k : ℕ} (h : k < p) : ((k : Elem p)).n = k := by
  rw [natCast_n, Nat.mod_eq_of_lt h]

theorem pow_n (a : Elem p) (k : ℕ) : (a ^ k).n = a.n ^ k % p := by
  have h : (a ^ k) = ((a.n ^ k : ℕ) : Elem p) := by push_cast; simp
  rw [h, natCast_n]

theorem exponentiation_eq (a k : Elem p) : a.exponentiation k = a ^ k.n :=
  ext_n (by rw [pow_n]; rfl)

theorem isZero_iff (a : Elem p) : a.isZero = true ↔ a = 0 := by
  simp only [isZero, beq_iff_eq]
  exact ⟨fun h => ext_n h, fun h => by rw [h]; rfl⟩

theorem isNonzero_iff (a : Elem p) : a.isNonzero = true ↔ a ≠ 0 := by
  simp only [isNonzero, Bool.not_eq_true', beq_eq_false_iff_ne, ne_eq]
  exact not_congr ⟨fun h => ext_n h, fun h => by rw [h]; rfl⟩

theorem isOne_iff (a : Elem p) : a.isOne = true ↔ a = 1 := by
  simp only [isOne, beq_iff_eq]
  exact ⟨fun h => ext_n h, fun h => by rw [h]; rfl⟩

theorem isZero_eq (a : Elem p) : a.isZero = decide (a = 0) := by
  rw [Bool.eq_iff_iff, isZero_iff]; simp

theorem isNonzero_eq (a : Elem p) : a.isNonzero = decide (a ≠ 0) := by
  rw [Bool.eq_iff_iff, isNonzero_iff]; simp

theorem isOne_eq (a : Elem p) : a.isOne = decide (a = 1) := by
  rw [Bool.eq_iff_iff, isOne_iff]; simp

theorem inv_n (a : Elem p) (h : a ≠ 0) : (a⁻¹).n = a.n ^ (p - 2) % p := by
  have hn : a.n ≠ 0 := fun h0 => h (ext_n h0)
  change (fieldInv a).n = _
  rw [fieldInv, if_neg hn]

theorem multiplicativeInverse_eq (h2 : 2 < p) (a : Elem p) (h : a ≠ 0) :
    a.multiplicativeInverse = some a⁻¹ := by
  unfold multiplicativeInverse
  have hz : ¬ a.isZero = true := by rw [isZero_iff]; exact h
  rw [if_neg hz, ofNat?_eq_some h2]
  simp only [Option.bind_eq_bind, Option.bind_some, Option.pure_def]
  congr 1
  apply ext_n
  rw [inv_n a h]
  change a.n ^ (neg (⟨2, h2⟩ : Elem p)).n % p = _
  congr 2

theorem multiplicativeInverse_zero : (0 : Elem p).multiplicativeInverse = none := by
  simp [multiplicativeInverse, isZero]

theorem multiplicativeInverseOrZero_eq (h2 : 2 < p) (a : Elem p) :
    a.multiplicativeInverseOrZero = some a⁻¹ := by
  unfold multiplicativeInverseOrZero
  by_cases h : a = 0
  · subst h; rw [if_pos ((isZero_iff _).2 rfl), inv_zero]; rfl
  · rw [if_neg (fun hz => h ((isZero_iff _).1 hz)), multiplicativeInverse_eq h2 a h]

theorem div_eq (h2 : 2 < p) (a b : Elem p) (h : b ≠ 0) : a.div b = some (a / b) := by
  unfold div
  rw [multiplicativeInverse_eq h2 b h]
  simp [div_eq_mul_inv]

theorem div_zero' (a : Elem p) : a.div 0 = none := by
  unfold div
  rw [multiplicativeInverse_zero]; rfl

theorem ofBool_true : (ofBool true : Elem p) = 1 := rfl
theorem ofBool_false : (ofBool false : Elem p) = 0 := rfl

theorem ofBool_n (b : Bool) : (ofBool b : Elem p).n = b.toNat := by cases b <;> rfl

theorem ofBool_eq_natCast (b : Bool) : (ofBool b : Elem p) = ((b.toNat : ℕ) : Elem p) := by
  cases b <;> simp [ofBool_true, ofBool_false]

theorem shl_eq_some {a : Elem p} {k : ℕ} (h : a.n * 2 ^ k < p) :
    a.shl k = some (a * (2 : Elem p) ^ k) := by
  unfold shl
  rw [Nat.shiftLeft_eq, ofNat?_eq_some h, mk_eq_natCast]
  push_cast; simp

theorem one_shl {k : ℕ} (h : 2 ^ k < p) : (1 : Elem p).shl k = some ((2 : Elem p) ^ k) := by
  rw [shl_eq_some (by simpa using h)]; simp

theorem shl_eq_none {a : Elem p} {k : ℕ} (h : p ≤ a.n * 2 ^ k) : a.shl k = none := by
  unfold shl
  rw [Nat.shiftLeft_eq, ofNat?_eq_none h]

theorem bit_eq (a : Elem p) (i : ℕ) : a.bit i = a.n.testBit i := by
  unfold bit Nat.testBit
  rw [Nat.and_comm]
  rcases Nat.mod_two_eq_zero_or_one (a.n >>> i) with h | h <;> simp [h]

theorem shr_and_one (n i : ℕ) : ((n >>> i) &&& 1 == 1) = n.testBit i := by
  unfold Nat.testBit
  rw [Nat.and_comm]
  rcases Nat.mod_two_eq_zero_or_one (n >>> i) with h | h <;> simp [h]

theorem maxBits_eq : maxBits p = (p - 1).size := rfl

theorem lt_two_pow_maxBits (a : Elem p) : a.n < 2 ^ maxBits p := by
  rw [maxBits_eq]
  exact lt_of_le_of_lt (Nat.le_sub_one_of_lt a.lt) (Nat.lt_size_self _)

theorem le_two_pow_maxBits : p ≤ 2 ^ maxBits p := by
  have := Nat.lt_size_self (p - 1)
  rw [maxBits_eq]; omega

theorem two_pow_lt_of_lt_maxBits {k : ℕ} (h : k < maxBits p) : 2 ^ k < p := by
  rw [maxBits_eq] at h
  have := Nat.lt_size.mp h
  have := hp.out.pos
  omega

theorem size_le_maxBits (a : Elem p) : a.n.size ≤ maxBits p :=
  Nat.size_le.mpr (lt_two_pow_maxBits a)

end Elem
end R1CS
