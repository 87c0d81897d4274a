import Verif.Model.Lcg
import Mathlib.Algebra.BigOperators.Group.Finset.Basic
import Mathlib.Algebra.BigOperators.Ring.Finset
import Mathlib.Algebra.BigOperators.Intervals
import Mathlib.Data.Int.GCD
import Mathlib.Data.Nat.Size
import Mathlib.Data.Fintype.EquivFin
import Mathlib.Data.Int.ModEq
import Mathlib.Tactic.Ring
import Mathlib.Tactic.Linarith
import Mathlib.Tactic.NormNum
import Mathlib.RingTheory.Coprime.Lemmas
import Mathlib.Tactic.LinearCombination

/-!
# The linear congruential generator: period and draws
-/

namespace R1CS

namespace LCG

/-- The sum of the first powers of `a`. -/
def geom (a : ℤ) : ℕ → ℤ
  | 0 => 0
  | n + 1 => a * geom a n + 1

theorem geom_mul (a : ℤ) : ∀ m, (a - 1) * geom a m = a ^ m - 1
  | 0 => by simp [geom]
  | m + 1 => by
    have := geom_mul a m
    rw [geom, pow_succ]
    linear_combination a * this

theorem geom_add (a : ℤ) (m : ℕ) : ∀ n, geom a (m + n) = a ^ n * geom a m + geom a n
  | 0 => by simp [geom]
  | n + 1 => by
    rw [← Nat.add_assoc, geom, geom_add a m n, geom, pow_succ]
    ring

theorem geom_odd {a : ℤ} (ha : a % 4 = 1) : ∀ m, geom a m % 2 = (m : ℤ) % 2
  | 0 => by simp [geom]
  | m + 1 => by
    have := geom_odd ha m
    obtain ⟨k, hk⟩ : ∃ k, a = 4 * k + 1 := ⟨a / 4, by omega⟩
    rw [geom, hk]
    have h : (4 * k + 1) * geom (4 * k + 1) m + 1 =
      2 * (2 * k * geom (4 * k + 1) m) + (geom (4 * k + 1) m + 1) := by ring
    rw [h]
    rw [← hk] at *
    push_cast
    omega

theorem pow_mod_four {a : ℤ} (ha : a % 4 = 1) (m : ℕ) : a ^ m % 4 = 1 := by
  have h : a ≡ 1 [ZMOD 4] := ha
  have := h.pow m
  rw [one_pow] at this
  exact this

theorem two_pow_dvd_geom {a : ℤ} (ha : a % 4 = 1) : ∀ k m : ℕ,
    (2 : ℤ) ^ k ∣ geom a m ↔ 2 ^ k ∣ m
  | 0, m => by simp
  | k + 1, m => by
    have hodd := geom_odd ha m
    rcases Nat.even_or_odd' m with ⟨n, rfl | rfl⟩
    · have hs : geom a (2 * n) = (a ^ n + 1) * geom a n := by
        rw [two_mul, geom_add]; ring
      have h4 := pow_mod_four ha n
      obtain ⟨j, hj⟩ : ∃ j, a ^ n = 4 * j + 1 := ⟨a ^ n / 4, by omega⟩
      have hs' : geom a (2 * n) = 2 * ((2 * j + 1) * geom a n) := by
        rw [hs, hj]; ring
      rw [hs', pow_succ, mul_comm ((2 : ℤ) ^ k) 2, mul_dvd_mul_iff_left (by norm_num), pow_succ,
        mul_comm (2 ^ k) 2, Nat.mul_dvd_mul_iff_left (by norm_num), ← two_pow_dvd_geom ha k n]
      have hco : IsCoprime ((2 : ℤ) ^ k) (2 * j + 1) :=
        IsCoprime.pow_left ⟨-j, 1, by ring⟩
      exact ⟨hco.dvd_of_dvd_mul_left, fun h => h.mul_left _⟩
    · constructor
      · intro h
        have : (2 : ℤ) ∣ geom a (2 * n + 1) := (Dvd.intro_left _ (pow_succ _ _).symm).trans h
        push_cast at hodd
        omega
      · intro h
        have : 2 ∣ 2 * n + 1 := (Dvd.intro_left _ (pow_succ _ _).symm).trans h
        omega

/-- The state after `m` steps. -/
def after (m : ℕ) (g : LCG) : LCG := (fun g => (nextU32 g).2)^[m] g

theorem after_zero (g : LCG) : after 0 g = g := rfl

theorem after_succ (m : ℕ) (g : LCG) : after (m + 1) g = after m (nextU32 g).2 :=
  Function.iterate_succ_apply _ m g

theorem after_add (m n : ℕ) (g : LCG) : after (m + n) g = after m (after n g) :=
  Function.iterate_add_apply _ m n g

theorem nextU32_lt (g : LCG) : (nextU32 g).2.state < 2 ^ 32 := Nat.mod_lt _ (by norm_num)

theorem after_lt {g : LCG} (hg : g.state < 2 ^ 32) : ∀ m, (after m g).state < 2 ^ 32
  | 0 => hg
  | m + 1 => by
    rw [Nat.add_comm, after_add, after_succ, after_zero]
    exact nextU32_lt _

theorem nextU32_modEq (g : LCG) :
    (((nextU32 g).2.state : ℕ) : ℤ) ≡ 1664525 * g.state + 1013904223 [ZMOD 2 ^ 32] := by
  have h : (nextU32 g).2.state = (g.state * 1664525 % 2 ^ 32 + 1013904223) % 2 ^ 32 := rfl
  rw [h]
  unfold Int.ModEq
  push_cast
  omega

theorem after_modEq : ∀ (m : ℕ) (g : LCG),
    ((after m g).state : ℤ) ≡ 1664525 ^ m * g.state + 1013904223 * geom 1664525 m [ZMOD 2 ^ 32]
  | 0, g => by simp [after_zero, geom]
  | m + 1, g => by
    rw [Nat.add_comm, after_add]
    have h1 := nextU32_modEq (after m g)
    have h2 := ((after_modEq m g).mul_left 1664525).add_right 1013904223
    refine (h1.trans h2).trans ?_
    rw [Nat.add_comm, geom, pow_succ (1664525 : ℤ)]
    have : (1664525 : ℤ) * (1664525 ^ m * g.state + 1013904223 * geom 1664525 m) + 1013904223 =
        1664525 ^ m * 1664525 * g.state + 1013904223 * (1664525 * geom 1664525 m + 1) := by ring
    rw [this]

/-- The difference between a state and the state `m` steps later. -/
theorem after_sub (m : ℕ) (g : LCG) :
    ((after m g).state : ℤ) - g.state ≡
      geom 1664525 m * (1664524 * g.state + 1013904223) [ZMOD 2 ^ 32] := by
  have h1 := (after_modEq m g).sub_right (g.state : ℤ)
  refine h1.trans ?_
  have := geom_mul 1664525 m
  have h : (1664525 : ℤ) ^ m = 1664524 * geom 1664525 m + 1 := by linarith
  have h' : (1664525 : ℤ) ^ m * g.state + 1013904223 * geom 1664525 m - g.state =
      geom 1664525 m * (1664524 * g.state + 1013904223) := by
    rw [h]
    ring
  rw [h']

/-- Two states `m` steps apart agree modulo `2 ^ k` exactly if `2 ^ k` divides `m`. -/
theorem after_modEq_iff {k : ℕ} (hk : k ≤ 32) (m : ℕ) (g : LCG) :
    (after m g).state ≡ g.state [MOD 2 ^ k] ↔ 2 ^ k ∣ m := by
  rw [← two_pow_dvd_geom (a := 1664525) (by norm_num) k m]
  have hd : (2 : ℤ) ^ k ∣ 2 ^ 32 := pow_dvd_pow 2 hk
  have hs := (after_sub m g).of_dvd hd
  have hco : IsCoprime ((2 : ℤ) ^ k) (1664524 * g.state + 1013904223) :=
    IsCoprime.pow_left ⟨-(832262 * g.state + 506952111), 1, by ring⟩
  have h1 : (after m g).state ≡ g.state [MOD 2 ^ k] ↔
      (2 : ℤ) ^ k ∣ ((after m g).state : ℤ) - g.state := by
    rw [← Int.natCast_modEq_iff]
    push_cast
    rw [Int.modEq_comm, Int.modEq_iff_dvd]
  rw [h1]
  have h2 : (2 : ℤ) ^ k ∣ ((after m g).state : ℤ) - g.state ↔
      (2 : ℤ) ^ k ∣ geom 1664525 m * (1664524 * g.state + 1013904223) := by
    rw [Int.dvd_iff_emod_eq_zero, Int.dvd_iff_emod_eq_zero, hs]
  rw [h2]
  exact ⟨hco.dvd_of_dvd_mul_right, fun h => h.mul_right _⟩

theorem after_eq_iff {g : LCG} (hg : g.state < 2 ^ 32) (m : ℕ) :
    after m g = g ↔ 2 ^ 32 ∣ m := by
  rw [← after_modEq_iff (le_refl 32) m g]
  constructor
  · intro h
    rw [h]
  · intro h
    have := Nat.ModEq.eq_of_lt_of_lt h (after_lt hg m) hg
    cases hh : after m g
    cases g
    rw [hh] at this
    exact congrArg LCG.mk this

/-- Every state is reached from every state. -/
theorem after_surjective {g h : LCG} (hg : g.state < 2 ^ 32) (hh : h.state < 2 ^ 32) :
    ∃ m < 2 ^ 32, after m g = h := by
  let f : Fin (2 ^ 32) → Fin (2 ^ 32) := fun i => ⟨(after i.1 g).state, after_lt hg _⟩
  have hinj : Function.Injective f := by
    have key : ∀ i j : ℕ, i ≤ j → j < 2 ^ 32 → (after i g).state = (after j g).state → i = j := by
      intro i j hij hj he
      have h1 : after j g = after (j - i) (after i g) := by
        rw [← after_add]; congr 1; omega
      have h2 : (after (j - i) (after i g)).state ≡ (after i g).state [MOD 2 ^ 32] := by
        rw [← h1, he]
      have h3 := (after_modEq_iff (le_refl 32) _ _).1 h2
      by_contra hne
      have := Nat.le_of_dvd (by omega) h3
      omega
    intro i j hij
    have he : (after i.1 g).state = (after j.1 g).state := congrArg Fin.val hij
    apply Fin.ext
    rcases Nat.le_total i.1 j.1 with h | h
    · exact key _ _ h j.2 he
    · exact (key _ _ h i.2 he.symm).symm
  obtain ⟨i, hi⟩ := (Finite.injective_iff_surjective.1 hinj) ⟨h.state, hh⟩
  refine ⟨i.1, i.2, ?_⟩
  have := congrArg Fin.val hi
  change (after i.1 g).state = h.state at this
  cases hx : after i.1 g
  cases h
  rw [hx] at this
  exact congrArg LCG.mk this

/-- Every state agreeing with `g` modulo the common divisor of `k` and the period is reached in
steps of `k`. -/
theorem after_mul_surjective {g h : LCG} (hg : g.state < 2 ^ 32) (hh : h.state < 2 ^ 32) (k : ℕ)
    (hgh : h.state ≡ g.state [MOD Nat.gcd k (2 ^ 32)]) :
    ∃ j < 2 ^ 32, after (k * (j + 1)) g = h := by
  obtain ⟨m, -, hm⟩ := after_surjective hg hh
  obtain ⟨e, he, hd⟩ := (Nat.dvd_prime_pow Nat.prime_two).1 (Nat.gcd_dvd_right k (2 ^ 32))
  have hem : Nat.gcd k (2 ^ 32) ∣ m := by
    rw [hd] at hgh ⊢
    exact (after_modEq_iff he m g).1 (by rw [hm]; exact hgh)
  obtain ⟨x, y, hxy⟩ := (Int.gcd_dvd_iff (a := (k : ℤ)) (b := ((2 ^ 32 : ℕ) : ℤ)) (n := m)).1
    (by simpa [Int.gcd] using hem)
  refine ⟨((x - 1) % (2 ^ 32 : ℤ)).toNat, ?_, ?_⟩
  · have := Int.emod_lt_of_pos (x - 1) (show (0 : ℤ) < 2 ^ 32 by norm_num)
    have := Int.emod_nonneg (x - 1) (show (2 ^ 32 : ℤ) ≠ 0 by norm_num)
    omega
  · have hnn := Int.emod_nonneg (x - 1) (show (2 ^ 32 : ℤ) ≠ 0 by norm_num)
    set j := ((x - 1) % (2 ^ 32 : ℤ)).toNat with hj
    have hjz : (j : ℤ) = (x - 1) % 2 ^ 32 := Int.toNat_of_nonneg hnn
    have hmod : k * (j + 1) ≡ m [MOD 2 ^ 32] := by
      rw [← Int.natCast_modEq_iff]
      push_cast
      rw [hjz, hxy]
      have h1 : ((x - 1) % 2 ^ 32 + 1 : ℤ) ≡ x [ZMOD 2 ^ 32] := by
        have := (Int.mod_modEq (x - 1) (2 ^ 32)).add_right 1
        simpa using this
      have h2 := (h1.mul_left (k : ℤ))
      refine h2.trans ?_
      rw [Int.modEq_iff_dvd]
      push_cast
      exact ⟨y, by ring⟩
    have hper : ∀ a b : ℕ, a ≤ b → a ≡ b [MOD 2 ^ 32] → after a g = after b g := by
      intro a b hab hmodab
      have h1 : after b g = after (b - a) (after a g) := by
        rw [← after_add]; congr 1; omega
      rw [h1]
      exact ((after_eq_iff (after_lt hg a) _).2 ((Nat.modEq_iff_dvd' hab).1 hmodab)).symm
    rcases Nat.le_total (k * (j + 1)) m with h | h
    · rw [hper _ _ h hmod, hm]
    · rw [← hper _ _ h hmod.symm, hm]

/-! ## Draws -/

theorem ofDigits_append : ∀ (l : List ℕ) (d : ℕ),
    ofDigits (l ++ [d]) = ofDigits l + 2 ^ (32 * l.length) * d
  | [], d => by simp [ofDigits]
  | x :: l, d => by
    rw [List.cons_append, ofDigits, ofDigits_append l d, ofDigits, List.length_cons, Nat.mul_succ,
      pow_add]
    ring

theorem ofDigits_lt : ∀ {l : List ℕ}, (∀ d ∈ l, d < 2 ^ 32) → ofDigits l < 2 ^ (32 * l.length)
  | [], _ => by simp [ofDigits]
  | x :: l, h => by
    have h1 := ofDigits_lt (l := l) fun d hd => h d (List.mem_cons_of_mem _ hd)
    have h2 := h x List.mem_cons_self
    rw [ofDigits, List.length_cons, Nat.mul_succ, pow_add]
    have h3 : ofDigits l + 1 ≤ 2 ^ (32 * l.length) := h1
    have h4 := Nat.mul_le_mul_right (2 ^ 32) h3
    omega

theorem fullChunks_cons (n : ℕ) (g : LCG) : fullChunks (n + 1) g =
    ((nextU32 g).1 :: (fullChunks n (nextU32 g).2).1, (fullChunks n (nextU32 g).2).2) := by
  rw [fullChunks]

theorem nextU32_pair (g : LCG) : nextU32 g = ((after 1 g).state, after 1 g) := by
  have h : after 1 g = (nextU32 g).2 := by rw [after_succ, after_zero]
  rw [h, nextU32]

theorem fullChunks_spec : ∀ (n : ℕ) (g : LCG),
    (fullChunks n g).2 = after n g ∧ (fullChunks n g).1.length = n ∧
      ∀ d ∈ (fullChunks n g).1, d < 2 ^ 32
  | 0, g => ⟨rfl, rfl, by simp [fullChunks]⟩
  | n + 1, g => by
    obtain ⟨h1, h2, h3⟩ := fullChunks_spec n (nextU32 g).2
    rw [fullChunks_cons, after_succ]
    refine ⟨h1, by rw [List.length_cons, h2], ?_⟩
    intro d hd
    rcases List.mem_cons.1 hd with hd | hd
    · have := nextU32_lt g
      rw [nextU32_pair] at hd this
      rw [hd]
      exact this
    · exact h3 d hd

theorem fullChunks_succ : ∀ (n : ℕ) (g : LCG),
    (fullChunks (n + 1) g).1 = (fullChunks n g).1 ++ [(after (n + 1) g).state]
  | 0, g => by
    rw [fullChunks_cons, nextU32_pair, fullChunks, fullChunks]
    rfl
  | n + 1, g => by
    rw [fullChunks_cons, fullChunks_succ n, fullChunks_cons n, after_succ (n + 1)]
    rfl

/-- The number of chunks of a draw. -/
def chunks (bits : ℕ) : ℕ := (bits + 31) / 32

/-- A draw leaves the generator as many steps ahead as it has chunks. -/
theorem nextBiguintBits_state (bits : ℕ) (g : LCG) :
    (nextBiguintBits bits g).2 = after (chunks bits) g := by
  unfold nextBiguintBits
  obtain ⟨h1, -, -⟩ := fullChunks_spec (bits / 32) g
  by_cases h : bits % 32 > 0
  · simp only [if_pos h]
    rw [h1, show chunks bits = 1 + bits / 32 by unfold chunks; omega, after_add, nextU32_pair]
  · simp only [if_neg h]
    rw [h1, show chunks bits = bits / 32 by unfold chunks; omega]

/-- A draw is below the power of two. -/
theorem nextBiguintBits_lt (bits : ℕ) (g : LCG) : (nextBiguintBits bits g).1 < 2 ^ bits := by
  unfold nextBiguintBits
  obtain ⟨-, h2, h3⟩ := fullChunks_spec (bits / 32) g
  have h4 := ofDigits_lt h3
  rw [h2] at h4
  by_cases h : bits % 32 > 0
  · simp only [if_pos h]
    rw [ofDigits_append, h2, Nat.one_shiftLeft]
    have h5 := Nat.mod_lt (nextU32 (fullChunks (bits / 32) g).2).1
      (Nat.two_pow_pos (bits % 32))
    have h6 : 2 ^ bits = 2 ^ (32 * (bits / 32)) * 2 ^ (bits % 32) := by
      rw [← pow_add]; congr 1; omega
    rw [h6]
    have h7 := Nat.mul_le_mul_left (2 ^ (32 * (bits / 32))) (Nat.succ_le_of_lt h5)
    rw [Nat.mul_succ] at h7
    omega
  · simp only [if_neg h]
    rwa [show 32 * (bits / 32) = bits by omega] at h4

/-- The leading chunk of a draw comes from the last state. -/
theorem nextBiguintBits_top {bits : ℕ} (hb : 0 < bits) (g : LCG) :
    ∃ low < 2 ^ (32 * (chunks bits - 1)), ∃ top,
      (nextBiguintBits bits g).1 = low + 2 ^ (32 * (chunks bits - 1)) * top ∧
      (top = (after (chunks bits) g).state ∧ bits % 32 = 0 ∨
        top = (after (chunks bits) g).state % 2 ^ (bits % 32) ∧ 0 < bits % 32) := by
  unfold nextBiguintBits
  by_cases h : bits % 32 > 0
  · simp only [if_pos h]
    obtain ⟨h1, h2, h3⟩ := fullChunks_spec (bits / 32) g
    have hc : chunks bits = 1 + bits / 32 := by unfold chunks; omega
    have h4 := ofDigits_lt h3
    rw [h2] at h4
    refine ⟨ofDigits (fullChunks (bits / 32) g).1, ?_,
      (after (chunks bits) g).state % 2 ^ (bits % 32), ?_, Or.inr ⟨rfl, h⟩⟩
    · rw [hc, Nat.add_sub_cancel_left]
      exact h4
    · rw [ofDigits_append, h2, Nat.one_shiftLeft, hc, Nat.add_sub_cancel_left, after_add, ← h1,
        nextU32_pair]
  · simp only [if_neg h]
    obtain ⟨n, hn⟩ : ∃ n, bits / 32 = n + 1 := ⟨bits / 32 - 1, by omega⟩
    have hc : chunks bits = n + 1 := by unfold chunks; omega
    obtain ⟨h1, h2, h3⟩ := fullChunks_spec n g
    have h4 := ofDigits_lt h3
    rw [h2] at h4
    rw [hn, fullChunks_succ, ofDigits_append, h2, hc]
    exact ⟨_, h4, _, rfl, Or.inl ⟨rfl, by omega⟩⟩

theorem drawLoop_none {limit bits : ℕ} : ∀ {fuel : ℕ} {g : LCG},
    drawLoop limit bits fuel g = none ↔
      ∀ i < fuel, limit ≤ (nextBiguintBits bits (after (chunks bits * i) g)).1
  | 0, g => by simp [drawLoop]
  | fuel + 1, g => by
    unfold drawLoop
    by_cases h : (nextBiguintBits bits g).1 < limit
    · simp only [if_pos h]
      constructor
      · intro h'
        exact absurd h' (by simp)
      intro h'
      have := h' 0 (by omega)
      rw [Nat.mul_zero, after_zero] at this
      omega
    · simp only [if_neg h]
      rw [drawLoop_none, nextBiguintBits_state]
      constructor
      · intro h' i hi
        cases i with
        | zero =>
          rw [Nat.mul_zero, after_zero]
          omega
        | succ i =>
          rw [Nat.mul_succ, after_add]
          exact h' i (by omega)
      · intro h' i hi
        have := h' (i + 1) (by omega)
        rwa [Nat.mul_succ, after_add] at this

theorem drawLoop_some {limit bits : ℕ} : ∀ {fuel : ℕ} {g : LCG} {n : ℕ} {g' : LCG},
    drawLoop limit bits fuel g = some (n, g') →
      n < limit ∧ ∃ i < fuel, n = (nextBiguintBits bits (after (chunks bits * i) g)).1 ∧
        g' = after (chunks bits * (i + 1)) g ∧
        ∀ j < i, limit ≤ (nextBiguintBits bits (after (chunks bits * j) g)).1
  | 0, g, n, g', h => by simp [drawLoop] at h
  | fuel + 1, g, n, g', h => by
    unfold drawLoop at h
    by_cases hlt : (nextBiguintBits bits g).1 < limit
    · simp only [if_pos hlt] at h
      injection h with h
      injection h with h1 h2
      refine ⟨h1 ▸ hlt, 0, by omega, h1.symm, ?_, by omega⟩
      rw [← h2, nextBiguintBits_state, Nat.mul_one]
    · simp only [if_neg hlt] at h
      obtain ⟨g1, i, g2, g3, g4, g5⟩ := drawLoop_some h
      rw [nextBiguintBits_state] at g3 g4 g5
      refine ⟨g1, i + 1, by omega, ?_, ?_, ?_⟩
      · rw [Nat.mul_succ, after_add]
        exact g3
      · rw [Nat.mul_succ, after_add]
        exact g4
      · intro j hj
        cases j with
        | zero =>
          rw [Nat.mul_zero, after_zero]
          omega
        | succ j =>
          rw [Nat.mul_succ, after_add]
          exact g5 j (by omega)

end LCG

end R1CS
