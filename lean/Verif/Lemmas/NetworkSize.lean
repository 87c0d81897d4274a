import Verif.Lemmas.PermutationSound
import Verif.Lemmas.Routing
import Mathlib.Data.Nat.Log
import Mathlib.Algebra.BigOperators.Intervals

/-!
# The size of the permutation network
-/

set_option linter.unusedSectionVars false

namespace R1CS

variable {p : ℕ} [hp : Fact p.Prime] {α β : Type}

/-- The constraint `w * (w - 1) = 0` made by `boolean_wire` for a wire other than `ONE`. -/
def IsBooleanCheck (c : Constraint p) : Prop :=
  ∃ w, w ≠ ONE ∧ c.a = Expression.ofWire w ∧ c.b = Expression.ofWire w - 1 ∧ c.c = 0

open Classical in
/-- The number of boolean wires of a circuit. -/
noncomputable def booleanChecks (b : Builder p) : ℕ :=
  b.constraints.countP fun c => decide (IsBooleanCheck c)

/-- The number of switches of a network for `n` items. -/
def switchSum (n : ℕ) : ℕ := ∑ i ∈ Finset.range n, Nat.clog 2 (i + 1)

theorem switchSum_succ (n : ℕ) : switchSum (n + 1) = switchSum n + Nat.clog 2 (n + 1) := by
  unfold switchSum; rw [Finset.sum_range_succ]

theorem switchSum_halves (n : ℕ) : ∑ i ∈ Finset.range n, Nat.clog 2 ((i + 2) / 2) =
    switchSum (n / 2) + switchSum ((n + 1) / 2) := by
  induction n with
  | zero => rfl
  | succ n ih =>
    rw [Finset.sum_range_succ, ih, show (n + 1 + 1) / 2 = n / 2 + 1 by omega, switchSum_succ]
    ring

theorem switchSum_rec {n : ℕ} (hn : 1 ≤ n) :
    switchSum n = n - 1 + switchSum (n / 2) + switchSum ((n + 1) / 2) := by
  obtain ⟨m, rfl⟩ : ∃ m, n = m + 1 := ⟨n - 1, by omega⟩
  rw [add_assoc, ← switchSum_halves]
  unfold switchSum
  rw [Finset.sum_range_succ', Finset.sum_range_succ']
  have : ∀ i ∈ Finset.range m, Nat.clog 2 (i + 1 + 1) = 1 + Nat.clog 2 ((i + 1 + 2) / 2) := by
    intro i _
    rw [Nat.clog_of_two_le one_lt_two (by omega)]
    rw [show i + 1 + 1 + 2 - 1 = i + 1 + 2 by omega]
    ring
  rw [Finset.sum_congr rfl this, Finset.sum_add_distrib]
  simp

/-- Running `m` succeeds and adds exactly `k` boolean wires. -/
def Adds (m : B p α) (k : ℕ) (Q : α → Prop) : Prop :=
  ∀ b : Builder p, 1 ≤ b.nextWireIndex → ∃ a b', m b = some (a, b') ∧ 1 ≤ b'.nextWireIndex ∧
    booleanChecks b' = booleanChecks b + k ∧ Q a

namespace Adds

theorem pure {a : α} {Q : α → Prop} (h : Q a) : Adds (Pure.pure a : B p α) 0 Q :=
  fun b hb => ⟨a, b, rfl, hb, rfl, h⟩

theorem bind {m : B p α} {f : α → B p β} {k l : ℕ} {Q : α → Prop} {R : β → Prop}
    (hm : Adds m k Q) (hf : ∀ a, Q a → Adds (f a) l R) : Adds (m >>= f) (k + l) R := by
  intro b hb
  obtain ⟨a, b1, h1, h2, h3, h4⟩ := hm b hb
  obtain ⟨z, b2, g1, g2, g3, g4⟩ := hf a h4 b1 h2
  exact ⟨z, b2, by rw [B.bind_eq h1, g1], g2, by rw [g3, h3]; ring, g4⟩

theorem mono {m : B p α} {k : ℕ} {Q R : α → Prop} (hm : Adds m k Q) (h : ∀ a, Q a → R a) :
    Adds m k R := fun b hb => by
  obtain ⟨a, b1, h1, h2, h3, h4⟩ := hm b hb
  exact ⟨a, b1, h1, h2, h3, h a h4⟩

theorem congr {m : B p α} {k l : ℕ} {Q : α → Prop} (hm : Adds m k Q) (h : k = l) :
    Adds m l Q := h ▸ hm

theorem require {c : Prop} [Decidable c] (hc : c) : Adds (B.require c : B p Unit) 0 fun _ => True :=
  fun b hb => ⟨(), b, B.require_pos hc b, hb, rfl, trivial⟩

theorem ofOption {o : Option α} {a : α} (ho : o = some a) :
    Adds (B.ofOption o : B p α) 0 fun _ => True :=
  fun b hb => ⟨a, b, B.ofOption_some ho b, hb, rfl, trivial⟩

theorem wire : Adds (B.wire : B p Wire) 0 fun i => i ≠ ONE := by
  intro b hb
  refine ⟨b.nextWireIndex, { b with nextWireIndex := b.nextWireIndex + 1 }, rfl, by simp, rfl, ?_⟩
  show b.nextWireIndex ≠ 0
  omega

theorem generator (d : List Wire) (f : WireValues p → Option (WireValues p)) :
    Adds (B.generator d f) 0 fun _ => True :=
  fun b hb => ⟨(), { b with witnessGenerators := b.witnessGenerators ++ [⟨d, f⟩] }, rfl, hb, rfl,
    trivial⟩

open Classical in
theorem assertProduct_check {x y z : Expression p} (h : IsBooleanCheck ⟨x, y, z⟩) :
    Adds (B.assertProduct x y z) 1 fun _ => True := by
  intro b hb
  refine ⟨(), { b with constraints := b.constraints ++ [⟨x, y, z⟩] }, rfl, hb, ?_, trivial⟩
  simp [booleanChecks, List.countP_append, h]

open Classical in
theorem assertProduct_other {x y z : Expression p} (h : ¬ IsBooleanCheck ⟨x, y, z⟩) :
    Adds (B.assertProduct x y z) 0 fun _ => True := by
  intro b hb
  refine ⟨(), { b with constraints := b.constraints ++ [⟨x, y, z⟩] }, rfl, hb, ?_, trivial⟩
  simp [booleanChecks, List.countP_append, h]

theorem assertEqual (x y : Expression p) : Adds (B.assertEqual x y) 0 fun _ => True := by
  refine assertProduct_other ?_
  rintro ⟨w, hw, -, h, -⟩
  have := congrArg (Expression.eval fun _ => (1 : Elem p)) h
  rw [Expression.eval_sub, Expression.eval_ofWire, Expression.eval_one rfl] at this
  simp at this

theorem product (x y : Expression p) : Adds (B.product x y) 0 fun _ => True := by
  unfold B.product
  split
  · exact pure trivial
  · split
    · exact pure trivial
    · refine wire.bind (l := 0) fun i hi => (assertProduct_other ?_).bind (l := 0) fun _ _ =>
        (generator _ _).bind (l := 0) fun _ _ => pure trivial
      rintro ⟨w, hw, -, -, h⟩
      have := congrArg (Expression.eval fun _ => (1 : Elem p)) h
      rw [Expression.eval_zero, Expression.eval_ofWire] at this
      exact absurd this (by simp)

theorem selection (c : BooleanExpression p) (x y : Expression p) :
    Adds (B.selection c x y) 0 fun _ => True :=
  (product _ _).bind (l := 0) fun _ _ => pure trivial

theorem booleanWire : Adds (B.booleanWire : B p BooleanWire) 1 fun _ => True := by
  unfold B.booleanWire B.assertBoolean
  refine (wire.bind (l := 1) fun i hi => ?_).congr (by ring)
  refine Adds.bind (k := 1) (l := 0) (Q := fun _ => True) ?_ fun _ _ => pure trivial
  exact (assertProduct_check ⟨i, hi, rfl, rfl, rfl⟩).bind (l := 0) fun _ _ => pure trivial

theorem createSwitch (a b : Expression p) : Adds (B.createSwitch a b) 1 fun _ => True :=
  booleanWire.bind (l := 0) fun _ _ => (selection _ _ _).bind (l := 0) fun _ _ => pure trivial

theorem assertPermutation2x2 (a b c d : Expression p) :
    Adds (B.assertPermutation2x2 a b c d) 1 fun _ => True :=
  (createSwitch _ _).bind (l := 0) fun _ _ => (assertEqual _ _).bind (l := 0) fun _ _ =>
    (assertEqual _ _).bind (l := 0) fun _ _ => generator _ _

theorem switchLayer : ∀ (k : ℕ) (xs : List (Expression p)), 2 * k ≤ xs.length →
    Adds (B.switchLayer k xs) k fun r => r.2.1.length = k ∧ r.2.2.length = k
  | 0, _, _ => pure ⟨rfl, rfl⟩
  | k + 1, [], h => absurd h (by simp)
  | k + 1, [_], h => absurd h (by simp; omega)
  | k + 1, x :: y :: rest, h =>
    ((createSwitch x y).bind fun _ _ =>
      (switchLayer k rest (by simp at h; omega)).bind (l := 0) fun _ h => pure
        ⟨by simp [h.1], by simp [h.2]⟩).congr (by ring)

theorem assertPermutationFuel (fuel : ℕ) : ∀ (a b : List (Expression p)), a.length ≤ fuel →
    a.length = b.length →
    Adds (B.assertPermutationFuel fuel a b) (switchSum a.length) fun _ => True := by
  induction fuel with
  | zero =>
    intro a b hl hlen
    unfold B.assertPermutationFuel
    have : a.length = 0 := by omega
    exact ((require hlen).bind (l := 0) fun _ _ => require this).congr (by rw [this]; rfl)
  | succ fuel ih =>
    intro a b hl hlen
    unfold B.assertPermutationFuel
    refine ((require hlen).bind fun _ _ => ?_).congr (zero_add _)
    split
    · exact pure trivial
    · exact (assertEqual _ _).congr (by simp [switchSum])
    · refine (assertPermutation2x2 _ _ _ _).congr ?_
      change 1 = switchSum 2
      simp [switchSum]
      decide +kernel
    · next hne0 hne1 hne2 =>
      have hn3 : 3 ≤ a.length := by
        match a, b, hlen, hne0, hne1, hne2 with
        | [], _, _, h, _, _ => exact absurd rfl h
        | [x], [y], _, _, h, _ => exact absurd rfl (h x y rfl)
        | [x, y], [z, w], _, _, _, h => exact absurd rfl (h x y z w rfl)
        | _ :: _ :: _ :: _, _, _, _, _, _ => simp
      dsimp only
      generalize hn : a.length = n at *
      refine Adds.congr (k := n / 2 + ((if n % 2 = 0 then n / 2 - 1 else n / 2) +
        ((switchSum (n / 2) + switchSum ((n + 1) / 2)) + 0))) ?_ ?_
      · refine (switchLayer _ a (by omega)).bind fun ra ⟨ha1, ha2⟩ =>
          (switchLayer _ b (by split <;> omega)).bind fun rb ⟨hb1, hb2⟩ =>
          Adds.bind (Q := fun _ => True) ?_ fun _ _ => generator _ _
        split
        · next he =>
          rw [if_pos he] at hb1 hb2
          obtain ⟨y1, hy1⟩ : ∃ y, b[n - 2]? = some y := ⟨_, List.getElem?_eq_getElem (by omega)⟩
          obtain ⟨y2, hy2⟩ : ∃ y, b[n - 1]? = some y := ⟨_, List.getElem?_eq_getElem (by omega)⟩
          refine ((ofOption hy1).bind fun z1 _ => (ofOption hy2).bind fun z2 _ =>
            (ih ra.2.1 (rb.2.1 ++ [z1]) (by omega) (by simp [ha1, hb1]; omega)).bind fun _ _ =>
              ih ra.2.2 (rb.2.2 ++ [z2]) (by omega) (by simp [ha2, hb2]; omega)).congr ?_
          rw [ha1, ha2, show (n + 1) / 2 = n / 2 by omega]
          ring
        · next ho =>
          rw [if_neg ho] at hb1 hb2
          obtain ⟨y1, hy1⟩ : ∃ y, a[n - 1]? = some y := ⟨_, List.getElem?_eq_getElem (by omega)⟩
          obtain ⟨y2, hy2⟩ : ∃ y, b[n - 1]? = some y := ⟨_, List.getElem?_eq_getElem (by omega)⟩
          have hk : ∀ z1 : Expression p, (ra.2.2 ++ [z1]).length = (n + 1) / 2 := by
            intro z1; simp [ha2]; omega
          refine ((ofOption hy1).bind fun z1 _ => (ofOption hy2).bind fun z2 _ =>
            (ih ra.2.1 rb.2.1 (by omega) (by simp [ha1, hb1])).bind (l := switchSum ((n + 1) / 2))
            fun _ _ =>
              (ih (ra.2.2 ++ [z1]) (rb.2.2 ++ [z2]) (by rw [hk]; omega)
                (by simp [ha2, hb2])).congr (by rw [hk])).congr ?_
          rw [ha1]
          ring
      · rw [switchSum_rec (by omega : 1 ≤ n)]
        split <;> omega

end Adds

end R1CS
