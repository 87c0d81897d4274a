import Verif.Lemmas.RigidNetwork
import Verif.Lemmas.Strict

/-!
# The recursion of `assert_permutation` without a bound
-/

namespace R1CS

variable {p : ℕ} [hp : Fact p.Prime]

namespace Loop

omit hp in
theorem bind_congr_run {α β : Type} {m : B p α} {f g : α → B p β} {b : Builder p}
    (h : ∀ r b', m b = some (r, b') → f r b' = g r b') : (m >>= f) b = (m >>= g) b := by
  show (m b).bind _ = (m b).bind _
  cases hm : m b with
  | none => rfl
  | some q => exact h q.1 q.2 hm

theorem switchLayer_length1 : ∀ (k : ℕ) (xs : List (Expression p)) {b b' : Builder p}
    {r : List BooleanWire × List (Expression p) × List (Expression p)},
    B.switchLayer k xs b = some (r, b') → r.2.1.length = k
  | 0, xs, b, b', r, h => by
    unfold B.switchLayer at h
    obtain ⟨rfl, _⟩ := Prod.ext_iff.1 (Option.some.inj h)
    rfl
  | k + 1, x :: y :: rest, b, b', r, h => by
    unfold B.switchLayer at h
    obtain ⟨r1, b1, _, h⟩ := B.bind_run h
    obtain ⟨r2, b2, h2, h⟩ := B.bind_run h
    obtain ⟨rfl, _⟩ := Prod.ext_iff.1 (Option.some.inj h)
    simp [switchLayer_length1 k rest h2]
  | k + 1, [], b, b', r, h => by
    unfold B.switchLayer at h
    exact absurd h (by simp [B.panic])
  | k + 1, [x], b, b', r, h => by
    unfold B.switchLayer at h
    exact absurd h (by simp [B.panic])

/-- A bound of at least the length changes nothing. -/
theorem fuel_enough : ∀ (n : ℕ) (a b : List (Expression p)), a.length ≤ n →
    B.assertPermutationFuel n a b = B.assertPermutation a b := by
  intro n
  induction n using Nat.strong_induction_on with
  | _ n ih =>
    intro a b hl
    unfold B.assertPermutation
    by_cases h3 : 3 ≤ a.length
    · obtain ⟨k, hk⟩ : ∃ k, a.length = k + 1 := ⟨a.length - 1, by omega⟩
      obtain ⟨n, rfl⟩ : ∃ m, n = m + 1 := ⟨n - 1, by omega⟩
      rw [assertPermutationFuel_eq h3]
      conv_rhs => rw [hk, assertPermutationFuel_eq h3]
      funext s
      refine bind_congr_run fun _ s1 _ => bind_congr_run fun r s2 hr => ?_
      have hc : children n a b r = children k a b r := by
        unfold layers at hr
        obtain ⟨ra, c2, ka, hr⟩ := B.bind_run hr
        obtain ⟨rb, c3, kb, hr⟩ := B.bind_run hr
        obtain ⟨rfl, rfl⟩ := Prod.ext_iff.1 (Option.some.inj hr)
        have l1 := switchLayer_length1 _ _ ka
        have l2 := Insists.switchLayer_length _ _ ka
        have e : ∀ x y : List (Expression p), x.length ≤ k →
            B.assertPermutationFuel n x y = B.assertPermutationFuel k x y := fun x y h => by
          rw [ih n (by omega) x y (by omega), ih k (by omega) x y h]
        unfold children
        split
        · congr 1; funext b1; congr 1; funext b2
          rw [e _ _ (by dsimp only; omega), e _ _ (by dsimp only; omega)]
        · congr 1; funext b1; congr 1; funext b2
          rw [e _ _ (by dsimp only; omega), e _ _ (by simp; omega)]
      rw [hc]
    · match a, n, hl, h3 with
      | [], 0, _, _ => rfl
      | [], n + 1, _, _ =>
        rw [B.assertPermutationFuel.eq_def]
        dsimp only
        rw [B.assertPermutationFuel.eq_def]
        dsimp only
        funext s
        refine bind_congr_run fun _ s1 _ => ?_
        rfl
      | [x], n + 1, _, _ => simp only [List.length_cons, List.length_nil]; cases b with
        | nil => funext s; rfl
        | cons y ys => cases ys <;> first | rfl | (funext s; rfl)
      | [x, y], n + 1, _, _ =>
        simp only [List.length_cons, List.length_nil]
        match b with
        | [] => funext s; rfl
        | [z] => funext s; rfl
        | [z, w] => rfl
        | z :: w :: u :: l => funext s; rfl
      | x :: y :: z :: l, _, _, h => simp at h

end Loop

end R1CS
