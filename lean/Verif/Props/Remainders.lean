import Verif.Props.Arithmetic
import Verif.Props.Field

/-!
# C05 below 2 in every field; C26: executions of `quotient`
-/

namespace R1CS

variable {p : ℕ} [hp : Fact p.Prime] {α : Type}

/-- C05, exactly what happens below 2, whichever the field: 0 and 1 are reported to be prime, except that
`is_prime` panics over the field of order 2, and on 1 over the field of order 3, where the divisor becomes 0. -/
theorem C05_below_two_partial (x : Elem p) (hx : x.n ≤ 1) :
    x.isPrime = if p = 2 ∨ p = 3 ∧ x.n = 1 then none else some true := by
  by_cases h5 : 5 ≤ p
  · rw [C05_zero_one_refuted h5 x hx, if_neg (by omega)]
  · have h2 := hp.out.two_le
    have h4 : p ≠ 4 := fun h => absurd (h ▸ hp.out) (by decide)
    obtain rfl | rfl : p = 2 ∨ p = 3 := by omega
    · rw [if_pos (Or.inl rfl)]
      rfl
    · obtain ⟨n, hn⟩ := x
      obtain rfl | rfl : n = 0 ∨ n = 1 := by simp only at hx; omega
      · rfl
      · rw [if_pos (Or.inr ⟨rfl, rfl⟩)]
        have key : @Elem.isPrime 3 ⟨Nat.prime_three⟩ ⟨1, by norm_num⟩ = none := by decide
        exact key

example : (⟨1, by norm_num⟩ : Elem 3).isPrime = none ∧ (⟨0, by norm_num⟩ : Elem 3).isPrime = some true :=
  ⟨by rw [C05_below_two_partial _ (by norm_num)]; rfl, by rw [C05_below_two_partial _ (by norm_num)]; rfl⟩

/-- C26: an execution never returns with a zero divisor of `quotient`: it panics.  (Over the field of order 2
it always panics.)  `b` is any builder state, `k` any later program. -/
theorem C26_quotient_panics (x y : Expression p) {b b1 b2 : Builder p} {z : Expression p}
    (hb : ∀ g ∈ b.witnessGenerators, KeepsValues g.generate) (h1 : B.quotient x y b = some (z, b1))
    {k : B p α} {a : α} (hk : Prog k) (h2 : k b1 = some (a, b2)) {v v' : WireValues p} {ok : Bool}
    (h : b2.build.execute v = some (v', ok)) : y.eval v'.total ≠ 0 ∧ 2 < p := by
  obtain ⟨i, b0, h3, h4⟩ := B.bind_run h1
  exact C26_inverse_panics y hb h3 ((Prog.product x i).bind fun _ => hk)
    (by rw [B.bind_eq h4, h2]) h

/-- Dividing 3 by the wire 1 over the field of order 7 panics if the wire is 0. -/
example {v v' : WireValues 7} {ok : Bool} {b : Builder 7} {z : Expression 7}
    (h1 : B.quotient (Expression.ofElem 3) (Expression.ofWire 1) { (Builder.new : Builder 7) with
      nextWireIndex := 2 } = some (z, b)) (h : b.build.execute v = some (v', ok)) : v'.total 1 ≠ 0 := by
  have := (C26_quotient_panics _ _ (by intro g hg; cases hg) h1 (Prog.pure ()) rfl h).1
  rwa [Expression.eval_ofWire] at this

end R1CS
