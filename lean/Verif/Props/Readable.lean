import Verif.Props.Passes
import Verif.Props.Strict

/-!
# C107, continued: nothing is missing after an execution

Code which calls `assert_boolean` may go on with a boolean expression which is neither 0 nor 1, and then nothing
is known about the values calculated from it.  Even so an execution which returns has values for all wires which
the objects of the code mention.
-/

set_option linter.unusedSectionVars false

namespace R1CS

variable {p : ℕ} [hp : Fact p.Prime]

open Circuit

namespace Readable

/-- All wires which the objects mention have values. -/
theorem over {c : Circuit p} {d : ℕ} (hc : c.Timed d) {k : ℕ} {os : List (Obj p)}
    {b : Builder p} (hb : c.build k Builder.new = some (os, b)) {v v' : WireValues p} {ok : Bool}
    (hv : ∀ i ≤ k, (v i).isSome) (he : b.build.execute v = some (v', ok)) :
    ∀ o ∈ os, o.Over {i | (v' i).isSome} := by
  obtain ⟨A, h1, h2, _, h4⟩ := Passes.build hc hb hv
  obtain ⟨σ, hσ, hrun⟩ := C21_exactly_once _ v v' ok he
  have hb' : b.build.witnessGenerators = A.map (·.gen) := h1
  rw [hb'] at hσ
  have hk : ∀ g ∈ σ, KeepsValues g.generate := by
    intro g hg
    obtain ⟨e, he, rfl⟩ := List.mem_map.1 (hσ.mem_iff.1 hg)
    exact (h2 e he).1.1
  intro o ho
  refine (h4 o ho).mono fun i hi => ?_
  rcases hi with hi | ⟨f, hf, _, hi⟩
  · obtain ⟨x, hx⟩ := Option.isSome_iff_exists.1 (show (v i).isSome = true from hi)
    show (v' i).isSome = true
    rw [hrun.mono hk i x hx]
    rfl
  · obtain ⟨σ1, σ2, u, u', _, r2, r3, e⟩ := hrun.at (hσ.mem_iff.2 (List.mem_map.2 ⟨f, hf, rfl⟩))
    obtain ⟨x, hx⟩ := Option.isSome_iff_exists.1 ((h2 f hf).1.2 u u' r2 i hi)
    show (v' i).isSome = true
    rw [r3.mono (fun g hg => hk g (by rw [e]; simp [hg])) i x hx]
    rfl

theorem bool {v : WireValues p} {e : BooleanExpression p} (h : e.expression.Over {i | (v i).isSome}) :
    ∃ x, e.expression.evaluate v = some x ∧ (e.evaluate v = none ↔ x ≠ 0 ∧ x ≠ 1) := by
  have hx : e.expression.evaluate v = some (e.expression.eval v.total) :=
    Expression.evaluate_eq_some_iff.2 ⟨h, rfl⟩
  refine ⟨_, hx, ?_⟩
  unfold BooleanExpression.evaluate
  rw [hx]
  generalize e.expression.eval v.total = x
  simp only [Option.bind_eq_bind, Option.bind_some, Elem.isZero_eq, Elem.isOne_eq]
  by_cases h0 : x = 0
  · simp [h0]
  · by_cases h1 : x = 1
    · simp [h1]
    · simp [h0, h1]

end Readable

/-- C107, for all code, also with `assert_boolean`, and on all values with the constant and the inputs among them:
an execution which returns, `true` or `false`, has given values to all wires which the objects of the code mention.
So `evaluate` returns for every expression, and for a boolean expression or a digit it panics exactly if its value is
neither 0 nor 1. -/
theorem C107_readable {c : Circuit p} {d : ℕ} (hc : c.Timed d) {k : ℕ} {os : List (Obj p)}
    {b : Builder p} (hb : c.build k Builder.new = some (os, b)) {v v' : WireValues p} {ok : Bool}
    (hv : ∀ i ≤ k, (v i).isSome) (he : b.build.execute v = some (v', ok)) :
    (∀ e, .expr e ∈ os → (e.evaluate v').isSome) ∧
    (∀ e, .bool e ∈ os → ∃ x, e.expression.evaluate v' = some x ∧
      (e.evaluate v' = none ↔ x ≠ 0 ∧ x ≠ 1)) ∧
    ∀ e, .bin e ∈ os → ∀ t ∈ e.bits, ∃ x, t.expression.evaluate v' = some x ∧
      (t.evaluate v' = none ↔ x ≠ 0 ∧ x ≠ 1) := by
  have h := Readable.over hc hb hv he
  refine ⟨fun e ho => ?_, fun e ho => Readable.bool (h _ ho), fun e ho t ht => Readable.bool (h _ ho t ht)⟩
  rw [Expression.evaluate_eq_some_iff.2 ⟨h _ ho, rfl⟩]
  rfl

/-- Code which casts its input to a boolean and selects by it. -/
def castCode : Circuit 11 := [(.assertBoolean, [0]), (.select, [3, 1, 2])]

example : castCode.Timed 0 := by
  intro i hi
  simp only [castCode, List.mem_cons, List.not_mem_nil, or_false] at hi
  rcases hi with rfl | rfl <;> exact ⟨le_rfl, trivial⟩

/-- The inputs 2, 7 and 5: the execution returns `false`, the boolean expression cannot be read, and the selection
(5 + 2 * (7 - 5)) can. -/
example : ((castCode.build 3 Builder.new).bind fun r =>
    (r.2.build.execute (inputs [2, 7, 5])).map fun e => (e.2, r.1.map fun o => match o with
      | .expr x => x.evaluate e.1
      | .bool c => (c.evaluate e.1).map Elem.ofBool
      | .bin _ => none)) =
    some (false, [some 2, some 7, some 5, none, some 9]) := by decide +kernel

/-- So C88 says nothing about this execution. -/
example : castCode.outcome [2, 7, 5] = none := by decide +kernel

end R1CS
