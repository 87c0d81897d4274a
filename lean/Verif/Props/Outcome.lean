import Verif.Lemmas.OutcomeCircuit
import Verif.Props.Language

/-!
# C88: how executions of circuits end
-/

set_option linter.unusedSectionVars false

namespace R1CS

variable {p : ℕ} [hp : Fact p.Prime]

open Language Circuit

/-- C88: the executions which return `true` are those of C87. -/
theorem C88_meaning (c : Circuit p) (xs : List (Elem p)) (ys : List (Val p)) :
    c.meaning xs = some ys ↔ c.outcome xs = some (ys, true) := by
  unfold meaning outcome
  generalize xs.map Val.elem = vs
  induction c generalizing vs with
  | nil => simp [meaningFrom, outcomeFrom]
  | cons i c ih =>
    have hstep : ∀ rs, stepMeaning i vs = some rs ↔ stepOutcome i vs = some (rs, true) := by
      intro rs
      unfold stepMeaning stepOutcome
      cases i.2.mapM fun j => vs[j]? with
      | none => simp
      | some as =>
        simp only [Option.bind_eq_bind, Option.bind_some, Option.bind_eq_some_iff]
        constructor
        · rintro ⟨r, h1, h2⟩
          exact ⟨(r, true), (Op.meaning_iff _ _ _).1 h1, by cases h2; rfl⟩
        · rintro ⟨⟨r, ok⟩, h1, h2⟩
          have h2 : vs ++ r = rs ∧ ok = true := by simpa using h2
          obtain ⟨rfl, rfl⟩ := h2
          exact ⟨r, (Op.meaning_iff _ _ _).2 h1, rfl⟩
    unfold meaningFrom outcomeFrom
    simp only [Option.bind_eq_bind, Option.bind_eq_some_iff]
    constructor
    · rintro ⟨r, h1, h2⟩
      exact ⟨(r, true), (hstep r).1 h1, (ys, true), (ih r).1 h2, rfl⟩
    · rintro ⟨⟨r, ok⟩, h1, ⟨r', ok'⟩, h2, h3⟩
      have h3 : r' = ys ∧ ok = true ∧ ok' = true := by simpa using h3
      obtain ⟨rfl, rfl, rfl⟩ := h3
      exact ⟨r, (hstep r).2 h1, (ih r).2 h2⟩

/-- What an execution leaves behind: values for all wires of the circuit and no others. -/
theorem Circuit.returns (h4 : 4 ≤ Elem.maxBits p) (c : Circuit p) (xs : List (Elem p))
    {ys : List (Val p)} {ok : Bool} (h : c.outcome xs = some (ys, ok)) :
    ∃ os b v', c.build xs.length Builder.new = some (os, b) ∧
      b.build.execute (inputs xs) = some (v', ok) ∧
      (∀ i x, inputs xs i = some x → v' i = some x) ∧ MeansAll v'.total os ys ∧
      (∀ i < b.nextWireIndex, (v' i).isSome = true) ∧ (∀ i, b.nextWireIndex ≤ i → v' i = none) ∧
      ∀ o ∈ os, o.Scoped b.nextWireIndex := by
  have hone : (inputs xs).total ONE = 1 := by simp [WireValues.total, inputs]
  let s : Run p := Run.free (1 + xs.length) (by omega) (inputs xs).total hone
  have hW : (List.range' 1 xs.length).map (inputs xs).total = xs :=
    range_map xs _ fun i hi => by simp [WireValues.total, inputs, ONE, hi]
  have hm := inputs_meaning (W := (inputs xs).total) hone (List.range' 1 xs.length)
  rw [hW] at hm
  obtain ⟨os, t, h1, h2, h3, h5, h6, h7⟩ := does_runFrom (s := s) (fun o => o.ends h4)
    (inputs_scoped xs.length) hm h
  have hin : t.Inputs (inputs xs) := by
    have hD : t.D = List.range' 1 xs.length := by
      rw [h3]
      show List.range' 1 (1 + xs.length - 1) = _
      rw [Nat.add_sub_cancel_left]
    refine ⟨by simp [inputs], fun i hi => ?_, fun i _ h0 hi => ?_⟩
    · rw [hD, List.mem_range'_1] at hi
      rw [h2.2 i (show i < 1 + xs.length by omega)]
      show _ = some ((inputs xs).total i)
      have : i ≠ ONE := by unfold ONE; omega
      simp [WireValues.total, inputs, this, show i - 1 < xs.length by omega]
    · rw [hD, List.mem_range'_1] at hi
      unfold inputs
      rw [if_neg h0, List.getElem?_eq_none]
      unfold ONE at h0
      omega
  obtain ⟨v', ok', e1, e2, e3, e4⟩ := t.executes_exactly hin
  have hok : ok' = ok := by
    rw [Bool.eq_iff_iff, e2, h7]
    exact ⟨fun h => h.2, fun h => ⟨Run.free_holds, h⟩⟩
  subst hok
  have hb : c.build xs.length Builder.new = some (os, t.b) := build_run.trans h1
  refine ⟨os, t.b, v', hb, e1, fun i x hx => ?_, h6.congr (fun i hi => ?_) h5,
    fun i hi => by rw [e3 i hi]; rfl, fun i hi => ?_, h5⟩
  · exact C22_library ((Tidy.wires _).bind fun _ => tidy_runFrom (fun i _ => i.1.tidy h4) _) hb e1 hx
  · simp [WireValues.total, e3 i hi]
  · rw [e4 i hi]
    have : 1 + xs.length ≤ i := le_trans h2.1 hi
    unfold inputs
    rw [if_neg (by unfold ONE; omega), List.getElem?_eq_none (by omega)]

/-- C88: if the outcome is no panic, the circuit can be built, its execution on the inputs returns,
says whether all assertions hold, and calculates the values of all objects in either case. -/
theorem C88_returns (h4 : 4 ≤ Elem.maxBits p) (c : Circuit p) (xs : List (Elem p))
    {ys : List (Val p)} {ok : Bool} (h : c.outcome xs = some (ys, ok)) :
    ∃ os b v', c.build xs.length Builder.new = some (os, b) ∧
      b.build.execute (inputs xs) = some (v', ok) ∧
      (∀ i x, inputs xs i = some x → v' i = some x) ∧ MeansAll v'.total os ys := by
  obtain ⟨os, b, v', h1, h2, h3, h4, _⟩ := Circuit.returns h4 c xs h
  exact ⟨os, b, v', h1, h2, h3, h4⟩

/-- C88: if the outcome is a panic, the circuit cannot be built or its execution on the inputs does
not return. -/
theorem C88_panics (h4 : 4 ≤ Elem.maxBits p) (c : Circuit p) (hc : c.NoCast) (xs : List (Elem p))
    (h : c.outcome xs = none) {os : List (Obj p)} {b : Builder p}
    (hb : c.build xs.length Builder.new = some (os, b)) : b.build.execute (inputs xs) = none := by
  cases hex : b.build.execute (inputs xs) with
  | none => rfl
  | some r =>
    exfalso
    obtain ⟨v', ok⟩ := r
    have hpre : Tidy (do
        let ws ← B.wires xs.length
        return (ws.map fun w => (Obj.expr (Expression.ofWire w) : Obj p)) : B p (List (Obj p))) :=
      (Tidy.wires _).bind fun _ => Tidy.pure _
    have hkeep : ∀ {i x}, inputs xs i = some x → v' i = some x := fun hx =>
      C22_library ((Tidy.wires _).bind fun _ => tidy_runFrom (fun i _ => i.1.tidy h4) _) hb hex hx
    have hone : v'.total ONE = 1 := by
      simp [WireValues.total, hkeep (i := ONE) (x := 1) (by simp [inputs])]
    have hm := inputs_meaning (W := v'.total) hone (List.range' 1 xs.length)
    rw [range_map xs _ fun i hi => by
      simp [WireValues.total, hkeep (i := i + 1) (x := xs[i]) (by simp [inputs, ONE, hi])]] at hm
    have hw : (do
        let ws ← B.wires xs.length
        return (ws.map fun w => (Obj.expr (Expression.ofWire w) : Obj p)) : B p _) Builder.new
        = some ((List.range' 1 xs.length).map fun w => .expr (Expression.ofWire w),
          ⟨1 + xs.length, [], []⟩) := by
      rw [B.bind_eq (Enforces.wires_run xs.length Builder.new)]; rfl
    have := returns_runFrom (fun o => o.ends h4) (fun o => o.tidy h4) c
      (fun i hi => i.1.safe h4 (hc i hi)) hpre hw (build_run.symm.trans hb) (inputs_scoped _)
      (by simp [inputs]) (fun i hi _ => by
        have hi : 1 + xs.length ≤ i := hi
        unfold inputs
        rw [if_neg (by unfold ONE; omega), List.getElem?_eq_none (by omega)]) hex hm
    unfold Circuit.outcome at h
    rw [h] at this
    cases this

/-- C88: so the three ways in which an execution can end are told apart by the outcome. -/
theorem C88_outcome (h4 : 4 ≤ Elem.maxBits p) (c : Circuit p) (hc : c.NoCast)
    (xs : List (Elem p)) :
    ((c.build xs.length Builder.new).bind fun r =>
      (r.2.build.execute (inputs xs)).map fun e => e.2) = (c.outcome xs).map fun e => e.2 := by
  cases h : c.outcome xs with
  | none =>
    cases hb : c.build xs.length Builder.new with
    | none => rfl
    | some r =>
      show Option.map _ (r.2.build.execute (inputs xs)) = _
      rw [C88_panics h4 c hc xs h hb]
      rfl
  | some r =>
    obtain ⟨os, b, v', h1, h2, _⟩ := C88_returns h4 c xs (ys := r.1) (ok := r.2) h
    rw [h1]
    show Option.map _ (b.build.execute (inputs xs)) = _
    rw [h2]
    rfl

/-! ## Examples -/

/-- Two inputs `x` and `y`; `x / y`; `x ≤ y` is required; the digits of the quotient, of which there
must not be more than three; and `x * x`. -/
def endingCode : Circuit 13 :=
  [(.quotient, [0, 1]), (.assertLe, [0, 1]), (.splitBounded 3, [2]), (.product, [0, 0])]

example : 4 ≤ Elem.maxBits 13 := by decide +kernel
example : endingCode.NoCast := by
  intro i hi
  simp only [endingCode, List.mem_cons, List.not_mem_nil, or_false] at hi
  rcases hi with rfl | rfl | rfl | rfl <;> rfl

/-- Accepted. -/
example : endingCode.outcome [2, 7] = some ([.elem 2, .elem 7, .elem 4,
    .bits [false, false, true], .elem 4], true) := by decide +kernel
/-- Rejected, but everything is calculated. -/
example : endingCode.outcome [8, 2] = some ([.elem 8, .elem 2, .elem 4,
    .bits [false, false, true], .elem 12], false) := by decide +kernel
/-- A panic: division by zero. -/
example : endingCode.outcome [8, 0] = none := by decide +kernel
/-- A panic: ten does not fit into three digits. -/
example : endingCode.outcome [2, 8] = none := by decide +kernel

/-- A failing comparison of digits makes the execution return `false`, and the rest is calculated. -/
example : digitsCode.outcome [5, 5] = some ([.elem 5, .elem 5, .bits [true, false, true, false],
    .bits [true, false, true, false], .bool true, .elem 5], false) := by decide +kernel

end R1CS
