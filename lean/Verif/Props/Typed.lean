import Verif.Spec.Typed
import Verif.Props.Outcome
import Verif.Props.Admission
import Verif.Props.Binary

/-!
# C107: boolean and binary expressions respect their types, and results can be read
-/

set_option linter.unusedSectionVars false

namespace R1CS

variable {p : ℕ} [hp : Fact p.Prime]

open Circuit

namespace Typed

theorem wellTyped {W : Assign p} : ∀ {o : Obj p} {y : Val p}, Means W o y → o.WellTyped W
  | .expr _, _, _ => trivial
  | .bool e, .bool b, h => by
    have h : e.eval W = Elem.ofBool b := h
    show e.eval W = 0 ∨ e.eval W = 1
    rw [h]
    exact isBool_ofBool b
  | .bin e, .bits l, h => by
    intro b hb
    have h : (e.bits.map fun b => b.eval W) = l.map Elem.ofBool := h
    have : b.eval W ∈ l.map Elem.ofBool := h ▸ List.mem_map.2 ⟨b, hb, rfl⟩
    obtain ⟨t, _, ht⟩ := List.mem_map.1 this
    rw [← ht]
    exact isBool_ofBool t
  | .bool _, .elem _, h => h.elim
  | .bool _, .bits _, h => h.elim
  | .bin _, .elem _, h => h.elim
  | .bin _, .bool _, h => h.elim

theorem total_eq {v : WireValues p} {i : Wire} (h : (v i).isSome = true) : v i = some (v.total i) := by
  obtain ⟨x, hx⟩ := Option.isSome_iff_exists.1 h
  simp [WireValues.total, hx]

theorem ofBool_one (b : Bool) : decide ((Elem.ofBool b : Elem p) = 1) = b := by
  cases b
  · simp [Elem.ofBool_false]
  · simp [Elem.ofBool_true]

theorem evaluate_bool {v : WireValues p} {n : ℕ} (hv : ∀ i < n, (v i).isSome = true) {e : BooleanExpression p}
    {b : Bool} (hs : e.Scoped n) (h : e.eval v.total = Elem.ofBool b) : e.evaluate v = some b := by
  rw [BooleanExpression.evaluate_eq (w := v.total) (fun i hi => total_eq (hv i (hs i hi)))
    (h ▸ isBool_ofBool b), h, ofBool_one]

theorem reads {v : WireValues p} {n : ℕ} (hv : ∀ i < n, (v i).isSome = true) :
    ∀ {o : Obj p} {y : Val p}, o.Scoped n → Means v.total o y → ReadsAs v o y
  | .expr e, .elem x, hs, h => by
    have h : e.eval v.total = x := h
    show e.evaluate v = some x
    rw [Expression.evaluate_eq (w := v.total) fun i hi => total_eq (hv i (hs i hi)), h]
  | .bool e, .bool b, hs, h => evaluate_bool hv hs h
  | .bin e, .bits l, hs, h => by
    have h : (e.bits.map fun b => b.eval v.total) = l.map Elem.ofBool := h
    have hb : ∀ (bs : List (BooleanExpression p)) (l : List Bool),
        (bs.map fun b => b.eval v.total) = l.map Elem.ofBool → (∀ b ∈ bs, b.Scoped n) →
        (bs.map fun b => b.evaluate v) = l.map some := by
      intro bs l h hs
      induction bs generalizing l with
      | nil => cases l with
        | nil => rfl
        | cons _ _ => cases h
      | cons b bs ih => cases l with
        | nil => cases h
        | cons t l =>
          obtain ⟨h1, h2⟩ := List.cons.inj h
          rw [List.map_cons, List.map_cons, evaluate_bool hv (hs b (by simp)) h1,
            ih l h2 fun b hb => hs b (by simp [hb])]
    replace hb := hb e.bits l h hs
    refine ⟨?_, hb⟩
    show BinaryExpression.evaluateFrom v 0 0 e.bits = _
    rw [evaluateFrom_eq e.bits 0 0 l hb, digitsVal_eq_ofDigits]
    simp
  | .expr _, .bool _, _, h => h.elim
  | .expr _, .bits _, _, h => h.elim
  | .bool _, .elem _, _, h => h.elim
  | .bool _, .bits _, _, h => h.elim
  | .bin _, .elem _, _, h => h.elim
  | .bin _, .bool _, _, h => h.elim

theorem forall₂ {α β : Type} {R S : α → β → Prop} : ∀ {as : List α} {bs : List β}, List.Forall₂ R as bs →
    (∀ a ∈ as, ∀ b, R a b → S a b) → List.Forall₂ S as bs
  | _, _, .nil, _ => .nil
  | _, _, .cons h hs, f => .cons (f _ (by simp) _ h) (forall₂ hs fun a ha b => f a (by simp [ha]) b)

theorem forall₂_left {α β : Type} {R : α → β → Prop} {P : α → Prop} (f : ∀ a b, R a b → P a) :
    ∀ {as : List α} {bs : List β}, List.Forall₂ R as bs → ∀ a ∈ as, P a
  | _, _, .cons h hs, a, ha => by
    rcases List.mem_cons.1 ha with rfl | ha
    · exact f _ _ h
    · exact forall₂_left f hs a ha

end Typed

open Typed

/-- C107: in every assignment satisfying the constraints of a circuit, whatever gadgets it uses and whatever
the inputs are, all boolean expressions are 0 or 1, and so are all digits of binary expressions. -/
theorem C107_typed (h4 : 4 ≤ Elem.maxBits p) (c : Circuit p) (k : ℕ) {os : List (Obj p)} {b : Builder p}
    (hb : c.build k Builder.new = some (os, b)) {W : Assign p} (hW : Satisfies W b.constraints) :
    ∀ o ∈ os, o.WellTyped W := by
  obtain ⟨ys, _, h⟩ := C94_every h4 c k hb hW
  exact forall₂_left (R := Means W) (fun _ _ h => wellTyped h) h

/-- C107: an execution which returns, `true` or `false`, has given values to the wires of the circuit and no
others, and `evaluate` of each object the code got returns the value calculated: it does not panic. -/
theorem C107_evaluate (h4 : 4 ≤ Elem.maxBits p) (c : Circuit p) (xs : List (Elem p)) {ys : List (Val p)}
    {ok : Bool} (h : c.outcome xs = some (ys, ok)) :
    ∃ os b v', c.build xs.length Builder.new = some (os, b) ∧
      b.build.execute (inputs xs) = some (v', ok) ∧
      (∀ i, (v' i).isSome = true ↔ i < b.nextWireIndex) ∧ List.Forall₂ (ReadsAs v') os ys := by
  obtain ⟨os, b, v', h1, h2, _, h5, h6, h7, h8⟩ := Circuit.returns h4 c xs h
  refine ⟨os, b, v', h1, h2, fun i => ⟨fun hi => ?_, h6 i⟩, forall₂ h5 fun o ho y hy => reads h6 (h8 o ho) hy⟩
  by_contra hn
  rw [h7 i (by omega)] at hi
  cases hi

/-- C107: for accepted executions nothing needs to be known about the code. -/
theorem C107_accepted (h4 : 4 ≤ Elem.maxBits p) (c : Circuit p) (xs : List (Elem p)) {os : List (Obj p)}
    {b : Builder p} (hb : c.build xs.length Builder.new = some (os, b)) {v' : WireValues p}
    (hex : b.build.execute (inputs xs) = some (v', true)) :
    (∀ i, (v' i).isSome = true ↔ i < b.nextWireIndex) ∧
      ∃ ys, c.meaning xs = some ys ∧ List.Forall₂ (ReadsAs v') os ys := by
  obtain ⟨ys, hm, _⟩ := C87_accepts h4 c xs hb hex
  obtain ⟨os', b', v'', h1, h2, h3, h5⟩ := C107_evaluate h4 c xs ((C88_meaning c xs ys).1 hm)
  rw [hb] at h1
  obtain ⟨rfl, rfl⟩ := Prod.mk.inj (Option.some.inj h1)
  rw [hex] at h2
  obtain ⟨rfl, _⟩ := Prod.mk.inj (Option.some.inj h2)
  exact ⟨h3, ys, hm, h5⟩

/-- C107: only a rejected `assert_boolean` leaves a boolean expression which is none: the execution returns `false`,
and `evaluate` panics. -/
theorem C107_cast (x : Elem p) (hx : x ≠ 0 ∧ x ≠ 1) :
    ∃ (e : BooleanExpression p) (os : List (Obj p)) (b : Builder p),
      Circuit.build 1 ([(.assertBoolean, [0])] : Circuit p) Builder.new = some (os ++ [.bool e], b) ∧
      b.build.execute (inputs [x]) = some (inputs [x], false) ∧ e.evaluate (inputs [x]) = none := by
  have hw : ∀ i ∈ (Expression.ofWire 1 : Expression p).dependencies, inputs [x] i = some ((inputs [x]).total i) := by
    intro i hi
    rw [Expression.dependencies_ofWire] at hi
    rw [List.mem_singleton.1 hi]
    rfl
  have he : (Expression.ofWire 1 : Expression p).evaluate (inputs [x]) = some x := by
    rw [Expression.evaluate_eq hw, Expression.eval_ofWire]
    rfl
  refine ⟨⟨Expression.ofWire 1⟩, [.expr (Expression.ofWire 1)],
    ⟨2, [⟨Expression.ofWire 1, Expression.ofWire 1 - 1, 0⟩], []⟩, rfl, ?_, ?_⟩
  · obtain ⟨ok, h1, h2⟩ := Run.checkAll (W := (inputs [x]).total) (v := inputs [x]) (n := 2)
      (fun i hi => by obtain rfl | rfl : i = 0 ∨ i = 1 := by omega
                      · rfl
                      · rfl)
      [⟨Expression.ofWire 1, Expression.ofWire 1 - 1, (0 : Expression p)⟩] (by
        intro c hc
        rw [List.mem_singleton.1 hc]
        exact ⟨.ofWire (by omega), .sub (.ofWire (by omega)) (.one (by omega)), .zero⟩)
    have hok : ok = false := by
      rw [Bool.eq_false_iff]
      intro h
      have h3 : (Expression.ofWire 1 : Expression p).eval (inputs [x]).total *
          (Expression.ofWire 1 - 1 : Expression p).eval (inputs [x]).total =
          (0 : Expression p).eval (inputs [x]).total := h2.1 h _ (List.mem_singleton.2 rfl)
      rw [Expression.eval_sub, Expression.eval_zero, Expression.eval_one rfl, Expression.eval_ofWire] at h3
      rcases (isBool_iff ((inputs [x]).total 1)).2 h3 with h | h
      · exact hx.1 h
      · exact hx.2 h
    show (do
      let ok ← Gadget.checkAll [⟨Expression.ofWire 1, Expression.ofWire 1 - 1, (0 : Expression p)⟩] (inputs [x])
      return (inputs [x], ok)) = _
    rw [h1, hok]
    rfl
  · show (do
      let y ← (Expression.ofWire 1 : Expression p).evaluate (inputs [x])
      if y.isZero then return Bool.false
      else if y.isOne then return Bool.true
      else none) = none
    rw [he]
    simp [Elem.isZero_iff, Elem.isOne_iff, hx.1, hx.2]

/-! ## Examples -/

/-- Split a number, compare it with another, and keep the truth value. -/
abbrev typedCode : Circuit 13 := [(.split, [0]), (.lt, [0, 1]), (.not, [3]), (.assertTrue, [4])]

/-- Accepted and rejected; in both cases the values can be read. -/
example : typedCode.outcome [6, 3] =
    some ([.elem 6, .elem 3, .bits [false, true, true, false], .bool false, .bool true], true) := by decide +kernel
example : typedCode.outcome [3, 6] =
    some ([.elem 3, .elem 6, .bits [true, true, false, false], .bool true, .bool false], false) := by decide +kernel
example : (typedCode.build 2 Builder.new).isSome = true := by decide +kernel

/-- What `evaluate` returns for the objects. -/
example : ((typedCode.build 2 Builder.new).bind fun t => (t.2.build.execute (inputs [3, 6])).map fun e =>
    t.1.map fun o => match o with
      | .expr f => (f.evaluate e.1).map (·.n)
      | .bool f => (f.evaluate e.1).map Bool.toNat
      | .bin f => f.evaluate e.1) = some [some 3, some 6, some 3, some 1, some 0] := by decide +kernel

example : (2 : Elem 13) ≠ 0 ∧ (2 : Elem 13) ≠ 1 := by decide +kernel

end R1CS
