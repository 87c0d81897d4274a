import Verif.Lemmas.LanguageMore

/-!
# C87: circuits calculate what their code says

Straight-line code calling the gadgets of the crate (`Spec/Language.lean`) means a calculation with
numbers, truth values and digits.  Building and executing the circuit performs that calculation, and
for code from gadgets which pin down their results the constraints admit nothing else.
-/

set_option linter.unusedSectionVars false

namespace R1CS

variable {p : ℕ} [hp : Fact p.Prime]

open Language

namespace Circuit

theorem build_run {k : ℕ} {c : Circuit p} :
    build k c Builder.new = runFrom c ((List.range' 1 k).map fun w => .expr (Expression.ofWire w))
      ⟨1 + k, [], []⟩ := by
  unfold build
  rw [B.bind_eq (Enforces.wires_run k Builder.new)]
  rfl

theorem inputs_meaning {W : Assign p} (h1 : W ONE = 1) : ∀ ws : List Wire, MeansAll W
    (ws.map fun w => .expr (Expression.ofWire w)) ((ws.map W).map .elem)
  | [] => .nil
  | _ :: ws => .cons (Expression.eval_ofWire _ _) (inputs_meaning h1 ws)

theorem inputs_scoped (k : ℕ) : ∀ o ∈ (List.range' 1 k).map
    (fun w => (Obj.expr (Expression.ofWire w) : Obj p)), o.Scoped (1 + k) := by
  intro o ho
  obtain ⟨w, hw, rfl⟩ := List.mem_map.1 ho
  rw [List.mem_range'_1] at hw
  exact Expression.Scoped.ofWire (by omega)

/-- The inputs as an assignment. -/
theorem range_map (xs : List (Elem p)) (W : Assign p)
    (h : ∀ i, ∀ hi : i < xs.length, W (i + 1) = xs[i]) : (List.range' 1 xs.length).map W = xs := by
  refine List.ext_getElem (by simp) fun i h1 h2 => ?_
  rw [List.getElem_map, List.getElem_range', Nat.one_mul, Nat.add_comm]
  exact h i h2

end Circuit

theorem Op.tidy (o : Op p) (h4 : 4 ≤ Elem.maxBits p) (os : List (Obj p)) : Tidy (o.run os) :=
  (o.lawful h4).tidy os

open Circuit

/-- The execution on the inputs, with all wires of the circuit. -/
theorem Circuit.executes (h4 : 4 ≤ Elem.maxBits p) (c : Circuit p) (xs : List (Elem p))
    {ys : List (Val p)} (h : c.meaning xs = some ys) :
    ∃ os b v', c.build xs.length Builder.new = some (os, b) ∧
      b.build.execute (inputs xs) = some (v', true) ∧
      (∀ i < b.nextWireIndex, (v' i).isSome) ∧ (∀ i, b.nextWireIndex ≤ i → v' i = inputs xs i) ∧
      MeansAll v'.total os ys ∧ ∀ o ∈ os, o.Scoped b.nextWireIndex := by
  have hW : ((List.range' 1 xs.length).map fun i => (inputs xs).total i) = xs :=
    range_map xs _ fun i hi => by simp [WireValues.total, inputs, ONE, hi]
  have hone : (inputs xs).total ONE = 1 := by simp [WireValues.total, inputs]
  let s : Hon p := Hon.free (1 + xs.length) (by omega) (inputs xs).total hone
  have hm := inputs_meaning (W := (inputs xs).total) hone (List.range' 1 xs.length)
  rw [hW] at hm
  obtain ⟨os, t, h1, h2, h3, h5, h6⟩ := comp_runFrom (s := s) (fun i _ => (i.1.lawful h4).comp)
    (inputs_scoped xs.length) hm h
  have hin : t.Inputs (inputs xs) := by
    have hD : t.D = List.range' 1 xs.length := by
      rw [h3]
      show List.range' 1 (1 + xs.length - 1) = _
      rw [Nat.add_sub_cancel_left]
    refine ⟨by simp [inputs], fun i hi => ?_, fun i _ h0 hi => ?_⟩
    · rw [hD, List.mem_range'_1] at hi
      rw [h2.2 i (show i < 1 + xs.length by omega)]
      show _ = some ((inputs xs).total i)
      have : i ≠ ONE := by unfold ONE; omega
      simp [WireValues.total, inputs, this, show i - 1 < xs.length by omega]
    · rw [hD, List.mem_range'_1] at hi
      unfold inputs
      rw [if_neg h0, List.getElem?_eq_none]
      unfold ONE at h0
      omega
  obtain ⟨v', e1, e2, e3⟩ := t.executes _ hin
  have hb : c.build xs.length Builder.new = some (os, t.b) := build_run.trans h1
  exact ⟨os, t.b, v', hb, e1, fun i hi => by rw [e2 i hi]; rfl, e3,
    h6.congr (fun i hi => by simp [WireValues.total, e2 i hi]) h5, h5⟩

/-- C87: if the code has a meaning for the inputs, building the circuit succeeds, and executing it on
the inputs alone terminates, accepts, keeps the inputs, and gives every object its value. -/
theorem C87_complete (h4 : 4 ≤ Elem.maxBits p) (c : Circuit p) (xs : List (Elem p))
    {ys : List (Val p)} (h : c.meaning xs = some ys) :
    ∃ os b v', c.build xs.length Builder.new = some (os, b) ∧
      b.build.execute (inputs xs) = some (v', true) ∧
      (∀ i x, inputs xs i = some x → v' i = some x) ∧ MeansAll v'.total os ys := by
  obtain ⟨os, b, v', hb, e1, _, _, e4, _⟩ := Circuit.executes h4 c xs h
  exact ⟨os, b, v', hb, e1, fun i x hx => C22_library
    ((Tidy.wires _).bind fun _ => tidy_runFrom (fun i _ => i.1.tidy h4) _) hb e1 hx, e4⟩

/-- C87: conversely, an execution on the inputs is accepted only if the code has a meaning for them,
and then every object has its value. -/
theorem C87_accepts (h4 : 4 ≤ Elem.maxBits p) (c : Circuit p) (xs : List (Elem p))
    {os : List (Obj p)} {b : Builder p} (hb : c.build xs.length Builder.new = some (os, b))
    {v' : WireValues p} (hex : b.build.execute (inputs xs) = some (v', true)) :
    ∃ ys, c.meaning xs = some ys ∧ MeansAll v'.total os ys := by
  have hpre : Tidy (do
      let ws ← B.wires xs.length
      return (ws.map fun w => (Obj.expr (Expression.ofWire w) : Obj p)) : B p (List (Obj p))) :=
    (Tidy.wires _).bind fun _ => Tidy.pure _
  have hkeep : ∀ {i x}, inputs xs i = some x → v' i = some x := fun hx =>
    C22_library ((Tidy.wires _).bind fun _ => tidy_runFrom (fun i _ => i.1.tidy h4) _) hb hex hx
  have hone : v'.total ONE = 1 := by
    simp [WireValues.total, hkeep (i := ONE) (x := 1) (by simp [inputs])]
  have hm := inputs_meaning (W := v'.total) hone (List.range' 1 xs.length)
  rw [range_map xs _ fun i hi => by
    simp [WireValues.total, hkeep (i := i + 1) (x := xs[i]) (by simp [inputs, ONE, hi])]] at hm
  have hw : (do
      let ws ← B.wires xs.length
      return (ws.map fun w => (Obj.expr (Expression.ofWire w) : Obj p)) : B p _) Builder.new
      = some ((List.range' 1 xs.length).map fun w => .expr (Expression.ofWire w),
        ⟨1 + xs.length, [], []⟩) := by
    rw [B.bind_eq (Enforces.wires_run xs.length Builder.new)]; rfl
  refine accepted_runFrom (fun o => (o.lawful h4).comp) (fun o => (o.lawful h4).checks)
    (fun o => o.tidy h4) c hpre hw (build_run.symm.trans hb) (inputs_scoped _) (by simp [inputs])
    (fun i hi _ => ?_) hex hm
  have hi : 1 + xs.length ≤ i := hi
  unfold inputs
  rw [if_neg (by unfold ONE; omega), List.getElem?_eq_none (by omega)]

/-- C87: so the code decides whether it has a meaning: the circuit can be built and an execution of
it on the inputs is accepted if and only if the meaning is defined. -/
theorem C87_decides (h4 : 4 ≤ Elem.maxBits p) (c : Circuit p) (xs : List (Elem p)) :
    (∃ os b v', c.build xs.length Builder.new = some (os, b) ∧
      b.build.execute (inputs xs) = some (v', true)) ↔ (c.meaning xs).isSome = true := by
  constructor
  · rintro ⟨os, b, v', hb, hex⟩
    obtain ⟨ys, h, _⟩ := C87_accepts h4 c xs hb hex
    rw [h]; rfl
  · intro h
    obtain ⟨ys, h⟩ := Option.isSome_iff_exists.1 h
    obtain ⟨os, b, v', hb, hex, _⟩ := C87_complete h4 c xs h
    exact ⟨os, b, v', hb, hex⟩

/-- C87: if every gadget of the code pins its result down, every assignment satisfying the
constraints of the circuit gives the inputs values for which the code has a meaning, and every
object its value. -/
theorem C87_sound (h4 : 4 ≤ Elem.maxBits p) (c : Circuit p) (hc : c.Pinned) (k : ℕ)
    {os : List (Obj p)} {b : Builder p} (hb : c.build k Builder.new = some (os, b))
    {W : Assign p} (hW : Satisfies W b.constraints) :
    ∃ ys, c.meaning ((List.range' 1 k).map W) = some ys ∧ MeansAll W os ys :=
  ((enforces_runFrom (fun i hi => (i.1.lawful h4).pins (hc i hi)) _) _ _ _
    (build_run.symm.trans hb) W hW).2 _ (inputs_meaning hW.one _)

/-- C87: for such code, the constraints can be satisfied with given inputs if and only if the code
has a meaning for them, and all ways to satisfy them give each object the same value. -/
theorem C87_exact (h4 : 4 ≤ Elem.maxBits p) (c : Circuit p) (hc : c.Pinned) (k : ℕ)
    {os : List (Obj p)} {b : Builder p} (hb : c.build k Builder.new = some (os, b))
    (xs : List (Elem p)) (hk : xs.length = k) :
    ((∃ W, Satisfies W b.constraints ∧ (List.range' 1 k).map W = xs) ↔
      (c.meaning xs).isSome = true) ∧
    ∀ W W' : Assign p, Satisfies W b.constraints → Satisfies W' b.constraints →
      (List.range' 1 k).map W = xs → (List.range' 1 k).map W' = xs →
      ∃ ys, MeansAll W os ys ∧ MeansAll W' os ys := by
  refine ⟨⟨?_, fun h => ?_⟩, ?_⟩
  · rintro ⟨W, hW, rfl⟩
    obtain ⟨ys, h, _⟩ := C87_sound h4 c hc k hb hW
    rw [h]; rfl
  · subst hk
    obtain ⟨ys, h⟩ := Option.isSome_iff_exists.1 h
    obtain ⟨os', b', v', hb', hex, hin, _⟩ := C87_complete h4 c xs h
    rw [hb] at hb'
    cases hb'
    refine ⟨v'.total, Accepted.satisfies ((Tidy.wires _).bind fun _ =>
      tidy_runFrom (fun i _ => i.1.tidy h4) _) hb (by simp [inputs]) hex, range_map xs _ fun i hi => ?_⟩
    simp [WireValues.total, hin (i + 1) xs[i] (by simp [inputs, ONE, hi])]
  · intro W W' hW hW' h h'
    obtain ⟨ys, e1, e2⟩ := C87_sound h4 c hc k hb hW
    obtain ⟨ys', e1', e2'⟩ := C87_sound h4 c hc k hb hW'
    rw [h] at e1
    rw [h', e1] at e1'
    cases e1'
    exact ⟨ys, e2, e2'⟩

/-! ## Examples -/

/-- Two inputs `x` and `y`; `z = x * y`; the digits of `z`; `u` is `x` if `z` has its lowest digit
set, else `y`; `1 / u`; and `x` must not be `y`. -/
def pinnedCode : Circuit 13 :=
  [(.product, [0, 1]), (.split, [2]), (.unpack, [3]), (.select, [4, 0, 1]), (.inverse, [8]),
   (.assertNonequal, [0, 1])]

/-- Two inputs; whether `x ≤ y`; `y % x`; `y / x`; and `x ≤ y` is required. -/
def code : Circuit 13 :=
  [(.le, [0, 1]), (.modulus, [1, 0]), (.quotientUnsafe, [1, 0]), (.assertLe, [0, 1])]

example : pinnedCode.Pinned := by
  intro i hi
  simp only [pinnedCode, List.mem_cons, List.not_mem_nil, or_false] at hi
  rcases hi with rfl | rfl | rfl | rfl | rfl | rfl <;> rfl

example : pinnedCode.meaning [3, 5] = some [.elem 3, .elem 5, .elem 2,
    .bits [false, true, false, false], .bool false, .bool true, .bool false, .bool false,
    .elem 5, .elem 8] := by decide +kernel

example : pinnedCode.meaning [3, 3] = none := by decide +kernel
example : pinnedCode.meaning [3, 0] = none := by decide +kernel

example : code.meaning [3, 5] = some [.elem 3, .elem 5, .bool true, .elem 2, .elem 6] := by
  decide +kernel

example : code.meaning [5, 3] = none := by decide +kernel

/-- The theorems apply to the circuits of both. -/
example : ∃ os b v', pinnedCode.build 2 Builder.new = some (os, b) ∧
    b.build.execute (inputs [3, 5]) = some (v', true) ∧
    (∀ i x, inputs [3, 5] i = some x → v' i = some x) ∧
    MeansAll v'.total os [.elem 3, .elem 5, .elem 2, .bits [false, true, false, false], .bool false,
      .bool true, .bool false, .bool false, .elem 5, .elem 8] :=
  C87_complete (by rw [maxBits13]) pinnedCode [3, 5] (by decide +kernel)

/-- Comparing digit strings: splits both inputs, compares the digits, joins those of the first. -/
def digitsCode : Circuit 13 :=
  [(.split, [0]), (.split, [1]), (.assertCmpBinary .lt, [2, 3]), (.cmpBinary .ge, [2, 3]),
    (.joinAllowingOverflow, [2])]

example : digitsCode.meaning [3, 5] = some [.elem 3, .elem 5, .bits [true, true, false, false],
    .bits [true, false, true, false], .bool false, .elem 3] := by decide +kernel

example : digitsCode.meaning [5, 5] = none := by decide +kernel

/-- The Poseidon permutation of `Props/Matrices.lean` as an instruction. -/
def poseidonOp : Op 11 :=
  .function 4 poseidon11.permute
    (poseidonFn (fun x => x ^ 3) (scaleRows poseidon11.mds.rows) 2 6)
    (C63_poseidon_enforced_partial poseidon11 (k := 3) (.inl ⟨rfl, rfl⟩))
    ((C63_poseidon_computed_partial poseidon11
      (rows := [[2, 3, 1, 1], [1, 2, 3, 1], [1, 1, 2, 3], [3, 1, 1, 2]]) rfl (by decide)
      (by decide)).1 rfl (by decide)
      (MonomialPermutation.bijective_of_coprime (by decide) (by decide) (by decide)))
    fun xs => Tidy.poseidon poseidon11 xs

/-- Four inputs, permuted twice; the first output is required to be nonzero. -/
example : Circuit.Pinned ([(poseidonOp, [0, 1, 2, 3]), (poseidonOp, [4, 5, 6, 7]),
    (.assertNonzero, [8])] : Circuit 11) := by
  intro i hi
  simp only [List.mem_cons, List.not_mem_nil, or_false] at hi
  rcases hi with rfl | rfl | rfl <;> rfl

example : (Circuit.meaning ([(poseidonOp, [0, 1, 2, 3]), (poseidonOp, [4, 5, 6, 7]),
    (.assertNonzero, [8])] : Circuit 11) [1, 2, 3, 4]).isSome = true := by decide +kernel

end R1CS
