import Verif.Spec.Instance
import Verif.Props.Renumber
import Verif.Props.Admission
import Verif.Props.Expression

/-!
# C106: gadgets are rank-1 constraint systems
-/

set_option linter.unusedSectionVars false

namespace R1CS

variable {p : ℕ} [hp : Fact p.Prime]

namespace Instance

theorem coefficient_nil (i : Wire) : (⟨[]⟩ : Expression p).coefficient i = 0 := rfl

theorem coefficient_cons (kv : Wire × Elem p) (l : BMap Wire (Elem p)) (i : Wire) :
    (⟨kv :: l⟩ : Expression p).coefficient i = (if kv.1 = i then kv.2 else 0) + (⟨l⟩ : Expression p).coefficient i := by
  unfold Expression.coefficient
  by_cases h : kv.1 = i
  · simp [h]
  · simp [h]

theorem row_eval (W : Assign p) (n : ℕ) : ∀ (l : BMap Wire (Elem p)), (∀ kv ∈ l, kv.1 < n) →
    ∑ j : Fin n, ((⟨l⟩ : Expression p).coefficient j).toZMod * (W j).toZMod = ((⟨l⟩ : Expression p).eval W).toZMod
  | [], _ => by simp [coefficient_nil, Expression.eval]
  | kv :: l, h => by
    have ih := row_eval W n l fun kv' h' => h kv' (List.mem_cons_of_mem _ h')
    have hkv := h kv (List.mem_cons_self ..)
    have h1 : (⟨kv :: l⟩ : Expression p).eval W = W kv.1 * kv.2 + (⟨l⟩ : Expression p).eval W := by
      simp [Expression.eval]
    rw [h1, Elem.toZMod_add, Elem.toZMod_mul, ← ih]
    simp only [coefficient_cons, Elem.toZMod_add, add_mul, Finset.sum_add_distrib]
    congr 1
    rw [Finset.sum_eq_single ⟨kv.1, hkv⟩]
    · simp [mul_comm]
    · intro j _ hj
      rw [if_neg fun he => hj (Fin.ext he.symm)]
      simp
    · simp

theorem mulVec_eq (g : Gadget p) (n : ℕ) (side : Constraint p → Expression p) (W : Assign p)
    (h : ∀ c ∈ g.constraints, (side c).Scoped n) (i : Fin g.constraints.length) :
    (g.matrix n side).mulVec (W.vector n) i = ((side g.constraints[i]).eval W).toZMod := by
  unfold Matrix.mulVec dotProduct
  exact row_eval W n (side g.constraints[i]).coefficients fun kv hkv =>
    h _ (List.getElem_mem _) kv.1 (List.mem_map.2 ⟨kv, hkv, rfl⟩)

/-- The assignment with the given values, 0 elsewhere. -/
def assign {n : ℕ} (w : Fin n → ZMod p) : Assign p := fun i =>
  if h : i < n then ⟨(w ⟨i, h⟩).val, ZMod.val_lt _⟩ else 0

theorem vector_assign {n : ℕ} (w : Fin n → ZMod p) : (assign w).vector n = w := by
  funext j
  unfold Assign.vector assign
  rw [dif_pos j.2]
  exact ZMod.natCast_zmod_val _

end Instance

open Instance

/-- C106: the assignments satisfying the constraints of a gadget are the solutions of an instance in the sense of
the documentation: `Aw ∘ Bw = Cw`, where the rows of the matrices are the coefficients of the constraints, modulo
the order of the field, and the value of the constant wire is 1. -/
theorem C106_matrices (g : Gadget p) (n : ℕ) (hn : g.Within n) (W : Assign p) :
    Satisfies W g.constraints ↔
      Solves (g.matrix n (·.a)) (g.matrix n (·.b)) (g.matrix n (·.c)) (W.vector n) ∧ ((W ONE).n : ZMod p) = 1 := by
  have ha : ∀ c ∈ g.constraints, c.a.Scoped n := fun c hc => hn c hc _ (Or.inl rfl)
  have hb : ∀ c ∈ g.constraints, c.b.Scoped n := fun c hc => hn c hc _ (Or.inr (Or.inl rfl))
  have hc : ∀ c ∈ g.constraints, c.c.Scoped n := fun c hc => hn c hc _ (Or.inr (Or.inr rfl))
  have h1 : ((W ONE).n : ZMod p) = 1 ↔ W ONE = 1 := by
    rw [← Elem.toZMod_one (p := p)]
    exact ⟨fun h => Elem.toZMod_injective h, fun h => congrArg Elem.toZMod h⟩
  rw [h1]
  unfold Solves
  constructor
  · intro h
    refine ⟨funext fun i => ?_, h.one⟩
    rw [Pi.mul_apply, mulVec_eq g n _ W ha, mulVec_eq g n _ W hb, mulVec_eq g n _ W hc, ← Elem.toZMod_mul]
    exact congrArg Elem.toZMod (h.all _ (List.getElem_mem _))
  · rintro ⟨h, h0⟩
    refine ⟨h0, fun c hc' => ?_⟩
    obtain ⟨i, hi, rfl⟩ := List.getElem_of_mem hc'
    have := congrFun h ⟨i, hi⟩
    rw [Pi.mul_apply, mulVec_eq g n _ W ha, mulVec_eq g n _ W hb, mulVec_eq g n _ W hc, ← Elem.toZMod_mul] at this
    exact Elem.toZMod_injective this

/-- C106: without a place for the constant the question of the documentation would always have the answer yes: the
zero vector solves every instance. -/
theorem C106_zero {m n : ℕ} (A B C : Matrix (Fin m) (Fin n) (ZMod p)) : Solves A B C 0 := by
  simp [Solves]

/-- C106: so there is a satisfying assignment if and only if the instance has a solution with 1 in the place of
the constant. -/
theorem C106_solvable (g : Gadget p) (n : ℕ) (hn : g.Within (n + 1)) :
    (∃ W, Satisfies W g.constraints) ↔
      ∃ w : Fin (n + 1) → ZMod p,
        Solves (g.matrix (n + 1) (·.a)) (g.matrix (n + 1) (·.b)) (g.matrix (n + 1) (·.c)) w ∧ w 0 = 1 := by
  constructor
  · rintro ⟨W, hW⟩
    obtain ⟨h, h1⟩ := (C106_matrices g _ hn W).1 hW
    exact ⟨_, h, h1⟩
  · rintro ⟨w, h, h1⟩
    refine ⟨assign w, (C106_matrices g _ hn _).2 ?_⟩
    rw [vector_assign]
    refine ⟨h, ?_⟩
    rw [← h1]
    exact congrFun (vector_assign w) 0

/-- C106: an execution which returns tells whether the final values solve the instance. -/
theorem C106_execute (g : Gadget p) (n : ℕ) (hn : g.Within n) (v v' : WireValues p) (ok : Bool)
    (h1 : v' ONE = some 1) (h : g.execute v = some (v', ok)) :
    ok = true ↔ Solves (g.matrix n (·.a)) (g.matrix n (·.b)) (g.matrix n (·.c)) (v'.total.vector n) := by
  have hone : v'.total ONE = 1 := by simp [WireValues.total, h1]
  rw [C19_execute_decides g v v' ok h]
  have := C106_matrices g n hn v'.total
  constructor
  · intro h'
    exact (this.1 ⟨hone, h'⟩).1
  · intro h'
    exact (this.2 ⟨h', by rw [hone]; simp⟩).all

/-- C106: each entry of the matrices is the coefficient which the constraint stores for the wire, and 0 if it
stores none, for expressions from the constructors and operators of the crate. -/
theorem C106_entries (e : Expression p) (he : e.Built) (i : Wire) :
    (∀ c, (i, c) ∈ e.coefficients → e.coefficient i = c) ∧ (i ∉ e.dependencies → e.coefficient i = 0) := by
  have hc := C10_canonical e he
  refine ⟨fun c h => Expression.coeff_of_mem hc h, fun hi => ?_⟩
  obtain ⟨l⟩ := e
  exact Expression.coeff_eq_zero fun kv hkv he => hi (List.mem_map.2 ⟨kv, hkv, he⟩)

/-- C106: the instance of a circuit has a solution with given inputs if and only if the code admits them, for code
from gadgets which pin their results down if and only if the code has a meaning for them; then executing the
circuit on the inputs extends them to a solution. -/
theorem C106_circuits (h4 : 4 ≤ Elem.maxBits p) (c : Circuit p) (hc : ∀ r, ∀ i ∈ c, Alike.Given r i.1)
    (xs : List (Elem p)) {os : List (Obj p)} {b : Builder p}
    (hb : c.build xs.length Builder.new = some (os, b)) :
    b.build.Within b.nextWireIndex ∧
    ((∃ W : Assign p, Solves (b.build.matrix b.nextWireIndex (·.a)) (b.build.matrix b.nextWireIndex (·.b))
        (b.build.matrix b.nextWireIndex (·.c)) (W.vector b.nextWireIndex) ∧ W ONE = 1 ∧
        (List.range' 1 xs.length).map W = xs) ↔ ∃ ys, c.admits xs ys) ∧
    (c.Pinned → ((∃ ys, c.admits xs ys) ↔ (c.meaning xs).isSome = true)) ∧
    ((c.meaning xs).isSome = true → ∃ v', b.build.execute (Circuit.inputs xs) = some (v', true) ∧
      (∀ i x, Circuit.inputs xs i = some x → v' i = some x) ∧
      Solves (b.build.matrix b.nextWireIndex (·.a)) (b.build.matrix b.nextWireIndex (·.b))
        (b.build.matrix b.nextWireIndex (·.c)) (v'.total.vector b.nextWireIndex)) := by
  have hin : b.build.Within b.nextWireIndex := by
    have h := hb
    unfold Circuit.build at h
    rw [B.bind_eq (Enforces.wires_run _ _)] at h
    obtain ⟨_, _, cs, gs, h1, _, h2, _⟩ := C100_scoped_circuits c _ os _ b
      (by show 1 ≤ 1 + _; omega) (by
        intro o ho
        obtain ⟨w, hw, rfl⟩ := List.mem_map.1 ho
        intro i hi
        rw [List.mem_range'_1] at hw
        have : i = w := by
          rw [Expression.dependencies_ofWire] at hi
          exact List.mem_singleton.1 hi
        rw [this]
        exact hw.2) hc h
    intro k hk e he i hi
    have hk' : k ∈ cs := by
      have : k ∈ b.constraints := hk
      rw [h1] at this
      simpa [Builder.new] using this
    obtain ⟨s1, s2, s3⟩ := h2 k hk'
    rcases he with rfl | rfl | rfl
    · exact s1 i hi
    · exact s2 i hi
    · exact s3 i hi
  have hsat : ∀ W : Assign p, Satisfies W b.constraints ↔
      Solves (b.build.matrix b.nextWireIndex (·.a)) (b.build.matrix b.nextWireIndex (·.b))
        (b.build.matrix b.nextWireIndex (·.c)) (W.vector b.nextWireIndex) ∧ W ONE = 1 := by
    intro W
    constructor
    · intro h
      exact ⟨((C106_matrices b.build _ hin W).1 h).1, h.one⟩
    · rintro ⟨h, h1⟩
      exact (C106_matrices b.build _ hin W).2 ⟨h, by rw [h1]; simp⟩
  refine ⟨hin, ⟨?_, ?_⟩, fun hp => ⟨?_, ?_⟩, fun h => ?_⟩
  · rintro ⟨W, h, h1, hx⟩
    obtain ⟨ys, hy, _⟩ := C94_every h4 c _ hb ((hsat W).2 ⟨h, h1⟩)
    rw [hx] at hy
    exact ⟨ys, hy⟩
  · rintro ⟨ys, hy⟩
    obtain ⟨W, h, hx, _⟩ := (C94_exact h4 c _ hb xs rfl ys).2 hy
    exact ⟨W, ((hsat W).1 h).1, h.one, hx⟩
  · rintro ⟨ys, hy⟩
    rw [(C94_honest h4 c xs ys).2 hp hy]
    rfl
  · intro h
    obtain ⟨ys, h⟩ := Option.isSome_iff_exists.1 h
    exact ⟨ys, (C94_honest h4 c xs ys).1 h⟩
  · obtain ⟨ys, h⟩ := Option.isSome_iff_exists.1 h
    obtain ⟨os', b', v', hb', hex, hk, _⟩ := C87_complete h4 c xs h
    rw [hb] at hb'
    obtain ⟨rfl, rfl⟩ := Prod.mk.inj (Option.some.inj hb')
    refine ⟨v', hex, hk, ?_⟩
    exact (C106_execute b.build _ hin _ v' true (hk ONE 1 (by simp [Circuit.inputs])) hex).1 rfl

namespace Instance

theorem coefficient_new (l : BMap Wire (Elem p)) (i : Wire) :
    (Expression.new l).coefficient i = (⟨l⟩ : Expression p).coefficient i := by
  unfold Expression.new
  induction l with
  | nil => rfl
  | cons kv l ih =>
    rw [List.filter_cons]
    split
    · rw [coefficient_cons, coefficient_cons, ih]
    · next h =>
      rw [ih, coefficient_cons]
      have : kv.2 = 0 := by simpa [Elem.isNonzero_iff] using h
      rw [this]
      simp

/-- The row, as the list of pairs from which the expression is made. -/
def row {n : ℕ} (r : Fin (n + 1) → Elem p) : BMap Wire (Elem p) :=
  (List.range' 1 n).zip (List.ofFn fun j => r j.succ) ++ [(ONE, r 0)]

theorem coefficient_zip (k : ℕ) (i : Wire) : ∀ (s : ℕ) (l : List (Elem p)), l.length = k →
    (⟨(List.range' s k).zip l⟩ : Expression p).coefficient i =
      if s ≤ i then (l[i - s]?).getD 0 else 0 := by
  induction k with
  | zero =>
    intro s l hl
    obtain rfl := List.length_eq_zero_iff.1 hl
    simp [Expression.coefficient]
  | succ k ih =>
    intro s l hl
    obtain ⟨x, l, rfl⟩ := List.exists_cons_of_length_eq_add_one hl
    rw [List.range'_succ, List.zip_cons_cons, coefficient_cons, ih (s + 1) l (by simpa using hl)]
    dsimp only
    rcases Nat.lt_trichotomy s i with h | rfl | h
    · rw [if_neg (by omega), if_pos (by omega), if_pos (by omega), zero_add]
      obtain ⟨t, rfl⟩ := Nat.exists_eq_add_of_lt h
      rw [show s + t + 1 - (s + 1) = t by omega, show s + t + 1 - s = t + 1 by omega, List.getElem?_cons_succ]
    · simp
    · rw [if_neg (by omega), if_neg (by omega), if_neg (by omega), zero_add]

theorem coefficient_append (l l' : BMap Wire (Elem p)) (i : Wire) :
    (⟨l ++ l'⟩ : Expression p).coefficient i = (⟨l⟩ : Expression p).coefficient i + (⟨l'⟩ : Expression p).coefficient i := by
  simp [Expression.coefficient]

theorem coefficient_row {n : ℕ} (r : Fin (n + 1) → Elem p) (j : Fin (n + 1)) :
    (Expression.new (row r)).coefficient j = r j := by
  rw [coefficient_new]
  unfold row
  rw [coefficient_append, coefficient_zip n _ 1 _ (List.length_ofFn ..), coefficient_cons, coefficient_nil]
  refine Fin.cases ?_ (fun j => ?_) j
  · simp [ONE]
  · simp [ONE]

theorem sorted_row {n : ℕ} (r : Fin (n + 1) → Elem p) :
    (row r).Pairwise fun a b => Wire.cmp a.1 b.1 = .lt := by
  unfold row
  have hk : ∀ kv ∈ (List.range' 1 n).zip (List.ofFn fun j => r j.succ), 1 ≤ kv.1 := fun kv h => by
    have := (List.of_mem_zip (a := kv.1) (b := kv.2) h).1
    rw [List.mem_range'_1] at this
    exact this.1
  rw [List.pairwise_append]
  refine ⟨?_, List.pairwise_singleton .., fun a ha b hb => ?_⟩
  · have h : ((List.range' 1 n).zip (List.ofFn fun j => r j.succ)).Pairwise fun a b => a.1 < b.1 := by
      rw [← List.pairwise_map (f := Prod.fst) (R := (· < ·)), List.map_fst_zip (by simp)]
      exact List.pairwise_lt_range'
    refine h.imp_of_mem fun ha hb hab => ?_
    have := hk _ ha
    have := hk _ hb
    unfold Wire.cmp
    rw [if_neg (by unfold ONE; omega), if_neg (by unfold ONE; omega), if_neg (by unfold ONE; omega)]
    exact compare_lt_iff_lt.2 hab
  · rw [List.mem_singleton.1 hb]
    have := hk a ha
    unfold Wire.cmp
    rw [if_neg (by unfold ONE; omega), if_neg (by unfold ONE; omega), if_pos rfl]

theorem forM_assert {ι : Type} (f : ι → Constraint p) : ∀ (l : List ι) (b : Builder p),
    (l.forM fun i => R1CS.B.assertProduct (f i).a (f i).b (f i).c) b =
      some ((), { b with constraints := b.constraints ++ l.map f })
  | [], b => by simp [List.forM, B.pure_eq]
  | i :: l, b => by
    have ih := forM_assert f l { b with constraints := b.constraints ++ [f i] }
    rw [show ∀ g : ι → R1CS.B p Unit, (i :: l).forM g = (g i >>= fun _ => l.forM g) from fun _ => rfl,
      B.bind_eq (show R1CS.B.assertProduct (f i).a (f i).b (f i).c b = some ((), _) from rfl)]
    simpa using ih

end Instance

/-- C106: every instance, given by three matrices, is the instance of a gadget which can be built: wires for the
columns but the first, which is the constant, and `assert_product` for each row.  The expressions are ones which the
crate can build. -/
theorem C106_every {m n : ℕ} (A B C : Fin m → Fin (n + 1) → Elem p) :
    ∃ b : Builder p, assertInstance A B C Builder.new = some ((), b) ∧ b.nextWireIndex = n + 1 ∧
      b.witnessGenerators = [] ∧ b.build.Within (n + 1) ∧
      (∀ k ∈ b.constraints, k.a.Built ∧ k.b.Built ∧ k.c.Built) ∧
      ∃ h : b.build.constraints.length = m,
        b.build.matrix (n + 1) (·.a) = Matrix.of (fun i j => ((A (i.cast h) j).n : ZMod p)) ∧
        b.build.matrix (n + 1) (·.b) = Matrix.of (fun i j => ((B (i.cast h) j).n : ZMod p)) ∧
        b.build.matrix (n + 1) (·.c) = Matrix.of (fun i j => ((C (i.cast h) j).n : ZMod p)) := by
  let f : Fin m → Constraint p := fun i =>
    ⟨Expression.new (row (A i)), Expression.new (row (B i)), Expression.new (row (C i))⟩
  have hf : ∀ k ∈ (List.finRange m).map f, ∃ i, k = f i := fun k hk => by
    obtain ⟨i, _, rfl⟩ := List.mem_map.1 hk
    exact ⟨i, rfl⟩
  have hr : ∀ r : Fin (n + 1) → Elem p, ∀ i ∈ (Expression.new (row r)).dependencies, i < n + 1 := fun r i hi => by
    obtain ⟨kv, hkv, rfl⟩ := List.mem_map.1 hi
    have hkv' := (List.mem_filter.1 hkv).1
    rcases List.mem_append.1 hkv' with h | h
    · have := (List.of_mem_zip (a := kv.1) (b := kv.2) h).1
      rw [List.mem_range'_1] at this
      omega
    · rw [List.mem_singleton.1 h]
      exact Nat.succ_pos _
  refine ⟨⟨1 + n, (List.finRange m).map f, []⟩, ?_, Nat.add_comm .., rfl, ?_, ?_, ?_⟩
  · unfold assertInstance
    rw [R1CS.B.bind_eq (Enforces.wires_run _ _)]
    exact forM_assert f (List.finRange m) _
  · intro k hk e he
    obtain ⟨i, rfl⟩ := hf k hk
    rcases he with rfl | rfl | rfl
    · exact hr _
    · exact hr _
    · exact hr _
  · intro k hk
    obtain ⟨i, rfl⟩ := hf k hk
    exact ⟨.new _ (sorted_row _), .new _ (sorted_row _), .new _ (sorted_row _)⟩
  · have h : ((List.finRange m).map f).length = m := by simp
    have hg : ∀ i : Fin ((List.finRange m).map f).length, ((List.finRange m).map f)[i] = f (i.cast h) := fun i => by
      simp
      rfl
    have key : ∀ (side : Constraint p → Expression p) (M : Fin m → Fin (n + 1) → Elem p),
        (∀ i, side (f i) = Expression.new (row (M i))) →
        Gadget.matrix ⟨(List.finRange m).map f, []⟩ (n + 1) side =
          Matrix.of (fun i j => ((M (i.cast h) j).n : ZMod p)) := by
      intro side M hM
      funext i j
      show (((side ((List.finRange m).map f)[i]).coefficient j).n : ZMod p) = ((M (i.cast h) j).n : ZMod p)
      rw [hg, hM, coefficient_row]
    exact ⟨h, key _ A fun _ => rfl, key _ B fun _ => rfl, key _ C fun _ => rfl⟩

/-! ## Examples -/

section Examples

/-- The example of the documentation, the cube of a number (README.md:39-46). -/
abbrev cubing : Circuit 13 := [(.product, [0, 0]), (.product, [1, 0])]

/-- It has two constraints on the wires `1, x, x², x³`. -/
example : (cubing.build 1 Builder.new).map (fun t => (t.2.nextWireIndex, t.2.constraints.length)) = some (4, 2) := by
  decide +kernel

/-- Its matrices. -/
example : (cubing.build 1 Builder.new).map (fun t => t.2.constraints.map fun k =>
    [k.a, k.b, k.c].map fun e => (List.range 4).map fun j => (e.coefficient j).n) =
    some [[[0, 1, 0, 0], [0, 1, 0, 0], [0, 0, 1, 0]], [[0, 0, 1, 0], [0, 1, 0, 0], [0, 0, 0, 1]]] := by
  decide +kernel

/-- A solution, and a vector which is none. -/
example : Solves (F := ZMod 13) !![0, 1, 0, 0; 0, 0, 1, 0] !![0, 1, 0, 0; 0, 1, 0, 0] !![0, 0, 1, 0; 0, 0, 0, 1]
    ![1, 5, 12, 8] ∧
    ¬ Solves (F := ZMod 13) !![0, 1, 0, 0; 0, 0, 1, 0] !![0, 1, 0, 0; 0, 1, 0, 0] !![0, 0, 1, 0; 0, 0, 0, 1]
    ![1, 5, 12, 9] := by
  unfold Solves
  decide +kernel

/-- The hypotheses of the theorem on circuits are met. -/
example {os : List (Obj 13)} {b : Builder 13} (hb : cubing.build 1 Builder.new = some (os, b)) :
    ∃ v', b.build.execute (Circuit.inputs [5]) = some (v', true) ∧
      Solves (b.build.matrix b.nextWireIndex (·.a)) (b.build.matrix b.nextWireIndex (·.b))
        (b.build.matrix b.nextWireIndex (·.c)) (v'.total.vector b.nextWireIndex) := by
  obtain ⟨v', h1, _, h2⟩ := (C106_circuits (by decide +kernel) cubing (by
    intro r i hi
    simp only [cubing, List.mem_cons, List.not_mem_nil, or_false] at hi
    rcases hi with rfl | rfl <;> trivial) [5] hb).2.2.2 (by decide +kernel)
  exact ⟨v', h1, h2⟩

/-- An instance with two rows and three columns, written as code: `(2 + x) y = 5` and `x x = 3 y`. -/
example : (assertInstance (p := 13) (m := 2) (n := 2) ![![2, 1, 0], ![0, 1, 0]] ![![0, 0, 1], ![0, 1, 0]]
    ![![5, 0, 0], ![0, 0, 3]] Builder.new).map (fun t => t.2.constraints.map fun k =>
      [k.a, k.b, k.c].map fun e => e.coefficients.map fun kv => (kv.1, kv.2.n)) =
    some [[[(1, 1), (0, 2)], [(2, 1)], [(0, 5)]], [[(1, 1)], [(1, 1)], [(2, 3)]]] := by
  decide +kernel

end Examples

end R1CS
