import Verif.Spec.Basic

/-!
# Evaluation of expressions
-/

set_option linter.unusedSectionVars false

namespace R1CS

variable {p : ℕ} [hp : Fact p.Prime]


theorem Wire.cmp_eq_iff (a b : Wire) : Wire.cmp a b = .eq ↔ a = b := by
  unfold Wire.cmp
  split
  · next h => simp [h.1, h.2]
  · next h =>
    split
    · next h1 => simp; intro h2; exact h ⟨h1, h2 ▸ h1⟩
    · next h1 =>
      split
      · next h2 => simp; intro h3; exact h1 (h3.trans h2)
      · exact compare_eq_iff_eq


namespace Expression

@[simp] theorem eval_nil (w : Assign p) : eval w (⟨[]⟩ : Expression p) = 0 := rfl

theorem eval_cons (w : Assign p) (kv : Wire × Elem p) (m : BMap Wire (Elem p)) :
    eval w ⟨kv :: m⟩ = w kv.1 * kv.2 + eval w ⟨m⟩ := by
  simp [eval]

theorem eval_new (w : Assign p) (m : BMap Wire (Elem p)) : eval w (new m) = eval w ⟨m⟩ := by
  induction m with
  | nil => rfl
  | cons kv m ih =>
    rw [eval_cons, ← ih]
    unfold new
    by_cases h : kv.2 = 0
    · have : kv.2.isNonzero = false := by rw [Elem.isNonzero_eq]; simp [h]
      rw [List.filter_cons_of_neg (by simp [this]), h, mul_zero, zero_add]
    · have : kv.2.isNonzero = true := (Elem.isNonzero_iff _).2 h
      simp [List.filter_cons, this, eval]

theorem eval_addEntry (w : Assign p) (m : BMap Wire (Elem p)) (kv : Wire × Elem p) :
    eval w ⟨addEntry m kv⟩ = eval w ⟨m⟩ + w kv.1 * kv.2 := by
  unfold addEntry
  induction m with
  | nil => simp [BMap.upsert, eval]
  | cons kv' m ih =>
    unfold BMap.upsert
    cases hc : Wire.cmp kv.1 kv'.1 with
    | lt => simp only [eval_cons]; ring
    | eq =>
      have : kv.1 = kv'.1 := (Wire.cmp_eq_iff _ _).1 hc
      simp only [eval_cons, this]; ring
    | gt => simp only [eval_cons, ih]; ring

theorem eval_foldl_addEntry (w : Assign p) (l m : BMap Wire (Elem p)) :
    eval w ⟨l.foldl addEntry m⟩ = eval w ⟨m⟩ + eval w ⟨l⟩ := by
  induction l generalizing m with
  | nil => simp
  | cons kv l ih => rw [List.foldl_cons, ih, eval_addEntry, eval_cons]; ring

@[simp] theorem eval_add (w : Assign p) (a b : Expression p) :
    eval w (a + b) = eval w a + eval w b := by
  change eval w (new _) = _
  rw [eval_new, eval_foldl_addEntry]

@[simp] theorem eval_mulElem (w : Assign p) (a : Expression p) (c : Elem p) :
    eval w (a.mulElem c) = eval w a * c := by
  unfold mulElem
  rw [eval_new]
  obtain ⟨m⟩ := a
  induction m with
  | nil => simp
  | cons kv m ih => simp only [List.map_cons, eval_cons] at *; rw [ih]; ring

@[simp] theorem eval_neg (w : Assign p) (a : Expression p) : eval w (-a) = - eval w a := by
  change eval w (a.mulElem (-1)) = _
  rw [eval_mulElem]; ring

@[simp] theorem eval_sub (w : Assign p) (a b : Expression p) :
    eval w (a - b) = eval w a - eval w b := by
  change eval w (a + -b) = _
  rw [eval_add, eval_neg]; ring

@[simp] theorem eval_zero (w : Assign p) : eval w (0 : Expression p) = 0 := rfl

@[simp] theorem eval_zero' (w : Assign p) : eval w (zero : Expression p) = 0 := rfl

theorem eval_ofElem' (w : Assign p) (c : Elem p) : eval w (ofElem c) = w ONE * c := by
  unfold ofElem
  rw [eval_new, eval_cons]; simp

theorem eval_ofElem {w : Assign p} (h : w ONE = 1) (c : Elem p) : eval w (ofElem c) = c := by
  rw [eval_ofElem', h, one_mul]

theorem eval_one {w : Assign p} (h : w ONE = 1) : eval w (1 : Expression p) = 1 :=
  eval_ofElem h 1

@[simp] theorem eval_ofWire (w : Assign p) (i : Wire) : eval w (ofWire i) = w i := by
  unfold ofWire
  rw [eval_new, eval_cons]; simp

theorem eval_ofBool {w : Assign p} (h : w ONE = 1) (b : Bool) :
    eval w (ofBool b) = Elem.ofBool b := eval_ofElem h _

theorem eval_foldl_foldl (w : Assign p) (es : List (Expression p)) (m : BMap Wire (Elem p)) :
    eval w ⟨es.foldl (fun m e => e.coefficients.foldl addEntry m) m⟩
      = eval w ⟨m⟩ + (es.map (eval w)).sum := by
  induction es generalizing m with
  | nil => simp
  | cons e es ih =>
    rw [List.foldl_cons, ih, eval_foldl_addEntry]
    simp [add_assoc]

theorem eval_sumOfExpressions (w : Assign p) (es : List (Expression p)) :
    eval w (sumOfExpressions es) = (es.map (eval w)).sum := by
  unfold sumOfExpressions
  rw [eval_new, eval_foldl_foldl]; simp

/-! ### sums of wires -/

theorem upsert_fresh (w : Assign p) (k : Wire) (v : Elem p) (m : BMap Wire (Elem p))
    (h : ∀ kv ∈ m, kv.1 ≠ k) :
    eval w ⟨BMap.insert Wire.cmp k v m⟩ = eval w ⟨m⟩ + w k * v := by
  unfold BMap.insert
  induction m with
  | nil => simp [BMap.upsert, eval]
  | cons kv' m ih =>
    unfold BMap.upsert
    cases hc : Wire.cmp k kv'.1 with
    | lt => simp only [eval_cons]; ring
    | eq =>
      have : k = kv'.1 := (Wire.cmp_eq_iff _ _).1 hc
      exact absurd this.symm (h kv' (by simp))
    | gt =>
      simp only [eval_cons]
      rw [ih (fun kv hkv => h kv (by simp [hkv]))]; ring

theorem mem_upsert_key {κ ν : Type} (cmp : κ → κ → Ordering) (k : κ) (d : ν) (f : ν → ν)
    (m : BMap κ ν) (kv : κ × ν) (h : kv ∈ BMap.upsert cmp k d f m) :
    kv.1 = k ∨ ∃ kv' ∈ m, kv'.1 = kv.1 := by
  induction m with
  | nil => simp [BMap.upsert] at h; simp [h]
  | cons kv' m ih =>
    unfold BMap.upsert at h
    cases hc : cmp k kv'.1 with
    | lt =>
      simp only [hc, List.mem_cons] at h
      rcases h with h | h | h
      · left; rw [h]
      · right; exact ⟨kv', by simp, by rw [h]⟩
      · right; exact ⟨kv, by simp [h], rfl⟩
    | eq =>
      simp only [hc, List.mem_cons] at h
      rcases h with h | h
      · right; exact ⟨kv', by simp, by rw [h]⟩
      · right; exact ⟨kv, by simp [h], rfl⟩
    | gt =>
      simp only [hc, List.mem_cons] at h
      rcases h with h | h
      · right; exact ⟨kv', by simp, by rw [h]⟩
      · rcases ih h with h | ⟨kv'', h1, h2⟩
        · left; exact h
        · right; exact ⟨kv'', by simp [h1], h2⟩

theorem eval_sumOfWires_aux (w : Assign p) (ws : List Wire) (m : BMap Wire (Elem p))
    (hnd : ws.Nodup) (hm : ∀ kv ∈ m, kv.1 ∉ ws) :
    eval w ⟨(ws.map fun i => (i, (1 : Elem p))).foldl
        (fun m kv => BMap.insert Wire.cmp kv.1 kv.2 m) m⟩ = eval w ⟨m⟩ + (ws.map w).sum := by
  induction ws generalizing m with
  | nil => simp
  | cons i ws ih =>
    have hnd' := List.nodup_cons.1 hnd
    rw [List.map_cons, List.foldl_cons, ih _ hnd'.2]
    · rw [upsert_fresh]
      · simp [add_assoc]
      · intro kv hkv h
        exact hm kv hkv (by simp [h])
    · intro kv hkv
      rcases mem_upsert_key _ _ _ _ _ _ hkv with h | ⟨kv', h1, h2⟩
      · rw [h]; exact hnd'.1
      · rw [← h2]; intro h; exact hm kv' h1 (by simp [h])

theorem eval_sumOfWires (w : Assign p) (ws : List Wire) (h : ws.Nodup) :
    eval w (sumOfWires ws) = (ws.map w).sum := by
  unfold sumOfWires BMap.ofList
  rw [eval_sumOfWires_aux w ws [] h (by simp)]; simp

/-! ### dependencies -/

theorem mem_deps {e : Expression p} {i : Wire} :
    i ∈ e.dependencies ↔ ∃ c, (i, c) ∈ e.coefficients := by
  simp [dependencies]

theorem mem_deps_new {m : BMap Wire (Elem p)} {i : Wire} (h : i ∈ (new m).dependencies) :
    ∃ c, (i, c) ∈ m := by
  obtain ⟨c, hc⟩ := mem_deps.1 h
  exact ⟨c, (List.mem_filter.1 hc).1⟩

theorem mem_deps_foldl {l m : BMap Wire (Elem p)} {i : Wire} {c : Elem p}
    (h : (i, c) ∈ l.foldl addEntry m) : (∃ c, (i, c) ∈ m) ∨ (∃ c, (i, c) ∈ l) := by
  induction l generalizing m c with
  | nil => left; exact ⟨c, h⟩
  | cons kv l ih =>
    rcases ih h with ⟨c', h'⟩ | ⟨c', h'⟩
    · rcases mem_upsert_key _ _ _ _ _ _ h' with h1 | ⟨kv', h1, h2⟩
      · right; exact ⟨kv.2, by simp only at h1; rw [h1]; simp⟩
      · left; exact ⟨kv'.2, by simp only at h2; rw [← h2]; exact h1⟩
    · right; exact ⟨c', by simp [h']⟩

theorem mem_deps_add {a b : Expression p} {i : Wire} (h : i ∈ (a + b).dependencies) :
    i ∈ a.dependencies ∨ i ∈ b.dependencies := by
  obtain ⟨c, hc⟩ := mem_deps_new (h : i ∈ (new _).dependencies)
  rw [mem_deps, mem_deps]
  exact mem_deps_foldl hc

theorem mem_deps_mulElem {a : Expression p} {k : Elem p} {i : Wire}
    (h : i ∈ (a.mulElem k).dependencies) : i ∈ a.dependencies := by
  obtain ⟨c, hc⟩ := mem_deps_new h
  rw [mem_deps]
  rw [List.mem_map] at hc
  obtain ⟨kv, h1, h2⟩ := hc
  have h3 : kv.1 = i := (Prod.ext_iff.1 h2).1
  exact ⟨kv.2, by rw [← h3]; exact h1⟩

theorem mem_deps_neg {a : Expression p} {i : Wire} (h : i ∈ (-a).dependencies) :
    i ∈ a.dependencies := mem_deps_mulElem h

theorem mem_deps_sub {a b : Expression p} {i : Wire} (h : i ∈ (a - b).dependencies) :
    i ∈ a.dependencies ∨ i ∈ b.dependencies := by
  rcases mem_deps_add (h : i ∈ (a + -b).dependencies) with h | h
  · exact Or.inl h
  · exact Or.inr (mem_deps_neg h)

theorem mem_deps_ofElem {c : Elem p} {i : Wire} (h : i ∈ (ofElem c).dependencies) : i = ONE := by
  obtain ⟨c, hc⟩ := mem_deps_new h
  simp at hc; exact hc.1

theorem mem_deps_one {i : Wire} (h : i ∈ (1 : Expression p).dependencies) : i = ONE :=
  mem_deps_ofElem h

theorem not_mem_deps_zero {i : Wire} : i ∉ (0 : Expression p).dependencies := by
  intro h; exact absurd h (List.not_mem_nil)

theorem mem_deps_ofWire {i j : Wire} (h : j ∈ (ofWire i : Expression p).dependencies) : j = i := by
  obtain ⟨c, hc⟩ := mem_deps_new h
  simp at hc; exact hc.1

theorem mem_deps_sumOfExpressions {es : List (Expression p)} {i : Wire}
    (h : i ∈ (sumOfExpressions es).dependencies) : ∃ e ∈ es, i ∈ e.dependencies := by
  obtain ⟨c, hc⟩ := mem_deps_new h
  suffices H : ∀ (es : List (Expression p)) (m : BMap Wire (Elem p)) (c : Elem p),
      (i, c) ∈ es.foldl (fun m e => e.coefficients.foldl addEntry m) m →
      (∃ c, (i, c) ∈ m) ∨ ∃ e ∈ es, i ∈ e.dependencies by
    rcases H es [] c hc with ⟨c, h⟩ | h
    · simp at h
    · exact h
  intro es
  induction es with
  | nil => intro m c h; left; exact ⟨c, h⟩
  | cons e es ih =>
    intro m c h
    rcases ih _ _ h with ⟨c, h⟩ | ⟨e', h1, h2⟩
    · rcases mem_deps_foldl h with h | h
      · left; exact h
      · right; exact ⟨e, by simp, mem_deps.2 h⟩
    · right; exact ⟨e', by simp [h1], h2⟩

theorem mem_deps_sumOfWires {ws : List Wire} {i : Wire}
    (h : i ∈ (sumOfWires ws : Expression p).dependencies) : i ∈ ws := by
  obtain ⟨c, hc⟩ := mem_deps.1 h
  suffices H : ∀ (ws : List Wire) (m : BMap Wire (Elem p)) (c : Elem p),
      (i, c) ∈ (ws.map fun i => (i, (1 : Elem p))).foldl
        (fun m kv => BMap.insert Wire.cmp kv.1 kv.2 m) m →
      (∃ c, (i, c) ∈ m) ∨ i ∈ ws by
    rcases H ws [] c hc with ⟨c, h⟩ | h
    · simp at h
    · exact h
  intro ws
  induction ws with
  | nil => intro m c h; left; exact ⟨c, h⟩
  | cons j ws ih =>
    intro m c h
    rcases ih _ _ h with ⟨c, h⟩ | h
    · rcases mem_upsert_key _ _ _ _ _ _ h with h1 | ⟨kv', h1, h2⟩
      · right; simp only at h1; simp [h1]
      · left; exact ⟨kv'.2, by simp only at h2; rw [← h2]; exact h1⟩
    · right; simp [h]

/-- Evaluation only looks at the dependencies. -/
theorem eval_congr {w w' : Assign p} {e : Expression p}
    (h : ∀ i ∈ e.dependencies, w i = w' i) : e.eval w = e.eval w' := by
  unfold eval
  congr 1
  apply List.map_congr_left
  intro kv hkv
  rw [h kv.1 (mem_deps.2 ⟨kv.2, hkv⟩)]

/-! ### evaluation on partial maps -/

theorem foldlM_evaluate {v : WireValues p} {w : Assign p} (m : BMap Wire (Elem p)) (s : Elem p)
    (h : ∀ kv ∈ m, v kv.1 = some (w kv.1)) :
    m.foldlM (m := Option) (fun sum kv => do
      let x ← v.get kv.1
      return sum + x * kv.2) s = some (s + eval w ⟨m⟩) := by
  induction m generalizing s with
  | nil => simp
  | cons kv m ih =>
    rw [List.foldlM_cons]
    have h1 : v.get kv.1 = some (w kv.1) := h kv (by simp)
    rw [h1]
    simp only [Option.bind_eq_bind, Option.bind_some, Option.pure_def]
    have := ih (s + w kv.1 * kv.2) (fun kv' hkv' => h kv' (by simp [hkv']))
    simp only [Option.bind_eq_bind, Option.pure_def] at this
    rw [this, eval_cons, add_assoc]

theorem evaluate_eq {v : WireValues p} {w : Assign p} {e : Expression p}
    (h : ∀ i ∈ e.dependencies, v i = some (w i)) : e.evaluate v = some (e.eval w) := by
  unfold evaluate
  rw [foldlM_evaluate e.coefficients 0 (fun kv hkv => h kv.1 (mem_deps.2 ⟨kv.2, hkv⟩)), zero_add]

theorem evaluate_eq_none {v : WireValues p} {e : Expression p} {i : Wire}
    (hi : i ∈ e.dependencies) (h : v i = none) : e.evaluate v = none := by
  unfold evaluate
  obtain ⟨c, hc⟩ := mem_deps.1 hi
  generalize e.coefficients = m at hc
  generalize (0 : Elem p) = s
  induction m generalizing s with
  | nil => simp at hc
  | cons kv m ih =>
    rw [List.foldlM_cons]
    rcases List.mem_cons.1 hc with hc | hc
    · have : v.get kv.1 = none := by rw [← hc]; exact h
      rw [this]; rfl
    · cases hv : v.get kv.1 with
      | none => rfl
      | some x =>
        simp only [Option.bind_eq_bind, Option.bind_some, Option.pure_def]
        exact ih hc _

/-- A total assignment extending a partial map. -/
def _root_.R1CS.WireValues.total (v : WireValues p) : Assign p := fun i => (v i).getD 0

theorem evaluate_eq_some_iff {v : WireValues p} {e : Expression p} {x : Elem p} :
    e.evaluate v = some x ↔ (∀ i ∈ e.dependencies, (v i).isSome) ∧ x = e.eval v.total := by
  constructor
  · intro h
    have hall : ∀ i ∈ e.dependencies, (v i).isSome := by
      intro i hi
      by_contra hn
      have : v i = none := by simpa using hn
      rw [evaluate_eq_none hi this] at h
      exact absurd h (by simp)
    refine ⟨hall, ?_⟩
    rw [evaluate_eq (w := v.total)] at h
    · exact (Option.some.inj h).symm
    · intro i hi
      obtain ⟨y, hy⟩ := Option.isSome_iff_exists.1 (hall i hi)
      simp [WireValues.total, hy]
  · rintro ⟨hall, rfl⟩
    apply evaluate_eq
    intro i hi
    obtain ⟨y, hy⟩ := Option.isSome_iff_exists.1 (hall i hi)
    simp [WireValues.total, hy]

theorem asConstant_eq_some {e : Expression p} {c : Elem p} (h : e.asConstant = some c) :
    e.coefficients = [(ONE, c)] := by
  unfold asConstant at h
  split at h
  · next h1 =>
    unfold numTerms at h1
    obtain ⟨kv, hkv⟩ := List.length_eq_one_iff.1 h1
    rw [hkv] at h
    unfold BMap.get at h
    split at h
    · next h2 =>
      rw [hkv]
      have h3 := (Wire.cmp_eq_iff _ _).1 h2
      have h4 := Option.some.inj h
      rw [h3, ← h4]
    · simp [BMap.get] at h
  · simp at h

theorem eval_of_asConstant {w : Assign p} (h1 : w ONE = 1) {e : Expression p} {c : Elem p}
    (h : e.asConstant = some c) : e.eval w = c := by
  have := asConstant_eq_some h
  unfold eval
  rw [this]; simp [h1]

end Expression

/-! ### Booleans -/

theorem isBool_zero : IsBool (0 : Elem p) := Or.inl rfl
theorem isBool_one : IsBool (1 : Elem p) := Or.inr rfl

theorem isBool_ofBool (b : Bool) : IsBool (Elem.ofBool b : Elem p) := by
  cases b
  · exact Or.inl rfl
  · exact Or.inr rfl

theorem isBool_iff (x : Elem p) : IsBool x ↔ x * (x - 1) = 0 := by
  unfold IsBool
  rw [mul_eq_zero, sub_eq_zero]

theorem IsBool.n_le {x : Elem p} (h : IsBool x) : x.n ≤ 1 := by
  rcases h with h | h <;> simp [h]

theorem IsBool.n_eq {x : Elem p} (h : IsBool x) : x.n = 0 ∨ x.n = 1 := by
  rcases h with h | h <;> simp [h]

theorem IsBool.eq_ofBool {x : Elem p} (h : IsBool x) : x = Elem.ofBool (decide (x = 1)) := by
  rcases h with h | h
  · simp [h, Elem.ofBool_false]
  · simp [h, Elem.ofBool_true]

namespace BooleanExpression

@[simp] theorem eval_mk (w : Assign p) (e : Expression p) : eval w ⟨e⟩ = e.eval w := rfl

@[simp] theorem eval_ofWire (w : Assign p) (i : BooleanWire) : eval w (ofWire i) = w i.wire := by
  simp [ofWire]

theorem eval_ofBool {w : Assign p} (h : w ONE = 1) (b : Bool) : eval w (ofBool b) = Elem.ofBool b :=
  Expression.eval_ofBool h b

theorem evaluate_eq {v : WireValues p} {w : Assign p} {e : BooleanExpression p}
    (h : ∀ i ∈ e.dependencies, v i = some (w i)) (hb : IsBool (e.eval w)) :
    e.evaluate v = some (decide (e.eval w = 1)) := by
  unfold evaluate
  rw [Expression.evaluate_eq (w := w) h]
  simp only [Option.bind_eq_bind, Option.bind_some]
  change (if (e.eval w).isZero = Bool.true then _ else _) = _
  rcases hb with hb | hb
  · simp [hb, Elem.isZero]
  · simp [hb, Elem.isZero, Elem.isOne]
    have : (1 : Elem p).isOne = Bool.true := by simp [Elem.isOne]
    unfold eval at hb
    simp [hb, this]

end BooleanExpression

end R1CS
