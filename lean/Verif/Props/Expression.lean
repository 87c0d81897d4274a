import Verif.Lemmas.Gadgets
import Verif.Spec.Examples
import Mathlib.Data.List.Dedup

/-!
# C09-C14, C73: expressions and wire values
-/

namespace R1CS

variable {p : ℕ} [hp : Fact p.Prime]

/-! ## C73 -/

/-- C73: the order on wires is a total order with the constant wire last. -/
theorem C73_wire_order (a b c : Wire) :
    (Wire.cmp a b = .eq ↔ a = b) ∧
    (Wire.cmp b a = (Wire.cmp a b).swap) ∧
    (Wire.cmp a b = .lt → Wire.cmp b c = .lt → Wire.cmp a c = .lt) ∧
    (a ≠ ONE → Wire.cmp a ONE = .lt) ∧
    (a ≠ ONE → b ≠ ONE → Wire.cmp a b = compare a b) := by
  refine ⟨Wire.cmp_eq_iff a b, ?_, ?_, ?_, ?_⟩
  · unfold Wire.cmp
    by_cases ha : a = ONE <;> by_cases hb : b = ONE <;> simp [ha, hb, Nat.compare_swap]
  · unfold Wire.cmp
    by_cases ha : a = ONE <;> by_cases hb : b = ONE <;> by_cases hc : c = ONE <;>
      simp [ha, hb, hc, Nat.compare_eq_lt]
    exact lt_trans
  · intro ha; simp [Wire.cmp, ha]
  · intro ha hb; simp [Wire.cmp, ha, hb]

example : Wire.cmp 5 ONE = .lt ∧ Wire.cmp 5 7 = .lt ∧ Wire.cmp ONE ONE = .eq := by decide

/-! ## C09 -/

namespace Expression

theorem total_agree {v : WireValues p} {e : Expression p} {x : Elem p}
    (h : e.evaluate v = some x) : (∀ i ∈ e.dependencies, v i = some (v.total i)) ∧
      x = e.eval v.total := by
  obtain ⟨h1, h2⟩ := evaluate_eq_some_iff.1 h
  refine ⟨fun i hi => ?_, h2⟩
  obtain ⟨y, hy⟩ := Option.isSome_iff_exists.1 (h1 i hi)
  simp [WireValues.total, hy]

theorem mapM_div (h2 : 2 < p) (c : Elem p) (hc : c ≠ 0) (m : BMap Wire (Elem p)) :
    List.mapM (m := Option) (fun (kv : Wire × Elem p) => (kv.2.div c).map fun x => (kv.1, x)) m
      = some (m.map fun kv => (kv.1, kv.2 * c⁻¹)) := by
  induction m with
  | nil => rfl
  | cons kv m ih =>
    rw [List.mapM_cons, ih, Elem.div_eq h2 _ _ hc]
    simp [div_eq_mul_inv]

theorem divElem_eq (h2 : 2 < p) (e : Expression p) (c : Elem p) (hc : c ≠ 0) :
    e.divElem c = some (e.mulElem c⁻¹) := by
  unfold divElem mulElem
  rw [mapM_div h2 c hc]; rfl

theorem evaluate_list {v : WireValues p} : ∀ {es : List (Expression p)} {xs : List (Elem p)},
    es.map (fun e => e.evaluate v) = xs.map some →
    (∀ e ∈ es, ∀ i ∈ e.dependencies, v i = some (v.total i)) ∧ xs = es.map (eval v.total)
  | [], [], _ => ⟨by simp, rfl⟩
  | [], _ :: _, h => by simp at h
  | _ :: _, [], h => by simp at h
  | e :: es, x :: xs, h => by
    simp only [List.map_cons, List.cons.injEq] at h
    obtain ⟨h1, h2⟩ := evaluate_list h.2
    obtain ⟨g1, g2⟩ := total_agree h.1
    constructor
    · intro e' he'
      rcases List.mem_cons.1 he' with rfl | h'
      · exact g1
      · exact h1 e' h'
    · simp [g2, ← h2]

end Expression

open Expression in
/-- C09: expression operators evaluate as linear combinations, whenever the operands can be
evaluated. -/
theorem C09_linear (v : WireValues p) (e f : Expression p) (c x y : Elem p)
    (hx : e.evaluate v = some x) (hy : f.evaluate v = some y) :
    (e + f).evaluate v = some (x + y) ∧ (e - f).evaluate v = some (x - y) ∧
    (-e).evaluate v = some (-x) ∧ (e.mulElem c).evaluate v = some (x * c) ∧
    (0 : Expression p).evaluate v = some 0 ∧
    (2 < p → c ≠ 0 → ∃ d, e.divElem c = some d ∧ d.evaluate v = some (x / c)) ∧
    (∀ k < p, ∃ d, e.mulNat k = some d ∧ d.evaluate v = some (x * (k : Elem p))) := by
  obtain ⟨h1, rfl⟩ := total_agree hx
  obtain ⟨h2, rfl⟩ := total_agree hy
  refine ⟨?_, ?_, ?_, ?_, rfl, ?_, ?_⟩
  · rw [← eval_add]
    exact evaluate_eq fun i hi => (mem_deps_add hi).elim (h1 i) (h2 i)
  · rw [← eval_sub]
    exact evaluate_eq fun i hi => (mem_deps_sub hi).elim (h1 i) (h2 i)
  · rw [← eval_neg]
    exact evaluate_eq fun i hi => h1 i (mem_deps_neg hi)
  · rw [← eval_mulElem]
    exact evaluate_eq fun i hi => h1 i (mem_deps_mulElem hi)
  · intro hp2 hc
    refine ⟨_, divElem_eq hp2 e c hc, ?_⟩
    rw [div_eq_mul_inv, ← eval_mulElem]
    exact evaluate_eq fun i hi => h1 i (mem_deps_mulElem hi)
  · intro k hk
    refine ⟨_, mulNat_eq e hk, ?_⟩
    rw [← eval_mulElem]
    exact evaluate_eq fun i hi => h1 i (mem_deps_mulElem hi)

open Expression in
/-- C09 for `sum_of_expressions`. -/
theorem C09_sum (v : WireValues p) (es : List (Expression p)) (xs : List (Elem p))
    (h : es.map (fun e => e.evaluate v) = xs.map some) :
    (sumOfExpressions es).evaluate v = some xs.sum := by
  obtain ⟨h1, rfl⟩ := evaluate_list h
  rw [← eval_sumOfExpressions]
  apply evaluate_eq
  intro i hi
  obtain ⟨e, he, hie⟩ := mem_deps_sumOfExpressions hi
  exact h1 e he i hie

open Expression in
/-- C09 for the constructors: wires, constants. -/
theorem C09_constructors (v : WireValues p) (i : Wire) (x c : Elem p) (b : Bool) (k : ℕ)
    (h1 : v ONE = some 1) (hi : v i = some x) :
    (ofWire i).evaluate v = some x ∧ (ofElem c).evaluate v = some c ∧
    (1 : Expression p).evaluate v = some 1 ∧ (negOne : Expression p).evaluate v = some (-1) ∧
    (ofBool b : Expression p).evaluate v = some (if b then 1 else 0) ∧
    (k < p → ∃ e, (ofNat? k : Option (Expression p)) = some e ∧
      e.evaluate v = some (k : Elem p)) := by
  have hONE : v.total ONE = 1 := by simp [WireValues.total, h1]
  have hc : ∀ c : Elem p, (ofElem c).evaluate v = some c := by
    intro c
    conv_rhs => rw [← eval_ofElem hONE c]
    apply evaluate_eq
    intro j hj
    rw [mem_deps_ofElem hj, h1, hONE]
  refine ⟨?_, hc c, hc 1, ?_, ?_, ?_⟩
  · have : v.total i = x := by simp [WireValues.total, hi]
    rw [← this, ← eval_ofWire v.total i]
    apply evaluate_eq
    intro j hj
    rw [mem_deps_ofWire hj, hi, this]
  · exact (C09_linear v 1 1 1 1 1 (hc 1) (hc 1)).2.2.1
  · have := hc (Elem.ofBool b)
    cases b <;> exact this
  · intro hk
    refine ⟨ofElem ⟨k, hk⟩, ?_, ?_⟩
    · unfold ofNat?
      rw [Elem.ofNat?_eq_some hk]; rfl
    · rw [hc, Elem.mk_eq_natCast hk]

example : ((Expression.ofWire 1 + Expression.ofWire 2 : Expression 7)).evaluate
    (fun i => some (if i = 1 then 3 else 5)) = some 1 := by decide

open Expression in
/-- C09 for the literals: the zero expression reads no wire at all, the two truth values are those of
the constants. -/
theorem C09_literals (v : WireValues p) :
    (Expression.zero : Expression p).evaluate v = some 0 ∧
    (v ONE = some 1 → (BooleanExpression.false : BooleanExpression p).evaluate v = some false ∧
      (BooleanExpression.true : BooleanExpression p).evaluate v = some true) := by
  refine ⟨rfl, fun h1 => ?_⟩
  have h := fun b => (C09_constructors v ONE 1 1 b 0 h1 h1).2.2.2.2.1
  constructor
  · have e := h false
    show ((ofBool false : Expression p).evaluate v >>= _) = _
    rw [e]
    simp [Elem.isZero_iff]
  · have e := h true
    show ((ofBool true : Expression p).evaluate v >>= _) = _
    rw [e]
    simp [Elem.isZero_iff, Elem.isOne_iff]

example : (BooleanExpression.true : BooleanExpression 7).evaluate WireValues.new = some true :=
  ((C09_literals _).2 rfl).2

/-! ## C10 -/

/-- Each wire once, in wire order, and no zero coefficients. -/
def Expression.Canonical (e : Expression p) : Prop :=
  e.coefficients.Pairwise (fun a b => Wire.cmp a.1 b.1 = .lt) ∧ ∀ kv ∈ e.coefficients, kv.2 ≠ 0

/-- All expressions obtainable through the public constructors and operators of
src/expression.rs. -/
inductive Expression.Built : Expression p → Prop
  | new (m : BMap Wire (Elem p)) (h : m.Pairwise (fun a b => Wire.cmp a.1 b.1 = .lt)) :
      Built (Expression.new m)
  | sumOfWires (ws : List Wire) : Built (Expression.sumOfWires ws)
  | sumOfExpressions (es : List (Expression p)) (h : ∀ e ∈ es, Built e) :
      Built (Expression.sumOfExpressions es)
  | zero : Built 0
  | ofElem (c : Elem p) : Built (Expression.ofElem c)
  | ofWire (i : Wire) : Built (Expression.ofWire i)
  | neg {e : Expression p} (h : Built e) : Built (-e)
  | add {e f : Expression p} (he : Built e) (hf : Built f) : Built (e + f)
  | sub {e f : Expression p} (he : Built e) (hf : Built f) : Built (e - f)
  | mulElem {e : Expression p} (c : Elem p) (h : Built e) : Built (e.mulElem c)
  | mulNat {e f : Expression p} (k : ℕ) (h : Built e) (hf : e.mulNat k = some f) : Built f
  | divElem {e f : Expression p} (c : Elem p) (h : Built e) (hf : e.divElem c = some f) : Built f
  | divNat {e f : Expression p} (k : ℕ) (h : Built e) (hf : e.divNat k = some f) : Built f
  | joinAllowingOverflow {e : BinaryExpression p} {f : Expression p}
      (h : ∀ b ∈ e.bits, Built b.expression) (hf : e.joinAllowingOverflow = some f) : Built f

namespace Expression

/-- Sorted by wire. -/
abbrev Sorted (m : BMap Wire (Elem p)) : Prop := m.Pairwise (fun a b => Wire.cmp a.1 b.1 = .lt)

theorem cmp_lt_trans {a b c : Wire} (h1 : Wire.cmp a b = .lt) (h2 : Wire.cmp b c = .lt) :
    Wire.cmp a c = .lt := (C73_wire_order a b c).2.2.1 h1 h2

theorem cmp_gt {a b : Wire} (h : Wire.cmp a b = .gt) : Wire.cmp b a = .lt := by
  rw [(C73_wire_order a b b).2.1, h]; rfl

theorem Sorted.upsert {m : BMap Wire (Elem p)} (h : Sorted m) (k : Wire) (d : Elem p)
    (f : Elem p → Elem p) : Sorted (BMap.upsert Wire.cmp k d f m) := by
  induction m with
  | nil => simp [BMap.upsert, Sorted]
  | cons kv m ih =>
    obtain ⟨h1, h2⟩ := List.pairwise_cons.1 h
    unfold BMap.upsert
    cases hc : Wire.cmp k kv.1 with
    | lt =>
      refine List.pairwise_cons.2 ⟨?_, h⟩
      intro kv' hkv'
      rcases List.mem_cons.1 hkv' with rfl | h'
      · exact hc
      · exact cmp_lt_trans hc (h1 kv' h')
    | eq => exact List.pairwise_cons.2 ⟨fun kv' h' => h1 kv' h', h2⟩
    | gt =>
      refine List.pairwise_cons.2 ⟨?_, ih h2⟩
      intro kv' hkv'
      rcases mem_upsert_key _ _ _ _ _ _ hkv' with h' | ⟨kv'', h1', h2'⟩
      · rw [h']; exact cmp_gt hc
      · rw [← h2']; exact h1 kv'' h1'

theorem Sorted.foldl_addEntry {l m : BMap Wire (Elem p)} (h : Sorted m) :
    Sorted (l.foldl addEntry m) := by
  induction l generalizing m with
  | nil => exact h
  | cons kv l ih => exact ih (h.upsert _ _ _)

theorem canonical_new {m : BMap Wire (Elem p)} (h : Sorted m) : (new m).Canonical := by
  refine ⟨h.sublist List.filter_sublist, ?_⟩
  intro kv hkv
  have := (List.mem_filter.1 hkv).2
  exact (Elem.isNonzero_iff _).1 this

theorem Sorted.map {m : BMap Wire (Elem p)} (h : Sorted m) (f : Elem p → Elem p) :
    Sorted (m.map fun kv => (kv.1, f kv.2)) := by
  unfold Sorted
  rw [List.pairwise_map]
  exact h

theorem mapM_keys {g : Elem p → Option (Elem p)} : ∀ {m m' : BMap Wire (Elem p)},
    List.mapM (m := Option) (fun (kv : Wire × Elem p) => (g kv.2).map fun x => (kv.1, x)) m
      = some m' → m'.map (·.1) = m.map (·.1)
  | [], m', h => by simp at h; simp [h]
  | kv :: m, m', h => by
    rw [List.mapM_cons] at h
    cases hg : g kv.2 with
    | none => simp [hg] at h
    | some x =>
      cases hm : List.mapM (m := Option)
        (fun (kv : Wire × Elem p) => (g kv.2).map fun x => (kv.1, x)) m with
      | none => simp [hg, hm] at h
      | some l =>
        simp [hg, hm] at h
        rw [← h]
        simp [mapM_keys hm]

theorem sorted_of_keys {m m' : BMap Wire (Elem p)} (h : Sorted m)
    (hk : m'.map (·.1) = m.map (·.1)) : Sorted m' := by
  have h1 : (m.map (·.1)).Pairwise (fun a b => Wire.cmp a b = .lt) := List.pairwise_map.2 h
  rw [← hk] at h1
  exact List.pairwise_map.1 h1

theorem canonical_add {e f : Expression p} (he : e.Canonical) : (e + f).Canonical :=
  canonical_new (Sorted.foldl_addEntry he.1)

theorem canonical_mulElem {e : Expression p} (c : Elem p) (he : e.Canonical) :
    (e.mulElem c).Canonical := canonical_new (Sorted.map he.1 (· * c))

theorem canonical_joinFrom : ∀ (bs : List (BooleanExpression p)) (i : ℕ) (s f : Expression p),
    s.Canonical → BinaryExpression.joinFrom i s bs = some f → f.Canonical
  | [], i, s, f, hs, h => by
    rw [BinaryExpression.joinFrom, Option.some.injEq] at h; rw [← h]; exact hs
  | b :: bs, i, s, f, hs, h => by
    rw [BinaryExpression.joinFrom] at h
    cases hc : (1 : Elem p).shl i with
    | none => simp [hc] at h
    | some c =>
      simp [hc] at h
      exact canonical_joinFrom bs _ _ f (canonical_add hs) h

end Expression

open Expression in
/-- C10: every expression built through the public interface is canonical. -/
theorem C10_canonical (e : Expression p) (h : e.Built) : e.Canonical := by
  have hdiv : ∀ {g : Elem p → Option (Elem p)} {e f : Expression p}, e.Canonical →
      (List.mapM (m := Option) (fun (kv : Wire × Elem p) => (g kv.2).map fun x => (kv.1, x))
        e.coefficients).map Expression.new = some f → f.Canonical := by
    intro g e f he hf
    rw [Option.map_eq_some_iff] at hf
    obtain ⟨m, h1, rfl⟩ := hf
    exact canonical_new (sorted_of_keys he.1 (mapM_keys h1))
  induction h with
  | new m h => exact canonical_new h
  | sumOfWires ws =>
    unfold Expression.sumOfWires BMap.ofList
    suffices H : ∀ (l m : BMap Wire (Elem p)), (∀ kv ∈ l, kv.2 = 1) →
        Sorted m → (∀ kv ∈ m, kv.2 ≠ 0) →
        (⟨l.foldl (fun m kv => BMap.insert Wire.cmp kv.1 kv.2 m) m⟩ : Expression p).Canonical by
      refine H _ [] ?_ List.Pairwise.nil (by simp)
      intro kv hkv
      obtain ⟨i, _, rfl⟩ := List.mem_map.1 hkv
      rfl
    intro l
    induction l with
    | nil => intro m _ h1 h2; exact ⟨h1, h2⟩
    | cons kv l ih =>
      intro m hl h1 h2
      refine ih _ (fun kv' h' => hl kv' (by simp [h'])) (Sorted.upsert h1 _ _ _) ?_
      have hkv1 := hl kv (by simp)
      clear ih hl h1
      unfold BMap.insert
      induction m with
      | nil => simp [BMap.upsert, hkv1]
      | cons kv' m ih =>
        unfold BMap.upsert
        intro x hx
        have ih' := ih (fun y hy => h2 y (by simp [hy]))
        cases hc : Wire.cmp kv.1 kv'.1 with
        | lt =>
          simp only [hc, List.mem_cons] at hx
          rcases hx with rfl | rfl | hx
          · simp [hkv1]
          · exact h2 _ (by simp)
          · exact h2 x (by simp [hx])
        | eq =>
          simp only [hc, List.mem_cons] at hx
          rcases hx with rfl | hx
          · simp [hkv1]
          · exact h2 x (by simp [hx])
        | gt =>
          simp only [hc, List.mem_cons] at hx
          rcases hx with rfl | hx
          · exact h2 _ (by simp)
          · exact ih' x hx
  | sumOfExpressions es _ _ =>
    apply canonical_new
    suffices H : ∀ (es : List (Expression p)) (m : BMap Wire (Elem p)), Sorted m →
        Sorted (es.foldl (fun m e => e.coefficients.foldl addEntry m) m) from
      H es [] List.Pairwise.nil
    intro es
    induction es with
    | nil => intro m h; exact h
    | cons e es ih => intro m h; exact ih _ (Sorted.foldl_addEntry h)
  | zero => exact ⟨List.Pairwise.nil, fun kv h => absurd h List.not_mem_nil⟩
  | ofElem c => exact canonical_new (List.pairwise_singleton _ _)
  | ofWire i => exact canonical_new (List.pairwise_singleton _ _)
  | neg _ ih => exact canonical_mulElem _ ih
  | add _ _ ih _ => exact canonical_add ih
  | sub _ _ ih _ => exact canonical_add ih
  | mulElem c _ ih => exact canonical_mulElem c ih
  | mulNat k _ hf ih => exact hdiv (g := fun x => x.mulNat k) ih hf
  | divElem c _ hf ih => exact hdiv (g := fun x => x.div c) ih hf
  | divNat k _ hf ih => exact hdiv (g := fun x => x.divNat k) ih hf
  | joinAllowingOverflow _ hf _ =>
    exact canonical_joinFrom _ _ _ _ ⟨List.Pairwise.nil, fun kv h => absurd h List.not_mem_nil⟩ hf

namespace Expression

/-- The coefficient of a wire. -/
def coeff (e : Expression p) (i : Wire) : Elem p :=
  ((e.coefficients.filter fun kv => decide (kv.1 = i)).map (·.2)).sum

theorem coeff_cons (kv : Wire × Elem p) (m : BMap Wire (Elem p)) (i : Wire) :
    coeff ⟨kv :: m⟩ i = (if kv.1 = i then kv.2 else 0) + coeff ⟨m⟩ i := by
  unfold coeff
  by_cases h : kv.1 = i <;> simp [List.filter_cons, h]

theorem eval_indicator (e : Expression p) (i : Wire) (x y : Elem p) (w : Assign p) :
    e.eval (fun j => if j = i then x else w j) - e.eval (fun j => if j = i then y else w j)
      = (x - y) * e.coeff i := by
  obtain ⟨m⟩ := e
  induction m with
  | nil => simp [eval, coeff]
  | cons kv m ih =>
    rw [eval_cons, eval_cons, coeff_cons, mul_add, ← ih]
    by_cases h : kv.1 = i
    · simp [h]; ring
    · simp [h]

theorem coeff_eq_zero {m : BMap Wire (Elem p)} {i : Wire} (h : ∀ kv ∈ m, kv.1 ≠ i) :
    coeff ⟨m⟩ i = 0 := by
  unfold coeff
  rw [List.filter_eq_nil_iff.2]
  · rfl
  · intro kv hkv; simpa using h kv hkv

theorem cmp_lt_ne {a b : Wire} (h : Wire.cmp a b = .lt) : a ≠ b := by
  intro hab
  have := (Wire.cmp_eq_iff a b).2 hab
  rw [h] at this
  exact absurd this (by simp)

theorem coeff_of_mem {e : Expression p} (h : e.Canonical) {kv : Wire × Elem p}
    (hkv : kv ∈ e.coefficients) : e.coeff kv.1 = kv.2 := by
  obtain ⟨m⟩ := e
  obtain ⟨h1, h2⟩ := h
  simp only at h1 h2 hkv
  clear h2
  induction m with
  | nil => simp at hkv
  | cons kv' m ih =>
    obtain ⟨g1, g2⟩ := List.pairwise_cons.1 h1
    rw [coeff_cons]
    rcases List.mem_cons.1 hkv with rfl | hkv
    · rw [if_pos rfl, coeff_eq_zero, add_zero]
      intro kv'' h''
      exact (cmp_lt_ne (g1 kv'' h'')).symm
    · rw [if_neg (cmp_lt_ne (g1 kv hkv)), zero_add]
      exact ih hkv g2

theorem canonical_ext {e f : Expression p} (he : e.Canonical) (hf : f.Canonical)
    (h : ∀ i, e.coeff i = f.coeff i) : e = f := by
  have hmem : ∀ {e f : Expression p}, e.Canonical → f.Canonical → (∀ i, e.coeff i = f.coeff i) →
      ∀ kv ∈ e.coefficients, kv ∈ f.coefficients := by
    intro e f he hf h kv hkv
    have h1 := coeff_of_mem he hkv
    have h2 := he.2 kv hkv
    rw [h] at h1
    have : ∃ kv' ∈ f.coefficients, kv'.1 = kv.1 := by
      by_contra hne
      push Not at hne
      have : f.coeff kv.1 = 0 := coeff_eq_zero hne
      rw [this] at h1
      exact h2 h1.symm
    obtain ⟨kv', g1, g2⟩ := this
    have h3 := coeff_of_mem hf g1
    rw [g2, h1] at h3
    have : kv = kv' := Prod.ext g2.symm h3
    rw [this]; exact g1
  obtain ⟨m⟩ := e
  obtain ⟨m'⟩ := f
  congr 1
  have hperm : List.Perm m m' := by
    have nd : ∀ {m : BMap Wire (Elem p)}, Sorted m → m.Nodup := fun hs =>
      List.Pairwise.imp (S := fun a b => a ≠ b) (fun {a b} hab (hEq : a = b) => cmp_lt_ne hab (by rw [hEq])) hs
    rw [List.perm_ext_iff_of_nodup (nd he.1) (nd hf.1)]
    intro kv
    exact ⟨hmem he hf h kv, hmem hf he (fun i => (h i).symm) kv⟩
  refine List.Perm.eq_of_pairwise ?_ he.1 hf.1 hperm
  intro a b ha hb hab hba
  exact absurd (cmp_lt_trans hab hba) (fun h => cmp_lt_ne h rfl)

end Expression

open Expression in
/-- C10: canonical expressions are equal exactly when they evaluate equally on every assignment
(with the constant wire equal to 1). -/
theorem C10_equality (e f : Expression p) (he : e.Built) (hf : f.Built) :
    e = f ↔ ∀ w : Assign p, w ONE = 1 → e.eval w = f.eval w := by
  constructor
  · rintro rfl w _; rfl
  · intro h
    have h1 : ∀ i, i ≠ ONE → e.coeff i = f.coeff i := by
      intro i hi
      have a1 := eval_indicator e i 1 0 (fun _ => 1)
      have a2 := eval_indicator f i 1 0 (fun _ => 1)
      have hi' : ¬ ONE = i := fun h => hi h.symm
      rw [h _ (by simp [hi']), h _ (by simp [hi'])] at a1
      rw [a1] at a2
      simpa using a2
    apply canonical_ext (C10_canonical e he) (C10_canonical f hf)
    intro i
    by_cases hi : i = ONE
    · -- all other coefficients agree, so the constant terms do
      subst hi
      have key : ∀ e : Expression p, e.eval (fun j => if j = ONE then 1 else 0) = e.coeff ONE := by
        intro e
        have := eval_indicator e ONE 1 0 (fun _ => 0)
        have h0 : e.eval (fun j => if j = ONE then (0 : Elem p) else 0) = 0 := by
          obtain ⟨m⟩ := e
          induction m with
          | nil => rfl
          | cons kv m ih =>
            rw [eval_cons, ih (eval_indicator _ _ _ _ _)]; simp
        rw [h0] at this
        simpa using this
      rw [← key e, ← key f]
      exact h _ (by simp)
    · exact h1 i hi

example : (Expression.ofWire 2 + Expression.ofWire 1 - Expression.ofWire 2 : Expression 7)
    = Expression.ofWire 1 := by decide

/-! ## C11 -/

open Expression in
/-- C11: evaluation panics exactly when a dependency has no value; it only reads the
dependencies. -/
theorem C11_reads (e : Expression p) (v v' : WireValues p) :
    (e.evaluate v = none ↔ ∃ i ∈ e.dependencies, v i = none) ∧
    ((∀ i ∈ e.dependencies, v i = v' i) → e.evaluate v = e.evaluate v') := by
  have key : ∀ v : WireValues p, e.evaluate v = none ↔ ∃ i ∈ e.dependencies, v i = none := by
    intro v
    constructor
    · intro h
      by_contra hne
      push Not at hne
      rw [evaluate_eq (w := v.total) (fun i hi => ?_)] at h
      · exact absurd h (by simp)
      · obtain ⟨y, hy⟩ := Option.ne_none_iff_exists'.1 (hne i hi)
        simp [WireValues.total, hy]
    · rintro ⟨i, hi, h⟩
      exact evaluate_eq_none hi h
  refine ⟨key v, fun h => ?_⟩
  cases hv : e.evaluate v with
  | none =>
    obtain ⟨i, hi, h0⟩ := (key v).1 hv
    exact ((key v').2 ⟨i, hi, by rw [← h i hi]; exact h0⟩).symm
  | some x =>
    obtain ⟨h1, rfl⟩ := total_agree hv
    symm
    exact evaluate_eq fun i hi => by rw [← h i hi]; exact h1 i hi

open Expression in
/-- C11: every dependency matters: changing the value of a single dependency changes the
result. -/
theorem C11_every_dependency_matters (e : Expression p) (he : e.Built) (w : Assign p) (i : Wire)
    (hi : i ∈ e.dependencies) (x : Elem p) (hx : x ≠ w i) :
    e.eval (fun j => if j = i then x else w j) ≠ e.eval w := by
  intro h
  obtain ⟨c, hc⟩ := mem_deps.1 hi
  have h1 := coeff_of_mem (C10_canonical e he) hc
  have h2 := (C10_canonical e he).2 _ hc
  have h3 := eval_indicator e i x (w i) w
  have h4 : (fun j => if j = i then w i else w j) = w := by
    funext j; by_cases hj : j = i <;> simp [hj]
  rw [h4, h, sub_self] at h3
  rcases mul_eq_zero.1 h3.symm with h5 | h5
  · exact hx (sub_eq_zero.1 h5)
  · rw [h1] at h5; exact h2 h5

example : (2 : Wire) ∈ (Expression.ofWire 2 + Expression.ofWire 1 : Expression 7).dependencies := by
  decide

/-! ## C12 -/

open Expression in
/-- C12 (partial: missing is the constant 0): a non-zero constant is recognised, and whatever is
recognised is that constant. -/
theorem C12_as_constant_partial (e : Expression p) (he : e.Built) (c : Elem p) (hc : c ≠ 0) :
    e.asConstant = some c ↔ ∀ w : Assign p, w ONE = 1 → e.eval w = c := by
  constructor
  · intro h w h1; exact eval_of_asConstant h1 h
  · intro h
    have : e = ofElem c := by
      rw [C10_equality e _ he (.ofElem c)]
      intro w h1
      rw [h w h1, eval_ofElem h1]
    rw [this]
    have hnz : c.isNonzero = true := (Elem.isNonzero_iff _).2 hc
    simp [ofElem, new, asConstant, numTerms, hnz, BMap.get, Wire.cmp]

/-- C12: what is returned is never 0 and always right. -/
theorem C12_as_constant_sound (e : Expression p) (he : e.Built) (c : Elem p)
    (h : e.asConstant = some c) : c ≠ 0 ∧ ∀ w : Assign p, w ONE = 1 → e.eval w = c := by
  refine ⟨?_, fun w h1 => Expression.eval_of_asConstant h1 h⟩
  have h1 := Expression.asConstant_eq_some h
  exact (C10_canonical e he).2 (ONE, c) (by rw [h1]; simp)

/-- C12 is false: the zero expression is the constant 0 but is not recognised, in every field. -/
theorem C12_as_constant_refuted :
    (Expression.ofElem 0 : Expression p).asConstant = none ∧
    (∀ w : Assign p, (Expression.ofElem 0 : Expression p).eval w = 0) := by
  have h : (Expression.ofElem 0 : Expression p) = ⟨[]⟩ := by
    simp [Expression.ofElem, Expression.new, Elem.isNonzero]
  rw [h]
  exact ⟨rfl, fun w => rfl⟩

example : (Expression.ofElem 3 : Expression 7).asConstant = some 3 ∧
    (Expression.ofWire 1 + 1 : Expression 7).asConstant = none := by decide

/-! ## C13 -/

open Expression in
/-- C13 (partial: lists without repeated wires). -/
theorem C13_sum_of_wires_partial (w : Assign p) (ws : List Wire) (h : ws.Nodup) :
    (sumOfWires ws : Expression p).eval w = (ws.map w).sum := eval_sumOfWires w ws h

theorem insert_existing (k : Wire) (m : BMap Wire (Elem p)) (hs : Expression.Sorted m)
    (h : (k, (1 : Elem p)) ∈ m) : BMap.insert Wire.cmp k 1 m = m := by
  unfold BMap.insert
  induction m with
  | nil => simp at h
  | cons kv m ih =>
    obtain ⟨h1, h2⟩ := List.pairwise_cons.1 hs
    unfold BMap.upsert
    rcases List.mem_cons.1 h with rfl | h
    · simp only [(Wire.cmp_eq_iff k k).2 rfl]
    · have hlt := h1 _ h
      have : Wire.cmp k kv.1 = .gt := by
        have h := (C73_wire_order kv.1 k k).2.1
        simp only at hlt
        rw [hlt] at h; exact h
      simp only [this, ih h2 h]

/-- C13: what is computed in general: repeated wires count once. -/
theorem C13_sum_of_wires_dedup (w : Assign p) (ws : List Wire) :
    (Expression.sumOfWires ws : Expression p).eval w = (ws.dedup.map w).sum := by
  -- inserting in any order, with repetitions, gives the same map
  suffices H : (Expression.sumOfWires ws : Expression p) = Expression.sumOfWires ws.dedup by
    rw [H]; exact Expression.eval_sumOfWires w _ (List.nodup_dedup ws)
  have hcan : ∀ l : List Wire, (Expression.sumOfWires l : Expression p).Canonical :=
    fun l => C10_canonical _ (.sumOfWires l)
  have hmem : ∀ (l : List Wire) (m : BMap Wire (Elem p)),
      (∀ kv ∈ m, kv.2 = (1 : Elem p)) →
      (∀ kv, kv ∈ (l.map fun i => (i, (1 : Elem p))).foldl
        (fun m kv => BMap.insert Wire.cmp kv.1 kv.2 m) m → kv.2 = 1) ∧
      ∀ i, (∃ c, (i, c) ∈ (l.map fun i => (i, (1 : Elem p))).foldl
        (fun m kv => BMap.insert Wire.cmp kv.1 kv.2 m) m) ↔ (i ∈ l ∨ ∃ c, (i, c) ∈ m) := by
    have ins : ∀ (k : Wire) (m : BMap Wire (Elem p)), (∀ kv ∈ m, kv.2 = (1 : Elem p)) →
        (∀ kv ∈ BMap.insert Wire.cmp k 1 m, kv.2 = 1) ∧
        ∀ i, (∃ c, (i, c) ∈ BMap.insert Wire.cmp k 1 m) ↔ (i = k ∨ ∃ c, (i, c) ∈ m) := by
      intro k m
      unfold BMap.insert
      induction m with
      | nil => intro _; simp [BMap.upsert]
      | cons kv m ih =>
        intro hm
        obtain ⟨i1, i2⟩ := ih (fun x hx => hm x (by simp [hx]))
        have hkv := hm kv (by simp)
        unfold BMap.upsert
        cases hc : Wire.cmp k kv.1 with
        | lt =>
          constructor
          · intro x hx
            simp only [List.mem_cons] at hx
            rcases hx with rfl | hx
            · rfl
            · exact hm x (by simpa using hx)
          · intro i
            constructor
            · rintro ⟨c, h⟩
              rcases List.mem_cons.1 h with h | h
              · left; exact congrArg Prod.fst h
              · right; exact ⟨c, h⟩
            · rintro (rfl | ⟨c, h⟩)
              · exact ⟨1, List.mem_cons_self⟩
              · exact ⟨c, List.mem_cons_of_mem _ h⟩
        | eq =>
          have hk := (Wire.cmp_eq_iff _ _).1 hc
          constructor
          · intro x hx
            simp only [List.mem_cons] at hx
            rcases hx with rfl | hx
            · rfl
            · exact hm x (by simp [hx])
          · intro i
            simp only [List.mem_cons, Prod.mk.injEq]
            constructor
            · rintro ⟨c, ⟨rfl, _⟩ | h⟩
              · left; exact hk.symm
              · right; exact ⟨c, Or.inr h⟩
            · rintro (rfl | ⟨c, h | h⟩)
              · exact ⟨1, Or.inl ⟨hk, rfl⟩⟩
              · exact ⟨1, Or.inl ⟨by rw [← h], rfl⟩⟩
              · exact ⟨c, Or.inr h⟩
        | gt =>
          constructor
          · intro x hx
            simp only [List.mem_cons] at hx
            rcases hx with rfl | hx
            · exact hkv
            · exact i1 x hx
          · intro i
            simp only [List.mem_cons]
            constructor
            · rintro ⟨c, h | h⟩
              · right; exact ⟨c, Or.inl h⟩
              · rcases (i2 i).1 ⟨c, h⟩ with h | ⟨c, h⟩
                · left; exact h
                · right; exact ⟨c, Or.inr h⟩
            · rintro (rfl | ⟨c, h | h⟩)
              · obtain ⟨c, h⟩ := (i2 i).2 (Or.inl rfl)
                exact ⟨c, Or.inr h⟩
              · exact ⟨c, Or.inl h⟩
              · obtain ⟨c, h⟩ := (i2 i).2 (Or.inr ⟨c, h⟩)
                exact ⟨c, Or.inr h⟩
    intro l
    induction l with
    | nil => intro m hm; exact ⟨fun kv h => hm kv h, fun i => by simp⟩
    | cons k l ih =>
      intro m hm
      obtain ⟨a1, a2⟩ := ins k m hm
      obtain ⟨b1, b2⟩ := ih _ a1
      rw [List.map_cons, List.foldl_cons]
      refine ⟨b1, fun i => ?_⟩
      rw [b2 i, a2 i, List.mem_cons]
      tauto
  apply Expression.canonical_ext (hcan _) (hcan _)
  have hcoef : ∀ (l : List Wire) (i : Wire),
      (Expression.sumOfWires l : Expression p).coeff i = if i ∈ l then 1 else 0 := by
    intro l i
    obtain ⟨a1, a2⟩ := hmem l [] (by simp)
    have a2' := a2 i
    simp only [List.not_mem_nil, exists_false, or_false] at a2'
    split
    · next hi =>
      obtain ⟨c, hc⟩ := a2'.2 hi
      have h1 := Expression.coeff_of_mem (hcan l) hc
      rw [h1]; exact a1 _ hc
    · next hi =>
      refine Expression.coeff_eq_zero fun kv hkv h => hi (a2'.1 ⟨kv.2, ?_⟩)
      rw [← h]; exact hkv
  intro i
  rw [hcoef, hcoef]
  simp

/-- C13 is false: `sum_of_wires(&[w, w])` is `w`, in every field and for every wire. -/
theorem C13_sum_of_wires_refuted (i : Wire) (w : Assign p) (hi : w i ≠ 0) :
    (Expression.sumOfWires [i, i] : Expression p).eval w ≠ ([i, i].map w).sum := by
  rw [C13_sum_of_wires_dedup]
  simp [List.dedup_cons_of_mem, hi]

example : ([1, 2, 3] : List Wire).Nodup := by decide

/-! ## C14 -/

/-- One call on `WireValues`. -/
inductive SetOp (p : ℕ)
  | set (i : Wire) (x : Elem p)
  | setBoolean (i : BooleanWire) (b : Bool)
  | setBinary (i : BinaryWire) (value : ℕ)

/-- Performing the call (`none`: panic). -/
def SetOp.run (v : WireValues p) : SetOp p → Option (WireValues p)
  | .set i x => v.set i x
  | .setBoolean i b => v.setBoolean i b
  | .setBinary i value => v.setBinaryUnsigned i value

/-- The values a call is meant to give. -/
def SetOp.entries : SetOp p → List (Wire × Elem p)
  | .set i x => [(i, x)]
  | .setBoolean i b => [(i.wire, if b then 1 else 0)]
  | .setBinary i value => i.bits.zipIdx.map fun bi => (bi.1.wire, if value.testBit bi.2 then 1 else 0)

/-- A history of calls. -/
def SetOp.runAll (v : WireValues p) (ops : List (SetOp p)) : Option (WireValues p) :=
  ops.foldlM (fun v op => op.run v) v

/-- `v'` is `v` with new entries for absent, distinct wires. -/
def ExtendsBy (v v' : WireValues p) (l : List (Wire × Elem p)) : Prop :=
  (l.map (·.1)).Nodup ∧ (∀ kv ∈ l, v kv.1 = none) ∧
    ∀ i x, v' i = some x ↔ v i = some x ∨ (i, x) ∈ l

theorem ExtendsBy.trans {v v' v'' : WireValues p} {l l' : List (Wire × Elem p)}
    (h : ExtendsBy v v' l) (h' : ExtendsBy v' v'' l') : ExtendsBy v v'' (l ++ l') := by
  obtain ⟨a1, a2, a3⟩ := h
  obtain ⟨b1, b2, b3⟩ := h'
  refine ⟨?_, ?_, ?_⟩
  · rw [List.map_append, List.nodup_append]
    refine ⟨a1, b1, ?_⟩
    intro x hx y hy hxy
    obtain ⟨kv, h1, rfl⟩ := List.mem_map.1 hx
    obtain ⟨kv', h2, rfl⟩ := List.mem_map.1 hy
    have h3 := (a3 kv.1 kv.2).2 (Or.inr h1)
    have h4 := b2 kv' h2
    rw [← hxy, h3] at h4
    exact absurd h4 (by simp)
  · intro kv hkv
    rcases List.mem_append.1 hkv with h | h
    · exact a2 kv h
    · have h4 := b2 kv h
      by_contra hne
      obtain ⟨y, hy⟩ := Option.ne_none_iff_exists'.1 hne
      rw [(a3 kv.1 y).2 (Or.inl hy)] at h4
      exact absurd h4 (by simp)
  · intro i x
    rw [b3, a3, List.mem_append]
    tauto

theorem extends_set {v v' : WireValues p} {i : Wire} {x : Elem p} (h : v.set i x = some v') :
    ExtendsBy v v' [(i, x)] := by
  unfold WireValues.set WireValues.contains at h
  split at h
  · exact absurd h (by simp)
  · next hn =>
    have hn' : v i = none := by simpa using hn
    have h := Option.some.inj h
    subst h
    refine ⟨by simp, by simp [hn'], ?_⟩
    intro j y
    unfold WireValues.insert
    by_cases hj : j = i
    · subst hj
      simp [hn', eq_comm]
    · simp [hj]

theorem extends_setBits (value : ℕ) : ∀ (ws : List BooleanWire) (k : ℕ) (v v' : WireValues p),
    v.setBits value k ws = some v' → ExtendsBy v v'
      ((ws.zipIdx k).map fun bi => (bi.1.wire, if value.testBit bi.2 then 1 else 0))
  | [], k, v, v', h => by
    simp only [WireValues.setBits, Option.some.injEq] at h
    subst h
    exact ⟨by simp, by simp, by simp⟩
  | w :: ws, k, v, v', h => by
    simp only [WireValues.setBits] at h
    cases h1 : v.setBoolean w ((value >>> k) &&& 1 == 1) with
    | none => rw [h1] at h; exact absurd h (by simp)
    | some v1 =>
      simp only [h1, Option.bind_eq_bind, Option.bind_some] at h
      have e1 := extends_set h1
      have e2 := extends_setBits value ws (k + 1) v1 v' h
      rw [Elem.shr_and_one] at e1
      rw [List.zipIdx_cons, List.map_cons]
      have := e1.trans e2
      simp only [List.singleton_append] at this
      convert this using 2
      cases value.testBit k <;> rfl

theorem extends_run {v v' : WireValues p} (op : SetOp p) (h : op.run v = some v') :
    ExtendsBy v v' op.entries := by
  cases op with
  | set i x => exact extends_set h
  | setBoolean i b =>
    have := extends_set (h : v.set i.wire (Elem.ofBool b) = some v')
    cases b <;> exact this
  | setBinary i value =>
    simp only [SetOp.run, WireValues.setBinaryUnsigned] at h
    split at h
    · exact extends_setBits value i.bits 0 v v' h
    · exact absurd h (by simp)

theorem extends_runAll : ∀ (ops : List (SetOp p)) (v v' : WireValues p),
    SetOp.runAll v ops = some v' → ExtendsBy v v' (ops.flatMap SetOp.entries)
  | [], v, v', h => by
    simp only [SetOp.runAll, List.foldlM_nil, Option.pure_def, Option.some.injEq] at h
    subst h
    exact ⟨by simp, by simp, by simp⟩
  | op :: ops, v, v', h => by
    simp only [SetOp.runAll, List.foldlM_cons] at h
    cases h1 : op.run v with
    | none => simp [h1] at h
    | some v1 =>
      simp only [h1, Option.bind_eq_bind, Option.bind_some] at h
      exact (extends_run op h1).trans (extends_runAll ops v1 v' h)

/-- C14: after any successful history from `WireValues::new()` the constant wire reads 1, each wire
reads exactly the unique value it was given, and no wire was given a value twice. -/
theorem C14_write_once (ops : List (SetOp p)) (v : WireValues p)
    (h : SetOp.runAll WireValues.new ops = some v) :
    v ONE = some 1 ∧ (ONE :: (ops.flatMap SetOp.entries).map (·.1)).Nodup ∧
    (∀ i x, v i = some x ↔ (i = ONE ∧ x = 1) ∨ (i, x) ∈ ops.flatMap SetOp.entries) := by
  obtain ⟨h1, h2, h3⟩ := extends_runAll ops _ _ h
  have hnew : ∀ i (x : Elem p), (WireValues.new : WireValues p) i = some x ↔ (i = ONE ∧ x = 1) := by
    intro i x
    unfold WireValues.new
    by_cases hi : i = ONE <;> simp [hi, eq_comm]
  refine ⟨(h3 _ _).2 (Or.inl ((hnew _ _).2 ⟨rfl, rfl⟩)), ?_, ?_⟩
  · refine List.nodup_cons.2 ⟨?_, h1⟩
    intro hmem
    obtain ⟨kv, g1, g2⟩ := List.mem_map.1 hmem
    have := h2 kv g1
    rw [g2] at this
    simp [WireValues.new] at this
  · intro i x
    rw [h3, hnew]

/-- C14: setting a wire which has a value panics, and values survive later calls. -/
theorem C14_second_set_panics (ops : List (SetOp p)) (v v' : WireValues p)
    (h : SetOp.runAll v ops = some v') (i : Wire) (y : Elem p) (hi : v i = some y) (x : Elem p) :
    v' i = some y ∧ v'.set i x = none := by
  have := ((extends_runAll ops _ _ h).2.2 i y).2 (Or.inl hi)
  refine ⟨this, ?_⟩
  unfold WireValues.set WireValues.contains
  rw [this]; rfl

example : ∃ v, SetOp.runAll (WireValues.new : WireValues 7)
    [.set 1 5, .setBoolean ⟨2⟩ true, .setBinary ⟨[⟨3⟩, ⟨4⟩]⟩ 2] = some v ∧
    v 3 = some 0 ∧ v 4 = some 1 ∧ v 1 = some 5 := by
  exact ⟨_, rfl, by decide, by decide, by decide⟩

/-- C14 needs `WireValues::new()`: `WireValues::default()` lacks the constant wire, so that every
expression but zero panics, and it lets the constant wire be given any value, which constants then
have. -/
theorem C14_default (e : Expression p) (c : Elem p) :
    (e.evaluate WireValues.default = none ↔ e.dependencies ≠ []) ∧
    ∃ v, SetOp.runAll WireValues.default [.set ONE c] = some v ∧
      (1 : Expression p).evaluate v = some c := by
  refine ⟨⟨fun h h0 => ?_, fun h => ?_⟩, ?_⟩
  · have : e.coefficients = [] := List.map_eq_nil_iff.1 h0
    unfold Expression.evaluate at h
    rw [this] at h
    cases h
  · obtain ⟨i, hi⟩ := List.exists_mem_of_ne_nil _ h
    exact Expression.evaluate_eq_none hi rfl
  · refine ⟨_, rfl, ?_⟩
    have hone : ∀ w : Assign p, (1 : Expression p).eval w = w ONE := fun w => by
      rw [show (1 : Expression p) = Expression.ofWire ONE from rfl, Expression.eval_ofWire]
    refine (Expression.evaluate_eq (w := fun _ => c) fun i hi => ?_).trans (by rw [hone])
    have : i = ONE := Expression.mem_deps_ofElem hi
    subst this
    exact if_pos rfl

example : ∃ v, SetOp.runAll (WireValues.default : WireValues 7) [.set ONE 5] = some v ∧
    (1 : Expression 7).evaluate v = some 5 := (C14_default 1 5).2

end R1CS
