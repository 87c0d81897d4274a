import Verif.Spec.Renumber
import Verif.Lemmas.Tidy

/-!
# Renumbering wires commutes with the operations on expressions (`Spec/Renumber.lean`)
-/

set_option linter.unusedSectionVars false

namespace R1CS

variable {p : ℕ} [hp : Fact p.Prime] {α β : Type} {r : Renumbering}

/-! ## Maps -/

@[simp] theorem Renumbering.apply_one : r ONE = ONE := r.one

theorem Renumbering.inj {i j : Wire} : r i = r j ↔ i = j := r.mono.injective.eq_iff

@[simp] theorem Renumbering.apply_eq_one {i : Wire} : r i = ONE ↔ i = ONE := by
  conv_lhs => rw [← r.one]
  exact r.inj

theorem Renumbering.cmp (i j : Wire) : Wire.cmp (r i) (r j) = Wire.cmp i j := by
  unfold Wire.cmp
  simp only [r.apply_eq_one]
  split
  · rfl
  · split
    · rfl
    · split
      · rfl
      · rcases lt_trichotomy i j with h | h | h
        · rw [compare_lt_iff_lt.2 h, compare_lt_iff_lt.2 (r.mono h)]
        · rw [h]
          simp
        · rw [compare_gt_iff_gt.2 h, compare_gt_iff_gt.2 (r.mono h)]

/-- Renumber the keys. -/
abbrev keys {ν : Type} (r : Renumbering) (m : BMap Wire ν) : BMap Wire ν :=
  m.map fun kv => (r kv.1, kv.2)

theorem keys_get {ν : Type} (k : Wire) : ∀ m : BMap Wire ν,
    BMap.get Wire.cmp (r k) (keys r m) = BMap.get Wire.cmp k m
  | [] => rfl
  | (k', v) :: m => by
    simp only [keys, List.map_cons, BMap.get, r.cmp]
    rw [keys_get k m]

theorem keys_upsert {ν : Type} (k : Wire) (d : ν) (f : ν → ν) : ∀ m : BMap Wire ν,
    BMap.upsert Wire.cmp (r k) d f (keys r m) = keys r (BMap.upsert Wire.cmp k d f m)
  | [] => rfl
  | (k', v) :: m => by
    simp only [keys, List.map_cons, BMap.upsert, r.cmp]
    rcases Wire.cmp k k' with _ | _ | _
    · rfl
    · rfl
    · exact congrArg _ (keys_upsert k d f m)

/-! ## Expressions -/

theorem renumber_new (m : BMap Wire (Elem p)) :
    (Expression.new m).renumber r = Expression.new (keys r m) := by
  unfold Expression.new Expression.renumber
  rw [List.filter_map]
  rfl

@[simp] theorem renumber_ofWire (w : Wire) :
    (Expression.ofWire w : Expression p).renumber r = Expression.ofWire (r w) := renumber_new _

@[simp] theorem renumber_ofElem (c : Elem p) :
    (Expression.ofElem c).renumber r = Expression.ofElem c := by
  unfold Expression.ofElem
  rw [renumber_new]
  simp

@[simp] theorem renumber_zero : (0 : Expression p).renumber r = 0 := rfl

@[simp] theorem renumber_zero' : (Expression.zero : Expression p).renumber r = Expression.zero := rfl

@[simp] theorem renumber_one : (1 : Expression p).renumber r = 1 := renumber_ofElem 1

@[simp] theorem renumber_mulElem (e : Expression p) (c : Elem p) :
    (e.mulElem c).renumber r = (e.renumber r).mulElem c := by
  unfold Expression.mulElem
  rw [renumber_new]
  simp [Expression.renumber, Function.comp_def]

@[simp] theorem renumber_neg (e : Expression p) : (-e).renumber r = -e.renumber r :=
  renumber_mulElem e (-1)

theorem keys_addEntries : ∀ (l m : BMap Wire (Elem p)),
    (keys r l).foldl Expression.addEntry (keys r m) = keys r (l.foldl Expression.addEntry m)
  | [], _ => rfl
  | kv :: l, m => by
    have h : Expression.addEntry (keys r m) (r kv.1, kv.2) = keys r (Expression.addEntry m kv) :=
      keys_upsert _ _ _ _
    show (keys r l).foldl Expression.addEntry (Expression.addEntry (keys r m) (r kv.1, kv.2)) = _
    rw [h, keys_addEntries l]
    rfl

@[simp] theorem renumber_add (x y : Expression p) : (x + y).renumber r = x.renumber r + y.renumber r := by
  show (Expression.new _).renumber r = Expression.new _
  rw [renumber_new]
  exact congrArg _ (keys_addEntries _ _).symm

@[simp] theorem renumber_sub (x y : Expression p) : (x - y).renumber r = x.renumber r - y.renumber r := by
  show (x + -y).renumber r = x.renumber r + -(y.renumber r)
  rw [renumber_add, renumber_neg]

theorem mapM_keys {f : Elem p → Option (Elem p)} : ∀ l : BMap Wire (Elem p),
    List.mapM (m := Option) (fun kv : Wire × Elem p => (f kv.2).map fun x => (kv.1, x)) (keys r l) =
      (List.mapM (m := Option) (fun kv : Wire × Elem p => (f kv.2).map fun x => (kv.1, x)) l).map
        (keys r)
  | [] => rfl
  | kv :: l => by
    simp only [keys, List.map_cons, List.mapM_cons]
    rw [← keys, mapM_keys l]
    rcases f kv.2 with _ | x
    · rfl
    · rcases List.mapM (m := Option) (fun kv : Wire × Elem p => (f kv.2).map fun x => (kv.1, x)) l with
        _ | ys
      · rfl
      · rfl

@[simp] theorem renumber_mulNat (e : Expression p) (k : ℕ) :
    (e.renumber r).mulNat k = (e.mulNat k).map (Expression.renumber r) := by
  unfold Expression.mulNat
  rw [show (e.renumber r).coefficients = keys r e.coefficients from rfl, mapM_keys (f := (·.mulNat k)),
    Option.map_map, Option.map_map]
  exact congrArg (Option.map · _) (funext fun m => (renumber_new m).symm)

@[simp] theorem renumber_asConstant (e : Expression p) :
    (e.renumber r).asConstant = e.asConstant := by
  unfold Expression.asConstant Expression.numTerms
  rw [show (e.renumber r).coefficients = keys r e.coefficients from rfl, List.length_map]
  conv_lhs => rw [← r.one]
  rw [keys_get]

@[simp] theorem renumber_dependencies (e : Expression p) :
    (e.renumber r).dependencies = e.dependencies.map r := by
  simp [Expression.dependencies, Expression.renumber, Function.comp_def]

@[simp] theorem renumber_evaluate (e : Expression p) (v : WireValues p) :
    (e.renumber r).evaluate v = e.evaluate (v.through r) := by
  unfold Expression.evaluate Expression.renumber
  rw [List.foldlM_map]
  rfl

@[simp] theorem renumber_sumOfWires (ws : List Wire) :
    (Expression.sumOfWires ws : Expression p).renumber r = Expression.sumOfWires (ws.map r) := by
  have h : ∀ (ws : List Wire) (m : BMap Wire (Elem p)),
      keys r ((ws.map fun w => (w, (1 : Elem p))).foldl
        (fun m kv => BMap.insert Wire.cmp kv.1 kv.2 m) m) =
      ((ws.map r).map fun w => (w, (1 : Elem p))).foldl
        (fun m kv => BMap.insert Wire.cmp kv.1 kv.2 m) (keys r m) := by
    intro ws
    induction ws with
    | nil => intro m; rfl
    | cons w ws ih =>
      intro m
      simp only [List.map_cons, List.foldl_cons]
      rw [ih]
      have h : keys r (BMap.insert Wire.cmp w (1 : Elem p) m) =
          BMap.insert Wire.cmp (r w) 1 (keys r m) := (keys_upsert _ _ _ _).symm
      rw [h]
  exact Expression.ext (h ws [])

@[simp] theorem renumber_sumOfExpressions (es : List (Expression p)) :
    (Expression.sumOfExpressions es).renumber r =
      Expression.sumOfExpressions (es.map (Expression.renumber r)) := by
  unfold Expression.sumOfExpressions
  rw [renumber_new]
  have h : ∀ (es : List (Expression p)) (m : BMap Wire (Elem p)),
      keys r (es.foldl (fun m e => e.coefficients.foldl Expression.addEntry m) m) =
      (es.map (Expression.renumber r)).foldl
        (fun m e => e.coefficients.foldl Expression.addEntry m) (keys r m) := by
    intro es
    induction es with
    | nil => intro m; rfl
    | cons e es ih =>
      intro m
      simp only [List.map_cons, List.foldl_cons]
      rw [ih, ← keys_addEntries]
      rfl
  exact congrArg _ (h es [])

@[simp] theorem renumber_ofNat? (n : ℕ) :
    (Expression.ofNat? n : Option (Expression p)).map (Expression.renumber r) = Expression.ofNat? n := by
  unfold Expression.ofNat?
  rw [Option.map_map]
  exact congrArg (Option.map · _) (funext fun c => renumber_ofElem c)

/-! ## Boolean expressions and digit strings -/

@[simp] theorem renumber_expression (e : BooleanExpression p) :
    (e.renumber r).expression = e.expression.renumber r := rfl

@[simp] theorem renumber_bool (b : Bool) :
    (BooleanExpression.ofBool b : BooleanExpression p).renumber r = BooleanExpression.ofBool b :=
  BooleanExpression.ext (renumber_ofElem _)

@[simp] theorem renumber_booleanOfWire (w : BooleanWire) :
    (BooleanExpression.ofWire w : BooleanExpression p).renumber r = BooleanExpression.ofWire ⟨r w.wire⟩ :=
  BooleanExpression.ext (renumber_ofWire _)

@[simp] theorem renumber_booleanEvaluate (e : BooleanExpression p) (v : WireValues p) :
    (e.renumber r).evaluate v = e.evaluate (v.through r) := by
  unfold BooleanExpression.evaluate
  simp

@[simp] theorem renumber_bits (e : BinaryExpression p) :
    (e.renumber r).bits = e.bits.map (BooleanExpression.renumber r) := rfl

@[simp] theorem renumber_len (e : BinaryExpression p) : (e.renumber r).len = e.len :=
  List.length_map _

/-- Renumber the wires of digits. -/
abbrev BooleanWire.renumber (r : Renumbering) (w : BooleanWire) : BooleanWire := ⟨r w.wire⟩

/-- Renumber the wires of digits. -/
abbrev BinaryWire.renumber (r : Renumbering) (w : BinaryWire) : BinaryWire :=
  ⟨w.bits.map (BooleanWire.renumber r)⟩

@[simp] theorem renumber_binaryOfWire (w : BinaryWire) :
    (BinaryExpression.ofWire w : BinaryExpression p).renumber r =
      BinaryExpression.ofWire (w.renumber r) := by
  refine BinaryExpression.ext ?_
  simp [BinaryExpression.ofWire, BinaryExpression.renumber, Function.comp_def]

@[simp] theorem renumber_binaryOfNat (n : ℕ) :
    (BinaryExpression.ofNat n : BinaryExpression p).renumber r = BinaryExpression.ofNat n := by
  refine BinaryExpression.ext ?_
  simp [BinaryExpression.ofNat, BinaryExpression.renumber, Function.comp_def]

theorem renumber_joinFrom : ∀ (l : List (BooleanExpression p)) (i : ℕ) (s : Expression p),
    BinaryExpression.joinFrom i (s.renumber r) (l.map (BooleanExpression.renumber r)) =
      (BinaryExpression.joinFrom i s l).map (Expression.renumber r)
  | [], _, _ => rfl
  | b :: l, i, s => by
    simp only [List.map_cons, BinaryExpression.joinFrom]
    rcases (1 : Elem p).shl i with _ | c
    · rfl
    · show BinaryExpression.joinFrom (i + 1) _ _ = Option.map _ (BinaryExpression.joinFrom (i + 1) _ _)
      rw [← renumber_joinFrom l]
      simp

@[simp] theorem renumber_joinAllowingOverflow (e : BinaryExpression p) :
    (e.renumber r).joinAllowingOverflow = e.joinAllowingOverflow.map (Expression.renumber r) :=
  renumber_joinFrom e.bits 0 Expression.zero

@[simp] theorem renumber_join (e : BinaryExpression p) :
    (e.renumber r).join = e.join.map (Expression.renumber r) := by
  unfold BinaryExpression.join
  simp only [renumber_len, renumber_joinAllowingOverflow]
  split <;> rfl

@[simp] theorem renumber_truncated (e : BinaryExpression p) (l : ℕ) :
    (e.renumber r).truncated l = (e.truncated l).map (BinaryExpression.renumber r) := by
  unfold BinaryExpression.truncated
  simp only [renumber_len]
  split
  · simp [BinaryExpression.renumber]
  · rfl

@[simp] theorem renumber_padded (e : BinaryExpression p) (l : ℕ) :
    (e.renumber r).padded l = (e.padded l).map (BinaryExpression.renumber r) := by
  unfold BinaryExpression.padded BooleanExpression.false
  simp only [renumber_len]
  split
  · simp [BinaryExpression.renumber]
  · rfl

theorem chunksOf_go_renumber {γ δ : Type} (f : γ → δ) (k : ℕ) : ∀ (n : ℕ) (l : List γ),
    chunksOf.go k n (l.map f) = (chunksOf.go k n l).map (List.map f)
  | 0, _ => rfl
  | _ + 1, [] => rfl
  | n + 1, x :: xs => by
    simp only [List.map_cons, chunksOf.go]
    rw [← List.map_cons, ← List.map_take, ← List.map_drop, chunksOf_go_renumber f k n]

theorem chunks?_renumber {γ δ : Type} (f : γ → δ) (k : ℕ) (l : List γ) :
    chunks? k (l.map f) = (chunks? k l).map (List.map (List.map f)) := by
  unfold chunks? chunksOf
  split
  · rfl
  · rw [List.length_map, chunksOf_go_renumber]
    rfl

@[simp] theorem renumber_chunks (e : BinaryExpression p) (k : ℕ) :
    (e.renumber r).chunks k = (e.chunks k).map (List.map (BinaryExpression.renumber r)) := by
  unfold BinaryExpression.chunks
  rw [renumber_bits, chunks?_renumber, Option.map_map, Option.map_map]
  refine congrArg (Option.map · _) (funext fun cs => ?_)
  simp [BinaryExpression.renumber, Function.comp_def]

@[simp] theorem renumber_binaryDependencies (e : BinaryExpression p) :
    (e.renumber r).dependencies = e.dependencies.map r := by
  have h1 : ∀ (ws : List Wire) (s : BMap Wire Unit),
      (ws.map r).foldl (fun s w => insertWire w s) (keys r s) =
        keys r (ws.foldl (fun s w => insertWire w s) s) := by
    intro ws
    induction ws with
    | nil => intro s; rfl
    | cons w ws ih =>
      intro s
      simp only [List.map_cons, List.foldl_cons]
      rw [← ih]
      have h : insertWire (r w) (keys r s) = keys r (insertWire w s) := keys_upsert _ _ _ _
      rw [h]
  have h2 : ∀ (l : List (BooleanExpression p)) (s : BMap Wire Unit),
      (l.map (BooleanExpression.renumber r)).foldl
        (fun s b => b.dependencies.foldl (fun s w => insertWire w s) s) (keys r s) =
        keys r (l.foldl (fun s b => b.dependencies.foldl (fun s w => insertWire w s) s) s) := by
    intro l
    induction l with
    | nil => intro s; rfl
    | cons b l ih =>
      intro s
      simp only [List.map_cons, List.foldl_cons]
      rw [← ih, ← h1]
      have h : (b.renumber r).dependencies = b.dependencies.map r :=
        renumber_dependencies b.expression
      rw [h]
  unfold BinaryExpression.dependencies
  rw [renumber_bits, show ([] : BMap Wire Unit) = keys r [] from rfl, h2]
  simp [keys, Function.comp_def]

theorem mapM_renumber {γ γ' δ δ' : Type} {f : γ → Option δ} {f' : γ' → Option δ'} {g : γ → γ'}
    {h : δ → δ'} (hf : ∀ x, f' (g x) = (f x).map h) : ∀ l : List γ,
    List.mapM (m := Option) f' (l.map g) = (List.mapM (m := Option) f l).map (List.map h)
  | [] => rfl
  | x :: l => by
    simp only [List.map_cons, List.mapM_cons, hf]
    rw [mapM_renumber hf l]
    rcases f x with _ | y
    · rfl
    · rcases List.mapM (m := Option) f l with _ | ys
      · rfl
      · rfl

end R1CS
