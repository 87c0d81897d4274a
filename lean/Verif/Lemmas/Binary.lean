import Verif.Lemmas.Logic
import Mathlib.Tactic.Ring

/-!
# Digit strings, `join`, `chunks`
-/

set_option linter.unusedSectionVars false

namespace R1CS

variable {p : ℕ} [hp : Fact p.Prime]

/-! ## Digits -/

theorem digitsVal_append (a b : List ℕ) :
    digitsVal (a ++ b) = digitsVal a + 2 ^ a.length * digitsVal b := by
  induction a with
  | nil => simp [digitsVal]
  | cons d a ih => simp only [List.cons_append, digitsVal, ih, List.length_cons, pow_succ]; ring

theorem digitsVal_lt {a : List ℕ} (h : ∀ d ∈ a, d ≤ 1) : digitsVal a < 2 ^ a.length := by
  induction a with
  | nil => simp [digitsVal]
  | cons d a ih =>
    have h1 := ih fun e he => h e (by simp [he])
    have h2 := h d (by simp)
    simp only [digitsVal, List.length_cons, pow_succ]
    omega

theorem digitsVal_replicate_zero (n : ℕ) : digitsVal (List.replicate n 0) = 0 := by
  induction n with
  | zero => rfl
  | succ n ih => simp [List.replicate_succ, digitsVal, ih]

theorem digitsVal_testBit (v n : ℕ) :
    digitsVal ((List.range n).map fun i => (v.testBit i).toNat) = v % 2 ^ n := by
  induction n with
  | zero => simp [digitsVal, Nat.mod_one]
  | succ n ih =>
    rw [List.range_succ, List.map_append, digitsVal_append, ih, List.length_map, List.length_range]
    rw [Nat.mod_pow_succ]
    simp only [List.map_cons, List.map_nil, digitsVal, mul_zero, add_zero]
    rw [Nat.testBit_eq_decide_div_mod_eq]
    rcases Nat.mod_two_eq_zero_or_one (v / 2 ^ n) with h | h <;> simp [h]

theorem digitsVal_testBit_of_lt {v n : ℕ} (h : v < 2 ^ n) :
    digitsVal ((List.range n).map fun i => (v.testBit i).toNat) = v := by
  rw [digitsVal_testBit, Nat.mod_eq_of_lt h]

theorem digitsVal_inj {a b : List ℕ} (hl : a.length = b.length) (ha : ∀ d ∈ a, d ≤ 1)
    (hb : ∀ d ∈ b, d ≤ 1) (h : digitsVal a = digitsVal b) : a = b := by
  induction a generalizing b with
  | nil => exact (List.length_eq_zero_iff.1 hl.symm).symm
  | cons d a ih =>
    match b, hl with
    | e :: b, hl =>
      have h1 := ha d (by simp)
      have h2 := hb e (by simp)
      simp only [digitsVal] at h
      have hde : d = e := by omega
      subst hde
      rw [ih (by simpa using hl) (fun x hx => ha x (by simp [hx]))
        (fun x hx => hb x (by simp [hx])) (by omega)]

theorem digits_of_val {a : List ℕ} {v : ℕ} (ha : ∀ d ∈ a, d ≤ 1) (h : digitsVal a = v) :
    a = (List.range a.length).map fun i => (v.testBit i).toNat := by
  apply digitsVal_inj (by simp) ha
  · intro d hd
    obtain ⟨i, _, rfl⟩ := List.mem_map.1 hd
    exact Bool.toNat_le _
  · rw [digitsVal_testBit_of_lt (by rw [← h]; exact digitsVal_lt ha), h]

theorem digitsVal_take {a : List ℕ} (h : ∀ d ∈ a, d ≤ 1) {l : ℕ} (hl : l ≤ a.length) :
    digitsVal (a.take l) = digitsVal a % 2 ^ l := by
  conv_rhs => rw [← List.take_append_drop l a]
  rw [digitsVal_append, List.length_take, Nat.min_eq_left hl, Nat.add_mul_mod_self_left]
  have := digitsVal_lt (a := a.take l) fun d hd => h d (List.mem_of_mem_take hd)
  rw [List.length_take, Nat.min_eq_left hl] at this
  rw [Nat.mod_eq_of_lt this]

theorem digitsVal_drop {a : List ℕ} (h : ∀ d ∈ a, d ≤ 1) {l : ℕ} (hl : l ≤ a.length) :
    digitsVal (a.drop l) = digitsVal a / 2 ^ l := by
  conv_rhs => rw [← List.take_append_drop l a]
  rw [digitsVal_append, List.length_take, Nat.min_eq_left hl]
  have := digitsVal_lt (a := a.take l) fun d hd => h d (List.mem_of_mem_take hd)
  rw [List.length_take, Nat.min_eq_left hl] at this
  rw [Nat.add_mul_div_left _ _ (Nat.two_pow_pos l), Nat.div_eq_of_lt this, Nat.zero_add]

namespace BinaryExpression

theorem digits_length (w : Assign p) (e : BinaryExpression p) : (e.digits w).length = e.len := by
  simp [digits, len]

theorem AllBool.digits_le {w : Assign p} {e : BinaryExpression p} (h : e.AllBool w) :
    ∀ d ∈ e.digits w, d ≤ 1 := by
  intro d hd
  obtain ⟨b, hb, rfl⟩ := List.mem_map.1 hd
  exact (h b hb).n_le

theorem AllBool.val_lt {w : Assign p} {e : BinaryExpression p} (h : e.AllBool w) :
    e.val w < 2 ^ e.len := by
  have := digitsVal_lt h.digits_le
  rwa [digits_length] at this

theorem val_append (w : Assign p) (a b : List (BooleanExpression p)) :
    val w ⟨a ++ b⟩ = val w ⟨a⟩ + 2 ^ a.length * val w ⟨b⟩ := by
  simp [val, digits, digitsVal_append]

theorem val_nil (w : Assign p) : val w ⟨[]⟩ = 0 := rfl

theorem val_cons (w : Assign p) (b : BooleanExpression p) (bs : List (BooleanExpression p)) :
    val w ⟨b :: bs⟩ = (b.eval w).n + 2 * val w ⟨bs⟩ := rfl

/-! ## join -/

theorem joinFrom_eq (w : Assign p) : ∀ (bs : List (BooleanExpression p)) (i : ℕ)
    (sum : Expression p), (bs ≠ [] → 2 ^ (i + bs.length - 1) < p) →
    ∃ e, joinFrom i sum bs = some e ∧
      ∀ w : Assign p, e.eval w = sum.eval w + 2 ^ i * ((val w ⟨bs⟩ : ℕ) : Elem p)
  | [], i, sum, _ => ⟨sum, rfl, fun w => by simp [val_nil]⟩
  | b :: bs, i, sum, h => by
    have h' : 2 ^ (i + bs.length) < p := by
      have := h (by simp)
      rwa [List.length_cons, Nat.add_succ_sub_one] at this
    have hi : 2 ^ i < p := lt_of_le_of_lt (Nat.pow_le_pow_right (by simp) (by simp)) h'
    unfold joinFrom
    rw [Elem.one_shl hi]
    obtain ⟨e, h1, h2⟩ := joinFrom_eq w bs (i + 1) (sum + b.expression.mulElem (2 ^ i)) (by
      intro hne
      have : i + 1 + bs.length - 1 = i + bs.length := by omega
      rw [this]; exact h')
    refine ⟨e, h1, fun w => ?_⟩
    rw [h2, Expression.eval_add, Expression.eval_mulElem, val_cons]
    push_cast
    rw [Elem.natCast_self_n, pow_succ]
    change _ + b.eval w * _ + _ = _
    ring

theorem joinFrom_eq_none : ∀ (bs : List (BooleanExpression p)) (i : ℕ) (sum : Expression p),
    bs ≠ [] → p ≤ 2 ^ (i + bs.length - 1) → joinFrom i sum bs = none
  | [], _, _, h, _ => absurd rfl h
  | b :: bs, i, sum, _, h => by
    unfold joinFrom
    by_cases hi : 2 ^ i < p
    · rw [Elem.one_shl hi]
      have hne : bs ≠ [] := by
        rintro rfl
        simp at h
        omega
      refine joinFrom_eq_none bs (i + 1) _ hne ?_
      have : i + 1 + bs.length - 1 = i + (b :: bs).length - 1 := by
        rw [List.length_cons]; omega
      rwa [this]
    · rw [Elem.shl_eq_none (by simpa using hi)]; rfl

theorem joinFrom_scoped {n : ℕ} : ∀ (bs : List (BooleanExpression p)) (i : ℕ)
    (sum e : Expression p), joinFrom i sum bs = some e → sum.Scoped n →
    (∀ b ∈ bs, b.Scoped n) → e.Scoped n
  | [], i, sum, e, h, hs, _ => by
    rw [← Option.some.inj h]; exact hs
  | b :: bs, i, sum, e, h, hs, hb => by
    unfold joinFrom at h
    obtain ⟨c, _, h⟩ := Option.bind_eq_some_iff.1 h
    exact joinFrom_scoped bs (i + 1) _ e h (hs.add (Expression.Scoped.mulElem (hb b (by simp)) c))
      fun b' hb' => hb b' (by simp [hb'])

theorem joinAllowingOverflow_eq {e : BinaryExpression p} (h : e.len ≤ Elem.maxBits p) :
    ∃ x, e.joinAllowingOverflow = some x ∧ ∀ w : Assign p, x.eval w = (e.val w : Elem p) := by
  obtain ⟨x, h1, h2⟩ := joinFrom_eq (fun _ => (0 : Elem p)) e.bits 0 Expression.zero (by
    intro hne
    refine Elem.two_pow_lt_of_lt_maxBits ?_
    have := List.length_pos_of_ne_nil hne
    change e.bits.length ≤ _ at h
    omega)
  refine ⟨x, h1, fun w => ?_⟩
  rw [h2, Expression.eval_zero', zero_add, pow_zero, one_mul]

theorem maxBits_pos : 1 ≤ Elem.maxBits p := by
  rw [Elem.maxBits_eq]
  have := hp.out.two_le
  have h : 0 < p - 1 := by omega
  exact Nat.size_pos.2 h

theorem joinAllowingOverflow_eq_none {e : BinaryExpression p} (h : Elem.maxBits p < e.len) :
    e.joinAllowingOverflow = none := by
  refine joinFrom_eq_none e.bits 0 _ ?_ ?_
  · intro h0; simp [len, h0] at h
  · refine le_trans Elem.le_two_pow_maxBits (Nat.pow_le_pow_right (by simp) ?_)
    change Elem.maxBits p < e.bits.length at h
    omega

theorem joinAllowingOverflow_scoped {e : BinaryExpression p} {x : Expression p} {n : ℕ}
    (h : e.joinAllowingOverflow = some x) (he : e.Scoped n) : x.Scoped n :=
  joinFrom_scoped e.bits 0 _ x h Expression.Scoped.zero he

theorem len_le_maxBits_of_pow_le {n : ℕ} (h : 2 ^ n ≤ p) : n ≤ Elem.maxBits p := by
  by_contra hc
  have h1 := Elem.le_two_pow_maxBits (p := p)
  have h2 : 2 ^ (Elem.maxBits p) < 2 ^ n := Nat.pow_lt_pow_right (by simp) (by omega)
  omega

theorem join_eq {e : BinaryExpression p} (h : 2 ^ e.len ≤ p) :
    ∃ x, e.join = some x ∧ ∀ w : Assign p, x.eval w = (e.val w : Elem p) := by
  unfold join
  rw [if_pos (by rwa [Nat.one_shiftLeft])]
  exact joinAllowingOverflow_eq (len_le_maxBits_of_pow_le h)

theorem join_eq_none {e : BinaryExpression p} (h : p < 2 ^ e.len) : e.join = none := by
  unfold join
  rw [if_neg (by rw [Nat.one_shiftLeft]; omega)]

theorem join_scoped {e : BinaryExpression p} {x : Expression p} {n : ℕ}
    (h : e.join = some x) (he : e.Scoped n) : x.Scoped n := by
  unfold join at h
  split at h
  · exact joinAllowingOverflow_scoped h he
  · exact absurd h (by simp)

/-! ## Constants and wires -/

theorem ofNat_len (v : ℕ) : (ofNat v : BinaryExpression p).len = v.size := by simp [ofNat, len]

theorem ofNat_digits {w : Assign p} (h1 : w ONE = 1) (v : ℕ) :
    (ofNat v : BinaryExpression p).digits w
      = (List.range v.size).map fun i => (v.testBit i).toNat := by
  simp only [ofNat, digits, List.map_map]
  apply List.map_congr_left
  intro i _
  rw [Function.comp, BooleanExpression.eval_ofBool h1, Elem.shr_and_one, Elem.ofBool_n]

theorem ofNat_allBool {w : Assign p} (h1 : w ONE = 1) (v : ℕ) :
    (ofNat v : BinaryExpression p).AllBool w := by
  intro b hb
  obtain ⟨i, _, rfl⟩ := List.mem_map.1 hb
  rw [BooleanExpression.eval_ofBool h1]
  exact isBool_ofBool _

theorem ofNat_val {w : Assign p} (h1 : w ONE = 1) (v : ℕ) :
    (ofNat v : BinaryExpression p).val w = v := by
  rw [val, ofNat_digits h1, digitsVal_testBit_of_lt (Nat.lt_size_self v)]

theorem ofNat_scoped {n : ℕ} (hn : 1 ≤ n) (v : ℕ) : (ofNat v : BinaryExpression p).Scoped n := by
  intro b hb
  obtain ⟨i, _, rfl⟩ := List.mem_map.1 hb
  exact BooleanExpression.Scoped.ofBool hn _

theorem ofWire_len (x : BinaryWire) : (ofWire x : BinaryExpression p).len = x.bits.length := by
  simp [ofWire, len]

theorem ofWire_digits (w : Assign p) (x : BinaryWire) :
    (ofWire x : BinaryExpression p).digits w = x.bits.map fun y => (w y.wire).n := by
  simp only [ofWire, digits, List.map_map]
  apply List.map_congr_left
  intro i _
  simp [Function.comp]

theorem ofWire_allBool {w : Assign p} {x : BinaryWire} :
    (ofWire x : BinaryExpression p).AllBool w ↔ ∀ y ∈ x.bits, IsBool (w y.wire) := by
  simp [ofWire, AllBool]

theorem ofWire_scoped {n : ℕ} {x : BinaryWire} (h : ∀ y ∈ x.bits, y.wire < n) :
    (ofWire x : BinaryExpression p).Scoped n := by
  intro b hb
  obtain ⟨y, hy, rfl⟩ := List.mem_map.1 hb
  exact Expression.Scoped.ofWire (h y hy)

/-! ## dependencies -/

theorem mem_insertWire {i j : Wire} {s : BMap Wire Unit} :
    (∃ u, (i, u) ∈ insertWire j s) ↔ i = j ∨ ∃ u, (i, u) ∈ s := by
  unfold insertWire BMap.insert
  induction s with
  | nil => simp [BMap.upsert]
  | cons kv s ih =>
    obtain ⟨k, u⟩ := kv
    unfold BMap.upsert
    cases hc : Wire.cmp j k with
    | lt =>
      simp only [List.mem_cons, Prod.mk.injEq, and_true, exists_or, exists_const]
    | eq =>
      have := (Wire.cmp_eq_iff j k).1 hc
      subst this
      simp only [List.mem_cons, Prod.mk.injEq, and_true, exists_or, exists_const]
      tauto
    | gt =>
      simp only [List.mem_cons, Prod.mk.injEq]
      simp only [and_true] at *
      constructor
      · rintro ⟨v, h | h⟩
        · exact Or.inr ⟨v, Or.inl h⟩
        · rcases ih.1 ⟨v, h⟩ with h | ⟨v, h⟩
          · exact Or.inl h
          · exact Or.inr ⟨v, Or.inr h⟩
      · rintro (h | ⟨v, h | h⟩)
        · obtain ⟨v, h⟩ := ih.2 (Or.inl h)
          exact ⟨v, Or.inr h⟩
        · exact ⟨v, Or.inl h⟩
        · obtain ⟨v, h⟩ := ih.2 (Or.inr ⟨v, h⟩)
          exact ⟨v, Or.inr h⟩

theorem mem_foldl_insertWire {i : Wire} (l : List Wire) (s : BMap Wire Unit) :
    (∃ u, (i, u) ∈ l.foldl (fun s w => insertWire w s) s) ↔ i ∈ l ∨ ∃ u, (i, u) ∈ s := by
  induction l generalizing s with
  | nil => simp
  | cons j l ih =>
    rw [List.foldl_cons, ih, mem_insertWire, List.mem_cons]
    tauto

theorem mem_dependencies {e : BinaryExpression p} {i : Wire} :
    i ∈ e.dependencies ↔ ∃ b ∈ e.bits, i ∈ b.dependencies := by
  have : ∀ (bs : List (BooleanExpression p)) (s : BMap Wire Unit),
      (∃ u, (i, u) ∈ bs.foldl (fun s b => b.dependencies.foldl (fun s w => insertWire w s) s) s) ↔
      (∃ b ∈ bs, i ∈ b.dependencies) ∨ ∃ u, (i, u) ∈ s := by
    intro bs
    induction bs with
    | nil => simp
    | cons b bs ih =>
      intro s
      rw [List.foldl_cons, ih, mem_foldl_insertWire]
      simp only [List.mem_cons, exists_eq_or_imp]
      rw [or_assoc, or_left_comm]
  unfold dependencies
  rw [List.mem_map]
  constructor
  · rintro ⟨⟨j, u⟩, h, rfl⟩
    rcases (this e.bits []).1 ⟨u, h⟩ with h | ⟨_, h⟩
    · exact h
    · simp at h
  · intro h
    obtain ⟨u, hu⟩ := (this e.bits []).2 (Or.inl h)
    exact ⟨_, hu, rfl⟩

theorem Scoped.deps {n : ℕ} {e : BinaryExpression p} (h : e.Scoped n) :
    ∀ i ∈ e.dependencies, i < n := by
  intro i hi
  obtain ⟨b, hb, hib⟩ := mem_dependencies.1 hi
  exact h b hb i hib

end BinaryExpression

/-! ## chunks -/

section Chunks

variable {α : Type}

theorem chunksOf_go_flatten {k : ℕ} (hk : 0 < k) : ∀ (fuel : ℕ) (l : List α), l.length ≤ fuel →
    (chunksOf.go k fuel l).flatten = l
  | 0, l, h => by
    rw [List.length_eq_zero_iff.1 (Nat.le_zero.1 h)]; rfl
  | fuel + 1, [], _ => rfl
  | fuel + 1, x :: xs, h => by
    unfold chunksOf.go
    rw [List.flatten_cons, chunksOf_go_flatten hk fuel, List.take_append_drop]
    rw [List.length_drop]
    simp at h ⊢
    omega

theorem chunksOf_flatten {k : ℕ} (hk : 0 < k) (l : List α) : (chunksOf k l).flatten = l :=
  chunksOf_go_flatten hk _ l (le_refl _)

theorem chunksOf_go_ne_nil {k : ℕ} (hk : 0 < k) : ∀ (fuel : ℕ) (l : List α),
    ∀ c ∈ chunksOf.go k fuel l, c ≠ [] ∧ c.length ≤ k
  | 0, l => by simp [chunksOf.go]
  | fuel + 1, [] => by simp [chunksOf.go]
  | fuel + 1, x :: xs => by
    unfold chunksOf.go
    intro c hc
    rcases List.mem_cons.1 hc with rfl | hc
    · obtain ⟨k, rfl⟩ := Nat.exists_eq_succ_of_ne_zero hk.ne'
      simp
    · exact chunksOf_go_ne_nil hk fuel _ c hc

theorem chunksOf_lengths {k : ℕ} (hk : 0 < k) (l : List α) :
    ∀ c ∈ chunksOf k l, c ≠ [] ∧ c.length ≤ k := chunksOf_go_ne_nil hk _ l

/-- All chunks but the last have exactly `k` elements. -/
theorem chunksOf_go_full {k : ℕ} : ∀ (fuel : ℕ) (l : List α) (a b : List (List α)) (c : List α),
    chunksOf.go k fuel l = a ++ c :: b → b ≠ [] → c.length = k
  | 0, l, a, b, c, h, _ => by simp [chunksOf.go] at h
  | fuel + 1, [], a, b, c, h, _ => by simp [chunksOf.go] at h
  | fuel + 1, x :: xs, a, b, c, h, hb => by
    unfold chunksOf.go at h
    match a, h with
    | [], h' =>
      simp only [List.nil_append, List.cons.injEq] at h'
      obtain ⟨rfl, h2⟩ := h'
      have hne : (x :: xs).drop k ≠ [] := by
        intro h0
        rw [h0] at h2
        cases fuel <;> exact hb h2.symm
      rw [List.length_take]
      have : k < (x :: xs).length := by
        by_contra hc
        exact hne (List.drop_eq_nil_of_le (not_lt.1 hc))
      omega
    | a0 :: a, h =>
      simp only [List.cons_append, List.cons.injEq] at h
      exact chunksOf_go_full fuel _ a b c h.2 hb

theorem chunksOf_full {k : ℕ} (l : List α) (a b : List (List α)) (c : List α)
    (h : chunksOf k l = a ++ c :: b) (hb : b ≠ []) : c.length = k :=
  chunksOf_go_full _ l a b c h hb

/-- Chunks of lists of the same length have the same lengths. -/
theorem chunksOf_go_map_length {β : Type} {k : ℕ} : ∀ (fuel : ℕ) (l : List α) (m : List β),
    l.length = m.length →
    (chunksOf.go k fuel l).map List.length = (chunksOf.go k fuel m).map List.length
  | 0, _, _, _ => rfl
  | fuel + 1, [], [], _ => rfl
  | fuel + 1, [], _ :: _, h => by simp at h
  | fuel + 1, _ :: _, [], h => by simp at h
  | fuel + 1, x :: xs, y :: ys, h => by
    unfold chunksOf.go
    rw [List.map_cons, List.map_cons, chunksOf_go_map_length fuel _ ((y :: ys).drop k)
      (by rw [List.length_drop, List.length_drop, h])]
    rw [List.length_take, List.length_take, h]

theorem chunksOf_map_length {β : Type} {k : ℕ} (l : List α) (m : List β)
    (h : l.length = m.length) :
    (chunksOf k l).map List.length = (chunksOf k m).map List.length := by
  unfold chunksOf
  rw [h]
  exact chunksOf_go_map_length _ l m h

theorem chunksOf_go_length {k : ℕ} (hk : 0 < k) : ∀ (fuel : ℕ) (l : List α), l.length ≤ fuel →
    (chunksOf.go k fuel l).length = (l.length + k - 1) / k
  | 0, l, h => by
    rw [List.length_eq_zero_iff.1 (Nat.le_zero.1 h)]
    exact (Nat.div_eq_of_lt (by simp only [List.length_nil]; omega)).symm
  | fuel + 1, [], _ => by
    exact (Nat.div_eq_of_lt (by simp only [List.length_nil]; omega)).symm
  | fuel + 1, x :: xs, h => by
    unfold chunksOf.go
    rw [List.length_cons, chunksOf_go_length hk fuel _ (by
      rw [List.length_drop]; simp at h ⊢; omega), List.length_drop]
    have hpos : 0 < (x :: xs).length := by simp
    generalize (x :: xs).length = n at hpos
    by_cases hn : n ≤ k
    · rw [Nat.sub_eq_zero_of_le hn]
      have e1 : (0 + k - 1) / k = 0 := Nat.div_eq_of_lt (by omega)
      have e2 : (n + k - 1) / k = 1 := by
        rw [Nat.div_eq_iff hk]; omega
      rw [e1, e2]
    · have : n + k - 1 = (n - k + k - 1) + k := by omega
      rw [this, Nat.add_div_right _ hk]

theorem chunksOf_length {k : ℕ} (hk : 0 < k) (l : List α) :
    (chunksOf k l).length = (l.length + k - 1) / k := chunksOf_go_length hk _ l (le_refl _)

end Chunks

end R1CS
