import Verif.Props.BinaryOps

/-!
# C49: which item `random_access` returns; C47: when shifting down panics

The index selects the item at the largest position below the number of items whose binary digits are
among those of the index.
-/

namespace R1CS

open Expression (eval_ofWire)

variable {p : ℕ} [hp : Fact p.Prime]

/-- The binary digits of `j` which are 1 are digits of `i` which are 1. -/
def Submask (j i : ℕ) : Prop := ∀ k, j.testBit k = true → i.testBit k = true

theorem submask_iff {j i : ℕ} :
    Submask j i ↔ Submask (j / 2) (i / 2) ∧ (j % 2 = 1 → i % 2 = 1) := by
  constructor
  · intro h
    refine ⟨fun k hk => ?_, fun h1 => ?_⟩
    · rw [← Nat.testBit_succ] at hk ⊢
      exact h _ hk
    · have := h 0 (by rw [Nat.testBit_zero]; exact decide_eq_true h1)
      rw [Nat.testBit_zero] at this
      exact of_decide_eq_true this
  · rintro ⟨h1, h2⟩ k hk
    cases k with
    | zero =>
      rw [Nat.testBit_zero] at hk ⊢
      exact decide_eq_true (h2 (of_decide_eq_true hk))
    | succ k =>
      rw [Nat.testBit_succ] at hk ⊢
      exact h1 _ hk

theorem Submask.self (i : ℕ) : Submask i i := fun _ h => h

theorem Submask.le : ∀ {j i : ℕ}, Submask j i → j ≤ i := by
  intro j
  induction j using Nat.strong_induction_on with
  | _ j ih =>
    intro i h
    obtain ⟨h1, h2⟩ := submask_iff.1 h
    rcases Nat.eq_zero_or_pos j with h0 | h0
    · omega
    · have := ih (j / 2) (by omega) h1
      omega

theorem layer_getElem?_last {α : Type} (b : Bool) : ∀ (l : List α) (i : ℕ), 2 * i + 1 = l.length →
    (layer b l)[i]? = l[2 * i]?
  | [], i, h => by simp at h
  | [a], i, h => by
    have : i = 0 := by simp at h; omega
    subst this
    rfl
  | l :: r :: rest, 0, h => by simp at h
  | l :: r :: rest, i + 1, h => by
    have := layer_getElem?_last b rest i (by simp at h; omega)
    rw [layer, List.getElem?_cons_succ, this, show 2 * (i + 1) = 2 * i + 1 + 1 by ring]
    rfl

/-- The position which the digits of an index lead to. -/
theorem pick_position {α : Type} {x : α} : ∀ (bs : List Bool) (l : List α), pick bs l = some x →
    ∃ j, l[j]? = some x ∧ Submask j (digitsVal (bs.map Bool.toNat)) ∧
      ∀ k < l.length, Submask k (digitsVal (bs.map Bool.toNat)) → k ≤ j
  | [], l, h => by
    refine ⟨0, by rw [← List.head?_eq_getElem?]; exact h, fun k hk => by simp at hk,
      fun k _ hk => ?_⟩
    exact hk.le
  | b :: bs, l, h => by
    obtain ⟨j, h1, h2, h3⟩ := pick_position bs (layer b l) h
    have hd : digitsVal ((b :: bs).map Bool.toNat) =
        b.toNat + 2 * digitsVal (bs.map Bool.toNat) := rfl
    rw [hd]
    set i := digitsVal (bs.map Bool.toNat)
    have hb : b.toNat ≤ 1 := by cases b <;> simp
    have hi2 : (b.toNat + 2 * i) / 2 = i := by omega
    have hi1 : (b.toNat + 2 * i) % 2 = b.toNat := by omega
    have hlt : j < (l.length + 1) / 2 := by
      rw [← layer_length b l]
      exact (List.getElem?_eq_some_iff.1 h1).1
    have hmax : ∀ k < l.length, Submask k (b.toNat + 2 * i) →
        k ≤ 2 * j + b.toNat ∧ k / 2 ≤ j := by
      intro k hk hm
      obtain ⟨m1, m2⟩ := submask_iff.1 hm
      rw [hi2] at m1
      rw [hi1] at m2
      have := h3 (k / 2) (by rw [layer_length]; omega) m1
      refine ⟨?_, this⟩
      rcases Nat.mod_two_eq_zero_or_one k with h0 | h0
      · omega
      · have := m2 h0
        omega
    by_cases hin : 2 * j + b.toNat < l.length
    · refine ⟨2 * j + b.toNat, by rw [← layer_getElem? b l j hin]; exact h1, ?_,
        fun k hk hm => (hmax k hk hm).1⟩
      rw [submask_iff, hi2, hi1, show (2 * j + b.toNat) / 2 = j by omega]
      exact ⟨h2, fun h => by omega⟩
    · refine ⟨2 * j, by rw [← layer_getElem?_last b l j (by omega)]; exact h1, ?_,
        fun k hk hm => by have := (hmax k hk hm).2; omega⟩
      rw [submask_iff, hi2, hi1, show 2 * j / 2 = j by omega]
      exact ⟨h2, fun h => by omega⟩

/-- C49, what holds instead, exactly: in every satisfying assignment the index has no more digits than
positions need, and the result is the item at the largest position whose binary digits are digits of the
index.  For an index in range that is the index itself. -/
theorem C49_position_partial (items : List (Expression p)) (index : Expression p) :
    Enforces (B.randomAccess items index) (fun z w =>
      (index.eval w).n < 2 ^ Nat.clog 2 items.length ∧
      ∃ (j : ℕ) (hj : j < items.length), z.eval w = items[j].eval w ∧
        (∀ k, j.testBit k = true → (index.eval w).n.testBit k = true) ∧
        ∀ j' < items.length, (∀ k, j'.testBit k = true → (index.eval w).n.testBit k = true) →
          j' ≤ j) := by
  refine Enforces.mono (Enforces.conj (C49_out_of_range_partial items index) (R := fun z w =>
      ∃ (j : ℕ) (hj : j < items.length), z.eval w = items[j].eval w ∧
        (∀ k, j.testBit k = true → (index.eval w).n.testBit k = true) ∧
        ∀ j' < items.length, (∀ k, j'.testBit k = true → (index.eval w).n.testBit k = true) →
          j' ≤ j) ?_) fun z w _ h => ⟨h.1.1, h.2⟩
  unfold B.randomAccess
  refine (Enforces.splitBounded index _).bind fun ib =>
    (Enforces.randomAccessBinary ib.bits items).mono fun z w _ h ⟨hb, hl, _, _, hv⟩ => ?_
  have h2 : digitsVal ((ib.bits.map (BooleanExpression.truth w)).map Bool.toNat)
      = (index.eval w).n := by rw [← hv, ← hb.digits_eq]; rfl
  obtain ⟨j, h3, h4, h5⟩ := pick_position _ _ (h hb)
  rw [h2] at h4 h5
  rw [List.getElem?_map] at h3
  obtain ⟨e, he, hz⟩ := Option.map_eq_some_iff.1 h3
  obtain ⟨hj, he⟩ := List.getElem?_eq_some_iff.1 he
  refine ⟨j, hj, ?_, h4, fun j' hj' hm => h5 j' (by rw [List.length_map]; exact hj') hm⟩
  rw [he, hz]

/-- C49, what holds instead: honest execution accepts every index with no more digits than positions
need, and the result is the value of that item. -/
theorem C49_position_computed_partial (s : Hon p) {items : List (Expression p)}
    {index : Expression p} (hi : index.Scoped s.next) (hs : ∀ e ∈ items, e.Scoped s.next)
    (h0 : items ≠ []) (hlen : items.length ≤ 2 ^ (Elem.maxBits p - 1))
    (h : (index.eval s.W).n < 2 ^ Nat.clog 2 items.length) :
    Computes (B.randomAccess items index) s fun z s' =>
      ∃ (j : ℕ) (hj : j < items.length), z.eval s'.W = items[j].eval s.W ∧
        (∀ k, j.testBit k = true → (index.eval s.W).n.testBit k = true) ∧
        ∀ j' < items.length, (∀ k, j'.testBit k = true → (index.eval s.W).n.testBit k = true) →
          j' ≤ j := by
  have hm := BinaryExpression.maxBits_pos (p := p)
  have hb := indexBits_lt hlen
  refine (((Comp.randomAccess hi hs (List.length_pos_iff.2 h0) (by rw [indexBits_eq_clog]; exact h)
    (by omega)).enforced
    (C49_position_partial items index)).mono fun z s' l ⟨⟨D, _⟩, _, j, hj, hz, hr⟩ =>
      ⟨D, j, hj, ?_, ?_⟩).computes
  · rw [hz]
    exact l.eval (hs _ (List.getElem_mem _))
  · have he : index.eval s'.W = index.eval s.W := l.eval hi
    rw [he] at hr
    exact hr

/-- Index 5 of a list of 5 items: the result is the item at position 4, since 5 is 101, and of the
positions up to 4 the one with the digits 100 is the largest whose digits are among those (the honest
value of wire 1 is 5). -/
example : Computes (B.randomAccess
      [0, 1, 0, 0, Expression.ofElem 7] (Expression.ofWire 1)) honest5
      (fun z s' => z.eval s'.W = 7) := by
  have h5 : ((Expression.ofWire 1).eval honest5.W) = (5 : Elem 13) := by rw [eval_ofWire]; rfl
  refine (C49_position_computed_partial honest5 (items := [0, 1, 0, 0, Expression.ofElem 7])
    (index := Expression.ofWire 1)
    (.ofWire (by decide)) ?_ (by simp) (by rw [maxBits13]; decide)
    (by rw [h5]; decide +kernel)).mono fun z s' _ ⟨j, hj, hz, _, hmax⟩ => ?_
  · intro e he
    simp only [List.mem_cons, List.not_mem_nil, or_false] at he
    rcases he with rfl | rfl | rfl | rfl | rfl
    all_goals first | exact .zero | exact .one (by decide) | exact .ofElem (by decide) _
  · have h4 : 4 ≤ j := hmax 4 (by decide) fun k hk => by
      rw [h5]
      have : k = 2 := by
        by_contra hne
        rw [show (4 : ℕ) = 2 ^ 2 by rfl, Nat.testBit_two_pow_of_ne (Ne.symm hne)] at hk
        cases hk
      subst this
      decide
    have : j = 4 := by simp at hj; omega
    subst this
    rw [hz]
    exact Expression.eval_ofElem honest5.one 7

/-- C47, exactly when `bitwise_shift_dec_significance` panics: if the amount exceeds the length, unless there
is nothing to shift. -/
theorem C47_shift_dec_exact_partial (x : BinaryExpression p) (n : ℕ) :
    B.shiftDec x n = none ↔ x.bits ≠ [] ∧ x.bits.length < n := by
  constructor
  · intro h
    have h1 : ¬ n ≤ x.len := by
      intro hn
      obtain ⟨e, he, _⟩ := (C47_shifts x n).2 hn
      rw [h] at he
      cases he
    refine ⟨fun h0 => ?_, by simpa [BinaryExpression.len] using h1⟩
    rcases x with ⟨l⟩
    simp only at h0
    subst h0
    simp [B.shiftDec, BinaryExpression.len] at h
  · rintro ⟨h0, h1⟩
    exact C47_shift_dec_refuted x n (List.length_pos_iff.2 h0) h1

/-- Two bits shifted by three panic, by two they do not. -/
example : B.shiftDec (⟨[.true, .false]⟩ : BinaryExpression 13) 3 = none ∧
    B.shiftDec (⟨[.true, .false]⟩ : BinaryExpression 13) 2 ≠ none :=
  ⟨(C47_shift_dec_exact_partial _ 3).2 ⟨by simp, by simp⟩,
    fun h => absurd ((C47_shift_dec_exact_partial _ 2).1 h).2 (by simp)⟩

/-! ## C48, with the check which the documentation suggests -/

/-- C48: "If you want to prohibit out-of-range indices, you can do so with a separate call to `assert_lt`"
(src/random_access.rs:15-16): then the index is in range in every satisfying assignment, and the result
is the item at the index. -/
theorem C48_prohibited_enforced (items : List (Expression p)) (index : Expression p)
    (hlen : items.length < p) :
    Enforces (do
      B.assertLt index (Expression.ofElem ⟨items.length, hlen⟩)
      B.randomAccess items index) (fun z w =>
        ∃ h : (index.eval w).n < items.length, z.eval w = (items[(index.eval w).n]).eval w) := by
  refine (C37_assert_lt_enforced index _).bind fun _ =>
    (C48_random_access_enforced items index).mono fun z w h1 h hlt => ?_
  rw [Expression.eval_ofElem h1] at hlt
  exact ⟨hlt, h hlt⟩

/-- C48: and honest execution accepts every index in range, over every field in which comparisons can be
built. -/
theorem C48_prohibited_computed (h4 : 4 ≤ Elem.maxBits p) (s : Hon p) {items : List (Expression p)}
    {index : Expression p} (hi : index.Scoped s.next) (hs : ∀ e ∈ items, e.Scoped s.next)
    (hlen : items.length < p) (hlen' : items.length ≤ 2 ^ (Elem.maxBits p - 1))
    (h : (index.eval s.W).n < items.length) :
    Computes (do
      B.assertLt index (Expression.ofElem ⟨items.length, hlen⟩)
      B.randomAccess items index) s
        fun z s' => z.eval s'.W = (items[(index.eval s.W).n]).eval s.W := by
  have hb := indexBits_lt hlen'
  have hc : Comp (do
      B.assertLt index (Expression.ofElem ⟨items.length, hlen⟩)
      B.randomAccess items index) s fun z s' => s'.D = s.D ∧ z.Scoped s'.next := by
    refine (Comp.assertLt h4 hi (.ofElem s.pos _) ?_).bind fun _ s1 l1 D1 => ?_
    · rw [Expression.eval_ofElem s.one]
      exact h
    · refine (Comp.randomAccess (l1.scoped hi) (fun e he => l1.scoped (hs e he)) (by omega) ?_
        (by omega)).mono fun z s2 _ ⟨D2, sc⟩ => ⟨by rw [D2, D1], sc⟩
      rw [l1.eval hi]
      exact lt_of_lt_of_le h (indexBits_spec _).1
  refine ((hc.enforced (C48_prohibited_enforced items index hlen)).mono
    fun z s' l ⟨⟨D, _⟩, hlt, hz⟩ => ⟨D, ?_⟩).computes
  have he : index.eval s'.W = index.eval s.W := l.eval hi
  rw [hz]
  have : items[(index.eval s'.W).n]'hlt = items[(index.eval s.W).n] := by congr 2
  rw [this]
  exact l.eval (hs _ (List.getElem_mem _))

/-- Index 5 of 7 items. -/
example : Computes (do
      B.assertLt (Expression.ofWire 1) (Expression.ofElem (7 : Elem 13))
      B.randomAccess (List.replicate 7 (Expression.ofWire 1)) (Expression.ofWire 1)) honest5
      (fun z s' => z.eval s'.W = 5) := by
  have h5 : ((Expression.ofWire 1).eval honest5.W) = (5 : Elem 13) := by rw [eval_ofWire]; rfl
  refine Computes.mono (C48_prohibited_computed (by rw [maxBits13]) honest5
    (items := List.replicate 7 (Expression.ofWire 1)) (.ofWire (by decide))
    (fun e he => by rw [List.eq_of_mem_replicate he]; exact .ofWire (by decide))
    (by decide) (by rw [maxBits13]; decide) (by rw [h5]; decide)) fun z s' _ h => ?_
  rw [h, List.getElem_replicate, h5]

end R1CS
