import Verif.Lemmas.Returns
import Verif.Props.Arithmetic

/-!
# C35-C43: splitting, comparisons, remainders
-/

set_option linter.unusedSectionVars false

namespace R1CS

variable {p : ℕ} [hp : Fact p.Prime] {α : Type}

open Expression (eval_ofWire)

/-- The field of order 13 has 4 bits, which is enough for comparisons. -/
theorem maxBits13 : Elem.maxBits 13 = 4 := by decide +kernel

/-! ## C35 -/

/-- C35: `split_bounded` forces the value to fit and the bits to be its digits. -/
theorem C35_split_bounded (x : Expression p) (n : ℕ) :
    Enforces (B.splitBounded x n) (fun e w => e.AllBool w ∧ e.len = n ∧
      (x.eval w).n < 2 ^ n ∧ e.digits w = (List.range n).map fun i => ((x.eval w).n.testBit i).toNat) := by
  refine (Enforces.splitBounded x n).mono fun e w _ ⟨h1, h2, _, _, h5⟩ => ⟨h1, h2, ?_, ?_⟩
  · rw [← h5, ← h2]; exact h1.val_lt
  · rw [digits_of_val h1.digits_le h5, BinaryExpression.digits_length, h2]

/-- C35: `split` forces the bits to be the digits of the canonical representative. -/
theorem C35_split (x : Expression p) :
    Enforces (B.split x) (fun e w => e.AllBool w ∧ e.len = Elem.maxBits p ∧
      e.digits w = (List.range (Elem.maxBits p)).map fun i => ((x.eval w).n.testBit i).toNat) := by
  refine (Enforces.split x).mono fun e w _ ⟨h1, h2, h5⟩ => ⟨h1, h2, ?_⟩
  rw [digits_of_val h1.digits_le h5, BinaryExpression.digits_length, h2]

/-- C35: `split_allowing_ambiguity` forces the bits to denote the value or the value plus the
order of the field. -/
theorem C35_split_allowing_ambiguity (x : Expression p) :
    Enforces (B.splitAllowingAmbiguity x) (fun e w => e.AllBool w ∧ e.len = Elem.maxBits p ∧
      (e.val w = (x.eval w).n ∨ e.val w = (x.eval w).n + p)) := Enforces.splitAllowingAmbiguity x

/-! ## C36 -/

/-- C36: the honest bits are the digits of the value. -/
theorem C36_split_bounded_computed (s : Hon p) {x : Expression p} (hx : x.Scoped s.next) {n : ℕ}
    (hn : n < Elem.maxBits p) (hfit : (x.eval s.W).n < 2 ^ n) :
    Computes (B.splitBounded x n) s fun e s' => e.len = n ∧
      e.digits s'.W = (List.range n).map fun i => ((x.eval s.W).n.testBit i).toNat :=
  ((Comp.splitBounded hx hn hfit).mono fun e s' _ ⟨h1, _, h3, h4, h5⟩ => ⟨h1, h4, by
    rw [digits_of_val h3.digits_le h5, BinaryExpression.digits_length, h4]⟩).computes

theorem C36_split_computed (h4 : 4 ≤ Elem.maxBits p) (s : Hon p) {x : Expression p}
    (hx : x.Scoped s.next) :
    Computes (B.split x) s fun e s' => e.len = Elem.maxBits p ∧
      e.digits s'.W
        = (List.range (Elem.maxBits p)).map fun i => ((x.eval s.W).n.testBit i).toNat :=
  ((Comp.split h4 hx).mono fun e s' _ ⟨h1, _, h3, h4, h5⟩ => ⟨h1, h4, by
    rw [digits_of_val h3.digits_le h5, BinaryExpression.digits_length, h4]⟩).computes

theorem C36_split_allowing_ambiguity_computed (s : Hon p) {x : Expression p}
    (hx : x.Scoped s.next) :
    Computes (B.splitAllowingAmbiguity x) s fun e s' => e.len = Elem.maxBits p ∧
      e.digits s'.W
        = (List.range (Elem.maxBits p)).map fun i => ((x.eval s.W).n.testBit i).toNat :=
  ((Comp.splitAllowingAmbiguity hx).mono fun e s' _ ⟨h1, _, h3, h4, h5⟩ => ⟨h1, h4, by
    rw [digits_of_val h3.digits_le h5, BinaryExpression.digits_length, h4]⟩).computes

/-- In the field of order 13 the value 5 has the digits 1, 0, 1, 0. -/
example : Computes (B.split (Expression.ofWire 1)) honest5 (fun e s' => e.digits s'.W = [1, 0, 1, 0]) :=
  (C36_split_computed (by rw [maxBits13]) honest5 (.ofWire (by decide))).mono
    fun e s' _ h => by rw [h.2, eval_ofWire, maxBits13]; decide

/-! ## C37 -/

/-- C37: `assert_lt`, `assert_gt` on field elements. -/
theorem C37_assert_lt_enforced (x y : Expression p) :
    Enforces (B.assertLt x y) (fun _ w => (x.eval w).n < (y.eval w).n) := Enforces.assertLt x y

theorem C37_assert_gt_enforced (x y : Expression p) :
    Enforces (B.assertGt x y) (fun _ w => (x.eval w).n > (y.eval w).n) := Enforces.assertGt x y

/-- C37: the binary variants, on digit strings. -/
theorem C37_assert_lt_binary_enforced (x y : BinaryExpression p) :
    Enforces (B.assertLtBinary x y)
      (fun _ w => x.AllBool w → y.AllBool w → x.val w < y.val w) := Enforces.assertLtBinary x y

theorem C37_assert_gt_binary_enforced (x y : BinaryExpression p) :
    Enforces (B.assertGtBinary x y)
      (fun _ w => x.AllBool w → y.AllBool w → x.val w > y.val w) := Enforces.assertGtBinary x y

/-! ## C40 -/

/-- C40: honest results of comparisons of field elements. -/
theorem C40_comparisons_computed (h4 : 4 ≤ Elem.maxBits p) (s : Hon p) {x y : Expression p}
    (hx : x.Scoped s.next) (hy : y.Scoped s.next) :
    Computes (B.lt x y) s
      (fun r s' => r.eval s'.W = if (x.eval s.W).n < (y.eval s.W).n then 1 else 0) ∧
    Computes (B.le x y) s
      (fun r s' => r.eval s'.W = if (x.eval s.W).n ≤ (y.eval s.W).n then 1 else 0) ∧
    Computes (B.gt x y) s
      (fun r s' => r.eval s'.W = if (x.eval s.W).n > (y.eval s.W).n then 1 else 0) ∧
    Computes (B.ge x y) s
      (fun r s' => r.eval s'.W = if (x.eval s.W).n ≥ (y.eval s.W).n then 1 else 0) := by
  have key : ∀ (less strict : Bool) (c : Prop) [Decidable c],
      (c ↔ (if less then ((x.eval s.W).n : ℤ) - (y.eval s.W).n
        else -(((x.eval s.W).n : ℤ) - (y.eval s.W).n)) ≤ if strict then -1 else 0) →
      Computes (B.cmp x y less strict) s (fun r s' => r.eval s'.W = if c then 1 else 0) := by
    intro less strict c _ hc
    refine ((Comp.cmp h4 hx hy less strict).mono fun r s' _ ⟨a1, _, a3⟩ => ⟨a1, ?_⟩).computes
    rw [a3]
    by_cases h : c
    · rw [if_pos h, ofBool_ne, cmpHolds_iff, ← hc]; exact h
    · rw [if_neg h, ofBool_eq_zero, ← Bool.not_eq_true, cmpHolds_iff, ← hc]; exact h
  exact ⟨key true true _ (by simp; omega), key true false _ (by simp),
    key false true _ (by simp; omega), key false false _ (by simp)⟩

/-- C40: honest results of comparisons of digit strings, whenever the automatic chunk size leaves
a spare bit (see C41). -/
theorem C40_binary_comparisons_computed (h2 : 2 < p) (s : Hon p) {x y : BinaryExpression p}
    (hx : x.Scoped s.next) (hy : y.Scoped s.next) (hxb : x.AllBool s.W) (hyb : y.AllBool s.W)
    (hlen : x.len = y.len) (h0 : 0 < x.len)
    (hadm : cmpChunkBits (Elem.maxBits p) x.len + 1 < Elem.maxBits p) :
    Computes (B.ltBinary x y) s
      (fun r s' => r.eval s'.W = if x.val s.W < y.val s.W then 1 else 0) ∧
    Computes (B.leBinary x y) s
      (fun r s' => r.eval s'.W = if x.val s.W ≤ y.val s.W then 1 else 0) ∧
    Computes (B.gtBinary x y) s
      (fun r s' => r.eval s'.W = if x.val s.W > y.val s.W then 1 else 0) ∧
    Computes (B.geBinary x y) s
      (fun r s' => r.eval s'.W = if x.val s.W ≥ y.val s.W then 1 else 0) := by
  have key : ∀ (less strict : Bool) (c : Prop) [Decidable c],
      (c ↔ (if less then (x.val s.W : ℤ) - y.val s.W else -((x.val s.W : ℤ) - y.val s.W))
        ≤ if strict then -1 else 0) →
      Computes (B.cmpBinary x y less strict) s (fun r s' => r.eval s'.W = if c then 1 else 0) := by
    intro less strict c _ hc
    refine ((Comp.cmpBinary h2 hx hy hxb hyb hlen h0 hadm less strict).mono
      fun r s' _ ⟨a1, _, a3⟩ => ⟨a1, ?_⟩).computes
    rw [a3]
    by_cases h : c
    · rw [if_pos h, ofBool_ne, cmpHolds_iff, ← hc]; exact h
    · rw [if_neg h, ofBool_eq_zero, ← Bool.not_eq_true, cmpHolds_iff, ← hc]; exact h
  exact ⟨key true true _ (by simp; omega), key true false _ (by simp),
    key false true _ (by simp; omega), key false false _ (by simp)⟩

/-- The honest execution of an assertion decides `c`. -/
def Decides (m : B p Unit) (s : Hon p) (c : Prop) : Prop :=
  (c → Computes m s fun _ _ => True) ∧ (¬ c → Rejects m s)

theorem decides_assertTrue {m : B p (BooleanExpression p)} {s : Hon p} {c : Prop} {b : Bool}
    (h : Comp m s fun r s' => s'.D = s.D ∧ r.Scoped s'.next ∧ r.eval s'.W = Elem.ofBool b)
    (hc : b = true ↔ c) : Decides (m >>= fun r => B.assertTrue r) s c := by
  constructor
  · intro hc'
    refine ((Comp.assertOfHolds (h.mono fun r s' _ ⟨h1, h2, h3⟩ => ⟨h1, h2, ?_⟩)).mono
      fun _ s' _ h => ⟨h, trivial⟩).computes
    rw [h3, ofBool_ne, hc]; exact hc'
  · intro hc'
    refine Comp.rejects_assertTrue (h.mono fun r s' _ ⟨h1, h2, h3⟩ => ⟨h1, h2, ?_⟩)
    rw [h3, Ne, ofBool_ne, hc]; exact hc'

/-- C40: executing the assertions returns `true` exactly when the relation holds (and never
panics). -/
theorem C40_assertions_decide (h4 : 4 ≤ Elem.maxBits p) (s : Hon p) {x y : Expression p}
    (hx : x.Scoped s.next) (hy : y.Scoped s.next) :
    Decides (B.assertLt x y) s ((x.eval s.W).n < (y.eval s.W).n) ∧
    Decides (B.assertLe x y) s ((x.eval s.W).n ≤ (y.eval s.W).n) ∧
    Decides (B.assertGt x y) s ((x.eval s.W).n > (y.eval s.W).n) ∧
    Decides (B.assertGe x y) s ((x.eval s.W).n ≥ (y.eval s.W).n) :=
  ⟨decides_assertTrue (Comp.cmp h4 hx hy true true) (by rw [cmpHolds_iff]; simp; omega),
   decides_assertTrue (Comp.cmp h4 hx hy true false) (by rw [cmpHolds_iff]; simp),
   decides_assertTrue (Comp.cmp h4 hx hy false true) (by rw [cmpHolds_iff]; simp; omega),
   decides_assertTrue (Comp.cmp h4 hx hy false false) (by rw [cmpHolds_iff]; simp)⟩

theorem C40_binary_assertions_decide (h2 : 2 < p) (s : Hon p) {x y : BinaryExpression p}
    (hx : x.Scoped s.next) (hy : y.Scoped s.next) (hxb : x.AllBool s.W) (hyb : y.AllBool s.W)
    (hlen : x.len = y.len) (h0 : 0 < x.len)
    (hadm : cmpChunkBits (Elem.maxBits p) x.len + 1 < Elem.maxBits p) :
    Decides (B.assertLtBinary x y) s (x.val s.W < y.val s.W) ∧
    Decides (B.assertLeBinary x y) s (x.val s.W ≤ y.val s.W) ∧
    Decides (B.assertGtBinary x y) s (x.val s.W > y.val s.W) ∧
    Decides (B.assertGeBinary x y) s (x.val s.W ≥ y.val s.W) :=
  ⟨decides_assertTrue (Comp.cmpBinary h2 hx hy hxb hyb hlen h0 hadm true true)
    (by rw [cmpHolds_iff]; simp; omega),
   decides_assertTrue (Comp.cmpBinary h2 hx hy hxb hyb hlen h0 hadm true false)
    (by rw [cmpHolds_iff]; simp),
   decides_assertTrue (Comp.cmpBinary h2 hx hy hxb hyb hlen h0 hadm false true)
    (by rw [cmpHolds_iff]; simp; omega),
   decides_assertTrue (Comp.cmpBinary h2 hx hy hxb hyb hlen h0 hadm false false)
    (by rw [cmpHolds_iff]; simp)⟩

/-- 5 < 7 and 7 ≤ 5 over the field of order 13; by C37 the first also gives a satisfying
assignment of `assert_lt`. -/
example : Computes (B.assertLt (Expression.ofWire 1) (Expression.ofElem 7)) honest5
    (fun _ _ => True) :=
  (C40_assertions_decide (by rw [maxBits13]) honest5 (.ofWire (by decide))
    (.ofElem (by decide) 7)).1.1 (by
      rw [eval_ofWire, Expression.eval_ofElem honest5.one]; decide)

example : Rejects (B.assertGe (Expression.ofWire 1) (Expression.ofElem 7)) honest5 :=
  (C40_assertions_decide (by rw [maxBits13]) honest5 (.ofWire (by decide))
    (.ofElem (by decide) 7)).2.2.2.2 (by
      rw [eval_ofWire, Expression.eval_ofElem honest5.one]; decide)

example : Computes (B.ltBinary (BinaryExpression.ofNat 10) (BinaryExpression.ofNat 11)) honest5
    (fun r s' => r.eval s'.W = 1) :=
  (C40_binary_comparisons_computed (by decide) honest5 (BinaryExpression.ofNat_scoped (by decide) 10)
    (BinaryExpression.ofNat_scoped (by decide) 11) (BinaryExpression.ofNat_allBool honest5.one 10)
    (BinaryExpression.ofNat_allBool honest5.one 11)
    (by rw [BinaryExpression.ofNat_len, BinaryExpression.ofNat_len]; decide +kernel)
    (by rw [BinaryExpression.ofNat_len]; decide +kernel)
    (by rw [BinaryExpression.ofNat_len, maxBits13]; decide +kernel)).1.mono fun r s' _ h => by
      rw [h, BinaryExpression.ofNat_val honest5.one, BinaryExpression.ofNat_val honest5.one]
      rfl

/-! ## C38 -/

/-- C38 is false: the constraints of `assert_le` and `assert_ge` hold for *every* pair of operands.
Any satisfying assignment of the circuit so far can be extended, because an all-zero mask makes the
two numbers look equal. -/
theorem C38_assert_le_unconstrained_refuted (h4 : 4 ≤ Elem.maxBits p) (s : Wit p)
    {x y : Expression p} (hx : x.Scoped s.next) (hy : y.Scoped s.next) :
    Can (B.assertLe x y) s (fun _ _ => True) ∧ Can (B.assertGe x y) s (fun _ _ => True) :=
  ⟨(Can.cmp_zero h4 hx hy true false).bind fun r s1 _ ⟨h1, h2⟩ =>
    (Can.assertTrue h1 (by rw [h2]; rfl)).mono fun _ _ _ _ => trivial,
   (Can.cmp_zero h4 hx hy false false).bind fun r s1 _ ⟨h1, h2⟩ =>
    (Can.assertTrue h1 (by rw [h2]; rfl)).mono fun _ _ _ _ => trivial⟩

/-- The same for the binary variants. -/
theorem C38_assert_le_binary_unconstrained_refuted (h2 : 2 < p) (s : Wit p)
    {x y : BinaryExpression p} (hx : x.Scoped s.next) (hy : y.Scoped s.next)
    (hxb : x.AllBool s.W) (hyb : y.AllBool s.W) (hlen : x.len = y.len) (h0 : 0 < x.len)
    (hadm : cmpChunkBits (Elem.maxBits p) x.len + 1 < Elem.maxBits p) :
    Can (B.assertLeBinary x y) s (fun _ _ => True) ∧
    Can (B.assertGeBinary x y) s (fun _ _ => True) :=
  ⟨(Can.cmpBinary_zero h2 hx hy hxb hyb hlen h0 hadm true false).bind fun r s1 _ ⟨h1, h2⟩ =>
    (Can.assertTrue h1 (by rw [h2]; rfl)).mono fun _ _ _ _ => trivial,
   (Can.cmpBinary_zero h2 hx hy hxb hyb hlen h0 hadm false false).bind fun r s1 _ ⟨h1, h2⟩ =>
    (Can.assertTrue h1 (by rw [h2]; rfl)).mono fun _ _ _ _ => trivial⟩

/-- The circuit before anything is built, with its only satisfying assignment up to wires which do
not exist yet. -/
def emptyWit (p : ℕ) [Fact p.Prime] : Wit p where
  b := Builder.new
  W := fun _ => 1
  next_pos := le_refl _
  sat := ⟨rfl, by simp [Builder.new]⟩
  inScope := by simp [Builder.new]

/-- C38 is false as stated, in every field where comparisons work: `assert_le(1, 0)` and
`assert_ge(0, 1)` are satisfiable. -/
theorem C38_assert_le_refuted (h4 : 4 ≤ Elem.maxBits p) :
    (¬ ∀ x y : Expression p, Enforces (B.assertLe x y) fun _ w => (x.eval w).n ≤ (y.eval w).n) ∧
    (¬ ∀ x y : Expression p, Enforces (B.assertGe x y) fun _ w => (x.eval w).n ≥ (y.eval w).n) := by
  have h1n : (1 : Elem p).n = 1 := by
    have := Elem.natCast_n_of_lt (p := p) (k := 1) hp.out.one_lt
    simpa using this
  constructor
  · intro h
    refine (C38_assert_le_unconstrained_refuted h4 (emptyWit p) (x := 1) (y := 0)
      (.one (emptyWit p).pos) .zero).1.not_enforces ?_ (h 1 0)
    intro _ s' _ _ hr
    rw [Expression.eval_one s'.one, Expression.eval_zero, h1n] at hr
    exact absurd hr (by simp)
  · intro h
    refine (C38_assert_le_unconstrained_refuted h4 (emptyWit p) (x := 0) (y := 1)
      .zero (.one (emptyWit p).pos)).2.not_enforces ?_ (h 0 1)
    intro _ s' _ _ hr
    rw [Expression.eval_one s'.one, Expression.eval_zero, h1n] at hr
    exact absurd hr (by simp)

/-- C38, what remains: assignments produced by the gadget's own witness generators are rejected
when the relation fails.  Missing: all other assignments, for which the claim is false. -/
theorem C38_assert_le_partial (h4 : 4 ≤ Elem.maxBits p) (s : Hon p) {x y : Expression p}
    (hx : x.Scoped s.next) (hy : y.Scoped s.next) :
    (¬ (x.eval s.W).n ≤ (y.eval s.W).n → Rejects (B.assertLe x y) s) ∧
    (¬ (x.eval s.W).n ≥ (y.eval s.W).n → Rejects (B.assertGe x y) s) :=
  ⟨(C40_assertions_decide h4 s hx hy).2.1.2, (C40_assertions_decide h4 s hx hy).2.2.2.2⟩

example : ¬ ∀ x y : Expression 13,
    Enforces (B.assertLe x y) fun _ w => (x.eval w).n ≤ (y.eval w).n :=
  (C38_assert_le_refuted (by rw [maxBits13])).1

/-! ## C39 -/

/-- C39, what remains: results are booleans, a strict comparison that says `1` is right, and a
non-strict comparison that says `0` is right up to the ambiguity of the unchecked decomposition.
Missing: `lt`/`gt` saying `0` and `le`/`ge` saying `1`, which certify nothing. -/
theorem C39_comparisons_partial (x y : Expression p) :
    Enforces (B.lt x y) (fun r w => IsBool (r.eval w) ∧
      (r.eval w = 1 → (x.eval w).n < (y.eval w).n)) ∧
    Enforces (B.gt x y) (fun r w => IsBool (r.eval w) ∧
      (r.eval w = 1 → (x.eval w).n > (y.eval w).n)) ∧
    Enforces (B.le x y) (fun r w => IsBool (r.eval w) ∧
      (r.eval w = 0 → (x.eval w).n > (y.eval w).n ∨ (x.eval w).n + p < 2 ^ Elem.maxBits p)) ∧
    Enforces (B.ge x y) (fun r w => IsBool (r.eval w) ∧
      (r.eval w = 0 → (x.eval w).n < (y.eval w).n ∨ (y.eval w).n + p < 2 ^ Elem.maxBits p)) :=
  ⟨(Enforces.cmp x y true true).mono fun r w _ h => ⟨h.1, by simpa using h.2.1 rfl⟩,
   (Enforces.cmp x y false true).mono fun r w _ h => ⟨h.1, by simpa using h.2.1 rfl⟩,
   (Enforces.cmp x y true false).mono fun r w _ h => ⟨h.1, by simpa using h.2.2 rfl⟩,
   (Enforces.cmp x y false false).mono fun r w _ h => ⟨h.1, by simpa using h.2.2 rfl⟩⟩

/-- C39, what remains for digit strings. -/
theorem C39_binary_comparisons_partial (x y : BinaryExpression p) :
    Enforces (B.ltBinary x y) (fun r w => IsBool (r.eval w) ∧ (x.AllBool w → y.AllBool w →
      r.eval w = 1 → x.val w < y.val w)) ∧
    Enforces (B.gtBinary x y) (fun r w => IsBool (r.eval w) ∧ (x.AllBool w → y.AllBool w →
      r.eval w = 1 → x.val w > y.val w)) ∧
    Enforces (B.leBinary x y) (fun r w => IsBool (r.eval w) ∧ (x.AllBool w → y.AllBool w →
      r.eval w = 0 → x.val w > y.val w)) ∧
    Enforces (B.geBinary x y) (fun r w => IsBool (r.eval w) ∧ (x.AllBool w → y.AllBool w →
      r.eval w = 0 → x.val w < y.val w)) :=
  ⟨(Enforces.cmpBinary_certifies x y true true).mono fun r w _ h => ⟨h.2.1, fun hx hy => by
      simpa using (h.2.2 hx hy).1 rfl⟩,
   (Enforces.cmpBinary_certifies x y false true).mono fun r w _ h => ⟨h.2.1, fun hx hy => by
      simpa using (h.2.2 hx hy).1 rfl⟩,
   (Enforces.cmpBinary_certifies x y true false).mono fun r w _ h => ⟨h.2.1, fun hx hy => by
      simpa using (h.2.2 hx hy).2 rfl⟩,
   (Enforces.cmpBinary_certifies x y false false).mono fun r w _ h => ⟨h.2.1, fun hx hy => by
      simpa using (h.2.2 hx hy).2 rfl⟩⟩

/-- C39 is false: whatever the operands, the constraints allow `lt` and `gt` to be `0` and `le` and
`ge` to be `1`. -/
theorem C39_comparisons_refuted (h4 : 4 ≤ Elem.maxBits p) (s : Wit p) {x y : Expression p}
    (hx : x.Scoped s.next) (hy : y.Scoped s.next) :
    Can (B.lt x y) s (fun r s' => r.eval s'.W = 0) ∧
    Can (B.gt x y) s (fun r s' => r.eval s'.W = 0) ∧
    Can (B.le x y) s (fun r s' => r.eval s'.W = 1) ∧
    Can (B.ge x y) s (fun r s' => r.eval s'.W = 1) :=
  ⟨(Can.cmp_zero h4 hx hy true true).mono fun r s' _ h => h.2,
   (Can.cmp_zero h4 hx hy false true).mono fun r s' _ h => h.2,
   (Can.cmp_zero h4 hx hy true false).mono fun r s' _ h => h.2,
   (Can.cmp_zero h4 hx hy false false).mono fun r s' _ h => h.2⟩

/-- C39 is false as stated: `lt(0, 1)` can be `0`. -/
theorem C39_lt_refuted (h4 : 4 ≤ Elem.maxBits p) :
    ¬ ∀ x y : Expression p, Enforces (B.lt x y) fun r w =>
      r.eval w = if (x.eval w).n < (y.eval w).n then 1 else 0 := by
  intro h
  have h1n : (1 : Elem p).n = 1 := by
    have := Elem.natCast_n_of_lt (p := p) (k := 1) hp.out.one_lt
    simpa using this
  refine (C39_comparisons_refuted h4 (emptyWit p) (x := 0) (y := 1)
    .zero (.one (emptyWit p).pos)).1.not_enforces ?_ (h 0 1)
  intro r s' _ h0 hr
  rw [Expression.eval_one s'.one, Expression.eval_zero, h1n, if_pos (by simp), h0] at hr
  exact zero_ne_one hr

example : ¬ ∀ x y : Expression 13, Enforces (B.lt x y) fun r w =>
    r.eval w = if (x.eval w).n < (y.eval w).n then 1 else 0 :=
  C39_lt_refuted (by rw [maxBits13])

/-! ## C41 -/

/-- C41: the chosen chunk size has the least cost `3⌈L/c⌉ + 2 + c` among all sizes below the size of
the field, and is the least such size. -/
theorem C41_chunk_bits_optimal {N L k : ℕ} (h1 : 1 ≤ k) (h2 : k < N) :
    3 * ((L + cmpChunkBits N L - 1) / cmpChunkBits N L) + 2 + cmpChunkBits N L
      ≤ 3 * ((L + k - 1) / k) + 2 + k ∧
    (k < cmpChunkBits N L →
      3 * ((L + cmpChunkBits N L - 1) / cmpChunkBits N L) + 2 + cmpChunkBits N L
        < 3 * ((L + k - 1) / k) + 2 + k) :=
  ⟨cmpChunkBits_le h1 h2, cmpChunkBits_first h1 h2⟩

/-- C41: it is positive and leaves a spare bit for comparing field elements. -/
theorem C41_chunk_bits_admissible {N : ℕ} (hN : 4 ≤ N) :
    1 ≤ cmpChunkBits N N ∧ cmpChunkBits N N + 1 < N := ⟨cmpChunkBits_pos N N, cmpChunkBits_self hN⟩

/-- C41: the same for every operand no longer than a field element, from 8-bit fields on. -/
theorem C41_chunk_bits_admissible_short {N L : ℕ} (hN : 8 ≤ N) (hL : 0 < L) (hLN : L ≤ N) :
    cmpChunkBits N L + 1 < N := cmpChunkBits_short hN hL hLN

/-- Programs do not look at the constraints and generators already present. -/
theorem Prog.isSome_congr {m : B p α} (hm : Prog m) : ∀ {b c : Builder p},
    b.nextWireIndex = c.nextWireIndex → ∀ {a b'}, m b = some (a, b') →
    ∃ c', m c = some (a, c') ∧ b'.nextWireIndex = c'.nextWireIndex := by
  induction hm with
  | pure a =>
    intro b c hbc a' b' h
    rw [B.pure_eq] at h
    obtain ⟨rfl, rfl⟩ := Prod.ext_iff.1 (Option.some.inj h)
    exact ⟨c, rfl, hbc⟩
  | bind _ _ ih1 ih2 =>
    intro b c hbc a' b' h
    obtain ⟨x, b1, h1, h2⟩ := B.bind_run h
    obtain ⟨c1, h1', hbc1⟩ := ih1 hbc h1
    obtain ⟨c2, h2', hbc2⟩ := ih2 x hbc1 h2
    exact ⟨c2, by rw [B.bind_eq h1', h2'], hbc2⟩
  | wire =>
    intro b c hbc a' b' h
    obtain ⟨rfl, rfl⟩ := Prod.ext_iff.1 (Option.some.inj h)
    exact ⟨{ c with nextWireIndex := c.nextWireIndex + 1 }, by rw [B.wire, ← hbc], by simp [hbc]⟩
  | assertProduct x y z =>
    intro b c hbc a' b' h
    obtain ⟨rfl, rfl⟩ := Prod.ext_iff.1 (Option.some.inj h)
    exact ⟨_, rfl, hbc⟩
  | generator d f hf =>
    intro b c hbc a' b' h
    obtain ⟨rfl, rfl⟩ := Prod.ext_iff.1 (Option.some.inj h)
    exact ⟨_, rfl, hbc⟩
  | panic => intro b c hbc a' b' h; exact absurd h (by simp [B.panic])

/-- A state with `n` wires, all supplied from outside. -/
def freeHon (p : ℕ) [Fact p.Prime] (n : ℕ) (hn : 1 ≤ n) : Hon p where
  b := ⟨n, [], []⟩
  D := List.range' 1 (n - 1)
  W := fun _ => 1
  ok := ⟨rfl, hn, by simp, [], rfl, by simp, by simp⟩

/-- C41: comparisons of field elements can be built exactly in the fields of more than 8 elements
(at least 4 bits), whatever the operands and the builder. -/
theorem C41_panics_exactly (x y : Expression p) (less strict : Bool) (b : Builder p) :
    (B.cmp x y less strict b).isSome = true ↔ 8 < p :=
  (cmp_isSome x y less strict b).trans four_le_maxBits

/-- C41: and so can splittings with a range check. -/
theorem C41_split_panics_exactly (x : Expression p) (b : Builder p) :
    (B.split x b).isSome = true ↔ 8 < p := (split_isSome x b).trans four_le_maxBits

/-- C41: comparisons of digit strings can be built exactly if the strings have the same positive
length, and some chunk size leaving a spare bit is as cheap as the largest size in the loop. -/
theorem C41_binary_panics_exactly (x y : BinaryExpression p) (less strict : Bool) (b : Builder p) :
    (B.cmpBinary x y less strict b).isSome = true ↔ x.bits.length = y.bits.length ∧ x.bits ≠ [] ∧
      ∃ c, 1 ≤ c ∧ c < (p - 1).size - 1 ∧ 3 * ((x.bits.length + c - 1) / c) + c ≤
        3 * ((x.bits.length + ((p - 1).size - 1) - 1) / ((p - 1).size - 1)) + ((p - 1).size - 1) := by
  rw [cmpBinary_isSome, cmpChunkBits_fits]
  have h : ∀ c, c + 1 < Elem.maxBits p ↔ c < (p - 1).size - 1 := fun c => by
    rw [Elem.maxBits_eq]; omega
  simp only [h]
  rw [Elem.maxBits_eq, ← List.length_pos_iff]
  rfl

example : (B.cmp (Expression.ofWire 1) (Expression.ofElem 7) true true
    (⟨2, [], []⟩ : Builder 13)).isSome := (C41_panics_exactly _ _ _ _ _).2 (by decide)

/-- In the field of order 7 all comparisons panic. -/
example (b : Builder 7) : B.cmp (Expression.ofWire 1) (Expression.ofElem 3) true true b = none := by
  rw [← Option.not_isSome_iff_eq_none, C41_panics_exactly]; decide

/-- In the field of order 13, two-digit strings can be compared (`c = 2` costs as much as `c = 3`
less one), strings of different lengths not. -/
example (x0 x1 y0 y1 : BooleanExpression 13) (b : Builder 13) :
    (B.cmpBinary ⟨[x0, x1]⟩ ⟨[y0, y1]⟩ false true b).isSome = true ∧
      B.cmpBinary ⟨[x0, x1]⟩ ⟨[y0]⟩ false true b = none := by
  refine ⟨(C41_binary_panics_exactly _ _ _ _ b).2 ⟨rfl, by simp, 2, by
    show _ ∧ _ ∧ 3 * ((2 + 2 - 1) / 2) + 2 ≤ 3 * ((2 + ((13 - 1).size - 1) - 1) / ((13 - 1).size - 1)) + ((13 - 1).size - 1)
    decide⟩, ?_⟩
  rw [← Option.not_isSome_iff_eq_none, C41_binary_panics_exactly]
  simp

/-! ## C42 -/

/-- C42: `modulus` computes the integer remainder. -/
theorem C42_modulus_computed (h4 : 4 ≤ Elem.maxBits p) (s : Hon p) {x y : Expression p}
    (hx : x.Scoped s.next) (hy : y.Scoped s.next) (hy0 : y.eval s.W ≠ 0) :
    Computes (B.modulus x y) s fun r s' =>
      (r.eval s'.W).n = (x.eval s.W).n % (y.eval s.W).n :=
  ((Comp.modulus h4 hx hy hy0).mono fun r s' _ h => ⟨h.1, h.2.2⟩).computes

/-- C42: `divides` computes divisibility. -/
theorem C42_divides_computed (h4 : 4 ≤ Elem.maxBits p) (s : Hon p) {x y : Expression p}
    (hx : x.Scoped s.next) (hy : y.Scoped s.next) (hx0 : x.eval s.W ≠ 0) :
    Computes (B.divides x y) s fun r s' =>
      r.eval s'.W = if (x.eval s.W).n ∣ (y.eval s.W).n then 1 else 0 :=
  ((Comp.divides h4 hx hy hx0).mono fun r s' _ h => ⟨h.1, h.2.2⟩).computes

/-- 7 mod 5 = 2. -/
example : Computes (B.modulus (Expression.ofElem 7) (Expression.ofWire 1)) honest5
    (fun r s' => (r.eval s'.W).n = 2) :=
  (C42_modulus_computed (by rw [maxBits13]) honest5 (.ofElem (by decide) 7) (.ofWire (by decide))
    (by rw [eval_ofWire]; decide)).mono fun r s' _ h => by
      rw [h, eval_ofWire, Expression.eval_ofElem honest5.one]; decide

/-! ## C43 -/

/-- C43, what remains: the result is below the divisor (so a zero divisor is unsatisfiable) and
differs from the dividend by a *field* multiple of the divisor, which for a non-zero divisor is no
restriction.  Missing: the quotient is not range checked. -/
theorem C43_modulus_partial (x y : Expression p) :
    Enforces (B.modulus x y) (fun r w => (r.eval w).n < (y.eval w).n ∧
      ∃ q : Elem p, x.eval w = y.eval w * q + r.eval w) := Enforces.modulus x y

/-- C43, what remains of `divides`: the result is a boolean, and the divisor is not zero. -/
theorem C43_divides_partial (x y : Expression p) :
    Enforces (B.divides x y) (fun r w => IsBool (r.eval w) ∧ x.eval w ≠ 0 ∧
      ((x.eval w).n = 1 → r.eval w = 1)) := by
  unfold B.divides
  refine (Enforces.modulus y x).bind fun m => (Enforces.zero m).mono fun r w _ h ⟨h1, _⟩ => ?_
  refine ⟨?_, ?_, ?_⟩
  · rw [h]; split
    · exact Or.inr rfl
    · exact Or.inl rfl
  · intro h0; rw [h0] at h1; simp at h1
  · intro hx
    rw [h, if_pos]
    rw [← Elem.natCast_self_n (m.eval w), show (m.eval w).n = 0 by omega, Nat.cast_zero]

/-- C43 is false: every number below the divisor is accepted as the remainder. -/
theorem C43_modulus_any_refuted (h4 : 4 ≤ Elem.maxBits p) (s : Wit p) {x y : Expression p}
    (hx : x.Scoped s.next) (hy : y.Scoped s.next) (r : Elem p) (hr : r.n < (y.eval s.W).n) :
    Can (B.modulus x y) s (fun z s' => z.eval s'.W = r) :=
  (Can.modulus_any h4 hx hy hr).mono fun _ _ _ h => h.2

/-- C43 is false for `divides`: every non-zero number can be made to divide everything, and every
number but one to divide nothing. -/
theorem C43_divides_any_refuted (h4 : 4 ≤ Elem.maxBits p) (s : Wit p) {x y : Expression p}
    (hx : x.Scoped s.next) (hy : y.Scoped s.next) (b : Bool)
    (hb : if b then x.eval s.W ≠ 0 else 1 < (x.eval s.W).n) :
    Can (B.divides x y) s (fun z s' => z.eval s'.W = Elem.ofBool b) := by
  have h1n : (1 : Elem p).n = 1 := by
    have := Elem.natCast_n_of_lt (p := p) (k := 1) hp.out.one_lt
    simpa using this
  have hr : (Elem.ofBool (p := p) (!b)).n < (x.eval s.W).n := by
    cases b
    · simpa [Elem.ofBool_true, h1n] using hb
    · simp only [Bool.not_true, Elem.ofBool_false]
      apply Nat.pos_of_ne_zero
      intro h0
      simp only [if_true] at hb
      apply hb
      rw [← Elem.natCast_self_n (x.eval s.W), h0, Nat.cast_zero]
  unfold B.divides
  refine (Can.modulus_any h4 hy hx hr).bind fun m s1 l1 ⟨m1, m2⟩ => ?_
  refine (Can.ofComp (Prog.zero m) (Comp.zero (s := s1.toHon) (two_lt_of_maxBits h4) m1)).mono
    fun z s2 l2 ⟨t, tn, tW, h1, h2, h3⟩ => ?_
  rw [← tW, h3]
  change (if Expression.eval s1.W m = 0 then (1 : Elem p) else 0) = _
  rw [m2]
  cases b <;> simp [Elem.ofBool_true, Elem.ofBool_false]

/-- C43 is false as stated: `modulus(3, 2)` can be `0`. -/
theorem C43_modulus_refuted (h4 : 4 ≤ Elem.maxBits p) :
    ¬ ∀ x y : Expression p, Enforces (B.modulus x y) fun r w =>
      (r.eval w).n = (x.eval w).n % (y.eval w).n := by
  intro h
  have h8 := Elem.two_pow_lt_of_lt_maxBits (p := p) (k := 3) (by omega)
  have h2n := Elem.natCast_n_of_lt (p := p) (k := 2) (by omega)
  have h3n := Elem.natCast_n_of_lt (p := p) (k := 3) (by omega)
  refine (C43_modulus_any_refuted h4 (emptyWit p) (x := Expression.ofElem ((3 : ℕ) : Elem p))
    (y := Expression.ofElem ((2 : ℕ) : Elem p)) (.ofElem (emptyWit p).pos _)
    (.ofElem (emptyWit p).pos _) 0 ?_).not_enforces ?_ (h _ _)
  · rw [Expression.eval_ofElem (emptyWit p).one, h2n]; simp
  · intro r s' _ h0 hr
    rw [Expression.eval_ofElem s'.one, Expression.eval_ofElem s'.one, h2n, h3n, h0] at hr
    simp at hr

example : ¬ ∀ x y : Expression 13, Enforces (B.modulus x y) fun r w =>
    (r.eval w).n = (x.eval w).n % (y.eval w).n := C43_modulus_refuted (by rw [maxBits13])

end R1CS
