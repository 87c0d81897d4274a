import Verif.Lemmas.Relations
import Verif.Props.Schnorr

/-!
# C86: the relation defined by the constraints of each gadget

Soundness ("enforced") says that the constraints admit no other results than the intended ones;
completeness that the intended ones are admitted.  Here the results which are admitted are
determined exactly, for every gadget, including those for which soundness fails: so it is known just
how far it fails.  Witness generators play no role.
-/

set_option linter.unusedSectionVars false

namespace R1CS

variable {p : ℕ} [hp : Fact p.Prime]

open Expression (eval_ofWire eval_sub)

/-- C86: field arithmetic.  `quotient_unsafe` admits every result, whatever its operands are, and
`inverse_or_zero` admits every result if its operand is zero. -/
theorem C86_arithmetic {n : ℕ} {x y : Expression p} (hx : x.Scoped n) (hy : y.Scoped n)
    (k : Elem p) :
    Admits n (B.product x y) (fun W z => z.eval W) (fun W r => r = x.eval W * y.eval W) ∧
    Admits n (B.exponentiation x k) (fun W z => z.eval W) (fun W r => r = x.eval W ^ k.n) ∧
    Admits n (B.inverse x) (fun W z => z.eval W) (fun W r => r * x.eval W = 1) ∧
    Admits n (B.quotient x y) (fun W z => z.eval W)
      (fun W r => y.eval W ≠ 0 ∧ r * y.eval W = x.eval W) ∧
    Admits n (B.inverseOrZero x) (fun W z => z.eval W)
      (fun W r => x.eval W = 0 ∨ r * x.eval W = 1) ∧
    Admits n (B.quotientUnsafe x y) (fun W z => z.eval W) (fun _ _ => True) := by
  refine ⟨?_, ?_, ?_, ?_, ?_, ?_⟩
  · exact Admits.of_function (.product x y) (fun W W' h => by rw [hx.eval_eq h, hy.eval_eq h])
      (Enforces.product x y) fun s hn => by
        subst hn; exact (Comp.product hx hy).mono fun _ _ _ h => h.2.2
  · exact Admits.of_function (.exponentiation x k) (fun W W' h => by rw [hx.eval_eq h])
      (Enforces.exponentiation x k) fun s hn => by
        subst hn; exact (Comp.exponentiation hx k).mono fun _ _ _ h => h.2.2
  · refine Admits.intro (Enforces.inverse x) (fun s z W hn _ hW h => ?_) fun s r hn hr => ?_
    · rw [← hx.eval_eq hW, mul_comm]; exact h
    · subst hn
      have h0 : x.eval s.W ≠ 0 := fun h => by rw [h, mul_zero] at hr; exact zero_ne_one hr
      refine (Can.inverse hx h0).mono fun z t _ h => ?_
      rw [h.2]; exact (eq_inv_of_mul_eq_one_left hr).symm
  · refine Admits.intro (C26_quotient_enforced x y) (fun s z W hn _ hW h => ?_) fun s r hn hr => ?_
    · rw [← hx.eval_eq hW, ← hy.eval_eq hW]; exact h
    · subst hn
      unfold B.quotient
      refine (Can.inverse hy hr.1).bind fun i t l ⟨h1, h2⟩ => ?_
      refine (Can.product_eval (l.scoped hx) h1).mono fun z u _ h => ?_
      rw [h.2, h2, l.eval hx, ← hr.2, mul_assoc, mul_inv_cancel₀ hr.1, mul_one]
  · refine Admits.intro (Enforces.inverseOrZero x) (fun s z W hn _ hW h => ?_) fun s r hn hr => ?_
    · rw [hx.eval_eq hW] at h
      by_cases h0 : x.eval s.W = 0
      · exact .inl h0
      · exact .inr (by rw [h h0]; exact inv_mul_cancel₀ h0)
    · subst hn
      by_cases h0 : x.eval s.W = 0
      · exact C28_inverse_or_zero_refuted s hx h0 r
      · refine (Can.inverseOrZero hx h0).mono fun z t _ h => ?_
        rw [h.2]
        exact (eq_inv_of_mul_eq_one_left (hr.resolve_left h0)).symm
  · exact Admits.intro (Enforces.quotientUnsafe x y) (fun _ _ _ _ _ _ _ => trivial)
      fun s r hn _ => (C30_quotient_unsafe_refuted s x y r).mono fun _ _ _ h => h.1

/-- C86: tests. -/
theorem C86_tests {n : ℕ} {x y : Expression p} (hx : x.Scoped n) (hy : y.Scoped n) :
    Admits n (B.nonzero x) (fun W z => z.eval W) (fun W r => r = if x.eval W = 0 then 0 else 1) ∧
    Admits n (B.zero x) (fun W z => z.eval W) (fun W r => r = if x.eval W = 0 then 1 else 0) ∧
    Admits n (B.equal x y) (fun W z => z.eval W)
      (fun W r => r = if x.eval W = y.eval W then 1 else 0) := by
  have hz : ∀ (s : Wit p) (e : Expression p), e.Scoped s.next →
      Can (B.zero e) s fun z t => z.eval t.W = if e.eval s.W = 0 then 1 else 0 := by
    intro s e he
    unfold B.zero B.not
    refine (Can.nonzero he).bind fun nz t l ⟨h1, h2⟩ => Can.pure ?_
    rw [BooleanExpression.eval_mk, eval_sub, Expression.eval_one t.one]
    change (1 : Elem p) - nz.eval t.W = _
    rw [h2]
    split <;> simp
  refine ⟨?_, ?_, ?_⟩
  · refine Admits.intro (Enforces.nonzero x) (fun s z W hn _ hW h => ?_) fun s r hn hr => ?_
    · rw [h, hx.eval_eq hW]
    · subst hn; exact (Can.nonzero hx).mono fun _ _ _ h => by rw [h.2, hr]
  · refine Admits.intro (Enforces.zero x) (fun s z W hn _ hW h => ?_) fun s r hn hr => ?_
    · rw [h, hx.eval_eq hW]
    · subst hn; exact (hz s x hx).mono fun _ _ _ h => by rw [h, hr]
  · refine Admits.intro (Enforces.equal x y) (fun s z W hn _ hW h => ?_) fun s r hn hr => ?_
    · rw [h, hx.eval_eq hW, hy.eval_eq hW]
    · subst hn
      refine (hz s (x - y) (hx.sub hy)).mono fun _ _ _ h => ?_
      rw [h, hr, eval_sub]
      simp only [sub_eq_zero]

/-- C86: selection and boolean connectives.  For operands other than 0 and 1 the results are those
of the polynomials. -/
theorem C86_booleans {n : ℕ} {c d : BooleanExpression p} {x y : Expression p} (hc : c.Scoped n)
    (hd : d.Scoped n) (hx : x.Scoped n) (hy : y.Scoped n) :
    Admits n (B.selection c x y) (fun W z => z.eval W)
      (fun W r => r = c.eval W * x.eval W + (1 - c.eval W) * y.eval W) ∧
    Admits n (B.not c) (fun W z => z.eval W) (fun W r => r = 1 - c.eval W) ∧
    Admits n (B.and c d) (fun W z => z.eval W) (fun W r => r = c.eval W * d.eval W) ∧
    Admits n (B.or c d) (fun W z => z.eval W)
      (fun W r => r = c.eval W + d.eval W - c.eval W * d.eval W) ∧
    (2 < p → Admits n (B.xor c d) (fun W z => z.eval W)
      (fun W r => r = c.eval W + d.eval W - 2 * c.eval W * d.eval W)) := by
  have ec : ∀ {W W' : Assign p}, (∀ i < n, W i = W' i) → c.eval W = c.eval W' := fun h =>
    hc.eval_eq h
  have ed : ∀ {W W' : Assign p}, (∀ i < n, W i = W' i) → d.eval W = d.eval W' := fun h =>
    hd.eval_eq h
  refine ⟨?_, ?_, ?_, ?_, fun h2 => ?_⟩
  · exact Admits.of_function (.selection c x y)
      (fun W W' h => by rw [ec h, hx.eval_eq h, hy.eval_eq h])
      ((Enforces.selection c x y).mono fun _ _ _ h => by rw [h]; ring) fun s hn => by
        subst hn; exact (Comp.selection hc hx hy).mono fun _ _ _ h => by rw [h.2.2]; ring
  · exact Admits.of_function (.not c) (fun W W' h => by rw [ec h]) (Enforces.not c) fun s hn => by
        subst hn; exact (Comp.not hc).mono fun _ _ _ h => h.2.2.2.2
  · exact Admits.of_function (.and c d) (fun W W' h => by rw [ec h, ed h]) (Enforces.and c d)
      fun s hn => by subst hn; exact (Comp.and hc hd).mono fun _ _ _ h => h.2.2
  · exact Admits.of_function (.or c d) (fun W W' h => by rw [ec h, ed h]) (Enforces.or c d)
      fun s hn => by subst hn; exact (Comp.or hc hd).mono fun _ _ _ h => h.2.2
  · exact Admits.of_function (.xor c d) (fun W W' h => by rw [ec h, ed h])
      ((Enforces.xor c d).mono fun _ _ _ h => by rw [h]; ring) fun s hn => by
        subst hn; exact (Comp.xor h2 hc hd).mono fun _ _ _ h => by rw [h.2.2]; ring

/-- C86: elementary assertions. -/
theorem C86_assertions {n : ℕ} {x y z : Expression p} (hx : x.Scoped n) (hy : y.Scoped n)
    (hz : z.Scoped n) :
    AdmitsWhen n (B.assertProduct x y z) (fun W => x.eval W * y.eval W = z.eval W) ∧
    AdmitsWhen n (B.assertBoolean x) (fun W => x.eval W = 0 ∨ x.eval W = 1) ∧
    AdmitsWhen n (B.assertEqual x y) (fun W => x.eval W = y.eval W) ∧
    AdmitsWhen n (B.assertZero x) (fun W => x.eval W = 0) ∧
    AdmitsWhen n (B.assertTrue ⟨x⟩) (fun W => x.eval W = 1) ∧
    AdmitsWhen n (B.assertFalse ⟨x⟩) (fun W => x.eval W = 0) ∧
    AdmitsWhen n (B.assertNonzero x) (fun W => x.eval W ≠ 0) ∧
    AdmitsWhen n (B.assertNonequal x y) (fun W => x.eval W ≠ y.eval W) := by
  have A := fun (s : Wit p) (hn : s.next = n) => C32_assertions_satisfiable s (hn ▸ hx) (hn ▸ hy)
    (hn ▸ hz)
  have N := fun (s : Wit p) (hn : s.next = n) => C32_negative_assertions_satisfiable s (hn ▸ hx)
    (hn ▸ hy)
  refine ⟨?_, ?_, ?_, ?_, ?_, ?_, ?_, ?_⟩
  · exact .intro (Enforces.assertProduct x y z) (fun s _ W _ _ hW h => by
      rwa [hx.eval_eq hW, hy.eval_eq hW, hz.eval_eq hW] at h) fun s hn => (A s hn).1.2
  · exact .intro (Enforces.assertBoolean x) (fun s _ W _ _ hW h => by
      have := h.2; rwa [hx.eval_eq hW] at this) fun s hn => (A s hn).2.1.2
  · exact .intro (Enforces.assertEqual x y) (fun s _ W _ _ hW h => by
      rwa [hx.eval_eq hW, hy.eval_eq hW] at h) fun s hn => (A s hn).2.2.1.2
  · exact .intro (Enforces.assertZero x) (fun s _ W _ _ hW h => by
      rwa [hx.eval_eq hW] at h) fun s hn => (A s hn).2.2.2.1.2
  · exact .intro (Enforces.assertTrue ⟨x⟩) (fun s _ W _ _ hW h => by
      rwa [BooleanExpression.eval_mk, hx.eval_eq hW] at h) fun s hn => (A s hn).2.2.2.2.1.2
  · exact .intro (Enforces.assertFalse ⟨x⟩) (fun s _ W _ _ hW h => by
      rwa [BooleanExpression.eval_mk, hx.eval_eq hW] at h) fun s hn => (A s hn).2.2.2.2.2.2
  · exact .intro (Enforces.assertNonzero x) (fun s _ W _ _ hW h => by
      rwa [hx.eval_eq hW] at h) fun s hn => (N s hn).1.2
  · exact .intro (Enforces.assertNonequal x y) (fun s _ W _ _ hW h => by
      rwa [hx.eval_eq hW, hy.eval_eq hW] at h) fun s hn => (N s hn).2.2

/-- C86: splitting.  The digits are those of the value, except that `split_allowing_ambiguity` also
admits those of the value plus the order, if they fit. -/
theorem C86_splitting {n : ℕ} {x : Expression p} (hx : x.Scoped n) (k : ℕ) :
    Admits n (B.splitBounded x k) (fun W e => e.digits W) (fun W ds => k < Elem.maxBits p ∧
      ds.length = k ∧ (∀ d ∈ ds, d ≤ 1) ∧ digitsVal ds = (x.eval W).n) ∧
    Admits n (B.splitAllowingAmbiguity x) (fun W e => e.digits W) (fun W ds =>
      ds.length = Elem.maxBits p ∧ (∀ d ∈ ds, d ≤ 1) ∧
        (digitsVal ds = (x.eval W).n ∨ digitsVal ds = (x.eval W).n + p)) ∧
    (4 ≤ Elem.maxBits p → Admits n (B.split x) (fun W e => e.digits W) (fun W ds =>
      ds.length = Elem.maxBits p ∧ (∀ d ∈ ds, d ≤ 1) ∧ digitsVal ds = (x.eval W).n)) := by
  have hp0 : ((p : ℕ) : Elem p) = 0 := by
    refine Elem.ext_n ?_
    rw [Elem.natCast_n, Nat.mod_self]; rfl
  have hdig : ∀ {W : Assign p} {e : BinaryExpression p} {ds : List ℕ}, e.AllBool W →
      (∀ d ∈ ds, d ≤ 1) → e.len = ds.length → e.val W = digitsVal ds → e.digits W = ds := by
    intro W e ds h1 h2 h3 h4
    rw [digits_of_val h1.digits_le h4, BinaryExpression.digits_length, h3]
    exact (digits_of_val h2 rfl).symm
  refine ⟨?_, ?_, fun h4 => ?_⟩
  · refine Admits.intro (Enforces.splitBounded x k) (fun s e W hn _ hW h => ?_) fun s ds hn hr => ?_
    · obtain ⟨h1, h2, h3, _, h5⟩ := h
      refine ⟨h3, ?_, h1.digits_le, ?_⟩
      · rw [BinaryExpression.digits_length, h2]
      · rw [← hx.eval_eq hW]; exact h5
    · subst hn
      obtain ⟨h1, h2, h3, h4⟩ := hr
      unfold B.splitBounded
      refine Can.require_bind h1 ?_
      have hlt := digitsVal_lt h3
      rw [h2] at hlt
      refine (Can.splitWithoutRangeCheck hx h1.le hlt (by rw [h4, Elem.natCast_self_n])).mono
        fun e t _ ⟨_, g1, g2, g3⟩ => hdig g1 h3 (by rw [g2, h2]) g3
  · refine Admits.intro (Enforces.splitAllowingAmbiguity x) (fun s e W hn _ hW h => ?_)
      fun s ds hn hr => ?_
    · obtain ⟨h1, h2, h5⟩ := h
      refine ⟨by rw [BinaryExpression.digits_length, h2], h1.digits_le, ?_⟩
      rw [← hx.eval_eq hW]; exact h5
    · subst hn
      obtain ⟨h2, h3, h4⟩ := hr
      unfold B.splitAllowingAmbiguity
      have hlt := digitsVal_lt h3
      rw [h2] at hlt
      refine (Can.splitWithoutRangeCheck hx le_rfl hlt ?_).mono
        fun e t _ ⟨_, g1, g2, g3⟩ => hdig g1 h3 (by rw [g2, h2]) g3
      rcases h4 with h4 | h4
      · rw [h4, Elem.natCast_self_n]
      · rw [h4, Nat.cast_add, Elem.natCast_self_n, hp0, add_zero]
  · refine Admits.intro (Enforces.split x) (fun s e W hn _ hW h => ?_) fun s ds hn hr => ?_
    · obtain ⟨h1, h2, h5⟩ := h
      refine ⟨by rw [BinaryExpression.digits_length, h2], h1.digits_le, ?_⟩
      rw [← hx.eval_eq hW]; exact h5
    · subst hn
      obtain ⟨h2, h3, h5⟩ := hr
      refine (Can.ofComp (Prog.split x) (Comp.split (s := s.toHon) h4 hx)).mono
        fun e t _ ⟨u, _, hW, _, _, g1, g2, g3⟩ => ?_
      rw [hW] at g1 g3
      exact hdig g1 h3 (by rw [g2, h2]) (by rw [g3, h5]; rfl)

/-- C86: comparisons.  Exactly the results 1 of strict comparisons, and 0 of the others, mean
anything; for small operands even the latter do not. -/
theorem C86_comparisons (h4 : 4 ≤ Elem.maxBits p) {n : ℕ} {x y : Expression p} (hx : x.Scoped n)
    (hy : y.Scoped n) :
    Admits n (B.lt x y) (fun W r => r.eval W)
      (fun W r => r = 0 ∨ r = 1 ∧ (x.eval W).n < (y.eval W).n) ∧
    Admits n (B.gt x y) (fun W r => r.eval W)
      (fun W r => r = 0 ∨ r = 1 ∧ (x.eval W).n > (y.eval W).n) ∧
    Admits n (B.le x y) (fun W r => r.eval W) (fun W r => r = 1 ∨ r = 0 ∧
      ((x.eval W).n > (y.eval W).n ∨ (x.eval W).n + p < 2 ^ Elem.maxBits p)) ∧
    Admits n (B.ge x y) (fun W r => r.eval W) (fun W r => r = 1 ∨ r = 0 ∧
      ((x.eval W).n < (y.eval W).n ∨ (y.eval W).n + p < 2 ^ Elem.maxBits p)) := by
  have F := C39_comparisons_partial x y
  have honest : ∀ (s : Wit p), s.next = n → ∀ less strict : Bool,
      Can (B.cmp x y less strict) s fun r t => r.eval t.W = Elem.ofBool
        (cmpHolds less strict (((x.eval s.W).n : ℤ) - ((y.eval s.W).n : ℤ))) := by
    intro s hn less strict
    subst hn
    exact (Can.ofComp (Prog.cmp x y less strict) (Comp.cmp (s := s.toHon) h4 hx hy less strict)).mono
      fun r t _ ⟨u, _, hW, _, _, h⟩ => by rw [hW] at h; exact h
  have hc0 : ∀ (s : Wit p) (less strict : Bool), ¬ cmpHolds less strict
      (((x.eval s.W).n : ℤ) - ((y.eval s.W).n : ℤ)) = true → Elem.ofBool (p := p)
        (cmpHolds less strict (((x.eval s.W).n : ℤ) - ((y.eval s.W).n : ℤ))) = 0 :=
    fun s less strict h => by rw [Bool.eq_false_iff.2 h]; exact Elem.ofBool_false
  have hc1 : ∀ (s : Wit p) (less strict : Bool), cmpHolds less strict
      (((x.eval s.W).n : ℤ) - ((y.eval s.W).n : ℤ)) = true → Elem.ofBool (p := p)
        (cmpHolds less strict (((x.eval s.W).n : ℤ) - ((y.eval s.W).n : ℤ))) = 1 :=
    fun s less strict h => by rw [h]; exact Elem.ofBool_true
  refine ⟨?_, ?_, ?_, ?_⟩
  · refine Admits.intro F.1 (fun s r W hn _ hW h => ?_) fun s r hn hr => ?_
    · rw [hx.eval_eq hW, hy.eval_eq hW] at h
      exact h.1.imp id fun h1 => ⟨h1, h.2 h1⟩
    · rcases hr with rfl | ⟨rfl, hr⟩
      · subst hn; exact (C39_comparisons_refuted h4 s hx hy).1
      · refine (honest s hn true true).mono fun r t _ h => h.trans (hc1 s _ _ ?_)
        rw [cmpHolds_iff]; simp; omega
  · refine Admits.intro F.2.1 (fun s r W hn _ hW h => ?_) fun s r hn hr => ?_
    · rw [hx.eval_eq hW, hy.eval_eq hW] at h
      exact h.1.imp id fun h1 => ⟨h1, h.2 h1⟩
    · rcases hr with rfl | ⟨rfl, hr⟩
      · subst hn; exact (C39_comparisons_refuted h4 s hx hy).2.1
      · refine (honest s hn false true).mono fun r t _ h => h.trans (hc1 s _ _ ?_)
        rw [cmpHolds_iff]; simp; omega
  · refine Admits.intro F.2.2.1 (fun s r W hn _ hW h => ?_) fun s r hn hr => ?_
    · rw [hx.eval_eq hW, hy.eval_eq hW] at h
      exact h.1.symm.imp id fun h1 => ⟨h1, h.2 h1⟩
    · rcases hr with rfl | ⟨rfl, hr | hr⟩
      · subst hn; exact (C39_comparisons_refuted h4 s hx hy).2.2.1
      · refine (honest s hn true false).mono fun r t _ h => h.trans (hc0 s _ _ ?_)
        rw [cmpHolds_iff]; simp; omega
      · subst hn
        exact (Can.cmp_ambiguous h4 hx hy true (by simpa using hr)).mono fun _ _ _ h => h.2
  · refine Admits.intro F.2.2.2 (fun s r W hn _ hW h => ?_) fun s r hn hr => ?_
    · rw [hx.eval_eq hW, hy.eval_eq hW] at h
      exact h.1.symm.imp id fun h1 => ⟨h1, h.2 h1⟩
    · rcases hr with rfl | ⟨rfl, hr | hr⟩
      · subst hn; exact (C39_comparisons_refuted h4 s hx hy).2.2.2
      · refine (honest s hn false false).mono fun r t _ h => h.trans (hc0 s _ _ ?_)
        rw [cmpHolds_iff]; simp; omega
      · subst hn
        exact (Can.cmp_ambiguous h4 hx hy false (by simpa using hr)).mono fun _ _ _ h => h.2

/-- C86: asserted comparisons.  `assert_le` and `assert_ge` admit all operands. -/
theorem C86_asserted_comparisons (h4 : 4 ≤ Elem.maxBits p) {n : ℕ} {x y : Expression p}
    (hx : x.Scoped n) (hy : y.Scoped n) :
    AdmitsWhen n (B.assertLt x y) (fun W => (x.eval W).n < (y.eval W).n) ∧
    AdmitsWhen n (B.assertGt x y) (fun W => (x.eval W).n > (y.eval W).n) ∧
    AdmitsWhen n (B.assertLe x y) (fun _ => True) ∧
    AdmitsWhen n (B.assertGe x y) (fun _ => True) := by
  have D := fun (s : Wit p) (hn : s.next = n) => C40_assertions_decide h4 s.toHon (x := x) (y := y)
    (by subst hn; exact hx) (by subst hn; exact hy)
  refine ⟨?_, ?_, ?_, ?_⟩
  · refine .intro (Enforces.assertLt x y) (fun s _ W _ _ hW h => by
      rwa [hx.eval_eq hW, hy.eval_eq hW] at h) fun s hn hr => ?_
    exact (Can.ofComp (Prog.assertLt x y) ((D s hn).1.1 hr)).mono fun _ _ _ _ => trivial
  · refine .intro (Enforces.assertGt x y) (fun s _ W _ _ hW h => by
      rwa [hx.eval_eq hW, hy.eval_eq hW] at h) fun s hn hr => ?_
    exact (Can.ofComp (Tidy.assertGt x y).1 ((D s hn).2.2.1.1 hr)).mono fun _ _ _ _ => trivial
  · exact .intro (Tidy.assertLe x y).1.enforces (fun _ _ _ _ _ _ _ => trivial) fun s hn _ => by
      subst hn; exact (C38_assert_le_unconstrained_refuted h4 s hx hy).1
  · exact .intro (Tidy.assertGe x y).1.enforces (fun _ _ _ _ _ _ _ => trivial) fun s hn _ => by
      subst hn; exact (C38_assert_le_unconstrained_refuted h4 s hx hy).2

/-- C86: integer division.  Every number below the divisor is admitted as the remainder. -/
theorem C86_modulus (h4 : 4 ≤ Elem.maxBits p) {n : ℕ} {x y : Expression p} (hx : x.Scoped n)
    (hy : y.Scoped n) :
    Admits n (B.modulus x y) (fun W r => r.eval W) (fun W r => r.n < (y.eval W).n) ∧
    Admits n (B.divides x y) (fun W r => r.eval W)
      (fun W r => r = 1 ∧ x.eval W ≠ 0 ∨ r = 0 ∧ 1 < (x.eval W).n) := by
  constructor
  · exact Admits.intro (C43_modulus_partial x y) (fun s r W hn _ hW h => by
      have := h.1; rwa [hy.eval_eq hW] at this) fun s r hn hr => by
      subst hn; exact C43_modulus_any_refuted h4 s hx hy r hr
  · refine Admits.intro (C43_divides_partial x y) (fun s r W hn _ hW h => ?_) fun s r hn hr => ?_
    · obtain ⟨h1, h2, h3⟩ := h
      rw [hx.eval_eq hW] at h2 h3
      rcases h1 with h1 | h1
      · refine .inr ⟨h1, ?_⟩
        have hne : (x.eval s.W).n ≠ 0 := fun h0 => h2 (by
          rw [← Elem.natCast_self_n (x.eval s.W), h0, Nat.cast_zero])
        have hne1 : (x.eval s.W).n ≠ 1 := fun h0 => by
          have := h3 h0
          rw [h1] at this
          exact zero_ne_one this
        omega
      · exact .inl ⟨h1, h2⟩
    · subst hn
      rcases hr with ⟨rfl, hr⟩ | ⟨rfl, hr⟩
      · exact (C43_divides_any_refuted h4 s hx hy true (by simpa using hr)).mono
          fun _ _ _ h => h.trans Elem.ofBool_true
      · exact (C43_divides_any_refuted h4 s hx hy false (by simpa using hr)).mono
          fun _ _ _ h => h.trans Elem.ofBool_false

/-- C86: permutations and sorting.  Sorting admits every rearrangement of its operands. -/
theorem C86_lists (h4 : 4 ≤ Elem.maxBits p) {n : ℕ} {xs ys : List (Expression p)}
    (hx : ListScoped n xs) (hy : ListScoped n ys) :
    AdmitsWhen n (B.assertPermutation xs ys) (fun W => (values W xs).Perm (values W ys)) ∧
    Admits n (B.sortAscending xs) (fun W r => values W r)
      (fun W r => xs ≠ [] ∧ r.Perm (values W xs)) ∧
    Admits n (B.sortDescending xs) (fun W r => values W r)
      (fun W r => xs ≠ [] ∧ r.Perm (values W xs)) := by
  have ex : ∀ {es : List (Expression p)}, ListScoped n es → ∀ {W W' : Assign p},
      (∀ i < n, W i = W' i) → values W es = values W' es :=
    fun h _ _ hW => List.map_congr_left fun e he => (h e he).eval_eq hW
  have hne : Enforces (B.sortAscending xs) (fun _ _ => xs ≠ []) ∧
      Enforces (B.sortDescending xs) fun _ _ => xs ≠ [] := by
    by_cases h0 : xs = []
    · subst h0
      have h1 : ∀ b : Builder p, _ := C53_sort_empty_panics
      constructor
      · intro b _ _ h; rw [(h1 b).1] at h; cases h
      · intro b _ _ h; rw [(h1 b).2] at h; cases h
    · exact ⟨(Tidy.sortAscending xs).1.enforces.mono fun _ _ _ _ => h0,
        (Tidy.sortDescending xs).1.enforces.mono fun _ _ _ _ => h0⟩
  refine ⟨?_, ?_, ?_⟩
  · refine .intro (C50_assert_permutation xs ys) (fun s _ W _ _ hW h => by
      have h : (values W xs).Perm (values W ys) := h
      rwa [ex hx hW, ex hy hW] at h) fun s hn hr => ?_
    subst hn
    exact (Can.ofComp (Tidy.assertPermutation xs ys).1
      (Comp.assertPermutation (s := s.toHon) hx hy hr)).mono fun _ _ _ _ => trivial
  · refine Admits.intro ((C54_sort_partial xs).1.conj hne.1) (fun s r W hn _ hW h => ?_)
      fun s r hn hr => ?_
    · exact ⟨h.2, by rw [← ex hx hW]; exact h.1.2⟩
    · subst hn
      exact C54_sort_any_order_refuted h4 s hr.1 hx hr.2.symm
  · refine Admits.intro ((C54_sort_partial xs).2.conj hne.2) (fun s r W hn _ hW h => ?_)
      fun s r hn hr => ?_
    · exact ⟨h.2, by rw [← ex hx hW]; exact h.1.2⟩
    · subst hn
      unfold B.sortDescending
      refine (C54_sort_any_order_refuted h4 s hr.1 hx (ys := r.reverse)
        ((List.reverse_perm r).trans hr.2).symm).bind fun r' t _ h => Can.pure ?_
      change List.map _ r' = r.reverse at h
      rw [values, List.map_reverse, h, List.reverse_reverse]

/-- What the constraints of random access say. -/
theorem Enforces.randomAccess_exact (items : List (Expression p)) (index : Expression p) :
    Enforces (B.randomAccess items index) (fun z W =>
    Nat.clog 2 items.length < Elem.maxBits p ∧
    (index.eval W).n < 2 ^ Nat.clog 2 items.length ∧
    ∃ j, ∃ h : j < items.length, j &&& (index.eval W).n = j ∧
      (∀ j' < items.length, j' &&& (index.eval W).n = j' → j' ≤ j) ∧
      z.eval W = (items[j]).eval W) := by
  unfold B.randomAccess
  refine (Enforces.splitBounded index _).bind fun ib =>
    (Enforces.randomAccessBinary ib.bits items).mono fun z w _ h ⟨hb, hl, h3, _, hv⟩ => ?_
  rw [← indexBits_eq_clog]
  have hne : items ≠ [] := by
    rintro rfl
    have := mem_of_pick (h hb)
    simp at this
  have h2 : digitsVal ((ib.bits.map (BooleanExpression.truth w)).map Bool.toNat)
      = (index.eval w).n := by rw [← hv, ← hb.digits_eq]; rfl
  have hl' : ib.bits.length = B.indexBits items.length := hl
  obtain ⟨j, g1, g2, g3, g4⟩ := pick_last (ib.bits.map (BooleanExpression.truth w))
    (items.map (Expression.eval w)) (by simpa using hne) (by
      rw [List.length_map, List.length_map, hl']; exact (indexBits_spec _).1)
  rw [h2] at g2 g3
  rw [List.length_map] at g1 g3
  refine ⟨h3, by rw [← hv, ← hl]; exact hb.val_lt, j, g1, g2, g3, ?_⟩
  have g5 := h hb
  rw [g4, List.getElem?_map, List.getElem?_eq_getElem g1] at g5
  exact (Option.some.inj g5).symm

/-- C49, C86: random access.  The index is below the next power of two, and the result is the last
item whose index has no binary digits but those of the given index. -/
theorem C86_random_access {n : ℕ} {items : List (Expression p)} {index : Expression p}
    (hs : ListScoped n items) (hi : index.Scoped n) :
    Admits n (B.randomAccess items index) (fun W z => z.eval W) (fun W r =>
      Nat.clog 2 items.length < Elem.maxBits p ∧
      (index.eval W).n < 2 ^ Nat.clog 2 items.length ∧
      ∃ j, ∃ h : j < items.length, j &&& (index.eval W).n = j ∧
        (∀ j' < items.length, j' &&& (index.eval W).n = j' → j' ≤ j) ∧
        r = (items[j]).eval W) := by
  have hE := Enforces.randomAccess_exact items index
  refine Admits.intro hE (fun s z W hn _ hW h => ?_) fun s r hn hr => ?_
  · obtain ⟨h1, h2, j, hj, h3, h4, h5⟩ := h
    rw [hi.eval_eq hW] at h2 h3 h4
    exact ⟨h1, h2, j, hj, h3, h4, by
      rw [h5]; exact (hs _ (List.getElem_mem hj)).eval_eq hW⟩
  · subst hn
    obtain ⟨h1, h2, j, hj, h3, h4, rfl⟩ := hr
    rw [← indexBits_eq_clog] at h1 h2
    refine ((Can.ofComp (Tidy.randomAccess items index).1 (Comp.randomAccess (s := s.toHon) hi hs
      (by omega) h2 h1)).enforced hE).mono fun z t l h => ?_
    obtain ⟨_, _, _, j', hj', g3, g4, g5⟩ := h
    rw [l.eval hi] at g3 g4
    have : j' = j := le_antisymm (h4 j' hj' g3) (g4 j hj h3)
    subst this
    rw [g5]
    exact l.eval (hs _ (List.getElem_mem hj))

/-- C86: digit strings.  Sums are forced to be right; a sum for which there is no room, in the
field or, if overflow is excluded, in the length of the longest operand, admits nothing. -/
theorem C86_summation (h2 : 2 < p) {n : ℕ} {terms : List (BinaryExpression p)}
    (hs : ∀ t ∈ terms, t.Scoped n) :
    AdmitsIf n (fun W => ∀ t ∈ terms, t.AllBool W) (B.binarySummation terms)
      (fun W e => e.digits W) (fun W ds => (largestSum terms).size < Elem.maxBits p ∧
        ds.length = (largestSum terms).size ∧ (∀ d ∈ ds, d ≤ 1) ∧ digitsVal ds = intSum W terms) ∧
    AdmitsIf n (fun W => ∀ t ∈ terms, t.AllBool W) (B.binarySummationIgnoringOverflow terms)
      (fun W e => e.digits W) (fun W ds => (largestSum terms).size < Elem.maxBits p ∧
        ds.length = longest terms ∧ (∀ d ∈ ds, d ≤ 1) ∧
        digitsVal ds = intSum W terms % 2 ^ longest terms) ∧
    AdmitsIf n (fun W => ∀ t ∈ terms, t.AllBool W) (B.binarySummationAssertingNoOverflow terms)
      (fun W e => e.digits W) (fun W ds => (largestSum terms).size < Elem.maxBits p ∧
        ds.length = longest terms ∧ (∀ d ∈ ds, d ≤ 1) ∧ digitsVal ds = intSum W terms) := by
  have hdig : ∀ {W : Assign p} {e : BinaryExpression p} {ds : List ℕ}, e.AllBool W →
      (∀ d ∈ ds, d ≤ 1) → e.len = ds.length → e.val W = digitsVal ds → e.digits W = ds := by
    intro W e ds h1 h2 h3 h4
    rw [digits_of_val h1.digits_le h4, BinaryExpression.digits_length, h3]
    exact (digits_of_val h2 rfl).symm
  have hT : ∀ {α : Type} {m : B p α}, Prog m → (∀ b, Elem.maxBits p ≤ (largestSum terms).size →
      m b = none) → Enforces m fun _ _ => (largestSum terms).size < Elem.maxBits p := by
    intro α m hm h b a b' hr w hw
    refine ⟨(hm.enforces b a b' hr w hw).1, ?_⟩
    by_contra hc
    rw [h b (not_lt.1 hc)] at hr
    cases hr
  have hdg : ∀ {W W' : Assign p}, (∀ i < n, W i = W' i) → ∀ t ∈ terms, t.digits W = t.digits W' := by
    intro W W' hW t ht
    unfold BinaryExpression.digits
    refine List.map_congr_left fun b hb => ?_
    have : b.eval W = b.eval W' := BooleanExpression.Scoped.eval_eq (hs t ht b hb) hW
    rw [this]
  have hB : ∀ {W W' : Assign p}, (∀ i < n, W i = W' i) → (∀ t ∈ terms, t.AllBool W') →
      ∀ t ∈ terms, t.AllBool W := by
    intro W W' hW h t ht b hb
    have : b.eval W = b.eval W' := BooleanExpression.Scoped.eval_eq (hs t ht b hb) hW
    rw [this]; exact h t ht b hb
  have hI : ∀ {W W' : Assign p}, (∀ i < n, W i = W' i) → intSum W terms = intSum W' terms := by
    intro W W' hW
    unfold intSum
    congr 1
    refine List.map_congr_left fun t ht => ?_
    unfold BinaryExpression.val
    rw [hdg hW t ht]
  refine ⟨?_, ?_, ?_⟩
  · refine AdmitsIf.intro ((C44_summation_enforced terms).conj (hT (Tidy.binarySummation terms).1
      fun b h => (C44_too_long terms b h).1)) (fun s e W hn hP _ hW h => ?_) fun s ds hn hP hr => ?_
    · obtain ⟨⟨h1, h2, h3⟩, h5⟩ := h
      exact ⟨h5, by rw [BinaryExpression.digits_length]; exact h2, h1.digits_le,
        by rw [← hI hW]; exact h3 (hB hW hP)⟩
    · subst hn
      obtain ⟨g1, g2, g3, g4⟩ := hr
      refine (Can.ofComp (Tidy.binarySummation terms).1
        (C44_summation_computed s.toHon hs hP g1).1).mono fun e t _ ⟨u, _, hW, _, _, h1, h2, h3⟩ => ?_
      rw [hW] at h2 h3
      exact hdig h2 g3 (by rw [g2]; exact h1) (by rw [h3, g4]; rfl)
  · refine AdmitsIf.intro ((C44_ignoring_overflow_enforced terms).conj
      (hT (Tidy.binarySummationIgnoringOverflow terms).1
      fun b h => (C44_too_long terms b h).2.1)) (fun s e W hn hP _ hW h => ?_) fun s ds hn hP hr => ?_
    · obtain ⟨⟨h1, h2, h3⟩, h5⟩ := h
      exact ⟨h5, by rw [BinaryExpression.digits_length]; exact h2, h1.digits_le,
        by rw [← hI hW]; exact h3 (hB hW hP)⟩
    · subst hn
      obtain ⟨g1, g2, g3, g4⟩ := hr
      refine (Can.ofComp (Tidy.binarySummationIgnoringOverflow terms).1
        (C44_summation_computed s.toHon hs hP g1).2.1).mono
        fun e t _ ⟨u, _, hW, _, _, h1, h2, h3⟩ => ?_
      rw [hW] at h2 h3
      exact hdig h2 g3 (by rw [g2]; exact h1) (by rw [h3, g4]; rfl)
  · refine AdmitsIf.intro ((C44_asserting_no_overflow_enforced terms).conj
      (hT (Tidy.binarySummationAssertingNoOverflow terms).1
      fun b h => (C44_too_long terms b h).2.2)) (fun s e W hn hP _ hW h => ?_) fun s ds hn hP hr => ?_
    · obtain ⟨⟨h1, h2, h3⟩, h5⟩ := h
      exact ⟨h5, by rw [BinaryExpression.digits_length]; exact h2, h1.digits_le,
        by rw [← hI hW]; exact (h3 (hB hW hP)).2⟩
    · subst hn
      obtain ⟨g1, g2, g3, g4⟩ := hr
      have hlt : intSum s.W terms < 2 ^ longest terms := by
        rw [← g4, ← g2]; exact digitsVal_lt g3
      refine (Can.ofComp (Tidy.binarySummationAssertingNoOverflow terms).1
        ((C44_summation_computed s.toHon hs hP g1).2.2 h2 hlt)).mono
        fun e t _ ⟨u, _, hW, _, _, h1, h2, h3⟩ => ?_
      rw [hW] at h2 h3
      exact hdig h2 g3 (by rw [g2]; exact h1) (by rw [h3, g4]; rfl)

/-- C86: comparisons of digit strings, where they do not panic (see C41). -/
theorem C86_binary_comparisons (h2 : 2 < p) {n : ℕ} {x y : BinaryExpression p} (hx : x.Scoped n)
    (hy : y.Scoped n) (hlen : x.len = y.len) (h0 : 0 < x.len)
    (hadm : cmpChunkBits (Elem.maxBits p) x.len + 1 < Elem.maxBits p) :
    AdmitsIf n (fun W => x.AllBool W ∧ y.AllBool W) (B.ltBinary x y) (fun W r => r.eval W)
      (fun W r => r = 0 ∨ r = 1 ∧ x.val W < y.val W) ∧
    AdmitsIf n (fun W => x.AllBool W ∧ y.AllBool W) (B.gtBinary x y) (fun W r => r.eval W)
      (fun W r => r = 0 ∨ r = 1 ∧ x.val W > y.val W) ∧
    AdmitsIf n (fun W => x.AllBool W ∧ y.AllBool W) (B.leBinary x y) (fun W r => r.eval W)
      (fun W r => r = 1 ∨ r = 0 ∧ x.val W > y.val W) ∧
    AdmitsIf n (fun W => x.AllBool W ∧ y.AllBool W) (B.geBinary x y) (fun W r => r.eval W)
      (fun W r => r = 1 ∨ r = 0 ∧ x.val W < y.val W) := by
  have F := C39_binary_comparisons_partial x y
  have ev : ∀ {e : BinaryExpression p}, e.Scoped n → ∀ {W W' : Assign p}, (∀ i < n, W i = W' i) →
      (e.AllBool W' → e.AllBool W) ∧ e.val W = e.val W' := by
    intro e he W W' hW
    have hb : ∀ b ∈ e.bits, b.eval W = b.eval W' := fun b hb =>
      BooleanExpression.Scoped.eval_eq (he b hb) hW
    refine ⟨fun h b h1 => by rw [hb b h1]; exact h b h1, ?_⟩
    unfold BinaryExpression.val BinaryExpression.digits
    congr 1
    exact List.map_congr_left fun b h1 => by rw [hb b h1]
  have honest : ∀ (s : Wit p), s.next = n → x.AllBool s.W → y.AllBool s.W → ∀ less strict : Bool,
      Can (B.cmpBinary x y less strict) s fun r t => r.eval t.W = Elem.ofBool
        (cmpHolds less strict ((x.val s.W : ℤ) - (y.val s.W : ℤ))) := by
    intro s hn hxb hyb less strict
    subst hn
    exact (Can.ofComp (Tidy.cmpBinary x y less strict).1
      (Comp.cmpBinary (s := s.toHon) h2 hx hy hxb hyb hlen h0 hadm less strict)).mono
      fun r t _ ⟨u, _, hW, _, _, h⟩ => by rw [hW] at h; exact h
  have zero : ∀ (s : Wit p), s.next = n → x.AllBool s.W → y.AllBool s.W → ∀ less strict : Bool,
      Can (B.cmpBinary x y less strict) s fun r t => r.eval t.W = if strict then 0 else 1 := by
    intro s hn hxb hyb less strict
    subst hn
    exact (Can.cmpBinary_zero h2 hx hy hxb hyb hlen h0 hadm less strict).mono fun r t _ h => by
      rw [h.2]; cases strict <;> rfl
  refine ⟨?_, ?_, ?_, ?_⟩
  · refine AdmitsIf.intro F.1 (fun s r W hn hP _ hW h => ?_) fun s r hn hP hr => ?_
    · have := h.2 ((ev hx hW).1 hP.1) ((ev hy hW).1 hP.2)
      rw [(ev hx hW).2, (ev hy hW).2] at this
      exact h.1.imp id fun h1 => ⟨h1, this h1⟩
    · rcases hr with rfl | ⟨rfl, hr⟩
      · exact zero s hn hP.1 hP.2 true true
      · refine (honest s hn hP.1 hP.2 true true).mono fun r t _ h => h.trans ?_
        rw [ofBool_ne, cmpHolds_iff]; simp; omega
  · refine AdmitsIf.intro F.2.1 (fun s r W hn hP _ hW h => ?_) fun s r hn hP hr => ?_
    · have := h.2 ((ev hx hW).1 hP.1) ((ev hy hW).1 hP.2)
      rw [(ev hx hW).2, (ev hy hW).2] at this
      exact h.1.imp id fun h1 => ⟨h1, this h1⟩
    · rcases hr with rfl | ⟨rfl, hr⟩
      · exact zero s hn hP.1 hP.2 false true
      · refine (honest s hn hP.1 hP.2 false true).mono fun r t _ h => h.trans ?_
        rw [ofBool_ne, cmpHolds_iff]; simp; omega
  · refine AdmitsIf.intro F.2.2.1 (fun s r W hn hP _ hW h => ?_) fun s r hn hP hr => ?_
    · have := h.2 ((ev hx hW).1 hP.1) ((ev hy hW).1 hP.2)
      rw [(ev hx hW).2, (ev hy hW).2] at this
      exact h.1.symm.imp id fun h1 => ⟨h1, this h1⟩
    · rcases hr with rfl | ⟨rfl, hr⟩
      · exact zero s hn hP.1 hP.2 true false
      · refine (honest s hn hP.1 hP.2 true false).mono fun r t _ h => h.trans ?_
        rw [ofBool_eq_zero, ← Bool.not_eq_true, cmpHolds_iff]; simp; omega
  · refine AdmitsIf.intro F.2.2.2 (fun s r W hn hP _ hW h => ?_) fun s r hn hP hr => ?_
    · have := h.2 ((ev hx hW).1 hP.1) ((ev hy hW).1 hP.2)
      rw [(ev hx hW).2, (ev hy hW).2] at this
      exact h.1.symm.imp id fun h1 => ⟨h1, this h1⟩
    · rcases hr with rfl | ⟨rfl, hr⟩
      · exact zero s hn hP.1 hP.2 false false
      · refine (honest s hn hP.1 hP.2 false false).mono fun r t _ h => h.trans ?_
        rw [ofBool_eq_zero, ← Bool.not_eq_true, cmpHolds_iff]; simp; omega

/-- C86: bitwise operations, and the test for zero digits. -/
theorem C86_bitwise {n : ℕ} {x y : BinaryExpression p} (hx : x.Scoped n) (hy : y.Scoped n)
    (hlen : x.len = y.len) :
    AdmitsIf n (fun W => x.AllBool W ∧ y.AllBool W) (B.bitwiseNot x) (fun W e => e.digits W)
      (fun W ds => ds.length = x.len ∧ (∀ d ∈ ds, d ≤ 1) ∧
        digitsVal ds = 2 ^ x.len - 1 - x.val W) ∧
    AdmitsIf n (fun W => x.AllBool W ∧ y.AllBool W) (B.bitwiseAnd x y) (fun W e => e.digits W)
      (fun W ds => ds.length = x.len ∧ (∀ d ∈ ds, d ≤ 1) ∧ digitsVal ds = x.val W &&& y.val W) ∧
    AdmitsIf n (fun W => x.AllBool W ∧ y.AllBool W) (B.bitwiseOr x y) (fun W e => e.digits W)
      (fun W ds => ds.length = x.len ∧ (∀ d ∈ ds, d ≤ 1) ∧ digitsVal ds = x.val W ||| y.val W) ∧
    (2 < p → AdmitsIf n (fun W => x.AllBool W ∧ y.AllBool W) (B.bitwiseXor x y)
      (fun W e => e.digits W)
      (fun W ds => ds.length = x.len ∧ (∀ d ∈ ds, d ≤ 1) ∧ digitsVal ds = x.val W ^^^ y.val W)) ∧
    (2 < p → AdmitsIf n (fun W => x.AllBool W) (B.binaryAssertZero x) (fun _ _ => ())
      (fun W _ => x.val W = 0)) := by
  have F := C46_bitwise_enforced x y
  have G := fun (s : Wit p) (hn : s.next = n) => C46_bitwise_computed s.toHon (x := x) (y := y)
    (by subst hn; exact hx) (by subst hn; exact hy)
  have ev : ∀ {e : BinaryExpression p}, e.Scoped n → ∀ {W W' : Assign p}, (∀ i < n, W i = W' i) →
      (e.AllBool W' → e.AllBool W) ∧ e.val W = e.val W' := by
    intro e he W W' hW
    have hb : ∀ b ∈ e.bits, b.eval W = b.eval W' := fun b hb =>
      BooleanExpression.Scoped.eval_eq (he b hb) hW
    refine ⟨fun h b h1 => by rw [hb b h1]; exact h b h1, ?_⟩
    unfold BinaryExpression.val BinaryExpression.digits
    congr 1
    exact List.map_congr_left fun b h1 => by rw [hb b h1]
  have hdig : ∀ {W : Assign p} {e : BinaryExpression p} {ds : List ℕ}, e.AllBool W →
      (∀ d ∈ ds, d ≤ 1) → e.len = ds.length → e.val W = digitsVal ds → e.digits W = ds := by
    intro W e ds h1 h2 h3 h4
    rw [digits_of_val h1.digits_le h4, BinaryExpression.digits_length, h3]
    exact (digits_of_val h2 rfl).symm
  have key : ∀ {m : B p (BinaryExpression p)} {v : Assign p → ℕ}, Prog m →
      (∀ {W W' : Assign p}, (∀ i < n, W i = W' i) → v W = v W') →
      Enforces m (fun e w => x.AllBool w → y.AllBool w →
        e.AllBool w ∧ e.len = x.len ∧ e.val w = v w) →
      (∀ s : Wit p, s.next = n → x.AllBool s.W → y.AllBool s.W →
        Computes m s.toHon (fun e t => e.AllBool t.W ∧ e.len = x.len ∧ e.val t.W = v s.W)) →
      AdmitsIf n (fun W => x.AllBool W ∧ y.AllBool W) m (fun W e => e.digits W)
        (fun W ds => ds.length = x.len ∧ (∀ d ∈ ds, d ≤ 1) ∧ digitsVal ds = v W) := by
    intro m v hm hv hE hC
    refine AdmitsIf.intro hE (fun s e W hn hP _ hW h => ?_) fun s ds hn hP hr => ?_
    · obtain ⟨h1, h2, h3⟩ := h ((ev hx hW).1 hP.1) ((ev hy hW).1 hP.2)
      exact ⟨by rw [BinaryExpression.digits_length]; exact h2, h1.digits_le,
        by rw [← hv hW]; exact h3⟩
    · obtain ⟨g2, g3, g4⟩ := hr
      refine (Can.ofComp hm (hC s hn hP.1 hP.2)).mono fun e t _ ⟨u, _, hW, _, _, h1, h2, h3⟩ => ?_
      rw [hW] at h1 h3
      exact hdig h1 g3 (by rw [g2]; exact h2) (by rw [h3, g4])
  refine ⟨?_, ?_, ?_, fun h2 => ?_, fun h2 => ?_⟩
  · exact key (Tidy.bitwiseNot x).1 (fun h => by rw [(ev hx h).2])
      (F.1.mono fun _ _ _ h h1 _ => h h1) fun s hn h1 h2 => (G s hn h1 h2 hlen).1
  · exact key (Tidy.bitwiseAnd x y).1 (fun h => by rw [(ev hx h).2, (ev hy h).2]) F.2.1
      fun s hn h1 h2 => (G s hn h1 h2 hlen).2.1
  · exact key (Tidy.bitwiseOr x y).1 (fun h => by rw [(ev hx h).2, (ev hy h).2]) F.2.2.1
      fun s hn h1 h2 => (G s hn h1 h2 hlen).2.2.1
  · exact key (Tidy.bitwiseXor x y).1 (fun h => by rw [(ev hx h).2, (ev hy h).2]) F.2.2.2
      fun s hn h1 h3 => (G s hn h1 h3 hlen).2.2.2 h2
  · have z : ∀ {W : Assign p}, x.val W = 0 ↔ ∀ b ∈ x.bits, b.eval W = 0 := by
      intro W
      have hd : ∀ ds : List ℕ, digitsVal ds = 0 ↔ ∀ d ∈ ds, d = 0 := by
        intro ds
        induction ds with
        | nil => simp [digitsVal]
        | cons d ds ih => simp [digitsVal, ih]
      unfold BinaryExpression.val BinaryExpression.digits
      rw [hd]
      simp only [List.mem_map, forall_exists_index, and_imp, forall_apply_eq_imp_iff₂]
      refine forall₂_congr fun b _ => ?_
      constructor
      · intro h; exact Elem.ext_n h
      · intro h; rw [h]; rfl
    refine AdmitsIf.intro (C45_assert_zero_enforced x) (fun s _ W hn hP _ hW h => ?_)
      fun s _ hn hP hr => ?_
    · rw [← (ev hx hW).2]; exact z.2 (h ((ev hx hW).1 hP))
    · subst hn
      exact (Can.ofComp (Tidy.binaryAssertZero x).1 (C45_assert_zero_computed h2 s.toHon hx
        (z.1 hr))).mono fun _ _ _ _ => rfl

/-- C86: curves.  Points are forced to be on the curve; sums, doubles and multiples may be
anything. -/
theorem C86_curves (h2 : 2 < p) (C : EdwardsCurve p) {n : ℕ} {x y k : Expression p}
    {P Q : EdwardsExpression p} (hx : x.Scoped n) (hy : y.Scoped n) (hk : k.Scoped n)
    (hP : P.x.Scoped n ∧ P.y.Scoped n) (hQ : Q.x.Scoped n ∧ Q.y.Scoped n) :
    AdmitsWhen n (EdwardsExpression.new C x y)
      (fun W => C.a * x.eval W ^ 2 + y.eval W ^ 2 = 1 + C.d * x.eval W ^ 2 * y.eval W ^ 2) ∧
    Admits n (EdwardsGroup.addExpressions C P Q) (fun W R => (R.x.eval W, R.y.eval W))
      (fun _ _ => True) ∧
    Admits n (EdwardsGroup.doubleExpression C P) (fun W R => (R.x.eval W, R.y.eval W))
      (fun _ _ => True) ∧
    Admits n ((EdwardsGroup.ops C).mulScalarExpression P k) (fun W R => (R.x.eval W, R.y.eval W))
      (fun _ _ => True) := by
  refine ⟨?_, ?_, ?_, ?_⟩
  · refine .intro (C64_expression_enforced C x y) (fun s _ W _ _ hW h => ?_) fun s hn hr => ?_
    · have := h.2.2
      rw [hx.eval_eq hW, hy.eval_eq hW] at this
      exact this
    · subst hn
      exact (Can.ofComp (Tidy.edwardsNew C x y).1 ((C64_expression_computed C s.toHon hx hy).1
        hr)).mono fun _ _ _ _ => trivial
  · exact Admits.intro (EdwardsGroup.prog_add C P Q).enforces (fun _ _ _ _ _ _ _ => trivial)
      fun s r hn _ => by
        subst hn
        exact (C66_add_refuted h2 C s hP hQ r.1 r.2).1.mono fun _ _ _ h => Prod.ext h.1 h.2
  · exact Admits.intro (EdwardsGroup.prog_double C P).enforces (fun _ _ _ _ _ _ _ => trivial)
      fun s r hn _ => by
        subst hn
        exact (C66_add_refuted h2 C s hP hQ r.1 r.2).2.mono fun _ _ _ h => Prod.ext h.1 h.2
  · exact Admits.intro (GroupOps.prog_mulScalar (EdwardsGroup.prog_add C)
      (EdwardsGroup.prog_double C) P k).enforces (fun _ _ _ _ _ _ _ => trivial)
      fun s r hn _ => by
        subst hn
        exact (C66_scalar_refuted h2 C s hP hk r.1 r.2).mono fun _ _ _ h => Prod.ext h.1 h.2

/-- C86: signatures are admitted if and only if `e` is the hash of the message with some field
element; `s` and the public key do not matter. -/
theorem C86_signatures (h2 : 2 < p) (C : EdwardsCurve p) {g : EdwardsPoint p}
    {c : CompressionFunction p} {h : Elem p → Elem p → Elem p} (he : Enforced2 c.compress h)
    (hc : Computed2 c.compress h) (hprog : ∀ x y, Prog (c.compress x y)) {n : ℕ}
    {σ : SignatureExpression p} {m : Expression p} {pk : EdwardsExpression p} (hs : σ.s.Scoped n)
    (hse : σ.e.Scoped n) (hm : m.Scoped n) (hpk : pk.x.Scoped n ∧ pk.y.Scoped n) :
    AdmitsWhen n (schnorrVerify (cyclicSubgroup (EdwardsGroup.ops C) (some g)) c σ m pk)
      (fun W => ∃ y, h y (m.eval W) = σ.e.eval W) := by
  refine .intro (C69_hash_enforced _ (EdwardsGroup.prog_add C) (EdwardsGroup.prog_double C) he σ m
    pk) (fun s _ W _ _ hW h => ?_) fun s hn hr => ?_
  · rwa [hm.eval_eq hW, hse.eval_eq hW] at h
  · subst hn
    exact C69_forgery_refuted h2 C hc hprog s hs hse hm hpk hr

/-- C86: gadgets which are both enforced and computed define the graph of their function: for
instance ciphers, hash functions and permutations. -/
theorem C86_functions {n : ℕ} {m1 : Expression p → B p (Expression p)} {f1 : Elem p → Elem p}
    {m2 : Expression p → Expression p → B p (Expression p)} {f2 : Elem p → Elem p → Elem p}
    {k : ℕ} {ml : List (Expression p) → B p (List (Expression p))}
    {fl : List (Elem p) → List (Elem p)} (x y : Expression p) (xs : List (Expression p))
    (hx : x.Scoped n) (hy : y.Scoped n) (hxs : ListScoped n xs) (hk : xs.length = k) :
    (Enforced1 m1 f1 → Computed1 m1 f1 → Prog (m1 x) →
      Admits n (m1 x) (fun W z => z.eval W) fun W r => r = f1 (x.eval W)) ∧
    (Enforced2 m2 f2 → Computed2 m2 f2 → Prog (m2 x y) →
      Admits n (m2 x y) (fun W z => z.eval W) fun W r => r = f2 (x.eval W) (y.eval W)) ∧
    (EnforcedList k ml fl → ComputedList k ml fl → Prog (ml xs) →
      Admits n (ml xs) (fun W zs => values W zs) fun W r => r = fl (values W xs)) := by
  refine ⟨fun he hc hm => ?_, fun he hc hm => ?_, fun he hc hm => ?_⟩
  · exact Admits.of_function hm (fun W W' h => by rw [hx.eval_eq h]) (he x) fun s hn => by
      subst hn; exact Comp.mono (hc s x hx) fun _ _ _ h => h.2.2.2
  · exact Admits.of_function hm (fun W W' h => by rw [hx.eval_eq h, hy.eval_eq h]) (he x y)
      fun s hn => by subst hn; exact Comp.mono (hc s x y hx hy) fun _ _ _ h => h.2.2.2
  · exact Admits.of_function hm (fun W W' h => by
      have : values W xs = values W' xs := List.map_congr_left fun e he => (hxs e he).eval_eq h
      rw [this]) ((he xs).mono fun _ _ _ h => h hk) fun s hn => by
        subst hn; exact Comp.mono (hc s xs hk hxs) fun _ _ _ h => h.2.2.2

/-! ## Cases -/

/-- A builder with one wire besides ONE, holding 5 in the field of order 13. -/
def wit5 : Wit 13 := honest5.toWit

private theorem w1 : (Expression.ofWire 1 : Expression 13).Scoped 2 := .ofWire (by decide)

private theorem mb13 : 4 ≤ Elem.maxBits 13 := by rw [maxBits13]

/-- The digits of 2 and those of 2 + 13 are both admitted as digits of 2. -/
example : Admits 2 (B.splitAllowingAmbiguity (Expression.ofElem 2 : Expression 13))
    (fun W e => e.digits W) (fun _ ds => ds = [0, 1, 0, 0] ∨ ds = [1, 1, 1, 1]) := by
  intro s hn hP ds
  rw [(C86_splitting (.ofElem (by decide) _) 4).2.1 s hn hP ds, maxBits13]
  beta_reduce
  rw [Expression.eval_ofElem s.one]
  constructor
  · rintro ⟨h1, h2, h3⟩
    match ds, h1 with
    | [a, b, c, d], _ =>
      have ha := h2 a (by simp)
      have hb := h2 b (by simp)
      have hc := h2 c (by simp)
      have hd := h2 d (by simp)
      have e2 : ((2 : Elem 13)).n = 2 := rfl
      rw [e2] at h3
      simp only [digitsVal] at h3
      rcases h3 with h3 | h3
      · left; simp; omega
      · right; simp; omega
  · rintro (rfl | rfl)
    · exact ⟨rfl, by decide, .inl rfl⟩
    · exact ⟨rfl, by decide, .inr rfl⟩

/-- `5 < 7` may be denied, but `7 < 5` cannot be claimed. -/
example : Admits 2 (B.lt (Expression.ofElem 7 : Expression 13) (Expression.ofElem 5))
    (fun W r => r.eval W) (fun _ r => r = 0) := by
  intro s hn hP r
  rw [(C86_comparisons mb13 (.ofElem (by decide) _) (.ofElem (by decide) _)).1 s hn hP r]
  beta_reduce
  rw [Expression.eval_ofElem s.one, Expression.eval_ofElem s.one]
  exact ⟨fun h => h.resolve_right fun h => absurd h.2 (by decide), .inl⟩

/-- The remainder of any number by 3 may be 0, 1 or 2. -/
example : Admits 2 (B.modulus (Expression.ofWire 1 : Expression 13) (Expression.ofElem 3))
    (fun W r => r.eval W) (fun _ r => r = 0 ∨ r = 1 ∨ r = 2) := by
  intro s hn hP r
  rw [(C86_modulus mb13 w1 (.ofElem (by decide) _)).1 s hn hP r]
  beta_reduce
  rw [Expression.eval_ofElem s.one]
  constructor
  · intro h
    have h3 : r.n < 3 := h
    rcases (show r.n = 0 ∨ r.n = 1 ∨ r.n = 2 by omega) with h | h | h
    exacts [.inl (Elem.ext_n h), .inr (.inl (Elem.ext_n h)), .inr (.inr (Elem.ext_n h))]
  · rintro (rfl | rfl | rfl) <;> decide

/-- Index 3 in a list of three items is accepted, and yields item 2. -/
example : Admits 2 (B.randomAccess [Expression.ofElem 4, Expression.ofElem 6, Expression.ofWire 1]
    (Expression.ofElem 3 : Expression 13)) (fun W r => r.eval W) (fun W r => r = W 1) := by
  intro s hn hP r
  rw [C86_random_access (fun e he => by
    simp only [List.mem_cons, List.not_mem_nil, or_false] at he
    rcases he with rfl | rfl | rfl
    exacts [.ofElem (by decide) _, .ofElem (by decide) _, w1]) (.ofElem (by decide) _) s hn hP r]
  beta_reduce
  rw [Expression.eval_ofElem s.one, maxBits13]
  constructor
  · rintro ⟨_, _, j, hj, h3, h4, rfl⟩
    have hj2 : j = 2 := by
      have := h4 2 (by decide) (by decide)
      have hj : j < 3 := hj
      omega
    subst hj2
    exact Expression.eval_ofWire _ _
  · rintro rfl
    refine ⟨by decide, by decide, 2, by decide, by decide, fun j' hj' _ => ?_,
      (Expression.eval_ofWire _ _).symm⟩
    have hj : j' < 3 := hj'
    omega

/-- Sorting `[1, 2]` may return `[2, 1]`. -/
example : ∃ (a : List (Expression 13)) (b' : Builder 13) (W : Assign 13),
    B.sortAscending [Expression.ofElem 1, Expression.ofElem 2] wit5.b = some (a, b') ∧
      Satisfies W b'.constraints ∧ (∀ i < 2, W i = wit5.W i) ∧ values W a = [2, 1] := by
  refine ((C86_lists mb13 (n := 2) (xs := [Expression.ofElem 1, Expression.ofElem 2]) (ys := []) (fun e he => by
    simp only [List.mem_cons, List.not_mem_nil, or_false] at he
    rcases he with rfl | rfl
    exacts [.ofElem (by decide) _, .ofElem (by decide) _]) (by intro e he; cases he)).2.1 wit5 rfl trivial [2, 1]).2
    ⟨by simp, ?_⟩
  simp only [values, List.map_cons, List.map_nil, Expression.eval_ofElem wit5.one]
  decide

/-- The other theorems at particular operands. -/
example : Admits 2 (B.inverseOrZero (Expression.ofWire 1 : Expression 13)) (fun W z => z.eval W)
    (fun W r => W 1 = 0 ∨ r * W 1 = 1) := by
  simpa only [Expression.eval_ofWire] using (C86_arithmetic w1 w1 1).2.2.2.2.1

example : Admits 2 (B.equal (Expression.ofWire 1 : Expression 13) (Expression.ofWire 0))
    (fun W z => z.eval W) (fun W r => r = if W 1 = W 0 then 1 else 0) := by
  simpa only [Expression.eval_ofWire] using (C86_tests w1 (.ofWire (by decide))).2.2

example : Admits 2 (B.xor ⟨Expression.ofWire 1⟩ ⟨(Expression.ofWire 1 : Expression 13)⟩)
    (fun W z => z.eval W) (fun W r => r = W 1 + W 1 - 2 * W 1 * W 1) := by
  have := (C86_booleans (c := ⟨Expression.ofWire 1⟩) (d := ⟨(Expression.ofWire 1 : Expression 13)⟩)
    w1 w1 w1 w1).2.2.2.2 (by decide)
  simpa only [BooleanExpression.eval_mk, Expression.eval_ofWire] using this

example : AdmitsWhen 2 (B.assertNonzero (Expression.ofWire 1 : Expression 13)) (fun W => W 1 ≠ 0) := by
  simpa only [Expression.eval_ofWire] using (C86_assertions w1 w1 w1).2.2.2.2.2.2.1

example : AdmitsWhen 2 (B.assertLt (Expression.ofWire 1 : Expression 13) (Expression.ofElem 7))
    (fun W => (W 1).n < (Expression.eval W (Expression.ofElem 7)).n) := by
  simpa only [Expression.eval_ofWire] using
    (C86_asserted_comparisons mb13 w1 (.ofElem (by decide) (7 : Elem 13))).1

example : AdmitsIf 2 (fun _ => True) (B.ltBinary (.ofNat 11 : BinaryExpression 13) (.ofNat 10))
    (fun W r => r.eval W) (fun _ r => r = 0) := by
  intro s hn _ r
  rw [(C86_binary_comparisons (by decide) (BinaryExpression.ofNat_scoped (by decide) 11)
    (BinaryExpression.ofNat_scoped (by decide) 10)
    (by rw [BinaryExpression.ofNat_len, BinaryExpression.ofNat_len]; decide +kernel)
    (by rw [BinaryExpression.ofNat_len]; decide +kernel)
    (by rw [BinaryExpression.ofNat_len, maxBits13]; decide +kernel)).1 s hn
    ⟨BinaryExpression.ofNat_allBool s.one 11, BinaryExpression.ofNat_allBool s.one 10⟩ r]
  beta_reduce
  rw [BinaryExpression.ofNat_val s.one, BinaryExpression.ofNat_val s.one]
  exact ⟨fun h => h.resolve_right fun h => absurd h.2 (by decide), .inl⟩

example : AdmitsIf 2 (fun _ => True) (B.binarySummation [(.ofNat 2 : BinaryExpression 13), .ofNat 1])
    (fun W e => e.digits W) (fun _ ds => ds = [1, 1, 0]) := by
  intro s hn _ ds
  rw [(C86_summation (by decide) (terms := [(.ofNat 2 : BinaryExpression 13), .ofNat 1])
    (by simp [BinaryExpression.ofNat_scoped (show 1 ≤ 2 by decide)])).1 s hn
    (by simp [BinaryExpression.ofNat_allBool s.one])]
  have h1 : (largestSum [(.ofNat 2 : BinaryExpression 13), .ofNat 1]).size = 3 := by decide +kernel
  have h2 : intSum s.W [(.ofNat 2 : BinaryExpression 13), .ofNat 1] = 3 := by
    rw [intSum]; simp [BinaryExpression.ofNat_val s.one]
  beta_reduce
  rw [h1, h2, maxBits13]
  constructor
  · rintro ⟨_, h1, h2, h3⟩
    match ds, h1 with
    | [a, b, c], _ =>
      have ha := h2 a (by simp)
      have hb := h2 b (by simp)
      have hc := h2 c (by simp)
      simp only [digitsVal] at h3
      simp; omega
  · rintro rfl
    exact ⟨by decide, rfl, by decide, rfl⟩

example : AdmitsIf 2 (fun W => BinaryExpression.AllBool W (.ofNat 12 : BinaryExpression 13) ∧
      BinaryExpression.AllBool W (.ofNat 10 : BinaryExpression 13))
    (B.bitwiseXor (.ofNat 12 : BinaryExpression 13) (.ofNat 10)) (fun W e => e.digits W)
    (fun W ds => ds.length = BinaryExpression.len (.ofNat 12 : BinaryExpression 13) ∧
      (∀ d ∈ ds, d ≤ 1) ∧
      digitsVal ds = BinaryExpression.val W (.ofNat 12 : BinaryExpression 13) ^^^
        BinaryExpression.val W (.ofNat 10 : BinaryExpression 13)) :=
  (C86_bitwise (BinaryExpression.ofNat_scoped (by decide) 12)
    (BinaryExpression.ofNat_scoped (by decide) 10)
    (by rw [BinaryExpression.ofNat_len, BinaryExpression.ofNat_len]; decide +kernel)).2.2.2.1
    (by decide)

/-- On JubJub every point is admitted as the sum of two given ones. -/
example (P Q : EdwardsPoint bls12_381Order) :
    Admits 1 (EdwardsGroup.addExpressions jubjub (.ofPoint P) (.ofPoint Q))
      (fun W R => (R.x.eval W, R.y.eval W)) (fun _ _ => True) :=
  (C86_curves (by decide +kernel) jubjub (x := 0) (y := 0) (k := 0) .zero .zero .zero
    ⟨.ofElem (le_refl _) _, .ofElem (le_refl _) _⟩
    ⟨.ofElem (le_refl _) _, .ofElem (le_refl _) _⟩).2.1

/-- With a hash function such as `2 x + y` every signature is admitted. -/
example (s e m : Elem bls12_381Order) (pk : EdwardsPoint bls12_381Order) :
    AdmitsWhen 1 (schnorrVerify jubjubPrimeSubgroup testCompress
      ⟨Expression.ofElem s, Expression.ofElem e⟩ (Expression.ofElem m)
      (EdwardsExpression.ofPoint pk)) fun _ => True := by
  have h2 : 2 < bls12_381Order := by decide +kernel
  unfold jubjubPrimeSubgroup
  rw [jubjubGenerator_eq]
  have A := C86_signatures h2 jubjub (g := jubjubG.toModel) testCompress_spec.1
    (testCompress_spec.2 h2) prog_testCompress (n := 1)
    (σ := ⟨Expression.ofElem s, Expression.ofElem e⟩) (m := Expression.ofElem m)
    (pk := EdwardsExpression.ofPoint pk)
    (.ofElem (le_refl _) _) (.ofElem (le_refl _) _) (.ofElem (le_refl _) _)
    ⟨.ofElem (le_refl _) _, .ofElem (le_refl _) _⟩
  intro w hn hP r
  refine (A w hn hP r).trans ⟨fun _ => trivial, fun _ => ⟨(e - m) / 2, ?_⟩⟩
  simp only
  rw [Expression.eval_ofElem w.one, Expression.eval_ofElem w.one,
    mul_div_cancel₀ _ jubjub_complete.two_ne]
  ring

/-- The compression function of the signature examples. -/
example (x y : Expression bls12_381Order) (hx : x.Scoped 5) (hy : y.Scoped 5) :
    Admits 5 (testCompress.compress x y) (fun W z => z.eval W)
      fun W r => r = 2 * x.eval W + y.eval W :=
  (C86_functions (m1 := fun x => pure x) (f1 := id) (k := 0) (ml := fun x => pure x) (fl := id)
    x y [] hx hy (by intro e he; cases he) rfl).2.1 testCompress_spec.1
    (testCompress_spec.2 (by decide +kernel)) (prog_testCompress x y)

end R1CS
