import Verif.Lemmas.LanguageOps
import Verif.Lemmas.Returns
import Verif.Lemmas.CompositeOps

/-!
# Circuits as programs: the remaining operations
-/

set_option linter.unusedSectionVars false
set_option linter.unusedVariables false

namespace R1CS

variable {p : ℕ} [hp : Fact p.Prime] {α β : Type}

open Language

theorem Accepted.of_none {m : B p α} {n : ℕ} {Q : α → Assign p → Prop} (h : ∀ b, m b = none) :
    Accepted n m Q := by
  intro γ δ pre k c a z b b1 b2 _ _ _ _ h1
  rw [h] at h1; cases h1

theorem Enforces.both {m : B p α} {Q R : α → Assign p → Prop} (h1 : Enforces m Q)
    (h2 : Enforces m R) : Enforces m fun a W => Q a W ∧ R a W :=
  fun b a b' h W hW =>
    ⟨(h1 b a b' h W hW).1, (h1 b a b' h W hW).2, (h2 b a b' h W hW).2⟩

theorem Accepted.trivial {m : B p α} (hm : Tidy m) {n : ℕ} : Accepted n m fun _ _ => True :=
  Accepted.of_enforces hm hm.1.enforces

namespace Kind

variable (K : Kind p α β)

/-- One operand and a list. -/
theorem callList {F : α → List α → B p (List (Obj p))} {G : β → List β → Option (List (Val p))}
    {pin : Bool} (h : Law (fun W (x : α × List α) (y : β × List β) =>
        K.rel W x.1 y.1 ∧ List.Forall₂ (K.rel W) x.2 y.2)
      (fun n x => K.within n x.1 ∧ ∀ a ∈ x.2, K.within n a)
      (fun x => F x.1 x.2) (fun y => G y.1 y.2) pin) :
    K.ListLaw (Language.callList F) (funList G) pin := by
  refine ⟨fun as => ?_, fun s as bs rs h1 h2 h3 => ?_, fun hpin as => ?_, fun n as h1 => ?_⟩
  · match as with
    | x :: xs => exact h.tidy (x, xs)
    | [] => exact Tidy.panic
  · match as, bs, h2 with
    | x :: xs, a :: bs, .cons e e' =>
      exact h.comp s (x, xs) (a, bs) rs ⟨h1 x (by simp), fun y hy => h1 y (by simp [hy])⟩ ⟨e, e'⟩ h3
    | [], [], _ => cases h3
  · match as with
    | x :: xs =>
      refine (h.pins hpin (x, xs)).mono fun os W _ hW bs hbs => ?_
      match bs, hbs with
      | a :: bs, .cons e e' => exact hW (a, bs) ⟨e, e'⟩
    | [] => exact Enforces.panic
  · match as with
    | x :: xs =>
      refine (h.checks n (x, xs) ⟨h1 x (by simp), fun y hy => h1 y (by simp [hy])⟩).mono
        fun os W hW bs hbs => ?_
      match bs, hbs with
      | a :: bs, .cons e e' => exact hW (a, bs) ⟨e, e'⟩
    | [] => exact Accepted.panic

end Kind

namespace Op

theorem lawful_inverseOrZero (h2 : 2 < p) : (inverseOrZero : Op p).Lawful := by
  refine Kind.expr.onAll (Kind.expr.call1 (.checked (fun _ => (Tidy.inverseOrZero _).retExpr)
    (fun s x y rs hs hr hm => ?_)
    (fun n x hx => (Accepted.trivial (Tidy.inverseOrZero _).retExpr).mono fun _ _ _ _ _ => rfl)))
  cases hr
  cases hm
  refine Comp.retExpr ((Comp.inverseOrZero h2 hs).mono fun z t _ ⟨h1, h2, h3⟩ => ⟨h1, h2, ?_⟩)
  rw [h3]
  split
  · rename_i h; rw [h, inv_zero]
  · rfl

theorem lawful_quotientUnsafe (h2 : 2 < p) : (quotientUnsafe : Op p).Lawful := by
  refine Kind.expr.onAll (Kind.expr.call2 (.checked (fun _ => (Tidy.quotientUnsafe _ _).retExpr)
    (fun s x y rs hs hr hm => ?_) (fun n x hx => ?_)))
  · obtain ⟨y1, y2⟩ := y
    obtain ⟨rfl, rfl⟩ := hr
    dsimp only at hm
    split at hm
    · cases hm
    · rename_i h
      cases hm
      exact Comp.retExpr (Comp.quotientUnsafe h2 hs.1 hs.2 h)
  · refine (Accepted.ret (Tidy.quotientUnsafe _ _) (fun _ => Tidy.pure _) (Accepted.of_locally
      ((C85_division h2 hx.1 hx.2).2.2.mono fun _ _ h => h.1))).mono fun _ W h y hy => ?_
    rw [hy.2] at h
    dsimp only
    rw [if_neg h]
    rfl

/-- Comparisons. -/
theorem comparison (h4 : 4 ≤ Elem.maxBits p) {less strict : Bool} {f : Elem p → Elem p → Bool}
    (hf : ∀ x y : Elem p, cmpHolds less strict ((x.n : ℤ) - (y.n : ℤ)) = f x y) :
    Kind.expr.Law2 (fun x y => retBool (B.cmp x y less strict)) (fun x y => some [.bool (f x y)])
      false := by
  refine .checked (fun _ => (Tidy.cmp _ _ _ _).retBool) (fun s x y rs hs hr hm => ?_)
    (fun n x hx => (Accepted.trivial (Tidy.cmp _ _ _ _).retBool).mono fun _ _ _ _ _ => rfl)
  obtain ⟨y1, y2⟩ := y
  obtain ⟨rfl, rfl⟩ := hr
  cases hm
  refine Comp.retBool ((Comp.cmp h4 hs.1 hs.2 less strict).mono fun z t _ ⟨h1, h2, h3⟩ =>
    ⟨h1, h2, ?_⟩)
  rw [h3, hf]

theorem cmp_lt (x y : Elem p) : cmpHolds true true ((x.n : ℤ) - (y.n : ℤ)) = decide (x.n < y.n) := by
  rw [Bool.eq_iff_iff, cmpHolds_iff, decide_eq_true_iff]; simp; omega
theorem cmp_le (x y : Elem p) : cmpHolds true false ((x.n : ℤ) - (y.n : ℤ)) = decide (x.n ≤ y.n) := by
  rw [Bool.eq_iff_iff, cmpHolds_iff, decide_eq_true_iff]; simp
theorem cmp_gt (x y : Elem p) : cmpHolds false true ((x.n : ℤ) - (y.n : ℤ)) = decide (x.n > y.n) := by
  rw [Bool.eq_iff_iff, cmpHolds_iff, decide_eq_true_iff]; simp; omega
theorem cmp_ge (x y : Elem p) : cmpHolds false false ((x.n : ℤ) - (y.n : ℤ)) = decide (x.n ≥ y.n) := by
  rw [Bool.eq_iff_iff, cmpHolds_iff, decide_eq_true_iff]; simp

theorem lawful_lt (h4 : 4 ≤ Elem.maxBits p) : (lt : Op p).Lawful :=
  Kind.expr.onAll (Kind.expr.call2 (comparison h4 cmp_lt))
theorem lawful_le (h4 : 4 ≤ Elem.maxBits p) : (le : Op p).Lawful :=
  Kind.expr.onAll (Kind.expr.call2 (comparison h4 cmp_le))
theorem lawful_gt (h4 : 4 ≤ Elem.maxBits p) : (gt : Op p).Lawful :=
  Kind.expr.onAll (Kind.expr.call2 (comparison h4 cmp_gt))
theorem lawful_ge (h4 : 4 ≤ Elem.maxBits p) : (ge : Op p).Lawful :=
  Kind.expr.onAll (Kind.expr.call2 (comparison h4 cmp_ge))

theorem comp_assertCmp (h4 : 4 ≤ Elem.maxBits p) {less strict : Bool} {s : Hon p}
    {x y : Expression p} (hx : x.Scoped s.next) (hy : y.Scoped s.next)
    (h : cmpHolds less strict (((x.eval s.W).n : ℤ) - ((y.eval s.W).n : ℤ)) = true) :
    Comp (B.cmp x y less strict >>= fun r => B.assertTrue r) s fun _ t => t.D = s.D :=
  Comp.assertOfHolds ((Comp.cmp h4 hx hy less strict).mono fun r t _ ⟨h1, h2, h3⟩ =>
    ⟨h1, h2, by rw [h3, h, Elem.ofBool_true]⟩)

theorem lawful_assertLt (h4 : 4 ≤ Elem.maxBits p) : (assertLt : Op p).Lawful :=
  Kind.expr.onAll (Kind.expr.call2 (check2 (c := fun x y => x.n < y.n)
    (fun _ _ => Tidy.assertLt _ _) (fun s x y hx hy h => Comp.assertLt h4 hx hy h)
    (fun x y => Enforces.assertLt x y) _))

theorem lawful_assertGt (h4 : 4 ≤ Elem.maxBits p) : (assertGt : Op p).Lawful :=
  Kind.expr.onAll (Kind.expr.call2 (check2 (c := fun x y => x.n > y.n)
    (fun _ _ => Tidy.assertGt _ _)
    (fun s x y hx hy h => comp_assertCmp h4 hx hy (by rw [cmp_gt]; exact decide_eq_true h))
    (fun x y => Enforces.assertGt x y) _))

theorem lawful_assertLe (h4 : 4 ≤ Elem.maxBits p) : (assertLe : Op p).Lawful := by
  refine Kind.expr.onAll (Kind.expr.call2 (.checked (fun _ => (Tidy.assertLe _ _).retNone)
    (fun s x y rs hs hr hm => ?_) (fun n x hx => ?_)))
  · obtain ⟨h1, rfl⟩ := check_eq hm
    refine Comp.retNone (comp_assertCmp h4 hs.1 hs.2 ?_)
    rw [cmp_le, hr.1, hr.2]
    exact decide_eq_true h1
  · refine (Accepted.ret (Tidy.assertLe _ _) (fun _ => Tidy.pure _) (Q := fun W =>
      (x.1.eval W).n ≤ (x.2.eval W).n) ?_).mono fun _ W h y hy => ?_
    · refine (Accepted.bind (f := fun r => B.assertTrue r) (Tidy.cmp _ _ _ _)
        (fun _ => Tidy.assertTrue _) (Accepted.of_locally (C85_comparisons h4 hx.1 hx.2).2.1)
        fun r => Enforces.assertTrue r).mono fun _ W ⟨r, h1, h2⟩ => ?_
      by_contra hn
      rw [h2, if_neg hn] at h1
      exact one_ne_zero h1
    · rw [hy.1, hy.2] at h
      dsimp only
      rw [check_pos h]
      rfl

theorem lawful_assertGe (h4 : 4 ≤ Elem.maxBits p) : (assertGe : Op p).Lawful := by
  refine Kind.expr.onAll (Kind.expr.call2 (.checked (fun _ => (Tidy.assertGe _ _).retNone)
    (fun s x y rs hs hr hm => ?_) (fun n x hx => ?_)))
  · obtain ⟨h1, rfl⟩ := check_eq hm
    refine Comp.retNone (comp_assertCmp h4 hs.1 hs.2 ?_)
    rw [cmp_ge, hr.1, hr.2]
    exact decide_eq_true h1
  · refine (Accepted.ret (Tidy.assertGe _ _) (fun _ => Tidy.pure _) (Q := fun W =>
      (x.1.eval W).n ≥ (x.2.eval W).n) ?_).mono fun _ W h y hy => ?_
    · refine (Accepted.bind (f := fun r => B.assertTrue r) (Tidy.cmp _ _ _ _)
        (fun _ => Tidy.assertTrue _) (Accepted.of_locally (C85_comparisons h4 hx.1 hx.2).2.2.2)
        fun r => Enforces.assertTrue r).mono fun _ W ⟨r, h1, h2⟩ => ?_
      by_contra hn
      rw [h2, if_neg hn] at h1
      exact one_ne_zero h1
    · rw [hy.1, hy.2] at h
      dsimp only
      rw [check_pos h]
      rfl

theorem lawful_modulus (h4 : 4 ≤ Elem.maxBits p) : (modulus : Op p).Lawful := by
  refine Kind.expr.onAll (Kind.expr.call2 (.checked (fun _ => (Tidy.modulus _ _).retExpr)
    (fun s x y rs hs hr hm => ?_) (fun n x hx => ?_)))
  · obtain ⟨y1, y2⟩ := y
    obtain ⟨rfl, rfl⟩ := hr
    dsimp only at hm
    split at hm
    · cases hm
    · rename_i h
      cases hm
      refine Comp.retExpr ((Comp.modulus h4 hs.1 hs.2 h).mono fun z t _ ⟨h1, h2, h3⟩ =>
        ⟨h1, h2, Elem.ext_n ?_⟩)
      rw [h3, Elem.natCast_n_of_lt]
      exact lt_of_le_of_lt (Nat.mod_le _ _) (Elem.lt _)
  · refine (Accepted.ret (Tidy.modulus _ _) (fun _ => Tidy.pure _) (Accepted.of_locally
      ((C85_modulus h4 hx.1 hx.2).mono fun _ _ h => h.1))).mono fun _ W h y hy => ?_
    rw [hy.2] at h
    dsimp only
    rw [if_neg h]
    rfl

theorem lawful_divides (h4 : 4 ≤ Elem.maxBits p) : (divides : Op p).Lawful := by
  refine Kind.expr.onAll (Kind.expr.call2 (.checked (fun _ => (Tidy.divides _ _).retBool)
    (fun s x y rs hs hr hm => ?_) (fun n x hx => ?_)))
  · obtain ⟨y1, y2⟩ := y
    obtain ⟨rfl, rfl⟩ := hr
    dsimp only at hm
    split at hm
    · cases hm
    · rename_i h
      cases hm
      refine Comp.retBool ((Comp.divides h4 hs.1 hs.2 h).mono fun z t _ ⟨h1, h2, h3⟩ =>
        ⟨h1, h2, ?_⟩)
      rw [h3, ofBool_decide]
  · refine (Accepted.ret (Tidy.divides _ _) (fun _ => Tidy.pure _) (Accepted.ret
      (f := fun r => B.zero r) (Tidy.modulus _ _) (fun _ => Tidy.zero _) (Accepted.of_locally
      ((C85_modulus h4 hx.2 hx.1).mono fun _ _ h => h.1)))).mono fun _ W h y hy => ?_
    rw [hy.1] at h
    dsimp only
    rw [if_neg h]
    rfl

theorem lawful_split (h4 : 4 ≤ Elem.maxBits p) : (split : Op p).Lawful := by
  refine Kind.expr.onAll (Kind.expr.call1 (.pinned (fun _ => (Tidy.split _).retBin)
    (fun s x y rs hs hr hm => ?_) (fun x => ?_) _))
  · cases hr
    cases hm
    refine Comp.retBin ((Comp.split h4 hs).mono fun z t _ ⟨h1, h2, h3, h4, h5⟩ => ⟨h1, h2, ?_⟩)
    rw [bin_of_val h3, h4, h5]
  · refine (Enforces.split x).retBin.mono fun os W _ ⟨_, z, hz, h1, h2, h3⟩ y hy => ?_
    cases hy
    subst hz
    have := bin_of_val h1
    rw [h2, h3] at this
    exact ⟨_, rfl, meansAll_one this⟩

theorem lawful_splitAllowingAmbiguity : (splitAllowingAmbiguity : Op p).Lawful := by
  refine Kind.expr.onAll (Kind.expr.call1 (.checked (fun _ => (Tidy.splitAllowingAmbiguity _).retBin)
    (fun s x y rs hs hr hm => ?_) (fun n x hx => (Accepted.trivial
      (Tidy.splitAllowingAmbiguity _).retBin).mono fun _ _ _ _ _ => rfl)))
  cases hr
  cases hm
  refine Comp.retBin ((Comp.splitAllowingAmbiguity hs).mono fun z t _ ⟨h1, h2, h3, h4, h5⟩ =>
    ⟨h1, h2, ?_⟩)
  rw [bin_of_val h3, h4, h5]

theorem lawful_splitBounded (k : ℕ) : (splitBounded k : Op p).Lawful := by
  refine Kind.expr.onAll (Kind.expr.call1 (.pinned (fun _ => (Tidy.splitBounded _ _).retBin)
    (fun s x y rs hs hr hm => ?_) (fun x => ?_) _))
  · cases hr
    split at hm
    · rename_i h
      cases hm
      refine Comp.retBin ((Comp.splitBounded hs h.1 h.2).mono fun z t _ ⟨h1, h2, h3, h4, h5⟩ =>
        ⟨h1, h2, ?_⟩)
      rw [bin_of_val h3, h4, h5]
    · cases hm
  · refine (Enforces.splitBounded x k).retBin.mono fun os W _ ⟨_, z, hz, h1, h2, h3, _, h4⟩ y hy => ?_
    cases hy
    subst hz
    have := bin_of_val h1
    have hlt := h1.val_lt
    rw [h2, h4] at this hlt
    exact ⟨_, if_pos ⟨h3, hlt⟩, meansAll_one this⟩

theorem lawful_join : (join : Op p).Lawful := by
  refine Kind.bin.onAll (Kind.bin.call1 (.pinned (fun _ => (Tidy.ofOption _).retExpr)
    (fun s x y rs hs hr hm => ?_) (fun x => ?_) _))
  · obtain ⟨h1, h2, h3⟩ := bin_val hr
    split at hm
    · rename_i h
      cases hm
      obtain ⟨e, he, hv⟩ := BinaryExpression.join_eq (e := x) (by rw [h2]; exact h)
      exact Comp.retExpr (Comp.ofOption he ⟨rfl, BinaryExpression.join_scoped he hs, by
        rw [hv, h3]⟩)
    · cases hm
  · refine (Enforces.ofOption (Q := fun z _ => x.join = some z) fun z h _ _ => h).retExpr.mono
      fun os W _ ⟨_, z, hz, h⟩ y hy => ?_
    subst hz
    obtain ⟨h1, h2, h3⟩ := bin_val hy
    by_cases hl : 2 ^ y.length ≤ p
    · obtain ⟨e, he, hv⟩ := BinaryExpression.join_eq (e := x) (by rw [h2]; exact hl)
      rw [he] at h
      cases h
      refine ⟨_, if_pos hl, meansAll_one ?_⟩
      show Expression.eval W _ = _
      rw [hv, h3]
    · rw [BinaryExpression.join_eq_none (by rw [h2]; omega)] at h
      cases h

theorem lawful_joinAllowingOverflow : (joinAllowingOverflow : Op p).Lawful := by
  refine Kind.bin.onAll (Kind.bin.call1 (.pinned (fun _ => (Tidy.ofOption _).retExpr)
    (fun s x y rs hs hr hm => ?_) (fun x => ?_) _))
  · obtain ⟨h1, h2, h3⟩ := bin_val hr
    split at hm
    · rename_i h
      cases hm
      obtain ⟨e, he, hv⟩ := BinaryExpression.joinAllowingOverflow_eq (e := x) (by rw [h2]; exact h)
      exact Comp.retExpr (Comp.ofOption he ⟨rfl, BinaryExpression.joinAllowingOverflow_scoped he hs, by
        rw [hv, h3]⟩)
    · cases hm
  · refine (Enforces.ofOption (Q := fun z _ => x.joinAllowingOverflow = some z)
      fun z h _ _ => h).retExpr.mono fun os W _ ⟨_, z, hz, h⟩ y hy => ?_
    subst hz
    obtain ⟨h1, h2, h3⟩ := bin_val hy
    by_cases hl : y.length ≤ Elem.maxBits p
    · obtain ⟨e, he, hv⟩ := BinaryExpression.joinAllowingOverflow_eq (e := x) (by rw [h2]; exact hl)
      rw [he] at h
      cases h
      refine ⟨_, if_pos hl, meansAll_one ?_⟩
      show Expression.eval W _ = _
      rw [hv, h3]
    · rw [BinaryExpression.joinAllowingOverflow_eq_none (by rw [h2]; omega)] at h
      cases h

/-! ### Comparisons of digit strings -/

theorem comparable_iff {W : Assign p} {x y : BinaryExpression p} {l k : List Bool}
    (hx : Kind.bin.rel W x l) (hy : Kind.bin.rel W y k) :
    Comparable (Elem.maxBits p) l k ↔ x.len = y.len ∧ 0 < x.len ∧
      cmpChunkBits (Elem.maxBits p) x.len + 1 < Elem.maxBits p := by
  rw [cmpChunkBits_fits, (bin_val hx).2.1, (bin_val hy).2.1, Comparable, ← List.length_pos_iff]
  have h : ∀ c, c < Elem.maxBits p - 1 ↔ c + 1 < Elem.maxBits p := fun c => by omega
  simp only [h]
  refine and_congr_right fun _ => and_congr_right fun _ => exists_congr fun c => ?_
  constructor
  · rintro ⟨h1, h2, h3⟩; exact ⟨h2, h1, h3⟩
  · rintro ⟨h1, h2, h3⟩; exact ⟨h2, h1, h3⟩

theorem cmp_holds (r : Cmp) (a b : ℕ) :
    cmpHolds (r = .lt ∨ r = .le) (r = .lt ∨ r = .gt) ((a : ℤ) - (b : ℤ)) = r.holds a b := by
  rw [Bool.eq_iff_iff, cmpHolds_iff]
  cases r <;> simp [Cmp.holds] <;> omega

/-- The comparison of digit strings is that of the model. -/
theorem run_cmpBinary (r : Cmp) (os : List (Obj p)) : (cmpBinary r : Op p).run os =
    onAll bin? (call2 fun x y => retBool
      (B.cmpBinary x y (r = .lt ∨ r = .le) (r = .lt ∨ r = .gt))) os := by
  cases r <;> rfl

theorem run_assertCmpBinary (r : Cmp) (os : List (Obj p)) : (assertCmpBinary r : Op p).run os =
    onAll bin? (call2 fun x y => retNone
      (B.cmpBinary x y (r = .lt ∨ r = .le) (r = .lt ∨ r = .gt) >>= fun r => B.assertTrue r)) os := by
  cases r <;> rfl

/-- A comparison which can be built. -/
theorem accepted_comparable {n : ℕ} {x y : BinaryExpression p} {less strict : Bool}
    {g : BooleanExpression p → B p α} {Q : α → Assign p → Prop}
    (h : x.len = y.len ∧ 0 < x.len ∧ cmpChunkBits (Elem.maxBits p) x.len + 1 < Elem.maxBits p →
      Accepted n (B.cmpBinary x y less strict >>= g) Q) :
    Accepted n (B.cmpBinary x y less strict >>= g) Q := by
  by_cases hc : x.len = y.len ∧ 0 < x.len ∧
      cmpChunkBits (Elem.maxBits p) x.len + 1 < Elem.maxBits p
  · exact h hc
  · refine Accepted.of_none (B.none_bind fun b => ?_)
    rw [← Option.not_isSome_iff_eq_none, cmpBinary_isSome]
    exact hc

theorem enforces_comparable {x y : BinaryExpression p} {less strict : Bool}
    {g : BooleanExpression p → B p α} {Q : α → Assign p → Prop}
    (h : x.len = y.len ∧ 0 < x.len ∧ cmpChunkBits (Elem.maxBits p) x.len + 1 < Elem.maxBits p →
      Enforces (B.cmpBinary x y less strict >>= g) Q) :
    Enforces (B.cmpBinary x y less strict >>= g) Q := by
  by_cases hc : x.len = y.len ∧ 0 < x.len ∧
      cmpChunkBits (Elem.maxBits p) x.len + 1 < Elem.maxBits p
  · exact h hc
  · intro b a b' hr
    rw [B.none_bind (fun b => ?_)] at hr
    · cases hr
    · rw [← Option.not_isSome_iff_eq_none, cmpBinary_isSome]
      exact hc

theorem locally_cmpBinary (h2 : 2 < p) {n : ℕ} {x y : BinaryExpression p} {less strict : Bool}
    (hx : x.Scoped n) (hy : y.Scoped n) (hc : x.len = y.len ∧ 0 < x.len ∧
      cmpChunkBits (Elem.maxBits p) x.len + 1 < Elem.maxBits p) :
    Locally n (B.cmpBinary x y less strict) fun r W => x.AllBool W ∧ y.AllBool W → r.eval W =
      Elem.ofBool (cmpHolds less strict ((x.val W : ℤ) - (y.val W : ℤ))) := by
  refine Locally.bool (Tidy.cmpBinary _ _ _ _)
    (F := fun W => Elem.ofBool (cmpHolds less strict ((x.val W : ℤ) - (y.val W : ℤ))))
    (fun W W' h => ?_) fun s hs hb => ?_
  · have hv : ∀ z : BinaryExpression p, z.Scoped n → z.val W = z.val W' := fun z hz => by
      unfold BinaryExpression.val BinaryExpression.digits
      rw [List.map_congr_left fun b hb => by rw [(hz b hb).eval_eq h]]
    rw [hv x hx, hv y hy]
  · subst hs
    exact Comp.cmpBinary h2 hx hy hb.1 hb.2 hc.1 hc.2.1 hc.2.2 _ _

theorem comp_cmpBinary (h2 : 2 < p) (r : Cmp) {s : Hon p} {x y : BinaryExpression p}
    {l k : List Bool} (hx : x.Scoped s.next) (hy : y.Scoped s.next) (hl : Kind.bin.rel s.W x l)
    (hk : Kind.bin.rel s.W y k) (hc : Comparable (Elem.maxBits p) l k) :
    Comp (B.cmpBinary x y (r = .lt ∨ r = .le) (r = .lt ∨ r = .gt)) s fun z t => t.D = s.D ∧
      z.Scoped t.next ∧ z.eval t.W = Elem.ofBool (r.holds (natOf l) (natOf k)) := by
  obtain ⟨c1, c2, c3⟩ := (comparable_iff hl hk).1 hc
  refine (Comp.cmpBinary h2 hx hy (bin_val hl).1 (bin_val hk).1 c1 c2 c3 _ _).mono
    fun z t _ ⟨e1, e2, e3⟩ => ⟨e1, e2, ?_⟩
  rw [e3, cmp_holds, (bin_val hl).2.2, (bin_val hk).2.2]

theorem lawful_cmpBinary (h2 : 2 < p) (r : Cmp) : (cmpBinary r : Op p).Lawful := by
  have key : Kind.bin.Law2 (fun x y : BinaryExpression p => retBool
      (B.cmpBinary x y (r = .lt ∨ r = .le) (r = .lt ∨ r = .gt)))
      (fun l k => if Comparable (Elem.maxBits p) l k then
        some [.bool (r.holds (natOf l) (natOf k))] else none) false := by
    refine .checked (fun _ => (Tidy.cmpBinary _ _ _ _).retBool) (fun s x y rs hs hr hm => ?_)
      (fun n x hx => accepted_comparable fun hc =>
        (Accepted.trivial (Tidy.cmpBinary _ _ _ _).retBool).mono fun _ W _ y hy => ?_)
    · dsimp only at hm
      split at hm
      · rename_i h
        cases hm
        exact Comp.retBool (comp_cmpBinary h2 r hs.1 hs.2 hr.1 hr.2 h)
      · cases hm
    · dsimp only
      rw [if_pos ((comparable_iff hy.1 hy.2).2 hc)]
      rfl
  have h := Kind.bin.onAll (Kind.bin.call2 key)
  have e : (cmpBinary r : Op p).run = fun os => onAll bin? (call2 fun x y => retBool
      (B.cmpBinary x y (r = .lt ∨ r = .le) (r = .lt ∨ r = .gt))) os := funext (run_cmpBinary r)
  unfold Op.Lawful
  rw [e]
  exact h

theorem comp_assertCmpBinary (h2 : 2 < p) (r : Cmp) {s : Hon p} {x y : BinaryExpression p}
    {l k : List Bool} (hx : x.Scoped s.next) (hy : y.Scoped s.next) (hl : Kind.bin.rel s.W x l)
    (hk : Kind.bin.rel s.W y k) (hc : Comparable (Elem.maxBits p) l k)
    (hr : r.holds (natOf l) (natOf k) = true) :
    Comp (B.cmpBinary x y (r = .lt ∨ r = .le) (r = .lt ∨ r = .gt) >>= fun r => B.assertTrue r) s
      fun _ t => t.D = s.D :=
  Comp.assertOfHolds ((comp_cmpBinary h2 r hx hy hl hk hc).mono fun z t _ ⟨h1, h2, h3⟩ =>
    ⟨h1, h2, by rw [h3, hr, Elem.ofBool_true]⟩)

theorem tidy_assertCmpBinary (x y : BinaryExpression p) (less strict : Bool) :
    Tidy (B.cmpBinary x y less strict >>= fun r => B.assertTrue r) :=
  (Tidy.cmpBinary _ _ _ _).bind fun _ => Tidy.assertTrue _

theorem law_assertCmpBinary (h2 : 2 < p) (r : Cmp) :
    Kind.bin.Law2 (fun x y : BinaryExpression p => retNone
      (B.cmpBinary x y (r = .lt ∨ r = .le) (r = .lt ∨ r = .gt) >>= fun r => B.assertTrue r))
      (fun l k => check (Comparable (Elem.maxBits p) l k ∧ r.holds (natOf l) (natOf k) = true))
      (r = .lt ∨ r = .gt) := by
  refine ⟨fun _ => (tidy_assertCmpBinary _ _ _ _).retNone, fun s x y rs hs hr hm => ?_,
    fun hp x => ?_, fun n x hx => ?_⟩
  · obtain ⟨h1, rfl⟩ := check_eq hm
    exact Comp.retNone (comp_assertCmpBinary h2 r hs.1 hs.2 hr.1 hr.2 h1.1 h1.2)
  · have hs : decide (r = .lt ∨ r = .gt) = true := hp
    have key : Enforces (B.cmpBinary x.1 x.2 (r = .lt ∨ r = .le) (r = .lt ∨ r = .gt) >>=
        fun r => B.assertTrue r) fun _ W => ∀ y : List Bool × List Bool,
          Kind.bin.rel W x.1 y.1 ∧ Kind.bin.rel W x.2 y.2 →
          Comparable (Elem.maxBits p) y.1 y.2 ∧ r.holds (natOf y.1) (natOf y.2) = true := by
      refine enforces_comparable fun hc => (Enforces.cmpBinary_certifies x.1 x.2 _ _).bind fun z =>
        (Enforces.assertTrue z).mono fun _ W _ h ⟨_, _, h3⟩ y hy =>
          ⟨(comparable_iff hy.1 hy.2).2 hc, ?_⟩
      have h4 := (h3 (bin_val hy.1).1 (bin_val hy.2).1).1 hs h
      rw [(bin_val hy.1).2.2, (bin_val hy.2).2.2] at h4
      cases r <;> simp [Cmp.holds] at hs h4 ⊢ <;> exact h4
    refine key.retNone.mono fun os W _ ⟨_, h, _, h1⟩ y hy => ?_
    subst h
    exact ⟨[], check_pos (h1 y hy), .nil⟩
  · refine (Accepted.ret (tidy_assertCmpBinary _ _ _ _) (fun _ => Tidy.pure _) (Q := fun W =>
      ∀ y : List Bool × List Bool, Kind.bin.rel W x.1 y.1 ∧ Kind.bin.rel W x.2 y.2 →
        Comparable (Elem.maxBits p) y.1 y.2 ∧ r.holds (natOf y.1) (natOf y.2) = true)
      (accepted_comparable fun hc => ?_)).mono fun _ W h y hy => ?_
    · refine (Accepted.bind (f := fun r => B.assertTrue r) (Tidy.cmpBinary _ _ _ _)
        (fun _ => Tidy.assertTrue _) (Accepted.of_locally (locally_cmpBinary h2 hx.1 hx.2 hc))
        fun r => Enforces.assertTrue r).mono fun _ W ⟨z, h2, h1⟩ y hy => ?_
      refine ⟨(comparable_iff hy.1 hy.2).2 hc, ?_⟩
      rw [h2 ⟨(bin_val hy.1).1, (bin_val hy.2).1⟩, ofBool_ne, cmp_holds, (bin_val hy.1).2.2,
        (bin_val hy.2).2.2] at h1
      exact h1
    · dsimp only
      rw [check_pos (h y hy)]
      rfl

theorem lawful_assertCmpBinary (h2 : 2 < p) (r : Cmp) : (assertCmpBinary r : Op p).Lawful := by
  have h := Kind.bin.onAll (Kind.bin.call2 (law_assertCmpBinary h2 r))
  have e : (assertCmpBinary r : Op p).run = fun os => onAll bin? (call2 fun x y => retNone
      (B.cmpBinary x y (r = .lt ∨ r = .le) (r = .lt ∨ r = .gt) >>= fun r => B.assertTrue r)) os :=
    funext (run_assertCmpBinary r)
  have e' : (assertCmpBinary r : Op p).pinned = decide (r = .lt ∨ r = .gt) := by cases r <;> rfl
  unfold Op.Lawful
  rw [e, e']
  exact h

theorem lawful_bitwiseNot : (bitwiseNot : Op p).Lawful := by
  refine Kind.bin.onAll (Kind.bin.call1 (.pinned (fun _ => (Tidy.bitwiseNot _).retBin)
    (fun s x y rs hs hr hm => ?_) (fun x => ?_) _))
  · cases hm
    obtain ⟨h1, rfl⟩ := bin_iff.1 hr
    refine Comp.retBin (((Comp.notBits x.bits s hs).enforced (Enforces.notBits x.bits)).bind
      fun ds t _ ⟨⟨e1, e2, e3⟩, e4⟩ => Comp.pure ⟨e1, e3, ?_⟩)
    rw [e2] at e4 ⊢
    exact bin_iff.2 (e4 h1)
  · have h0 : Enforces (B.bitwiseNot x) fun z W => x.AllBool W → z.AllBool W ∧
        z.bits.map (BooleanExpression.truth W) = (x.bits.map (BooleanExpression.truth W)).map (!·) :=
      (Enforces.notBits x.bits).bind fun ds => Enforces.pure fun W _ h => h
    refine h0.retBin.mono fun os W _ ⟨_, z, hz, h⟩ y hy => ?_
    subst hz
    obtain ⟨h1, rfl⟩ := bin_iff.1 hy
    exact ⟨_, rfl, meansAll_one (bin_iff.2 (h h1))⟩

theorem opComputes_and : OpComputes (p := p) B.and := fun s x y hx hy =>
  (Comp.and hx hy).mono fun _ _ _ h => ⟨h.1, h.2.1⟩
theorem opComputes_or : OpComputes (p := p) B.or := fun s x y hx hy =>
  (Comp.or hx hy).mono fun _ _ _ h => ⟨h.1, h.2.1⟩
theorem opComputes_xor (h2 : 2 < p) : OpComputes (p := p) B.xor := fun s x y hx hy =>
  (Comp.xor h2 hx hy).mono fun _ _ _ h => ⟨h.1, h.2.1⟩

theorem lawful_bitwiseAnd : (bitwiseAnd : Op p).Lawful :=
  Kind.bin.onAll (Kind.bin.call2 (bitwise (fun _ _ => rfl) (fun _ _ => Tidy.bitwiseAnd _ _)
    opEnforces_and opComputes_and _))
theorem lawful_bitwiseOr : (bitwiseOr : Op p).Lawful :=
  Kind.bin.onAll (Kind.bin.call2 (bitwise (fun _ _ => rfl) (fun _ _ => Tidy.bitwiseOr _ _)
    opEnforces_or opComputes_or _))
theorem lawful_bitwiseXor (h2 : 2 < p) : (bitwiseXor : Op p).Lawful :=
  Kind.bin.onAll (Kind.bin.call2 (bitwise (fun _ _ => rfl) (fun _ _ => Tidy.bitwiseXor _ _)
    opEnforces_xor (opComputes_xor h2) _))

theorem getD_scoped {x : BinaryExpression p} {n i : ℕ} (hx : x.Scoped n) (hn : 1 ≤ n) :
    (x.bits.getD i BooleanExpression.false).Scoped n := by
  by_cases h : i < x.bits.length
  · rw [List.getD_eq_getElem?_getD, List.getElem?_eq_getElem h]
    exact hx _ (List.getElem_mem h)
  · rw [List.getD_eq_getElem?_getD, List.getElem?_eq_none (by omega)]
    exact BooleanExpression.Scoped.ofBool hn _

theorem range_scoped {l n : ℕ} {g : ℕ → BooleanExpression p} (h : ∀ i, (g i).Scoped n) :
    BinaryExpression.Scoped n ⟨(List.range l).map g⟩ := by
  intro b hb
  obtain ⟨i, _, rfl⟩ := List.mem_map.1 hb
  exact h i

/-- A string of the same length with a known number. -/
theorem bin_of_eq {W : Assign p} {z : BinaryExpression p} {k v : ℕ} (h : z.AllBool W)
    (hk : z.len = k) (hv : z.val W = v) :
    (z.bits.map fun b => b.eval W) = (bitsOf k v).map Elem.ofBool := by
  rw [bin_of_val h, hk, hv]

theorem lawful_rotateInc (k : ℕ) : (rotateInc k : Op p).Lawful := by
  refine Kind.bin.onAll (Kind.bin.call1 (rearranged (F := fun x => B.rotateInc x k)
    (G := fun l => some (bitsOf l.length ((BitVec.ofNat l.length (natOf l)).rotateLeft k).toNat))
    (fun x z n h hx hn => ?_) (fun W x l hl h1 => ?_) _))
  · rw [rotateInc_eq] at h
    cases h
    exact range_scoped fun i => getD_scoped hx hn
  · obtain ⟨e1, e2, e3⟩ := bin_val hl
    obtain ⟨z, h1, h2, h3⟩ := (C47_rotations x k).1
    obtain ⟨h4, h5⟩ := h3 W e1
    refine .inl ⟨z, _, h1, rfl, bin_of_eq h4 (by rw [h2, e2]) ?_⟩
    have := congrArg BitVec.toNat h5
    rw [BitVec.toNat_ofNat, Nat.mod_eq_of_lt (by rw [← h2]; exact h4.val_lt)] at this
    rw [this, e2, e3]

theorem lawful_rotateDec (k : ℕ) : (rotateDec k : Op p).Lawful := by
  refine Kind.bin.onAll (Kind.bin.call1 (rearranged (F := fun x => B.rotateDec x k)
    (G := fun l => some (bitsOf l.length ((BitVec.ofNat l.length (natOf l)).rotateRight k).toNat))
    (fun x z n h hx hn => ?_) (fun W x l hl h1 => ?_) _))
  · rw [rotateDec_eq] at h
    cases h
    exact range_scoped fun i => getD_scoped hx hn
  · obtain ⟨e1, e2, e3⟩ := bin_val hl
    obtain ⟨z, h1, h2, h3⟩ := (C47_rotations x k).2
    obtain ⟨h4, h5⟩ := h3 W e1
    refine .inl ⟨z, _, h1, rfl, bin_of_eq h4 (by rw [h2, e2]) ?_⟩
    have := congrArg BitVec.toNat h5
    rw [BitVec.toNat_ofNat, Nat.mod_eq_of_lt (by rw [← h2]; exact h4.val_lt)] at this
    rw [this, e2, e3]

theorem lawful_shiftInc (k : ℕ) : (shiftInc k : Op p).Lawful := by
  refine Kind.bin.onAll (Kind.bin.call1 (rearranged (F := fun x => B.shiftInc x k)
    (G := fun l => some (bitsOf l.length (natOf l * 2 ^ k)))
    (fun x z n h hx hn => ?_) (fun W x l hl h1 => ?_) _))
  · rw [shiftInc_eq] at h
    cases h
    refine range_scoped fun i => ?_
    split
    · exact BooleanExpression.Scoped.ofBool hn _
    · exact getD_scoped hx hn
  · obtain ⟨e1, e2, e3⟩ := bin_val hl
    obtain ⟨z, h1, h2, h3⟩ := (C47_shifts x k).1
    obtain ⟨h4, h5⟩ := h3 W e1
    refine .inl ⟨z, _, h1, rfl, ?_⟩
    have := bin_of_eq h4 (h2.trans e2) h5
    rw [e2, bitsOf_mod, e3] at this
    exact this

theorem lawful_shiftDec (k : ℕ) : (shiftDec k : Op p).Lawful := by
  have hG : (fun l : List Bool => if k ≤ l.length ∨ l = [] then
      some [(Val.bits (bitsOf l.length (natOf l / 2 ^ k)) : Val p)] else none)
      = fun l => (if k ≤ l.length ∨ l = [] then some (bitsOf l.length (natOf l / 2 ^ k))
        else none).map fun k => [Val.bits k] := by
    funext l; split <;> rfl
  refine Kind.bin.onAll (Kind.bin.call1 ?_)
  rw [hG]
  refine rearranged (F := fun x => B.shiftDec x k) (fun x z n h hx hn => ?_)
    (fun W x l hl h1 => ?_) _
  · by_cases hk : k ≤ x.len
    · rw [shiftDec_eq x hk] at h
      cases h
      refine range_scoped fun i => ?_
      split
      · exact getD_scoped hx hn
      · exact BooleanExpression.Scoped.ofBool hn _
    · by_cases h0 : 0 < x.len
      · rw [C47_shift_dec_refuted x k h0 (by omega)] at h
        cases h
      · have h0' : x.len = 0 := by omega
        unfold B.shiftDec at h
        rw [h0'] at h
        cases h
        intro b hb
        cases hb
  · obtain ⟨e1, e2, e3⟩ := bin_val hl
    by_cases hk : k ≤ x.len
    · obtain ⟨z, h1, h2, h3⟩ := (C47_shifts x k).2 hk
      obtain ⟨h4, h5⟩ := h3 W e1
      refine .inl ⟨z, _, h1, if_pos (.inl (by omega)), ?_⟩
      exact bin_of_eq h4 (h2.trans e2) (by rw [h5, e3])
    · by_cases h0 : 0 < x.len
      · refine .inr ⟨C47_shift_dec_refuted x k h0 (by omega), if_neg ?_⟩
        rintro (h | rfl)
        · omega
        · simp at e2; omega
      · have h0' : x.len = 0 := by omega
        have hl0 : l = [] := List.length_eq_zero_iff.1 (by omega)
        subst hl0
        refine .inl ⟨⟨[]⟩, [], ?_, if_pos (.inr rfl), rfl⟩
        unfold B.shiftDec
        rw [h0']
        rfl

theorem enforces_fits (terms : List (BinaryExpression p)) : Enforces (B.binarySummation terms)
    fun _ _ => (B.maxSum terms).size < Elem.maxBits p := by
  by_cases h : (B.maxSum terms).size < Elem.maxBits p
  · exact (Tidy.binarySummation terms).1.enforces.mono fun _ _ _ _ => h
  · intro b a b' h1
    have : B.binarySummation terms b = none := by
      unfold B.binarySummation B.require
      rw [if_neg h]
      rfl
    rw [this] at h1
    cases h1

theorem lawful_binarySum : (binarySum : Op p).Lawful := by
  refine Kind.bin.onAll (.pinned (fun _ => (Tidy.binarySummation _).retBin)
    (fun s x y rs hs hr hm => ?_) (fun x => ?_) _)
  · obtain ⟨h1, h2, h3, h4⟩ := bins_val hr
    split at hm
    · rename_i h
      cases hm
      rw [← h2] at h
      refine Comp.retBin ((Comp.binarySummation hs h1 h).mono fun z t _ ⟨e1, e2, e3, e4, e5⟩ =>
        ⟨e1, e2, bin_of_eq e3 (e4.trans h2) (e5.trans h4)⟩)
    · cases hm
  · refine ((Enforces.binarySummation x).both (enforces_fits x)).retBin.mono
      fun os W _ ⟨_, z, hz, ⟨e3, e4, e5⟩, e6⟩ y hy => ?_
    subst hz
    obtain ⟨h1, h2, h3, h4⟩ := bins_val hy
    rw [h2] at e6
    exact ⟨_, if_pos e6, meansAll_one (bin_of_eq e3 (e4.trans h2) ((e5 h1).trans h4))⟩

theorem lawful_binarySumIgnoringOverflow : (binarySumIgnoringOverflow : Op p).Lawful := by
  refine Kind.bin.onAll (.pinned (fun _ => (Tidy.binarySummationIgnoringOverflow _).retBin)
    (fun s x y rs hs hr hm => ?_) (fun x => ?_) _)
  · obtain ⟨h1, h2, h3, h4⟩ := bins_val hr
    split at hm
    · rename_i h
      cases hm
      rw [← h2] at h
      refine Comp.retBin ((Comp.binarySummationIgnoringOverflow hs h1 h).mono
        fun z t _ ⟨e1, e2, e3, e4, e5⟩ => ⟨e1, e2, ?_⟩)
      rw [bin_of_eq e3 e4 e5, h3, h4, bitsOf_mod]
    · cases hm
  · have h0 : Enforces (B.binarySummationIgnoringOverflow x) fun _ _ =>
        (B.maxSum x).size < Elem.maxBits p :=
      (enforces_fits x).bind fun z => (Tidy.ofOption _).1.enforces.mono fun _ _ _ _ h => h
    refine ((Enforces.binarySummationIgnoringOverflow x).both h0).retBin.mono
      fun os W _ ⟨_, z, hz, ⟨e3, e4, e5⟩, e6⟩ y hy => ?_
    subst hz
    obtain ⟨h1, h2, h3, h4⟩ := bins_val hy
    rw [h2] at e6
    have := bin_of_eq e3 e4 (e5 h1)
    rw [h3, h4, bitsOf_mod] at this
    exact ⟨_, if_pos e6, meansAll_one this⟩

theorem lawful_binarySumAssertingNoOverflow (h2 : 2 < p) :
    (binarySumAssertingNoOverflow : Op p).Lawful := by
  refine Kind.bin.onAll (.pinned (fun _ => (Tidy.binarySummationAssertingNoOverflow _).retBin)
    (fun s x y rs hs hr hm => ?_) (fun x => ?_) _)
  · obtain ⟨h1, h2, h3, h4⟩ := bins_val hr
    split at hm
    · rename_i h
      cases hm
      rw [← h2, ← h3, ← h4] at h
      refine Comp.retBin ((Comp.binarySummationAssertingNoOverflow ‹2 < p› hs h1 h.1 h.2).mono
        fun z t _ ⟨e1, e2, e3, e4, e5⟩ =>
          ⟨e1, e2, bin_of_eq e3 (e4.trans h3) (e5.trans h4)⟩)
    · cases hm
  · have h0 : Enforces (B.binarySummationAssertingNoOverflow x) fun _ _ =>
        (B.maxSum x).size < Elem.maxBits p := by
      unfold B.binarySummationAssertingNoOverflow
      exact (enforces_fits x).bind fun z => (Enforces.require _).bind fun _ =>
        (Tidy.binaryAssertZero _).1.enforces.bind fun _ =>
        (Tidy.ofOption _).1.enforces.mono fun _ _ _ _ _ _ h => h
    refine ((Enforces.binarySummationAssertingNoOverflow x).both h0).retBin.mono
      fun os W _ ⟨_, z, hz, ⟨e3, e4, e5⟩, e6⟩ y hy => ?_
    subst hz
    obtain ⟨h1, h2, h3, h4⟩ := bins_val hy
    rw [h2] at e6
    obtain ⟨e7, e8⟩ := e5 h1
    rw [h3, h4] at e7
    exact ⟨_, if_pos ⟨e6, e7⟩, meansAll_one (bin_of_eq e3 (e4.trans h3) (e8.trans h4))⟩

theorem lawful_binaryAssertZero (h2 : 2 < p) : (binaryAssertZero : Op p).Lawful := by
  have key : ∀ {W : Assign p} {x : BinaryExpression p} {l : List Bool},
      (x.bits.map fun b => b.eval W) = l.map Elem.ofBool →
      ((∀ b ∈ x.bits, b.eval W = 0) ↔ ∀ b ∈ l, b = false) := by
    intro W x l h
    have h1 : (∀ b ∈ x.bits, b.eval W = 0) ↔ ∀ e ∈ (x.bits.map fun b => b.eval W), e = 0 := by
      simp
    rw [h1, h]
    constructor
    · intro h3 b hb
      have := h3 _ (List.mem_map_of_mem hb)
      cases b
      · rfl
      · rw [Elem.ofBool_true] at this; exact absurd this one_ne_zero
    · intro h3 e he
      obtain ⟨b, hb, rfl⟩ := List.mem_map.1 he
      rw [h3 b hb]; rfl
  refine Kind.bin.onAll (Kind.bin.call1 (.pinned (fun _ => (Tidy.binaryAssertZero _).retNone)
    (fun s x y rs hs hr hm => ?_) (fun x => ?_) _))
  · obtain ⟨h1, rfl⟩ := check_eq hm
    exact Comp.retNone ((Comp.binaryAssertZero h2 hs ((key hr).2 h1)).mono fun _ _ _ h => h.2.1)
  · refine (Enforces.binaryAssertZero x).retNone.mono fun os W _ ⟨_, hz, _, h⟩ y hy => ?_
    subst hz
    exact ⟨_, check_pos ((key hy).1 (h (bin_val hy).1)), .nil⟩

theorem lawful_assertPermutation (k : ℕ) : (assertPermutation k : Op p).Lawful := by
  refine Kind.expr.onAll (.pinned (fun _ => (Tidy.assertPermutation _ _).retNone)
    (fun s x y rs hs hr hm => ?_) (fun x => ?_) _)
  · obtain ⟨h1, rfl⟩ := check_eq hm
    rw [← values_of_rel hr, values, ← List.map_take, ← List.map_drop] at h1
    exact Comp.retNone (Comp.assertPermutation (fun e he => hs e (List.mem_of_mem_take he))
      (fun e he => hs e (List.mem_of_mem_drop he)) h1)
  · refine (Enforces.assertPermutation _ _).retNone.mono fun os W _ ⟨_, hz, _, h⟩ y hy => ?_
    subst hz
    rw [evals, evals, List.map_take, List.map_drop, show (x.map fun e => e.eval W) = y from values_of_rel hy] at h
    exact ⟨_, check_pos h, .nil⟩

theorem lawful_sortAscending (h4 : 4 ≤ Elem.maxBits p) : (sortAscending : Op p).Lawful := by
  refine Kind.expr.onAll (.checked (fun _ => (Tidy.sortAscending _).retExprs)
    (fun s x y rs hs hr hm => ?_) (fun n x hx => ?_))
  · split at hm
    · cases hm
    · rename_i h
      cases hm
      have hv := values_of_rel hr
      refine Comp.retExprs ((Comp.sortAscendingScoped h4 ?_ hs).mono fun z t _ ⟨h1, h2, h3⟩ =>
        ⟨h1, h3, h2.trans ?_⟩)
      · rintro rfl; exact h hv.symm
      · rw [← hv]
  · by_cases h : x = []
    · subst h
      exact Accepted.of_none fun b => by
        unfold retExprs
        show (B.sortAscending [] >>= _) b = none
        rfl
    · refine (Accepted.trivial (Tidy.sortAscending _).retExprs).mono fun _ W _ y hy => ?_
      rw [if_neg]
      · rfl
      · rintro rfl; cases hy; exact h rfl

theorem lawful_sortDescending (h4 : 4 ≤ Elem.maxBits p) : (sortDescending : Op p).Lawful := by
  refine Kind.expr.onAll (.checked (fun _ => (Tidy.sortDescending _).retExprs)
    (fun s x y rs hs hr hm => ?_) (fun n x hx => ?_))
  · split at hm
    · cases hm
    · rename_i h
      cases hm
      have hv := values_of_rel hr
      refine Comp.retExprs ((Comp.sortAscendingScoped h4 ?_ hs).bind fun z t _ ⟨h1, h2, h3⟩ =>
        Comp.pure ⟨h1, fun e he => h3 e (List.mem_reverse.1 he), ?_⟩)
      · rintro rfl; exact h hv.symm
      · rw [values, List.map_reverse, show (z.map fun e => e.eval t.W) = _ from h2, ← hv]
  · by_cases h : x = []
    · subst h
      exact Accepted.of_none fun b => rfl
    · refine (Accepted.trivial (Tidy.sortDescending _).retExprs).mono fun _ W _ y hy => ?_
      rw [if_neg]
      · rfl
      · rintro rfl; cases hy; exact h rfl

theorem lawful_function (k : ℕ) (m : List (Expression p) → B p (List (Expression p)))
    (f : List (Elem p) → List (Elem p)) (sound : EnforcedList k m f)
    (complete : ComputedList k m f) (tidy : ∀ xs, Tidy (m xs)) :
    (function k m f sound complete tidy).Lawful := by
  refine Kind.expr.onAll (.pinned (fun _ => (Tidy.require _).bind fun _ => (tidy _).retExprs)
    (fun s x y rs hs hr hm => ?_) (fun x => ?_) _)
  · have hv := values_of_rel hr
    split at hm
    · rename_i h
      cases hm
      have hl : x.length = k := by rw [← h, ← hv, values, List.length_map]
      refine Comp.require_bind hl (Comp.retExprs ((complete.comp hl hs).mono
        fun z t _ ⟨h1, h2, h3⟩ => ⟨h1, h2, h3.trans ?_⟩))
      rw [hv]
    · cases hm
  · refine (Enforces.require _).bind fun _ => ((sound x).retExprs).mono
      fun os W _ ⟨_, z, hz, h⟩ hl y hy => ?_
    subst hz
    have hv := values_of_rel hy
    have hl' : y.length = k := by rw [← hl, ← hv, values, List.length_map]
    refine ⟨_, if_pos hl', meansAll_exprs ?_⟩
    rw [h hl, hv]

theorem greatest_item {n i j : ℕ} (h : j < n) (h1 : j &&& i = j)
    (h2 : ∀ j' < n, j' &&& i = j' → j' ≤ j) :
    Nat.findGreatest (fun j => j &&& i = j) (n - 1) = j := by
  rw [Nat.findGreatest_eq_iff]
  refine ⟨by omega, fun _ => h1, fun m hm hm' hc => ?_⟩
  have := h2 m (by omega) hc
  omega

theorem lawful_randomAccess : (randomAccess : Op p).Lawful := by
  have key : ∀ {W : Assign p} {i : Expression p} {xs : List (Expression p)} {a : Elem p}
      {ys : List (Elem p)} {z : Expression p}, i.eval W = a → values W xs = ys →
      (Nat.clog 2 xs.length < Elem.maxBits p ∧ (i.eval W).n < 2 ^ Nat.clog 2 xs.length ∧
        ∃ j, ∃ h : j < xs.length, j &&& (i.eval W).n = j ∧
          (∀ j' < xs.length, j' &&& (i.eval W).n = j' → j' ≤ j) ∧ z.eval W = (xs[j]).eval W) →
      (if Nat.clog 2 ys.length < Elem.maxBits p ∧ a.n < 2 ^ Nat.clog 2 ys.length then
        (ys[Nat.findGreatest (fun j => j &&& a.n = j) (ys.length - 1)]?).map
          fun x => [(Val.elem x : Val p)] else none) = some [.elem (z.eval W)] := by
    rintro W i xs _ _ z rfl rfl ⟨h1, h2, j, h3, h4, h5, h6⟩
    have hl : (values W xs).length = xs.length := List.length_map _
    rw [hl, if_pos ⟨h1, h2⟩, greatest_item h3 h4 h5, List.getElem?_eq_getElem (by rw [hl]; exact h3),
      h6]
    simp [values]
  refine Kind.expr.onAll (Kind.expr.callList (.pinned (fun _ => (Tidy.randomAccess _ _).retExpr)
    (fun s x y rs hs hr hm => ?_) (fun x => ?_) _))
  · obtain ⟨i, xs⟩ := x
    obtain ⟨a, ys⟩ := y
    obtain ⟨h1, h2⟩ := hr
    have hv : values s.W xs = ys := values_of_rel h2
    have hl : ys.length = xs.length := by rw [← hv]; exact List.length_map _
    have h1 : i.eval s.W = a := h1
    dsimp only at hm
    split at hm
    · rename_i h
      have hpos : 0 < xs.length := by
        by_contra h0
        have : ys = [] := List.length_eq_zero_iff.1 (by omega)
        subst this
        simp at hm
      have hfit : (i.eval s.W).n < 2 ^ B.indexBits xs.length := by
        rw [indexBits_eq_clog, ← hl, h1]; exact h.2
      have hmax : B.indexBits xs.length < Elem.maxBits p := by
        rw [indexBits_eq_clog, ← hl]; exact h.1
      obtain ⟨v, hv1, rfl⟩ := Option.map_eq_some_iff.1 hm
      refine Comp.retExpr (((Comp.randomAccess hs.1 hs.2 hpos hfit hmax).enforced
        (Enforces.randomAccess_exact xs i)).mono fun z t l ⟨⟨e1, e2⟩, e3⟩ => ⟨e1, e2, ?_⟩)
      have := key (a := a) (ys := ys) ((l.eval hs.1).trans h1)
        (Eq.trans (List.map_congr_left fun e he => l.eval (hs.2 e he)) hv) e3
      rw [if_pos h, hv1] at this
      simp only [Option.map_some, Option.some.injEq, List.cons.injEq, Val.elem.injEq, and_true] at this
      exact this.symm
    · cases hm
  · refine (Enforces.randomAccess_exact _ _).retExpr.mono fun os W _ ⟨_, z, hz, h⟩ y hy => ?_
    subst hz
    exact ⟨_, key hy.1 (values_of_rel hy.2) h, meansAll_one rfl⟩

theorem lawful (h4 : 4 ≤ Elem.maxBits p) (o : Op p) : o.Lawful := by
  have h2 := two_lt_of_maxBits h4
  cases o with
  | const c => exact lawful_const c
  | constBool b => exact lawful_constBool b
  | constBits n => exact lawful_constBits n
  | add => exact lawful_add
  | sub => exact lawful_sub
  | neg => exact lawful_neg
  | scale c => exact lawful_scale c
  | product => exact lawful_product
  | exp k => exact lawful_exp k
  | inverse => exact lawful_inverse h2
  | quotient => exact lawful_quotient h2
  | inverseOrZero => exact lawful_inverseOrZero h2
  | quotientUnsafe => exact lawful_quotientUnsafe h2
  | nonzero => exact lawful_nonzero h2
  | zero => exact lawful_zero h2
  | equal => exact lawful_equal h2
  | assertEqual => exact lawful_assertEqual
  | assertNonequal => exact lawful_assertNonequal h2
  | assertZero => exact lawful_assertZero
  | assertNonzero => exact lawful_assertNonzero h2
  | assertProduct => exact lawful_assertProduct
  | assertBoolean => exact lawful_assertBoolean
  | lt => exact lawful_lt h4
  | le => exact lawful_le h4
  | gt => exact lawful_gt h4
  | ge => exact lawful_ge h4
  | assertLt => exact lawful_assertLt h4
  | assertLe => exact lawful_assertLe h4
  | assertGt => exact lawful_assertGt h4
  | assertGe => exact lawful_assertGe h4
  | modulus => exact lawful_modulus h4
  | divides => exact lawful_divides h4
  | split => exact lawful_split h4
  | splitAllowingAmbiguity => exact lawful_splitAllowingAmbiguity
  | splitBounded k => exact lawful_splitBounded k
  | join => exact lawful_join
  | joinAllowingOverflow => exact lawful_joinAllowingOverflow
  | cmpBinary r => exact lawful_cmpBinary h2 r
  | assertCmpBinary r => exact lawful_assertCmpBinary h2 r
  | not => exact lawful_not
  | and => exact lawful_and
  | or => exact lawful_or
  | xor => exact lawful_xor h2
  | assertTrue => exact lawful_assertTrue
  | assertFalse => exact lawful_assertFalse
  | select => exact lawful_select
  | toExpr => exact lawful_toExpr
  | pack => exact lawful_pack
  | unpack => exact lawful_unpack
  | bitwiseNot => exact lawful_bitwiseNot
  | bitwiseAnd => exact lawful_bitwiseAnd
  | bitwiseOr => exact lawful_bitwiseOr
  | bitwiseXor => exact lawful_bitwiseXor h2
  | rotateInc k => exact lawful_rotateInc k
  | rotateDec k => exact lawful_rotateDec k
  | shiftInc k => exact lawful_shiftInc k
  | shiftDec k => exact lawful_shiftDec k
  | binarySum => exact lawful_binarySum
  | binarySumIgnoringOverflow => exact lawful_binarySumIgnoringOverflow
  | binarySumAssertingNoOverflow => exact lawful_binarySumAssertingNoOverflow h2
  | binaryAssertZero => exact lawful_binaryAssertZero h2
  | randomAccess => exact lawful_randomAccess
  | assertPermutation k => exact lawful_assertPermutation k
  | sortAscending => exact lawful_sortAscending h4
  | sortDescending => exact lawful_sortDescending h4
  | function k m f a b c => exact lawful_function k m f a b c
  | edwardsNew C => exact lawful_edwardsNew C
  | edwardsAdd C => exact lawful_edwardsAdd h2 C
  | edwardsDouble C => exact lawful_edwardsDouble h2 C
  | edwardsMulBoolean C => exact lawful_edwardsMulBoolean C
  | edwardsMulScalar C => exact lawful_edwardsMulScalar h2 C
  | schnorrVerify C G h => exact lawful_schnorrVerify h2 C G h
  | merkleRoot h => exact lawful_merkleRoot h
  | assertMembership h => exact lawful_assertMembership h

end Op

end R1CS
