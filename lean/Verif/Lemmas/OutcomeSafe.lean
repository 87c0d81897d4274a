import Verif.Lemmas.Returns
import Verif.Lemmas.Outcome
import Verif.Lemmas.Bimap

/-!
# How executions of circuits end: the panics
-/

set_option linter.unusedSectionVars false
set_option linter.unusedVariables false

namespace R1CS

variable {p : ℕ} [hp : Fact p.Prime] {X Y α β γ : Type}

open Language

/-- Executions return only if the element fits. -/
theorem Locally.splitBounded (n : ℕ) (x : Expression p) (k : ℕ) : Locally n (B.splitBounded x k)
    fun _ W => k < Elem.maxBits p ∧ (x.eval W).n < 2 ^ k := by
  by_cases hk : k < Elem.maxBits p
  swap
  · exact Locally.of_none (B.none_bind (B.require_none hk))
  refine Locally.of_generator (.splitBounded x k) fun b b1 a hn h1 => ?_
  unfold B.splitBounded at h1
  obtain ⟨_, b2, _, h1⟩ := B.bind_run h1
  unfold B.splitWithoutRangeCheck at h1
  obtain ⟨w, b3, _, h1⟩ := B.bind_run h1
  obtain ⟨_, b4, _, h1⟩ := B.bind_run h1
  obtain ⟨_, b5, _, h1⟩ := B.bind_run h1
  obtain ⟨_, b6, hg, h1⟩ := B.bind_run h1
  obtain ⟨_, rfl⟩ := Prod.ext_iff.1 (Option.some.inj hg)
  obtain ⟨_, rfl⟩ := Prod.ext_iff.1 (Option.some.inj h1)
  refine ⟨⟨x.dependencies, B.splitGen x k w⟩, List.mem_append_right _ (List.mem_singleton.2 rfl), ?_⟩
  intro u u' v' hgen hu _
  simp only [B.splitGen] at hgen
  obtain ⟨xv, hxv, hgen⟩ := Option.bind_eq_some_iff.1 hgen
  split at hgen
  · rename_i h
    rw [evaluate_mono hu hxv]
    exact ⟨hk, Nat.size_le.1 h⟩
  · cases hgen

theorem randomAccessBinary_nil (l : List (BooleanExpression p)) :
    ∀ b, B.randomAccessBinary l [] b = none := by
  induction l with
  | nil => exact fun _ => rfl
  | cons c l ih => exact fun b => ih b

theorem evaluate_map {u v' : WireValues p} (h : ∀ i x, u i = some x → v' i = some x)
    {xs : List (Expression p)} {ys : List (Elem p)}
    (he : (xs.mapM fun e => e.evaluate u) = some ys) : values v'.total xs = ys := by
  induction xs generalizing ys with
  | nil => cases he; rfl
  | cons x xs ih =>
    rw [List.mapM_cons] at he
    obtain ⟨y, h1, he⟩ := Option.bind_eq_some_iff.1 he
    obtain ⟨ys', h2, he⟩ := Option.bind_eq_some_iff.1 he
    cases he
    rw [← ih h2]
    show x.eval v'.total :: _ = _
    rw [evaluate_mono h h1]

theorem routeGen_perm {a b : List (Expression p)} {s1 s2 : List BooleanWire}
    {u u' v' : WireValues p} (hgen : B.routeGen a b s1 s2 u = some u')
    (hu : ∀ i x, u i = some x → v' i = some x) :
    (values v'.total a).Perm (values v'.total b) := by
  unfold B.routeGen at hgen
  obtain ⟨av, h1, hgen⟩ := Option.bind_eq_some_iff.1 hgen
  obtain ⟨bv, h2, hgen⟩ := Option.bind_eq_some_iff.1 hgen
  rw [evaluate_map hu h1, evaluate_map hu h2]
  by_contra hc
  unfold route at hgen
  split at hgen
  · cases hgen
  · rw [bimapFromLists_none hc] at hgen
    cases hgen

/-- Executions return only if the lists are permutations of each other, except for lists of one
element. -/
theorem Locally.assertPermutation (n : ℕ) (xs ys : List (Expression p)) :
    Locally n (B.assertPermutation xs ys) fun _ W => xs.length = ys.length ∧
      (xs.length = 1 ∨ (values W xs).Perm (values W ys)) := by
  by_cases hl : xs.length = ys.length
  swap
  · refine Locally.of_none ?_
    unfold B.assertPermutation
    cases xs.length <;> exact B.none_bind (B.require_none hl)
  match xs, ys, hl with
  | [], [], _ => exact Locally.trivial.mono fun _ _ _ => ⟨rfl, .inr (List.Perm.refl _)⟩
  | [_], [_], _ => exact Locally.trivial.mono fun _ _ _ => ⟨rfl, .inl rfl⟩
  | [x1, x2], [y1, y2], _ =>
    refine Locally.of_generator (.assertPermutation _ _) fun b b1 a hn h1 => ?_
    have h1 : (B.require ([x1, x2].length = [y1, y2].length) >>= fun _ =>
      B.assertPermutation2x2 x1 x2 y1 y2) b = some (a, b1) := h1
    obtain ⟨_, b2, _, h1⟩ := B.bind_run h1
    unfold B.assertPermutation2x2 at h1
    obtain ⟨⟨sw, c, d⟩, b3, _, h1⟩ := B.bind_run h1
    obtain ⟨_, b4, _, h1⟩ := B.bind_run h1
    obtain ⟨_, b5, _, h1⟩ := B.bind_run h1
    obtain ⟨_, rfl⟩ := Prod.ext_iff.1 (Option.some.inj h1)
    refine ⟨_, List.mem_append_right _ (List.mem_singleton.2 rfl), ?_⟩
    intro u u' v' hgen hu _
    simp only [B.permutation2x2Gen] at hgen
    obtain ⟨a1, e1, hgen⟩ := Option.bind_eq_some_iff.1 hgen
    obtain ⟨a2, e2, hgen⟩ := Option.bind_eq_some_iff.1 hgen
    obtain ⟨a3, e3, hgen⟩ := Option.bind_eq_some_iff.1 hgen
    obtain ⟨a4, e4, hgen⟩ := Option.bind_eq_some_iff.1 hgen
    refine ⟨rfl, .inr ?_⟩
    show List.Perm [x1.eval v'.total, x2.eval v'.total] [y1.eval v'.total, y2.eval v'.total]
    rw [evaluate_mono hu e1, evaluate_mono hu e2, evaluate_mono hu e3, evaluate_mono hu e4]
    split at hgen
    · rename_i h; rw [h.1, h.2]
    · split at hgen
      · rename_i h; rw [h.1, h.2]; exact List.Perm.swap _ _ _
      · cases hgen
  | x1 :: x2 :: x3 :: xs, y1 :: y2 :: y3 :: ys, hl =>
    refine Locally.of_generator (.assertPermutation _ _) fun b b1 a hn h1 => ?_
    unfold B.assertPermutation at h1
    rw [List.length_cons, B.assertPermutationFuel] at h1
    any_goals solve | simp
    obtain ⟨_, b2, _, h1⟩ := B.bind_run h1
    dsimp only at h1
    obtain ⟨⟨s1, c1, d1⟩, b3, _, h1⟩ := B.bind_run h1
    obtain ⟨⟨s2, c2, d2⟩, b4, _, h1⟩ := B.bind_run h1
    obtain ⟨_, b5, _, h1⟩ := B.bind_run h1
    obtain ⟨_, rfl⟩ := Prod.ext_iff.1 (Option.some.inj h1)
    refine ⟨_, List.mem_append_right _ (List.mem_singleton.2 rfl), ?_⟩
    intro u u' v' hgen hu _
    exact ⟨hl, .inr (routeGen_perm hgen hu)⟩

namespace Op

/-- The panics of one operation. -/
abbrev Panics (o : Op p) : Prop := OpSafe o.run o.meaning

theorem isSome_if {c : Prop} [Decidable c] {a : α} (h : c) :
    (if c then some a else none : Option α).isSome = true := by rw [if_pos h]; rfl

theorem isSome_if_not {c : Prop} [Decidable c] {a : α} (h : ¬ c) :
    (if c then none else some a : Option α).isSome = true := by rw [if_neg h]; rfl

theorem safe_inverse (h2 : 2 < p) : (inverse : Op p).Panics :=
  Kind.expr.safe (Kind.expr.safe1 fun n x hx => (Locally.ret (fun _ => Tidy.pure _)
    ((C85_division h2 hx hx).1.mono fun _ _ h => h.1)).mono fun _ W h y hy => by
      cases hy; exact isSome_if_not h)

theorem safe_quotient (h2 : 2 < p) : (quotient : Op p).Panics :=
  Kind.expr.safe (Kind.expr.safe2 fun n x hx => (Locally.ret (fun _ => Tidy.pure _)
    ((C85_division h2 hx.1 hx.2).2.1.mono fun _ _ h => h.1)).mono fun _ W h y hy => by
      obtain ⟨y1, y2⟩ := y
      obtain ⟨rfl, rfl⟩ := hy; exact isSome_if_not h)

theorem safe_quotientUnsafe (h2 : 2 < p) : (quotientUnsafe : Op p).Panics :=
  Kind.expr.safe (Kind.expr.safe2 fun n x hx => (Locally.ret (fun _ => Tidy.pure _)
    ((C85_division h2 hx.1 hx.2).2.2.mono fun _ _ h => h.1)).mono fun _ W h y hy => by
      obtain ⟨y1, y2⟩ := y
      obtain ⟨rfl, rfl⟩ := hy; exact isSome_if_not h)

theorem safe_assertNonzero (h2 : 2 < p) : (assertNonzero : Op p).Panics :=
  Kind.expr.safe (Kind.expr.safe1 fun n x hx => (Locally.ret (fun _ => Tidy.pure _)
    (Locally.ret (fun _ => Tidy.pure _)
    ((C85_division h2 hx hx).1.mono fun _ _ h => h.1))).mono fun _ W h y hy => by
      cases hy; exact isSome_if h)

theorem safe_assertNonequal (h2 : 2 < p) : (assertNonequal : Op p).Panics :=
  Kind.expr.safe (Kind.expr.safe2 fun n x hx => (Locally.ret (fun _ => Tidy.pure _)
    (Locally.ret (fun _ => Tidy.pure _)
    ((C85_division h2 (hx.1.sub hx.2) (hx.1.sub hx.2)).1.mono fun _ _ h => h.1))).mono
    fun _ W h y hy => by
      obtain ⟨y1, y2⟩ := y
      obtain ⟨rfl, rfl⟩ := hy
      rw [Expression.eval_sub] at h
      exact isSome_if (sub_ne_zero.1 h))

theorem safe_modulus (h4 : 4 ≤ Elem.maxBits p) : (modulus : Op p).Panics :=
  Kind.expr.safe (Kind.expr.safe2 fun n x hx => (Locally.ret (fun _ => Tidy.pure _)
    ((C85_modulus h4 hx.1 hx.2).mono fun _ _ h => h.1)).mono fun _ W h y hy => by
      obtain ⟨y1, y2⟩ := y
      obtain ⟨rfl, rfl⟩ := hy; exact isSome_if_not h)

theorem safe_divides (h4 : 4 ≤ Elem.maxBits p) : (divides : Op p).Panics :=
  Kind.expr.safe (Kind.expr.safe2 fun n x hx => (Locally.ret (fun _ => Tidy.pure _)
    (Locally.ret (fun _ => Tidy.zero _)
    ((C85_modulus h4 hx.2 hx.1).mono fun _ _ h => h.1))).mono fun _ W h y hy => by
      obtain ⟨y1, y2⟩ := y
      obtain ⟨rfl, rfl⟩ := hy; exact isSome_if_not h)

theorem safe_splitBounded (k : ℕ) : (splitBounded k : Op p).Panics :=
  Kind.expr.safe (Kind.expr.safe1 fun n x hx => (Locally.ret (fun _ => Tidy.pure _)
    (Locally.splitBounded n x k)).mono fun _ W h y hy => by
      cases hy; exact isSome_if h)

theorem safe_randomAccess : (randomAccess : Op p).Panics := by
  refine Kind.expr.safe (Kind.expr.safeList fun n x hx => ?_)
  obtain ⟨i, xs⟩ := x
  by_cases h0 : xs = []
  · subst h0
    exact Locally.of_none (B.none_bind (B.none_bind' fun a => randomAccessBinary_nil _))
  · refine (Locally.ret (fun _ => Tidy.pure _) (Locally.ret (fun _ => Tidy.randomAccessBinary _ _)
      (Locally.splitBounded n i (B.indexBits xs.length)))).mono fun _ W h y hy => ?_
    obtain ⟨y1, y2⟩ := y
    obtain ⟨h1, h2⟩ := hy
    have hl := h2.length_eq
    dsimp only at hl h1
    subst h1
    rw [indexBits_eq_clog, hl] at h
    dsimp only
    rw [if_pos h, Option.isSome_map, List.getElem?_eq_getElem]
    · rfl
    · have := Nat.findGreatest_le (P := fun j => j &&& (i.eval W).n = j) (y2.length - 1)
      have : 0 < xs.length := List.length_pos_iff.2 h0
      omega

theorem safe_join : (join : Op p).Panics := by
  refine Kind.bin.safe (Kind.bin.safe1 (.built fun W x y h => ?_))
  obtain ⟨h1, h2, h3⟩ := bin_val h
  by_cases hl : 2 ^ y.length ≤ p
  · exact .inl (isSome_if hl)
  · exact .inr (B.none_bind (B.ofOption_none (BinaryExpression.join_eq_none (by rw [h2]; omega))))

theorem safe_joinAllowingOverflow : (joinAllowingOverflow : Op p).Panics := by
  refine Kind.bin.safe (Kind.bin.safe1 (.built fun W x y h => ?_))
  obtain ⟨h1, h2, h3⟩ := bin_val h
  by_cases hl : y.length ≤ Elem.maxBits p
  · exact .inl (isSome_if hl)
  · exact .inr (B.none_bind (B.ofOption_none
      (BinaryExpression.joinAllowingOverflow_eq_none (by rw [h2]; omega))))

theorem cmpBinary_none {W : Assign p} {x y : BinaryExpression p} {l k : List Bool}
    (hx : Kind.bin.rel W x l) (hy : Kind.bin.rel W y k)
    (h : ¬ Comparable (Elem.maxBits p) l k) (less strict : Bool) :
    ∀ b, B.cmpBinary x y less strict b = none := by
  intro b
  rw [← Option.not_isSome_iff_eq_none, cmpBinary_isSome]
  exact fun hc => h ((comparable_iff hx hy).2 hc)

theorem safe_cmpBinary (r : Cmp) : (cmpBinary r : Op p).Panics := by
  unfold Op.Panics
  rw [show (cmpBinary r : Op p).run = _ from funext (run_cmpBinary r)]
  refine Kind.bin.safe (Kind.bin.safe2 (.built fun W x y h => ?_))
  by_cases hl : Comparable (Elem.maxBits p) y.1 y.2
  · exact .inl (isSome_if hl)
  · exact .inr (B.none_bind (cmpBinary_none h.1 h.2 hl _ _))

theorem safe_assertCmpBinary (r : Cmp) :
    OpSafe (assertCmpBinary r : Op p).run (assertCmpBinary r).outcome := by
  rw [show (assertCmpBinary r : Op p).run = _ from funext (run_assertCmpBinary r)]
  refine Kind.bin.safe (Kind.bin.safe2 (.built fun W x y h => ?_))
  by_cases hl : Comparable (Elem.maxBits p) y.1 y.2
  · exact .inl (isSome_if hl)
  · exact .inr (B.none_bind (B.none_bind (cmpBinary_none h.1 h.2 hl _ _)))

theorem safe_bitwise {op : BooleanExpression p → BooleanExpression p → B p (BooleanExpression p)}
    {f : Bool → Bool → Bool} : Kind.bin.Safe2 (p := p)
      (fun x y => retBin (do
        B.require (x.len = y.len)
        let bits ← B.zipBits op x.bits y.bits
        return ⟨bits⟩))
      (fun l k => if l.length = k.length then some [Val.bits (p := p) (List.zipWith f l k)]
        else none) := by
  refine .built fun W x y h => ?_
  by_cases hl : y.1.length = y.2.length
  · exact .inl (isSome_if hl)
  · refine .inr (B.none_bind (B.none_bind (B.require_none ?_)))
    rw [(bin_val h.1).2.1, (bin_val h.2).2.1]
    exact hl

theorem safe_shiftDec (k : ℕ) : (shiftDec k : Op p).Panics := by
  refine Kind.bin.safe (Kind.bin.safe1 (.built fun W x l h => ?_))
  obtain ⟨h1, h2, h3⟩ := bin_val h
  by_cases hk : k ≤ l.length ∨ l = []
  · exact .inl (isSome_if hk)
  · refine .inr (B.none_bind (B.ofOption_none (C47_shift_dec_refuted x k ?_ ?_)))
    · have := List.length_pos_iff.2 (fun h => hk (.inr h)); omega
    · have : ¬ k ≤ l.length := fun h => hk (.inl h)
      omega

theorem sum_none {x : List (BinaryExpression p)} (h : ¬ (B.maxSum x).size < Elem.maxBits p) :
    ∀ b, B.binarySummation x b = none := B.none_bind (B.require_none h)

theorem safe_binarySum : (binarySum : Op p).Panics := by
  refine Kind.bin.safe (.built fun W x y h => ?_)
  obtain ⟨h1, h2, h3, h4⟩ := bins_val h
  by_cases hl : sumWidth y < Elem.maxBits p
  · exact .inl (isSome_if hl)
  · exact .inr (B.none_bind (sum_none (by rw [h2]; exact hl)))

theorem safe_binarySumIgnoringOverflow : (binarySumIgnoringOverflow : Op p).Panics := by
  refine Kind.bin.safe (.built fun W x y h => ?_)
  obtain ⟨h1, h2, h3, h4⟩ := bins_val h
  by_cases hl : sumWidth y < Elem.maxBits p
  · exact .inl (isSome_if hl)
  · exact .inr (B.none_bind (B.none_bind (sum_none (by rw [h2]; exact hl))))

theorem safe_binarySumAssertingNoOverflow :
    OpSafe (binarySumAssertingNoOverflow : Op p).run binarySumAssertingNoOverflow.outcome := by
  refine Kind.bin.safe (.built fun W x y h => ?_)
  obtain ⟨h1, h2, h3, h4⟩ := bins_val h
  by_cases hl : sumWidth y < Elem.maxBits p
  · exact .inl (isSome_if hl)
  · exact .inr (B.none_bind (B.none_bind (sum_none (by rw [h2]; exact hl))))

theorem safe_assertPermutation (k : ℕ) :
    OpSafe (assertPermutation k : Op p).run (assertPermutation k).outcome := by
  refine Kind.expr.safe fun n x hx => (Locally.ret (fun _ => Tidy.pure _)
    (Locally.assertPermutation n (x.take k) (x.drop k))).mono fun _ W h y hy => ?_
  have := values_of_rel hy
  subst this
  rw [values, values, List.map_take, List.map_drop, ← List.length_map (Expression.eval W),
    ← List.length_map (as := x.drop k) (Expression.eval W), List.map_take, List.map_drop] at h
  exact isSome_if h

theorem safe_sortAscending : (sortAscending : Op p).Panics := by
  refine Kind.expr.safe (.built fun W x y h => ?_)
  by_cases hl : y = []
  · subst hl; cases h
    exact .inr fun b => rfl
  · exact .inl (isSome_if_not hl)

theorem safe_sortDescending : (sortDescending : Op p).Panics := by
  refine Kind.expr.safe (.built fun W x y h => ?_)
  by_cases hl : y = []
  · subst hl; cases h
    exact .inr fun b => rfl
  · exact .inl (isSome_if_not hl)

theorem safe_function (k : ℕ) (m : List (Expression p) → B p (List (Expression p)))
    (f : List (Elem p) → List (Elem p)) (sound : EnforcedList k m f)
    (complete : ComputedList k m f) (tidy : ∀ xs, Tidy (m xs)) :
    (function k m f sound complete tidy).Panics := by
  refine Kind.expr.safe (.built fun W x y h => ?_)
  by_cases hl : y.length = k
  · exact .inl (isSome_if hl)
  · exact .inr (B.none_bind (B.require_none (by rw [h.length_eq]; exact hl)))

theorem safe_select : (select : Op p).Panics := by
  refine .built fun W x y h => ?_
  by_cases hc : ∃ c a b, x = [.bool c, .expr a, .expr b]
  · obtain ⟨c, a, b, rfl⟩ := hc
    match y, h with
    | [.bool _, .elem _, .elem _], _ => exact .inl rfl
    | [.elem _, _, _], .cons h _ => cases h
    | [.bits _, _, _], .cons h _ => cases h
    | [_, .bool _, _], .cons _ (.cons h _) => cases h
    | [_, .bits _, _], .cons _ (.cons h _) => cases h
    | [_, _, .bool _], .cons _ (.cons _ (.cons h _)) => cases h
    | [_, _, .bits _], .cons _ (.cons _ (.cons h _)) => cases h
  · refine .inr fun b => ?_
    have : ∀ c a b, x = [.bool c, .expr a, .expr b] → False := fun c a b h => hc ⟨c, a, b, h⟩
    simp only [run]
    rfl

end Op

end R1CS
