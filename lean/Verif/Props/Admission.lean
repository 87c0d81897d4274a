import Verif.Lemmas.Admission
import Verif.Props.Composite

/-!
# C94: exactly what the constraints of a circuit admit

For straight-line code calling any of the gadgets (`Spec/Language.lean`), including those which do not
pin their results down, the values which can be given to the objects are exactly those described by
`Circuit.admits` (`Spec/Admission.lean`).  So whether a use of such a gadget is safe can be decided by
reasoning about values alone.
-/

set_option linter.unusedSectionVars false

namespace R1CS

variable {p : ℕ} [hp : Fact p.Prime]

open Language

open Circuit

/-- C94: every assignment satisfying the constraints of a circuit gives its objects values which are
admitted for those of the inputs. -/
theorem C94_every (h4 : 4 ≤ Elem.maxBits p) (c : Circuit p) (k : ℕ) {os : List (Obj p)}
    {b : Builder p} (hb : c.build k Builder.new = some (os, b)) {W : Assign p}
    (hW : Satisfies W b.constraints) :
    ∃ ys, c.admits ((List.range' 1 k).map W) ys ∧ MeansAll W os ys :=
  ((bounds_runFrom h4 c _) _ _ _ (build_run.symm.trans hb) W hW).2 _ (inputs_meaning hW.one _)

/-- C94: exactly the admitted values can be given to the objects. -/
theorem C94_exact (h4 : 4 ≤ Elem.maxBits p) (c : Circuit p) (k : ℕ) {os : List (Obj p)}
    {b : Builder p} (hb : c.build k Builder.new = some (os, b)) (xs : List (Elem p))
    (hk : xs.length = k) (ys : List (Val p)) :
    (∃ W, Satisfies W b.constraints ∧ (List.range' 1 k).map W = xs ∧ MeansAll W os ys) ↔
      c.admits xs ys := by
  constructor
  · rintro ⟨W, hW, rfl, hm⟩
    obtain ⟨ys', h1, h2⟩ := C94_every h4 c k hb hW
    rwa [hm.unique h2]
  · intro h
    subst hk
    have hin : ((List.range' 1 xs.length).map fun i => (inputs xs).total i) = xs :=
      range_map xs _ fun i hi => by simp [WireValues.total, inputs, ONE, hi]
    have hone : (inputs xs).total ONE = 1 := by simp [WireValues.total, inputs]
    let s : Wit p := ⟨⟨1 + xs.length, [], []⟩, (inputs xs).total, by simp, ⟨hone, by simp⟩, by simp⟩
    have hm := inputs_meaning (W := (inputs xs).total) hone (List.range' 1 xs.length)
    rw [hin] at hm
    obtain ⟨os', t, h1, h2, _, h3⟩ := reaches_runFrom h4 c (s := s) (inputs_scoped xs.length) hm h
    have hb' : c.build xs.length Builder.new = some (os', t.b) := build_run.trans h1
    rw [hb] at hb'
    cases hb'
    refine ⟨t.W, t.sat, ?_, h3⟩
    refine Eq.trans (List.map_congr_left fun i hi => h2.2 i ?_) hin
    rw [List.mem_range'_1] at hi
    exact hi.2

/-- C94: what the code means is admitted, and for code from gadgets which pin their results down
nothing else is. -/
theorem C94_honest (h4 : 4 ≤ Elem.maxBits p) (c : Circuit p) (xs : List (Elem p)) (ys : List (Val p)) :
    (c.meaning xs = some ys → c.admits xs ys) ∧
    (c.Pinned → c.admits xs ys → c.meaning xs = some ys) := by
  refine ⟨admitsFrom_meaning h4 c, fun hc h => ?_⟩
  unfold admits at h
  unfold meaning
  generalize xs.map Val.elem = vs at h
  induction c generalizing vs with
  | nil => cases h; rfl
  | cons i c ih =>
    obtain ⟨args, rs, h1, h2, h3⟩ := h
    exact (meaningFrom_cons i c vs ys).2 ⟨args, rs, h1,
      (i.1.admits_pinned (hc i (by simp)) args rs).1 h2, ih (fun j hj => hc j (by simp [hj])) _ h3⟩

/-- C94: so code is sound, in the sense that the constraints of its circuit force every object to
have the value it should, if and only if it admits nothing but what it means. -/
theorem C94_sound_iff (h4 : 4 ≤ Elem.maxBits p) (c : Circuit p) (k : ℕ) {os : List (Obj p)}
    {b : Builder p} (hb : c.build k Builder.new = some (os, b)) :
    (∀ W, Satisfies W b.constraints → ∃ ys, c.meaning ((List.range' 1 k).map W) = some ys ∧
      MeansAll W os ys) ↔
    ∀ xs ys, xs.length = k → c.admits xs ys → c.meaning xs = some ys := by
  constructor
  · intro h xs ys hk ha
    obtain ⟨W, hW, rfl, hm⟩ := (C94_exact h4 c k hb xs hk ys).2 ha
    obtain ⟨ys', h1, h2⟩ := h W hW
    rwa [hm.unique h2]
  · intro h W hW
    obtain ⟨ys, h1, h2⟩ := C94_every h4 c k hb hW
    exact ⟨ys, h _ _ (by simp) h1, h2⟩

/-- C94: the gadgets regarded as not pinning their results down (`Op.pinned`) all admit something
they do not mean.  (Signatures are left out: there this depends on the hash function.) -/
theorem C94_unpinned (h4 : 4 ≤ Elem.maxBits p) (o : Op p) (ho : o.pinned = false)
    (hs : ∀ C G h, o ≠ .schnorrVerify C G h) :
    ∃ vs rs, o.admits vs rs ∧ o.meaning vs ≠ some rs := by
  have h2p := two_lt_of_maxBits h4
  have h01 : (0 : Elem p) ≠ 1 := zero_ne_one
  have n0 : (0 : Elem p).n = 0 := Elem.zero_n
  have n1 : (1 : Elem p).n = 1 := Elem.one_n
  have n2 : ((2 : ℕ) : Elem p).n = 2 := Elem.natCast_n_of_lt h2p
  have hcmp : ∀ a b : Bool, Comparable (Elem.maxBits p) [a] [b] := fun a b => by
    refine ⟨rfl, by simp, 1, by omega, le_rfl, ?_⟩
    have : ([a].length + (Elem.maxBits p - 1) - 1) / (Elem.maxBits p - 1) = 1 := by
      rw [List.length_singleton, Nat.add_sub_cancel_left]
      exact Nat.div_self (by omega)
    rw [this]
    simp
    omega
  have two : ∀ {v : Option (List (Val p))} (f : Elem p → List (Val p)), (∀ a b, f a = f b → a = b) →
      ∃ a, v ≠ some (f a) := by
    intro v f hf
    by_contra h
    push Not at h
    exact h01 (hf _ _ (Option.some.inj ((h 0).symm.trans (h 1))))
  cases o with
  | inverseOrZero =>
    obtain ⟨a, ha⟩ := two (v := Op.meaning .inverseOrZero [.elem 0]) (fun a => [.elem a]) (by simp)
    exact ⟨_, _, ⟨0, a, rfl, rfl, .inl rfl⟩, ha⟩
  | quotientUnsafe =>
    obtain ⟨a, ha⟩ := two (v := Op.meaning .quotientUnsafe [.elem 0, .elem 1]) (fun a => [.elem a])
      (by simp)
    exact ⟨_, _, ⟨0, 1, a, rfl, rfl⟩, ha⟩
  | lt =>
    exact ⟨_, _, ⟨0, 1, false, rfl, rfl, by simp⟩, by simp [Op.meaning, elem?, fun2]⟩
  | gt =>
    exact ⟨_, _, ⟨1, 0, false, rfl, rfl, by simp⟩, by simp [Op.meaning, elem?, fun2]⟩
  | le =>
    exact ⟨_, _, ⟨1, 0, true, rfl, rfl, by simp⟩, by simp [Op.meaning, elem?, fun2]⟩
  | ge =>
    exact ⟨_, _, ⟨0, 1, true, rfl, rfl, by simp⟩, by simp [Op.meaning, elem?, fun2]⟩
  | assertLe =>
    exact ⟨_, _, ⟨1, 0, rfl, rfl⟩, by simp [Op.meaning, elem?, fun2, Op.check]⟩
  | assertGe =>
    exact ⟨_, _, ⟨0, 1, rfl, rfl⟩, by simp [Op.meaning, elem?, fun2, Op.check]⟩
  | modulus =>
    refine ⟨_, _, ⟨0, (2 : ℕ), 1, rfl, rfl, by rw [n1, n2]; omega⟩, ?_⟩
    have : ((2 : ℕ) : Elem p) ≠ 0 := fun h => by rw [h] at n2; simp at n2
    simp [Op.meaning, elem?, fun2]
  | divides =>
    refine ⟨_, _, ⟨(2 : ℕ), 0, false, rfl, rfl, by rw [n2]; omega, by rw [n2]; omega⟩, ?_⟩
    simp [Op.meaning, elem?, fun2]
  | splitAllowingAmbiguity =>
    have hlt : p < 2 ^ Elem.maxBits p := by rw [← size_eq_maxBits h4]; exact Nat.lt_size_self p
    refine ⟨_, _, ⟨0, bitsOf (Elem.maxBits p) p, rfl, rfl, by simp [bitsOf], .inr ?_⟩, ?_⟩
    · rw [natOf_bitsOf _ _ hlt, n0, zero_add]
    · intro h
      have h : [Val.bits (bitsOf (Elem.maxBits p) (0 : Elem p).n)] =
        ([Val.bits (bitsOf (Elem.maxBits p) p)] : List (Val p)) := Option.some.inj h
      have h := congrArg natOf (Val.bits.inj (List.cons.inj h).1)
      rw [natOf_bitsOf _ _ hlt, n0, natOf_bitsOf _ _ (by positivity)] at h
      omega
  | cmpBinary r =>
    cases r with
    | lt =>
      exact ⟨_, _, ⟨[false], [true], false, rfl, rfl, hcmp _ _, by simp⟩,
        by simp [Op.meaning, bits?, fun2, hcmp, Cmp.holds, natOf]⟩
    | gt =>
      exact ⟨_, _, ⟨[true], [false], false, rfl, rfl, hcmp _ _, by simp⟩,
        by simp [Op.meaning, bits?, fun2, hcmp, Cmp.holds, natOf]⟩
    | le =>
      exact ⟨_, _, ⟨[true], [false], true, rfl, rfl, hcmp _ _, by simp⟩,
        by simp [Op.meaning, bits?, fun2, hcmp, Cmp.holds, natOf]⟩
    | ge =>
      exact ⟨_, _, ⟨[false], [true], true, rfl, rfl, hcmp _ _, by simp⟩,
        by simp [Op.meaning, bits?, fun2, hcmp, Cmp.holds, natOf]⟩
  | assertCmpBinary r =>
    cases r with
    | lt => cases ho
    | gt => cases ho
    | le =>
      exact ⟨_, _, ⟨[true], [false], rfl, rfl, hcmp _ _⟩,
        by simp [Op.meaning, bits?, fun2, hcmp, Cmp.holds, natOf, Op.check]⟩
    | ge =>
      exact ⟨_, _, ⟨[false], [true], rfl, rfl, hcmp _ _⟩,
        by simp [Op.meaning, bits?, fun2, hcmp, Cmp.holds, natOf, Op.check]⟩
  | sortAscending =>
    refine ⟨_, _, ⟨[1, 0], [1, 0], rfl, rfl, by simp, List.Perm.refl _⟩, fun h => ?_⟩
    have h : (([1, 0] : List (Elem p)).mergeSort leB).map Val.elem = [1, 0].map .elem :=
      Option.some.inj h
    have h := List.map_injective_iff.2 (fun _ _ => Val.elem.inj) h
    have := sorted_mergeSort ([1, 0] : List (Elem p))
    rw [h] at this
    simp at this
  | sortDescending =>
    refine ⟨_, _, ⟨[0, 1], [0, 1], rfl, rfl, by simp, List.Perm.refl _⟩, fun h => ?_⟩
    have h : (([0, 1] : List (Elem p)).mergeSort leB).reverse.map Val.elem = [0, 1].map .elem :=
      Option.some.inj h
    have h := List.map_injective_iff.2 (fun _ _ => Val.elem.inj) h
    have := sorted_mergeSort ([0, 1] : List (Elem p))
    rw [← List.reverse_reverse (List.mergeSort _ _), h] at this
    simp at this
  | edwardsAdd C =>
    obtain ⟨a, ha⟩ := two (v := Op.meaning (.edwardsAdd C) [.elem 0, .elem 0, .elem 0, .elem 0])
      (fun a => [.elem a, .elem 0]) (by simp)
    exact ⟨_, _, ⟨0, 0, 0, 0, a, 0, rfl, rfl⟩, ha⟩
  | edwardsDouble C =>
    obtain ⟨a, ha⟩ := two (v := Op.meaning (.edwardsDouble C) [.elem 0, .elem 0])
      (fun a => [.elem a, .elem 0]) (by simp)
    exact ⟨_, _, ⟨0, 0, a, 0, rfl, rfl⟩, ha⟩
  | edwardsMulScalar C =>
    obtain ⟨a, ha⟩ := two (v := Op.meaning (.edwardsMulScalar C) [.elem 0, .elem 0, .elem 0])
      (fun a => [.elem a, .elem 0]) (by simp)
    exact ⟨_, _, ⟨0, 0, 0, a, 0, rfl, rfl⟩, ha⟩
  | schnorrVerify C G h => exact absurd rfl (hs C G h)
  | _ => cases ho

/-! ## Safe uses of unsafe gadgets -/

/-- C94: sound code may be put together from blocks each of which leaves no choice on the whole; a
single gadget which pins its results down is such a block. -/
theorem C94_blocks (h4 : 4 ≤ Elem.maxBits p) :
    (∀ (n m : ℕ) (c d : Circuit p), c.SealedAt n →
      (∀ vs ys, vs.length = n → c.meaningFrom vs = some ys → ys.length = m) → d.SealedAt m →
      SealedAt n (c ++ d)) ∧
    (∀ (n : ℕ) (i : Op p × List ℕ), i.1.pinned = true → SealedAt n [i]) ∧
    (∀ (k : ℕ) (c : Circuit p), c.SealedAt k → ∀ {os : List (Obj p)} {b : Builder p},
      c.build k Builder.new = some (os, b) → ∀ W, Satisfies W b.constraints →
        ∃ ys, c.meaning ((List.range' 1 k).map W) = some ys ∧ MeansAll W os ys) := by
  refine ⟨fun n m c d hc hl hd vs ys hn h => ?_, fun n i hi vs ys _ h => ?_,
    fun k c hc os b hb => (C94_sound_iff h4 c k hb).2 fun xs ys hk ha => hc _ _ (by simp [hk]) ha⟩
  · obtain ⟨zs, h1, h2⟩ := (admitsFrom_append c d vs ys).1 h
    have h3 := hc vs zs hn h1
    rw [meaningFrom_append, h3]
    exact hd zs ys (hl vs zs hn h3) h2
  · obtain ⟨args, rs, h1, h2, h3⟩ := h
    exact (meaningFrom_cons i [] vs ys).2 ⟨args, rs, h1, (i.1.admits_pinned hi args rs).1 h2,
      by rw [show ys = _ from h3]; rfl⟩

theorem assertTrue_meaning {r : Bool} {rs : List (Val p)}
    (h : Op.meaning Op.assertTrue [.bool r] = some rs) : r = true ∧ rs = [] := by
  cases r with
  | true => exact ⟨rfl, (Option.some.inj h).symm⟩
  | false => cases h

/-- C94: a strict comparison is safe if its result is asserted. -/
theorem C94_strict_asserted (n i j : ℕ) :
    SealedAt n ([(.lt, [i, j]), (.assertTrue, [n])] : Circuit p) ∧
    SealedAt n ([(.gt, [i, j]), (.assertTrue, [n])] : Circuit p) := by
  constructor
  all_goals
    intro vs ys hn h
    obtain ⟨args, rs, h1, ⟨x, y, r, rfl, rfl, hr⟩, args', rs', h2, h3, h4⟩ := h
    obtain ⟨u, e1, rfl⟩ := lookup1 h2
    rw [List.getElem?_append_right (by omega), hn, Nat.sub_self] at e1
    cases e1
    obtain ⟨rfl, rfl⟩ := assertTrue_meaning h3
    refine (meaningFrom_cons _ _ _ _).2 ⟨_, [.bool true], h1, ?_, (meaningFrom_cons _ _ _ _).2
      ⟨_, [], h2, rfl, by rw [show ys = _ from h4]; rfl⟩⟩
    simpa [Op.meaning, elem?, fun2] using hr rfl

/-- C94: the other comparisons are not, even if their result is asserted, nor is the denial of a
strict one: whatever the operands, all of these can be satisfied. -/
theorem C94_vacuous (n i j : ℕ) (vs : List (Val p)) (hn : vs.length = n) {x y : Elem p}
    (hi : vs[i]? = some (.elem x)) (hj : vs[j]? = some (.elem y)) :
    admitsFrom ([(.le, [i, j]), (.assertTrue, [n])] : Circuit p) vs (vs ++ [.bool true]) ∧
    admitsFrom ([(.ge, [i, j]), (.assertTrue, [n])] : Circuit p) vs (vs ++ [.bool true]) ∧
    admitsFrom ([(.lt, [i, j]), (.assertFalse, [n])] : Circuit p) vs (vs ++ [.bool false]) ∧
    admitsFrom ([(.gt, [i, j]), (.assertFalse, [n])] : Circuit p) vs (vs ++ [.bool false]) ∧
    admitsFrom ([(.assertLe, [i, j])] : Circuit p) vs vs ∧
    admitsFrom ([(.assertGe, [i, j])] : Circuit p) vs vs := by
  have l2 := lookup2_eq hi hj
  have l1 : ∀ v : Val p, [n].mapM (fun j => (vs ++ [v])[j]?) = some [v] := fun v =>
    lookup1_eq (by rw [List.getElem?_append_right (by omega), hn, Nat.sub_self]; rfl)
  refine ⟨⟨_, _, l2, ⟨x, y, true, rfl, rfl, by simp⟩, _, [], l1 _, rfl, by simp [admitsFrom]⟩,
    ⟨_, _, l2, ⟨x, y, true, rfl, rfl, by simp⟩, _, [], l1 _, rfl, by simp [admitsFrom]⟩,
    ⟨_, _, l2, ⟨x, y, false, rfl, rfl, by simp⟩, _, [], l1 _, rfl, by simp [admitsFrom]⟩,
    ⟨_, _, l2, ⟨x, y, false, rfl, rfl, by simp⟩, _, [], l1 _, rfl, by simp [admitsFrom]⟩,
    ⟨_, [], l2, ⟨x, y, rfl, rfl⟩, by simp [admitsFrom]⟩,
    ⟨_, [], l2, ⟨x, y, rfl, rfl⟩, by simp [admitsFrom]⟩⟩

/-- C94: `x ≤ y` can be asserted as `x < y + 1`, which leaves no choice, and fails for `x ≤ y` only
if `y` is the largest element. -/
theorem C94_le_asserted (n i j : ℕ) (vs ys : List (Val p)) (hn : vs.length = n) {x y : Elem p}
    (hi : vs[i]? = some (.elem x)) (hj : vs[j]? = some (.elem y)) :
    admitsFrom ([(.const 1, []), (.add, [j, n]), (.assertLt, [i, n + 1])] : Circuit p) vs ys ↔
      ys = vs ++ [.elem 1, .elem (y + 1)] ∧ x.n ≤ y.n ∧ y.n ≠ p - 1 := by
  have l0 : (vs ++ [Val.elem 1])[j]? = some (.elem y) := by
    rw [List.getElem?_append_left (List.getElem?_eq_some_iff.1 hj).1, hj]
  have l1 : (vs ++ [Val.elem (1 : Elem p)])[n]? = some (.elem 1) := by
    rw [List.getElem?_append_right (by omega), hn, Nat.sub_self]; rfl
  have l2 : (vs ++ [Val.elem 1] ++ [Val.elem (y + 1)])[i]? = some (.elem x) := by
    rw [List.append_assoc, List.getElem?_append_left (List.getElem?_eq_some_iff.1 hi).1, hi]
  have l3 : (vs ++ [Val.elem 1] ++ [Val.elem (y + 1)])[n + 1]? = some (.elem (y + 1)) := by
    rw [List.getElem?_append_right (by simp [hn])]; simp [hn]
  have hlt : x.n < (y + 1).n ↔ x.n ≤ y.n ∧ y.n ≠ p - 1 := by
    have hy := y.lt
    have h1 : (1 : Elem p).n = 1 := Elem.one_n
    rw [Elem.add_n, h1]
    by_cases hp1 : y.n = p - 1
    · rw [hp1, Nat.sub_add_cancel (by omega), Nat.mod_self]
      simp
    · rw [Nat.mod_eq_of_lt (by omega)]
      omega
  constructor
  · rintro ⟨args, rs, _, h1, args', rs', g1, h2, args'', rs'', g2, h3, h4⟩
    cases h1
    rw [lookup2_eq l0 l1] at g1
    cases g1
    cases h2
    rw [lookup2_eq l2 l3] at g2
    cases g2
    have h3 : (if x.n < (y + 1).n then some [] else none) = some rs'' := h3
    by_cases hc : x.n < (y + 1).n
    · rw [if_pos hc] at h3
      cases h3
      refine ⟨?_, hlt.1 hc⟩
      rw [show ys = _ from h4]
      simp
    · rw [if_neg hc] at h3
      cases h3
  · rintro ⟨rfl, hc⟩
    refine ⟨[], _, rfl, rfl, _, _, lookup2_eq l0 l1, rfl, _, [], lookup2_eq l2 l3, ?_, ?_⟩
    · exact if_pos (hlt.2 hc)
    · simp [admitsFrom]

/-- C94: `inverse_or_zero` is safe if its operand is asserted not to be zero, and `quotient_unsafe` if
moreover the product with the divisor is asserted to be the dividend. -/
theorem C94_inverse_asserted (n i j : ℕ) :
    SealedAt n ([(.assertNonzero, [i]), (.inverseOrZero, [i])] : Circuit p) ∧
    SealedAt n ([(.assertNonzero, [j]), (.quotientUnsafe, [i, j]), (.product, [n, j]),
      (.assertEqual, [n + 1, i])] : Circuit p) := by
  have hnz : ∀ {v : Val p} {rs}, Op.meaning Op.assertNonzero [v] = some rs →
      rs = [] ∧ ∃ x, v = .elem x ∧ x ≠ 0 := by
    intro v rs h
    cases v with
    | elem x =>
      have h : (if x ≠ 0 then some [] else none) = some rs := h
      by_cases hx : x ≠ 0
      · rw [if_pos hx] at h
        cases h
        exact ⟨rfl, x, rfl, hx⟩
      · rw [if_neg hx] at h; cases h
    | bool _ => cases h
    | bits _ => cases h
  constructor
  · intro vs ys hn h
    obtain ⟨args, rs, h1, h2, args', rs', g1, ⟨x, r, rfl, rfl, hr⟩, h3⟩ := h
    obtain ⟨u, e1, rfl⟩ := lookup1 h1
    obtain ⟨rfl, x', rfl, hx⟩ := hnz h2
    rw [List.append_nil] at g1 h3
    rw [lookup1_eq e1] at g1
    cases g1
    refine (meaningFrom_cons _ _ _ _).2 ⟨_, [], h1, h2, (meaningFrom_cons _ _ _ _).2
      ⟨_, [.elem r], by rw [List.append_nil]; exact lookup1_eq e1, ?_, ?_⟩⟩
    · have : r = x⁻¹ := eq_inv_of_mul_eq_one_left (hr.resolve_left hx)
      simp [Op.meaning, elem?, fun1, hx, this]
    · rw [List.append_nil, show ys = _ from h3]; rfl
  · intro vs ys hn h
    obtain ⟨args, rs, h1, h2, args', rs', g1, ⟨x, y, r, rfl, rfl⟩, args'', rs'', g2, h3, a3, r3, g3,
      h5, h6⟩ := h
    obtain ⟨u, e1, rfl⟩ := lookup1 h1
    obtain ⟨rfl, y', rfl, hy⟩ := hnz h2
    rw [List.append_nil] at g1 g2 g3 h6
    obtain ⟨u, v, e2, e3, e4⟩ := lookup2 g1
    cases e4
    rw [e1] at e3
    cases e3
    have k1 : (vs ++ [Val.elem r])[n]? = some (.elem r) := by
      rw [List.getElem?_append_right (by omega), hn, Nat.sub_self]; rfl
    have k2 : (vs ++ [Val.elem r])[j]? = some (.elem y) := by
      rw [List.getElem?_append_left (List.getElem?_eq_some_iff.1 e1).1, e1]
    rw [lookup2_eq k1 k2] at g2
    cases g2
    cases h3
    have k3 : (vs ++ [Val.elem r] ++ [Val.elem (r * y)])[n + 1]? = some (.elem (r * y)) := by
      rw [List.getElem?_append_right (by simp [hn])]; simp [hn]
    have k4 : (vs ++ [Val.elem r] ++ [Val.elem (r * y)])[i]? = some (.elem x) := by
      rw [List.append_assoc, List.getElem?_append_left (List.getElem?_eq_some_iff.1 e2).1, e2]
    rw [lookup2_eq k3 k4] at g3
    cases g3
    have h5' : (if r * y = x then some [] else none) = some r3 := h5
    by_cases hc : r * y = x
    · rw [if_pos hc] at h5'
      cases h5'
      refine (meaningFrom_cons _ _ _ _).2 ⟨_, [], h1, h2, (meaningFrom_cons _ _ _ _).2
        ⟨_, [.elem r], by rw [List.append_nil]; exact lookup2_eq e2 e1, ?_,
          (meaningFrom_cons _ _ _ _).2 ⟨_, [.elem (r * y)], by
            rw [List.append_nil]; exact lookup2_eq k1 k2, rfl, (meaningFrom_cons _ _ _ _).2
            ⟨_, [], by rw [List.append_nil]; exact lookup2_eq k3 k4, h5, ?_⟩⟩⟩⟩
      · have : r = x / y := by rw [eq_div_iff hy, hc]
        simp [Op.meaning, elem?, fun2, hy, this]
      · rw [List.append_nil, List.append_nil, show ys = _ from h6, List.append_nil]; rfl
    · rw [if_neg hc] at h5'
      cases h5'

/-- C94: sorting is safe if the results are asserted to be strictly ascending. -/
theorem C94_sort_asserted (n : ℕ) (is : List ℕ) :
    SealedAt n ((.sortAscending, is) :: (List.range (is.length - 1)).map fun k =>
      (.assertLt, [n + k, n + k + 1]) : Circuit p) := by
  intro vs ys hn h
  obtain ⟨args, rs, h1, ⟨xs, zs, rfl, rfl, h0, hperm⟩, h2⟩ := h
  have h2' : admitsFrom (((List.range (is.length - 1)).map fun k => (n + k, n + k + 1)).map
      fun i => ((Op.assertLt : Op p), [i.1, i.2])) (vs ++ zs.map .elem) ys := by
    rw [List.map_map]; exact h2
  obtain ⟨rfl, h3⟩ := admits_assertLt _ h2'
  have hlen : zs.length = is.length := by
    rw [hperm.length_eq, ← List.length_map (f := Val.elem), lookup_length h1]
  have hget : ∀ k (hk : k < zs.length), (vs ++ zs.map Val.elem)[n + k]? = some (.elem zs[k]) := by
    intro k hk
    rw [List.getElem?_append_right (by omega), hn, Nat.add_sub_cancel_left]
    simp [hk]
  have hz : zs.Pairwise fun x y => x.n < y.n := by
    refine List.isChain_iff_pairwise.1 (List.isChain_iff_getElem.2 fun k hk => ?_)
    obtain ⟨x, y, e1, e2, e3⟩ := h3 (n + k, n + k + 1)
      (List.mem_map.2 ⟨k, List.mem_range.2 (by omega), rfl⟩)
    rw [show (n + k, n + k + 1).1 = n + k from rfl, hget k (by omega)] at e1
    rw [show (n + k, n + k + 1).2 = n + (k + 1) from rfl, hget (k + 1) hk] at e2
    have e1 := Val.elem.inj (Option.some.inj e1)
    have e2 := Val.elem.inj (Option.some.inj e2)
    rw [e1, e2]
    exact e3
  have hz' : zs = xs.mergeSort fun x y => decide (x.n ≤ y.n) := by
    refine List.Perm.eq_of_pairwise (le := fun x y : Elem p => x.n ≤ y.n)
      (fun a b _ _ h1 h2 => Elem.ext_n (le_antisymm h1 h2)) (hz.imp fun h => h.le)
      (sorted_mergeSort xs) (hperm.trans (List.mergeSort_perm xs _).symm)
  have hsort : Op.meaning Op.sortAscending (xs.map Val.elem) = some (zs.map .elem) := by
    show ((xs.map Val.elem).mapM elem? >>= _) = _
    rw [mapM_map_elem, hz']
    exact if_neg h0
  refine (meaningFrom_cons _ _ _ _).2 ⟨_, _, h1, hsort, ?_⟩
  have := meaning_assertLt _ h3
  rw [List.map_map] at this
  exact this

/-- C94: splitting is safe if the digits are asserted to be less than the order of the field. -/
theorem C94_split_asserted (n i : ℕ) :
    SealedAt n ([(.splitAllowingAmbiguity, [i]), (.constBits p, []),
      (.assertCmpBinary .lt, [n, n + 1])] : Circuit p) := by
  intro vs ys hn h
  obtain ⟨args, rs, h1, ⟨x, l, rfl, rfl, hl, hr⟩, args', rs', g1, h2, args'', rs'', g2, h3, h4⟩ := h
  cases h2
  have k1 : (vs ++ [Val.bits l] ++ [Val.bits (bitsOf p.size p)] : List (Val p))[n]? =
      some (.bits l) := by
    rw [List.append_assoc, List.getElem?_append_right (by omega), hn, Nat.sub_self]; rfl
  have k2 : (vs ++ [Val.bits l] ++ [Val.bits (bitsOf p.size p)] : List (Val p))[n + 1]? =
      some (.bits (bitsOf p.size p)) := by
    rw [List.getElem?_append_right (by simp [hn])]; simp [hn]
  rw [lookup2_eq k1 k2] at g2
  cases g2
  have h3' : (if Comparable (Elem.maxBits p) l (bitsOf p.size p) ∧
      Cmp.holds .lt (natOf l) (natOf (bitsOf p.size p)) = true then some [] else none) = some rs'' := h3
  by_cases hc : Comparable (Elem.maxBits p) l (bitsOf p.size p) ∧
      Cmp.holds .lt (natOf l) (natOf (bitsOf p.size p)) = true
  · rw [if_pos hc] at h3'
    cases h3'
    have hlt : natOf l < p := by
      have := hc.2
      rw [natOf_bitsOf _ _ (Nat.lt_size_self p)] at this
      simpa [Cmp.holds] using this
    have hx : natOf l = x.n := hr.resolve_right (by omega)
    have hls : bitsOf (Elem.maxBits p) x.n = l := by rw [← hx, ← hl, bitsOf_natOf]
    refine (meaningFrom_cons _ _ _ _).2 ⟨_, [.bits l], h1, ?_, (meaningFrom_cons _ _ _ _).2
      ⟨_, _, g1, rfl, (meaningFrom_cons _ _ _ _).2 ⟨_, [], lookup2_eq k1 k2, h3, ?_⟩⟩⟩
    · simp [Op.meaning, elem?, fun1, hls]
    · rw [show ys = _ from h4]; rfl
  · rw [if_neg hc] at h3'
    cases h3'

/-! ## Examples -/

/-- Three inputs are sorted, with a check which makes it safe; then the least and the greatest are
divided, safely as well. -/
def sortedCode : Circuit 13 :=
  [(.sortAscending, [0, 1, 2]), (.assertLt, [3, 4]), (.assertLt, [4, 5])] ++
  [(.assertNonzero, [5]), (.quotientUnsafe, [3, 5]), (.product, [6, 5]), (.assertEqual, [7, 3])]

/-- None of its unsafe gadgets spoils it. -/
example {os : List (Obj 13)} {b : Builder 13} (hb : sortedCode.build 3 Builder.new = some (os, b))
    (W : Assign 13) (hW : Satisfies W b.constraints) :
    ∃ ys, sortedCode.meaning [W 1, W 2, W 3] = some ys ∧ MeansAll W os ys := by
  have B := C94_blocks (p := 13) (by rw [maxBits13])
  refine B.2.2 3 sortedCode ?_ hb W hW
  refine B.1 3 6 _ _ (C94_sort_asserted 3 [0, 1, 2]) (fun vs ys hn h => ?_)
    (C94_inverse_asserted 6 3 5).2
  obtain ⟨args, rs, h1, ⟨xs, zs, rfl, rfl, _, hp⟩, h2⟩ :=
    admitsFrom_meaning (by rw [maxBits13]) _ h
  have h2' : admitsFrom (([(3, 4), (4, 5)] : List (ℕ × ℕ)).map
      fun i => ((Op.assertLt : Op 13), [i.1, i.2])) (vs ++ zs.map .elem) ys := h2
  rw [(admits_assertLt _ h2').1, List.length_append, List.length_map, hp.length_eq,
    ← List.length_map (f := Val.elem), lookup_length h1, hn]
  rfl

/-- Values it admits. -/
example : sortedCode.admits [5, 3, 1] [.elem 5, .elem 3, .elem 1, .elem 1, .elem 3, .elem 5, .elem 8,
    .elem 1] :=
  ⟨_, _, rfl, ⟨[5, 3, 1], [1, 3, 5], rfl, rfl, by simp, by decide⟩, _, [], rfl, rfl, _, [], rfl, rfl, _,
    [], rfl, rfl, _, _, rfl, ⟨1, 5, 8, rfl, rfl⟩, _, [.elem 1], rfl, rfl, _, [], rfl, rfl, rfl⟩

example : (sortedCode.build 3 Builder.new).isSome = true := by decide +kernel

example : Circuit.admits ([(.lt, [0, 1]), (.not, [2]), (.assertTrue, [3])] : Circuit 13) [3, 5]
    [.elem 3, .elem 5, .bool false, .bool true] :=
  ⟨_, [.bool false], rfl, ⟨3, 5, false, rfl, rfl, by simp⟩, _, [.bool true], rfl, rfl, _, [], rfl,
    rfl, rfl⟩

/-- So the circuit asserting that `x` is not less than `y` can be satisfied for `3` and `5`. -/
example {os : List (Obj 13)} {b : Builder 13}
    (hb : Circuit.build 2 ([(.lt, [0, 1]), (.not, [2]), (.assertTrue, [3])] : Circuit 13)
      Builder.new = some (os, b)) :
    ∃ W, Satisfies W b.constraints ∧ (List.range' 1 2).map W = [3, 5] := by
  obtain ⟨W, h1, h2, _⟩ := (C94_exact (p := 13) (by rw [maxBits13]) _ 2 hb [3, 5] rfl
    [.elem 3, .elem 5, .bool false, .bool true]).2
    ⟨_, [.bool false], rfl, ⟨3, 5, false, rfl, rfl, by simp⟩, _, [.bool true], rfl, rfl, _, [], rfl,
      rfl, rfl⟩
  exact ⟨W, h1, h2⟩

end R1CS
