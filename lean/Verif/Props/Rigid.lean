import Verif.Lemmas.RigidCircuit
import Verif.Lemmas.RigidRoutes
import Verif.Lemmas.RigidPoints
import Verif.Props.Schnorr

/-!
# C90: which wires are determined, and where the witness can be chosen

Whether the values of the operands determine all wires a call allocates, the auxiliary ones too, or
leave a choice to whoever supplies the witness.
-/

set_option linter.unusedSectionVars false

namespace R1CS

variable {p : ℕ} [hp : Fact p.Prime]

open Language

private theorem never {α : Type} {n : ℕ} {P : Assign p → Prop} {m : B p α}
    (h : ∀ s : Wit p, s.next = n → P s.W → Forks m s) : RigidIffIf n P m fun _ => False := by
  intro s hs hP
  refine ⟨fun _ h => h, fun _ => ?_⟩
  have := h s hs hP
  rwa [Forks, hs] at this

/-- C90: arithmetic determines all its wires. -/
theorem C90_arithmetic {n : ℕ} (hn : 1 ≤ n) {x y : Expression p} {c : BooleanExpression p}
    (hx : x.Scoped n) (hy : y.Scoped n) (hc : c.Scoped n) (e : Elem p) :
    Determined n (B.product x y) InScope ∧ Determined n (B.inverse x) InScope ∧
    Determined n (B.quotient x y) InScope ∧ Determined n (B.exponentiation x e) InScope ∧
    Determined n (B.selection c x y) InScope :=
  ⟨(Det.product hx hy).determined, (Det.inverse hx).determined, (Det.quotient hx hy).determined,
    (Det.exponentiation hn hx e).determined, (Det.selection hc hx hy).determined⟩

/-- C90: so do the assertions on elements and the operations on booleans. -/
theorem C90_assertions {n : ℕ} (hn : 1 ≤ n) {x y z : Expression p} {c d : BooleanExpression p}
    (hx : x.Scoped n) (hy : y.Scoped n) (hc : c.Scoped n) (hd : d.Scoped n) :
    Rigid n (B.assertProduct x y z) ∧ Rigid n (B.assertEqual x y) ∧ Rigid n (B.assertZero x) ∧
    Rigid n (B.assertNonzero x) ∧ Rigid n (B.assertNonequal x y) ∧ Rigid n (B.assertBoolean x) ∧
    Rigid n (B.assertTrue c) ∧ Rigid n (B.assertFalse c) ∧
    Rigid n (B.not c) ∧ Rigid n (B.and c d) ∧ Rigid n (B.or c d) ∧ Rigid n (B.xor c d) :=
  ⟨(Det.assertProduct x y z).rigid, (Det.assertEqual x y).rigid, (Det.assertZero x).rigid,
    (Det.assertNonzero hx).rigid, (Det.assertNonequal hx hy).rigid, (Det.assertBoolean x).rigid,
    (Det.assertTrue c).rigid, (Det.assertFalse c).rigid, (Det.not hn hc).rigid,
    (Det.and hc hd).rigid, (Det.or hc hd).rigid, (Det.xor hc hd).rigid⟩

/-- C90: the tests `nonzero`, `zero` and `equal` pin down their result, but leave the auxiliary wire
free exactly if there is a zero; `inverse_or_zero` determines its wires exactly off zero;
`quotient_unsafe` never does. -/
theorem C90_tests {n : ℕ} (hn : 1 ≤ n) {x y : Expression p} (hx : x.Scoped n) (hy : y.Scoped n) :
    RigidIff n (B.nonzero x) (fun W => x.eval W ≠ 0) ∧
    RigidIff n (B.zero x) (fun W => x.eval W ≠ 0) ∧
    RigidIff n (B.equal x y) (fun W => x.eval W ≠ y.eval W) ∧
    RigidIff n (B.inverseOrZero x) (fun W => x.eval W ≠ 0) ∧
    RigidIff n (B.quotientUnsafe x y) (fun _ => False) := by
  have tr : ∀ {e : Expression p}, e.Scoped n → ∀ W1 W2 : Assign p, Agree n W1 W2 →
      e.eval W1 ≠ 0 → e.eval W2 ≠ 0 := fun he W1 W2 ha h => by rwa [← ha.eval he]
  refine ⟨RigidIff.intro (Det.nonzero hx fun W h => h) (tr hx) fun s hs h => ?_,
    RigidIff.intro (Det.zero hn hx fun W h => h) (tr hx) fun s hs h => ?_,
    RigidIff.intro (Det.zero hn (hx.sub hy) fun W h => ?_) (fun W1 W2 ha h => ?_) fun s hs h => ?_,
    RigidIff.intro (Det.inverseOrZero hx fun W h => h) (tr hx) fun s hs h => ?_,
    never fun s hs _ => ?_⟩
  · exact Forks.nonzero (hs ▸ hx) (not_not.1 h)
  · exact Forks.zero (hs ▸ hx) (not_not.1 h)
  · rw [Expression.eval_sub]
    exact sub_ne_zero.2 h
  · rwa [← ha.eval hx, ← ha.eval hy]
  · refine Forks.zero (hs ▸ hx.sub hy) ?_
    rw [Expression.eval_sub, not_not.1 h, sub_self]
  · exact Forks.results (zero_ne_one (α := Elem p))
      (Can.inverseOrZero_zero s (hs ▸ hx) (not_not.1 h) 0)
      (Can.inverseOrZero_zero s (hs ▸ hx) (not_not.1 h) 1)
  · exact Forks.results (zero_ne_one (α := Elem p)) (Can.quotientUnsafe s x y 0)
      (Can.quotientUnsafe s x y 1)

/-- C90: the digits of `split` and `split_bounded` are determined; those of
`split_allowing_ambiguity` exactly if the number plus the order of the field has too many digits. -/
theorem C90_splitting {n : ℕ} (hn : 1 ≤ n) {x : Expression p} (hx : x.Scoped n) (k : ℕ) :
    Determined n (B.split x) (fun e k => e.Scoped k) ∧
    Determined n (B.splitBounded x k) (fun e k => e.Scoped k) ∧
    RigidIff n (B.splitAllowingAmbiguity x)
      (fun W => 2 ^ Elem.maxBits p ≤ (x.eval W).n + p) := by
  refine ⟨(Det.split hn hx).determined, (Det.splitBounded hx k).determined,
    RigidIff.intro (Det.splitAllowingAmbiguity hx fun W h => h) (fun W1 W2 ha h => ?_)
      fun s hs h => ?_⟩
  · rwa [← ha.eval hx]
  · rw [not_le] at h
    have hlt := (x.eval s.W).lt
    exact Forks.two (obs := fun e W => BinaryExpression.val W e) (G := fun e k => e.Scoped k)
      (u := (x.eval s.W).n) (v := (x.eval s.W).n + p) (by omega)
      (fun e k W1 W2 he ha => ha.val he)
      ((Can.splitWithoutRangeCheck (hs ▸ hx) le_rfl (by omega)
        (Elem.natCast_self_n _).symm).mono fun e t _ h => ⟨h.1, h.2.2.2⟩)
      ((Can.splitWithoutRangeCheck (hs ▸ hx) le_rfl h
        (Elem.cast_add_order _)).mono fun e t _ h => ⟨h.1, h.2.2.2⟩)

/-- C90: the comparisons whose result is a wire leave a choice of auxiliary wires, always if they are
strict, and otherwise unless the numbers are equal and the ambiguous splitting is not ambiguous. -/
theorem C90_comparisons (h4 : 4 ≤ Elem.maxBits p) {n : ℕ} (hn : 1 ≤ n) {x y : Expression p}
    (hx : x.Scoped n) (hy : y.Scoped n) :
    RigidIff n (B.lt x y) (fun _ => False) ∧ RigidIff n (B.gt x y) (fun _ => False) ∧
    RigidIff n (B.le x y) (fun W => x.eval W = y.eval W ∧
      2 ^ Elem.maxBits p ≤ (x.eval W).n + p) ∧
    RigidIff n (B.ge x y) (fun W => x.eval W = y.eval W ∧
      2 ^ Elem.maxBits p ≤ (y.eval W).n + p) := by
  refine ⟨never fun s hs _ => Forks.cmp_strict h4 (hs ▸ hx) (hs ▸ hy) true,
    never fun s hs _ => Forks.cmp_strict h4 (hs ▸ hx) (hs ▸ hy) false, ?_, ?_⟩
  · refine RigidIff.intro (Det.cmp_le hn hx hy true fun W h => h) (fun W1 W2 ha h => ?_)
      fun s hs h => Forks.cmp_le h4 (hs ▸ hx) (hs ▸ hy) true h
    rwa [← ha.eval hx, ← ha.eval hy]
  · refine RigidIff.intro (Det.cmp_le hn hx hy false fun W h => h) (fun W1 W2 ha h => ?_)
      fun s hs h => Forks.cmp_le h4 (hs ▸ hx) (hs ▸ hy) false h
    rwa [← ha.eval hx, ← ha.eval hy]

/-- C90: asserting a strict comparison determines the auxiliary wires; asserting a non-strict one
does exactly if the numbers are equal (or the assertion fails) and the ambiguous splitting is not
ambiguous. -/
theorem C90_asserted_comparisons (h4 : 4 ≤ Elem.maxBits p) {n : ℕ} (hn : 1 ≤ n)
    {x y : Expression p} (hx : x.Scoped n) (hy : y.Scoped n) :
    Rigid n (B.assertLt x y) ∧ Rigid n (B.assertGt x y) ∧
    RigidIff n (B.assertLe x y) (fun W => ¬ (x.eval W).n < (y.eval W).n ∧
      2 ^ Elem.maxBits p ≤ (x.eval W).n + p) ∧
    RigidIff n (B.assertGe x y) (fun W => ¬ (y.eval W).n < (x.eval W).n ∧
      2 ^ Elem.maxBits p ≤ (y.eval W).n + p) := by
  refine ⟨(Det.assertLt hn hx hy).rigid, (Det.assertGt hn hx hy).rigid, ?_, ?_⟩
  · refine RigidIff.intro (Det.assertCmp_le hn hx hy true fun W h => by simpa using h)
      (fun W1 W2 ha h => ?_) fun s hs h => Forks.assertCmp h4 (hs ▸ hx) (hs ▸ hy) true
        (by simpa using h)
    rwa [← ha.eval hx, ← ha.eval hy]
  · refine RigidIff.intro (Det.assertCmp_le hn hx hy false fun W h => by simpa using h)
      (fun W1 W2 ha h => ?_) fun s hs h => Forks.assertCmp h4 (hs ▸ hx) (hs ▸ hy) false
        (by simpa using h)
    rwa [← ha.eval hx, ← ha.eval hy]

/-- C90: the same for digits: strict comparisons always leave a choice, non-strict ones exactly if the
numbers differ; asserted strict ones never, asserted non-strict ones exactly if the numbers differ
(or the assertion fails). -/
theorem C90_binary_comparisons (h2 : 2 < p) {n : ℕ} (hn : 1 ≤ n) {x y : BinaryExpression p}
    (hx : x.Scoped n) (hy : y.Scoped n) (hlen : x.len = y.len) (h0 : 0 < x.len)
    (hadm : cmpChunkBits (Elem.maxBits p) x.len + 1 < Elem.maxBits p) :
    RigidIffIf n (fun W => x.AllBool W ∧ y.AllBool W) (B.ltBinary x y) (fun _ => False) ∧
    RigidIffIf n (fun W => x.AllBool W ∧ y.AllBool W) (B.gtBinary x y) (fun _ => False) ∧
    RigidIffIf n (fun W => x.AllBool W ∧ y.AllBool W) (B.leBinary x y)
      (fun W => x.val W = y.val W) ∧
    RigidIffIf n (fun W => x.AllBool W ∧ y.AllBool W) (B.geBinary x y)
      (fun W => x.val W = y.val W) ∧
    Rigid n (B.assertLtBinary x y) ∧ Rigid n (B.assertGtBinary x y) ∧
    RigidIffIf n (fun W => x.AllBool W ∧ y.AllBool W) (B.assertLeBinary x y)
      (fun W => ¬ x.val W < y.val W) ∧
    RigidIffIf n (fun W => x.AllBool W ∧ y.AllBool W) (B.assertGeBinary x y)
      (fun W => ¬ y.val W < x.val W) := by
  have hP : ∀ W1 W2 : Assign p, Agree n W1 W2 → x.AllBool W1 ∧ y.AllBool W1 →
      x.AllBool W2 ∧ y.AllBool W2 := fun W1 W2 ha h =>
    ⟨fun b hb => by rw [← ha.beval (hx b hb)]; exact h.1 b hb,
      fun b hb => by rw [← ha.beval (hy b hb)]; exact h.2 b hb⟩
  refine ⟨never fun s hs h => ?_, never fun s hs h => ?_, ?_, ?_, (Det.assertLtBinary hn hx hy).rigid,
    (Det.assertGtBinary hn hx hy).rigid, ?_, ?_⟩
  · exact Forks.cmpBinary_strict h2 (hs ▸ hx) (hs ▸ hy) h.1 h.2 hlen h0 hadm true
  · exact Forks.cmpBinary_strict h2 (hs ▸ hx) (hs ▸ hy) h.1 h.2 hlen h0 hadm false
  · refine RigidIffIf.intro (Det.cmpBinary_le hn hx hy true fun W h => ⟨h.1.1, h.1.2, h.2⟩) hP
      (fun W1 W2 ha h => ?_) fun s hs h h' =>
        Forks.cmpBinary_le h2 (hs ▸ hx) (hs ▸ hy) h.1 h.2 hlen h0 hadm h' true
    rwa [← ha.val hx, ← ha.val hy]
  · refine RigidIffIf.intro (Det.cmpBinary_le hn hx hy false fun W h => ⟨h.1.1, h.1.2, h.2⟩) hP
      (fun W1 W2 ha h => ?_) fun s hs h h' =>
        Forks.cmpBinary_le h2 (hs ▸ hx) (hs ▸ hy) h.1 h.2 hlen h0 hadm h' false
    rwa [← ha.val hx, ← ha.val hy]
  · refine RigidIffIf.intro (Det.assertCmpBinary_le hn hx hy true
      fun W h => ⟨h.1.1, h.1.2, by simpa using h.2⟩) hP
      (fun W1 W2 ha h => ?_) fun s hs h h' =>
        Forks.assertCmpBinary h2 (hs ▸ hx) (hs ▸ hy) h.1 h.2 hlen h0 hadm true (by simpa using h')
    rwa [← ha.val hx, ← ha.val hy]
  · refine RigidIffIf.intro (Det.assertCmpBinary_le hn hx hy false
      fun W h => ⟨h.1.1, h.1.2, by simpa using h.2⟩) hP
      (fun W1 W2 ha h => ?_) fun s hs h h' =>
        Forks.assertCmpBinary h2 (hs ▸ hx) (hs ▸ hy) h.1 h.2 hlen h0 hadm false (by simpa using h')
    rwa [← ha.val hx, ← ha.val hy]

/-- C90: `modulus` determines its wires exactly if the divisor is at most one, `divides` never unless
the divisor is zero (and nothing satisfies the constraints). -/
theorem C90_modulus (h4 : 4 ≤ Elem.maxBits p) {n : ℕ} (hn : 1 ≤ n) {x y : Expression p}
    (hx : x.Scoped n) (hy : y.Scoped n) :
    RigidIff n (B.modulus x y) (fun W => (y.eval W).n ≤ 1) ∧
    RigidIff n (B.divides x y) (fun W => x.eval W = 0) := by
  refine ⟨RigidIff.intro (Det.modulus hn hx hy fun W h => h) (fun W1 W2 ha h => ?_) fun s hs h => ?_,
    RigidIff.intro (S := fun z k => z.Scoped k) ?_ (fun W1 W2 ha h => ?_) fun s hs h => ?_⟩
  · rwa [← ha.eval hy]
  · have h4' := two_lt_of_maxBits h4
    exact Forks.results (zero_ne_one (α := Elem p))
      (Can.modulus_any h4 (hs ▸ hx) (hs ▸ hy) (r := 0) (by rw [Elem.zero_n]; omega))
      (Can.modulus_any h4 (hs ▸ hx) (hs ▸ hy) (r := 1) (by rw [Elem.one_n]; omega))
  · exact (Det.modulus hn hy hx fun W h => by rw [h, Elem.zero_n]; omega).bindE
      (Enforces.modulus y x) fun r k hk hr => Det.zero (by omega) hr fun W ⟨h, h', _⟩ => by
        rw [h, Elem.zero_n] at h'
        omega
  · rwa [← ha.eval hx]
  · refine Forks.after (Can.modulus_any h4 (hs ▸ hy) (hs ▸ hx) (r := 0) ?_) fun r t l hr =>
      Forks.zero hr.1 hr.2
    rw [Elem.zero_n]
    refine Nat.pos_of_ne_zero fun h' => h (Elem.ext_n ?_)
    rw [h', Elem.zero_n]

/-- C90: the switch of the permutation network is determined exactly if not all four values are
equal. -/
theorem C90_switch {n : ℕ} {a b c d : Expression p} (ha : a.Scoped n) (hb : b.Scoped n)
    (hc : c.Scoped n) (hd : d.Scoped n) :
    RigidIff n (B.assertPermutation2x2 a b c d) (fun W => ¬ (a.eval W = b.eval W ∧
      c.eval W = a.eval W ∧ d.eval W = a.eval W)) := by
  refine RigidIff.intro (Det.assertPermutation2x2 ha hb hc fun W h => h) (fun W1 W2 hag h => ?_)
    fun s hs h => Forks.assertPermutation2x2 (hs ▸ ha) (hs ▸ hb) (hs ▸ hc) (hs ▸ hd) (not_not.1 h)
  rwa [← hag.eval ha, ← hag.eval hb, ← hag.eval hc, ← hag.eval hd]

/-- C90: a permutation network is determined exactly if there are no two settings of its switches which
carry the values of the one list to those of the other. -/
theorem C90_networks {n : ℕ} {a b : List (Expression p)} (ha : ∀ e ∈ a, e.Scoped n)
    (hb : ∀ e ∈ b, e.Scoped n) (hl : a.length = b.length) :
    RigidIff n (B.assertPermutation a b) (fun W =>
      ¬ TwoRoutes a.length (a.map fun e => e.eval W) (b.map fun e => e.eval W)) := by
  refine RigidIff.intro (Det.assertPermutationFuel _ ha hb fun _ h => h) (fun W1 W2 hag h => ?_)
    fun s hs h => Forks.assertPermutationFuel _ le_rfl hl.symm (hs ▸ ha) (hs ▸ hb) (not_not.1 h)
  rwa [← List.map_congr_left fun e he => hag.eval (ha e he),
    ← List.map_congr_left fun e he => hag.eval (hb e he)]

/-- C90: a network of three or more elements leaves a choice whenever the values leave an outer switch
in doubt: two values entering or leaving at one switch are equal, or those entering at one switch are
those leaving at another. -/
theorem C90_networks_doubtful {n : ℕ} {a b : List (Expression p)} (hn : 3 ≤ a.length)
    (ha : ∀ e ∈ a, e.Scoped n) (hb : ∀ e ∈ b, e.Scoped n) :
    RigidIffIf n (fun W => (a.map fun e => e.eval W).Perm (b.map fun e => e.eval W) ∧
        Doubtful (a.map fun e => e.eval W) (b.map fun e => e.eval W))
      (B.assertPermutation a b) (fun _ => False) :=
  never fun _ hs h => Forks.assertPermutation hn (hs ▸ ha) (hs ▸ hb) h.1 h.2

/-- C90: for three elements this is the exact condition. -/
theorem C90_networks_three {n : ℕ} {x0 x1 x2 y0 y1 y2 : Expression p}
    (h : ∀ e ∈ [x0, x1, x2, y0, y1, y2], e.Scoped n) :
    RigidIff n (B.assertPermutation [x0, x1, x2] [y0, y1, y2]) (fun W =>
      ¬ ([x0.eval W, x1.eval W, x2.eval W].Perm [y0.eval W, y1.eval W, y2.eval W] ∧
        Doubtful [x0.eval W, x1.eval W, x2.eval W] [y0.eval W, y1.eval W, y2.eval W])) := by
  have := C90_networks (n := n) (a := [x0, x1, x2]) (b := [y0, y1, y2])
    (fun e he => h e (List.mem_append_left [y0, y1, y2] he))
    (fun e he => h e (List.mem_append_right [x0, x1, x2] he)) rfl
  intro s hs hP
  rw [this s hs hP]
  exact not_congr (not_congr twoRoutes_three)

/-- C90: so it always does if the elements are in the same order on both sides. -/
theorem C90_networks_identity {n : ℕ} {a b : List (Expression p)} (hn : 3 ≤ a.length)
    (ha : ∀ e ∈ a, e.Scoped n) (hb : ∀ e ∈ b, e.Scoped n) :
    RigidIffIf n (fun W => (a.map fun e => e.eval W) = b.map fun e => e.eval W)
      (B.assertPermutation a b) (fun _ => False) := by
  refine never fun s hs h => Forks.assertPermutation hn (hs ▸ ha) (hs ▸ hb) (by rw [evals, evals, h]) ?_
  rw [evals, evals, ← h]
  exact Or.inr (Or.inr ⟨0, 0, by simp; omega, by simp; omega, Or.inl ⟨rfl, rfl⟩⟩)

/-- C90: sorting leaves a choice as soon as there are two elements. -/
theorem C90_sorting (h4 : 4 ≤ Elem.maxBits p) {n : ℕ} (hn : 1 ≤ n) {a : List (Expression p)}
    (ha : ∀ e ∈ a, e.Scoped n) :
    RigidIff n (B.sortAscending a) (fun _ => a.length ≤ 1) ∧
    RigidIff n (B.sortDescending a) (fun _ => a.length ≤ 1) := by
  have h1 : ∀ s : Wit p, s.next = n → ¬ a.length ≤ 1 → Forks (B.sortAscending a) s :=
    fun s hs h => Forks.sortAscending h4 (by omega) (hs ▸ ha)
  have h2 : ∀ {P : Assign p → Prop}, a.length ≤ 1 → Det n P (B.sortAscending a) fun _ _ => True :=
    fun h => Det.sortAscending_short hn h ha
  by_cases h : a.length ≤ 1
  · refine ⟨RigidIff.intro (h2 h) (fun _ _ _ h => h) h1, RigidIff.intro
      (S := fun _ _ => True) ((h2 h).bind fun _ _ _ _ => Det.pure trivial) (fun _ _ _ h => h)
      fun s hs h' => absurd h h'⟩
  · refine ⟨fun s hs _ => ⟨fun _ => h, fun _ => ?_⟩, fun s hs _ => ⟨fun _ => h, fun _ => ?_⟩⟩
    · have := h1 s hs h
      rwa [Forks, hs] at this
    · have := Forks.andThen (f := fun items => pure items.reverse) (h1 s hs h)
        (Can.sortAscending h4 (by rintro rfl; simp at h) (hs ▸ ha) (List.Perm.refl _))
        fun _ _ _ => Can.pure trivial
      rwa [Forks, hs] at this

/-- C90: checking that a point is on the curve and multiplying it by a boolean determine their wires;
adding, doubling and multiplying by scalars never do, whatever the points are. -/
theorem C90_points (h2 : 2 < p) (C : EdwardsCurve p) {n : ℕ} (hn : 1 ≤ n) {P Q : EdwardsExpression p}
    (hP : P.x.Scoped n ∧ P.y.Scoped n) (hQ : Q.x.Scoped n ∧ Q.y.Scoped n) {k : Expression p}
    (hk : k.Scoped n) {c : BooleanExpression p} (hc : c.Scoped n) :
    Determined n (EdwardsExpression.new C P.x P.y) (fun R k => R.x.Scoped k ∧ R.y.Scoped k) ∧
    Determined n ((EdwardsGroup.ops C).mulBooleanExpression P c)
      (fun R k => R.x.Scoped k ∧ R.y.Scoped k) ∧
    RigidIff n (EdwardsGroup.addExpressions C P Q) (fun _ => False) ∧
    RigidIff n (EdwardsGroup.doubleExpression C P) (fun _ => False) ∧
    RigidIff n ((EdwardsGroup.ops C).mulScalarExpression P k) (fun _ => False) := by
  refine ⟨(Det.edwardsNew C hP.1 hP.2).determined, (Det.mulBoolean hn C hP hc).determined,
    never fun s hs _ => Forks.point fun u v => ?_, never fun s hs _ => Forks.point fun u v => ?_,
    never fun s hs _ => Forks.point fun u v => ?_⟩ <;> subst hs
  · exact EdwardsGroup.can_add C hP hQ u v
  · exact EdwardsGroup.can_double h2 C hP u v
  · exact EdwardsGroup.can_mulScalar h2 C hP hk u v

/-- C90: verifying a signature leaves a choice exactly if the constraints can be satisfied, that is if
the second part of the signature is the hash of the message with any field element at all. -/
theorem C90_signatures (h2 : 2 < p) (C : EdwardsCurve p) (g : EdwardsPoint p)
    {c : CompressionFunction p} {h : Elem p → Elem p → Elem p} (hc : Computed2 c.compress h)
    (he : Enforced2 c.compress h) (hprog : ∀ x y, Prog (c.compress x y)) {n : ℕ}
    {σ : SignatureExpression p} {m : Expression p} {pk : EdwardsExpression p} (hs : σ.s.Scoped n)
    (hσ : σ.e.Scoped n) (hm : m.Scoped n) (hpk : pk.x.Scoped n ∧ pk.y.Scoped n) :
    RigidIff n (schnorrVerify (cyclicSubgroup (EdwardsGroup.ops C) (some g)) c σ m pk) (fun W =>
      ¬ ∃ v, h v (m.eval W) = σ.e.eval W) := by
  intro s hn _
  subst hn
  rw [not_not]
  refine ⟨?_, fun ⟨v, hv⟩ => EdwardsGroup.forks_schnorrVerify h2 C g hc hprog hs hσ hm hpk hv⟩
  rintro ⟨b', a, W1, -, r, s1, -, e1, -⟩
  obtain ⟨v, hv⟩ := (C69_hash_enforced (cyclicSubgroup (EdwardsGroup.ops C) (some g))
    (EdwardsGroup.prog_add C) (EdwardsGroup.prog_double C) he σ m pk _ _ _ r W1 s1).2
  have ag : Agree s.next W1 s.W := e1
  exact ⟨v, by rwa [← ag.eval hm, ← ag.eval hσ]⟩

/-- The hypotheses of `C90_signatures` hold for the hash function of the test on JubJub, and there is
always a choice then. -/
example {n : ℕ} {σ : SignatureExpression bls12_381Order} {m : Expression bls12_381Order}
    {pk : EdwardsExpression bls12_381Order} (hs : σ.s.Scoped n)
    (hσ : σ.e.Scoped n) (hm : m.Scoped n) (hpk : pk.x.Scoped n ∧ pk.y.Scoped n) (g) :
    RigidIff n (schnorrVerify (cyclicSubgroup (EdwardsGroup.ops jubjub) (some g)) testCompress σ m pk)
      (fun _ => False) := by
  have h2 : 2 < bls12_381Order := by decide +kernel
  have := C90_signatures h2 jubjub g (testCompress_spec.2 h2) testCompress_spec.1
    (prog_testCompress) hs hσ hm hpk
  intro s e t
  rw [this s e t, not_not]
  refine ⟨fun _ h => h, fun _ => ⟨(σ.e.eval s.W - m.eval s.W) * 2⁻¹, ?_⟩⟩
  have h20 : (2 : Elem bls12_381Order) ≠ 0 := by decide +kernel
  field_simp
  ring

/-- C90: sums and bitwise operations on digits, and access to a list, determine all their wires. -/
theorem C90_digits {n : ℕ} (hn : 1 ≤ n) {x y : BinaryExpression p} (hx : x.Scoped n)
    (hy : y.Scoped n) {ts : List (BinaryExpression p)} (ht : ∀ t ∈ ts, t.Scoped n)
    {xs : List (Expression p)} (hxs : ∀ e ∈ xs, e.Scoped n) {i : Expression p} (hi : i.Scoped n) :
    Determined n (B.bitwiseNot x) (fun e k => e.Scoped k) ∧
    Determined n (B.bitwiseAnd x y) (fun e k => e.Scoped k) ∧
    Determined n (B.bitwiseOr x y) (fun e k => e.Scoped k) ∧
    Determined n (B.bitwiseXor x y) (fun e k => e.Scoped k) ∧
    Determined n (B.binarySummation ts) (fun e k => e.Scoped k) ∧
    Determined n (B.binarySummationIgnoringOverflow ts) (fun e k => e.Scoped k) ∧
    Determined n (B.binarySummationAssertingNoOverflow ts) (fun e k => e.Scoped k) ∧
    Rigid n (B.binaryAssertZero x) ∧ Determined n (B.randomAccess xs i) InScope :=
  ⟨(Det.bitwiseNot hn hx).determined, (Det.bitwiseAnd hx hy).determined,
    (Det.bitwiseOr hx hy).determined, (Det.bitwiseXor hx hy).determined,
    (Det.binarySummation ht).determined, (Det.binarySummationIgnoringOverflow ht).determined,
    (Det.binarySummationAssertingNoOverflow ht).determined, (Det.binaryAssertZero x).rigid,
    (Det.randomAccess hxs hi).determined⟩

/-- C90: the permutations determine all their wires: monomial permutations both ways, MiMC both ways,
Rescue, and Poseidon with a power as the S-box. -/
theorem C90_permutations :
    (∀ f : MonomialPermutation p, Determines1 f.permute) ∧
    (∀ (a : Elem p) (f : MonomialPermutation p), MonomialPermutation.new a = some f →
      Determines1 f.inverse) ∧
    (∀ c : MiMC p, Determines2 c.encrypt) ∧
    (∀ (a : Elem p) (c : MiMC p), MonomialPermutation.new a = some c.roundPermutation →
      Determines2 c.decrypt) ∧
    (∀ f : Rescue p, DeterminesList f.permute) ∧
    ∀ f : Poseidon p, f.sbox ≠ .inverse → DeterminesList f.permute :=
  ⟨fun f n x hn hx => (Det.monomialPermute f n x hn hx).determined,
    fun _ _ h n x hn hx => (Det.monomialInverse h n x hn hx).determined,
    fun c n x y hn hx hy => (Det.encrypt c n x y hn hx hy).determined,
    fun _ _ h n x y hn hx hy => (Det.decrypt h n x y hn hx hy).determined,
    fun f n xs hn hx => (Det.rescue f n xs hn hx).determined,
    fun _ h n xs hn hx => (Det.poseidon h n xs hn hx).determined⟩

/-- C90: the hash constructions determine all their wires if what they are built on does. -/
theorem C90_hashes :
    (∀ c : BlockCipher p, Determines2 c.encrypt → Determines2 (daviesMeyer c).compress ∧
      Determines2 (miyaguchiPreneel c).compress) ∧
    (∀ h : MerkleDamgard p, Determines2 h.compress.compress → ∀ (n : ℕ) (xs : List (Expression p)),
      1 ≤ n → (∀ x ∈ xs, x.Scoped n) → Determined n (h.hash xs) InScope) ∧
    (∀ sp : Sponge p, DeterminesList sp.permutation.permute → ∀ len : ℕ,
      DeterminesList fun xs => sp.evaluate xs len) ∧
    ∀ c : CompressionFunction p, Determines2 c.compress → ∀ (n : ℕ) (x r : Expression p)
      (path : MerklePath p), 1 ≤ n → x.Scoped n → path.pathBits.Scoped n →
      (∀ e ∈ path.siblings, e.Scoped n) →
      Determined n (B.merkleTreeRoot x path c) InScope ∧
      Rigid n (B.assertMerkleTreeMembership x r path c) := by
  have two : ∀ {f : Expression p → Expression p → B p (Expression p)}, Determines2 f →
      Det.Binary (fun _ => True) f := fun h n x y hn hx hy => Det.ofDetermined (h n x y hn hx hy)
  exact ⟨fun c h => ⟨fun n x y hn hx hy => (Det.daviesMeyer (two h) n x y hn hx hy).determined,
      fun n x y hn hx hy => (Det.miyaguchiPreneel (two h) n x y hn hx hy).determined⟩,
    fun h hc n xs hn hx => (Det.merkleDamgard (two hc) hn hx).determined,
    fun sp h len n xs hn hx => (Det.spongeEvaluate
      (fun n x hn hx => Det.ofDetermined (h n x hn hx)) hn hx len).determined,
    fun c h n x r path hn hx hb hs => ⟨(Det.merkleTreeRoot (two h) hn hx hb hs).determined,
      (Det.merkleMembership (two h) hn hx hb hs).rigid⟩⟩

/-! ## Straight-line code -/

open Circuit

/-- C90: in straight-line code from settled gadgets, all wires are determined by the inputs if no test
for zero finds a zero. -/
theorem C90_circuits (h4 : 4 ≤ Elem.maxBits p) (c : Circuit p) (hc : c.Settled) (k : ℕ)
    {os : List (Obj p)} {b : Builder p} (hb : c.build k Builder.new = some (os, b))
    {W1 W2 : Assign p} (h1 : Satisfies W1 b.constraints) (h2 : Satisfies W2 b.constraints)
    (hin : (List.range' 1 k).map W1 = (List.range' 1 k).map W2)
    (hd : c.Decisive ((List.range' 1 k).map W1)) : ∀ i < b.nextWireIndex, W1 i = W2 i := by
  have hdet := det_runFrom h4 (c := c) (n := 1 + k)
    (P := fun W => W ONE = 1 ∧ c.Decisive ((List.range' 1 k).map W)) hc (by omega)
    (inputs_scoped k) fun W ⟨o, h⟩ => ⟨_, inputs_meaning o _, h⟩
  refine (hdet ⟨1 + k, [], []⟩ b os rfl (build_run.symm.trans hb)).2.2.2 W1 W2 h1 h2 (fun i hi => ?_)
    ⟨h1.one, hd⟩ ⟨h2.one, hin ▸ hd⟩
  by_cases h0 : i = 0
  · rw [h0]
    exact h1.one.trans h2.one.symm
  · exact List.map_inj_left.1 hin i (List.mem_range'_1.2 ⟨by omega, hi⟩)

/-- C90: and if the code has a meaning for the inputs and a test for zero finds a zero, there are two
different witnesses, whatever the other gadgets are. -/
theorem C90_free_wires (h4 : 4 ≤ Elem.maxBits p) (c : Circuit p) (xs : List (Elem p))
    {ys : List (Val p)} (hm : c.meaning xs = some ys) (hd : ¬ c.Decisive xs)
    {os : List (Obj p)} {b : Builder p} (hb : c.build xs.length Builder.new = some (os, b)) :
    ∃ W1 W2 : Assign p, Satisfies W1 b.constraints ∧ Satisfies W2 b.constraints ∧
      (List.range' 1 xs.length).map W1 = xs ∧ (List.range' 1 xs.length).map W2 = xs ∧
      ∃ i < b.nextWireIndex, W1 i ≠ W2 i := by
  have hW : ((List.range' 1 xs.length).map fun i => (inputs xs).total i) = xs :=
    range_map xs _ fun i hi => by simp [WireValues.total, inputs, ONE, hi]
  have hone : (inputs xs).total ONE = 1 := by simp [WireValues.total, inputs]
  let s : Wit p := (Hon.free (1 + xs.length) (by omega) (inputs xs).total hone).toWit
  have hi := inputs_meaning (W := (inputs xs).total) hone (List.range' 1 xs.length)
  rw [hW] at hi
  obtain ⟨b', a, W1, W2, e1, e2, e3, e4, e5, e6⟩ := forks_runFrom (s := s) h4
    (inputs_scoped xs.length) hi hm hd
  have hb' := build_run.symm.trans hb
  have e1' : runFrom c ((List.range' 1 xs.length).map fun w => .expr (Expression.ofWire w))
      ⟨1 + xs.length, [], []⟩ = some (a, b') := e1
  rw [hb'] at e1'
  cases e1'
  have key : ∀ W : Assign p, (∀ i < s.next, W i = s.W i) → (List.range' 1 xs.length).map W = xs :=
    fun W h => range_map xs _ fun i hi => by
      rw [h (i + 1) (show i + 1 < 1 + xs.length by omega)]
      show (inputs xs).total (i + 1) = _
      simp [WireValues.total, inputs, ONE, hi]
  exact ⟨W1, W2, e2, e3, key W1 e4, key W2 e5, e6⟩

/-- C90: so for code from settled gadgets which has a meaning for the inputs, there is exactly one
witness if no test for zero finds a zero, and more than one otherwise. -/
theorem C90_unique (h4 : 4 ≤ Elem.maxBits p) (c : Circuit p) (hc : c.Settled) (xs : List (Elem p))
    {ys : List (Val p)} (hm : c.meaning xs = some ys)
    {os : List (Obj p)} {b : Builder p} (hb : c.build xs.length Builder.new = some (os, b)) :
    (∃ W, Satisfies W b.constraints ∧ (List.range' 1 xs.length).map W = xs) ∧
    ((∀ W1 W2 : Assign p, Satisfies W1 b.constraints → Satisfies W2 b.constraints →
      (List.range' 1 xs.length).map W1 = xs → (List.range' 1 xs.length).map W2 = xs →
      ∀ i < b.nextWireIndex, W1 i = W2 i) ↔ c.Decisive xs) := by
  refine ⟨((C87_exact h4 c (fun i hi => (hc i hi).pinned) _ hb xs rfl).1).2 (by rw [hm]; rfl),
    fun h => ?_, fun h W1 W2 h1 h2 e1 e2 => ?_⟩
  · by_contra hd
    obtain ⟨W1, W2, h1, h2, e1, e2, i, hi, hne⟩ := C90_free_wires h4 c xs hm hd hb
    exact hne (h W1 W2 h1 h2 e1 e2 i hi)
  · exact C90_circuits h4 c hc _ hb h1 h2 (e1.trans e2.symm) (e1.symm ▸ h)

/-! ## Cases -/

private theorem w1 : (Expression.ofWire 1 : Expression 13).Scoped 2 := .ofWire (by decide)

private theorem mb13 : 4 ≤ Elem.maxBits 13 := by rw [maxBits13]

/-- With 5 on the wire, `nonzero` has one witness, `nonzero` of the wire minus 5 has several. -/
example : ¬ (∃ (b' : Builder 13) (a : BooleanExpression 13) (W1 W2 : Assign 13),
      B.nonzero (Expression.ofWire 1) wit5.b = some (a, b') ∧ Satisfies W1 b'.constraints ∧
      Satisfies W2 b'.constraints ∧ (∀ i < 2, W1 i = wit5.W i) ∧ (∀ i < 2, W2 i = wit5.W i) ∧
      ∃ i < b'.nextWireIndex, W1 i ≠ W2 i) ∧
    ∃ (b' : Builder 13) (a : BooleanExpression 13) (W1 W2 : Assign 13),
      B.nonzero (Expression.ofWire 1 - Expression.ofElem 5) wit5.b = some (a, b') ∧
      Satisfies W1 b'.constraints ∧ Satisfies W2 b'.constraints ∧ (∀ i < 2, W1 i = wit5.W i) ∧
      (∀ i < 2, W2 i = wit5.W i) ∧ ∃ i < b'.nextWireIndex, W1 i ≠ W2 i := by
  have v1 : wit5.W 1 = 5 := rfl
  constructor
  · rw [(C90_tests (by decide) w1 w1).1 wit5 rfl trivial]
    simp only [Expression.eval_ofWire, v1]
    decide
  · rw [(C90_tests (n := 2) (x := Expression.ofWire 1 - Expression.ofElem 5) (by decide)
      (w1.sub (.ofElem (by decide) _)) w1).1 wit5 rfl trivial]
    simp only [Expression.eval_sub, Expression.eval_ofWire, v1, Expression.eval_ofElem wit5.one]
    decide

/-- Splitting 5 ambiguously is not ambiguous in the field of order 13, splitting 2 is. -/
example : RigidIff 2 (B.splitAllowingAmbiguity (Expression.ofWire 1 : Expression 13))
    (fun W => 3 ≤ (W 1).n) := by
  have h := (C90_splitting (by decide) w1 3).2.2
  simp only [Expression.eval_ofWire, maxBits13] at h
  intro s hs hP
  rw [h s hs hP]
  omega

example : RigidIff 2 (B.le (Expression.ofWire 1 : Expression 13) (Expression.ofWire 1))
    (fun W => 3 ≤ (W 1).n) := by
  have h := (C90_comparisons mb13 (by decide) w1 w1).2.2.1
  simp only [Expression.eval_ofWire, maxBits13, true_and] at h
  intro s hs hP
  rw [h s hs hP]
  omega

example : Rigid 2 (B.assertLt (Expression.ofWire 1 : Expression 13) (Expression.ofElem 7)) :=
  (C90_asserted_comparisons mb13 (by decide) w1 (.ofElem (by decide) _)).1

example : RigidIff 2 (B.modulus (Expression.ofElem 7) (Expression.ofWire 1 : Expression 13))
    (fun W => (W 1).n ≤ 1) := by
  simpa only [Expression.eval_ofWire] using
    (C90_modulus mb13 (by decide) (.ofElem (by decide) (7 : Elem 13)) w1).1

/-- A network of three elements which is determined, and one which is not: two values change places
at the first switch of the latter, and could do so at the last. -/
example : [1, 2, 3].Perm [3, 1, 2] ∧ ¬ Doubtful ([1, 2, 3] : List (Elem 13)) [3, 1, 2] := by
  refine ⟨by decide, ?_⟩
  rintro (⟨k, hk, h⟩ | ⟨k, hk, h⟩ | ⟨k, l, hk, hl, h⟩)
  · obtain rfl : k = 0 := by simp at hk; omega
    have h : (1 : Elem 13) = 2 := h
    revert h; decide +kernel
  · obtain rfl : k = 0 := by simp at hk; omega
    have h : (3 : Elem 13) = 1 := h
    revert h; decide +kernel
  · obtain rfl : k = 0 := by simp at hk; omega
    obtain rfl : l = 0 := by simp at hl; omega
    have h : (1 : Elem 13) = 3 ∧ (2 : Elem 13) = 1 ∨ (1 : Elem 13) = 1 ∧ (2 : Elem 13) = 3 := h
    revert h; decide +kernel

example : [1, 2, 3].Perm [2, 1, 3] ∧ Doubtful ([1, 2, 3] : List (Elem 13)) [2, 1, 3] :=
  ⟨by decide, Or.inr (Or.inr ⟨0, 0, by simp, by simp, Or.inr ⟨rfl, rfl⟩⟩)⟩

/-- A network of four elements with several witnesses: the outer switches are settled by the last two
elements, but one of the subnetworks has equal elements only. -/
example : TwoRoutes 4 ([1, 2, 3, 1] : List (Elem 13)) [3, 1, 2, 1] := by
  refine Or.inr ⟨by decide, fun i => decide (i = 0), fun _ => false, ⟨by decide +kernel,
    by decide +kernel⟩, Or.inr (Or.inr ?_)⟩
  exact Or.inl ⟨by decide, by decide +kernel, by decide +kernel⟩

example : ¬ Rigid 4 (B.sortAscending [Expression.ofWire 1, Expression.ofWire 2,
    (Expression.ofWire 3 : Expression 13)]) := by
  intro h
  obtain ⟨b', a, W1, W2, r, s1, s2, e1, e2, i, hi, hne⟩ := ((C90_sorting mb13 (n := 4) (by decide)
    (a := [Expression.ofWire 1, Expression.ofWire 2, (Expression.ofWire 3 : Expression 13)])
    (by
      intro e he
      simp only [List.mem_cons, List.not_mem_nil, or_false] at he
      rcases he with rfl | rfl | rfl <;> exact .ofWire (by decide))).1
    ⟨⟨4, [], []⟩, fun i => if i = 0 then 1 else i, by decide, ⟨by decide +kernel, by simp⟩, by simp⟩ rfl trivial).2 (by simp)
  exact hne (h _ _ _ rfl r W1 W2 s1 s2 (fun i hi => (e1 i hi).trans (e2 i hi).symm) trivial i hi)

example : Rigid 2 (B.ltBinary (.ofNat 11 : BinaryExpression 13) (.ofNat 10)) → False := by
  intro h
  have := (C90_binary_comparisons (n := 2) (by decide) (by decide)
    (BinaryExpression.ofNat_scoped (p := 13) (by decide) 11)
    (BinaryExpression.ofNat_scoped (by decide) 10)
    (by rw [BinaryExpression.ofNat_len, BinaryExpression.ofNat_len]; decide +kernel)
    (by rw [BinaryExpression.ofNat_len]; decide +kernel)
    (by rw [BinaryExpression.ofNat_len, maxBits13]; decide +kernel)).1 wit5 rfl
    ⟨BinaryExpression.ofNat_allBool wit5.one 11, BinaryExpression.ofNat_allBool wit5.one 10⟩
  obtain ⟨b', a, W1, W2, e1, e2, e3, e4, e5, i, hi, hne⟩ := this.2 not_false
  exact hne (h wit5.b b' a rfl e1 W1 W2 e2 e3 (fun i hi => (e4 i hi).trans (e5 i hi).symm) trivial
    i hi)

example : DeterminesList poseidon11.permute :=
  C90_permutations.2.2.2.2.2 poseidon11 (by simp [poseidon11])

/-- Two inputs; whether they are equal; the first if they are, else their product. -/
def testCode : Circuit 13 := [(.equal, [0, 1]), (.product, [0, 1]), (.select, [2, 0, 3])]

example : testCode.Settled := by
  intro i hi
  simp only [testCode, List.mem_cons, List.not_mem_nil, or_false] at hi
  rcases hi with rfl | rfl | rfl <;> rfl

/-- The code has a meaning for all of these inputs; with the second ones a wire is left free. -/
example : testCode.meaning [3, 5] = some [.elem 3, .elem 5, .bool false, .elem 2, .elem 2] ∧
    testCode.meaning [3, 3] = some [.elem 3, .elem 3, .bool true, .elem 9, .elem 3] := by
  decide +kernel

example : testCode.Decisive [3, 5] ∧ ¬ testCode.Decisive [3, 3] := by
  constructor
  · refine ⟨fun args h => ?_, fun vs h => ⟨fun _ _ => trivial, fun _ _ => ⟨fun _ _ => trivial,
      fun _ _ => trivial⟩⟩⟩
    obtain rfl : args = [.elem 3, .elem 5] := by
      have : (some [.elem 3, .elem 5] : Option (List (Val 13))) = some args := h
      exact (Option.some.inj this).symm
    show (3 : Elem 13) ≠ 5
    decide
  · intro h
    exact h.1 [.elem 3, .elem 3] rfl rfl

end R1CS
