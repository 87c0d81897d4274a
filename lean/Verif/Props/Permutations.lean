import Verif.Lemmas.Traits
import Verif.Props.Arithmetic

/-!
# C55, C56: permutations of the field
-/

set_option linter.unusedSectionVars false

namespace R1CS

variable {p : ℕ} [hp : Fact p.Prime]

open Expression (eval_ofWire)

/-! ## C55 -/

/-- C55: `MonomialPermutation::new(n)` succeeds exactly when `x ↦ x ^ n` is a permutation of the
field, for every order above 2. -/
theorem C55_new (h2 : 2 < p) (n : Elem p) :
    (MonomialPermutation.new n).isSome ↔ Function.Bijective fun x : Elem p => x ^ n.n := by
  rw [Option.isSome_iff_exists]
  constructor
  · rintro ⟨f, hf⟩
    have hc := ((MonomialPermutation.new_eq_some_iff n f).1 hf).1
    refine MonomialPermutation.bijective_of_coprime (fun h0 => ?_) n.lt hc
    rw [h0, Nat.coprime_zero_right] at hc
    omega
  · intro h
    exact ⟨⟨n⟩, (MonomialPermutation.new_eq_some_iff n _).2
      ⟨MonomialPermutation.coprime_of_injective h.1, rfl⟩⟩

/-- C55 over the field of order 2: the constant map `x ↦ x ^ 0` is accepted as a permutation. -/
theorem C55_new_order_two_refuted :
    (MonomialPermutation.new (0 : Elem 2)).isSome ∧
      ¬ Function.Bijective fun x : Elem 2 => x ^ (0 : Elem 2).n :=
  ⟨by rw [Option.isSome_iff_exists]
      exact ⟨⟨0⟩, (MonomialPermutation.new_eq_some_iff _ _).2 ⟨by decide, rfl⟩⟩,
    fun h => absurd (h.1 (a₁ := (0 : Elem 2)) (a₂ := 1) rfl) (by decide)⟩

/-- C55: `permute` is enforced and computed as `x ↦ x ^ n`. -/
theorem C55_permute (f : MonomialPermutation p) :
    Enforced1 f.toPermutation.permute (fun x => x ^ f.n.n) ∧
      Computed1 f.toPermutation.permute (fun x => x ^ f.n.n) :=
  ⟨f.enforced_permute, f.computed_permute⟩

/-- C55: in every satisfying assignment `inverse` is an `n`-th root, and for a permutation it is
the only one. -/
theorem C55_inverse_enforced (h2 : 2 < p) {n : Elem p} {f : MonomialPermutation p}
    (hf : MonomialPermutation.new n = some f) (x : Expression p) :
    Enforces (f.toPermutation.inverse x) fun z w =>
      z.eval w ^ n.n = x.eval w ∧ ∀ y : Elem p, y ^ n.n = x.eval w → y = z.eval w := by
  obtain ⟨hc, rfl⟩ := (MonomialPermutation.new_eq_some_iff n f).1 hf
  have hb := (C55_new h2 n).1 (by rw [hf]; rfl)
  exact (MonomialPermutation.enforces_inverse _ x).mono fun z w _ h =>
    ⟨h, fun y hy => hb.1 (hy.trans h.symm)⟩

/-- C55: for exponents other than 1, `inverse` does not panic, its search terminates, and honest
execution computes the `n`-th root. -/
theorem C55_inverse_computed_partial (h2 : 2 < p) {n : Elem p} {f : MonomialPermutation p}
    (hf : MonomialPermutation.new n = some f) (h1 : n ≠ 1) (s : Hon p) {x : Expression p}
    (hx : x.Scoped s.next) :
    Computes (f.toPermutation.inverse x) s fun z s' => z.eval s'.W ^ n.n = x.eval s.W := by
  obtain ⟨hc, rfl⟩ := (MonomialPermutation.new_eq_some_iff n f).1 hf
  refine ((MonomialPermutation.comp_inverse ⟨n⟩ ?_ hc hx).mono
    fun _ _ _ g => ⟨g.1, g.2.2⟩).computes
  show 2 ≤ n.n
  by_contra hlt
  have : n.n = 0 ∨ n.n = 1 := by omega
  rcases this with h0 | h0
  · rw [h0, Nat.coprime_zero_right] at hc
    omega
  · exact h1 (Elem.ext_n h0)

/-- C55 fails for the exponent 1: `new(1)` succeeds, but `inverse` panics in every state, because
the exponent found by its search is `2 p - 1`. -/
theorem C55_inverse_exponent_one_refuted :
    ∃ f, MonomialPermutation.new (1 : Elem p) = some f ∧
      ∀ (x : Expression p) (b : Builder p), f.toPermutation.inverse x b = none := by
  refine ⟨⟨1⟩, (MonomialPermutation.new_eq_some_iff _ _).2 ⟨Nat.coprime_one_right _, rfl⟩,
    fun x b => ?_⟩
  show MonomialPermutation.inverse ⟨1⟩ x b = none
  cases h : MonomialPermutation.inverse ⟨1⟩ x b with
  | none => rfl
  | some r =>
    unfold MonomialPermutation.inverse at h
    obtain ⟨_, _, -, h⟩ := B.bind_run h
    obtain ⟨_, _, -, h⟩ := B.bind_run h
    obtain ⟨_, _, -, h⟩ := B.bind_run h
    obtain ⟨_, _, h, -⟩ := B.bind_run h
    have := (B.ofOption_eq_some h).1
    rw [MonomialPermutation.rootExponent_one rfl] at this
    cases this

/-- `x ^ 5` is a permutation of the field of order 13, and the fifth root of 5 is 5. -/
example : ∃ f, MonomialPermutation.new (5 : Elem 13) = some f ∧
    Computes (f.toPermutation.inverse (Expression.ofWire 1)) honest5 fun z s' => z.eval s'.W = 5 := by
  have hf : MonomialPermutation.new (5 : Elem 13) = some ⟨5⟩ :=
    (MonomialPermutation.new_eq_some_iff _ _).2 ⟨by decide, rfl⟩
  refine ⟨_, hf, (C55_inverse_computed_partial (by decide) hf (by decide) honest5
    (.ofWire (by decide))).mono fun z s' _ h => ?_⟩
  have hb := (C55_new (p := 13) (by decide) 5).1 (by rw [hf]; rfl)
  apply hb.1
  exact h.trans (by rw [eval_ofWire]; decide)

/-- `x ^ 3` is not a permutation of that field. -/
example : MonomialPermutation.new (3 : Elem 13) = none := by
  cases h : MonomialPermutation.new (3 : Elem 13) with
  | none => rfl
  | some f => exact absurd ((MonomialPermutation.new_eq_some_iff _ _).1 h).1 (by decide)

/-! ## C56 -/

/-- C56: honest execution of `InversePermutation`, in both directions. -/
theorem C56_inverse_permutation_computed (h2 : 2 < p) (s : Hon p) {x : Expression p}
    (hx : x.Scoped s.next) :
    Computes (inversePermutation.permute x) s (fun z s' =>
      (x.eval s.W ≠ 0 → x.eval s.W * z.eval s'.W = 1) ∧ (x.eval s.W = 0 → z.eval s'.W = 0)) ∧
    Computes (inversePermutation.permute x >>= inversePermutation.inverse) s (fun z s' =>
      z.eval s'.W = x.eval s.W) := by
  refine ⟨C27_inverse_or_zero_computed h2 s hx, ?_⟩
  refine Comp.computes ((Comp.inverseOrZero h2 hx).bind fun y s1 l1 ⟨D1, sc1, v1⟩ => ?_)
  refine (Comp.inverseOrZero h2 sc1).mono fun z s2 l2 ⟨D2, sc2, v2⟩ => ⟨by rw [D2, D1], ?_⟩
  rw [v2, v1, inv_inv]

/-- C56: for non-zero inputs both directions are enforced. -/
theorem C56_inverse_permutation_enforced (x : Expression p) :
    Enforces (inversePermutation.permute x) (fun z w => x.eval w ≠ 0 → x.eval w * z.eval w = 1) ∧
    Enforces (inversePermutation.permute x >>= inversePermutation.inverse) (fun z w =>
      x.eval w ≠ 0 → z.eval w = x.eval w) := by
  refine ⟨C28_inverse_or_zero_enforced_partial x, ?_⟩
  refine (Enforces.inverseOrZero x).bind fun y => (Enforces.inverseOrZero y).mono
    fun z w _ hz hy hx => ?_
  have h1 := hy hx
  rw [hz (by rw [h1]; exact inv_ne_zero hx), h1, inv_inv]

/-- The restriction to non-zero inputs is needed: for the input zero the image is any value. -/
theorem C56_zero_refuted (s : Wit p) {x : Expression p} (hx : x.Scoped s.next)
    (h0 : x.eval s.W = 0) (y : Elem p) :
    Can (inversePermutation.permute x) s fun z s' => z.eval s'.W = y :=
  C28_inverse_or_zero_refuted s hx h0 y

/-- The inverse of 5 modulo 13 is 8. -/
example : Computes (inversePermutation.permute (Expression.ofWire 1)) honest5
    (fun z s' => z.eval s'.W = 8) := by
  refine (C56_inverse_permutation_computed (by decide) honest5 (.ofWire (by decide))).1.mono
    fun z s' _ h => ?_
  have h5 : (Expression.ofWire 1 : Expression 13).eval honest5.W = 5 := by rw [eval_ofWire]; decide
  rw [h5] at h
  have := h.1 (by decide)
  calc z.eval s'.W = 8 * (5 * z.eval s'.W) := by rw [← mul_assoc]; exact (one_mul _).symm
    _ = 8 := by rw [this, mul_one]

end R1CS
