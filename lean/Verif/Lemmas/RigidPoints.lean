import Verif.Lemmas.RigidNetwork

/-!
# Wires which are determined: points of curves
-/

set_option linter.unusedSectionVars false

namespace R1CS

variable {p : ℕ} [hp : Fact p.Prime]

theorem EdwardsExpression.Scoped.agree {n : ℕ} {R : EdwardsExpression p} (h : R.Scoped n)
    {W1 W2 : Assign p} (ha : Agree n W1 W2) : R.x.eval W1 = R.x.eval W2 := ha.eval h.1

/-- Two witnesses, if the first coordinate of the result can take any value. -/
theorem Forks.point {m : B p (EdwardsExpression p)} {s : Wit p}
    (h : ∀ u v : Elem p, Can m s fun R t => R.Scoped t.next ∧ R.x.eval t.W = u ∧ R.y.eval t.W = v) :
    Forks m s :=
  Forks.two (zero_ne_one (α := Elem p)) (G := fun R k => R.Scoped k) (obs := fun R W => R.x.eval W)
    (fun _ _ _ _ h ha => h.agree ha) ((h 0 0).mono fun _ _ _ h => ⟨h.1, h.2.1⟩)
    ((h 1 0).mono fun _ _ _ h => ⟨h.1, h.2.1⟩)

namespace EdwardsGroup

theorem forks_schnorrVerify (h2 : 2 < p) (C : EdwardsCurve p) (g : EdwardsPoint p)
    {c : CompressionFunction p} {h : Elem p → Elem p → Elem p} (hc : Computed2 c.compress h)
    (hprog : ∀ x y, Prog (c.compress x y)) {s : Wit p} {σ : SignatureExpression p}
    {m : Expression p} {pk : EdwardsExpression p} (hs : σ.s.Scoped s.next) (he : σ.e.Scoped s.next)
    (hm : m.Scoped s.next) (hpk : pk.Scoped s.next)
    {v : Elem p} (hv : h v (m.eval s.W) = σ.e.eval s.W) :
    Forks (schnorrVerify (cyclicSubgroup (EdwardsGroup.ops C) (some g)) c σ m pk) s := by
  unfold schnorrVerify
  refine Forks.after (Q := fun a _ => a = EdwardsExpression.ofPoint g)
    ⟨_, s, rfl, Wit.Le.refl s, rfl⟩ fun _ s0 l0 e => ?_
  subst e
  refine Forks.after (can_mulScalar h2 C (ofPoint_scoped s0.pos _) (l0.scoped hs) v v)
    fun gs s1 l1 ⟨h1, _⟩ => ?_
  have l01 := l0.trans l1
  refine Forks.after (can_mulScalar h2 C (hpk.mono l01.1) (l01.scoped he) v v)
    fun ye s2 l2 ⟨h2', _⟩ => ?_
  have key : ∀ u : Elem p, Can (addExpressions C gs ye) s2 fun R t => R.Scoped t.next ∧
      R.x.eval t.W = u ∧ Can (do
        let hashCheck ← c.compress (R.y) m
        B.assertEqual hashCheck σ.e) t fun _ _ => True := by
    intro u
    refine (can_add C (h1.mono l2.1) h2' u v).mono fun R s3 l3 ⟨h3, hx, hy⟩ => ⟨h3, hx, ?_⟩
    have l03 := (l01.trans l2).trans l3
    refine (Can.ofComp (hprog _ _) (hc.comp (s := s3.toHon) h3.2 (l03.scoped hm))).bind
      fun z s4 l4 ⟨t, tn, tW, _, hz, vz⟩ => ?_
    rw [tn] at hz
    rw [tW] at vz
    have l04 := l03.trans l4
    refine (Can.assertProduct hz (.one s4.pos) (l04.scoped he) ?_).mono fun _ _ _ _ => trivial
    rw [Expression.eval_one s4.one, mul_one, vz, l04.eval he, ← hv]
    change h (R.y.eval s3.W) (m.eval s3.W) = _
    rw [hy, l03.eval hm]
  exact Forks.before (zero_ne_one (α := Elem p)) (G := fun R k => R.Scoped k)
    (obs := fun R W => R.x.eval W) (fun _ _ _ _ h ha => h.agree ha) (key 0) (key 1)

end EdwardsGroup

end R1CS
