import Verif.Spec.Gadgets
import Verif.Lemmas.Roots
import Verif.Lemmas.Gadgets

/-!
# Gadgets implementing functions: introduction and elimination, permutations
-/

set_option linter.unusedSectionVars false

namespace R1CS

variable {p : ℕ} [hp : Fact p.Prime]

open Expression (eval_add eval_sub eval_ofWire eval_mulElem)

theorem ListScoped.mono {n m : ℕ} {es : List (Expression p)} (h : ListScoped n es) (hnm : n ≤ m) :
    ListScoped m es := fun e he => (h e he).mono hnm

theorem ListScoped.append {n : ℕ} {xs ys : List (Expression p)} (hx : ListScoped n xs)
    (hy : ListScoped n ys) : ListScoped n (xs ++ ys) := by
  intro e he
  rcases List.mem_append.1 he with h | h
  · exact hx e h
  · exact hy e h

theorem ListScoped.take {n : ℕ} {xs : List (Expression p)} (hx : ListScoped n xs) (k : ℕ) :
    ListScoped n (xs.take k) := fun e he => hx e (List.mem_of_mem_take he)

theorem ListScoped.drop {n : ℕ} {xs : List (Expression p)} (hx : ListScoped n xs) (k : ℕ) :
    ListScoped n (xs.drop k) := fun e he => hx e (List.mem_of_mem_drop he)

theorem ListScoped.map_ofElem {n : ℕ} (hn : 1 ≤ n) (xs : List (Elem p)) :
    ListScoped n (xs.map Expression.ofElem) := by
  intro e he
  obtain ⟨x, -, rfl⟩ := List.mem_map.1 he
  exact .ofElem hn x

theorem values_ofElem {w : Assign p} (h1 : w ONE = 1) (xs : List (Elem p)) :
    values w (xs.map Expression.ofElem) = xs := by
  rw [values, List.map_map]
  conv_rhs => rw [← List.map_id xs]
  exact List.map_congr_left fun x _ => Expression.eval_ofElem h1 x

namespace Hon

theorem Le.values {s s' : Hon p} (h : s.Le s') {es : List (Expression p)}
    (he : ListScoped s.next es) : R1CS.values s'.W es = R1CS.values s.W es :=
  List.map_congr_left fun e hm => h.eval (he e hm)

theorem Le.lscoped {s s' : Hon p} (h : s.Le s') {es : List (Expression p)}
    (he : ListScoped s.next es) : ListScoped s'.next es := he.mono h.1

end Hon

/-- What is needed from `Computes` to continue. -/
theorem Computes.comp {α : Type} {m : B p α} {s : Hon p} {Q : α → Hon p → Prop}
    (h : Computes m s Q) : Comp m s fun a s' => s'.D = s.D ∧ Q a s' :=
  Comp.mono h fun _ _ _ h => ⟨h.1, h.2.2⟩

theorem Computed1.comp {m : Expression p → B p (Expression p)} {f : Elem p → Elem p}
    (h : Computed1 m f) {s : Hon p} {x : Expression p} (hx : x.Scoped s.next) :
    Comp (m x) s fun z s' => s'.D = s.D ∧ z.Scoped s'.next ∧ z.eval s'.W = f (x.eval s.W) :=
  (h s x hx).comp

theorem Computed2.comp {m : Expression p → Expression p → B p (Expression p)}
    {f : Elem p → Elem p → Elem p} (h : Computed2 m f) {s : Hon p} {x y : Expression p}
    (hx : x.Scoped s.next) (hy : y.Scoped s.next) :
    Comp (m x y) s fun z s' => s'.D = s.D ∧ z.Scoped s'.next ∧
      z.eval s'.W = f (x.eval s.W) (y.eval s.W) :=
  (h s x y hx hy).comp

theorem ComputedList.comp {n : ℕ} {m : List (Expression p) → B p (List (Expression p))}
    {f : List (Elem p) → List (Elem p)} (h : ComputedList n m f) {s : Hon p}
    {xs : List (Expression p)} (hl : xs.length = n) (hx : ListScoped s.next xs) :
    Comp (m xs) s fun zs s' => s'.D = s.D ∧ ListScoped s'.next zs ∧
      values s'.W zs = f (values s.W xs) :=
  (h s xs hl hx).comp

/-! ## Permutations -/

theorem Computed1.inverseOrZero (h2 : 2 < p) :
    Computed1 (B.inverseOrZero (p := p)) fun x => x⁻¹ :=
  fun _ _ hx => (Comp.inverseOrZero h2 hx).computes

namespace MonomialPermutation

theorem enforced_permute (f : MonomialPermutation p) :
    Enforced1 f.permute fun x => x ^ f.n.n := fun x => Enforces.exponentiation x f.n

theorem computed_permute (f : MonomialPermutation p) :
    Computed1 f.permute fun x => x ^ f.n.n := fun _ _ hx => (Comp.exponentiation hx f.n).computes

theorem enforces_inverse (f : MonomialPermutation p) (x : Expression p) :
    Enforces (f.inverse x) fun z w => z.eval w ^ f.n.n = x.eval w := by
  unfold inverse
  refine Enforces.wire.bind fun i => (Enforces.exponentiation _ _).bind fun e =>
    (Enforces.assertEqual _ _).bind fun _ =>
    (Enforces.ofOption (Q := fun _ _ => True) fun _ _ _ _ => trivial).bind fun c =>
    (Enforces.generator _ _).bind fun _ => Enforces.pure fun w h1 _ _ h2 h3 _ => ?_
  rw [← h3, h2]

theorem comp_inverse (f : MonomialPermutation p) (h2 : 2 ≤ f.n.n)
    (hc : Nat.Coprime (p - 1) f.n.n) {s : Hon p} {x : Expression p} (hx : x.Scoped s.next) :
    Comp (f.inverse x) s fun z s' => s'.D = s.D ∧ z.Scoped s'.next ∧
      z.eval s'.W ^ f.n.n = x.eval s.W := by
  obtain ⟨e, he, hroot⟩ := rootExponent_some h2 hc
  unfold inverse
  refine (Comp.wire s (x.eval s.W ^ e.n)).bind fun i s1 l1 ⟨e1, n1, D1, v1⟩ => ?_
  refine (Comp.exponentiation (x := Expression.ofWire i) (.ofWire (by omega)) f.n).bind
    fun y s2 l2 ⟨D2, sc2, v2⟩ => ?_
  have hl := l2.1
  have l12 := l1.trans l2
  have vi : s2.W i = x.eval s.W ^ e.n := by rw [l2.2 i (by omega), v1]
  have hpow : (x.eval s.W ^ e.n) ^ f.n.n = x.eval s.W := by
    rw [← pow_mul, mul_comm]; exact hroot _
  refine (Comp.assertEqual sc2 (l12.scoped hx) ?_).bind fun _ s3 l3 ⟨n3, D3, W3⟩ => ?_
  · rw [v2, eval_ofWire, v1, hpow, l12.eval hx]
  refine Comp.ofOption_bind he ?_
  refine (Comp.generator [i] s.D ?_ ?_ ?_).bind fun _ s4 l4 ⟨n4, D4, W4⟩ =>
    Comp.pure ⟨D4, .ofWire (by omega), by rw [eval_ofWire, W4, W3, vi, hpow]⟩
  · rw [D3, D2, D1]; rfl
  · refine GenOK.single fun v hin => ?_
    rw [W3] at hin ⊢
    rw [rootGen, Expression.evaluate_eq (w := s2.W) hin, l12.eval hx, vi,
      ← Elem.exponentiation_eq]
    rfl
  · intro j hj
    have := hx j hj
    refine ⟨by omega, fun o ho => ?_⟩
    simp at ho; omega

end MonomialPermutation

end R1CS
