import Verif.Model.Permutation
import Verif.Lemmas.Gadgets

/-!
# Soundness of the permutation network
-/

set_option linter.unusedSectionVars false

namespace R1CS

variable {p : ℕ} [hp : Fact p.Prime]

open Expression (eval_add eval_sub eval_neg eval_ofWire eval_mulElem)

/-- Values of a list of expressions. -/
abbrev evals (w : Assign p) (es : List (Expression p)) : List (Elem p) := es.map fun e => e.eval w

namespace Enforces

theorem createSwitch (a b : Expression p) :
    Enforces (B.createSwitch a b) (fun r w => IsBool (w r.1.wire) ∧
      r.2.1.eval w = (if w r.1.wire = 1 then b.eval w else a.eval w) ∧
      r.2.2.eval w = (if w r.1.wire = 1 then a.eval w else b.eval w)) := by
  unfold B.createSwitch
  refine Enforces.booleanWire.bind fun sw => (Enforces.selection _ _ _).bind fun c =>
    Enforces.pure fun w _ hc hs => ?_
  rw [BooleanExpression.eval_ofWire] at hc
  refine ⟨hs, ?_⟩
  dsimp only
  rw [eval_sub, eval_add, hc]
  rcases hs with h | h <;> rw [h]
  · simp
  · simp

/-- The outputs of a layer of switches. -/
theorem switchLayer (k : ℕ) : ∀ xs : List (Expression p),
    Enforces (B.switchLayer k xs) (fun r w => 2 * k ≤ xs.length ∧ r.1.length = k ∧
      r.2.1.length = k ∧ r.2.2.length = k ∧
      (evals w r.2.1 ++ evals w r.2.2).Perm (evals w (xs.take (2 * k)))) := by
  induction k with
  | zero => intro xs; unfold B.switchLayer; exact Enforces.pure fun w _ => by simp
  | succ k ih =>
    intro xs
    match xs with
    | [] => exact Enforces.panic
    | [_] => exact Enforces.panic
    | x :: y :: rest =>
      unfold B.switchLayer
      refine (Enforces.createSwitch x y).bind fun r => (ih rest).bind fun q =>
        Enforces.pure fun w _ hq hr => ?_
      obtain ⟨h0, h1, h2, h3, h4⟩ := hq
      obtain ⟨-, e1, e2⟩ := hr
      refine ⟨by simp; omega, by simp [h1], by simp [h2], by simp [h3], ?_⟩
      have : 2 * (k + 1) = 2 * k + 1 + 1 := by ring
      rw [this]
      simp only [List.take_succ_cons, List.map_cons, List.cons_append]
      have hp2 : ([r.2.1.eval w, r.2.2.eval w]).Perm [x.eval w, y.eval w] := by
        rw [e1, e2]
        split
        · exact List.Perm.swap _ _ _
        · exact List.Perm.refl _
      have h5 := hp2.append h4
      refine List.Perm.trans ?_ h5
      simp only [List.cons_append, List.nil_append]
      refine List.Perm.cons _ ?_
      exact List.perm_middle

theorem assertPermutation2x2 (a b c d : Expression p) :
    Enforces (B.assertPermutation2x2 a b c d) (fun _ w =>
      (evals w [a, b]).Perm (evals w [c, d])) := by
  unfold B.assertPermutation2x2
  refine (Enforces.createSwitch a b).bind fun r => (Enforces.assertEqual _ _).bind fun _ =>
    (Enforces.assertEqual _ _).bind fun _ => (Enforces.generator _ _).mono
      fun _ w _ _ h1 h2 h3 => ?_
  obtain ⟨-, e1, e2⟩ := h3
  rw [e1] at h2
  rw [e2] at h1
  simp only [List.map_cons, List.map_nil]
  rw [h1, h2]
  split
  · exact List.Perm.swap _ _ _
  · exact List.Perm.refl _

end Enforces

theorem perm_interleave {α : Type} {a1 a2 b1 b2 x y : List α} (hx : (a1 ++ a2).Perm x)
    (hy : (b1 ++ b2).Perm y) (h1 : a1.Perm b1) (h2 : a2.Perm b2) : x.Perm y :=
  hx.symm.trans ((h1.append h2).trans hy)

theorem take_concat_last {α : Type} {l : List α} {n : ℕ} {x : α} (hn : l.length = n + 1)
    (hx : l[n]? = some x) : l = l.take n ++ [x] := by
  conv_lhs => rw [← List.take_append_drop n l]
  congr 1
  obtain ⟨h, hx⟩ := List.getElem?_eq_some_iff.1 hx
  rw [List.drop_eq_getElem_cons h, hx, List.drop_eq_nil_of_le (by omega)]

theorem take_concat_last2 {α : Type} {l : List α} {n : ℕ} {x y : α} (hn : l.length = n + 2)
    (hx : l[n]? = some x) (hy : l[n + 1]? = some y) : l = l.take n ++ [x, y] := by
  conv_lhs => rw [← List.take_append_drop n l]
  congr 1
  obtain ⟨h, hx⟩ := List.getElem?_eq_some_iff.1 hx
  obtain ⟨h', hy⟩ := List.getElem?_eq_some_iff.1 hy
  rw [List.drop_eq_getElem_cons h, hx, List.drop_eq_getElem_cons h', hy,
    List.drop_eq_nil_of_le (by omega)]

theorem Enforces.assertPermutationFuel (fuel : ℕ) : ∀ a b : List (Expression p),
    Enforces (B.assertPermutationFuel fuel a b) (fun _ w => (evals w a).Perm (evals w b)) := by
  induction fuel with
  | zero =>
    intro a b
    unfold B.assertPermutationFuel
    refine (Enforces.require _).bind fun _ => (Enforces.require _).mono fun _ w _ h1 h2 => ?_
    rw [List.length_eq_zero_iff] at h1
    subst h1
    have : b = [] := List.length_eq_zero_iff.1 h2.symm
    subst this
    exact List.Perm.refl _
  | succ fuel ih =>
    intro a b
    unfold B.assertPermutationFuel
    refine (Enforces.require _).bind fun _ => ?_
    split
    · refine Enforces.pure fun w _ h => ?_
      have : b = [] := List.length_eq_zero_iff.1 h.symm
      subst this
      exact List.Perm.refl _
    · refine (Enforces.assertEqual _ _).mono fun _ w _ h1 _ => ?_
      simp [h1]
    · exact (Enforces.assertPermutation2x2 _ _ _ _).mono fun _ w _ h1 _ => h1
    · dsimp only
      refine (Enforces.switchLayer _ a).bind fun ra => (Enforces.switchLayer _ b).bind fun rb => ?_
      have key : Enforces (if a.length % 2 = 0 then do
          let b1 ← B.ofOption b[a.length - 2]?
          let b2 ← B.ofOption b[a.length - 1]?
          B.assertPermutationFuel fuel ra.2.1 (rb.2.1 ++ [b1])
          B.assertPermutationFuel fuel ra.2.2 (rb.2.2 ++ [b2])
        else do
          let a2 ← B.ofOption a[a.length - 1]?
          let b2 ← B.ofOption b[a.length - 1]?
          B.assertPermutationFuel fuel ra.2.1 rb.2.1
          B.assertPermutationFuel fuel (ra.2.2 ++ [a2]) (rb.2.2 ++ [b2]) : B p Unit) (fun _ w =>
          if a.length % 2 = 0 then ∃ b1 b2, b[a.length - 2]? = some b1 ∧
            b[a.length - 1]? = some b2 ∧ (evals w ra.2.1).Perm (evals w (rb.2.1 ++ [b1])) ∧
            (evals w ra.2.2).Perm (evals w (rb.2.2 ++ [b2]))
          else ∃ a2 b2, a[a.length - 1]? = some a2 ∧
            b[a.length - 1]? = some b2 ∧ (evals w ra.2.1).Perm (evals w rb.2.1) ∧
            (evals w (ra.2.2 ++ [a2])).Perm (evals w (rb.2.2 ++ [b2]))) := by
        split
        · refine (Enforces.ofOption (Q := fun x _ => _ = some x) fun x h _ _ => h).bind fun b1 =>
            (Enforces.ofOption (Q := fun x _ => _ = some x) fun x h _ _ => h).bind fun b2 =>
            (ih _ _).bind fun _ => (ih _ _).mono fun _ w _ h1 h2 h3 h4 => ?_
          exact ⟨b1, b2, h4, h3, h2, h1⟩
        · refine (Enforces.ofOption (Q := fun x _ => _ = some x) fun x h _ _ => h).bind fun b1 =>
            (Enforces.ofOption (Q := fun x _ => _ = some x) fun x h _ _ => h).bind fun b2 =>
            (ih _ _).bind fun _ => (ih _ _).mono fun _ w _ h1 h2 h3 h4 => ?_
          exact ⟨b1, b2, h4, h3, h2, h1⟩
      refine key.bind fun _ => (Enforces.generator _ _).mono fun _ w _ _ hk hrb hra hlen => ?_
      obtain ⟨la, -, la1, la2, pa⟩ := hra
      obtain ⟨lb, -, lb1, lb2, pb⟩ := hrb
      split at hk
      · next he =>
        rw [if_pos he] at lb lb1 lb2 pb
        obtain ⟨b1, b2, hb1, hb2, h1, h2⟩ := hk
        by_cases hn0 : a.length = 0
        · have hb : b.length = 0 := by omega
          simp [List.length_eq_zero_iff.1 hn0, List.length_eq_zero_iff.1 hb]
        have ea : a.take (2 * (a.length / 2)) = a := List.take_of_length_le (by omega)
        have eb := take_concat_last2 (l := b) (n := a.length - 2) (by omega) hb1
          (by rw [← hb2]; congr 1; omega)
        rw [ea] at pa
        rw [show 2 * (a.length / 2 - 1) = a.length - 2 by omega] at pb
        refine perm_interleave (y := evals w b) pa ?_ h1 h2
        rw [eb]
        simp only [List.map_append, List.map_cons, List.map_nil]
        have := pb.append_right [b1.eval w, b2.eval w]
        refine List.Perm.trans ?_ this
        simp only [List.append_assoc, List.cons_append, List.nil_append]
        refine List.Perm.append_left _ ?_
        exact List.perm_middle.symm
      · next ho =>
        rw [if_neg ho] at lb lb1 lb2 pb
        obtain ⟨a2, b2, ha2, hb2, h1, h2⟩ := hk
        have ea := take_concat_last (l := a) (n := a.length - 1) (by omega) ha2
        have eb := take_concat_last (l := b) (n := a.length - 1) (by omega) hb2
        rw [show 2 * (a.length / 2) = a.length - 1 by omega] at pa pb
        refine perm_interleave (x := evals w a) (y := evals w b) ?_ ?_ h1 h2
        · conv_rhs => rw [ea]
          simp only [List.map_append, List.map_cons, List.map_nil]
          rw [← List.append_assoc]
          exact pa.append_right _
        · conv_rhs => rw [eb]
          simp only [List.map_append, List.map_cons, List.map_nil]
          rw [← List.append_assoc]
          exact pb.append_right _

theorem Enforces.assertPermutation (a b : List (Expression p)) :
    Enforces (B.assertPermutation a b) (fun _ w => (evals w a).Perm (evals w b)) :=
  Enforces.assertPermutationFuel _ a b

end R1CS
