import Verif.Lemmas.Sorting
import Verif.Lemmas.NetworkSize
import Verif.Lemmas.Bimap
import Verif.Props.Comparisons

/-!
# Properties of permutation networks and sorting (C50-C54, C72)
-/

set_option linter.unusedSectionVars false

namespace R1CS

variable {p : ℕ} [hp : Fact p.Prime]

open Expression (eval_add eval_sub eval_neg eval_ofWire eval_mulElem)

/-! ## C50 -/

/-- C50: whatever the prover puts on the wires of the network, the two lists have the same values
with the same multiplicities. -/
theorem C50_assert_permutation (a b : List (Expression p)) :
    Enforces (B.assertPermutation a b) fun _ w =>
      (a.map fun e => e.eval w).Perm (b.map fun e => e.eval w) :=
  Enforces.assertPermutation a b

/-! ## C51 -/

/-- C51: a list and any rearrangement of its values pass; in particular the routing of the network
neither panics nor runs forever. -/
theorem C51_assert_permutation_accepts (s : Hon p) {a b : List (Expression p)}
    (ha : ∀ e ∈ a, e.Scoped s.next) (hb : ∀ e ∈ b, e.Scoped s.next)
    (h : (a.map fun e => e.eval s.W).Perm (b.map fun e => e.eval s.W)) :
    Computes (B.assertPermutation a b) s fun _ _ => True :=
  ((Comp.assertPermutation ha hb h).mono fun _ _ _ h => ⟨h, trivial⟩).computes

/-- Five items, two of them equal and one of them a wire; with C50 this is also a satisfying
assignment of the network. -/
example : Computes (B.assertPermutation
    [Expression.ofWire 1, Expression.ofElem 7, Expression.ofElem 2, Expression.ofElem 7, 1]
    [Expression.ofElem 7, 1, Expression.ofElem 2, Expression.ofElem 5, Expression.ofElem 7])
    honest5 (fun _ _ => True) := by
  have h1 := honest5.one
  refine C51_assert_permutation_accepts honest5 ?_ ?_ ?_
  · intro e he
    simp only [List.mem_cons, List.not_mem_nil, or_false] at he
    rcases he with rfl | rfl | rfl | rfl | rfl
    exacts [.ofWire (by decide), .ofElem (by decide) 7, .ofElem (by decide) 2,
      .ofElem (by decide) 7, .one (by decide)]
  · intro e he
    simp only [List.mem_cons, List.not_mem_nil, or_false] at he
    rcases he with rfl | rfl | rfl | rfl | rfl
    exacts [.ofElem (by decide) 7, .one (by decide), .ofElem (by decide) 2,
      .ofElem (by decide) 5, .ofElem (by decide) 7]
  · simp only [List.map_cons, List.map_nil, eval_ofWire, Expression.eval_ofElem h1,
      Expression.eval_one h1]
    decide

/-- Over the same field nothing else passes: C50 excludes `[5, 7, 2]` against `[5, 2, 2]`. -/
example (w : Assign 13) (h1 : w ONE = 1) (b b' : Builder 13)
    (h : B.assertPermutation [Expression.ofElem 5, Expression.ofElem 7, Expression.ofElem 2]
      [Expression.ofElem 5, Expression.ofElem 2, Expression.ofElem 2] b = some ((), b')) :
    ¬ Satisfies w b'.constraints := by
  intro hw
  have := (C50_assert_permutation _ _ b () b' h w hw).2
  simp only [List.map_cons, List.map_nil, Expression.eval_ofElem h1] at this
  revert this
  decide

/-! ## C52 -/

/-- C52: for lists which are rearrangements of each other the result is a bijection between the
positions of `a` and those of `b` matching equal values. -/
theorem C52_bimap_from_lists {α : Type} [DecidableEq α] {a b : List α} (h : a.Perm b) :
    ∃ r, bimapFromLists a b = some r ∧
    (∀ i < a.length, ∃ j < b.length, r.getByLeft i = some j ∧ r.getByRight j = some i ∧
      a[i]? = b[j]?) ∧
    (∀ j < b.length, ∃ i < a.length, r.getByRight j = some i ∧ r.getByLeft i = some j ∧
      a[i]? = b[j]?) ∧
    (∀ i, a.length ≤ i → r.getByLeft i = none) ∧ ∀ j, b.length ≤ j → r.getByRight j = none :=
  bimapFromLists_spec h

/-- C52: all other pairs of lists panic. -/
theorem C52_bimap_from_lists_panics {α : Type} [DecidableEq α] {a b : List α} (h : ¬ a.Perm b) :
    bimapFromLists a b = none :=
  bimapFromLists_none h

example : (bimapFromLists [3, 1, 3, 2] [1, 3, 2, 3]).map (fun r => (List.range 4).map r.getByLeft) =
    some [some 3, some 0, some 1, some 2] := by decide
example : bimapFromLists [3, 1, 3] [3, 1, 1] = none := by decide
example : bimapFromLists [3, 1, 3] [3, 1] = none := by decide

/-! ## C53 -/

/-- C53: honest execution of `sort_ascending` accepts, and the outputs are the inputs in
non-decreasing order. -/
theorem C53_sort_ascending_computed (h4 : 4 ≤ Elem.maxBits p) (s : Hon p)
    {a : List (Expression p)} (hne : a ≠ []) (ha : ∀ e ∈ a, e.Scoped s.next) :
    Computes (B.sortAscending a) s fun r s' =>
      (r.map fun e => e.eval s'.W).Perm (a.map fun e => e.eval s.W) ∧
      (r.map fun e => (e.eval s'.W).n).Pairwise (· ≤ ·) := by
  refine ((Comp.sortAscending h4 hne ha).mono fun r s' _ ⟨h1, h2⟩ => ⟨h1, ?_, ?_⟩).computes
  · change (evals s'.W r).Perm (evals s.W a)
    rw [h2]; exact List.mergeSort_perm _ _
  · have : (evals s'.W r).Pairwise fun x y => x.n ≤ y.n := by rw [h2]; exact sorted_mergeSort _
    rw [List.pairwise_map] at this ⊢
    exact this

/-- C53 for `sort_descending`. -/
theorem C53_sort_descending_computed (h4 : 4 ≤ Elem.maxBits p) (s : Hon p)
    {a : List (Expression p)} (hne : a ≠ []) (ha : ∀ e ∈ a, e.Scoped s.next) :
    Computes (B.sortDescending a) s fun r s' =>
      (r.map fun e => e.eval s'.W).Perm (a.map fun e => e.eval s.W) ∧
      (r.map fun e => (e.eval s'.W).n).Pairwise (· ≥ ·) := by
  unfold B.sortDescending
  refine ((Comp.sortAscending h4 hne ha).bind fun r s' _ ⟨h1, h2⟩ =>
    Comp.pure ⟨h1, ?_, ?_⟩).computes
  · rw [List.map_reverse]
    refine (List.reverse_perm _).trans ?_
    change (evals s'.W r).Perm (evals s.W a)
    rw [h2]; exact List.mergeSort_perm _ _
  · have : (evals s'.W r).Pairwise fun x y => x.n ≤ y.n := by rw [h2]; exact sorted_mergeSort _
    rw [List.map_reverse, List.pairwise_reverse]
    rw [List.pairwise_map] at this ⊢
    exact this

/-- Sorting nothing panics: `n - 1` underflows. -/
theorem C53_sort_empty_panics (b : Builder p) :
    B.sortAscending ([] : List (Expression p)) b = none ∧
    B.sortDescending ([] : List (Expression p)) b = none := ⟨rfl, rfl⟩

example : Computes (B.sortAscending [Expression.ofWire 1, Expression.ofElem 2, Expression.ofElem 7])
    honest5 (fun r s' => (r.map fun e => (e.eval s'.W).n).Pairwise (· ≤ ·)) := by
  refine (C53_sort_ascending_computed (by rw [maxBits13]) honest5 (by simp) ?_).mono
    fun _ _ _ h => h.2
  intro e he
  simp only [List.mem_cons, List.not_mem_nil, or_false] at he
  rcases he with rfl | rfl | rfl
  exacts [.ofWire (by decide), .ofElem (by decide) 2, .ofElem (by decide) 7]

/-! ## C54 -/

/-- C54 is false: *every* rearrangement of the inputs is accepted as the sorted list.  Any
satisfying assignment of the circuit so far can be extended to one in which the outputs are the
inputs in an arbitrary order, since `assert_le_binary` can be forged (C38). -/
theorem C54_sort_any_order_refuted (h4 : 4 ≤ Elem.maxBits p) (s : Wit p)
    {a : List (Expression p)} (hne : a ≠ []) (ha : ∀ e ∈ a, e.Scoped s.next) {ys : List (Elem p)}
    (hy : (a.map fun e => e.eval s.W).Perm ys) :
    Can (B.sortAscending a) s fun r s' => (r.map fun e => e.eval s'.W) = ys :=
  Can.sortAscending h4 hne ha hy

/-- C54 is false as stated, in every field where comparisons work. -/
theorem C54_sort_ascending_refuted (h4 : 4 ≤ Elem.maxBits p) :
    ¬ ∀ a : List (Expression p), a ≠ [] → Enforces (B.sortAscending a) fun r w =>
      (r.map fun e => (e.eval w).n).Pairwise (· ≤ ·) := by
  intro h
  have h1n : (1 : Elem p).n = 1 := by
    have := Elem.natCast_n_of_lt (p := p) (k := 1) hp.out.one_lt
    simpa using this
  refine (C54_sort_any_order_refuted h4 (emptyWit p) (a := [0, 1]) (by simp) ?_
    (ys := [1, 0]) ?_).not_enforces ?_ (h [0, 1] (by simp))
  · intro e he
    simp only [List.mem_cons, List.not_mem_nil, or_false] at he
    rcases he with rfl | rfl
    exacts [.zero, .one (emptyWit p).pos]
  · simp only [List.map_cons, List.map_nil, Expression.eval_zero,
      Expression.eval_one (emptyWit p).one]
    exact List.Perm.swap _ _ _
  · intro r s' _ he hs
    have : (r.map fun e => (e.eval s'.W).n) = [1, 0] := by
      have := congrArg (List.map Elem.n) he
      rw [List.map_map] at this
      simpa [Function.comp_def, h1n] using this
    rw [this] at hs
    simp at hs

/-- C54, what remains: the outputs are a rearrangement of the inputs, for every assignment.
Missing: their order, which is not enforced. -/
theorem C54_sort_partial (a : List (Expression p)) :
    Enforces (B.sortAscending a) (fun r w => r.length = a.length ∧
      (r.map fun e => e.eval w).Perm (a.map fun e => e.eval w)) ∧
    Enforces (B.sortDescending a) (fun r w => r.length = a.length ∧
      (r.map fun e => e.eval w).Perm (a.map fun e => e.eval w)) :=
  ⟨(Enforces.sortAscending a).mono fun _ _ _ h => ⟨h.1, h.2.symm⟩,
   (Enforces.sortDescending a).mono fun _ _ _ h => ⟨h.1, h.2.symm⟩⟩

example : ¬ ∀ a : List (Expression 13), a ≠ [] → Enforces (B.sortAscending a) fun r w =>
    (r.map fun e => (e.eval w).n).Pairwise (· ≤ ·) :=
  C54_sort_ascending_refuted (by rw [maxBits13])

/-! ## C72 -/

/-- C72: on two lists of `n` items `assert_permutation` never panics, and adds exactly
`∑_{i=1}^{n} ⌈log₂ i⌉` boolean wires, one for each switch. -/
theorem C72_network_size (a b : List (Expression p)) (h : a.length = b.length) (c : Builder p)
    (hc : 1 ≤ c.nextWireIndex) :
    ∃ c', B.assertPermutation a b c = some ((), c') ∧
      booleanChecks c' = booleanChecks c + ∑ i ∈ Finset.range a.length, Nat.clog 2 (i + 1) := by
  obtain ⟨_, c', h1, -, h3, -⟩ := Adds.assertPermutationFuel a.length a b (le_refl _) h c hc
  exact ⟨c', h1, h3⟩

/-- Lists of different lengths panic. -/
theorem C72_lengths (a b : List (Expression p)) (h : a.length ≠ b.length) (c : Builder p) :
    B.assertPermutation a b c = none := by
  unfold B.assertPermutation
  cases hl : a.length with
  | zero =>
    unfold B.assertPermutationFuel
    rw [B.bind_eq_none]
    unfold B.require
    rw [if_neg h]; rfl
  | succ n =>
    unfold B.assertPermutationFuel
    rw [B.bind_eq_none]
    unfold B.require
    rw [if_neg h]; rfl

/-- Seven items need 14 switches. -/
example : ∃ c', B.assertPermutation ((List.range 7).map fun i => (Expression.ofWire i))
      ((List.range 7).map fun i => (Expression.ofWire (7 + i))) (⟨14, [], []⟩ : Builder 13) =
      some ((), c') ∧ booleanChecks c' = 14 := by
  obtain ⟨c', h1, h2⟩ := C72_network_size ((List.range 7).map fun i => (Expression.ofWire i))
      ((List.range 7).map fun i => (Expression.ofWire (7 + i))) (by simp) (⟨14, [], []⟩ : Builder 13)
      (by decide)
  refine ⟨c', h1, h2.trans ?_⟩
  simp [booleanChecks]
  decide +kernel

end R1CS
