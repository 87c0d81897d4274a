import Verif.Model.Permutation
import Mathlib.Data.List.Perm.Subperm
import Mathlib.Data.List.Perm.Basic
import Mathlib.Data.List.Nodup

/-!
# `bimap_from_lists`
-/

namespace R1CS

section
variable {α : Type} [DecidableEq α]

theorem mem_indexStacks (xs : List α) : ∀ (i : ℕ) (m : α → List ℕ) (y : α) (j : ℕ),
    j ∈ indexStacks i xs m y ↔ j ∈ m y ∨ ∃ k, j = i + k ∧ xs[k]? = some y := by
  induction xs with
  | nil => intro i m y j; simp [indexStacks]
  | cons x xs ih =>
    intro i m y j
    unfold indexStacks
    rw [ih]
    constructor
    · rintro (h | ⟨k, rfl, hk⟩)
      · split at h
        · next hy =>
          rcases List.mem_cons.1 h with rfl | h
          · exact Or.inr ⟨0, rfl, by simp [hy]⟩
          · exact Or.inl h
        · exact Or.inl h
      · exact Or.inr ⟨k + 1, by omega, by simpa using hk⟩
    · rintro (h | ⟨k, rfl, hk⟩)
      · left; split
        · exact List.mem_cons_of_mem _ h
        · exact h
      · cases k with
        | zero =>
          left
          simp only [List.getElem?_cons_zero, Option.some.injEq] at hk
          rw [if_pos hk.symm]; simp
        | succ k => exact Or.inr ⟨k, by omega, by simpa using hk⟩

theorem nodup_indexStacks (xs : List α) : ∀ (i : ℕ) (m : α → List ℕ) (y : α),
    (m y).Nodup → (∀ j ∈ m y, j < i) → (indexStacks i xs m y).Nodup := by
  induction xs with
  | nil => intro i m y h _; exact h
  | cons x xs ih =>
    intro i m y h hl
    unfold indexStacks
    refine ih _ _ _ ?_ ?_
    · split
      · exact List.nodup_cons.2 ⟨fun hi => lt_irrefl _ (hl i hi), h⟩
      · exact h
    · intro j hj
      split at hj
      · rcases List.mem_cons.1 hj with rfl | hj
        · omega
        · have := hl j hj; omega
      · have := hl j hj; omega

theorem length_indexStacks (xs : List α) : ∀ (i : ℕ) (m : α → List ℕ) (y : α),
    (indexStacks i xs m y).length = (m y).length + xs.count y := by
  induction xs with
  | nil => intro i m y; simp [indexStacks]
  | cons x xs ih =>
    intro i m y
    unfold indexStacks
    rw [ih, List.count_cons]
    by_cases h : y = x
    · subst h; simp; omega
    · simp [h, Ne.symm h]

/-- What a list of pairs must fulfil to be a matching of `a` and `b`. -/
structure Matching (a b : List α) (r : BiMap) : Prop where
  left : (r.map (·.1)).Nodup
  right : (r.map (·.2)).Nodup
  mem : ∀ q ∈ r, ∃ x, a[q.1]? = some x ∧ b[q.2]? = some x

/-- Invariant of the second loop. -/
structure MatchInv (a b : List α) (i : ℕ) (m : α → List ℕ) (r : BiMap) : Prop
    extends Matching a b r where
  lefts : r.map (·.1) = (List.range i).reverse
  nodup : ∀ y, (m y).Nodup
  index : ∀ y, ∀ j ∈ m y, b[j]? = some y
  fresh : ∀ y, ∀ j ∈ m y, j ∉ r.map (·.2)

theorem MatchInv.step {a b : List α} {i : ℕ} {m : α → List ℕ} {r : BiMap} {x : α} {j : ℕ}
    {js : List ℕ} (h : MatchInv a b i m r) (hx : a[i]? = some x) (hm : m x = j :: js) :
    MatchInv a b (i + 1) (fun y => if y = x then js else m y) (r.insert i j) := by
  have hjm : j ∈ m x := by rw [hm]; simp
  have hl : ∀ q ∈ r, q.1 < i := by
    intro q hq
    have : q.1 ∈ r.map (·.1) := List.mem_map.2 ⟨q, hq, rfl⟩
    rw [h.lefts] at this
    simpa using this
  have hr : ∀ q ∈ r, q.2 ≠ j := fun q hq he =>
    h.fresh x j hjm (List.mem_map.2 ⟨q, hq, he⟩)
  have e : r.insert i j = (i, j) :: r := by
    unfold BiMap.insert
    rw [List.filter_eq_self.2]
    intro q hq
    have := hl q hq
    simp [hr q hq]; omega
  have hsub : ∀ y, ∀ k ∈ (if y = x then js else m y), k ∈ m y := by
    intro y k hk
    split at hk
    · next hy => rw [hy, hm]; exact List.mem_cons_of_mem _ hk
    · exact hk
  rw [e]
  refine ⟨⟨?_, ?_, ?_⟩, ?_, ?_, ?_, ?_⟩
  · rw [List.map_cons, List.nodup_cons]
    refine ⟨fun hi => ?_, h.left⟩
    rw [h.lefts] at hi
    simp at hi
  · rw [List.map_cons, List.nodup_cons]
    exact ⟨h.fresh x j hjm, h.right⟩
  · intro q hq
    rcases List.mem_cons.1 hq with rfl | hq
    · exact ⟨x, hx, h.index x j hjm⟩
    · exact h.mem q hq
  · rw [List.map_cons, h.lefts, List.range_succ]; simp
  · intro y
    split
    · next hy =>
      have := h.nodup x
      rw [hm] at this
      exact (List.nodup_cons.1 this).2
    · exact h.nodup y
  · intro y k hk
    exact h.index y k (hsub y k hk)
  · intro y k hk hkr
    rcases List.mem_cons.1 hkr with hkj | hkr
    · dsimp only at hkj
      rw [hkj] at hk
      have h1 := h.index y j (hsub y j hk)
      have h2 := h.index x j hjm
      have hyx : y = x := by rw [h1] at h2; exact Option.some.inj h2
      rw [if_pos hyx] at hk
      have := h.nodup x
      rw [hm] at this
      exact (List.nodup_cons.1 this).1 hk
    · exact h.fresh y k (hsub y k hk) hkr

theorem matchIndices_some (xs : List α) {a b : List α} : ∀ (i : ℕ) (m : α → List ℕ) (r : BiMap),
    a.drop i = xs → MatchInv a b i m r → (∀ y, xs.count y ≤ (m y).length) →
    ∃ m' r', matchIndices i xs m r = some r' ∧ MatchInv a b (i + xs.length) m' r' := by
  induction xs with
  | nil => intro i m r _ h _; exact ⟨m, r, rfl, by simpa using h⟩
  | cons x xs ih =>
    intro i m r hd h hc
    have hx : a[i]? = some x := by
      have := congrArg (·[0]?) hd
      simpa using this
    have hd' : a.drop (i + 1) = xs := by
      rw [← List.tail_drop, hd]; rfl
    unfold matchIndices
    cases hm : m x with
    | nil =>
      have := hc x
      rw [hm] at this
      simp at this
    | cons j js =>
      obtain ⟨m', r', e, h'⟩ := ih (i + 1) _ _ hd' (h.step hx hm) (by
        intro y
        have := hc y
        rw [List.count_cons] at this
        by_cases hy : y = x
        · subst hy
          rw [hm] at this
          simpa using this
        · rw [if_neg hy]
          simpa [Ne.symm hy] using this)
      refine ⟨m', r', e, ?_⟩
      have e : i + (x :: xs).length = i + 1 + xs.length := by simp; omega
      rw [e]; exact h'

theorem matchIndices_none (xs : List α) : ∀ (i : ℕ) (m : α → List ℕ) (r : BiMap) (y : α),
    (m y).length < xs.count y → matchIndices i xs m r = none := by
  induction xs with
  | nil => intro i m r y h; simp at h
  | cons x xs ih =>
    intro i m r y h
    unfold matchIndices
    cases hm : m x with
    | nil => rfl
    | cons j js =>
      refine ih _ _ _ y ?_
      rw [List.count_cons] at h
      by_cases hy : y = x
      · subst hy
        rw [hm] at h
        simpa using h
      · rw [if_neg hy]
        simpa [Ne.symm hy] using h

theorem matchInv_start (a b : List α) : MatchInv a b 0 (indexStacks 0 b fun _ => []) [] := by
  refine ⟨⟨by simp, by simp, by simp⟩, by simp, ?_, ?_, by simp⟩
  · intro y; exact nodup_indexStacks b 0 _ y (by simp) (by simp)
  · intro y j hj
    rw [mem_indexStacks] at hj
    rcases hj with hj | ⟨k, rfl, hk⟩
    · simp at hj
    · simpa using hk

theorem bimapFromLists_some {a b : List α} (h : a.Perm b) :
    ∃ r, bimapFromLists a b = some r ∧ Matching a b r ∧
      (r.map (·.1)).Perm (List.range a.length) := by
  unfold bimapFromLists
  rw [if_pos h.length_eq]
  obtain ⟨m', r, e, hr⟩ := matchIndices_some a (a := a) (b := b) 0 _ [] (by simp)
    (matchInv_start a b) (by
      intro y
      rw [length_indexStacks, h.count_eq]; simp)
  refine ⟨r, e, hr.toMatching, ?_⟩
  rw [hr.lefts, Nat.zero_add]
  exact List.reverse_perm _

theorem bimapFromLists_none {a b : List α} (h : ¬ a.Perm b) : bimapFromLists a b = none := by
  unfold bimapFromLists
  split
  · next hl =>
    by_cases hc : ∀ y ∈ a, a.count y ≤ b.count y
    · exact absurd ((List.subperm_ext_iff.2 hc).perm_of_length_le hl.ge) h
    · push Not at hc
      obtain ⟨y, -, hy⟩ := hc
      refine matchIndices_none _ _ _ _ y ?_
      rw [length_indexStacks]
      simpa using hy
  · rfl

omit [DecidableEq α] in
theorem BiMap.getByLeft_eq_some {r : BiMap} (h : (r.map (·.1)).Nodup) {i j : ℕ} :
    r.getByLeft i = some j ↔ (i, j) ∈ r := by
  unfold getByLeft
  induction r with
  | nil => simp
  | cons q r ih =>
    rw [List.map_cons, List.nodup_cons] at h
    rw [List.find?_cons]
    by_cases hq : q.1 = i
    · simp only [hq, beq_self_eq_true, Option.map_some, Option.some.injEq, List.mem_cons]
      constructor
      · intro hj; left; rw [← hq, ← hj]
      · rintro (hj | hj)
        · rw [← hj]
        · exact absurd (List.mem_map.2 ⟨(i, j), hj, rfl⟩) (hq ▸ h.1)
    · have : (q.1 == i) = false := by simp [hq]
      rw [this]
      simp only [List.mem_cons]
      rw [ih h.2]
      constructor
      · exact Or.inr
      · rintro (hj | hj)
        · exact absurd (by rw [← hj]) hq
        · exact hj

theorem BiMap.getByRight_eq_some {r : BiMap} (h : (r.map (·.2)).Nodup) {i j : ℕ} :
    r.getByRight j = some i ↔ (i, j) ∈ r := by
  unfold getByRight
  induction r with
  | nil => simp
  | cons q r ih =>
    rw [List.map_cons, List.nodup_cons] at h
    rw [List.find?_cons]
    by_cases hq : q.2 = j
    · simp only [hq, beq_self_eq_true, Option.map_some, Option.some.injEq, List.mem_cons]
      constructor
      · intro hj; left; rw [← hq, ← hj]
      · rintro (hj | hj)
        · rw [← hj]
        · exact absurd (List.mem_map.2 ⟨(i, j), hj, rfl⟩) (hq ▸ h.1)
    · have : (q.2 == j) = false := by simp [hq]
      rw [this]
      simp only [List.mem_cons]
      rw [ih h.2]
      constructor
      · exact Or.inr
      · rintro (hj | hj)
        · exact absurd (by rw [← hj]) hq
        · exact hj

/-- The result of `bimap_from_lists` on two rearrangements: the two lookups are inverse bijections
of the indices, matching equal values. -/
theorem bimapFromLists_spec {a b : List α} (h : a.Perm b) : ∃ r, bimapFromLists a b = some r ∧
    (∀ i < a.length, ∃ j < b.length, r.getByLeft i = some j ∧ r.getByRight j = some i ∧
      a[i]? = b[j]?) ∧
    (∀ j < b.length, ∃ i < a.length, r.getByRight j = some i ∧ r.getByLeft i = some j ∧
      a[i]? = b[j]?) ∧
    (∀ i, a.length ≤ i → r.getByLeft i = none) ∧ ∀ j, b.length ≤ j → r.getByRight j = none := by
  obtain ⟨r, e, hr, hl⟩ := bimapFromLists_some h
  have hlen : r.length = a.length := by
    have := hl.length_eq
    simpa using this
  have hmem : ∀ q ∈ r, q.1 < a.length ∧ q.2 < b.length ∧ a[q.1]? = b[q.2]? := by
    intro q hq
    obtain ⟨x, h1, h2⟩ := hr.mem q hq
    exact ⟨(List.getElem?_eq_some_iff.1 h1).1, (List.getElem?_eq_some_iff.1 h2).1, by rw [h1, h2]⟩
  have hrp : (r.map (·.2)).Perm (List.range b.length) := by
    refine (List.subperm_of_subset hr.right ?_).perm_of_length_le ?_
    · intro j hj
      obtain ⟨q, hq, rfl⟩ := List.mem_map.1 hj
      exact List.mem_range.2 (hmem q hq).2.1
    · simp [hlen, h.length_eq]
  refine ⟨r, e, ?_, ?_, ?_, ?_⟩
  · intro i hi
    have : i ∈ r.map (·.1) := by rw [hl.mem_iff]; exact List.mem_range.2 hi
    obtain ⟨q, hq, rfl⟩ := List.mem_map.1 this
    exact ⟨q.2, (hmem q hq).2.1, (BiMap.getByLeft_eq_some hr.left).2 hq,
      (BiMap.getByRight_eq_some hr.right).2 hq, (hmem q hq).2.2⟩
  · intro j hj
    have : j ∈ r.map (·.2) := by rw [hrp.mem_iff]; exact List.mem_range.2 hj
    obtain ⟨q, hq, rfl⟩ := List.mem_map.1 this
    exact ⟨q.1, (hmem q hq).1, (BiMap.getByRight_eq_some hr.right).2 hq,
      (BiMap.getByLeft_eq_some hr.left).2 hq, (hmem q hq).2.2⟩
  · intro i hi
    by_contra hne
    obtain ⟨j, hj⟩ := Option.ne_none_iff_exists'.1 hne
    have := (hmem _ ((BiMap.getByLeft_eq_some hr.left).1 hj)).1
    dsimp only at this
    omega
  · intro j hj
    by_contra hne
    obtain ⟨i, hi⟩ := Option.ne_none_iff_exists'.1 hne
    have := (hmem _ ((BiMap.getByRight_eq_some hr.right).1 hi)).2.1
    dsimp only at this
    omega

end

end R1CS
