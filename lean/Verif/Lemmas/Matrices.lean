import Verif.Spec.Matrices
import Verif.Model.Matrices
import Verif.Lemmas.Traits
import Verif.Lemmas.Forge

/-!
# Matrices, Poseidon, Rescue
-/

set_option linter.unusedSectionVars false

namespace R1CS

variable {p : ℕ} [hp : Fact p.Prime]

open Expression (eval_add eval_zero eval_mulElem)

namespace ElementMatrix

theorem foldl_row (x : Elem p) : ∀ (row : List (Elem p)) (a : Elem p),
    row.foldl (fun sum row_i => sum + x * row_i) a = a + x * row.sum
  | [], a => by simp
  | r :: row, a => by rw [List.foldl_cons, foldl_row x row, List.sum_cons]; ring

theorem eval_foldl_row (w : Assign p) (x : Expression p) : ∀ (row : List (Elem p))
    (a : Expression p), (row.foldl (fun sum row_i => sum + x.mulElem row_i) a).eval w =
      a.eval w + x.eval w * row.sum
  | [], a => by simp
  | r :: row, a => by
    rw [List.foldl_cons, eval_foldl_row w x row, List.sum_cons, eval_add, eval_mulElem]; ring

theorem mulElems_eq (m : ElementMatrix p) (v : List (Elem p)) :
    m.mulElems v = scaleRows m.rows v := by
  unfold mulElems scaleRows
  rw [List.zip_eq_zipWith, List.map_zipWith]
  congr 1
  funext row x
  dsimp only
  rw [foldl_row, zero_add]

theorem values_mulExpressions (m : ElementMatrix p) (v : List (Expression p)) (w : Assign p) :
    values w (m.mulExpressions v) = scaleRows m.rows (values w v) := by
  unfold mulExpressions scaleRows
  rw [List.zip_eq_zipWith, List.map_zipWith, values, List.map_zipWith, List.zipWith_map_right]
  congr 1
  funext row x
  dsimp only
  rw [eval_foldl_row, eval_zero, zero_add]

theorem scoped_foldl {n : ℕ} {x : Expression p} (hx : x.Scoped n) : ∀ (row : List (Elem p))
    {a : Expression p}, a.Scoped n →
    (row.foldl (fun sum row_i => sum + x.mulElem row_i) a).Scoped n
  | [], _, ha => ha
  | r :: row, a, ha => scoped_foldl hx row (ha.add (hx.mulElem r))

theorem scoped_mulExpressions (m : ElementMatrix p) {n : ℕ} {v : List (Expression p)}
    (hv : ListScoped n v) : ListScoped n (m.mulExpressions v) := by
  intro e he
  unfold mulExpressions at he
  obtain ⟨⟨row, x⟩, hm, rfl⟩ := List.mem_map.1 he
  exact scoped_foldl (hv x (List.of_mem_zip hm).2) row .zero

end ElementMatrix

/-! ## Mapping a gadget over a list -/

theorem Enforces.mapExpressions {m : Expression p → B p (Expression p)} {σ : Elem p → Elem p}
    (hm : Enforced1 m σ) : ∀ xs : List (Expression p),
    Enforces (B.mapExpressions m xs) fun zs w => values w zs = (values w xs).map σ
  | [] => Enforces.pure fun _ _ => rfl
  | x :: xs => by
    unfold B.mapExpressions
    refine (hm x).bind fun y => (Enforces.mapExpressions hm xs).bind fun ys =>
      Enforces.pure fun w _ hys hy => ?_
    rw [values, List.map_cons, hy]
    exact congrArg _ hys

theorem Comp.mapExpressions {m : Expression p → B p (Expression p)} {σ : Elem p → Elem p}
    (hm : Computed1 m σ) : ∀ (xs : List (Expression p)) {s : Hon p}, ListScoped s.next xs →
    Comp (B.mapExpressions m xs) s fun zs s' => s'.D = s.D ∧ ListScoped s'.next zs ∧
      values s'.W zs = (values s.W xs).map σ
  | [], s, _ => Comp.pure ⟨rfl, by simp [ListScoped], rfl⟩
  | x :: xs, s, hx => by
    unfold B.mapExpressions
    have hxs : ListScoped s.next xs := fun e he => hx e (by simp [he])
    refine (hm.comp (hx x (by simp))).bind fun y s1 l1 ⟨D1, sc1, v1⟩ => ?_
    refine (Comp.mapExpressions hm xs (l1.lscoped hxs)).bind fun ys s2 l2 ⟨D2, sc2, v2⟩ =>
      Comp.pure ⟨by rw [D2, D1], ?_, ?_⟩
    · intro e he
      rcases List.mem_cons.1 he with rfl | he
      · exact l2.scoped sc1
      · exact sc2 e he
    · rw [values, List.map_cons, l2.eval sc1, v1]
      refine congrArg _ ?_
      rw [show List.map (fun e => Expression.eval s2.W e) ys = values s2.W ys from rfl, v2,
        l1.values hxs]

/-! ## Poseidon -/

/-- Rounds given by a list of flags, `true` for full. -/
def applyRounds (σ : Elem p → Elem p) (mix : List (Elem p) → List (Elem p)) :
    List Bool → List (Elem p) → List (Elem p)
  | [], xs => xs
  | full :: flags, xs => applyRounds σ mix flags
      (if full then poseidonFull σ mix xs else poseidonPartial σ mix xs)

theorem applyRounds_append (σ : Elem p → Elem p) (mix : List (Elem p) → List (Elem p)) :
    ∀ (l1 l2 : List Bool) (xs : List (Elem p)),
    applyRounds σ mix (l1 ++ l2) xs = applyRounds σ mix l2 (applyRounds σ mix l1 xs)
  | [], _, _ => rfl
  | _ :: l1, l2, _ => applyRounds_append σ mix l1 l2 _

theorem applyRounds_replicate (σ : Elem p → Elem p) (mix : List (Elem p) → List (Elem p))
    (b : Bool) : ∀ (n : ℕ) (xs : List (Elem p)), applyRounds σ mix (List.replicate n b) xs =
      (if b then poseidonFull σ mix else poseidonPartial σ mix)^[n] xs
  | 0, _ => rfl
  | n + 1, xs => by
    rw [List.replicate_succ, Function.iterate_succ_apply]
    unfold applyRounds
    rw [applyRounds_replicate σ mix b n]
    cases b <;> rfl

namespace Poseidon

/-- The flags of the code. -/
def isFull (f : Poseidon p) (round : ℕ) : Bool :=
  decide (round < f.full / 2 ∨ round ≥ f.full + f.partial_ - f.full / 2)

theorem flags_eq (f : Poseidon p) (h : f.full % 2 = 0) :
    (List.range' 0 (f.full + f.partial_)).map f.isFull =
      List.replicate (f.full / 2) true ++ List.replicate f.partial_ false ++
        List.replicate (f.full / 2) true := by
  apply List.ext_getElem
  · simp; omega
  · intro i h1 h2
    have hi : i < f.full + f.partial_ := by simpa using h1
    rw [List.getElem_map, List.getElem_range', Nat.zero_add, Nat.one_mul]
    unfold isFull
    rw [List.getElem_append]
    split
    · rename_i h3
      rw [List.getElem_append]
      split
      · rename_i h4
        rw [List.getElem_replicate]
        simp at h4
        simp [h4]
      · rename_i h4
        rw [List.getElem_replicate]
        simp at h3 h4
        simp
        omega
    · rename_i h3
      rw [List.getElem_replicate]
      simp at h3
      simp
      omega

theorem applyRounds_flags (f : Poseidon p) (h : f.full % 2 = 0) (σ : Elem p → Elem p)
    (mix : List (Elem p) → List (Elem p)) (xs : List (Elem p)) :
    applyRounds σ mix ((List.range' 0 (f.full + f.partial_)).map f.isFull) xs =
      poseidonFn σ mix (f.full / 2) f.partial_ xs := by
  rw [flags_eq f h, applyRounds_append, applyRounds_append, applyRounds_replicate,
    applyRounds_replicate, applyRounds_replicate]
  rfl

variable {f : Poseidon p} {σ : Elem p → Elem p}

theorem enforces_sboxFirst (hm : Enforced1 f.sboxPermute σ) (xs : List (Expression p)) :
    Enforces (f.sboxFirst xs) fun zs w => values w zs = (values w xs).modifyHead σ := by
  cases xs with
  | nil => exact Enforces.panic
  | cons x xs =>
    unfold sboxFirst
    exact (hm x).bind fun y => Enforces.pure fun w _ hy => by
      rw [values, List.map_cons, hy]; rfl

theorem comp_sboxFirst (hm : Computed1 f.sboxPermute σ) {xs : List (Expression p)} (hne : xs ≠ [])
    {s : Hon p} (hx : ListScoped s.next xs) :
    Comp (f.sboxFirst xs) s fun zs s' => s'.D = s.D ∧ ListScoped s'.next zs ∧
      values s'.W zs = (values s.W xs).modifyHead σ := by
  cases xs with
  | nil => exact absurd rfl hne
  | cons x xs =>
    unfold sboxFirst
    have hxs : ListScoped s.next xs := fun e he => hx e (by simp [he])
    refine (hm.comp (hx x (by simp))).bind fun y s1 l1 ⟨D1, sc1, v1⟩ =>
      Comp.pure ⟨D1, ?_, ?_⟩
    · intro e he
      rcases List.mem_cons.1 he with rfl | he
      · exact sc1
      · exact l1.lscoped hxs e he
    · rw [values, List.map_cons, v1]
      exact congrArg _ (l1.values hxs)

theorem enforces_rounds (hm : Enforced1 f.sboxPermute σ) : ∀ (left round : ℕ)
    (xs : List (Expression p)), Enforces (f.rounds round left xs) fun zs w =>
      values w zs = applyRounds σ (scaleRows f.mds.rows)
        ((List.range' round left).map f.isFull) (values w xs)
  | 0, round, xs => Enforces.pure fun _ _ => rfl
  | left + 1, round, xs => by
    unfold rounds
    dsimp only
    rw [List.range'_succ, List.map_cons]
    unfold applyRounds
    split
    · rename_i hf
      refine (Enforces.mapExpressions hm xs).bind fun ys =>
        (enforces_rounds hm left (round + 1) _).mono fun zs w _ hz hy => ?_
      rw [hz, f.mds.values_mulExpressions, hy, isFull, decide_eq_true hf, if_pos rfl]
      rfl
    · rename_i hf
      refine (enforces_sboxFirst hm xs).bind fun ys =>
        (enforces_rounds hm left (round + 1) _).mono fun zs w _ hz hy => ?_
      rw [hz, f.mds.values_mulExpressions, hy, isFull, decide_eq_false hf, if_neg (by simp)]
      rfl

theorem comp_rounds (hm : Computed1 f.sboxPermute σ) (hrows : f.mds.rows ≠ []) :
    ∀ (left round : ℕ) {xs : List (Expression p)} {s : Hon p}, xs ≠ [] → ListScoped s.next xs →
    Comp (f.rounds round left xs) s fun zs s' => s'.D = s.D ∧ ListScoped s'.next zs ∧
      values s'.W zs = applyRounds σ (scaleRows f.mds.rows)
        ((List.range' round left).map f.isFull) (values s.W xs)
  | 0, round, xs, s, _, hx => Comp.pure ⟨rfl, hx, rfl⟩
  | left + 1, round, xs, s, hne, hx => by
    unfold rounds
    dsimp only
    rw [List.range'_succ, List.map_cons]
    unfold applyRounds
    have hmul : ∀ ys : List (Expression p), ys.length = xs.length → f.mds.mulExpressions ys ≠ [] := by
      intro ys hl h0
      have := congrArg List.length h0
      unfold ElementMatrix.mulExpressions at this
      rw [List.length_map, List.length_zip, hl, List.length_nil] at this
      have h1 := List.length_pos_of_ne_nil hne
      have h2 := List.length_pos_of_ne_nil hrows
      omega
    split
    · rename_i hf
      refine (Comp.mapExpressions hm xs hx).bind fun ys s1 l1 ⟨D1, sc1, v1⟩ => ?_
      refine (comp_rounds hm hrows left (round + 1) (hmul ys ?_)
        (f.mds.scoped_mulExpressions sc1)).mono fun zs s2 l2 ⟨D2, sc2, v2⟩ =>
        ⟨by rw [D2, D1], sc2, ?_⟩
      · have := congrArg List.length v1
        simpa using this
      · rw [v2, f.mds.values_mulExpressions, v1, isFull, decide_eq_true hf, if_pos rfl]
        rfl
    · rename_i hf
      refine (comp_sboxFirst hm hne hx).bind fun ys s1 l1 ⟨D1, sc1, v1⟩ => ?_
      refine (comp_rounds hm hrows left (round + 1) (hmul ys ?_)
        (f.mds.scoped_mulExpressions sc1)).mono fun zs s2 l2 ⟨D2, sc2, v2⟩ =>
        ⟨by rw [D2, D1], sc2, ?_⟩
      · have := congrArg List.length v1
        simpa using this
      · rw [v2, f.mds.values_mulExpressions, v1, isFull, decide_eq_false hf, if_neg (by simp)]
        rfl

theorem enforced_permute (hm : Enforced1 f.sboxPermute σ) :
    EnforcedList f.width f.permute
      (poseidonFn σ (scaleRows f.mds.rows) (f.full / 2) f.partial_) := by
  intro xs
  unfold permute
  refine (Enforces.require _).bind fun _ => (Enforces.require _).bind fun _ =>
    (enforces_rounds hm _ _ xs).mono fun zs w _ hz he _ _ => ?_
  rw [hz, applyRounds_flags f he]

theorem computed_permute (hm : Computed1 f.sboxPermute σ) (hrows : f.mds.rows ≠ [])
    (hw : 0 < f.width) (he : f.full % 2 = 0) :
    ComputedList f.width f.permute
      (poseidonFn σ (scaleRows f.mds.rows) (f.full / 2) f.partial_) := by
  intro s xs hl hx
  unfold permute
  refine Comp.computes (Comp.require_bind hl (Comp.require_bind he ?_))
  refine (comp_rounds hm hrows _ _ (fun h => ?_) hx).mono
    fun zs s' _ ⟨D1, sc1, v1⟩ => ⟨D1, sc1, ?_⟩
  · rw [h] at hl; simp at hl; omega
  · rw [v1, applyRounds_flags f he]

/-- The S-box with exponent `k`. -/
theorem sboxPermute_pow {k : ℕ} (hk : (f.sbox = .exponentiation3 ∧ k = 3) ∨
    (f.sbox = .exponentiation5 ∧ k = 5)) {x : Expression p} :
    f.sboxPermute x = (do
      let n ← B.ofOption (Elem.ofNat? p k)
      let m ← B.ofOption (MonomialPermutation.new n)
      m.permute x) := by
  funext b
  unfold sboxPermute sboxPermutation
  rcases hk with ⟨h, rfl⟩ | ⟨h, rfl⟩ <;>
  · rw [h]
    dsimp only
    cases h1 : Elem.ofNat? p _ with
    | none => rfl
    | some n =>
      rw [B.bind_eq (B.ofOption_some rfl _)]
      simp only [Option.bind_eq_bind, Option.bind_some]
      cases h2 : MonomialPermutation.new n with
      | none => rfl
      | some m => rfl

theorem enforced_sbox_pow {k : ℕ} (hk : (f.sbox = .exponentiation3 ∧ k = 3) ∨
    (f.sbox = .exponentiation5 ∧ k = 5)) : Enforced1 f.sboxPermute fun x => x ^ k := by
  intro x
  rw [sboxPermute_pow hk]
  refine (Enforces.ofOption (Q := fun n _ => n.n = k) fun n h _ _ => ?_).bind fun n =>
    (Enforces.ofOption (Q := fun m _ => m.n = n) fun m h _ _ => ?_).bind fun m =>
    (m.enforced_permute x).mono fun z w _ hz hm hn => by rw [hz, hm, hn]
  · by_cases hlt : k < p
    · rw [Elem.ofNat?_eq_some hlt] at h
      injection h with h
      rw [← h]
    · rw [Elem.ofNat?_eq_none (by omega)] at h
      cases h
  · rw [((MonomialPermutation.new_eq_some_iff _ _).1 h).2]

theorem computed_sbox_pow {k : ℕ} (hk : (f.sbox = .exponentiation3 ∧ k = 3) ∨
    (f.sbox = .exponentiation5 ∧ k = 5)) (hlt : k < p) (hc : Nat.Coprime (p - 1) k) :
    Computed1 f.sboxPermute fun x => x ^ k := by
  intro s x hx
  rw [sboxPermute_pow hk]
  refine Comp.computes (Comp.ofOption_bind (Elem.ofNat?_eq_some hlt)
    (Comp.ofOption_bind ((MonomialPermutation.new_eq_some_iff _ ⟨⟨k, hlt⟩⟩).2 ⟨hc, rfl⟩) ?_))
  exact (MonomialPermutation.computed_permute ⟨⟨k, hlt⟩⟩).comp hx

theorem computed_sbox_inverse (h2 : 2 < p) (hs : f.sbox = .inverse) :
    Computed1 f.sboxPermute fun x => x⁻¹ := by
  intro s x hx
  unfold sboxPermute sboxPermutation
  rw [hs]
  refine Comp.computes (Comp.ofOption_bind rfl ?_)
  exact (Computed1.inverseOrZero h2).comp hx

end Poseidon

/-! ## Rescue -/

namespace Rescue

variable {f : Rescue p} {root : Elem p → Elem p}

theorem enforced_pi1 : Enforced1 f.pi1 fun x => x ^ f.alpha.n := by
  intro x
  unfold pi1
  exact (Enforces.ofOption (Q := fun m _ => m.n = f.alpha) fun m h _ _ => by
      rw [((MonomialPermutation.new_eq_some_iff _ _).1 h).2]).bind fun m =>
    (m.enforced_permute x).mono fun z w _ hz hm => by rw [hz, hm]

theorem enforced_pi2 (h2 : 2 < p) (hroot : ∀ x, root x ^ f.alpha.n = x) :
    Enforced1 f.pi2 root := by
  intro x
  unfold pi2
  refine (Enforces.ofOption (Q := fun m _ => MonomialPermutation.new f.alpha = some m)
    fun m h _ _ => h).bind fun m => (m.enforces_inverse x).mono fun z w _ hz hm => ?_
  obtain ⟨hc, rfl⟩ := (MonomialPermutation.new_eq_some_iff _ _).1 hm
  have h0 : f.alpha.n ≠ 0 := fun h0 => by
    rw [h0, Nat.coprime_zero_right] at hc
    omega
  apply (MonomialPermutation.bijective_of_coprime h0 f.alpha.lt hc).1
  exact hz.trans (hroot _).symm

theorem computed_pi1 (hc : Nat.Coprime (p - 1) f.alpha.n) :
    Computed1 f.pi1 fun x => x ^ f.alpha.n := by
  intro s x hx
  unfold pi1
  refine Comp.computes (Comp.ofOption_bind
    ((MonomialPermutation.new_eq_some_iff _ ⟨f.alpha⟩).2 ⟨hc, rfl⟩) ?_)
  exact (MonomialPermutation.computed_permute ⟨f.alpha⟩).comp hx

theorem computed_pi2 (hc : Nat.Coprime (p - 1) f.alpha.n) (h2 : 2 ≤ f.alpha.n)
    (hroot : ∀ x, root x ^ f.alpha.n = x) : Computed1 f.pi2 root := by
  intro s x hx
  unfold pi2
  refine Comp.computes (Comp.ofOption_bind
    ((MonomialPermutation.new_eq_some_iff _ ⟨f.alpha⟩).2 ⟨hc, rfl⟩) ?_)
  refine (MonomialPermutation.comp_inverse ⟨f.alpha⟩ h2 hc hx).mono
    fun z s' _ ⟨D1, sc1, v1⟩ => ⟨D1, sc1, ?_⟩
  apply (MonomialPermutation.bijective_of_coprime (by omega) f.alpha.lt hc).1
  exact v1.trans (hroot _).symm

theorem enforces_rounds (h2 : 2 < p) (hroot : ∀ x, root x ^ f.alpha.n = x) : ∀ (n : ℕ)
    (xs : List (Expression p)), Enforces (f.rounds n xs) fun zs w =>
      values w zs = rescueFn (fun x => x ^ f.alpha.n) root (scaleRows f.mds.rows) n (values w xs)
  | 0, xs => Enforces.pure fun _ _ => rfl
  | n + 1, xs => by
    unfold rounds
    refine (Enforces.mapExpressions enforced_pi1 xs).bind fun ys =>
      (Enforces.mapExpressions (enforced_pi2 h2 hroot) _).bind fun ys' =>
      (enforces_rounds h2 hroot n _).mono fun zs w _ hz hy' hy => ?_
    rw [hz, f.mds.values_mulExpressions, hy', f.mds.values_mulExpressions, hy]
    rfl

theorem comp_rounds (hc : Nat.Coprime (p - 1) f.alpha.n) (h2 : 2 ≤ f.alpha.n)
    (hroot : ∀ x, root x ^ f.alpha.n = x) : ∀ (n : ℕ) {xs : List (Expression p)} {s : Hon p},
    ListScoped s.next xs →
    Comp (f.rounds n xs) s fun zs s' => s'.D = s.D ∧ ListScoped s'.next zs ∧
      values s'.W zs = rescueFn (fun x => x ^ f.alpha.n) root (scaleRows f.mds.rows) n
        (values s.W xs)
  | 0, xs, s, hx => Comp.pure ⟨rfl, hx, rfl⟩
  | n + 1, xs, s, hx => by
    unfold rounds
    refine (Comp.mapExpressions (computed_pi1 hc) xs hx).bind fun ys s1 l1 ⟨D1, sc1, v1⟩ => ?_
    refine (Comp.mapExpressions (computed_pi2 hc h2 hroot) _
      (f.mds.scoped_mulExpressions sc1)).bind fun ys' s2 l2 ⟨D2, sc2, v2⟩ => ?_
    refine (comp_rounds hc h2 hroot n (f.mds.scoped_mulExpressions sc2)).mono
      fun zs s3 l3 ⟨D3, sc3, v3⟩ => ⟨by rw [D3, D2, D1], sc3, ?_⟩
    rw [v3, f.mds.values_mulExpressions, v2, f.mds.values_mulExpressions, v1]
    rfl

end Rescue

/-! ## No diffusion -/

/-- Agreement of two lists in length and at position `i`. -/
def AgreeAt (i : ℕ) (xs ys : List (Elem p)) : Prop := xs.length = ys.length ∧ xs[i]? = ys[i]?

theorem AgreeAt.map {i : ℕ} {xs ys : List (Elem p)} (h : AgreeAt i xs ys) (σ : Elem p → Elem p) :
    AgreeAt i (xs.map σ) (ys.map σ) := by
  refine ⟨by simpa using h.1, ?_⟩
  rw [List.getElem?_map, List.getElem?_map, h.2]

theorem AgreeAt.modifyHead {i : ℕ} {xs ys : List (Elem p)} (h : AgreeAt i xs ys)
    (σ : Elem p → Elem p) : AgreeAt i (xs.modifyHead σ) (ys.modifyHead σ) := by
  obtain ⟨h1, h2⟩ := h
  match xs, ys, h1, i with
  | [], [], _, _ => exact ⟨rfl, rfl⟩
  | x :: xs, y :: ys, h1, 0 =>
    refine ⟨by simpa using h1, ?_⟩
    simp only [List.getElem?_cons_zero, Option.some.injEq] at h2
    simp [h2]
  | x :: xs, y :: ys, h1, i + 1 => exact ⟨by simpa using h1, by simpa using h2⟩

theorem AgreeAt.scaleRows {i : ℕ} {xs ys : List (Elem p)} (h : AgreeAt i xs ys)
    (rows : List (List (Elem p))) : AgreeAt i (R1CS.scaleRows rows xs) (R1CS.scaleRows rows ys) := by
  refine ⟨by simp [R1CS.scaleRows, h.1], ?_⟩
  unfold R1CS.scaleRows
  rw [List.getElem?_zipWith, List.getElem?_zipWith, h.2]

theorem AgreeAt.iterate {i : ℕ} {g : List (Elem p) → List (Elem p)}
    (hg : ∀ xs ys, AgreeAt i xs ys → AgreeAt i (g xs) (g ys)) : ∀ (n : ℕ) {xs ys : List (Elem p)},
    AgreeAt i xs ys → AgreeAt i (g^[n] xs) (g^[n] ys)
  | 0, _, _, h => h
  | n + 1, _, _, h => AgreeAt.iterate hg n (hg _ _ h)

theorem AgreeAt.poseidonFn {i : ℕ} {xs ys : List (Elem p)} (h : AgreeAt i xs ys)
    (σ : Elem p → Elem p) (rows : List (List (Elem p))) (a t : ℕ) :
    AgreeAt i (R1CS.poseidonFn σ (R1CS.scaleRows rows) a t xs)
      (R1CS.poseidonFn σ (R1CS.scaleRows rows) a t ys) := by
  have hf : ∀ xs ys, AgreeAt i xs ys →
      AgreeAt i (poseidonFull σ (R1CS.scaleRows rows) xs) (poseidonFull σ (R1CS.scaleRows rows) ys) :=
    fun xs ys h => (h.map σ).scaleRows rows
  have hp : ∀ xs ys, AgreeAt i xs ys →
      AgreeAt i (poseidonPartial σ (R1CS.scaleRows rows) xs)
        (poseidonPartial σ (R1CS.scaleRows rows) ys) :=
    fun xs ys h => (h.modifyHead σ).scaleRows rows
  exact AgreeAt.iterate hf a (AgreeAt.iterate hp t (AgreeAt.iterate hf a h))

theorem AgreeAt.rescueFn {i : ℕ} {xs ys : List (Elem p)} (h : AgreeAt i xs ys)
    (pow root : Elem p → Elem p) (rows : List (List (Elem p))) (n : ℕ) :
    AgreeAt i (R1CS.rescueFn pow root (R1CS.scaleRows rows) n xs)
      (R1CS.rescueFn pow root (R1CS.scaleRows rows) n ys) :=
  AgreeAt.iterate (fun _ _ h => ((((h.map pow).scaleRows rows).map root).scaleRows rows)) n h

end R1CS
