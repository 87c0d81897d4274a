import Verif.Lemmas.Hashes

/-!
# The sponge construction
-/

set_option linter.unusedSectionVars false

namespace R1CS

variable {p : ℕ} [hp : Fact p.Prime]

open Expression (eval_add)

/-! ## The functions computed by the two loops -/

/-- Adding a chunk to the front of a state. -/
def addFront : List (Elem p) → List (Elem p) → List (Elem p)
  | st, [] => st
  | [], _ :: _ => []
  | s :: ss, e :: es => (s + e) :: addFront ss es

/-- The absorbing loop as a function. -/
def absorbFn (f : List (Elem p) → List (Elem p)) : List (List (Elem p)) → List (Elem p) →
    List (Elem p)
  | [], st => st
  | ch :: chs, st => absorbFn f chs (f (addFront st ch))

/-- The squeezing loop as a function. -/
def squeezeFn (f : List (Elem p) → List (Elem p)) (r len : ℕ) : ℕ → List (Elem p) →
    List (Elem p) → List (Elem p)
  | 0, _, outs => outs
  | fuel + 1, st, outs =>
    if outs.length < len then squeezeFn f r len fuel (f st) (outs ++ (f st).take r) else outs

theorem values_append (w : Assign p) (xs ys : List (Expression p)) :
    values w (xs ++ ys) = values w xs ++ values w ys := List.map_append

theorem addFront_append : ∀ (s t e : List (Elem p)), e.length ≤ s.length →
    addFront (s ++ t) e = addFront s e ++ t
  | s, t, [], _ => by cases s <;> cases t <;> rfl
  | [], t, _ :: _, h => by simp at h
  | s :: ss, t, e :: es, h => by
    rw [List.cons_append]
    unfold addFront
    rw [addFront_append ss t es (by simpa using h)]; rfl

theorem addFront_length : ∀ (s e : List (Elem p)), (addFront s e).length = s.length
  | s, [] => by cases s <;> rfl
  | [], _ :: _ => rfl
  | s :: ss, e :: es => by
    unfold addFront
    rw [List.length_cons, addFront_length ss es, List.length_cons]

theorem addFront_getD : ∀ (s e : List (Elem p)) (j : ℕ), e.length ≤ s.length →
    (addFront s e).getD j 0 = s.getD j 0 + e.getD j 0
  | s, [], j, _ => by cases s <;> simp [addFront]
  | [], _ :: _, j, h => by simp at h
  | s :: ss, e :: es, 0, h => by simp [addFront]
  | s :: ss, e :: es, j + 1, h => by
    unfold addFront
    simp only [List.getD_cons_succ]
    exact addFront_getD ss es j (by simpa using h)

namespace Sponge

theorem addChunk_some : ∀ {s e r : List (Expression p)}, addChunk s e = some r →
    e.length ≤ s.length ∧ r.length = s.length ∧
      (∀ w, values w r = addFront (values w s) (values w e)) ∧
      ∀ n, ListScoped n s → ListScoped n e → ListScoped n r
  | s, [], r, h => by
    have : s = r := by cases s <;> simpa [addChunk] using h
    subst this
    exact ⟨by simp, rfl, fun w => by cases s <;> rfl, fun n h _ => h⟩
  | [], _ :: _, r, h => by simp [addChunk] at h
  | s :: ss, e :: es, r, h => by
    unfold addChunk at h
    obtain ⟨r', h1, h2⟩ := Option.bind_eq_some_iff.1 h
    injection h2 with h2
    subst h2
    obtain ⟨g1, g2, g3, g4⟩ := addChunk_some h1
    refine ⟨by simpa using g1, by simpa using g2, fun w => ?_, fun n hs he => ?_⟩
    · rw [values, List.map_cons, eval_add]
      exact congrArg _ (g3 w)
    · intro x hx
      rcases List.mem_cons.1 hx with rfl | hx
      · exact (hs s (by simp)).add (he e (by simp))
      · exact g4 n (fun x hx => hs x (by simp [hx])) (fun x hx => he x (by simp [hx])) x hx

theorem addChunk_isSome : ∀ {s e : List (Expression p)}, e.length ≤ s.length →
    ∃ r, addChunk s e = some r
  | s, [], _ => ⟨s, by cases s <;> rfl⟩
  | [], _ :: _, h => by simp at h
  | s :: ss, e :: es, h => by
    obtain ⟨r, hr⟩ := addChunk_isSome (s := ss) (e := es) (by simpa using h)
    exact ⟨_, by unfold addChunk; rw [hr]; rfl⟩

/-- Shape of the two sections. -/
def Shape (sp : Sponge p) (i c : List (Expression p)) : Prop :=
  i.length = sp.bitrate ∧ c.length = sp.capacity

variable {sp : Sponge p} {f : List (Elem p) → List (Elem p)}

theorem enforces_permuteState (hw : sp.bitrate + sp.capacity = sp.permutation.width)
    (hf : EnforcedList sp.permutation.width sp.permutation.permute f)
    (i c : List (Expression p)) :
    Enforces (sp.permuteState i c) fun r w => sp.Shape i c →
      sp.Shape r.1 r.2 ∧ values w (r.1 ++ r.2) = f (values w (i ++ c)) := by
  unfold permuteState
  refine (hf (i ++ c)).bind fun zs => (Enforces.require _).bind fun _ =>
    (Enforces.require _).bind fun _ => Enforces.pure fun w h1 hr hl hz hs => ?_
  have hlen : (i ++ c).length = sp.permutation.width := by
    rw [List.length_append, hs.1, hs.2, hw]
  dsimp only
  refine ⟨⟨by rw [List.length_take]; omega, by rw [List.length_drop]; omega⟩, ?_⟩
  rw [List.take_append_drop]
  exact hz hlen

theorem comp_permuteState (hw : sp.bitrate + sp.capacity = sp.permutation.width)
    (hlenf : ∀ xs : List (Elem p), xs.length = sp.permutation.width →
      (f xs).length = sp.permutation.width)
    (hf : ComputedList sp.permutation.width sp.permutation.permute f) {s : Hon p}
    {i c : List (Expression p)} (hs : sp.Shape i c) (hi : ListScoped s.next i)
    (hc : ListScoped s.next c) :
    Comp (sp.permuteState i c) s fun r s' => s'.D = s.D ∧ sp.Shape r.1 r.2 ∧
      ListScoped s'.next r.1 ∧ ListScoped s'.next r.2 ∧
      values s'.W (r.1 ++ r.2) = f (values s.W (i ++ c)) := by
  have hlen : (i ++ c).length = sp.permutation.width := by
    rw [List.length_append, hs.1, hs.2, hw]
  unfold permuteState
  refine (hf.comp hlen (hi.append hc)).bind fun zs s1 l1 ⟨D1, sc1, v1⟩ => ?_
  have hzs : zs.length = sp.permutation.width := by
    have := congrArg List.length v1
    rw [hlenf _ (by simpa using hlen)] at this
    simpa using this
  refine Comp.require_bind (by omega) (Comp.require_bind (by omega) (Comp.pure ?_))
  refine ⟨D1, ⟨by rw [List.length_take]; omega, by rw [List.length_drop]; omega⟩, sc1.take _,
    sc1.drop _, ?_⟩
  rw [List.take_append_drop]
  exact v1

theorem enforces_absorb (hw : sp.bitrate + sp.capacity = sp.permutation.width)
    (hf : EnforcedList sp.permutation.width sp.permutation.permute f) :
    ∀ (chunks : List (List (Expression p))) (i c : List (Expression p)),
    Enforces (sp.absorb chunks i c) fun r w => sp.Shape i c →
      sp.Shape r.1 r.2 ∧
        values w (r.1 ++ r.2) = absorbFn f (chunks.map (values w)) (values w (i ++ c))
  | [], i, c => Enforces.pure fun w _ hs => ⟨hs, rfl⟩
  | ch :: chs, i, c => by
    unfold absorb
    refine (Enforces.ofOption (Q := fun i' _ => addChunk i ch = some i') fun a h _ _ => h).bind
      fun i' => (enforces_permuteState hw hf i' c).bind fun r =>
      (enforces_absorb hw hf chs r.1 r.2).mono fun z w h1 hz hr hi hs => ?_
    obtain ⟨g1, g2, g3, g4⟩ := addChunk_some hi
    obtain ⟨r1, r2⟩ := hr ⟨g2.trans hs.1, hs.2⟩
    obtain ⟨z1, z2⟩ := hz r1
    refine ⟨z1, ?_⟩
    rw [z2, r2, List.map_cons]
    conv_rhs => unfold absorbFn
    rw [values_append, values_append, addFront_append _ _ _ (by simpa [values] using g1), g3 w]

theorem comp_absorb (hw : sp.bitrate + sp.capacity = sp.permutation.width)
    (hlenf : ∀ xs : List (Elem p), xs.length = sp.permutation.width →
      (f xs).length = sp.permutation.width)
    (hf : ComputedList sp.permutation.width sp.permutation.permute f) :
    ∀ (chunks : List (List (Expression p))) {s : Hon p} {i c : List (Expression p)},
    sp.Shape i c → ListScoped s.next i → ListScoped s.next c →
    (∀ ch ∈ chunks, ch.length ≤ sp.bitrate ∧ ListScoped s.next ch) →
    Comp (sp.absorb chunks i c) s fun r s' => s'.D = s.D ∧ sp.Shape r.1 r.2 ∧
      ListScoped s'.next r.1 ∧ ListScoped s'.next r.2 ∧
      values s'.W (r.1 ++ r.2) = absorbFn f (chunks.map (values s.W)) (values s.W (i ++ c))
  | [], s, i, c, hs, hi, hc, _ => Comp.pure ⟨rfl, hs, hi, hc, rfl⟩
  | ch :: chs, s, i, c, hs, hi, hc, hch => by
    unfold absorb
    obtain ⟨hl, hsc⟩ := hch ch (by simp)
    obtain ⟨i', hi'⟩ := addChunk_isSome (s := i) (e := ch) (by rw [hs.1]; exact hl)
    obtain ⟨g1, g2, g3, g4⟩ := addChunk_some hi'
    refine Comp.ofOption_bind hi' ?_
    refine (comp_permuteState hw hlenf hf ⟨g2.trans hs.1, hs.2⟩ (g4 _ hi hsc) hc).bind
      fun r s1 l1 ⟨D1, sh1, a1, b1, v1⟩ => ?_
    have hchs : ∀ ch ∈ chs, ch.length ≤ sp.bitrate ∧ ListScoped s.next ch :=
      fun x hx => hch x (by simp [hx])
    refine (comp_absorb hw hlenf hf chs sh1 a1 b1 fun x hx =>
      ⟨(hchs x hx).1, l1.lscoped (hchs x hx).2⟩).mono
      fun z s2 l2 ⟨D2, sh2, a2, b2, v2⟩ => ⟨by rw [D2, D1], sh2, a2, b2, ?_⟩
    rw [v2, v1, List.map_cons]
    conv_rhs => unfold absorbFn
    have e1 : chs.map (values s1.W) = chs.map (values s.W) :=
      List.map_congr_left fun x hx => l1.values (hchs x hx).2
    rw [e1]
    rw [values_append, values_append, addFront_append _ _ _ (by simpa [values] using g1), g3 s.W]

theorem take_values_append {w : Assign p} {i c : List (Expression p)} (h : sp.Shape i c) :
    (values w (i ++ c)).take sp.bitrate = values w i := by
  rw [values, List.map_append, List.take_append_of_le_length (by simp [h.1]),
    List.take_of_length_le (by simp [h.1])]

theorem enforces_squeeze (hw : sp.bitrate + sp.capacity = sp.permutation.width)
    (hf : EnforcedList sp.permutation.width sp.permutation.permute f) (len : ℕ) :
    ∀ (fuel : ℕ) (i c o : List (Expression p)),
    Enforces (sp.squeeze len fuel i c o) fun z w => sp.Shape i c →
      values w z = squeezeFn f sp.bitrate len fuel (values w (i ++ c)) (values w o)
  | 0, i, c, o => by
    unfold squeeze
    split
    · exact Enforces.panic
    · exact Enforces.pure fun _ _ _ => rfl
  | fuel + 1, i, c, o => by
    unfold squeeze
    split
    · rename_i hlt
      refine (enforces_permuteState hw hf i c).bind fun r =>
        (enforces_squeeze hw hf len fuel r.1 r.2 _).mono fun z w h1 hz hr hs => ?_
      obtain ⟨r1, r2⟩ := hr hs
      rw [hz r1, r2]
      conv_rhs => unfold squeezeFn
      rw [if_pos (by simpa [values] using hlt), ← r2, take_values_append r1, ← values_append]
    · rename_i hlt
      refine Enforces.pure fun w _ _ => ?_
      unfold squeezeFn
      rw [if_neg (by simpa using hlt)]

theorem comp_squeeze (hr : 0 < sp.bitrate) (hw : sp.bitrate + sp.capacity = sp.permutation.width)
    (hlenf : ∀ xs : List (Elem p), xs.length = sp.permutation.width →
      (f xs).length = sp.permutation.width)
    (hf : ComputedList sp.permutation.width sp.permutation.permute f) (len : ℕ) :
    ∀ (fuel : ℕ) {s : Hon p} {i c o : List (Expression p)}, sp.Shape i c →
    ListScoped s.next i → ListScoped s.next c → ListScoped s.next o → len ≤ o.length + fuel →
    Comp (sp.squeeze len fuel i c o) s fun z s' => s'.D = s.D ∧ ListScoped s'.next z ∧
      values s'.W z = squeezeFn f sp.bitrate len fuel (values s.W (i ++ c)) (values s.W o)
  | 0, s, i, c, o, hs, hi, hc, ho, hl => by
    unfold squeeze
    rw [if_neg (by omega)]
    exact Comp.pure ⟨rfl, ho, rfl⟩
  | fuel + 1, s, i, c, o, hs, hi, hc, ho, hl => by
    unfold squeeze
    by_cases hlt : o.length < len
    · rw [if_pos hlt]
      refine (comp_permuteState hw hlenf hf hs hi hc).bind
        fun r s1 l1 ⟨D1, sh1, a1, b1, v1⟩ => ?_
      refine (comp_squeeze hr hw hlenf hf len fuel sh1 a1 b1 ((l1.lscoped ho).append a1) ?_).mono
        fun z s2 l2 ⟨D2, sc2, v2⟩ => ⟨by rw [D2, D1], sc2, ?_⟩
      · rw [List.length_append, sh1.1]; omega
      · rw [v2, v1]
        conv_rhs => unfold squeezeFn
        rw [if_pos (by simpa [values] using hlt), ← v1, take_values_append sh1, ← l1.values ho,
          ← values_append]
    · rw [if_neg hlt]
      refine Comp.pure ⟨rfl, ho, ?_⟩
      unfold squeezeFn
      rw [if_neg (by simpa using hlt)]

end Sponge

/-! ## The loops and the specification -/

theorem chunksOf_go_map {α β : Type} (g : α → β) (k : ℕ) : ∀ (fuel : ℕ) (l : List α),
    (chunksOf.go k fuel l).map (List.map g) = chunksOf.go k fuel (l.map g)
  | 0, _ => by simp [chunksOf.go]
  | _ + 1, [] => by simp [chunksOf.go]
  | fuel + 1, x :: xs => by
    rw [List.map_cons]
    unfold chunksOf.go
    rw [List.map_cons, chunksOf_go_map g k fuel, ← List.map_cons, List.map_take, List.map_drop]

theorem chunksOf_map {α β : Type} (g : α → β) (k : ℕ) (l : List α) :
    (chunksOf k l).map (List.map g) = chunksOf k (l.map g) := by
  unfold chunksOf
  rw [chunksOf_go_map, List.length_map]

/-- The length of the state is an invariant. -/
theorem spongeState_length {f : List (Elem p) → List (Elem p)} {r c : ℕ}
    (hlenf : ∀ xs : List (Elem p), xs.length = r + c → (f xs).length = r + c)
    (inputs : List (Elem p)) : ∀ i, (spongeState f r c inputs i).length = r + c
  | 0 => by simp [spongeState]
  | i + 1 => by
    unfold spongeState
    exact hlenf _ (by simp)

theorem addFront_eq_map {r c : ℕ} (st e : List (Elem p)) (hl : st.length = r + c)
    (he : e.length ≤ r) (g : ℕ → Elem p) (hg : ∀ j, j < r → e.getD j 0 = g j) :
    addFront st e = (List.range (r + c)).map fun j =>
      st.getD j 0 + if j < r then g j else 0 := by
  apply List.ext_getElem
  · rw [addFront_length, hl]; simp
  · intro j h1 h2
    have h3 : j < r + c := by simpa using h2
    rw [List.getElem_map, List.getElem_range]
    have := addFront_getD st e j (by omega)
    rw [List.getD_eq_getElem _ _ h1] at this
    rw [this]
    congr 1
    split
    · rename_i hj
      exact hg j hj
    · rename_i hj
      exact List.getD_eq_default _ _ (by omega)

theorem absorbFn_go {f : List (Elem p) → List (Elem p)} {r c : ℕ} (hr : 0 < r)
    (hlenf : ∀ xs : List (Elem p), xs.length = r + c → (f xs).length = r + c)
    (inputs : List (Elem p)) : ∀ (fuel i : ℕ), (inputs.drop (i * r)).length ≤ fuel →
    absorbFn f (chunksOf.go r fuel (inputs.drop (i * r))) (spongeState f r c inputs i) =
      spongeState f r c inputs (i + ((inputs.drop (i * r)).length + r - 1) / r)
  | 0, i, h => by
    have h0 : (inputs.drop (i * r)).length = 0 := by omega
    rw [h0, Nat.zero_add, Nat.div_eq_of_lt (by omega)]
    rfl
  | fuel + 1, i, h => by
    cases hd : inputs.drop (i * r) with
    | nil =>
      rw [List.length_nil, Nat.zero_add, Nat.div_eq_of_lt (by omega)]
      rfl
    | cons x xs =>
      unfold chunksOf.go absorbFn
      rw [← hd]
      have hdl : 0 < (inputs.drop (i * r)).length := by rw [hd]; simp
      have hdd : (inputs.drop (i * r)).drop r = inputs.drop ((i + 1) * r) := by
        rw [List.drop_drop, Nat.succ_mul]
      have hst : f (addFront (spongeState f r c inputs i) ((inputs.drop (i * r)).take r)) =
          spongeState f r c inputs (i + 1) := by
        conv_rhs => unfold spongeState
        congr 1
        refine addFront_eq_map _ _ (spongeState_length hlenf inputs i) (by simp)
          (fun j => inputs.getD (i * r + j) 0) fun j hj => ?_
        simp only [List.getD_eq_getElem?_getD]
        rw [List.getElem?_take, if_pos hj, List.getElem?_drop]
      rw [hst, hdd, absorbFn_go hr hlenf inputs fuel (i + 1) (by
        rw [← hdd, List.length_drop]; omega)]
      congr 1
      rw [← hdd, List.length_drop]
      generalize (inputs.drop (i * r)).length = n at hdl
      rcases Nat.lt_or_ge n r with hn | hn
      · rw [Nat.sub_eq_zero_of_le hn.le, Nat.zero_add, Nat.div_eq_of_lt (by omega)]
        rw [show n + r - 1 = (n - 1) + r by omega, Nat.add_div_right _ hr,
          Nat.div_eq_of_lt (by omega)]
      · rw [show n + r - 1 = (n - r + r - 1) + r by omega, Nat.add_div_right _ hr]
        omega

theorem absorbFn_eq {f : List (Elem p) → List (Elem p)} {r c : ℕ} (hr : 0 < r)
    (hlenf : ∀ xs : List (Elem p), xs.length = r + c → (f xs).length = r + c)
    (inputs : List (Elem p)) :
    absorbFn f (chunksOf r inputs) (List.replicate (r + c) 0) =
      spongeState f r c inputs ((inputs.length + r - 1) / r) := by
  have := absorbFn_go hr hlenf inputs inputs.length 0 (by simp)
  rw [Nat.zero_mul, List.drop_zero, Nat.zero_add] at this
  exact this

theorem squeezeFn_take {f : List (Elem p) → List (Elem p)} {r c : ℕ} (hr : 0 < r)
    (hlenf : ∀ xs : List (Elem p), xs.length = r + c → (f xs).length = r + c)
    (st : List (Elem p)) (hst : st.length = r + c) (len : ℕ) : ∀ (fuel k : ℕ)
    (outs : List (Elem p)), len ≤ outs.length + fuel →
    outs = (List.range ((k + 1) * r)).map (fun j => (f^[j / r] st).getD (j % r) 0) →
    (squeezeFn f r len fuel (f^[k] st) outs).take len =
      (List.range len).map fun j => (f^[j / r] st).getD (j % r) 0
  | 0, k, outs, hl, ho => by
    unfold squeezeFn
    rw [ho, ← List.map_take, List.take_range, Nat.min_eq_left]
    have : outs.length = (k + 1) * r := by rw [ho]; simp
    omega
  | fuel + 1, k, outs, hl, ho => by
    have hlen : outs.length = (k + 1) * r := by rw [ho]; simp
    unfold squeezeFn
    split
    · rw [← Function.iterate_succ_apply' f k st]
      have hkl : (f^[k + 1] st).length = r + c := by
        generalize k + 1 = m
        induction m with
        | zero => exact hst
        | succ m ih => rw [Function.iterate_succ_apply']; exact hlenf _ ih
      have hout : outs ++ (f^[k + 1] st).take r =
          (List.range ((k + 1 + 1) * r)).map (fun j => (f^[j / r] st).getD (j % r) 0) := by
        rw [Nat.succ_mul (k + 1), List.range_add, List.map_append, ← ho]
        congr 1
        rw [List.map_map]
        apply List.ext_getElem
        · rw [List.length_take, hkl, List.length_map, List.length_range]; omega
        · intro j h1 h2
          have hj : j < r := by simpa using h2
          rw [List.getElem_take, List.getElem_map, List.getElem_range]
          simp only [Function.comp]
          rw [Nat.add_comm ((k + 1) * r), Nat.add_mul_div_right _ _ hr, Nat.add_mul_mod_self_right,
            Nat.div_eq_of_lt hj, Nat.mod_eq_of_lt hj, Nat.zero_add,
            List.getD_eq_getElem _ _ (by omega)]
      refine squeezeFn_take hr hlenf st hst len fuel (k + 1) _ ?_ hout
      rw [hout]
      simp only [List.length_map, List.length_range]
      rw [Nat.succ_mul]
      omega
    · rename_i hge
      rw [ho, ← List.map_take, List.take_range, Nat.min_eq_left]
      omega

/-- What the loops of `evaluate` compute is the specification. -/
theorem sponge_spec {f : List (Elem p) → List (Elem p)} {r c : ℕ} (hr : 0 < r)
    (hlenf : ∀ xs : List (Elem p), xs.length = r + c → (f xs).length = r + c)
    (inputs : List (Elem p)) (len : ℕ) :
    (squeezeFn f r len len (absorbFn f (chunksOf r inputs) (List.replicate (r + c) 0))
      ((absorbFn f (chunksOf r inputs) (List.replicate (r + c) 0)).take r)).take len =
      spongeOutput f r c inputs len := by
  rw [absorbFn_eq hr hlenf]
  set st := spongeState f r c inputs ((inputs.length + r - 1) / r) with hst
  have hstl : st.length = r + c := spongeState_length hlenf inputs _
  have := squeezeFn_take hr hlenf st hstl len len 0 (st.take r) (by omega) (by
    rw [Nat.zero_add, Nat.one_mul]
    apply List.ext_getElem
    · simp [hstl]
    · intro j h1 h2
      have hj : j < r := by simpa using h2
      rw [List.getElem_take, List.getElem_map, List.getElem_range, Nat.div_eq_of_lt hj,
        Nat.mod_eq_of_lt hj, Function.iterate_zero, id, List.getD_eq_getElem _ _ (by omega)])
  exact this

end R1CS
