import Verif.Lemmas.PassesNeeds
import Verif.Lemmas.PassesCircuit
import Verif.Props.Outcome

/-!
# Circuits which need several passes
-/

set_option linter.unusedSectionVars false

namespace R1CS

variable {p : ℕ} [hp : Fact p.Prime] {α β : Type}

open Language Circuit

namespace Needs

variable {d e n : ℕ}

theorem mono {m : B p α} (h : Needs e n m) (hd : d ≤ e) : Needs d n m := by
  intro γ δ pre k c a z b b1 b2 h1 h2 h3 h4 h5 h6 v v' j hv hj
  exact lt_of_le_of_lt hd (h γ δ pre k c a z b b1 b2 h1 h2 h3 h4 h5 h6 v v' j hv hj)

theorem bind {m : B p α} {f : α → B p β} (h : Needs d n m) (hf : ∀ a, Tidy (f a)) :
    Needs d n (m >>= f) := by
  intro γ δ pre k c a z b b1 b2 h1 h2 h3 h4 h5 h6 v v' j hv hj
  obtain ⟨a', b', e1, e2⟩ := B.bind_run h5
  have hle := (C23_appends (hf a').1 e2).1
  exact h γ δ pre (fun c a => f a >>= fun d => k c d) c a' z b b' b2 h1
    (fun c a => (hf a).bind fun d => h2 c d) h3 h4 e1 (by rw [B.bind_eq e2, h6]) v v' j
    (fun i g1 g2 => hv i g1 (by omega)) hj

theorem of_run {m : B p α} (h : ∀ b a b1, m b = some (a, b1) →
    ∃ m' : B p α, Needs d n m' ∧ m' b = some (a, b1)) : Needs d n m := by
  intro γ δ pre k c a z b b1 b2 h1 h2 h3 h4 h5 h6 v v' j hv hj
  obtain ⟨m', g1, g2⟩ := h b a b1 h5
  exact g1 γ δ pre k c a z b b1 b2 h1 h2 h3 h4 g2 h6 v v' j hv hj

theorem onAll {t : Obj p → Option α} {f : List α → B p (List (Obj p))} {os : List (Obj p)}
    (h : ∀ as, os.mapM t = some as → Needs d n (f as)) : Needs d n (Language.onAll t f os) := by
  refine of_run fun b a b1 hr => ?_
  unfold Language.onAll at hr
  obtain ⟨as, b', e1, e2⟩ := B.bind_run hr
  obtain ⟨e3, rfl⟩ := B.ofOption_eq_some e1
  exact ⟨_, h as e3, e2⟩

theorem panic : Needs d n (B.panic : B p α) := of_run fun _ _ _ h => by cases h

theorem call2 {f : α → α → B p (List (Obj p))} (h : ∀ x y, Needs d n (f x y)) :
    ∀ as, Needs d n (Language.call2 f as)
  | [x, y] => h x y
  | [] => panic
  | [_] => panic
  | _ :: _ :: _ :: _ => panic

end Needs

theorem Op.needs {o : Op p} {d n : ℕ} {os : List (Obj p)} (h : o.Lasts d os.length)
    (hs : ∀ o ∈ os, o.Scoped n) : Needs d n (o.run os) := by
  have hlen : ∀ {xs : List (Expression p)}, os.mapM expr? = some xs → xs.length = os.length :=
    fun h => R1CS.mapM_length h
  have hsc : ∀ {xs : List (Expression p)}, os.mapM expr? = some xs → ∀ x ∈ xs, x.Scoped n :=
    fun h => Kind.scopedAll Kind.expr hs h
  have hcons : ∀ {xs : List (Expression p)}, xs.length ≠ 2 →
      ∀ x y, xs = [x, y] → (y - x).asConstant = none := fun h x y e => absurd (by rw [e]; rfl) h
  cases o <;> try exact absurd h id
  case modulus =>
    exact Needs.onAll fun xs _ => Needs.call2 (fun x y => Needs.bind
      (((Slow.modulus x y).needs (Tidy.modulus _ _)).mono h) fun _ => Tidy.pure _) xs
  case divides =>
    exact Needs.onAll fun xs _ => Needs.call2 (fun x y => Needs.bind
      (((Slow.divides x y).needs (Tidy.divides _ _)).mono h) fun _ => Tidy.pure _) xs
  case assertPermutation k =>
    obtain ⟨h1, h2, h3⟩ := h
    have ht : ∀ {xs : List (Expression p)}, os.mapM expr? = some xs → (xs.take k).length = k :=
      fun h => by rw [List.length_take, hlen h, h3]; omega
    refine Needs.onAll fun xs hx => Needs.bind (Needs.mono (Slow.needs (Slow.assertPermutation ?_ ?_ ?_ ?_)
      (Tidy.assertPermutation _ _)) ?_) fun _ => Tidy.pure _
    · rw [ht hx]; omega
    · exact fun x h => hsc hx x (List.mem_of_mem_take h)
    · exact fun x h => hsc hx x (List.mem_of_mem_drop h)
    · exact hcons (by rw [ht hx]; omega)
    · rw [ht hx]; exact h1
  case sortAscending =>
    exact Needs.onAll fun xs hx => Needs.bind (((Slow.sortAscending (hsc hx)
      (hcons (by rw [hlen hx]; exact h.2))).needs (Tidy.sortAscending _)).mono
        (by rw [hlen hx]; exact h.1)) fun _ => Tidy.pure _
  case sortDescending =>
    exact Needs.onAll fun xs hx => Needs.bind (((Slow.sortDescending (hsc hx)
      (hcons (by rw [hlen hx]; exact h.2))).needs (Tidy.sortDescending _)).mono
        (by rw [hlen hx]; exact h.1)) fun _ => Tidy.pure _
  case function k m f s c t =>
    refine Needs.onAll fun xs hx => Needs.of_run fun b a b1 hr => ?_
    obtain ⟨_, b', e1, e2⟩ := B.bind_run hr
    unfold B.require at e1
    split at e1
    · next hk =>
      cases e1
      exact ⟨_, Needs.bind (h n xs (hsc hx) hk) fun _ => Tidy.pure _, e2⟩
    · cases e1

namespace Circuit

theorem runFrom_append : ∀ (c1 c2 : Circuit p) (os : List (Obj p)),
    runFrom (c1 ++ c2) os = runFrom c1 os >>= fun os' => runFrom c2 os'
  | [], _, _ => rfl
  | i :: c1, c2, os => by
    show (step i os >>= fun os' => runFrom (c1 ++ c2) os') =
      (step i os >>= fun os' => runFrom c1 os') >>= fun os' => runFrom c2 os'
    rw [bind_assoc]
    congr 1
    funext os'
    exact runFrom_append c1 c2 os'

theorem outcomeFrom_prefix : ∀ (c1 c2 : Circuit p) (vs : List (Val p)),
    (outcomeFrom (c1 ++ c2) vs).isSome → (outcomeFrom c1 vs).isSome
  | [], _, _, _ => rfl
  | i :: c1, c2, vs, h => by
    simp only [List.cons_append] at h
    unfold outcomeFrom at h ⊢
    cases hv : stepOutcome i vs with
    | none => rw [hv] at h; cases h
    | some r =>
      rw [hv] at h
      have : (outcomeFrom (c1 ++ c2) r.1).isSome := by
        cases h' : outcomeFrom (c1 ++ c2) r.1 with
        | none => simp [h'] at h
        | some _ => rfl
      obtain ⟨r', hr'⟩ := Option.isSome_iff_exists.1 (outcomeFrom_prefix c1 c2 r.1 this)
      simp [hr']

/-- A circuit with an instruction which needs the pass `d`. -/
theorem needs (h4 : 4 ≤ Elem.maxBits p) {c : Circuit p} {d : ℕ} {i : Op p × List ℕ} (hi : i ∈ c)
    (hl : i.1.Lasts d i.2.length) {xs : List (Elem p)} (ho : (c.outcome xs).isSome)
    {os : List (Obj p)} {b : Builder p} (hb : c.build xs.length Builder.new = some (os, b))
    {v' : WireValues p} {j : ℕ} (hj : InPasses j b.build.witnessGenerators (inputs xs) v') : d < j := by
  obtain ⟨c1, c2, rfl⟩ := List.append_of_mem hi
  have hone : (inputs xs).total ONE = 1 := by simp [WireValues.total, inputs]
  let s : Run p := Run.free (1 + xs.length) (by omega) (inputs xs).total hone
  have hW : (List.range' 1 xs.length).map (inputs xs).total = xs :=
    range_map xs _ fun i hi => by simp [WireValues.total, inputs, ONE, hi]
  have hm := inputs_meaning (W := (inputs xs).total) hone (List.range' 1 xs.length)
  rw [hW] at hm
  obtain ⟨r, hr⟩ := Option.isSome_iff_exists.1 (outcomeFrom_prefix c1 _ _ ho)
  obtain ⟨os1, t, h1, h2, h3, h5, h6, h7⟩ := does_runFrom (s := s) (rs := r.1) (ok := r.2)
    (fun o => o.ends h4) (inputs_scoped xs.length) hm hr
  have hb' := build_run.symm.trans hb
  rw [runFrom_append] at hb'
  obtain ⟨os1', b1, k1, k2⟩ := B.bind_run hb'
  obtain ⟨rfl, rfl⟩ := Prod.ext_iff.1 (Option.some.inj (h1.symm.trans k1))
  obtain ⟨os2, b2, k3, k4⟩ := B.bind_run (show (step i os1 >>= fun os' => runFrom c2 os') t.b =
    some (os, b) from k2)
  obtain ⟨as, b3, k5, k6⟩ := B.bind_run k3
  obtain ⟨k9, rfl⟩ := B.ofOption_eq_some k5
  obtain ⟨rs, b4, k7, k8⟩ := B.bind_run k6
  cases k8
  have hlen := R1CS.mapM_length k9
  have hpre : build xs.length c1 Builder.new = some (os1, t.b) := build_run.trans h1
  have htr : ∀ (c : Circuit p) os, Tidy (runFrom c os) := fun c os =>
    tidy_runFrom (fun i _ => i.1.tidy h4) os
  refine Op.needs (o := i.1) (os := as) (n := t.b.nextWireIndex) (hlen ▸ hl)
    (fun o ho => h5 o (mem_of_lookup k9 o ho)) _ _ (build xs.length c1)
    (fun os1 rs => runFrom c2 (os1 ++ rs)) os1 rs os _ _ _ ((Tidy.wires _).bind fun _ => htr _ _)
    (fun _ _ => htr _ _) hpre rfl k7 k4 (inputs xs) v' j ?_ hj
  intro w w1 _
  have : 1 + xs.length ≤ t.b.nextWireIndex := h2.1
  have h0 : w ≠ ONE := show w ≠ 0 by omega
  unfold inputs
  rw [if_neg h0, List.getElem?_eq_none (by omega)]

end Circuit

end R1CS
