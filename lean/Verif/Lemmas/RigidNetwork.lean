import Verif.Lemmas.RigidCmp
import Verif.Lemmas.Sorting
import Verif.Lemmas.CurvesForge

/-!
# Wires which are determined: permutation networks and sorting
-/

set_option linter.unusedSectionVars false

namespace R1CS

variable {p : ℕ} [hp : Fact p.Prime] {α β : Type}

/-- Two witnesses of the beginning, if every witness of the beginning can be completed. -/
theorem Forks.andThen {m : B p α} {f : α → B p β} {s : Wit p} {Q : α → Wit p → Prop}
    (h : Forks m s) (hc : Can m s Q)
    (hf : ∀ a t, s.Le t → Can (f a) t fun _ _ => True) : Forks (m >>= f) s := by
  obtain ⟨b', a, W1, W2, r, s1, s2, e1, e2, i, hi, hne⟩ := h
  obtain ⟨a', t, r', l, -⟩ := hc
  rw [r] at r'
  obtain ⟨rfl, hb⟩ := Prod.ext_iff.1 (Option.some.inj r')
  simp only at hb
  subst hb
  obtain ⟨c1, t1, q1, m1, -⟩ := hf a ⟨t.b, W1, t.pos, s1, t.inScope⟩ ⟨l.1, e1⟩
  obtain ⟨c2, t2, q2, m2, -⟩ := hf a ⟨t.b, W2, t.pos, s2, t.inScope⟩ ⟨l.1, e2⟩
  simp only at q1 q2
  rw [q1] at q2
  obtain ⟨rfl, hb⟩ := Prod.ext_iff.1 (Option.some.inj q2)
  simp only at hb
  refine ⟨t1.b, c1, t1.W, t2.W, by rw [B.bind_eq r]; exact q1, t1.sat, hb ▸ t2.sat,
    fun i hi => ?_, fun i hi => ?_, i, lt_of_lt_of_le hi m1.1, ?_⟩
  · rw [m1.2 i (lt_of_lt_of_le hi l.1)]; exact e1 i hi
  · rw [m2.2 i (lt_of_lt_of_le hi l.1)]; exact e2 i hi
  · rw [m1.2 i hi, m2.2 i hi]; exact hne

/-! ## Settings of the outer switches -/

theorem numSwitches_true {n : ℕ} : numSwitches n true = (n - 1) / 2 := by
  have hLb : numSwitches n true = if n % 2 = 0 then n / 2 - 1 else n / 2 := rfl
  rw [hLb]; split <;> omega

theorem Balanced.ofValid {xs ys : List (Elem p)} (hn : 3 ≤ xs.length)
    (hlen : ys.length = xs.length) {f : Bool → ℕ → ℕ} {C : Bool → ℕ → Bool}
    (hf : Pairing xs.length f) (hC : Valid xs.length f C)
    (hx : ∀ i < xs.length, xs.getD i 0 = ys.getD (f false i) 0) :
    Balanced xs ys (fun k => C false (2 * k)) (fun k => C true (2 * k)) := by
  have hst := numSwitches_true (n := xs.length)
  have hside := sides_perm hf hC (fun i => xs.getD i 0) (fun i => ys.getD i 0) hx
  have ca1 := layer_fst (fun i => xs.getD i 0) (C false) _ fun i hi => hC.switch false i hi
  have ca2 := layer_snd (fun i => xs.getD i 0) (C false) _ fun i hi => hC.switch false i hi
  have cb1 := layer_fst (fun i => ys.getD i 0) (C true) _ fun i hi => hC.switch true i hi
  have cb2 := layer_snd (fun i => ys.getD i 0) (C true) _ fun i hi => hC.switch true i hi
  rw [hst] at cb1 cb2
  change firstOutputs (xs.length / 2) _ xs = _ at ca1
  change secondOutputs (xs.length / 2) _ xs = _ at ca2
  change firstOutputs _ _ ys = _ at cb1
  change secondOutputs _ _ ys = _ at cb2
  unfold Balanced enteringFirst enteringSecond leavingFirst leavingSecond
  rw [hlen, ca1, ca2, cb1, cb2]
  change ((((List.range (2 * (xs.length / 2))).filter _).map _).Perm _) ∧
    ((((List.range (2 * (xs.length / 2))).filter _).map _ ++ _).Perm _)
  by_cases he : xs.length % 2 = 0
  · rw [if_pos he, if_pos he]
    have ev := hC.even he
    have eLb : 2 * ((xs.length - 1) / 2) = xs.length - 2 := by omega
    have eLa : 2 * (xs.length / 2) = xs.length := by omega
    have hrange : List.range xs.length = List.range (xs.length - 2) ++
        [xs.length - 2, xs.length - 1] := by
      conv_lhs => rw [show xs.length = xs.length - 2 + 1 + 1 by omega, List.range_succ,
        List.range_succ]
      rw [show xs.length - 2 + 1 = xs.length - 1 by omega]; simp
    rw [eLa, eLb, List.append_nil]
    constructor
    · refine (hside false).trans ?_
      rw [hrange, List.filter_append, List.map_append]
      simp [ev.1, ev.2]
    · refine (hside true).trans ?_
      rw [hrange, List.filter_append, List.map_append]
      simp [ev.1, ev.2]
  · rw [if_neg he, if_neg he]
    have od := hC.odd (by omega)
    have eLb : 2 * ((xs.length - 1) / 2) = xs.length - 1 := by omega
    have eLa : 2 * (xs.length / 2) = xs.length - 1 := by omega
    have hrange : List.range xs.length = List.range (xs.length - 1) ++ [xs.length - 1] := by
      conv_lhs => rw [show xs.length = xs.length - 1 + 1 by omega, List.range_succ]
    rw [eLa, eLb, List.append_nil]
    constructor
    · have := hside false
      rw [hrange, List.filter_append, List.filter_append, List.map_append, List.map_append] at this
      simpa [od false, od true] using this
    · have := hside true
      rw [hrange, List.filter_append, List.filter_append, List.map_append, List.map_append] at this
      simpa [od false, od true] using this

/-- A switch between equal values can be turned over. -/
theorem firstOutputs_flip {k j : ℕ} {g : ℕ → Bool} {xs : List (Elem p)}
    (h : xs.getD (2 * j) 0 = xs.getD (2 * j + 1) 0) :
    firstOutputs k (Function.update g j (!g j)) xs = firstOutputs k g xs := by
  apply List.map_congr_left
  intro i _
  by_cases e : i = j
  · subst e; rw [Function.update_self, h]; cases g i <;> rfl
  · rw [Function.update_of_ne e]

theorem secondOutputs_flip {k j : ℕ} {g : ℕ → Bool} {xs : List (Elem p)}
    (h : xs.getD (2 * j) 0 = xs.getD (2 * j + 1) 0) :
    secondOutputs k (Function.update g j (!g j)) xs = secondOutputs k g xs := by
  apply List.map_congr_left
  intro i _
  by_cases e : i = j
  · subst e; rw [Function.update_self, h]; cases g i <;> rfl
  · rw [Function.update_of_ne e]

/-- If the partners of two neighbours are neighbours, both switches can be turned over. -/
theorem Valid.flip {n : ℕ} {f : Bool → ℕ → ℕ} {C : Bool → ℕ → Bool} (hf : Pairing n f)
    (hC : Valid n f C) {k l : ℕ} (hk : 2 * k + 1 < n) (hl : 2 * l + 2 < n)
    (h0 : f false (2 * k) / 2 = l) (h1 : f false (2 * k + 1) / 2 = l) :
    Valid n f fun s i => if i / 2 = (if s then l else k) then !C s i else C s i := by
  have inj : f false (2 * k) ≠ f false (2 * k + 1) := by
    intro h
    have e1 := (hf false (2 * k) (by omega)).2
    have e2 := (hf false (2 * k + 1) (by omega)).2
    rw [h, e2] at e1
    omega
  have back : ∀ j < n, j / 2 = l → f true j / 2 = k := by
    intro j hj h
    have e1 := (hf false (2 * k) (by omega)).2
    have e2 := (hf false (2 * k + 1) (by omega)).2
    simp only [Bool.not_false] at e1 e2
    have : j = f false (2 * k) ∨ j = f false (2 * k + 1) := by omega
    rcases this with h | h
    · rw [h, e1]; omega
    · rw [h, e2]; omega
  have fwd : ∀ i < n, i / 2 = k → f false i / 2 = l := by
    intro i hi h
    have : i = 2 * k ∨ i = 2 * k + 1 := by omega
    rcases this with h | h
    · rw [h, h0]
    · rw [h, h1]
  have hst := numSwitches_true (n := n)
  have hsf : numSwitches n false = n / 2 := rfl
  refine ⟨?_, ?_, ?_, ?_⟩
  · intro s i hi
    have hp := hC.partner s i hi
    have ⟨hlt, hinv⟩ := hf s i hi
    cases s
    · simp only [Bool.not_false, if_true, Bool.false_eq_true, if_false] at hp hinv ⊢
      by_cases h : i / 2 = k
      · rw [if_pos (fwd i hi h), if_pos h, hp]
      · rw [if_neg (fun h' => h (hinv ▸ back _ hlt h')), if_neg h, hp]
    · simp only [Bool.not_true, if_true, Bool.false_eq_true, if_false] at hp hinv ⊢
      by_cases h : i / 2 = l
      · rw [if_pos (back i hi h), if_pos h, hp]
      · rw [if_neg (fun h' => h (hinv ▸ fwd _ hlt h')), if_neg h, hp]
  · intro s i hi
    have := hC.switch s i hi
    rw [show (2 * i + 1) / 2 = i by omega, show 2 * i / 2 = i by omega]
    rw [this]
    generalize (if s = true then l else k) = q
    split <;> simp
  · intro he
    have := hC.even he
    simp only [if_true]
    rw [if_neg (by omega), if_neg (by omega)]
    exact this
  · intro ho s
    rw [if_neg (by cases s <;> simp <;> omega)]
    exact hC.odd ho s

/-- Two wires on the right with equal values can exchange their partners. -/
theorem Pairing.exchange {n : ℕ} {f : Bool → ℕ → ℕ} (hf : Pairing n f) {j j' : ℕ} (hj : j < n)
    (hj' : j' < n) : Pairing n fun s i => if s then f true (Equiv.swap j j' i) else
      Equiv.swap j j' (f false i) := by
  have hs : ∀ i < n, Equiv.swap j j' i < n := by
    intro i hi
    rw [Equiv.swap_apply_def]
    split
    · exact hj'
    · split
      · exact hj
      · exact hi
  intro s i hi
  cases s
  · have h := hf false i hi
    simp only [Bool.false_eq_true, if_false, Bool.not_false, if_true, Equiv.swap_apply_self]
    exact ⟨hs _ h.1, h.2⟩
  · have h := hf true _ (hs i hi)
    simp only [Bool.false_eq_true, if_false, Bool.not_true, if_true]
    refine ⟨h.1, ?_⟩
    have h2 := h.2
    simp only [Bool.not_true] at h2
    rw [h2, Equiv.swap_apply_self]

theorem Pairing.exchange_values {n : ℕ} {f : Bool → ℕ → ℕ} {xa xb : ℕ → Elem p}
    (hx : ∀ i < n, xa i = xb (f false i)) {j j' : ℕ} (h : xb j = xb j') :
    ∀ i < n, xa i = xb (Equiv.swap j j' (f false i)) := by
  intro i hi
  rw [hx i hi, Equiv.swap_apply_def]
  split
  · next e => rw [e, h]
  · split
    · next e => rw [e, h]
    · rfl

/-- The partners of two wires can be chosen as any two with their values. -/
theorem Pairing.choose {n : ℕ} {f : Bool → ℕ → ℕ} (hf : Pairing n f) {xa xb : ℕ → Elem p}
    (hx : ∀ i < n, xa i = xb (f false i)) {i i' j j' : ℕ} (hi : i < n) (hi' : i' < n) (hj : j < n)
    (hj' : j' < n) (hii : i ≠ i') (hjj : j ≠ j') (e : xa i = xb j) (e' : xa i' = xb j') :
    ∃ f', Pairing n f' ∧ (∀ i < n, xa i = xb (f' false i)) ∧ f' false i = j ∧ f' false i' = j' := by
  have h1 := hf.exchange (hf false i hi).1 hj
  have v1 := Pairing.exchange_values hx (j := f false i) (j' := j) (by rw [← hx i hi, e])
  generalize hg : (fun s k => if s then f true (Equiv.swap (f false i) j k) else
      Equiv.swap (f false i) j (f false k) : Bool → ℕ → ℕ) = g at h1
  have hgf : ∀ k, g false k = Equiv.swap (f false i) j (f false k) := fun k => by rw [← hg]; rfl
  have g1 : g false i = j := by rw [hgf, Equiv.swap_apply_left]
  have v1' : ∀ k < n, xa k = xb (g false k) := fun k hk => by rw [hgf]; exact v1 k hk
  have g2 : g false i' ≠ j := by
    intro h
    have e1 := (h1 false i hi).2
    have e2 := (h1 false i' hi').2
    rw [g1] at e1
    rw [h, e1] at e2
    exact hii e2
  refine ⟨_, h1.exchange (h1 false i' hi').1 hj',
    Pairing.exchange_values v1' (j := g false i') (j' := j') (by rw [← v1' i' hi', e']), ?_, ?_⟩
  · simp only [Bool.false_eq_true, if_false]
    rw [g1, Equiv.swap_apply_of_ne_of_ne g2.symm hjj]
  · simp only [Bool.false_eq_true, if_false]
    rw [Equiv.swap_apply_left]

/-! ## Networks of three and more -/

theorem evals_ofWire (w : Assign p) (ws : List Wire) :
    evals w (ws.map Expression.ofWire) = ws.map w := by
  rw [evals, List.map_map]
  apply List.map_congr_left
  intro i _
  exact Expression.eval_ofWire _ _

theorem Wit.Le.evals {s t : Wit p} (h : s.Le t) {es : List (Expression p)}
    (he : ∀ e ∈ es, e.Scoped s.next) : evals t.W es = evals s.W es :=
  List.map_congr_left fun e hm => h.eval (he e hm)

namespace Can

theorem assertPermutationFuel {fuel : ℕ} {s : Wit p} {a b : List (Expression p)}
    (hl : a.length ≤ fuel) (ha : ∀ e ∈ a, e.Scoped s.next) (hb : ∀ e ∈ b, e.Scoped s.next)
    (h : (evals s.W a).Perm (evals s.W b)) :
    Can (B.assertPermutationFuel fuel a b) s fun _ _ => True :=
  (Can.ofComp (Prog.assertPermutationFuel _ _ _) (Comp.assertPermutationFuel fuel (s := s.toHon) hl
    ha hb h)).mono fun _ _ _ _ => trivial

theorem assertPermutation {s : Wit p} {a b : List (Expression p)} (ha : ∀ e ∈ a, e.Scoped s.next)
    (hb : ∀ e ∈ b, e.Scoped s.next) (h : (evals s.W a).Perm (evals s.W b)) :
    Can (B.assertPermutation a b) s fun _ _ => True := assertPermutationFuel le_rfl ha hb h

/-- A layer with given settings. -/
theorem switchLayer (k : ℕ) {s : Wit p} {xs : List (Expression p)} (g : ℕ → Bool)
    (hk : 2 * k ≤ xs.length) (hx : ∀ e ∈ xs, e.Scoped s.next) :
    Can (B.switchLayer k xs) s fun r t => (∀ w ∈ r.1, w.wire < t.next) ∧
      r.1.map (fun w => t.W w.wire) = (List.range k).map (fun i => Elem.ofBool (g i)) ∧
      (∀ e ∈ r.2.1, e.Scoped t.next) ∧ (∀ e ∈ r.2.2, e.Scoped t.next) ∧
      evals t.W r.2.1 = firstOutputs k g (evals s.W xs) ∧
      evals t.W r.2.2 = secondOutputs k g (evals s.W xs) := by
  refine (Can.ofComp (Prog.switchLayer _ _) (Comp.switchLayer k (s := s.toHon) g hk hx)).mono
    fun r t _ ⟨u, hn, hW, a1, _, _, a4, a5, a6, a7, a8, a9⟩ => ?_
  rw [hn] at a4 a6 a7
  rw [hW] at a5 a8 a9
  refine ⟨fun w hw => (a4 w hw).2, ?_, a6, a7, a8, a9⟩
  refine List.ext_getElem (by simp [a1]) fun i h1 h2 => ?_
  simp only [List.getElem_map, List.getElem_range]
  exact a5 i _ (List.getElem?_eq_getElem (by simpa using h1))

end Can

/-- The switches of both layers of a network, and what is connected to the subnetworks. -/
abbrev Layers (p : ℕ) := (List BooleanWire × List (Expression p) × List (Expression p)) ×
  List BooleanWire × List (Expression p) × List (Expression p)

/-- Both layers of a network. -/
def layers (a b : List (Expression p)) : B p (Layers p) := do
  let ra ← B.switchLayer (a.length / 2) a
  let rb ← B.switchLayer ((a.length - 1) / 2) b
  return (ra, rb)

/-- Both subnetworks. -/
def children (fuel : ℕ) (a b : List (Expression p)) (r : Layers p) : B p Unit :=
  if a.length % 2 = 0 then do
    let b1 ← B.ofOption b[a.length - 2]?
    let b2 ← B.ofOption b[a.length - 1]?
    B.assertPermutationFuel fuel r.1.2.1 (r.2.2.1 ++ [b1])
    B.assertPermutationFuel fuel r.1.2.2 (r.2.2.2 ++ [b2])
  else do
    let a2 ← B.ofOption a[a.length - 1]?
    let b2 ← B.ofOption b[a.length - 1]?
    B.assertPermutationFuel fuel r.1.2.1 r.2.2.1
    B.assertPermutationFuel fuel (r.1.2.2 ++ [a2]) (r.2.2.2 ++ [b2])

theorem assertPermutationFuel_eq {fuel : ℕ} {a b : List (Expression p)} (hn : 3 ≤ a.length) :
    B.assertPermutationFuel (fuel + 1) a b = B.require (a.length = b.length) >>= fun _ =>
      layers a b >>= fun r => children fuel a b r >>= fun _ =>
        B.generator (a.flatMap Expression.dependencies ++ b.flatMap Expression.dependencies)
          (B.routeGen a b r.1.1 r.2.1) := by
  rw [B.assertPermutationFuel]
  rotate_left
  · rintro rfl; simp at hn
  · rintro x y rfl; simp at hn
  · rintro x y z w rfl; simp at hn
  congr 1
  funext _
  dsimp only
  unfold layers
  simp only [bind_assoc, pure_bind]
  have e : (if a.length % 2 = 0 then a.length / 2 - 1 else a.length / 2) = (a.length - 1) / 2 :=
    numSwitches_true
  rw [e]
  rfl

/-- Both lists of what enters and leaves the subnetworks. -/
def Layers.Fits (a b : List (Elem p)) (g h : ℕ → Bool) (W : Assign p) (r : Layers p) : Prop :=
  evals W r.1.2.1 = firstOutputs (a.length / 2) g a ∧
  evals W r.1.2.2 = secondOutputs (a.length / 2) g a ∧
  evals W r.2.2.1 = firstOutputs ((b.length - 1) / 2) h b ∧
  evals W r.2.2.2 = secondOutputs ((b.length - 1) / 2) h b

def Layers.Scoped (r : Layers p) (k : ℕ) : Prop :=
  ((∀ w ∈ r.1.1, w.wire < k) ∧ ∀ w ∈ r.2.1, w.wire < k) ∧
  (∀ e ∈ r.1.2.1, e.Scoped k) ∧ (∀ e ∈ r.1.2.2, e.Scoped k) ∧
  (∀ e ∈ r.2.2.1, e.Scoped k) ∧ ∀ e ∈ r.2.2.2, e.Scoped k

/-- The values of the switches. -/
def Layers.settings (r : Layers p) (W : Assign p) : List (Elem p) × List (Elem p) :=
  (r.1.1.map (fun w => W w.wire), r.2.1.map (fun w => W w.wire))

/-- The outer switches can have any settings. -/
theorem Can.layers {s : Wit p} {a b : List (Expression p)} (hlen : b.length = a.length)
    (ha : ∀ e ∈ a, e.Scoped s.next) (hb : ∀ e ∈ b, e.Scoped s.next) (g h : ℕ → Bool) :
    Can (layers a b) s fun r u => r.Scoped u.next ∧
      r.settings u.W = ((List.range (a.length / 2)).map (fun i => Elem.ofBool (g i)),
        (List.range ((a.length - 1) / 2)).map (fun i => Elem.ofBool (h i))) ∧
      r.Fits (evals s.W a) (evals s.W b) g h u.W := by
  unfold R1CS.layers
  refine (Can.switchLayer _ g (by omega) ha).bind fun ra s1 l1 ⟨a1, a2, a3, a4, a5, a6⟩ => ?_
  refine (Can.switchLayer _ h (by omega) fun e he => l1.scoped (hb e he)).bind
    fun rb s2 l2 ⟨b1, b2, b3, b4, b5, b6⟩ => Can.pure ?_
  rw [l1.evals hb] at b5 b6
  refine ⟨⟨⟨fun w hw => lt_of_lt_of_le (a1 w hw) l2.1, b1⟩,
    fun e he => l2.scoped (a3 e he), fun e he => l2.scoped (a4 e he), b3, b4⟩, ?_, ?_⟩
  · refine Prod.ext ?_ b2
    change List.map _ ra.1 = List.map _ _
    rw [← a2]
    exact List.map_congr_left fun w hw => l2.2 _ (a1 w hw)
  · unfold Layers.Fits
    simp only [List.length_map, hlen]
    exact ⟨(l2.evals a3).trans a5, (l2.evals a4).trans a6, b5, b6⟩

theorem evals_snoc (W : Assign p) (xs : List (Expression p)) (y : Expression p) :
    evals W (xs ++ [y]) = evals W xs ++ [y.eval W] := by simp

theorem scoped_snoc {xs : List (Expression p)} {y : Expression p} {k : ℕ}
    (h1 : ∀ e ∈ xs, e.Scoped k) (h2 : y.Scoped k) : ∀ e ∈ xs ++ [y], e.Scoped k := by
  intro e he
  rcases List.mem_append.1 he with he | he
  · exact h1 e he
  · rw [List.mem_singleton] at he; rw [he]; exact h2

/-- The subnetworks, as two networks whose values are those entering and leaving. -/
theorem children_eq {fuel n : ℕ} {a b : List (Expression p)} (hlen : b.length = a.length)
    (hn : 3 ≤ a.length) (ha : ∀ e ∈ a, e.Scoped n) (hb : ∀ e ∈ b, e.Scoped n) {r : Layers p}
    {k : ℕ} (hk : n ≤ k) (hr : r.Scoped k) :
    ∃ A1 A2 B1 B2 : List (Expression p), children fuel a b r = (do
        B.assertPermutationFuel fuel A1 B1
        B.assertPermutationFuel fuel A2 B2) ∧
      (∀ e ∈ A1, e.Scoped k) ∧ (∀ e ∈ B1, e.Scoped k) ∧
      (∀ e ∈ A2, e.Scoped k) ∧ (∀ e ∈ B2, e.Scoped k) ∧
      ∀ (W : Assign p) (g h : ℕ → Bool), r.Fits (evals W a) (evals W b) g h W →
        evals W A1 = enteringFirst g (evals W a) ∧ evals W B1 = leavingFirst h (evals W b) ∧
        evals W A2 = enteringSecond g (evals W a) ∧ evals W B2 = leavingSecond h (evals W b) := by
  obtain ⟨-, r1, r2, r3, r4⟩ := hr
  have get : ∀ (xs : List (Expression p)), xs.length = a.length → (∀ e ∈ xs, e.Scoped n) → ∀ i,
      i < a.length → ∃ y, xs[i]? = some y ∧ y.Scoped k ∧ ∀ W, y.eval W = (evals W xs).getD i 0 := by
    intro xs hl hxs i hi
    have hy := List.getElem?_eq_getElem (l := xs) (i := i) (by omega)
    exact ⟨_, hy, (hxs _ (List.mem_of_getElem? hy)).mono hk, fun W => (Comp.getD_evals W xs hy).symm⟩
  obtain ⟨y2, hy2, sy2, vy2⟩ := get b hlen hb (a.length - 1) (by omega)
  by_cases he : a.length % 2 = 0
  · obtain ⟨y1, hy1, sy1, vy1⟩ := get b hlen hb (a.length - 2) (by omega)
    refine ⟨r.1.2.1, r.1.2.2, r.2.2.1 ++ [y1], r.2.2.2 ++ [y2], ?_, r1, scoped_snoc r3 sy1, r2,
      scoped_snoc r4 sy2, fun W g h hf => ?_⟩
    · unfold children
      rw [if_pos he, hy1, hy2]
      rfl
    · obtain ⟨f1, f2, f3, f4⟩ := hf
      unfold enteringFirst enteringSecond leavingFirst leavingSecond
      rw [evals_snoc, evals_snoc, f1, f2, f3, f4, vy1, vy2]
      simp only [List.length_map, hlen, if_pos he, List.append_nil, and_self]
  · obtain ⟨y1, hy1, sy1, vy1⟩ := get a rfl ha (a.length - 1) (by omega)
    refine ⟨r.1.2.1, r.1.2.2 ++ [y1], r.2.2.1, r.2.2.2 ++ [y2], ?_, r1, r3, scoped_snoc r2 sy1,
      scoped_snoc r4 sy2, fun W g h hf => ?_⟩
    · unfold children
      rw [if_neg he, hy1, hy2]
      rfl
    · obtain ⟨f1, f2, f3, f4⟩ := hf
      unfold enteringFirst enteringSecond leavingFirst leavingSecond
      rw [evals_snoc, evals_snoc, f1, f2, f3, f4, vy1, vy2]
      simp only [List.length_map, hlen, if_neg he, List.append_nil, and_self]

theorem entering_length {g : ℕ → Bool} {xs : List (Elem p)} (hn : 3 ≤ xs.length) :
    (enteringFirst g xs).length < xs.length ∧ (enteringSecond g xs).length < xs.length := by
  unfold enteringFirst enteringSecond firstOutputs secondOutputs
  simp only [List.length_append, List.length_map, List.length_range]
  split <;> simp <;> omega

/-- Values which fit do so later on. -/
theorem Layers.Fits.later {s t : Wit p} (l : s.Le t) {a b : List (Expression p)}
    (ha : ∀ e ∈ a, e.Scoped s.next) (hb : ∀ e ∈ b, e.Scoped s.next) {g h : ℕ → Bool}
    {r : Layers p} (hf : r.Fits (evals s.W a) (evals s.W b) g h t.W) :
    r.Fits (evals t.W a) (evals t.W b) g h t.W := by rwa [l.evals ha, l.evals hb]

/-- The inner part of a network can be completed if the settings of the outer switches are
balanced. -/
theorem Can.children {s t : Wit p} (l : s.Le t) {fuel : ℕ} {a b : List (Expression p)}
    (hlen : b.length = a.length) (hn : 3 ≤ a.length) (hfuel : a.length ≤ fuel + 1)
    (ha : ∀ e ∈ a, e.Scoped s.next) (hb : ∀ e ∈ b, e.Scoped s.next) {g h : ℕ → Bool}
    (hbal : Balanced (evals s.W a) (evals s.W b) g h) {r : Layers p} (hr : r.Scoped t.next)
    (hf : r.Fits (evals s.W a) (evals s.W b) g h t.W) :
    Can (R1CS.children fuel a b r) t fun _ _ => True := by
  obtain ⟨A1, A2, B1, B2, e, sA1, sB1, sA2, sB2, v⟩ :=
    children_eq (fuel := fuel) hlen hn ha hb l.1 hr
  obtain ⟨v1, v2, v3, v4⟩ := v t.W g h (hf.later l ha hb)
  rw [l.evals ha] at v1 v3
  rw [l.evals hb] at v2 v4
  obtain ⟨l1, l2⟩ := entering_length (g := g) (xs := evals s.W a) (by simpa using hn)
  rw [← v1] at l1
  rw [← v3] at l2
  simp only [List.length_map] at l1 l2
  rw [e]
  refine (Can.assertPermutationFuel (by omega) sA1 sB1 ?_).bind fun _ t1 l1 _ =>
    Can.assertPermutationFuel (by omega) (fun e he => l1.scoped (sA2 e he))
      (fun e he => l1.scoped (sB2 e he)) ?_
  · rw [v1, v2]; exact hbal.1
  · rw [l1.evals sA2, l1.evals sB2, v3, v4]; exact hbal.2

/-- Two different settings which carry one list to the other give two witnesses. -/
theorem Forks.assertPermutationFuel (fuel : ℕ) : ∀ {s : Wit p} {a b : List (Expression p)},
    a.length ≤ fuel → b.length = a.length → (∀ e ∈ a, e.Scoped s.next) →
    (∀ e ∈ b, e.Scoped s.next) → TwoRoutes fuel (evals s.W a) (evals s.W b) →
    Forks (B.assertPermutationFuel fuel a b) s := by
  induction fuel with
  | zero => intro s a b _ _ _ _ h; exact absurd h (by simp [TwoRoutes])
  | succ fuel ih =>
    intro s a b hl hlen ha hb h
    rcases h with ⟨h2, hp, he⟩ | ⟨h3, g, h, hbal, hcase⟩
    · simp only [List.length_map] at h2
      match a, b, h2, hlen with
      | [x, y], [z, w], _, _ =>
        unfold B.assertPermutationFuel
        have e1 : z.eval s.W ∈ evals s.W [x, y] := hp.mem_iff.2 (by simp)
        have e2 : w.eval s.W ∈ evals s.W [x, y] := hp.mem_iff.2 (by simp)
        exact Forks.after (Q := fun _ u => u = s) (Can.require rfl rfl) fun _ u _ e => e ▸
          Forks.assertPermutation2x2 (ha _ (by simp)) (ha _ (by simp)) (hb _ (by simp))
            (hb _ (by simp)) ⟨he _ (by simp) _ (by simp), he _ e1 _ (by simp), he _ e2 _ (by simp)⟩
    · simp only [List.length_map] at h3 hcase
      rw [assertPermutationFuel_eq h3]
      refine Forks.after (Q := fun _ t => t = s) (Can.require hlen.symm rfl) fun _ t _ e => ?_
      subst e
      rcases hcase with ⟨g', h', hbal', hne⟩ | hc
      · have key : ∀ {g h : ℕ → Bool}, Balanced (evals t.W a) (evals t.W b) g h → Can (layers a b) t
            fun r u => r.Scoped u.next ∧
              r.settings u.W = ((List.range (a.length / 2)).map (fun i => Elem.ofBool (g i)),
                (List.range ((a.length - 1) / 2)).map (fun i => Elem.ofBool (h i))) ∧
              Can (children fuel a b r >>= fun _ => B.generator (a.flatMap Expression.dependencies ++
                b.flatMap Expression.dependencies) (B.routeGen a b r.1.1 r.2.1)) u fun _ _ => True :=
          fun {g h} hb' => (Can.layers hlen ha hb g h).mono fun r u l ⟨q1, q2, q3⟩ => ⟨q1, q2,
            (Can.children l hlen h3 hl ha hb hb' q1 q3).bind
              fun _ _ _ _ => (Can.generator _ _).mono fun _ _ _ _ => trivial⟩
        refine Forks.before ?_ (G := fun r k => r.Scoped k) (obs := fun r W => r.settings W) ?_
          (key hbal) (key hbal')
        · intro hc
          obtain ⟨c1, c2⟩ := Prod.ext_iff.1 hc
          have inj : ∀ x y : Bool, Elem.ofBool (p := p) x = Elem.ofBool y → x = y := by
            intro x y hxy
            cases x <;> cases y <;> simp [Elem.ofBool_true, Elem.ofBool_false] at hxy ⊢
          have at_ : ∀ {m : ℕ} {g g' : ℕ → Bool},
              (List.range m).map (fun i => Elem.ofBool (p := p) (g i)) =
              (List.range m).map (fun i => Elem.ofBool (g' i)) → ∀ k < m, g k = g' k := by
            intro m g g' hm k hk
            exact inj _ _ ((List.map_inj_left.1 hm) k (List.mem_range.2 hk))
          rcases hne with ⟨k, hk, hne⟩ | ⟨k, hk, hne⟩
          · exact hne (at_ c1 k hk)
          · exact hne (at_ c2 k hk)
        · intro r k W1 W2 hr hag
          exact Prod.ext (List.map_congr_left fun w hw => hag _ (hr.1.1 w hw))
            (List.map_congr_left fun w hw => hag _ (hr.1.2 w hw))
      · refine Forks.after (Can.layers hlen ha hb g h) fun r u l ⟨q1, _, q3⟩ => ?_
        refine Forks.andThen ?_ (Can.children l hlen h3 hl ha hb hbal q1 q3) fun _ _ _ =>
          (Can.generator _ _).mono fun _ _ _ _ => trivial
        obtain ⟨A1, A2, B1, B2, e, sA1, sB1, sA2, sB2, v⟩ :=
          children_eq (fuel := fuel) hlen h3 ha hb l.1 q1
        obtain ⟨v1, v2, v3, v4⟩ := v u.W g h (q3.later l ha hb)
        rw [l.evals ha] at v1 v3
        rw [l.evals hb] at v2 v4
        obtain ⟨l1, l2⟩ := entering_length (g := g) (xs := evals t.W a) (by simpa using h3)
        rw [← v1] at l1
        rw [← v3] at l2
        simp only [List.length_map] at l1 l2
        rw [← v1, ← v2, ← v3, ← v4] at hc
        unfold Balanced at hbal
        rw [← v1, ← v2, ← v3, ← v4] at hbal
        have n1 : B1.length = A1.length := by simpa using hbal.1.length_eq.symm
        have n2 : B2.length = A2.length := by simpa using hbal.2.length_eq.symm
        rw [e]
        rcases hc with hc | hc
        · refine Forks.andThen (ih (by omega) n1 sA1 sB1 hc)
            (Can.assertPermutationFuel (by omega) sA1 sB1 hbal.1) fun _ t1 m1 => ?_
          refine Can.assertPermutationFuel (by omega) (fun e he => m1.scoped (sA2 e he))
            (fun e he => m1.scoped (sB2 e he)) ?_
          rw [m1.evals sA2, m1.evals sB2]
          exact hbal.2
        · refine Forks.after (Can.assertPermutationFuel (by omega) sA1 sB1 hbal.1)
            fun _ t1 m1 _ => ?_
          refine ih (by omega) n2 (fun e he => m1.scoped (sA2 e he))
            (fun e he => m1.scoped (sB2 e he)) ?_
          rw [m1.evals sA2, m1.evals sB2]
          exact hc

/-- The values allow two settings if the values at an outer switch are equal, or are those at an
outer switch of the other side. -/
theorem Doubtful.twoRoutes {xs ys : List (Elem p)} (hn : 3 ≤ xs.length) (h : xs.Perm ys)
    (hd : Doubtful xs ys) : TwoRoutes xs.length xs ys := by
  have hlen : ys.length = xs.length := h.length_eq.symm
  obtain ⟨f, C, hf, hC, hval, -⟩ := route_ok h (by omega)
  have hx : ∀ i < xs.length, xs.getD i 0 = ys.getD (f false i) 0 := by
    intro i hi
    simp only [List.getD_eq_getElem?_getD, hval i hi]
  have hbal := Balanced.ofValid hn hlen hf hC hx
  have hget : ∀ (xs : List (Elem p)) i (hi : i < xs.length), xs.getD i 0 = xs[i] := by
    intro xs i hi
    rw [List.getD_eq_getElem?_getD, List.getElem?_eq_getElem hi]; rfl
  obtain ⟨d, hdep⟩ : ∃ d, xs.length = d + 1 := ⟨xs.length - 1, by omega⟩
  suffices H : ∃ g h, Balanced xs ys g h ∧ ∃ g' h', Balanced xs ys g' h' ∧
      ((∃ k < xs.length / 2, g k ≠ g' k) ∨ ∃ k < (xs.length - 1) / 2, h k ≠ h' k) by
    obtain ⟨g, h, h1, h2⟩ := H
    rw [hdep]
    exact Or.inr ⟨hn, g, h, h1, Or.inl h2⟩
  rcases hd with ⟨k, hk, e⟩ | ⟨l, hl, e⟩ | ⟨k, l, hk, hl, e⟩
  · have e' : xs.getD (2 * k) 0 = xs.getD (2 * k + 1) 0 := by
      rw [hget _ _ (by omega), hget _ _ hk, e]
    refine ⟨_, _, hbal, Function.update (fun k => C false (2 * k)) k (!C false (2 * k)),
      fun k => C true (2 * k), ?_, Or.inl ⟨k, by omega, by simp⟩⟩
    unfold Balanced enteringFirst enteringSecond at hbal ⊢
    rw [firstOutputs_flip (g := fun k => C false (2 * k)) e',
      secondOutputs_flip (g := fun k => C false (2 * k)) e']
    exact hbal
  · have e' : ys.getD (2 * l) 0 = ys.getD (2 * l + 1) 0 := by
      rw [hget _ _ (by omega), hget _ _ (by omega), e]
    refine ⟨_, _, hbal, fun k => C false (2 * k),
      Function.update (fun k => C true (2 * k)) l (!C true (2 * l)), ?_,
      Or.inr ⟨l, by omega, by simp⟩⟩
    unfold Balanced leavingFirst leavingSecond at hbal ⊢
    rw [firstOutputs_flip (g := fun k => C true (2 * k)) e',
      secondOutputs_flip (g := fun k => C true (2 * k)) e']
    exact hbal
  · have both : ∃ f', Pairing xs.length f' ∧
        (∀ i < xs.length, xs.getD i 0 = ys.getD (f' false i) 0) ∧
        f' false (2 * k) / 2 = l ∧ f' false (2 * k + 1) / 2 = l := by
      rcases e with ⟨e1, e2⟩ | ⟨e1, e2⟩
      · obtain ⟨f', h1, h2, h3, h4⟩ := hf.choose (xa := fun i => xs.getD i 0)
          (xb := fun i => ys.getD i 0) hx (i := 2 * k) (i' := 2 * k + 1) (j := 2 * l)
          (j' := 2 * l + 1) (by omega) (by omega) (by omega) (by omega) (by omega) (by omega)
          (by beta_reduce; rw [hget _ _ (by omega), hget _ _ (by omega), e1])
          (by beta_reduce; rw [hget _ _ (by omega), hget _ _ (by omega), e2])
        exact ⟨f', h1, h2, by omega, by omega⟩
      · obtain ⟨f', h1, h2, h3, h4⟩ := hf.choose (xa := fun i => xs.getD i 0)
          (xb := fun i => ys.getD i 0) hx (i := 2 * k) (i' := 2 * k + 1) (j := 2 * l + 1)
          (j' := 2 * l) (by omega) (by omega) (by omega) (by omega) (by omega) (by omega)
          (by beta_reduce; rw [hget _ _ (by omega), hget _ _ (by omega), e1])
          (by beta_reduce; rw [hget _ _ (by omega), hget _ _ (by omega), e2])
        exact ⟨f', h1, h2, by omega, by omega⟩
    obtain ⟨f', h1, h2, h3, h4⟩ := both
    obtain ⟨C', hC'⟩ := exists_valid (by omega) h1
    refine ⟨_, _, Balanced.ofValid hn hlen h1 hC' h2, _, _,
      Balanced.ofValid hn hlen h1 (hC'.flip h1 hk (by omega) h3 h4) h2, Or.inl ⟨k, by omega, ?_⟩⟩
    simp

theorem Forks.assertPermutation {s : Wit p} {a b : List (Expression p)} (hn : 3 ≤ a.length)
    (ha : ∀ e ∈ a, e.Scoped s.next) (hb : ∀ e ∈ b, e.Scoped s.next)
    (h : (evals s.W a).Perm (evals s.W b))
    (hd : Doubtful (evals s.W a) (evals s.W b)) : Forks (B.assertPermutation a b) s := by
  have := hd.twoRoutes (by simpa using hn) h
  rw [List.length_map] at this
  exact Forks.assertPermutationFuel _ le_rfl (by simpa using h.length_eq.symm) ha hb this

/-! ## Sorting -/

/-- Whatever the outputs are, the rest of the sorting gadget accepts them. -/
theorem Can.sortRest (h4 : 4 ≤ Elem.maxBits p) {s : Wit p} {a : List (Expression p)} {ws : List Wire}
    (hne : ws ≠ []) (hws : ∀ i ∈ ws, i < s.next) :
    Can (do
      let bs ← B.splitOutputs (ws.map (Expression.ofWire (p := p)))
      B.assertAscending bs
      B.generator (a.flatMap Expression.dependencies) (B.sortGen a ws)
      return ws.map (Expression.ofWire (p := p))) s fun _ _ => True := by
  have ho : ∀ e ∈ ws.map (Expression.ofWire (p := p)), e.Scoped s.next := by
    intro e he
    obtain ⟨i, hi, rfl⟩ := List.mem_map.1 he
    exact .ofWire (hws i hi)
  refine (Can.ofComp (Prog.splitOutputs _) (Comp.splitOutputs (s := s.toHon) h4
    (by simpa using hne) ho)).bind fun bs s3 l3 ⟨t3, tn3, tW3, _, h3⟩ => ?_
  refine (Can.assertAscending h4 (bs := bs) ?_).bind fun _ s4 l4 _ => ?_
  · intro e he
    obtain ⟨i, hi, rfl⟩ := List.getElem_of_mem he
    have hi' := hi
    rw [List.Forall₂.length_eq h3] at hi'
    have := (List.forall₂_iff_get.1 h3).2 i hi hi'
    rw [tn3, tW3] at this
    exact ⟨this.1, this.2.1, this.2.2.1⟩
  exact (Can.generator _ _).bind fun _ s5 l5 _ => Can.pure trivial

/-- The outputs of the sorting gadget can be given any values. -/
theorem Can.outputs {s : Wit p} (n : ℕ) (ys : List (Elem p)) (h : ys.length = n) :
    Can (B.wires n) s fun ws t => ws.length = n ∧ (∀ i ∈ ws, i < t.next) ∧ ws.map t.W = ys := by
  refine (Can.ofComp (Prog.wires _) (Comp.wires n s.toHon ys h)).mono
    fun ws t l ⟨t1, tn1, tW1, e1, n1, _, v1⟩ => ?_
  have n1' : t.next = s.next + n := by rw [← tn1, n1]; rfl
  have e1' : ws = List.range' s.next n := e1
  rw [tW1] at v1
  refine ⟨by rw [e1']; simp, ?_, v1⟩
  intro i hi
  rw [e1', List.mem_range'_1] at hi
  omega

theorem Forks.sortAscending (h4 : 4 ≤ Elem.maxBits p) {s : Wit p} {a : List (Expression p)}
    (hn : 2 ≤ a.length) (ha : ∀ e ∈ a, e.Scoped s.next) : Forks (B.sortAscending a) s := by
  unfold B.sortAscending
  have sc : ∀ {ws : List Wire} {k : ℕ}, (∀ i ∈ ws, i < k) →
      ∀ e ∈ ws.map (Expression.ofWire (p := p)), e.Scoped k := by
    intro ws k hws e he
    obtain ⟨i, hi, rfl⟩ := List.mem_map.1 he
    exact .ofWire (hws i hi)
  have ne : ∀ {ws : List Wire}, ws.length = a.length → ws ≠ [] := by
    rintro ws h rfl
    simp at h
    omega
  have same : Forks (do
      let ws ← B.wires (p := p) a.length
      B.assertPermutation a (ws.map (Expression.ofWire (p := p)))
      let bs ← B.splitOutputs (ws.map (Expression.ofWire (p := p)))
      B.assertAscending bs
      B.generator (a.flatMap Expression.dependencies) (B.sortGen a ws)
      return ws.map (Expression.ofWire (p := p))) s := by
    by_cases hx : 3 ≤ a.length ∨ ∀ x ∈ evals s.W a, ∀ y ∈ evals s.W a, x = y
    · refine Forks.after (Can.outputs a.length (evals s.W a) (by simp)) fun ws t l ⟨h1, h2, h3⟩ => ?_
      have ha' : ∀ e ∈ a, e.Scoped t.next := fun e he => l.scoped (ha e he)
      have hev : evals t.W (ws.map Expression.ofWire) = evals t.W a := by
        rw [evals_ofWire, h3, l.evals ha]
      have hp : (evals t.W a).Perm (evals t.W (ws.map Expression.ofWire)) := by rw [hev]
      refine Forks.andThen ?_ (Can.assertPermutation ha' (sc h2) hp) fun _ u l' =>
        Can.sortRest h4 (ne h1) fun i hi => lt_of_lt_of_le (h2 i hi) l'.1
      by_cases h3' : 3 ≤ a.length
      · refine Forks.assertPermutation h3' ha' (sc h2) hp ?_
        rw [hev]
        exact Or.inr (Or.inr ⟨0, 0, by simp; omega, by simp; omega, Or.inl ⟨rfl, rfl⟩⟩)
      · have hx := hx.resolve_left h3'
        match a, hn, h3' with
        | _ :: _ :: _ :: _, _, h => simp at h
        | [x, y], _, _ =>
          match ws, h1 with
          | [i, j], _ =>
            have exy : x.eval t.W = y.eval t.W := by
              rw [l.eval (ha x (by simp)), l.eval (ha y (by simp))]
              exact hx _ (by simp) _ (by simp)
            simp only [List.map_cons, List.map_nil, List.cons.injEq, and_true] at hev
            have key : Forks (B.assertPermutation2x2 x y (Expression.ofWire i)
                (Expression.ofWire j)) t :=
              Forks.assertPermutation2x2 (ha' x (by simp)) (ha' y (by simp)) (.ofWire (h2 i (by simp)))
                (.ofWire (h2 j (by simp))) ⟨exy, hev.1, hev.2.trans exy.symm⟩
            unfold B.assertPermutation
            simp only [List.length_cons, List.length_nil, List.map_cons, List.map_nil]
            unfold B.assertPermutationFuel
            exact Forks.after (Q := fun _ u => u = t) (Can.require rfl rfl) fun _ u _ e => e ▸ key
    · have h3' : ¬ 3 ≤ a.length := fun h => hx (Or.inl h)
      have hx : ¬ ∀ x ∈ evals s.W a, ∀ y ∈ evals s.W a, x = y := fun h => hx (Or.inr h)
      match a, hn, h3' with
      | _ :: _ :: _ :: _, _, h => simp at h
      | [x, y], _, _ =>
        have hxy : x.eval s.W ≠ y.eval s.W := by
          intro e
          apply hx
          simp [e]
        have key : ∀ ys : List (Elem p), (evals s.W [x, y]).Perm ys →
            Can (B.wires (p := p) [x, y].length) s fun ws t => (∀ i ∈ ws, i < t.next) ∧ ws.map t.W = ys ∧
              Can (do
                B.assertPermutation [x, y] (ws.map (Expression.ofWire (p := p)))
                let bs ← B.splitOutputs (ws.map (Expression.ofWire (p := p)))
                B.assertAscending bs
                B.generator ([x, y].flatMap Expression.dependencies) (B.sortGen [x, y] ws)
                return ws.map (Expression.ofWire (p := p))) t fun _ _ => True := by
          intro ys hp
          refine (Can.outputs _ ys (by rw [← hp.length_eq]; simp)).mono
            fun ws t l ⟨h1, h2, h3⟩ => ⟨h2, h3, ?_⟩
          refine (Can.assertPermutation (fun e he => l.scoped (ha e he)) (sc h2) ?_).bind fun _ u l' _ =>
            Can.sortRest h4 (ne h1) fun i hi => lt_of_lt_of_le (h2 i hi) l'.1
          rw [evals_ofWire, h3, l.evals ha]
          exact hp
        refine Forks.before (obs := fun ws W => ws.map W) (G := fun ws k => ∀ i ∈ ws, i < k)
          (u := [x.eval s.W, y.eval s.W]) (v := [y.eval s.W, x.eval s.W]) ?_ ?_ (key _ ?_) (key _ ?_)
        · intro h
          exact hxy (List.cons.inj h).1
        · intro ws k W1 W2 g hag
          exact List.map_congr_left fun i hi => hag i (g i hi)
        · exact List.Perm.refl _
        · exact List.Perm.swap _ _ _
  exact same

namespace Det

variable {n : ℕ} {P : Assign p → Prop}

theorem sortAscending_short (hn : 1 ≤ n) {a : List (Expression p)} (hl : a.length ≤ 1)
    (ha : ∀ e ∈ a, e.Scoped n) : Det n P (B.sortAscending a) fun _ _ => True := by
  match a, hl with
  | [], _ =>
    intro b b' r hb hr
    unfold B.sortAscending at hr
    obtain ⟨ws, b1, r1, r2⟩ := B.bind_run hr
    obtain ⟨_, b2, r3, r4⟩ := B.bind_run r2
    obtain ⟨_, b3, r5, r6⟩ := B.bind_run r4
    rw [Enforces.wires_run, Option.some.injEq, Prod.mk.injEq] at r1
    obtain ⟨rfl, -⟩ := r1
    simp [B.splitOutputs, B.panic] at r5
  | [x], _ =>
    unfold B.sortAscending
    refine Det.wires (U := fun _ W => W n = x.eval W) ?_ ?_ ?_
    · refine Enforces.bind (Q := fun _ W => W n = x.eval W) ?_ fun _ => ?_
      · change Enforces (B.assertPermutation [x] [Expression.ofWire n]) _
        refine (Enforces.assertPermutation _ _).mono fun _ W _ h => ?_
        simpa [Expression.eval_ofWire, eq_comm] using h
      · exact (Prog.splitOutputs _).enforces.bind fun _ => (Prog.assertAscending _).enforces.bind fun _ =>
          (Enforces.generator _ _).bind fun _ => Enforces.pure fun W _ _ _ _ h => h
    · intro _ W1 W2 _ _ hag _ _ h1 h2
      simp [h1, h2, hag.eval (ha x (by simp))]
    · change Det (n + 1) P (do
        B.require ([x].length = [Expression.ofWire (p := p) n].length)
        B.assertEqual x (Expression.ofWire n)
        let bs ← B.splitOutputs [Expression.ofWire (p := p) n]
        B.assertAscending bs
        B.generator _ _
        return _) _
      refine (Det.require _).bind fun _ k1 _ hk1 => (Det.assertEqual _ _).bind fun _ k2 _ hk2 => ?_
      unfold B.splitOutputs
      rw [bind_assoc]
      refine (Det.split (by omega) (.ofWire (by omega))).bind fun z k3 _ _ => ?_
      rw [pure_bind]
      exact (Det.pure (S := fun _ _ => True) trivial).bind fun _ _ _ _ =>
        (Det.generator _ _).bind fun _ _ _ _ => Det.pure trivial

end Det

end R1CS
