import Verif.Lemmas.PassesLate

/-!
# Calls which need several passes
-/

set_option linter.unusedSectionVars false

namespace R1CS

variable {p : ℕ} [hp : Fact p.Prime] {α β : Type}

theorem Late.wire_run {b b' : Builder p} {i : Wire} (h : (B.wire : B p Wire) b = some (i, b')) :
    i = b.nextWireIndex ∧ b'.nextWireIndex = b.nextWireIndex + 1 ∧
      b'.witnessGenerators = b.witnessGenerators := by
  cases h
  exact ⟨rfl, rfl, rfl⟩

theorem Late.assertProduct_run {b b' : Builder p} {x y z : Expression p} {u : Unit}
    (h : B.assertProduct x y z b = some (u, b')) : b'.nextWireIndex = b.nextWireIndex ∧
      b'.witnessGenerators = b.witnessGenerators := by
  cases h
  exact ⟨rfl, rfl⟩

theorem Late.generator_run {b b' : Builder p} {l : List Wire}
    {f : WireValues p → Option (WireValues p)} {u : Unit}
    (h : B.generator l f b = some (u, b')) : b'.nextWireIndex = b.nextWireIndex ∧
      b'.witnessGenerators = b.witnessGenerators ++ [⟨l, f⟩] := by
  cases h
  exact ⟨rfl, rfl⟩

/-- However its generators are scheduled, the call made when `n` wires are allocated has one which runs
in the pass `d` or later, if the wires which it allocates have no values in the beginning and are written
by these generators only. -/
def Slow (d n : ℕ) (m : B p α) : Prop :=
  ∀ (b b1 : Builder p) (a : α), b.nextWireIndex = n → 1 ≤ n → m b = some (a, b1) →
    ∀ (gs : List (WitnessGenerator p)) (v : WireValues p) (ρ : ℕ → ℕ), Schedule gs v ρ →
    b1.witnessGenerators <+: gs →
    (∀ i, b.nextWireIndex ≤ i → i < b1.nextWireIndex → v i = none) →
    Late.Alone gs b.nextWireIndex b1.nextWireIndex b.witnessGenerators.length
      b1.witnessGenerators.length →
    ∃ q, b.witnessGenerators.length ≤ q ∧ q < b1.witnessGenerators.length ∧ d ≤ ρ q

namespace Slow

variable {d n : ℕ}

theorem needs {m : B p α} (h : Slow d n m) (hm : Tidy m) : Needs d n m := by
  intro γ δ pre k c a z b b1 b2 hpre hk hb hn hm1 hk1 v v' j hv hj
  have e : b2.build.witnessGenerators = b2.witnessGenerators := rfl
  rw [e] at hj
  obtain ⟨ρ, h1, h2⟩ := hj.schedule
  obtain ⟨n2, p2, l2, w2⟩ := Late.segment (hk c a) hk1 (List.prefix_refl _)
  obtain ⟨n1, p1, l1, w1⟩ := Late.segment hm hm1 p2
  obtain ⟨n0, p0, l0, w0⟩ := Late.segment hpre hb (p1.trans p2)
  have hn1 : 1 ≤ b.nextWireIndex := n0
  obtain ⟨q, q1, q2, q3⟩ := h b b1 a hn (by omega) hm1 _ v ρ h2 p2
    (fun i i1 i2 => hv i (by omega) i2) (fun q g i hg hw i1 i2 => by
      have hlen : q < b2.witnessGenerators.length := (List.getElem?_eq_some_iff.1 hg).1
      constructor
      · by_contra hc
        have := w0 q g hg (Nat.zero_le _) (by omega) i hw
        omega
      · by_contra hc
        have := w2 q g hg (by omega) hlen i hw
        omega)
  exact lt_of_le_of_lt q3 (h1 q (by omega))

theorem bind_left {m : B p α} {f : α → B p β} (h : Slow d n m) (hm : Tidy m) (hf : ∀ a, Tidy (f a)) :
    Slow d n (m >>= f) := by
  intro b b1 z hn hn1 hr gs v ρ hs hgs hv ha
  obtain ⟨a, b', k1, k2⟩ := B.bind_run hr
  obtain ⟨n2, p2, l2, w2⟩ := Late.segment (hf a) k2 hgs
  obtain ⟨n1, p1, l1, w1⟩ := Late.segment hm k1 (p2.trans hgs)
  obtain ⟨q, q1, q2, q3⟩ := h b b' a hn hn1 k1 gs v ρ hs (p2.trans hgs)
    (fun i i1 i2 => hv i i1 (by omega)) fun q g i hg hw i1 i2 => by
      have := ha q g i hg hw i1 (by omega)
      refine ⟨this.1, ?_⟩
      by_contra hc
      have := w2 q g hg (by omega) this.2 i hw
      omega
  exact ⟨q, q1, by omega, q3⟩

theorem bind_right {m : B p α} {f : α → B p β} (hm : Tidy m) (hf : ∀ a, Tidy (f a))
    (h : ∀ b b' a, b.nextWireIndex = n → m b = some (a, b') → Slow d b'.nextWireIndex (f a)) :
    Slow d n (m >>= f) := by
  intro b b1 z hn hn1 hr gs v ρ hs hgs hv ha
  obtain ⟨a, b', k1, k2⟩ := B.bind_run hr
  obtain ⟨n2, p2, l2, w2⟩ := Late.segment (hf a) k2 hgs
  obtain ⟨n1, p1, l1, w1⟩ := Late.segment hm k1 (p2.trans hgs)
  obtain ⟨q, q1, q2, q3⟩ := h b b' a hn k1 b' b1 z rfl (by omega) k2 gs v ρ hs hgs
    (fun i i1 i2 => hv i (by omega) i2) fun q g i hg hw i1 i2 => by
      have := ha q g i hg hw (by omega) (by omega)
      refine ⟨?_, this.2⟩
      by_contra hc
      have := w1 q g hg this.1 (by omega) i hw
      omega
  exact ⟨q, by omega, q2, q3⟩

/-- A network. -/
theorem assertPermutation {xs ys : List (Expression p)} (hl : 2 ≤ xs.length)
    (hx : ∀ e ∈ xs, e.Scoped n) (hy : ∀ e ∈ ys, e.Scoped n)
    (hc : ∀ x y, xs = [x, y] → (y - x).asConstant = none) :
    Slow (Nat.clog 2 xs.length) n (B.assertPermutation xs ys) := by
  intro b b1 u hn hn1 hr gs v ρ hs hgs hv ha
  subst hn
  obtain ⟨q, q1, q2, q3⟩ := Late.network hs _ xs ys b b1 u hr hl hn1 hx hy hc hgs hv ha 0 (Or.inl rfl)
  exact ⟨q, q1, q2, by omega⟩

end Slow

/-- The call adds a generator which reads the wire. -/
def Reads (i : Wire) (m : B p α) : Prop :=
  ∀ b b' a, m b = some (a, b') → ∃ gs, b'.witnessGenerators = b.witnessGenerators ++ gs ∧
    ∃ g ∈ gs, i ∈ g.inputs

namespace Reads

variable {i : Wire}

theorem bind_left {m : B p α} {f : α → B p β} (h : Reads i m) (hf : ∀ a, Prog (f a)) :
    Reads i (m >>= f) := by
  intro b b' z hr
  obtain ⟨a, b1, k1, k2⟩ := B.bind_run hr
  obtain ⟨gs, e, g, hg, hi⟩ := h b b1 a k1
  obtain ⟨_, _, gs', e', _⟩ := C23_appends (hf a) k2
  exact ⟨gs ++ gs', by rw [e', e, List.append_assoc], g, by simp [hg], hi⟩

theorem bind_right {m : B p α} {f : α → B p β} (hm : Prog m)
    (h : ∀ b b' a, m b = some (a, b') → Reads i (f a)) : Reads i (m >>= f) := by
  intro b b' z hr
  obtain ⟨a, b1, k1, k2⟩ := B.bind_run hr
  obtain ⟨gs', e', g, hg, hi⟩ := h b b1 a k1 b1 b' z k2
  obtain ⟨_, _, gs, e, _⟩ := C23_appends hm k1
  exact ⟨gs ++ gs', by rw [e', e, List.append_assoc], g, by simp [hg], hi⟩

theorem generator {l : List Wire} {f : WireValues p → Option (WireValues p)} (h : i ∈ l) :
    Reads i (B.generator l f) := by
  intro b b' a hr
  obtain ⟨_, rfl⟩ := Prod.ext_iff.1 (Option.some.inj hr)
  exact ⟨[⟨l, f⟩], rfl, ⟨l, f⟩, by simp, h⟩

theorem splitWithoutRangeCheck {x : Expression p} (h : i ∈ x.dependencies) (k : ℕ) :
    Reads i (B.splitWithoutRangeCheck x k) :=
  bind_right (Tidy.binaryWire k).1 fun _ _ _ _ => bind_right (.ofOption _) fun _ _ _ _ =>
    bind_right (.assertEqual _ _) fun _ _ _ _ => bind_left (generator h) fun _ => .pure _

theorem split {x : Expression p} (h : i ∈ x.dependencies) : Reads i (B.split x) :=
  bind_left (splitWithoutRangeCheck h _) fun _ => .bind (Tidy.assertLtBinary _ _).1 fun _ => .pure _

theorem assertLt {x y : Expression p} (h : i ∈ x.dependencies) : Reads i (B.assertLt x y) := by
  refine bind_left (m := B.lt x y) ?_ fun _ => .assertTrue _
  exact bind_left (splitWithoutRangeCheck h _) fun _ => .bind (Tidy.split _).1 fun _ =>
    (Tidy.cmpBinary _ _ _ _).1

theorem product {x : Expression p} (h : i ∈ x.dependencies) (hc : x.asConstant = none) :
    Reads i (B.product x x) := by
  unfold B.product
  rw [hc]
  dsimp only
  exact bind_right .wire fun _ _ _ _ => bind_right (.assertProduct _ _ _) fun _ _ _ _ =>
    bind_left (generator (List.mem_append_left _ h)) fun _ => .pure _

theorem exponentiation {x : Expression p} (h : i ∈ x.dependencies) (hc : x.asConstant = none)
    {k : Elem p} (hk : 2 ≤ k.n) : Reads i (B.exponentiation x k) := by
  unfold B.exponentiation
  obtain ⟨r, hr⟩ : ∃ r, k.bits = r + 2 := by
    have : 2 ≤ k.bits := Nat.lt_size.2 (by simpa using hk)
    exact ⟨k.bits - 2, by omega⟩
  rw [hr]
  unfold B.expLoop
  refine bind_right (by split; exacts [.pure _, .product _ _]) fun b b' s hs => bind_right
    (by split; exacts [.product _ _, .pure _]) fun _ _ e _ => ?_
  rw [if_pos rfl] at hs
  obtain ⟨rfl, _⟩ := Prod.ext_iff.1 (Option.some.inj hs)
  unfold B.expLoop
  refine bind_left ?_ fun s' => .bind (by split; exacts [.product _ _, .pure _]) fun _ => ?_
  · rw [if_neg (by omega)]
    exact product h hc
  · exact (Tidy.expLoop _ _ _ _ _ _).1

end Reads

namespace Slow

variable {d n : ℕ}

/-- A call which reads a wire written only by later generators. -/
theorem reader {gs : List (WitnessGenerator p)} {v : WireValues p} {ρ : ℕ → ℕ} (hs : Schedule gs v ρ)
    {m : B p α} {i : Wire} (h : Reads i m) {b b' : Builder p} {a : α} (hr : m b = some (a, b'))
    (hgs : b'.witnessGenerators <+: gs) (hv : v i = none)
    (hw : ∀ q g, gs[q]? = some g → Writes g i → b'.witnessGenerators.length ≤ q) :
    ∃ q, b.witnessGenerators.length ≤ q ∧ q < b'.witnessGenerators.length ∧ 1 ≤ ρ q := by
  obtain ⟨gs', e, g, hg, hi⟩ := h b b' a hr
  obtain ⟨k, hk, rfl⟩ := List.mem_iff_getElem.1 hg
  have hl : b'.witnessGenerators.length = b.witnessGenerators.length + gs'.length := by
    rw [e]; simp
  obtain ⟨t, rfl⟩ := hgs
  refine ⟨b.witnessGenerators.length + k, by omega, by omega, Late.waits hs (g := gs'[k]) ?_ hi hv
    fun q' g' a1 a2 => ?_⟩
  · rw [List.getElem?_append_left (by omega), e, List.getElem?_append_right (by omega)]
    simp [List.getElem?_eq_getElem hk]
  · have := hw q' g' a1 a2
    omega

/-- A wire calculated after its use: allocate wires, use one of them, calculate it. -/
theorem afterwards {m : B p α} {l : List Wire} {f : WireValues p → Option (WireValues p)} {i : Wire}
    (hi : i < n) (hm : Tidy m) (h : Reads i m) {b b' b1 : Builder p} {a : α} {u : Unit}
    (hn : n ≤ b.nextWireIndex) (k1 : m b = some (a, b')) (k2 : B.generator l f b' = some (u, b1))
    {gs : List (WitnessGenerator p)} {v : WireValues p} {ρ : ℕ → ℕ} (hs : Schedule gs v ρ)
    (hgs : b1.witnessGenerators <+: gs) (hv : v i = none)
    (ha : ∀ q g, gs[q]? = some g → Writes g i → b.witnessGenerators.length ≤ q) :
    ∃ q, b.witnessGenerators.length ≤ q ∧ q < b1.witnessGenerators.length ∧ 1 ≤ ρ q := by
  obtain ⟨_, rfl⟩ := Prod.ext_iff.1 (Option.some.inj k2)
  have hgs' : b'.witnessGenerators <+: gs := (List.prefix_append _ _).trans hgs
  obtain ⟨n1, p1, l1, w1⟩ := Late.segment hm k1 hgs'
  obtain ⟨q, q1, q2, q3⟩ := reader hs h k1 hgs' hv fun q g hg hw => by
    by_contra hc
    have := w1 q g hg (ha q g hg hw) (by omega) i hw
    omega
  exact ⟨q, q1, by simp; omega, q3⟩

theorem modulus (x y : Expression p) : Slow 1 n (B.modulus x y) := by
  intro b b1 z hn hn1 hr gs v ρ hs hgs hv ha
  unfold B.modulus at hr
  obtain ⟨q, c1, k1, r1⟩ := B.bind_run hr
  obtain ⟨r, c2, k2, r2⟩ := B.bind_run r1
  obtain ⟨_, c3, k3, r3⟩ := B.bind_run r2
  obtain ⟨_, c4, k4, r4⟩ := B.bind_run r3
  obtain ⟨_, c5, k5, r5⟩ := B.bind_run r4
  have e5 : c5 = b1 := (Prod.ext_iff.1 (Option.some.inj r5)).2
  subst e5
  have e4 : c5.nextWireIndex = c4.nextWireIndex := (Late.generator_run k5).1
  have e3 : c3.nextWireIndex = b.nextWireIndex + 2 ∧ r = b.nextWireIndex + 1 ∧
      c3.witnessGenerators = b.witnessGenerators := by
    obtain ⟨a1, a2, a3⟩ := Late.wire_run k1
    obtain ⟨b1, b2, b3⟩ := Late.wire_run k2
    obtain ⟨c1, c2⟩ := Late.assertProduct_run k3
    exact ⟨by omega, by omega, by rw [c2, b3, a3]⟩
  have hle := (C23_appends (Tidy.assertLt _ _).1 k4).1
  obtain ⟨q, q1, q2, q3⟩ := afterwards (n := c3.nextWireIndex) (i := r) (by omega) (Tidy.assertLt _ _)
    (Reads.assertLt (Late.Moves.ofWire r).dep) le_rfl k4 k5 hs hgs (hv r (by omega) (by omega))
    fun q g hg hw => by
      have := ha q g r hg hw (by omega) (by omega)
      rw [e3.2.2]
      exact this.1
  exact ⟨q, by rw [e3.2.2] at q1; exact q1, q2, q3⟩

theorem divides (x y : Expression p) : Slow 1 n (B.divides x y) :=
  (modulus _ _).bind_left (Tidy.modulus _ _) fun _ => Tidy.zero _

/-- A root. -/
theorem root (f : MonomialPermutation p) (hf : 2 ≤ f.n.n) (x : Expression p) :
    Slow 1 n (f.inverse x) := by
  intro b b1 z hn hn1 hr gs v ρ hs hgs hv ha
  unfold MonomialPermutation.inverse at hr
  obtain ⟨r, c1, k1, r1⟩ := B.bind_run hr
  obtain ⟨e, c2, k2, r2⟩ := B.bind_run r1
  obtain ⟨_, c3, k3, r3⟩ := B.bind_run r2
  obtain ⟨t, c4, k4, r4⟩ := B.bind_run r3
  obtain ⟨_, c5, k5, r5⟩ := B.bind_run r4
  have e5 : c5 = b1 := (Prod.ext_iff.1 (Option.some.inj r5)).2
  subst e5
  obtain ⟨_, e4⟩ := B.ofOption_eq_some k4
  have e4 : c3 = c4 := by first | exact e4 | exact e4.symm
  subst e4
  have e1 : r = b.nextWireIndex ∧ c1.nextWireIndex = b.nextWireIndex + 1 ∧
      c1.witnessGenerators = b.witnessGenerators := Late.wire_run k1
  have e6 : c5.nextWireIndex = c2.nextWireIndex :=
    (Late.generator_run k5).1.trans (Late.assertProduct_run k3).1
  have hle := (C23_appends (Tidy.exponentiation _ _).1 k2).1
  have k23 : (B.exponentiation (Expression.ofWire r) f.n >>= fun e => B.assertEqual e x) c1 =
      some ((), c3) := by rw [B.bind_eq k2]; exact k3
  obtain ⟨q, q1, q2, q3⟩ := afterwards (n := c1.nextWireIndex) (i := r) (by omega)
    ((Tidy.exponentiation _ _).bind fun _ => Tidy.assertEqual _ _)
    (Reads.bind_left (Reads.exponentiation (Late.Moves.ofWire r).dep
      (Late.ofWire_not_constant (show r ≠ 0 by omega)) hf) fun _ => .assertEqual _ _)
    le_rfl k23 k5 hs hgs (hv r (by omega) (by omega))
    fun q g hg hw => by
      have := ha q g r hg hw (by omega) (by omega)
      rw [e1.2.2]
      exact this.1
  exact ⟨q, by rw [e1.2.2] at q1; exact q1, q2, q3⟩

theorem decrypt (c : MiMC p) (hc : 2 ≤ c.roundPermutation.n.n) (key x : Expression p) :
    Slow 1 n (c.decrypt key x) :=
  bind_right (Tidy.decryptRounds _ _ _ _) (fun _ => (Tidy.root _ _).bind fun _ => Tidy.pure _)
    fun _ _ _ _ _ => (root _ hc _).bind_left (Tidy.root _ _) fun _ => Tidy.pure _

theorem mapExpressions_length {f : Expression p → B p (Expression p)} :
    ∀ (xs : List (Expression p)) {b b' : Builder p} {ys : List (Expression p)},
      B.mapExpressions f xs b = some (ys, b') → ys.length = xs.length
  | [], b, b', ys, h => by cases h; rfl
  | x :: xs, b, b', ys, h => by
    obtain ⟨y, c1, k1, h1⟩ := B.bind_run h
    obtain ⟨zs, c2, k2, h2⟩ := B.bind_run h1
    cases h2
    simp [mapExpressions_length xs k2]

theorem rescue (f : Rescue p) (ha : 2 ≤ f.alpha.n) (hr : 1 ≤ f.numRounds) (hm : f.mds.rows ≠ [])
    {xs : List (Expression p)} (hx : xs ≠ []) : Slow 1 n (f.permute xs) := by
  unfold Rescue.permute
  obtain ⟨r, hr⟩ : ∃ r, f.numRounds = r + 1 := ⟨f.numRounds - 1, by omega⟩
  rw [hr]
  unfold Rescue.rounds
  have hroot : ∀ x, Tidy (f.pi2 x) := fun x => (Tidy.ofOption _).bind fun m => Tidy.root m x
  refine bind_right (Tidy.mapExpressions (fun x => (Tidy.ofOption _).bind fun m => Tidy.monomial m x) _)
    (fun _ => (Tidy.mapExpressions hroot _).bind fun _ => Tidy.rescueRounds _ _ _)
    fun b b' ys hn hy => bind_left ?_ (Tidy.mapExpressions hroot _) fun _ => Tidy.rescueRounds _ _ _
  have hl := mapExpressions_length _ hy
  obtain ⟨z, zs, hz⟩ : ∃ z zs, f.mds.mulExpressions ys = z :: zs := by
    cases h : f.mds.mulExpressions ys with
    | nil =>
      have h' := congrArg List.length h
      have h1 := List.length_pos_iff.2 hm
      have h2 := List.length_pos_iff.2 hx
      simp only [ElementMatrix.mulExpressions, List.length_map, List.length_zip,
        List.length_nil] at h'
      omega
    | cons z zs => exact ⟨z, zs, rfl⟩
  rw [hz]
  unfold B.mapExpressions
  refine bind_left ?_ (hroot z) fun _ => (Tidy.mapExpressions hroot _).bind fun _ => Tidy.pure _
  refine bind_right (Tidy.ofOption _) (fun m => Tidy.root m z) fun c c' m hc hm => ?_
  obtain ⟨hm, _⟩ := B.ofOption_eq_some hm
  obtain ⟨_, rfl⟩ := (MonomialPermutation.new_eq_some_iff _ _).1 hm
  exact root _ ha z

/-- Sorting. -/
theorem sortAscending {xs : List (Expression p)} (hx : ∀ e ∈ xs, e.Scoped n)
    (hc : ∀ x y, xs = [x, y] → (y - x).asConstant = none) :
    Slow (Nat.clog 2 xs.length + 1) n (B.sortAscending xs) := by
  intro b b1 z hn hn1 hr gs v ρ hs hgs hv ha
  unfold B.sortAscending at hr
  obtain ⟨ws, c1, k1, r1⟩ := B.bind_run hr
  obtain ⟨_, c2, k2, r2⟩ := B.bind_run r1
  obtain ⟨os, c3, k3, r3⟩ := B.bind_run r2
  obtain ⟨_, c4, k4, r4⟩ := B.bind_run r3
  obtain ⟨_, c5, k5, r5⟩ := B.bind_run r4
  have e5 : c5 = b1 := (Prod.ext_iff.1 (Option.some.inj r5)).2
  subst e5
  rw [Enforces.wires_run] at k1
  obtain ⟨e1, e2⟩ := Prod.ext_iff.1 (Option.some.inj k1)
  dsimp only at e1 e2
  have hn1' : c1.nextWireIndex = b.nextWireIndex + xs.length := by rw [← e2]
  have hg1 : c1.witnessGenerators = b.witnessGenerators := by rw [← e2]
  obtain ⟨e6, e7⟩ := Late.generator_run k5
  have hgs4 : c4.witnessGenerators <+: gs := by
    rw [e7] at hgs
    exact (List.prefix_append _ _).trans hgs
  have hlen5 : c5.witnessGenerators.length = c4.witnessGenerators.length + 1 := by rw [e7]; simp
  obtain ⟨n4, p4, l4, w4⟩ := Late.segment (Tidy.assertAscending _) k4 hgs4
  obtain ⟨n3, p3, l3, w3⟩ := Late.segment (Tidy.splitOutputs _) k3 (p4.trans hgs4)
  have hgs2 := p3.trans (p4.trans hgs4)
  obtain ⟨n2, p2, l2, w2⟩ := Late.segment (Tidy.assertPermutation _ _) k2 hgs2
  -- the generator of the outputs
  have hlast : gs[c4.witnessGenerators.length]? = some _ := Late.last_get (e7 ▸ hgs)
  have wr : ∀ g i, gs[c4.witnessGenerators.length]? = some g → Writes g i →
      b.nextWireIndex ≤ i ∧ i < c1.nextWireIndex := by
    rintro g i hg ⟨w, w', a1, a2⟩
    rw [hlast] at hg
    obtain rfl := Option.some.inj hg
    refine ((Conf.sortGen (fun w hw => ?_)).writes w w' a1 i a2).2
    rw [← e1, List.mem_range'_1] at hw
    omega
  -- the outputs are written by it only
  have hout : ∀ i, b.nextWireIndex ≤ i → i < c1.nextWireIndex → ∀ q g, gs[q]? = some g →
      Writes g i → q = c4.witnessGenerators.length := by
    intro i i1 i2 q g hg hw
    have a0 := ha q g i hg hw i1 (by omega)
    by_contra hcon
    rw [← hg1] at a0
    by_cases q1 : q < c2.witnessGenerators.length
    · have := w2 q g hg a0.1 q1 i hw; omega
    · by_cases q2 : q < c3.witnessGenerators.length
      · have := w3 q g hg (by omega) q2 i hw; omega
      · have := w4 q g hg (by omega) (by omega) i hw; omega
  rcases Nat.lt_or_ge xs.length 2 with hlt | hge
  · -- one element: the split of the output
    match xs, hlt with
    | [], _ =>
      simp only [List.length_nil, List.range'_zero] at e1
      subst e1
      exact absurd k3 (by simp [B.splitOutputs, B.panic])
    | [x], _ =>
      have ew : ws = [b.nextWireIndex] := by rw [← e1]; rfl
      subst ew
      simp only [List.length_singleton] at hn1'
      have hrd : Reads b.nextWireIndex
          (B.splitOutputs ([b.nextWireIndex].map Expression.ofWire : List (Expression p))) := by
        simp only [List.map_cons, List.map_nil]
        unfold B.splitOutputs
        exact Reads.bind_left (Reads.split (Late.Moves.ofWire _).dep) fun _ => .pure _
      obtain ⟨q, q1, q2, q3⟩ := reader hs hrd k3 (p4.trans hgs4) (hv _ le_rfl (by omega))
        fun q g hg hw => by
          have := hout _ le_rfl (by omega) q g hg hw
          omega
      rw [hg1] at l2
      exact ⟨q, by omega, by omega, by simpa using q3⟩
  · have ew : b.nextWireIndex ∈ ws := by
      rw [← e1, List.mem_range'_1]; omega
    obtain ⟨q, q1, q2, q3⟩ := Late.network hs _ xs (ws.map Expression.ofWire) c1 c2 _ k2 hge (by omega)
      (fun e he => (hx e he).mono (by omega))
      (fun e he => by
        obtain ⟨w, hw, rfl⟩ := List.mem_map.1 he
        rw [← e1, List.mem_range'_1] at hw
        intro i hi
        have := Expression.mem_deps_ofWire hi
        omega)
      hc hgs2 (fun i i1 i2 => hv i (by omega) (by omega))
      (fun q g i hg hw i1 i2 => by
        have a0 := ha q g i hg hw (by omega) (by omega)
        rw [← hg1] at a0
        refine ⟨a0.1, ?_⟩
        by_contra hcon
        by_cases q0 : q = c4.witnessGenerators.length
        · subst q0
          have := wr g i hg hw; omega
        · by_cases q2 : q < c3.witnessGenerators.length
          · have := w3 q g hg (by omega) q2 i hw; omega
          · have := w4 q g hg (by omega) (by omega) i hw; omega)
      1 (Or.inr ⟨b.nextWireIndex, hv _ le_rfl (by omega), ⟨Expression.ofWire b.nextWireIndex,
        List.mem_append_right _ (List.mem_map.2 ⟨_, ew, rfl⟩), (Late.Moves.ofWire _).dep⟩,
        fun q g hg hw => by
          have := hout _ le_rfl (by omega) q g hg hw
          right
          omega⟩)
    rw [hg1] at q1
    exact ⟨q, q1, by omega, by omega⟩

theorem sortDescending {xs : List (Expression p)} (hx : ∀ e ∈ xs, e.Scoped n)
    (hc : ∀ x y, xs = [x, y] → (y - x).asConstant = none) :
    Slow (Nat.clog 2 xs.length + 1) n (B.sortDescending xs) :=
  (sortAscending hx hc).bind_left (Tidy.sortAscending _) fun _ => Tidy.pure _

end Slow

end R1CS
