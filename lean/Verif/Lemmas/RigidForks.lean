import Verif.Lemmas.RigidMore

/-!
# Wires which are determined: non-strict comparisons; several witnesses for the same values
-/

set_option linter.unusedSectionVars false

namespace R1CS

variable {p : ℕ} [hp : Fact p.Prime] {α β : Type}

open Expression (eval_ofWire)

theorem Enforces.both {m : B p α} {Q R : α → Assign p → Prop} (h : Enforces m Q)
    (h' : Enforces m R) : Enforces m fun a w => Q a w ∧ R a w := fun b a b' hr w hw =>
  ⟨(h b a b' hr w hw).1, (h b a b' hr w hw).2, (h' b a b' hr w hw).2⟩

/-- If the difference is said to exist, the difference selected by the mask is not zero. -/
theorem Enforces.cmpTail_nonzero (l : List (Wire × Expression p × Expression p))
    (de : BooleanExpression p) (less : Bool) (c : ℕ) :
    Enforces (B.cmpTail l de less false c) (fun _ w => de.eval w = 1 → maskDiff (evalZ w l) ≠ 0) := by
  unfold B.cmpTail
  refine (Enforces.maskedSum l 0).bind fun dc => ?_
  match l with
  | [] => exact Enforces.panic
  | (m, x, y) :: l =>
    refine (Enforces.assertMoreSignificantEqual l _).bind fun _ => ?_
    refine Enforces.bind (Q := fun _ w => de.eval w = 1 → dc.eval w ≠ 0) ?_ fun _ =>
      (Enforces.cmpSubtractive dc less false c).mono fun r w _ _ h2 _ h4 h => ?_
    · exact (Enforces.selection _ _ _).bind fun nz => (Enforces.assertNonzero nz).mono
        fun _ w o h1 h2 h3 h4 => h1 (by
          have h3' : Expression.eval w de.expression = 1 := h3
          rw [h2]
          simp [h3, h3', h4, Expression.eval_one o])
    · have := h2 h
      rwa [h4, Expression.eval_zero, zero_add] at this

namespace Det

variable {n : ℕ} {P : Assign p → Prop} {S : α → ℕ → Prop}

/-- A non-strict comparison of digits, and what is done with the result, if the values exclude that
there is a difference of the kind found. -/
theorem cmpBinaryZero (hn : 1 ≤ n) {x y : BinaryExpression p} (hx : x.Scoped n) (hy : y.Scoped n)
    (less : Bool) {g : BooleanExpression p → B p β} {V : BooleanExpression p → β → Assign p → Prop}
    {R : β → ℕ → Prop} (E : ∀ r, Enforces (g r) (V r))
    (hg : ∀ r k, n ≤ k → r.Scoped k → Det k P (g r) R)
    (hb : ∀ W, P W → x.AllBool W ∧ y.AllBool W)
    (hd : ∀ r b W (d : ℤ), W ONE = 1 → P W → V r b W →
      r.eval W = Elem.ofBool (cmpHolds less false d) → (d < 0 → x.val W < y.val W) →
      (0 < d → y.val W < x.val W) → d = 0) :
    Det n P (B.cmpBinary x y less false >>= g) R := by
  unfold B.cmpBinary
  simp only [bind_assoc]
  set c := cmpChunkBits (Elem.maxBits p) x.len with hcdef
  have hc : 0 < c := cmpChunkBits_pos _ _
  refine (Det.require _).bind fun _ k _ ⟨hlen, e⟩ => ?_
  obtain rfl := e
  refine (Det.ofOption (S := fun a k' => k' = k ∧ x.chunks c = some a) fun a h => ⟨rfl, h⟩).bind
    fun xc k' _ ⟨e, hxc⟩ => ?_
  obtain rfl := e
  refine (Det.ofOption (S := fun a k => k = k' ∧ xc.mapM BinaryExpression.join = some a)
    fun a h => ⟨rfl, h⟩).bind fun xs k _ ⟨e, hxs⟩ => ?_
  obtain rfl := e
  refine (Det.ofOption (S := fun a k' => k' = k ∧ y.chunks c = some a) fun a h => ⟨rfl, h⟩).bind
    fun yc k' _ ⟨e, hyc⟩ => ?_
  obtain rfl := e
  refine (Det.ofOption (S := fun a k => k = k' ∧ yc.mapM BinaryExpression.join = some a)
    fun a h => ⟨rfl, h⟩).bind fun ys k _ ⟨e, hys⟩ => ?_
  obtain rfl := e
  rw [chunks_eq hc] at hxc hyc
  obtain rfl := Option.some.inj hxc
  obtain rfl := Option.some.inj hyc
  have scx := (mapM_join hxs).2 k (chunk_scoped hx hc)
  have scy := (mapM_join hys).2 k (chunk_scoped hy hc)
  set ms := List.range' k xs.length with hms
  have hmem : ∀ i ∈ ms, i < k + xs.length := fun i hi => (List.mem_range'_1.1 hi).2
  refine Det.wires (U := fun b W => ∃ r, V r b W ∧ (∀ m ∈ ms, IsBool (W m)) ∧
    IsBool ((Expression.sumOfWires ms : Expression p).eval W) ∧ c + 1 < Elem.maxBits p ∧
    EqAbove 0 (evalZ W (ms.zip (xs.zip ys))) ∧
    ((Expression.sumOfWires ms : Expression p).eval W = 1 →
      maskDiff (evalZ W (ms.zip (xs.zip ys))) ≠ 0) ∧
    ∀ d : ℤ, |d| < 2 ^ c → maskDiff (evalZ W (ms.zip (xs.zip ys))) = (d : Elem p) →
        r.eval W = Elem.ofBool (cmpHolds less false d)) ?_ ?_ ?_
  · refine (Enforces.assertBooleans ms).bind fun _ => (Enforces.assertBoolean _).bind fun de =>
      (Enforces.generator _ _).bind fun _ => ((Enforces.cmpTail _ de less false c).both
        (Enforces.cmpTail_nonzero _ de less c)).bind fun r =>
      (E r).mono fun _ W _ hr ⟨⟨g1, g2, g3, g4, g5⟩, g6⟩ _ ⟨hde, hsum⟩ hmb =>
        ⟨r, hr, hmb, hsum, g2, g4, ?_, g5⟩
    subst hde
    exact g6
  · have key : ∀ b (W : Assign p), W ONE = 1 → P W → (∃ r, V r b W ∧ (∀ m ∈ ms, IsBool (W m)) ∧
        IsBool ((Expression.sumOfWires ms : Expression p).eval W) ∧ c + 1 < Elem.maxBits p ∧
        EqAbove 0 (evalZ W (ms.zip (xs.zip ys))) ∧
        ((Expression.sumOfWires ms : Expression p).eval W = 1 →
          maskDiff (evalZ W (ms.zip (xs.zip ys))) ≠ 0) ∧
        ∀ d : ℤ, |d| < 2 ^ c → maskDiff (evalZ W (ms.zip (xs.zip ys))) = (d : Elem p) →
            r.eval W = Elem.ofBool (cmpHolds less false d)) → ∀ m ∈ ms, W m = 0 := by
      rintro b w o hP ⟨r, hr, hmb, hsum, g2, g4, g6, g5⟩
      obtain ⟨hxb, hyb⟩ := hb w hP
      have ex := (mapM_join hxs).1 w
      have ey := (mapM_join hys).1 w
      set us : List ℕ := (chunksOf c x.bits).map fun b => BinaryExpression.val w ⟨b⟩ with hus
      set vs : List ℕ := (chunksOf c y.bits).map fun b => BinaryExpression.val w ⟨b⟩ with hvs
      have ex' : xs.map (Expression.eval w) = us.map fun u : ℕ => (u : Elem p) := by
        rw [ex, hus, List.map_map, List.map_map]; rfl
      have ey' : ys.map (Expression.eval w) = vs.map fun u : ℕ => (u : Elem p) := by
        rw [ey, hvs, List.map_map, List.map_map]; rfl
      have ez := evalZ_zip w (ms := ms) ex' ey'
      rw [ez] at g4 g5 g6
      have hul : xs.length = us.length := by
        have := congrArg List.length ex'; simpa using this
      have huv : us.length = vs.length := by
        have h3 := congrArg List.length (chunksOf_map_length (k := c) x.bits y.bits hlen)
        simpa [hus, hvs] using h3
      have hml : ms.length = xs.length := by simp [hms]
      have hnum : ms.length < p := by
        have h3 : (x.len + c - 1) / c < 2 ^ (Elem.maxBits p - 1) := chunks_lt g2
        have h4 := Elem.two_pow_lt_of_lt_maxBits (p := p) (k := Elem.maxBits p - 1)
          (by have := BinaryExpression.maxBits_pos (p := p); omega)
        have h5 : us.length = (x.len + c - 1) / c := by
          rw [hus, List.length_map, chunksOf_length hc]; rfl
        rw [hml, hul, h5]; omega
      have hcnt := maskCount (hms ▸ List.nodup_range') hnum hmb hsum
      have hmm : ((ms.map w).map fun m => m.n) = ms.map fun m => (w m).n := by
        rw [List.map_map]; rfl
      have hcp : 2 ^ c ≤ p := (Elem.two_pow_lt_of_lt_maxBits (by omega)).le
      obtain ⟨d, hd1, hd2, hd3, hd4, -⟩ := mask_sound hcp (ms.map w) us vs 0
        (by simp [hml, hul]) huv
        (by
          intro u hu
          obtain ⟨b, hb, rfl⟩ := List.mem_map.1 hu
          exact chunk_lt hxb hc b hb)
        (by
          intro u hu
          obtain ⟨b, hb, rfl⟩ := List.mem_map.1 hu
          exact chunk_lt hyb hc b hb)
        (by
          intro m hm
          obtain ⟨i, hi, rfl⟩ := List.mem_map.1 hm
          exact hmb i hi) (Or.inl rfl) (by rw [hmm, Elem.zero_n]; omega) g4
      have cx : chunkVal c us = x.val w := chunkVal_chunks w hc x
      have cy : chunkVal c vs = y.val w := chunkVal_chunks w hc y
      rw [cx, cy] at hd3 hd4
      have hd0 := hd r b w d o hP hr (g5 d hd1 hd2) hd3 hd4
      rw [hd0, Int.cast_zero] at hd2
      have hs1 : (Expression.sumOfWires ms : Expression p).eval w ≠ 1 := fun h => g6 h hd2
      have hs0 := hsum.resolve_right hs1
      have hval : (Expression.sumOfWires ms : Expression p).eval w
          = (((ms.map fun m => (w m).n).sum : ℕ) : Elem p) := by
        rw [Expression.eval_sumOfWires w ms List.nodup_range']
        have : ∀ l : List Wire, (l.map w).sum = (((l.map fun m => (w m).n).sum : ℕ) : Elem p) := by
          intro l
          induction l with
          | nil => simp
          | cons a l ih =>
            simp only [List.map_cons, List.sum_cons]
            rw [Nat.cast_add, ← ih, Elem.natCast_self_n]
        exact this ms
      intro m hm
      have hle := List.le_sum_of_mem (List.mem_map.2 ⟨m, hm, rfl⟩ :
        (w m).n ∈ ms.map fun m => (w m).n)
      have hz : (ms.map fun m => (w m).n).sum = 0 := by
        rcases Nat.le_one_iff_eq_zero_or_eq_one.1 hcnt with h | h
        · exact h
        · rw [h, Nat.cast_one] at hval
          exact absurd hval hs1
      exact Elem.ext_n (by rw [Elem.zero_n]; omega)
    intro b W1 W2 o1 o2 ha p1 p2 u1 u2
    exact List.map_congr_left fun m hm => (key b W1 o1 p1 u1 m hm).trans
      (key b W2 o2 p2 u2 m hm).symm
  · refine (assertBooleans ms).bind fun _ k1 _ e1 => (assertBoolean _).bind fun de k2 _ ⟨e2, e3⟩ =>
      (generator _ _).bind fun _ k3 _ e4 => ?_
    obtain rfl : k3 = k + xs.length := by rw [e4, e2, e1]
    refine (cmpTail (by omega) (zip_scoped hmem scx scy (by omega)) ?_ less false c).bind
      fun r k' hk' hr => hg r k' (by omega) hr
    subst e3
    exact Expression.Scoped.sumOfWires hmem

end Det

/-! ## Several witnesses -/

/-- There are two different ways to extend the assignment to the wires allocated by the call. -/
def Forks (m : B p α) (s : Wit p) : Prop :=
  ∃ (b' : Builder p) (a : α) (W1 W2 : Assign p), m s.b = some (a, b') ∧
    Satisfies W1 b'.constraints ∧ Satisfies W2 b'.constraints ∧
    (∀ i < s.next, W1 i = s.W i) ∧ (∀ i < s.next, W2 i = s.W i) ∧
    ∃ i < b'.nextWireIndex, W1 i ≠ W2 i

/-- Two witnesses which are told apart by something depending on the allocated wires only. -/
theorem Forks.two {m : B p α} {s : Wit p} {obs : α → Assign p → β} {u v : β} (huv : u ≠ v)
    {G : α → ℕ → Prop} (ho : ∀ a k W1 W2, G a k → Agree k W1 W2 → obs a W1 = obs a W2)
    (c1 : Can m s fun a t => G a t.next ∧ obs a t.W = u)
    (c2 : Can m s fun a t => G a t.next ∧ obs a t.W = v) : Forks m s := by
  obtain ⟨a, t, r1, l1, g1, e1⟩ := c1
  obtain ⟨a', t', r2, l2, g2, e2⟩ := c2
  rw [r1] at r2
  obtain ⟨rfl, hb⟩ := Prod.ext_iff.1 (Option.some.inj r2)
  simp only at hb
  refine ⟨t.b, a, t.W, t'.W, r1, t.sat, hb ▸ t'.sat, l1.2, l2.2, ?_⟩
  by_contra hc
  refine huv (e1.symm.trans ((ho a t.next t.W t'.W g1 fun i hi => ?_).trans e2))
  by_contra h
  exact hc ⟨i, hi, h⟩

/-- Two witnesses with different results. -/
theorem Forks.results {m : B p (Expression p)} {s : Wit p} {u v : Elem p} (huv : u ≠ v)
    (c1 : Can m s fun a t => a.Scoped t.next ∧ a.eval t.W = u)
    (c2 : Can m s fun a t => a.Scoped t.next ∧ a.eval t.W = v) : Forks m s :=
  Forks.two (obs := fun a W => a.eval W) (G := fun a k => a.Scoped k) huv
    (fun _ _ _ _ h ha => ha.eval h) c1 c2

/-- Two witnesses with different values of a wire. -/
theorem Forks.wire {m : B p α} {s : Wit p} {u v : Elem p} (huv : u ≠ v) (i : Wire)
    (c1 : Can m s fun _ t => i < t.next ∧ t.W i = u)
    (c2 : Can m s fun _ t => i < t.next ∧ t.W i = v) : Forks m s :=
  Forks.two (obs := fun _ W => W i) huv (fun _ _ _ _ h ha => ha i h) c1 c2

/-- Two witnesses after a common beginning. -/
theorem Forks.after {m : B p α} {f : α → B p β} {s : Wit p} {Q : α → Wit p → Prop}
    (c : Can m s Q) (h : ∀ a t, s.Le t → Q a t → Forks (f a) t) : Forks (m >>= f) s := by
  obtain ⟨a, t, r, l, q⟩ := c
  obtain ⟨b', a', W1, W2, r', s1, s2, e1, e2, d⟩ := h a t l q
  refine ⟨b', a', W1, W2, ?_, s1, s2, fun i hi => ?_, fun i hi => ?_, d⟩
  · rw [B.bind_eq r]; exact r'
  · rw [e1 i (lt_of_lt_of_le hi l.1), l.2 i hi]
  · rw [e2 i (lt_of_lt_of_le hi l.1), l.2 i hi]

/-- Two witnesses of the beginning, each of which can be completed. -/
theorem Forks.before {m : B p α} {f : α → B p β} {s : Wit p} {γ : Type} {obs : α → Assign p → γ}
    {u v : γ} (huv : u ≠ v) {G : α → ℕ → Prop}
    (ho : ∀ a k W1 W2, G a k → Agree k W1 W2 → obs a W1 = obs a W2)
    (c1 : Can m s fun a t => G a t.next ∧ obs a t.W = u ∧ Can (f a) t fun _ _ => True)
    (c2 : Can m s fun a t => G a t.next ∧ obs a t.W = v ∧ Can (f a) t fun _ _ => True) :
    Forks (m >>= f) s := by
  obtain ⟨a, t, r1, l1, g1, e1, a1, t1, q1, m1, -⟩ := c1
  obtain ⟨a', t', r2, l2, g2, e2, a2, t2, q2, m2, -⟩ := c2
  rw [r1] at r2
  obtain ⟨rfl, hb⟩ := Prod.ext_iff.1 (Option.some.inj r2)
  simp only at hb
  rw [← hb, q1] at q2
  obtain ⟨rfl, hb'⟩ := Prod.ext_iff.1 (Option.some.inj q2)
  simp only at hb'
  have hn : t'.next = t.next := by change t'.b.nextWireIndex = _; rw [← hb]
  refine ⟨t1.b, a1, t1.W, t2.W, by rw [B.bind_eq r1]; exact q1, t1.sat, hb' ▸ t2.sat,
    (l1.trans m1).2, (l2.trans m2).2, ?_⟩
  by_contra hc
  refine huv (e1.symm.trans ((ho a t.next t.W t'.W g1 fun i hi => ?_).trans e2))
  by_contra h
  refine hc ⟨i, lt_of_lt_of_le hi m1.1, ?_⟩
  rwa [m1.2 i hi, m2.2 i (by omega)]

theorem RigidIffIf.intro {n : ℕ} {P R : Assign p → Prop} {m : B p α} {S : α → ℕ → Prop}
    (hd : Det n (fun W => P W ∧ R W) m S) (hP : ∀ W1 W2 : Assign p, Agree n W1 W2 → P W1 → P W2)
    (hR : ∀ W1 W2 : Assign p, Agree n W1 W2 → R W1 → R W2)
    (hf : ∀ s : Wit p, s.next = n → P s.W → ¬ R s.W → Forks m s) : RigidIffIf n P m R := by
  intro s hn hp
  refine ⟨?_, fun h => ?_⟩
  · rintro ⟨b', a, W1, W2, r, s1, s2, e1, e2, i, hi, hne⟩ hr
    refine hne ((hd s.b b' a hn r).2.2.2 W1 W2 s1 s2 (fun i hi => (e1 i hi).trans (e2 i hi).symm)
      ?_ ?_ i hi)
    · exact ⟨hP _ _ (fun i hi => (e1 i hi).symm) hp, hR _ _ (fun i hi => (e1 i hi).symm) hr⟩
    · exact ⟨hP _ _ (fun i hi => (e2 i hi).symm) hp, hR _ _ (fun i hi => (e2 i hi).symm) hr⟩
  · subst hn
    exact hf s rfl hp h

theorem RigidIff.intro {n : ℕ} {R : Assign p → Prop} {m : B p α} {S : α → ℕ → Prop}
    (hd : Det n R m S) (hR : ∀ W1 W2 : Assign p, Agree n W1 W2 → R W1 → R W2)
    (hf : ∀ s : Wit p, s.next = n → ¬ R s.W → Forks m s) : RigidIff n m R :=
  RigidIffIf.intro (hd.pre fun _ _ h => h.2) (fun _ _ _ h => h) hR fun s hn _ h => hf s hn h

/-! ## Tests -/

/-- The auxiliary wire of `nonzero` is free if the operand is zero. -/
theorem Can.nonzero_zero {s : Wit p} {x : Expression p} (hx : x.Scoped s.next)
    (h0 : x.eval s.W = 0) (u : Elem p) :
    Can (B.nonzero x) s fun z t => z.Scoped t.next ∧ z.eval t.W = 0 ∧ s.next + 1 < t.next ∧
      t.W (s.next + 1) = u := by
  unfold B.nonzero
  refine (Can.wire s 0).bind fun a s1 l1 ⟨e1, n1, v1⟩ => ?_
  refine (Can.wire s1 u).bind fun m s2 l2 ⟨e2, n2, v2⟩ => ?_
  have hm : m = s.next + 1 := by rw [e2, n1]
  have l12 := l1.trans l2
  have ha : s2.W a = 0 := by rw [l2.2 a (by omega), v1]
  have hx0 : x.eval s2.W = 0 := by rw [l12.eval hx, h0]
  refine (Can.assertProduct (l12.scoped hx) (.ofWire (by omega)) (.ofWire (by omega)) ?_).bind
    fun _ s3 l3 ⟨n3, W3⟩ => ?_
  · rw [hx0, eval_ofWire, eval_ofWire, ha, zero_mul]
  refine (Can.assertProduct ((Expression.Scoped.one s3.pos).sub (.ofWire (by omega)))
    ((l12.trans l3).scoped hx) .zero ?_).bind fun _ s4 l4 ⟨n4, W4⟩ => ?_
  · rw [W3, hx0, Expression.eval_zero, mul_zero]
  refine (Can.generator _ _).bind fun _ s5 l5 ⟨n5, W5⟩ =>
    Can.pure ⟨.ofWire (by omega), ?_, by omega, ?_⟩
  · rw [BooleanExpression.eval_mk, eval_ofWire, W5, W4, W3, ha]
  · rw [W5, W4, W3, ← hm, v2]

theorem Forks.nonzero {s : Wit p} {x : Expression p} (hx : x.Scoped s.next)
    (h0 : x.eval s.W = 0) : Forks (B.nonzero x) s :=
  Forks.wire (zero_ne_one (α := Elem p)) (s.next + 1)
    ((Can.nonzero_zero hx h0 0).mono fun _ _ _ h => h.2.2)
    ((Can.nonzero_zero hx h0 1).mono fun _ _ _ h => h.2.2)

theorem Forks.zero {s : Wit p} {x : Expression p} (hx : x.Scoped s.next)
    (h0 : x.eval s.W = 0) : Forks (B.zero x) s := by
  have h : ∀ u, Can (B.zero x) s fun _ t => s.next + 1 < t.next ∧ t.W (s.next + 1) = u := fun u => by
    unfold B.zero B.not
    exact (Can.nonzero_zero hx h0 u).bind fun _ _ _ h => Can.pure h.2.2
  exact Forks.wire (zero_ne_one (α := Elem p)) (s.next + 1) (h 0) (h 1)

namespace Det

variable {n : ℕ} {P : Assign p → Prop}

theorem nonzero {x : Expression p} (hx : x.Scoped n) (hP : ∀ W, P W → x.eval W ≠ 0) :
    Det n P (B.nonzero x) fun z k => z.Scoped k := by
  unfold B.nonzero
  refine Det.wire (U := fun _ W => W n = 1 ∨ x.eval W = 0) ?_ ?_ ?_
  · refine Enforces.wire.bind fun m => (Enforces.assertProduct _ _ _).bind fun _ =>
      (Enforces.assertProduct _ _ _).bind fun _ => (Enforces.generator _ _).bind fun _ =>
        Enforces.pure fun W o _ h1 _ _ => ?_
    rw [Expression.eval_sub, Expression.eval_one o, eval_ofWire, Expression.eval_zero,
      mul_eq_zero, sub_eq_zero] at h1
    exact h1.imp Eq.symm id
  · intro _ W1 W2 _ _ _ p1 p2 h1 h2
    rw [h1.resolve_right (hP _ p1), h2.resolve_right (hP _ p2)]
  · refine Det.wire (U := fun _ W => x.eval W * W (n + 1) = W n) ?_ ?_ ?_
    · exact (Enforces.assertProduct _ _ _).bind fun _ =>
        (Enforces.assertProduct _ _ _).bind fun _ => (Enforces.generator _ _).bind fun _ =>
          Enforces.pure fun W o _ _ h1 => by rwa [eval_ofWire, eval_ofWire] at h1
    · intro _ W1 W2 _ _ ha p1 p2 h1 h2
      have hxa : x.eval W1 = x.eval W2 := ha.eval (hx.mono (by omega))
      rw [hxa, ha n (by omega)] at h1
      exact mul_left_cancel₀ (hP _ p2) (h1.trans h2.symm)
    · exact (assertProduct _ _ _).bind fun _ k1 _ h1 => (assertProduct _ _ _).bind fun _ k2 _ h2 =>
        (generator _ _).bind fun _ k3 _ h3 =>
          Det.pure (Expression.Scoped.ofWire (by omega))

theorem zero (hn : 1 ≤ n) {x : Expression p} (hx : x.Scoped n) (hP : ∀ W, P W → x.eval W ≠ 0) :
    Det n P (B.zero x) fun z k => z.Scoped k :=
  (nonzero hx hP).bind fun _ _ l h => not (hn.trans l) h

theorem inverseOrZero {x : Expression p} (hx : x.Scoped n) (hP : ∀ W, P W → x.eval W ≠ 0) :
    Det n P (B.inverseOrZero x) fun z k => z.Scoped k := by
  unfold B.inverseOrZero
  refine Det.wire (U := fun _ W => x.eval W = 0 ∨ x.eval W * W n = 1) ?_ ?_ ?_
  · refine (Enforces.nonzero x).bind fun nz => (Enforces.assertProduct _ _ _).bind fun _ =>
      (Enforces.generator _ _).bind fun _ => Enforces.pure fun W o _ h1 h2 => ?_
    rw [eval_ofWire] at h1
    by_cases h0 : x.eval W = 0
    · exact .inl h0
    · rw [if_neg h0] at h2
      exact .inr (h1.trans h2)
  · intro _ W1 W2 _ _ ha p1 p2 h1 h2
    have h1 := h1.resolve_left (hP _ p1)
    rw [ha.eval hx] at h1
    exact mul_left_cancel₀ (hP _ p2) (h1.trans (h2.resolve_left (hP _ p2)).symm)
  · exact (nonzero (hx.mono (by omega)) hP).bind fun nz k1 l1 _ =>
      (assertProduct _ _ _).bind fun _ k2 _ h2 => (generator _ _).bind fun _ k3 _ h3 =>
        Det.pure (.ofWire (by omega))

end Det

/-! ## Comparisons -/

/-- The comparison of digits goes through with any admissible mask. -/
theorem Can.cmpBinary_mask (h2p : 2 < p) {s : Wit p} {x y : BinaryExpression p}
    (hx : x.Scoped s.next) (hy : y.Scoped s.next) (hxb : x.AllBool s.W) (hyb : y.AllBool s.W)
    (hlen : x.len = y.len) (h0 : 0 < x.len)
    (hadm : cmpChunkBits (Elem.maxBits p) x.len + 1 < Elem.maxBits p) (less strict : Bool)
    (M : List ℕ → List ℕ → List (Elem p)) {D : ℤ → Prop} {v : Elem p}
    (hM : ∀ us vs : List ℕ, us ≠ [] → us.length = vs.length →
      (∀ u ∈ us, u < 2 ^ cmpChunkBits (Elem.maxBits p) x.len) →
      (∀ u ∈ vs, u < 2 ^ cmpChunkBits (Elem.maxBits p) x.len) →
      chunkVal (cmpChunkBits (Elem.maxBits p) x.len) us = x.val s.W →
      chunkVal (cmpChunkBits (Elem.maxBits p) x.len) vs = y.val s.W →
      (M us vs).length = us.length ∧ (∀ m ∈ M us vs, IsBool m) ∧ (M us vs).sum = v ∧
      EqAbove 0 (triples (M us vs) us vs) ∧ ∃ d : ℤ, D d ∧
        |d| < 2 ^ cmpChunkBits (Elem.maxBits p) x.len ∧
        maskDiff (triples (M us vs) us vs) = (d : Elem p) ∧
        (strict = false → (1 : Elem p) + v * ((d : Elem p) - 1) ≠ 0)) (hv : IsBool v) :
    Can (B.cmpBinary x y less strict) s fun r s' => r.Scoped s'.next ∧
      (∃ d, D d ∧ r.eval s'.W = Elem.ofBool (cmpHolds less strict d)) ∧
      s.next + (chunksOf (cmpChunkBits (Elem.maxBits p) x.len) x.bits).length ≤ s'.next ∧
      ((List.range' s.next (chunksOf (cmpChunkBits (Elem.maxBits p) x.len) x.bits).length).map
        s'.W).sum = v := by
  unfold B.cmpBinary
  set c := cmpChunkBits (Elem.maxBits p) x.len with hcdef
  have hc : 0 < c := cmpChunkBits_pos _ _
  have hcp : 2 ^ c < p := Elem.two_pow_lt_of_lt_maxBits (by omega)
  obtain ⟨S⟩ := cmpSetup hc hcp.le hx hy hxb hyb hlen
  have hK : (chunksOf c x.bits).length = S.xs.length := by
    rw [mapM_join_length S.hxs, List.length_map]
  have hne : S.us ≠ [] := fun h => by
    have : S.xs.length = 0 := by rw [S.lx, h]; rfl
    exact S.nonempty h0 (List.length_eq_zero_iff.1 this)
  obtain ⟨M1, M2, M3, M4, d, M5, M6, M7, M8⟩ := hM S.us S.vs hne S.luv S.hus S.hvs S.cx S.cy
  rw [hK]
  refine Can.require_bind hlen (Can.ofOption_bind S.hxc (Can.ofOption_bind S.hxs
    (Can.ofOption_bind S.hyc (Can.ofOption_bind S.hys ?_))))
  refine (Can.ofComp (Prog.wires _) (Comp.wires S.xs.length s.toHon
    (M S.us S.vs) (by rw [M1, S.lx]))).bind
    fun ms s1 l1 ⟨t1, tn1, tW1, e1, n1, _, v1⟩ => ?_
  have n1' : s1.next = s.next + S.xs.length := by rw [← tn1, n1]; rfl
  have e1' : ms = List.range' s.next S.xs.length := e1
  rw [tW1] at v1
  have hms : ∀ m ∈ ms, m < s1.next := by
    intro m hm
    rw [e1', List.mem_range'_1] at hm
    omega
  have hmn : ms.Nodup := by rw [e1']; exact List.nodup_range'
  have hm0 : ∀ m ∈ ms, IsBool (s1.W m) := by
    intro m hm
    exact M2 _ (by rw [← v1]; exact List.mem_map.2 ⟨m, hm, rfl⟩)
  refine (Can.ofComp (Prog.assertBooleans _) (Comp.assertBooleans ms s1.toHon fun m hm =>
    ⟨hms m hm, hm0 m hm⟩)).bind fun _ s2 l2 ⟨t2, tn2, tW2, n2, _, W2⟩ => ?_
  have n2' : s2.next = s1.next := by rw [← tn2, n2]; rfl
  have W2' : s2.W = s1.W := by rw [← tW2, W2]; rfl
  have hsum : (Expression.sumOfWires ms : Expression p).eval s1.W = v := by
    rw [Expression.eval_sumOfWires _ ms hmn, v1, M3]
  refine (Can.ofComp (Prog.assertBoolean _) (Comp.assertBoolean (s := s2.toHon)
    (.sumOfWires fun i hi => by change i < s2.next; rw [n2']; exact hms i hi)
    (by change IsBool (Expression.eval s2.W _); rw [W2', hsum]; exact hv))).bind
    fun de s3 l3 ⟨t3, tn3, tW3, hde, n3, _, W3⟩ => ?_
  have n3' : s3.next = s1.next := by rw [← tn3, n3]; exact n2'
  have W3' : s3.W = s1.W := by rw [← tW3, W3]; exact W2'
  refine (Can.generator _ _).bind fun _ s4 l4 ⟨n4, W4⟩ => ?_
  have n4' : s4.next = s1.next := by rw [n4, n3']
  have W4' : s4.W = s1.W := by rw [W4, W3']
  have hagree : ∀ i < s.next, s4.W i = s.W i := fun i hi => by rw [W4']; exact l1.2 i hi
  have ez := evalZ_zip s4.W (ms := ms) (S.ex _ hagree) (S.ey _ hagree)
  rw [W4', v1, ← W4'] at ez
  have hmlen : ms.length = S.us.length := by rw [e1', List.length_range', S.lx]
  have hfst : (ms.zip (S.xs.zip S.ys)).map (·.1) = ms := by
    apply List.map_fst_zip
    rw [List.length_zip, S.lx, S.ly, hmlen]; simp
  have hsc : Comp.ScopedZ s4.next (ms.zip (S.xs.zip S.ys)) :=
    zip_scoped (n := s.next) (fun i hi => by rw [n4']; exact hms i hi) S.scx S.scy
      (by rw [n4']; exact l1.1)
  refine (Can.ofComp (Prog.cmpTail _ _ _ _ _) (Comp.cmpTail (s := s4.toHon) h2p ?_ hsc ?_ less strict
    (c := c) (by omega) (d := d) ?_ M6 ?_ ?_)).mono
    fun r s5 l5 ⟨t5, tn5, tW5, _, sc5, v5⟩ => ⟨by rw [← tn5]; exact sc5, ⟨d, M5, by
      rw [← tW5, v5]⟩, ?_, ?_⟩
  · intro h
    rw [h] at hfst
    have : S.us.length = 0 := by rw [← hmlen, ← hfst]; rfl
    exact hne (List.length_eq_zero_iff.1 this)
  · subst hde
    exact Expression.Scoped.sumOfWires fun i hi => by
      change i < s4.next; rw [n4']; exact hms i hi
  · change EqAbove 0 (evalZ s4.W _)
    rw [ez]; exact M4
  · change maskDiff (evalZ s4.W _) = _
    rw [ez, M7]
  · intro hs
    subst hde
    change (1 : Elem p) + (Expression.sumOfWires ms : Expression p).eval s4.W * _ ≠ 0
    rw [W4', hsum]
    exact M8 hs
  · have := l5.1
    omega
  · rw [← M3, ← v1, e1']
    refine congrArg List.sum (List.map_congr_left fun i hi => ?_)
    rw [← W4']
    exact l5.2 i (by rw [n4', n1']; exact (List.mem_range'_1.1 hi).2)

end R1CS
