import Verif.Lemmas.RigidForks

/-!
# Wires which are determined: comparisons, division with remainder, permutations of two elements
-/

set_option linter.unusedSectionVars false

namespace R1CS

variable {p : ℕ} [hp : Fact p.Prime] {α β : Type}

open Expression (eval_ofWire)

/-! ## Masks -/

/-- The mask for the most significant chunk. -/
def topMask : List ℕ → List (Elem p)
  | [] => []
  | [_] => [1]
  | _ :: x :: xs => 0 :: topMask (x :: xs)

theorem ofBool_eq_one (b : Bool) : Elem.ofBool (p := p) b = 1 ↔ b = true := by
  cases b
  · exact ⟨fun h => absurd h (zero_ne_one (α := Elem p)), fun h => nomatch h⟩
  · exact ⟨fun _ => rfl, fun _ => rfl⟩

theorem topMask_length : ∀ us : List ℕ, (topMask us : List (Elem p)).length = us.length
  | [] => rfl
  | [_] => rfl
  | _ :: x :: xs => by
    rw [topMask, List.length_cons, topMask_length (x :: xs), List.length_cons, List.length_cons]
    rfl

theorem topMask_isBool : ∀ us : List ℕ, ∀ m ∈ (topMask us : List (Elem p)), IsBool m
  | [], m, h => by simp [topMask] at h
  | [_], m, h => by
    simp only [topMask, List.mem_singleton] at h
    exact .inr h
  | _ :: x :: xs, m, h => by
    rw [topMask, List.mem_cons] at h
    exact h.elim .inl (topMask_isBool (x :: xs) m)

theorem topMask_sum : ∀ us : List ℕ, us ≠ [] → (topMask us : List (Elem p)).sum = 1
  | [], h => absurd rfl h
  | [_], _ => by simp [topMask]
  | _ :: x :: xs, _ => by rw [topMask, List.sum_cons, topMask_sum (x :: xs) (by simp), zero_add]

theorem topMask_eqAbove : ∀ us vs : List ℕ, EqAbove (0 : Elem p) (triples (topMask us) us vs)
  | [], vs => by simp [topMask, triples, EqAbove]
  | _ :: _, [] => by simp [triples, EqAbove]
  | [_], _ :: _ => by simp [topMask, triples, EqAbove]
  | _ :: x :: xs, _ :: vs => by
    refine ⟨zero_mul _, ?_⟩
    rw [zero_add]
    exact topMask_eqAbove (x :: xs) vs

theorem topMask_diff {c : ℕ} : ∀ us vs : List ℕ, us.length = vs.length →
    (∀ u ∈ us, u < 2 ^ c) → (∀ u ∈ vs, u < 2 ^ c) →
    ∃ d : ℤ, |d| < 2 ^ c ∧ maskDiff (triples (topMask us) us vs) = (d : Elem p)
  | [], vs, _, _, _ => ⟨0, by simp, by simp [topMask, triples, maskDiff]⟩
  | _ :: _, [], h, _, _ => by simp at h
  | [u], v :: _, _, hu, hv => by
    have hu := hu u (by simp)
    have hv := hv v (by simp)
    refine ⟨(u : ℤ) - v, ?_, by simp [topMask, triples, maskDiff]⟩
    rw [abs_lt]
    zify at hu hv
    constructor <;> omega
  | _ :: x :: xs, _ :: vs, h, hu, hv => by
    obtain ⟨d, h1, h2⟩ := topMask_diff (x :: xs) vs (by simpa using h)
      (fun u h => hu u (List.mem_cons_of_mem _ h)) (fun u h => hv u (List.mem_cons_of_mem _ h))
    refine ⟨d, h1, ?_⟩
    rw [← h2]
    change (0 : Elem p) * _ + _ = _
    rw [zero_mul, zero_add]
    rfl

section

variable (h2p : 2 < p) {s : Wit p} {x y : BinaryExpression p} (hx : x.Scoped s.next)
  (hy : y.Scoped s.next) (hxb : x.AllBool s.W) (hyb : y.AllBool s.W) (hlen : x.len = y.len)
  (h0 : 0 < x.len) (hadm : cmpChunkBits (Elem.maxBits p) x.len + 1 < Elem.maxBits p)

/-- The number of chunks. -/
abbrev cmpChunks (x : BinaryExpression p) : ℕ :=
  (chunksOf (cmpChunkBits (Elem.maxBits p) x.len) x.bits).length

include h2p hx hy hxb hyb hlen h0 hadm

theorem Can.cmpBinary_zeroMask (less strict : Bool) :
    Can (B.cmpBinary x y less strict) s fun r t => r.Scoped t.next ∧
      r.eval t.W = Elem.ofBool (cmpHolds less strict 0) ∧
      s.next + cmpChunks x ≤ t.next ∧ ((List.range' s.next (cmpChunks x)).map t.W).sum = 0 := by
  refine (Can.cmpBinary_mask h2p hx hy hxb hyb hlen h0 hadm less strict
    (fun us _ => List.replicate us.length (0 : Elem p)) (D := fun d => d = 0) (v := 0)
    (fun us vs _ _ _ _ _ _ => ⟨by simp, fun (m : Elem p) hm => .inl (List.eq_of_mem_replicate hm), by simp,
      zeroMask_eqAbove _ us vs, 0, rfl, by simp, by simp [zeroMask_diff], fun _ => by simp⟩)
    (.inl rfl)).mono fun r t _ ⟨h1, ⟨d, hd, h2⟩, h3, h4⟩ => ⟨h1, by rw [h2, hd], h3, h4⟩

theorem Can.cmpBinary_topMask (less : Bool) :
    Can (B.cmpBinary x y less true) s fun _ t =>
      s.next + cmpChunks x ≤ t.next ∧ ((List.range' s.next (cmpChunks x)).map t.W).sum = 1 := by
  refine (Can.cmpBinary_mask h2p hx hy hxb hyb hlen h0 hadm less true
    (fun us _ => topMask us) (D := fun _ => True) (v := 1)
    (fun us vs hne hl hu hv _ _ => ?_) (.inr rfl)).mono fun r t _ ⟨_, _, h3, h4⟩ => ⟨h3, h4⟩
  obtain ⟨d, h1, h2⟩ := topMask_diff (p := p) us vs hl hu hv
  exact ⟨topMask_length us, topMask_isBool us, topMask_sum us hne, topMask_eqAbove us vs, d, trivial,
    h1, h2, fun h => nomatch h⟩

theorem Can.cmpBinary_honestMask (hne : x.val s.W ≠ y.val s.W) (less strict : Bool) :
    Can (B.cmpBinary x y less strict) s fun r t => r.Scoped t.next ∧
      r.eval t.W = Elem.ofBool (cmpHolds less strict ((x.val s.W : ℤ) - y.val s.W)) ∧
      s.next + cmpChunks x ≤ t.next ∧ ((List.range' s.next (cmpChunks x)).map t.W).sum = 1 := by
  have hcp : 2 ^ cmpChunkBits (Elem.maxBits p) x.len ≤ p :=
    (Elem.two_pow_lt_of_lt_maxBits (by omega)).le
  refine (Can.cmpBinary_mask h2p hx hy hxb hyb hlen h0 hadm less strict
    honestMask (D := fun d => (d < 0 ↔ x.val s.W < y.val s.W) ∧ (0 < d ↔ y.val s.W < x.val s.W))
    (v := 1) (fun us vs _ hl hu hv ex ey => ?_) (.inr rfl)).mono
    fun r t _ ⟨h1, ⟨d, hd, h2⟩, h3, h4⟩ => ⟨h1, ?_, h3, h4⟩
  · obtain ⟨d, h1, h2, h3, h4, h5⟩ := honestMask_diff (p := p) us vs hl hu hv
    rw [ex, ey] at h3 h4
    have huv : us ≠ vs := fun h => hne (by rw [← ex, ← ey, h])
    refine ⟨honestMask_length us vs hl, honestMask_isBool us vs, ?_,
      honestMask_eqAbove us vs 0 hl (fun h => absurd rfl h), d, ⟨h3, h4⟩, h1, h2, fun _ => ?_⟩
    · have h := honestMask_sum (p := p) us vs hl
      rw [if_neg huv] at h
      have : ∀ l : List (Elem p), l.sum = (((l.map fun m => m.n).sum : ℕ) : Elem p) := by
        intro l
        induction l with
        | nil => simp
        | cons a l ih =>
          simp only [List.map_cons, List.sum_cons]
          rw [Nat.cast_add, ← ih, Elem.natCast_self_n]
      rw [this, h, Nat.cast_one]
    · rw [one_mul, add_sub_cancel]
      intro h
      rw [abs_lt] at h1
      have hd0 : d ≠ 0 := fun h => huv (h5.1 h)
      rcases lt_or_gt_of_ne hd0 with hn | hn
      · have hcast : (((-d).toNat : ℕ) : Elem p) = 0 := by
          have : ((-d).toNat : ℤ) = -d := Int.toNat_of_nonneg (by omega)
          have h' : (((-d).toNat : ℤ) : Elem p) = ((-d : ℤ) : Elem p) := by rw [this]
          rw [Int.cast_natCast, Int.cast_neg, h, neg_zero] at h'
          exact h'
        have := cast_inj (p := p) (x := (-d).toNat) (y := 0) (by zify at hcp; omega)
          hp.out.pos (by rw [hcast, Nat.cast_zero])
        omega
      · have hcast : ((d.toNat : ℕ) : Elem p) = 0 := by
          have : (d.toNat : ℤ) = d := Int.toNat_of_nonneg (by omega)
          have h' : ((d.toNat : ℤ) : Elem p) = ((d : ℤ) : Elem p) := by rw [this]
          rw [Int.cast_natCast, h] at h'
          exact h'
        have := cast_inj (p := p) (x := d.toNat) (y := 0) (by zify at hcp; omega)
          hp.out.pos (by rw [hcast, Nat.cast_zero])
        omega
  · rw [h2]
    congr 1
    exact cmpHolds_congr (by omega) (by omega)

omit h2p hx hy hxb hyb hlen h0 hadm in
theorem sum_agree (n k : ℕ) {m : ℕ} {W1 W2 : Assign p} (h : n + k ≤ m) (ha : Agree m W1 W2) :
    ((List.range' n k).map W1).sum = ((List.range' n k).map W2).sum :=
  congrArg List.sum (List.map_congr_left fun i hi => ha i (by
    have := (List.mem_range'_1.1 hi).2
    omega))

/-- Strict comparisons always leave a choice. -/
theorem Forks.cmpBinary_strict (less : Bool) : Forks (B.cmpBinary x y less true) s :=
  Forks.two (zero_ne_one (α := Elem p)) (G := fun _ k => s.next + cmpChunks x ≤ k)
    (obs := fun _ W => ((List.range' s.next (cmpChunks x)).map W).sum)
    (fun _ _ _ _ h ha => sum_agree _ _ h ha)
    ((Can.cmpBinary_zeroMask h2p hx hy hxb hyb hlen h0 hadm less true).mono
      fun _ _ _ h => h.2.2)
    (Can.cmpBinary_topMask h2p hx hy hxb hyb hlen h0 hadm less)

theorem Forks.cmpBinary_le (hne : x.val s.W ≠ y.val s.W) (less : Bool) :
    Forks (B.cmpBinary x y less false) s :=
  Forks.two (zero_ne_one (α := Elem p)) (G := fun _ k => s.next + cmpChunks x ≤ k)
    (obs := fun _ W => ((List.range' s.next (cmpChunks x)).map W).sum)
    (fun _ _ _ _ h ha => sum_agree _ _ h ha)
    ((Can.cmpBinary_zeroMask h2p hx hy hxb hyb hlen h0 hadm less false).mono
      fun _ _ _ h => h.2.2)
    ((Can.cmpBinary_honestMask h2p hx hy hxb hyb hlen h0 hadm hne less false).mono
      fun _ _ _ h => h.2.2)

theorem Can.assertCmpBinary_zeroMask (less : Bool) :
    Can (B.cmpBinary x y less false >>= B.assertTrue) s fun _ t =>
      s.next + cmpChunks x ≤ t.next ∧ ((List.range' s.next (cmpChunks x)).map t.W).sum = 0 :=
  (Can.cmpBinary_zeroMask h2p hx hy hxb hyb hlen h0 hadm less false).bind fun r t _ ⟨h1, h2, h3, h4⟩ =>
    (Can.assertTrue h1 (by rw [h2]; cases less <;> rfl)).mono fun _ u hu _ =>
      ⟨h3.trans hu.1, by rw [← h4]; exact (sum_agree _ _ h3 fun i hi => (hu.2 i hi))⟩

theorem Forks.assertCmpBinary (less : Bool)
    (h : if less then x.val s.W < y.val s.W else y.val s.W < x.val s.W) :
    Forks (B.cmpBinary x y less false >>= B.assertTrue) s := by
  refine Forks.two (zero_ne_one (α := Elem p)) (G := fun _ k => s.next + cmpChunks x ≤ k)
    (obs := fun _ W => ((List.range' s.next (cmpChunks x)).map W).sum)
    (fun _ _ _ _ h ha => sum_agree _ _ h ha)
    (Can.assertCmpBinary_zeroMask h2p hx hy hxb hyb hlen h0 hadm less)
    ((Can.cmpBinary_honestMask h2p hx hy hxb hyb hlen h0 hadm ?_ less false).bind
      fun r t _ ⟨h1, h2, h3, h4⟩ => (Can.assertTrue h1 ?_).mono fun _ u hu _ =>
      ⟨h3.trans hu.1, by rw [← h4]; exact (sum_agree _ _ h3 fun i hi => (hu.2 i hi))⟩)
  · cases less
    · simp only [Bool.false_eq_true, if_false] at h; omega
    · simp only [if_true] at h; omega
  · rw [h2, ofBool_eq_one, cmpHolds_iff]
    cases less
    · simp only [Bool.false_eq_true, if_false] at h ⊢; omega
    · simp only [if_true] at h ⊢; simp; omega

end

/-! ## Comparisons of elements -/

theorem Elem.cast_add_order (x : Elem p) : x = (((x.n + p : ℕ)) : Elem p) := by
  have h0 : ((p : ℕ) : Elem p) = 0 := by
    refine Elem.ext_n ?_
    rw [Elem.natCast_n, Nat.mod_self]; rfl
  rw [Nat.cast_add, Elem.natCast_self_n, h0, add_zero]

theorem Can.split' (h4 : 4 ≤ Elem.maxBits p) {s : Wit p} {x : Expression p} (hx : x.Scoped s.next) :
    Can (B.split x) s fun e t => e.Scoped t.next ∧ e.AllBool t.W ∧ e.len = Elem.maxBits p ∧
      e.val t.W = (x.eval s.W).n :=
  (Can.ofComp (Prog.split _) (Comp.split (s := s.toHon) h4 hx)).mono
    fun _ _ _ ⟨_, hn, hW, _, a2, a3, a4, a5⟩ => ⟨hn ▸ a2, hW ▸ a3, a4, hW ▸ a5⟩

/-- Comparing the digits, and going on, leaves a choice. -/
theorem Forks.cmpThen (h4 : 4 ≤ Elem.maxBits p) {s : Wit p} {x y : Expression p}
    (hx : x.Scoped s.next) (hy : y.Scoped s.next) (less strict : Bool)
    {g : BooleanExpression p → B p β}
    (h : ∀ (t : Wit p) (X Y : BinaryExpression p), X.Scoped t.next → Y.Scoped t.next →
      X.AllBool t.W → Y.AllBool t.W → X.len = Elem.maxBits p → Y.len = Elem.maxBits p →
      X.val t.W = (x.eval s.W).n → Y.val t.W = (y.eval s.W).n →
      Forks (B.cmpBinary X Y less strict >>= g) t) :
    Forks (B.cmp x y less strict >>= g) s := by
  unfold B.cmp
  cases less
  · rw [if_neg (by simp)]
    simp only [bind_assoc]
    refine Forks.after (Can.split' h4 hx) fun X s1 l1 ⟨a1, a2, a3, a4⟩ =>
      Forks.after (Can.splitWithoutRangeCheck (s := s1) (l1.scoped hy) le_rfl
        (Elem.lt_two_pow_maxBits (y.eval s.W)) (by rw [l1.eval hy, Elem.natCast_self_n])) fun Y s2 l2
        ⟨b1, b2, b3, b4⟩ => h s2 X Y (a1.mono l2.1) b1 (Wit.Le.allBool l2 a1 a2) b2 a3 b3
          (by rw [Wit.Le.val l2 a1, a4]) b4
  · rw [if_pos rfl]
    simp only [bind_assoc]
    refine Forks.after (Can.splitWithoutRangeCheck hx le_rfl (Elem.lt_two_pow_maxBits (x.eval s.W))
      (by rw [Elem.natCast_self_n])) fun X s1 l1 ⟨a1, a2, a3, a4⟩ =>
      Forks.after (Can.split' h4 (l1.scoped hy)) fun Y s2 l2 ⟨b1, b2, b3, b4⟩ =>
        h s2 X Y (a1.mono l2.1) b1 (Wit.Le.allBool l2 a1 a2) b2 a3 b3
          (by rw [Wit.Le.val l2 a1, a4]) (by rw [b4, l1.eval hy])

/-- Two ways to split an operand, if both are accepted. -/
theorem Forks.cmpAmbiguous (h4 : 4 ≤ Elem.maxBits p) {s : Wit p} {x y : Expression p}
    (hx : x.Scoped s.next) (hy : y.Scoped s.next) (less strict : Bool)
    (ha : ((if less then x else y).eval s.W).n + p < 2 ^ Elem.maxBits p)
    {g : BooleanExpression p → B p β}
    (h : ∀ (t : Wit p) (X Y : BinaryExpression p), X.Scoped t.next → Y.Scoped t.next →
      X.AllBool t.W → Y.AllBool t.W → X.len = Elem.maxBits p → Y.len = Elem.maxBits p →
      Can (B.cmpBinary X Y less strict >>= g) t fun _ _ => True) :
    Forks (B.cmp x y less strict >>= g) s := by
  have hne : ∀ u : Elem p, u.n ≠ u.n + p := fun u => by have := hp.out.pos; omega
  unfold B.cmp
  cases less
  · rw [if_neg (by simp)]
    simp only [Bool.false_eq_true, if_false] at ha
    simp only [bind_assoc]
    refine Forks.after (Can.split' h4 hx) fun X s1 l1 ⟨a1, a2, a3, a4⟩ => ?_
    have key : ∀ v : ℕ, v < 2 ^ Elem.maxBits p → y.eval s.W = ((v : ℕ) : Elem p) →
        Can (B.splitAllowingAmbiguity y) s1 fun Y s2 => Y.Scoped s2.next ∧ Y.val s2.W = v ∧
          Can (B.cmpBinary X Y false strict >>= g) s2 fun _ _ => True := fun v hv he =>
      (Can.splitWithoutRangeCheck (s := s1) (l1.scoped hy) le_rfl hv (by rw [l1.eval hy, he])).mono
        fun Y s2 l2 ⟨b1, b2, b3, b4⟩ => ⟨b1, b4, h s2 X Y (a1.mono l2.1) b1
          (Wit.Le.allBool l2 a1 a2) b2 a3 b3⟩
    exact Forks.before (hne (y.eval s.W)) (G := fun Y k => Y.Scoped k) (obs := fun Y W => Y.val W)
      (fun _ _ _ _ h ha => ha.val h)
      (key _ (Elem.lt_two_pow_maxBits _) (Elem.natCast_self_n _).symm)
      (key _ ha (Elem.cast_add_order _))
  · rw [if_pos rfl]
    simp only [if_true] at ha
    simp only [bind_assoc]
    have key : ∀ v : ℕ, v < 2 ^ Elem.maxBits p → x.eval s.W = ((v : ℕ) : Elem p) →
        Can (B.splitAllowingAmbiguity x) s fun X s1 => X.Scoped s1.next ∧ X.val s1.W = v ∧
          Can (B.split y >>= fun Y => B.cmpBinary X Y true strict >>= g) s1 fun _ _ => True :=
      fun v hv he => (Can.splitWithoutRangeCheck hx le_rfl hv he).mono
        fun X s1 l1 ⟨a1, a2, a3, a4⟩ => ⟨a1, a4, (Can.split' h4 (l1.scoped hy)).bind
          fun Y s2 l2 ⟨b1, b2, b3, _⟩ => h s2 X Y (a1.mono l2.1) b1 (Wit.Le.allBool l2 a1 a2) b2 a3 b3⟩
    exact Forks.before (hne (x.eval s.W)) (G := fun Y k => Y.Scoped k) (obs := fun Y W => Y.val W)
      (fun _ _ _ _ h ha => ha.val h)
      (key _ (Elem.lt_two_pow_maxBits _) (Elem.natCast_self_n _).symm)
      (key _ ha (Elem.cast_add_order _))

theorem Forks.cmp_strict (h4 : 4 ≤ Elem.maxBits p) {s : Wit p} {x y : Expression p}
    (hx : x.Scoped s.next) (hy : y.Scoped s.next) (less : Bool) : Forks (B.cmp x y less true) s := by
  rw [← bind_pure (B.cmp x y less true)]
  refine Forks.cmpThen h4 hx hy less true fun t X Y a1 b1 a2 b2 a3 b3 _ _ => ?_
  rw [bind_pure]
  exact Forks.cmpBinary_strict (two_lt_of_maxBits h4) a1 b1 a2 b2 (a3.trans b3.symm) (by omega)
    (by rw [a3]; exact cmpChunkBits_self h4) less

theorem Forks.cmp_le (h4 : 4 ≤ Elem.maxBits p) {s : Wit p} {x y : Expression p}
    (hx : x.Scoped s.next) (hy : y.Scoped s.next) (less : Bool)
    (h : ¬ (x.eval s.W = y.eval s.W ∧
      2 ^ Elem.maxBits p ≤ ((if less then x else y).eval s.W).n + p)) :
    Forks (B.cmp x y less false) s := by
  have h2p := two_lt_of_maxBits h4
  rw [← bind_pure (B.cmp x y less false)]
  by_cases ha : 2 ^ Elem.maxBits p ≤ ((if less then x else y).eval s.W).n + p
  · refine Forks.cmpThen h4 hx hy less false fun t X Y a1 b1 a2 b2 a3 b3 a4 b4 => ?_
    rw [bind_pure]
    refine Forks.cmpBinary_le h2p a1 b1 a2 b2 (a3.trans b3.symm) (by omega)
      (by rw [a3]; exact cmpChunkBits_self h4) (fun he => h ⟨Elem.ext_n ?_, ha⟩) less
    rw [← a4, ← b4, he]
  · refine Forks.cmpAmbiguous h4 hx hy less false (by omega) fun t X Y a1 b1 a2 b2 a3 b3 => ?_
    rw [bind_pure]
    exact (Can.cmpBinary_zeroMask h2p a1 b1 a2 b2 (a3.trans b3.symm) (by omega)
      (by rw [a3]; exact cmpChunkBits_self h4) less false).mono fun _ _ _ _ => trivial

theorem Forks.assertCmp (h4 : 4 ≤ Elem.maxBits p) {s : Wit p} {x y : Expression p}
    (hx : x.Scoped s.next) (hy : y.Scoped s.next) (less : Bool)
    (h : ¬ (¬ (if less then (x.eval s.W).n < (y.eval s.W).n else (y.eval s.W).n < (x.eval s.W).n) ∧
      2 ^ Elem.maxBits p ≤ ((if less then x else y).eval s.W).n + p)) :
    Forks (B.cmp x y less false >>= B.assertTrue) s := by
  have h2p := two_lt_of_maxBits h4
  by_cases ha : 2 ^ Elem.maxBits p ≤ ((if less then x else y).eval s.W).n + p
  · refine Forks.cmpThen h4 hx hy less false fun t X Y a1 b1 a2 b2 a3 b3 a4 b4 => ?_
    refine Forks.assertCmpBinary h2p a1 b1 a2 b2 (a3.trans b3.symm) (by omega)
      (by rw [a3]; exact cmpChunkBits_self h4) less ?_
    rw [a4, b4]
    by_contra hc
    exact h ⟨hc, ha⟩
  · refine Forks.cmpAmbiguous h4 hx hy less false (by omega) fun t X Y a1 b1 a2 b2 a3 b3 => ?_
    exact (Can.assertCmpBinary_zeroMask h2p a1 b1 a2 b2 (a3.trans b3.symm) (by omega)
      (by rw [a3]; exact cmpChunkBits_self h4) less).mono fun _ _ _ _ => trivial

namespace Det

variable {n : ℕ} {P : Assign p → Prop}

theorem cmpBinary_le (hn : 1 ≤ n) {x y : BinaryExpression p} (hx : x.Scoped n) (hy : y.Scoped n)
    (less : Bool) (hP : ∀ W, P W → x.AllBool W ∧ y.AllBool W ∧ x.val W = y.val W) :
    Det n P (B.cmpBinary x y less false) fun r k => r.Scoped k := by
  rw [← bind_pure (B.cmpBinary x y less false)]
  refine cmpBinaryZero hn hx hy less (V := fun _ _ _ => True) (fun r => Enforces.pure fun _ _ => trivial)
    (fun r k _ h => Det.pure h) (fun W h => ⟨(hP W h).1, (hP W h).2.1⟩) ?_
  intro _ _ W d _ hW _ _ h1 h2
  have := (hP W hW).2.2
  omega

theorem assertCmpBinary_le (hn : 1 ≤ n) {x y : BinaryExpression p} (hx : x.Scoped n)
    (hy : y.Scoped n) (less : Bool) (hP : ∀ W, P W → x.AllBool W ∧ y.AllBool W ∧
      ¬ (if less then x.val W < y.val W else y.val W < x.val W)) :
    Det n P (B.cmpBinary x y less false >>= B.assertTrue) fun _ _ => True := by
  refine cmpBinaryZero hn hx hy less (V := fun r _ W => r.eval W = 1)
    (fun r => (Enforces.assertTrue r).mono fun _ _ _ h => h)
    (fun r k _ h => (assertTrue r).post fun _ _ _ _ => trivial)
    (fun W h => ⟨(hP W h).1, (hP W h).2.1⟩) ?_
  intro r _ W d _ hW hr hd h1 h2
  have h3 := (hP W hW).2.2
  rw [hd, ofBool_eq_one, cmpHolds_iff] at hr
  cases less
  · simp only [Bool.false_eq_true, if_false] at h3 hr; omega
  · simp only [if_true] at h3 hr; simp at hr; omega

/-- Splitting both operands. -/
theorem cmpThen (hn : 1 ≤ n) {x y : Expression p} (hx : x.Scoped n) (hy : y.Scoped n)
    (less strict : Bool) {g : BooleanExpression p → B p β} {R : β → ℕ → Prop}
    (hP : ∀ W, P W → 2 ^ Elem.maxBits p ≤ ((if less then x else y).eval W).n + p)
    (hg : ∀ X Y k, n ≤ k → X.Scoped k → Y.Scoped k →
      Det k (fun W => P W ∧ X.AllBool W ∧ Y.AllBool W ∧ X.val W = (x.eval W).n ∧
        Y.val W = (y.eval W).n) (B.cmpBinary X Y less strict >>= g) R) :
    Det n P (B.cmp x y less strict >>= g) R := by
  have key : ∀ (e : Expression p) (X : BinaryExpression p) (W : Assign p),
      2 ^ Elem.maxBits p ≤ (e.eval W).n + p → X.AllBool W → X.len = Elem.maxBits p →
      (X.val W = (e.eval W).n ∨ X.val W = (e.eval W).n + p) → X.val W = (e.eval W).n := by
    intro e X W h hb hl hv
    have := BinaryExpression.AllBool.val_lt hb
    rw [hl] at this
    omega
  unfold B.cmp
  cases less
  · rw [if_neg (by simp)]
    simp only [Bool.false_eq_true, if_false] at hP
    simp only [bind_assoc]
    refine (split hn hx).bindE (Enforces.split x) fun X k hk hX =>
      (splitAllowingAmbiguity (hy.mono hk) fun W h => hP W h.1).bindE
        (Enforces.splitAllowingAmbiguity y) fun Y k' hk' hY =>
        (hg X Y k' (hk.trans hk') (hX.up hk') hY).pre fun W _ ⟨⟨h1, h2⟩, h3⟩ =>
          ⟨h1, h2.1, h3.1, h2.2.2, key y Y W (hP W h1) h3.1 h3.2.1 h3.2.2⟩
  · rw [if_pos rfl]
    simp only [if_true] at hP
    simp only [bind_assoc]
    refine (splitAllowingAmbiguity hx hP).bindE (Enforces.splitAllowingAmbiguity x) fun X k hk hX =>
      (split (hn.trans hk) (hy.mono hk)).bindE (Enforces.split y) fun Y k' hk' hY =>
        (hg X Y k' (hk.trans hk') (hX.up hk') hY).pre fun W _ ⟨⟨h1, h2⟩, h3⟩ =>
          ⟨h1, h2.1, h3.1, key x X W (hP W h1) h2.1 h2.2.1 h2.2.2, h3.2.2⟩

theorem cmp_le (hn : 1 ≤ n) {x y : Expression p} (hx : x.Scoped n) (hy : y.Scoped n)
    (less : Bool) (hP : ∀ W, P W → x.eval W = y.eval W ∧
      2 ^ Elem.maxBits p ≤ ((if less then x else y).eval W).n + p) :
    Det n P (B.cmp x y less false) fun r k => r.Scoped k := by
  rw [← bind_pure (B.cmp x y less false)]
  refine cmpThen hn hx hy less false (fun W h => (hP W h).2) fun X Y k hk hX hY => ?_
  rw [bind_pure]
  exact cmpBinary_le (hn.trans hk) hX hY less fun W h => ⟨h.2.1, h.2.2.1, by
    rw [h.2.2.2.1, h.2.2.2.2, (hP W h.1).1]⟩

theorem assertCmp_le (hn : 1 ≤ n) {x y : Expression p} (hx : x.Scoped n) (hy : y.Scoped n)
    (less : Bool) (hP : ∀ W, P W →
      ¬ (if less then (x.eval W).n < (y.eval W).n else (y.eval W).n < (x.eval W).n) ∧
      2 ^ Elem.maxBits p ≤ ((if less then x else y).eval W).n + p) :
    Det n P (B.cmp x y less false >>= B.assertTrue) fun _ _ => True :=
  cmpThen hn hx hy less false (fun W h => (hP W h).2) fun X Y k hk hX hY =>
    assertCmpBinary_le (hn.trans hk) hX hY less fun W h => ⟨h.2.1, h.2.2.1, by
      rw [h.2.2.2.1, h.2.2.2.2]; exact (hP W h.1).1⟩

/-! ## Division with remainder -/

theorem modulus (hn : 1 ≤ n) {x y : Expression p} (hx : x.Scoped n) (hy : y.Scoped n)
    (hP : ∀ W, P W → (y.eval W).n ≤ 1) : Det n P (B.modulus x y) fun z k => z.Scoped k := by
  unfold B.modulus
  have h1n : (1 : Elem p).n = 1 := by
    rw [← Nat.cast_one, Elem.natCast_n_of_lt hp.out.one_lt]
  have key : ∀ W, P W → ∀ q r : Elem p, y.eval W * q = x.eval W - r → r.n < (y.eval W).n →
      r = 0 ∧ q = x.eval W := by
    intro W hW q r h1 h2
    have h3 := hP W hW
    have h4 : r = 0 := Elem.ext_n (by rw [Elem.zero_n]; omega)
    have h5 : y.eval W = 1 := Elem.ext_n (by rw [h1n]; omega)
    rw [h4, h5, one_mul, sub_zero] at h1
    exact ⟨h4, h1⟩
  refine Det.wire (U := fun _ W => ∃ r, y.eval W * W n = x.eval W - r ∧ r.n < (y.eval W).n)
    ?_ ?_ ?_
  · refine Enforces.wire.bind fun r => (Enforces.assertProduct _ _ _).bind fun _ =>
      (Enforces.assertLt _ _).bind fun _ =>
        (Enforces.generator _ _).bind fun _ => Enforces.pure fun W o _ h1 h2 _ => ⟨W r, ?_⟩
    rw [eval_ofWire] at h1
    rw [Expression.eval_sub, eval_ofWire, eval_ofWire] at h2
    exact ⟨h2, h1⟩
  · intro _ W1 W2 _ _ ha p1 p2 ⟨r1, g1, g2⟩ ⟨r2, k1, k2⟩
    rw [(key W1 p1 _ _ g1 g2).2, (key W2 p2 _ _ k1 k2).2, ha.eval hx]
  · refine Det.wire (U := fun _ W => y.eval W * W n = x.eval W - W (n + 1) ∧
      (W (n + 1)).n < (y.eval W).n) ?_ ?_ ?_
    · refine (Enforces.assertProduct _ _ _).bind fun _ => (Enforces.assertLt _ _).bind fun _ =>
        (Enforces.generator _ _).bind fun _ => Enforces.pure fun W o _ h1 h2 => ?_
      rw [eval_ofWire] at h1
      rw [Expression.eval_sub, eval_ofWire, eval_ofWire] at h2
      exact ⟨h2, h1⟩
    · intro _ W1 W2 _ _ ha p1 p2 ⟨g1, g2⟩ ⟨k1, k2⟩
      rw [(key W1 p1 _ _ g1 g2).1, (key W2 p2 _ _ k1 k2).1]
    · exact (assertProduct _ _ _).bind fun _ k1 _ h1 => (assertLt (by omega)
        (.ofWire (by omega)) (hy.mono (by omega))).bind fun _ k2 h2 _ =>
        (generator _ _).bind fun _ k3 _ h3 => Det.pure (.ofWire (by omega))

/-! ## Permutations of two elements -/

theorem assertPermutation2x2 {a b c d : Expression p} (ha : a.Scoped n) (hb : b.Scoped n)
    (hc : c.Scoped n) (hP : ∀ W, P W → ¬ (a.eval W = b.eval W ∧ c.eval W = a.eval W ∧
      d.eval W = a.eval W)) :
    Det n P (B.assertPermutation2x2 a b c d) fun _ _ => True := by
  unfold B.assertPermutation2x2 B.createSwitch B.booleanWire
  simp only [bind_assoc, pure_bind]
  refine Det.wire (U := fun _ W => c.eval W = a.eval W + W n * (b.eval W - a.eval W) ∧
    d.eval W = a.eval W + b.eval W - c.eval W) ?_ ?_ ?_
  · refine (Enforces.assertBoolean _).bind fun _ => (Enforces.selection _ _ _).bind fun cT =>
      (Enforces.assertEqual _ _).bind fun _ => (Enforces.assertEqual _ _).bind fun _ =>
        (Enforces.generator _ _).mono fun _ W o _ h1 h2 h3 ⟨_, h4⟩ => ?_
    rw [Expression.eval_sub, Expression.eval_add, ← h2] at h1
    have hw : (BooleanExpression.ofWire ⟨n⟩ : BooleanExpression p).eval W = W n :=
      eval_ofWire (p := p) W n
    rw [hw] at h3
    exact ⟨h2.trans h3, h1⟩
  · rintro _ W1 W2 _ _ hag p1 p2 ⟨g1, g2⟩ ⟨k1, k2⟩
    by_cases hab : a.eval W1 = b.eval W1
    · rw [hab, sub_self, mul_zero, add_zero] at g1
      exact absurd ⟨hab, g1.trans hab.symm, by rw [g2, g1]; ring⟩ (hP W1 p1)
    · rw [← hag.eval ha, ← hag.eval hb, ← hag.eval hc, g1] at k1
      exact mul_right_cancel₀ (sub_ne_zero.2 (Ne.symm hab)) (add_left_cancel k1)
  · exact (assertBoolean _).bind fun _ k1 _ h1 => (selection (c := BooleanExpression.ofWire ⟨n⟩)
      (.ofWire (by change n < k1; omega)) (hb.mono (by omega)) (ha.mono (by omega))).bind
      fun _ _ _ _ => (assertEqual _ _).bind fun _ _ _ _ => (assertEqual _ _).bind fun _ _ _ _ =>
        (generator _ _).post fun _ _ _ _ => trivial

end Det

theorem Forks.assertPermutation2x2 {s : Wit p} {a b c d : Expression p} (ha : a.Scoped s.next)
    (hb : b.Scoped s.next) (hc : c.Scoped s.next) (hd : d.Scoped s.next)
    (h : a.eval s.W = b.eval s.W ∧ c.eval s.W = a.eval s.W ∧ d.eval s.W = a.eval s.W) :
    Forks (B.assertPermutation2x2 a b c d) s := by
  have key : ∀ g : Bool, Can (B.assertPermutation2x2 a b c d) s fun _ t =>
      s.next < t.next ∧ t.W s.next = Elem.ofBool g := by
    intro g
    unfold B.assertPermutation2x2
    refine (Can.ofComp (Prog.createSwitch a b) (Comp.createSwitch (s := s.toHon) ha hb g)).bind
      fun ⟨sw, cT, dT⟩ s1 l1 ⟨u, hn, hW, e1, e2, _, e3, e4, e5, e6, e7⟩ => ?_
    rw [hn] at e2 e4 e5
    rw [hW] at e3 e6 e7
    dsimp only at e1 e3 e4 e5 e6 e7
    obtain ⟨q1, q2, q3⟩ := h
    have f6 : cT.eval s1.W = c.eval s.W := by
      rw [e6, q2]
      cases g
      · rfl
      · exact q1.symm
    have f7 : dT.eval s1.W = d.eval s.W := by
      rw [e7, q3]
      cases g
      · exact q1.symm
      · rfl
    refine (Can.assertProduct (l1.scoped hc) (.one s1.pos) e4 ?_).bind fun _ s2 l2 ⟨n2, W2⟩ => ?_
    · rw [Expression.eval_one s1.one, mul_one, l1.eval hc, f6]
    refine (Can.assertProduct ((l1.trans l2).scoped hd) (.one s2.pos) (l2.scoped e5) ?_).bind
      fun _ s3 l3 ⟨n3, W3⟩ => ?_
    · rw [Expression.eval_one s2.one, mul_one, (l1.trans l2).eval hd, W2, f7]
    refine (Can.generator _ _).mono fun _ s4 _ ⟨n4, W4⟩ => ⟨?_, ?_⟩
    · have : s.next < s1.next := e2
      omega
    · rw [W4, W3, W2, ← e3]
      exact congrArg s1.W e1.symm
  exact Forks.wire (zero_ne_one (α := Elem p)) s.next (key false) (key true)

end R1CS
