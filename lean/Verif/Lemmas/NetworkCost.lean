import Verif.Lemmas.CostsMore

/-!
# Counting constraints: exponentiation, selection trees, permutation networks and sorting
-/

set_option linter.unusedSectionVars false

namespace R1CS

variable {p : ℕ} [hp : Fact p.Prime] {α β : Type}

open Expression (eval_add eval_sub eval_neg eval_ofWire eval_mulElem)

namespace Expression

/-- The wire `i` has a non-zero coefficient in `e`. -/
def Marks (i : Wire) (e : Expression p) : Prop :=
  i ≠ ONE ∧ e.eval (unit i) ≠ e.eval (unit ONE)

theorem Varies.symm {x y : Expression p} (h : (x - y).Varies) : (y - x).Varies := by
  obtain ⟨w, w', h1, h2, h3⟩ := h
  refine ⟨w, w', h1, h2, fun h => h3 ?_⟩
  rw [eval_sub, eval_sub] at h ⊢
  have := congrArg Neg.neg h
  rwa [neg_sub, neg_sub] at this

theorem Marks.varies {i : Wire} {e : Expression p} (h : Marks i e) : e.Varies :=
  varies_of_wire h.1 h.2

theorem Marks.sub {i : Wire} {x y : Expression p} (h : Marks i x) (hy : i ∉ y.dependencies) :
    (x - y).Varies := by
  refine varies_of_wire h.1 ?_
  rw [eval_sub, eval_sub, eval_unit_of_not_mem hy]
  exact fun h' => h.2 (sub_left_injective h')

theorem marks_add_ofWire {i : Wire} {x : Expression p} (hi : i ≠ ONE) (hx : i ∉ x.dependencies) :
    Marks i (x + ofWire i) := by
  refine ⟨hi, ?_⟩
  rw [eval_add, eval_add, eval_ofWire, eval_ofWire, eval_unit_of_not_mem hx]
  simp [unit, hi]

theorem marks_other {i : Wire} {x y : Expression p} (hi : i ≠ ONE) (hx : i ∉ x.dependencies)
    (hy : i ∉ y.dependencies) : Marks i (x + y - (x + ofWire i)) := by
  refine ⟨hi, ?_⟩
  rw [eval_sub, eval_sub, eval_add, eval_add, eval_add, eval_add, eval_ofWire, eval_ofWire,
    eval_unit_of_not_mem hx, eval_unit_of_not_mem hy]
  simp [unit, hi]

end Expression

open Expression

/-- The differences of the items vary, and the items only mention wires below `n`. -/
def Spread (n : ℕ) (l : List (Expression p)) : Prop :=
  l.Pairwise (fun x y => (x - y).Varies) ∧ ∀ e ∈ l, e.Scoped n

/-- Every item has a wire of its own among `m..n`. -/
def Fresh (m n : ℕ) (l : List (Expression p)) : Prop :=
  Spread n l ∧ ∀ e ∈ l, ∃ i, m ≤ i ∧ Marks i e

theorem Spread.mono {n m : ℕ} {l : List (Expression p)} (h : Spread n l) (hm : n ≤ m) :
    Spread m l := ⟨h.1, fun e he => (h.2 e he).mono hm⟩

theorem Spread.sublist {n : ℕ} {l l' : List (Expression p)} (h : Spread n l) (hl : l'.Sublist l) :
    Spread n l' := ⟨h.1.sublist hl, fun e he => h.2 e (hl.subset he)⟩

theorem Spread.length_le_one {n : ℕ} {x : Expression p} (hx : x.Scoped n) : Spread n [x] :=
  ⟨List.pairwise_singleton _ _, fun e he => by rw [List.mem_singleton.1 he]; exact hx⟩

theorem Fresh.mono {m n n' : ℕ} {l : List (Expression p)} (h : Fresh m n l) (hn : n ≤ n') :
    Fresh m n' l := ⟨h.1.mono hn, h.2⟩

/-- Old items vary against new ones. -/
theorem Fresh.append {m n : ℕ} {l l' : List (Expression p)} (h : Fresh m n l) (h' : Spread m l')
    (hn : m ≤ n) : Spread n (l ++ l') := by
  refine ⟨List.pairwise_append.2 ⟨h.1.1, h'.1, fun x hx y hy => ?_⟩, fun e he => ?_⟩
  · obtain ⟨i, hi, hm⟩ := h.2 x hx
    exact hm.sub ((h'.2 y hy).not_mem hi)
  · rcases List.mem_append.1 he with he | he
    · exact h.1.2 e he
    · exact (h'.2 e he).mono hn

theorem Fresh.cons {m n k : ℕ} {l : List (Expression p)} {x : Expression p} (h : Fresh k n l)
    (hx : x.Scoped k) (hn : k ≤ n) (hm : m ≤ k) (hmx : ∃ i, m ≤ i ∧ Marks i x) :
    Fresh m n (x :: l) := by
  refine ⟨⟨List.pairwise_cons.2 ⟨fun y hy => ?_, h.1.1⟩, fun e he => ?_⟩, fun e he => ?_⟩
  · obtain ⟨i, hi, hmi⟩ := h.2 y hy
    exact (hmi.sub (hx.not_mem hi)).symm
  · rcases List.mem_cons.1 he with rfl | he
    · exact hx.mono hn
    · exact h.1.2 e he
  · rcases List.mem_cons.1 he with rfl | he
    · exact hmx
    · obtain ⟨i, hi, hmi⟩ := h.2 e he
      exact ⟨i, hm.trans hi, hmi⟩

theorem Fresh.nil (m n : ℕ) : Fresh m n ([] : List (Expression p)) :=
  ⟨⟨List.Pairwise.nil, by simp⟩, by simp⟩

namespace Cost

/-! ## Exponentiation -/

/-- The number of products of `exponentiation` from index `i` on. -/
def expCost (k : ℕ) : ℕ → ℕ → Bool → ℕ
  | _, 0, _ => 0
  | i, r + 1, started => (if i = 0 then 0 else 1) + (if k.testBit i ∧ started then 1 else 0) +
      expCost k (i + 1) r (started || k.testBit i)

theorem expCost_eq (k : ℕ) : ∀ (r i : ℕ) (s : Bool), expCost k i r s =
    (List.range' i r).countP (fun j => decide (j ≠ 0)) +
      ((List.range' i r).countP (fun j => k.testBit j) - if s then 0 else 1)
  | 0, i, s => by simp [expCost]
  | r + 1, i, s => by
    rw [expCost, expCost_eq k r (i + 1), List.range'_succ, List.countP_cons, List.countP_cons]
    cases s <;> cases hk : k.testBit i <;> by_cases hi : i = 0 <;> simp [hi] <;> omega

/-- The sum of the costs is (bits - 1) squarings and (ones - 1) multiplications. -/
theorem expCost_total (k : ℕ) : expCost k 0 k.size false =
    (k.size - 1) + ((List.range k.size).countP (fun j => k.testBit j) - 1) := by
  rw [expCost_eq, ← List.range_eq_range']
  have : ∀ n, (List.range n).countP (fun j => decide (j ≠ 0)) = n - 1 := by
    intro n
    induction n with
    | zero => rfl
    | succ n ih =>
      rw [List.range_succ, List.countP_append, ih]
      by_cases hn : n = 0 <;> simp [hn]
      omega
  rw [this]
  simp

theorem asConstant_one : (1 : Expression p).asConstant = some 1 := by
  have h : (1 : Elem p).isNonzero = true := by simp [Elem.isNonzero, Elem.isZero]
  show (Expression.ofElem 1 : Expression p).asConstant = some 1
  simp [ofElem, Expression.new, Expression.asConstant, numTerms, h, BMap.get, Wire.cmp]

theorem product_one {x : Expression p} (hx : x.Varies) {b : Builder p} :
    Cost (B.product 1 x) b 0 fun z _ => z.Varies := by
  unfold B.product
  rw [asConstant_one]
  refine pure ?_
  obtain ⟨w, w', h1, h2, h3⟩ := hx
  exact ⟨w, w', h1, h2, by rw [eval_mulElem, eval_mulElem]; simpa using h3⟩

theorem expLoop {x : Expression p} (hx : x.Varies) (k : Elem p) : ∀ (r i : ℕ)
    (prod last : Expression p) (started : Bool) {b : Builder p}, 1 ≤ b.nextWireIndex →
    (if started then prod.Varies else prod = 1) → (i ≠ 0 → last.Varies) →
    Cost (B.expLoop x k i r prod last) b (expCost k.n i r started) fun _ _ => True
  | 0, i, prod, last, started, b, _, _, _ => pure trivial
  | r + 1, i, prod, last, started, b, hb, hp', hl => by
    unfold B.expLoop expCost
    have hwire : ∀ n : ℕ, 1 ≤ n → (Expression.ofWire n : Expression p).Varies :=
      fun n hn => varies_ofWire (by show n ≠ 0; omega)
    have hbit : k.bit i = k.n.testBit i := by
      rw [Elem.bit, Nat.testBit, Nat.and_comm 1, Nat.and_one_is_mod]
      rcases Nat.mod_two_eq_zero_or_one (k.n >>> i) with h | h <;> simp [h]
    refine (Cost.bind (Q := fun s n => s.Varies) (k := if i = 0 then 0 else 1) ?_
      fun s b1 hb1 hs => Cost.bind (k := if k.n.testBit i ∧ started then 1 else 0)
      (Q := fun q n => if (started || k.n.testBit i) = true then q.Varies else q = 1) ?_
      fun q b2 hb2 hq =>
      expLoop hx k r (i + 1) q s (started || k.n.testBit i) (by omega) hq fun _ => hs).congr
      (by ring)
    · split
      · exact pure hx
      · next hi =>
        exact (product (hl hi).asConstant (hl hi).asConstant).mono fun z n hn h => by
          rw [h.1]; exact hwire _ hb
    · rw [hbit]
      cases hk : k.n.testBit i with
      | false => simpa [hk] using pure hp'
      | true =>
        cases started with
        | true =>
          simp only [if_true, Bool.or_true, and_self]
          exact (product (Varies.asConstant hp') hs.asConstant).mono fun z n hn h => by
            rw [h.1]; exact hwire _ (by omega)
        | false =>
          simp only [if_true, Bool.or_true, Bool.false_eq_true, and_false, if_false]
          rw [if_neg (by simp)] at hp'
          subst hp'
          exact product_one hs

theorem exponentiation {x : Expression p} (hx : x.Varies) (k : Elem p) {b : Builder p}
    (hb : 1 ≤ b.nextWireIndex) : Cost (B.exponentiation x k) b
      ((k.bits - 1) + ((List.range k.bits).countP (fun j => k.n.testBit j) - 1))
      fun _ _ => True := by
  unfold B.exponentiation
  exact (expLoop hx k k.bits 0 1 0 false hb (by simp) (by simp)).congr (expCost_total k.n)

/-! ## Selection trees -/

theorem parentLayer {c : BooleanExpression p} (hc : c.expression.asConstant = none) :
    ∀ (l : List (Expression p)) {b : Builder p}, 1 ≤ b.nextWireIndex → Spread b.nextWireIndex l →
    Cost (B.parentLayer c l) b (l.length / 2) fun r n => r.length = (l.length + 1) / 2 ∧
      ∃ ps tl, r = ps ++ tl ∧ Fresh b.nextWireIndex n ps ∧ tl.Sublist l
  | [], b, _, _ => by
    unfold B.parentLayer
    refine Cost.congr (k := 0) ?_ (by simp)
    refine Cost.mono (Q := fun r _ => r = []) (pure rfl) fun r n _ h => ?_
    subst h
    exact ⟨by simp, [], [], rfl, .nil _ _, List.Sublist.refl _⟩
  | [x], b, _, _ => by
    unfold B.parentLayer
    refine Cost.congr (k := 0) ?_ (by simp)
    refine Cost.mono (Q := fun r _ => r = [x]) (pure rfl) fun r n _ h => ?_
    subst h
    exact ⟨by simp, [], [x], rfl, .nil _ _, List.Sublist.refl _⟩
  | x :: y :: rest, b, hb, hs => by
    unfold B.parentLayer
    have hxy := (List.pairwise_cons.1 hs.1).1 y (by simp)
    refine ((selection hc hxy.symm.asConstant).bind fun q b1 hb1 h1 =>
      (parentLayer hc rest (by omega) ((hs.sublist (by simp)).mono hb1)).bind (l := 0)
      fun r b2 hb2 h2 => pure ?_).congr (by simp only [List.length_cons]; omega)
    obtain ⟨hl, ps, tl, rfl, hf, hsub⟩ := h2
    refine ⟨by simp only [List.length_cons] at hl ⊢; omega, q :: ps, tl, rfl, ?_, by
      exact (hsub.cons _).cons _⟩
    have hx := hs.2 x (by simp)
    refine hf.cons ?_ hb2 hb1 ⟨b.nextWireIndex, le_refl _, ?_⟩
    · rw [h1.1, h1.2]
      exact (hx.mono (Nat.le_succ _)).add (.ofWire (Nat.lt_succ_self _))
    · rw [h1.1]
      exact marks_add_ofWire (by show b.nextWireIndex ≠ 0; omega) (hx.not_mem (le_refl _))

theorem randomAccessBinary : ∀ (bits : List (BooleanExpression p)) (l : List (Expression p))
    {b : Builder p}, (∀ c ∈ bits, c.expression.asConstant = none) → 1 ≤ b.nextWireIndex →
    Spread b.nextWireIndex l → Cost (B.randomAccessBinary bits l) b (l.length - 1) fun _ _ => True
  | [], [x], b, _, _, _ => pure trivial
  | [], [], b, _, _, _ => panic
  | [], _ :: _ :: _, b, _, _, _ => panic
  | c :: bits, [], b, h, hb, hs => by
    unfold B.randomAccessBinary
    exact ((parentLayer (h c (by simp)) [] hb hs).bind (l := 0) fun r b1 hb1 h1 => by
      have : r = [] := List.length_eq_zero_iff.1 (by simpa using h1.1)
      subst this
      exact (randomAccessBinary bits [] (fun c hc => h c (by simp [hc])) (by omega)
        ⟨List.Pairwise.nil, by simp⟩)).congr (by simp)
  | _ :: _, [_], b, _, _, _ => panic
  | c :: bits, x :: y :: l, b, h, hb, hs => by
    unfold B.randomAccessBinary
    refine ((parentLayer (h c (by simp)) (x :: y :: l) hb hs).bind
      (l := ((x :: y :: l).length + 1) / 2 - 1) fun r b1 hb1 h1 => ?_).congr
      (by simp only [List.length_cons]; omega)
    obtain ⟨hl, ps, tl, rfl, hf, hsub⟩ := h1
    exact (randomAccessBinary bits _ (fun c hc => h c (by simp [hc])) (by omega)
      (hf.append (hs.sublist hsub) hb1)).congr (by rw [hl])

theorem randomAccess {items : List (Expression p)} {b : Builder p} (hb : 1 ≤ b.nextWireIndex)
    (hs : Spread b.nextWireIndex items) (index : Expression p) :
    Cost (B.randomAccess items index) b (B.indexBits items.length + 1 + (items.length - 1))
      fun _ _ => True := by
  unfold B.randomAccess B.splitBounded
  refine (Cost.bind (k := B.indexBits items.length + 1) (l := items.length - 1)
    (Q := fun e m => ∃ w : BinaryWire, e = BinaryExpression.ofWire w ∧
      ∀ i ∈ w.bits, b.nextWireIndex ≤ i.wire) ?_ fun e b1 hb1 h1 => ?_)
  · refine (require.bind fun _ b0 hb0 _ => (splitWithoutRangeCheck index _).mono ?_).congr
      (zero_add _)
    rintro e n hn ⟨w, rfl, -, -, hw⟩
    exact ⟨w, rfl, fun i hi => hb0.trans (hw i hi).1⟩
  · obtain ⟨w, rfl, hw⟩ := h1
    refine randomAccessBinary _ _ (fun c hc => ?_) (by omega) (hs.mono hb1)
    obtain ⟨i, hi, rfl⟩ := List.mem_map.1 hc
    refine (varies_ofWire ?_).asConstant
    have := hw i hi
    show i.wire ≠ 0
    omega

/-! ## Permutation networks -/

theorem createSwitch {x y : Expression p} {b : Builder p} (hb : 1 ≤ b.nextWireIndex)
    (hx : x.Scoped b.nextWireIndex) (hy : y.Scoped b.nextWireIndex) (h : (x - y).Varies) :
    Cost (B.createSwitch x y) b 2 fun r n => r.2.1.Scoped n ∧ r.2.2.Scoped n ∧
      (∃ i, b.nextWireIndex ≤ i ∧ Marks i r.2.1) ∧ ∃ i, b.nextWireIndex ≤ i ∧ Marks i r.2.2 := by
  unfold B.createSwitch
  refine booleanWire.bind (l := 1) fun sw b1 hb1 h1 => (selection ?_ h.symm.asConstant).bind
    (l := 0) fun c b2 hb2 h2 => pure ?_
  · rw [h1.1]
    exact (varies_ofWire (by show b.nextWireIndex ≠ 0; omega)).asConstant
  · have hi : b1.nextWireIndex ≠ ONE := by show b1.nextWireIndex ≠ 0; omega
    have hc : c.Scoped b2.nextWireIndex := by
      rw [h2.1]
      exact (hx.mono (by omega)).add (.ofWire (by omega))
    refine ⟨hc, ((hx.mono (by omega)).add (hy.mono (by omega))).sub hc,
      ⟨b1.nextWireIndex, hb1, ?_⟩, ⟨b1.nextWireIndex, hb1, ?_⟩⟩
    · rw [h2.1]
      exact marks_add_ofWire hi (hx.not_mem hb1)
    · rw [h2.1]
      exact marks_other hi (hx.not_mem hb1) (hy.not_mem hb1)

theorem switchLayer : ∀ (k : ℕ) (l : List (Expression p)) {b : Builder p}, 1 ≤ b.nextWireIndex →
    Spread b.nextWireIndex l → Cost (B.switchLayer k l) b (2 * k) fun r n =>
      r.2.1.length = k ∧ r.2.2.length = k ∧ Fresh b.nextWireIndex n r.2.1 ∧
      Fresh b.nextWireIndex n r.2.2
  | 0, _, _, _, _ => pure ⟨rfl, rfl, .nil _ _, .nil _ _⟩
  | k + 1, [], _, _, _ => panic
  | k + 1, [_], _, _, _ => panic
  | k + 1, x :: y :: rest, b, hb, hs => by
    unfold B.switchLayer
    have hxy := (List.pairwise_cons.1 hs.1).1 y (by simp)
    refine ((createSwitch hb (hs.2 x (by simp)) (hs.2 y (by simp)) hxy).bind fun r b1 hb1 h1 =>
      (switchLayer k rest (by omega) ((hs.sublist (by simp)).mono hb1)).bind (l := 0)
      fun r' b2 hb2 h2 => pure ?_).congr (by ring)
    obtain ⟨h1, h1', h1m, h1m'⟩ := h1
    obtain ⟨h2, h2', h2f, h2f'⟩ := h2
    exact ⟨by simp [h2], by simp [h2'], h2f.cons h1 hb2 hb1 h1m, h2f'.cons h1' hb2 hb1 h1m'⟩

theorem assertPermutation2x2 {x y : Expression p} (z u : Expression p) {b : Builder p}
    (hb : 1 ≤ b.nextWireIndex) (hx : x.Scoped b.nextWireIndex) (hy : y.Scoped b.nextWireIndex)
    (h : (x - y).Varies) : Cost (B.assertPermutation2x2 x y z u) b 4 fun _ _ => True := by
  unfold B.assertPermutation2x2
  exact (createSwitch hb hx hy h).bind (l := 2) fun r _ _ _ => (assertEqual _ _).bind (l := 1)
    fun _ _ _ _ => (assertEqual _ _).bind (l := 0) fun _ _ _ _ =>
    (generator _ _).mono fun _ _ _ _ => trivial

theorem assertPermutationFuel (fuel : ℕ) : ∀ (x y : List (Expression p)) {b : Builder p},
    1 ≤ b.nextWireIndex → Spread b.nextWireIndex x → Spread b.nextWireIndex y →
    Cost (B.assertPermutationFuel fuel x y) b (2 * switchSum x.length + x.length)
      fun _ _ => True := by
  induction fuel with
  | zero =>
    intro x y b hb hx hy
    unfold B.assertPermutationFuel
    intro a b' h
    obtain ⟨_, b1, h1, h2⟩ := B.bind_run h
    obtain ⟨e1, f1, g1⟩ := require _ _ h1
    obtain ⟨e2, f2, g2⟩ := require _ _ h2
    rw [g2]
    exact ⟨by rw [e2, e1]; rfl, by omega, trivial⟩
  | succ fuel ih =>
    intro x y b hb hx hy
    unfold B.assertPermutationFuel
    refine (require.bind fun _ b0 hb0 hlen => ?_).congr (zero_add _)
    split
    · exact pure trivial
    · exact ((assertEqual _ _).mono fun _ _ _ _ => trivial).congr (by simp [switchSum])
    · next x0 x1 y0 y1 =>
      refine (assertPermutation2x2 _ _ (by omega) ((hx.2 x0 (by simp)).mono hb0)
        ((hx.2 x1 (by simp)).mono hb0) ((List.pairwise_cons.1 hx.1).1 x1 (by simp))).congr ?_
      change 4 = 2 * switchSum 2 + 2
      simp [switchSum]
      decide +kernel
    · next hne0 hne1 hne2 =>
      have hn3 : 3 ≤ x.length := by
        match x, y, hlen, hne0, hne1, hne2 with
        | [], _, _, h, _, _ => exact absurd rfl h
        | [x], [y], _, _, h, _ => exact absurd rfl (h x y rfl)
        | [x, y], [z, w], _, _, _, h => exact absurd rfl (h x y z w rfl)
        | _ :: _ :: _ :: _, _, _, _, _, _ => simp
      dsimp only
      generalize hn : x.length = n at *
      refine Cost.congr (k := 2 * (n / 2) + (2 * (if n % 2 = 0 then n / 2 - 1 else n / 2) +
        ((2 * (switchSum (n / 2) + switchSum ((n + 1) / 2)) + n) + 0))) ?_ ?_
      · refine (switchLayer _ x (by omega) (hx.mono hb0)).bind fun ra b1 hb1 ⟨ha1, ha2, hf1, hf2⟩ =>
          (switchLayer _ y (by omega) (hy.mono (by omega))).bind fun rb b2 hb2 ⟨hb1', hb2', hg1, hg2⟩ =>
          Cost.bind (Q := fun _ _ => True) ?_ fun _ b3 hb3 _ =>
            (generator _ _).mono fun _ _ _ _ => trivial
        have one : ∀ {l : List (Expression p)} {m : ℕ} {z : Expression p} {j : ℕ}, Spread m l →
            l[j]? = some z → Spread m [z] := fun hl hz =>
          Spread.length_le_one (hl.2 _ (List.mem_of_getElem? hz))
        split
        · next he =>
          rw [if_pos he] at hb1' hb2'
          refine (ofOption.bind fun z1 c1 hc1 hz1 => ofOption.bind fun z2 c2 hc2 hz2 =>
            (ih ra.2.1 (rb.2.1 ++ [z1]) (by omega) (hf1.1.mono (by omega))
              (((hg1.mono (le_refl _)).append (one (hy.mono (by omega)) hz1.1) hb2).mono
                (by omega))).bind fun _ c3 hc3 _ =>
              ih ra.2.2 (rb.2.2 ++ [z2]) (by omega) (hf2.1.mono (by omega))
                ((hg2.append (one (hy.mono (by omega)) hz2.1) hb2).mono (by omega))).congr ?_
          rw [ha1, ha2, show (n + 1) / 2 = n / 2 by omega]
          omega
        · next ho =>
          rw [if_neg ho] at hb1' hb2'
          have hk : ∀ z1 : Expression p, (ra.2.2 ++ [z1]).length = (n + 1) / 2 := by
            intro z1; simp [ha2]; omega
          refine (ofOption.bind fun z1 c1 hc1 hz1 => ofOption.bind fun z2 c2 hc2 hz2 =>
            (ih ra.2.1 rb.2.1 (by omega) (hf1.1.mono (by omega)) (hg1.1.mono (by omega))).bind
              (l := 2 * switchSum ((n + 1) / 2) + (n + 1) / 2)
            fun _ c3 hc3 _ =>
              (ih (ra.2.2 ++ [z1]) (rb.2.2 ++ [z2]) (by omega)
                ((hf2.append (one (hx.mono hb0) hz1.1) hb1).mono (by omega))
                ((hg2.append (one (hy.mono (by omega)) hz2.1) hb2).mono (by omega))).congr
                (by rw [hk])).congr ?_
          rw [ha1]
          omega
      · rw [switchSum_rec (by omega : 1 ≤ n)]
        split <;> omega

/-! ## Sorting -/

theorem splitOutputs : ∀ (l : List (Expression p)) {b : Builder p}, 1 ≤ b.nextWireIndex →
    Cost (B.splitOutputs l) b (l.length * (Elem.maxBits p + 1) + 1 +
      cmpConstraints (Elem.maxBits p) (cmpChunkBits (Elem.maxBits p) (Elem.maxBits p)))
      fun r m => ∃ ws : List BinaryWire, r = ws.map BinaryExpression.ofWire ∧
        ws.length = l.length ∧
        ws.Pairwise (fun w w' => ∀ i ∈ w.bits, ∀ j ∈ w'.bits, i.wire < j.wire) ∧
        ∀ w ∈ ws, w.bits.length = Elem.maxBits p ∧ w.bits.Nodup ∧
          ∀ i ∈ w.bits, b.nextWireIndex ≤ i.wire ∧ i.wire < m
  | [], b, _ => panic
  | [e], b, hb => by
    unfold B.splitOutputs
    refine ((split e hb).bind (l := 0) fun r b1 hb1 h1 => pure ?_).congr (by simp)
    obtain ⟨w, rfl, h1, h2, h3⟩ := h1
    exact ⟨[w], rfl, rfl, List.pairwise_singleton _ _, fun w' hw' => by
      rw [List.mem_singleton.1 hw']; exact ⟨h1, h2, h3⟩⟩
  | e :: e' :: rest, b, hb => by
    unfold B.splitOutputs B.splitAllowingAmbiguity
    refine ((splitWithoutRangeCheck e _).bind fun r b1 hb1 h1 =>
      (splitOutputs (e' :: rest) (by omega)).bind (l := 0) fun rs b2 hb2 h2 => pure ?_).congr
      (by simp only [List.length_cons]; ring)
    obtain ⟨ws, rfl, g1, g2, g3⟩ := h2
    obtain ⟨w, rfl, h1, h2, h3⟩ := h1
    refine ⟨w :: ws, rfl, by simp [g1], List.pairwise_cons.2 ⟨fun w' hw' i hi j hj => ?_, g2⟩, ?_⟩
    · have := (h3 i hi).2
      have := ((g3 w' hw').2.2 j hj).1
      omega
    · intro w' hw'
      rcases List.mem_cons.1 hw' with rfl | hw'
      · exact ⟨h1, h2, fun i hi => ⟨(h3 i hi).1, by have := (h3 i hi).2; omega⟩⟩
      · obtain ⟨k1, k2, k3⟩ := g3 w' hw'
        exact ⟨k1, k2, fun i hi => ⟨by have := (k3 i hi).1; omega, (k3 i hi).2⟩⟩

theorem assertAscending : ∀ (ws : List BinaryWire) {b : Builder p}, 1 ≤ b.nextWireIndex →
    ws.Pairwise (fun w w' => ∀ i ∈ w.bits, ∀ j ∈ w'.bits, i.wire < j.wire) →
    (∀ w ∈ ws, w.bits.length = Elem.maxBits p ∧ w.bits.Nodup ∧ ∀ i ∈ w.bits, 1 ≤ i.wire) →
    Cost (B.assertAscending (ws.map BinaryExpression.ofWire : List (BinaryExpression p))) b
      ((ws.length - 1) * (3 +
      cmpConstraints (Elem.maxBits p) (cmpChunkBits (Elem.maxBits p) (Elem.maxBits p))))
      fun _ _ => True
  | [], b, _, _, _ => (pure trivial).congr (by simp)
  | [_], b, _, _, _ => (pure trivial).congr (by simp)
  | w :: w' :: rest, b, hb, hp', hw => by
    unfold B.assertAscending B.assertLeBinary B.leBinary
    obtain ⟨k1, k2, k3⟩ := hw w (by simp)
    have h1 := (List.pairwise_cons.1 hp').1 w' (by simp)
    have hc : Cost (B.cmpBinary (BinaryExpression.ofWire w) (BinaryExpression.ofWire w') true
        false) b (cmpConstraints (Elem.maxBits p)
          (cmpChunkBits (Elem.maxBits p) (Elem.maxBits p)) + 2) fun _ _ => True := by
      refine (cmpBinary hb k2 (fun i hi => ?_) ?_ true false).congr (by rw [k1]; simp)
      · have := k3 i hi
        show i.wire ≠ 0
        omega
      · intro i hi c hc hm
        obtain ⟨j, hj, rfl⟩ := List.mem_map.1 hc
        have e1 := Expression.mem_deps_ofWire hm
        have e2 := h1 i hi j hj
        omega
    exact ((hc.bind (l := 1) (R := fun _ _ => True) fun r b1 hb1 _ =>
      (assertTrue r).mono fun _ _ _ _ => trivial).bind fun _ b2 hb2 _ =>
      assertAscending (w' :: rest) (by omega) (List.pairwise_cons.1 hp').2
        fun w hw' => hw w (by simp [hw'])).congr (by
          simp only [List.length_cons, Nat.add_sub_cancel]; ring)

theorem sortAscending {l : List (Expression p)} {b : Builder p} (hb : 1 ≤ b.nextWireIndex)
    (hl : Spread b.nextWireIndex l) : Cost (B.sortAscending l) b
      (2 * switchSum l.length + l.length + (l.length * (Elem.maxBits p + 1) + 1 +
        cmpConstraints (Elem.maxBits p) (cmpChunkBits (Elem.maxBits p) (Elem.maxBits p))) +
        (l.length - 1) * (3 +
          cmpConstraints (Elem.maxBits p) (cmpChunkBits (Elem.maxBits p) (Elem.maxBits p))))
      fun _ _ => True := by
  unfold B.sortAscending B.assertPermutation
  have hs : ∀ {m n : ℕ} {ws : List Wire}, 1 ≤ m → ws.Nodup → (∀ i ∈ ws, m ≤ i ∧ i < n) →
      Spread n (ws.map Expression.ofWire : List (Expression p)) := by
    intro m n ws hm hn hw
    refine ⟨?_, fun e he => ?_⟩
    · rw [List.pairwise_map]
      refine hn.imp_of_mem fun {i j} hi hj hij => ?_
      refine Marks.sub (i := i) ⟨by have := (hw i hi).1; show i ≠ 0; omega, ?_⟩ ?_
      · rw [eval_ofWire, eval_ofWire]
        have : i ≠ ONE := by have := (hw i hi).1; show i ≠ 0; omega
        simp [unit, this]
      · intro h
        exact hij (Expression.mem_deps_ofWire h)
    · obtain ⟨i, hi, rfl⟩ := List.mem_map.1 he
      exact .ofWire (hw i hi).2
  refine Cost.congr (k := 0 + ((2 * switchSum l.length + l.length) +
    ((l.length * (Elem.maxBits p + 1) + 1 +
      cmpConstraints (Elem.maxBits p) (cmpChunkBits (Elem.maxBits p) (Elem.maxBits p))) +
    ((l.length - 1) * (3 +
      cmpConstraints (Elem.maxBits p) (cmpChunkBits (Elem.maxBits p) (Elem.maxBits p))) + (0 + 0)))))
    ?_ (by ring)
  refine (wires l.length).bind fun ws b1 hb1 h1 => (assertPermutationFuel l.length l _ (by omega)
    (hl.mono hb1) (hs hb h1.2.2.1 h1.2.2.2)).bind fun _ b2 hb2 _ =>
    ((splitOutputs _ (by omega)).congr (by rw [List.length_map, h1.1])).bind fun r b3 hb3 h3 => ?_
  obtain ⟨bs, rfl, k1, k2, k3⟩ := h3
  refine ((assertAscending bs (by omega) k2 fun w hw => ?_).congr
    (by rw [k1, List.length_map, h1.1])).bind fun _ b4 hb4 _ => (generator _ _).bind
    fun _ b5 hb5 _ => pure trivial
  obtain ⟨m1, m2, m3⟩ := k3 w hw
  exact ⟨m1, m2, fun i hi => by have := (m3 i hi).1; omega⟩

end Cost

namespace AtMost

theorem expLoop (x : Expression p) (k : Elem p) : ∀ (r i : ℕ) (prod last : Expression p)
    (started : Bool), (if started then True else prod = 1) →
    AtMost (B.expLoop x k i r prod last) (Cost.expCost k.n i r started) fun _ => True
  | 0, i, prod, last, started, _ => pure trivial
  | r + 1, i, prod, last, started, hp' => by
    unfold B.expLoop Cost.expCost
    have hbit : k.bit i = k.n.testBit i := by
      rw [Elem.bit, Nat.testBit, Nat.and_comm 1, Nat.and_one_is_mod]
      rcases Nat.mod_two_eq_zero_or_one (k.n >>> i) with h | h <;> simp [h]
    refine (AtMost.bind (Q := fun _ => True) (k := if i = 0 then 0 else 1) ?_ fun s _ =>
      AtMost.bind (k := if k.n.testBit i ∧ started then 1 else 0)
      (Q := fun q => if (started || k.n.testBit i) = true then True else q = 1) ?_ fun q hq =>
      expLoop x k r (i + 1) q s (started || k.n.testBit i) hq).le (by omega)
    · split
      · exact pure trivial
      · exact product _ _
    · rw [hbit]
      cases hk : k.n.testBit i with
      | false =>
        simp only [Bool.or_false, Bool.false_eq_true, false_and, if_false]
        exact pure (p := p) hp'
      | true =>
        cases started with
        | true => simpa using product prod s
        | false =>
          rw [if_neg (by simp)] at hp'
          subst hp'
          simp only [if_true, Bool.or_true, Bool.false_eq_true, and_false, if_false]
          exact ofCost (fun _ => Cost.product_const (x := (1 : Expression p)) (y := s)
            (Or.inl Cost.asConstant_one))
            fun _ _ _ _ => trivial

theorem exponentiation (x : Expression p) (k : Elem p) : AtMost (B.exponentiation x k)
    ((k.bits - 1) + ((List.range k.bits).countP (fun j => k.n.testBit j) - 1)) fun _ => True :=
  (expLoop x k k.bits 0 1 0 false (by simp)).le (le_of_eq (Cost.expCost_total k.n))

theorem parentLayer (c : BooleanExpression p) : ∀ l : List (Expression p),
    AtMost (B.parentLayer c l) (l.length / 2) fun r => r.length = (l.length + 1) / 2
  | [] => (pure (by simp)).le (by simp)
  | [x] => (pure (by simp)).le (by simp)
  | x :: y :: rest => ((selection c y x).bind fun q _ => (parentLayer c rest).bind (l := 0)
      fun r h => pure (by simp only [List.length_cons, h]; omega)).le
      (by simp only [List.length_cons]; omega)

theorem randomAccessBinary : ∀ (bits : List (BooleanExpression p)) (l : List (Expression p)),
    AtMost (B.randomAccessBinary bits l) (l.length - 1) fun _ => True
  | [], [x] => pure trivial
  | [], [] => panic
  | [], _ :: _ :: _ => panic
  | _ :: _, [_] => panic
  | c :: bits, [] => by
    unfold B.randomAccessBinary
    refine ((parentLayer c []).bind (l := 0) fun r h => ?_).le (by simp)
    have : r = [] := List.length_eq_zero_iff.1 (by simpa using h)
    subst this
    exact randomAccessBinary bits []
  | c :: bits, x :: y :: l => by
    unfold B.randomAccessBinary
    exact ((parentLayer c (x :: y :: l)).bind (l := ((x :: y :: l).length + 1) / 2 - 1) fun r h =>
      (randomAccessBinary bits r).le (by rw [h])).le (by simp only [List.length_cons]; omega)

theorem randomAccess (items : List (Expression p)) (index : Expression p) :
    AtMost (B.randomAccess items index) (B.indexBits items.length + 1 + (items.length - 1))
      fun _ => True := by
  unfold B.randomAccess B.splitBounded
  exact ((require.bind fun _ _ => splitWithoutRangeCheck index _).le (zero_add _).le).bind
    fun e _ => randomAccessBinary _ _

theorem createSwitch (x y : Expression p) : AtMost (B.createSwitch x y) 2 fun _ => True :=
  booleanWire.bind (l := 1) fun _ _ => (selection _ _ _).bind (l := 0) fun _ _ => pure trivial

theorem switchLayer : ∀ (k : ℕ) (l : List (Expression p)), AtMost (B.switchLayer k l) (2 * k)
    fun r => r.2.1.length = k ∧ r.2.2.length = k
  | 0, _ => pure ⟨rfl, rfl⟩
  | k + 1, [] => panic
  | k + 1, [_] => panic
  | k + 1, x :: y :: rest => ((createSwitch x y).bind fun _ _ => (switchLayer k rest).bind (l := 0)
      fun _ h => pure ⟨by simp [h.1], by simp [h.2]⟩).le (by omega)

theorem assertPermutation2x2 (x y z u : Expression p) :
    AtMost (B.assertPermutation2x2 x y z u) 4 fun _ => True :=
  (createSwitch _ _).bind (l := 2) fun _ _ => (assertEqual _ _).bind (l := 1) fun _ _ =>
    (assertEqual _ _).bind (l := 0) fun _ _ => generator _ _

theorem assertPermutationFuel (fuel : ℕ) : ∀ (x y : List (Expression p)),
    AtMost (B.assertPermutationFuel fuel x y) (2 * switchSum x.length + x.length)
      fun _ => True := by
  induction fuel with
  | zero =>
    intro x y
    unfold B.assertPermutationFuel
    exact (require.bind (l := 0) fun _ _ => require.mono fun _ _ => trivial).le (by omega)
  | succ fuel ih =>
    intro x y
    unfold B.assertPermutationFuel
    refine (require.bind fun _ hlen => ?_).le (zero_add _).le
    split
    · exact (pure trivial).le (by omega)
    · exact (assertEqual _ _).le (by simp [switchSum])
    · refine (assertPermutation2x2 _ _ _ _).le ?_
      change 4 ≤ 2 * switchSum 2 + 2
      simp [switchSum]
      decide +kernel
    · next hne0 hne1 hne2 =>
      have hn3 : 3 ≤ x.length := by
        match x, y, hlen, hne0, hne1, hne2 with
        | [], _, _, h, _, _ => exact absurd rfl h
        | [x], [y], _, _, h, _ => exact absurd rfl (h x y rfl)
        | [x, y], [z, w], _, _, _, h => exact absurd rfl (h x y z w rfl)
        | _ :: _ :: _ :: _, _, _, _, _, _ => simp
      dsimp only
      generalize hn : x.length = n at *
      refine AtMost.le (k := 2 * (n / 2) + (2 * (if n % 2 = 0 then n / 2 - 1 else n / 2) +
        ((2 * (switchSum (n / 2) + switchSum ((n + 1) / 2)) + n) + 0))) ?_ ?_
      · refine (switchLayer _ x).bind fun ra ⟨ha1, ha2⟩ =>
          (switchLayer _ y).bind fun rb ⟨hb1, hb2⟩ =>
          AtMost.bind (Q := fun _ => True) ?_ fun _ _ => generator _ _
        split
        · next he =>
          refine (ofOption.bind fun z1 _ => ofOption.bind fun z2 _ =>
            (ih ra.2.1 (rb.2.1 ++ [z1])).bind fun _ _ => ih ra.2.2 (rb.2.2 ++ [z2])).le ?_
          rw [ha1, ha2, show (n + 1) / 2 = n / 2 by omega]
          omega
        · next ho =>
          have hk : ∀ z1 : Expression p, (ra.2.2 ++ [z1]).length = (n + 1) / 2 := by
            intro z1; simp [ha2]; omega
          refine (ofOption.bind fun z1 _ => ofOption.bind fun z2 _ =>
            (ih ra.2.1 rb.2.1).bind (l := 2 * switchSum ((n + 1) / 2) + (n + 1) / 2) fun _ _ =>
              (ih (ra.2.2 ++ [z1]) (rb.2.2 ++ [z2])).le (by rw [hk])).le ?_
          rw [ha1]
          omega
      · rw [switchSum_rec (by omega : 1 ≤ n)]
        split <;> omega

end AtMost

/-! ## The closed form of the number of switches -/

theorem switchSum_closed {n : ℕ} (hn : 1 ≤ n) :
    switchSum n + 2 ^ Nat.clog 2 n = n * Nat.clog 2 n + 1 := by
  induction n, hn using Nat.le_induction with
  | base => simp [switchSum]
  | succ n hn ih =>
    rw [switchSum_succ]
    have h1 : n ≤ 2 ^ Nat.clog 2 n := Nat.le_pow_clog one_lt_two n
    rcases Nat.lt_or_ge n (2 ^ Nat.clog 2 n) with h | h
    · have : Nat.clog 2 (n + 1) = Nat.clog 2 n := by
        refine le_antisymm ?_ (Nat.clog_mono_right 2 (by omega))
        exact (Nat.clog_le_iff_le_pow one_lt_two).2 h
      rw [this, add_mul, one_mul]
      omega
    · have e : n = 2 ^ Nat.clog 2 n := le_antisymm h1 h
      have : Nat.clog 2 (n + 1) = Nat.clog 2 n + 1 := by
        refine le_antisymm ?_ ?_
        · refine (Nat.clog_le_iff_le_pow one_lt_two).2 ?_
          rw [pow_succ]
          have := Nat.one_le_two_pow (n := Nat.clog 2 n)
          omega
        · refine Nat.lt_of_not_le fun h' => ?_
          have := (Nat.clog_le_iff_le_pow one_lt_two).1 h'
          omega
      rw [this, pow_succ, ← e]
      rw [← e] at ih
      have : (n + 1) * (Nat.clog 2 n + 1) = n * Nat.clog 2 n + Nat.clog 2 n + n + 1 := by ring
      rw [this]
      omega

end R1CS
