import Verif.Lemmas.Passes
import Verif.Lemmas.Sorting

/-!
# Timetables of the gadgets
-/

set_option linter.unusedSectionVars false

namespace R1CS

variable {p : ℕ} [hp : Fact p.Prime] {α β : Type}

/-! ## Expressions over known wires -/

/-- The expression mentions only wires in `K`. -/
abbrev BooleanExpression.Over (K : Set Wire) (e : BooleanExpression p) : Prop := e.expression.Over K

/-- The digits mention only wires in `K`. -/
abbrev BinaryExpression.Over (K : Set Wire) (e : BinaryExpression p) : Prop :=
  ∀ b ∈ e.bits, b.Over K

/-- The expressions mention only wires in `K`. -/
abbrev ListOver (K : Set Wire) (es : List (Expression p)) : Prop := ∀ e ∈ es, e.Over K

namespace Expression.Over

variable {K L : Set Wire} {a b : Expression p}

theorem mono (h : a.Over K) (hK : K ⊆ L) : a.Over L := fun i hi => hK (h i hi)

theorem add (ha : a.Over K) (hb : b.Over K) : (a + b).Over K := fun i hi => by
  rcases mem_deps_add hi with h | h
  · exact ha i h
  · exact hb i h

theorem sub (ha : a.Over K) (hb : b.Over K) : (a - b).Over K := fun i hi => by
  rcases mem_deps_sub hi with h | h
  · exact ha i h
  · exact hb i h

theorem neg (ha : a.Over K) : (-a).Over K := fun i hi => ha i (mem_deps_neg hi)

theorem mulElem (ha : a.Over K) (c : Elem p) : (a.mulElem c).Over K :=
  fun i hi => ha i (mem_deps_mulElem hi)

theorem zero : (0 : Expression p).Over K := fun _ hi => absurd hi not_mem_deps_zero

theorem ofElem (h1 : ONE ∈ K) (c : Elem p) : (ofElem c).Over K := fun i hi => by
  rw [mem_deps_ofElem hi]; exact h1

theorem one (h1 : ONE ∈ K) : (1 : Expression p).Over K := ofElem h1 1

theorem ofWire {i : Wire} (h : i ∈ K) : (Expression.ofWire i : Expression p).Over K := fun j hj => by
  rw [mem_deps_ofWire hj]; exact h

theorem sumOfExpressions {es : List (Expression p)} (h : ListOver K es) :
    (Expression.sumOfExpressions es).Over K := fun i hi => by
  obtain ⟨e, he, hie⟩ := mem_deps_sumOfExpressions hi
  exact h e he i hie

theorem sumOfWires {ws : List Wire} (h : ∀ w ∈ ws, w ∈ K) :
    (Expression.sumOfWires ws : Expression p).Over K := fun i hi => h i (mem_deps_sumOfWires hi)

theorem ofNat? (h1 : ONE ∈ K) {n : ℕ} {z : Expression p} (h : Expression.ofNat? n = some z) :
    z.Over K := by
  obtain ⟨c, _, rfl⟩ := Option.map_eq_some_iff.1 h
  exact ofElem h1 c

theorem mulNat (ha : a.Over K) {n : ℕ} {z : Expression p} (h : a.mulNat n = some z) : z.Over K := by
  by_cases hn : n < p
  · rw [Expression.mulNat_eq a hn] at h
    obtain rfl := Option.some.inj h
    exact ha.mulElem _
  · unfold Expression.mulNat at h
    rcases hc : a.coefficients with _ | ⟨kv, l⟩
    · rw [hc] at h
      obtain rfl := Option.some.inj h
      exact zero
    · rw [hc, List.mapM_cons] at h
      have : kv.2.mulNat n = none := by simp [Elem.mulNat, Elem.ofNat?, hn]
      rw [this] at h
      exact absurd h (by simp)

end Expression.Over

namespace BinaryExpression.Over

variable {K L : Set Wire} {x : BinaryExpression p}

theorem mono (h : x.Over K) (hK : K ⊆ L) : x.Over L := fun b hb => Expression.Over.mono (h b hb) hK

theorem deps (h : x.Over K) : ∀ i ∈ x.dependencies, i ∈ K := fun i hi => by
  obtain ⟨b, hb, hi⟩ := mem_dependencies.1 hi
  exact h b hb i hi

theorem ofNat (h1 : ONE ∈ K) (n : ℕ) : (BinaryExpression.ofNat n : BinaryExpression p).Over K := by
  intro b hb
  obtain ⟨i, _, rfl⟩ := List.mem_map.1 hb
  exact Expression.Over.ofElem h1 _

theorem ofWire {w : BinaryWire} (h : ∀ b ∈ w.bits, b.wire ∈ K) :
    (BinaryExpression.ofWire w : BinaryExpression p).Over K := by
  intro b hb
  obtain ⟨y, hy, rfl⟩ := List.mem_map.1 hb
  exact Expression.Over.ofWire (h y hy)

theorem joinFrom : ∀ {l : List (BooleanExpression p)} {i : ℕ} {s z : Expression p}, s.Over K →
    (∀ b ∈ l, b.Over K) → BinaryExpression.joinFrom i s l = some z → z.Over K
  | [], _, _, _, hs, _, h => by
    obtain rfl := Option.some.inj h
    exact hs
  | b :: l, i, s, z, hs, hl, h => by
    unfold BinaryExpression.joinFrom at h
    obtain ⟨c, _, h⟩ := Option.bind_eq_some_iff.1 h
    exact joinFrom (hs.add ((hl b (by simp)).mulElem c)) (fun b hb => hl b (by simp [hb])) h

theorem joinAllowingOverflow (hx : x.Over K) {z : Expression p}
    (h : x.joinAllowingOverflow = some z) : z.Over K := joinFrom Expression.Over.zero hx h

theorem join (hx : x.Over K) {z : Expression p} (h : x.join = some z) : z.Over K := by
  unfold BinaryExpression.join at h
  split at h
  · exact hx.joinAllowingOverflow h
  · exact absurd h (by simp)

theorem chunks (hx : x.Over K) {k : ℕ} {cs : List (BinaryExpression p)} (h : x.chunks k = some cs) :
    ∀ c ∈ cs, c.Over K := by
  intro c hc b hb
  unfold BinaryExpression.chunks chunks? at h
  split at h
  · exact absurd h (by simp)
  · next hk =>
    obtain rfl := Option.some.inj h
    obtain ⟨l, hl, rfl⟩ := List.mem_map.1 hc
    refine hx b ?_
    rw [← chunksOf_flatten (Nat.pos_of_ne_zero hk) x.bits]
    exact List.mem_flatten.2 ⟨l, hl, hb⟩

theorem joins : ∀ {cs : List (BinaryExpression p)} {es : List (Expression p)},
    (∀ c ∈ cs, c.Over K) → cs.mapM BinaryExpression.join = some es → ListOver K es
  | [], es, _, h => by
    obtain rfl := Option.some.inj h
    exact fun _ h => by cases h
  | c :: cs, es, hc, h => by
    rw [List.mapM_cons] at h
    obtain ⟨e, he, h⟩ := Option.bind_eq_some_iff.1 h
    obtain ⟨es', hes, h⟩ := Option.bind_eq_some_iff.1 h
    obtain rfl := Option.some.inj h
    intro x hx
    rcases List.mem_cons.1 hx with rfl | hx
    · exact (hc c (by simp)).join he
    · exact joins (fun c hc' => hc c (by simp [hc'])) hes x hx

theorem truncated (hx : x.Over K) {k : ℕ} {z : BinaryExpression p} (h : x.truncated k = some z) :
    z.Over K := by
  unfold BinaryExpression.truncated at h
  split at h
  · obtain rfl := Option.some.inj h
    exact fun b hb => hx b (List.mem_of_mem_take hb)
  · exact absurd h (by simp)

theorem ofBits {f : ℕ → Option (BooleanExpression p)} (hf : ∀ i b, f i = some b → b.Over K)
    {l : List ℕ} {bits : List (BooleanExpression p)} (h : l.mapM f = some bits) :
    (⟨bits⟩ : BinaryExpression p).Over K := by
  intro b hb
  induction l generalizing bits with
  | nil =>
    simp only [List.mapM_nil] at h
    obtain rfl := Option.some.inj h
    cases hb
  | cons i l ih =>
    rw [List.mapM_cons] at h
    obtain ⟨e, he, h⟩ := Option.bind_eq_some_iff.1 h
    obtain ⟨es', hes, h⟩ := Option.bind_eq_some_iff.1 h
    obtain rfl := Option.some.inj h
    rcases List.mem_cons.1 hb with rfl | hb
    · exact hf i _ he
    · exact ih hes hb

theorem getElem? (hx : x.Over K) {i : ℕ} {b : BooleanExpression p} (h : x.bits[i]? = some b) :
    b.Over K := hx b (List.mem_of_getElem? h)

theorem rotateInc (hx : x.Over K) {k : ℕ} {z : BinaryExpression p} (h : B.rotateInc x k = some z) :
    z.Over K := by
  unfold B.rotateInc at h
  obtain ⟨bits, h1, h⟩ := Option.bind_eq_some_iff.1 h
  obtain rfl := Option.some.inj h
  exact ofBits (fun i b hb => hx.getElem? hb) h1

theorem rotateDec (hx : x.Over K) {k : ℕ} {z : BinaryExpression p} (h : B.rotateDec x k = some z) :
    z.Over K := by
  unfold B.rotateDec at h
  obtain ⟨bits, h1, h⟩ := Option.bind_eq_some_iff.1 h
  obtain rfl := Option.some.inj h
  exact ofBits (fun i b hb => hx.getElem? hb) h1

theorem shiftInc (h1 : ONE ∈ K) (hx : x.Over K) {k : ℕ} {z : BinaryExpression p}
    (h : B.shiftInc x k = some z) : z.Over K := by
  unfold B.shiftInc at h
  obtain ⟨bits, h2, h⟩ := Option.bind_eq_some_iff.1 h
  obtain rfl := Option.some.inj h
  refine ofBits (fun i b hb => ?_) h2
  split at hb
  · obtain rfl := Option.some.inj hb
    exact Expression.Over.ofElem h1 _
  · exact hx.getElem? hb

theorem shiftDec (h1 : ONE ∈ K) (hx : x.Over K) {k : ℕ} {z : BinaryExpression p}
    (h : B.shiftDec x k = some z) : z.Over K := by
  unfold B.shiftDec at h
  obtain ⟨bits, h2, h⟩ := Option.bind_eq_some_iff.1 h
  obtain rfl := Option.some.inj h
  refine ofBits (fun i b hb => ?_) h2
  split at hb
  · split at hb
    · exact hx.getElem? hb
    · obtain rfl := Option.some.inj hb
      exact Expression.Over.ofElem h1 _
  · exact absurd hb (by simp)

end BinaryExpression.Over

theorem mapM_length {γ δ : Type} {f : γ → Option δ} : ∀ {l : List γ} {r : List δ},
    l.mapM f = some r → r.length = l.length
  | [], r, h => by
    obtain rfl := Option.some.inj h
    rfl
  | a :: l, r, h => by
    rw [List.mapM_cons] at h
    obtain ⟨e, _, h⟩ := Option.bind_eq_some_iff.1 h
    obtain ⟨es, h2, h⟩ := Option.bind_eq_some_iff.1 h
    obtain rfl := Option.some.inj h
    simp [mapM_length h2]

/-! ## What closures set -/

/-- Whenever the closure returns, the wires have values. -/
def Fills (outs : List Wire) (f : WireValues p → Option (WireValues p)) : Prop :=
  ∀ v v', f v = some v' → ∀ o ∈ outs, (v' o).isSome

namespace Fills

theorem read {r : WireValues p → Option β} {outs : List Wire}
    {k : β → WireValues p → Option (WireValues p)} (hk : ∀ x, Fills outs (k x)) :
    Fills outs (fun v => (r v).bind fun x => k x v) := by
  intro v v' h
  obtain ⟨x, _, h2⟩ := Option.bind_eq_some_iff.1 h
  exact hk x v v' h2

theorem set (i : Wire) (x : Elem p) : Fills [i] (fun v => v.set i x) := by
  intro v v' h o ho
  rw [List.mem_singleton] at ho
  subst ho
  unfold WireValues.set at h
  dsimp only at h
  split at h
  · exact absurd h (by simp)
  · rw [← Option.some.inj h]
    simp [WireValues.insert]

theorem nil (f : WireValues p → Option (WireValues p)) : Fills [] f := fun _ _ _ _ h => by cases h

theorem none {outs : List Wire} : Fills (p := p) outs (fun _ => Option.none) :=
  fun _ _ h => absurd h (by simp)

theorem seq {f g : WireValues p → Option (WireValues p)} {A C : List Wire} (hf : Fills A f)
    (hg : Fills C g) (hk : KeepsValues g) : Fills (A ++ C) (fun v => (f v).bind g) := by
  intro v v' h o ho
  obtain ⟨v1, h1, h2⟩ := Option.bind_eq_some_iff.1 h
  rcases List.mem_append.1 ho with ho | ho
  · exact hk.dom h2 (hf v v1 h1 o ho)
  · exact hg v1 v' h2 o ho

theorem ite {c : Prop} [Decidable c] {f g : WireValues p → Option (WireValues p)} {outs : List Wire}
    (hf : Fills outs f) (hg : Fills outs g) : Fills outs (fun v => if c then f v else g v) := by
  intro v v' h
  dsimp only at h
  split at h
  · exact hf v v' h
  · exact hg v v' h

theorem nonzeroGen (x : Expression p) (y m : Wire) : Fills [m, y] (B.nonzeroGen x y m) :=
  read fun _ => read fun _ => seq (A := [m]) (set _ _) (set _ _) (KeepsValues.set _ _)

theorem productGen (x y : Expression p) (i : Wire) : Fills [i] (B.productGen x y i) :=
  read fun _ => read fun _ => set _ _

theorem inverseGen (x : Expression p) (i : Wire) : Fills [i] (B.inverseGen x i) :=
  read fun _ => read fun _ => set _ _

theorem inverseOrZeroGen (x : Expression p) (i : Wire) : Fills [i] (B.inverseOrZeroGen x i) :=
  read fun _ => read fun _ => set _ _

theorem quotientUnsafeGen (x y : Expression p) (i : Wire) :
    Fills [i] (B.quotientUnsafeGen x y i) :=
  read fun _ => read fun _ => ite (read fun _ => set _ _) none

theorem setBitsOf (x : Elem p) : ∀ (ws : List BooleanWire) (i : ℕ),
    Fills (ws.map (·.wire)) (B.setBitsOf x i ws)
  | [], _ => nil _
  | w :: ws, i => seq (A := [w.wire]) (set _ _) (setBitsOf x ws (i + 1))
    (KeepsValues.setBitsOf x ws (i + 1))

theorem splitGen (x : Expression p) (n : ℕ) (w : BinaryWire) :
    Fills (w.bits.map (·.wire)) (B.splitGen x n w) :=
  read fun _ => ite (setBitsOf _ _ _) none

theorem maskGen : ∀ (l : List (Wire × Expression p × Expression p)) (b : Bool),
    Fills (l.map (·.1)) (B.maskGen l b)
  | [], _ => nil _
  | (m, _, _) :: l, _ => read fun _ => read fun _ =>
    seq (A := [m]) (set _ _) (maskGen l _) (KeepsValues.maskGen l _)

theorem modulusGen (x y : Expression p) (q r : Wire) : Fills [q, r] (B.modulusGen x y q r) :=
  read fun _ => read fun _ => read fun _ => seq (A := [q]) (set _ _) (read fun _ => set _ _)
    (KeepsValues.read fun _ => KeepsValues.set _ _)

theorem keeps_setBits (n : ℕ) : ∀ (ws : List BooleanWire) (i : ℕ),
    KeepsValues (fun v : WireValues p => v.setBits n i ws)
  | [], _ => KeepsValues.id
  | _ :: ws, i => KeepsValues.seq (KeepsValues.set _ _) (keeps_setBits n ws (i + 1))

theorem setBits (n : ℕ) : ∀ (ws : List BooleanWire) (i : ℕ),
    Fills (ws.map (·.wire)) (fun v : WireValues p => v.setBits n i ws)
  | [], _ => nil _
  | w :: ws, i => seq (A := [w.wire]) (set _ _) (setBits n ws (i + 1)) (keeps_setBits n ws (i + 1))

theorem keeps_summationGen (x : Expression p) (w : BinaryWire) :
    KeepsValues (B.summationGen x w) := by
  refine KeepsValues.read fun s => ?_
  intro v v' h
  unfold WireValues.setBinaryUnsigned at h
  split at h
  · exact keeps_setBits _ _ _ v v' h
  · exact absurd h (by simp)

theorem summationGen (x : Expression p) (w : BinaryWire) :
    Fills (w.bits.map (·.wire)) (B.summationGen x w) :=
  read fun _ => ite (setBits _ _ _) none

theorem permutation2x2Gen (a b c d : Expression p) (s : BooleanWire) :
    Fills [s.wire] (B.permutation2x2Gen a b c d s) :=
  read fun _ => read fun _ => read fun _ => read fun _ => ite (set _ _) (ite (set _ _) none)

theorem setItems : ∀ (ws : List Wire) (xs : List (Elem p)), xs.length = ws.length →
    Fills ws (B.setItems ws xs)
  | [], [], _ => nil _
  | w :: ws, x :: xs, h => seq (A := [w]) (set _ _) (setItems ws xs (by simpa using h))
    (KeepsValues.setItems ws xs)

theorem sortGen (a : List (Expression p)) (ws : List Wire) (h : a.length = ws.length) :
    Fills ws (B.sortGen a ws) := by
  intro v v' hv
  unfold B.sortGen at hv
  obtain ⟨items, h1, h2⟩ := Option.bind_eq_some_iff.1 hv
  refine setItems ws _ ?_ v v' h2
  rw [List.length_mergeSort, mapM_length h1, h]

theorem rootGen (x : Expression p) (k : Elem p) (w : Wire) :
    Fills [w] (MonomialPermutation.rootGen x k w) := read fun _ => set _ _

end Fills

/-! ## Pieces of code without generators -/

/-- No generators are added, and the result fulfils `P`. -/
def Silent (m : B p α) (P : α → Prop) : Prop :=
  ∀ b a b', m b = some (a, b') → b'.witnessGenerators = b.witnessGenerators ∧ P a

namespace Silent

theorem pure {a : α} {P : α → Prop} (h : P a) : Silent (p := p) (pure a) P := by
  intro b a' b' hb
  obtain ⟨rfl, rfl⟩ := Prod.ext_iff.1 (Option.some.inj hb)
  exact ⟨rfl, h⟩

theorem bind {m : B p α} {f : α → B p β} {P : α → Prop} {R : β → Prop} (hm : Silent m P)
    (hf : ∀ a, P a → Silent (f a) R) : Silent (m >>= f) R := by
  intro b z b' h
  obtain ⟨a, b1, h1, h2⟩ := B.bind_run h
  obtain ⟨k1, k2⟩ := hm b a b1 h1
  obtain ⟨l1, l2⟩ := hf a k2 b1 z b' h2
  exact ⟨l1.trans k1, l2⟩

theorem wire : Silent (p := p) B.wire fun _ => True := by
  intro b a b' hb
  obtain ⟨rfl, rfl⟩ := Prod.ext_iff.1 (Option.some.inj hb)
  exact ⟨rfl, trivial⟩

theorem assertProduct (x y z : Expression p) : Silent (B.assertProduct x y z) fun _ => True := by
  intro b a b' hb
  obtain ⟨_, rfl⟩ := Prod.ext_iff.1 (Option.some.inj hb)
  exact ⟨rfl, trivial⟩

theorem assertEqual (x y : Expression p) : Silent (B.assertEqual x y) fun _ => True :=
  assertProduct _ _ _

theorem ofOption (o : Option α) : Silent (p := p) (B.ofOption o) fun a => o = some a := by
  intro b a b' hb
  unfold B.ofOption at hb
  obtain ⟨x, rfl, h2⟩ := Option.map_eq_some_iff.1 hb
  obtain ⟨rfl, rfl⟩ := Prod.ext_iff.1 h2
  exact ⟨rfl, rfl⟩

theorem panic {P : α → Prop} : Silent (p := p) B.panic P :=
  fun _ _ _ h => absurd h (by simp [B.panic])

theorem require (c : Prop) [Decidable c] : Silent (p := p) (B.require c) fun _ => c := by
  unfold B.require
  split
  · next h => exact pure h
  · exact panic

theorem assertBoolean (x : Expression p) :
    Silent (B.assertBoolean x) fun z => z.expression = x :=
  bind (assertProduct _ _ _) fun _ _ => pure rfl

theorem booleanWire : Silent (p := p) B.booleanWire fun _ => True :=
  bind wire fun _ _ => bind (assertBoolean _) fun _ _ => pure trivial

theorem wires : ∀ k, Silent (p := p) (B.wires k) fun ws => ws.length = k
  | 0 => pure rfl
  | k + 1 => bind wire fun _ _ => bind (wires k) fun _ h => pure (by simp [h])

theorem booleanWires : ∀ k, Silent (p := p) (B.booleanWires k) fun _ => True
  | 0 => pure trivial
  | k + 1 => bind booleanWire fun _ _ => bind (booleanWires k) fun _ _ => pure trivial

theorem binaryWire (k : ℕ) : Silent (p := p) (B.binaryWire k) fun _ => True :=
  bind (booleanWires k) fun _ _ => pure trivial

theorem assertBooleans : ∀ l : List Wire, Silent (B.assertBooleans l : B p Unit) fun _ => True
  | [] => pure trivial
  | _ :: ms => bind (assertBoolean _) fun _ _ => assertBooleans ms

theorem assertMoreSignificantEqual : ∀ (l : List (Wire × Expression p × Expression p))
    (e : Expression p), Silent (B.assertMoreSignificantEqual l e) fun _ => True
  | [], _ => pure trivial
  | (_, _, _) :: l, _ => bind (assertProduct _ _ _) fun _ _ => assertMoreSignificantEqual l _

theorem assertZeros : ∀ cs : List (BinaryExpression p), Silent (B.assertZeros cs) fun _ => True
  | [] => pure trivial
  | _ :: cs => bind (ofOption _) fun _ _ => bind (assertEqual _ _) fun _ _ => assertZeros cs

theorem binaryAssertZero (x : BinaryExpression p) :
    Silent (B.binaryAssertZero x) fun _ => True :=
  bind (ofOption _) fun _ _ => assertZeros _

end Silent

namespace Timely

variable {d : ℕ} {K : Set Wire}

theorem skip {m : B p α} {f : α → B p β} {P : α → Prop} {R : β → Set Wire → Prop}
    (hm : Silent m P) (hf : ∀ a, P a → Timely d K (f a) R) : Timely d K (m >>= f) R := by
  intro b z b' h
  obtain ⟨a, b1, h1, h2⟩ := B.bind_run h
  obtain ⟨k1, k2⟩ := hm b a b1 h1
  obtain ⟨A, l1, l2⟩ := hf a k2 b1 z b' h2
  exact ⟨A, by rw [l1, k1], l2⟩

theorem quiet {m : B p α} {P : α → Prop} {R : α → Set Wire → Prop} (hm : Silent m P)
    (h : ∀ a, P a → R a K) : Timely d K m R :=
  silent fun b a b' hb => ⟨(hm b a b' hb).1, h a (hm b a b' hb).2⟩

theorem gen {i : List Wire} {f : WireValues p → Option (WireValues p)} {outs : List Wire}
    (hs : Fills outs f) (hk : KeepsValues f) (hi : ∀ w ∈ i, w ∈ K) :
    Timely d K (B.generator i f) fun _ K' => ∀ o ∈ outs, o ∈ K' := generator outs hi hk hs

/-! ### Arithmetic -/

theorem nonzero {x : Expression p} (hx : x.Over K) :
    Timely d K (B.nonzero x) fun z K' => z.Over K' :=
  skip .wire fun y _ => skip .wire fun m _ => skip (.assertProduct _ _ _) fun _ _ =>
    skip (.assertProduct _ _ _) fun _ _ =>
    bind (gen (Fills.nonzeroGen x y m) (KeepsValues.nonzeroGen x y m) hx) fun _ _ _ h =>
      pure (.ofWire (h y (by simp)))

theorem not (h1 : ONE ∈ K) {x : BooleanExpression p} (hx : x.Over K) :
    Timely d K (B.not x) fun z K' => z.Over K' :=
  pure (Expression.Over.sub (.one h1) hx)

theorem zero (h1 : ONE ∈ K) {x : Expression p} (hx : x.Over K) :
    Timely d K (B.zero x) fun z K' => z.Over K' :=
  bind (nonzero hx) fun _ _ hK h => not (hK h1) h

theorem equal (h1 : ONE ∈ K) {x y : Expression p} (hx : x.Over K) (hy : y.Over K) :
    Timely d K (B.equal x y) fun z K' => z.Over K' := zero h1 (hx.sub hy)

theorem product {x y : Expression p} (hx : x.Over K) (hy : y.Over K) :
    Timely d K (B.product x y) fun z K' => z.Over K' := by
  unfold B.product
  split
  · exact pure (hy.mulElem _)
  · split
    · exact pure (hx.mulElem _)
    · refine skip .wire fun w _ => skip (.assertProduct _ _ _) fun _ _ =>
        bind (gen (Fills.productGen x y w) (KeepsValues.productGen x y w) fun i hi => ?_)
          fun _ _ _ h => pure (.ofWire (h w (by simp)))
      rcases List.mem_append.1 hi with hi | hi
      · exact hx i hi
      · exact hy i hi

theorem selection {c : BooleanExpression p} {x y : Expression p} (hc : c.Over K) (hx : x.Over K)
    (hy : y.Over K) : Timely d K (B.selection c x y) fun z K' => z.Over K' :=
  bind (product hc (hx.sub hy)) fun _ _ hK h => pure ((hy.mono hK).add h)

theorem expLoop (k : Elem p) : ∀ (r i : ℕ) (K : Set Wire) (x e f : Expression p), x.Over K →
    e.Over K → f.Over K → Timely d K (B.expLoop x k i r e f) fun z K' => z.Over K'
  | 0, _, _, _, _, _, _, he, _ => pure he
  | r + 1, i, K, x, e, f, hx, he, hf => by
    refine bind (Q := fun (z : Expression p) K' => z.Over K')
      (ite (fun _ => pure hx) fun _ => product hf hf) fun s K1 k1 hs =>
      bind (Q := fun (z : Expression p) K' => z.Over K')
        (ite (fun _ => product (he.mono k1) hs) fun _ => pure (he.mono k1)) fun e' K2 k2 he' => ?_
    exact expLoop k r (i + 1) K2 x e' s (hx.mono (k1.trans k2)) he' (hs.mono k2)

theorem exponentiation (h1 : ONE ∈ K) {x : Expression p} (hx : x.Over K) (k : Elem p) :
    Timely d K (B.exponentiation x k) fun z K' => z.Over K' :=
  expLoop k _ _ _ _ _ _ hx (.one h1) .zero

theorem inverse {x : Expression p} (hx : x.Over K) :
    Timely d K (B.inverse x) fun z K' => z.Over K' :=
  skip .wire fun w _ => skip (.assertProduct _ _ _) fun _ _ =>
    bind (gen (Fills.inverseGen x w) (KeepsValues.inverseGen x w) hx) fun _ _ _ h =>
      pure (.ofWire (h w (by simp)))

theorem assertNonzero {x : Expression p} (hx : x.Over K) :
    Timely d K (B.assertNonzero x) fun _ _ => True :=
  bind (inverse hx) fun _ _ _ _ => pure trivial

theorem assertNonequal {x y : Expression p} (hx : x.Over K) (hy : y.Over K) :
    Timely d K (B.assertNonequal x y) fun _ _ => True := assertNonzero (hx.sub hy)

theorem inverseOrZero {x : Expression p} (hx : x.Over K) :
    Timely d K (B.inverseOrZero x) fun z K' => z.Over K' :=
  skip .wire fun w _ => bind (nonzero hx) fun _ _ hK _ => skip (.assertProduct _ _ _) fun _ _ =>
    bind (gen (Fills.inverseOrZeroGen x w) (KeepsValues.inverseOrZeroGen x w) (hx.mono hK))
      fun _ _ _ h => pure (.ofWire (h w (by simp)))

theorem quotient {x y : Expression p} (hx : x.Over K) (hy : y.Over K) :
    Timely d K (B.quotient x y) fun z K' => z.Over K' :=
  bind (inverse hy) fun _ _ hK h => product (hx.mono hK) h

theorem quotientUnsafe {x y : Expression p} (hx : x.Over K) (hy : y.Over K) :
    Timely d K (B.quotientUnsafe x y) fun z K' => z.Over K' := by
  refine skip .wire fun w _ =>
    bind (gen (Fills.quotientUnsafeGen x y w) (KeepsValues.quotientUnsafeGen x y w) fun i hi => ?_)
      fun _ _ _ h => pure (.ofWire (h w (by simp)))
  rcases List.mem_append.1 hi with hi | hi
  · exact hx i hi
  · exact hy i hi

theorem and {x y : BooleanExpression p} (hx : x.Over K) (hy : y.Over K) :
    Timely d K (B.and x y) fun z K' => z.Over K' :=
  bind (product hx hy) fun _ _ _ h => pure h

theorem or {x y : BooleanExpression p} (hx : x.Over K) (hy : y.Over K) :
    Timely d K (B.or x y) fun z K' => z.Over K' :=
  bind (product hx hy) fun _ _ hK h =>
    pure (((Expression.Over.mono hx hK).add (Expression.Over.mono hy hK)).sub h)

theorem xor {x y : BooleanExpression p} (hx : x.Over K) (hy : y.Over K) :
    Timely d K (B.xor x y) fun z K' => z.Over K' :=
  bind (product hx hy) fun _ _ hK h => skip (.ofOption _) fun _ e =>
    pure (((Expression.Over.mono hx hK).add (Expression.Over.mono hy hK)).sub (h.mulNat e))

/-! ### Splitting and comparing -/

theorem splitWithoutRangeCheck {x : Expression p} (hx : x.Over K) (k : ℕ) :
    Timely d K (B.splitWithoutRangeCheck x k) fun z K' => z.Over K' :=
  skip (.binaryWire k) fun w _ => skip (.ofOption _) fun _ _ => skip (.assertEqual _ _) fun _ _ =>
    bind (gen (Fills.splitGen x k w) (KeepsValues.splitGen x k w) hx) fun _ _ _ h =>
      pure (BinaryExpression.Over.ofWire fun b hb => h _ (List.mem_map.2 ⟨b, hb, rfl⟩))

theorem splitAllowingAmbiguity {x : Expression p} (hx : x.Over K) :
    Timely d K (B.splitAllowingAmbiguity x) fun z K' => z.Over K' := splitWithoutRangeCheck hx _

theorem splitBounded {x : Expression p} (hx : x.Over K) (k : ℕ) :
    Timely d K (B.splitBounded x k) fun z K' => z.Over K' :=
  skip (.require _) fun _ _ => splitWithoutRangeCheck hx _

theorem cmpSubtractive (h1 : ONE ∈ K) {x : Expression p} (hx : x.Over K) (l s : Bool) (k : ℕ) :
    Timely d K (B.cmpSubtractive x l s k) fun z K' => z.Over K' := by
  refine skip (.ofOption _) fun _ _ => bind (splitBounded ((Expression.Over.ofElem h1 _).add ?_) _)
    fun _ _ _ h => quiet (.ofOption _) fun _ e => h.getElem? e
  split
  · exact hx.neg
  · exact hx

theorem maskedSum : ∀ (l : List (Wire × Expression p × Expression p)) (K : Set Wire)
    (e : Expression p), e.Over K → (∀ q ∈ l, q.1 ∈ K ∧ q.2.1.Over K ∧ q.2.2.Over K) →
    Timely d K (B.maskedSum l e) fun z K' => z.Over K'
  | [], _, _, he, _ => pure he
  | (m, x, y) :: l, K, e, he, hl => by
    obtain ⟨hm, hx, hy⟩ := hl _ (List.mem_cons_self ..)
    exact bind (product (.ofWire hm) (hx.sub hy)) fun t K' hK ht =>
      maskedSum l K' _ ((he.mono hK).add ht) fun q hq => by
        obtain ⟨k1, k2, k3⟩ := hl q (List.mem_cons_of_mem _ hq)
        exact ⟨hK k1, k2.mono hK, k3.mono hK⟩

theorem cmpTail (h1 : ONE ∈ K) {z : List (Wire × Expression p × Expression p)}
    (hz : ∀ q ∈ z, q.1 ∈ K ∧ q.2.1.Over K ∧ q.2.2.Over K) {e : BooleanExpression p} (he : e.Over K)
    (l s : Bool) (c : ℕ) : Timely d K (B.cmpTail z e l s c) fun z K' => z.Over K' := by
  refine bind (maskedSum z K 0 .zero hz) fun t K' hK ht => ?_
  split
  · exact panic
  · refine skip (.assertMoreSignificantEqual _ _) fun _ _ =>
      bind (Q := fun _ _ => True) (ite (fun _ => pure trivial) fun _ =>
        bind (selection (Expression.Over.mono he hK) ht (.one (hK h1))) fun _ _ _ h =>
          assertNonzero h) fun _ K2 hK2 _ => ?_
    exact cmpSubtractive (hK2 (hK h1)) (ht.mono hK2) _ _ _

theorem cmpBinary (h1 : ONE ∈ K) {x y : BinaryExpression p} (hx : x.Over K) (hy : y.Over K)
    (l s : Bool) : Timely d K (B.cmpBinary x y l s) fun z K' => z.Over K' := by
  refine skip (.require _) fun _ hl => skip (.ofOption _) fun xc e1 => skip (.ofOption _) fun xs e2 =>
    skip (.ofOption _) fun yc e3 => skip (.ofOption _) fun ys e4 => skip (.wires _) fun ms e5 =>
    skip (.assertBooleans _) fun _ _ => skip (.assertBoolean _) fun de e6 => ?_
  have hxs : ListOver K xs := BinaryExpression.Over.joins (hx.chunks e1) e2
  have hys : ListOver K ys := BinaryExpression.Over.joins (hy.chunks e3) e4
  have hlen : xs.length = ys.length := by
    rw [mapM_length e2, mapM_length e4]
    unfold BinaryExpression.chunks chunks? at e1 e3
    split at e1
    · exact absurd e1 (by simp)
    · next hk =>
      rw [if_neg hk] at e3
      obtain rfl := Option.some.inj e1
      obtain rfl := Option.some.inj e3
      have := congrArg List.length (chunksOf_map_length (k := cmpChunkBits (Elem.maxBits p) x.len)
        x.bits y.bits hl)
      simpa using this
  have hmem : ∀ q ∈ ms.zip (xs.zip ys), q.2.1.Over K ∧ q.2.2.Over K := by
    intro q hq
    have h2 := List.of_mem_zip (List.of_mem_zip hq).2
    exact ⟨hxs _ h2.1, hys _ h2.2⟩
  have hms : (ms.zip (xs.zip ys)).map (·.1) = ms := by
    have : (ms.zip (xs.zip ys)).map Prod.fst = ms := List.map_fst_zip (by
      rw [List.length_zip]; omega)
    exact this
  refine bind (gen (Fills.maskGen _ _) (KeepsValues.maskGen _ _) fun i hi => ?_) fun _ K' hK h => ?_
  · rcases List.mem_append.1 hi with hi | hi
    · exact hx.deps i hi
    · exact hy.deps i hi
  · have hm : ∀ w ∈ ms, w ∈ K' := fun w hw => h w (by
      rw [List.map_reverse, hms, List.mem_reverse]; exact hw)
    refine cmpTail (hK h1) (fun q hq => ⟨hm _ (List.of_mem_zip hq).1, (hmem q hq).1.mono hK,
      (hmem q hq).2.mono hK⟩) ?_ _ _ _
    show Expression.Over K' _
    rw [e6]
    exact .sumOfWires hm

theorem assertCmpBinary (h1 : ONE ∈ K) {x y : BinaryExpression p} (hx : x.Over K) (hy : y.Over K)
    (l s : Bool) :
    Timely d K (B.cmpBinary x y l s >>= fun r => B.assertTrue r) fun _ _ => True :=
  bind (cmpBinary h1 hx hy l s) fun _ _ _ _ => quiet (.assertEqual _ _) fun _ _ => trivial

theorem split (h1 : ONE ∈ K) {x : Expression p} (hx : x.Over K) :
    Timely d K (B.split x) fun z K' => z.Over K' :=
  bind (splitWithoutRangeCheck hx _) fun _ _ hK h =>
    bind (assertCmpBinary (hK h1) h (.ofNat (hK h1) _) _ _) fun _ _ hK' _ => pure (h.mono hK')

theorem cmp (h1 : ONE ∈ K) {x y : Expression p} (hx : x.Over K) (hy : y.Over K) (l s : Bool) :
    Timely d K (B.cmp x y l s) fun z K' => z.Over K' :=
  ite (fun _ => bind (splitAllowingAmbiguity hx) fun _ _ hK h => bind (split (hK h1) (hy.mono hK))
      fun _ _ hK' h' => cmpBinary (hK' (hK h1)) (h.mono hK') h' _ _)
    fun _ => bind (split h1 hx) fun _ _ hK h => bind (splitAllowingAmbiguity (hy.mono hK))
      fun _ _ hK' h' => cmpBinary (hK' (hK h1)) (h.mono hK') h' _ _

theorem assertCmp (h1 : ONE ∈ K) {x y : Expression p} (hx : x.Over K) (hy : y.Over K)
    (l s : Bool) : Timely d K (B.cmp x y l s >>= fun r => B.assertTrue r) fun _ _ => True :=
  bind (cmp h1 hx hy l s) fun _ _ _ _ => quiet (.assertEqual _ _) fun _ _ => trivial

theorem modulus (h1 : ONE ∈ K) {x y : Expression p} (hx : x.Over K) (hy : y.Over K) :
    Timely (d + 1) K (B.modulus x y) fun z K' => z.Over K' := by
  refine skip .wire fun q _ => skip .wire fun r _ => skip (.assertProduct _ _ _) fun _ _ => ?_
  have h := wait (K := K) (m := B.assertLt (Expression.ofWire r) y) [q, r]
    (assertCmp (d := d) (.inl h1) (.ofWire (.inr (by simp))) (hy.mono Set.subset_union_left) _ _)
    (i := x.dependencies ++ y.dependencies) (fun i hi => by
      rcases List.mem_append.1 hi with hi | hi
      · exact hx i hi
      · exact hy i hi)
    (KeepsValues.modulusGen x y q r) (Fills.modulusGen x y q r)
  have h' := h.bind (f := fun _ => (Pure.pure (Expression.ofWire r) : B p (Expression p)))
    (R := fun z K' => z.Over K')
    fun _ K' _ h => pure (.ofWire (h r (by simp)))
  rwa [bind_assoc] at h'

theorem divides (h1 : ONE ∈ K) {x y : Expression p} (hx : x.Over K) (hy : y.Over K) :
    Timely (d + 1) K (B.divides x y) fun z K' => z.Over K' :=
  bind (modulus h1 hy hx) fun _ _ hK h => zero (hK h1) h

/-! ### Binary and bitwise operations, random access -/

theorem binarySummation {terms : List (BinaryExpression p)} (ht : ∀ x ∈ terms, x.Over K) :
    Timely d K (B.binarySummation terms) fun z K' => z.Over K' :=
  skip (.require _) fun _ _ => skip (.binaryWire _) fun w _ => skip (.ofOption _) fun _ e =>
    skip (.ofOption _) fun _ _ => skip (.assertEqual _ _) fun _ _ =>
    bind (gen (Fills.summationGen _ w) (Fills.keeps_summationGen _ w)
      (Expression.Over.sumOfExpressions (BinaryExpression.Over.joins ht e))) fun _ _ _ h =>
      pure (BinaryExpression.Over.ofWire fun b hb => h _ (List.mem_map.2 ⟨b, hb, rfl⟩))

theorem binarySummationIgnoringOverflow {terms : List (BinaryExpression p)}
    (ht : ∀ x ∈ terms, x.Over K) :
    Timely d K (B.binarySummationIgnoringOverflow terms) fun z K' => z.Over K' :=
  bind (binarySummation ht) fun _ _ _ h => quiet (.ofOption _) fun _ e => h.truncated e

theorem binarySummationAssertingNoOverflow {terms : List (BinaryExpression p)}
    (ht : ∀ x ∈ terms, x.Over K) :
    Timely d K (B.binarySummationAssertingNoOverflow terms) fun z K' => z.Over K' :=
  bind (binarySummation ht) fun _ _ _ h => skip (.require _) fun _ _ =>
    skip (.binaryAssertZero _) fun _ _ => quiet (.ofOption _) fun _ e => h.truncated e

theorem notBits : ∀ (bs : List (BooleanExpression p)) (K : Set Wire), ONE ∈ K →
    (∀ b ∈ bs, b.Over K) → Timely d K (B.notBits bs) fun z K' => ∀ b ∈ z, b.Over K'
  | [], _, _, _ => pure (by simp)
  | b :: bs, K, h1, h => bind (not h1 (h b (by simp))) fun c K1 k1 hc =>
    bind (notBits bs K1 (k1 h1) fun b hb => Expression.Over.mono (h b (by simp [hb])) k1)
      fun cs K2 k2 hcs => pure (by
        intro b hb
        rcases List.mem_cons.1 hb with rfl | hb
        · exact Expression.Over.mono hc k2
        · exact hcs b hb)

theorem bitwiseNot (h1 : ONE ∈ K) {x : BinaryExpression p} (hx : x.Over K) :
    Timely d K (B.bitwiseNot x) fun z K' => z.Over K' :=
  bind (notBits _ K h1 hx) fun _ _ _ h => pure h

theorem zipBits {op : BooleanExpression p → BooleanExpression p → B p (BooleanExpression p)}
    (hop : ∀ (K : Set Wire) x y, x.Over K → y.Over K →
      Timely d K (op x y) fun z K' => z.Over K') :
    ∀ (bs cs : List (BooleanExpression p)) (K : Set Wire), (∀ b ∈ bs, b.Over K) →
      (∀ b ∈ cs, b.Over K) → Timely d K (B.zipBits op bs cs) fun z K' => ∀ b ∈ z, b.Over K'
  | [], _, _, _, _ => pure (by simp)
  | _ :: _, [], _, _, _ => pure (by simp)
  | b :: bs, c :: cs, K, hb, hc => bind (hop K b c (hb b (by simp)) (hc c (by simp)))
    fun e K1 k1 he => bind (zipBits hop bs cs K1
        (fun b hb' => Expression.Over.mono (hb b (by simp [hb'])) k1)
        fun b hb' => Expression.Over.mono (hc b (by simp [hb'])) k1)
      fun cs K2 k2 hcs => pure (by
        intro b hb
        rcases List.mem_cons.1 hb with rfl | hb
        · exact Expression.Over.mono he k2
        · exact hcs b hb)

theorem bitwiseAnd {x y : BinaryExpression p} (hx : x.Over K) (hy : y.Over K) :
    Timely d K (B.bitwiseAnd x y) fun z K' => z.Over K' :=
  skip (.require _) fun _ _ => bind (zipBits (fun _ _ _ => and) _ _ K hx hy) fun _ _ _ h => pure h

theorem bitwiseOr {x y : BinaryExpression p} (hx : x.Over K) (hy : y.Over K) :
    Timely d K (B.bitwiseOr x y) fun z K' => z.Over K' :=
  skip (.require _) fun _ _ => bind (zipBits (fun _ _ _ => or) _ _ K hx hy) fun _ _ _ h => pure h

theorem bitwiseXor {x y : BinaryExpression p} (hx : x.Over K) (hy : y.Over K) :
    Timely d K (B.bitwiseXor x y) fun z K' => z.Over K' :=
  skip (.require _) fun _ _ => bind (zipBits (fun _ _ _ => xor) _ _ K hx hy) fun _ _ _ h => pure h

theorem parentLayer : ∀ (items : List (Expression p)) (K : Set Wire) (b : BooleanExpression p),
    b.Over K → ListOver K items → Timely d K (B.parentLayer b items) fun z K' => ListOver K' z
  | [], _, _, _, h => pure h
  | [_], _, _, _, h => pure h
  | x :: y :: rest, K, b, hb, h => bind (selection hb (h y (by simp)) (h x (by simp)))
    fun s K1 k1 hs => bind (parentLayer rest K1 b (Expression.Over.mono hb k1)
        fun e he => (h e (by simp [he])).mono k1) fun cs K2 k2 hcs => pure (by
      intro e he
      rcases List.mem_cons.1 he with rfl | he
      · exact hs.mono k2
      · exact hcs e he)

theorem randomAccessBinary : ∀ (bits : List (BooleanExpression p)) (items : List (Expression p))
    (K : Set Wire), (∀ b ∈ bits, b.Over K) → ListOver K items →
    Timely d K (B.randomAccessBinary bits items) fun z K' => z.Over K'
  | [], [], _, _, _ => panic
  | [], [x], _, _, h => pure (h x (by simp))
  | [], _ :: _ :: _, _, _, _ => panic
  | _ :: _, [_], _, _, _ => panic
  | b :: bits, [], K, hb, h => bind (parentLayer _ K b (hb b (by simp)) h) fun _ K1 k1 h' =>
    randomAccessBinary bits _ K1 (fun b hb' => Expression.Over.mono (hb b (by simp [hb'])) k1) h'
  | b :: bits, x :: y :: l, K, hb, h => bind (parentLayer _ K b (hb b (by simp)) h) fun _ K1 k1 h' =>
    randomAccessBinary bits _ K1 (fun b hb' => Expression.Over.mono (hb b (by simp [hb'])) k1) h'

theorem randomAccess {items : List (Expression p)} {index : Expression p} (hi : ListOver K items)
    (hx : index.Over K) : Timely d K (B.randomAccess items index) fun z K' => z.Over K' :=
  bind (splitBounded hx _) fun _ K1 k1 h =>
    randomAccessBinary _ _ K1 h fun e he => (hi e he).mono k1

end Timely

end R1CS
