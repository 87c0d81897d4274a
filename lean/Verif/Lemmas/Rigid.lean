import Verif.Spec.Rigid
import Verif.Lemmas.Compare
import Verif.Lemmas.Programs
import Verif.Lemmas.Relations

/-!
# Proof rules for wires which are determined
-/

set_option linter.unusedSectionVars false

namespace R1CS

variable {p : ℕ} [hp : Fact p.Prime] {α β : Type}

/-- The assignments agree on the first `n` wires. -/
def Agree (n : ℕ) (W1 W2 : Assign p) : Prop := ∀ i < n, W1 i = W2 i

theorem Agree.eval {n : ℕ} {W1 W2 : Assign p} (h : Agree n W1 W2) {e : Expression p}
    (he : e.Scoped n) : e.eval W1 = e.eval W2 :=
  Expression.eval_congr fun i hi => h i (he i hi)

theorem Agree.beval {n : ℕ} {W1 W2 : Assign p} (h : Agree n W1 W2) {e : BooleanExpression p}
    (he : e.Scoped n) : e.eval W1 = e.eval W2 := Agree.eval h he

theorem Agree.val {n : ℕ} {W1 W2 : Assign p} (h : Agree n W1 W2) {e : BinaryExpression p}
    (he : e.Scoped n) : e.val W1 = e.val W2 := by
  unfold BinaryExpression.val BinaryExpression.digits
  congr 1
  exact List.map_congr_left fun b hb => by rw [h.beval (he b hb)]

/-- The call, made when `n` wires are allocated, leads to a result and a number of wires satisfying
`S`, keeps the constraints, and determines its wires if the earlier ones fulfil `P`. -/
def Det (n : ℕ) (P : Assign p → Prop) (m : B p α) (S : α → ℕ → Prop) : Prop :=
  ∀ (b b' : Builder p) (a : α), b.nextWireIndex = n → m b = some (a, b') →
    n ≤ b'.nextWireIndex ∧ S a b'.nextWireIndex ∧
    (∀ W, Satisfies W b'.constraints → Satisfies W b.constraints) ∧
    ∀ W1 W2 : Assign p, Satisfies W1 b'.constraints → Satisfies W2 b'.constraints →
      Agree n W1 W2 → P W1 → P W2 → Agree b'.nextWireIndex W1 W2

namespace Det

variable {n : ℕ} {P : Assign p → Prop} {S : α → ℕ → Prop}

theorem rigid {m : B p α} (h : Det n (fun _ => True) m S) : Rigid n m :=
  fun b b' a hb hr W1 W2 h1 h2 ha _ => (h b b' a hb hr).2.2.2 W1 W2 h1 h2 ha trivial trivial

theorem rigidIf {m : B p α} (h : Det n P m S)
    (hP : ∀ W1 W2 : Assign p, Agree n W1 W2 → P W1 → P W2) : RigidIf n P m :=
  fun b b' a hb hr W1 W2 h1 h2 ha hw => (h b b' a hb hr).2.2.2 W1 W2 h1 h2 ha hw (hP W1 W2 ha hw)

theorem mono {m : B p α} {P' : Assign p → Prop} {S' : α → ℕ → Prop} (h : Det n P m S)
    (hP : ∀ W, W ONE = 1 → P' W → P W) (hS : ∀ a k, n ≤ k → S a k → S' a k) : Det n P' m S' := by
  intro b b' a hb hr
  obtain ⟨h1, h2, h3, h4⟩ := h b b' a hb hr
  exact ⟨h1, hS a _ h1 h2, h3, fun W1 W2 s1 s2 ha p1 p2 =>
    h4 W1 W2 s1 s2 ha (hP _ s1.one p1) (hP _ s2.one p2)⟩

theorem post {m : B p α} {S' : α → ℕ → Prop} (h : Det n P m S)
    (hS : ∀ a k, n ≤ k → S a k → S' a k) : Det n P m S' := h.mono (fun _ _ h => h) hS

theorem pre {m : B p α} {P' : Assign p → Prop} (h : Det n P m S) (hP : ∀ W, W ONE = 1 → P' W → P W) :
    Det n P' m S := h.mono hP fun _ _ _ h => h

/-- Sequencing; what the first call enforces can be used for the second. -/
theorem bindE {m : B p α} {f : α → B p β} {T : α → Assign p → Prop} {R : β → ℕ → Prop}
    (hm : Det n P m S) (E : Enforces m T)
    (hf : ∀ a k, n ≤ k → S a k → Det k (fun W => P W ∧ T a W) (f a) R) : Det n P (m >>= f) R := by
  intro b b' a hb hr
  obtain ⟨c, b1, r1, r2⟩ := B.bind_run hr
  obtain ⟨l1, s1, m1, d1⟩ := hm b b1 c hb r1
  obtain ⟨l2, s2, m2, d2⟩ := hf c _ l1 s1 b1 b' a rfl r2
  refine ⟨l1.trans l2, s2, fun W hW => m1 W (m2 W hW), fun W1 W2 h1 h2 ha p1 p2 => ?_⟩
  exact d2 W1 W2 h1 h2 (d1 W1 W2 (m2 _ h1) (m2 _ h2) ha p1 p2)
    ⟨p1, (E _ _ _ r1 _ (m2 _ h1)).2⟩ ⟨p2, (E _ _ _ r1 _ (m2 _ h2)).2⟩

theorem bind {m : B p α} {f : α → B p β} {R : β → ℕ → Prop} (hm : Det n P m S)
    (hf : ∀ a k, n ≤ k → S a k → Det k P (f a) R) : Det n P (m >>= f) R := by
  intro b b' a hb hr
  obtain ⟨c, b1, r1, r2⟩ := B.bind_run hr
  obtain ⟨l1, s1, m1, d1⟩ := hm b b1 c hb r1
  obtain ⟨l2, s2, m2, d2⟩ := hf c _ l1 s1 b1 b' a rfl r2
  exact ⟨l1.trans l2, s2, fun W hW => m1 W (m2 W hW), fun W1 W2 h1 h2 ha p1 p2 =>
    d2 W1 W2 h1 h2 (d1 W1 W2 (m2 _ h1) (m2 _ h2) ha p1 p2) p1 p2⟩

/-- Allocating `k` wires which the rest determines. -/
theorem alloc {m : B p α} {f : α → B p β} {a0 : α} {k : ℕ} {T : Assign p → Prop}
    {U : β → Assign p → Prop} {R : β → ℕ → Prop}
    (hm : ∀ b : Builder p, b.nextWireIndex = n →
      ∃ b1, m b = some (a0, b1) ∧ b1.nextWireIndex = n + k ∧
        ∀ W, Satisfies W b1.constraints → Satisfies W b.constraints ∧ T W)
    (E : Enforces (f a0) U)
    (hd : ∀ c W1 W2, W1 ONE = 1 → W2 ONE = 1 → Agree n W1 W2 → P W1 → P W2 → T W1 → T W2 →
      U c W1 → U c W2 → ∀ i, n ≤ i → i < n + k → W1 i = W2 i)
    (hf : Det (n + k) P (f a0) R) : Det n P (m >>= f) R := by
  intro b b' a hb hr
  obtain ⟨c, b1, r1, r2⟩ := B.bind_run hr
  obtain ⟨b2, e1, e2, e3⟩ := hm b hb
  rw [e1] at r1
  injection r1 with r1
  injection r1 with ra rb
  subst ra
  subst rb
  obtain ⟨l2, s2, m2, d2⟩ := hf b2 b' a e2 r2
  refine ⟨by omega, s2, fun W hW => (e3 W (m2 W hW)).1, fun W1 W2 h1 h2 ha p1 p2 => ?_⟩
  refine d2 W1 W2 h1 h2 (fun i hi => ?_) p1 p2
  by_cases hin : i < n
  · exact ha i hin
  · exact hd a W1 W2 h1.one h2.one ha p1 p2 (e3 _ (m2 _ h1)).2 (e3 _ (m2 _ h2)).2
      (E _ _ _ r2 _ h1).2 (E _ _ _ r2 _ h2).2 i (by omega) hi

theorem pure {a : α} (h : S a n) : Det n P (pure a : B p α) S := by
  intro b b' a' hb hr
  rw [B.pure_eq] at hr
  obtain ⟨rfl, rfl⟩ := Prod.ext_iff.1 (Option.some.inj hr)
  exact ⟨hb.ge, hb ▸ h, fun _ h => h, fun _ _ _ _ ha _ _ => hb ▸ ha⟩

theorem panic : Det n P (B.panic : B p α) S :=
  fun _ _ _ _ hr => absurd hr (by simp [B.panic])

theorem ofOption {o : Option α} (h : ∀ a, o = some a → S a n) : Det n P (B.ofOption o) S := by
  cases ho : o with
  | none => exact fun _ _ _ _ hr => absurd hr (by simp [B.ofOption])
  | some a => exact Det.pure (h a ho)

theorem require (c : Prop) [Decidable c] : Det n P (B.require c : B p Unit) fun _ k => c ∧ k = n := by
  unfold B.require
  split
  · next h => exact Det.pure ⟨h, rfl⟩
  · exact Det.panic

theorem assertProduct (x y z : Expression p) : Det n P (B.assertProduct x y z) fun _ k => k = n := by
  intro b b' a hb hr
  simp only [B.assertProduct, Option.some.injEq, Prod.mk.injEq, true_and] at hr
  subst hr
  exact ⟨hb.ge, hb, fun W hW => ⟨hW.one, fun c hc => hW.all c (by simp [hc])⟩,
    fun W1 W2 _ _ ha _ _ => hb ▸ ha⟩

theorem generator (d : List Wire) (f : WireValues p → Option (WireValues p)) :
    Det n P (B.generator d f) fun _ k => k = n := by
  intro b b' a hb hr
  simp only [B.generator, Option.some.injEq, Prod.mk.injEq, true_and] at hr
  subst hr
  exact ⟨hb.ge, hb, fun W hW => ⟨hW.one, hW.all⟩, fun W1 W2 _ _ ha _ _ => hb ▸ ha⟩

theorem wire {f : Wire → B p β} {U : β → Assign p → Prop} {R : β → ℕ → Prop}
    (E : Enforces (f n) U)
    (hd : ∀ c W1 W2, W1 ONE = 1 → W2 ONE = 1 → Agree n W1 W2 → P W1 → P W2 →
      U c W1 → U c W2 → W1 n = W2 n)
    (hf : Det (n + 1) P (f n) R) : Det n P (B.wire >>= f) R := by
  refine Det.alloc (a0 := n) (k := 1) (T := fun _ => True) (fun b hb =>
      ⟨{ b with nextWireIndex := b.nextWireIndex + 1 }, ?_, ?_, ?_⟩) E
    (fun c W1 W2 o1 o2 ha p1 p2 _ _ u1 u2 i h1 h2 => ?_) hf
  · rw [← hb]; rfl
  · show b.nextWireIndex + 1 = n + 1
    rw [hb]
  · exact fun W hW => ⟨⟨hW.one, hW.all⟩, trivial⟩
  · obtain rfl : i = n := by omega
    exact hd c W1 W2 o1 o2 ha p1 p2 u1 u2

/-! ## Arithmetic -/

theorem assertEqual (x y : Expression p) : Det n P (B.assertEqual x y) fun _ k => k = n :=
  assertProduct _ _ _

theorem assertZero (x : Expression p) : Det n P (B.assertZero x) fun _ k => k = n :=
  assertProduct _ _ _

theorem assertTrue (x : BooleanExpression p) : Det n P (B.assertTrue x) fun _ k => k = n :=
  assertProduct _ _ _

theorem assertFalse (x : BooleanExpression p) : Det n P (B.assertFalse x) fun _ k => k = n :=
  assertProduct _ _ _

theorem assertBoolean (x : Expression p) :
    Det n P (B.assertBoolean x) fun a k => k = n ∧ a = ⟨x⟩ :=
  (assertProduct _ _ _).bind fun _ _ _ hk => Det.pure ⟨hk, rfl⟩

theorem product {x y : Expression p} (hx : x.Scoped n) (hy : y.Scoped n) :
    Det n P (B.product x y) fun z k => z.Scoped k := by
  unfold B.product
  split
  · exact Det.pure (hy.mulElem _)
  · split
    · exact Det.pure (hx.mulElem _)
    · refine Det.wire (U := fun _ W => x.eval W * y.eval W = W n) ?_ ?_ ?_
      · exact (Enforces.assertProduct x y _).bind fun _ => (Enforces.generator _ _).bind fun _ =>
          Enforces.pure fun W _ _ h => by rw [h, Expression.eval_ofWire]
      · intro _ W1 W2 _ _ ha _ _ h1 h2
        rw [← h1, ← h2, ha.eval hx, ha.eval hy]
      · exact (assertProduct _ _ _).bind fun _ _ _ hk => (generator _ _).bind fun _ _ _ hk' =>
          Det.pure (.ofWire (by omega))

theorem inverse {x : Expression p} (hx : x.Scoped n) :
    Det n P (B.inverse x) fun z k => z.Scoped k := by
  unfold B.inverse
  refine Det.wire (U := fun _ W => x.eval W * W n = 1) ?_ ?_ ?_
  · exact (Enforces.assertProduct x _ _).bind fun _ => (Enforces.generator _ _).bind fun _ =>
      Enforces.pure fun W h1 _ h => by rw [Expression.eval_ofWire, Expression.eval_one h1] at h; exact h
  · intro _ W1 W2 _ _ ha _ _ h1 h2
    rw [ha.eval hx] at h1
    have hne : x.eval W2 ≠ 0 := fun h0 => by rw [h0, zero_mul] at h1; exact zero_ne_one h1
    exact mul_left_cancel₀ hne (h1.trans h2.symm)
  · exact (assertProduct _ _ _).bind fun _ _ _ hk => (generator _ _).bind fun _ _ _ hk' =>
      Det.pure (.ofWire (by omega))

theorem assertNonzero {x : Expression p} (hx : x.Scoped n) :
    Det n P (B.assertNonzero x) fun _ _ => True :=
  (inverse hx).bind fun _ _ _ _ => Det.pure trivial

theorem assertNonequal {x y : Expression p} (hx : x.Scoped n) (hy : y.Scoped n) :
    Det n P (B.assertNonequal x y) fun _ _ => True := assertNonzero (hx.sub hy)

theorem quotient {x y : Expression p} (hx : x.Scoped n) (hy : y.Scoped n) :
    Det n P (B.quotient x y) fun z k => z.Scoped k :=
  (inverse hy).bind fun _ _ hk hi => product (hx.mono hk) hi

theorem selection {c : BooleanExpression p} {x y : Expression p} (hc : c.Scoped n)
    (hx : x.Scoped n) (hy : y.Scoped n) : Det n P (B.selection c x y) fun z k => z.Scoped k :=
  (product hc (hx.sub hy)).bind fun _ _ hk hd => Det.pure ((hy.mono hk).add hd)

theorem expLoop {x : Expression p} (e : Elem p) : ∀ (r i n : ℕ) (a b : Expression p), x.Scoped n →
    a.Scoped n → b.Scoped n → Det n P (B.expLoop x e i r a b) fun z k => z.Scoped k
  | 0, _, _, _, _, _, ha, _ => Det.pure ha
  | r + 1, i, n, a, b, hx, ha, hb => by
    unfold B.expLoop
    refine Det.bind (S := fun z k => z.Scoped k) ?_ fun sq k hk hs => Det.bind
      (S := fun z k => z.Scoped k) ?_ fun a' k' hk' ha' => expLoop e r (i + 1) k' a' sq
        (hx.mono (hk.trans hk')) ha' (hs.mono hk')
    · split
      · exact Det.pure hx
      · exact product hb hb
    · split
      · exact product (ha.mono hk) hs
      · exact Det.pure (ha.mono hk)

theorem exponentiation (hn : 1 ≤ n) {x : Expression p} (hx : x.Scoped n) (e : Elem p) :
    Det n P (B.exponentiation x e) fun z k => z.Scoped k :=
  expLoop e _ _ _ _ _ hx (.one hn) .zero

theorem not (hn : 1 ≤ n) {x : BooleanExpression p} (hx : x.Scoped n) :
    Det n P (B.not x) fun z k => z.Scoped k := Det.pure ((Expression.Scoped.one hn).sub hx)

theorem and {x y : BooleanExpression p} (hx : x.Scoped n) (hy : y.Scoped n) :
    Det n P (B.and x y) fun z k => z.Scoped k :=
  (product hx hy).bind fun _ _ _ hz => Det.pure hz

theorem or {x y : BooleanExpression p} (hx : x.Scoped n) (hy : y.Scoped n) :
    Det n P (B.or x y) fun z k => z.Scoped k :=
  (product hx hy).bind fun _ _ hk hz => Det.pure
    ((((hx : x.expression.Scoped n).mono hk).add ((hy : y.expression.Scoped n).mono hk)).sub hz)

theorem _root_.R1CS.Expression.Scoped.mulNat {n : ℕ} {e z : Expression p} (he : e.Scoped n) {k : ℕ}
    (h : e.mulNat k = some z) : z.Scoped n := by
  by_cases hk : k < p
  · rw [Expression.mulNat_eq e hk] at h
    injection h with h
    rw [← h]
    exact he.mulElem _
  · unfold Expression.mulNat at h
    obtain ⟨m⟩ := e
    cases m with
    | nil =>
      simp at h
      rw [← h]
      intro i hi
      simp [Expression.dependencies, Expression.new] at hi
    | cons kv m =>
      simp [List.mapM_cons, Elem.mulNat, Elem.ofNat?_eq_none (not_lt.1 hk)] at h

theorem xor {x y : BooleanExpression p} (hx : x.Scoped n) (hy : y.Scoped n) :
    Det n P (B.xor x y) fun z k => z.Scoped k :=
  (product hx hy).bind fun _ _ hk hz => (Det.ofOption (S := fun z k => z.Scoped k)
    fun _ h => hz.mulNat h).bind fun _ _ hk' hz2 => Det.pure
    ((((hx : x.expression.Scoped n).mono (hk.trans hk')).add
      ((hy : y.expression.Scoped n).mono (hk.trans hk'))).sub hz2)

/-! ## Allocating several wires -/

theorem wires {k : ℕ} {f : List Wire → B p β} {U : β → Assign p → Prop} {R : β → ℕ → Prop}
    (E : Enforces (f (List.range' n k)) U)
    (hd : ∀ c W1 W2, W1 ONE = 1 → W2 ONE = 1 → Agree n W1 W2 → P W1 → P W2 →
      U c W1 → U c W2 → (List.range' n k).map W1 = (List.range' n k).map W2)
    (hf : Det (n + k) P (f (List.range' n k)) R) : Det n P (B.wires k >>= f) R := by
  refine Det.alloc (a0 := List.range' n k) (k := k) (T := fun _ => True) (fun b hb =>
      ⟨{ b with nextWireIndex := b.nextWireIndex + k }, ?_, ?_, ?_⟩) E
    (fun c W1 W2 o1 o2 ha p1 p2 _ _ u1 u2 i h1 h2 => ?_) hf
  · rw [← hb]; exact Enforces.wires_run k b
  · show b.nextWireIndex + k = n + k
    rw [hb]
  · exact fun W hW => ⟨⟨hW.one, hW.all⟩, trivial⟩
  · exact List.map_inj_left.1 (hd c W1 W2 o1 o2 ha p1 p2 u1 u2) i
      (List.mem_range'_1.2 ⟨h1, h2⟩)

/-- The digits allocated by `binary_wire` when `n` wires are allocated. -/
def bitsAt (n k : ℕ) : BinaryWire := ⟨(List.range' n k).map fun i => ⟨i⟩⟩

theorem booleanWires_run : ∀ (k n : ℕ) (b : Builder p), b.nextWireIndex = n →
    ∃ b', B.booleanWires k b = some ((List.range' n k).map fun i => ⟨i⟩, b') ∧
      b'.nextWireIndex = n + k
  | 0, n, b, h => ⟨b, rfl, h⟩
  | k + 1, n, b, h => by
    have h1 : ∃ b1, (B.booleanWire : B p BooleanWire) b = some (⟨n⟩, b1) ∧ b1.nextWireIndex = n + 1 := by
      subst h
      exact ⟨_, rfl, rfl⟩
    obtain ⟨b1, r1, n1⟩ := h1
    obtain ⟨b2, r2, n2⟩ := booleanWires_run k (n + 1) b1 n1
    refine ⟨b2, ?_, by omega⟩
    unfold B.booleanWires
    rw [B.bind_eq r1, B.bind_eq r2, B.pure_eq, List.range'_succ]
    rfl

theorem bitsAt_scoped (n k : ℕ) :
    (BinaryExpression.ofWire (bitsAt n k) : BinaryExpression p).Scoped (n + k) := by
  refine BinaryExpression.ofWire_scoped fun y hy => ?_
  obtain ⟨i, hi, rfl⟩ := List.mem_map.1 hy
  exact (List.mem_range'_1.1 hi).2

theorem binaryWire {k : ℕ} {f : BinaryWire → B p β} {U : β → Assign p → Prop} {R : β → ℕ → Prop}
    (E : Enforces (f (bitsAt n k)) U)
    (hd : ∀ c W1 W2, W1 ONE = 1 → W2 ONE = 1 → Agree n W1 W2 → P W1 → P W2 →
      (BinaryExpression.ofWire (bitsAt n k) : BinaryExpression p).AllBool W1 →
      (BinaryExpression.ofWire (bitsAt n k) : BinaryExpression p).AllBool W2 →
      U c W1 → U c W2 → (BinaryExpression.ofWire (bitsAt n k) : BinaryExpression p).val W1 =
        (BinaryExpression.ofWire (bitsAt n k) : BinaryExpression p).val W2)
    (hf : Det (n + k) P (f (bitsAt n k)) R) : Det n P (B.binaryWire k >>= f) R := by
  refine Det.alloc (a0 := bitsAt n k) (k := k)
    (T := fun W => (BinaryExpression.ofWire (bitsAt n k) : BinaryExpression p).AllBool W)
    (fun b hb => ?_) E (fun c W1 W2 o1 o2 ha p1 p2 t1 t2 u1 u2 i h1 h2 => ?_) hf
  · obtain ⟨b', r, hn⟩ := booleanWires_run k n b hb
    have r' : (B.binaryWire k : B p BinaryWire) b = some (bitsAt n k, b') := by
      unfold B.binaryWire
      rw [B.bind_eq r]
      rfl
    refine ⟨b', r', hn, fun W hW => ?_⟩
    obtain ⟨g1, g2⟩ := Enforces.binaryWire k _ _ _ r' W hW
    exact ⟨g1, BinaryExpression.ofWire_allBool.2 g2.2⟩
  · have h := digitsVal_inj ?_ t1.digits_le t2.digits_le (hd c W1 W2 o1 o2 ha p1 p2 t1 t2 u1 u2)
    · rw [BinaryExpression.ofWire_digits, BinaryExpression.ofWire_digits] at h
      simp only [bitsAt, List.map_map] at h
      have := List.map_inj_left.1 h i (List.mem_range'_1.2 ⟨h1, h2⟩)
      exact Elem.ext_n this
    · rw [BinaryExpression.digits_length, BinaryExpression.digits_length]

/-! ## Splitting -/

/-- A split and what is done with the digits. -/
theorem splitThen {x : Expression p} (hx : x.Scoped n) {k : ℕ} {g : BinaryExpression p → B p β}
    {U : β → Assign p → Prop} {R : β → ℕ → Prop}
    (E : Enforces (g (BinaryExpression.ofWire (bitsAt n k))) U)
    (hu : ∀ c W, W ONE = 1 → P W → k ≤ Elem.maxBits p → U c W →
      (BinaryExpression.ofWire (bitsAt n k) : BinaryExpression p).AllBool W →
      (BinaryExpression.ofWire (bitsAt n k) : BinaryExpression p).val W < 2 ^ k →
      (BinaryExpression.ofWire (bitsAt n k) : BinaryExpression p).val W < (x.eval W).n + p)
    (hf : Det (n + k) P (g (BinaryExpression.ofWire (bitsAt n k))) R) :
    Det n P (B.splitWithoutRangeCheck x k >>= g) R := by
  unfold B.splitWithoutRangeCheck
  simp only [bind_assoc, pure_bind]
  set e : BinaryExpression p := BinaryExpression.ofWire (bitsAt n k) with he
  have hlen : e.len = k := by rw [he, BinaryExpression.ofWire_len]; simp [bitsAt]
  refine Det.binaryWire (U := fun c W => k ≤ Elem.maxBits p ∧
      x.eval W = ((e.val W : ℕ) : Elem p) ∧ U c W) ?_ ?_ ?_
  · refine (Enforces.ofOption (Q := fun s w => k ≤ Elem.maxBits p ∧ s.eval w
        = ((e.val w : ℕ) : Elem p)) ?_).bind fun s => (Enforces.assertEqual x s).bind fun _ =>
        (Enforces.generator _ _).bind fun _ => E.mono fun c W _ h _ h2 h3 =>
          ⟨h3.1, h2.trans h3.2, h⟩
    intro s hs w _
    have hl : e.len ≤ Elem.maxBits p := by
      by_contra hc
      rw [← he, BinaryExpression.joinAllowingOverflow_eq_none (not_le.1 hc)] at hs
      exact absurd hs (by simp)
    obtain ⟨y, hy, hyv⟩ := BinaryExpression.joinAllowingOverflow_eq hl
    rw [← he, hy] at hs
    rw [← Option.some.inj hs, hyv]
    exact ⟨hlen ▸ hl, rfl⟩
  · rintro c W1 W2 o1 o2 ha p1 p2 b1 b2 ⟨k1, e1, u1⟩ ⟨_, e2, u2⟩
    have key : ∀ W : Assign p, W ONE = 1 → P W → U c W → e.AllBool W →
        x.eval W = ((e.val W : ℕ) : Elem p) → e.val W = (x.eval W).n := by
      intro W o hP hU hb hv
      have hlt := hb.val_lt
      rw [hlen] at hlt
      have h := hu c W o hP k1 hU hb hlt
      have hm : (x.eval W).n = e.val W % p := by rw [hv, Elem.natCast_n]
      have hp' := hp.out.pos
      have hdm := Nat.div_add_mod (e.val W) p
      have h0 : e.val W / p = 0 := by
        by_contra hne
        have : p * 1 ≤ p * (e.val W / p) := Nat.mul_le_mul_left p (Nat.one_le_iff_ne_zero.2 hne)
        omega
      rw [h0] at hdm
      omega
    rw [← he, key W1 o1 p1 u1 b1 e1, key W2 o2 p2 u2 b2 e2, ha.eval hx]
  · exact (Det.ofOption (S := fun _ k' => k' = n + k) fun _ _ => rfl).bind fun s k1 _ h1 =>
      (assertEqual _ _).bind fun _ k2 _ h2 => (generator _ _).bind fun _ k3 _ h3 => by
        obtain rfl : k3 = n + k := by rw [h3, h2, h1]
        exact hf

theorem splitWithoutRangeCheck {x : Expression p} (hx : x.Scoped n) {k : ℕ}
    (hk : ∀ W, P W → k ≤ Elem.maxBits p → 2 ^ k ≤ (x.eval W).n + p) :
    Det n P (B.splitWithoutRangeCheck x k) fun e k => e.Scoped k := by
  rw [← bind_pure (B.splitWithoutRangeCheck x k)]
  exact splitThen hx (U := fun _ _ => True) (Enforces.pure fun _ _ => trivial)
    (fun _ W _ hP hkm _ _ hlt => lt_of_lt_of_le hlt (hk W hP hkm)) (Det.pure (bitsAt_scoped n k))

theorem splitBounded {x : Expression p} (hx : x.Scoped n) (k : ℕ) :
    Det n P (B.splitBounded x k) fun e k => e.Scoped k := by
  unfold B.splitBounded
  refine (Det.require _).bind fun _ k' hk' ⟨h, e⟩ => ?_
  subst e
  exact splitWithoutRangeCheck hx fun W _ _ => by
    have := Elem.two_pow_lt_of_lt_maxBits h
    omega

theorem splitAllowingAmbiguity {x : Expression p} (hx : x.Scoped n)
    (hP : ∀ W, P W → 2 ^ Elem.maxBits p ≤ (x.eval W).n + p) :
    Det n P (B.splitAllowingAmbiguity x) fun e k => e.Scoped k :=
  splitWithoutRangeCheck hx fun W h _ => hP W h

/-! ## Strict comparisons which are asserted -/

theorem mask_zero {l : List (Elem p × Elem p × Elem p)} (h : ∀ z ∈ l, z.1 = 0 ∨ z.2.1 = z.2.2) :
    maskDiff l = 0 := by
  induction l with
  | nil => rfl
  | cons z l ih =>
    obtain ⟨m, x, y⟩ := z
    have h0 := h (m, x, y) (by simp)
    rw [maskDiff, ih fun z hz => h z (by simp [hz])]
    rcases h0 with h0 | h0
    · simp only at h0; rw [h0]; ring
    · simp only at h0; rw [h0]; ring

theorem eqAbove_one {l : List (Elem p × Elem p × Elem p)} {s : Elem p} (hs : s ≠ 0)
    (hl : ∀ z ∈ l, z.1 = 0) (h : EqAbove s l) : ∀ z ∈ l, z.2.1 = z.2.2 := by
  induction l generalizing s with
  | nil => simp
  | cons z l ih =>
    obtain ⟨m, x, y⟩ := z
    obtain ⟨h1, h2⟩ := h
    have hm : m = 0 := hl (m, x, y) (by simp)
    rw [hm, add_zero] at h2
    intro z hz
    rcases List.mem_cons.1 hz with rfl | hz
    · exact sub_eq_zero.1 ((mul_eq_zero.1 h1).resolve_left hs)
    · exact ih hs (fun z hz => hl z (by simp [hz])) h2 z hz

/-- A mask selecting a difference is determined by the chunks. -/
theorem mask_unique : ∀ (l1 l2 : List (Elem p × Elem p × Elem p)), l1.map (·.2) = l2.map (·.2) →
    (∀ z ∈ l1, IsBool z.1) → (∀ z ∈ l2, IsBool z.1) →
    (l1.map fun z => z.1.n).sum ≤ 1 → (l2.map fun z => z.1.n).sum ≤ 1 →
    EqAbove 0 l1 → EqAbove 0 l2 → maskDiff l1 ≠ 0 → maskDiff l2 ≠ 0 →
    l1.map (·.1) = l2.map (·.1)
  | [], l2, h, _, _, _, _, _, _, _, _ => by
    obtain rfl : l2 = [] := by simpa using h.symm
    rfl
  | (m1, x, y) :: l1, [], h, _, _, _, _, _, _, _, _ => absurd h (by simp)
  | (m1, x, y) :: l1, (m2, x', y') :: l2, h, b1, b2, s1, s2, e1, e2, d1, d2 => by
    simp only [List.map_cons, List.cons.injEq, Prod.mk.injEq] at h
    obtain ⟨⟨rfl, rfl⟩, h⟩ := h
    obtain ⟨_, e1⟩ := e1
    obtain ⟨_, e2⟩ := e2
    rw [zero_add] at e1 e2
    simp only [List.map_cons, List.sum_cons] at s1 s2
    have zeros : ∀ {l : List (Elem p × Elem p × Elem p)}, (l.map fun z => z.1.n).sum = 0 →
        ∀ z ∈ l, z.1 = 0 := by
      intro l hl z hz
      have := List.le_sum_of_mem (List.mem_map.2 ⟨z, hz, rfl⟩ : z.1.n ∈ l.map fun z => z.1.n)
      exact Elem.ext_n (by rw [Elem.zero_n]; omega)
    have one : ((1 : Elem p)).n = 1 := Elem.one_n
    have key : ∀ {l l' : List (Elem p × Elem p × Elem p)}, l.map (·.2) = l'.map (·.2) →
        (l.map fun z => z.1.n).sum = 0 → EqAbove 1 l → maskDiff l' = 0 := by
      intro l l' hl hs he
      refine mask_zero fun z hz => Or.inr ?_
      have hz2 : z.2 ∈ l.map (·.2) := by rw [hl]; exact List.mem_map.2 ⟨z, hz, rfl⟩
      obtain ⟨z', hz', e⟩ := List.mem_map.1 hz2
      have := eqAbove_one one_ne_zero (zeros hs) he z' hz'
      rw [e] at this
      exact this
    rcases b1 (m1, x, y) (by simp) with h1 | h1 <;> rcases b2 (m2, x, y) (by simp) with h2 | h2 <;>
      simp only at h1 h2 <;> subst h1 <;> subst h2
    · rw [maskDiff, zero_mul, zero_add] at d1 d2
      simp only [List.map_cons, List.cons.injEq, true_and]
      rw [Elem.zero_n, Nat.zero_add] at s1 s2
      exact mask_unique l1 l2 h (fun z hz => b1 z (by simp [hz])) (fun z hz => b2 z (by simp [hz]))
        s1 s2 e1 e2 d1 d2
    · rw [one] at s2
      refine absurd ?_ d1
      rw [maskDiff, zero_mul, zero_add]
      exact key h.symm (by omega) e2
    · rw [one] at s1
      refine absurd ?_ d2
      rw [maskDiff, zero_mul, zero_add]
      exact key h (by omega) e1
    · rw [one] at s1 s2
      simp only [List.map_cons, List.cons.injEq, true_and]
      have z1 := zeros (l := l1) (by omega)
      have z2 := zeros (l := l2) (by omega)
      have hl : l1.length = l2.length := by simpa using congrArg List.length h
      rw [List.map_congr_left (g := fun _ => (0 : Elem p)) z1,
        List.map_congr_left (g := fun _ => (0 : Elem p)) z2, List.map_const', List.map_const', hl]

theorem maskCount {W : Assign p} {ms : List Wire} (hn : ms.Nodup) (hl : ms.length < p)
    (hb : ∀ m ∈ ms, IsBool (W m)) (hs : IsBool ((Expression.sumOfWires ms : Expression p).eval W)) :
    (ms.map fun m => (W m).n).sum ≤ 1 := by
  rw [Expression.eval_sumOfWires W ms hn] at hs
  have hle : ∀ l : List Wire, (∀ m ∈ l, IsBool (W m)) →
      (l.map fun m => (W m).n).sum ≤ l.length ∧
      (l.map W).sum = (((l.map fun m => (W m).n).sum : ℕ) : Elem p) := by
    intro l hl
    induction l with
    | nil => simp
    | cons m l ih =>
      obtain ⟨i1, i2⟩ := ih fun i hi => hl i (by simp [hi])
      have := (hl m (by simp)).n_le
      simp only [List.map_cons, List.sum_cons, List.length_cons]
      refine ⟨by omega, ?_⟩
      rw [i2]; push_cast; rw [Elem.natCast_self_n]
  obtain ⟨i1, i2⟩ := hle ms hb
  rw [i2] at hs
  have := hs.n_le
  rwa [Elem.natCast_n_of_lt (by omega)] at this

theorem assertBooleans : ∀ ms : List Wire, Det n P (B.assertBooleans ms) fun _ k => k = n
  | [] => Det.pure rfl
  | m :: ms => by
    unfold B.assertBooleans
    exact (assertBoolean _).bind fun _ k _ h => by
      rw [h.1]
      exact assertBooleans ms

theorem maskedSum : ∀ (l : List (Wire × Expression p × Expression p)) (sum : Expression p) (n : ℕ),
    Comp.ScopedZ n l → sum.Scoped n → Det n P (B.maskedSum l sum) fun z k => z.Scoped k
  | [], sum, n, _, h => Det.pure h
  | (m, x, y) :: l, sum, n, hl, hs => by
    unfold B.maskedSum
    obtain ⟨h1, h2, h3⟩ := hl (m, x, y) (by simp)
    exact (product (.ofWire h1) (h2.sub h3)).bind fun t k hk ht =>
      maskedSum l _ k (fun z hz => (Comp.ScopedZ.mono hl hk) z (by simp [hz])) ((hs.mono hk).add ht)

theorem assertMoreSignificantEqual : ∀ (l : List (Wire × Expression p × Expression p))
    (seen : Expression p), Det n P (B.assertMoreSignificantEqual l seen) fun _ k => k = n
  | [], _ => Det.pure rfl
  | (m, x, y) :: l, seen => by
    unfold B.assertMoreSignificantEqual
    exact (assertProduct _ _ _).bind fun _ k _ h => by
      rw [h]
      exact assertMoreSignificantEqual l _

theorem cmpSubtractive (hn : 1 ≤ n) {d : Expression p} (hd : d.Scoped n) (less strict : Bool)
    (c : ℕ) : Det n P (B.cmpSubtractive d less strict c) fun r k => r.Scoped k := by
  unfold B.cmpSubtractive
  refine (Det.ofOption (S := fun _ k => k = n) fun _ _ => rfl).bind fun pow k _ h => ?_
  obtain rfl := h
  refine (splitBounded ?_ _).bind fun s k' _ hs => Det.ofOption fun r hr =>
    hs r (List.mem_of_getElem? hr)
  refine (Expression.Scoped.ofElem hn _).add ?_
  cases less
  · exact hd
  · exact hd.neg

theorem cmpTail (hn : 1 ≤ n) {l : List (Wire × Expression p × Expression p)}
    {de : BooleanExpression p} (hl : Comp.ScopedZ n l) (hde : de.Scoped n) (less strict : Bool)
    (c : ℕ) : Det n P (B.cmpTail l de less strict c) fun r k => r.Scoped k := by
  unfold B.cmpTail
  refine (maskedSum l 0 n hl .zero).bind fun dc k hk hdc => ?_
  match l with
  | [] => exact Det.panic
  | (m, x, y) :: l =>
    refine (assertMoreSignificantEqual l _).bind fun _ k' _ e => ?_
    obtain rfl := e
    refine Det.bind (S := fun _ _ => True) ?_ fun _ k2 hk2 _ =>
      cmpSubtractive (hn.trans (hk.trans hk2)) (hdc.mono hk2) less strict c
    cases strict
    · exact (selection (Expression.Scoped.mono hde hk) hdc (.one (hn.trans hk))).bind
        fun _ _ _ h => assertNonzero h
    · exact Det.pure trivial

/-- A strict comparison of digits which is asserted to hold. -/
theorem assertCmpBinary (hn : 1 ≤ n) {x y : BinaryExpression p} (hx : x.Scoped n) (hy : y.Scoped n)
    (less : Bool) :
    Det n P (B.cmpBinary x y less true >>= B.assertTrue) fun _ _ => True := by
  unfold B.cmpBinary
  simp only [bind_assoc]
  set c := cmpChunkBits (Elem.maxBits p) x.len with hcdef
  have hc : 0 < c := cmpChunkBits_pos _ _
  refine (Det.require _).bind fun _ k _ ⟨hlen, e⟩ => ?_
  obtain rfl := e
  refine (Det.ofOption (S := fun a k' => k' = k ∧ x.chunks c = some a) fun a h => ⟨rfl, h⟩).bind
    fun xc k' _ ⟨e, hxc⟩ => ?_
  obtain rfl := e
  refine (Det.ofOption (S := fun a k => k = k' ∧ xc.mapM BinaryExpression.join = some a)
    fun a h => ⟨rfl, h⟩).bind fun xs k _ ⟨e, hxs⟩ => ?_
  obtain rfl := e
  refine (Det.ofOption (S := fun a k' => k' = k ∧ y.chunks c = some a) fun a h => ⟨rfl, h⟩).bind
    fun yc k' _ ⟨e, hyc⟩ => ?_
  obtain rfl := e
  refine (Det.ofOption (S := fun a k => k = k' ∧ yc.mapM BinaryExpression.join = some a)
    fun a h => ⟨rfl, h⟩).bind fun ys k _ ⟨e, hys⟩ => ?_
  obtain rfl := e
  rw [chunks_eq hc] at hxc hyc
  obtain rfl := Option.some.inj hxc
  obtain rfl := Option.some.inj hyc
  have scx := (mapM_join hxs).2 k (chunk_scoped hx hc)
  have scy := (mapM_join hys).2 k (chunk_scoped hy hc)
  have lx : xs.length = (x.len + c - 1) / c := by
    have h := congrArg List.length ((mapM_join hxs).1 fun _ => 0)
    simp only [List.length_map] at h
    rw [h, chunksOf_length hc]
    rfl
  have ly : ys.length = xs.length := by
    have h := congrArg List.length ((mapM_join hys).1 fun _ => 0)
    have h' := congrArg List.length ((mapM_join hxs).1 fun _ => 0)
    simp only [List.length_map] at h h'
    have h3 := congrArg List.length (chunksOf_map_length (k := c) x.bits y.bits hlen)
    simp only [List.length_map] at h3
    rw [h, h', h3]
  set ms := List.range' k xs.length with hms
  have hmem : ∀ i ∈ ms, i < k + xs.length := fun i hi => (List.mem_range'_1.1 hi).2
  refine Det.wires (U := fun _ W => (∀ m ∈ ms, IsBool (W m)) ∧
    IsBool ((Expression.sumOfWires ms : Expression p).eval W) ∧ c + 1 < Elem.maxBits p ∧
    EqAbove 0 (evalZ W (ms.zip (xs.zip ys))) ∧ maskDiff (evalZ W (ms.zip (xs.zip ys))) ≠ 0) ?_ ?_ ?_
  · refine (Enforces.assertBooleans ms).bind fun _ => (Enforces.assertBoolean _).bind fun de =>
      (Enforces.generator _ _).bind fun _ => (Enforces.cmpTail _ de less true c).bind fun r =>
      (Enforces.assertTrue r).mono fun _ W _ hr ⟨g1, g2, g3, g4, g5⟩ _ ⟨_, hsum⟩ hmb =>
        ⟨hmb, hsum, g2, g4, fun h0 => ?_⟩
    have := g5 0 (by simp) (by rw [h0]; simp)
    rw [hr, cmpHolds_zero] at this
    simp [Elem.ofBool_false] at this
  · rintro _ W1 W2 o1 o2 ha - - ⟨a1, a2, a3, a4, a5⟩ ⟨b1, b2, -, b4, b5⟩
    have hl : ms.length < p := by
      rw [hms, List.length_range', lx]
      have h3 := chunks_lt (L := x.len) a3
      have h4 := Elem.two_pow_lt_of_lt_maxBits (p := p) (k := Elem.maxBits p - 1)
        (by have := BinaryExpression.maxBits_pos (p := p); omega)
      rw [← hcdef] at h3
      omega
    have c1 := maskCount List.nodup_range' hl a1 a2
    have c2 := maskCount List.nodup_range' hl b1 b2
    have hz : ∀ W : Assign p, evalZ W (ms.zip (xs.zip ys))
        = (ms.map W).zip ((xs.map (Expression.eval W)).zip (ys.map (Expression.eval W))) := by
      intro W
      unfold evalZ
      rw [List.zip_map, List.zip_map]
    have hfst : ∀ W : Assign p, (evalZ W (ms.zip (xs.zip ys))).map (·.1) = ms.map W := by
      intro W
      rw [hz]
      exact List.map_fst_zip (by simp [hms, ly])
    have hsnd : ∀ W : Assign p, (evalZ W (ms.zip (xs.zip ys))).map (·.2)
        = (xs.map (Expression.eval W)).zip (ys.map (Expression.eval W)) := by
      intro W
      rw [hz]
      exact List.map_snd_zip (by simp [hms, ly])
    have hbool : ∀ W : Assign p, (∀ m ∈ ms, IsBool (W m)) →
        ∀ z ∈ evalZ W (ms.zip (xs.zip ys)), IsBool z.1 := by
      intro W h z hz'
      have : z.1 ∈ ms.map W := by rw [← hfst]; exact List.mem_map.2 ⟨z, hz', rfl⟩
      obtain ⟨m, hm, e⟩ := List.mem_map.1 this
      rw [← e]
      exact h m hm
    have hsum : ∀ W : Assign p, (ms.map fun m => (W m).n).sum ≤ 1 →
        ((evalZ W (ms.zip (xs.zip ys))).map fun z => z.1.n).sum ≤ 1 := by
      intro W h
      have e : ((evalZ W (ms.zip (xs.zip ys))).map fun z => z.1.n) = (ms.map fun m => (W m).n) := by
        have := congrArg (List.map fun v : Elem p => v.n) (hfst W)
        rw [List.map_map, List.map_map] at this
        exact this
      rw [e]
      exact h
    have := mask_unique _ _ ?_ (hbool W1 a1) (hbool W2 b1) (hsum W1 c1) (hsum W2 c2) a4 b4 a5 b5
    · rwa [hfst, hfst] at this
    · rw [hsnd, hsnd]
      congr 1
      · exact List.map_congr_left fun e he => ha.eval (scx e he)
      · exact List.map_congr_left fun e he => ha.eval (scy e he)
  · refine (assertBooleans ms).bind fun _ k1 _ e1 => (assertBoolean _).bind fun de k2 _ ⟨e2, e3⟩ =>
      (generator _ _).bind fun _ k3 _ e4 => ?_
    obtain rfl : k3 = k + xs.length := by rw [e4, e2, e1]
    refine (cmpTail (by omega) (zip_scoped hmem scx scy (by omega)) ?_ less true c).bind
      fun r _ _ _ => (assertTrue r).post fun _ _ _ _ => trivial
    subst e3
    exact Expression.Scoped.sumOfWires hmem

theorem assertLtBinary (hn : 1 ≤ n) {x y : BinaryExpression p} (hx : x.Scoped n)
    (hy : y.Scoped n) : Det n P (B.assertLtBinary x y) fun _ _ => True :=
  assertCmpBinary hn hx hy true

theorem assertGtBinary (hn : 1 ≤ n) {x y : BinaryExpression p} (hx : x.Scoped n)
    (hy : y.Scoped n) : Det n P (B.assertGtBinary x y) fun _ _ => True :=
  assertCmpBinary hn hx hy false

theorem split (hn : 1 ≤ n) {x : Expression p} (hx : x.Scoped n) :
    Det n P (B.split x) fun e k => e.Scoped k := by
  unfold B.split
  refine splitThen hx (U := fun _ W => (BinaryExpression.ofWire (bitsAt n (Elem.maxBits p)) :
    BinaryExpression p).AllBool W → (BinaryExpression.ofWire (bitsAt n (Elem.maxBits p)) :
    BinaryExpression p).val W < p) ?_ ?_ ?_
  · refine (Enforces.assertLtBinary _ _).bind fun _ => Enforces.pure fun W o h hb => ?_
    have h6 := h hb (BinaryExpression.ofNat_allBool o p)
    rwa [BinaryExpression.ofNat_val o] at h6
  · intro _ W o _ _ h hb _
    have := h hb
    omega
  · exact (assertLtBinary (by omega) (bitsAt_scoped _ _)
      (BinaryExpression.ofNat_scoped (by omega) p)).bind fun _ k hk _ =>
        Det.pure fun b hb => Expression.Scoped.mono (bitsAt_scoped _ _ b hb) hk

theorem _root_.R1CS.BinaryExpression.Scoped.up {n m : ℕ} {e : BinaryExpression p}
    (h : e.Scoped n) (hnm : n ≤ m) : e.Scoped m := fun b hb => Expression.Scoped.mono (h b hb) hnm

theorem assertLt (hn : 1 ≤ n) {x y : Expression p} (hx : x.Scoped n) (hy : y.Scoped n) :
    Det n P (B.assertLt x y) fun _ _ => True := by
  unfold B.assertLt B.lt B.cmp
  rw [if_pos rfl]
  unfold B.splitAllowingAmbiguity
  simp only [bind_assoc]
  set e0 : BinaryExpression p := BinaryExpression.ofWire (bitsAt n (Elem.maxBits p)) with he0
  refine splitThen hx (U := fun _ W => e0.AllBool W → e0.val W < p) ?_ ?_ ?_
  · rw [← he0]
    refine (Enforces.split y).bind fun Y => (Enforces.cmpBinary_certifies e0 Y true true).bind
      fun r => (Enforces.assertTrue r).mono fun _ W _ h ⟨_, _, h3⟩ ⟨y1, y2, y3⟩ hb => ?_
    have := (h3 hb y1).1 rfl h
    rw [if_pos rfl, y3] at this
    exact this.trans (Elem.lt _)
  · intro _ W o _ _ h hb _
    have := h hb
    rw [← he0]
    omega
  · exact (split (by omega) (hy.mono (by omega))).bind fun Y k hk hY =>
      assertLtBinary (by omega) ((bitsAt_scoped n _).up hk) hY

theorem assertGt (hn : 1 ≤ n) {x y : Expression p} (hx : x.Scoped n) (hy : y.Scoped n) :
    Det n P (B.assertGt x y) fun _ _ => True := by
  unfold B.assertGt B.gt B.cmp
  rw [if_neg (by simp)]
  unfold B.splitAllowingAmbiguity
  simp only [bind_assoc]
  refine (split hn hx).bindE (Enforces.split x) fun X k hk hX => ?_
  set e0 : BinaryExpression p := BinaryExpression.ofWire (bitsAt k (Elem.maxBits p)) with he0
  refine splitThen (hy.mono hk) (U := fun _ W => X.AllBool W → e0.AllBool W → e0.val W < X.val W)
    ?_ ?_ ?_
  · rw [← he0]
    refine (Enforces.cmpBinary_certifies X e0 false true).bind
      fun r => (Enforces.assertTrue r).mono fun _ W _ h ⟨_, _, h3⟩ hX hb => ?_
    have := (h3 hX hb).1 rfl h
    rwa [if_neg (by simp)] at this
  · intro _ W o hT _ h hb _
    have := h hT.2.1 hb
    rw [hT.2.2.2] at this
    have := (x.eval W).lt
    rw [← he0]
    omega
  · exact assertGtBinary (by omega) (hX.up (by omega)) (bitsAt_scoped k _)

end Det

end R1CS
