import Verif.Lemmas.NetworkCost
import Verif.Lemmas.Matrices
import Verif.Props.Expression
import Verif.Model.Hashes
import Verif.Model.Matrices

/-!
# Counting constraints: ciphers, hash functions and permutations
-/

set_option linter.unusedSectionVars false

namespace R1CS

variable {p : ℕ} [hp : Fact p.Prime] {α β : Type}

open Expression

namespace Expression

/-- Canonical, and not a constant other than zero (which `product` does not recognise as one). -/
def Live (e : Expression p) : Prop :=
  e.Canonical ∧ ∀ c ≠ 0, ¬ ∀ w : Assign p, w ONE = 1 → e.eval w = c

theorem Live.asConstant {e : Expression p} (h : e.Live) : e.asConstant = none := by
  cases hc : e.asConstant with
  | none => rfl
  | some c =>
    have h1 := Expression.asConstant_eq_some hc
    exact absurd (fun w hw => eval_of_asConstant hw hc)
      (h.2 c (h.1.2 (ONE, c) (by rw [h1]; simp)))

theorem Varies.live {e : Expression p} (hc : e.Canonical) (h : e.Varies) : e.Live := by
  refine ⟨hc, fun c _ hw => ?_⟩
  obtain ⟨w, w', h1, h2, h3⟩ := h
  exact h3 ((hw w h1).trans (hw w' h2).symm)

theorem live_ofWire {i : Wire} (hi : i ≠ ONE) : (ofWire i : Expression p).Live :=
  Varies.live (C10_canonical _ (.ofWire i)) (varies_ofWire hi)

theorem Marks.add {i : Wire} {x y : Expression p} (h : Marks i x) (hy : i ∉ y.dependencies) :
    Marks i (x + y) := by
  refine ⟨h.1, ?_⟩
  rw [eval_add, eval_add, eval_unit_of_not_mem hy]
  exact fun h' => h.2 (add_left_injective _ h')

theorem marks_ofWire {i : Wire} (hi : i ≠ ONE) : Marks i (ofWire i : Expression p) := by
  refine ⟨hi, ?_⟩
  rw [eval_ofWire, eval_ofWire]
  simp [unit, hi]

theorem Varies.add_const {e f : Expression p} (h : f.Varies) {c : Elem p}
    (he : ∀ w : Assign p, w ONE = 1 → e.eval w = c) : (e + f).Varies := by
  obtain ⟨w, w', h1, h2, h3⟩ := h
  refine ⟨w, w', h1, h2, fun h' => h3 ?_⟩
  rw [eval_add, eval_add, he w h1, he w' h2] at h'
  exact add_right_injective _ h'

theorem Live.of_mul {e f : Expression p} {r : Elem p} (he : e.Live) (hf : f.Canonical)
    (h : ∀ w, f.eval w = e.eval w * r) : f.Live := by
  refine ⟨hf, fun c hc hw => ?_⟩
  have hr : r ≠ 0 := by
    rintro rfl
    have := hw (fun _ => 1) rfl
    rw [h, mul_zero] at this
    exact hc this.symm
  refine he.2 (c * r⁻¹) (mul_ne_zero hc (inv_ne_zero hr)) fun w h1 => ?_
  rw [← hw w h1, h, mul_assoc, mul_inv_cancel₀ hr, mul_one]

theorem Live.mulElem {e : Expression p} (h : e.Live) (r : Elem p) : (e.mulElem r).Live :=
  h.of_mul (canonical_mulElem r h.1) fun w => eval_mulElem w e r

end Expression

namespace Cost

theorem live_product {x y : Expression p} (hx : x.Live) (hy : y.Live) {b : Builder p}
    (hb : 1 ≤ b.nextWireIndex) : Cost (B.product x y) b 1 fun z n =>
      z.Live ∧ ∃ j, z = ofWire j ∧ b.nextWireIndex ≤ j ∧ j < n :=
  (product hx.asConstant hy.asConstant).mono fun z n _ h => by
    rw [h.1]
    exact ⟨live_ofWire (by show b.nextWireIndex ≠ 0; omega), _, rfl, le_refl _, by omega⟩

theorem live_product_one {x : Expression p} (hx : x.Live) {b : Builder p} :
    Cost (B.product 1 x) b 0 fun z _ => z.Live := by
  unfold B.product
  rw [asConstant_one]
  exact pure (hx.mulElem 1)

theorem live_expLoop {x : Expression p} (hx : x.Live) (k : Elem p) : ∀ (r i : ℕ)
    (prod last : Expression p) (started : Bool) {b : Builder p}, 1 ≤ b.nextWireIndex →
    (if started then prod.Live else prod = 1) → (i ≠ 0 → last.Live) →
    Cost (B.expLoop x k i r prod last) b (expCost k.n i r started) fun z n =>
      (started = true ∨ (∃ j, i ≤ j ∧ j < i + r ∧ k.n.testBit j) → z.Live) ∧
      (started = true ∨ (∃ j, i ≤ j ∧ j + 1 < i + r ∧ k.n.testBit j) → 0 < r →
        k.n.testBit (i + r - 1) → ∃ j, z = ofWire j ∧ b.nextWireIndex ≤ j ∧ j < n) ∧ (r = 0 → z = prod)
  | 0, i, prod, last, started, b, _, hp', _ => by
    refine pure ⟨?_, fun _ h => absurd h (by omega), fun _ => rfl⟩
    rintro (h | ⟨j, h1, h2, -⟩)
    · rwa [if_pos h] at hp'
    · omega
  | r + 1, i, prod, last, started, b, hb, hp', hl => by
    unfold B.expLoop expCost
    have hbit : k.bit i = k.n.testBit i := by
      rw [Elem.bit, Nat.testBit, Nat.and_comm 1, Nat.and_one_is_mod]
      rcases Nat.mod_two_eq_zero_or_one (k.n >>> i) with h | h <;> simp [h]
    refine (Cost.bind (Q := fun s n => s.Live) (k := if i = 0 then 0 else 1) ?_
      fun s b1 hb1 hs => Cost.bind (k := if k.n.testBit i ∧ started then 1 else 0)
      (Q := fun q n => (if (started || k.n.testBit i) = true then q.Live else q = 1) ∧
        (started = true → k.n.testBit i → ∃ j, q = ofWire j ∧ b.nextWireIndex ≤ j ∧ j < n)) ?_
      fun q b2 hb2 hq =>
      (live_expLoop hx k r (i + 1) q s (started || k.n.testBit i) (by omega) hq.1 fun _ => hs).mono
      (R := fun z n => (started = true ∨ (∃ j, i ≤ j ∧ j < i + (r + 1) ∧ k.n.testBit j) → z.Live) ∧
        (started = true ∨ (∃ j, i ≤ j ∧ j + 1 < i + (r + 1) ∧ k.n.testBit j) → 0 < r + 1 →
        k.n.testBit (i + (r + 1) - 1) → ∃ j, z = ofWire j ∧ b.nextWireIndex ≤ j ∧ j < n) ∧ (r + 1 = 0 → z = prod))
      fun z n hn hz => ⟨fun h => hz.1 ?_, fun hst _ htop => ?_, fun h => absurd h (by omega)⟩).congr
      (by ring)
    · split
      · exact pure hx
      · next hi => exact (live_product (hl hi) (hl hi) hb).mono fun z n hn h => h.1
    · rw [hbit]
      cases hk : k.n.testBit i with
      | false =>
        refine Cost.congr (k := 0) (pure ⟨?_, fun _ h => absurd h (by simp)⟩) (by simp)
        simpa using hp'
      | true =>
        cases started with
        | true =>
          simp only [if_true, Bool.or_true, and_self]
          exact (live_product hp' hs (by omega)).mono fun z n hn h =>
            ⟨h.1, fun _ _ => by
              obtain ⟨j, h1, h2, h3⟩ := h.2
              exact ⟨j, h1, by omega, h3⟩⟩
        | false =>
          simp only [if_true, Bool.or_true, Bool.false_eq_true, and_false, if_false]
          rw [if_neg (by simp)] at hp'
          subst hp'
          exact (live_product_one hs).mono fun z n _ h => ⟨h, fun h => absurd h (by simp)⟩
    · rcases h with h | ⟨j, h1, h2, h3⟩
      · left; simp [h]
      · rcases Nat.eq_or_lt_of_le h1 with rfl | h1
        · left; simp [h3]
        · exact Or.inr ⟨j, h1, by omega, h3⟩
    · rcases Nat.eq_zero_or_pos r with rfl | hr
      · have hst : started = true := by
          rcases hst with h | ⟨j, h1, h2, -⟩
          · exact h
          · omega
        obtain ⟨j, h1, h2, h3⟩ := hq.2 hst (by simpa using htop)
        exact ⟨j, (hz.2.2 rfl).trans h1, h2, by omega⟩
      · have hst' : (started || k.n.testBit i) = true ∨
            ∃ j, i + 1 ≤ j ∧ j + 1 < i + 1 + r ∧ k.n.testBit j := by
          rcases hst with h | ⟨j, h1, h2, h3⟩
          · left; simp [h]
          · rcases Nat.eq_or_lt_of_le h1 with rfl | h1
            · left; simp [h3]
            · exact Or.inr ⟨j, h1, by omega, h3⟩
        obtain ⟨j, h1, h2, h3⟩ := hz.2.1 hst' hr
          (by rwa [show i + 1 + r - 1 = i + (r + 1) - 1 by omega])
        exact ⟨j, h1, by omega, h3⟩

/-- The number of constraints of a power. -/
def powCost (k : ℕ) : ℕ := (k.size - 1) + ((List.range k.size).countP (fun j => k.testBit j) - 1)

theorem live_exponentiation {x : Expression p} (hx : x.Live) {k : Elem p} (hk : k.n % 2 = 1)
    (h3 : 3 ≤ k.n) {b : Builder p} (hb : 1 ≤ b.nextWireIndex) :
    Cost (B.exponentiation x k) b (powCost k.n) fun z n =>
      z.Live ∧ ∃ j, z = ofWire j ∧ b.nextWireIndex ≤ j ∧ j < n := by
  have h0 : k.n.testBit 0 = true := by rw [Nat.testBit_zero]; simp [hk]
  have hs : 1 < k.n.size := Nat.lt_size.2 (by omega)
  have htop : k.n.testBit (k.n.size - 1) = true := by
    have h1 : 2 ^ (k.n.size - 1) ≤ k.n := Nat.lt_size.1 (by omega)
    have h2 : k.n < 2 ^ (k.n.size - 1 + 1) := by
      rw [show k.n.size - 1 + 1 = k.n.size by omega]; exact Nat.lt_size_self _
    have h3 : k.n / 2 ^ (k.n.size - 1) = 1 := by
      rw [Nat.div_eq_iff (by positivity)]
      rw [pow_succ] at h2
      omega
    rw [Nat.testBit_eq_decide_div_mod_eq, h3]
    rfl
  unfold B.exponentiation
  refine ((live_expLoop hx k k.bits 0 1 0 false hb (by simp) (by simp)).congr
    (expCost_total k.n)).mono fun z n _ h => ⟨h.1 (Or.inr ⟨0, le_refl _, ?_, h0⟩),
      h.2.1 (Or.inr ⟨0, le_refl _, ?_, h0⟩) ?_ ?_⟩
  · show 0 < 0 + k.n.size; omega
  · show 0 + 1 < 0 + k.n.size; omega
  · show 0 < k.n.size; omega
  · show k.n.testBit (0 + k.n.size - 1) = true
    rwa [Nat.zero_add]

/-! ## MiMC -/

theorem monomial_new {n : Elem p} {f : MonomialPermutation p} (h : MonomialPermutation.new n = some f) :
    f.n = n := by
  unfold MonomialPermutation.new at h
  split at h
  · rw [← Option.some.inj h]
  · exact absurd h (by simp)

theorem mimc_round {c : MiMC p} (hc : c.roundPermutation.n.n = 3) {x : Expression p} (hx : x.Live)
    {b : Builder p} (hb : 1 ≤ b.nextWireIndex) : Cost (c.roundPermutation.permute x) b 2 fun z n =>
      ∃ j, z = ofWire j ∧ b.nextWireIndex ≤ j ∧ j < n :=
  ((live_exponentiation hx (by rw [hc]) (by rw [hc]) hb).congr (by rw [hc]; decide)).mono
    fun _ _ _ h => h.2

theorem mimc_encryptRounds {c : MiMC p} (hc : c.roundPermutation.n.n = 3) {key : Expression p} {m : ℕ}
    (hm : 1 ≤ m) (hk : key.Scoped m) : ∀ (rcs : List (Elem p)) {j : ℕ} {b : Builder p}, m ≤ j →
      j < b.nextWireIndex →
      Cost (c.encryptRounds key rcs (ofWire j)) b (2 * rcs.length) fun z n =>
        ∃ i, z = ofWire i ∧ m ≤ i ∧ i < n
  | [], j, b, h1, h3 => (pure ⟨j, rfl, h1, h3⟩ : Cost _ b 0 _)
  | rc :: rcs, j, b, h1, h3 => by
    unfold MiMC.encryptRounds
    have hv : (ofWire j + (key + ofElem rc) : Expression p).Live :=
      Varies.live (canonical_add (C10_canonical _ (.ofWire j)))
        ((marks_ofWire (show j ≠ 0 by omega)).add ((hk.add (.ofElem hm rc)).not_mem h1)).varies
    refine ((mimc_round hc hv (by omega)).bind fun z b1 hb1 ⟨i, hi, hi1, hi2⟩ => ?_).congr
      (l := 2 * (rcs.length + 1)) (show 2 + 2 * rcs.length = _ by ring)
    subst hi
    exact mimc_encryptRounds hc hm hk rcs (by omega) hi2

/-- The result mentions a new wire. -/
def New (m : ℕ) (z : Expression p) (n : ℕ) : Prop :=
  z.Canonical ∧ z.Scoped n ∧ ∃ i, m ≤ i ∧ Marks i z

theorem mimc_encrypt {c : MiMC p} (hc : c.roundPermutation.n.n = 3) {key x : Expression p}
    {b : Builder p} (hb : 1 ≤ b.nextWireIndex) (hk : key.Scoped b.nextWireIndex)
    (hx : (x + key).Live) : Cost (c.encrypt key x) b (2 * (c.roundConstants.length + 1))
      fun z n => New b.nextWireIndex z n := by
  unfold MiMC.encrypt
  refine ((mimc_round hc hx hb).bind fun z b1 hb1 ⟨i, hi, hi1, hi2⟩ => ?_).congr
    (l := 2 * (c.roundConstants.length + 1)) (show 2 + (2 * c.roundConstants.length + 0) = _ by ring)
  subst hi
  refine (mimc_encryptRounds hc hb hk c.roundConstants hi1 hi2).bind fun z b2 hb2 ⟨j, hj, hj1, hj2⟩ => ?_
  subst hj
  exact pure ⟨canonical_add (C10_canonical _ (.ofWire j)),
    (Scoped.ofWire hj2).add (hk.mono (by omega)), j, hj1,
    (marks_ofWire (show j ≠ 0 by omega)).add (hk.not_mem hj1)⟩

theorem daviesMeyer {c : MiMC p} (hc : c.roundPermutation.n.n = 3) {x y : Expression p}
    {b : Builder p} (hb : 1 ≤ b.nextWireIndex) (hx : x.Scoped b.nextWireIndex)
    (hy : y.Scoped b.nextWireIndex) (hv : (x + y).Live) :
    Cost ((R1CS.daviesMeyer c.toBlockCipher).compress x y) b (2 * (c.roundConstants.length + 1))
      fun z n => New b.nextWireIndex z n :=
  (mimc_encrypt hc hb hy hv).bind (l := 0) fun z b1 hb1 ⟨h1, h2, i, h3, h4⟩ =>
    pure ⟨canonical_add h1, h2.add (hx.mono hb1), i, h3, h4.add (hx.not_mem h3)⟩

theorem absorb {h : MerkleDamgard p} {c : MiMC p} (hh : h.compress = R1CS.daviesMeyer c.toBlockCipher)
    (hc : c.roundPermutation.n.n = 3) {m : ℕ} (hm : 1 ≤ m) :
    ∀ (blocks : List (Expression p)) {cur : Expression p} {b : Builder p}, m ≤ b.nextWireIndex →
      (∀ e ∈ blocks, e.Scoped m) → New m cur b.nextWireIndex →
      Cost (h.absorb blocks cur) b (2 * (c.roundConstants.length + 1) * blocks.length)
        fun z n => New m z n
  | [], cur, b, _, _, hn => (pure hn : Cost _ b 0 _)
  | e :: blocks, cur, b, hb, hs, ⟨h1, h2, i, h3, h4⟩ => by
    unfold MerkleDamgard.absorb
    rw [hh]
    have he := hs e List.mem_cons_self
    refine ((daviesMeyer hc (by omega) h2 (he.mono hb) (Varies.live (canonical_add h1)
      (h4.add (he.not_mem h3)).varies)).bind fun z b1 hb1 ⟨g1, g2, j, g3, g4⟩ =>
      absorb hh hc hm blocks (by omega) (fun e he => hs e (List.mem_cons_of_mem _ he))
        ⟨g1, g2, j, by omega, g4⟩).congr ?_
    rw [List.length_cons]
    ring

theorem hash {h : MerkleDamgard p} {c : MiMC p} (hh : h.compress = R1CS.daviesMeyer c.toBlockCipher)
    (hc : c.roundPermutation.n.n = 3) {e : Expression p} {blocks : List (Expression p)} {b : Builder p}
    (hb : 1 ≤ b.nextWireIndex) (hs : ∀ e' ∈ e :: blocks, e'.Scoped b.nextWireIndex) (hv : e.Varies) :
    Cost (h.hash (e :: blocks)) b (2 * (c.roundConstants.length + 1) * (blocks.length + 2))
      fun _ _ => True := by
  unfold MerkleDamgard.hash MerkleDamgard.absorb
  have he := hs e List.mem_cons_self
  have hi : (ofElem h.initialValue : Expression p).Scoped b.nextWireIndex := .ofElem hb _
  refine Cost.congr (k := (2 * (c.roundConstants.length + 1) +
      2 * (c.roundConstants.length + 1) * blocks.length) + (0 + 2 * (c.roundConstants.length + 1))) ?_
    (by ring)
  refine Cost.bind (Q := fun z n => New b.nextWireIndex z n) ?_ fun z b1 hb1 ⟨g1, g2, j, g3, g4⟩ => ?_
  · rw [hh]
    exact (daviesMeyer hc hb hi he (Varies.live (canonical_add (C10_canonical _ (.ofElem _)))
      (hv.add_const fun w h1 => eval_ofElem h1 _))).bind fun z b1 hb1 hz =>
      absorb hh hc hb blocks hb1 (fun e he => hs e (List.mem_cons_of_mem _ he)) hz
  · refine Cost.bind ofOption fun l b2 hb2 ⟨hl, hn⟩ => ?_
    have hls : l.Scoped b.nextWireIndex := by
      unfold Expression.ofNat? at hl
      obtain ⟨a, -, rfl⟩ := Option.map_eq_some_iff.1 hl
      exact .ofElem hb _
    rw [hh]
    exact (daviesMeyer hc (by omega) (g2.mono hb2) (hls.mono (by omega)) (Varies.live
      (canonical_add g1) (g4.add (hls.not_mem g3)).varies)).mono fun _ _ _ _ => trivial

/-- One level of a Merkle path: the new node mentions a new wire. -/
theorem merkleTreeStep {c : MiMC p} (hc : c.roundPermutation.n.n = 3) {x e : Expression p}
    {bit : BooleanExpression p} {b : Builder p} (hb : 1 ≤ b.nextWireIndex) (hxc : x.Canonical)
    (hx : x.Scoped b.nextWireIndex) (he : e.Scoped b.nextWireIndex)
    (hbit : bit.expression.asConstant = none) (hxe : (e - x).asConstant = none)
    (hv : (e + x).Varies) :
    Cost (B.merkleTreeStep x e bit (R1CS.daviesMeyer c.toBlockCipher)) b
      (2 * (c.roundConstants.length + 1) + 1) fun z n => New b.nextWireIndex z n := by
  unfold B.merkleTreeStep
  refine ((selection hbit hxe).bind fun l b1 hb1 ⟨hl, hn⟩ => ?_).congr (Nat.add_comm _ _)
  subst hl
  have hw : (ofWire b.nextWireIndex : Expression p).Scoped b1.nextWireIndex := .ofWire (by omega)
  have hls := (hx.mono hb1).add hw
  have hrs := ((he.mono hb1).add (hx.mono hb1)).sub hls
  refine (daviesMeyer hc (by omega) hls hrs (Varies.live (canonical_add
    (canonical_add hxc)) ?_)).mono fun z n _ ⟨g1, g2, j, g3, g4⟩ =>
      ⟨g1, g2, j, by omega, g4⟩
  obtain ⟨w, w', h1, h2, h3⟩ := hv
  refine ⟨w, w', h1, h2, fun h => h3 ?_⟩
  simpa only [eval_add, eval_sub, add_sub_cancel] using h

theorem merkleTreeLoop {c : MiMC p} (hc : c.roundPermutation.n.n = 3) {m : ℕ} (hm : 1 ≤ m) :
    ∀ (l : List (BooleanExpression p × Expression p)) {x : Expression p} {b : Builder p},
      m ≤ b.nextWireIndex → (∀ q ∈ l, q.1.expression.asConstant = none ∧ q.2.Scoped m) →
      New m x b.nextWireIndex →
      Cost (B.merkleTreeLoop (R1CS.daviesMeyer c.toBlockCipher) l x) b
        ((2 * (c.roundConstants.length + 1) + 1) * l.length) fun z n => New m z n
  | [], x, b, _, _, hn => (pure hn : Cost _ b 0 _)
  | (bit, e) :: l, x, b, hb, hs, ⟨h1, h2, i, h3, h4⟩ => by
    unfold B.merkleTreeLoop
    obtain ⟨hbit, he⟩ := hs (bit, e) List.mem_cons_self
    have hmk : Marks i (e - x) := by
      refine ⟨h4.1, fun h => h4.2 ?_⟩
      rw [eval_sub, eval_sub, eval_unit_of_not_mem (he.not_mem h3)] at h
      exact sub_right_injective h
    have hmk2 : (e + x).Varies := by
      refine ⟨_, _, unit_one i, unit_one ONE, fun h => h4.2 ?_⟩
      rw [eval_add, eval_add, eval_unit_of_not_mem (he.not_mem h3)] at h
      exact add_right_injective _ h
    refine ((merkleTreeStep hc (by omega) h1 h2 (he.mono hb) hbit hmk.varies.asConstant hmk2).bind
      fun z b1 hb1 ⟨g1, g2, j, g3, g4⟩ => merkleTreeLoop hc hm l (by omega)
        (fun q hq => hs q (List.mem_cons_of_mem _ hq)) ⟨g1, g2, j, by omega, g4⟩).congr ?_
    rw [List.length_cons]
    ring

/-! ## Decryption -/

theorem pow_bits {k : ℕ} (hk : k % 2 = 1) : k.testBit 0 = true ∧ 0 < k.size :=
  ⟨by rw [Nat.testBit_zero]; simp [hk], Nat.lt_size.2 (by omega)⟩

theorem live_pow {x : Expression p} (hx : x.Live) {k : Elem p} (hk : k.n % 2 = 1)
    {b : Builder p} (hb : 1 ≤ b.nextWireIndex) :
    Cost (B.exponentiation x k) b (powCost k.n) fun z _ => z.Live := by
  unfold B.exponentiation
  exact ((live_expLoop hx k k.bits 0 1 0 false hb (by simp) (by simp)).congr
    (expCost_total k.n)).mono fun z n _ h => h.1 (Or.inr ⟨0, le_refl _,
      (show 0 < 0 + k.n.size by have := (pow_bits hk).2; omega), (pow_bits hk).1⟩)

theorem root {f : MonomialPermutation p} (hf : f.n.n % 2 = 1) (x : Expression p) {b : Builder p}
    (hb : 1 ≤ b.nextWireIndex) : Cost (f.inverse x) b (powCost f.n.n + 1) fun z _ => z.Live := by
  unfold MonomialPermutation.inverse
  refine (wire.bind fun i b1 hb1 ⟨h1, h2⟩ => (live_pow (live_ofWire ?_) hf (by omega)).bind
    fun e b2 hb2 _ => (assertEqual _ _).bind fun _ b3 hb3 _ => ofOption.bind fun _ b4 hb4 _ =>
    (generator _ _).bind fun _ b5 hb5 _ => pure (live_ofWire ?_)).congr ?_
  · omega
  · rw [h1]; show b.nextWireIndex ≠ 0; omega
  · rw [h1]; show b.nextWireIndex ≠ 0; omega

theorem mimc_decryptRounds {c : MiMC p} (hc : c.roundPermutation.n.n = 3) (key : Expression p) :
    ∀ (rcs : List (Elem p)) (cur : Expression p) {b : Builder p}, 1 ≤ b.nextWireIndex →
      Cost (c.decryptRounds key rcs cur) b (3 * rcs.length) fun _ _ => True
  | [], _, b, _ => (pure trivial : Cost _ b 0 _)
  | rc :: rcs, cur, b, hb => by
    unfold MiMC.decryptRounds
    exact ((root (by rw [hc]) cur hb).bind fun z b1 hb1 _ =>
      mimc_decryptRounds hc key rcs _ (by omega)).congr (by
        rw [hc, show powCost 3 = 2 by decide, List.length_cons]; ring)

theorem mimc_decrypt {c : MiMC p} (hc : c.roundPermutation.n.n = 3) (key x : Expression p)
    {b : Builder p} (hb : 1 ≤ b.nextWireIndex) :
    Cost (c.decrypt key x) b (3 * (c.roundConstants.length + 1)) fun _ _ => True := by
  unfold MiMC.decrypt
  exact ((mimc_decryptRounds hc key _ _ hb).bind fun z b1 hb1 _ =>
    (root (by rw [hc]) z (by omega)).bind fun _ b2 _ _ => pure trivial).congr (by
      rw [hc, show powCost 3 = 2 by decide, List.length_reverse]; ring)

/-! ## Poseidon and Rescue -/

theorem map {f : Expression p → B p (Expression p)} {k : ℕ}
    (hf : ∀ (x : Expression p) (b : Builder p), x.Live → 1 ≤ b.nextWireIndex →
      Cost (f x) b k fun z _ => z.Live) : ∀ (xs : List (Expression p)) {b : Builder p},
      (∀ x ∈ xs, x.Live) → 1 ≤ b.nextWireIndex →
      Cost (B.mapExpressions f xs) b (k * xs.length) fun zs _ => zs.length = xs.length ∧
        ∀ z ∈ zs, z.Live
  | [], b, _, _ => (pure ⟨rfl, by simp⟩ : Cost _ b 0 _)
  | x :: xs, b, h, hb => by
    unfold B.mapExpressions
    refine ((hf x b (h x List.mem_cons_self) hb).bind fun z b1 hb1 hz =>
      (map hf xs (fun x hx => h x (List.mem_cons_of_mem _ hx)) (by omega)).bind
      fun zs b2 hb2 hzs => pure ⟨?_, ?_⟩).congr ?_
    · rw [List.length_cons]; ring
    · simp [hzs.1]
    · intro y hy
      rcases List.mem_cons.1 hy with rfl | hy
      · exact hz
      · exact hzs.2 y hy

theorem live_foldl {x : Expression p} (hx : x.Live) (row : List (Elem p)) :
    (row.foldl (fun sum row_i => sum + x.mulElem row_i) 0).Live := by
  have hc : ∀ (row : List (Elem p)) (a : Expression p), a.Canonical →
      (row.foldl (fun sum row_i => sum + x.mulElem row_i) a).Canonical := by
    intro row
    induction row with
    | nil => exact fun _ h => h
    | cons r row ih => exact fun a h => ih _ (canonical_add h)
  refine hx.of_mul (r := row.sum) (hc row 0 (C10_canonical _ .zero)) fun w => ?_
  rw [ElementMatrix.eval_foldl_row, eval_zero, zero_add]

theorem mds_live {m : ElementMatrix p} {xs : List (Expression p)} (h : ∀ x ∈ xs, x.Live)
    (hl : m.rows.length = xs.length) :
    (m.mulExpressions xs).length = xs.length ∧ ∀ z ∈ m.mulExpressions xs, z.Live := by
  refine ⟨by simp [ElementMatrix.mulExpressions, hl], fun z hz => ?_⟩
  obtain ⟨⟨row, x⟩, hm, rfl⟩ := List.mem_map.1 hz
  exact live_foldl (h x (List.of_mem_zip hm).2) row

/-- The number of constraints of the S-box of Poseidon. -/
def sboxCost : PoseidonSbox → ℕ
  | .exponentiation3 => 2
  | .exponentiation5 => 3
  | .inverse => 3

theorem inverseOrZero (x : Expression p) {b : Builder p} (hb : 1 ≤ b.nextWireIndex) :
    Cost (B.inverseOrZero x) b 3 fun z _ => z.Live := by
  unfold B.inverseOrZero
  refine Cost.congr (k := 0 + (2 + (1 + (0 + 0)))) (wire.bind fun i b1 hb1 ⟨h1, h2⟩ =>
    (nonzero x).bind fun _ b2 _ _ => (assertProduct _ _ _).bind fun _ b3 _ _ =>
    (generator _ _).bind fun _ b4 _ _ => pure (live_ofWire ?_)) rfl
  rw [h1]; show b.nextWireIndex ≠ 0; omega

theorem sbox (f : Poseidon p) (x : Expression p) (b : Builder p) (hx : x.Live)
    (hb : 1 ≤ b.nextWireIndex) : Cost (f.sboxPermute x) b (sboxCost f.sbox) fun z _ => z.Live := by
  unfold Poseidon.sboxPermute
  refine (ofOption.bind fun s b1 hb1 ⟨hs, hn⟩ => ?_).congr (Nat.zero_add (sboxCost f.sbox))
  unfold Poseidon.sboxPermutation at hs
  have mono : ∀ {k : ℕ} {s : Permutation p}, k % 2 = 1 → (do
      let n ← Elem.ofNat? p k
      let m ← MonomialPermutation.new n
      return m.toPermutation : Option (Permutation p)) = some s →
      Cost (s.permute x) b1 (powCost k) fun z _ => z.Live := by
    intro k s hk h
    obtain ⟨n, hn, h⟩ := Option.bind_eq_some_iff.1 h
    obtain ⟨m, hm, h⟩ := Option.bind_eq_some_iff.1 h
    cases h
    have : n.n = k := by
      unfold Elem.ofNat? at hn
      split at hn
      · cases hn; rfl
      · cases hn
    have hmn := monomial_new hm
    exact (live_pow hx (by rw [hmn, this, hk]) (by omega)).congr (by rw [hmn, this])
  cases hsb : f.sbox with
  | exponentiation3 =>
    rw [hsb] at hs
    exact (mono (k := 3) rfl hs).congr (by decide)
  | exponentiation5 =>
    rw [hsb] at hs
    exact (mono (k := 5) rfl hs).congr (by decide)
  | inverse =>
    rw [hsb] at hs
    cases hs
    exact inverseOrZero x (by omega)

theorem sboxFirst (f : Poseidon p) {xs : List (Expression p)} {b : Builder p}
    (h : ∀ x ∈ xs, x.Live) (hb : 1 ≤ b.nextWireIndex) :
    Cost (f.sboxFirst xs) b (sboxCost f.sbox) fun zs _ => zs.length = xs.length ∧
        ∀ z ∈ zs, z.Live := by
  cases xs with
  | nil => exact panic
  | cons x xs =>
    unfold Poseidon.sboxFirst
    refine (sbox f x b (h x List.mem_cons_self) hb).bind (l := 0) fun z b1 hb1 hz => pure ⟨rfl, ?_⟩
    intro y hy
    rcases List.mem_cons.1 hy with rfl | hy
    · exact hz
    · exact h y (List.mem_cons_of_mem _ hy)

theorem poseidon_rounds (f : Poseidon p) (hm : f.mds.rows.length = f.width) :
    ∀ (left round : ℕ) {xs : List (Expression p)} {b : Builder p}, xs.length = f.width →
      (∀ x ∈ xs, x.Live) → 1 ≤ b.nextWireIndex →
      Cost (f.rounds round left xs) b (sboxCost f.sbox * ∑ r ∈ Finset.Ico round (round + left),
        if r < f.full / 2 ∨ r ≥ f.full + f.partial_ - f.full / 2 then f.width else 1) fun zs _ =>
          zs.length = f.width ∧ ∀ z ∈ zs, z.Live
  | 0, round, xs, b, hl, h, _ => by
    unfold Poseidon.rounds
    exact (pure ⟨hl, h⟩ : Cost _ b 0 _).congr (by simp)
  | left + 1, round, xs, b, hl, h, hb => by
    unfold Poseidon.rounds
    refine Cost.congr (k := sboxCost f.sbox * (if round < f.full / 2 ∨
        round ≥ f.full + f.partial_ - f.full / 2 then f.width else 1) + (sboxCost f.sbox *
        ∑ r ∈ Finset.Ico (round + 1) (round + 1 + left), if r < f.full / 2 ∨
          r ≥ f.full + f.partial_ - f.full / 2 then f.width else 1)) ?_ ?_
    · refine Cost.bind (Q := fun zs _ => zs.length = xs.length ∧ ∀ z ∈ zs, z.Live) ?_
        fun zs b1 hb1 hz => ?_
      · by_cases hr : round < f.full / 2 ∨ round ≥ f.full + f.partial_ - f.full / 2
        · rw [if_pos hr, if_pos hr, ← hl]
          exact map (sbox f) xs h hb
        · rw [if_neg hr, if_neg hr, mul_one]
          exact sboxFirst f h hb
      · have := mds_live hz.2 (m := f.mds) (by rw [hm, hz.1, hl])
        exact poseidon_rounds f hm left (round + 1) (by rw [this.1, hz.1, hl]) this.2 (by omega)
    · rw [← mul_add, show round + (left + 1) = round + 1 + left by ring,
        Finset.sum_eq_sum_Ico_succ_bot (show round < round + 1 + left by omega)]

theorem poseidon_sum (w full part : ℕ) (hf : full % 2 = 0) :
    (∑ r ∈ Finset.Ico 0 (0 + (full + part)),
        if r < full / 2 ∨ r ≥ full + part - full / 2 then w else 1) = full * w + part := by
  obtain ⟨h, rfl⟩ : ∃ h, full = 2 * h := ⟨full / 2, by omega⟩
  rw [← Finset.sum_Ico_consecutive _ (show 0 ≤ h by omega) (show h ≤ 0 + (2 * h + part) by omega),
    ← Finset.sum_Ico_consecutive _ (show h ≤ h + part by omega)
      (show h + part ≤ 0 + (2 * h + part) by omega),
    Finset.sum_congr rfl (g := fun _ => w), Finset.sum_congr (s₁ := Finset.Ico h (h + part)) rfl
      (g := fun _ => 1), Finset.sum_congr (s₁ := Finset.Ico (h + part) _) rfl (g := fun _ => w)]
  · simp
    rw [show 2 * h + part - (h + part) = h by omega]
    ring
  · intro r hr
    rw [Finset.mem_Ico] at hr
    exact if_pos (by omega)
  · intro r hr
    rw [Finset.mem_Ico] at hr
    exact if_neg (by omega)
  · intro r hr
    rw [Finset.mem_Ico] at hr
    exact if_pos (by omega)

theorem poseidon (f : Poseidon p) (hm : f.mds.rows.length = f.width) {xs : List (Expression p)}
    {b : Builder p} (h : ∀ x ∈ xs, x.Live) (hb : 1 ≤ b.nextWireIndex) :
    Cost (f.permute xs) b (sboxCost f.sbox * (f.full * f.width + f.partial_)) fun zs _ =>
      zs.length = f.width ∧ ∀ z ∈ zs, z.Live := by
  unfold Poseidon.permute
  refine (require.bind fun _ b1 hb1 h1 => (require.bind (l := sboxCost f.sbox *
    (f.full * f.width + f.partial_)) fun _ b2 hb2 h2 => ?_).congr (Nat.zero_add _)).congr
    (Nat.zero_add _)
  rw [← poseidon_sum _ _ _ h2]
  exact poseidon_rounds f hm _ _ h1 h (by omega)

theorem rescue_rounds (f : Rescue p) (ha : f.alpha.n % 2 = 1) (hm : f.mds.rows.length = f.width) :
    ∀ (left : ℕ) {xs : List (Expression p)} {b : Builder p}, xs.length = f.width →
      (∀ x ∈ xs, x.Live) → 1 ≤ b.nextWireIndex →
      Cost (f.rounds left xs) b (left * f.width * (2 * powCost f.alpha.n + 1)) fun zs _ =>
          zs.length = f.width ∧ ∀ z ∈ zs, z.Live
  | 0, xs, b, hl, h, _ => by
    unfold Rescue.rounds
    exact (pure ⟨hl, h⟩ : Cost _ b 0 _).congr (by simp)
  | left + 1, xs, b, hl, h, hb => by
    unfold Rescue.rounds
    have p1 : ∀ (x : Expression p) (b : Builder p), x.Live → 1 ≤ b.nextWireIndex →
        Cost (f.pi1 x) b (powCost f.alpha.n) fun z _ => z.Live := by
      intro x b hx hb
      unfold Rescue.pi1
      refine (ofOption.bind (l := powCost f.alpha.n) fun m b1 hb1 ⟨hm, _⟩ => ?_).congr (Nat.zero_add _)
      rw [← monomial_new hm] at ha ⊢
      exact live_pow hx ha (by omega)
    have p2 : ∀ (x : Expression p) (b : Builder p), x.Live → 1 ≤ b.nextWireIndex →
        Cost (f.pi2 x) b (powCost f.alpha.n + 1) fun z _ => z.Live := by
      intro x b hx hb
      unfold Rescue.pi2
      refine (ofOption.bind (l := powCost f.alpha.n + 1) fun m b1 hb1 ⟨hm, _⟩ => ?_).congr
        (Nat.zero_add _)
      rw [← monomial_new hm] at ha ⊢
      exact root ha x (by omega)
    refine Cost.congr (k := powCost f.alpha.n * f.width + ((powCost f.alpha.n + 1) * f.width +
        left * f.width * (2 * powCost f.alpha.n + 1))) ?_ (by ring)
    refine ((map p1 xs h hb).congr (by rw [hl])).bind fun zs b1 hb1 hz => ?_
    have hz' := mds_live hz.2 (m := f.mds) (by rw [hm, hz.1, hl])
    refine ((map p2 _ hz'.2 (by omega)).congr (by rw [hz'.1, hz.1, hl])).bind
      fun us b2 hb2 hu => ?_
    have hu' := mds_live hu.2 (m := f.mds) (by rw [hm, hu.1, hz'.1, hz.1, hl])
    exact rescue_rounds f ha hm left (by rw [hu'.1, hu.1, hz'.1, hz.1, hl]) hu'.2 (by omega)

end Cost

namespace AtMost

open Cost (powCost sboxCost)

theorem monomial (f : MonomialPermutation p) (x : Expression p) :
    AtMost (f.permute x) (powCost f.n.n) fun _ => True := exponentiation x f.n

theorem mimc_encryptRounds {c : MiMC p} (hc : c.roundPermutation.n.n = 3) (key : Expression p) :
    ∀ (rcs : List (Elem p)) (x : Expression p),
      AtMost (c.encryptRounds key rcs x) (2 * rcs.length) fun _ => True
  | [], _ => pure trivial
  | rc :: rcs, x => by
    unfold MiMC.encryptRounds
    exact ((monomial _ _).bind fun z _ => mimc_encryptRounds hc key rcs z).le (by
      rw [hc, show powCost 3 = 2 by decide, List.length_cons]; omega)

theorem mimc_encrypt {c : MiMC p} (hc : c.roundPermutation.n.n = 3) (key x : Expression p) :
    AtMost (c.encrypt key x) (2 * (c.roundConstants.length + 1)) fun _ => True := by
  unfold MiMC.encrypt
  exact ((monomial _ _).bind fun z _ => (mimc_encryptRounds hc key _ z).bind (l := 0)
    fun _ _ => pure trivial).le (by rw [hc, show powCost 3 = 2 by decide]; omega)

theorem of {m : B p α} {k : ℕ} (h : AddsAtMost m k) : AtMost m k fun _ => True :=
  fun b a b' hr => ⟨h b a b' hr, trivial⟩

theorem absorb {h : MerkleDamgard p} {k : ℕ} (hk : ∀ x y, AddsAtMost (h.compress.compress x y) k) :
    ∀ (blocks : List (Expression p)) (x : Expression p),
      AtMost (h.absorb blocks x) (k * blocks.length) fun _ => True
  | [], _ => pure trivial
  | e :: blocks, x => by
    unfold MerkleDamgard.absorb
    exact ((of (hk x e)).bind fun z _ => absorb hk blocks z).le (by rw [List.length_cons]; ring_nf; rfl)

theorem hash {h : MerkleDamgard p} {k : ℕ} (hk : ∀ x y, AddsAtMost (h.compress.compress x y) k)
    (blocks : List (Expression p)) : AtMost (h.hash blocks) (k * (blocks.length + 1)) fun _ => True := by
  unfold MerkleDamgard.hash
  exact ((absorb hk blocks _).bind fun z _ => ofOption.bind fun l _ => of (hk z l)).le (by
    rw [Nat.zero_add, mul_add, mul_one])

theorem merkleTreeLoop {c : CompressionFunction p} {k : ℕ} (hk : ∀ x y, AddsAtMost (c.compress x y) k) :
    ∀ (l : List (BooleanExpression p × Expression p)) (x : Expression p),
      AtMost (B.merkleTreeLoop c l x) ((k + 1) * l.length) fun _ => True
  | [], _ => pure trivial
  | (b, e) :: l, x => by
    unfold B.merkleTreeLoop B.merkleTreeStep
    exact (((selection b e x).bind fun z _ => of (hk z _)).bind fun z _ =>
      merkleTreeLoop hk l z).le (by rw [List.length_cons]; ring_nf; rfl)

theorem permuteState {sp : Sponge p} {k : ℕ} (hk : ∀ xs, AddsAtMost (sp.permutation.permute xs) k)
    (i c : List (Expression p)) : AtMost (sp.permuteState i c) k fun r => r.1.length = sp.bitrate := by
  unfold Sponge.permuteState
  exact ((of (hk _)).bind fun z _ => require.bind fun _ _ => require.bind (l := 0) fun _ h =>
    pure (by rw [List.length_take]; omega)).le (by omega)

theorem sponge_absorb {sp : Sponge p} {k : ℕ} (hk : ∀ xs, AddsAtMost (sp.permutation.permute xs) k) :
    ∀ (chunks : List (List (Expression p))) (i c : List (Expression p)), i.length = sp.bitrate →
      AtMost (sp.absorb chunks i c) (k * chunks.length) fun r => r.1.length = sp.bitrate
  | [], _, _, hi => pure hi
  | ch :: chunks, i, c, hi => by
    unfold Sponge.absorb
    exact (ofOption.bind fun i' _ => (permuteState hk i' c).bind fun ⟨i2, c2⟩ h2 =>
      sponge_absorb hk chunks i2 c2 h2).le (by rw [List.length_cons]; ring_nf; rfl)

theorem squeeze {sp : Sponge p} {k : ℕ} (hk : ∀ xs, AddsAtMost (sp.permutation.permute xs) k)
    (hr : 0 < sp.bitrate) (len : ℕ) : ∀ (fuel : ℕ) (i c out : List (Expression p)),
      AtMost (sp.squeeze len fuel i c out)
        (k * ((len - out.length + sp.bitrate - 1) / sp.bitrate)) fun _ => True
  | 0, _, _, out => by
    unfold Sponge.squeeze
    split
    · exact panic
    · exact (pure trivial).le (Nat.zero_le _)
  | fuel + 1, i, c, out => by
    unfold Sponge.squeeze
    split
    · next hl =>
      refine ((permuteState hk i c).bind fun ⟨i2, c2⟩ h2 =>
        (squeeze hk hr len fuel i2 c2 (out ++ i2)).le (l := k * ((len - out.length - sp.bitrate +
          sp.bitrate - 1) / sp.bitrate)) ?_).le ?_
      · rw [List.length_append, h2, Nat.sub_add_eq]
      · have : (len - out.length + sp.bitrate - 1) / sp.bitrate =
            (len - out.length - sp.bitrate + sp.bitrate - 1) / sp.bitrate + 1 := by
          generalize sp.bitrate = r at *
          rcases Nat.lt_or_ge (len - out.length) r with h | h
          · rw [show len - out.length - r + r - 1 = r - 1 by omega,
              Nat.div_eq_of_lt (show r - 1 < r by omega), Nat.div_eq_iff hr]
            omega
          · rw [show len - out.length - r + r - 1 = len - out.length - 1 by omega,
              show len - out.length + r - 1 = len - out.length - 1 + r by omega,
              Nat.add_div_right _ hr]
        rw [this]; ring_nf; rfl
    · exact (pure trivial).le (Nat.zero_le _)

theorem sponge {sp : Sponge p} {k : ℕ} (hk : ∀ xs, AddsAtMost (sp.permutation.permute xs) k)
    (inputs : List (Expression p)) (len : ℕ) : AtMost (sp.evaluate inputs len)
      (k * ((inputs.length + sp.bitrate - 1) / sp.bitrate +
        (len - sp.bitrate + sp.bitrate - 1) / sp.bitrate)) fun _ => True := by
  unfold Sponge.evaluate
  have hpos : ∀ cs, chunks? sp.bitrate inputs = some cs → 0 < sp.bitrate ∧
      cs.length = (inputs.length + sp.bitrate - 1) / sp.bitrate := by
    intro cs h
    unfold chunks? at h
    split at h
    · cases h
    · next h0 =>
      cases h
      exact ⟨by omega, chunksOf_length (by omega) _⟩
  refine (ofOption.bind (l := k * ((inputs.length + sp.bitrate - 1) / sp.bitrate +
        (len - sp.bitrate + sp.bitrate - 1) / sp.bitrate)) fun cs hcs => ?_).le (by omega)
  obtain ⟨h0, hl⟩ := hpos cs hcs
  rw [mul_add, ← hl]
  exact (sponge_absorb hk cs _ _ List.length_replicate).bind fun ⟨i, c⟩ hi =>
    ((squeeze hk h0 len len i c i).bind (l := 0) fun _ _ => pure trivial).le (by
      rw [show i.length = sp.bitrate from hi]; rfl)

/-! ## Poseidon and Rescue -/

theorem map {f : Expression p → B p (Expression p)} {k : ℕ} (hf : ∀ x, AtMost (f x) k fun _ => True) :
    ∀ xs : List (Expression p), AtMost (B.mapExpressions f xs) (k * xs.length)
      fun zs => zs.length = xs.length
  | [] => pure rfl
  | x :: xs => by
    unfold B.mapExpressions
    exact ((hf x).bind fun z _ => (map hf xs).bind (l := 0) fun zs h => pure (by simp [h])).le (by
      rw [List.length_cons]; ring_nf; rfl)

theorem inverseOrZero (x : Expression p) : AtMost (B.inverseOrZero x) 3 fun _ => True := by
  unfold B.inverseOrZero
  refine ofCost (R := fun _ _ _ => True) (fun b => Cost.congr (k := 0 + (2 + (1 + (0 + 0))))
    (Cost.wire.bind fun i b1 _ _ =>
    (Cost.nonzero x).bind fun _ b2 _ _ => (Cost.assertProduct _ _ _).bind fun _ b3 _ _ =>
    (Cost.generator _ _).bind fun _ b4 _ _ => Cost.pure trivial) rfl) fun _ _ _ _ => trivial

theorem sbox (f : Poseidon p) (x : Expression p) :
    AtMost (f.sboxPermute x) (sboxCost f.sbox) fun _ => True := by
  unfold Poseidon.sboxPermute
  refine (ofOption.bind fun s hs => ?_).le (le_of_eq (Nat.zero_add (sboxCost f.sbox)))
  unfold Poseidon.sboxPermutation at hs
  have mono : ∀ {k : ℕ} {s : Permutation p}, (do
      let n ← Elem.ofNat? p k
      let m ← MonomialPermutation.new n
      return m.toPermutation : Option (Permutation p)) = some s →
      AtMost (s.permute x) (powCost k) fun _ => True := by
    intro k s h
    obtain ⟨n, hn, h⟩ := Option.bind_eq_some_iff.1 h
    obtain ⟨m, hm, h⟩ := Option.bind_eq_some_iff.1 h
    cases h
    have : n.n = k := by
      unfold Elem.ofNat? at hn
      split at hn
      · cases hn; rfl
      · cases hn
    rw [← this, ← Cost.monomial_new hm]
    exact monomial m x
  cases hsb : f.sbox with
  | exponentiation3 => rw [hsb] at hs; exact (mono (k := 3) hs).le (by decide)
  | exponentiation5 => rw [hsb] at hs; exact (mono (k := 5) hs).le (by decide)
  | inverse => rw [hsb] at hs; cases hs; exact inverseOrZero x

theorem poseidon_rounds (f : Poseidon p) :
    ∀ (left round : ℕ) {xs : List (Expression p)}, xs.length ≤ f.width →
      AtMost (f.rounds round left xs) (sboxCost f.sbox * ∑ r ∈ Finset.Ico round (round + left),
        if r < f.full / 2 ∨ r ≥ f.full + f.partial_ - f.full / 2 then f.width else 1) fun _ => True
  | 0, round, xs, hl => (pure trivial).le (Nat.zero_le _)
  | left + 1, round, xs, hl => by
    unfold Poseidon.rounds
    refine AtMost.le (k := sboxCost f.sbox * (if round < f.full / 2 ∨
        round ≥ f.full + f.partial_ - f.full / 2 then f.width else 1) + (sboxCost f.sbox *
        ∑ r ∈ Finset.Ico (round + 1) (round + 1 + left), if r < f.full / 2 ∨
          r ≥ f.full + f.partial_ - f.full / 2 then f.width else 1)) ?_ (le_of_eq ?_)
    · refine AtMost.bind (Q := fun zs => zs.length = xs.length) ?_ fun zs hz =>
        poseidon_rounds f left (round + 1) (by
          simp only [ElementMatrix.mulExpressions, List.length_map, List.length_zip]; omega)
      by_cases hr : round < f.full / 2 ∨ round ≥ f.full + f.partial_ - f.full / 2
      · rw [if_pos hr, if_pos hr]
        exact (map (sbox f) xs).le (Nat.mul_le_mul_left _ hl)
      · rw [if_neg hr, if_neg hr, mul_one]
        cases xs with
        | nil => exact panic
        | cons x xs => exact (sbox f x).bind (l := 0) fun z _ => pure rfl
    · rw [← mul_add, show round + (left + 1) = round + 1 + left by ring,
        Finset.sum_eq_sum_Ico_succ_bot (show round < round + 1 + left by omega)]

theorem poseidon (f : Poseidon p) (xs : List (Expression p)) :
    AtMost (f.permute xs) (sboxCost f.sbox * (f.full * f.width + f.partial_)) fun _ => True := by
  unfold Poseidon.permute
  refine (require.bind fun _ h1 => (require.bind (l := sboxCost f.sbox *
    (f.full * f.width + f.partial_)) fun _ h2 => ?_).le (by omega)).le (le_of_eq (Nat.zero_add _))
  rw [← Cost.poseidon_sum _ _ _ h2]
  exact poseidon_rounds f _ _ (by omega)

theorem root (f : MonomialPermutation p) (x : Expression p) :
    AtMost (f.inverse x) (powCost f.n.n + 1) fun _ => True := by
  unfold MonomialPermutation.inverse
  refine AtMost.le (k := 0 + (powCost f.n.n + (1 + (0 + (0 + 0))))) (AtMost.bind (Q := fun _ => True)
    (ofCost (R := fun _ _ _ => True) (fun b => Cost.wire.mono fun _ _ _ _ => trivial)
      fun _ _ _ _ => trivial) fun i _ => (exponentiation _ _).bind fun e _ =>
    (AtMost.assertEqual _ _).bind fun _ _ => ofOption.bind fun _ _ => AtMost.bind
      (Q := fun _ => True) (ofCost (R := fun _ _ _ => True) (fun b => (Cost.generator _ _).mono
        fun _ _ _ _ => trivial) fun _ _ _ _ => trivial) fun _ _ => pure trivial) (by omega)

theorem mimc_decryptRounds {c : MiMC p} (hc : c.roundPermutation.n.n = 3) (key : Expression p) :
    ∀ (rcs : List (Elem p)) (x : Expression p),
      AtMost (c.decryptRounds key rcs x) (3 * rcs.length) fun _ => True
  | [], _ => pure trivial
  | rc :: rcs, x => by
    unfold MiMC.decryptRounds
    exact ((root _ _).bind fun z _ => mimc_decryptRounds hc key rcs _).le (by
      rw [hc, show powCost 3 = 2 by decide, List.length_cons]; omega)

theorem mimc_decrypt {c : MiMC p} (hc : c.roundPermutation.n.n = 3) (key x : Expression p) :
    AtMost (c.decrypt key x) (3 * (c.roundConstants.length + 1)) fun _ => True := by
  unfold MiMC.decrypt
  exact ((mimc_decryptRounds hc key _ _).bind fun z _ => (root _ z).bind (l := 0)
    fun _ _ => pure trivial).le (by
      rw [hc, show powCost 3 = 2 by decide, List.length_reverse]; omega)

theorem rescue_rounds (f : Rescue p) :
    ∀ (left : ℕ) {xs : List (Expression p)}, xs.length ≤ f.width →
      AtMost (f.rounds left xs) (left * f.width * (2 * powCost f.alpha.n + 1)) fun _ => True
  | 0, xs, hl => (pure trivial).le (Nat.zero_le _)
  | left + 1, xs, hl => by
    unfold Rescue.rounds
    have p1 : ∀ x, AtMost (f.pi1 x) (powCost f.alpha.n) fun _ => True := by
      intro x
      unfold Rescue.pi1
      refine (ofOption.bind (l := powCost f.alpha.n) fun m hm => ?_).le (le_of_eq (Nat.zero_add _))
      rw [← Cost.monomial_new hm]
      exact monomial m x
    have p2 : ∀ x, AtMost (f.pi2 x) (powCost f.alpha.n + 1) fun _ => True := by
      intro x
      unfold Rescue.pi2
      refine (ofOption.bind (l := powCost f.alpha.n + 1) fun m hm => ?_).le
        (le_of_eq (Nat.zero_add _))
      rw [← Cost.monomial_new hm]
      exact root m x
    refine AtMost.le (k := powCost f.alpha.n * f.width + ((powCost f.alpha.n + 1) * f.width +
        left * f.width * (2 * powCost f.alpha.n + 1))) ?_ (le_of_eq (by ring))
    have len : ∀ {zs : List (Expression p)}, zs.length ≤ f.width →
        (f.mds.mulExpressions zs).length ≤ f.width := by
      intro zs h
      simp only [ElementMatrix.mulExpressions, List.length_map, List.length_zip]; omega
    exact ((map p1 xs).le (Nat.mul_le_mul_left _ hl)).bind fun zs hz =>
      ((map p2 _).le (Nat.mul_le_mul_left _ (len (hz ▸ hl)))).bind fun us hu =>
        rescue_rounds f left (len (hu ▸ len (hz ▸ hl)))

end AtMost

/-! ## Sponges, exactly -/

/-- Whenever `m` returns, it has added `k` constraints, and `Q` holds. -/
def Exactly (m : B p α) (k : ℕ) (Q : α → Prop) : Prop :=
  ∀ b a b', m b = some (a, b') → b'.constraints.length = b.constraints.length + k ∧ Q a

namespace Exactly

theorem pure {a : α} {Q : α → Prop} (h : Q a) : Exactly (Pure.pure a : B p α) 0 Q := by
  intro b a' b' h'
  rw [B.pure_eq] at h'
  obtain ⟨rfl, rfl⟩ := Prod.ext_iff.1 (Option.some.inj h')
  exact ⟨rfl, h⟩

theorem bind {m : B p α} {f : α → B p β} {k l : ℕ} {Q : α → Prop} {R : β → Prop}
    (hm : Exactly m k Q) (hf : ∀ a, Q a → Exactly (f a) l R) : Exactly (m >>= f) (k + l) R := by
  intro b a b' h
  obtain ⟨x, b1, h1, h2⟩ := B.bind_run h
  obtain ⟨h3, h5⟩ := hm b x b1 h1
  obtain ⟨h6, h8⟩ := hf x h5 b1 a b' h2
  exact ⟨by rw [h6, h3]; ring, h8⟩

theorem congr {m : B p α} {k l : ℕ} {Q : α → Prop} (hm : Exactly m k Q) (h : k = l) :
    Exactly m l Q := h ▸ hm

theorem ofCost {m : B p α} {k : ℕ} {Q : α → Prop} (h : ∀ b, Cost m b k fun a _ => Q a) :
    Exactly m k Q := fun b a b' hr => ⟨(h b a b' hr).1, (h b a b' hr).2.2⟩

theorem require {c : Prop} [Decidable c] : Exactly (B.require c : B p Unit) 0 fun _ => c :=
  ofCost fun _ => Cost.require

theorem ofOption {o : Option α} : Exactly (B.ofOption o : B p α) 0 fun a => o = some a :=
  ofCost fun _ => Cost.ofOption.mono fun _ _ _ h => h.1

theorem permuteState {sp : Sponge p} {k : ℕ}
    (hk : ∀ xs b, CostsExactly (sp.permutation.permute xs) b k)
    (i c : List (Expression p)) : Exactly (sp.permuteState i c) k fun r => r.1.length = sp.bitrate := by
  unfold Sponge.permuteState
  refine Exactly.congr (k := k + (0 + (0 + 0))) (Exactly.bind (Q := fun _ => True)
    (fun b a b' h => ⟨hk _ b a b' h, trivial⟩) fun z _ => require.bind fun _ _ => require.bind
      fun _ h => pure (by rw [List.length_take]; omega)) (by omega)

theorem sponge_absorb {sp : Sponge p} {k : ℕ}
    (hk : ∀ xs b, CostsExactly (sp.permutation.permute xs) b k) :
    ∀ (chunks : List (List (Expression p))) (i c : List (Expression p)), i.length = sp.bitrate →
      Exactly (sp.absorb chunks i c) (k * chunks.length) fun r => r.1.length = sp.bitrate
  | [], _, _, hi => pure hi
  | ch :: chunks, i, c, hi => by
    unfold Sponge.absorb
    exact (ofOption.bind fun i' _ => (permuteState hk i' c).bind fun ⟨i2, c2⟩ h2 =>
      sponge_absorb hk chunks i2 c2 h2).congr (by rw [List.length_cons]; ring)

theorem squeeze {sp : Sponge p} {k : ℕ}
    (hk : ∀ xs b, CostsExactly (sp.permutation.permute xs) b k)
    (hr : 0 < sp.bitrate) (len : ℕ) : ∀ (fuel : ℕ) (i c out : List (Expression p)),
      Exactly (sp.squeeze len fuel i c out)
        (k * ((len - out.length + sp.bitrate - 1) / sp.bitrate)) fun _ => True
  | 0, _, _, out => by
    unfold Sponge.squeeze
    split
    · exact ofCost fun _ => Cost.panic
    · next h =>
      refine (pure trivial).congr ?_
      rw [Nat.div_eq_of_lt (by omega), mul_zero]
  | fuel + 1, i, c, out => by
    unfold Sponge.squeeze
    split
    · next hl =>
      refine ((permuteState hk i c).bind fun ⟨i2, c2⟩ h2 =>
        (squeeze hk hr len fuel i2 c2 (out ++ i2)).congr (l := k * ((len - out.length - sp.bitrate +
          sp.bitrate - 1) / sp.bitrate)) ?_).congr ?_
      · rw [List.length_append, h2, Nat.sub_add_eq]
      · have : (len - out.length + sp.bitrate - 1) / sp.bitrate =
            (len - out.length - sp.bitrate + sp.bitrate - 1) / sp.bitrate + 1 := by
          generalize sp.bitrate = r at *
          rcases Nat.lt_or_ge (len - out.length) r with h | h
          · rw [show len - out.length - r + r - 1 = r - 1 by omega,
              Nat.div_eq_of_lt (show r - 1 < r by omega), Nat.div_eq_iff hr]
            omega
          · rw [show len - out.length - r + r - 1 = len - out.length - 1 by omega,
              show len - out.length + r - 1 = len - out.length - 1 + r by omega,
              Nat.add_div_right _ hr]
        rw [this]; ring
    · next h =>
      refine (pure trivial).congr ?_
      rw [Nat.div_eq_of_lt (by omega), mul_zero]

theorem sponge {sp : Sponge p} {k : ℕ}
    (hk : ∀ xs b, CostsExactly (sp.permutation.permute xs) b k)
    (inputs : List (Expression p)) (len : ℕ) : Exactly (sp.evaluate inputs len)
      (k * ((inputs.length + sp.bitrate - 1) / sp.bitrate +
        (len - sp.bitrate + sp.bitrate - 1) / sp.bitrate)) fun _ => True := by
  unfold Sponge.evaluate
  have hpos : ∀ cs, chunks? sp.bitrate inputs = some cs → 0 < sp.bitrate ∧
      cs.length = (inputs.length + sp.bitrate - 1) / sp.bitrate := by
    intro cs h
    unfold chunks? at h
    split at h
    · cases h
    · next h0 =>
      cases h
      exact ⟨by omega, chunksOf_length (by omega) _⟩
  refine (ofOption.bind (l := k * ((inputs.length + sp.bitrate - 1) / sp.bitrate +
        (len - sp.bitrate + sp.bitrate - 1) / sp.bitrate)) fun cs hcs => ?_).congr (by omega)
  obtain ⟨h0, hl⟩ := hpos cs hcs
  rw [mul_add, ← hl]
  exact (sponge_absorb hk cs _ _ List.length_replicate).bind fun ⟨i, c⟩ hi =>
    ((squeeze hk h0 len len i c i).bind (l := 0) fun _ _ => pure trivial).congr (by
      rw [show i.length = sp.bitrate from hi]; rfl)

end Exactly

/-! ## Programs -/

namespace Prog

theorem monomial (f : MonomialPermutation p) (x : Expression p) : Prog (f.permute x) :=
  exponentiation x f.n

theorem root (f : MonomialPermutation p) (x : Expression p) : Prog (f.inverse x) :=
  bind .wire fun _ => bind (exponentiation _ _) fun _ => bind (assertEqual _ _) fun _ =>
    bind (ofOption _) fun _ => bind (.generator _ _ fun v v' h i y hy => by
      obtain ⟨xv, -, h⟩ := Option.bind_eq_some_iff.1 h
      exact KeepsValues.set _ _ v v' h i y hy) fun _ => .pure _

theorem mimc_encryptRounds (c : MiMC p) (key : Expression p) : ∀ (rcs : List (Elem p))
    (x : Expression p), Prog (c.encryptRounds key rcs x)
  | [], _ => .pure _
  | _ :: rcs, _ => bind (monomial _ _) fun z => mimc_encryptRounds c key rcs z

theorem mimc_encrypt (c : MiMC p) (key x : Expression p) : Prog (c.encrypt key x) :=
  bind (monomial _ _) fun _ => bind (mimc_encryptRounds _ _ _ _) fun _ => .pure _

theorem mimc_decryptRounds (c : MiMC p) (key : Expression p) : ∀ (rcs : List (Elem p))
    (x : Expression p), Prog (c.decryptRounds key rcs x)
  | [], _ => .pure _
  | _ :: rcs, _ => bind (root _ _) fun _ => mimc_decryptRounds c key rcs _

theorem mimc_decrypt (c : MiMC p) (key x : Expression p) : Prog (c.decrypt key x) :=
  bind (mimc_decryptRounds _ _ _ _) fun _ => bind (root _ _) fun _ => .pure _

theorem absorb {h : MerkleDamgard p} (hc : ∀ x y, Prog (h.compress.compress x y)) :
    ∀ (blocks : List (Expression p)) (x : Expression p), Prog (h.absorb blocks x)
  | [], _ => .pure _
  | _ :: blocks, _ => bind (hc _ _) fun z => absorb hc blocks z

theorem hash {h : MerkleDamgard p} (hc : ∀ x y, Prog (h.compress.compress x y))
    (blocks : List (Expression p)) : Prog (h.hash blocks) :=
  bind (absorb hc _ _) fun _ => bind (ofOption _) fun _ => hc _ _

end Prog

end R1CS
