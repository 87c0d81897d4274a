import Verif.Lemmas.ChunkBits

/-!
# Comparisons
-/

set_option linter.unusedSectionVars false

namespace R1CS

variable {p : ℕ} [hp : Fact p.Prime] {α β : Type}

open Expression

/-- The truth value computed by `cmp_subtractive` from a difference. -/
def cmpHolds (less strict : Bool) (d : ℤ) : Bool :=
  decide ((if less then d else -d) ≤ if strict then -1 else 0)

theorem cmpHolds_congr {less strict : Bool} {d e : ℤ} (h1 : d < 0 ↔ e < 0) (h2 : 0 < d ↔ 0 < e) :
    cmpHolds less strict d = cmpHolds less strict e := by
  unfold cmpHolds
  cases less <;> cases strict <;> simp <;> omega

theorem cmpHolds_zero (less strict : Bool) : cmpHolds less strict 0 = !strict := by
  cases less <;> cases strict <;> rfl

/-- Values of masks and chunks. -/
def evalZ (w : Assign p) (l : List (Wire × Expression p × Expression p)) :
    List (Elem p × Elem p × Elem p) :=
  l.map (Prod.map w (Prod.map (eval w) (eval w)))

theorem evalZ_cons (w : Assign p) (m : Wire) (x y : Expression p)
    (l : List (Wire × Expression p × Expression p)) :
    evalZ w ((m, x, y) :: l) = (w m, x.eval w, y.eval w) :: evalZ w l := rfl

theorem evalZ_zip (w : Assign p) {ms : List Wire} {xs ys : List (Expression p)} {us vs : List ℕ}
    (hx : xs.map (eval w) = us.map fun u : ℕ => (u : Elem p))
    (hy : ys.map (eval w) = vs.map fun u : ℕ => (u : Elem p)) :
    evalZ w (ms.zip (xs.zip ys)) = triples (ms.map w) us vs := by
  unfold evalZ triples
  rw [← hx, ← hy, List.zip_map, List.zip_map]

/-! ## mapM -/

theorem mapM_join {cs : List (BinaryExpression p)} {es : List (Expression p)}
    (h : cs.mapM BinaryExpression.join = some es) :
    (∀ w : Assign p, es.map (eval w) = cs.map fun c => ((c.val w : ℕ) : Elem p)) ∧
    (∀ n, (∀ c ∈ cs, c.Scoped n) → ∀ e ∈ es, e.Scoped n) := by
  induction cs generalizing es with
  | nil =>
    simp only [List.mapM_nil] at h
    obtain rfl := Option.some.inj h
    exact ⟨fun w => rfl, fun n _ e he => absurd he (by simp)⟩
  | cons c cs ih =>
    rw [List.mapM_cons] at h
    obtain ⟨e, he, h⟩ := Option.bind_eq_some_iff.1 h
    obtain ⟨es', hes, h⟩ := Option.bind_eq_some_iff.1 h
    obtain rfl := Option.some.inj h
    obtain ⟨h1, h2⟩ := ih hes
    have hle : 2 ^ c.len ≤ p := by
      by_contra hc
      rw [BinaryExpression.join_eq_none (not_le.1 hc)] at he
      exact absurd he (by simp)
    obtain ⟨e', he', hev⟩ := BinaryExpression.join_eq hle
    rw [he] at he'
    obtain rfl := Option.some.inj he'
    refine ⟨fun w => by rw [List.map_cons, List.map_cons, h1, hev], fun n hs x hx => ?_⟩
    rcases List.mem_cons.1 hx with rfl | hx
    · exact BinaryExpression.join_scoped he (hs c (by simp))
    · exact h2 n (fun c hc => hs c (by simp [hc])) x hx

theorem mapM_join_some {cs : List (BinaryExpression p)} (h : ∀ c ∈ cs, 2 ^ c.len ≤ p) :
    ∃ es, cs.mapM BinaryExpression.join = some es := by
  induction cs with
  | nil => exact ⟨[], rfl⟩
  | cons c cs ih =>
    obtain ⟨e, he, _⟩ := BinaryExpression.join_eq (h c (by simp))
    obtain ⟨es, hes⟩ := ih fun c hc => h c (by simp [hc])
    exact ⟨e :: es, by rw [List.mapM_cons, he, hes]; rfl⟩

theorem chunks_eq {e : BinaryExpression p} {c : ℕ} (hc : 0 < c) :
    e.chunks c = some ((chunksOf c e.bits).map fun b => ⟨b⟩) := by
  simp [BinaryExpression.chunks, chunks?, hc.ne']

/-! ## Soundness -/

namespace Enforces

theorem assertBooleans : ∀ ms : List Wire, Enforces (B.assertBooleans ms : B p Unit)
    (fun _ w => ∀ m ∈ ms, IsBool (w m))
  | [] => Enforces.pure fun w _ => by simp
  | m :: ms => by
    unfold B.assertBooleans
    refine (Enforces.assertBoolean _).bind fun _ => (assertBooleans ms).mono fun _ w _ h h' => ?_
    intro i hi
    rcases List.mem_cons.1 hi with rfl | hi
    · simpa using h'.2
    · exact h i hi

theorem maskedSum : ∀ (l : List (Wire × Expression p × Expression p)) (sum : Expression p),
    Enforces (B.maskedSum l sum) (fun z w => z.eval w = sum.eval w + maskDiff (evalZ w l))
  | [], sum => Enforces.pure fun w _ => by simp [evalZ, maskDiff]
  | (m, x, y) :: l, sum => by
    unfold B.maskedSum
    refine (Enforces.product _ _).bind fun t => (maskedSum l _).mono fun z w _ h h' => ?_
    rw [h, evalZ_cons, maskDiff, eval_add, h', eval_ofWire, eval_sub, add_assoc]

theorem assertMoreSignificantEqual : ∀ (l : List (Wire × Expression p × Expression p))
    (seen : Expression p), Enforces (B.assertMoreSignificantEqual l seen)
      (fun _ w => EqAbove (seen.eval w) (evalZ w l))
  | [], seen => Enforces.pure fun w _ => by simp [evalZ, EqAbove]
  | (m, x, y) :: l, seen => by
    unfold B.assertMoreSignificantEqual
    refine (Enforces.assertProduct _ _ _).bind fun _ => (assertMoreSignificantEqual l _).mono
      fun z w _ h h' => ?_
    rw [eval_sub, Expression.eval_zero] at h'
    rw [eval_add, eval_ofWire] at h
    exact ⟨h', h⟩

end Enforces

/-- The number whose top bit decides a comparison. -/
theorem cmp_number {c : ℕ} {d : ℤ} (hd : |d| < 2 ^ c) (less strict : Bool) :
    ∃ t : ℕ, t < 2 ^ (c + 1) ∧ t.testBit c = cmpHolds less strict d ∧
      ((2 : Elem p) ^ c - Elem.ofBool strict) + (if less then -(d : Elem p) else (d : Elem p))
        = (t : Elem p) := by
  rw [abs_lt] at hd
  set e : ℤ := (if less then -d else d) with he
  set k : ℤ := (if strict then 1 else 0) with hk
  have hk' : 0 ≤ k ∧ k ≤ 1 := by cases strict <;> simp [hk]
  have he' : -2 ^ c < e ∧ e < 2 ^ c := by cases less <;> simp [he] <;> constructor <;> linarith [hd.1, hd.2]
  have hnn : 0 ≤ (2 : ℤ) ^ c - k + e := by have := he'.1; omega
  obtain ⟨t, ht⟩ := Int.eq_ofNat_of_zero_le hnn
  have htop : t < 2 ^ (c + 1) := by
    have : (t : ℤ) < 2 ^ (c + 1) := by rw [← ht, pow_succ]; omega
    exact_mod_cast this
  refine ⟨t, htop, ?_, ?_⟩
  · have hge : t.testBit c = decide (2 ^ c ≤ t) := by
      rw [Nat.testBit_eq_decide_div_mod_eq]
      congr 1
      rw [eq_iff_iff]
      have hpos : 0 < 2 ^ c := Nat.two_pow_pos c
      rw [pow_succ] at htop
      constructor
      · intro h
        by_contra hc
        rw [Nat.div_eq_of_lt (not_le.1 hc)] at h
        simp at h
      · intro h
        have : t / 2 ^ c = 1 := by rw [Nat.div_eq_iff hpos]; omega
        rw [this]
    rw [hge]
    unfold cmpHolds
    congr 1
    rw [eq_iff_iff]
    have h2 : (2 ^ c ≤ t) ↔ (2 : ℤ) ^ c ≤ t := by
      constructor
      · intro h; exact_mod_cast h
      · intro h; exact_mod_cast h
    rw [h2, ← ht]
    cases less <;> cases strict <;> simp [he, hk] <;> omega
  · have h3 : ((t : ℤ) : Elem p) = (t : Elem p) := by push_cast; rfl
    rw [← h3, ← ht]
    cases less <;> cases strict <;> simp [he, hk, Elem.ofBool_true, Elem.ofBool_false]

theorem bit_of_val {w : Assign p} {e : BinaryExpression p} (hb : e.AllBool w) {i : ℕ}
    {b : BooleanExpression p} (h : e.bits[i]? = some b) :
    b.eval w = Elem.ofBool ((e.val w).testBit i) := by
  have hd := digits_of_val hb.digits_le (v := e.val w) rfl
  have hi : i < e.bits.length := by
    by_contra hc
    rw [List.getElem?_eq_none (not_lt.1 hc)] at h
    exact absurd h (by simp)
  have h1 : (e.digits w)[i]? = some (b.eval w).n := by
    simp [BinaryExpression.digits, h]
  have hi' : i < (e.digits w).length := by rw [BinaryExpression.digits_length]; exact hi
  rw [hd, List.getElem?_map, List.getElem?_range hi'] at h1
  have h2 := Option.some.inj h1
  dsimp only at h2
  rw [Elem.ofBool_eq_natCast, h2, Elem.natCast_self_n]

namespace Enforces

theorem cmpSubtractive (diff : Expression p) (less strict : Bool) (c : ℕ) :
    Enforces (B.cmpSubtractive diff less strict c) (fun r w => c + 1 < Elem.maxBits p ∧
      IsBool (r.eval w) ∧
      ∀ d : ℤ, |d| < 2 ^ c → diff.eval w = (d : Elem p) →
        r.eval w = Elem.ofBool (cmpHolds less strict d)) := by
  unfold B.cmpSubtractive
  refine (Enforces.ofOption (Q := fun a _ => (1 : Elem p).shl c = some a) fun a h _ _ => h).bind
    fun pow => (Enforces.splitBounded _ (c + 1)).bind fun s =>
    (Enforces.ofOption (Q := fun a _ => s.bits[c]? = some a) fun a h _ _ => h).mono
    fun r w h1 hr ⟨hb, hl, hlt, hlt2, hv⟩ hpow => ⟨hlt, ?_, fun d hd hdiff => ?_⟩
  · exact hb r (List.mem_of_getElem? hr)
  · have hcp : 2 ^ c < p := lt_of_le_of_lt (Nat.pow_le_pow_right (by simp) (Nat.le_succ c)) hlt2
    rw [Elem.one_shl hcp] at hpow
    obtain ⟨t, ht1, ht2, ht3⟩ := cmp_number (p := p) hd less strict
    rw [bit_of_val hb hr, hv, ← ht2]
    congr 2
    rw [eval_add, Expression.eval_ofElem h1, ← Option.some.inj hpow]
    have : (if less = true then -diff else diff).eval w
        = if less then -(d : Elem p) else (d : Elem p) := by
      cases less
      · exact hdiff
      · rw [if_pos rfl, if_pos rfl, eval_neg, hdiff]
    rw [this, ht3, Elem.natCast_n_of_lt (by omega)]

theorem cmpTail (l : List (Wire × Expression p × Expression p)) (de : BooleanExpression p)
    (less strict : Bool) (c : ℕ) :
    Enforces (B.cmpTail l de less strict c) (fun r w => l ≠ [] ∧ c + 1 < Elem.maxBits p ∧
      IsBool (r.eval w) ∧ EqAbove 0 (evalZ w l) ∧
      ∀ d : ℤ, |d| < 2 ^ c → maskDiff (evalZ w l) = (d : Elem p) →
        r.eval w = Elem.ofBool (cmpHolds less strict d)) := by
  unfold B.cmpTail
  refine (Enforces.maskedSum l 0).bind fun dc => ?_
  match l with
  | [] => exact Enforces.panic
  | (m, x, y) :: l =>
    refine (Enforces.assertMoreSignificantEqual l _).bind fun _ => ?_
    refine Enforces.bind (Q := fun _ _ => True) ?_ fun _ =>
      (Enforces.cmpSubtractive dc less strict c).mono fun r w h1 ⟨g1, g2, g3⟩ _ h3 h4 =>
        ⟨by simp, g1, g2, ⟨by rw [zero_mul], ?_⟩, fun d hd hm => g3 d hd ?_⟩
    · cases strict
      · exact ((Enforces.selection _ _ _).bind fun nz => (Enforces.assertNonzero nz).mono
          fun _ _ _ _ _ => trivial)
      · exact Enforces.pure fun _ _ => trivial
    · rw [eval_ofWire] at h3
      rw [zero_add]; exact h3
    · rw [h4, Expression.eval_zero, zero_add, hm]

theorem cmpBinary (x y : BinaryExpression p) (less strict : Bool) :
    Enforces (B.cmpBinary x y less strict) (fun r w => x.len = y.len ∧ IsBool (r.eval w) ∧
      (x.AllBool w → y.AllBool w → ∃ d : ℤ, (d < 0 → x.val w < y.val w) ∧
        (0 < d → y.val w < x.val w) ∧ r.eval w = Elem.ofBool (cmpHolds less strict d))) := by
  unfold B.cmpBinary
  set c := cmpChunkBits (Elem.maxBits p) x.len with hcdef
  have hc : 0 < c := cmpChunkBits_pos _ _
  refine (Enforces.require _).bind fun _ =>
    (Enforces.ofOption (Q := fun a _ => x.chunks c = some a) fun a h _ _ => h).bind fun xc =>
    (Enforces.ofOption (Q := fun a _ => xc.mapM BinaryExpression.join = some a)
      fun a h _ _ => h).bind fun xs =>
    (Enforces.ofOption (Q := fun a _ => y.chunks c = some a) fun a h _ _ => h).bind fun yc =>
    (Enforces.ofOption (Q := fun a _ => yc.mapM BinaryExpression.join = some a)
      fun a h _ _ => h).bind fun ys =>
    (Enforces.wires xs.length).bind fun ms => (Enforces.assertBooleans ms).bind fun _ =>
    (Enforces.assertBoolean _).bind fun de => (Enforces.generator _ _).bind fun _ =>
    (Enforces.cmpTail _ de less strict c).mono fun r w h1 ⟨g1, g2, g3, g4, g5⟩ _ ⟨_, hsum⟩ hmb
      ⟨hml, hmn⟩ hys hyc hxs hxc hlen => ⟨hlen, g3, fun hxb hyb => ?_⟩
  rw [chunks_eq hc] at hxc hyc
  obtain rfl := Option.some.inj hxc
  obtain rfl := Option.some.inj hyc
  have ex := (mapM_join hxs).1 w
  have ey := (mapM_join hys).1 w
  set us : List ℕ := (chunksOf c x.bits).map fun b => BinaryExpression.val w ⟨b⟩ with hus
  set vs : List ℕ := (chunksOf c y.bits).map fun b => BinaryExpression.val w ⟨b⟩ with hvs
  have ex' : xs.map (eval w) = us.map fun u : ℕ => (u : Elem p) := by
    rw [ex, hus, List.map_map, List.map_map]; rfl
  have ey' : ys.map (eval w) = vs.map fun u : ℕ => (u : Elem p) := by
    rw [ey, hvs, List.map_map, List.map_map]; rfl
  have ez := evalZ_zip w (ms := ms) ex' ey'
  rw [ez] at g4 g5
  have hul : xs.length = us.length := by
    have := congrArg List.length ex'; simpa using this
  have huv : us.length = vs.length := by
    have h3 := congrArg List.length (chunksOf_map_length (k := c) x.bits y.bits hlen)
    simpa [hus, hvs] using h3
  have hnum : us.length < p := by
    have h3 : (x.len + c - 1) / c < 2 ^ (Elem.maxBits p - 1) := chunks_lt g2
    have h4 := Elem.two_pow_lt_of_lt_maxBits (p := p) (k := Elem.maxBits p - 1)
      (by have := BinaryExpression.maxBits_pos (p := p); omega)
    have h5 : us.length = (x.len + c - 1) / c := by
      rw [hus, List.length_map, chunksOf_length hc]; rfl
    rw [h5]; omega
  have hsumN : ((ms.map w).map fun m => m.n).sum ≤ 1 := by
    rw [Expression.eval_sumOfWires w ms hmn] at hsum
    have hle : ∀ l : List Wire, (∀ m ∈ l, IsBool (w m)) →
        ((l.map w).map fun m => m.n).sum ≤ l.length ∧
        (l.map w).sum = ((((l.map w).map fun m => m.n).sum : ℕ) : Elem p) := by
      intro l hl
      induction l with
      | nil => simp
      | cons m l ih =>
        obtain ⟨i1, i2⟩ := ih fun i hi => hl i (by simp [hi])
        have := (hl m (by simp)).n_le
        simp only [List.map_cons, List.sum_cons, List.length_cons]
        refine ⟨by omega, ?_⟩
        rw [i2]; push_cast; rw [Elem.natCast_self_n]
    obtain ⟨i1, i2⟩ := hle ms hmb
    rw [i2] at hsum
    have := hsum.n_le
    rwa [Elem.natCast_n_of_lt (by omega)] at this
  have hcp : 2 ^ c ≤ p := (Elem.two_pow_lt_of_lt_maxBits (by omega)).le
  obtain ⟨d, hd1, hd2, hd3, hd4, -⟩ := mask_sound hcp (ms.map w) us vs 0
    (by simp [hml, hul]) huv
    (by
      intro u hu
      obtain ⟨b, hb, rfl⟩ := List.mem_map.1 hu
      exact chunk_lt hxb hc b hb)
    (by
      intro u hu
      obtain ⟨b, hb, rfl⟩ := List.mem_map.1 hu
      exact chunk_lt hyb hc b hb)
    (by
      intro m hm
      obtain ⟨i, hi, rfl⟩ := List.mem_map.1 hm
      exact hmb i hi) (Or.inl rfl) (by simpa using hsumN) g4
  have cx : chunkVal c us = x.val w := chunkVal_chunks w hc x
  have cy : chunkVal c vs = y.val w := chunkVal_chunks w hc y
  rw [cx, cy] at hd3 hd4
  exact ⟨d, hd3, hd4, g5 d hd1 hd2⟩

end Enforces

/-! ## Completeness -/

namespace Comp

theorem assertBooleans : ∀ (ms : List Wire) (s : Hon p), (∀ m ∈ ms, m < s.next ∧ IsBool (s.W m)) →
    Comp (B.assertBooleans ms) s fun _ s' => s'.next = s.next ∧ s'.D = s.D ∧ s'.W = s.W
  | [], s, _ => Comp.pure ⟨rfl, rfl, rfl⟩
  | m :: ms, s, h => by
    unfold B.assertBooleans
    refine (Comp.assertBoolean (.ofWire (h m (by simp)).1)
      (by rw [eval_ofWire]; exact (h m (by simp)).2)).bind fun _ s1 l1 ⟨_, n1, D1, W1⟩ => ?_
    refine (assertBooleans ms s1 fun i hi => ?_).mono fun _ s2 l2 ⟨n2, D2, W2⟩ =>
      ⟨by rw [n2, n1], by rw [D2, D1], by rw [W2, W1]⟩
    rw [n1, W1]
    exact h i (by simp [hi])

/-- All parts of the triples are in scope. -/
def ScopedZ (n : ℕ) (l : List (Wire × Expression p × Expression p)) : Prop :=
  ∀ z ∈ l, z.1 < n ∧ z.2.1.Scoped n ∧ z.2.2.Scoped n

theorem maskedSum : ∀ (l : List (Wire × Expression p × Expression p)) (sum : Expression p)
    (s : Hon p), ScopedZ s.next l → sum.Scoped s.next →
    Comp (B.maskedSum l sum) s fun z s' => s'.D = s.D ∧ z.Scoped s'.next
  | [], sum, s, _, h => Comp.pure ⟨rfl, h⟩
  | (m, x, y) :: l, sum, s, hl, hs => by
    unfold B.maskedSum
    obtain ⟨h1, h2, h3⟩ := hl (m, x, y) (by simp)
    refine (Comp.product (.ofWire h1) (h2.sub h3)).bind fun t s1 l1 ⟨D1, sc, _⟩ => ?_
    refine (maskedSum l _ s1 (fun z hz => ?_) ((l1.scoped hs).add sc)).mono
      fun _ _ _ ⟨D2, h⟩ => ⟨by rw [D2, D1], h⟩
    obtain ⟨k1, k2, k3⟩ := hl z (by simp [hz])
    exact ⟨lt_of_lt_of_le k1 l1.1, l1.scoped k2, l1.scoped k3⟩

theorem assertMoreSignificantEqual : ∀ (l : List (Wire × Expression p × Expression p))
    (seen : Expression p) (s : Hon p), ScopedZ s.next l → seen.Scoped s.next →
    EqAbove (seen.eval s.W) (evalZ s.W l) →
    Comp (B.assertMoreSignificantEqual l seen) s
      fun _ s' => s'.next = s.next ∧ s'.D = s.D ∧ s'.W = s.W
  | [], seen, s, _, _, _ => Comp.pure ⟨rfl, rfl, rfl⟩
  | (m, x, y) :: l, seen, s, hl, hs, he => by
    unfold B.assertMoreSignificantEqual
    obtain ⟨h1, h2, h3⟩ := hl (m, x, y) (by simp)
    obtain ⟨e1, e2⟩ := he
    refine (Comp.assertProduct hs (h2.sub h3) .zero (by
      rw [eval_sub, Expression.eval_zero]; exact e1)).bind fun _ s1 l1 ⟨n1, D1, W1⟩ => ?_
    refine (assertMoreSignificantEqual l _ s1 (by rw [n1]; exact fun z hz => hl z (by simp [hz]))
      (by rw [n1]; exact hs.add (.ofWire h1)) ?_).mono fun _ s2 _ ⟨n2, D2, W2⟩ =>
      ⟨by rw [n2, n1], by rw [D2, D1], by rw [W2, W1]⟩
    rw [eval_add, eval_ofWire, W1]
    exact e2

theorem cmpSubtractive {s : Hon p} {diff : Expression p} (hdsc : diff.Scoped s.next)
    (less strict : Bool) {c : ℕ} (hc : c + 1 < Elem.maxBits p) {d : ℤ} (hd : |d| < 2 ^ c)
    (hdiff : diff.eval s.W = (d : Elem p)) :
    Comp (B.cmpSubtractive diff less strict c) s fun r s' => s'.D = s.D ∧ r.Scoped s'.next ∧
      r.eval s'.W = Elem.ofBool (cmpHolds less strict d) := by
  have hcp := Elem.two_pow_lt_of_lt_maxBits hc
  have hcp' : 2 ^ c < p := lt_of_le_of_lt (Nat.pow_le_pow_right (by simp) (Nat.le_succ c)) hcp
  have H : Comp (B.cmpSubtractive diff less strict c) s fun r s' => s'.D = s.D ∧ r.Scoped s'.next := by
    unfold B.cmpSubtractive
    refine Comp.ofOption_bind (Elem.one_shl hcp') ?_
    obtain ⟨t, ht1, ht2, ht3⟩ := cmp_number (p := p) hd less strict
    refine (Comp.splitBounded (n := c + 1) ?_ hc ?_).bind fun e s1 l1 ⟨D1, sc1, hb1, hl1, hv1⟩ => ?_
    · refine (Expression.Scoped.ofElem s.pos _).add ?_
      cases less
      · exact hdsc
      · exact hdsc.neg
    · rw [eval_add, Expression.eval_ofElem s.one]
      have : (if less = true then -diff else diff).eval s.W
          = if less then -(d : Elem p) else (d : Elem p) := by
        cases less
        · exact hdiff
        · rw [if_pos rfl, if_pos rfl, eval_neg, hdiff]
      rw [this, ht3, Elem.natCast_n_of_lt (by omega)]
      exact ht1
    · have hlt : c < e.bits.length := by
        change e.len = _ at hl1
        unfold BinaryExpression.len at hl1
        omega
      exact Comp.ofOption (List.getElem?_eq_getElem hlt) ⟨D1, sc1 _ (List.getElem_mem hlt)⟩
  refine (H.enforced (Enforces.cmpSubtractive diff less strict c)).mono
    fun r s' l ⟨⟨h1, h2⟩, _, _, h5⟩ => ⟨h1, h2, h5 d hd ?_⟩
  rw [l.eval hdsc, hdiff]

theorem ScopedZ.mono {n m : ℕ} {l : List (Wire × Expression p × Expression p)} (h : ScopedZ n l)
    (hnm : n ≤ m) : ScopedZ m l := fun z hz =>
  ⟨lt_of_lt_of_le (h z hz).1 hnm, (h z hz).2.1.mono hnm, (h z hz).2.2.mono hnm⟩

theorem evalZ_congr {w w' : Assign p} {n : ℕ} {l : List (Wire × Expression p × Expression p)}
    (h : ScopedZ n l) (hw : ∀ i < n, w' i = w i) : evalZ w' l = evalZ w l := by
  unfold evalZ
  apply List.map_congr_left
  intro z hz
  obtain ⟨h1, h2, h3⟩ := h z hz
  simp only [Prod.map, hw _ h1, Expression.eval_congr fun i hi => hw i (h2 i hi),
    Expression.eval_congr fun i hi => hw i (h3 i hi)]

theorem cmpTail (h2p : 2 < p) {s : Hon p} {l : List (Wire × Expression p × Expression p)}
    (hl : l ≠ []) (hsc : ScopedZ s.next l) {de : BooleanExpression p} (hde : de.Scoped s.next)
    (less strict : Bool) {c : ℕ} (hc : c + 1 < Elem.maxBits p)
    (heq : EqAbove 0 (evalZ s.W l)) {d : ℤ} (hd : |d| < 2 ^ c)
    (hdiff : maskDiff (evalZ s.W l) = (d : Elem p))
    (hns : strict = false → (1 : Elem p) + de.eval s.W * ((d : Elem p) - 1) ≠ 0) :
    Comp (B.cmpTail l de less strict c) s fun r s' => s'.D = s.D ∧ r.Scoped s'.next ∧
      r.eval s'.W = Elem.ofBool (cmpHolds less strict d) := by
  unfold B.cmpTail
  refine ((Comp.maskedSum l 0 s hsc .zero).enforced (Enforces.maskedSum l 0)).bind
    fun dc s1 l1 ⟨⟨D1, sc1⟩, v1⟩ => ?_
  rw [Expression.eval_zero, zero_add, evalZ_congr hsc l1.2, hdiff] at v1
  match l, hl, hsc, heq with
  | (m, x, y) :: l, _, hsc, heq =>
    have hsc1 : ScopedZ s1.next ((m, x, y) :: l) := hsc.mono l1.1
    have heq1 : EqAbove (s1.W m) (evalZ s1.W l) := by
      have h3 : EqAbove 0 (evalZ s1.W ((m, x, y) :: l)) := by rw [evalZ_congr hsc l1.2]; exact heq
      have := h3.2
      rwa [zero_add] at this
    refine (Comp.assertMoreSignificantEqual l _ s1 (fun z hz => hsc1 z (by simp [hz]))
      (.ofWire (hsc1 (m, x, y) (by simp)).1) (by rw [eval_ofWire]; exact heq1)).bind
      fun _ s2 l2 ⟨n2, D2, W2⟩ => ?_
    have key : Comp (if strict = true then (Pure.pure () : B p Unit) else do
        let nz ← B.selection de dc 1
        B.assertNonzero nz) s2 fun _ s' => s'.D = s2.D := by
      cases strict
      · refine (Comp.selection ((l1.trans l2).bscoped hde) (l2.scoped sc1) (.one s2.pos)).bind
          fun nz s3 l3 ⟨D3, sc3, v3⟩ => ?_
        refine (Comp.assertNonzero h2p sc3 ?_).mono fun _ s4 _ D4 => by rw [D4, D3]
        rw [v3, Expression.eval_one s2.one, (l1.trans l2).beval hde, l2.eval sc1, v1]
        exact hns rfl
      · exact Comp.pure rfl
    refine key.bind fun _ s3 l3 D3 => ?_
    refine (Comp.cmpSubtractive ((l2.trans l3).scoped sc1) less strict hc hd ?_).mono
      fun r s4 l4 ⟨D4, sc4, v4⟩ => ⟨by rw [D4, D3, D2, D1], sc4, v4⟩
    rw [(l2.trans l3).eval sc1, v1]

/-- The values written by the mask generator, from the most significant chunk on. -/
def MaskSpec (W : Assign p) : List (Wire × Expression p × Expression p) → Bool → Prop
  | [], _ => True
  | (m, x, y) :: l, seen =>
    W m = Elem.ofBool (decide (x.eval W ≠ y.eval W) && !seen) ∧
    MaskSpec W l (seen || decide (x.eval W ≠ y.eval W))

theorem maskGen_eq {W : Assign p} {n : ℕ} : ∀ (l : List (Wire × Expression p × Expression p))
    (seen : Bool) (v : WireValues p), MaskSpec W l seen → (∀ z ∈ l, n ≤ z.1) →
    (∀ z ∈ l, (∀ i ∈ z.2.1.dependencies, i < n ∧ v i = some (W i)) ∧
      (∀ i ∈ z.2.2.dependencies, i < n ∧ v i = some (W i))) →
    B.maskGen l seen v = setAll v ((l.map (·.1)).map fun i => (i, W i))
  | [], _, v, _, _, _ => rfl
  | (m, x, y) :: l, seen, v, hs, hn, hd => by
    obtain ⟨h1, h2⟩ := hs
    obtain ⟨h3, h4⟩ := hd (m, x, y) (by simp)
    unfold B.maskGen
    rw [Expression.evaluate_eq (w := W) fun i hi => (h3 i hi).2,
      Expression.evaluate_eq (w := W) fun i hi => (h4 i hi).2]
    simp only [Option.bind_eq_bind, Option.bind_some]
    rw [← h1, List.map_cons, List.map_cons, setAll]
    by_cases hv : v m = none
    · rw [set_eq_some hv, Option.bind_some, Option.bind_some]
      apply maskGen_eq l _ _ h2 fun z hz => hn z (by simp [hz])
      intro z hz
      obtain ⟨h5, h6⟩ := hd z (by simp [hz])
      have hm : n ≤ m := hn (m, x, y) (by simp)
      refine ⟨fun i hi => ⟨(h5 i hi).1, ?_⟩, fun i hi => ⟨(h6 i hi).1, ?_⟩⟩
      · rw [if_neg (by have := (h5 i hi).1; omega)]; exact (h5 i hi).2
      · rw [if_neg (by have := (h6 i hi).1; omega)]; exact (h6 i hi).2
    · have : v.set m (W m) = none := by
        unfold WireValues.set WireValues.contains
        rw [if_pos (by rw [Option.isSome_iff_ne_none]; exact hv)]
      rw [this]; rfl

theorem MaskSpec_append {W : Assign p} : ∀ (l l' : List (Wire × Expression p × Expression p))
    (seen : Bool), MaskSpec W l seen →
    MaskSpec W l' (seen || l.any fun z => decide (z.2.1.eval W ≠ z.2.2.eval W)) →
    MaskSpec W (l ++ l') seen
  | [], l', seen, _, h => by simpa using h
  | (m, x, y) :: l, l', seen, ⟨h1, h2⟩, h => by
    refine ⟨h1, MaskSpec_append l l' _ h2 ?_⟩
    rw [List.any_cons, ← Bool.or_assoc] at h
    exact h

theorem MaskSpec_honest {W : Assign p} {c : ℕ} (hcp : 2 ^ c ≤ p) : ∀ (ms : List Wire)
    (xs ys : List (Expression p)) (us vs : List ℕ),
    xs.map (eval W) = us.map (fun u : ℕ => (u : Elem p)) →
    ys.map (eval W) = vs.map (fun u : ℕ => (u : Elem p)) →
    us.length = vs.length → (∀ u ∈ us, u < 2 ^ c) → (∀ u ∈ vs, u < 2 ^ c) →
    ms.map W = honestMask us vs →
    MaskSpec W (ms.zip (xs.zip ys)).reverse false ∧
    ((ms.zip (xs.zip ys)).reverse.any fun z => decide (z.2.1.eval W ≠ z.2.2.eval W))
      = decide (us ≠ vs)
  | ms, [], ys, us, vs, hx, hy, hl, hu, hv, hm => by
    have hus : us = [] := by simpa using hx.symm
    subst hus
    have hvs : vs = [] := List.length_eq_zero_iff.1 (by simpa using hl.symm)
    subst hvs
    simp [MaskSpec]
  | ms, x :: xs, [], us, vs, hx, hy, hl, hu, hv, hm => by
    have hvs : vs = [] := by simpa using hy.symm
    subst hvs
    have hus : us = [] := List.length_eq_zero_iff.1 (by simpa using hl)
    subst hus
    simp at hx
  | [], x :: xs, y :: ys, us, vs, hx, hy, hl, hu, hv, hm => by
    match us, vs, hx, hy with
    | u :: us, v :: vs, _, _ => simp [honestMask] at hm
  | m :: ms, x :: xs, y :: ys, us, vs, hx, hy, hl, hu, hv, hm => by
    match us, vs, hx, hy, hl, hu, hv, hm with
    | u :: us, v :: vs, hx, hy, hl, hu, hv, hm =>
      simp only [List.map_cons, List.cons.injEq] at hx hy
      rw [List.map_cons, honestMask, List.cons.injEq] at hm
      obtain ⟨i1, i2⟩ := MaskSpec_honest hcp ms xs ys us vs hx.2 hy.2 (by simpa using hl)
        (fun z hz => hu z (by simp [hz])) (fun z hz => hv z (by simp [hz])) hm.2
      have hne : (x.eval W ≠ y.eval W) ↔ u ≠ v := by
        rw [hx.1, hy.1]
        constructor
        · rintro h rfl; exact h rfl
        · intro h he
          exact h (cast_inj (by have := hu u (by simp); omega) (by have := hv v (by simp); omega) he)
      rw [List.zip_cons_cons, List.zip_cons_cons, List.reverse_cons]
      constructor
      · apply MaskSpec_append _ _ _ i1
        rw [i2, Bool.false_or]
        refine ⟨?_, trivial⟩
        rw [hm.1]
        congr 1
        simp only [hne]
        by_cases h1 : u = v <;> by_cases h2 : us = vs <;> simp [h1, h2]
      · rw [List.any_append, i2]
        simp only [List.any_cons, List.any_nil, Bool.or_false, hne]
        by_cases h1 : u = v <;> by_cases h2 : us = vs <;> simp [h1, h2]

theorem _root_.R1CS.join_deps {e : BinaryExpression p} {x : Expression p} (h : e.join = some x) :
    ∀ i ∈ x.dependencies, i ∈ e.dependencies := by
  have key : ∀ (bs : List (BooleanExpression p)) (k : ℕ) (sum r : Expression p),
      BinaryExpression.joinFrom k sum bs = some r → ∀ i ∈ r.dependencies,
      i ∈ sum.dependencies ∨ ∃ b ∈ bs, i ∈ b.dependencies := by
    intro bs
    induction bs with
    | nil =>
      intro k sum r hr i hi
      obtain rfl := Option.some.inj hr
      exact Or.inl hi
    | cons b bs ih =>
      intro k sum r hr i hi
      unfold BinaryExpression.joinFrom at hr
      obtain ⟨cc, _, hr⟩ := Option.bind_eq_some_iff.1 hr
      rcases ih _ _ _ hr i hi with h1 | ⟨b', h1, h2⟩
      · rcases mem_deps_add h1 with h1 | h1
        · exact Or.inl h1
        · exact Or.inr ⟨b, by simp, mem_deps_mulElem h1⟩
      · exact Or.inr ⟨b', by simp [h1], h2⟩
  intro i hi
  unfold BinaryExpression.join at h
  split at h
  · rw [BinaryExpression.mem_dependencies]
    rcases key e.bits 0 _ x h i hi with h1 | h1
    · exact absurd h1 not_mem_deps_zero
    · exact h1
  · exact absurd h (by simp)

theorem _root_.R1CS.mapM_join_deps {cs : List (BinaryExpression p)} {es : List (Expression p)}
    (h : cs.mapM BinaryExpression.join = some es) :
    ∀ x ∈ es, ∀ i ∈ x.dependencies, ∃ c ∈ cs, i ∈ c.dependencies := by
  induction cs generalizing es with
  | nil =>
    simp only [List.mapM_nil] at h
    obtain rfl := Option.some.inj h
    simp
  | cons c cs ih =>
    rw [List.mapM_cons] at h
    obtain ⟨e, he, h⟩ := Option.bind_eq_some_iff.1 h
    obtain ⟨es', hes, h⟩ := Option.bind_eq_some_iff.1 h
    obtain rfl := Option.some.inj h
    intro x hx i hi
    rcases List.mem_cons.1 hx with rfl | hx
    · exact ⟨c, by simp, join_deps he i hi⟩
    · obtain ⟨c', h1, h2⟩ := ih hes x hx i hi
      exact ⟨c', by simp [h1], h2⟩

theorem _root_.R1CS.chunk_deps {e : BinaryExpression p} {k : ℕ} (hk : 0 < k)
    {b : List (BooleanExpression p)} (hb : b ∈ chunksOf k e.bits) :
    ∀ i ∈ (⟨b⟩ : BinaryExpression p).dependencies, i ∈ e.dependencies := by
  intro i hi
  rw [BinaryExpression.mem_dependencies] at hi ⊢
  obtain ⟨x, hx, hix⟩ := hi
  refine ⟨x, ?_, hix⟩
  rw [← chunksOf_flatten hk e.bits]
  exact List.mem_flatten.2 ⟨b, hb, hx⟩

theorem _root_.R1CS.chunk_scoped {e : BinaryExpression p} {n k : ℕ} (h : e.Scoped n) (hk : 0 < k) :
    ∀ c ∈ (chunksOf k e.bits).map fun b => (⟨b⟩ : BinaryExpression p), c.Scoped n := by
  intro c hc x hx
  obtain ⟨b, hb, rfl⟩ := List.mem_map.1 hc
  apply h
  rw [← chunksOf_flatten hk e.bits]
  exact List.mem_flatten.2 ⟨b, hb, hx⟩

end Comp

/-- Everything `cmp_binary` computes from its operands before allocating wires. -/
structure CmpSetup (x y : BinaryExpression p) (c : ℕ) (n : ℕ) (W : Assign p) where
  xs : List (Expression p)
  ys : List (Expression p)
  us : List ℕ
  vs : List ℕ
  hxc : x.chunks c = some ((chunksOf c x.bits).map fun b => ⟨b⟩)
  hyc : y.chunks c = some ((chunksOf c y.bits).map fun b => ⟨b⟩)
  hxs : ((chunksOf c x.bits).map fun b => (⟨b⟩ : BinaryExpression p)).mapM BinaryExpression.join
    = some xs
  hys : ((chunksOf c y.bits).map fun b => (⟨b⟩ : BinaryExpression p)).mapM BinaryExpression.join
    = some ys
  ex : ∀ W' : Assign p, (∀ i < n, W' i = W i) →
    xs.map (eval W') = us.map fun u : ℕ => (u : Elem p)
  ey : ∀ W' : Assign p, (∀ i < n, W' i = W i) →
    ys.map (eval W') = vs.map fun u : ℕ => (u : Elem p)
  scx : ∀ e ∈ xs, e.Scoped n
  scy : ∀ e ∈ ys, e.Scoped n
  dx : ∀ e ∈ xs, ∀ i ∈ e.dependencies, i ∈ x.dependencies
  dy : ∀ e ∈ ys, ∀ i ∈ e.dependencies, i ∈ y.dependencies
  lx : xs.length = us.length
  ly : ys.length = us.length
  luv : us.length = vs.length
  hus : ∀ u ∈ us, u < 2 ^ c
  hvs : ∀ u ∈ vs, u < 2 ^ c
  cx : chunkVal c us = x.val W
  cy : chunkVal c vs = y.val W
  nonempty : 0 < x.len → xs ≠ []

theorem cmpSetup {x y : BinaryExpression p} {c n : ℕ} {W : Assign p} (hc : 0 < c)
    (hcp : 2 ^ c ≤ p) (hx : x.Scoped n) (hy : y.Scoped n) (hxb : x.AllBool W) (hyb : y.AllBool W)
    (hlen : x.len = y.len) : Nonempty (CmpSetup x y c n W) := by
  have hle : ∀ e : BinaryExpression p,
      ∀ b ∈ (chunksOf c e.bits).map fun b => (⟨b⟩ : BinaryExpression p), 2 ^ b.len ≤ p := by
    intro e b hb
    obtain ⟨b, hb', rfl⟩ := List.mem_map.1 hb
    exact le_trans (Nat.pow_le_pow_right (by simp) (chunksOf_lengths hc e.bits b hb').2) hcp
  obtain ⟨xs, hxs⟩ := mapM_join_some (hle x)
  obtain ⟨ys, hys⟩ := mapM_join_some (hle y)
  have hev : ∀ (e : BinaryExpression p) (es : List (Expression p)), e.Scoped n →
      ((chunksOf c e.bits).map fun b => (⟨b⟩ : BinaryExpression p)).mapM BinaryExpression.join
        = some es → ∀ W' : Assign p, (∀ i < n, W' i = W i) →
      es.map (eval W') = ((chunksOf c e.bits).map fun b => BinaryExpression.val W ⟨b⟩).map
        fun u : ℕ => (u : Elem p) := by
    intro e es hs h W' hW
    obtain ⟨h1, h2⟩ := mapM_join h
    have : es.map (eval W') = es.map (eval W) := by
      apply List.map_congr_left
      intro a ha
      exact Expression.eval_congr fun i hi => hW i (h2 n (chunk_scoped hs hc) a ha i hi)
    rw [this, h1 W, List.map_map, List.map_map]; rfl
  have hdep : ∀ (e : BinaryExpression p) (es : List (Expression p)),
      ((chunksOf c e.bits).map fun b => (⟨b⟩ : BinaryExpression p)).mapM BinaryExpression.join
        = some es → ∀ a ∈ es, ∀ i ∈ a.dependencies, i ∈ e.dependencies := by
    intro e es h a ha i hi
    obtain ⟨b, hb, hib⟩ := mapM_join_deps h a ha i hi
    obtain ⟨b, hb', rfl⟩ := List.mem_map.1 hb
    exact chunk_deps hc hb' i hib
  have hxl : xs.length = ((chunksOf c x.bits).map fun b => BinaryExpression.val W ⟨b⟩).length := by
    have := congrArg List.length (hev x xs hx hxs W fun _ _ => rfl)
    simpa using this
  have hyl : ys.length = ((chunksOf c y.bits).map fun b => BinaryExpression.val W ⟨b⟩).length := by
    have := congrArg List.length (hev y ys hy hys W fun _ _ => rfl)
    simpa using this
  have hll : (chunksOf c x.bits).length = (chunksOf c y.bits).length := by
    have := congrArg List.length (chunksOf_map_length (k := c) x.bits y.bits hlen)
    simpa using this
  exact ⟨{
    xs := xs, ys := ys
    us := (chunksOf c x.bits).map fun b => BinaryExpression.val W ⟨b⟩
    vs := (chunksOf c y.bits).map fun b => BinaryExpression.val W ⟨b⟩
    hxc := chunks_eq hc, hyc := chunks_eq hc, hxs := hxs, hys := hys
    ex := hev x xs hx hxs, ey := hev y ys hy hys
    scx := (mapM_join hxs).2 n (chunk_scoped hx hc)
    scy := (mapM_join hys).2 n (chunk_scoped hy hc)
    dx := hdep x xs hxs, dy := hdep y ys hys
    lx := hxl
    ly := by rw [hyl, List.length_map, List.length_map, hll]
    luv := by rw [List.length_map, List.length_map, hll]
    hus := by
      intro u hu
      obtain ⟨b, hb, rfl⟩ := List.mem_map.1 hu
      exact chunk_lt hxb hc b hb
    hvs := by
      intro u hu
      obtain ⟨b, hb, rfl⟩ := List.mem_map.1 hu
      exact chunk_lt hyb hc b hb
    cx := chunkVal_chunks W hc x
    cy := chunkVal_chunks W hc y
    nonempty := by
      rintro h0 rfl
      have h1 : (chunksOf c x.bits).length = 0 := by
        rw [List.length_map] at hxl
        exact hxl.symm
      have h2 := chunksOf_flatten hc x.bits
      rw [List.length_eq_zero_iff.1 h1] at h2
      unfold BinaryExpression.len at h0
      rw [← h2] at h0
      simp at h0 }⟩

theorem zip_scoped {n m : ℕ} {ms : List Wire} {xs ys : List (Expression p)} (hm : ∀ i ∈ ms, i < m)
    (hx : ∀ e ∈ xs, e.Scoped n) (hy : ∀ e ∈ ys, e.Scoped n) (hnm : n ≤ m) :
    Comp.ScopedZ m (ms.zip (xs.zip ys)) := by
  rintro ⟨a, b, c⟩ hz
  obtain ⟨h1, h2⟩ := List.of_mem_zip hz
  obtain ⟨h3, h4⟩ := List.of_mem_zip h2
  exact ⟨hm a h1, (hx b h3).mono hnm, (hy c h4).mono hnm⟩

theorem Comp.cmpBinary (h2p : 2 < p) {s : Hon p} {x y : BinaryExpression p}
    (hx : x.Scoped s.next) (hy : y.Scoped s.next) (hxb : x.AllBool s.W) (hyb : y.AllBool s.W)
    (hlen : x.len = y.len) (h0 : 0 < x.len)
    (hadm : cmpChunkBits (Elem.maxBits p) x.len + 1 < Elem.maxBits p) (less strict : Bool) :
    Comp (B.cmpBinary x y less strict) s fun r s' => s'.D = s.D ∧ r.Scoped s'.next ∧
      r.eval s'.W = Elem.ofBool (cmpHolds less strict ((x.val s.W : ℤ) - (y.val s.W : ℤ))) := by
  unfold B.cmpBinary
  set c := cmpChunkBits (Elem.maxBits p) x.len with hcdef
  have hc : 0 < c := cmpChunkBits_pos _ _
  have hcp : 2 ^ c < p := Elem.two_pow_lt_of_lt_maxBits (by omega)
  obtain ⟨S⟩ := cmpSetup hc hcp.le hx hy hxb hyb hlen
  refine Comp.require_bind hlen (Comp.ofOption_bind S.hxc (Comp.ofOption_bind S.hxs
    (Comp.ofOption_bind S.hyc (Comp.ofOption_bind S.hys ?_))))
  refine (Comp.wires S.xs.length s (honestMask S.us S.vs)
    (by rw [honestMask_length _ _ S.luv, S.lx])).bind fun ms s1 l1 ⟨e1, n1, D1, v1⟩ => ?_
  have hms : ∀ m ∈ ms, s.next ≤ m ∧ m < s1.next := by
    intro m hm
    rw [e1, List.mem_range'_1] at hm
    omega
  have hmn : ms.Nodup := by rw [e1]; exact List.nodup_range'
  refine (Comp.assertBooleans ms s1 fun m hm => ⟨(hms m hm).2, ?_⟩).bind
    fun _ s2 l2 ⟨n2, D2, W2⟩ => ?_
  · exact honestMask_isBool S.us S.vs _ (by rw [← v1]; exact List.mem_map.2 ⟨m, hm, rfl⟩)
  have hsum : (Expression.sumOfWires ms : Expression p).eval s2.W
      = Elem.ofBool (decide (S.us ≠ S.vs)) := by
    rw [Expression.eval_sumOfWires _ ms hmn, W2, v1]
    have h3 := honestMask_sum (p := p) S.us S.vs S.luv
    have h4 : ∀ l : List (Elem p), l.sum = (((l.map fun m => m.n).sum : ℕ) : Elem p) := by
      intro l
      induction l with
      | nil => simp
      | cons a l ih =>
        simp only [List.map_cons, List.sum_cons]
        rw [Nat.cast_add, ← ih, Elem.natCast_self_n]
    rw [h4, h3]
    by_cases he : S.us = S.vs <;> simp [he, Elem.ofBool_true, Elem.ofBool_false]
  refine (Comp.assertBoolean (.sumOfWires fun i hi => by rw [n2]; exact (hms i hi).2)
    (by rw [hsum]; exact isBool_ofBool _)).bind fun de s3 l3 ⟨hde, n3, D3, W3⟩ => ?_
  have W31 : s3.W = s1.W := by rw [W3, W2]
  have hagree : ∀ i < s.next, s3.W i = s.W i := fun i hi => by rw [W31]; exact l1.2 i hi
  have ez := evalZ_zip s3.W (ms := ms) (S.ex _ hagree) (S.ey _ hagree)
  have v3 : ms.map s3.W = honestMask S.us S.vs := by rw [W31]; exact v1
  rw [v3] at ez
  have hspec := (Comp.MaskSpec_honest hcp.le ms S.xs S.ys S.us S.vs (S.ex _ hagree) (S.ey _ hagree)
    S.luv S.hus S.hvs v3).1
  have hzl : ∀ z ∈ ms.zip (S.xs.zip S.ys), z.1 ∈ ms ∧ z.2.1 ∈ S.xs ∧ z.2.2 ∈ S.ys := by
    rintro ⟨a, b, d⟩ hz
    obtain ⟨h1, h2⟩ := List.of_mem_zip hz
    obtain ⟨h3, h4⟩ := List.of_mem_zip h2
    exact ⟨h1, h3, h4⟩
  have hmlen : ms.length = S.us.length := by
    have := congrArg List.length v1
    rw [List.length_map, honestMask_length _ _ S.luv] at this
    exact this
  have hfst : (ms.zip (S.xs.zip S.ys)).map (·.1) = ms := by
    apply List.map_fst_zip
    rw [List.length_zip, S.lx, S.ly, hmlen]; simp
  refine (Comp.generator ms.reverse s.D ?_ ?_ ?_).bind fun _ s4 l4 ⟨n4, D4, W4⟩ => ?_
  · rw [D3, D2, D1]
  · refine GenOK.setAll (List.nodup_reverse.2 hmn) fun v hin => ?_
    have hrev : ms.reverse = ((ms.zip (S.xs.zip S.ys)).reverse.map (·.1)) := by
      rw [List.map_reverse, hfst]
    rw [hrev]
    apply Comp.maskGen_eq (n := s.next) _ _ _ hspec
    · intro z hz
      exact (hms _ (hzl z (List.mem_reverse.1 hz)).1).1
    · intro z hz
      obtain ⟨_, h2, h3⟩ := hzl z (List.mem_reverse.1 hz)
      exact ⟨fun i hi => ⟨S.scx _ h2 i hi, hin i (List.mem_append_left _ (S.dx _ h2 i hi))⟩,
        fun i hi => ⟨S.scy _ h3 i hi, hin i (List.mem_append_right _ (S.dy _ h3 i hi))⟩⟩
  · intro i hi
    have : i < s.next := by
      rcases List.mem_append.1 hi with h | h
      · exact hx.deps i h
      · exact hy.deps i h
    have hle := l1.1
    refine ⟨by rw [n3, n2]; omega, fun o ho => ?_⟩
    have := (hms o (List.mem_reverse.1 ho)).1
    omega
  obtain ⟨d, d1, d2, d3, d4, d5⟩ := honestMask_diff (p := p) (c := c) S.us S.vs S.luv S.hus S.hvs
  rw [S.cx, S.cy] at d3 d4
  have hsc : Comp.ScopedZ s4.next (ms.zip (S.xs.zip S.ys)) :=
    zip_scoped (n := s.next) (fun i hi => by rw [n4, n3, n2]; exact (hms i hi).2) S.scx S.scy
      (by rw [n4, n3, n2]; exact l1.1)
  have hdec : cmpHolds less strict ((x.val s.W : ℤ) - (y.val s.W : ℤ)) = cmpHolds less strict d :=
    cmpHolds_congr (by rw [d3]; omega) (by rw [d4]; omega)
  refine (Comp.cmpTail h2p ?_ hsc ?_ less strict (by omega) ?_ d1 ?_ ?_).mono
    fun r s5 l5 ⟨D5, sc5, v5⟩ => ⟨by rw [D5, D4], sc5, by rw [v5, hdec]⟩
  · intro h
    rw [h] at hfst
    have : S.us.length = 0 := by rw [← hmlen, ← hfst]; rfl
    rw [← S.lx] at this
    exact S.nonempty h0 (List.length_eq_zero_iff.1 this)
  · subst hde
    exact Expression.Scoped.sumOfWires fun i hi => by rw [n4, n3, n2]; exact (hms i hi).2
  · rw [W4, ez]
    exact honestMask_eqAbove S.us S.vs 0 S.luv fun h => absurd rfl h
  · rw [W4, ez, d2]
  · intro _
    subst hde
    change (1 : Elem p) + (Expression.sumOfWires ms : Expression p).eval s4.W * _ ≠ 0
    rw [W4, W3, hsum]
    by_cases he : S.us = S.vs
    · simp [he, Elem.ofBool_false]
    · have hd0 : d ≠ 0 := fun h => he (d5.1 h)
      simp only [ne_eq, he, not_false_eq_true, decide_true, Elem.ofBool_true, one_mul]
      rw [add_sub_cancel]
      intro hz
      rw [abs_lt] at d1
      have hcp2 : (2 : ℤ) ^ c < p := by exact_mod_cast hcp
      have hdn : ((d.natAbs : ℕ) : Elem p) = 0 := by
        rcases Int.natAbs_eq d with h | h
        · rw [h, Int.cast_natCast] at hz; exact hz
        · rw [h, Int.cast_neg, Int.cast_natCast, neg_eq_zero] at hz
          exact hz
      have h6 : d.natAbs < p := by omega
      have h7 := Elem.natCast_n_of_lt h6
      rw [hdn] at h7
      simp at h7
      omega

/-! ## Forging -/

theorem Can.cmpBinary_zero (h2p : 2 < p) {s : Wit p} {x y : BinaryExpression p}
    (hx : x.Scoped s.next) (hy : y.Scoped s.next) (hxb : x.AllBool s.W) (hyb : y.AllBool s.W)
    (hlen : x.len = y.len) (h0 : 0 < x.len)
    (hadm : cmpChunkBits (Elem.maxBits p) x.len + 1 < Elem.maxBits p) (less strict : Bool) :
    Can (B.cmpBinary x y less strict) s fun r s' => r.Scoped s'.next ∧
      r.eval s'.W = Elem.ofBool (!strict) := by
  unfold B.cmpBinary
  set c := cmpChunkBits (Elem.maxBits p) x.len with hcdef
  have hc : 0 < c := cmpChunkBits_pos _ _
  have hcp : 2 ^ c < p := Elem.two_pow_lt_of_lt_maxBits (by omega)
  obtain ⟨S⟩ := cmpSetup hc hcp.le hx hy hxb hyb hlen
  refine Can.require_bind hlen (Can.ofOption_bind S.hxc (Can.ofOption_bind S.hxs
    (Can.ofOption_bind S.hyc (Can.ofOption_bind S.hys ?_))))
  refine (Can.ofComp (Prog.wires _) (Comp.wires S.xs.length s.toHon
    (List.replicate S.xs.length 0) (by simp))).bind
    fun ms s1 l1 ⟨t1, tn1, tW1, e1, n1, _, v1⟩ => ?_
  have n1' : s1.next = s.next + S.xs.length := by rw [← tn1, n1]; rfl
  have e1' : ms = List.range' s.next S.xs.length := e1
  rw [tW1] at v1
  have hms : ∀ m ∈ ms, m < s1.next := by
    intro m hm
    rw [e1', List.mem_range'_1] at hm
    omega
  have hmn : ms.Nodup := by rw [e1']; exact List.nodup_range'
  have hm0 : ∀ m ∈ ms, s1.W m = 0 := by
    intro m hm
    have : s1.W m ∈ List.replicate S.xs.length (0 : Elem p) := by
      rw [← v1]; exact List.mem_map.2 ⟨m, hm, rfl⟩
    exact List.eq_of_mem_replicate this
  refine (Can.ofComp (Prog.assertBooleans _) (Comp.assertBooleans ms s1.toHon fun m hm =>
    ⟨hms m hm, Or.inl (hm0 m hm)⟩)).bind fun _ s2 l2 ⟨t2, tn2, tW2, n2, _, W2⟩ => ?_
  have n2' : s2.next = s1.next := by rw [← tn2, n2]; rfl
  have W2' : s2.W = s1.W := by rw [← tW2, W2]; rfl
  have hsum : (Expression.sumOfWires ms : Expression p).eval s1.W = 0 := by
    rw [Expression.eval_sumOfWires _ ms hmn, v1]; simp
  refine (Can.ofComp (Prog.assertBoolean _) (Comp.assertBoolean (s := s2.toHon)
    (.sumOfWires fun i hi => by change i < s2.next; rw [n2']; exact hms i hi)
    (by change IsBool (Expression.eval s2.W _); rw [W2', hsum]; exact Or.inl rfl))).bind
    fun de s3 l3 ⟨t3, tn3, tW3, hde, n3, _, W3⟩ => ?_
  have n3' : s3.next = s1.next := by rw [← tn3, n3]; exact n2'
  have W3' : s3.W = s1.W := by rw [← tW3, W3]; exact W2'
  refine (Can.generator _ _).bind fun _ s4 l4 ⟨n4, W4⟩ => ?_
  have n4' : s4.next = s1.next := by rw [n4, n3']
  have W4' : s4.W = s1.W := by rw [W4, W3']
  have hagree : ∀ i < s.next, s4.W i = s.W i := fun i hi => by rw [W4']; exact l1.2 i hi
  have ez := evalZ_zip s4.W (ms := ms) (S.ex _ hagree) (S.ey _ hagree)
  rw [W4', v1, ← W4'] at ez
  have hmlen : ms.length = S.us.length := by rw [e1', List.length_range', S.lx]
  have hfst : (ms.zip (S.xs.zip S.ys)).map (·.1) = ms := by
    apply List.map_fst_zip
    rw [List.length_zip, S.lx, S.ly, hmlen]; simp
  have hsc : Comp.ScopedZ s4.next (ms.zip (S.xs.zip S.ys)) :=
    zip_scoped (n := s.next) (fun i hi => by rw [n4']; exact hms i hi) S.scx S.scy
      (by rw [n4']; exact l1.1)
  refine (Can.ofComp (Prog.cmpTail _ _ _ _ _) (Comp.cmpTail (s := s4.toHon) h2p ?_ hsc ?_ less strict
    (c := c) (by omega) (d := 0) ?_ (by simp) ?_ ?_)).mono
    fun r s5 l5 ⟨t5, tn5, tW5, _, sc5, v5⟩ => ⟨by rw [← tn5]; exact sc5, by
      rw [← tW5, v5, cmpHolds_zero]⟩
  · intro h
    rw [h] at hfst
    have : S.us.length = 0 := by rw [← hmlen, ← hfst]; rfl
    rw [← S.lx] at this
    exact S.nonempty h0 (List.length_eq_zero_iff.1 this)
  · subst hde
    exact Expression.Scoped.sumOfWires fun i hi => by
      change i < s4.next; rw [n4']; exact hms i hi
  · change EqAbove 0 (evalZ s4.W _)
    rw [ez]; exact zeroMask_eqAbove _ _ _
  · change maskDiff (evalZ s4.W _) = _
    rw [ez, zeroMask_diff]; simp
  · intro _
    subst hde
    change (1 : Elem p) + (Expression.sumOfWires ms : Expression p).eval s4.W * _ ≠ 0
    rw [W4', hsum]; simp

end R1CS
