import Verif.Lemmas.Compare
import Verif.Model.BinaryOps

/-!
# Binary arithmetic
-/

set_option linter.unusedSectionVars false

namespace R1CS

variable {p : ℕ} [hp : Fact p.Prime] {α β : Type}

open Expression

theorem B.bind_none {m : B p α} {f : α → B p β} {b : Builder p} (h : m b = none) :
    (m >>= f) b = none := by
  change (m b).bind _ = none
  rw [h]; rfl

theorem B.require_neg {c : Prop} [Decidable c] (h : ¬ c) (b : Builder p) :
    (B.require c : B p Unit) b = none := by
  unfold B.require
  rw [if_neg h]; rfl

theorem maxSum_eq (terms : List (BinaryExpression p)) :
    B.maxSum terms = (terms.map fun t => 2 ^ t.len - 1).sum := by
  have : ∀ (l : List (BinaryExpression p)) (s : ℕ),
      l.foldl (fun s t => s + ((1 <<< t.len) - 1)) s = s + (l.map fun t => 2 ^ t.len - 1).sum := by
    intro l
    induction l with
    | nil => simp
    | cons t l ih => intro s; rw [List.foldl_cons, ih, List.map_cons, List.sum_cons,
        Nat.one_shiftLeft, add_assoc]
  unfold B.maxSum
  rw [this, Nat.zero_add]

theorem vals_le_maxSum {w : Assign p} {terms : List (BinaryExpression p)}
    (h : ∀ t ∈ terms, t.AllBool w) : (terms.map fun t => t.val w).sum ≤ B.maxSum terms := by
  rw [maxSum_eq]
  induction terms with
  | nil => simp
  | cons t l ih =>
    simp only [List.map_cons, List.sum_cons]
    have h1 := (h t (by simp)).val_lt
    have h2 := ih fun t ht => h t (by simp [ht])
    omega

theorem len_le_size_maxSum {terms : List (BinaryExpression p)} {t : BinaryExpression p}
    (h : t ∈ terms) : t.len ≤ (B.maxSum terms).size := by
  rcases Nat.eq_zero_or_pos t.len with h0 | h0
  · omega
  · have h1 : 2 ^ t.len - 1 ≤ B.maxSum terms := by
      rw [maxSum_eq]
      exact List.single_le_sum (by simp) _ (List.mem_map.2 ⟨t, h, rfl⟩)
    have h2 : 2 ^ (t.len - 1) ≤ B.maxSum terms := by
      refine le_trans ?_ h1
      have : 2 ^ t.len = 2 * 2 ^ (t.len - 1) := by
        rw [← pow_succ', Nat.sub_add_cancel h0]
      have := Nat.two_pow_pos (t.len - 1)
      omega
    have := Nat.lt_size.2 h2
    omega

theorem inputBits_eq (terms : List (BinaryExpression p)) (x : ℕ) :
    terms.foldl (fun x y => max x y.len) x = max x ((terms.map fun t => t.len).foldr max 0) := by
  induction terms generalizing x with
  | nil => simp
  | cons t l ih => rw [List.foldl_cons, ih, List.map_cons, List.foldr_cons, max_assoc]

theorem inputBits_le {terms : List (BinaryExpression p)} {n : ℕ} :
    B.inputBits terms ≤ n ↔ ∀ t ∈ terms, t.len ≤ n := by
  unfold B.inputBits
  rw [inputBits_eq]
  induction terms with
  | nil => simp
  | cons t l ih => simp at ih ⊢; intro _; exact ih

theorem sum_cast (l : List ℕ) : (l.map fun u : ℕ => (u : Elem p)).sum = ((l.sum : ℕ) : Elem p) := by
  induction l with
  | nil => exact Nat.cast_zero.symm
  | cons a l ih => rw [List.map_cons, List.sum_cons, ih, List.sum_cons, Nat.cast_add]

namespace Enforces

theorem binarySummation (terms : List (BinaryExpression p)) :
    Enforces (B.binarySummation terms) (fun e w => e.AllBool w ∧ e.len = (B.maxSum terms).size ∧
      ((∀ t ∈ terms, t.AllBool w) → e.val w = (terms.map fun t => t.val w).sum)) := by
  unfold B.binarySummation
  refine (Enforces.require _).bind fun _ => (Enforces.binaryWire _).bind fun bw =>
    (Enforces.ofOption (Q := fun a _ => terms.mapM BinaryExpression.join = some a)
      fun a h _ _ => h).bind fun es =>
    (Enforces.ofOption (Q := fun a _ =>
      (BinaryExpression.ofWire bw : BinaryExpression p).join = some a) fun a h _ _ => h).bind
    fun j => (Enforces.assertEqual _ _).bind fun _ => (Enforces.generator _ _).bind fun _ =>
    Enforces.pure fun w h1 _ heq hj hes ⟨hl, hb⟩ hlt => ?_
  have hall : (BinaryExpression.ofWire bw : BinaryExpression p).AllBool w :=
    BinaryExpression.ofWire_allBool.2 hb
  have hlen : (BinaryExpression.ofWire bw : BinaryExpression p).len = (B.maxSum terms).size := by
    rw [BinaryExpression.ofWire_len, hl]
  refine ⟨hall, hlen, fun ht => ?_⟩
  have hp2 := Elem.two_pow_lt_of_lt_maxBits hlt
  obtain ⟨j', hj', hjv⟩ := BinaryExpression.join_eq (e := (BinaryExpression.ofWire bw :
    BinaryExpression p)) (by rw [hlen]; exact hp2.le)
  rw [hj] at hj'
  obtain rfl := Option.some.inj hj'
  rw [hjv w, eval_sumOfExpressions, (mapM_join hes).1 w] at heq
  have h2 : (terms.map fun c => ((c.val w : ℕ) : Elem p)).sum
      = (((terms.map fun c => c.val w).sum : ℕ) : Elem p) := by
    rw [← sum_cast, List.map_map]; rfl
  rw [h2] at heq
  refine (cast_inj ?_ ?_ heq).symm
  · have := vals_le_maxSum ht
    have := Nat.lt_size_self (B.maxSum terms)
    omega
  · have := hall.val_lt
    rw [hlen] at this
    omega

theorem truncated {w : Assign p} {e f : BinaryExpression p} {n : ℕ} (h : e.truncated n = some f)
    (hb : e.AllBool w) : f.AllBool w ∧ f.len = n ∧ n ≤ e.len ∧ f.val w = e.val w % 2 ^ n := by
  unfold BinaryExpression.truncated at h
  split at h
  · next hn =>
    obtain rfl := Option.some.inj h
    refine ⟨fun b hb' => hb b (List.mem_of_mem_take hb'), ?_, hn, ?_⟩
    · simp only [BinaryExpression.len, List.length_take] at hn ⊢
      omega
    · have := digitsVal_take hb.digits_le (l := n) (by rw [BinaryExpression.digits_length]; exact hn)
      unfold BinaryExpression.val
      rw [← this]
      simp [BinaryExpression.digits]
  · exact absurd h (by simp)

theorem binarySummationIgnoringOverflow (terms : List (BinaryExpression p)) :
    Enforces (B.binarySummationIgnoringOverflow terms) (fun e w => e.AllBool w ∧
      e.len = B.inputBits terms ∧
      ((∀ t ∈ terms, t.AllBool w) →
        e.val w = (terms.map fun t => t.val w).sum % 2 ^ B.inputBits terms)) := by
  unfold B.binarySummationIgnoringOverflow
  refine (Enforces.binarySummation terms).bind fun s =>
    (Enforces.ofOption (Q := fun a _ => s.truncated (B.inputBits terms) = some a)
      fun a h _ _ => h).mono fun e w _ he ⟨h1, h2, h3⟩ => ?_
  obtain ⟨g1, g2, _, g3⟩ := truncated he h1
  exact ⟨g1, g2, fun ht => by rw [g3, h3 ht]⟩

theorem assertZeros : ∀ cs : List (BinaryExpression p), Enforces (B.assertZeros cs)
    (fun _ w => ∀ c ∈ cs, 2 ^ c.len < p → c.AllBool w → c.val w = 0)
  | [] => Enforces.pure fun w _ => by simp
  | c :: cs => by
    unfold B.assertZeros
    refine (Enforces.ofOption (Q := fun a _ => c.join = some a) fun a h _ _ => h).bind fun j =>
      (Enforces.assertZero j).bind fun _ => (assertZeros cs).mono fun _ w _ h h0 hj => ?_
    intro d hd hlt hb
    rcases List.mem_cons.1 hd with rfl | hd
    · obtain ⟨j', hj', hv⟩ := BinaryExpression.join_eq hlt.le
      rw [hj] at hj'
      obtain rfl := Option.some.inj hj'
      rw [hv] at h0
      have := hb.val_lt
      exact cast_inj (by omega) hp.out.pos (by rw [h0, Nat.cast_zero])
    · exact h d hd hlt hb

theorem digitsVal_eq_zero {l : List ℕ} (h : digitsVal l = 0) : ∀ d ∈ l, d = 0 := by
  induction l with
  | nil => simp
  | cons a l ih =>
    simp only [digitsVal] at h
    intro d hd
    rcases List.mem_cons.1 hd with rfl | hd
    · omega
    · exact ih (by omega) d hd

theorem binaryAssertZero (x : BinaryExpression p) :
    Enforces (B.binaryAssertZero x) (fun _ w => x.AllBool w → ∀ b ∈ x.bits, b.eval w = 0) := by
  unfold B.binaryAssertZero
  refine (Enforces.ofOption (Q := fun a _ => x.chunks (Elem.maxBits p - 1) = some a)
    fun a h _ _ => h).bind fun cs => (Enforces.assertZeros cs).mono fun _ w _ h hcs hb b hbx => ?_
  by_cases hc : Elem.maxBits p - 1 = 0
  · simp [BinaryExpression.chunks, chunks?, hc] at hcs
  · have hc' : 0 < Elem.maxBits p - 1 := Nat.pos_of_ne_zero hc
    rw [chunks_eq hc'] at hcs
    obtain rfl := Option.some.inj hcs
    rw [← chunksOf_flatten hc' x.bits] at hbx
    obtain ⟨l, hl, hbl⟩ := List.mem_flatten.1 hbx
    have h1 := h ⟨l⟩ (List.mem_map.2 ⟨l, hl, rfl⟩)
      (lt_of_le_of_lt (Nat.pow_le_pow_right (by simp) (chunksOf_lengths hc' x.bits l hl).2)
        (Elem.two_pow_lt_of_lt_maxBits (by omega)))
      (allBool_chunks hb _ hc' l hl)
    have h2 := digitsVal_eq_zero h1 (b.eval w).n (List.mem_map.2 ⟨b, hbl, rfl⟩)
    rw [← Elem.natCast_self_n (b.eval w), h2, Nat.cast_zero]

theorem binarySummationAssertingNoOverflow (terms : List (BinaryExpression p)) :
    Enforces (B.binarySummationAssertingNoOverflow terms) (fun e w => e.AllBool w ∧
      e.len = B.inputBits terms ∧
      ((∀ t ∈ terms, t.AllBool w) → (terms.map fun t => t.val w).sum < 2 ^ B.inputBits terms ∧
        e.val w = (terms.map fun t => t.val w).sum)) := by
  unfold B.binarySummationAssertingNoOverflow
  refine (Enforces.binarySummation terms).bind fun s => (Enforces.require _).bind fun _ =>
    (Enforces.binaryAssertZero _).bind fun _ =>
    (Enforces.ofOption (Q := fun a _ => s.truncated (B.inputBits terms) = some a)
      fun a h _ _ => h).mono fun e w _ he hz hle ⟨h1, h2, h3⟩ => ?_
  obtain ⟨g1, g2, _, g3⟩ := truncated he h1
  have hz' := hz fun b hb => h1 b (List.mem_of_mem_drop hb)
  refine ⟨g1, g2, fun ht => ?_⟩
  have h5 : s.val w / 2 ^ B.inputBits terms = 0 := by
    have := digitsVal_drop h1.digits_le (l := B.inputBits terms) (by
      rw [BinaryExpression.digits_length]; exact hle)
    unfold BinaryExpression.val
    rw [← this]
    have : (s.digits w).drop (B.inputBits terms)
        = List.replicate (s.bits.drop (B.inputBits terms)).length 0 := by
      rw [List.eq_replicate_iff]
      refine ⟨by simp [BinaryExpression.digits], fun d hd => ?_⟩
      rw [BinaryExpression.digits, ← List.map_drop] at hd
      obtain ⟨b, hb, rfl⟩ := List.mem_map.1 hd
      rw [hz' b hb]; rfl
    rw [this, digitsVal_replicate_zero]
  have h6 : s.val w < 2 ^ B.inputBits terms := by
    rw [Nat.div_eq_zero_iff] at h5
    have := Nat.two_pow_pos (B.inputBits terms)
    omega
  rw [← h3 ht]
  exact ⟨h6, by rw [g3, Nat.mod_eq_of_lt h6]⟩

end Enforces

/-! ## Completeness of summation -/

theorem setBits_eq_setAll (t : ℕ) (ws : List BooleanWire) (i : ℕ) (v : WireValues p) :
    v.setBits t i ws
      = setAll v ((ws.zipIdx i).map fun y => (y.1.wire, Elem.ofBool (t.testBit y.2))) := by
  induction ws generalizing i v with
  | nil => rfl
  | cons w ws ih =>
    rw [List.zipIdx_cons, List.map_cons, setAll]
    unfold WireValues.setBits
    have : ((t >>> i) &&& 1 == 1) = t.testBit i := by
      rw [Nat.testBit, Nat.and_comm]
      have : 1 &&& (t >>> i) = 0 ∨ 1 &&& (t >>> i) = 1 := by
        rw [Nat.one_and_eq_mod_two]; omega
      rcases this with h | h <;> rw [h] <;> rfl
    rw [this]
    change (v.set w.wire _).bind _ = _
    congr 1
    funext v'
    exact ih (i + 1) v'

namespace Comp

/-- Allocating a binary wire which is going to carry the number `t`. -/
theorem bitsWire (s : Hon p) {n t : ℕ} (hfit : t < 2 ^ n) :
    Comp (B.binaryWire n) s fun bw s' => bw.bits.map (·.wire) = List.range' s.next n ∧
      s'.next = s.next + n ∧ s'.D = (bw.bits.map (·.wire)).reverse ++ s.D ∧ bw.len = n ∧
      (BinaryExpression.ofWire bw : BinaryExpression p).Scoped s'.next ∧
      (BinaryExpression.ofWire bw : BinaryExpression p).AllBool s'.W ∧
      (BinaryExpression.ofWire bw : BinaryExpression p).val s'.W = t ∧
      ∀ v : WireValues p, v.setBinaryUnsigned bw t
        = setAll v ((bw.bits.map (·.wire)).map fun i => (i, s'.W i)) := by
  refine (Comp.binaryWire s n (bitElems t n) (bitElems_length t n) (bitElems_isBool t n)).mono
    fun bw s1 l1 ⟨h1, n1, D1, v1⟩ => ?_
  have hlen : bw.bits.length = n := by
    have := congrArg List.length h1
    simpa using this
  refine ⟨h1, n1, D1, hlen, ?_, ?_, ?_, ?_⟩
  · refine BinaryExpression.ofWire_scoped fun y hy => ?_
    have : y.wire ∈ List.range' s.next n := by rw [← h1]; exact List.mem_map.2 ⟨y, hy, rfl⟩
    rw [List.mem_range'_1] at this
    omega
  · rw [BinaryExpression.ofWire_allBool]
    intro y hy
    have : s1.W y.wire ∈ (bitElems t n : List (Elem p)) := by
      rw [← v1]; exact List.mem_map.2 ⟨y, hy, rfl⟩
    exact bitElems_isBool t n _ this
  · unfold BinaryExpression.val
    rw [BinaryExpression.ofWire_digits]
    have : (bw.bits.map fun y => (s1.W y.wire).n) = (bitElems t n : List (Elem p)).map fun x => x.n := by
      rw [← v1, List.map_map]; rfl
    rw [this, bitElems_val hfit]
  · intro v
    have h0 : t.size ≤ bw.len := by
      rw [show bw.len = n from hlen]; exact Nat.size_le.2 hfit
    rw [WireValues.setBinaryUnsigned, if_pos h0, setBits_eq_setAll]
    congr 1
    apply List.ext_getElem
    · simp
    · intro i h5 h6
      simp only [List.getElem_map, List.getElem_zipIdx, Nat.zero_add]
      have hi : i < bw.bits.length := by simpa using h5
      have h7 : (bw.bits.map fun y => s1.W y.wire)[i]'(by simpa using hi)
          = (bitElems t n)[i]'(by rw [bitElems_length]; omega) := by
        simp only [v1]
      rw [List.getElem_map] at h7
      rw [h7]
      simp [bitElems]

theorem binarySummation {s : Hon p} {terms : List (BinaryExpression p)}
    (hsc : ∀ t ∈ terms, t.Scoped s.next) (hb : ∀ t ∈ terms, t.AllBool s.W)
    (hlt : (B.maxSum terms).size < Elem.maxBits p) :
    Comp (B.binarySummation terms) s fun e s' => s'.D = s.D ∧ e.Scoped s'.next ∧ e.AllBool s'.W ∧
      e.len = (B.maxSum terms).size ∧ e.val s'.W = (terms.map fun t => t.val s.W).sum := by
  unfold B.binarySummation
  have hp2 := Elem.two_pow_lt_of_lt_maxBits hlt
  set t := (terms.map fun t => t.val s.W).sum with ht
  have hfit : t < 2 ^ (B.maxSum terms).size := by
    have := vals_le_maxSum hb
    have := Nat.lt_size_self (B.maxSum terms)
    omega
  refine Comp.require_bind hlt ?_
  refine (Comp.bitsWire s hfit).bind fun bw s1 l1 ⟨h1, n1, D1, hlen, sc1, b1, v1, set1⟩ => ?_
  obtain ⟨es, hes⟩ := mapM_join_some (cs := terms) fun c hc =>
    le_trans (Nat.pow_le_pow_right (by simp) (len_le_size_maxSum hc)) hp2.le
  refine Comp.ofOption_bind hes ?_
  have hlen' : (BinaryExpression.ofWire bw : BinaryExpression p).len = (B.maxSum terms).size := by
    rw [BinaryExpression.ofWire_len]; exact hlen
  obtain ⟨j, hj, hjv⟩ := BinaryExpression.join_eq (e := (BinaryExpression.ofWire bw :
    BinaryExpression p)) (by rw [hlen']; exact hp2.le)
  refine Comp.ofOption_bind hj ?_
  have hessc := (mapM_join hes).2 s.next hsc
  have hsum : (Expression.sumOfExpressions es).Scoped s.next := Scoped.sumOfExpressions hessc
  have hval : (Expression.sumOfExpressions es).eval s.W = (t : Elem p) := by
    rw [eval_sumOfExpressions, (mapM_join hes).1 s.W, ht, ← sum_cast, List.map_map]; rfl
  refine (Comp.assertEqual (l1.scoped hsum) (BinaryExpression.join_scoped hj sc1)
    ?_).bind fun _ s2 l2 ⟨n2, D2, W2⟩ => ?_
  · rw [l1.eval hsum, hval, hjv, v1]
  refine (Comp.generator (bw.bits.map (·.wire)) s.D ?_ ?_ ?_).bind fun _ s3 l3 ⟨n3, D3, W3⟩ =>
    Comp.pure ⟨D3, ?_, ?_, hlen', ?_⟩
  · rw [D2, D1]
    exact List.Perm.append_right _ (List.reverse_perm _)
  · refine GenOK.setAll (by rw [h1]; exact List.nodup_range') fun v hin => ?_
    unfold B.summationGen
    rw [Expression.evaluate_eq (w := s2.W) hin, W2, l1.eval hsum, hval]
    simp only [Option.bind_eq_bind, Option.bind_some]
    rw [Elem.natCast_n_of_lt (by omega)]
    exact set1 v
  · intro i hi
    have := hsum i hi
    have hle := l1.1
    refine ⟨by rw [n2]; omega, fun o ho => ?_⟩
    rw [h1, List.mem_range'_1] at ho
    omega
  · rw [n3, n2]; exact sc1
  · rw [W3, W2]; exact b1
  · rw [W3, W2]; exact v1

theorem inputBits_le_size (terms : List (BinaryExpression p)) :
    B.inputBits terms ≤ (B.maxSum terms).size := inputBits_le.2 fun _ h => len_le_size_maxSum h

theorem truncated_some {e : BinaryExpression p} {n : ℕ} (h : n ≤ e.len) :
    e.truncated n = some ⟨e.bits.take n⟩ := if_pos h

theorem binarySummationIgnoringOverflow {s : Hon p} {terms : List (BinaryExpression p)}
    (hsc : ∀ t ∈ terms, t.Scoped s.next) (hb : ∀ t ∈ terms, t.AllBool s.W)
    (hlt : (B.maxSum terms).size < Elem.maxBits p) :
    Comp (B.binarySummationIgnoringOverflow terms) s fun e s' => s'.D = s.D ∧ e.Scoped s'.next ∧
      e.AllBool s'.W ∧ e.len = B.inputBits terms ∧
      e.val s'.W = (terms.map fun t => t.val s.W).sum % 2 ^ B.inputBits terms := by
  unfold B.binarySummationIgnoringOverflow
  refine (Comp.binarySummation hsc hb hlt).bind fun e s1 l1 ⟨D1, sc1, b1, n1, v1⟩ => ?_
  have h0 := truncated_some (e := e) (n := B.inputBits terms)
    (by rw [n1]; exact inputBits_le_size terms)
  obtain ⟨g1, g2, _, g3⟩ := Enforces.truncated h0 b1
  exact Comp.ofOption h0 ⟨D1, fun b hb => sc1 b (List.mem_of_mem_take hb), g1, g2, by rw [g3, v1]⟩

theorem assertZeros : ∀ (cs : List (BinaryExpression p)) (s : Hon p),
    (∀ c ∈ cs, c.Scoped s.next ∧ 2 ^ c.len ≤ p ∧ c.val s.W = 0) →
    Comp (B.assertZeros cs) s fun _ s' => s'.next = s.next ∧ s'.D = s.D ∧ s'.W = s.W
  | [], s, _ => Comp.pure ⟨rfl, rfl, rfl⟩
  | c :: cs, s, h => by
    unfold B.assertZeros
    obtain ⟨h1, h2, h3⟩ := h c (by simp)
    obtain ⟨j, hj, hjv⟩ := BinaryExpression.join_eq h2
    refine Comp.ofOption_bind hj ?_
    refine (Comp.assertZero (BinaryExpression.join_scoped hj h1) (by rw [hjv, h3, Nat.cast_zero])).bind
      fun _ s1 l1 ⟨n1, D1, W1⟩ => ?_
    refine (assertZeros cs s1 fun d hd => ?_).mono fun _ s2 l2 ⟨n2, D2, W2⟩ =>
      ⟨by rw [n2, n1], by rw [D2, D1], by rw [W2, W1]⟩
    rw [n1, W1]
    exact h d (by simp [hd])

theorem binaryAssertZero (h2 : 2 < p) {s : Hon p} {x : BinaryExpression p} (hx : x.Scoped s.next)
    (h : ∀ b ∈ x.bits, b.eval s.W = 0) :
    Comp (B.binaryAssertZero x) s fun _ s' => s'.next = s.next ∧ s'.D = s.D ∧ s'.W = s.W := by
  unfold B.binaryAssertZero
  have hc' : 0 < Elem.maxBits p - 1 := by
    by_contra hc
    have := Elem.le_two_pow_maxBits (p := p)
    have hm : Elem.maxBits p ≤ 1 := by omega
    have := Nat.pow_le_pow_right (n := 2) (by simp) hm
    omega
  refine Comp.ofOption_bind (chunks_eq hc') (assertZeros _ s fun c hc => ?_)
  obtain ⟨l, hl, rfl⟩ := List.mem_map.1 hc
  have hsub : ∀ b ∈ l, b ∈ x.bits := by
    intro b hb
    rw [← chunksOf_flatten hc' x.bits]
    exact List.mem_flatten.2 ⟨l, hl, hb⟩
  refine ⟨fun b hb => hx b (hsub b hb), ?_, ?_⟩
  · exact le_trans (Nat.pow_le_pow_right (by simp) (chunksOf_lengths hc' x.bits l hl).2)
      (Elem.two_pow_lt_of_lt_maxBits (by omega)).le
  · have : BinaryExpression.digits s.W ⟨l⟩ = List.replicate l.length 0 := by
      rw [List.eq_replicate_iff]
      refine ⟨by simp [BinaryExpression.digits], fun d hd => ?_⟩
      obtain ⟨b, hb, rfl⟩ := List.mem_map.1 hd
      rw [h b (hsub b hb)]; rfl
    unfold BinaryExpression.val
    rw [this, digitsVal_replicate_zero]

theorem binarySummationAssertingNoOverflow (h2 : 2 < p) {s : Hon p}
    {terms : List (BinaryExpression p)}
    (hsc : ∀ t ∈ terms, t.Scoped s.next) (hb : ∀ t ∈ terms, t.AllBool s.W)
    (hlt : (B.maxSum terms).size < Elem.maxBits p)
    (hfit : (terms.map fun t => t.val s.W).sum < 2 ^ B.inputBits terms) :
    Comp (B.binarySummationAssertingNoOverflow terms) s fun e s' => s'.D = s.D ∧
      e.Scoped s'.next ∧ e.AllBool s'.W ∧ e.len = B.inputBits terms ∧
      e.val s'.W = (terms.map fun t => t.val s.W).sum := by
  unfold B.binarySummationAssertingNoOverflow
  refine (Comp.binarySummation hsc hb hlt).bind fun e s1 l1 ⟨D1, sc1, b1, n1, v1⟩ => ?_
  have hle : B.inputBits terms ≤ e.len := by rw [n1]; exact inputBits_le_size terms
  refine Comp.require_bind hle ?_
  have hdrop : digitsVal ((e.digits s1.W).drop (B.inputBits terms)) = 0 := by
    rw [digitsVal_drop b1.digits_le (by rw [BinaryExpression.digits_length]; exact hle)]
    change e.val s1.W / _ = 0
    rw [v1, Nat.div_eq_of_lt hfit]
  refine (Comp.binaryAssertZero h2 (x := ⟨e.bits.drop (B.inputBits terms)⟩)
    (fun b hb => sc1 b (List.mem_of_mem_drop hb)) fun b hb => ?_).bind
    fun _ s2 l2 ⟨n2, D2, W2⟩ => ?_
  · have := Enforces.digitsVal_eq_zero hdrop (b.eval s1.W).n (by
      rw [BinaryExpression.digits, ← List.map_drop]
      exact List.mem_map.2 ⟨b, hb, rfl⟩)
    rw [← Elem.natCast_self_n (b.eval s1.W), this, Nat.cast_zero]
  have h0 := truncated_some hle
  obtain ⟨g1, g2, _, g3⟩ := Enforces.truncated h0 b1
  exact Comp.ofOption h0 ⟨by rw [D2, D1], fun b hb => by rw [n2]; exact sc1 b (List.mem_of_mem_take hb),
    by rw [W2]; exact g1, g2, by rw [W2, g3, v1, Nat.mod_eq_of_lt hfit]⟩

end Comp

end R1CS
