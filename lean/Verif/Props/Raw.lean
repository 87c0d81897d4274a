import Verif.Lemmas.Raw
import Verif.Props.Field
import Verif.Props.Expression
import Verif.Model.JubJub

/-!
# C104: the stored data

`Model/Raw.lean` is a transcription of the fields, expressions, values and matrices on the data which the code
stores: bare numbers, whose range is checked when an element is built, and association lists.  Here it is
compared with arithmetic modulo the order, and with the model which the other theorems are about.
-/

namespace R1CS

open Raw

/-- C104: whatever the order is, and whatever the operands hold, no operator and no function of elements
returns an element whose number is not below the order. -/
theorem C104_range (q a b r : ℕ) :
    (∀ f ∈ [addRR, addRV, addVR, addVV, addAssignR, addAssignV, subRR, subRV, subVR, subVV, subAssignR,
        subAssignV, mulRR, mulRV, mulVR, mulVV, mulAssignR, mulAssignV, mulRN, mulVN, mulAssignN, divRR, divRV,
        divVR, divVV, divAssignR, divAssignV, divRN, divVN, divAssignN, shlR, shlV, exponentiation,
        integerDivision, integerModulus, Raw.gcd], f q a b = some r → r < q) ∧
    (∀ f ∈ [negR, negV, Raw.clone, Raw.inverse, inverseOrZero, ofBig, ofWord], f q a = some r → r < q) ∧
    (∀ f ∈ [Raw.zero, Raw.one, largestElement], f q = some r → r < q) ∧
    (∀ c, ofBool q c = some r → r < q) ∧ ∀ s, Raw.fromStr q s = some (some r) → r < q := by
  have hmA : mulAssignR q a b = some r → r < q := fun h => by
    unfold mulAssignR at h
    cases hc : Raw.clone q a with
    | none => rw [hc] at h; cases h
    | some x => rw [hc] at h; exact mulRR_lt h
  have hmN : mulAssignN q a b = some r → r < q := fun h => by
    unfold mulAssignN at h
    cases hc : Raw.clone q a with
    | none => rw [hc] at h; cases h
    | some x => rw [hc] at h; exact mulRN_lt h
  have hdA : divAssignR q a b = some r → r < q := fun h => by
    unfold divAssignR at h
    cases hc : Raw.clone q a with
    | none => rw [hc] at h; cases h
    | some x => rw [hc] at h; exact divRR_lt h
  have hdN : divAssignN q a b = some r → r < q := fun h => by
    unfold divAssignN at h
    cases hc : Raw.clone q a with
    | none => rw [hc] at h; cases h
    | some x => rw [hc] at h; exact divRN_lt h
  refine ⟨?_, ?_, ?_, fun c h => (ofBig_lt h).1, fun s h => ?_⟩
  · simp only [List.forall_mem_cons]
    exact ⟨addRR_lt, addRR_lt, addRR_lt, addRR_lt, addRR_lt, addRR_lt, subRR_lt, subRR_lt, subRR_lt,
      subRR_lt, subRR_lt, subRR_lt, mulRR_lt, mulRR_lt, mulRR_lt, mulRR_lt, hmA, hmA, mulRN_lt, mulRN_lt, hmN,
      divRR_lt, divRR_lt, divRR_lt, divRR_lt, hdA, hdA, divRN_lt, divRN_lt, hdN, fun h => (ofBig_lt h).1,
      fun h => (ofBig_lt h).1, exponentiation_lt, bind_ofBig_lt, bind_ofBig_lt, gcd_lt a b,
      fun _ h => absurd h List.not_mem_nil⟩
  · simp only [List.forall_mem_cons]
    refine ⟨negR_lt, negR_lt, fun h => (ofBig_lt h).1, inverse_lt, fun h => ?_, fun h => (ofBig_lt h).1,
      fun h => (ofBig_lt h).1, fun _ h => absurd h List.not_mem_nil⟩
    unfold inverseOrZero at h
    split at h
    · exact (ofBig_lt h).1
    · exact inverse_lt h
  · simp only [List.forall_mem_cons]
    exact ⟨fun h => (ofBig_lt h).1, fun h => (ofBig_lt h).1, bind_ofBig_lt,
      fun _ h => absurd h List.not_mem_nil⟩
  · unfold Raw.fromStr at h
    cases hc : parseBigUint s with
    | none => rw [hc] at h; cases h
    | some n =>
      rw [hc] at h
      cases ho : ofBig q n with
      | none => dsimp only at h; rw [ho] at h; cases h
      | some x =>
        dsimp only at h
        rw [ho] at h
        cases h
        exact (ofBig_lt ho).1

-- Operands which are no elements: a number above the order, and an order which is not prime.
example : addRR 6 11 8 = some 1 ∧ mulRR 6 11 8 = some 4 ∧ mulAssignR 6 11 8 = none ∧ subRR 6 1 8 = none := by
  decide +kernel

variable {p : ℕ} [hp : Fact p.Prime]

/-- C104: the value of every implementation of an arithmetic operator on elements (with owned and borrowed
operands, with a `u128`, and in place), modulo the order.  `none` is a panic. -/
theorem C104_operators {a b : ℕ} (ha : a < p) (hb : b < p) :
    (∀ f ∈ [negR, negV], f p a = some ((p - a) % p)) ∧
    (∀ f ∈ [addRR, addRV, addVR, addVV, addAssignR, addAssignV], f p a b = some ((a + b) % p)) ∧
    (∀ f ∈ [subRR, subRV, subVR, subVV, subAssignR, subAssignV], f p a b = some ((a + (p - b)) % p)) ∧
    (∀ f ∈ [mulRR, mulRV, mulVR, mulVV, mulAssignR, mulAssignV], f p a b = some (a * b % p)) ∧
    (∀ f ∈ [divRR, divRV, divVR, divVV, divAssignR, divAssignV], ∀ r,
      f p a b = some r ↔ p ≠ 2 ∧ b ≠ 0 ∧ r < p ∧ r * b % p = a) ∧
    ∀ k,
      (∀ f ∈ [mulRN, mulVN, mulAssignN], f p a k = if k < p then some (a * k % p) else none) ∧
      (∀ f ∈ [divRN, divVN, divAssignN], ∀ r,
        f p a k = some r ↔ p ≠ 2 ∧ k < p ∧ k ≠ 0 ∧ r < p ∧ r * k % p = a) ∧
      ∀ f ∈ [shlR, shlV], f p a k = if a * 2 ^ k < p then some (a * 2 ^ k) else none := by
  have hp0 := hp.out.pos
  have hdiv : ∀ b : ℕ, b < p → ∀ r, divRR p a b = some r ↔ p ≠ 2 ∧ b ≠ 0 ∧ r < p ∧ r * b % p = a := by
    intro b hb r
    rw [show divRR p a b = divRR p (⟨a, ha⟩ : Elem p).n (⟨b, hb⟩ : Elem p).n from rfl, divRR_eq]
    by_cases h2 : p = 2
    · subst h2
      rw [(C02_order_two ⟨b, hb⟩ ⟨a, ha⟩).2]
      simp
    · have h2' : 2 < p := lt_of_le_of_ne hp.out.two_le (Ne.symm h2)
      by_cases hb0 : b = 0
      · subst hb0
        rw [show (⟨0, hb⟩ : Elem p) = 0 from rfl, (C02_zero _).2.1]
        simp
      · obtain ⟨z, hz, hu⟩ := (C02_inverse h2' (⟨b, hb⟩ : Elem p) (fun h => hb0 (congrArg Elem.n h))).2.2
          (⟨a, ha⟩ : Elem p)
        rw [hz, Option.map_some, Option.some_inj]
        constructor
        · rintro rfl
          exact ⟨h2, hb0, z.lt, congrArg Elem.n ((hu z).2 rfl)⟩
        · rintro ⟨_, _, hr, he⟩
          exact (congrArg Elem.n ((hu ⟨r, hr⟩).1 (Elem.ext_n he))).symm
  have hword : ∀ k, ofWord p k = if k < p then some k else none := fun _ => rfl
  have hclone : Raw.clone p a = some a := clone_eq (⟨a, ha⟩ : Elem p)
  have hmul : ∀ b, mulRR p a b = some (a * b % p) := by
    intro b
    unfold mulRR bigRem toBig ofBig
    rw [if_neg hp0.ne', Option.bind_eq_bind, Option.bind_some, if_pos (Nat.mod_lt _ hp0)]
  have hmulN : ∀ k, mulRN p a k = if k < p then some (a * k % p) else none := by
    intro k
    unfold mulRN
    rw [hword]
    by_cases hk : k < p
    · rw [if_pos hk, if_pos hk]
      exact hmul k
    · rw [if_neg hk, if_neg hk]
      rfl
  have hdivN : ∀ k r, divRN p a k = some r ↔ p ≠ 2 ∧ k < p ∧ k ≠ 0 ∧ r < p ∧ r * k % p = a := by
    intro k r
    unfold divRN
    rw [hword]
    by_cases hk : k < p
    · rw [if_pos hk]
      simp only [Option.bind_eq_bind, Option.bind_some]
      unfold divRV
      rw [hdiv k hk r]
      simp [hk]
    · rw [if_neg hk]
      simp [hk]
  have hneg : ∀ {b}, b < p → negR p b = some ((p - b) % p) := by
    intro b hb
    unfold negR bigSub isZero toBig Raw.zero ofBig
    by_cases h0 : b = 0
    · subst h0
      simp [hp0]
    · simp [h0, hb.le, Nat.mod_eq_of_lt (show p - b < p by omega), show p - b < p by omega]
  have hadd : ∀ b, addRR p a b = some ((a + b) % p) := by
    intro b
    unfold addRR bigRem toBig ofBig
    rw [if_neg hp0.ne', Option.bind_eq_bind, Option.bind_some, if_pos (Nat.mod_lt _ hp0)]
  have hsub : subRR p a b = some ((a + (p - b)) % p) := by
    unfold subRR addRV
    rw [hneg hb, Option.bind_eq_bind, Option.bind_some, hadd, Nat.add_mod_mod]
  have hshl : ∀ k, shlR p a k = if a * 2 ^ k < p then some (a * 2 ^ k) else none := by
    intro k
    unfold shlR ofBig toBig
    rw [Nat.shiftLeft_eq]
  refine ⟨?_, ?_, ?_, ?_, ?_, fun k => ⟨?_, ?_, ?_⟩⟩ <;>
    simp only [List.forall_mem_cons, List.not_mem_nil, false_implies, implies_true, and_true]
  · exact ⟨hneg ha, hneg ha⟩
  · exact ⟨hadd b, hadd b, hadd b, hadd b, hadd b, hadd b⟩
  · exact ⟨hsub, hsub, hsub, hsub, hsub, hsub⟩
  · have hA : mulAssignR p a b = some (a * b % p) := by
      unfold mulAssignR
      rw [hclone]
      exact hmul b
    exact ⟨hmul b, hmul b, hmul b, hmul b, hA, hA⟩
  · have hA : divAssignR p a b = divRR p a b := by
      unfold divAssignR
      rw [hclone]
      rfl
    refine ⟨hdiv b hb, hdiv b hb, hdiv b hb, hdiv b hb, ?_, ?_⟩
    · rw [hA]
      exact hdiv b hb
    · unfold divAssignV
      rw [hA]
      exact hdiv b hb
  · refine ⟨hmulN k, hmulN k, ?_⟩
    unfold mulAssignN
    rw [hclone]
    exact hmulN k
  · refine ⟨hdivN k, hdivN k, ?_⟩
    unfold divAssignN
    rw [hclone]
    exact hdivN k
  · exact ⟨hshl k, hshl k⟩

example : negV 13 0 = some 0 ∧ subVR 13 3 8 = some 8 ∧ divAssignV 13 3 8 = some 2 ∧ divVN 13 3 13 = none ∧
    mulAssignN 13 3 8 = some 11 ∧ shlV 13 3 2 = some 12 ∧ shlV 13 3 3 = none := by decide +kernel

/-- C104: the values of the functions of elements on the stored numbers. -/
theorem C104_elements {a b : ℕ} (ha : a < p) (hb : b < p) :
    Raw.zero p = some 0 ∧ Raw.one p = some 1 ∧ largestElement p = some (p - 1) ∧ Raw.clone p a = some a ∧
    (∀ n, ofBig p n = if n < p then some n else none) ∧
    (∀ c, ofBool p c = some (if c then 1 else 0)) ∧
    exponentiation p a b = some (a ^ b % p) ∧
    (∀ r, Raw.inverse p a = some r ↔ p ≠ 2 ∧ a ≠ 0 ∧ r < p ∧ r * a % p = 1) ∧
    (∀ r, inverseOrZero p a = some r ↔ a = 0 ∧ r = 0 ∨ p ≠ 2 ∧ a ≠ 0 ∧ r < p ∧ r * a % p = 1) ∧
    integerDivision p a b = (if b = 0 then none else some (a / b)) ∧
    integerModulus p a b = (if b = 0 then none else some (a % b)) ∧
    Raw.gcd p a b = some (Nat.gcd a b) ∧
    Raw.isPrime p a = (⟨a, ha⟩ : Elem p).isPrime ∧
    Raw.maxBits p = some (Elem.maxBits p) ∧ Raw.bits a = (⟨a, ha⟩ : Elem p).bits ∧
    (∀ i, Raw.bit a i = (⟨a, ha⟩ : Elem p).bit i) ∧
    (∀ s, Raw.fromStr p s = (Elem.fromStr p s).map fun o => o.map (·.n)) ∧
    (Raw.eq a b = true ↔ a = b) ∧ Raw.partialCmp a b = some (compare a b) := by
  have hinv : ∀ r, Raw.inverse p a = some r ↔ p ≠ 2 ∧ a ≠ 0 ∧ r < p ∧ r * a % p = 1 := by
    intro r
    have := (C104_operators (p := p) (a := 1) (b := a) hp.out.one_lt ha).2.2.2.2.1 divRR (by simp) r
    rw [← this]
    unfold divRR
    cases hi : Raw.inverse p a with
    | none => simp
    | some i =>
      have hl := inverse_lt hi
      rw [Option.bind_eq_bind, Option.bind_some]
      unfold mulRV mulRR bigRem toBig ofBig
      rw [if_neg hp.out.pos.ne', Option.bind_eq_bind, Option.bind_some, one_mul, Nat.mod_eq_of_lt hl,
        if_pos hl]
  refine ⟨zero_eq, one_eq, largestElement_eq.trans rfl, clone_eq (⟨a, ha⟩ : Elem p), fun _ => rfl, fun c => ?_, ?_,
    hinv, fun r => ?_, ?_, ?_, ?_, isPrime_eq (⟨a, ha⟩ : Elem p), ?_, rfl, fun i => ?_, fun s => ?_, ?_, rfl⟩
  · unfold ofBool ofWord ofBig
    have := hp.out.two_le
    cases c <;> simp <;> omega
  · unfold exponentiation bigModpow toBig ofBig
    rw [if_neg hp.out.pos.ne', Option.bind_eq_bind, Option.bind_some, if_pos (Nat.mod_lt _ hp.out.pos)]
  · unfold inverseOrZero isZero toBig
    by_cases h0 : a = 0
    · subst h0
      simp [zero_eq, eq_comm]
    · simp [h0, hinv]
  · unfold integerDivision bigDiv toBig ofBig
    by_cases h0 : b = 0
    · simp [h0]
    · simp [h0, lt_of_le_of_lt (Nat.div_le_self a b) ha]
  · unfold integerModulus bigRem toBig ofBig
    by_cases h0 : b = 0
    · simp [h0]
    · simp [h0, lt_of_le_of_lt (Nat.mod_le a b) ha]
  · have h := C04_gcd (⟨a, ha⟩ : Elem p) ⟨b, hb⟩
    rw [show Raw.gcd p a b = _ from gcd_eq (⟨a, ha⟩ : Elem p) ⟨b, hb⟩, Option.some_inj]
    exact Nat.dvd_antisymm (Nat.dvd_gcd h.1 h.2.1)
      (h.2.2 _ (Nat.gcd_dvd_left a b) (Nat.gcd_dvd_right a b))
  · unfold Raw.maxBits
    rw [largestElement_eq]
    rfl
  · rw [Bool.eq_iff_iff, (C06_bits (⟨a, ha⟩ : Elem p)).2.2.2.2.2 i]
    unfold Raw.bit toBig
    rw [Nat.and_one_is_mod, Nat.shiftRight_eq_div_pow]
    simp
  · unfold Raw.fromStr Elem.fromStr
    cases parseBigUint s with
    | none => rfl
    | some n =>
      dsimp only
      rw [ofBig_eq]
      cases Elem.ofNat? p n <;> rfl
  · unfold Raw.eq toBig
    simp

example : Raw.inverse 13 8 = some 5 ∧ inverseOrZero 2 1 = none ∧ inverseOrZero 2 0 = some 0 ∧
    exponentiation 13 8 5 = some 8 ∧ Raw.isPrime 13 9 = some false ∧
    Raw.fromStr 13 "12".toList = some (some 12) ∧ Raw.fromStr 13 "13".toList = none := by decide +kernel

/-- C104: every implementation of an operator on expressions, on what is stored of the operands.  The
operands are canonical, as are all expressions which the code builds (`C10_canonical`). -/
theorem C104_expression_operators {a b : Expression p} (ha : a.Canonical) (hb : b.Canonical) (c : Elem p) :
    (∀ f ∈ [negExprR, negExprV], f p (expr a) = some (expr (-a))) ∧
    (∀ f ∈ [addExprRR, addExprRV, addExprVR, addExprVV, addExprAssignR, addExprAssignV],
      f p (expr a) (expr b) = some (expr (a + b))) ∧
    (∀ f ∈ [subExprRR, subExprRV, subExprVR, subExprVV, subExprAssignR, subExprAssignV],
      f p (expr a) (expr b) = some (expr (a - b))) ∧
    (∀ f ∈ [scaleRR, scaleRV, scaleVR, scaleVV, scaleAssignR, scaleAssignV],
      f p (expr a) c.n = some (expr (a.mulElem c))) ∧
    (∀ f ∈ [divideRR, divideRV, divideVR, divideVV, divideAssignR, divideAssignV],
      f p (expr a) c.n = (a.divElem c).map expr) ∧
    (∀ f ∈ [scaleRN, scaleVN, scaleAssignN], ∀ k, f p (expr a) k = (a.mulNat k).map expr) ∧
    ∀ f ∈ [divideRN, divideVN, divideAssignN], ∀ k, f p (expr a) k = (a.divNat k).map expr := by
  have hn := negExprR_eq ha
  have hadd := addExprRR_eq ha b
  have hsub := subExprRR_eq ha hb
  have hs := scaleRR_eq ha c
  have hd := divideRR_eq ha c
  have hA : addExprAssignR p (expr a) (expr b) = some (expr (a + b)) := by
    unfold addExprAssignR
    rw [clone_expr]
    exact hadd
  have hS : scaleAssignR p (expr a) c.n = some (expr (a.mulElem c)) := by
    unfold scaleAssignR
    rw [clone_expr]
    exact hs
  refine ⟨?_, ?_, ?_, ?_, ?_, ?_, ?_⟩ <;>
    simp only [List.forall_mem_cons, List.not_mem_nil, false_implies, implies_true, and_true]
  · exact ⟨hn, hn⟩
  · exact ⟨hadd, hadd, hadd, hadd, hA, hA⟩
  · exact ⟨hsub, hsub, hsub, hsub, hsub, hsub⟩
  · exact ⟨hs, hs, hs, hs, hS, hS⟩
  · exact ⟨hd, hd, hd, hd, hd, hd⟩
  · refine ⟨scaleRN_eq ha, scaleRN_eq ha, fun k => ?_⟩
    unfold scaleAssignN
    rw [clone_expr]
    exact scaleRN_eq ha k
  · exact ⟨divideRN_eq ha, divideRN_eq ha, divideRN_eq ha⟩

-- Terms which cancel (the wire one, 0, is the last), a number for `u128` beyond the order, and a map which is not sorted.
example : addExprVR 13 [(1, 5), (2, 3)] [(1, 8), (0, 2)] = some [(2, 3), (0, 2)] ∧
    subExprAssignV 13 [(1, 5), (2, 3)] [(1, 5)] = some [(2, 3)] ∧
    scaleAssignN 13 [(1, 5)] 14 = none ∧ scaleAssignN 13 [(1, 5)] 0 = some [] ∧ scaleAssignN 13 [] 14 = some [] ∧
    divideVN 13 [(1, 5)] 8 = some [(1, 12)] ∧ divideVV 13 [(1, 5)] 0 = none ∧
    scaleRR 13 [(2, 1), (1, 1)] 5 = some [(1, 5), (2, 5)] := by decide +kernel

/-- C104: the constructors and functions of expressions on the stored data. -/
theorem C104_expressions :
    (∀ c : Elem p, exprOfElement p c.n = some (expr (Expression.ofElem c)) ∧
      exprOfElementR p c.n = some (expr (Expression.ofElem c))) ∧
    (∀ w, exprOfWire p w = some (expr (Expression.ofWire w : Expression p))) ∧
    (∀ n, exprOfWord p n = (Expression.ofNat? n : Option (Expression p)).map expr) ∧
    (∀ c, exprOfBool p c = some (expr (Expression.ofBool c : Expression p))) ∧
    zeroExpr = expr (0 : Expression p) ∧ oneExpr p = some (expr (1 : Expression p)) ∧
    negOneExpr p = some (expr (Expression.negOne : Expression p)) ∧
    (∀ ws, sumOfWires p ws = some (expr (Expression.sumOfWires ws : Expression p))) ∧
    (∀ es : List (Expression p), sumOfExpressions p (es.map expr) =
      some (expr (Expression.sumOfExpressions es))) ∧
    (∀ e : Expression p, Raw.cloneMap p (expr e) = some (expr e) ∧
      Raw.asConstant p (expr e) = some (e.asConstant.map (·.n)) ∧ Raw.numTerms (expr e) = e.numTerms ∧
      Raw.dependencies (expr e) = e.dependencies) ∧
    ∀ bs : BinaryExpression p, (∀ b ∈ bs.bits, b.expression.Canonical) →
      Raw.joinAllowingOverflow p (bs.bits.map fun b => expr b.expression) =
        bs.joinAllowingOverflow.map expr := by
  refine ⟨fun c => ⟨exprOfElement_eq c, ?_⟩, exprOfWire_eq, exprOfWord_eq, exprOfBool_eq, rfl, oneExpr_eq, ?_,
    sumOfWires_eq, sumOfExpressions_eq, fun e => ⟨clone_expr e, asConstant_eq e, ?_, ?_⟩, fun bs h => ?_⟩
  · unfold exprOfElementR
    rw [clone_eq, Option.bind_eq_bind, Option.bind_some]
    exact exprOfElement_eq c
  · unfold negOneExpr
    rw [oneExpr_eq, Option.bind_eq_bind, Option.bind_some]
    exact negExprR_eq (canonical_ofElem 1)
  · exact List.length_map ..
  · unfold Raw.dependencies Expression.dependencies expr stored
    rw [List.map_map]
    rfl
  · exact joinFrom_eq bs.bits 0 0 ⟨List.Pairwise.nil, fun _ h => absurd h List.not_mem_nil⟩ h

example : sumOfWires 13 [2, 1, 2] = some [(1, 1), (2, 1)] ∧
    sumOfExpressions 13 [[(1, 5)], [(2, 1)], [(1, 8)]] = some [(2, 1)] ∧ negOneExpr 13 = some [(0, 12)] ∧
    exprOfWord 13 13 = none ∧ exprOfBool 13 false = some [] ∧ Raw.asConstant 13 [(0, 7)] = some (some 7) ∧
    Raw.asConstant 13 [(0, 14)] = none ∧ Raw.joinAllowingOverflow 13 [[(1, 1)], [(2, 1)], [(1, 1)]] =
      some [(1, 5), (2, 2)] := by decide +kernel

/-- C104: the values on the map which the code stores.  A new map holds the values of the model; on a map
which holds the values of `v`, reading, writing and evaluating have the results which they have on `v`, and
panic when they panic on `v`. -/
theorem C104_values :
    (∃ m, newValues p = some m ∧ Holds m (WireValues.new : WireValues p)) ∧
    ∀ (m : Values) (v : WireValues p), Holds m v →
      (∀ kv ∈ m, kv.2 < p) ∧ Raw.cloneMap p m = some m ∧
      (∀ w, Raw.contains m w = (v w).isSome ∧ Raw.get m w = (v w).map (·.n)) ∧
      (∀ w : BooleanWire, Raw.containsBoolean m w = (v w.wire).isSome ∧
        Raw.getBoolean p m w = (⟨Expression.ofWire w.wire⟩ : BooleanExpression p).evaluate v) ∧
      (∀ ws, Raw.containsAll m ws = v.containsAll ws) ∧
      (∀ w (x : Elem p), Agree (Raw.set m w x.n) (v.set w x)) ∧
      (∀ w b, Agree (Raw.setBoolean p m w b) (v.setBoolean w b)) ∧
      (∀ w n, Agree (Raw.setBinaryUnsigned p m w n) (v.setBinaryUnsigned w n)) ∧
      (∀ e : Expression p, Raw.evaluate p (expr e) m = (e.evaluate v).map (·.n) ∧
        Raw.evaluateBoolean p (expr e) m = (⟨e⟩ : BooleanExpression p).evaluate v) ∧
      ∀ k : Constraint p, Raw.evaluateConstraint p (expr k.a) (expr k.b) (expr k.c) m = k.evaluate v := by
  refine ⟨holds_new, fun m v h => ⟨fun _ => h.lt, cloneMap_of_lt fun _ => h.lt, fun w => ⟨h.contains w, h.get' w⟩,
    fun w => ⟨h.contains w.wire, h.getBoolean w⟩, h.containsAll, h.set, h.setBoolean, h.setBinaryUnsigned,
    fun e => ⟨h.evaluate e, h.evaluateBoolean e⟩, h.evaluateConstraint⟩⟩

omit hp in
/-- C104: two maps which hold the same values are equal, so that the partial function of the model leaves out
nothing of the map. -/
theorem C104_values_unique {m m' : Values} {v : WireValues p} (h : Holds m v) (h' : Holds m' v) : m = m' :=
  sorted_ext h.sorted h'.sorted fun w => (h.get w).trans (h'.get w).symm

example : ∃ m, newValues 13 = some m ∧ Raw.set m 3 7 = some [(3, 7), (0, 1)] ∧
    (Raw.set m 3 7).bind (fun m => Raw.set m 2 5) = some [(2, 5), (3, 7), (0, 1)] ∧
    (Raw.set m 3 7).bind (fun m => Raw.set m 3 7) = none ∧ Raw.set m 0 1 = none ∧
    Raw.setBinaryUnsigned 13 m ⟨[⟨4⟩, ⟨2⟩]⟩ 2 = some [(2, 1), (4, 0), (0, 1)] ∧
    Raw.setBinaryUnsigned 13 m ⟨[⟨4⟩, ⟨2⟩]⟩ 4 = none ∧
    Raw.evaluate 13 [(0, 5)] m = some 5 ∧ Raw.evaluate 13 [(1, 5)] m = none ∧
    Raw.getBoolean 13 m ⟨0⟩ = some true ∧ Raw.getBoolean 13 m ⟨1⟩ = none := by
  refine ⟨[(0, 1)], ?_⟩
  decide +kernel

/-- C104: executing a gadget on the stored data.  If its constraints are those of `g`, and each generator
leads to what the generator of `g` leads to, then the execution panics when that of `g` panics, and else ends
with the same verdict and a map which holds the same values. -/
theorem C104_execute {r : RawGadget} {g : Gadget p} (hr : GadgetAgrees r g) {m : Values} {v : WireValues p}
    (h : Holds m v) :
    (Raw.execute p r m = none ∧ g.execute v = none) ∨
    ∃ m' v' ok, Raw.execute p r m = some (m', ok) ∧ g.execute v = some (v', ok) ∧ Holds m' v' := by
  obtain ⟨hc, hg⟩ := hr
  unfold Raw.execute Gadget.execute
  rw [hg.length_eq]
  rcases loop_agrees (g.witnessGenerators.length + 1) hg h with
    ⟨h1, h2⟩ | ⟨rs', gs', m', v', h1, h2, h3, h4⟩
  · rw [h1, h2]
    exact Or.inl ⟨rfl, rfl⟩
  · rw [h1, h2]
    simp only [Option.bind_eq_bind, Option.bind_some]
    rw [h3.length_eq, hc, h4.checkAll]
    by_cases hl : gs'.length = 0
    · rw [if_pos hl, if_pos hl]
      cases Gadget.checkAll g.constraints v' with
      | none => exact Or.inl ⟨rfl, rfl⟩
      | some ok => exact Or.inr ⟨m', v', ok, rfl, rfl, h4⟩
    · rw [if_neg hl, if_neg hl]
      exact Or.inl ⟨rfl, rfl⟩

/-- C104: the generator of `product`, on the stored data. -/
theorem C104_product (x y : Expression p) (w : Wire) (inputs : List Wire) :
    GeneratorAgrees ⟨inputs, Raw.productGen p (expr x) (expr y) w⟩ ⟨inputs, B.productGen x y w⟩ := by
  refine ⟨rfl, fun m v h => ?_⟩
  show Agree (Raw.productGen p (expr x) (expr y) w m) (B.productGen x y w v)
  unfold Raw.productGen B.productGen
  rw [h.evaluate, h.evaluate]
  cases x.evaluate v with
  | none => exact Or.inl ⟨rfl, rfl⟩
  | some xv =>
    cases y.evaluate v with
    | none => exact Or.inl ⟨rfl, rfl⟩
    | some yv =>
      simp only [Option.map_some, Option.bind_eq_bind, Option.bind_some]
      unfold mulVV
      rw [mulRR_eq, Option.bind_some]
      exact h.set w _

-- The gadget which `product` builds from two wires, executed on the stored data.
example : Raw.execute 13 ⟨[([(1, 1)], [(2, 1)], [(3, 1)])], [⟨[1, 2], Raw.productGen 13 [(1, 1)] [(2, 1)] 3⟩]⟩
    [(1, 5), (2, 8), (0, 1)] = some ([(1, 5), (2, 8), (3, 1), (0, 1)], true) := by decide +kernel

example : GadgetAgrees (p := 13)
    ⟨[([(1, 1)], [(2, 1)], [(3, 1)])], [⟨[1, 2], Raw.productGen 13 [(1, 1)] [(2, 1)] 3⟩]⟩
    ⟨[⟨.ofWire 1, .ofWire 2, .ofWire 3⟩], [⟨[1, 2], B.productGen (.ofWire 1) (.ofWire 2) 3⟩]⟩ :=
  ⟨rfl, .cons (C104_product (.ofWire 1) (.ofWire 2) 3 [1, 2]) .nil⟩

/-- C104: the product of a matrix and a list, on the stored data. -/
theorem C104_matrices (m : ElementMatrix p) :
    (∀ rhs : List (Elem p), matrixElements p (m.rows.map fun r => r.map (·.n)) (rhs.map (·.n)) =
      some ((m.mulElems rhs).map (·.n))) ∧
    ∀ rhs : List (Expression p), (∀ e ∈ rhs, e.Canonical) →
      matrixExpressions p (m.rows.map fun r => r.map (·.n)) (rhs.map expr) =
        some ((m.mulExpressions rhs).map expr) :=
  ⟨matrixElements_eq m, matrixExpressions_eq m⟩

example : matrixElements 13 [[1, 2], [3, 4]] [5, 6] = some [2, 3] ∧
    matrixExpressions 13 [[1, 2], [3, 10]] [[(1, 1)], [(2, 1)]] = some [[(1, 3)], []] := by decide +kernel

omit hp in
/-- C104: pairing the indices of equal elements with the map which the code builds. -/
theorem C104_indices (a b : List (Elem p)) :
    Raw.bimapFromLists (a.map (·.n)) (b.map (·.n)) = R1CS.bimapFromLists a b := bimapFromLists_eq a b

example : Raw.bimapFromLists [5, 3, 5] [3, 5, 5] = some [(2, 1), (1, 0), (0, 2)] ∧
    Raw.bimapFromLists [5, 3, 3] [3, 5, 5] = none := by decide +kernel

/-- C104: the decimal literals of the code parse to the numbers of the model: the two orders, and the
constants of JubJub, whose parsing does not panic. -/
theorem C104_literals :
    parseBigUint bn128Literal = some bn128Order ∧ parseBigUint bls12_381Literal = some bls12_381Order ∧
    Elem.fromStr bls12_381Order jubjubDLiteral = some (some jubjub.d) ∧
    Elem.fromStr bls12_381Order jubjubXLiteral = some (some jubjubGeneratorX) ∧
    Elem.fromStr bls12_381Order jubjubYLiteral = some (some jubjubGeneratorY) := by
  decide +kernel

/-- C73: the operators of `PartialOrd` on wires.  They always compare; a wire is less than another one if
it is not the constant wire and the other one is, or has the greater number. -/
theorem C73_operators (a b : Wire) :
    (Raw.wirePartialCmp a b = some .lt ↔ a ≠ 0 ∧ (b = 0 ∨ a < b)) ∧
    (Raw.wirePartialCmp a b = some .gt ↔ b ≠ 0 ∧ (a = 0 ∨ b < a)) ∧
    (Raw.wirePartialCmp a b = some .eq ↔ a = b) ∧ Raw.wirePartialCmp a b ≠ none := by
  unfold Raw.wirePartialCmp Wire.cmp ONE
  by_cases ha : a = 0 <;> by_cases hb : b = 0 <;>
    simp [ha, hb, Nat.compare_eq_lt, Nat.compare_eq_gt, Nat.compare_eq_eq]
  exact fun h => hb h.symm

example : Raw.wirePartialCmp 3 0 = some .lt ∧ Raw.wirePartialCmp 3 2 = some .gt := by decide

end R1CS
