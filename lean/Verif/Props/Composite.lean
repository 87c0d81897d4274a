import Verif.Props.Rigid
import Verif.Props.Schnorr
import Verif.Props.Outcome

/-!
# C91: points, signatures and Merkle paths in straight-line code

The gadgets for curves, signatures and Merkle paths are instructions of the straight-line code, so
C87, C88 and C90 apply to circuits from them.  Their meaning is given there by formulas in coordinates;
here it is related to the group of the curve, and circuits which verify a signature or a path of any
length are followed from the inputs to the verdict.
-/

set_option linter.unusedSectionVars false

namespace R1CS

variable {p : ℕ} [hp : Fact p.Prime]

open Edwards (OnCurve Complete Point sumX sumY)
open Language

namespace Language

theorem bitsOf_succ (k n : ℕ) : bitsOf (k + 1) n = n.testBit 0 :: bitsOf k (n / 2) := by
  unfold bitsOf
  rw [List.range_succ_eq_map, List.map_cons, List.map_map]
  refine congrArg _ (List.map_congr_left fun i _ => ?_)
  rw [Function.comp_apply, Nat.succ_eq_add_one, Nat.testBit_succ]

theorem natOf_bitsOf (k n : ℕ) (h : n < 2 ^ k) : natOf (bitsOf k n) = n := by
  induction k generalizing n with
  | zero =>
    have : n = 0 := by simpa using h
    rw [this]; rfl
  | succ k ih =>
    rw [bitsOf_succ, natOf, ih (n / 2) (by rw [pow_succ] at h; omega), Nat.testBit_zero]
    rcases Nat.mod_two_eq_zero_or_one n with h | h <;> rw [h] <;> simp <;> omega

variable (C : EdwardsCurve p)

theorem pointDouble_eq {P : Elem p × Elem p} (h : OnCurve C.a C.d P.1 P.2) :
    pointDouble C P = pointSum C P P := by
  obtain ⟨d1, d2, d3, d4⟩ := Edwards.double_eq h
  rw [sub_sub] at d2 d4
  unfold pointDouble pointSum
  rw [← d1, ← d2, ← d3, ← d4]

variable [Complete C.a C.d]

theorem pointSum_points (P Q : Point C.a C.d) :
    pointSum C (P.x, P.y) (Q.x, Q.y) = some ((P + Q).x, (P + Q).y) := by
  unfold pointSum
  rw [if_neg]
  · rfl
  · exact not_or.2 ⟨Edwards.plus_ne P.on Q.on, Edwards.minus_ne P.on Q.on⟩

theorem pointDouble_points (P : Point C.a C.d) :
    pointDouble C (P.x, P.y) = some ((P + P).x, (P + P).y) := by
  have h : OnCurve C.a C.d ((P.x, P.y) : Elem p × Elem p).1 ((P.x, P.y) : Elem p × Elem p).2 := P.on
  rw [pointDouble_eq C h]
  exact pointSum_points C P P

theorem pointLadder_points (l : List Bool) (Q P : Point C.a C.d) :
    pointLadder C l (Q.x, Q.y) (P.x, P.y) = some ((Q + natOf l • P).x, (Q + natOf l • P).y) := by
  induction l generalizing Q P with
  | nil =>
    rw [show natOf [] = 0 from rfl, zero_nsmul, add_zero]
    rfl
  | cons b l ih =>
    have hb : (if b then (P.x, P.y) else (0, 1)) =
        ((b.toNat • P).x, (b.toNat • P).y) := by
      cases b
      · rw [Bool.toNat_false, zero_nsmul]; rfl
      · rw [Bool.toNat_true, one_nsmul]; rfl
    unfold pointLadder
    rw [hb, pointSum_points, Option.bind_eq_bind, Option.bind_some, pointDouble_points,
      Option.bind_some, ih]
    have : Q + b.toNat • P + natOf l • (P + P) = Q + natOf (b :: l) • P := by
      rw [natOf, add_nsmul, add_assoc, ← two_nsmul, ← mul_nsmul, mul_comm]
    rw [this]

end Language

/-- C91: doubling and addition agree on the curve, also where they fail. -/
theorem C91_doubling (C : EdwardsCurve p) (x y : Elem p) (h : OnCurve C.a C.d x y) :
    pointDouble C (x, y) = pointSum C (x, y) (x, y) := pointDouble_eq C (P := (x, y)) h

/-- Not so off the curve. -/
example : ¬ OnCurve curve13.a curve13.d 1 1 ∧ pointDouble curve13 (1, 1) = none ∧
    (pointSum curve13 (1, 1) (1, 1)).isSome = true := by
  refine ⟨by unfold OnCurve; decide, ?_, ?_⟩ <;> decide +kernel

/-- C91: on a complete curve, the instructions for points calculate in its group and never fail:
sums, doubles, multiples, and the check of a signature. -/
theorem C91_group (C : EdwardsCurve p) [Complete C.a C.d] (P Q : Point C.a C.d) :
    pointSum C (P.x, P.y) (Q.x, Q.y) = some ((P + Q).x, (P + Q).y) ∧
    pointDouble C (P.x, P.y) = some ((2 • P).x, (2 • P).y) ∧
    (∀ k : Elem p, pointMultiple C k (P.x, P.y) = some ((k.n • P).x, (k.n • P).y)) ∧
    ∀ (h : Elem p → Elem p → Elem p) (s e m : Elem p),
      signatureCheck C (P.x, P.y) h s e m (Q.x, Q.y) =
        some (decide (h (s.n • P + e.n • Q).y m = e)) := by
  have hk : ∀ (P : Point C.a C.d) (k : Elem p),
      pointMultiple C k (P.x, P.y) = some ((k.n • P).x, (k.n • P).y) := by
    intro P k
    have := pointLadder_points C (bitsOf (Elem.maxBits p) k.n) 0 P
    rw [zero_add, natOf_bitsOf _ _ (Elem.lt_two_pow_maxBits k)] at this
    exact this
  refine ⟨pointSum_points C P Q, ?_, hk P, fun h s e m => ?_⟩
  · rw [two_nsmul]
    exact pointDouble_points C P
  · unfold signatureCheck
    rw [hk, Option.bind_eq_bind, Option.bind_some, hk, Option.bind_some, pointSum_points,
      Option.bind_some]
    rfl

/-- Five times (4, 9), which is of order 8, is (9, 4). -/
example : pointMultiple curve13 5 (4, 9) = some (9, 4) := by decide +kernel

example : pointMultiple curve13 5 (point13.x, point13.y) =
    some ((5 • point13).x, (5 • point13).y) := (C91_group curve13 point13 point13).2.2.1 5

/-! ## Circuits -/

open Circuit

/-- Building the circuit and executing it on the inputs: `none` for a panic, otherwise whether the
constraints hold. -/
def Circuit.verdict (c : Circuit p) (xs : List (Elem p)) : Option Bool := do
  let r ← c.build xs.length Builder.new
  let e ← r.2.build.execute (inputs xs)
  return e.2

theorem Circuit.verdict_eq (h4 : 4 ≤ Elem.maxBits p) {c : Circuit p} (hc : c.NoCast)
    {xs : List (Elem p)} {r : Option (List (Val p) × Bool)} (h : c.outcome xs = r) :
    c.verdict xs = r.map fun e => e.2 := by
  rw [← h, ← C88_outcome h4 c hc xs]
  unfold verdict
  cases c.build xs.length Builder.new with
  | none => rfl
  | some r =>
    show (r.2.build.execute (inputs xs) >>= fun e => pure e.2) =
      (r.2.build.execute (inputs xs)).map fun e => e.2
    cases r.2.build.execute (inputs xs) <;> rfl

/-- Verification of a signature.  The inputs are the signature `(s, e)`, the message and the
coordinates of the public key, which is checked to be on the curve. -/
def signatureCode (C : EdwardsCurve p) (G : EdwardsPoint p) (h : PairHash p) : Circuit p :=
  [(.edwardsNew C, [3, 4]), (.schnorrVerify C G h, [0, 1, 2, 5, 6])]

theorem signatureCode_outcome (C : EdwardsCurve p) (G : EdwardsPoint p) (h : PairHash p)
    (s e m x y : Elem p) : ((signatureCode C G h).outcome [s, e, m, x, y]).map (fun r => r.2) =
      (signatureCheck C (G.x, G.y) h.value s e m (x, y)).map
        fun b => decide (OnCurve C.a C.d x y) && b := by
  cases hs : signatureCheck C (G.x, G.y) h.value s e m (x, y) <;>
  simp [signatureCode, outcome, outcomeFrom, stepOutcome, Op.outcome, Language.elem?,
    Language.fun2, Language.fun5, hs]

/-- C91: executing the circuit which verifies a signature with a public key on the curve returns
whether the hash of the second coordinate of `s • g + e • Y` and the message is `e`.  There is no
panic.  With a public key off the curve, the execution does not return `true`. -/
theorem C91_signature (h4 : 4 ≤ Elem.maxBits p) (C : EdwardsCurve p) [Complete C.a C.d]
    (g : Point C.a C.d) (h : PairHash p) (s e m : Elem p) :
    (∀ Y : Point C.a C.d, (signatureCode C ⟨g.x, g.y⟩ h).verdict [s, e, m, Y.x, Y.y] =
      some (decide (h.value (s.n • g + e.n • Y).y m = e))) ∧
    ∀ x y : Elem p, ¬ OnCurve C.a C.d x y →
      (signatureCode C ⟨g.x, g.y⟩ h).verdict [s, e, m, x, y] ≠ some true := by
  have hc : (signatureCode C ⟨g.x, g.y⟩ h).NoCast := by
    intro i hi
    simp only [signatureCode, List.mem_cons, List.not_mem_nil, or_false] at hi
    rcases hi with rfl | rfl <;> rfl
  constructor
  · intro Y
    rw [verdict_eq h4 hc rfl, signatureCode_outcome, (C91_group C g Y).2.2.2]
    simp [Y.on]
  · intro x y hxy
    rw [verdict_eq h4 hc rfl, signatureCode_outcome]
    cases signatureCheck C (g.x, g.y) h.value s e m (x, y) <;> simp [hxy]

/-- Membership in a Merkle tree with paths of length `k`.  The inputs are the leaf, the root, the
index of the leaf and the siblings on the path. -/
def membershipCode (h : PairHash p) (k : ℕ) : Circuit p :=
  [(.splitBounded k, [2]), (.assertMembership h, [0, 1, 3 + k] ++ List.range' 3 k)]

theorem mapM_middle {α : Type} (pre xs post : List α) :
    ((List.range' pre.length xs.length).mapM fun j => (pre ++ (xs ++ post))[j]?) = some xs := by
  induction xs generalizing pre with
  | nil => rfl
  | cons x xs ih =>
    have := ih (pre ++ [x])
    rw [List.length_append, List.length_singleton, List.append_assoc] at this
    rw [List.length_cons, List.range'_succ, List.mapM_cons]
    rw [List.cons_append, show (pre ++ x :: (xs ++ post))[pre.length]? = some x by simp]
    rw [show pre ++ ([x] ++ (xs ++ post)) = pre ++ x :: (xs ++ post) from rfl] at this
    simp only [this]
    rfl

theorem elems_mapM (xs : List (Elem p)) : (xs.map Val.elem).mapM elem? = some xs := by
  induction xs with
  | nil => rfl
  | cons a l ih =>
    rw [List.map_cons, List.mapM_cons, ih]
    rfl

theorem membershipCode_outcome (h : PairHash p) (x r i : Elem p) (sibs : List (Elem p)) :
    (membershipCode h sibs.length).outcome (x :: r :: i :: sibs) =
      if sibs.length < Elem.maxBits p ∧ i.n < 2 ^ sibs.length then
        some ((x :: r :: i :: sibs).map .elem ++ [.bits (bitsOf sibs.length i.n)],
          decide (r = pathRoot h.value ((bitsOf sibs.length i.n).zip sibs) x)) else none := by
  have h1 : stepOutcome (.splitBounded sibs.length, [2]) ((x :: r :: i :: sibs).map Val.elem) =
      if sibs.length < Elem.maxBits p ∧ i.n < 2 ^ sibs.length then
        some ((x :: r :: i :: sibs).map .elem ++ [.bits (bitsOf sibs.length i.n)], true)
      else none := by
    split <;> next hc => simp [stepOutcome, Op.outcome, Op.meaning, elem?, fun1, hc]
  unfold membershipCode outcome
  rw [outcomeFrom, h1]
  split
  · next hc =>
    have hget := mapM_middle [Val.elem x, .elem r, .elem i] (sibs.map Val.elem)
      [Val.bits (bitsOf sibs.length i.n)]
    rw [List.length_map] at hget
    have hargs : ([0, 1, 3 + sibs.length] ++ List.range' 3 sibs.length).mapM
        (fun j => ((x :: r :: i :: sibs).map Val.elem ++ [.bits (bitsOf sibs.length i.n)])[j]?) =
        some (.elem x :: .elem r :: .bits (bitsOf sibs.length i.n) :: sibs.map Val.elem) := by
      rw [List.mapM_append]
      have e : ∀ j : ℕ, ((x :: r :: i :: sibs).map Val.elem ++ [.bits (bitsOf sibs.length i.n)])[j]? =
        ([Val.elem x, .elem r, .elem i] ++ (sibs.map Val.elem ++
          [Val.bits (bitsOf sibs.length i.n)]))[j]? := fun j => rfl
      simp only [e]
      erw [hget]
      have hlast : (Val.elem x :: .elem r :: .elem i :: (sibs.map Val.elem ++
          [Val.bits (bitsOf sibs.length i.n)]))[3 + sibs.length]? =
          some (Val.bits (bitsOf sibs.length i.n)) := by
        rw [Nat.add_comm]
        simp [List.getElem?_append_right]
      simp [hlast]
    have h2 : stepOutcome (.assertMembership h, [0, 1, 3 + sibs.length] ++ List.range' 3 sibs.length)
        ((x :: r :: i :: sibs).map Val.elem ++ [.bits (bitsOf sibs.length i.n)]) =
        some ((x :: r :: i :: sibs).map .elem ++ [.bits (bitsOf sibs.length i.n)],
          decide (r = pathRoot h.value ((bitsOf sibs.length i.n).zip sibs) x)) := by
      have hm : (sibs.map Val.elem).mapM elem? = some sibs := elems_mapM sibs
      have hl : (bitsOf sibs.length i.n).length = sibs.length := by simp [bitsOf]
      unfold stepOutcome
      simp only [hargs]
      simp [Op.outcome, funPath2, hm, hl]
    show (outcomeFrom _ _ >>= _) = _
    rw [outcomeFrom, h2]
    simp [outcomeFrom]
  · rfl

theorem membershipCode_nocast (h : PairHash p) (k : ℕ) : (membershipCode h k).NoCast := by
  intro i hi
  simp only [membershipCode, List.mem_cons, List.not_mem_nil, or_false] at hi
  rcases hi with rfl | rfl <;> rfl

/-- C91: executing the circuit which checks membership, for paths of any length below the number of
digits of field elements, panics if the index is too large for the path and returns otherwise whether
hashing along the path, with the digits of the index as directions, leads from the leaf to the root.
Whoever supplies the witness has no better chance: the constraints can be satisfied for the same inputs
only.  If the hash function determines its wires, there is just one witness. -/
theorem C91_membership (h4 : 4 ≤ Elem.maxBits p) (h : PairHash p) (x r i : Elem p)
    (sibs : List (Elem p)) (hlen : sibs.length < Elem.maxBits p) :
    ((membershipCode h sibs.length).verdict (x :: r :: i :: sibs) =
      if i.n < 2 ^ sibs.length then
        some (decide (r = pathRoot h.value ((bitsOf sibs.length i.n).zip sibs) x)) else none) ∧
    ∀ (os : List (Obj p)) (b : Builder p),
      (membershipCode h sibs.length).build (3 + sibs.length) Builder.new = some (os, b) →
      ((∃ W, Satisfies W b.constraints ∧
          (List.range' 1 (3 + sibs.length)).map W = x :: r :: i :: sibs) ↔
        i.n < 2 ^ sibs.length ∧ r = pathRoot h.value ((bitsOf sibs.length i.n).zip sibs) x) ∧
      (Determines2 h.code.compress → ∀ W1 W2 : Assign p, Satisfies W1 b.constraints →
        Satisfies W2 b.constraints → (List.range' 1 (3 + sibs.length)).map W1 = x :: r :: i :: sibs →
        (List.range' 1 (3 + sibs.length)).map W2 = x :: r :: i :: sibs →
        ∀ j < b.nextWireIndex, W1 j = W2 j) := by
  have ho := membershipCode_outcome h x r i sibs
  refine ⟨?_, fun os b hb => ⟨?_, fun hdet W1 W2 h1 h2 e1 e2 => ?_⟩⟩
  · rw [verdict_eq h4 (membershipCode_nocast h _) ho]
    by_cases hi : i.n < 2 ^ sibs.length
    · rw [if_pos ⟨hlen, hi⟩, if_pos hi]; rfl
    · rw [if_neg fun h => hi h.2, if_neg hi]; rfl
  · have hpin : (membershipCode h sibs.length).Pinned := by
      intro i hi
      simp only [membershipCode, List.mem_cons, List.not_mem_nil, or_false] at hi
      rcases hi with rfl | rfl <;> rfl
    rw [(C87_exact h4 _ hpin _ hb (x :: r :: i :: sibs) (by simp; omega)).1]
    constructor
    · intro hs
      obtain ⟨ys, hs⟩ := Option.isSome_iff_exists.1 hs
      rw [C88_meaning, ho] at hs
      split at hs
      · next hc =>
        have := congrArg (fun e => e.map fun e => e.2) hs
        simp only [Option.map_some, Option.some.injEq, decide_eq_true_eq] at this
        exact ⟨hc.2, this⟩
      · cases hs
    · intro ⟨hi, hr⟩
      rw [if_pos ⟨hlen, hi⟩, decide_eq_true hr] at ho
      rw [(C88_meaning _ _ _).2 ho]
      rfl
  · refine C90_circuits h4 _ ?_ _ hb h1 h2 (e1.trans e2.symm) ?_
    · intro i hi
      simp only [membershipCode, List.mem_cons, List.not_mem_nil, or_false] at hi
      rcases hi with rfl | rfl
      · rfl
      · exact hdet
    · exact ⟨fun _ _ => trivial, fun _ _ => ⟨fun _ _ => trivial, fun _ _ => trivial⟩⟩

/-! ## Cases -/

/-- The hash function of the tests of src/signature.rs, `2 x + y`. -/
def testHash13 : PairHash 13 where
  code := testCompress
  value x y := 2 * x + y
  sound := testCompress_spec.1
  complete := testCompress_spec.2 (by norm_num)
  tidy x y := (Tidy.ofOption _).bind fun _ => Tidy.pure _

example : 4 ≤ Elem.maxBits 13 := by rw [maxBits13]

/-- Private key 3, nonce 2, message 1; the public key is three times the generator. -/
example : (signatureCode curve13 ⟨point13.x, point13.y⟩ testHash13).verdict
    [7, 1, 1, (3 • point13).x, (3 • point13).y] = some true := by
  rw [(C91_signature (by rw [maxBits13]) curve13 point13 testHash13 7 1 1).1 (3 • point13)]
  decide +kernel

/-- Another message. -/
example : (signatureCode curve13 ⟨point13.x, point13.y⟩ testHash13).verdict
    [7, 1, 2, (3 • point13).x, (3 • point13).y] = some false := by
  rw [(C91_signature (by rw [maxBits13]) curve13 point13 testHash13 7 1 2).1 (3 • point13)]
  decide +kernel

/-- A path of length two to the leaf with index 2: the value 5 has the sibling 1 to its right, and
their parent 11 has the sibling 3 to its left. -/
example : (membershipCode testHash13 2).verdict [5, 4, 2, 1, 3] = some true :=
  (C91_membership (by rw [maxBits13]) testHash13 5 4 2 [1, 3] (by rw [maxBits13]; decide)).1.trans
    (by decide +kernel)

/-- The same path with the index 3, and with the index 4, which is too large. -/
example : (membershipCode testHash13 2).verdict [5, 4, 3, 1, 3] = some false ∧
    (membershipCode testHash13 2).verdict [5, 4, 4, 1, 3] = none :=
  ⟨(C91_membership (by rw [maxBits13]) testHash13 5 4 3 [1, 3] (by rw [maxBits13]; decide)).1.trans
    (by decide +kernel),
   (C91_membership (by rw [maxBits13]) testHash13 5 4 4 [1, 3] (by rw [maxBits13]; decide)).1.trans
    (by decide +kernel)⟩

example : Determines2 testHash13.code.compress := fun n x y hn hx hy =>
  Det.determined (S := InScope) ((Det.ofOption (S := fun z k => k = n ∧ z.Scoped n)
    fun z h => ⟨rfl, hx.mulNat h⟩).bind fun z k _ ⟨e, hz⟩ => Det.pure (by rw [e]; exact hz.add hy))

end R1CS
