import Verif.Lemmas.BinaryOps

/-!
# Bitwise operations and random access
-/

set_option linter.unusedSectionVars false

namespace R1CS

variable {p : ℕ} [hp : Fact p.Prime] {α β : Type}

open Expression

/-! ## Digits as truth values -/

/-- The truth value of a boolean expression. -/
def BooleanExpression.truth (w : Assign p) (b : BooleanExpression p) : Bool := decide (b.eval w = 1)

theorem IsBool.n_eq_truth {x : Elem p} (h : IsBool x) : x.n = (decide (x = 1)).toNat := by
  conv_lhs => rw [show x = Elem.ofBool (decide (x = 1)) by
    rcases h with rfl | rfl <;> simp [Elem.ofBool_true, Elem.ofBool_false], Elem.ofBool_n]

theorem testBit_digitsVal (l : List Bool) (i : ℕ) :
    (digitsVal (l.map Bool.toNat)).testBit i = l.getD i false := by
  induction l generalizing i with
  | nil => simp [digitsVal]
  | cons b l ih =>
    rw [List.map_cons, digitsVal]
    cases i with
    | zero => cases b <;> simp [Nat.testBit_zero]
    | succ i =>
      rw [Nat.testBit_add_one, show (b.toNat + 2 * digitsVal (l.map Bool.toNat)) / 2
        = digitsVal (l.map Bool.toNat) by cases b <;> simp <;> omega, ih]
      simp

theorem BinaryExpression.AllBool.digits_eq {w : Assign p} {e : BinaryExpression p}
    (h : e.AllBool w) : e.digits w = (e.bits.map (BooleanExpression.truth w)).map Bool.toNat := by
  rw [BinaryExpression.digits, List.map_map]
  exact List.map_congr_left fun b hb => (h b hb).n_eq_truth

theorem BinaryExpression.AllBool.testBit {w : Assign p} {e : BinaryExpression p}
    (h : e.AllBool w) (i : ℕ) :
    (e.val w).testBit i = (e.bits.map (BooleanExpression.truth w)).getD i false := by
  unfold BinaryExpression.val
  rw [h.digits_eq, testBit_digitsVal]

theorem truth_ofBool {w : Assign p} {b : BooleanExpression p} {t : Bool}
    (h : b.eval w = Elem.ofBool t) : IsBool (b.eval w) ∧ b.truth w = t := by
  refine ⟨by rw [h]; exact isBool_ofBool t, ?_⟩
  unfold BooleanExpression.truth
  rw [h]
  cases t <;> simp [Elem.ofBool_true, Elem.ofBool_false]

/-! ## Bitwise logic -/

/-- What a two-place boolean gadget is expected to satisfy. -/
def OpEnforces (op : BooleanExpression p → BooleanExpression p → B p (BooleanExpression p))
    (f : Bool → Bool → Bool) : Prop := ∀ x y, Enforces (op x y) (fun z w =>
      IsBool (x.eval w) → IsBool (y.eval w) → z.eval w = Elem.ofBool (f (x.truth w) (y.truth w)))

/-- What a two-place boolean gadget is expected to compute. -/
def OpComputes (op : BooleanExpression p → BooleanExpression p → B p (BooleanExpression p)) : Prop :=
  ∀ (s : Hon p) (x y : BooleanExpression p), x.Scoped s.next → y.Scoped s.next →
    Comp (op x y) s fun z s' => s'.D = s.D ∧ z.Scoped s'.next

theorem bool_cases {w : Assign p} {x : BooleanExpression p} (h : IsBool (x.eval w)) :
    (x.eval w = 0 ∧ x.truth w = false) ∨ (x.eval w = 1 ∧ x.truth w = true) := by
  rcases h with h | h <;> simp [h, BooleanExpression.truth]

theorem opEnforces_and : OpEnforces (p := p) B.and (· && ·) := fun x y =>
  (Enforces.and x y).mono fun z w _ h hx hy => by
    rw [h]
    rcases bool_cases hx with ⟨a, b⟩ | ⟨a, b⟩ <;> rcases bool_cases hy with ⟨c, d⟩ | ⟨c, d⟩ <;>
      simp [a, b, c, d, Elem.ofBool_true, Elem.ofBool_false]

theorem opEnforces_or : OpEnforces (p := p) B.or (· || ·) := fun x y =>
  (Enforces.or x y).mono fun z w _ h hx hy => by
    rw [h]
    rcases bool_cases hx with ⟨a, b⟩ | ⟨a, b⟩ <;> rcases bool_cases hy with ⟨c, d⟩ | ⟨c, d⟩ <;>
      simp [a, b, c, d, Elem.ofBool_true, Elem.ofBool_false]

theorem opEnforces_xor : OpEnforces (p := p) B.xor (· ^^ ·) := fun x y =>
  (Enforces.xor x y).mono fun z w _ h hx hy => by
    rw [h]
    rcases bool_cases hx with ⟨a, b⟩ | ⟨a, b⟩ <;> rcases bool_cases hy with ⟨c, d⟩ | ⟨c, d⟩ <;>
      simp [a, b, c, d, Elem.ofBool_true, Elem.ofBool_false]
    norm_num

namespace Enforces

theorem zipBits {op : BooleanExpression p → BooleanExpression p → B p (BooleanExpression p)}
    {f : Bool → Bool → Bool} (hop : OpEnforces op f) :
    ∀ bs cs : List (BooleanExpression p), Enforces (B.zipBits op bs cs) (fun ds w =>
      (∀ b ∈ bs, IsBool (b.eval w)) → (∀ c ∈ cs, IsBool (c.eval w)) →
      (∀ d ∈ ds, IsBool (d.eval w)) ∧ ds.map (BooleanExpression.truth w)
        = List.zipWith f (bs.map (BooleanExpression.truth w)) (cs.map (BooleanExpression.truth w)))
  | b :: bs, c :: cs => by
    unfold B.zipBits
    refine (hop b c).bind fun d => (zipBits hop bs cs).bind fun ds =>
      Enforces.pure fun w _ h1 h2 hb hc => ?_
    obtain ⟨g1, g2⟩ := truth_ofBool (h2 (hb b (by simp)) (hc c (by simp)))
    obtain ⟨g3, g4⟩ := h1 (fun x hx => hb x (by simp [hx])) (fun x hx => hc x (by simp [hx]))
    refine ⟨fun x hx => ?_, by simp [g2, g4]⟩
    rcases List.mem_cons.1 hx with rfl | hx
    · exact g1
    · exact g3 x hx
  | [], cs => by
    unfold B.zipBits
    exact Enforces.pure fun w _ _ _ => by simp
  | b :: bs, [] => by
    unfold B.zipBits
    exact Enforces.pure fun w _ _ _ => by simp

theorem notBits : ∀ bs : List (BooleanExpression p), Enforces (B.notBits bs) (fun ds w =>
      (∀ b ∈ bs, IsBool (b.eval w)) →
      (∀ d ∈ ds, IsBool (d.eval w)) ∧ ds.map (BooleanExpression.truth w)
        = (bs.map (BooleanExpression.truth w)).map (!·))
  | b :: bs => by
    unfold B.notBits
    refine (Enforces.not b).bind fun d => (notBits bs).bind fun ds =>
      Enforces.pure fun w _ h1 h2 hb => ?_
    have h3 : d.eval w = Elem.ofBool (!b.truth w) := by
      rw [h2]
      rcases bool_cases (hb b (by simp)) with ⟨a, b⟩ | ⟨a, b⟩ <;>
        simp [a, b, Elem.ofBool_true, Elem.ofBool_false]
    obtain ⟨g1, g2⟩ := truth_ofBool h3
    obtain ⟨g3, g4⟩ := h1 (fun x hx => hb x (by simp [hx]))
    refine ⟨fun x hx => ?_, by simp [g2, g4]⟩
    rcases List.mem_cons.1 hx with rfl | hx
    · exact g1
    · exact g3 x hx
  | [] => by
    unfold B.notBits
    exact Enforces.pure fun w _ _ => by simp

end Enforces

/-! ### Numbers -/

theorem zipWith_getD {f : Bool → Bool → Bool} (hf : f false false = false) :
    ∀ (as bs : List Bool) (i : ℕ), as.length = bs.length →
      (List.zipWith f as bs).getD i false = f (as.getD i false) (bs.getD i false)
  | [], [], i, _ => by simp [hf]
  | a :: as, b :: bs, 0, _ => by simp
  | a :: as, b :: bs, i + 1, h => by
    simpa using zipWith_getD hf as bs i (by simpa using h)

/-- The number denoted by the digit-wise combination. -/
theorem val_zip {f : Bool → Bool → Bool} (hf : f false false = false) {w : Assign p}
    {x y e : BinaryExpression p} (hx : x.AllBool w) (hy : y.AllBool w) (he : e.AllBool w)
    (hl : x.len = y.len) (h : e.bits.map (BooleanExpression.truth w)
      = List.zipWith f (x.bits.map (BooleanExpression.truth w))
        (y.bits.map (BooleanExpression.truth w))) :
    e.len = x.len ∧ ∀ i, (e.val w).testBit i = f ((x.val w).testBit i) ((y.val w).testBit i) := by
  refine ⟨?_, fun i => ?_⟩
  · have h2 := congrArg List.length h
    simp only [List.length_map, List.length_zipWith] at h2
    unfold BinaryExpression.len at *
    omega
  · rw [he.testBit, hx.testBit, hy.testBit, h]
    exact zipWith_getD hf _ _ i (by simpa [BinaryExpression.len] using hl)

theorem digitsVal_not (l : List Bool) : digitsVal ((l.map (!·)).map Bool.toNat)
    + digitsVal (l.map Bool.toNat) + 1 = 2 ^ l.length := by
  induction l with
  | nil => rfl
  | cons b l ih =>
    simp only [List.map_cons, digitsVal, List.length_cons, pow_succ]
    cases b <;> simp only [Bool.not_true, Bool.not_false, Bool.toNat_true, Bool.toNat_false] <;>
      omega

theorem val_not {w : Assign p} {x e : BinaryExpression p} (hx : x.AllBool w) (he : e.AllBool w)
    (h : e.bits.map (BooleanExpression.truth w)
      = (x.bits.map (BooleanExpression.truth w)).map (!·)) :
    e.len = x.len ∧ e.val w = 2 ^ x.len - 1 - x.val w := by
  refine ⟨by simpa [BinaryExpression.len] using congrArg List.length h, ?_⟩
  have := digitsVal_not (x.bits.map (BooleanExpression.truth w))
  unfold BinaryExpression.val
  rw [List.length_map] at this
  rw [he.digits_eq, hx.digits_eq, h, BinaryExpression.len]
  omega

namespace Comp

theorem zipBits {op : BooleanExpression p → BooleanExpression p → B p (BooleanExpression p)}
    (hop : OpComputes op) : ∀ (bs cs : List (BooleanExpression p)) (s : Hon p),
    (∀ b ∈ bs, b.Scoped s.next) → (∀ c ∈ cs, c.Scoped s.next) →
    Comp (B.zipBits op bs cs) s fun ds s' => s'.D = s.D ∧ ∀ d ∈ ds, d.Scoped s'.next
  | b :: bs, c :: cs, s, hb, hc => by
    unfold B.zipBits
    refine (hop s b c (hb b (by simp)) (hc c (by simp))).bind fun d s1 l1 ⟨D1, sc1⟩ => ?_
    refine (zipBits hop bs cs s1 (fun x hx => l1.bscoped (hb x (by simp [hx])))
      (fun x hx => l1.bscoped (hc x (by simp [hx])))).bind fun ds s2 l2 ⟨D2, sc2⟩ =>
      Comp.pure ⟨by rw [D2, D1], fun x hx => ?_⟩
    rcases List.mem_cons.1 hx with rfl | hx
    · exact l2.bscoped sc1
    · exact sc2 x hx
  | [], cs, s, hb, hc => by
    unfold B.zipBits
    exact Comp.pure ⟨rfl, by simp⟩
  | b :: bs, [], s, hb, hc => by
    unfold B.zipBits
    exact Comp.pure ⟨rfl, by simp⟩

theorem notBits : ∀ (bs : List (BooleanExpression p)) (s : Hon p),
    (∀ b ∈ bs, b.Scoped s.next) →
    Comp (B.notBits bs) s fun ds s' => s'.D = s.D ∧ s'.W = s.W ∧ ∀ d ∈ ds, d.Scoped s'.next
  | b :: bs, s, hb => by
    unfold B.notBits
    refine (Comp.not (hb b (by simp))).bind fun d s1 l1 ⟨n1, D1, W1, sc1, _⟩ => ?_
    refine (notBits bs s1 (fun x hx => l1.bscoped (hb x (by simp [hx])))).bind
      fun ds s2 l2 ⟨D2, W2, sc2⟩ => Comp.pure ⟨by rw [D2, D1], by rw [W2, W1], fun x hx => ?_⟩
    rcases List.mem_cons.1 hx with rfl | hx
    · exact l2.bscoped sc1
    · exact sc2 x hx
  | [], s, hb => by
    unfold B.notBits
    exact Comp.pure ⟨rfl, rfl, by simp⟩

end Comp

/-! ## Rearranged bits -/

theorem mapM_some_eq {f : ℕ → Option α} {g : ℕ → α} : ∀ (l : List ℕ),
    (∀ i ∈ l, f i = some (g i)) → l.mapM f = some (l.map g)
  | [], _ => rfl
  | i :: l, h => by
    rw [List.mapM_cons, h i (by simp), mapM_some_eq l fun j hj => h j (by simp [hj])]
    rfl

theorem mapM_none {f : ℕ → Option α} : ∀ (l : List ℕ) (i : ℕ), i ∈ l → f i = none →
    l.mapM f = none
  | j :: l, i, h, hf => by
    rw [List.mapM_cons]
    rcases List.mem_cons.1 h with rfl | h
    · rw [hf]; rfl
    · rw [mapM_none l i h hf]
      cases f j <;> rfl

theorem getElem?_getD {l : List α} {i : ℕ} (d : α) (h : i < l.length) : l[i]? = some (l.getD i d) := by
  simp [h]

/-- The number denoted by bits given position by position. -/
theorem val_range {w : Assign p} {l : ℕ} {g : ℕ → BooleanExpression p} {t : ℕ → Bool}
    (h : ∀ i < l, IsBool ((g i).eval w) ∧ (g i).truth w = t i) :
    BinaryExpression.AllBool w ⟨(List.range l).map g⟩ ∧
    (⟨(List.range l).map g⟩ : BinaryExpression p).len = l ∧
    ∀ i, (BinaryExpression.val w ⟨(List.range l).map g⟩).testBit i = (decide (i < l) && t i) := by
  have hb : BinaryExpression.AllBool w ⟨(List.range l).map g⟩ := by
    intro b hb
    obtain ⟨i, hi, rfl⟩ := List.mem_map.1 hb
    exact (h i (List.mem_range.1 hi)).1
  refine ⟨hb, by simp [BinaryExpression.len], fun i => ?_⟩
  rw [hb.testBit]
  by_cases hi : i < l
  · simp [hi, (h i hi).2]
  · simp [hi]

/-- A bit of an expression, read from its number. -/
theorem BinaryExpression.AllBool.getD {w : Assign p} {x : BinaryExpression p} (hx : x.AllBool w) {i : ℕ}
    (hi : i < x.len) : IsBool ((x.bits.getD i BooleanExpression.false).eval w) ∧
      (x.bits.getD i BooleanExpression.false).truth w = (x.val w).testBit i := by
  have hi' : i < x.bits.length := hi
  have h1 : x.bits.getD i BooleanExpression.false = x.bits[i] := by simp [hi']
  rw [h1, hx.testBit]
  exact ⟨hx _ (List.getElem_mem _), by simp [hi']⟩

theorem mapM_mk {f : ℕ → Option (BooleanExpression p)} {g : ℕ → BooleanExpression p} {l : ℕ}
    (h : ∀ i < l, f i = some (g i)) :
    ((List.range l).mapM f).bind (fun bits => some (⟨bits⟩ : BinaryExpression p))
      = some ⟨(List.range l).map g⟩ := by
  rw [mapM_some_eq _ fun i hi => h i (List.mem_range.1 hi)]
  rfl

theorem rotateInc_eq (x : BinaryExpression p) (n : ℕ) : B.rotateInc x n
    = some ⟨(List.range x.len).map fun i =>
      x.bits.getD ((x.len + i - n % x.len) % x.len) BooleanExpression.false⟩ :=
  mapM_mk fun i hi => getElem?_getD BooleanExpression.false (Nat.mod_lt _ (Nat.zero_lt_of_lt hi))

theorem rotateDec_eq (x : BinaryExpression p) (n : ℕ) : B.rotateDec x n
    = some ⟨(List.range x.len).map fun i =>
      x.bits.getD ((i + n) % x.len) BooleanExpression.false⟩ :=
  mapM_mk fun i hi => getElem?_getD BooleanExpression.false (Nat.mod_lt _ (Nat.zero_lt_of_lt hi))

theorem shiftInc_eq (x : BinaryExpression p) (n : ℕ) : B.shiftInc x n
    = some ⟨(List.range x.len).map fun i =>
      if i < n then BooleanExpression.false else x.bits.getD (i - n) BooleanExpression.false⟩ := by
  refine mapM_mk fun i hi => ?_
  have h2 : x.len = x.bits.length := rfl
  split
  · rfl
  · exact getElem?_getD BooleanExpression.false (by omega)

theorem shiftDec_eq (x : BinaryExpression p) {n : ℕ} (hn : n ≤ x.len) : B.shiftDec x n
    = some ⟨(List.range x.len).map fun i =>
      if i < x.len - n then x.bits.getD (i + n) BooleanExpression.false
        else BooleanExpression.false⟩ := by
  refine mapM_mk fun i hi => ?_
  have h2 : x.len = x.bits.length := rfl
  rw [if_pos hn]
  split
  · exact getElem?_getD BooleanExpression.false (by omega)
  · rfl

theorem truth_false (w : Assign p) :
    IsBool ((BooleanExpression.false : BooleanExpression p).eval w) ∧
      (BooleanExpression.false : BooleanExpression p).truth w = false :=
  truth_ofBool (by
    rw [Elem.ofBool_false]
    exact Expression.eval_zero w)

/-! ## Random access -/

/-- One layer of the tree on values. -/
def layer (b : Bool) : List α → List α
  | l :: r :: rest => (if b then r else l) :: layer b rest
  | rest => rest

theorem layer_length (b : Bool) : ∀ l : List α, (layer b l).length = (l.length + 1) / 2
  | [] => by simp [layer]
  | [_] => by simp [layer]
  | _ :: _ :: rest => by simp [layer, layer_length b rest]; omega

theorem layer_getElem? (b : Bool) : ∀ (l : List α) (i : ℕ), 2 * i + b.toNat < l.length →
    (layer b l)[i]? = l[2 * i + b.toNat]?
  | [], i, h => by simp at h
  | [a], i, h => by
    have : i = 0 ∧ b = false := by cases b <;> simp at h ⊢; omega
    obtain ⟨rfl, rfl⟩ := this
    rfl
  | l :: r :: rest, 0, h => by cases b <;> rfl
  | l :: r :: rest, i + 1, h => by
    have := layer_getElem? b rest i (by simp at h; omega)
    rw [layer, List.getElem?_cons_succ, this, show 2 * (i + 1) + b.toNat
      = (2 * i + b.toNat) + 1 + 1 by ring]
    rfl

theorem mem_layer {b : Bool} {x : α} : ∀ {l : List α}, x ∈ layer b l → x ∈ l
  | [], h => h
  | [_], h => h
  | l :: r :: rest, h => by
    rw [layer] at h
    rcases List.mem_cons.1 h with rfl | h
    · cases b <;> simp
    · have := mem_layer h; simp [this]

/-- The value at the root. -/
def pick : List Bool → List α → Option α
  | [], l => l.head?
  | b :: bs, l => pick bs (layer b l)

theorem pick_eq : ∀ (bs : List Bool) (l : List α), digitsVal (bs.map Bool.toNat) < l.length →
    pick bs l = l[digitsVal (bs.map Bool.toNat)]?
  | [], l, h => by simp [pick, digitsVal, List.head?_eq_getElem?]
  | b :: bs, l, h => by
    simp only [List.map_cons, digitsVal] at h ⊢
    rw [pick, pick_eq bs (layer b l) (by rw [layer_length]; cases b <;> simp at h ⊢ <;> omega),
      layer_getElem? b l _ (by omega)]
    congr 1
    omega

theorem mem_of_pick {x : α} : ∀ {bs : List Bool} {l : List α}, pick bs l = some x → x ∈ l
  | [], l, h => List.mem_of_head? h
  | _ :: bs, l, h => mem_layer (mem_of_pick (bs := bs) h)

namespace Enforces

theorem parentLayer (lsb : BooleanExpression p) : ∀ items : List (Expression p),
    Enforces (B.parentLayer lsb items) (fun ps w => IsBool (lsb.eval w) →
      ps.map (eval w) = layer (lsb.truth w) (items.map (eval w)))
  | l :: r :: rest => by
    unfold B.parentLayer
    refine (Enforces.selection lsb r l).bind fun q => (parentLayer lsb rest).bind fun qs =>
      Enforces.pure fun w _ h1 h2 hb => ?_
    simp only [List.map_cons, layer, h1 hb]
    congr 1
    rw [h2]
    rcases bool_cases hb with ⟨a, b⟩ | ⟨a, b⟩ <;> simp [a, b]
  | [] => by
    unfold B.parentLayer
    exact Enforces.pure fun w _ _ => rfl
  | [_] => by
    unfold B.parentLayer
    exact Enforces.pure fun w _ _ => rfl

theorem randomAccessBinary : ∀ (bits : List (BooleanExpression p)) (items : List (Expression p)),
    Enforces (B.randomAccessBinary bits items) (fun z w => (∀ b ∈ bits, IsBool (b.eval w)) →
      pick (bits.map (BooleanExpression.truth w)) (items.map (eval w)) = some (z.eval w))
  | [], [item] => by
    unfold B.randomAccessBinary
    exact Enforces.pure fun w _ _ => rfl
  | [], [] => by
    unfold B.randomAccessBinary
    exact Enforces.panic
  | [], _ :: _ :: _ => by
    unfold B.randomAccessBinary
    exact Enforces.panic
  | _ :: _, [_] => by
    unfold B.randomAccessBinary
    exact Enforces.panic
  | lsb :: bits, [] => by
    unfold B.randomAccessBinary
    refine (parentLayer lsb []).bind fun ps => (randomAccessBinary bits ps).mono
      fun z w _ h1 h2 hb => ?_
    rw [List.map_cons, pick, ← h2 (hb lsb (by simp))]
    exact h1 fun b hb' => hb b (by simp [hb'])
  | lsb :: bits, i :: j :: rest => by
    unfold B.randomAccessBinary
    refine (parentLayer lsb (i :: j :: rest)).bind fun ps => (randomAccessBinary bits ps).mono
      fun z w _ h1 h2 hb => ?_
    rw [List.map_cons, pick, ← h2 (hb lsb (by simp))]
    exact h1 fun b hb' => hb b (by simp [hb'])

end Enforces

theorem indexBitsLoop_spec (len : ℕ) : ∀ fuel bits, len ≤ 2 ^ (bits + fuel) →
    (bits = 0 ∨ 2 ^ (bits - 1) < len) →
    len ≤ 2 ^ B.indexBitsLoop len fuel bits ∧
    (B.indexBitsLoop len fuel bits = 0 ∨ 2 ^ (B.indexBitsLoop len fuel bits - 1) < len)
  | 0, bits, h, h' => ⟨h, h'⟩
  | fuel + 1, bits, h, h' => by
    unfold B.indexBitsLoop
    rw [Nat.one_shiftLeft]
    split
    · next hlt =>
      exact indexBitsLoop_spec len fuel (bits + 1) (by rw [add_assoc, add_comm 1]; exact h)
        (Or.inr (by simpa using hlt))
    · next hlt => exact ⟨not_lt.1 hlt, h'⟩

theorem indexBits_spec (len : ℕ) : len ≤ 2 ^ B.indexBits len ∧
    (B.indexBits len = 0 ∨ 2 ^ (B.indexBits len - 1) < len) :=
  indexBitsLoop_spec len len 0 (by rw [zero_add]; exact Nat.lt_two_pow_self.le) (Or.inl rfl)

namespace Comp

theorem parentLayer {lsb : BooleanExpression p} : ∀ (items : List (Expression p)) (s : Hon p),
    lsb.Scoped s.next → (∀ e ∈ items, e.Scoped s.next) →
    Comp (B.parentLayer lsb items) s fun ps s' => s'.D = s.D ∧ (∀ e ∈ ps, e.Scoped s'.next) ∧
      ps.length = (items.length + 1) / 2
  | l :: r :: rest, s, hl, h => by
    unfold B.parentLayer
    refine (Comp.selection hl (h r (by simp)) (h l (by simp))).bind fun q s1 l1 ⟨D1, sc1, _⟩ => ?_
    refine (parentLayer rest s1 (l1.bscoped hl) fun e he => l1.scoped (h e (by simp [he]))).bind
      fun qs s2 l2 ⟨D2, sc2, n2⟩ => Comp.pure ⟨by rw [D2, D1], fun e he => ?_, ?_⟩
    · rcases List.mem_cons.1 he with rfl | he
      · exact l2.scoped sc1
      · exact sc2 e he
    · simp only [List.length_cons, n2]; omega
  | [], s, hl, h => by
    unfold B.parentLayer
    exact Comp.pure ⟨rfl, h, by simp⟩
  | [_], s, hl, h => by
    unfold B.parentLayer
    exact Comp.pure ⟨rfl, h, by simp⟩

theorem randomAccessBinary : ∀ (bits : List (BooleanExpression p)) (items : List (Expression p))
    (s : Hon p), (∀ b ∈ bits, b.Scoped s.next) → (∀ e ∈ items, e.Scoped s.next) →
    0 < items.length → items.length ≤ 2 ^ bits.length →
    (bits.length = 0 ∨ 2 ^ (bits.length - 1) < items.length) →
    Comp (B.randomAccessBinary bits items) s fun z s' => s'.D = s.D ∧ z.Scoped s'.next
  | [], [item], s, hb, hi, h0, h1, h2 => by
    unfold B.randomAccessBinary
    exact Comp.pure ⟨rfl, hi item (by simp)⟩
  | [], _ :: _ :: _, s, hb, hi, h0, h1, h2 => by simp at h1
  | _, [], s, hb, hi, h0, h1, h2 => by simp at h0
  | _ :: bits, [_], s, hb, hi, h0, h1, h2 => by
    have := Nat.two_pow_pos bits.length
    simp at h2
  | lsb :: bits, i :: j :: rest, s, hb, hi, h0, h1, h2 => by
    unfold B.randomAccessBinary
    refine (parentLayer (i :: j :: rest) s (hb lsb (by simp)) hi).bind
      fun ps s1 l1 ⟨D1, sc1, n1⟩ => ?_
    rw [List.length_cons (a := lsb), pow_succ] at h1
    refine (randomAccessBinary bits ps s1 (fun b hb' => l1.bscoped (hb b (by simp [hb']))) sc1
      ?_ ?_ ?_).mono fun z s2 l2 ⟨D2, sc2⟩ => ⟨by rw [D2, D1], sc2⟩
    · rw [n1]; simp only [List.length_cons]; omega
    · rw [n1]; omega
    · rcases Nat.eq_zero_or_pos bits.length with h | h
      · exact Or.inl h
      · right
        rw [n1]
        rcases h2 with h2 | h2
        · simp at h2
        · rw [List.length_cons, Nat.add_sub_cancel] at h2
          have : 2 ^ bits.length = 2 * 2 ^ (bits.length - 1) := by
            rw [← pow_succ', Nat.sub_add_cancel h]
          omega

end Comp

end R1CS
