import Verif.Lemmas.Binary
import Verif.Lemmas.Gadgets
import Verif.Lemmas.Forge
import Verif.Model.Comparisons
import Mathlib.Tactic.Linarith

/-!
# Splitting into bits, and closures which set several wires
-/

set_option linter.unusedSectionVars false

namespace R1CS

variable {p : ℕ} [hp : Fact p.Prime] {α β : Type}

open Expression

/-! ## Setting several wires -/

/-- Setting the listed wires one after another. -/
def setAll (v : WireValues p) : List (Wire × Elem p) → Option (WireValues p)
  | [] => some v
  | (i, x) :: l => (v.set i x).bind fun v' => setAll v' l

theorem setAll_eq {W : Assign p} (l : List Wire) (v : WireValues p) (hn : l.Nodup)
    (hu : ∀ i ∈ l, v i = none) :
    setAll v (l.map fun i => (i, W i)) = some (fun i => if i ∈ l then some (W i) else v i) := by
  induction l generalizing v with
  | nil => simp [setAll]
  | cons i l ih =>
    rw [List.nodup_cons] at hn
    rw [List.map_cons, setAll, set_eq_some (hu i (by simp)), Option.bind_some, ih _ hn.2]
    · congr 1
      funext j
      by_cases hj : j ∈ l
      · simp [hj]
      · by_cases hji : j = i
        · subst hji; simp [hj]
        · simp [hj, hji]
    · intro j hj
      rw [if_neg (by rintro rfl; exact hn.1 hj)]
      exact hu j (by simp [hj])

theorem GenOK.setAll {d outs : List Wire} {f : WireValues p → Option (WireValues p)}
    {W : Assign p} (hn : outs.Nodup)
    (h : ∀ v : WireValues p, (∀ i ∈ d, v i = some (W i)) →
      f v = R1CS.setAll v (outs.map fun i => (i, W i))) :
    GenOK ⟨d, f⟩ outs W := by
  intro v hin hout
  change f v = _
  rw [h v hin, setAll_eq outs v hn hout]

theorem GenOK.perm {g : WitnessGenerator p} {outs outs' : List Wire} {W : Assign p}
    (h : GenOK g outs W) (hp : outs.Perm outs') : GenOK g outs' W := by
  intro v hin hout
  rw [h v hin fun o ho => hout o (hp.mem_iff.1 ho)]
  congr 1
  funext i
  simp only [hp.mem_iff]

theorem setBitsOf_eq (x : Elem p) (ws : List BooleanWire) (i : ℕ) (v : WireValues p) :
    B.setBitsOf x i ws v
      = setAll v ((ws.zipIdx i).map fun y => (y.1.wire, Elem.ofBool (x.n.testBit y.2))) := by
  induction ws generalizing i v with
  | nil => rfl
  | cons w ws ih =>
    rw [List.zipIdx_cons, List.map_cons, setAll]
    unfold B.setBitsOf
    rw [Elem.bit_eq]
    change (v.set w.wire _).bind _ = _
    congr 1
    funext v'
    exact ih (i + 1) v'

/-! ## Digits as field elements -/

/-- The `n` low digits of `t` as field elements. -/
def bitElems (t n : ℕ) : List (Elem p) := (List.range n).map fun i => Elem.ofBool (t.testBit i)

theorem bitElems_length (t n : ℕ) : (bitElems t n : List (Elem p)).length = n := by
  simp [bitElems]

theorem bitElems_isBool (t n : ℕ) : ∀ x ∈ (bitElems t n : List (Elem p)), IsBool x := by
  intro x hx
  obtain ⟨i, _, rfl⟩ := List.mem_map.1 hx
  exact isBool_ofBool _

theorem bitElems_val {t n : ℕ} (h : t < 2 ^ n) :
    digitsVal ((bitElems t n : List (Elem p)).map fun x => x.n) = t := by
  unfold bitElems
  rw [List.map_map]
  simp only [Function.comp_def, Elem.ofBool_n]
  exact digitsVal_testBit_of_lt h

theorem two_pow_maxBits_lt : 2 ^ Elem.maxBits p < 2 * p := by
  have h1 := hp.out.two_le
  have hm := BinaryExpression.maxBits_pos (p := p)
  have := Elem.two_pow_lt_of_lt_maxBits (p := p) (k := Elem.maxBits p - 1) (by omega)
  calc 2 ^ Elem.maxBits p = 2 * 2 ^ (Elem.maxBits p - 1) := by
        rw [← pow_succ']; congr 1; omega
    _ < 2 * p := by omega

/-! ## Soundness -/

namespace Enforces

theorem splitWithoutRangeCheck (x : Expression p) (n : ℕ) :
    Enforces (B.splitWithoutRangeCheck x n) (fun e w => e.AllBool w ∧ e.len = n ∧
      n ≤ Elem.maxBits p ∧ x.eval w = ((e.val w : ℕ) : Elem p)) := by
  unfold B.splitWithoutRangeCheck
  refine (Enforces.binaryWire n).bind fun bw => (Enforces.ofOption (Q := fun s w =>
    bw.bits.length ≤ Elem.maxBits p ∧ s.eval w
      = ((BinaryExpression.val w (BinaryExpression.ofWire bw : BinaryExpression p) : ℕ) : Elem p))
      ?_).bind fun s => (Enforces.assertEqual x s).bind fun _ => (Enforces.generator _ _).bind
      fun _ => Enforces.pure fun w _ _ h1 h2 h3 => ?_
  · intro s hs w _
    have hl : (BinaryExpression.ofWire bw : BinaryExpression p).len ≤ Elem.maxBits p := by
      by_contra hc
      rw [BinaryExpression.joinAllowingOverflow_eq_none (not_le.1 hc)] at hs
      exact absurd hs (by simp)
    obtain ⟨y, hy, hyv⟩ := BinaryExpression.joinAllowingOverflow_eq hl
    rw [hs] at hy
    rw [Option.some.inj hy, hyv]
    exact ⟨by rwa [BinaryExpression.ofWire_len] at hl, rfl⟩
  · refine ⟨BinaryExpression.ofWire_allBool.2 h3.2, ?_, by rw [← h3.1]; exact h2.1, by rw [h1, h2.2]⟩
    rw [BinaryExpression.ofWire_len]; exact h3.1

theorem splitBounded (x : Expression p) (n : ℕ) :
    Enforces (B.splitBounded x n) (fun e w => e.AllBool w ∧ e.len = n ∧ n < Elem.maxBits p ∧
      2 ^ n < p ∧ e.val w = (x.eval w).n) := by
  unfold B.splitBounded
  refine (Enforces.require _).bind fun _ => (Enforces.splitWithoutRangeCheck x n).mono
    fun e w _ ⟨h1, h2, h3, h4⟩ hlt => ?_
  have hlt' := Elem.two_pow_lt_of_lt_maxBits hlt
  refine ⟨h1, h2, hlt, hlt', ?_⟩
  rw [h4, Elem.natCast_n_of_lt]
  have := h1.val_lt
  rw [h2] at this
  omega

theorem splitAllowingAmbiguity (x : Expression p) :
    Enforces (B.splitAllowingAmbiguity x) (fun e w => e.AllBool w ∧ e.len = Elem.maxBits p ∧
      (e.val w = (x.eval w).n ∨ e.val w = (x.eval w).n + p)) := by
  unfold B.splitAllowingAmbiguity
  refine (Enforces.splitWithoutRangeCheck x _).mono fun e w _ ⟨h1, h2, h3, h4⟩ => ⟨h1, h2, ?_⟩
  have hlt := h1.val_lt
  rw [h2] at hlt
  have h5 := two_pow_maxBits_lt (p := p)
  rw [h4, Elem.natCast_n]
  by_cases h : e.val w < p
  · rw [Nat.mod_eq_of_lt h]; exact Or.inl rfl
  · have : e.val w % p = e.val w - p := by
      rw [Nat.mod_eq_sub_mod (not_lt.1 h), Nat.mod_eq_of_lt (by omega)]
    rw [this]
    right; omega

end Enforces

/-! ## Completeness -/

namespace Comp

theorem splitWithoutRangeCheck {s : Hon p} {x : Expression p} (hx : x.Scoped s.next) {n : ℕ}
    (hn : n ≤ Elem.maxBits p) (hfit : (x.eval s.W).n < 2 ^ n) :
    Comp (B.splitWithoutRangeCheck x n) s fun e s' => s'.D = s.D ∧ e.Scoped s'.next ∧
      e.AllBool s'.W ∧ e.len = n ∧ e.val s'.W = (x.eval s.W).n := by
  unfold B.splitWithoutRangeCheck
  set t := (x.eval s.W).n with ht
  refine (Comp.binaryWire s n (bitElems t n) (bitElems_length t n) (bitElems_isBool t n)).bind
    fun bw s1 l1 ⟨h1, n1, D1, v1⟩ => ?_
  have hlen : bw.bits.length = n := by
    have := congrArg List.length h1
    simpa using this
  have hlen' : (BinaryExpression.ofWire bw : BinaryExpression p).len = n := by
    rw [BinaryExpression.ofWire_len]; exact hlen
  have hmem : ∀ y ∈ bw.bits, s.next ≤ y.wire ∧ y.wire < s1.next := by
    intro y hy
    have : y.wire ∈ List.range' s.next n := by rw [← h1]; exact List.mem_map.2 ⟨y, hy, rfl⟩
    rw [List.mem_range'_1] at this
    omega
  have hval : (BinaryExpression.ofWire bw : BinaryExpression p).val s1.W = t := by
    unfold BinaryExpression.val
    rw [BinaryExpression.ofWire_digits]
    have : (bw.bits.map fun y => (s1.W y.wire).n) = (bitElems t n : List (Elem p)).map fun x => x.n := by
      rw [← v1, List.map_map]; rfl
    rw [this, bitElems_val hfit]
  have hbool : (BinaryExpression.ofWire bw : BinaryExpression p).AllBool s1.W := by
    rw [BinaryExpression.ofWire_allBool]
    intro y hy
    have : s1.W y.wire ∈ (bitElems t n : List (Elem p)) := by
      rw [← v1]; exact List.mem_map.2 ⟨y, hy, rfl⟩
    exact bitElems_isBool t n _ this
  have hsc : (BinaryExpression.ofWire bw : BinaryExpression p).Scoped s1.next :=
    BinaryExpression.ofWire_scoped fun y hy => (hmem y hy).2
  obtain ⟨ws, e1, e2⟩ := BinaryExpression.joinAllowingOverflow_eq (e :=
    (BinaryExpression.ofWire bw : BinaryExpression p)) (by rw [hlen']; exact hn)
  refine Comp.ofOption_bind e1 ?_
  refine (Comp.assertEqual (l1.scoped hx) (BinaryExpression.joinAllowingOverflow_scoped e1 hsc)
    ?_).bind fun _ s2 l2 ⟨n2, D2, W2⟩ => ?_
  · rw [l1.eval hx, e2, hval, ht, Elem.natCast_self_n]
  refine (Comp.generator (bw.bits.map (·.wire)) s.D ?_ ?_ ?_).bind fun _ s3 l3 ⟨n3, D3, W3⟩ =>
    Comp.pure ⟨D3, ?_, ?_, hlen', ?_⟩
  · rw [D2, D1]
    exact List.Perm.append_right _ (List.reverse_perm _)
  · refine GenOK.setAll (by rw [h1]; exact List.nodup_range') fun v hin => ?_
    unfold B.splitGen
    rw [Expression.evaluate_eq (w := s2.W) hin, W2, l1.eval hx]
    simp only [Option.bind_eq_bind, Option.bind_some]
    have : (x.eval s.W).bits ≤ n := Nat.size_le.2 hfit
    rw [if_pos this, setBitsOf_eq]
    congr 1
    apply List.ext_getElem
    · simp
    · intro i h5 h6
      simp only [List.getElem_map, List.getElem_zipIdx, Nat.zero_add]
      have hi : i < bw.bits.length := by simpa using h5
      have h7 : (bw.bits.map fun y => s1.W y.wire)[i]'(by simpa using hi)
          = (bitElems t n)[i]'(by rw [bitElems_length]; omega) := by
        simp only [v1]
      rw [List.getElem_map] at h7
      rw [h7]
      simp [bitElems, ht]
  · intro i hi
    have := hx i hi
    have hle := l1.1
    refine ⟨by rw [n2]; omega, fun o ho => ?_⟩
    obtain ⟨y, hy, rfl⟩ := List.mem_map.1 ho
    have := (hmem y hy).1
    omega
  · rw [n3, n2]; exact hsc
  · rw [W3, W2]; exact hbool
  · rw [W3, W2]; exact hval

theorem splitBounded {s : Hon p} {x : Expression p} (hx : x.Scoped s.next) {n : ℕ}
    (hn : n < Elem.maxBits p) (hfit : (x.eval s.W).n < 2 ^ n) :
    Comp (B.splitBounded x n) s fun e s' => s'.D = s.D ∧ e.Scoped s'.next ∧
      e.AllBool s'.W ∧ e.len = n ∧ e.val s'.W = (x.eval s.W).n := by
  unfold B.splitBounded
  exact Comp.require_bind hn (splitWithoutRangeCheck hx hn.le hfit)

theorem splitAllowingAmbiguity {s : Hon p} {x : Expression p} (hx : x.Scoped s.next) :
    Comp (B.splitAllowingAmbiguity x) s fun e s' => s'.D = s.D ∧ e.Scoped s'.next ∧
      e.AllBool s'.W ∧ e.len = Elem.maxBits p ∧ e.val s'.W = (x.eval s.W).n :=
  splitWithoutRangeCheck hx le_rfl (Elem.lt_two_pow_maxBits _)

end Comp

end R1CS
