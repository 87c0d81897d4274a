import Verif.Props.Expression
import Verif.Model.Macros

/-!
# C14: exactly when setting values panics, and the macros which do it
-/

namespace R1CS

variable {p : ℕ} [hp : Fact p.Prime]

omit hp in
theorem set_isSome {v : WireValues p} {i : Wire} {x : Elem p} :
    (∃ v', v.set i x = some v') ↔ v i = none := by
  unfold WireValues.set WireValues.contains
  cases h : v i <;> simp

theorem setBits_isSome (value : ℕ) : ∀ (ws : List BooleanWire) (k : ℕ) (v : WireValues p),
    (ws.map (·.wire)).Nodup → (∀ w ∈ ws, v w.wire = none) → ∃ v', v.setBits value k ws = some v'
  | [], k, v, _, _ => ⟨v, rfl⟩
  | w :: ws, k, v, hd, hn => by
    rw [List.map_cons, List.nodup_cons] at hd
    obtain ⟨v1, h1⟩ : ∃ v1, v.setBoolean w ((value >>> k) &&& 1 == 1) = some v1 :=
      set_isSome.2 (hn w List.mem_cons_self)
    have e1 := extends_set h1
    obtain ⟨v2, h2⟩ := setBits_isSome value ws (k + 1) v1 hd.2 fun u hu => by
      by_contra hne
      obtain ⟨y, hy⟩ := Option.ne_none_iff_exists'.1 hne
      rcases (e1.2.2 _ _).1 hy with h | h
      · rw [hn u (List.mem_cons_of_mem _ hu)] at h
        exact absurd h (by simp)
      · rw [List.mem_singleton, Prod.mk.injEq] at h
        exact hd.1 (List.mem_map.2 ⟨u, hu, h.1⟩)
    refine ⟨v2, ?_⟩
    simp only [WireValues.setBits, h1, Option.bind_eq_bind, Option.bind_some, h2]

/-- The number fits the digits, in a call of `set_binary_unsigned`. -/
def SetOp.Fits : SetOp p → Prop
  | .setBinary i value => value < 2 ^ i.bits.length
  | _ => True

omit hp in
theorem SetOp.map_entries (i : BinaryWire) (value : ℕ) [Fact p.Prime] :
    ((SetOp.setBinary i value : SetOp p).entries).map (·.1) = i.bits.map (·.wire) := by
  simp only [SetOp.entries, List.map_map]
  have : ∀ (l : List BooleanWire) (k : ℕ), (l.zipIdx k).map
      ((fun kv : Wire × Elem p => kv.1) ∘ fun bi : BooleanWire × ℕ =>
        (bi.1.wire, if value.testBit bi.2 then 1 else 0)) = l.map (·.wire) := by
    intro l
    induction l with
    | nil => intro k; rfl
    | cons a l ih => intro k; rw [List.zipIdx_cons, List.map_cons, List.map_cons, ih]; rfl
  exact this _ _

theorem run_isSome {v : WireValues p} (op : SetOp p) :
    (∃ v', op.run v = some v') ↔
      (op.entries.map (·.1)).Nodup ∧ (∀ kv ∈ op.entries, v kv.1 = none) ∧ op.Fits := by
  constructor
  · rintro ⟨v', h⟩
    have := extends_run op h
    refine ⟨this.1, this.2.1, ?_⟩
    cases op with
    | set i x => trivial
    | setBoolean i b => trivial
    | setBinary i value =>
      simp only [SetOp.run, WireValues.setBinaryUnsigned] at h
      split at h
      · next hl => exact Nat.size_le.1 hl
      · exact absurd h (by simp)
  · rintro ⟨h1, h2, h3⟩
    cases op with
    | set i x => exact set_isSome.2 (h2 (i, x) List.mem_cons_self)
    | setBoolean i b => exact set_isSome.2 (h2 (i.wire, if b then 1 else 0) List.mem_cons_self)
    | setBinary i value =>
      rw [SetOp.map_entries] at h1
      have hl : value.size ≤ i.len := Nat.size_le.2 h3
      obtain ⟨v', hv⟩ := setBits_isSome value i.bits 0 v h1 fun w hw => by
        have : w.wire ∈ ((SetOp.setBinary i value : SetOp p).entries).map (·.1) := by
          rw [SetOp.map_entries]
          exact List.mem_map.2 ⟨w, hw, rfl⟩
        obtain ⟨kv, g1, g2⟩ := List.mem_map.1 this
        rw [← g2]
        exact h2 kv g1
      exact ⟨v', (if_pos hl).trans hv⟩

theorem runAll_isSome : ∀ (ops : List (SetOp p)) (v : WireValues p),
    (∃ v', SetOp.runAll v ops = some v') ↔
      ((ops.flatMap SetOp.entries).map (·.1)).Nodup ∧
      (∀ kv ∈ ops.flatMap SetOp.entries, v kv.1 = none) ∧ ∀ op ∈ ops, op.Fits
  | [], v => by simp [SetOp.runAll]
  | op :: ops, v => by
    constructor
    · rintro ⟨v', h⟩
      have e := extends_runAll _ _ _ h
      refine ⟨e.1, e.2.1, ?_⟩
      simp only [SetOp.runAll, List.foldlM_cons] at h
      cases h1 : op.run v with
      | none => simp [h1] at h
      | some v1 =>
        simp only [h1, Option.bind_eq_bind, Option.bind_some] at h
        exact List.forall_mem_cons.2 ⟨((run_isSome op).1 ⟨v1, h1⟩).2.2,
          ((runAll_isSome ops v1).1 ⟨v', h⟩).2.2⟩
    · rintro ⟨h1, h2, h3⟩
      rw [List.flatMap_cons, List.map_append, List.nodup_append] at h1
      obtain ⟨d1, d2, d3⟩ := h1
      rw [List.flatMap_cons] at h2
      obtain ⟨v1, hv1⟩ := (run_isSome (v := v) op).2
        ⟨d1, fun kv hkv => h2 kv (List.mem_append_left _ hkv), h3 op List.mem_cons_self⟩
      have e := extends_run op hv1
      obtain ⟨v2, hv2⟩ := (runAll_isSome ops v1).2 ⟨d2, fun kv hkv => by
        by_contra hne
        obtain ⟨y, hy⟩ := Option.ne_none_iff_exists'.1 hne
        rcases (e.2.2 _ _).1 hy with h | h
        · rw [h2 kv (List.mem_append_right _ hkv)] at h
          exact absurd h (by simp)
        · exact d3 kv.1 (List.mem_map.2 ⟨_, h, rfl⟩) kv.1 (List.mem_map.2 ⟨_, hkv, rfl⟩) rfl,
        fun o ho => h3 o (List.mem_cons_of_mem _ ho)⟩
      refine ⟨v2, ?_⟩
      simp only [SetOp.runAll, List.foldlM_cons, hv1, Option.bind_eq_bind, Option.bind_some]
      exact hv2

/-- C14: a history of calls from `WireValues::new()` panics exactly if a wire is given a value twice,
the constant wire is given a value, or a number does not fit its digits. -/
theorem C14_panics_iff (ops : List (SetOp p)) :
    SetOp.runAll WireValues.new ops = none ↔
      ¬ (ONE :: (ops.flatMap SetOp.entries).map (·.1)).Nodup ∨
      ∃ i value, SetOp.setBinary i value ∈ ops ∧ 2 ^ i.bits.length ≤ value := by
  have key := runAll_isSome ops (WireValues.new : WireValues p)
  have hone : (∀ kv ∈ ops.flatMap SetOp.entries, (WireValues.new : WireValues p) kv.1 = none) ↔
      ONE ∉ (ops.flatMap SetOp.entries).map (·.1) := by
    constructor
    · intro h hm
      obtain ⟨kv, g1, g2⟩ := List.mem_map.1 hm
      have := h kv g1
      rw [g2] at this
      exact absurd this (by simp [WireValues.new])
    · intro h kv hkv
      unfold WireValues.new
      exact if_neg fun h0 : kv.1 = ONE => h (List.mem_map.2 ⟨kv, hkv, h0⟩)
  rw [hone] at key
  have hfit : (∀ op ∈ ops, op.Fits) ↔
      ¬ ∃ i value, SetOp.setBinary i value ∈ ops ∧ 2 ^ i.bits.length ≤ value := by
    constructor
    · rintro h ⟨i, value, hm, hl⟩
      exact absurd (h _ hm : value < _) (not_lt.2 hl)
    · intro h op hop
      cases op with
      | set i x => trivial
      | setBoolean i b => trivial
      | setBinary i value => exact not_le.1 fun hl => h ⟨i, value, hop, hl⟩
  rw [hfit] at key
  rw [List.nodup_cons]
  cases hr : SetOp.runAll (WireValues.new : WireValues p) ops with
  | none =>
    rw [hr] at key
    simp only [reduceCtorEq, exists_false, false_iff] at key
    simp only [true_iff]
    by_contra hc
    rw [not_or, not_not] at hc
    exact key ⟨hc.1.2, hc.1.1, hc.2⟩
  | some v =>
    obtain ⟨k1, k2, k3⟩ := key.1 ⟨v, hr⟩
    simp only [reduceCtorEq, false_iff, not_or, not_not]
    exact ⟨⟨k2, k1⟩, k3⟩

example : SetOp.runAll (WireValues.new : WireValues 7) [.setBinary ⟨[⟨3⟩, ⟨4⟩]⟩ 4] = none :=
  (C14_panics_iff _).2 (Or.inr ⟨_, _, List.mem_cons_self, by decide⟩)

theorem ofValues_eq (l : List (Wire × Elem p)) : WireValues.ofValues l =
    SetOp.runAll WireValues.new (l.map fun kv => SetOp.set kv.1 kv.2) := by
  unfold WireValues.ofValues SetOp.runAll
  rw [List.foldlM_map]
  rfl

theorem ofBooleanValues_eq (l : List (BooleanWire × Bool)) :
    (WireValues.ofBooleanValues l : Option (WireValues p)) =
    SetOp.runAll WireValues.new (l.map fun kv => SetOp.setBoolean kv.1 kv.2) := by
  unfold WireValues.ofBooleanValues SetOp.runAll
  rw [List.foldlM_map]
  rfl

theorem ofBinaryUnsignedValues_eq (l : List (BinaryWire × ℕ)) :
    (WireValues.ofBinaryUnsignedValues l : Option (WireValues p)) =
    SetOp.runAll WireValues.new (l.map fun kv => SetOp.setBinary kv.1 kv.2) := by
  unfold WireValues.ofBinaryUnsignedValues SetOp.runAll
  rw [List.foldlM_map]
  rfl

/-- C14: `values!` panics exactly if two entries have the same wire or one has the constant wire;
otherwise its result has exactly the given values, besides the constant wire's. -/
theorem C14_values (l : List (Wire × Elem p)) :
    (WireValues.ofValues l = none ↔ ¬ (ONE :: l.map (·.1)).Nodup) ∧
    ∀ v, WireValues.ofValues l = some v →
      ∀ i x, v i = some x ↔ (i = ONE ∧ x = 1) ∨ (i, x) ∈ l := by
  have he : (l.map fun kv => SetOp.set kv.1 kv.2).flatMap SetOp.entries = l := by
    induction l with
    | nil => rfl
    | cons a l ih => rw [List.map_cons, List.flatMap_cons, ih]; rfl
  rw [ofValues_eq]
  refine ⟨(C14_panics_iff _).trans ?_, fun v hv => ?_⟩
  · rw [he, or_iff_left]
    rintro ⟨i, value, hm, -⟩
    obtain ⟨_, _, h⟩ := List.mem_map.1 hm
    cases h
  · have := (C14_write_once _ v hv).2.2
    rwa [he] at this

/-- C14: `boolean_values!` likewise, with 1 for `true` and 0 for `false`. -/
theorem C14_boolean_values (l : List (BooleanWire × Bool)) :
    ((WireValues.ofBooleanValues l : Option (WireValues p)) = none ↔
      ¬ (ONE :: l.map (·.1.wire)).Nodup) ∧
    ∀ v : WireValues p, WireValues.ofBooleanValues l = some v →
      ∀ i x, v i = some x ↔
        (i = ONE ∧ x = 1) ∨ ∃ b, (⟨i⟩, b) ∈ l ∧ x = if b then 1 else 0 := by
  have he : (l.map fun kv => (SetOp.setBoolean kv.1 kv.2 : SetOp p)).flatMap SetOp.entries =
      l.map fun kv => (kv.1.wire, if kv.2 then 1 else 0) := by
    induction l with
    | nil => rfl
    | cons a l ih => rw [List.map_cons, List.flatMap_cons, ih]; rfl
  rw [ofBooleanValues_eq]
  refine ⟨(C14_panics_iff _).trans ?_, fun v hv i x => ?_⟩
  · rw [he, or_iff_left, List.map_map]
    · rfl
    · rintro ⟨i, value, hm, -⟩
      obtain ⟨_, _, h⟩ := List.mem_map.1 hm
      cases h
  · rw [(C14_write_once _ v hv).2.2, he]
    refine or_congr_right ?_
    constructor
    · intro h
      obtain ⟨⟨⟨w⟩, b⟩, g1, g2⟩ := List.mem_map.1 h
      rw [Prod.mk.injEq] at g2
      obtain ⟨rfl, rfl⟩ := g2
      exact ⟨b, g1, rfl⟩
    · rintro ⟨b, h, rfl⟩
      exact List.mem_map.2 ⟨_, h, rfl⟩

/-- C14: `binary_unsigned_values!` panics exactly if a wire occurs twice among all digits, the constant
wire occurs, or a number does not fit; otherwise the wires have the binary digits of the numbers,
least significant first. -/
theorem C14_binary_values (l : List (BinaryWire × ℕ)) :
    ((WireValues.ofBinaryUnsignedValues l : Option (WireValues p)) = none ↔
      ¬ (ONE :: l.flatMap fun kv => kv.1.bits.map (·.wire)).Nodup ∨
      ∃ kv ∈ l, 2 ^ kv.1.bits.length ≤ kv.2) ∧
    ∀ v : WireValues p, WireValues.ofBinaryUnsignedValues l = some v →
      ∀ i x, v i = some x ↔ (i = ONE ∧ x = 1) ∨
        ∃ kv ∈ l, ∃ k, kv.1.bits[k]? = some ⟨i⟩ ∧ x = if kv.2.testBit k then 1 else 0 := by
  have hm : ((l.map fun kv => (SetOp.setBinary kv.1 kv.2 : SetOp p)).flatMap SetOp.entries).map
      (·.1) = l.flatMap fun kv => kv.1.bits.map (·.wire) := by
    induction l with
    | nil => rfl
    | cons a l ih =>
      rw [List.map_cons, List.flatMap_cons, List.map_append, ih, SetOp.map_entries,
        List.flatMap_cons]
  rw [ofBinaryUnsignedValues_eq]
  refine ⟨(C14_panics_iff _).trans ?_, fun v hv i x => ?_⟩
  · rw [hm]
    refine or_congr_right ?_
    constructor
    · rintro ⟨i, value, h, hl⟩
      obtain ⟨kv, g1, g2⟩ := List.mem_map.1 h
      cases g2
      exact ⟨kv, g1, hl⟩
    · rintro ⟨kv, h, hl⟩
      exact ⟨kv.1, kv.2, List.mem_map.2 ⟨kv, h, rfl⟩, hl⟩
  · rw [(C14_write_once _ v hv).2.2]
    refine or_congr_right ?_
    rw [List.mem_flatMap]
    constructor
    · rintro ⟨op, h1, h2⟩
      obtain ⟨kv, g1, rfl⟩ := List.mem_map.1 h1
      obtain ⟨⟨w, k⟩, g3, g4⟩ := List.mem_map.1 h2
      rw [Prod.mk.injEq] at g4
      obtain ⟨rfl, rfl⟩ := g4
      exact ⟨kv, g1, k, List.mem_zipIdx_iff_getElem?.1 g3, rfl⟩
    · rintro ⟨kv, h, k, hk, rfl⟩
      exact ⟨_, List.mem_map.2 ⟨kv, h, rfl⟩,
        List.mem_map.2 ⟨(⟨i⟩, k), List.mem_zipIdx_iff_getElem?.2 hk, rfl⟩⟩

example : ∃ v : WireValues 7, WireValues.ofValues [(1, 5), (2, 3)] = some v ∧ v 2 = some 3 ∧
    WireValues.ofValues [(1, (5 : Elem 7)), (1, 5)] = none :=
  ⟨_, rfl, by decide, (C14_values _).1.2 (by decide)⟩

example : ∃ v : WireValues 7, WireValues.ofBooleanValues [(⟨1⟩, true)] = some v ∧ v 1 = some 1 ∧
    (WireValues.ofBooleanValues [(⟨ONE⟩, true)] : Option (WireValues 7)) = none :=
  ⟨_, rfl, by decide, (C14_boolean_values _).1.2 (by decide)⟩

example : ∃ v : WireValues 7, WireValues.ofBinaryUnsignedValues [(⟨[⟨1⟩, ⟨2⟩]⟩, 2)] = some v ∧
    v 1 = some 0 ∧ v 2 = some 1 ∧
    (WireValues.ofBinaryUnsignedValues [(⟨[⟨1⟩, ⟨2⟩]⟩, 4)] : Option (WireValues 7)) = none :=
  ⟨_, rfl, by decide, by decide, (C14_binary_values _).1.2 (Or.inr ⟨_, List.mem_cons_self, by decide⟩)⟩

end R1CS
