import Verif.Lemmas.Colouring
import Verif.Lemmas.Bimap
import Mathlib.Logic.Equiv.Basic
import Mathlib.Algebra.BigOperators.Group.Finset.Basic

/-!
# Routing a layer of the permutation network

The switches of the two sides are addressed by side and index; `f side i` is the partner of wire
`i` on the other side.
-/

namespace R1CS

/-- The other wire of the switch of wire `i`. -/
def sibling (i : ℕ) : ℕ := 4 * (i / 2) + 1 - i

theorem sibling_sibling (i : ℕ) : sibling (sibling i) = i := by unfold sibling; omega

theorem sibling_ne (i : ℕ) : sibling i ≠ i := by unfold sibling; omega

theorem sibling_div (i : ℕ) : sibling i / 2 = i / 2 := by unfold sibling; omega

theorem sibling_two_mul (k : ℕ) : sibling (2 * k) = 2 * k + 1 := by unfold sibling; omega

/-- The number of switches on a side of a layer for `n` wires. -/
def numSwitches (n : ℕ) (side : Bool) : ℕ :=
  if side then (if n % 2 = 0 then n / 2 - 1 else n / 2) else n / 2

theorem two_mul_numSwitches_le (n : ℕ) (s : Bool) : 2 * numSwitches n s ≤ n := by
  unfold numSwitches
  split
  · split <;> omega
  · omega

/-- `f` pairs the wires of the two sides. -/
def Pairing (n : ℕ) (f : Bool → ℕ → ℕ) : Prop := ∀ s i, i < n → f s i < n ∧ f (!s) (f s i) = i

/-- An assignment of the wires on both sides to the two subnetworks (`false` is the first) which the
layer can realise and which treats partners alike. -/
structure Valid (n : ℕ) (f : Bool → ℕ → ℕ) (C : Bool → ℕ → Bool) : Prop where
  partner : ∀ s i, i < n → C (!s) (f s i) = C s i
  switch : ∀ s k, k < numSwitches n s → C s (2 * k + 1) = !C s (2 * k)
  even : n % 2 = 0 → C true (n - 2) = false ∧ C true (n - 1) = true
  odd : n % 2 = 1 → ∀ s, C s (n - 1) = true

theorem exists_valid {n : ℕ} (hn : 2 ≤ n) {f : Bool → ℕ → ℕ} (hf : Pairing n f) :
    ∃ C, Valid n f C := by
  obtain ⟨N, hN⟩ : ∃ N, N = n + n % 2 := ⟨_, rfl⟩
  have hNe : N % 2 = 0 := by omega
  have hsib : ∀ i, i < N → sibling i < N := by intro i hi; unfold sibling; omega
  let F : Bool → ℕ → ℕ := fun s i => if i < n then f s i else i
  have hF : ∀ s i, i < N → F s i < N ∧ F (!s) (F s i) = i := by
    intro s i hi
    by_cases h : i < n
    · have := hf s i h
      simp only [F, if_pos h, if_pos this.1]
      exact ⟨by omega, this.2⟩
    · simp only [F, if_neg h]
      exact ⟨hi, trivial⟩
  let sib : Equiv.Perm (Fin N) := ⟨fun i => ⟨sibling i, hsib i i.2⟩, fun i => ⟨sibling i, hsib i i.2⟩,
    fun i => Fin.ext (sibling_sibling i), fun i => Fin.ext (sibling_sibling i)⟩
  let part : Equiv.Perm (Fin N) := ⟨fun i => ⟨F false i, (hF false i i.2).1⟩,
    fun i => ⟨F true i, (hF true i i.2).1⟩,
    fun i => Fin.ext (hF false i i.2).2, fun i => Fin.ext (hF true i i.2).2⟩
  have hsib2 : ∀ i, sib (sib i) = i := fun i => Fin.ext (sibling_sibling i)
  have hsib3 : ∀ i, sib i ≠ i := fun i h => sibling_ne i (congrArg Fin.val h)
  let g : Equiv.Perm (Fin N) := part.trans (sib.trans part.symm)
  obtain ⟨c, hc1, hc2⟩ := exists_colouring sib g hsib2
    (by intro x; simp [g, hsib2]) hsib3
    (by
      intro x hx
      apply hsib3 (part x)
      have := congrArg part hx
      simpa [g] using this)
  let C0 : Bool → ℕ → Bool := fun s i =>
    if h : i < N then (if s then c (part.symm ⟨i, h⟩) else c ⟨i, h⟩) else false
  have p0 : ∀ s i, i < N → C0 (!s) (F s i) = C0 s i := by
    intro s i hi
    have h' := (hF s i hi).1
    simp only [C0, dif_pos hi, dif_pos h']
    cases s
    · simp only [Bool.not_false, if_true]
      congr 1
      exact part.symm_apply_apply ⟨i, hi⟩
    · simp only [Bool.not_true, if_true]
      rfl
  have p1 : ∀ s i, i < N → C0 s (sibling i) = !C0 s i := by
    intro s i hi
    have h' := hsib i hi
    simp only [C0, dif_pos hi, dif_pos h']
    cases s
    · exact hc1 ⟨i, hi⟩
    · have := hc2 (part.symm ⟨i, hi⟩)
      simp only [g, Equiv.trans_apply, Equiv.apply_symm_apply] at this
      exact this
  have p2 : ∀ s k, 2 * k < N → C0 s (2 * k + 1) = !C0 s (2 * k) := by
    intro s k hk
    rw [← sibling_two_mul]
    exact p1 s _ hk
  let t : Bool := if n % 2 = 0 then C0 true (n - 2) else !C0 false (n - 1)
  refine ⟨fun s i => C0 s i ^^ t, ?_, ?_, ?_, ?_⟩
  · intro s i hi
    have := p0 s i (by omega)
    simp only [F, if_pos hi] at this
    simp only [this]
  · intro s k hk
    have := two_mul_numSwitches_le n s
    simp only [p2 s k (by omega), Bool.not_xor]
  · intro he
    have e1 : n - 2 = 2 * ((n - 2) / 2) := by omega
    have := p2 true ((n - 2) / 2) (by omega)
    rw [← e1, show n - 2 + 1 = n - 1 by omega] at this
    simp only [t, if_pos he, this]
    cases C0 true (n - 2) <;> simp
  · intro ho
    have hne : ¬ n % 2 = 0 := by omega
    have e1 : n - 1 = 2 * ((n - 1) / 2) := by omega
    have h0 : ∀ s, C0 s n = !C0 s (n - 1) := by
      intro s
      have := p2 s ((n - 1) / 2) (by omega)
      rwa [← e1, show n - 1 + 1 = n by omega] at this
    have h1 : C0 true n = C0 false n := by
      have := p0 false n (by omega)
      simpa [F] using this
    have h2 : C0 true (n - 1) = C0 false (n - 1) := by
      rw [h0, h0] at h1
      simpa using h1
    intro s
    simp only [t, if_neg hne]
    cases s
    · cases C0 false (n - 1) <;> simp
    · rw [h2]; cases C0 false (n - 1) <;> simp

/-! ## The routing algorithm on abstract switches -/

/-- The state of the algorithm: settings of the switches, pending wires, scan positions. -/
structure RS where
  set : Bool → ℕ → Option Bool
  pend : Bool → BMap ℕ Bool
  scan : Bool → ℕ

/-- Replace the component of one side. -/
def upd {β : Type} (g : Bool → β) (s : Bool) (x : β) : Bool → β := fun s' => if s' = s then x else g s'

@[simp] theorem upd_same {β : Type} (g : Bool → β) (s : Bool) (x : β) : upd g s x s = x := if_pos rfl

theorem upd_other {β : Type} (g : Bool → β) {s s' : Bool} (h : s' ≠ s) (x : β) :
    upd g s x s' = g s' := if_neg h

@[simp] theorem upd_not {β : Type} (g : Bool → β) (s : Bool) (x : β) : upd g s x (!s) = g (!s) :=
  if_neg (by cases s <;> simp)

@[simp] theorem upd_not' {β : Type} (g : Bool → β) (s : Bool) (x : β) : upd g (!s) x s = g s :=
  if_neg (by cases s <;> simp)

theorem upd_self {β : Type} (g : Bool → β) (s : Bool) : upd g s (g s) = g := by
  funext s'; unfold upd; split
  · next h => rw [h]
  · rfl

/-- Set one switch. -/
def setSwitch (set : Bool → ℕ → Option Bool) (s : Bool) (k : ℕ) (b : Bool) : Bool → ℕ → Option Bool :=
  fun s' k' => if s' = s ∧ k' = k then some b else set s' k'

section
variable (n : ℕ) (f : Bool → ℕ → ℕ)

def absEnqueue (s : Bool) (i : ℕ) (u : Bool) (t : RS) : Option RS :=
  if n ≤ i then none
  else if numSwitches n (!s) ≤ f s i / 2 then some t
  else if (t.set (!s) (f s i / 2)).isSome then some t
  else match (t.pend (!s)).get compare (sibling (f s i)) with
    | some u' => if u ≠ u' then some t else none
    | none =>
      match (t.pend (!s)).get compare (f s i) with
      | some o => if u = o then
          some { t with pend := upd t.pend (!s) ((t.pend (!s)).insert compare (f s i) u) } else none
      | none => some { t with pend := upd t.pend (!s) ((t.pend (!s)).insert compare (f s i) u) }

def absSwitch (s : Bool) (k : ℕ) (b : Bool) (t : RS) : Option RS :=
  if numSwitches n s ≤ k then none
  else if (t.set s k).isSome then none
  else do
    let t ← absEnqueue n f s (k * 2) b { t with set := setSwitch t.set s k b }
    absEnqueue n f s (k * 2 + 1) (!b) t

def absPartial (s : Bool) : List (ℕ × Bool) → RS → Option RS
  | [], t => some t
  | (i, u) :: rest, t => do
    let t ← absSwitch n f s (i / 2) ((i % 2 == 0) == u) t
    absPartial s rest t

def absScan (L : ℕ) (set : ℕ → Option Bool) : ℕ → ℕ → ℕ
  | 0, i => i
  | fuel + 1, i => if L ≤ i then i else if (set i).isSome then absScan L set fuel (i + 1) else i

def absSide (s : Bool) (t : RS) : Option RS :=
  if t.pend s ≠ [] then do
    let t ← absPartial n f s (t.pend s) t
    return { t with pend := upd t.pend s [] }
  else
    let i := absScan (numSwitches n s) (t.set s) (numSwitches n s) (t.scan s)
    if i < numSwitches n s then do
      let t ← absSwitch n f s i false t
      return { t with scan := upd t.scan s (i + 1) }
    else return { t with scan := upd t.scan s i }

def absLoop : ℕ → RS → Option RS
  | fuel, t =>
    if t.scan false < numSwitches n false ∨ t.scan true < numSwitches n true then
      match fuel with
      | 0 => none
      | fuel + 1 => do
        let t ← absSide n f false t
        let t ← absSide n f true t
        absLoop fuel t
    else some t

def absRoute : Option RS := do
  let t : RS := ⟨fun _ _ => none, fun _ => [], fun _ => 0⟩
  let t ← (if n % 2 = 0 then do
      let t ← absEnqueue n f true (n - 2) false t
      absEnqueue n f true (n - 1) true t
    else do
      let t ← absEnqueue n f false (n - 1) true t
      absEnqueue n f true (n - 1) true t)
  absLoop n f (2 * (numSwitches n false + numSwitches n true)) t

end

/-! ## Maps with numbers as keys -/

section
variable {ν : Type}

abbrev KeySorted (m : BMap ℕ ν) : Prop := m.Pairwise fun a b => a.1 < b.1

theorem mem_of_get {m : BMap ℕ ν} {k : ℕ} {v : ν} (h : m.get compare k = some v) : (k, v) ∈ m := by
  induction m with
  | nil => simp [BMap.get] at h
  | cons q m ih =>
    unfold BMap.get at h
    split at h
    · next hq =>
      rw [compare_eq_iff_eq] at hq
      rw [← Option.some.inj h, hq]; simp
    · exact List.mem_cons_of_mem _ (ih h)

theorem not_mem_of_get_none {m : BMap ℕ ν} {k : ℕ} (h : m.get compare k = none) :
    ∀ q ∈ m, q.1 ≠ k := by
  induction m with
  | nil => simp
  | cons q m ih =>
    unfold BMap.get at h
    split at h
    · simp at h
    · next hq =>
      rw [compare_eq_iff_eq] at hq
      intro q' hq'
      rcases List.mem_cons.1 hq' with rfl | hq'
      · exact Ne.symm hq
      · exact ih h q' hq'

theorem insert_of_mem {m : BMap ℕ ν} (hs : KeySorted m) {k : ℕ} {v : ν} (h : (k, v) ∈ m) :
    m.insert compare k v = m := by
  unfold BMap.insert
  induction m with
  | nil => simp at h
  | cons q m ih =>
    have hs' := List.pairwise_cons.1 hs
    unfold BMap.upsert
    rcases List.mem_cons.1 h with h | h
    · subst h
      simp
    · have hlt := hs'.1 _ h
      dsimp only at hlt
      have : compare k q.1 = .gt := by rw [compare_gt_iff_gt]; exact hlt
      simp only [this]
      rw [ih hs'.2 h]

theorem insert_perm {m : BMap ℕ ν} {k : ℕ} (v : ν) (h : ∀ q ∈ m, q.1 ≠ k) :
    (m.insert compare k v).Perm ((k, v) :: m) := by
  unfold BMap.insert
  induction m with
  | nil => simp [BMap.upsert]
  | cons q m ih =>
    unfold BMap.upsert
    have hq : q.1 ≠ k := h q (by simp)
    cases hc : compare k q.1 with
    | lt => exact List.Perm.refl _
    | eq => rw [compare_eq_iff_eq] at hc; exact absurd hc.symm hq
    | gt =>
      dsimp only
      refine (List.Perm.cons _ (ih fun q' hq' => h q' (by simp [hq']))).trans ?_
      exact List.Perm.swap _ _ _

theorem insert_sorted {m : BMap ℕ ν} (hs : KeySorted m) {k : ℕ} (v : ν) (h : ∀ q ∈ m, q.1 ≠ k) :
    KeySorted (m.insert compare k v) := by
  induction m with
  | nil => simp [BMap.insert, BMap.upsert]
  | cons q m ih =>
    have hs' := List.pairwise_cons.1 hs
    have hq : q.1 ≠ k := h q (by simp)
    have hm : ∀ q' ∈ m, q'.1 ≠ k := fun q' hq' => h q' (by simp [hq'])
    unfold BMap.insert BMap.upsert
    cases hc : compare k q.1 with
    | lt =>
      rw [compare_lt_iff_lt] at hc
      refine List.pairwise_cons.2 ⟨?_, hs⟩
      intro q' hq'
      rcases List.mem_cons.1 hq' with rfl | hq'
      · exact hc
      · exact hc.trans (hs'.1 q' hq')
    | eq => rw [compare_eq_iff_eq] at hc; exact absurd hc.symm hq
    | gt =>
      rw [compare_gt_iff_gt] at hc
      refine List.pairwise_cons.2 ⟨?_, ih hs'.2 hm⟩
      intro q' hq'
      rw [show (BMap.upsert compare k v (fun _ => v) m) = BMap.insert compare k v m from rfl,
        (insert_perm v hm).mem_iff] at hq'
      rcases List.mem_cons.1 hq' with rfl | hq'
      · exact hc
      · exact hs'.1 q' hq'

end

/-! ## Invariants -/

section
variable {n : ℕ} {f : Bool → ℕ → ℕ} {C : Bool → ℕ → Bool}

/-- The subnetwork of a wire is fixed: it has no switch, or its switch is set. -/
def Routed (n : ℕ) (set : Bool → ℕ → Option Bool) (s : Bool) (i : ℕ) : Prop :=
  numSwitches n s ≤ i / 2 ∨ (set s (i / 2)).isSome

/-- The settings and the pending wires agree with the colouring `C`, and the partner of a routed
wire (other than those in `E`) is routed or about to be. -/
structure RInv (n : ℕ) (f : Bool → ℕ → ℕ) (C : Bool → ℕ → Bool) (set : Bool → ℕ → Option Bool)
    (Q : Bool → BMap ℕ Bool) (E : Bool → ℕ → Prop) : Prop where
  agree : ∀ s k b, set s k = some b → b = C s (2 * k)
  pend : ∀ s, ∀ q ∈ Q s, q.1 / 2 < numSwitches n s ∧ q.2 = C s q.1 ∧ set s (q.1 / 2) = none
  sorted : ∀ s, KeySorted (Q s)
  uniq : ∀ s, (Q s).Pairwise fun a b => a.1 / 2 ≠ b.1 / 2
  closed : ∀ s i, i < n → Routed n set s i → ¬ E s i →
    Routed n set (!s) (f s i) ∨ ∃ q ∈ Q (!s), q.1 / 2 = f s i / 2

theorem RInv.weaken {set : Bool → ℕ → Option Bool} {Q : Bool → BMap ℕ Bool}
    {E E' : Bool → ℕ → Prop} (h : RInv n f C set Q E) (hE : ∀ s i, E s i → E' s i) :
    RInv n f C set Q E' :=
  ⟨h.agree, h.pend, h.sorted, h.uniq, fun s i hi hr hne => h.closed s i hi hr fun he => hne (hE s i he)⟩

theorem absEnqueue_ok (hC : Valid n f C) {t : RS} {Q : Bool → BMap ℕ Bool}
    {E : Bool → ℕ → Prop} (h : RInv n f C t.set Q E) {s : Bool} {i : ℕ} {u : Bool}
    (hQ : Q (!s) = t.pend (!s)) (hi : i < n) (hu : u = C s i) :
    ∃ P, absEnqueue n f s i u t = some { t with pend := upd t.pend (!s) P } ∧
      RInv n f C t.set (upd Q (!s) P) fun s' i' => E s' i' ∧ ¬ (s' = s ∧ i' = i) := by
  have hsame : ∀ hgood : Routed n t.set (!s) (f s i) ∨ ∃ q ∈ Q (!s), q.1 / 2 = f s i / 2,
      ∃ P, some t = some { t with pend := upd t.pend (!s) P } ∧
      RInv n f C t.set (upd Q (!s) P) fun s' i' => E s' i' ∧ ¬ (s' = s ∧ i' = i) := by
    intro hgood
    refine ⟨t.pend (!s), by rw [upd_self], ?_⟩
    rw [← hQ, upd_self]
    refine ⟨h.agree, h.pend, h.sorted, h.uniq, fun s' i' hi' hr hne => ?_⟩
    by_cases he : s' = s ∧ i' = i
    · rw [he.1, he.2]; exact hgood
    · exact h.closed s' i' hi' hr fun hE => hne ⟨hE, he⟩
  unfold absEnqueue
  rw [if_neg (by omega)]
  by_cases h1 : numSwitches n (!s) ≤ f s i / 2
  · rw [if_pos h1]; exact hsame (Or.inl (Or.inl h1))
  rw [if_neg h1]
  by_cases h2 : (t.set (!s) (f s i / 2)).isSome
  · rw [if_pos h2]; exact hsame (Or.inl (Or.inr h2))
  rw [if_neg h2]
  have hcol : C (!s) (f s i) = u := by rw [hC.partner s i hi, hu]
  have hsib : C (!s) (sibling (f s i)) = !u := by
    have := hC.switch (!s) (f s i / 2) (by omega)
    rw [← hcol]
    rcases Nat.mod_two_eq_zero_or_one (f s i) with h0 | h0
    · have e1 : sibling (f s i) = 2 * (f s i / 2) + 1 := by unfold sibling; omega
      have e2 : f s i = 2 * (f s i / 2) := by omega
      rw [e1, this, ← e2]
    · have e1 : sibling (f s i) = 2 * (f s i / 2) := by unfold sibling; omega
      have e2 : f s i = 2 * (f s i / 2) + 1 := by omega
      rw [e1]
      conv_rhs => rw [e2, this]
      simp
  have hnone : t.set (!s) (f s i / 2) = none := by simpa using h2
  cases hg : (t.pend (!s)).get compare (sibling (f s i)) with
  | some u' =>
    have hm := mem_of_get hg
    rw [← hQ] at hm
    have hu' := (h.pend (!s) _ hm).2.1
    dsimp only at hu' ⊢
    rw [hu', hsib, if_pos (by cases u <;> simp)]
    exact hsame (Or.inr ⟨_, hm, sibling_div _⟩)
  | none =>
    dsimp only
    have hsn := not_mem_of_get_none hg
    rw [← hQ] at hsn
    cases hg' : (t.pend (!s)).get compare (f s i) with
    | some o =>
      have hm := mem_of_get hg'
      have hm' := hm
      rw [← hQ] at hm
      have ho := (h.pend (!s) _ hm).2.1
      dsimp only at ho ⊢
      rw [hcol] at ho
      rw [if_pos ho.symm]
      rw [ho] at hm'
      rw [insert_of_mem (by rw [← hQ]; exact h.sorted (!s)) hm', upd_self]
      exact hsame (Or.inr ⟨_, hm, rfl⟩)
    | none =>
      dsimp only
      have hn := not_mem_of_get_none hg'
      rw [← hQ] at hn
      refine ⟨_, rfl, ?_⟩
      rw [← hQ]
      have hperm := insert_perm u hn
      have hmem : ∀ s' q, q ∈ upd Q (!s) (BMap.insert compare (f s i) u (Q (!s))) s' ↔
          q ∈ Q s' ∨ (s' = !s ∧ q = (f s i, u)) := by
        intro s' q
        unfold upd
        split
        · next he =>
          subst he
          rw [hperm.mem_iff]; simp [or_comm]
        · next he => simp [he]
      refine ⟨h.agree, ?_, ?_, ?_, ?_⟩
      · intro s' q hq
        rw [hmem] at hq
        rcases hq with hq | ⟨rfl, rfl⟩
        · exact h.pend s' q hq
        · exact ⟨not_le.1 h1, hcol.symm, hnone⟩
      · intro s'
        unfold upd
        split
        · exact insert_sorted (h.sorted _) u hn
        · exact h.sorted s'
      · intro s'
        unfold upd
        split
        · rw [hperm.pairwise_iff (fun hab => hab.symm)]
          refine List.pairwise_cons.2 ⟨?_, h.uniq _⟩
          intro q hq he
          dsimp only at he
          have h3 := hn q hq
          have h4 := hsn q hq
          unfold sibling at h4
          omega
        · exact h.uniq s'
      · intro s' i' hi' hr hne
        by_cases he : s' = s ∧ i' = i
        · rw [he.1, he.2]
          exact Or.inr ⟨(f s i, u), (hmem _ _).2 (Or.inr ⟨rfl, rfl⟩), rfl⟩
        · rcases h.closed s' i' hi' hr fun hE => hne ⟨hE, he⟩ with h3 | ⟨q, hq, h3⟩
          · exact Or.inl h3
          · exact Or.inr ⟨q, (hmem _ _).2 (Or.inl hq), h3⟩

theorem absSwitch_ok (hf : Pairing n f) (hC : Valid n f C) {t : RS} {Q : Bool → BMap ℕ Bool}
    (h : RInv n f C t.set Q fun _ _ => False) {s : Bool} {k : ℕ} {b : Bool}
    (hQ : Q (!s) = t.pend (!s)) (hk : k < numSwitches n s) (hset : t.set s k = none)
    (hb : b = C s (2 * k)) {R : BMap ℕ Bool} (hR : R.Sublist (Q s))
    (hR1 : ∀ q ∈ Q s, q ∈ R ∨ q.1 / 2 = k) (hR2 : ∀ q ∈ R, q.1 / 2 ≠ k) :
    ∃ P, absSwitch n f s k b t =
        some { t with set := setSwitch t.set s k b, pend := upd t.pend (!s) P } ∧
      RInv n f C (setSwitch t.set s k b) (upd (upd Q s R) (!s) P) fun _ _ => False := by
  have h2n := two_mul_numSwitches_le n s
  have hmono : ∀ s' i', Routed n t.set s' i' → Routed n (setSwitch t.set s k b) s' i' := by
    intro s' i' hr
    rcases hr with hr | hr
    · exact Or.inl hr
    · refine Or.inr ?_
      unfold setSwitch
      split
      · rfl
      · exact hr
  have h1 : RInv n f C (setSwitch t.set s k b) (upd Q s R)
      fun s' i' => s' = s ∧ i' / 2 = k := by
    refine ⟨?_, ?_, ?_, ?_, ?_⟩
    · intro s' k' b' h'
      unfold setSwitch at h'
      split at h'
      · next he => rw [he.1, he.2, ← hb]; exact (Option.some.inj h').symm
      · exact h.agree s' k' b' h'
    · intro s' q hq
      by_cases he : s' = s
      · subst he
        rw [upd_same] at hq
        obtain ⟨g1, g2, g3⟩ := h.pend s' q (hR.subset hq)
        refine ⟨g1, g2, ?_⟩
        unfold setSwitch
        rw [if_neg (fun hh => hR2 q hq hh.2)]
        exact g3
      · rw [upd_other _ he] at hq
        obtain ⟨g1, g2, g3⟩ := h.pend s' q hq
        refine ⟨g1, g2, ?_⟩
        unfold setSwitch
        rw [if_neg (fun hh => he hh.1)]
        exact g3
    · intro s'
      by_cases he : s' = s
      · subst he; rw [upd_same]; exact (h.sorted s').sublist hR
      · rw [upd_other _ he]; exact h.sorted s'
    · intro s'
      by_cases he : s' = s
      · subst he; rw [upd_same]; exact (h.uniq s').sublist hR
      · rw [upd_other _ he]; exact h.uniq s'
    · intro s' i' hi' hr hne
      have hr' : Routed n t.set s' i' := by
        rcases hr with hr | hr
        · exact Or.inl hr
        · unfold setSwitch at hr
          rw [if_neg hne] at hr
          exact Or.inr hr
      rcases h.closed s' i' hi' hr' (fun hh => hh) with hc | ⟨q, hq, hqe⟩
      · exact Or.inl (hmono _ _ hc)
      · by_cases he : (!s') = s
        · rw [he] at hq ⊢
          rcases hR1 q hq with hq | hq
          · exact Or.inr ⟨q, by rw [upd_same]; exact hq, hqe⟩
          · left; right
            unfold setSwitch
            rw [if_pos ⟨rfl, by omega⟩]; rfl
        · exact Or.inr ⟨q, by rw [upd_other _ he]; exact hq, hqe⟩
  unfold absSwitch
  rw [if_neg (by omega), hset]
  simp only [Option.isSome_none, Bool.false_eq_true, if_false]
  obtain ⟨P1, e1, h2⟩ := absEnqueue_ok hC
    (t := { t with set := setSwitch t.set s k b }) h1 (s := s) (i := k * 2) (u := b)
    (by rw [upd_not]; exact hQ) (by omega) (by rw [hb, mul_comm])
  obtain ⟨P2, e2, h3⟩ := absEnqueue_ok hC
    (t := { t with set := setSwitch t.set s k b, pend := upd t.pend (!s) P1 }) h2 (s := s)
    (i := k * 2 + 1) (u := !b) (by simp only [upd_same]) (by omega)
    (by rw [mul_comm, hC.switch s k hk, hb])
  refine ⟨P2, ?_, ?_⟩
  · rw [e1]
    change absEnqueue n f s (k * 2 + 1) (!b) _ = _
    rw [e2]
    congr 2
    funext s'
    simp only [upd]
    split <;> rfl
  · have e : upd (upd (upd Q s R) (!s) P1) (!s) P2 = upd (upd Q s R) (!s) P2 := by
      funext s'
      unfold upd
      split <;> rfl
    rw [e] at h3
    refine h3.weaken ?_
    rintro s' i' ⟨⟨⟨g1, g2⟩, g3⟩, g4⟩
    have : i' = k * 2 ∨ i' = k * 2 + 1 := by omega
    rcases this with h | h
    · exact g3 ⟨g1, h⟩
    · exact g4 ⟨g1, h⟩

/-- The number of switches which are not set. -/
def unset (n : ℕ) (set : Bool → ℕ → Option Bool) : ℕ :=
  ((List.range (numSwitches n false)).filter fun k => (set false k).isNone).length +
    ((List.range (numSwitches n true)).filter fun k => (set true k).isNone).length

theorem filter_set {L k : ℕ} (hk : k < L) {g g' : ℕ → Option Bool} (h0 : g k = none)
    (h1 : (g' k).isSome) (h2 : ∀ k', k' ≠ k → g' k' = g k') :
    ((List.range L).filter fun k => (g' k).isNone).length + 1 =
      ((List.range L).filter fun k => (g k).isNone).length := by
  induction L with
  | zero => omega
  | succ L ih =>
    rw [List.range_succ, List.filter_append, List.filter_append, List.length_append,
      List.length_append]
    by_cases he : k = L
    · subst he
      have e : (List.range k).filter (fun k => (g' k).isNone) =
          (List.range k).filter fun k => (g k).isNone := by
        apply List.filter_congr
        intro x hx
        rw [h2 x (by have := List.mem_range.1 hx; omega)]
      rw [e]
      have e1 : (g' k).isNone = false := by
        cases hh : g' k with
        | none => rw [hh] at h1; simp at h1
        | some _ => rfl
      simp [h0, e1]
    · have := ih (by omega)
      have e : [L].filter (fun k => (g' k).isNone) = [L].filter fun k => (g k).isNone := by
        apply List.filter_congr
        intro x hx
        rw [List.mem_singleton] at hx
        rw [h2 x (by omega)]
      rw [e]; omega

theorem unset_setSwitch {set : Bool → ℕ → Option Bool} {s : Bool} {k : ℕ} {b : Bool}
    (hk : k < numSwitches n s) (h : set s k = none) :
    unset n (setSwitch set s k b) + 1 = unset n set := by
  unfold unset
  have hs : ∀ k', k' ≠ k → setSwitch set s k b s k' = set s k' := by
    intro k' hk'
    unfold setSwitch
    rw [if_neg (by tauto)]
  have hk1 : (setSwitch set s k b s k).isSome := by
    unfold setSwitch; simp
  have ho : setSwitch set s k b (!s) = set (!s) := by
    funext k'
    unfold setSwitch
    rw [if_neg (by cases s <;> simp)]
  have := filter_set hk h hk1 hs
  cases s
  · rw [Bool.not_false] at ho
    rw [ho]; omega
  · rw [Bool.not_true] at ho
    rw [ho]; omega

theorem swap_eq (hC : Valid n f C) {s : Bool} {i : ℕ} {u : Bool} (hi : i / 2 < numSwitches n s)
    (hu : u = C s i) : ((i % 2 == 0) == u) = C s (2 * (i / 2)) := by
  have h := hC.switch s (i / 2) hi
  rcases Nat.mod_two_eq_zero_or_one i with h0 | h0
  · have e : 2 * (i / 2) = i := by omega
    rw [e, ← hu, h0]; simp
  · have e : 2 * (i / 2) + 1 = i := by omega
    rw [e, ← hu] at h
    rw [h0, h]; simp

theorem absPartial_ok (hf : Pairing n f) (hC : Valid n f C) {s : Bool} (rem : List (ℕ × Bool)) :
    ∀ {t : RS} {Q : Bool → BMap ℕ Bool}, RInv n f C t.set Q (fun _ _ => False) →
      Q (!s) = t.pend (!s) → Q s = rem →
      ∃ set' P, absPartial n f s rem t = some { t with set := set', pend := upd t.pend (!s) P } ∧
        RInv n f C set' (upd (upd Q s []) (!s) P) (fun _ _ => False) ∧
        (∀ s' k, (t.set s' k).isSome → (set' s' k).isSome) ∧
        unset n set' + rem.length = unset n t.set := by
  induction rem with
  | nil =>
    intro t Q h hQ hr
    refine ⟨t.set, t.pend (!s), ?_, ?_, fun _ _ h => h, rfl⟩
    · rw [upd_self]; rfl
    · rw [← hr, upd_self, ← hQ, upd_self]; exact h
  | cons q rem ih =>
    intro t Q h hQ hr
    obtain ⟨i, u⟩ := q
    have hq : (i, u) ∈ Q s := by rw [hr]; simp
    obtain ⟨g1, g2, g3⟩ := h.pend s _ hq
    dsimp only at g1 g2 g3
    have huniq := h.uniq s
    rw [hr] at huniq
    have huniq := (List.pairwise_cons.1 huniq).1
    obtain ⟨P1, e1, h1⟩ := absSwitch_ok hf hC h hQ g1 g3 (swap_eq hC g1 g2) (R := rem)
      (by rw [hr]; exact List.sublist_cons_self _ _)
      (by
        intro q' hq'
        rw [hr] at hq'
        rcases List.mem_cons.1 hq' with rfl | hq'
        · exact Or.inr rfl
        · exact Or.inl hq')
      (fun q' hq' => (huniq q' hq').symm)
    obtain ⟨set', P, e2, h2, h3, h4⟩ := ih
      (t := { t with set := setSwitch t.set s (i / 2) ((i % 2 == 0) == u), pend := upd t.pend (!s) P1 })
      h1 (by simp only [upd_same]) (by rw [upd_not', upd_same])
    refine ⟨set', P, ?_, ?_, ?_, ?_⟩
    · unfold absPartial
      rw [e1]
      change absPartial n f s rem _ = _
      rw [e2]
      congr 2
      funext s'
      simp only [upd]
      split <;> rfl
    · have e : upd (upd (upd (upd Q s rem) (!s) P1) s []) (!s) P = upd (upd Q s []) (!s) P := by
        funext s'
        unfold upd
        split
        · rfl
        · next hne =>
          have : s' = s := by cases s <;> cases s' <;> simp_all
          simp [this]
      rw [e] at h2
      exact h2
    · intro s' k' hk'
      apply h3
      dsimp only
      unfold setSwitch
      split
      · rfl
      · exact hk'
    · dsimp only at h4
      have := unset_setSwitch (b := (i % 2 == 0) == u) g1 g3
      simp only [List.length_cons]
      omega

theorem absScan_spec {L : ℕ} {set : ℕ → Option Bool} (fuel : ℕ) : ∀ i, L ≤ i + fuel →
    (∀ k < i, k < L → (set k).isSome) →
    i ≤ absScan L set fuel i ∧ (∀ k < absScan L set fuel i, k < L → (set k).isSome) ∧
      (absScan L set fuel i < L → set (absScan L set fuel i) = none) := by
  induction fuel with
  | zero =>
    intro i hi h
    exact ⟨le_refl _, h, fun h' => by unfold absScan at h'; omega⟩
  | succ fuel ih =>
    intro i hi h
    unfold absScan
    by_cases h1 : L ≤ i
    · rw [if_pos h1]
      exact ⟨le_refl _, h, fun h' => by omega⟩
    · rw [if_neg h1]
      by_cases h2 : (set i).isSome
      · rw [if_pos h2]
        obtain ⟨g1, g2, g3⟩ := ih (i + 1) (by omega) (by
          intro k hk hkL
          rcases Nat.lt_succ_iff_lt_or_eq.1 hk with hk | rfl
          · exact h k hk hkL
          · exact h2)
        exact ⟨by omega, g2, g3⟩
      · rw [if_neg h2]
        exact ⟨le_refl _, h, fun _ => by simpa using h2⟩

/-- When nothing is pending, the colours of all wires not yet routed may be exchanged. -/
theorem flip (hf : Pairing n f) (hn : 2 ≤ n) (hC : Valid n f C) {set : Bool → ℕ → Option Bool}
    {Q : Bool → BMap ℕ Bool} (h : RInv n f C set Q fun _ _ => False) (hQ : ∀ s, Q s = []) :
    ∃ C', Valid n f C' ∧ RInv n f C' set Q (fun _ _ => False) ∧
      ∀ s k, k < numSwitches n s → set s k = none → C' s (2 * k) = !C s (2 * k) := by
  classical
  have hcl : ∀ s i, i < n → (Routed n set (!s) (f s i) ↔ Routed n set s i) := by
    have : ∀ s i, i < n → Routed n set s i → Routed n set (!s) (f s i) := by
      intro s i hi hr
      rcases h.closed s i hi hr (fun hh => hh) with h' | ⟨q, hq, -⟩
      · exact h'
      · rw [hQ] at hq; simp at hq
    intro s i hi
    refine ⟨fun hr => ?_, this s i hi⟩
    obtain ⟨g1, g2⟩ := hf s i hi
    have := this (!s) (f s i) g1 hr
    rwa [g2, Bool.not_not] at this
  let C' : Bool → ℕ → Bool := fun s i => if Routed n set s i then C s i else !C s i
  have hrt : ∀ s i, n ≤ i + (n - 2 * numSwitches n s) → Routed n set s i := by
    intro s i hi
    have := two_mul_numSwitches_le n s
    left; omega
  refine ⟨C', ⟨?_, ?_, ?_, ?_⟩, ⟨?_, ?_, h.sorted, h.uniq, h.closed⟩, ?_⟩
  · intro s i hi
    simp only [C', hcl s i hi, hC.partner s i hi]
  · intro s k hk
    have : Routed n set s (2 * k + 1) ↔ Routed n set s (2 * k) := by
      unfold Routed
      rw [show (2 * k + 1) / 2 = k by omega, show 2 * k / 2 = k by omega]
    simp only [C', this, hC.switch s k hk]
    split <;> rfl
  · intro he
    have e : 2 * numSwitches n true = n - 2 := by unfold numSwitches; simp [he]; omega
    have := hC.even he
    simp only [C', if_pos (hrt true (n - 2) (by omega)), if_pos (hrt true (n - 1) (by omega))]
    exact this
  · intro ho s
    have e : 2 * numSwitches n s = n - 1 := by
      unfold numSwitches
      have : ¬ n % 2 = 0 := by omega
      simp only [this, if_false, ite_self]; omega
    simp only [C', if_pos (hrt s (n - 1) (by omega))]
    exact hC.odd ho s
  · intro s k b hb
    have hr : Routed n set s (2 * k) := by
      right; rw [show 2 * k / 2 = k by omega, hb]; rfl
    simp only [C', if_pos hr]
    exact h.agree s k b hb
  · intro s q hq
    rw [hQ] at hq; simp at hq
  · intro s k hk hs
    have hr : ¬ Routed n set s (2 * k) := by
      rintro (hr | hr)
      · omega
      · rw [show 2 * k / 2 = k by omega, hs] at hr; simp at hr
    simp only [C', if_neg hr]

/-- What holds before the turn of side `s`. -/
structure Turn (n : ℕ) (f : Bool → ℕ → ℕ) (C : Bool → ℕ → Bool) (s : Bool) (t : RS) : Prop where
  valid : Valid n f C
  inv : RInv n f C t.set t.pend fun _ _ => False
  scanned : ∀ s k, k < t.scan s → k < numSwitches n s → (t.set s k).isSome
  both : t.pend s = [] → t.pend (!s) = []

/-- Decreases with every round. -/
def measure (n : ℕ) (t : RS) : ℕ :=
  unset n t.set + ((numSwitches n false - t.scan false) + (numSwitches n true - t.scan true))

theorem absSide_ok (hf : Pairing n f) (hn : 2 ≤ n) {s : Bool} {t : RS} (h : Turn n f C s t) :
    ∃ t' C', absSide n f s t = some t' ∧ Turn n f C' (!s) t' ∧ t'.scan (!s) = t.scan (!s) ∧
      measure n t' ≤ measure n t ∧ (t.scan s < numSwitches n s → measure n t' < measure n t) := by
  unfold absSide
  by_cases hp : t.pend s ≠ []
  · rw [if_pos hp]
    obtain ⟨set', P, e, h1, h2, h3⟩ := absPartial_ok hf h.valid (s := s) (t.pend s) h.inv rfl rfl
    rw [e]
    have hlen : 0 < (t.pend s).length := List.length_pos_iff.2 hp
    have e2 : upd (upd t.pend s []) (!s) P = upd (upd t.pend (!s) P) s [] := by
      funext s'
      cases s <;> cases s' <;> rfl
    refine ⟨_, C, rfl, ⟨h.valid, ?_, ?_, ?_⟩, rfl, ?_, ?_⟩
    · dsimp only
      rw [← e2]; exact h1
    · intro s' k hk hkL
      exact h2 s' k (h.scanned s' k hk hkL)
    · intro _
      dsimp only
      rw [Bool.not_not, upd_same]
    · unfold measure; dsimp only; omega
    · intro _; unfold measure; dsimp only; omega
  · rw [if_neg hp]
    have hp : t.pend s = [] := not_not.1 hp
    have hall : ∀ s', t.pend s' = [] := by
      intro s'
      by_cases he : s' = s
      · rw [he]; exact hp
      · have : s' = !s := by cases s <;> cases s' <;> simp_all
        rw [this]; exact h.both hp
    obtain ⟨g1, g2, g3⟩ := absScan_spec (numSwitches n s) (t.scan s) (by omega) (h.scanned s)
    generalize hi : absScan (numSwitches n s) (t.set s) (numSwitches n s) (t.scan s) = i at g1 g2 g3
    dsimp only
    by_cases hiL : i < numSwitches n s
    · rw [if_pos hiL]
      have hset := g3 hiL
      obtain ⟨C', hC', hinv', hcol⟩ : ∃ C', Valid n f C' ∧
          RInv n f C' t.set t.pend (fun _ _ => False) ∧ C' s (2 * i) = false := by
        cases hc : C s (2 * i) with
        | false => exact ⟨C, h.valid, h.inv, hc⟩
        | true =>
          obtain ⟨C', h1, h2, h3⟩ := flip hf hn h.valid h.inv hall
          exact ⟨C', h1, h2, by rw [h3 s i hiL hset, hc]; rfl⟩
      obtain ⟨P, e, h1⟩ := absSwitch_ok hf hC' hinv' (s := s) (k := i) (b := false) rfl hiL hset
        hcol.symm (R := []) (by simp) (by rw [hp]; simp) (by simp)
      rw [e]
      have hm := unset_setSwitch (b := false) hiL hset
      refine ⟨_, C', rfl, ⟨hC', ?_, ?_, ?_⟩, by simp, ?_, ?_⟩
      · dsimp only
        have : upd (upd t.pend s []) (!s) P = upd t.pend (!s) P := by
          rw [← hp, upd_self]
        rw [← this]; exact h1
      · intro s' k hk hkL
        dsimp only at hk ⊢
        by_cases he : s' = s ∧ k = i
        · unfold setSwitch; rw [if_pos he]; rfl
        · unfold setSwitch; rw [if_neg he]
          by_cases hs : s' = s
          · subst hs
            rw [upd_same] at hk
            have hne : k ≠ i := fun h => he ⟨rfl, h⟩
            exact g2 k (by omega) hkL
          · rw [upd_other _ hs] at hk
            exact h.scanned s' k hk hkL
      · intro _
        dsimp only
        rw [Bool.not_not, upd_not']
        exact hp
      · unfold measure
        dsimp only
        cases s
        · have : upd t.scan false (i + 1) true = t.scan true := rfl
          rw [upd_same, this]; omega
        · have : upd t.scan true (i + 1) false = t.scan false := rfl
          rw [upd_same, this]; omega
      · intro _
        unfold measure
        dsimp only
        cases s
        · have : upd t.scan false (i + 1) true = t.scan true := rfl
          rw [upd_same, this]; omega
        · have : upd t.scan true (i + 1) false = t.scan false := rfl
          rw [upd_same, this]; omega
    · rw [if_neg hiL]
      refine ⟨_, C, rfl, ⟨h.valid, h.inv, ?_, ?_⟩, by simp, ?_, ?_⟩
      · intro s' k hk hkL
        dsimp only at hk ⊢
        by_cases hs : s' = s
        · subst hs
          rw [upd_same] at hk
          exact g2 k hk hkL
        · rw [upd_other _ hs] at hk
          exact h.scanned s' k hk hkL
      · intro _; exact hall _
      · unfold measure
        dsimp only
        cases s
        · have : upd t.scan false i true = t.scan true := rfl
          rw [upd_same, this]; omega
        · have : upd t.scan true i false = t.scan false := rfl
          rw [upd_same, this]; omega
      · intro hlt
        unfold measure
        dsimp only
        cases s
        · have : upd t.scan false i true = t.scan true := rfl
          rw [upd_same, this]; omega
        · have : upd t.scan true i false = t.scan false := rfl
          rw [upd_same, this]; omega

theorem absLoop_ok (hf : Pairing n f) (hn : 2 ≤ n) (fuel : ℕ) : ∀ {t : RS} {C : Bool → ℕ → Bool},
    Turn n f C false t → measure n t ≤ fuel →
    ∃ t' C', absLoop n f fuel t = some t' ∧ Turn n f C' false t' ∧
      ∀ s, numSwitches n s ≤ t'.scan s := by
  induction fuel with
  | zero =>
    intro t C h hm
    unfold measure at hm
    unfold absLoop
    rw [if_neg (by omega)]
    refine ⟨t, C, rfl, h, ?_⟩
    intro s; cases s <;> omega
  | succ fuel ih =>
    intro t C h hm
    unfold absLoop
    by_cases hc : t.scan false < numSwitches n false ∨ t.scan true < numSwitches n true
    · rw [if_pos hc]
      obtain ⟨t1, C1, e1, h1, hs1, m1, l1⟩ := absSide_ok hf hn h
      obtain ⟨t2, C2, e2, h2, hs2, m2, l2⟩ := absSide_ok hf hn h1
      simp only [Bool.not_false] at hs1 e2 l2
      have hlt : measure n t2 < measure n t := by
        rcases hc with hc | hc
        · have := l1 hc; omega
        · rw [← hs1] at hc
          have := l2 hc; omega
      obtain ⟨t', C', e3, h3⟩ := ih (t := t2) (C := C2) h2 (by omega)
      refine ⟨t', C', ?_, h3⟩
      dsimp only
      rw [e1]
      change (absSide n f true t1 >>= _) = _
      rw [e2]
      exact e3
    · rw [if_neg hc]
      refine ⟨t, C, rfl, h, ?_⟩
      intro s; cases s <;> omega

theorem unset_le (set : Bool → ℕ → Option Bool) :
    unset n set ≤ numSwitches n false + numSwitches n true := by
  unfold unset
  have h : ∀ (L : ℕ) (q : ℕ → Bool), ((List.range L).filter q).length ≤ L := by
    intro L q
    refine (List.length_filter_le _ _).trans ?_
    simp
  have h1 := h (numSwitches n false) fun k => (set false k).isNone
  have h2 := h (numSwitches n true) fun k => (set true k).isNone
  omega

/-- Routing succeeds and realises a valid colouring. -/
theorem absRoute_ok (hf : Pairing n f) (hn : 2 ≤ n) : ∃ t C, absRoute n f = some t ∧ Valid n f C ∧
    ∀ s k, k < numSwitches n s → t.set s k = some (C s (2 * k)) := by
  obtain ⟨C, hC⟩ := exists_valid hn hf
  let t0 : RS := ⟨fun _ _ => none, fun _ => [], fun _ => 0⟩
  have hm0 : ∀ t : RS, t.scan = (fun _ => 0) → measure n t ≤
      2 * (numSwitches n false + numSwitches n true) := by
    intro t ht
    unfold measure
    have := unset_le (n := n) t.set
    rw [ht]; omega
  have hstart : RInv n f C t0.set t0.pend fun s i => i < n ∧ Routed n t0.set s i :=
    ⟨by intro s k b h; simp [t0] at h, by intro s q h; simp [t0] at h, by intro s; simp [t0],
      by intro s; simp [t0], fun s i hi hr hne => absurd ⟨hi, hr⟩ hne⟩
  have fin : ∀ t : RS, Turn n f C false t → t.scan = (fun _ => 0) → ∃ t' C',
      absLoop n f (2 * (numSwitches n false + numSwitches n true)) t = some t' ∧ Valid n f C' ∧
      ∀ s k, k < numSwitches n s → t'.set s k = some (C' s (2 * k)) := by
    intro t ht hs
    obtain ⟨t', C', e, h, hd⟩ := absLoop_ok hf hn _ ht (hm0 t hs)
    refine ⟨t', C', e, h.valid, ?_⟩
    intro s k hk
    have h1 := h.scanned s k (lt_of_lt_of_le hk (hd s)) hk
    obtain ⟨b, hb⟩ := Option.isSome_iff_exists.1 h1
    rw [hb, h.inv.agree s k b hb]
  unfold absRoute
  dsimp only
  by_cases he : n % 2 = 0
  · rw [if_pos he]
    have hev := hC.even he
    obtain ⟨P1, e1, h1⟩ := absEnqueue_ok hC hstart (s := true) (i := n - 2) (u := false) rfl
      (by omega) hev.1.symm
    obtain ⟨P2, e2, h2⟩ := absEnqueue_ok hC
      (t := { t0 with pend := upd t0.pend (!true) P1 }) h1 (s := true) (i := n - 1) (u := true) rfl
      (by omega) hev.2.symm
    have e1' : absEnqueue n f true (n - 2) false ⟨fun _ _ => none, fun _ => [], fun _ => 0⟩ = _ := e1
    rw [e1']
    change ∃ t C, (absEnqueue n f true (n - 1) true _ >>= _) = some t ∧ _
    rw [e2]
    refine fin _ ⟨hC, ?_, ?_, ?_⟩ rfl
    · refine h2.weaken ?_
      rintro s i ⟨⟨⟨g0, g1⟩, g2⟩, g3⟩
      rcases g1 with g1 | g1
      · unfold numSwitches at g1
        cases s
        · simp at g1; omega
        · rw [if_pos rfl, if_pos he] at g1
          have : i = n - 2 ∨ i = n - 1 := by omega
          rcases this with h | h
          · exact g2 ⟨rfl, h⟩
          · exact g3 ⟨rfl, h⟩
      · simp [t0] at g1
    · intro s k hk; simp [t0] at hk
    · intro _; rfl
  · rw [if_neg he]
    have hod := hC.odd (by omega)
    obtain ⟨P1, e1, h1⟩ := absEnqueue_ok hC hstart (s := false) (i := n - 1) (u := true) rfl
      (by omega) (hod false).symm
    obtain ⟨P2, e2, h2⟩ := absEnqueue_ok hC
      (t := { t0 with pend := upd t0.pend (!false) P1 }) h1 (s := true) (i := n - 1) (u := true) rfl
      (by omega) (hod true).symm
    have e1' : absEnqueue n f false (n - 1) true ⟨fun _ _ => none, fun _ => [], fun _ => 0⟩ = _ := e1
    have hL : ∀ s, numSwitches n s = n / 2 := by
      intro s; unfold numSwitches; simp [he]
    rw [e1']
    change ∃ t C, (absEnqueue n f true (n - 1) true _ >>= _) = some t ∧ _
    rw [e2]
    have h2' : RInv n f C t0.set (upd (upd t0.pend (!false) P1) (!true) P2) fun _ _ => False := by
      refine h2.weaken ?_
      rintro s i ⟨⟨⟨g0, g1⟩, g2⟩, g3⟩
      rcases g1 with g1 | g1
      · rw [hL] at g1
        have hi : i = n - 1 := by omega
        cases s
        · exact g2 ⟨rfl, hi⟩
        · exact g3 ⟨rfl, hi⟩
      · simp [t0] at g1
    refine fin _ ⟨hC, h2', ?_, ?_⟩ rfl
    · intro s k hk; simp [t0] at hk
    · intro hP2
      change P2 = [] at hP2
      change P1 = []
      -- the partner of the last wire on the right has no switch, so it is the last wire
      have hr : Routed n t0.set false (f true (n - 1)) := by
        rcases h2'.closed true (n - 1) (by omega) (Or.inl (by rw [hL]; omega)) (fun hh => hh) with
          h | ⟨q, hq, -⟩
        · exact h
        · have : q ∈ P2 := hq
          rw [hP2] at this; simp at this
      obtain ⟨g1, g2⟩ := hf true (n - 1) (by omega)
      have hft : f true (n - 1) = n - 1 := by
        rcases hr with hr | hr
        · rw [hL] at hr; omega
        · simp [t0] at hr
      rw [hft] at g2
      have hff : f false (n - 1) = n - 1 := g2
      -- so nothing was enqueued on the right
      have e3 : absEnqueue n f false (n - 1) true t0 = some t0 := by
        unfold absEnqueue
        rw [if_neg (by omega), hff, if_pos (by rw [hL]; omega)]
      rw [e3] at e1
      have := congrArg RS.pend (Option.some.inj e1)
      have := congrFun this true
      exact this.symm

end

end R1CS
