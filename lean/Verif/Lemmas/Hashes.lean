import Verif.Spec.Hashes
import Verif.Model.Hashes
import Verif.Lemmas.Traits
import Verif.Lemmas.Binary

/-!
# MiMC, Davies-Meyer, Miyaguchi-Preneel, Merkle-Damgård, Merkle trees
-/

set_option linter.unusedSectionVars false

namespace R1CS

variable {p : ℕ} [hp : Fact p.Prime]

open Expression (eval_add eval_sub eval_ofElem)

/-! ## MiMC -/

namespace MiMC

theorem new_eq_some {cs : List (Elem p)} {c : MiMC p} (h : new cs = some c) :
    3 < p ∧ Nat.Coprime (p - 1) 3 ∧ c.roundConstants = cs ∧ c.roundPermutation.n.n = 3 := by
  unfold new at h
  by_cases h3 : 3 < p
  · rw [Elem.ofNat?_eq_some h3] at h
    change (MonomialPermutation.new ⟨3, h3⟩).bind _ = _ at h
    obtain ⟨f, hf, h⟩ := Option.bind_eq_some_iff.1 h
    obtain ⟨hc, rfl⟩ := (MonomialPermutation.new_eq_some_iff _ _).1 hf
    injection h with h
    subst h
    exact ⟨h3, hc, rfl, rfl⟩
  · rw [Elem.ofNat?_eq_none (by omega)] at h
    cases h

theorem enforces_encryptRounds (c : MiMC p) (h3 : c.roundPermutation.n.n = 3)
    (key : Expression p) : ∀ (rcs : List (Elem p)) (x : Expression p),
    Enforces (encryptRounds c key rcs x) fun z w => z.eval w =
      rcs.foldl (fun a rc => (a + key.eval w + rc) ^ 3) (x.eval w)
  | [], x => Enforces.pure fun _ _ => rfl
  | rc :: rcs, x => by
    unfold encryptRounds
    refine (c.roundPermutation.enforced_permute _).bind fun y =>
      (enforces_encryptRounds c h3 key rcs y).mono fun z w h1 h h' => ?_
    rw [h, h', h3, List.foldl_cons, eval_add, eval_add, eval_ofElem h1, add_assoc]

theorem enforces_encrypt (c : MiMC p) (h3 : c.roundPermutation.n.n = 3) (key x : Expression p) :
    Enforces (c.encrypt key x) fun z w =>
      z.eval w = mimc c.roundConstants (key.eval w) (x.eval w) := by
  unfold encrypt
  refine (c.roundPermutation.enforced_permute _).bind fun y =>
    (enforces_encryptRounds c h3 key _ y).bind fun z => Enforces.pure fun w h1 hz hy => ?_
  rw [eval_add, hz, hy, h3, eval_add, mimc]

theorem enforces_decryptRounds (c : MiMC p) (h3 : c.roundPermutation.n.n = 3)
    (key : Expression p) : ∀ (rcs : List (Elem p)) (x : Expression p),
    Enforces (decryptRounds c key rcs x) fun z w => x.eval w =
      rcs.foldr (fun rc a => (a + key.eval w + rc) ^ 3) (z.eval w)
  | [], x => Enforces.pure fun _ _ => rfl
  | rc :: rcs, x => by
    unfold decryptRounds
    refine (c.roundPermutation.enforces_inverse _).bind fun y =>
      (enforces_decryptRounds c h3 key rcs _).mono fun z w h1 h h' => ?_
    rw [List.foldr_cons, ← h, ← h', h3, eval_sub, eval_add, eval_ofElem h1]
    ring

theorem enforces_decrypt (c : MiMC p) (h3 : c.roundPermutation.n.n = 3) (key x : Expression p) :
    Enforces (c.decrypt key x) fun z w =>
      mimc c.roundConstants (key.eval w) (z.eval w) = x.eval w := by
  unfold decrypt
  refine (enforces_decryptRounds c h3 key _ _).bind fun y =>
    (c.roundPermutation.enforces_inverse _).bind fun z => Enforces.pure fun w h1 hz hy => ?_
  rw [List.foldr_reverse, ← hz, h3, eval_sub] at hy
  rw [mimc, eval_sub, sub_add_cancel, ← hy, sub_add_cancel]

theorem comp_encryptRounds (c : MiMC p) (key : Expression p) : ∀ (rcs : List (Elem p)) {s : Hon p}
    {x : Expression p}, key.Scoped s.next → x.Scoped s.next →
    Comp (encryptRounds c key rcs x) s fun z s' => s'.D = s.D ∧ z.Scoped s'.next
  | [], s, x, _, hx => Comp.pure ⟨rfl, hx⟩
  | rc :: rcs, s, x, hk, hx => by
    unfold encryptRounds
    refine (c.roundPermutation.computed_permute.comp (hx.add (hk.add (.ofElem s.pos _)))).bind
      fun y s1 l1 ⟨D1, sc1, v1⟩ => (comp_encryptRounds c key rcs (l1.scoped hk) sc1).mono
      fun z s2 l2 ⟨D2, sc2⟩ => ⟨by rw [D2, D1], sc2⟩

theorem comp_encrypt (c : MiMC p) {s : Hon p} {key x : Expression p} (hk : key.Scoped s.next)
    (hx : x.Scoped s.next) :
    Comp (c.encrypt key x) s fun z s' => s'.D = s.D ∧ z.Scoped s'.next := by
  unfold encrypt
  refine (c.roundPermutation.computed_permute.comp (hx.add hk)).bind
    fun y s1 l1 ⟨D1, sc1, v1⟩ => (comp_encryptRounds c key _ (l1.scoped hk) sc1).bind
    fun z s2 l2 ⟨D2, sc2⟩ => Comp.pure ⟨by rw [D2, D1], sc2.add ((l1.trans l2).scoped hk)⟩

theorem comp_decryptRounds (c : MiMC p) (h3 : c.roundPermutation.n.n = 3)
    (hc : Nat.Coprime (p - 1) 3) (key : Expression p) : ∀ (rcs : List (Elem p)) {s : Hon p}
    {x : Expression p}, key.Scoped s.next → x.Scoped s.next →
    Comp (decryptRounds c key rcs x) s fun z s' => s'.D = s.D ∧ z.Scoped s'.next
  | [], s, x, _, hx => Comp.pure ⟨rfl, hx⟩
  | rc :: rcs, s, x, hk, hx => by
    unfold decryptRounds
    refine (c.roundPermutation.comp_inverse (by omega) (by rw [h3]; exact hc) hx).bind
      fun y s1 l1 ⟨D1, sc1, v1⟩ => (comp_decryptRounds c h3 hc key rcs (l1.scoped hk)
      (sc1.sub ((l1.scoped hk).add (.ofElem s1.pos _)))).mono
      fun z s2 l2 ⟨D2, sc2⟩ => ⟨by rw [D2, D1], sc2⟩

theorem comp_decrypt (c : MiMC p) (h3 : c.roundPermutation.n.n = 3) (hc : Nat.Coprime (p - 1) 3)
    {s : Hon p} {key x : Expression p} (hk : key.Scoped s.next) (hx : x.Scoped s.next) :
    Comp (c.decrypt key x) s fun z s' => s'.D = s.D ∧ z.Scoped s'.next := by
  unfold decrypt
  refine (comp_decryptRounds c h3 hc key _ hk (hx.sub hk)).bind
    fun y s1 l1 ⟨D1, sc1⟩ => (c.roundPermutation.comp_inverse (by omega) (by rw [h3]; exact hc)
    sc1).bind fun z s2 l2 ⟨D2, sc2, _⟩ =>
    Comp.pure ⟨by rw [D2, D1], sc2.sub ((l1.trans l2).scoped hk)⟩

end MiMC

/-- MiMC is injective where cubing is. -/
theorem mimc_injective (h3 : 3 < p) (hc : Nat.Coprime (p - 1) 3) (cs : List (Elem p))
    (k : Elem p) : Function.Injective (mimc cs k) := by
  have hcube : Function.Injective fun x : Elem p => x ^ 3 :=
    (MonomialPermutation.bijective_of_coprime (by decide) h3 hc).1
  have hfold : ∀ (cs : List (Elem p)) (a b : Elem p),
      cs.foldl (fun c rc => (c + k + rc) ^ 3) a = cs.foldl (fun c rc => (c + k + rc) ^ 3) b →
      a = b := by
    intro cs
    induction cs with
    | nil => exact fun a b h => h
    | cons rc cs ih =>
      intro a b h
      have := hcube (ih _ _ h)
      exact add_right_cancel (add_right_cancel this)
  intro x y h
  exact add_right_cancel (hcube (hfold cs _ _ (add_right_cancel h)))

/-! ## Merkle-Damgård -/

namespace MerkleDamgard

theorem enforces_absorb (h : MerkleDamgard p) {c : Elem p → Elem p → Elem p}
    (hc : Enforced2 h.compress.compress c) : ∀ (blocks : List (Expression p)) (x : Expression p),
    Enforces (h.absorb blocks x) fun z w => z.eval w = (values w blocks).foldl c (x.eval w)
  | [], x => Enforces.pure fun _ _ => rfl
  | b :: bs, x => by
    unfold absorb
    refine (hc x b).bind fun y => (enforces_absorb h hc bs y).mono fun z w h1 hz hy => ?_
    rw [hz, hy]; rfl

theorem comp_absorb (h : MerkleDamgard p) {c : Elem p → Elem p → Elem p}
    (hc : Computed2 h.compress.compress c) : ∀ (blocks : List (Expression p)) {s : Hon p}
    {x : Expression p}, ListScoped s.next blocks → x.Scoped s.next →
    Comp (h.absorb blocks x) s fun z s' => s'.D = s.D ∧ z.Scoped s'.next ∧
      z.eval s'.W = (values s.W blocks).foldl c (x.eval s.W)
  | [], s, x, _, hx => Comp.pure ⟨rfl, hx, rfl⟩
  | b :: bs, s, x, hb, hx => by
    unfold absorb
    refine (hc.comp hx (hb b (by simp))).bind fun y s1 l1 ⟨D1, sc1, v1⟩ => ?_
    have hbs : ListScoped s.next bs := fun e he => hb e (by simp [he])
    refine (comp_absorb h hc bs (l1.lscoped hbs) sc1).mono
      fun z s2 l2 ⟨D2, sc2, v2⟩ => ⟨by rw [D2, D1], sc2, ?_⟩
    rw [v2, v1, l1.values hbs]; rfl

end MerkleDamgard

theorem Expression.ofNat?_eq {k : ℕ} (h : k < p) :
    (Expression.ofNat? k : Option (Expression p)) = some (Expression.ofElem (k : Elem p)) := by
  unfold Expression.ofNat?
  rw [Elem.ofNat?_eq_some h, Elem.mk_eq_natCast]; rfl

theorem Expression.ofNat?_eq_none {k : ℕ} (h : p ≤ k) :
    (Expression.ofNat? k : Option (Expression p)) = none := by
  unfold Expression.ofNat?
  rw [Elem.ofNat?_eq_none h]; rfl

theorem CollisionAmong.mono {c : Elem p → Elem p → Elem p} {l l' k k' : List (Elem p × Elem p)}
    (h : CollisionAmong c l l') (hl : ∀ a ∈ l, a ∈ k) (hl' : ∀ a ∈ l', a ∈ k') :
    CollisionAmong c k k' := by
  obtain ⟨a, ha, a', ha', hne, he⟩ := h
  exact ⟨a, hl a ha, a', hl' a' ha', hne, he⟩

theorem foldCalls_append (c : Elem p → Elem p → Elem p) : ∀ (m m' : List (Elem p)) (x : Elem p),
    foldCalls c x (m ++ m') = foldCalls c x m ++ foldCalls c (m.foldl c x) m'
  | [], _, _ => rfl
  | b :: m, m', x => by
    rw [List.cons_append, foldCalls, foldCalls, foldCalls_append c m, List.cons_append,
      List.foldl_cons]

theorem foldl_collision {c : Elem p → Elem p → Elem p} : ∀ (m1 m2 : List (Elem p)) (a1 a2 : Elem p),
    m1.length = m2.length → m1.foldl c a1 = m2.foldl c a2 →
    (a1 = a2 ∧ m1 = m2) ∨ CollisionAmong c (foldCalls c a1 m1) (foldCalls c a2 m2)
  | [], [], a1, a2, _, h => Or.inl ⟨h, rfl⟩
  | x :: m1, y :: m2, a1, a2, hl, h => by
    rcases foldl_collision m1 m2 (c a1 x) (c a2 y) (by simpa using hl) h with ⟨h1, h2⟩ | h
    · by_cases he : (a1, x) = (a2, y)
      · injection he with e1 e2
        exact Or.inl ⟨e1, by rw [e2, h2]⟩
      · exact Or.inr ⟨(a1, x), List.mem_cons_self, (a2, y), List.mem_cons_self, he, h1⟩
    · exact Or.inr (h.mono (fun _ => List.mem_cons_of_mem _) fun _ => List.mem_cons_of_mem _)

/-! ## Merkle trees -/

theorem select_pair {c : Elem p → Elem p → Elem p} (b : Bool) (x y : Elem p) :
    c (x + Elem.ofBool b * (y - x)) (y + x - (x + Elem.ofBool b * (y - x))) =
      if b then c y x else c x y := by
  cases b
  · rw [Elem.ofBool_false, zero_mul, add_zero, add_sub_cancel_right]; rfl
  · rw [Elem.ofBool_true, one_mul, add_sub_cancel, add_sub_cancel_left]; rfl

theorem Enforces.merkleTreeLoop {cf : CompressionFunction p} {c : Elem p → Elem p → Elem p}
    (hc : Enforced2 cf.compress c) : ∀ (bits : List (BooleanExpression p))
    (sibs : List (Expression p)) (x : Expression p),
    Enforces (B.merkleTreeLoop cf (bits.zip sibs) x) fun z w => ∀ bs : List Bool,
      (bits.map fun b => b.eval w) = bs.map Elem.ofBool →
      z.eval w = pathRoot c (bs.zip (values w sibs)) (x.eval w)
  | [], sibs, x => Enforces.pure fun w _ bs h => by
      have : bs = [] := by simpa using h.symm
      subst this; rfl
  | b :: bits, [], x => Enforces.pure fun w _ bs h => by
      cases bs <;> rfl
  | b :: bits, sib :: sibs, x => by
    rw [List.zip_cons_cons]
    unfold B.merkleTreeLoop B.merkleTreeStep
    refine Enforces.bind (Q := fun y w => ∀ b0, b.eval w = Elem.ofBool b0 →
        y.eval w = if b0 then c (sib.eval w) (x.eval w) else c (x.eval w) (sib.eval w))
      ((Enforces.selection b sib x).bind fun left => (hc left (sib + x - left)).mono
        fun y w _ hy hl b0 hb => ?_) fun y =>
      (Enforces.merkleTreeLoop hc bits sibs y).mono fun z w _ hz hy bs h => ?_
    · rw [hy, eval_sub, eval_add, hl, hb, select_pair (c := c)]
    · cases bs with
      | nil => simp at h
      | cons b0 bs =>
        rw [List.map_cons, List.map_cons] at h
        injection h with e1 e2
        rw [hz bs e2, hy b0 e1]; rfl

theorem Comp.merkleTreeLoop {cf : CompressionFunction p} {c : Elem p → Elem p → Elem p}
    (hc : Computed2 cf.compress c) : ∀ (bits : List (BooleanExpression p))
    (sibs : List (Expression p)) (bs : List Bool) {s : Hon p} {x : Expression p},
    (∀ b ∈ bits, b.Scoped s.next) → ListScoped s.next sibs → x.Scoped s.next →
    (bits.map fun b => b.eval s.W) = bs.map Elem.ofBool →
    Comp (B.merkleTreeLoop cf (bits.zip sibs) x) s fun z s' => s'.D = s.D ∧ z.Scoped s'.next ∧
      z.eval s'.W = pathRoot c (bs.zip (values s.W sibs)) (x.eval s.W)
  | [], sibs, bs, s, x, _, _, hx, h => by
    have : bs = [] := by simpa using h.symm
    subst this; exact Comp.pure ⟨rfl, hx, rfl⟩
  | b :: bits, [], bs, s, x, _, _, hx, h => by
    exact Comp.pure ⟨rfl, hx, by cases bs <;> rfl⟩
  | b :: bits, sib :: sibs, [], s, x, _, _, hx, h => by simp at h
  | b :: bits, sib :: sibs, b0 :: bs, s, x, hb, hsib, hx, h => by
    rw [List.zip_cons_cons]
    unfold B.merkleTreeLoop B.merkleTreeStep
    rw [List.map_cons, List.map_cons] at h
    injection h with e1 e2
    have hs := hsib sib (by simp)
    have hsibs : ListScoped s.next sibs := fun e he => hsib e (by simp [he])
    have hbits : ∀ b ∈ bits, b.Scoped s.next := fun e he => hb e (by simp [he])
    refine Comp.bind (Q := fun y s' => s'.D = s.D ∧ y.Scoped s'.next ∧ y.eval s'.W =
        if b0 then c (sib.eval s.W) (x.eval s.W) else c (x.eval s.W) (sib.eval s.W)) ?_
        fun y s1 l1 ⟨D1, sc1, v1⟩ => ?_
    · refine (Comp.selection (hb b (by simp)) hs hx).bind fun left s1 l1 ⟨D1, sc1, v1⟩ => ?_
      refine (hc.comp sc1 (((l1.scoped hs).add (l1.scoped hx)).sub sc1)).mono
        fun y s2 l2 ⟨D2, sc2, v2⟩ => ⟨by rw [D2, D1], sc2, ?_⟩
      rw [v2, eval_sub, eval_add, l1.eval hs, l1.eval hx, v1, e1, select_pair (c := c)]
    · refine (Comp.merkleTreeLoop hc bits sibs bs (fun b hb' => l1.bscoped (hbits b hb'))
        (l1.lscoped hsibs) sc1 ?_).mono fun z s2 l2 ⟨D2, sc2, v2⟩ => ⟨by rw [D2, D1], sc2, ?_⟩
      · rw [← e2]
        exact List.map_congr_left fun b hb' => l1.beval (hbits b hb')
      · rw [v2, v1, l1.values hsibs]; rfl

theorem pathRoot_append (c : Elem p → Elem p → Elem p) (l1 l2 : List (Bool × Elem p))
    (x : Elem p) : pathRoot c (l1 ++ l2) x = pathRoot c l2 (pathRoot c l1 x) := by
  induction l1 generalizing x with
  | nil => rfl
  | cons a l1 ih => obtain ⟨b, y⟩ := a; exact ih _

namespace MerkleTree

theorem pathRoot_path (c : Elem p → Elem p → Elem p) : ∀ (t : MerkleTree p) (turns : List Bool)
    {x : Elem p} {up : List (Bool × Elem p)}, t.path c turns = some (x, up) →
    pathRoot c up x = t.root c ∧ up.map (·.1) = turns.reverse
  | leaf y, [], x, up, h => by
    simp only [path, Option.some.injEq, Prod.mk.injEq] at h
    obtain ⟨rfl, rfl⟩ := h
    exact ⟨rfl, rfl⟩
  | leaf y, _ :: _, x, up, h => by simp [path] at h
  | node l r, [], x, up, h => by simp [path] at h
  | node l r, turn :: turns, x, up, h => by
    unfold path at h
    obtain ⟨⟨y, up'⟩, h1, h2⟩ := Option.bind_eq_some_iff.1 h
    injection h2 with h2
    injection h2 with e1 e2
    subst e1 e2
    cases turn
    · obtain ⟨g1, g2⟩ := pathRoot_path c l turns h1
      refine ⟨?_, by simp [g2]⟩
      rw [pathRoot_append, g1]; rfl
    · obtain ⟨g1, g2⟩ := pathRoot_path c r turns h1
      refine ⟨?_, by simp [g2]⟩
      rw [pathRoot_append, g1]; rfl

theorem pathCalls_append (c : Elem p → Elem p → Elem p) : ∀ (l l' : List (Bool × Elem p))
    (x : Elem p), pathCalls c (l ++ l') x = pathCalls c l x ++ pathCalls c l' (pathRoot c l x)
  | [], _, _ => rfl
  | (b, s) :: l, l', x => by
    rw [List.cons_append, pathCalls, pathCalls, pathCalls_append c l, List.cons_append, pathRoot]

theorem pathCalls_path (c : Elem p → Elem p → Elem p) : ∀ (t : MerkleTree p) (turns : List Bool)
    {x : Elem p} {up : List (Bool × Elem p)}, t.path c turns = some (x, up) →
    ∀ a ∈ pathCalls c up x, a ∈ t.calls c
  | leaf y, [], x, up, h => by
    simp only [path, Option.some.injEq, Prod.mk.injEq] at h
    obtain ⟨rfl, rfl⟩ := h
    simp [pathCalls]
  | leaf y, _ :: _, x, up, h => by simp [path] at h
  | node l r, [], x, up, h => by simp [path] at h
  | node l r, turn :: turns, x, up, h => by
    unfold path at h
    obtain ⟨⟨y, up'⟩, h1, h2⟩ := Option.bind_eq_some_iff.1 h
    injection h2 with h2
    injection h2 with e1 e2
    subst e1 e2
    intro a ha
    rw [pathCalls_append] at ha
    unfold calls
    cases turn
    · have h1' : l.path c turns = some (y, up') := h1
      rw [(pathRoot_path c l turns h1').1] at ha
      rcases List.mem_append.1 ha with ha | ha
      · exact List.mem_cons_of_mem _ (List.mem_append_left _ (pathCalls_path c l turns h1' a ha))
      · have : a = (l.root c, r.root c) := by simpa [pathCalls] using ha
        rw [this]
        exact List.mem_cons_self
    · have h1' : r.path c turns = some (y, up') := h1
      rw [(pathRoot_path c r turns h1').1] at ha
      rcases List.mem_append.1 ha with ha | ha
      · exact List.mem_cons_of_mem _ (List.mem_append_right _ (pathCalls_path c r turns h1' a ha))
      · have : a = (l.root c, r.root c) := by simpa [pathCalls] using ha
        rw [this]
        exact List.mem_cons_self

/-- The turns from the root to leaf number `i` are the bits of `i`, most significant first. -/
theorem path_ofLeaves (c : Elem p → Elem p → Elem p) : ∀ (d : ℕ) (f : ℕ → Elem p) (i : ℕ),
    i < 2 ^ d → ∃ up, (ofLeaves d f).path c ((List.range d).map i.testBit).reverse = some (f i, up)
  | 0, f, i, h => by
    have : i = 0 := by simpa using h
    subst this
    exact ⟨[], rfl⟩
  | d + 1, f, i, h => by
    rw [List.range_succ, List.map_append, List.reverse_append]
    simp only [List.map_cons, List.map_nil, List.reverse_cons, List.reverse_nil, List.nil_append,
      List.cons_append]
    unfold ofLeaves path
    by_cases hb : i < 2 ^ d
    · obtain ⟨up, hup⟩ := path_ofLeaves c d f i hb
      rw [Nat.testBit_lt_two_pow hb]
      simp only [Bool.false_eq_true, if_false]
      rw [hup]
      exact ⟨_, rfl⟩
    · have hi : 2 ^ d + (i - 2 ^ d) = i := by omega
      obtain ⟨up, hup⟩ := path_ofLeaves c d (fun i => f (2 ^ d + i)) (i - 2 ^ d)
        (by rw [pow_succ] at h; omega)
      have ht : i.testBit d = true := by
        rw [← hi, Nat.testBit_two_pow_add_eq]
        rw [Nat.testBit_lt_two_pow (by rw [pow_succ] at h; omega)]; rfl
      have hr : (List.range d).map i.testBit = (List.range d).map (i - 2 ^ d).testBit := by
        apply List.map_congr_left
        intro j hj
        rw [List.mem_range] at hj
        conv_lhs => rw [← hi]
        rw [Nat.testBit_two_pow_add_gt hj]
      rw [ht, hr]
      simp only [if_true]
      rw [hup, hi]
      exact ⟨_, rfl⟩

end MerkleTree

theorem pathRoot_collision {c : Elem p → Elem p → Elem p} : ∀ (l1 l2 : List (Bool × Elem p))
    (x y : Elem p), l1.map (·.1) = l2.map (·.1) → pathRoot c l1 x = pathRoot c l2 y →
    (x = y ∧ l1 = l2) ∨ CollisionAmong c (pathCalls c l1 x) (pathCalls c l2 y)
  | [], [], x, y, _, h => Or.inl ⟨h, rfl⟩
  | [], _ :: _, x, y, h, _ => by simp at h
  | _ :: _, [], x, y, h, _ => by simp at h
  | (b, s) :: l1, (b', s') :: l2, x, y, hb, h => by
    rw [List.map_cons, List.map_cons] at hb
    injection hb with e1 e2
    dsimp only at e1
    subst e1
    unfold pathRoot at h
    rcases pathRoot_collision l1 l2 _ _ e2 h with ⟨h1, h2⟩ | h
    · cases b
      · simp only [Bool.false_eq_true, if_false] at h1
        by_cases he : (x, s) = (y, s')
        · injection he with e1 e2
          exact Or.inl ⟨e1, by rw [e2, h2]⟩
        · exact Or.inr ⟨(x, s), List.mem_cons_self, (y, s'), List.mem_cons_self, he, h1⟩
      · simp only [if_true] at h1
        by_cases he : (s, x) = (s', y)
        · injection he with e1 e2
          exact Or.inl ⟨e2, by rw [e1, h2]⟩
        · exact Or.inr ⟨(s, x), List.mem_cons_self, (s', y), List.mem_cons_self, he, h1⟩
    · exact Or.inr (h.mono (fun _ => List.mem_cons_of_mem _) fun _ => List.mem_cons_of_mem _)

end R1CS
