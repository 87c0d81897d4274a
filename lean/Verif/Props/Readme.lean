import Verif.Props.Arithmetic
import Verif.Props.Hashes
import Verif.Props.HashBuilders
import Verif.Props.LcgLimits
import Verif.Props.Primes
import Verif.Model.Readme

/-!
# Property C79: the examples of the README
-/

set_option linter.unusedSectionVars false

namespace R1CS

variable {p : ℕ} [hp : Fact p.Prime]

open Expression LCG

/-- C79: the first example computes and enforces the cube. -/
theorem C79_cube (s : Hon p) {x : Expression p} (hx : x.Scoped s.next) :
    Enforces (Readme.cube x) (fun z w => z.eval w = x.eval w ^ 3) ∧
    Computes (Readme.cube x) s fun z s' => z.eval s'.W = x.eval s.W ^ 3 := by
  constructor
  · exact (C24_product_enforced x x).bind fun y => (C24_product_enforced y x).mono
      fun z w _ h hy => by rw [h, hy]; ring
  · refine ((Comp.product hx hx).bind fun y s1 l1 ⟨D1, sc1, v1⟩ =>
      (Comp.product sc1 (l1.scoped hx)).mono fun z s2 l2 ⟨D2, sc2, v2⟩ => ⟨?_, ?_⟩).computes
    · rw [D2, D1]
    · rw [v2, v1, l1.eval hx]; ring

/-- C79: the `inverse` of the README enforces and computes the inverse of non-zero values, like the
built-in one. -/
theorem C79_inverse (h2 : 2 < p) (s : Hon p) {x : Expression p} (hx : x.Scoped s.next)
    (h : x.eval s.W ≠ 0) :
    Enforces (Readme.inverse x) (fun z w => x.eval w ≠ 0 ∧ x.eval w * z.eval w = 1) ∧
    Computes (Readme.inverse x) s fun z s' => x.eval s.W * z.eval s'.W = 1 :=
  ⟨C26_inverse_enforced x, C26_inverse_computed h2 s hx h⟩

/-- C79 is false for the hash function: over both shipped fields it panics, since cubing is not a
permutation there. -/
theorem C79_hash_refuted :
    (∀ (rounds : ℕ) (blocks : List (Expression bn128Order)) (b : Builder bn128Order),
      Readme.hash rounds blocks b = none) ∧
    (∀ (rounds : ℕ) (blocks : List (Expression bls12_381Order)) (b : Builder bls12_381Order),
      Readme.hash rounds blocks b = none) := by
  have key : ∀ {q : ℕ} [Fact q.Prime], 3 ∣ q - 1 → ∀ (rounds : ℕ) (blocks : List (Expression q))
      (b : Builder q), Readme.hash rounds blocks b = none := by
    intro q _ h3 rounds blocks b
    have : (MiMC.default rounds : Option (MiMC q)) = none := by
      cases h : (MiMC.default rounds : Option (MiMC q)) with
      | none => rfl
      | some c =>
        unfold MiMC.default at h
        obtain ⟨⟨cs, g⟩, -, h⟩ := Option.bind_eq_some_iff.1 h
        have hc := (MiMC.new_eq_some h).2.1
        have := Nat.dvd_gcd h3 (dvd_refl 3)
        rw [hc] at this
        omega
    unfold Readme.hash
    rw [this]
    rfl
  exact ⟨key (by decide +kernel), key (by decide +kernel)⟩

/-- C79: over every field in which cubing is a permutation, the hash function is the Merkle-Damgård hash
of Davies-Meyer of MiMC with the constants drawn. -/
theorem C79_hash_partial (h3 : 3 < p) (hb : Function.Bijective fun x : Elem p => x ^ 3)
    (rounds : ℕ) :
    ∃ (cs : List (Elem p)) (iv : Elem p), cs.length = rounds ∧
      (∃ g, nextElements p rounds LCG.new = some (cs, g)) ∧
      (∃ g, nextElement p LCG.new = some (iv, g)) ∧
      ∀ blocks : List (Expression p),
        Enforces (Readme.hash rounds blocks) (fun z w => z.eval w =
          merkleDamgardHash iv (fun x y => mimc cs y x + x) (values w blocks)) ∧
        ∀ s : Hon p, ListScoped s.next blocks → blocks.length < p →
          Computes (Readme.hash rounds blocks) s fun z s' => z.eval s'.W =
            merkleDamgardHash iv (fun x y => mimc cs y x + x) (values s.W blocks) := by
  obtain ⟨cs, g, hcs, hl⟩ := C70_new_returns.2 p hp.out.pos rounds
  obtain ⟨n, g', hn', hn⟩ := C70_new_returns.1 p hp.out.pos
  obtain ⟨iv, hiv⟩ : ∃ iv : Elem p, nextElement p LCG.new = some (iv, g') :=
    ⟨⟨n, hn⟩, ((C70_biguint_range p _ g').2 ⟨n, hn⟩).2 hn'⟩
  obtain ⟨c, hc⟩ := Option.isSome_iff_exists.1 ((C57_new cs).2 ⟨h3, hb⟩)
  refine ⟨cs, iv, hl, ⟨g, hcs⟩, ⟨g', hiv⟩, fun blocks => ?_⟩
  have hd : (MiMC.default rounds : Option (MiMC p)) = some c := by
    unfold MiMC.default
    rw [hcs]
    exact hc
  have hm : MerkleDamgard.newDefaults (daviesMeyer c.toBlockCipher) =
      some ⟨iv, daviesMeyer c.toBlockCipher⟩ := by
    unfold MerkleDamgard.newDefaults
    rw [hiv]
    rfl
  have hr : Readme.hash rounds blocks =
      (⟨iv, daviesMeyer c.toBlockCipher⟩ : MerkleDamgard p).hash blocks := by
    funext b
    unfold Readme.hash
    rw [B.bind_eq (B.ofOption_some hd b)]
    rw [B.bind_eq (B.ofOption_some hm b)]
  have hE := C57_encrypt hc
  rw [hr]
  exact ⟨C59_hash_enforced _ (C58_davies_meyer.1 hE.1) blocks, fun s hs hlen =>
    ((C59_hash_computed _ (C58_davies_meyer.2 hE.2) s hs).1 hlen).mono fun _ _ _ h => h.2⟩

/-- Over the field of order 11, hashing two blocks with five rounds. -/
example : ∃ (cs : List (Elem 11)) (iv : Elem 11), cs.length = 5 ∧
    Enforces (Readme.hash 5 [ofWire 1, ofWire 2]) fun z w => z.eval w =
      merkleDamgardHash iv (fun x y => mimc cs y x + x) [w 1, w 2] := by
  obtain ⟨cs, iv, h1, -, -, h2⟩ := C79_hash_partial (p := 11) (by decide)
    (MonomialPermutation.bijective_of_coprime (by decide) (by decide) (by decide)) 5
  exact ⟨cs, iv, h1, (h2 _).1.mono fun z w _ h => by rw [h]; simp [values, eval_ofWire]⟩

/-- C79, exactly where the hash function of the README can be built: the order exceeds 3 and cubing is a
permutation. -/
theorem C79_hash_exact_partial (rounds : ℕ) (s : Hon p) {blocks : List (Expression p)}
    (hs : ListScoped s.next blocks) (hlen : blocks.length < p) :
    Readme.hash rounds blocks s.b ≠ none ↔ 3 < p ∧ Function.Bijective fun x : Elem p => x ^ 3 := by
  constructor
  · intro h
    obtain ⟨cs, g, hcs, -⟩ := C70_new_returns.2 p hp.out.pos rounds
    rw [← C57_new cs]
    by_contra hn
    apply h
    have hd : (MiMC.default rounds : Option (MiMC p)) = none := by
      unfold MiMC.default
      rw [hcs]
      simpa using hn
    unfold Readme.hash
    rw [hd]
    rfl
  · rintro ⟨h3, hb⟩
    obtain ⟨cs, iv, -, -, -, h⟩ := C79_hash_partial h3 hb rounds
    obtain ⟨z, s', hr, -⟩ := (h blocks).2 s hs hlen
    rw [hr]
    simp

/-- Over the field of order 13 cubing is no permutation, and the hash function panics even for no blocks. -/
example : Readme.hash 5 [] honest5.b = none := by
  by_contra h
  have h1 := (C79_hash_exact_partial 5 honest5 (by intro e he; cases he) (by decide)).1 h
  have := h1.2.1 (show (1 : Elem 13) ^ 3 = 3 ^ 3 by decide +kernel)
  exact absurd this (by decide +kernel)

end R1CS
