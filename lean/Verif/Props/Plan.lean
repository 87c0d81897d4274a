import Verif.Lemmas.PlanCircuit
import Verif.Props.Language
import Verif.Props.Outcome
import Verif.Props.HashCosts

/-!
# C93: what the forms of the operands tell about straight-line code

Whether building panics, the kinds and lengths of the results, and a bound on the number of
constraints can be calculated from the kinds of the operands and the lengths of digit strings
(`Circuit.plan`, Verif.Spec.Plan), without wires or values.
-/

set_option linter.unusedSectionVars false

namespace R1CS

variable {p : ℕ} [hp : Fact p.Prime] {α : Type}

open Language Circuit Expression

/-- C93: building the code panics exactly if the plan says so, on whatever builder. -/
theorem C93_builds (h8 : 8 < p) {cost : Op p → ℕ} {c : Circuit p} (hc : c.Known cost) (k : ℕ)
    (b : Builder p) : (c.build k b).isSome = (c.plan cost k).isSome := by
  have h := Follows.build h8 hc k
  cases hq : c.plan cost k with
  | none => rw [hq] at h; rw [h b]; rfl
  | some r =>
    rw [hq] at h
    obtain ⟨a, b', h1, _⟩ := h b
    rw [h1]; rfl

/-- C93: the objects of the code have the planned kinds and lengths. -/
theorem C93_forms (h8 : 8 < p) {cost : Op p → ℕ} {c : Circuit p} (hc : c.Known cost) {k : ℕ}
    {b b' : Builder p} {os : List (Obj p)} (hb : c.build k b = some (os, b')) :
    (c.plan cost k).map (fun r => r.1) = some (os.map Obj.form) := by
  have h := Follows.build h8 hc k
  cases hq : c.plan cost k with
  | none => rw [hq] at h; rw [h b] at hb; cases hb
  | some r =>
    rw [hq] at h
    obtain ⟨a, b1, h1, _, h2⟩ := h b
    obtain ⟨rfl, rfl⟩ := Prod.ext_iff.1 (Option.some.inj (hb.symm.trans h1))
    exact congrArg some h2.symm

/-- C93: the code adds at most the planned number of constraints. -/
theorem C93_size (h8 : 8 < p) {cost : Op p → ℕ} {c : Circuit p} (hc : c.Known cost) {k n : ℕ}
    {ss : List Form} (hn : c.plan cost k = some (ss, n)) : AddsAtMost (c.build k) n := by
  intro b os b' hb
  have h := Follows.build h8 hc k
  rw [hn] at h
  obtain ⟨a, b1, h1, h2, _⟩ := h b
  obtain ⟨rfl, rfl⟩ := Prod.ext_iff.1 (Option.some.inj (hb.symm.trans h1))
  exact h2

/-- C93: if the code has an outcome for some inputs, then the plan succeeds and tells the kinds and
lengths of its values.  These are hence the same for all inputs. -/
theorem C93_values (h8 : 8 < p) {cost : Op p → ℕ} {c : Circuit p} (hc : c.Known cost)
    {xs : List (Elem p)} {ys : List (Val p)} {ok : Bool} (h : c.outcome xs = some (ys, ok)) :
    (c.plan cost xs.length).map (fun r => r.1) = some (ys.map Val.form) := by
  obtain ⟨os, b, v', h1, _, _, h2⟩ := C88_returns (four_le_maxBits.2 h8) c xs h
  rw [C93_forms h8 hc h1]
  refine congrArg some ?_
  have : ∀ {os : List (Obj p)} {ys : List (Val p)}, MeansAll v'.total os ys →
      os.map Obj.form = ys.map Val.form := by
    intro os ys h
    induction h with
    | nil => rfl
    | @cons o y os ys h _ ih =>
      rw [List.map_cons, List.map_cons, ih]
      refine congrArg (· :: _) ?_
      match o, y, h with
      | .expr _, .elem _, _ => rfl
      | .bool _, .bool _, _ => rfl
      | .bin e, .bits l, h =>
        have := congrArg List.length (show (e.bits.map fun b => b.eval v'.total) = _ from h)
        rw [List.length_map, List.length_map] at this
        exact congrArg Form.bits this
  exact this h2

/-- C93: joining two pieces of code: the constraints add up, and the second piece can be planned from
the forms the first one leaves. -/
theorem C93_append (cost : Op p → ℕ) (c c' : Circuit p) (k : ℕ) :
    Circuit.plan cost k (c ++ c') = (c.plan cost k).bind fun r =>
      (c'.planFrom cost r.1).map fun r' => (r'.1, r.2 + r'.2) := by
  unfold plan
  generalize List.replicate k Form.expr = ss
  induction c generalizing ss with
  | nil =>
    show c'.planFrom cost ss = (c'.planFrom cost ss).map fun r' => (r'.1, 0 + r'.2)
    cases c'.planFrom cost ss <;> simp
  | cons i c ih =>
    show planFrom cost (i :: (c ++ c')) ss = _
    rw [planFrom, planFrom]
    cases stepPlan cost i ss with
    | none => rfl
    | some r =>
      show (planFrom cost (c ++ c') r.1 >>= _) = (planFrom cost c r.1 >>= _).bind _
      rw [ih]
      cases planFrom cost c r.1 with
      | none => rfl
      | some r' =>
        show (Option.map _ (planFrom cost c' r'.1) >>= _) = Option.map _ (planFrom cost c' r'.1)
        cases planFrom cost c' r'.1 with
        | none => rfl
        | some r'' => exact congrArg some (Prod.ext rfl (Nat.add_assoc _ _ _).symm)

namespace Fits

theorem returns {m : B p α} {k : ℕ} {Q : α → Prop} (h : Fits m k Q) : Returns m Q := fun b => by
  obtain ⟨a, b', h1, _, h2⟩ := h b
  exact ⟨a, b', h1, h2⟩

theorem mapExpressions {f : Expression p → B p (Expression p)} (hf : ∀ x, Returns (f x) fun _ => True) :
    ∀ xs, Returns (B.mapExpressions f xs) fun ys => ys.length = xs.length
  | [] => .pure rfl
  | x :: xs => by
    unfold B.mapExpressions
    exact (hf x).bind fun _ _ => (mapExpressions hf xs).bind fun _ h => .pure (by simp [h])

theorem sbox {f : Poseidon p} (hs : f.sboxPermutation.isSome) (x : Expression p) :
    Returns (f.sboxPermute x) fun _ => True := by
  obtain ⟨s, hs⟩ := Option.isSome_iff_exists.1 hs
  unfold Poseidon.sboxPermute
  refine (Returns.ofOption (Q := fun t => t = s) hs rfl).bind fun t ht => ?_
  subst ht
  unfold Poseidon.sboxPermutation at hs
  split at hs
  · cases hs
    exact returns (inverseOrZero x)
  · obtain ⟨n, -, hs⟩ := Option.bind_eq_some_iff.1 hs
    obtain ⟨m, -, hs⟩ := Option.bind_eq_some_iff.1 hs
    cases hs
    exact returns (exponentiation x _)
  · obtain ⟨n, -, hs⟩ := Option.bind_eq_some_iff.1 hs
    obtain ⟨m, -, hs⟩ := Option.bind_eq_some_iff.1 hs
    cases hs
    exact returns (exponentiation x _)

theorem poseidonRounds {f : Poseidon p} (hs : f.sboxPermutation.isSome)
    (hm : f.mds.rows.length = f.width) (hw : 0 < f.width) : ∀ (left round : ℕ)
    (xs : List (Expression p)), xs.length = f.width →
      Returns (f.rounds round left xs) fun ys => ys.length = f.width
  | 0, _, _, hl => .pure hl
  | left + 1, round, xs, hl => by
    unfold Poseidon.rounds
    dsimp only
    refine Returns.bind (Q := fun ys => ys.length = f.width) ?_ fun ys hy =>
      poseidonRounds hs hm hw left _ _ (by simp [ElementMatrix.mulExpressions, hm, hy])
    split
    · rw [← hl]
      exact mapExpressions (sbox hs) xs
    · match xs, hl with
      | [], hl => simp at hl; omega
      | x :: xs, hl => exact (sbox hs x).bind fun _ _ => .pure hl

theorem root {f : MonomialPermutation p} (h2 : 2 ≤ f.n.n) (hc : Nat.Coprime (p - 1) f.n.n)
    (x : Expression p) : Returns (f.inverse x) fun _ => True := by
  obtain ⟨e, he, -⟩ := MonomialPermutation.rootExponent_some h2 hc
  unfold MonomialPermutation.inverse
  exact (returns wire).bind fun _ _ => (returns (exponentiation _ _)).bind fun _ _ =>
    (returns (assertEqual _ _)).bind fun _ _ => (Returns.ofOption (Q := fun _ => True) he trivial).bind
      fun _ _ => (returns (generator _ _)).bind fun _ _ => .pure trivial

theorem decryptRounds {c : MiMC p} (h3 : c.roundPermutation.n.n = 3) (hc : Nat.Coprime (p - 1) 3)
    (key : Expression p) : ∀ (cs : List (Elem p)) (x : Expression p),
      Returns (c.decryptRounds key cs x) fun _ => True
  | [], _ => .pure trivial
  | rc :: cs, x => by
    unfold MiMC.decryptRounds
    exact (root (by omega) (h3 ▸ hc) x).bind fun z _ => decryptRounds h3 hc key cs _

theorem rescueRounds {f : Rescue p} (h2 : 2 ≤ f.alpha.n) (hc : Nat.Coprime (p - 1) f.alpha.n)
    (hm : f.mds.rows.length = f.width) : ∀ (left : ℕ) (xs : List (Expression p)),
      xs.length = f.width → Returns (f.rounds left xs) fun ys => ys.length = f.width
  | 0, _, hl => .pure hl
  | left + 1, xs, hl => by
    unfold Rescue.rounds
    have hn := (MonomialPermutation.new_eq_some_iff f.alpha ⟨f.alpha⟩).2 ⟨hc, rfl⟩
    have p1 : ∀ x, Returns (f.pi1 x) fun _ => True := fun x =>
      (Returns.ofOption (Q := fun m => m = ⟨f.alpha⟩) hn rfl).bind fun m h => by
        subst h; exact returns (exponentiation x _)
    have p2 : ∀ x, Returns (f.pi2 x) fun _ => True := fun x =>
      (Returns.ofOption (Q := fun m => m = ⟨f.alpha⟩) hn rfl).bind fun m h => by
        subst h; exact root h2 hc x
    exact (mapExpressions p1 xs).bind fun ys hy => (mapExpressions p2 _).bind fun zs hz =>
      rescueRounds h2 hc hm left _ (by
        simp only [ElementMatrix.mulExpressions, List.length_map, List.length_zip] at hz ⊢; omega)

theorem permuteState {sp : Sponge p} {w k : ℕ} (hw : sp.bitrate + sp.capacity = w)
    (hk : ∀ xs, xs.length = w → Fits (sp.permutation.permute xs) k fun ys => ys.length = w)
    {i c : List (Expression p)} (hi : i.length = sp.bitrate) (hc : c.length = sp.capacity) :
    Fits (sp.permuteState i c) k fun r => r.1.length = sp.bitrate ∧ r.2.length = sp.capacity := by
  unfold Sponge.permuteState
  have hl : (i ++ c).length = w := by rw [List.length_append]; omega
  exact ((hk _ hl).bind fun ys hy => (require (by omega)).bind fun _ _ => (require (by omega)).bind
    (l := 0) fun _ _ => pure ⟨by rw [List.length_take]; omega, by rw [List.length_drop]; omega⟩).le
      (by omega)

theorem addChunk_some : ∀ {i ch : List (Expression p)}, ch.length ≤ i.length →
    ∃ i', Sponge.addChunk i ch = some i' ∧ i'.length = i.length
  | i, [], _ => ⟨i, by cases i <;> rfl, rfl⟩
  | [], _ :: _, h => by simp at h
  | s :: ss, e :: es, h => by
    obtain ⟨r, h1, h2⟩ := addChunk_some (i := ss) (ch := es) (by simpa using h)
    exact ⟨(s + e) :: r, by simp [Sponge.addChunk, h1], by simp [h2]⟩

theorem spongeAbsorb {sp : Sponge p} {w k : ℕ} (hw : sp.bitrate + sp.capacity = w)
    (hk : ∀ xs, xs.length = w → Fits (sp.permutation.permute xs) k fun ys => ys.length = w) :
    ∀ (chunks : List (List (Expression p))) {i c : List (Expression p)},
      (∀ ch ∈ chunks, ch.length ≤ sp.bitrate) → i.length = sp.bitrate → c.length = sp.capacity →
      Fits (sp.absorb chunks i c) (k * chunks.length)
        fun r => r.1.length = sp.bitrate ∧ r.2.length = sp.capacity
  | [], _, _, _, hi, hc => pure ⟨hi, hc⟩
  | ch :: chunks, i, c, hch, hi, hc => by
    unfold Sponge.absorb
    obtain ⟨i', h1, h2⟩ := addChunk_some (i := i) (ch := ch) (hi ▸ hch ch List.mem_cons_self)
    refine Fits.le (k := 0 + (k + k * chunks.length)) (Fits.bind (Q := fun a => a = i')
      (ofOption h1) fun a ha => ?_) (le_of_eq (by rw [List.length_cons]; ring))
    subst ha
    exact (permuteState hw hk (h2.trans hi) hc).bind fun ⟨i2, c2⟩ h =>
      spongeAbsorb hw hk chunks (fun ch h => hch ch (List.mem_cons_of_mem _ h)) h.1 h.2

theorem spongeSqueeze {sp : Sponge p} {w k : ℕ} (hw : sp.bitrate + sp.capacity = w)
    (hk : ∀ xs, xs.length = w → Fits (sp.permutation.permute xs) k fun ys => ys.length = w)
    (hr : 0 < sp.bitrate) (len : ℕ) : ∀ (fuel : ℕ) {i c out : List (Expression p)},
      i.length = sp.bitrate → c.length = sp.capacity → len ≤ out.length + fuel →
      Fits (sp.squeeze len fuel i c out)
        (k * ((len - out.length + sp.bitrate - 1) / sp.bitrate)) fun z => len ≤ z.length
  | 0, _, _, out, _, _, hf => by
    unfold Sponge.squeeze
    rw [if_neg (by omega)]
    exact (pure (by omega)).le (Nat.zero_le _)
  | fuel + 1, i, c, out, hi, hc, hf => by
    unfold Sponge.squeeze
    split
    · next hl =>
      refine ((permuteState hw hk hi hc).bind (l := k * ((len - out.length - sp.bitrate +
          sp.bitrate - 1) / sp.bitrate)) fun ⟨i2, c2⟩ h =>
        (spongeSqueeze hw hk hr len fuel h.1 h.2 (by rw [List.length_append, h.1]; omega)).le
          (le_of_eq (by rw [List.length_append, h.1, Nat.sub_add_eq]))).le (le_of_eq ?_)
      have : (len - out.length + sp.bitrate - 1) / sp.bitrate =
          (len - out.length - sp.bitrate + sp.bitrate - 1) / sp.bitrate + 1 := by
        generalize sp.bitrate = r at *
        rcases Nat.lt_or_ge (len - out.length) r with h | h
        · rw [show len - out.length - r + r - 1 = r - 1 by omega,
            Nat.div_eq_of_lt (show r - 1 < r by omega), Nat.div_eq_iff hr]
          omega
        · rw [show len - out.length - r + r - 1 = len - out.length - 1 by omega,
            show len - out.length + r - 1 = len - out.length - 1 + r by omega,
            Nat.add_div_right _ hr]
      rw [this]; ring
    · next h => exact (pure (by omega)).le (Nat.zero_le _)

theorem sponge {sp : Sponge p} {w k : ℕ} (hw : sp.bitrate + sp.capacity = w)
    (hk : ∀ xs, xs.length = w → Fits (sp.permutation.permute xs) k fun ys => ys.length = w)
    (hr : 0 < sp.bitrate) (inputs : List (Expression p)) (len : ℕ) :
    Fits (sp.evaluate inputs len) (k * ((inputs.length + sp.bitrate - 1) / sp.bitrate +
      (len - sp.bitrate + sp.bitrate - 1) / sp.bitrate)) fun z => z.length = len := by
  unfold Sponge.evaluate
  have hch : chunks? sp.bitrate inputs = some (chunksOf sp.bitrate inputs) := if_neg (by omega)
  refine Fits.le (k := 0 + (k * (chunksOf sp.bitrate inputs).length +
    (k * ((len - sp.bitrate + sp.bitrate - 1) / sp.bitrate) + 0))) (Fits.bind
      (Q := fun a => a = chunksOf sp.bitrate inputs) (ofOption hch) fun a ha => ?_)
    (le_of_eq (by rw [chunksOf_length hr, Nat.zero_add, Nat.add_zero, mul_add]))
  subst ha
  exact (spongeAbsorb hw hk _ (fun ch h => (chunksOf_lengths hr _ ch h).2) List.length_replicate
    List.length_replicate).bind fun ⟨i, c⟩ h => ((spongeSqueeze hw hk hr len len h.1 h.2 (by omega)).le
      (le_of_eq (by rw [h.1]))).bind fun z hz => pure (by rw [List.length_take]; omega)

end Fits

/-- C93: the implementations of the crate to be used as functions or hashes never panic and keep to
the bounds of C83: encryption with MiMC, the two compression functions, the hash of fewer blocks than
the order, Poseidon with a matrix and an S-box which suit it, decryption with MiMC, Rescue with an
exponent and a matrix which suit it, and sponges around a permutation which keeps the width. -/
theorem C93_functions {k : ℕ} {xs : List (Expression p)} (b : Builder p) :
    (∀ (cs : List (Elem p)) (c : MiMC p) (x y : Expression p), MiMC.new cs = some c →
      ∃ z b', c.toBlockCipher.encrypt x y b = some (z, b') ∧
        b'.constraints.length ≤ b.constraints.length + 2 * (cs.length + 1)) ∧
    (∀ (c : BlockCipher p) (x y : Expression p), (∀ x y b, ∃ z b', c.encrypt x y b = some (z, b') ∧
        b'.constraints.length ≤ b.constraints.length + k) →
      (∃ z b', (daviesMeyer c).compress x y b = some (z, b') ∧
        b'.constraints.length ≤ b.constraints.length + k) ∧
      ∃ z b', (miyaguchiPreneel c).compress x y b = some (z, b') ∧
        b'.constraints.length ≤ b.constraints.length + k) ∧
    (∀ h : MerkleDamgard p, (∀ x y b, ∃ z b', h.compress.compress x y b = some (z, b') ∧
        b'.constraints.length ≤ b.constraints.length + k) → xs.length < p →
      ∃ z b', h.toHashFunction.hash xs b = some (z, b') ∧
        b'.constraints.length ≤ b.constraints.length + k * (xs.length + 1)) ∧
    (∀ f : Poseidon p, f.sboxPermutation.isSome → f.mds.rows.length = f.width → f.full % 2 = 0 →
      0 < f.width → xs.length = f.width →
      ∃ zs b', f.toMultiPermutation.permute xs b = some (zs, b') ∧ zs.length = f.width ∧
        b'.constraints.length ≤ b.constraints.length +
          (match f.sbox with | .exponentiation3 => 2 | .exponentiation5 => 3 | .inverse => 3) *
            (f.full * f.width + f.partial_)) ∧
    (∀ (cs : List (Elem p)) (c : MiMC p) (x y : Expression p), MiMC.new cs = some c →
      ∃ z b', c.toBlockCipher.decrypt x y b = some (z, b') ∧
        b'.constraints.length ≤ b.constraints.length + 3 * (cs.length + 1)) ∧
    (∀ f : Rescue p, 2 ≤ f.alpha.n → Nat.Coprime (p - 1) f.alpha.n →
      f.mds.rows.length = f.width → xs.length = f.width →
      ∃ zs b', f.toMultiPermutation.permute xs b = some (zs, b') ∧ zs.length = f.width ∧
        b'.constraints.length ≤ b.constraints.length + f.numRounds * f.width *
          (2 * ((f.alpha.n.size - 1) + ((List.range f.alpha.n.size).countP
            (fun j => f.alpha.n.testBit j) - 1)) + 1)) ∧
    (∀ (m : MultiPermutation p) (r c : ℕ) (sp : Sponge p) (len : ℕ), Sponge.new m r c = some sp →
      0 < r → (∀ xs b, xs.length = m.width → ∃ zs b', m.permute xs b = some (zs, b') ∧
        b'.constraints.length ≤ b.constraints.length + k ∧ zs.length = m.width) →
      ∃ zs b', sp.evaluate xs len b = some (zs, b') ∧ zs.length = len ∧
        b'.constraints.length ≤ b.constraints.length +
          k * ((xs.length + r - 1) / r + (len - r + r - 1) / r)) := by
  refine ⟨fun cs c x y hc => ?_, fun c x y hc => ⟨?_, ?_⟩, fun h hh hl => ?_,
    fun f hs hm hf hw hl => ?_, fun cs c x y hc => ?_, fun f h2 hc hm hl => ?_,
    fun m r c sp len hsp hr hk => ?_⟩
  · obtain ⟨-, -, rfl, h3⟩ := MiMC.new_eq_some hc
    obtain ⟨z, b', h1, h2, _⟩ := Fits.encrypt h3 x y b
    exact ⟨z, b', h1, h2⟩
  · obtain ⟨z, b', h1, h2⟩ := hc y x b
    exact ⟨z + x, b', by
      show (c.encrypt y x >>= _) b = _
      rw [B.bind_eq h1]; rfl, h2⟩
  · obtain ⟨z, b', h1, h2⟩ := hc x y b
    exact ⟨z + x + y, b', by
      show (c.encrypt x y >>= _) b = _
      rw [B.bind_eq h1]; rfl, h2⟩
  · obtain ⟨z, b', h1, h2, _⟩ := Fits.hash (Follows.knownHash hh) hl b
    exact ⟨z, b', h1, h2⟩
  · have h1 : Returns (f.permute xs) fun ys => ys.length = f.width :=
      (Returns.require hl).bind fun _ _ => (Returns.require hf).bind fun _ _ =>
        Fits.poseidonRounds hs hm hw _ _ _ hl
    obtain ⟨zs, b', h2, h3⟩ := h1 b
    exact ⟨zs, b', h2, h3, C83_poseidon_bound f xs b zs b' h2⟩
  · obtain ⟨-, hco, -, h3⟩ := MiMC.new_eq_some hc
    have h1 : Returns (c.decrypt x y) fun _ => True :=
      (Fits.decryptRounds h3 hco x _ _).bind fun _ _ =>
        (Fits.root (by omega) (h3 ▸ hco) _).bind fun _ _ => .pure trivial
    obtain ⟨z, b', h2, _⟩ := h1 b
    exact ⟨z, b', h2, C83_mimc_decrypt_bound hc x y b z b' h2⟩
  · obtain ⟨zs, b', h1, h3⟩ := Fits.rescueRounds h2 hc hm f.numRounds xs hl b
    exact ⟨zs, b', h1, h3, C83_rescue_bound f hl b zs b' h1⟩
  · unfold Sponge.new at hsp
    split at hsp
    · next hw =>
      cases hsp
      obtain ⟨z, b', h1, h2, h3⟩ := Fits.sponge (sp := ⟨m, r, c⟩) hw
        (fun xs h b => hk xs b h) hr xs len b
      exact ⟨z, b', h1, h3, h2⟩
    · cases hsp

/-! ## Examples -/

/-- Code without functions as parameters. -/
theorem known_of_no_parameters {c : Circuit p} {cost : Op p → ℕ}
    (h : ∀ i ∈ c, match i.1 with
      | .function .. | .schnorrVerify .. | .merkleRoot _ | .assertMembership _ => False
      | _ => True) : c.Known cost := by
  intro i hi
  have := h i hi
  revert this
  cases i.1 <;> simp [Op.Known]

/-- A remainder, its digits, and the digits in reverse significance: three instructions. -/
def plannedCode : Circuit 13 :=
  [(.modulus, [0, 1]), (.split, [2]), (.rotateInc 1, [3]), (.cmpBinary .lt, [3, 4])]

example : plannedCode.Known fun _ => 0 := known_of_no_parameters (by
  intro i hi
  simp only [plannedCode, List.mem_cons, List.not_mem_nil, or_false] at hi
  rcases hi with rfl | rfl | rfl | rfl <;> trivial)

example : (plannedCode.plan (fun _ => 0) 2).map (fun r => r.1) =
    some [.expr, .expr, .expr, .bits 4, .bits 4, .bool] := by decide +kernel

/-- The bound is attained. -/
example : ((plannedCode.plan (fun _ => 0) 2).map fun r => r.2) =
    ((plannedCode.build 2 Builder.new).map fun r => r.2.constraints.length) := by decide +kernel

/-- The plan fails where building panics: comparing digit strings of different lengths, or asking for
more digits than elements have. -/
example : Circuit.plan (fun _ => 0) 1
    ([(.split, [0]), (.splitBounded 3, [0]), (.cmpBinary .lt, [1, 2])] : Circuit 13) = none := by
  decide +kernel
example : Circuit.plan (fun _ => 0) 1 ([(.splitBounded 4, [0])] : Circuit 13) = none := by
  decide +kernel

/-- A Merkle path with MiMC as in C83: six constraints for each compression, hence seven for each of
two levels, and one for the root. -/
example (h : PairHash 11) (hh : h.code = dm11) :
    Circuit.Known (fun _ => 6) ([(.assertMembership h, [0, 1, 2, 3, 4])] : Circuit 11) ∧
    (Op.assertMembership h).plan (fun _ => 6) [.expr, .expr, .bits 2, .expr, .expr] = some ([], 15) := by
  refine ⟨fun i hi => ?_, rfl⟩
  obtain rfl := List.mem_singleton.1 hi
  show ∀ (x y : Expression 11) b, _
  intro x y b
  rw [hh]
  exact ((C93_functions (k := 6) (xs := []) b).2.1 _ x y
    fun x y b => (C93_functions (k := 6) (xs := []) b).1 _ _ x y mimc11).1

/-- Poseidon as in C83. -/
example (b : Builder 11) (x y : Expression 11) : ∃ zs b',
    poseidon11b.toMultiPermutation.permute [x, y] b = some (zs, b') ∧ zs.length = 2 ∧
      b'.constraints.length ≤ b.constraints.length + 10 :=
  (C93_functions (k := 0) b).2.2.2.1 poseidon11b (by decide +kernel) rfl rfl (by decide) rfl

/-- A sponge around it which takes in and gives out two items, one at a time. -/
example (b : Builder 11) (x y : Expression 11) (sp : Sponge 11)
    (h : Sponge.new poseidon11b.toMultiPermutation 1 1 = some sp) : ∃ zs b',
    sp.evaluate [x, y] 2 b = some (zs, b') ∧ zs.length = 2 ∧
      b'.constraints.length ≤ b.constraints.length + 30 := by
  have := (C93_functions (k := 10) (xs := [x, y]) b).2.2.2.2.2.2 _ 1 1 sp 2 h (by decide)
    fun xs b hl => by
      obtain ⟨zs, b', h1, h2, h3⟩ := (C93_functions (k := 0) (xs := xs) b).2.2.2.1 poseidon11b
        (by decide +kernel) rfl rfl (by decide) hl
      exact ⟨zs, b', h1, h3, h2⟩
  simpa using this

/-- Rescue with cubes, three rounds and width two. -/
example (b : Builder 11) (x y : Expression 11) : ∃ zs b',
    (⟨2, 3, 3, ⟨[[1, 2], [3, 4]]⟩⟩ : Rescue 11).toMultiPermutation.permute [x, y] b = some (zs, b') ∧
      zs.length = 2 ∧ b'.constraints.length ≤ b.constraints.length + 30 :=
  (C93_functions (k := 0) b).2.2.2.2.2.1 (⟨2, 3, 3, ⟨[[1, 2], [3, 4]]⟩⟩ : Rescue 11) (by decide)
    (by decide) rfl rfl

/-- On constants the code is smaller than planned. -/
example : (Circuit.plan (fun _ => 0) 0
    ([(.const 3, []), (.product, [0, 0])] : Circuit 13)).map (fun r => r.2) = some 1 ∧
    (Circuit.build 0 ([(.const 3, []), (.product, [0, 0])] : Circuit 13) Builder.new).map
      (fun r => r.2.constraints.length) = some 0 := by decide +kernel

end R1CS
