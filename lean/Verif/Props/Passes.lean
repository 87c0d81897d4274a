import Verif.Lemmas.PassesExact
import Verif.Spec.Passes

/-!
# C92: how often `execute` goes through the pending generators

`execute` goes through all pending generators again and again until nothing changes
(src/gadget.rs:27-46), which for generators in a bad order takes as many passes as there are
generators.  The gadgets of the crate register their generators in an order which is bad only in a few
places: the number of passes is bounded by the last pass of the worst instruction, however long the
code is, and no generator is left waiting.
-/

set_option linter.unusedSectionVars false

namespace R1CS

variable {p : ℕ} [hp : Fact p.Prime] {α : Type}

open Language Circuit

namespace Passes

/-- The generators of a circuit have a timetable. -/
theorem build {c : Circuit p} {d : ℕ} (hc : c.Timed d) {k : ℕ} {os : List (Obj p)} {b : Builder p}
    (hb : c.build k Builder.new = some (os, b)) {v : WireValues p} (hv : ∀ i ≤ k, (v i).isSome) :
    Stretch d (Dom v) Builder.new b fun K => ∀ o ∈ os, o.Over K := by
  obtain ⟨ws, b1, h1, h2⟩ := B.bind_run hb
  rw [Enforces.wires_run] at h1
  obtain ⟨e1, e2⟩ := Prod.ext_iff.1 (Option.some.inj h1)
  dsimp only at e1 e2
  subst e1
  have hs : ∀ i ∈ List.range' (Builder.new (p := p)).nextWireIndex k, i ∈ Dom v := by
    intro i hi
    rw [List.mem_range'_1] at hi
    exact hv i (by have : (Builder.new (p := p)).nextWireIndex = 1 := rfl; omega)
  refine (Stretch.silent (Q := fun K => K = Dom v) (b' := b1) (by rw [← e2]) rfl).trans
    fun K' _ hK => ?_
  rw [hK]
  refine Timely.stretch (Timely.runFrom c _ (Dom v) (hv 0 (Nat.zero_le _)) ?_ hc) h2
  intro o ho
  obtain ⟨w, hw, rfl⟩ := List.mem_map.1 ho
  exact Expression.Over.ofWire (hs w hw)

theorem stretch_inPasses {d : ℕ} {Q : Set Wire → Prop} {v v' : WireValues p} {b : Builder p}
    (h : Stretch d (Dom v) Builder.new b Q) {fuel : ℕ} {rest : List (WitnessGenerator p)}
    (hl : Gadget.loop fuel b.witnessGenerators v = some (rest, v')) :
    rest = [] ∧ ∃ k ≤ d + 1, InPasses k b.witnessGenerators v v' :=
  Timely.inPasses (m := fun b0 => if b0.witnessGenerators = [] then some ((), b) else none)
    (Q := fun _ => Q) (fun b0 a b' h' => by
      obtain ⟨A, k1, k2⟩ := h
      dsimp only at h'
      split at h'
      · next h0 =>
        obtain rfl : b = b' := congrArg (·.2) (Option.some.inj h')
        exact ⟨A, by rw [k1, h0]; rfl, k2⟩
      · cases h') (b := Builder.new) (a := ()) rfl rfl hl

theorem loop_more : ∀ {n : ℕ} {gs : List (WitnessGenerator p)} {v : WireValues p}
    {r : List (WitnessGenerator p) × WireValues p} (m : ℕ), n ≤ m →
    Gadget.loop n gs v = some r → Gadget.loop m gs v = some r
  | 0, _, _, _, _, _, h => by cases h
  | n + 1, gs, v, r, 0, hm, _ => by omega
  | n + 1, gs, v, r, m + 1, hm, h => by
    unfold Gadget.loop at h ⊢
    obtain ⟨q, hq, h⟩ := Option.bind_eq_some_iff.1 h
    rw [hq]
    dsimp only [Option.bind_eq_bind, Option.bind_some] at h ⊢
    split at h
    · next hp =>
      rw [if_pos hp]
      exact loop_more m (by omega) h
    · next hp =>
      rw [if_neg hp]
      exact h

theorem pass_length : ∀ {gs gs' : List (WitnessGenerator p)} {v v' : WireValues p} {made : Bool},
    Gadget.pass gs v = some (gs', v', made) →
    gs'.length ≤ gs.length ∧ (made = true → gs'.length < gs.length)
  | [], _, _, _, _, h => by
    obtain ⟨rfl, _, rfl⟩ := by
      have := Option.some.inj h
      simpa [Prod.ext_iff] using this
    simp
  | g :: gs, gs', v, v', made, h => by
    unfold Gadget.pass at h
    split at h
    · obtain ⟨v1, _, h⟩ := Option.bind_eq_some_iff.1 h
      obtain ⟨r, hr, h⟩ := Option.bind_eq_some_iff.1 h
      have e := Option.some.inj h
      obtain ⟨l1, _⟩ := pass_length (made := r.2.2) hr
      have e1 : r.1 = gs' := congrArg (·.1) e
      rw [← e1]
      simp only [List.length_cons]
      exact ⟨by omega, fun _ => by omega⟩
    · obtain ⟨r, hr, h⟩ := Option.bind_eq_some_iff.1 h
      have e := Option.some.inj h
      obtain ⟨l1, l2⟩ := pass_length (made := r.2.2) hr
      have e1 : g :: r.1 = gs' := congrArg (·.1) e
      have e2 : r.2.2 = made := congrArg (·.2.2) e
      rw [← e1, ← e2]
      simp only [List.length_cons]
      exact ⟨by omega, fun h => by have := l2 h; omega⟩

theorem loop_length : ∀ {n : ℕ} {gs : List (WitnessGenerator p)} {v : WireValues p}
    {r : List (WitnessGenerator p) × WireValues p}, Gadget.loop n gs v = some r →
    Gadget.loop (gs.length + 1) gs v = some r
  | 0, _, _, _, h => by cases h
  | n + 1, gs, v, r, h => by
    unfold Gadget.loop at h ⊢
    obtain ⟨q, hq, h⟩ := Option.bind_eq_some_iff.1 h
    rw [hq]
    dsimp only [Option.bind_eq_bind, Option.bind_some] at h ⊢
    split at h
    · next hp =>
      rw [if_pos hp]
      have := (pass_length (made := q.2.2) hq).2 hp
      exact loop_more _ (by omega) (loop_length h)
    · next hp =>
      rw [if_neg hp]
      exact h

/-- The productive passes, and one more. -/
theorem loop_of_inPasses : ∀ {k : ℕ} {gs : List (WitnessGenerator p)} {v v' : WireValues p},
    InPasses k gs v v' → Gadget.loop (k + 1) gs v = some ([], v')
  | 0, _, _, _, h => by cases h; rfl
  | k + 1, gs, v, v', h => by
    cases h with
    | @pass _ _ gs' _ v1 _ h h' =>
      unfold Gadget.loop
      rw [h]
      exact loop_of_inPasses h'

/-- With fewer iterations the loop has not ended. -/
theorem loop_short : ∀ {k : ℕ} {gs : List (WitnessGenerator p)} {v v' : WireValues p},
    InPasses k gs v v' → Gadget.loop k gs v = none
  | 0, _, _, _, _ => rfl
  | k + 1, gs, v, v', h => by
    cases h with
    | @pass _ _ gs' _ v1 _ h h' =>
      unfold Gadget.loop
      rw [h]
      exact loop_short h'

end Passes

open Passes

/-- C92: if `execute` returns, then it has run all generators in at most `d + 1` passes, where `d` is
the last pass of the worst instruction (`Op.latest`), however many instructions there are. -/
theorem C92_passes {c : Circuit p} {d : ℕ} (hc : c.Timed d) {k : ℕ} {os : List (Obj p)}
    {b : Builder p} (hb : c.build k Builder.new = some (os, b)) {v v' : WireValues p} {ok : Bool}
    (hv : ∀ i ≤ k, (v i).isSome) (he : b.build.execute v = some (v', ok)) :
    ∃ j ≤ d + 1, InPasses j b.build.witnessGenerators v v' := by
  unfold Gadget.execute at he
  obtain ⟨r, hr, he⟩ := Option.bind_eq_some_iff.1 he
  obtain ⟨h1, j, hj, h2⟩ := stretch_inPasses (Passes.build hc hb hv) (rest := r.1) (v' := r.2) hr
  rw [h1] at he
  obtain ⟨z, _, he⟩ := Option.bind_eq_some_iff.1 he
  obtain rfl : r.2 = v' := congrArg (·.1) (Option.some.inj he)
  exact ⟨j, hj, h2⟩

/-- C92: code whose instructions have their generators in order takes one pass. -/
theorem C92_one_pass {c : Circuit p} (hc : ∀ i ∈ c, i.1.latest i.2.length = 0 ∧ i.1.Punctual 0)
    {k : ℕ} {os : List (Obj p)} {b : Builder p} (hb : c.build k Builder.new = some (os, b))
    {v v' : WireValues p} {ok : Bool} (hv : ∀ i ≤ k, (v i).isSome)
    (he : b.build.execute v = some (v', ok)) (hne : b.build.witnessGenerators ≠ []) :
    Gadget.pass b.build.witnessGenerators v = some ([], v', true) := by
  obtain ⟨j, hj, h⟩ := C92_passes (d := 0) (fun i hi => ⟨(hc i hi).1.le, (hc i hi).2⟩) hb hv he
  generalize b.build.witnessGenerators = gs at *
  cases h with
  | done => exact absurd rfl hne
  | pass h h' =>
    cases h' with
    | done => exact h
    | pass => omega

/-- C92: no generator is left waiting for inputs: when the loop of `execute` ends, nothing is pending.
Hence the assertion "Some generators never received inputs" holds whenever it is reached. -/
theorem C92_nothing_pending {c : Circuit p} {d : ℕ} (hc : c.Timed d) {k : ℕ} {os : List (Obj p)}
    {b : Builder p} (hb : c.build k Builder.new = some (os, b)) {v v' : WireValues p}
    (hv : ∀ i ≤ k, (v i).isSome) {fuel : ℕ} {rest : List (WitnessGenerator p)}
    (h : Gadget.loop fuel b.build.witnessGenerators v = some (rest, v')) : rest = [] :=
  (stretch_inPasses (Passes.build hc hb hv) h).1

/-- C92: the loop of `execute` may be stopped after `d + 2` passes (the last of which finds nothing to
do): this makes no difference, whether a generator panics or not. -/
theorem C92_enough {c : Circuit p} {d : ℕ} (hc : c.Timed d) {k : ℕ} {os : List (Obj p)}
    {b : Builder p} (hb : c.build k Builder.new = some (os, b)) {v : WireValues p}
    (hv : ∀ i ≤ k, (v i).isSome) :
    Gadget.loop (d + 2) b.build.witnessGenerators v =
      Gadget.loop (b.build.witnessGenerators.length + 1) b.build.witnessGenerators v := by
  cases h : Gadget.loop (b.build.witnessGenerators.length + 1) b.build.witnessGenerators v with
  | none =>
    cases h' : Gadget.loop (d + 2) b.build.witnessGenerators v with
    | none => rfl
    | some r => rw [loop_length h'] at h; cases h
  | some r =>
    obtain ⟨rest, v'⟩ := r
    obtain ⟨rfl, j, hj, h2⟩ := stretch_inPasses (Passes.build hc hb hv) h
    exact loop_more _ (by omega) (loop_of_inPasses h2)

/-- C92: the implementations of the crate which can be used as functions or hashes: the ciphers in
the forward direction, the compression functions and hashes made of them, sponges and Poseidon need
one pass; decryption and Rescue, which use roots, need two. -/
theorem C92_functions {d : ℕ} {K : Set Wire} (h1 : ONE ∈ K) {x y : Expression p} (hx : x.Over K)
    (hy : y.Over K) {xs : List (Expression p)} (hs : ∀ e ∈ xs, e.Over K) :
    (∀ c : MiMC p, Timely 0 K (c.encrypt x y) (fun z K' => z.Over K') ∧
      Timely 1 K (c.decrypt x y) fun z K' => z.Over K') ∧
    (∀ c : BlockCipher p, (∀ K x y, ONE ∈ K → x.Over K → y.Over K →
        Timely d K (c.encrypt x y) fun z K' => z.Over K') →
      Timely d K ((daviesMeyer c).compress x y) (fun z K' => z.Over K') ∧
      Timely d K ((miyaguchiPreneel c).compress x y) fun z K' => z.Over K') ∧
    (∀ h : MerkleDamgard p, (∀ K x y, ONE ∈ K → x.Over K → y.Over K →
        Timely d K (h.compress.compress x y) fun z K' => z.Over K') →
      Timely d K (h.hash xs) fun z K' => z.Over K') ∧
    (∀ (s : Sponge p) (k : ℕ), (∀ K xs, ONE ∈ K → (∀ e ∈ xs, e.Over K) →
        Timely d K (s.permutation.permute xs) fun z K' => ∀ e ∈ z, e.Over K') →
      Timely d K (s.evaluate xs k) fun z K' => ∀ e ∈ z, e.Over K') ∧
    (∀ f : Poseidon p, Timely 0 K (f.permute xs) fun z K' => ∀ e ∈ z, e.Over K') ∧
    (∀ f : Rescue p, Timely 1 K (f.permute xs) fun z K' => ∀ e ∈ z, e.Over K') := by
  refine ⟨fun c => ⟨Timely.encrypt h1 c hx hy, Timely.decrypt h1 c hx hy⟩, fun c hc => ⟨?_, ?_⟩,
    fun h hc => Timely.hash hc h1 hs, fun s k hp => Timely.sponge hp h1 hs k,
    fun f => Timely.poseidon h1 f hs, fun f => Timely.rescue h1 f hs⟩
  · exact (hc K y x h1 hy hx).bind fun _ _ hK h => .pure (h.add (hx.mono hK))
  · exact (hc K x y h1 hx hy).bind fun _ _ hK h => .pure ((h.add (hx.mono hK)).add (hy.mono hK))

/-- C92: the last passes are needed, whatever comes before and after in the circuit and whatever values
there are of other wires: for `modulus`, `divides`, roots, decryption with MiMC and Rescue a second one;
for a network of `n` elements `⌈log₂ n⌉ + 1`, and one more for sorting.  With two elements the network
is a switch whose generator waits for one of the wires only if their difference is not constant. -/
theorem C92_needs {n : ℕ} (x y : Expression p) {xs ys : List (Expression p)}
    (hx : ∀ e ∈ xs, e.Scoped n) (hy : ∀ e ∈ ys, e.Scoped n)
    (hc : ∀ x y, xs = [x, y] → (y - x).asConstant = none) :
    Needs 1 n (B.modulus x y) ∧ Needs 1 n (B.divides x y) ∧
    (∀ f : MonomialPermutation p, 2 ≤ f.n.n → Needs 1 n (f.inverse x)) ∧
    (∀ cs (c : MiMC p), MiMC.new cs = some c → Needs 1 n (c.decrypt x y)) ∧
    (∀ f : Rescue p, 2 ≤ f.alpha.n → 1 ≤ f.numRounds → f.mds.rows ≠ [] → xs ≠ [] →
      Needs 1 n (f.permute xs)) ∧
    (2 ≤ xs.length → Needs (Nat.clog 2 xs.length) n (B.assertPermutation xs ys)) ∧
    Needs (Nat.clog 2 xs.length + 1) n (B.sortAscending xs) ∧
    Needs (Nat.clog 2 xs.length + 1) n (B.sortDescending xs) :=
  ⟨(Slow.modulus x y).needs (Tidy.modulus _ _), (Slow.divides x y).needs (Tidy.divides _ _),
    fun f hf => (Slow.root f hf x).needs (Tidy.root _ _),
    fun cs c h => (Slow.decrypt c (by rw [(MiMC.new_eq_some h).2.2.2]; omega) x y).needs
      (Tidy.decrypt _ _ _),
    fun f h1 h2 h3 h4 => (Slow.rescue f h1 h2 h3 h4).needs (Tidy.rescue _ _),
    fun hl => (Slow.assertPermutation hl hx hy hc).needs (Tidy.assertPermutation _ _),
    (Slow.sortAscending hx hc).needs (Tidy.sortAscending _),
    (Slow.sortDescending hx hc).needs (Tidy.sortDescending _)⟩

/-- C92: exactly.  Code whose worst instruction needs the pass `d`, on inputs for which the execution
returns: the loop runs all generators in `d + 1` passes and ends with the pass after these, not
earlier. -/
theorem C92_exact (h4 : 4 ≤ Elem.maxBits p) {c : Circuit p} {d : ℕ} (hc : c.Timed d)
    {i : Op p × List ℕ} (hi : i ∈ c) (hl : i.1.Lasts d i.2.length) {xs : List (Elem p)}
    {ys : List (Val p)} {ok : Bool} (ho : c.outcome xs = some (ys, ok)) :
    ∃ os b v', c.build xs.length Builder.new = some (os, b) ∧
      b.build.execute (inputs xs) = some (v', ok) ∧
      InPasses (d + 1) b.build.witnessGenerators (inputs xs) v' ∧
      Gadget.loop (d + 1) b.build.witnessGenerators (inputs xs) = none ∧
      Gadget.loop (d + 2) b.build.witnessGenerators (inputs xs) = some ([], v') := by
  obtain ⟨os, b, v', h1, h2, -, -⟩ := C88_returns h4 c xs ho
  have hv : ∀ i ≤ xs.length, (inputs xs i).isSome := by
    intro i hi
    unfold inputs
    split
    · rfl
    · next h =>
      have h : i ≠ 0 := h
      rw [List.getElem?_eq_getElem (by omega)]
      rfl
  obtain ⟨j, hj, h3⟩ := C92_passes hc h1 hv h2
  have := Circuit.needs h4 hi hl (by rw [ho]; rfl) h1 h3
  obtain rfl : j = d + 1 := by omega
  exact ⟨os, b, v', h1, h2, h3, loop_short h3, loop_of_inPasses h3⟩

/-! ## Examples -/

/-- A remainder: two instructions, the first of which calculates its result after using it. -/
def remainderCode : Circuit 13 := [(.modulus, [0, 1]), (.product, [2, 2])]

example : remainderCode.Timed 1 := by
  intro i hi
  simp only [remainderCode, List.mem_cons, List.not_mem_nil, or_false] at hi
  rcases hi with rfl | rfl
  · exact ⟨le_rfl, trivial⟩
  · exact ⟨Nat.zero_le _, trivial⟩

example : remainderCode.outcome [7, 3] = some ([.elem 7, .elem 3, .elem 1, .elem 1], true) := by
  decide +kernel

/-- Two passes, by the theorem. -/
example : ∃ os b v', remainderCode.build 2 Builder.new = some (os, b) ∧
    b.build.execute (inputs [7, 3]) = some (v', true) ∧
    InPasses 2 b.build.witnessGenerators (inputs [7, 3]) v' ∧
    Gadget.loop 2 b.build.witnessGenerators (inputs [7, 3]) = none ∧
    Gadget.loop 3 b.build.witnessGenerators (inputs [7, 3]) = some ([], v') :=
  C92_exact (c := remainderCode) (d := 1) (i := (.modulus, [0, 1])) (xs := [7, 3])
    (ys := [.elem 7, .elem 3, .elem 1, .elem 1]) (by decide +kernel) (by
      intro i hi
      simp only [remainderCode, List.mem_cons, List.not_mem_nil, or_false] at hi
      rcases hi with rfl | rfl
      · exact ⟨le_rfl, trivial⟩
      · exact ⟨Nat.zero_le _, trivial⟩) (by simp [remainderCode]) (le_refl 1) (by decide +kernel)

/-- Sorting a thousand wires needs twelve passes, also as a part of something else. -/
example : Needs 11 1001 (B.sortAscending ((List.range' 1 1000).map Expression.ofWire) : B 13 _) := by
  have h := (C92_needs (p := 13) (n := 1001) 0 0 (xs := (List.range' 1 1000).map Expression.ofWire)
    (ys := []) (by
      intro e he
      obtain ⟨w, hw, rfl⟩ := List.mem_map.1 he
      rw [List.mem_range'_1] at hw
      exact Expression.Scoped.ofWire (by omega)) (by simp) (fun x y h => by
        have := congrArg List.length h
        simp at this)).2.2.2.2.2.2.1
  rw [List.length_map, List.length_range', show Nat.clog 2 1000 = 10 by decide +kernel] at h
  exact h

/-- With two elements whose difference is constant one pass may do: nothing is waited for. -/
example : ((B.assertPermutation [(1 : Expression 13), Expression.ofElem 2] [Expression.ofElem 2, 1]
    Builder.new).map fun r =>
    (Gadget.loop 2 r.2.build.witnessGenerators (inputs [])).isSome) = some true := by decide +kernel

/-- Two passes are needed: with two iterations the loop has not ended, with three it has. -/
example : ((remainderCode.build 2 Builder.new).map fun r =>
    ((Gadget.loop 2 r.2.build.witnessGenerators (inputs [7, 3])).isSome,
      (Gadget.loop 3 r.2.build.witnessGenerators (inputs [7, 3])).isSome)) =
    some (false, true) := by decide +kernel

/-- Comparing two lists of three elements: the network has two layers, the loop needs three passes and
one more to find nothing to do. -/
example : ((Circuit.build 6 ([(.assertPermutation 3, [0, 1, 2, 3, 4, 5])] : Circuit 13) Builder.new).map
      fun r =>
    ((Gadget.loop 3 r.2.build.witnessGenerators (inputs [1, 2, 3, 3, 1, 2])).isSome,
      (Gadget.loop 4 r.2.build.witnessGenerators (inputs [1, 2, 3, 3, 1, 2])).isSome)) =
    some (false, true) := by decide +kernel
example : (Op.assertPermutation 3 : Op 13).latest 6 = 2 := by decide +kernel

/-- A comparison has its generators in order. -/
example : ((Circuit.build 2 ([(.lt, [0, 1])] : Circuit 13) Builder.new).map
      fun r => (r.2.build.witnessGenerators.isEmpty,
        (r.2.build.execute (inputs [3, 7])).map fun e => e.2)) =
    some (false, some true) := by decide +kernel

/-- Without a value for an input its generator waits for ever. -/
example : ((Circuit.build 2 ([(.product, [0, 1])] : Circuit 13) Builder.new).bind fun r =>
    (Gadget.loop 5 r.2.build.witnessGenerators (inputs [3])).map fun e => e.1.length) =
    some 1 := by decide +kernel

end R1CS
