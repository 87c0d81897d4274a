import Verif.Lemmas.Loops
import Verif.Lemmas.LoopNetwork

/-!
# C102: the bounds on the model's loops change nothing

The loops of the code have no bound on their number of iterations, those of the model do
(`Spec/Loops.lean`).  The model's functions give exactly what the unbounded loops give, whatever their
arguments.  Where the model gives up, the unbounded loop panics or goes on forever.
-/

namespace R1CS

open Loop

variable {p : ℕ} [hp : Fact p.Prime]

/-- C102: a loop either ends, after one number of iterations with one outcome, or goes on forever, and
never both. -/
theorem C102_outcome {σ ρ : Type*} (body : σ → Option (σ ⊕ ρ)) (s : σ) :
    ((∃ n o, Ends body n s o) ∧ ¬ Forever body s ∨ (∀ n o, ¬ Ends body n s o) ∧ Forever body s) ∧
    ∀ n m o o', Ends body n s o → Ends body m s o' → n = m ∧ o = o' := by
  refine ⟨?_, fun n m o o' h h' => h.unique h'⟩
  by_cases h : ∃ n o, Ends body n s o
  · obtain ⟨n, o, h⟩ := h
    exact Or.inl ⟨⟨n, o, h⟩, h.not_forever⟩
  · simp only [not_exists] at h
    exact Or.inr ⟨h, forever_of_not_ends h⟩

/-- Counting down by two from 5 ends after two iterations with the result 1, and from an odd number
upwards never reaches 0. -/
example : Ends (fun n : ℕ => if 2 ≤ n then some (Sum.inl (n - 2)) else some (Sum.inr n)) 2 5 (some 1) ∧
    Forever (fun n : ℕ => if n = 0 then some (Sum.inr n) else some (Sum.inl (n + 2))) 1 :=
  ⟨.goesOn rfl (.goesOn rfl (.leaves rfl)), fun n => 2 * n + 1, rfl, fun n =>
    if_neg (Nat.succ_ne_zero (2 * n))⟩

/-- C102: the loop of `execute` ends for any generators and any values, panicking or not, within one
iteration more than there are generators, and `execute` is what the code makes of its outcome. -/
theorem C102_execute (g : Gadget p) (v : WireValues p) :
    ∃ k ≤ g.witnessGenerators.length + 1, ∃ o, Ends passBody k (g.witnessGenerators, v) o ∧
      g.execute v = o.bind fun r =>
        if r.1 = [] then (Gadget.checkAll g.constraints r.2).map fun ok => (r.2, ok) else none := by
  obtain ⟨k, hk, h⟩ := execute_ends _ (g.witnessGenerators, v) (Nat.lt_succ_self _)
  refine ⟨k, hk, _, h, ?_⟩
  unfold Gadget.execute
  simp only [List.length_eq_zero_iff]
  cases Gadget.loop (g.witnessGenerators.length + 1) g.witnessGenerators v with
  | none => rfl
  | some r =>
    simp only [Option.bind_eq_bind, Option.bind_some]
    split
    · cases Gadget.checkAll g.constraints r.2 <;> rfl
    · rfl

/-- A generator which can run and one which cannot: one iteration, and one which changes nothing. -/
example : Ends (passBody (p := 7)) 1
    ([⟨[5], fun v => some v⟩, ⟨[], fun v => v.set 1 3⟩], fun _ => none)
    (Gadget.loop 3 [⟨[5], fun v => some v⟩, ⟨[], fun v => v.set 1 3⟩] fun _ => none) :=
  .goesOn rfl (.leaves rfl)

/-- C102: the loop of `random_access` counting index bits. -/
theorem C102_index_bits (len : ℕ) :
    Ends (indexBitsBody len) (B.indexBits len) 0 (some (B.indexBits len)) := by
  obtain ⟨k, -, hk⟩ := indexBits_ends len len 0 (by omega)
  have key : ∀ {k b r : ℕ}, Ends (indexBitsBody len) k b (some r) → r = b + k := by
    intro k
    induction k with
    | zero =>
      intro b r h
      cases h with
      | leaves h =>
        unfold indexBitsBody at h
        split at h
        · cases h
        · cases h; rfl
    | succ k ih =>
      intro b r h
      cases h with
      | goesOn h h' =>
        unfold indexBitsBody at h
        split at h
        · cases h
          have := ih h'
          omega
        · cases h
  have := key hk
  rw [Nat.zero_add] at this
  unfold B.indexBits
  rw [this] at hk ⊢
  exact hk

example : B.indexBits 5 = 3 := by decide

/-- C102: the loop of `is_prime` ends for every element and from every divisor, and `is_prime` is its
outcome from the divisor 2, which exists unless the field has only two elements. -/
theorem C102_is_prime (x : Elem p) :
    (∀ h : 2 < p, ∃ k, Ends (isPrimeBody x) k ⟨2, h⟩ x.isPrime) ∧ (p = 2 → x.isPrime = none) ∧
    ∀ d : Elem p, ∃ k ≤ p + 1, ∃ o, Ends (isPrimeBody x) k d o := by
  have key := fun d => isPrime_ends x (p + 1) d (fun h => by omega) (by omega)
  refine ⟨fun h => ?_, fun h => ?_, fun d => ?_⟩
  · obtain ⟨k, -, hk⟩ := key ⟨2, h⟩
    refine ⟨k, ?_⟩
    unfold Elem.isPrime
    rw [Elem.ofNat?_eq_some h]
    exact hk
  · unfold Elem.isPrime
    rw [Elem.ofNat?_eq_none (by omega)]
    rfl
  · obtain ⟨k, hk, h⟩ := key d
    exact ⟨k, hk, _, h⟩

/-- In the field of order 5, the loop for 4 stops at the second divisor: `2 * 2 = 4`, and 2 divides
4. -/
example : haveI : Fact (Nat.Prime 5) := ⟨by decide⟩
    Ends (isPrimeBody (p := 5) ⟨4, by decide⟩) 0 ⟨2, by decide⟩ (some false) := .leaves rfl

/-- C102: the loops of `smallest_alpha` end in every field of an order above 3 (in others
`Element::from(3)` panics), and give what the model's give. -/
theorem C102_smallest_alpha :
    (∀ h : 3 < p, ∃ k a, Rescue.smallestAlpha p = some a ∧
      Ends alphaBody k (false, (⟨3, h⟩ : Elem p)) (some a)) ∧
    (p ≤ 3 → Rescue.smallestAlpha p = none) := by
  constructor
  · intro h
    have hs : ∃ a, Rescue.smallestAlpha p = some a := by
      by_cases h7 : p = 7
      · subst h7
        have := C74_smallest_alpha_refuted.1
        exact ⟨1, this⟩
      · obtain ⟨a, ha, -⟩ := C74_smallest_alpha_partial h h7
        exact ⟨a, ha⟩
    obtain ⟨a, ha⟩ := hs
    have hl : Rescue.alphaLoop p (⟨3, h⟩ : Elem p) = some a := by
      unfold Rescue.smallestAlpha at ha
      rw [Elem.ofNat?_eq_some h] at ha
      exact ha
    obtain ⟨k, hk⟩ := alphaLoop_ends hl
    exact ⟨k, a, ha, hk⟩
  · intro h
    unfold Rescue.smallestAlpha
    rw [Elem.ofNat?_eq_none (by omega)]
    rfl

example : ∃ k a, Rescue.smallestAlpha 7 = some a ∧
    Ends alphaBody k (false, (⟨3, by decide⟩ : Elem 7)) (some a) :=
  haveI : Fact (Nat.Prime 7) := ⟨by decide⟩
  C102_smallest_alpha.1 (by decide)

/-- C102: the loop of `next_biguint`, for a limit of at least 1 (otherwise `limit - 1` panics) and any
state of the generator: the model returns what the loop returns, and nothing exactly when the loop goes
on forever. -/
theorem C102_next_biguint {limit : ℕ} (hl : 0 < limit) {g : LCG} (hg : g.state < 2 ^ 32) :
    (∀ r, g.nextBiguint limit = some r ↔
      ∃ k, Ends (drawBody limit (limit - 1).size) k g (some r)) ∧
    (g.nextBiguint limit = none ↔ Forever (drawBody limit (limit - 1).size) g) := by
  have e : g.nextBiguint limit = LCG.drawLoop limit (limit - 1).size (2 ^ 32) g := by
    unfold LCG.nextBiguint
    rw [if_neg (by omega)]
  rw [e]
  cases h : LCG.drawLoop limit (limit - 1).size (2 ^ 32) g with
  | none =>
    have hf := drawLoop_forever hg h
    refine ⟨fun r => ⟨fun h => (by cases h), fun ⟨k, hk⟩ => absurd hf hk.not_forever⟩,
      fun _ => hf, fun _ => rfl⟩
  | some r =>
    obtain ⟨k, -, hk⟩ := drawLoop_ends h
    refine ⟨fun r' => ⟨fun h => ?_, fun ⟨k', hk'⟩ => (hk.unique hk').2⟩, fun h => (by cases h),
      fun hf => absurd hf hk.not_forever⟩
    cases Option.some.inj h
    exact ⟨k, hk⟩

/-- From the second state of the generator, the loop for the limit `2 ^ 96 + 1` goes on forever. -/
example : Forever (drawBody (2 ^ 96 + 1) (2 ^ 96 + 1 - 1).size) (LCG.nextU32 LCG.new).2 :=
  (C102_next_biguint (by norm_num) (LCG.nextU32_lt _)).2.1 C70_biguint_refuted.2

omit hp in
/-- C102: the search for the exponent of an `n`-th root, from any start: the model finds what the loop
finds, and nothing exactly when the loop panics, which is for `n = 0`, or goes on forever. -/
theorem C102_root_search (n m : ℕ) :
    (∀ e, MonomialPermutation.exponentLoop p n n m = some e ↔
      ∃ k, Ends (exponentBody p n) k m (some e)) ∧
    (n = 0 → Ends (exponentBody p n) 0 m none) ∧
    (n ≠ 0 → (MonomialPermutation.exponentLoop p n n m = none ↔ Forever (exponentBody p n) m)) := by
  rcases Nat.eq_zero_or_pos n with rfl | hn
  · have h0 : Ends (exponentBody p 0) 0 m none := .panics rfl
    exact ⟨fun e => ⟨fun h => (by cases h), fun ⟨k, hk⟩ => by cases (h0.unique hk).2⟩, fun _ => h0,
      fun h => absurd rfl h⟩
  · have hn' : n ≠ 0 := by omega
    cases h : MonomialPermutation.exponentLoop p n n m with
    | none =>
      have hf := exponentLoop_forever hn' h
      exact ⟨fun e => ⟨fun h => (by cases h), fun ⟨k, hk⟩ => absurd hf hk.not_forever⟩,
        fun h => absurd h hn', fun _ => ⟨fun _ => hf, fun _ => rfl⟩⟩
    | some e =>
      obtain ⟨k, -, hk⟩ := exponentLoop_ends hn' h
      refine ⟨fun e' => ⟨fun h => ?_, fun ⟨k', hk'⟩ => (hk.unique hk').2⟩, fun h => absurd h hn',
        fun _ => ⟨fun h => (by cases h), fun hf => absurd hf hk.not_forever⟩⟩
      cases Option.some.inj h
      exact ⟨k, hk⟩

/-- C102: the exponent for the `n`-th root is the outcome of that search from `p`, if it is below `p`. -/
theorem C102_root_exponent (n e : Elem p) : MonomialPermutation.rootExponent n = some e ↔
    ∃ k, Ends (exponentBody p n.n) k p (some e.n) := by
  rw [← (C102_root_search n.n p).1]
  unfold MonomialPermutation.rootExponent
  constructor
  · intro h
    obtain ⟨x, h1, h2⟩ := Option.bind_eq_some_iff.1 h
    rw [h1]
    by_cases hx : x < p
    · rw [Elem.ofNat?_eq_some hx] at h2
      cases Option.some.inj h2
      rfl
    · rw [Elem.ofNat?_eq_none (by omega)] at h2
      cases h2
  · intro h
    rw [h]
    exact Elem.ofNat?_eq_some e.lt

/-- C102: the search for the exponent of an `n`-th root ends exactly when `n` is coprime to `p - 1`, as
`MonomialPermutation::new` requires.  It then takes fewer than `n` iterations, however large the field
is; for a cube root it takes one. -/
theorem C102_root_search_ends {n : ℕ} (hn : 0 < n) (hlt : n < p) :
    (Nat.Coprime (p - 1) n → ∃ k e, k + 1 ≤ max 1 (n - 1) ∧ Ends (exponentBody p n) k p (some e)) ∧
    (Nat.Coprime (p - 1) n → n = 3 → ∃ e, Ends (exponentBody p n) 0 p (some e)) ∧
    (¬ Nat.Coprime (p - 1) n → Forever (exponentBody p n) p) := by
  have h2p := hp.out.two_le
  refine ⟨fun hc => ?_, fun hc h3 => ?_, fun hc => ?_⟩
  · rcases Nat.lt_or_ge n 2 with h1 | h2
    · have : n = 1 := by omega
      subst this
      exact ⟨0, _, by simp, .leaves (by unfold exponentBody; rw [if_neg (by omega)]; exact if_pos (one_dvd _))⟩
    · obtain ⟨k, k1, k2, k3⟩ := MonomialPermutation.exists_multiple h2 hc
      have hne : k ≠ n := by
        rintro rfl
        have h : k ∣ p := (Nat.dvd_add_left (dvd_mul_left k (p - 1))).1 k3
        rcases (Nat.dvd_prime hp.out).1 h with h | h <;> omega
      obtain ⟨e, he⟩ := Option.isSome_iff_exists.1
        (MonomialPermutation.exponentLoop_isSome (fuel := n - 1) k1 (by omega) k3)
      obtain ⟨j, hj, hj'⟩ := exponentLoop_ends (by omega) he
      exact ⟨j, e, by omega, hj'⟩
  · subst h3
    have : 3 ∣ p + (p - 1) := by
      have h1 : ¬ 3 ∣ p - 1 := fun h => by
        have := Nat.eq_one_of_dvd_coprimes hc h (dvd_refl 3)
        omega
      have h2 : ¬ 3 ∣ p := fun h => by
        rcases (Nat.dvd_prime hp.out).1 h with h | h <;> omega
      have h3 : p % 3 = 2 := by omega
      omega
    exact ⟨_, .leaves (by unfold exponentBody; rw [if_neg (by omega)]; exact if_pos this)⟩
  · have hf : MonomialPermutation.exponentLoop p n n p = none := by
      cases h : MonomialPermutation.exponentLoop p n n p with
      | none => rfl
      | some e =>
        obtain ⟨k, k1, k2, k3, -⟩ := MonomialPermutation.exponentLoop_some h
        exfalso
        apply hc
        have hd : Nat.gcd (p - 1) n ∣ p := by
          have h1 : Nat.gcd (p - 1) n ∣ p + (p - 1) * k := k3 ▸ dvd_mul_of_dvd_left (Nat.gcd_dvd_right _ _) _
          exact (Nat.dvd_add_left (dvd_mul_of_dvd_left (Nat.gcd_dvd_left _ _) _)).1 h1
        have h1 : Nat.gcd (p - 1) n ∣ 1 := by
          have := (Nat.dvd_sub hd (Nat.gcd_dvd_left (p - 1) n))
          rwa [show p - (p - 1) = 1 by omega] at this
        exact Nat.dvd_one.1 h1
    exact ((C102_root_search n p).2.2 (by omega)).1 hf

/-- In the field of order 11 the fifth roots are not unique, and the search for their exponent goes on
forever; for the seventh root it takes one iteration, as `11 + 10` is divisible by 7, and for the ninth
root it takes six more. -/
example : Forever (exponentBody 11 5) 11 ∧ Ends (exponentBody 11 7) 0 11 (some 3) ∧
    Ends (exponentBody 11 9) 6 11 (some 9) :=
  haveI : Fact (Nat.Prime 11) := ⟨by decide⟩
  ⟨(C102_root_search_ends (p := 11) (n := 5) (by decide) (by decide)).2.2 (by decide), .leaves rfl,
    .goesOn rfl (.goesOn rfl (.goesOn rfl (.goesOn rfl (.goesOn rfl (.goesOn rfl (.leaves rfl))))))⟩

/-- C102: the squeezing loop of a sponge ends, for a positive bitrate (otherwise absorbing panics), any
permutation and any state, and `evaluate` returns the first outputs of its outcome. -/
theorem C102_squeeze (sp : Sponge p) (hb : 0 < sp.bitrate) (len : ℕ) :
    (∀ s, ∃ k ≤ len, ∃ o, Ends (squeezeBody sp len) k s o) ∧
    ∀ (inputs : List (Expression p)) (b : Builder p),
      (∀ i c b', Sponge.absorb sp (chunksOf sp.bitrate inputs) (List.replicate sp.bitrate 0)
          (List.replicate sp.capacity 0) b = some ((i, c), b') →
        ∃ k o, Ends (squeezeBody sp len) k ⟨i, c, i, b'⟩ o ∧
          sp.evaluate inputs len b = o.map fun r => (r.1.take len, r.2)) ∧
      (Sponge.absorb sp (chunksOf sp.bitrate inputs) (List.replicate sp.bitrate 0)
          (List.replicate sp.capacity 0) b = none → sp.evaluate inputs len b = none) := by
  have key := fun s => squeeze_ends sp hb len len s (Nat.le_add_right _ _)
  refine ⟨fun s => ?_, fun inputs b => ⟨fun i c b' h => ?_, fun h => ?_⟩⟩
  · obtain ⟨k, hk, h⟩ := key s
    exact ⟨k, hk, _, h⟩
  · obtain ⟨k, -, hk⟩ := key ⟨i, c, i, b'⟩
    refine ⟨k, _, hk, ?_⟩
    unfold Sponge.evaluate chunks?
    rw [if_neg (by omega)]
    show (Sponge.absorb sp (chunksOf sp.bitrate inputs) (List.replicate sp.bitrate 0)
          (List.replicate sp.capacity 0) b).bind _ = _
    rw [h]
    show (Sponge.squeeze sp len len i c i b').bind _ = _
    cases Sponge.squeeze sp len len i c i b' <;> rfl
  · unfold Sponge.evaluate chunks?
    rw [if_neg (by omega)]
    show (Sponge.absorb sp (chunksOf sp.bitrate inputs) (List.replicate sp.bitrate 0)
          (List.replicate sp.capacity 0) b).bind _ = _
    rw [h]
    rfl

/-- A sponge of bitrate 1 over the permutation which changes nothing: two more iterations for three
outputs. -/
example : Ends (squeezeBody (p := 7) ⟨⟨2, fun xs => pure xs, fun xs => pure xs⟩, 1, 1⟩ 3) 2
    ⟨[0], [0], [0], Builder.new⟩ (some ([0, 0, 0], Builder.new)) :=
  .goesOn rfl (.goesOn rfl (.leaves rfl))

theorem chunksOf_go_more {α : Type} {k : ℕ} (hk : 0 < k) : ∀ (n m : ℕ) (l : List α), l.length ≤ n →
    l.length ≤ m → chunksOf.go k n l = chunksOf.go k m l
  | 0, 0, _, _, _ => rfl
  | 0, _ + 1, [], _, _ => rfl
  | _ + 1, 0, [], _, _ => rfl
  | _ + 1, _ + 1, [], _, _ => rfl
  | n + 1, m + 1, x :: xs, hn, hm => by
    rw [chunksOf.go, chunksOf.go]
    simp only [List.length_cons] at hn hm
    rw [chunksOf_go_more hk n m _ (by simp; omega) (by simp; omega)]

/-- C102: cutting a list into chunks of a positive length (`slice::chunks` panics for 0): the first
`k` items, then the chunks of the others. -/
theorem C102_chunks {α : Type} {k : ℕ} (hk : 0 < k) (l : List α) :
    chunksOf k l = if l = [] then [] else l.take k :: chunksOf k (l.drop k) := by
  cases l with
  | nil => rfl
  | cons x xs =>
    rw [if_neg (by simp)]
    unfold chunksOf
    rw [List.length_cons, chunksOf.go]
    rw [chunksOf_go_more hk _ ((x :: xs).drop k).length _ (by simp; omega) le_rfl]

example : chunksOf 2 [1, 2, 3, 4, 5] = [[1, 2], [3, 4], [5]] := by
  simp [C102_chunks]

/-- C102: the main loop of `route` ends, for any pairing of the values, any switches and any state,
sensible or not, within two iterations per switch; `route` is its outcome. -/
theorem C102_route (m : BiMap) (switches : Bool → List BooleanWire) :
    (∀ st : RouteState p, ∃ k ≤ 2 * ((switches false).length + (switches true).length), ∃ o,
      Ends (routeBody m switches) k st o) ∧
    ∀ (a b : List (Elem p)) (v : WireValues p) (st : RouteState p), a.length = b.length →
      bimapFromLists a b = some m →
      (if a.length % 2 = 0 then
        (enqueueOtherSide m switches true (a.length - 2) false ⟨v, fun _ => [], fun _ => 0⟩).bind
          fun st => enqueueOtherSide m switches true (a.length - 1) true st
      else
        (enqueueOtherSide m switches false (a.length - 1) true ⟨v, fun _ => [], fun _ => 0⟩).bind
          fun st => enqueueOtherSide m switches true (a.length - 1) true st) = some st →
      ∃ k o, Ends (routeBody m switches) k st o ∧
        route a b (switches false) (switches true) v = o.map RouteState.values := by
  have key := fun st : RouteState p => route_ends m switches _ st (left_le switches st)
  refine ⟨fun st => ?_, fun a b v st hl hm hs => ?_⟩
  · obtain ⟨k, hk, h⟩ := key st
    exact ⟨k, hk, _, h⟩
  · obtain ⟨k, -, hk⟩ := key st
    refine ⟨k, _, hk, ?_⟩
    have e : (fun side => if side = true then switches true else switches false) = switches := by
      funext side; cases side <;> rfl
    unfold route
    rw [if_neg (by simpa using hl), hm]
    simp only [Option.bind_eq_bind, Option.bind_some, e]
    rw [hs]
    simp only [Option.bind_some]
    cases routeLoop m switches (2 * ((switches false).length + (switches true).length)) st <;> rfl

/-- C102: the scan for the next switch without a value ends from any index; when no routes are pending,
`route` deals with the switch at which it ends. -/
theorem C102_scan (m : BiMap) (switches : Bool → List BooleanWire) (side : Bool) (st : RouteState p) :
    (∀ i, ∃ k o, Ends (scanBody (switches side) st.values) k i o) ∧
    (st.partialRoutes side = [] → ∃ k j,
      Ends (scanBody (switches side) st.values) k (st.scanIndex side) (some j) ∧
      routeSide m switches side st =
        if j < (switches side).length then
          (routeSwitch m switches side j false st).map fun st' =>
            { st' with scanIndex := fun s => if s = side then j + 1 else st'.scanIndex s }
        else some { st with scanIndex := fun s => if s = side then j else st.scanIndex s }) := by
  have key := fun i => scan_ends (switches side) st.values _ i (Nat.le_add_right _ _)
  refine ⟨fun i => ?_, fun hp => ?_⟩
  · obtain ⟨k, -, h⟩ := key i
    exact ⟨k, _, h⟩
  · obtain ⟨k, -, h⟩ := key (st.scanIndex side)
    refine ⟨k, _, h, ?_⟩
    unfold routeSide
    rw [if_neg (by simp [hp])]
    dsimp only
    split
    · cases routeSwitch m switches side (scanSwitches (switches side) st.values
        (switches side).length (st.scanIndex side)) false st <;> rfl
    · rfl

/-- Three values: one switch on each side; routing the identity takes one iteration
which sets both, and one in which the scans come to their ends. -/
example : Ends (routeBody (p := 7) [(0, 0), (1, 1), (2, 2)] fun s => if s then [⟨2⟩] else [⟨1⟩]) 2
    ⟨fun _ => none, fun _ => [], fun _ => 0⟩
    (routeLoop (p := 7) [(0, 0), (1, 1), (2, 2)] (fun s => if s then [⟨2⟩] else [⟨1⟩]) 4
      ⟨fun _ => none, fun _ => [], fun _ => 0⟩) :=
  .goesOn rfl (.goesOn rfl (.leaves rfl))

/-- C102: the recursion of `assert_permutation` (src/verify_permutation.rs:24-38, 80-132), without a
bound. -/
theorem C102_network (a b : List (Expression p)) :
    B.assertPermutation a b = (do
      B.require (a.length = b.length)
      if a.length = 0 then return ()
      else if a.length = 1 then do
        let a0 ← B.ofOption a[0]?
        let b0 ← B.ofOption b[0]?
        B.assertEqual a0 b0
      else if a.length = 2 then do
        let a0 ← B.ofOption a[0]?
        let a1 ← B.ofOption a[1]?
        let b0 ← B.ofOption b[0]?
        let b1 ← B.ofOption b[1]?
        B.assertPermutation2x2 a0 a1 b0 b1
      else do
        let n := a.length
        let (aSwitches, child1A, child2A) ← B.switchLayer (n / 2) a
        let (bSwitches, child1B, child2B) ← B.switchLayer (if n % 2 = 0 then n / 2 - 1 else n / 2) b
        (if n % 2 = 0 then do
          let b1 ← B.ofOption b[n - 2]?
          let b2 ← B.ofOption b[n - 1]?
          B.assertPermutation child1A (child1B ++ [b1])
          B.assertPermutation child2A (child2B ++ [b2])
        else do
          let a2 ← B.ofOption a[n - 1]?
          let b2 ← B.ofOption b[n - 1]?
          B.assertPermutation child1A child1B
          B.assertPermutation (child2A ++ [a2]) (child2B ++ [b2]))
        B.generator (a.flatMap Expression.dependencies ++ b.flatMap Expression.dependencies)
          (B.routeGen a b aSwitches bSwitches)) := by
  by_cases h3 : 3 ≤ a.length
  · rw [← fuel_enough (a.length + 1) a b (by omega), assertPermutationFuel_eq h3]
    rw [if_neg (by omega), if_neg (by omega), if_neg (by omega)]
    unfold layers
    simp only [bind_assoc, pure_bind]
    have e : (if a.length % 2 = 0 then a.length / 2 - 1 else a.length / 2) = (a.length - 1) / 2 :=
      numSwitches_true
    rw [e]
    funext s
    refine bind_congr_run fun _ s1 _ => bind_congr_run fun ra s2 hra => bind_congr_run fun rb s3 _ => ?_
    have l1 := switchLayer_length1 _ _ hra
    have l2 := Insists.switchLayer_length _ _ hra
    have hc : children a.length a b (ra, rb) = (if a.length % 2 = 0 then do
          let b1 ← B.ofOption b[a.length - 2]?
          let b2 ← B.ofOption b[a.length - 1]?
          B.assertPermutation ra.2.1 (rb.2.1 ++ [b1])
          B.assertPermutation ra.2.2 (rb.2.2 ++ [b2])
        else do
          let a2 ← B.ofOption a[a.length - 1]?
          let b2 ← B.ofOption b[a.length - 1]?
          B.assertPermutation ra.2.1 rb.2.1
          B.assertPermutation (ra.2.2 ++ [a2]) (rb.2.2 ++ [b2])) := by
      unfold children
      split
      · congr 1; funext b1; congr 1; funext b2
        rw [fuel_enough _ _ _ (by dsimp only; omega), fuel_enough _ _ _ (by dsimp only; omega)]
      · congr 1; funext b1; congr 1; funext b2
        rw [fuel_enough _ _ _ (by dsimp only; omega), fuel_enough _ _ _ (by simp; omega)]
    rw [hc]
  · funext s
    match a, h3 with
    | [], _ => exact bind_congr_run fun _ s1 _ => rfl
    | [x], _ =>
      match b with
      | [] => rfl
      | [y] => rfl
      | y :: z :: l => rfl
    | [x, y], _ =>
      match b with
      | [] => rfl
      | [y] => rfl
      | [z, w] => rfl
      | z :: w :: u :: l => rfl
    | x :: y :: z :: l, h => simp at h

/-- Lists of different lengths are refused. -/
example (xs ys : List (Expression 7)) (hx : xs.length = 5) (hy : ys.length = 6) :
    B.assertPermutation xs ys Builder.new = none := by
  haveI : Fact (Nat.Prime 7) := ⟨by decide⟩
  rw [C102_network]
  show (B.require (xs.length = ys.length) Builder.new).bind _ = none
  rw [B.require, if_neg (by omega)]
  rfl

/-- C102: the loops which find the numbers of Poseidon rounds, with exact real numbers, for a positive
width (otherwise a division by zero panics): they end and are the model's. -/
theorem C102_poseidon (s : PoseidonSbox) {w : ℕ} (hw : 0 < w) (bits : ℕ) :
    (∀ f, ∃ k r, Poseidon.securePartialRounds p s w f bits = some r ∧
      Ends (partialBody fun r => Poseidon.isAttackable p s w f r bits) k 0 (some r)) ∧
    ∃ k r0 f r, Poseidon.securePartialRounds p s w 6 bits = some r0 ∧
      Poseidon.secureRoundsUnpadded p s w bits = some (f, r) ∧
      Ends (roundsBody w fun f => Poseidon.securePartialRounds p s w f bits) k
        (6, (6, r0), 6 * w + r0) (some (f, r)) := by
  constructor
  · intro f
    obtain ⟨r, h, -⟩ := Poseidon.securePartialRounds_spec (p := p) (s := s) (bits := bits) hw f
    obtain ⟨k, -, hk⟩ := partialLoop_ends h
    exact ⟨k, r, h, hk⟩
  · obtain ⟨r0, h0, -⟩ := Poseidon.securePartialRounds_spec (p := p) (s := s) (bits := bits) hw 6
    obtain ⟨f, r, h, -⟩ := Poseidon.secureRoundsUnpadded_spec (p := p) (s := s) (bits := bits) hw
    have h' := h
    unfold Poseidon.secureRoundsUnpadded at h'
    dsimp only at h'
    rw [h0] at h'
    obtain ⟨k, -, hk⟩ := roundsLoop_ends h'
    exact ⟨k, r0, f, r, h0, h, hk⟩

example : ∃ k r, Poseidon.securePartialRounds 7 PoseidonSbox.inverse 3 6 128 = some r ∧
    Ends (partialBody fun r => Poseidon.isAttackable 7 PoseidonSbox.inverse 3 6 r 128) k 0 (some r) :=
  haveI : Fact (Nat.Prime 7) := ⟨by decide⟩
  (C102_poseidon (p := 7) PoseidonSbox.inverse (by decide : 0 < 3) 128).1 6

/-- C102: the same with rounded numbers, for a width and a number of bits which add up to at most
`2 ^ 40`. -/
theorem C102_poseidon_floats (L : Libm) (s : PoseidonSbox) {w bits : ℕ} (hw : 0 < w)
    (hb : bits + w ≤ 2 ^ 40) :
    (∀ f, ∃ k r, L.securePartialRounds p s w f bits = some r ∧
      Ends (partialBody fun r => L.isAttackable p s w f r bits) k 0 (some r)) ∧
    ∃ k r0 f r, L.securePartialRounds p s w 6 bits = some r0 ∧
      L.secureRoundsUnpadded p s w bits = some (f, r) ∧
      Ends (roundsBody w fun f => L.securePartialRounds p s w f bits) k
        (6, (6, r0), 6 * w + r0) (some (f, r)) := by
  constructor
  · intro f
    obtain ⟨r, h, -⟩ := L.securePartialRounds_spec (p := p) (s := s) hw hb f
    obtain ⟨k, -, hk⟩ := libmPartialLoop_ends h
    exact ⟨k, r, h, hk⟩
  · obtain ⟨r0, h0, -⟩ := L.securePartialRounds_spec (p := p) (s := s) hw hb 6
    obtain ⟨f, r, h, -⟩ := L.secureRoundsUnpadded_spec (p := p) (s := s) hw hb
    have h' := h
    unfold Libm.secureRoundsUnpadded at h'
    dsimp only at h'
    rw [h0] at h'
    obtain ⟨k, -, hk⟩ := libmRoundsLoop_ends h'
    exact ⟨k, r0, f, r, h0, h, hk⟩

example (L : Libm) : ∃ k r, L.securePartialRounds 7 PoseidonSbox.inverse 3 6 128 = some r ∧
    Ends (partialBody fun r => L.isAttackable 7 PoseidonSbox.inverse 3 6 r 128) k 0 (some r) :=
  haveI : Fact (Nat.Prime 7) := ⟨by decide⟩
  (C102_poseidon_floats (p := 7) L PoseidonSbox.inverse (w := 3) (bits := 128) (by decide)
    (by norm_num)).1 6

end R1CS
