import Verif.Model.Builder
import Verif.Model.BinaryOps
import Verif.Model.Permutation
import Verif.Model.Permutations
import Verif.Model.Hashes
import Verif.Model.Lcg
import Verif.Model.Matrices
import Verif.Model.Rounds
import Verif.Model.Floats

/-!
# Loops without a bound

Lean's functions end, so that the model's loops carry a number of iterations after which they give up
(with `none`, which elsewhere stands for a panic).  Here are the loops of the code as they are written
there, without any such number: the body of each loop, and what it means to run a body again and again.
C102 compares the two.
-/

namespace R1CS

namespace Loop

variable {σ ρ : Type*}

/-- What a loop with a given body does from the state `s`, when it comes to an end after `n` iterations
which were followed by another one.  One iteration of the body panics (`none`), goes on with a new state
(`Sum.inl`), or leaves the loop with a result (`Sum.inr`).  The outcome is `none` for a panic. -/
inductive Ends (body : σ → Option (σ ⊕ ρ)) : ℕ → σ → Option ρ → Prop
  | panics {s : σ} : body s = none → Ends body 0 s none
  | leaves {s : σ} {r : ρ} : body s = some (Sum.inr r) → Ends body 0 s (some r)
  | goesOn {s s' : σ} {n : ℕ} {o : Option ρ} :
      body s = some (Sum.inl s') → Ends body n s' o → Ends body (n + 1) s o

/-- The loop never ends: there is an infinite sequence of states each of which follows from the one
before it. -/
def Forever (body : σ → Option (σ ⊕ ρ)) (s : σ) : Prop :=
  ∃ f : ℕ → σ, f 0 = s ∧ ∀ n, body (f n) = some (Sum.inl (f (n + 1)))

variable {p : ℕ} [hp : Fact p.Prime]

omit hp in
/-- One turn of the loop of `execute` (src/gadget.rs:31-46): go through the pending generators. -/
def passBody (s : List (WitnessGenerator p) × WireValues p) :
    Option ((List (WitnessGenerator p) × WireValues p) ⊕
      (List (WitnessGenerator p) × WireValues p)) := do
  let (pending, values, madeProgress) ← Gadget.pass s.1 s.2
  if madeProgress then return Sum.inl (pending, values) else return Sum.inr (pending, values)

/-- `while 1 << bits < items.len() { bits += 1 }` (src/random_access.rs:24-26). -/
def indexBitsBody (len bits : ℕ) : Option (ℕ ⊕ ℕ) :=
  if 1 <<< bits < len then some (Sum.inl (bits + 1)) else some (Sum.inr bits)

/-- The loop of `is_prime` (src/field.rs:124-131), over the divisor. -/
def isPrimeBody (x divisor : Elem p) : Option (Elem p ⊕ Bool) :=
  if (divisor * divisor).n ≤ x.n then do
    let r ← x.integerModulus divisor
    if r.isZero then return Sum.inr false else return Sum.inl (divisor + 1)
  else some (Sum.inr true)

/-- The inner loop of `smallest_alpha` (src/rescue.rs:127-129). -/
def nextPrimeBody (alpha : Elem p) : Option (Elem p ⊕ Elem p) := do
  let prime ← alpha.isPrime
  if prime then return Sum.inr alpha else return Sum.inl (alpha + 1)

/-- Both loops of `smallest_alpha` (src/rescue.rs:124-130): the Boolean says whether we are in the
inner one, `alpha` being increased until it is prime. -/
def alphaBody (s : Bool × Elem p) : Option ((Bool × Elem p) ⊕ Elem p) :=
  if s.1 then do
    let prime ← s.2.isPrime
    if prime then return Sum.inl (false, s.2) else return Sum.inl (true, s.2 + 1)
  else if ((Elem.largestElement : Elem p).gcd s.2).isOne then some (Sum.inr s.2)
  else some (Sum.inl (true, s.2 + 1))

/-- The loop of `next_biguint` (src/lcg.rs:34-39). -/
def drawBody (limit bits : ℕ) (g : LCG) : Option (LCG ⊕ (ℕ × LCG)) :=
  let (n, g) := g.nextBiguintBits bits
  if n < limit then some (Sum.inr (n, g)) else some (Sum.inl g)

/-- The search for the exponent of an `n`-th root (src/permutations.rs:54-59); `is_multiple_of(0)`
panics. -/
def exponentBody (p n exponentTimesN : ℕ) : Option (ℕ ⊕ ℕ) :=
  if n = 0 then none
  else
    let e := exponentTimesN + (p - 1)
    if n ∣ e then some (Sum.inr (e / n)) else some (Sum.inl e)

/-- The state of the squeezing loop: both sections, the outputs and the builder. -/
structure Squeezing (p : ℕ) where
  input : List (Expression p)
  capacity : List (Expression p)
  outputs : List (Expression p)
  builder : Builder p

/-- The squeezing loop of `Sponge::evaluate` (src/sponge.rs:66-76). -/
def squeezeBody (sp : Sponge p) (outputLen : ℕ) (s : Squeezing p) :
    Option (Squeezing p ⊕ (List (Expression p) × Builder p)) :=
  if s.outputs.length < outputLen then do
    let (new, builder) ← sp.permutation.permute (s.input ++ s.capacity) s.builder
    if (s.input ++ s.capacity).length = new.length ∧ sp.bitrate ≤ new.length then
      return Sum.inl ⟨new.take sp.bitrate, new.drop sp.bitrate, s.outputs ++ new.take sp.bitrate,
        builder⟩
    else none
  else some (Sum.inr (s.outputs, s.builder))

/-- The inner scan of `route` (src/verify_permutation.rs:231-234), over the index. -/
def scanBody (switches : List BooleanWire) (values : WireValues p) (i : ℕ) : Option (ℕ ⊕ ℕ) :=
  if h : i < switches.length then
    if values.containsBoolean switches[i] then some (Sum.inl (i + 1)) else some (Sum.inr i)
  else some (Sum.inr i)

/-- The main loop of `route` (src/verify_permutation.rs:219-242). -/
def routeBody (abMap : BiMap) (switches : Bool → List BooleanWire) (st : RouteState p) :
    Option (RouteState p ⊕ RouteState p) :=
  if st.scanIndex false < (switches false).length ∨ st.scanIndex true < (switches true).length then do
    let st ← routeSide abMap switches false st
    let st ← routeSide abMap switches true st
    return Sum.inl st
  else some (Sum.inr st)

/-- The loop of `secure_partial_rounds_unpadded` (src/poseidon.rs:237-243), over the number of partial
rounds, for any way to decide whether the rounds are attackable. -/
def partialBody (attackable : ℕ → Option Bool) (partial_ : ℕ) : Option (ℕ ⊕ ℕ) := do
  let a ← attackable partial_
  if a then return Sum.inl (partial_ + 1) else return Sum.inr partial_

/-- The loop of `secure_num_rounds_unpadded` (src/poseidon.rs:212-229) over the number of full rounds,
the best numbers of full and partial rounds, and their number of S-boxes; `partialRounds` is
`secure_partial_rounds_unpadded`. -/
def roundsBody (width : ℕ) (partialRounds : ℕ → Option ℕ) (s : ℕ × (ℕ × ℕ) × ℕ) :
    Option ((ℕ × (ℕ × ℕ) × ℕ) ⊕ (ℕ × ℕ)) := do
  let full := s.1 + 2
  let partial_ ← partialRounds full
  let sboxes := full * width + partial_
  if s.2.2 < sboxes then return Sum.inr s.2.1
  else return Sum.inl (full, (full, partial_), sboxes)

end Loop

end R1CS
