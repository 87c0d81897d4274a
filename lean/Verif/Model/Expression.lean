import Verif.Model.Wire

/-!
# Model of `src/expression.rs` and `src/constraint.rs`

A `BTreeMap<K, V>` is an association list in key order.
-/

namespace R1CS

/-- `BTreeMap` as an association list. -/
abbrev BMap (κ ν : Type) := List (κ × ν)

namespace BMap

variable {κ ν : Type}

/-- `BTreeMap::get`: first entry whose key compares equal. -/
def get (cmp : κ → κ → Ordering) (k : κ) : BMap κ ν → Option ν
  | [] => none
  | (k', v) :: m => if cmp k k' = .eq then some v else get cmp k m

/-- `*map.entry(k).or_insert_with(d) = f (..)`: update the entry of `k`, inserting `d` at its
place in key order first if absent. -/
def upsert (cmp : κ → κ → Ordering) (k : κ) (d : ν) (f : ν → ν) : BMap κ ν → BMap κ ν
  | [] => [(k, f d)]
  | (k', v) :: m =>
    match cmp k k' with
    | .lt => (k, f d) :: (k', v) :: m
    | .eq => (k', f v) :: m
    | .gt => (k', v) :: upsert cmp k d f m

/-- `BTreeMap::insert`. -/
def insert (cmp : κ → κ → Ordering) (k : κ) (v : ν) (m : BMap κ ν) : BMap κ ν :=
  upsert cmp k v (fun _ => v) m

/-- `iter.collect::<BTreeMap<_, _>>()`: later entries replace earlier ones. -/
def ofList (cmp : κ → κ → Ordering) (l : List (κ × ν)) : BMap κ ν :=
  l.foldl (fun m kv => insert cmp kv.1 kv.2 m) []

end BMap

variable {p : ℕ} [hp : Fact p.Prime]

/-- `Expression` (src/expression.rs:28-33). -/
@[ext] structure Expression (p : ℕ) where
  coefficients : BMap Wire (Elem p)
  deriving DecidableEq

namespace Expression

omit hp in
/-- `Expression::new` (src/expression.rs:37-42): drops zero coefficients. -/
def new (m : BMap Wire (Elem p)) : Expression p := ⟨m.filter fun kv => kv.2.isNonzero⟩

/-- `sum_of_wires` (src/expression.rs:49-55). -/
def sumOfWires (wires : List Wire) : Expression p :=
  ⟨BMap.ofList Wire.cmp (wires.map fun w => (w, (1 : Elem p)))⟩

/-- `*merged.entry(wire).or_insert_with(Element::zero) += coefficient`
(src/expression.rs:63 and 227). -/
def addEntry (m : BMap Wire (Elem p)) (kv : Wire × Elem p) : BMap Wire (Elem p) :=
  BMap.upsert Wire.cmp kv.1 0 (fun c => c + kv.2) m

/-- `sum_of_expressions` (src/expression.rs:59-67). -/
def sumOfExpressions (es : List (Expression p)) : Expression p :=
  new (es.foldl (fun m e => e.coefficients.foldl addEntry m) [])

omit hp in
/-- `Expression::zero` (src/expression.rs:69-71). -/
def zero : Expression p := ⟨[]⟩

omit hp in
/-- `From<Element>` (src/expression.rs:125-130). -/
def ofElem (c : Elem p) : Expression p := new [(ONE, c)]

/-- `From<Wire>` (src/expression.rs:112-117). -/
def ofWire (w : Wire) : Expression p := new [(w, 1)]

/-- `From<bool>` (src/expression.rs:174-178). -/
def ofBool (b : Bool) : Expression p := ofElem (Elem.ofBool b)

omit hp in
/-- `From<usize>`, `From<u128>`, ... (src/expression.rs:138-172): panics if out of range. -/
def ofNat? (n : ℕ) : Option (Expression p) := (Elem.ofNat? p n).map ofElem

/-- `Expression::one` (src/expression.rs:73-75). -/
def one : Expression p := ofElem 1

/-- `Mul<&Element> for &Expression` (src/expression.rs:314-323).  The keys are unchanged, so
`collect` keeps the list. -/
def mulElem (e : Expression p) (c : Elem p) : Expression p :=
  new (e.coefficients.map fun kv => (kv.1, kv.2 * c))

/-- `Mul<u128> for &Expression` (src/expression.rs:333-342): converts the factor for each
coefficient. -/
def mulNat (e : Expression p) (k : ℕ) : Option (Expression p) :=
  (List.mapM (m := Option) (fun (kv : Wire × Elem p) => (kv.2.mulNat k).map fun x => (kv.1, x)) e.coefficients).map new

/-- `Div<&Element> for &Expression` (src/expression.rs:386-395). -/
def divElem (e : Expression p) (c : Elem p) : Option (Expression p) :=
  (List.mapM (m := Option) (fun (kv : Wire × Elem p) => (kv.2.div c).map fun x => (kv.1, x)) e.coefficients).map new

/-- `Div<u128> for &Expression` (src/expression.rs:405-414). -/
def divNat (e : Expression p) (k : ℕ) : Option (Expression p) :=
  (List.mapM (m := Option) (fun (kv : Wire × Elem p) => (kv.2.divNat k).map fun x => (kv.1, x)) e.coefficients).map new

/-- `Neg for &Expression` (src/expression.rs:180-186). -/
def neg (e : Expression p) : Expression p := e.mulElem (-1)

/-- `Add<&Expression> for &Expression` (src/expression.rs:220-231). -/
def add (a b : Expression p) : Expression p :=
  new (b.coefficients.foldl addEntry a.coefficients)

/-- `Sub<&Expression> for &Expression` (src/expression.rs:270-276). -/
def sub (a b : Expression p) : Expression p := add a (neg b)

instance : Zero (Expression p) := ⟨zero⟩
instance : One (Expression p) := ⟨one⟩
instance : Neg (Expression p) := ⟨neg⟩
instance : Add (Expression p) := ⟨add⟩
instance : Sub (Expression p) := ⟨sub⟩

/-- `neg_one` (src/expression.rs:78-80). -/
def negOne : Expression p := -(1 : Expression p)

omit hp in
/-- `num_terms` (src/expression.rs:82-84). -/
def numTerms (e : Expression p) : ℕ := e.coefficients.length

omit hp in
/-- `as_constant` (src/expression.rs:87-93). -/
def asConstant (e : Expression p) : Option (Elem p) :=
  if e.numTerms = 1 then BMap.get Wire.cmp ONE e.coefficients else none

omit hp in
/-- `dependencies` (src/expression.rs:96-98). -/
def dependencies (e : Expression p) : List Wire := e.coefficients.map (·.1)

/-- `evaluate` (src/expression.rs:100-103). -/
def evaluate (e : Expression p) (v : WireValues p) : Option (Elem p) :=
  e.coefficients.foldlM (fun sum kv => do
    let x ← v.get kv.1
    return sum + x * kv.2) 0

end Expression

/-- `BooleanExpression` (src/expression.rs:460-471). -/
@[ext] structure BooleanExpression (p : ℕ) where
  expression : Expression p
  deriving DecidableEq

namespace BooleanExpression

/-- `From<bool>` (src/expression.rs:516-520). -/
def ofBool (b : Bool) : BooleanExpression p := ⟨Expression.ofBool b⟩

/-- `_false` (src/expression.rs:473-475). -/
def false : BooleanExpression p := ofBool Bool.false

/-- `_true` (src/expression.rs:477-479). -/
def true : BooleanExpression p := ofBool Bool.true

/-- `From<BooleanWire>` (src/expression.rs:504-514). -/
def ofWire (w : BooleanWire) : BooleanExpression p := ⟨Expression.ofWire w.wire⟩

omit hp in
/-- `dependencies` (src/expression.rs:485-487). -/
def dependencies (b : BooleanExpression p) : List Wire := b.expression.dependencies

/-- `evaluate` (src/expression.rs:489-495): panics unless 0 or 1. -/
def evaluate (b : BooleanExpression p) (v : WireValues p) : Option Bool := do
  let x ← b.expression.evaluate v
  if x.isZero then return Bool.false
  else if x.isOne then return Bool.true
  else none

end BooleanExpression

/-- `BinaryExpression` (src/expression.rs:528-537): least significant bit first. -/
@[ext] structure BinaryExpression (p : ℕ) where
  bits : List (BooleanExpression p)
  deriving DecidableEq

/-- Insertion of a key in a `BTreeSet<Wire>`. -/
def insertWire (w : Wire) (s : BMap Wire Unit) : BMap Wire Unit := BMap.insert Wire.cmp w () s

/-- `slice::chunks` (used at src/expression.rs:580-584, src/sponge.rs): consecutive pieces of
length `k`, the last one possibly shorter.  Panics for `k = 0`. -/
def chunksOf {α : Type} (k : ℕ) (l : List α) : List (List α) :=
  go l.length l
where
  /-- The fuel is the length of the list; each step consumes `k` elements. -/
  go : ℕ → List α → List (List α)
    | 0, _ => []
    | _ + 1, [] => []
    | fuel + 1, x :: xs => (x :: xs).take k :: go fuel ((x :: xs).drop k)

/-- `slice::chunks` with its panic for a chunk size of 0. -/
def chunks? {α : Type} (k : ℕ) (l : List α) : Option (List (List α)) :=
  if k = 0 then none else some (chunksOf k l)

namespace BinaryExpression

omit hp in
/-- `len` (src/expression.rs:542-544). -/
def len (e : BinaryExpression p) : ℕ := e.bits.length

omit hp in
/-- `BinaryExpression::zero` (src/expression.rs:546-548). -/
def zero : BinaryExpression p := ⟨[]⟩

omit hp in
/-- `truncate` / `truncated` (src/expression.rs:552-563): panics if longer than the input. -/
def truncated (e : BinaryExpression p) (l : ℕ) : Option (BinaryExpression p) :=
  if l ≤ e.len then some ⟨e.bits.take l⟩ else none

/-- `pad` / `padded` (src/expression.rs:566-578): panics if shorter than the input. -/
def padded (e : BinaryExpression p) (l : ℕ) : Option (BinaryExpression p) :=
  if e.len ≤ l then some ⟨e.bits ++ List.replicate (l - e.len) BooleanExpression.false⟩ else none

omit hp in
/-- `chunks` (src/expression.rs:580-584). -/
def chunks (e : BinaryExpression p) (k : ℕ) : Option (List (BinaryExpression p)) :=
  (chunks? k e.bits).map fun cs => cs.map fun c => ⟨c⟩

omit hp in
/-- `add_most_significant` (src/expression.rs:586-588). -/
def addMostSignificant (e : BinaryExpression p) (b : BooleanExpression p) : BinaryExpression p :=
  ⟨e.bits ++ [b]⟩

/-- The fold of `join_allowing_overflow` (src/expression.rs:601-602), from bit `i` on:
`sum + bit * (Element::one() << i)`; the shift panics when `2^i` is not below the order. -/
def joinFrom : ℕ → Expression p → List (BooleanExpression p) → Option (Expression p)
  | _, sum, [] => some sum
  | i, sum, b :: bs => do
    let c ← (1 : Elem p).shl i
    joinFrom (i + 1) (sum + b.expression.mulElem c) bs

/-- `join_allowing_overflow` (src/expression.rs:600-603). -/
def joinAllowingOverflow (e : BinaryExpression p) : Option (Expression p) :=
  joinFrom 0 Expression.zero e.bits

/-- `join` (src/expression.rs:592-596). -/
def join (e : BinaryExpression p) : Option (Expression p) :=
  if 1 <<< e.len ≤ p then e.joinAllowingOverflow else none

omit hp in
/-- `dependencies` (src/expression.rs:605-611): through a `BTreeSet`, hence sorted and without
repetitions. -/
def dependencies (e : BinaryExpression p) : List Wire :=
  (e.bits.foldl (fun s b => b.dependencies.foldl (fun s w => insertWire w s) s) []).map (·.1)

/-- The fold of `evaluate` (src/expression.rs:613-616), from bit `i` on. -/
def evaluateFrom (v : WireValues p) : ℕ → ℕ → List (BooleanExpression p) → Option ℕ
  | _, sum, [] => some sum
  | i, sum, b :: bs => do
    let x ← b.evaluate v
    evaluateFrom v (i + 1) (if x then sum + 1 <<< i else sum) bs

/-- `evaluate` (src/expression.rs:613-616). -/
def evaluate (e : BinaryExpression p) (v : WireValues p) : Option ℕ := evaluateFrom v 0 0 e.bits

omit hp in
/-- `concat` (src/expression.rs:618-621). -/
def concat (es : List (BinaryExpression p)) : BinaryExpression p := ⟨(es.map (·.bits)).flatten⟩

/-- `From<BinaryWire>` (src/expression.rs:630-644). -/
def ofWire (w : BinaryWire) : BinaryExpression p := ⟨w.bits.map BooleanExpression.ofWire⟩

/-- `From<BigUint>` (src/expression.rs:646-655). -/
def ofNat (value : ℕ) : BinaryExpression p :=
  ⟨(List.range value.size).map fun i => BooleanExpression.ofBool ((value >>> i) &&& 1 == 1)⟩

end BinaryExpression

/-- `Constraint` (src/constraint.rs:8-14): `a * b = c`. -/
structure Constraint (p : ℕ) where
  a : Expression p
  b : Expression p
  c : Expression p

/-- `Constraint::evaluate` (src/constraint.rs:17-22). -/
def Constraint.evaluate (k : Constraint p) (v : WireValues p) : Option Bool := do
  let a ← k.a.evaluate v
  let b ← k.b.evaluate v
  let c ← k.c.evaluate v
  return decide (a * b = c)

end R1CS
