import Verif.Spec.Language
import Mathlib.Algebra.BigOperators.Group.Finset.Basic

/-!
# Specification vocabulary: what can be said about straight-line code without running it

The kinds of the operands and the lengths of digit strings suffice to tell whether a gadget can be
built, what it returns, and how many constraints it adds at most.  `plan` calculates with these
forms only: it knows neither wires nor values nor which operands are constants.
-/

namespace R1CS

variable {p : ℕ} [hp : Fact p.Prime]

/-- The form of an object: its kind and, for a digit string, the number of digits. -/
inductive Form where
  | expr
  | bool
  | bits (n : ℕ)
  deriving DecidableEq

/-- The form of an object. -/
def Obj.form : Obj p → Form
  | .expr _ => .expr
  | .bool _ => .bool
  | .bin e => .bits e.bits.length

/-- The form of a value. -/
def Val.form : Val p → Form
  | .elem _ => .expr
  | .bool _ => .bool
  | .bits l => .bits l.length

namespace Plan

open Language

/-- It is the form of an expression. -/
def expr? : Form → Option Unit
  | .expr => some ()
  | _ => none

/-- It is the form of a boolean expression. -/
def bool? : Form → Option Unit
  | .bool => some ()
  | _ => none

/-- The number of digits. -/
def bits? : Form → Option ℕ
  | .bits n => some n
  | _ => none

/-- The least number of constraints of a strict comparison of `n` digits with chunks of 1 to `N - 1`
digits: three for each chunk, one for each digit of a chunk, and two. -/
def comparison (N n : ℕ) : ℕ :=
  ((List.range (N - 1)).map fun c => 3 * ((n + c) / (c + 1)) + (c + 1)).foldr min (3 * n + 1) + 2

/-- Two digit strings can be compared (see `Comparable`). -/
def comparable (N n k : ℕ) : Prop :=
  n = k ∧ n ≠ 0 ∧ ∃ c, c < N - 1 ∧ 1 ≤ c ∧
    3 * ((n + c - 1) / c) + c ≤ 3 * ((n + (N - 1) - 1) / (N - 1)) + (N - 1)

instance (N n k : ℕ) : Decidable (comparable N n k) := by
  unfold comparable; infer_instance

/-- The constraints of a comparison of elements of `N` digits: both are split, one of them with a
check that it is below the order, and compared. -/
def elements (N : ℕ) : ℕ := 2 * (N + 1) + (comparison N N + 1) + comparison N N

/-- The constraints of a permutation network: two for each switch, one for each item. -/
def network (n : ℕ) : ℕ := 2 * (∑ i ∈ Finset.range n, Nat.clog 2 (i + 1)) + n

/-- The constraints of sorting `n` items: a network, a split of each item, a check that the last one
is below the order, and comparisons of neighbours. -/
def sorting (N n : ℕ) : ℕ :=
  network n + (n * (N + 1) + (comparison N N + 1)) + (n - 1) * (comparison N N + 2 + 1)

/-- The number of digits of the largest possible sum of strings with the given numbers of digits. -/
def sumWidth (ns : List ℕ) : ℕ := (ns.map fun n => 2 ^ n - 1).sum.size

/-- The constraints of a scalar multiplication: a split, and for each digit two selections, an
addition and a doubling. -/
def multiple (N : ℕ) : ℕ := N + 1 + 10 * N

/-- An operand of each kind. -/
def onPointBool {β : Type} (r : β) : List Form → Option β
  | [.expr, .expr, .bool] => some r
  | _ => none

/-- An expression, digits, and as many expressions. -/
def onPath {β : Type} (f : ℕ → β) : List Form → Option β
  | .expr :: .bits n :: ss => ss.mapM expr? >>= fun us => if n = us.length then some (f n) else none
  | _ => none

/-- Two expressions, digits, and as many expressions. -/
def onPath2 {β : Type} (f : ℕ → β) : List Form → Option β
  | .expr :: .expr :: .bits n :: ss =>
    ss.mapM expr? >>= fun us => if n = us.length then some (f n) else none
  | _ => none

end Plan

open Language Plan

namespace Op

/-- The forms of the results of the gadget and the most constraints it can add, for operands of the
given forms; `none` if it panics.  `cost` gives the constraints of the implementations which are
parameters of a gadget. -/
def plan (cost : Op p → ℕ) : Op p → List Form → Option (List Form × ℕ)
  | const _, _ => some ([.expr], 0)
  | constBool _, _ => some ([.bool], 0)
  | constBits n, _ => some ([.bits n.size], 0)
  | add, ss => ss.mapM Plan.expr? >>= fun2 fun _ _ => some ([.expr], 0)
  | sub, ss => ss.mapM Plan.expr? >>= fun2 fun _ _ => some ([.expr], 0)
  | neg, ss => ss.mapM Plan.expr? >>= fun1 fun _ => some ([.expr], 0)
  | scale _, ss => ss.mapM Plan.expr? >>= fun1 fun _ => some ([.expr], 0)
  | product, ss => ss.mapM Plan.expr? >>= fun2 fun _ _ => some ([.expr], 1)
  | exp k, ss => ss.mapM Plan.expr? >>= fun1 fun _ => some ([.expr],
      (k.n.size - 1) + ((List.range k.n.size).countP (fun j => k.n.testBit j) - 1))
  | inverse, ss => ss.mapM Plan.expr? >>= fun1 fun _ => some ([.expr], 1)
  | quotient, ss => ss.mapM Plan.expr? >>= fun2 fun _ _ => some ([.expr], 2)
  | inverseOrZero, ss => ss.mapM Plan.expr? >>= fun1 fun _ => some ([.expr], 3)
  | quotientUnsafe, ss => ss.mapM Plan.expr? >>= fun2 fun _ _ => some ([.expr], 0)
  | nonzero, ss => ss.mapM Plan.expr? >>= fun1 fun _ => some ([.bool], 2)
  | zero, ss => ss.mapM Plan.expr? >>= fun1 fun _ => some ([.bool], 2)
  | equal, ss => ss.mapM Plan.expr? >>= fun2 fun _ _ => some ([.bool], 2)
  | assertEqual, ss => ss.mapM Plan.expr? >>= fun2 fun _ _ => some ([], 1)
  | assertNonequal, ss => ss.mapM Plan.expr? >>= fun2 fun _ _ => some ([], 1)
  | assertZero, ss => ss.mapM Plan.expr? >>= fun1 fun _ => some ([], 1)
  | assertNonzero, ss => ss.mapM Plan.expr? >>= fun1 fun _ => some ([], 1)
  | assertProduct, ss => ss.mapM Plan.expr? >>= fun3 fun _ _ _ => some ([], 1)
  | assertBoolean, ss => ss.mapM Plan.expr? >>= fun1 fun _ => some ([.bool], 1)
  | lt, ss => ss.mapM Plan.expr? >>= fun2 fun _ _ => some ([.bool], elements (Elem.maxBits p))
  | le, ss => ss.mapM Plan.expr? >>= fun2 fun _ _ => some ([.bool], elements (Elem.maxBits p) + 2)
  | gt, ss => ss.mapM Plan.expr? >>= fun2 fun _ _ => some ([.bool], elements (Elem.maxBits p))
  | ge, ss => ss.mapM Plan.expr? >>= fun2 fun _ _ => some ([.bool], elements (Elem.maxBits p) + 2)
  | assertLt, ss => ss.mapM Plan.expr? >>= fun2 fun _ _ => some ([], elements (Elem.maxBits p) + 1)
  | assertLe, ss => ss.mapM Plan.expr? >>= fun2 fun _ _ => some ([], elements (Elem.maxBits p) + 3)
  | assertGt, ss => ss.mapM Plan.expr? >>= fun2 fun _ _ => some ([], elements (Elem.maxBits p) + 1)
  | assertGe, ss => ss.mapM Plan.expr? >>= fun2 fun _ _ => some ([], elements (Elem.maxBits p) + 3)
  | modulus, ss => ss.mapM Plan.expr? >>= fun2 fun _ _ => some ([.expr], elements (Elem.maxBits p) + 2)
  | divides, ss => ss.mapM Plan.expr? >>= fun2 fun _ _ => some ([.bool], elements (Elem.maxBits p) + 4)
  | split, ss => ss.mapM Plan.expr? >>= fun1 fun _ => some ([.bits (Elem.maxBits p)],
      Elem.maxBits p + 1 + (comparison (Elem.maxBits p) (Elem.maxBits p) + 1))
  | splitAllowingAmbiguity, ss => ss.mapM Plan.expr? >>= fun1 fun _ =>
      some ([.bits (Elem.maxBits p)], Elem.maxBits p + 1)
  | splitBounded k, ss => ss.mapM Plan.expr? >>= fun1 fun _ =>
      if k < Elem.maxBits p then some ([.bits k], k + 1) else none
  | join, ss => ss.mapM Plan.bits? >>= fun1 fun n => if 2 ^ n ≤ p then some ([.expr], 0) else none
  | joinAllowingOverflow, ss => ss.mapM Plan.bits? >>= fun1 fun n =>
      if n ≤ Elem.maxBits p then some ([.expr], 0) else none
  | cmpBinary r, ss => ss.mapM Plan.bits? >>= fun2 fun n k =>
      if comparable (Elem.maxBits p) n k then
        some ([.bool], comparison (Elem.maxBits p) n + if r = .lt ∨ r = .gt then 0 else 2)
      else none
  | assertCmpBinary r, ss => ss.mapM Plan.bits? >>= fun2 fun n k =>
      if comparable (Elem.maxBits p) n k then
        some ([], comparison (Elem.maxBits p) n + (if r = .lt ∨ r = .gt then 0 else 2) + 1)
      else none
  | not, ss => ss.mapM Plan.bool? >>= fun1 fun _ => some ([.bool], 0)
  | and, ss => ss.mapM Plan.bool? >>= fun2 fun _ _ => some ([.bool], 1)
  | or, ss => ss.mapM Plan.bool? >>= fun2 fun _ _ => some ([.bool], 1)
  | xor, ss => ss.mapM Plan.bool? >>= fun2 fun _ _ => some ([.bool], 1)
  | assertTrue, ss => ss.mapM Plan.bool? >>= fun1 fun _ => some ([], 1)
  | assertFalse, ss => ss.mapM Plan.bool? >>= fun1 fun _ => some ([], 1)
  | select, ss => if ss = [.bool, .expr, .expr] then some ([.expr], 1) else none
  | toExpr, ss => ss.mapM Plan.bool? >>= fun1 fun _ => some ([.expr], 0)
  | pack, ss => ss.mapM Plan.bool? >>= fun us => some ([.bits us.length], 0)
  | unpack, ss => ss.mapM Plan.bits? >>= fun1 fun n => some (List.replicate n .bool, 0)
  | bitwiseNot, ss => ss.mapM Plan.bits? >>= fun1 fun n => some ([.bits n], 0)
  | bitwiseAnd, ss => ss.mapM Plan.bits? >>= fun2 fun n k =>
      if n = k then some ([.bits n], n) else none
  | bitwiseOr, ss => ss.mapM Plan.bits? >>= fun2 fun n k =>
      if n = k then some ([.bits n], n) else none
  | bitwiseXor, ss => ss.mapM Plan.bits? >>= fun2 fun n k =>
      if n = k then some ([.bits n], n) else none
  | rotateInc _, ss => ss.mapM Plan.bits? >>= fun1 fun n => some ([.bits n], 0)
  | rotateDec _, ss => ss.mapM Plan.bits? >>= fun1 fun n => some ([.bits n], 0)
  | shiftInc _, ss => ss.mapM Plan.bits? >>= fun1 fun n => some ([.bits n], 0)
  | shiftDec k, ss => ss.mapM Plan.bits? >>= fun1 fun n =>
      if k ≤ n ∨ n = 0 then some ([.bits n], 0) else none
  | binarySum, ss => ss.mapM Plan.bits? >>= fun ns =>
      if Plan.sumWidth ns < Elem.maxBits p then
        some ([.bits (Plan.sumWidth ns)], Plan.sumWidth ns + 1) else none
  | binarySumIgnoringOverflow, ss => ss.mapM Plan.bits? >>= fun ns =>
      if Plan.sumWidth ns < Elem.maxBits p then
        some ([.bits (ns.foldr max 0)], Plan.sumWidth ns + 1) else none
  | binarySumAssertingNoOverflow, ss => ss.mapM Plan.bits? >>= fun ns =>
      if Plan.sumWidth ns < Elem.maxBits p then
        some ([.bits (ns.foldr max 0)], Plan.sumWidth ns + 1 +
          (Plan.sumWidth ns - ns.foldr max 0 + (Elem.maxBits p - 1) - 1) / (Elem.maxBits p - 1))
      else none
  | binaryAssertZero, ss => ss.mapM Plan.bits? >>= fun1 fun n =>
      some ([], (n + (Elem.maxBits p - 1) - 1) / (Elem.maxBits p - 1))
  | randomAccess, ss => ss.mapM Plan.expr? >>= funList fun _ us =>
      if Nat.clog 2 us.length < Elem.maxBits p ∧ us ≠ [] then
        some ([.expr], Nat.clog 2 us.length + 1 + (us.length - 1)) else none
  | assertPermutation k, ss => ss.mapM Plan.expr? >>= fun us =>
      if (us.take k).length = (us.drop k).length then some ([], network (us.drop k).length) else none
  | sortAscending, ss => ss.mapM Plan.expr? >>= fun us => if us = [] then none else
      some (List.replicate us.length .expr, sorting (Elem.maxBits p) us.length)
  | sortDescending, ss => ss.mapM Plan.expr? >>= fun us => if us = [] then none else
      some (List.replicate us.length .expr, sorting (Elem.maxBits p) us.length)
  | function k m f hs hc ht, ss => ss.mapM Plan.expr? >>= fun us =>
      if us.length = k then
        some (List.replicate (f (List.replicate k 0)).length .expr, cost (function k m f hs hc ht))
      else none
  | edwardsNew _, ss => ss.mapM Plan.expr? >>= fun2 fun _ _ => some ([.expr, .expr], 4)
  | edwardsAdd _, ss => ss.mapM Plan.expr? >>= fun4 fun _ _ _ _ => some ([.expr, .expr], 5)
  | edwardsDouble _, ss => ss.mapM Plan.expr? >>= fun2 fun _ _ => some ([.expr, .expr], 3)
  | edwardsMulBoolean _, ss => onPointBool ([.expr, .expr], 2) ss
  | edwardsMulScalar _, ss => ss.mapM Plan.expr? >>= fun3 fun _ _ _ =>
      some ([.expr, .expr], multiple (Elem.maxBits p))
  | schnorrVerify C G h, ss => ss.mapM Plan.expr? >>= fun5 fun _ _ _ _ _ =>
      some ([], 2 * multiple (Elem.maxBits p) + 5 + cost (schnorrVerify C G h) + 1)
  | merkleRoot h, ss => onPath (fun n => ([.expr], (cost (merkleRoot h) + 1) * n)) ss
  | assertMembership h, ss => onPath2 (fun n => ([], (cost (assertMembership h) + 1) * n + 1)) ss

/-- For the gadgets with a parameter: the implementation given never panics, returns as many results
as the function it implements, and adds at most `cost` constraints. -/
def Known (cost : Op p → ℕ) : Op p → Prop
  | function k m f hs hc ht => ∀ xs : List (Expression p), xs.length = k → ∀ b, ∃ ys b',
      m xs b = some (ys, b') ∧ ys.length = (f (List.replicate k 0)).length ∧
      b'.constraints.length ≤ b.constraints.length + cost (function k m f hs hc ht)
  | schnorrVerify C G h => ∀ (x y : Expression p) b, ∃ z b', h.code.compress x y b = some (z, b') ∧
      b'.constraints.length ≤ b.constraints.length + cost (schnorrVerify C G h)
  | merkleRoot h => ∀ (x y : Expression p) b, ∃ z b', h.code.compress x y b = some (z, b') ∧
      b'.constraints.length ≤ b.constraints.length + cost (merkleRoot h)
  | assertMembership h => ∀ (x y : Expression p) b, ∃ z b', h.code.compress x y b = some (z, b') ∧
      b'.constraints.length ≤ b.constraints.length + cost (assertMembership h)
  | _ => True

end Op

namespace Circuit

/-- The forms after one instruction, and the constraints it adds. -/
def stepPlan (cost : Op p → ℕ) (i : Op p × List ℕ) (ss : List Form) : Option (List Form × ℕ) := do
  let args ← i.2.mapM fun j => ss[j]?
  let r ← i.1.plan cost args
  return (ss ++ r.1, r.2)

/-- The forms after all instructions, and the constraints they add. -/
def planFrom (cost : Op p → ℕ) : Circuit p → List Form → Option (List Form × ℕ)
  | [], ss => some (ss, 0)
  | i :: c, ss => do
    let r ← stepPlan cost i ss
    let r' ← planFrom cost c r.1
    return (r'.1, r.2 + r'.2)

/-- The plan of the circuit with `k` inputs. -/
def plan (cost : Op p → ℕ) (k : ℕ) (c : Circuit p) : Option (List Form × ℕ) :=
  planFrom cost c (List.replicate k .expr)

/-- The implementations which are parameters of the gadgets are as `cost` says. -/
def Known (cost : Op p → ℕ) (c : Circuit p) : Prop := ∀ i ∈ c, i.1.Known cost

end Circuit

end R1CS
