import Mathlib.Data.Nat.Digits.Defs
import Mathlib.Data.List.Sort
import Verif.Model.Expression

/-!
# Text forms: `Display`, `FromStr`, and src/util.rs

Simplification: a `String` is the list of its characters.
-/

namespace R1CS

variable {p : ℕ} [hp : Fact p.Prime]

/-- `util::concat` (src/util.rs:11-18). -/
def concat {α : Type} (vecs : List (List α)) : List α := vecs.foldl (fun result v => result ++ v) []

/-- `util::join` (src/util.rs:22-31). -/
def join (sep : List Char) (strings : List (List Char)) : List Char :=
  strings.foldl (fun builder s => (if builder.isEmpty then builder else builder ++ sep) ++ s) []

/-- `Display for BigUint` and for `u32` (the `num` crate and the standard library): decimal. -/
def decimal (n : ℕ) : List Char :=
  if n = 0 then ['0'] else (Nat.digits 10 n).reverse.map Nat.digitChar

/-- The value of a decimal digit. -/
def digitValue (c : Char) : Option ℕ :=
  if '0'.toNat ≤ c.toNat ∧ c.toNat ≤ '9'.toNat then some (c.toNat - '0'.toNat) else none

/-- The digits of `BigUint::from_str_radix`, from most to least significant; underscores are
skipped. -/
def parseDigits : List Char → ℕ → Option ℕ
  | [], a => some a
  | c :: cs, a =>
    if c = '_' then parseDigits cs a
    else do
      let d ← digitValue c
      parseDigits cs (10 * a + d)

/-- `BigUint::from_str` of the `num` crate (version 0.2): an optional plus sign, then digits, among
them underscores except at the start.  `none` is `Err`. -/
def parseBigUint (s : List Char) : Option ℕ :=
  let s := match s with
    | '+' :: t => if t.head? = some '+' then s else t
    | _ => s
  if s.isEmpty then none
  else if s.head? = some '_' then none
  else parseDigits s 0

/-- `FromStr for Element` (src/field.rs:200-206): `none` is a panic (in `Element::from`), `some none`
is `Err`. -/
def Elem.fromStr (p : ℕ) (s : List Char) : Option (Option (Elem p)) :=
  match parseBigUint s with
  | none => some none
  | some n => (Elem.ofNat? p n).map some

/-- `Display for Element` (src/field.rs:497-501). -/
def Elem.display (a : Elem p) : List Char := decimal a.n

/-- `Display for Wire` (src/wire.rs:41-49). -/
def Wire.display (k : Wire) : List Char :=
  if k = 0 then ['1'] else "wire_".toList ++ decimal k

/-- One term in `Display for Expression` (src/expression.rs:440-448). -/
def Expression.displayTerm (kv : Wire × Elem p) : List Char :=
  if kv.1 = ONE then kv.2.display
  else if kv.2.isOne then Wire.display kv.1
  else Wire.display kv.1 ++ " * ".toList ++ kv.2.display

/-- `Display for Expression` (src/expression.rs:436-457). -/
def Expression.display (e : Expression p) : List Char :=
  let termStrings := (e.coefficients.insertionSort fun a b => Wire.cmp a.1 b.1 ≠ .gt).map displayTerm
  if termStrings.isEmpty then ['0'] else join " + ".toList termStrings

/-- The factors in `Display for Constraint` (src/constraint.rs:27-37). -/
def Constraint.displayFactor (e : Expression p) : List Char :=
  if 2 ≤ e.numTerms then '(' :: e.display ++ [')'] else e.display

/-- `Display for Constraint` (src/constraint.rs:25-41). -/
def Constraint.display (k : Constraint p) : List Char :=
  displayFactor k.a ++ " * ".toList ++ displayFactor k.b ++ " = ".toList ++ k.c.display

/-- `Debug for BooleanExpression` (src/expression.rs:522-526). -/
def BooleanExpression.debug (x : BooleanExpression p) : List Char :=
  "BooleanExpression[".toList ++ x.expression.display ++ [']']

end R1CS
