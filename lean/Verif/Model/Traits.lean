import Verif.Model.Builder

/-!
# Model of `src/gadget_traits.rs`

A trait with builder methods is a structure of functions in the builder monad; `&self` is what the
functions close over.
-/

namespace R1CS

variable {p : ℕ} [hp : Fact p.Prime]

/-- The common body of the provided `*_evaluate` methods (src/gadget_traits.rs:20-27, 31-38, 49-55,
65-71, 78-84, 98-105, 113-120, 129-136): run the gadget on a new builder, execute the built gadget
on `WireValues::new()` (ignoring the returned boolean) and evaluate the result. -/
def evaluateGadget {α β : Type} (m : B p α) (evaluate : α → WireValues p → Option β) :
    Option β := do
  let (a, b) ← m Builder.new
  let (v, _) ← b.build.execute WireValues.new
  evaluate a v

/-- Trait `BlockCipher` (src/gadget_traits.rs:9-39), arguments `key`, `input`. -/
structure BlockCipher (p : ℕ) where
  encrypt : Expression p → Expression p → B p (Expression p)
  decrypt : Expression p → Expression p → B p (Expression p)

/-- `BlockCipher::encrypt_evaluate` (src/gadget_traits.rs:20-27). -/
def BlockCipher.encryptEvaluate (c : BlockCipher p) (key input : Elem p) : Option (Elem p) :=
  evaluateGadget (c.encrypt (Expression.ofElem key) (Expression.ofElem input)) Expression.evaluate

/-- `BlockCipher::decrypt_evaluate` (src/gadget_traits.rs:31-38). -/
def BlockCipher.decryptEvaluate (c : BlockCipher p) (key output : Elem p) : Option (Elem p) :=
  evaluateGadget (c.decrypt (Expression.ofElem key) (Expression.ofElem output)) Expression.evaluate

/-- Trait `CompressionFunction` (src/gadget_traits.rs:42-56). -/
structure CompressionFunction (p : ℕ) where
  compress : Expression p → Expression p → B p (Expression p)

/-- `CompressionFunction::compress_evaluate` (src/gadget_traits.rs:49-55). -/
def CompressionFunction.compressEvaluate (c : CompressionFunction p) (x y : Elem p) :
    Option (Elem p) :=
  evaluateGadget (c.compress (Expression.ofElem x) (Expression.ofElem y)) Expression.evaluate

/-- Trait `Permutation` (src/gadget_traits.rs:59-85). -/
structure Permutation (p : ℕ) where
  permute : Expression p → B p (Expression p)
  inverse : Expression p → B p (Expression p)

/-- `Permutation::permute_evaluate` (src/gadget_traits.rs:65-71). -/
def Permutation.permuteEvaluate (f : Permutation p) (x : Elem p) : Option (Elem p) :=
  evaluateGadget (f.permute (Expression.ofElem x)) Expression.evaluate

/-- `Permutation::inverse_evaluate` (src/gadget_traits.rs:78-84). -/
def Permutation.inverseEvaluate (f : Permutation p) (x : Elem p) : Option (Elem p) :=
  evaluateGadget (f.inverse (Expression.ofElem x)) Expression.evaluate

/-- Trait `MultiPermutation` (src/gadget_traits.rs:88-121). -/
structure MultiPermutation (p : ℕ) where
  width : ℕ
  permute : List (Expression p) → B p (List (Expression p))
  inverse : List (Expression p) → B p (List (Expression p))

/-- Evaluation of a list of expressions (src/gadget_traits.rs:104, 119). -/
def evaluateList (es : List (Expression p)) (v : WireValues p) : Option (List (Elem p)) :=
  es.mapM fun e => e.evaluate v

/-- `MultiPermutation::permute_evaluate` (src/gadget_traits.rs:98-105). -/
def MultiPermutation.permuteEvaluate (f : MultiPermutation p) (xs : List (Elem p)) :
    Option (List (Elem p)) :=
  evaluateGadget (f.permute (xs.map Expression.ofElem)) evaluateList

/-- `MultiPermutation::inverse_evaluate` (src/gadget_traits.rs:113-120). -/
def MultiPermutation.inverseEvaluate (f : MultiPermutation p) (xs : List (Elem p)) :
    Option (List (Elem p)) :=
  evaluateGadget (f.inverse (xs.map Expression.ofElem)) evaluateList

/-- Trait `HashFunction` (src/gadget_traits.rs:124-137). -/
structure HashFunction (p : ℕ) where
  hash : List (Expression p) → B p (Expression p)

/-- `HashFunction::hash_evaluate` (src/gadget_traits.rs:129-136). -/
def HashFunction.hashEvaluate (h : HashFunction p) (blocks : List (Elem p)) : Option (Elem p) :=
  evaluateGadget (h.hash (blocks.map Expression.ofElem)) Expression.evaluate

end R1CS
