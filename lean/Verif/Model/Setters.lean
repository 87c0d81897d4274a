import Verif.Model.Matrices

/-!
# The settings of `PoseidonBuilder` (`src/poseidon.rs`) and `RescueBuilder` (`src/rescue.rs`)

The builders as records which the setters change, one field each.  Elements and matrices are cloned by
`build`, which changes nothing.
-/

namespace R1CS

variable {p : ℕ} [hp : Fact p.Prime]

/-- `PoseidonBuilder` (src/poseidon.rs:31-42). -/
structure PoseidonBuilder (p : ℕ) where
  width : ℕ
  numRounds : Option (ℕ × ℕ)
  sbox : Option PoseidonSbox
  securityBits : Option ℕ
  mds : Option (ElementMatrix p)

/-- The calls of setters of `PoseidonBuilder` (src/poseidon.rs:55-73). -/
inductive PoseidonCall (p : ℕ)
  | sbox (s : PoseidonSbox)
  | numRounds (full partial_ : ℕ)
  | securityBits (n : ℕ)
  | mdsMatrix (m : ElementMatrix p)

namespace PoseidonBuilder

omit hp in
/-- `PoseidonBuilder::new` (src/poseidon.rs:45-53). -/
def new (width : ℕ) : PoseidonBuilder p := ⟨width, none, none, none, none⟩

omit hp in
/-- The setters (src/poseidon.rs:55-73). -/
def call (b : PoseidonBuilder p) : PoseidonCall p → PoseidonBuilder p
  | .sbox s => { b with sbox := some s }
  | .numRounds full partial_ => { b with numRounds := some (full, partial_) }
  | .securityBits n => { b with securityBits := some n }
  | .mdsMatrix m => { b with mds := some m }

/-- `build` (src/poseidon.rs:75-100). -/
def build (rounds : PoseidonSbox → ℕ → ℕ → Option (ℕ × ℕ)) (b : PoseidonBuilder p) : Option (Poseidon p) :=
  Poseidon.build rounds b.width b.numRounds b.sbox b.securityBits b.mds

end PoseidonBuilder

/-- `RescueBuilder` (src/rescue.rs:56-67). -/
structure RescueBuilder (p : ℕ) where
  width : ℕ
  alpha : Option (Elem p)
  numRounds : Option ℕ
  securityBits : Option ℕ
  mds : Option (ElementMatrix p)

/-- The calls of setters of `RescueBuilder` (src/rescue.rs:81-99). -/
inductive RescueCall (p : ℕ)
  | alpha (a : Elem p)
  | numRounds (n : ℕ)
  | securityBits (n : ℕ)
  | mdsMatrix (m : ElementMatrix p)

namespace RescueBuilder

omit hp in
/-- `RescueBuilder::new` (src/rescue.rs:70-79): panics for width 0. -/
def new (width : ℕ) : Option (RescueBuilder p) :=
  if 0 < width then some ⟨width, none, none, none, none⟩ else none

omit hp in
/-- The setters (src/rescue.rs:81-99). -/
def call (b : RescueBuilder p) : RescueCall p → RescueBuilder p
  | .alpha a => { b with alpha := some a }
  | .numRounds n => { b with numRounds := some n }
  | .securityBits n => { b with securityBits := some n }
  | .mdsMatrix m => { b with mds := some m }

/-- `build` (src/rescue.rs:101-117). -/
def build (b : RescueBuilder p) : Option (Rescue p) :=
  Rescue.build b.width b.alpha b.numRounds b.securityBits b.mds

end RescueBuilder

end R1CS
