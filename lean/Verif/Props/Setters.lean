import Verif.Model.Setters
import Verif.Props.HashBuilders

/-!
# C74, C75: sequences of calls of setters
-/

namespace R1CS

variable {p : ℕ} [hp : Fact p.Prime]

/-- What `f` finds in the last call in which it finds anything. -/
def lastCall {κ σ : Type*} (f : κ → Option σ) (cs : List κ) : Option σ := (cs.filterMap f).getLast?

theorem lastCall_concat {κ σ : Type*} (f : κ → Option σ) (cs : List κ) (c : κ) :
    lastCall f (cs ++ [c]) = (f c).or (lastCall f cs) := by
  unfold lastCall
  rw [List.filterMap_append]
  cases h : f c with
  | none => simp [h]
  | some x => simp [h]

/-- The exponent given by a call. -/
def RescueCall.alpha? : RescueCall p → Option (Elem p)
  | .alpha a => some a
  | _ => none

/-- The number of rounds given by a call. -/
def RescueCall.numRounds? : RescueCall p → Option ℕ
  | .numRounds n => some n
  | _ => none

/-- The security level given by a call. -/
def RescueCall.securityBits? : RescueCall p → Option ℕ
  | .securityBits n => some n
  | _ => none

/-- The matrix given by a call. -/
def RescueCall.mds? : RescueCall p → Option (ElementMatrix p)
  | .mdsMatrix m => some m
  | _ => none

/-- The S-box given by a call. -/
def PoseidonCall.sbox? : PoseidonCall p → Option PoseidonSbox
  | .sbox s => some s
  | _ => none

/-- The number of rounds given by a call. -/
def PoseidonCall.numRounds? : PoseidonCall p → Option (ℕ × ℕ)
  | .numRounds n m => some (n, m)
  | _ => none

/-- The security level given by a call. -/
def PoseidonCall.securityBits? : PoseidonCall p → Option ℕ
  | .securityBits n => some n
  | _ => none

/-- The matrix given by a call. -/
def PoseidonCall.mds? : PoseidonCall p → Option (ElementMatrix p)
  | .mdsMatrix m => some m
  | _ => none

omit hp in
theorem rescue_calls (width : ℕ) (cs : List (RescueCall p)) :
    cs.foldl RescueBuilder.call ⟨width, none, none, none, none⟩ =
      ⟨width, lastCall RescueCall.alpha? cs, lastCall RescueCall.numRounds? cs,
        lastCall RescueCall.securityBits? cs, lastCall RescueCall.mds? cs⟩ := by
  induction cs using List.reverseRecOn with
  | nil => rfl
  | append_singleton cs c ih =>
    rw [List.foldl_append, ih]
    simp only [lastCall_concat, List.foldl_cons, List.foldl_nil]
    cases c <;> rfl

omit hp in
theorem poseidon_calls (width : ℕ) (cs : List (PoseidonCall p)) :
    cs.foldl PoseidonBuilder.call (PoseidonBuilder.new width) =
      ⟨width, lastCall PoseidonCall.numRounds? cs, lastCall PoseidonCall.sbox? cs,
        lastCall PoseidonCall.securityBits? cs, lastCall PoseidonCall.mds? cs⟩ := by
  induction cs using List.reverseRecOn with
  | nil => rfl
  | append_singleton cs c ih =>
    rw [List.foldl_append, ih]
    simp only [lastCall_concat, List.foldl_cons, List.foldl_nil]
    cases c <;> rfl

/-- C74: whatever setters are called in whatever order, the permutation has the settings given last, and the
defaults for those never given; building panics if both a number of rounds and a security level were given
at any time, or no matrix. -/
theorem C74_calls (width : ℕ) (cs : List (RescueCall p)) (f : Rescue p) :
    ((RescueBuilder.new width).bind fun b => (cs.foldl RescueBuilder.call b).build) = some f ↔
      0 < width ∧ f.width = width ∧ lastCall RescueCall.mds? cs = some f.mds ∧
      ((∀ n, .numRounds n ∉ cs) ∨ ∀ n, .securityBits n ∉ cs) ∧
      (lastCall RescueCall.alpha? cs = some f.alpha ∨
        (∀ a, .alpha a ∉ cs) ∧ Rescue.smallestAlpha p = some f.alpha) ∧
      (lastCall RescueCall.numRounds? cs = some f.numRounds ∨ (∀ n, .numRounds n ∉ cs) ∧
        IsLeast {r | 10 ≤ r ∧ 2 ∣ r ∧
          2 * (lastCall RescueCall.securityBits? cs).getD 128 ≤ 4 * width * r} f.numRounds) := by
  have hr : lastCall RescueCall.numRounds? cs = none ↔ ∀ n, .numRounds n ∉ cs := by
    unfold lastCall
    rw [List.getLast?_eq_none_iff, List.filterMap_eq_nil_iff]
    refine ⟨fun h n hn => Option.some_ne_none _ (h _ hn), fun h c hc => ?_⟩
    cases c with
    | numRounds n => exact absurd hc (h n)
    | _ => rfl
  have hb : lastCall RescueCall.securityBits? cs = none ↔ ∀ n, .securityBits n ∉ cs := by
    unfold lastCall
    rw [List.getLast?_eq_none_iff, List.filterMap_eq_nil_iff]
    refine ⟨fun h n hn => Option.some_ne_none _ (h _ hn), fun h c hc => ?_⟩
    cases c with
    | securityBits n => exact absurd hc (h n)
    | _ => rfl
  have ha : lastCall RescueCall.alpha? cs = none ↔ ∀ a, .alpha a ∉ cs := by
    unfold lastCall
    rw [List.getLast?_eq_none_iff, List.filterMap_eq_nil_iff]
    refine ⟨fun h n hn => Option.some_ne_none _ (h _ hn), fun h c hc => ?_⟩
    cases c with
    | alpha n => exact absurd hc (h n)
    | _ => rfl
  rw [← hr, ← hb, ← ha]
  unfold RescueBuilder.new
  by_cases hw : 0 < width
  · rw [if_pos hw, Option.bind_some, rescue_calls]
    exact C74_build _ _ _ _ _ _
  · rw [if_neg hw]
    simp [hw]

example : ((RescueBuilder.new 2 : Option (RescueBuilder 11)).bind fun b =>
    ([.numRounds 7, .mdsMatrix ⟨[[1, 2], [3, 4]]⟩, .alpha 3, .numRounds 12].foldl RescueBuilder.call b).build) =
      some ⟨2, 3, 12, ⟨[[1, 2], [3, 4]]⟩⟩ := rfl

/-- C75: the same for Poseidon. -/
theorem C75_calls (rounds : PoseidonSbox → ℕ → ℕ → Option (ℕ × ℕ)) (width : ℕ) (cs : List (PoseidonCall p))
    (f : Poseidon p) :
    (cs.foldl PoseidonBuilder.call (PoseidonBuilder.new width)).build rounds = some f ↔
      f.width = width ∧ lastCall PoseidonCall.mds? cs = some f.mds ∧
      ((∀ n m, .numRounds n m ∉ cs) ∨ ∀ n, .securityBits n ∉ cs) ∧
      (lastCall PoseidonCall.sbox? cs = some f.sbox ∨
        (∀ s, .sbox s ∉ cs) ∧ PoseidonSbox.default p = some f.sbox) ∧
      (lastCall PoseidonCall.numRounds? cs = some (f.full, f.partial_) ∨ (∀ n m, .numRounds n m ∉ cs) ∧
        rounds f.sbox width ((lastCall PoseidonCall.securityBits? cs).getD 128) =
          some (f.full, f.partial_)) := by
  have hr : lastCall PoseidonCall.numRounds? cs = none ↔ ∀ n m, .numRounds n m ∉ cs := by
    unfold lastCall
    rw [List.getLast?_eq_none_iff, List.filterMap_eq_nil_iff]
    refine ⟨fun h n m hn => Option.some_ne_none _ (h _ hn), fun h c hc => ?_⟩
    cases c with
    | numRounds n m => exact absurd hc (h n m)
    | _ => rfl
  have hb : lastCall PoseidonCall.securityBits? cs = none ↔ ∀ n, .securityBits n ∉ cs := by
    unfold lastCall
    rw [List.getLast?_eq_none_iff, List.filterMap_eq_nil_iff]
    refine ⟨fun h n hn => Option.some_ne_none _ (h _ hn), fun h c hc => ?_⟩
    cases c with
    | securityBits n => exact absurd hc (h n)
    | _ => rfl
  have ha : lastCall PoseidonCall.sbox? cs = none ↔ ∀ a, .sbox a ∉ cs := by
    unfold lastCall
    rw [List.getLast?_eq_none_iff, List.filterMap_eq_nil_iff]
    refine ⟨fun h n hn => Option.some_ne_none _ (h _ hn), fun h c hc => ?_⟩
    cases c with
    | sbox n => exact absurd hc (h n)
    | _ => rfl
  rw [← hr, ← hb, ← ha, poseidon_calls]
  exact C75_build _ _ _ _ _ _ _

example : ((([.securityBits 80, .mdsMatrix ⟨[[1, 2], [3, 4]]⟩, .sbox .inverse, .sbox .exponentiation3] :
    List (PoseidonCall 11)).foldl PoseidonBuilder.call (PoseidonBuilder.new 2)).build
      fun _ _ n => some (n, 1)) = some ⟨2, 80, 1, .exponentiation3, ⟨[[1, 2], [3, 4]]⟩⟩ := rfl

end R1CS
