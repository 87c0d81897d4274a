import Verif.Lemmas.OutcomeOps

/-!
# How executions of circuits end: circuits
-/

set_option linter.unusedSectionVars false
set_option linter.unusedVariables false

namespace R1CS

variable {p : ℕ} [hp : Fact p.Prime] {X Y α β γ : Type}

open Language

/-- Operations only fail by panicking if they fail by panicking only. -/
theorem OpSafe.map {r : List (Obj p) → B p (List (Obj p))} {e : List (Val p) → Option α}
    {f : α → β} (h : OpSafe r e) : OpSafe r fun vs => (e vs).map f :=
  fun n x hx => (h n x hx).mono fun _ W hW y hy => by
    rw [Option.isSome_map]; exact hW y hy

namespace Op

/-- Every operation but `assertBoolean` panics where its outcome says so. -/
theorem safe (h4 : 4 ≤ Elem.maxBits p) (o : Op p) (ho : o.cast = false) :
    OpSafe o.run o.outcome := by
  have h2 := two_lt_of_maxBits h4
  cases o with
  | const c => exact .total fun _ => rfl
  | constBool b => exact .total fun _ => rfl
  | constBits n => exact .total fun _ => rfl
  | add => exact OpSafe.map (Kind.expr.safe (Kind.expr.safe2 (.total fun _ => rfl)))
  | sub => exact OpSafe.map (Kind.expr.safe (Kind.expr.safe2 (.total fun _ => rfl)))
  | neg => exact OpSafe.map (Kind.expr.safe (Kind.expr.safe1 (.total fun _ => rfl)))
  | scale c => exact OpSafe.map (Kind.expr.safe (Kind.expr.safe1 (.total fun _ => rfl)))
  | product => exact OpSafe.map (Kind.expr.safe (Kind.expr.safe2 (.total fun _ => rfl)))
  | exp k => exact OpSafe.map (Kind.expr.safe (Kind.expr.safe1 (.total fun _ => rfl)))
  | inverse => exact OpSafe.map (safe_inverse h2)
  | quotient => exact OpSafe.map (safe_quotient h2)
  | inverseOrZero => exact OpSafe.map (Kind.expr.safe (Kind.expr.safe1 (.total fun _ => rfl)))
  | quotientUnsafe => exact OpSafe.map (safe_quotientUnsafe h2)
  | nonzero => exact OpSafe.map (Kind.expr.safe (Kind.expr.safe1 (.total fun _ => rfl)))
  | zero => exact OpSafe.map (Kind.expr.safe (Kind.expr.safe1 (.total fun _ => rfl)))
  | equal => exact OpSafe.map (Kind.expr.safe (Kind.expr.safe2 (.total fun _ => rfl)))
  | assertEqual => exact Kind.expr.safe (Kind.expr.safe2 (.total fun _ => rfl))
  | assertNonequal => exact OpSafe.map (safe_assertNonequal h2)
  | assertZero => exact Kind.expr.safe (Kind.expr.safe1 (.total fun _ => rfl))
  | assertNonzero => exact OpSafe.map (safe_assertNonzero h2)
  | assertProduct => exact Kind.expr.safe (Kind.expr.safe3 (.total fun _ => rfl))
  | assertBoolean => cases ho
  | lt => exact OpSafe.map (Kind.expr.safe (Kind.expr.safe2 (.total fun _ => rfl)))
  | le => exact OpSafe.map (Kind.expr.safe (Kind.expr.safe2 (.total fun _ => rfl)))
  | gt => exact OpSafe.map (Kind.expr.safe (Kind.expr.safe2 (.total fun _ => rfl)))
  | ge => exact OpSafe.map (Kind.expr.safe (Kind.expr.safe2 (.total fun _ => rfl)))
  | assertLt => exact Kind.expr.safe (Kind.expr.safe2 (.total fun _ => rfl))
  | assertLe => exact Kind.expr.safe (Kind.expr.safe2 (.total fun _ => rfl))
  | assertGt => exact Kind.expr.safe (Kind.expr.safe2 (.total fun _ => rfl))
  | assertGe => exact Kind.expr.safe (Kind.expr.safe2 (.total fun _ => rfl))
  | modulus => exact OpSafe.map (safe_modulus h4)
  | divides => exact OpSafe.map (safe_divides h4)
  | split => exact OpSafe.map (Kind.expr.safe (Kind.expr.safe1 (.total fun _ => rfl)))
  | splitAllowingAmbiguity =>
    exact OpSafe.map (Kind.expr.safe (Kind.expr.safe1 (.total fun _ => rfl)))
  | splitBounded k => exact OpSafe.map (safe_splitBounded k)
  | join => exact OpSafe.map safe_join
  | joinAllowingOverflow => exact OpSafe.map safe_joinAllowingOverflow
  | cmpBinary r => exact OpSafe.map (safe_cmpBinary r)
  | assertCmpBinary r => exact safe_assertCmpBinary r
  | not => exact OpSafe.map (Kind.bool.safe (Kind.bool.safe1 (.total fun _ => rfl)))
  | and => exact OpSafe.map (Kind.bool.safe (Kind.bool.safe2 (.total fun _ => rfl)))
  | or => exact OpSafe.map (Kind.bool.safe (Kind.bool.safe2 (.total fun _ => rfl)))
  | xor => exact OpSafe.map (Kind.bool.safe (Kind.bool.safe2 (.total fun _ => rfl)))
  | assertTrue => exact Kind.bool.safe (Kind.bool.safe1 (.total fun _ => rfl))
  | assertFalse => exact Kind.bool.safe (Kind.bool.safe1 (.total fun _ => rfl))
  | select => exact OpSafe.map safe_select
  | toExpr => exact OpSafe.map (Kind.bool.safe (Kind.bool.safe1 (.total fun _ => rfl)))
  | pack => exact OpSafe.map (Kind.bool.safe (.total fun _ => rfl))
  | unpack => exact OpSafe.map (Kind.bin.safe (Kind.bin.safe1 (.total fun _ => rfl)))
  | bitwiseNot => exact OpSafe.map (Kind.bin.safe (Kind.bin.safe1 (.total fun _ => rfl)))
  | bitwiseAnd => exact OpSafe.map (Kind.bin.safe (Kind.bin.safe2 safe_bitwise))
  | bitwiseOr => exact OpSafe.map (Kind.bin.safe (Kind.bin.safe2 safe_bitwise))
  | bitwiseXor => exact OpSafe.map (Kind.bin.safe (Kind.bin.safe2 safe_bitwise))
  | rotateInc k => exact OpSafe.map (Kind.bin.safe (Kind.bin.safe1 (.total fun _ => rfl)))
  | rotateDec k => exact OpSafe.map (Kind.bin.safe (Kind.bin.safe1 (.total fun _ => rfl)))
  | shiftInc k => exact OpSafe.map (Kind.bin.safe (Kind.bin.safe1 (.total fun _ => rfl)))
  | shiftDec k => exact OpSafe.map (safe_shiftDec k)
  | binarySum => exact OpSafe.map safe_binarySum
  | binarySumIgnoringOverflow => exact OpSafe.map safe_binarySumIgnoringOverflow
  | binarySumAssertingNoOverflow => exact safe_binarySumAssertingNoOverflow
  | binaryAssertZero => exact Kind.bin.safe (Kind.bin.safe1 (.total fun _ => rfl))
  | randomAccess => exact OpSafe.map safe_randomAccess
  | assertPermutation k => exact safe_assertPermutation k
  | sortAscending => exact OpSafe.map safe_sortAscending
  | sortDescending => exact OpSafe.map safe_sortDescending
  | function k m f a b c => exact OpSafe.map (safe_function k m f a b c)
  | edwardsNew C => exact (told_edwardsNew C).opSafe
  | edwardsAdd C => exact (told_edwardsAdd h2 C).opSafe
  | edwardsDouble C => exact (told_edwardsDouble h2 C).opSafe
  | edwardsMulBoolean C => exact (told_edwardsMulBoolean C).opSafe
  | edwardsMulScalar C => exact (told_edwardsMulScalar h2 C).opSafe
  | schnorrVerify C G h => exact (told_schnorrVerify h2 C G h).opSafe
  | merkleRoot h => exact (told_merkleRoot h).opSafe
  | assertMembership h => exact (told_assertMembership h).opSafe

end Op

namespace Circuit

theorem does_step {i : Op p × List ℕ} (h : i.1.Ends) {s : Run p} {os : List (Obj p)}
    {vs rs : List (Val p)} {ok : Bool} (hs : ∀ o ∈ os, o.Scoped s.next) (hm : MeansAll s.W os vs)
    (hr : stepOutcome i vs = some (rs, ok)) : Does (step i os) s (Leaves s rs ok) := by
  unfold stepOutcome at hr
  unfold step
  rcases hm.lookup i.2 with ⟨as, bs, g1, g2, g3, g4⟩ | ⟨_, g2⟩
  · rw [g2] at hr
    cases hb : i.1.outcome bs with
    | none => simp [hb] at hr
    | some r =>
      have hr' : vs ++ r.1 = rs ∧ r.2 = ok := by simpa [hb] using hr
      obtain ⟨rfl, rfl⟩ := hr'
      refine Does.ofOption_bind g1 ?_
      refine (h s as bs r.1 r.2 (fun o ho => hs o (g4 o ho)) g3 hb).bind
        fun os' t l ⟨h1, h2, h3, h4⟩ => Does.pure ⟨h1, fun o ho => ?_, ?_, h4⟩
      · rcases List.mem_append.1 ho with ho | ho
        · exact (hs o ho).mono l.1
        · exact h2 o ho
      · exact (hm.congr l.2 hs).append h3
  · rw [g2] at hr; cases hr

theorem does_runFrom (h : ∀ o : Op p, o.Ends) : ∀ {c : Circuit p}
    {s : Run p} {os : List (Obj p)} {vs rs : List (Val p)} {ok : Bool},
    (∀ o ∈ os, o.Scoped s.next) → MeansAll s.W os vs → outcomeFrom c vs = some (rs, ok) →
    Does (runFrom c os) s (Leaves s rs ok)
  | [], s, os, vs, rs, ok, hs, hm, hr => by
    cases hr
    exact Does.pure ⟨rfl, hs, hm, by simp⟩
  | i :: c, s, os, vs, rs, ok, hs, hm, hr => by
    unfold outcomeFrom at hr
    cases hv : stepOutcome i vs with
    | none => rw [hv] at hr; cases hr
    | some r =>
      rw [hv] at hr
      cases hv' : outcomeFrom c r.1 with
      | none => simp [hv'] at hr
      | some r' =>
        have hr' : r'.1 = rs ∧ (r.2 && r'.2) = ok := by simpa [hv'] using hr
        obtain ⟨rfl, rfl⟩ := hr'
        unfold runFrom
        refine (does_step (h i.1) hs hm hv).bind fun os' t l ⟨h1, h2, h3, h4⟩ =>
          (does_runFrom h h2 h3 hv').mono fun os'' u l' ⟨g1, g2, g3, g4⟩ =>
            ⟨g1.trans h1, g2, g3, ?_⟩
        rw [g4, h4, Bool.and_eq_true, and_assoc]

theorem returns_runFrom (hc : ∀ o : Op p, o.Ends) (ht : ∀ (o : Op p) os, Tidy (o.run os)) :
    ∀ (c : Circuit p) {pre : B p (List (Obj p))} {os rs : List (Obj p)} {vs : List (Val p)}
      {b b1 : Builder p} {v v' : WireValues p} {ok : Bool},
      (∀ i ∈ c, OpSafe i.1.run i.1.outcome) → Tidy pre → pre Builder.new = some (os, b) →
      runFrom c os b = some (rs, b1) → (∀ o ∈ os, o.Scoped b.nextWireIndex) → v ONE = some 1 →
      (∀ i, b.nextWireIndex ≤ i → i < b1.nextWireIndex → v i = none) →
      b1.build.execute v = some (v', ok) → MeansAll v'.total os vs → (outcomeFrom c vs).isSome = true
  | [], _, _, _, _, _, _, _, _, _, _, _, _, _, _, _, _, _, _ => rfl
  | i :: c, pre, os, rs, vs, b, b1, v, v', ok, hk, hpre, hb, hr, hs, hv1, hv, hex, hm => by
    have hr0 : (step i os >>= fun os' => runFrom c os') b = some (rs, b1) := hr
    obtain ⟨os', b', e1, e2⟩ := B.bind_run hr0
    have hle := (C23_appends (tidy_runFrom (c := c) (fun j _ => ht j.1) os').1 e2).1
    have hle0 := (C23_appends hpre.1 hb).1
    have hst := tidy_step (i := i) (ht i.1) os
    -- the outcome of this instruction is no panic
    obtain ⟨as, b0, e3, e4⟩ := B.bind_run e1
    obtain ⟨e3', rfl⟩ := B.ofOption_eq_some e3
    clear e3
    rename' e3' => e3, b0 => b
    obtain ⟨r, b2, e5, e6⟩ := B.bind_run e4
    have e7 : os ++ r = os' ∧ b2 = b' := Prod.ext_iff.1 (Option.some.inj e6)
    obtain ⟨rfl, rfl⟩ := e7
    have hdef := hk i (by simp) _ as (fun o ho => hs o (mem_of_lookup e3 o ho)) _ _ pre
      (fun os0 r => runFrom c (os0 ++ r)) os r rs _ b2 b1 hpre
      (fun _ _ => tidy_runFrom (fun j _ => ht j.1) _) hb rfl e5 e2 v v' ok hv1
      (fun j g1 g2 => hv j g1 (by omega)) hex
    obtain ⟨as', bs, g1, g2, g3, g4⟩ | ⟨g1, _⟩ := hm.lookup i.2
    swap
    · rw [g1] at e3; cases e3
    rw [g1] at e3
    cases e3
    obtain ⟨r', hr'⟩ := Option.isSome_iff_exists.1 (hdef bs g3)
    have hstep : stepOutcome i vs = some (vs ++ r'.1, r'.2) := by
      unfold stepOutcome
      rw [g2]; simp [hr']
    -- hence its results have their values
    have hloc := Locally.of_does hst (n := b.nextWireIndex)
      (P := fun W => MeansAll W os vs) (Q := fun os' W => MeansAll W os' (vs ++ r'.1))
      fun s hsn hP => (does_step (hc i.1) (by rw [hsn]; exact hs) hP hstep).mono
        fun os' t _ ⟨h1, h2, h3, _⟩ => ⟨h1, fun W hW => h3.congr hW h2⟩
    have hval := hloc _ _ pre (fun _ os' => runFrom c os') os (os ++ r) rs b b2 b1 hpre
      (fun _ _ => tidy_runFrom (fun j _ => ht j.1) _) hb rfl e1 e2 v v' ok hv1
      (fun j g1 g2 => hv j g1 (by omega)) hex hm
    have hone : v'.total ONE = 1 := by
      have hall : (pre >>= fun os => runFrom (i :: c) os) Builder.new = some (rs, b1) := by
        rw [B.bind_eq hb, hr]
      have := C22_library (hpre.bind fun os => tidy_runFrom (fun j _ => ht j.1) os) hall hex hv1
      simp [WireValues.total, this]
    obtain ⟨t, ht2, ht3⟩ := hst.1.same_does e1
      (s := Run.free b.nextWireIndex (le_trans (by simp [Builder.new]) hle0) v'.total hone) rfl
      (does_step (hc i.1) (s := Run.free b.nextWireIndex _ v'.total hone) hs hm hstep)
    have hle2 := (C23_appends hst.1 e1).1
    have := returns_runFrom hc ht c (pre := pre >>= step i) (os := os ++ r)
      (fun j hj => hk j (by simp [hj]))
      (hpre.bind fun os => tidy_step (ht i.1) os) (by rw [B.bind_eq hb, e1]) e2
      (fun o ho => by rw [← ht3]; exact ht2.2.1 o ho) hv1 (fun j g1 g2 => hv j (by omega) g2) hex
      hval
    obtain ⟨z, hz⟩ := Option.isSome_iff_exists.1 this
    unfold outcomeFrom
    rw [hstep]
    simp [hz]

end Circuit

end R1CS
