import Verif.Lemmas.Floats
import Verif.Props.Rounds

/-!
# Numbers of rounds in floating point
-/

set_option linter.unusedSectionVars false

namespace R1CS

variable {p : ℕ} [hp : Fact p.Prime]

theorem tol_pos : 0 < tol := by unfold tol; positivity

namespace Poseidon

theorem ResistsUpTo.zero_iff {s : PoseidonSbox} {bits w f r : ℕ} :
    ResistsUpTo p 0 s bits w f r ↔ Resists p s bits w f r := by
  cases s
  · constructor
    · intro h; exact ⟨by simpa using h.1, by simpa using h.2, by simpa using h.3⟩
    · intro h; exact ⟨by simpa using h.1, by simpa using h.2, by simpa using h.3⟩
  · constructor
    · intro h; exact ⟨by simpa using h.1, by simpa using h.2, by simpa using h.3⟩
    · intro h; exact ⟨by simpa using h.1, by simpa using h.2, by simpa using h.3⟩
  · constructor
    · intro h; exact ⟨by simpa using h.1, by simpa using h.2⟩
    · intro h; exact ⟨by simpa using h.1, by simpa using h.2⟩

theorem ResistsUpTo.mono {s : PoseidonSbox} {bits w f r f' r' : ℕ} {t : ℝ} (hw : 0 < w) (hf : f ≤ f')
    (hr : r ≤ r') (h : ResistsUpTo p t s bits w f r) : ResistsUpTo p t s bits w f' r' := by
  have hw' : (0 : ℝ) ≤ w - 1 := by
    have : (1 : ℝ) ≤ w := by exact_mod_cast hw
    linarith
  have hf' : (f : ℝ) ≤ f' := by exact_mod_cast hf
  have hr' : (r : ℝ) ≤ r' := by exact_mod_cast hr
  have hm := mul_le_mul_of_nonneg_left hf' hw'
  have hl := mul_le_mul_of_nonneg_right hf' (logb_nonneg hw)
  cases s
  · exact ⟨by have := h.1; linarith, by have := h.2; linarith, by have := h.3; linarith⟩
  · exact ⟨by have := h.1; linarith, by have := h.2; linarith, by have := h.3; linarith⟩
  · exact ⟨by have := h.1; linarith, by have := h.2; linarith⟩

theorem ResistsUpTo.trade {s : PoseidonSbox} {bits w f r k : ℕ} {t : ℝ} (hw : 0 < w) (hk : 1 ≤ k)
    (hk' : w ≤ k + 1) (h : ResistsUpTo p t s bits w (f + 1) r) :
    ResistsUpTo p t s bits w f (r + k) := by
  have h1 : (1 : ℝ) ≤ k := by exact_mod_cast hk
  have h2 : (w : ℝ) ≤ k + 1 := by exact_mod_cast hk'
  have h3 := logb_le hw
  cases s
  · have a := h.1; have b := h.2; have c := h.3
    push_cast at a b c
    refine ⟨?_, ?_, ?_⟩ <;> push_cast <;> linarith
  · have a := h.1; have b := h.2; have c := h.3
    push_cast at a b c
    refine ⟨?_, ?_, ?_⟩ <;> push_cast <;> linarith
  · have a := h.1; have b := h.2
    push_cast at a b
    refine ⟨?_, ?_⟩ <;> push_cast <;> linarith

theorem ResistsUpTo.trade_many {s : PoseidonSbox} {bits w f k : ℕ} {t : ℝ} (hw : 0 < w) (hk : 1 ≤ k)
    (hk' : w ≤ k + 1) :
    ∀ {n r : ℕ}, ResistsUpTo p t s bits w (f + n) r → ResistsUpTo p t s bits w f (r + k * n)
  | 0, r, h => by simpa using h
  | n + 1, r, h => by
    have := ResistsUpTo.trade_many hw hk hk' (n := n) (ResistsUpTo.trade hw hk hk' h)
    rwa [show r + k * (n + 1) = r + k + k * n by ring]

theorem logb3_le : Real.logb 3 2 ≤ 1 := by
  rw [Real.logb_le_iff_le_rpow (by norm_num) (by norm_num)]; norm_num

theorem logb5_le : Real.logb 5 2 ≤ 1 := by
  rw [Real.logb_le_iff_le_rpow (by norm_num) (by norm_num)]; norm_num

theorem logb3_nonneg : 0 ≤ Real.logb 3 2 := Real.logb_nonneg (by norm_num) (by norm_num)
theorem logb5_nonneg : 0 ≤ Real.logb 5 2 := Real.logb_nonneg (by norm_num) (by norm_num)

/-- The thresholds are small compared to the tolerance. -/
theorem small {bits w : ℕ} (hw : 0 < w) (hb : bits + w ≤ 2 ^ 40) :
    ∃ m : ℝ, m = ((min bits (p - 1).size : ℕ) : ℝ) ∧ 0 ≤ m ∧ m ≤ bits ∧
      tol * m + tol * Real.logb 2 w ≤ 1 / 32 ∧ 0 ≤ tol * m ∧ 0 ≤ tol * Real.logb 2 w ∧
      tol ≤ 1 / 32 := by
  refine ⟨_, rfl, by positivity, by exact_mod_cast Nat.min_le_left _ _, ?_, ?_, ?_, ?_⟩
  · have hm : ((min bits (p - 1).size : ℕ) : ℝ) ≤ bits := by exact_mod_cast Nat.min_le_left _ _
    have hl := logb_le hw
    have hb' : (bits : ℝ) + w ≤ 2 ^ 40 := by exact_mod_cast hb
    have : tol * ((min bits (p - 1).size : ℕ) + Real.logb 2 w) ≤ tol * 2 ^ 40 :=
      mul_le_mul_of_nonneg_left (by linarith) tol_pos.le
    have h2 : tol * 2 ^ 40 = 1 / 32 := by unfold tol; norm_num
    linarith
  · exact mul_nonneg tol_pos.le (by positivity)
  · exact mul_nonneg tol_pos.le (logb_nonneg hw)
  · unfold tol; norm_num

/-- One partial round makes up for all rounding errors. -/
theorem ResistsUpTo.step {s : PoseidonSbox} {bits w f r : ℕ} (hw : 0 < w) (hb : bits + w ≤ 2 ^ 40)
    (h : ResistsUpTo p (-tol) s bits w f r) : ResistsUpTo p tol s bits w f (r + 1) := by
  obtain ⟨m, hm, m0, mb, s1, s2, s3, s4⟩ := small (p := p) hw hb
  have c3 : Real.logb 3 2 * (tol * m) ≤ 1 * (tol * m) := mul_le_mul_of_nonneg_right logb3_le s2
  have c5 : Real.logb 5 2 * (tol * m) ≤ 1 * (tol * m) := mul_le_mul_of_nonneg_right logb5_le s2
  cases s
  · have a := h.1; have b := h.2; have c := h.3
    rw [← hm] at a b c
    refine ⟨?_, ?_, ?_⟩ <;> rw [← hm] <;> push_cast <;> nlinarith
  · have a := h.1; have b := h.2; have c := h.3
    rw [← hm] at a b c
    refine ⟨?_, ?_, ?_⟩ <;> rw [← hm] <;> push_cast <;> nlinarith
  · have a := h.1; have b := h.2
    rw [← hm] at a b
    refine ⟨?_, ?_⟩ <;> rw [← hm] <;> push_cast <;> nlinarith

/-- Raising the thresholds makes the conditions stronger. -/
theorem ResistsUpTo.weaken {s : PoseidonSbox} {bits w f r : ℕ} {t t' : ℝ} (hw : 0 < w) (ht : t' ≤ t)
    (h : ResistsUpTo p t s bits w f r) : ResistsUpTo p t' s bits w f r := by
  have m0 : (0 : ℝ) ≤ ((min bits (p - 1).size : ℕ) : ℝ) := by positivity
  have hl := logb_nonneg hw
  have key : ∀ x : ℝ, 0 ≤ x → x * (1 + t') ≤ x * (1 + t) := fun x hx =>
    mul_le_mul_of_nonneg_left (by linarith) hx
  cases s
  · exact ⟨lt_of_le_of_lt (key _ (add_nonneg (mul_nonneg logb3_nonneg m0) hl)) h.1,
      lt_of_le_of_lt (key _ (by positivity)) h.2, by
        have := key (18 / 100 * ((min bits (p - 1).size : ℕ) : ℝ)) (by positivity)
        have := h.3
        linarith⟩
  · exact ⟨lt_of_le_of_lt (key _ (add_nonneg (mul_nonneg logb5_nonneg m0) hl)) h.1,
      lt_of_le_of_lt (key _ (by positivity)) h.2, by
        have := key (14 / 100 * ((min bits (p - 1).size : ℕ) : ℝ)) (by positivity)
        have := h.3
        linarith⟩
  · exact ⟨lt_of_le_of_lt (key _ (by linarith)) h.1, by
        have := key (((min bits (p - 1).size : ℕ) : ℝ) / 4) (by positivity)
        have := h.2
        linarith⟩

theorem ResistsUpTo.of_large {s : PoseidonSbox} {bits w f r : ℕ} (hw : 0 < w)
    (hb : bits + w ≤ 2 ^ 40) (hr : bits + w + 1 < r) : ResistsUpTo p tol s bits w f r := by
  obtain ⟨r, rfl⟩ := Nat.exists_eq_succ_of_ne_zero (show r ≠ 0 by omega)
  refine ResistsUpTo.step hw hb ?_
  refine ResistsUpTo.weaken hw (t := 0) (by have := tol_pos; linarith) ?_
  exact ResistsUpTo.zero_iff.2 (Resists.of_large hw (by omega))

end Poseidon

open Poseidon

namespace Libm

variable (L : Libm)

theorem rel_minNM (bits : ℕ) : Rel 1 (minNM p bits) ((min bits (p - 1).size : ℕ) : ℝ) := by
  unfold minNM
  rw [Elem.maxBits_eq]
  exact Rel.fl_self (by positivity)

theorem rel_ln {x : ℝ} (hx : 1 ≤ x) : Rel 1 (L.ln x) (Real.log x) :=
  Rel.of_abs (Real.log_nonneg hx) (L.ln_accurate x hx)

theorem rel_log {x b : ℝ} (hx : 1 ≤ x) (hb : 1 < b) : Rel 4 (L.log x b) (Real.logb b x) := by
  rw [← Real.log_div_log]
  exact ((L.rel_ln hx).div (Real.log_pos hb) (L.rel_ln hb.le)).rnd

theorem rel_log2 {w : ℕ} (hw : 0 < w) (hw' : w < 2 ^ 53) :
    Rel 1 (L.log2 (fl w)) (Real.logb 2 w) := by
  rw [fl_natCast hw']
  exact Rel.of_abs (logb_nonneg hw) (L.log2_accurate w (by exact_mod_cast hw))

theorem isAttackable_spec {s : PoseidonSbox} {bits w f r : ℕ} (hw : 0 < w) (hw' : w < 2 ^ 53) :
    ∃ a, L.isAttackable p s w f r bits = some a ∧
      (a = false → ResistsUpTo p (-tol) s bits w f r) ∧
      (ResistsUpTo p tol s bits w f r → a = false) := by
  have hc : (((w - 1 : ℕ) : ℝ)) = w - 1 := by rw [Nat.cast_sub hw]; simp
  have hm := rel_minNM (p := p) bits
  have hl := L.rel_log2 hw hw'
  have hsum : Rel 1 (fl ((f + r : ℕ) : ℝ)) ((f : ℝ) + r) := by
    have := Rel.fl_self (b := ((f + r : ℕ) : ℝ)) (by positivity)
    push_cast at this ⊢
    exact this
  have hprod : Rel 1 (fl (((w - 1) * f + r : ℕ) : ℝ)) ((w - 1 : ℝ) * f + r) := by
    have := Rel.fl_self (b := (((w - 1) * f + r : ℕ) : ℝ)) (by positivity)
    push_cast [hc] at this ⊢
    exact this
  cases s
  · have i1 := Rel.compare (by norm_num) hsum
      ((((L.rel_log (x := 2) (b := 3) (by norm_num) (by norm_num)).mul hm).rnd.add
        (hl.mono (by norm_num))).rnd)
    have i2 := Rel.compare (by norm_num) hsum
      (((Rel.fl_self (b := 0.32) (by norm_num)).mul hm).rnd)
    have i3 := Rel.compare_sub (by norm_num) hprod
      (((Rel.fl_self (b := 0.18) (by norm_num)).mul hm).rnd)
    refine ⟨_, if_neg hw.ne', ?_, ?_⟩
    · rw [Bool.or_eq_false_iff, Bool.or_eq_false_iff, decide_eq_false_iff_not,
        decide_eq_false_iff_not, decide_eq_false_iff_not]
      rintro ⟨⟨h1, h2⟩, h3⟩
      have j1 := not_le.1 (mt i1.2 h1)
      have j2 := not_le.1 (mt i2.2 h2)
      have j3 := not_le.1 (mt i3.2 h3)
      exact ⟨by linarith, by linarith, by linarith⟩
    · intro h
      rw [Bool.or_eq_false_iff, Bool.or_eq_false_iff, decide_eq_false_iff_not,
        decide_eq_false_iff_not, decide_eq_false_iff_not]
      have k1 := h.1; have k2 := h.2; have k3 := h.3
      refine ⟨⟨mt i1.1 ?_, mt i2.1 ?_⟩, mt i3.1 ?_⟩ <;> rw [not_le] <;> linarith
  · have i1 := Rel.compare (by norm_num) hsum
      ((((L.rel_log (x := 2) (b := 5) (by norm_num) (by norm_num)).mul hm).rnd.add
        (hl.mono (by norm_num))).rnd)
    have i2 := Rel.compare (by norm_num) hsum
      (((Rel.fl_self (b := 0.21) (by norm_num)).mul hm).rnd)
    have i3 := Rel.compare_sub (by norm_num) hprod
      (((Rel.fl_self (b := 0.14) (by norm_num)).mul hm).rnd)
    refine ⟨_, if_neg hw.ne', ?_, ?_⟩
    · rw [Bool.or_eq_false_iff, Bool.or_eq_false_iff, decide_eq_false_iff_not,
        decide_eq_false_iff_not, decide_eq_false_iff_not]
      rintro ⟨⟨h1, h2⟩, h3⟩
      have j1 := not_le.1 (mt i1.2 h1)
      have j2 := not_le.1 (mt i2.2 h2)
      have j3 := not_le.1 (mt i3.2 h3)
      exact ⟨by linarith, by linarith, by linarith⟩
    · intro h
      rw [Bool.or_eq_false_iff, Bool.or_eq_false_iff, decide_eq_false_iff_not,
        decide_eq_false_iff_not, decide_eq_false_iff_not]
      have k1 := h.1; have k2 := h.2; have k3 := h.3
      refine ⟨⟨mt i1.1 ?_, mt i2.1 ?_⟩, mt i3.1 ?_⟩ <;> rw [not_le] <;> linarith
  · have i1 := Rel.compare (by norm_num)
      ((((Rel.fl_self (b := (f : ℝ)) (by positivity)).mul hl).rnd.add
        ((Rel.fl_self (b := (r : ℝ)) (by positivity)).mono (by norm_num))).rnd)
      ((((hl.add ((Rel.refl (b := 0.5) (by norm_num)).mono (by norm_num))).rnd).add
        (hm.mono (by norm_num))).rnd)
    have i2 := Rel.compare_sub (by norm_num) hprod
      (((Rel.refl (b := 0.25) (by norm_num)).mul hm).rnd)
    refine ⟨_, if_neg hw.ne', ?_, ?_⟩
    · rw [Bool.or_eq_false_iff, decide_eq_false_iff_not, decide_eq_false_iff_not]
      rintro ⟨h1, h2⟩
      have j1 := not_le.1 (mt i1.2 h1)
      have j2 := not_le.1 (mt i2.2 h2)
      exact ⟨by linarith, by linarith⟩
    · intro h
      rw [Bool.or_eq_false_iff, decide_eq_false_iff_not, decide_eq_false_iff_not]
      have k1 := h.1; have k2 := h.2
      refine ⟨mt i1.1 ?_, mt i2.1 ?_⟩ <;> rw [not_le] <;> linarith

/-- What the search for the number of partial rounds returns. -/
structure Partial (p : ℕ) [Fact p.Prime] (s : PoseidonSbox) (bits w f r : ℕ) : Prop where
  accepted : L.isAttackable p s w f r bits = some false
  least : ∀ r', ResistsUpTo p tol s bits w f r' → r ≤ r'

theorem Partial.resists {L : Libm} {s : PoseidonSbox} {bits w f r : ℕ} (hw : 0 < w)
    (hw' : w < 2 ^ 53) (h : L.Partial p s bits w f r) : ResistsUpTo p (-tol) s bits w f r := by
  obtain ⟨a, h1, h2, -⟩ := L.isAttackable_spec (p := p) (s := s) (bits := bits) (f := f) (r := r) hw hw'
  rw [h.accepted] at h1
  exact h2 (Option.some.inj h1).symm

theorem partialLoop_spec {s : PoseidonSbox} {bits w f : ℕ} (hw : 0 < w) (hb : bits + w ≤ 2 ^ 40) :
    ∀ (fuel r : ℕ), (∀ r', ResistsUpTo p tol s bits w f r' → r ≤ r') → bits + w + 2 < fuel + r →
      ∃ r1, L.partialLoop p s w f bits fuel r = some r1 ∧ L.Partial p s bits w f r1
  | 0, r, h, hf => by
    have := h _ (ResistsUpTo.of_large hw hb (Nat.lt_succ_self _))
    omega
  | fuel + 1, r, h, hf => by
    obtain ⟨a, h1, h2, h3⟩ := L.isAttackable_spec (p := p) (s := s) (bits := bits) (f := f) (r := r) hw
      (by omega)
    rw [partialLoop, h1]
    simp only [Option.bind_eq_bind, Option.bind_some]
    cases a with
    | false => exact ⟨r, rfl, h1, h⟩
    | true =>
      refine partialLoop_spec hw hb fuel (r + 1) (fun r' h' => ?_) (by omega)
      rcases (h r' h').lt_or_eq with hlt | rfl
      · exact hlt
      · exact absurd (h3 h') (by decide)

theorem securePartialRounds_spec {s : PoseidonSbox} {bits w : ℕ} (hw : 0 < w)
    (hb : bits + w ≤ 2 ^ 40) (f : ℕ) :
    ∃ r, L.securePartialRounds p s w f bits = some r ∧ L.Partial p s bits w f r ∧
      r ≤ bits + w + 2 := by
  obtain ⟨r, h1, h2⟩ := L.partialLoop_spec (p := p) (s := s) (f := f) hw hb (bits + w + 4) 0
    (by omega) (by omega)
  exact ⟨r, h1, h2, h2.least _ (ResistsUpTo.of_large hw hb (Nat.lt_succ_self _))⟩

theorem roundsLoop_spec {s : PoseidonSbox} {bits w : ℕ} (hw : 0 < w) (hb : bits + w ≤ 2 ^ 40) :
    ∀ (fuel f r : ℕ), 6 ≤ f → 2 ∣ f → L.Partial p s bits w f r → r < fuel →
      ∃ f1 r1, L.roundsLoop p s w bits fuel f (f, r) (numSboxes w f r) = some (f1, r1) ∧ 6 ≤ f1 ∧
        2 ∣ f1 ∧ L.Partial p s bits w f1 r1 ∧ f1 * w + r1 ≤ f * w + r ∧ (2 ≤ w → f1 = f ∧ r1 = r)
  | 0, f, r, _, _, _, h => absurd h (by omega)
  | fuel + 1, f, r, h6, h2, hr, hfuel => by
    obtain ⟨r2, e, g1, -⟩ := L.securePartialRounds_spec (p := p) (s := s) hw hb (f + 2)
    have hl : L.roundsLoop p s w bits (fuel + 1) f (f, r) (numSboxes w f r) =
        if f * w + r < (f + 2) * w + r2 then some (f, r)
        else L.roundsLoop p s w bits fuel (f + 2) (f + 2, r2) (numSboxes w (f + 2) r2) := by
      rw [roundsLoop]
      simp only [e, Option.bind_eq_bind, Option.bind_some]
      rfl
    rw [hl]
    by_cases hlt : f * w + r < (f + 2) * w + r2
    · rw [if_pos hlt]
      exact ⟨f, r, rfl, h6, h2, hr, le_refl _, fun _ => ⟨rfl, rfl⟩⟩
    · rw [if_neg hlt]
      rw [Nat.add_mul] at hlt
      obtain ⟨f1, r1, a1, a2, a3, a4, a5, -⟩ := roundsLoop_spec hw hb fuel (f + 2) r2 (by omega)
        (by omega) g1 (by omega)
      refine ⟨f1, r1, a1, a2, a3, a4, by rw [Nat.add_mul] at a5; omega, fun hw2 => ?_⟩
      exfalso
      have := hr.least _ (ResistsUpTo.step hw hb (ResistsUpTo.trade_many (k := w - 1) hw (by omega)
        (by omega) (n := 2) (g1.resists hw (by omega))))
      have h3 : (w - 1) * 2 + 2 = 2 * w := by omega
      omega

theorem secureRoundsUnpadded_spec {s : PoseidonSbox} {bits w : ℕ} (hw : 0 < w)
    (hb : bits + w ≤ 2 ^ 40) :
    ∃ f r, L.secureRoundsUnpadded p s w bits = some (f, r) ∧ 6 ≤ f ∧ 2 ∣ f ∧
      L.Partial p s bits w f r ∧
      (∀ f' r', 6 ≤ f' → Resists p s bits w f' r' → f * w + r ≤ f' * w + r' + 1) ∧
      (2 ≤ w → f = 6) := by
  obtain ⟨r, e, g1, g3⟩ := L.securePartialRounds_spec (p := p) (s := s) hw hb 6
  obtain ⟨f1, r1, a1, a2, a3, a4, a5, a6⟩ := L.roundsLoop_spec (p := p) (s := s) hw hb
    (bits + w + 4) 6 r (le_refl _) (by decide) g1 (by omega)
  refine ⟨f1, r1, ?_, a2, a3, a4, fun f' r' h6 h' => ?_, fun h => (a6 h).1⟩
  · unfold secureRoundsUnpadded
    simp only [e, Option.bind_eq_bind, Option.bind_some]
    exact a1
  · obtain ⟨n, rfl⟩ := Nat.exists_eq_add_of_le h6
    have := g1.least _ (ResistsUpTo.step hw hb (ResistsUpTo.weaken hw
      (by have := tol_pos; linarith) (ResistsUpTo.zero_iff.2
        (Resists.trade_many (k := w) hw (by omega) (by omega) (n := n) h'))))
    rw [Nat.add_mul]
    have h3 : w * n = n * w := Nat.mul_comm _ _
    omega

/-! ## The security margin -/

/-- The number of partial rounds after padding. -/
noncomputable def padded (r : ℕ) : ℕ := ⌊fl (fl r * fl 1.075) + 1 / 2⌋₊

theorem le_fl_padded (r : ℕ) : (r : ℝ) * 1.075 * (1 - 1 / 1000) ≤ fl (fl r * fl 1.075) := by
  have h := ((Rel.fl_self (b := (r : ℝ)) (by positivity)).mul
    (Rel.fl_self (b := 1.075) (by norm_num))).rnd.2.1
  refine le_trans (mul_le_mul_of_nonneg_left ?_ (by positivity)) h
  unfold ulp
  norm_num

theorem abs_padded_sub_le (r : ℕ) : |(padded r : ℝ) - 1.075 * r| ≤ 1 / 2 + 2⁻¹ ^ 45 * r := by
  have h := ((Rel.fl_self (b := (r : ℝ)) (by positivity)).mul
    (Rel.fl_self (b := 1.075) (by norm_num))).rnd
  have hr : (0 : ℝ) ≤ r := by positivity
  have h1 : (r : ℝ) * 1.075 * (1 - 2⁻¹ ^ 46) ≤ fl (fl r * fl 1.075) := by
    refine le_trans (mul_le_mul_of_nonneg_left ?_ (by positivity)) h.2.1
    unfold ulp
    norm_num
  have h2 : fl (fl r * fl 1.075) ≤ (r : ℝ) * 1.075 * (1 + 2⁻¹ ^ 46) := by
    refine le_trans h.2.2 (mul_le_mul_of_nonneg_left ?_ (by positivity))
    unfold ulp
    norm_num
  have h3 := Nat.floor_le (a := fl (fl r * fl 1.075) + 1 / 2) (by linarith [h.nonneg])
  have h4 := Nat.lt_floor_add_one (fl (fl r * fl 1.075) + 1 / 2)
  unfold padded
  rw [abs_le]
  constructor <;> linarith

theorem le_padded (r : ℕ) : r ≤ padded r := by
  refine Nat.le_floor ?_
  have h := le_fl_padded r
  have : (0 : ℝ) ≤ r := by positivity
  linarith

theorem lt_padded {r : ℕ} (hr : 7 ≤ r) : r + 1 ≤ padded r := by
  refine Nat.le_floor ?_
  have h := le_fl_padded r
  have : (7 : ℝ) ≤ r := by exact_mod_cast hr
  push_cast
  linarith

theorem le_roundEven {y : ℝ} {k : ℤ} (h : (k : ℝ) ≤ y) : k ≤ roundEven y := by
  have := Int.le_floor.2 h
  unfold roundEven
  split_ifs <;> omega

/-- Numbers are not rounded below a smaller integer. -/
theorem le_fl_of_le {n : ℕ} {x : ℝ} (hn : 0 < n) (h : (n : ℝ) ≤ x) (hx : x < 2 ^ 52) :
    (n : ℝ) ≤ fl x := by
  have hpos : 0 < x := lt_of_lt_of_le (by exact_mod_cast hn) h
  have he : Int.log 2 x ≤ 52 := by
    by_contra hne
    have h1 := Int.zpow_log_le_self (b := 2) (by norm_num) hpos
    have h2 : (2 : ℝ) ^ (52 : ℤ) ≤ 2 ^ Int.log 2 x := zpow_le_zpow_right₀ (by norm_num) (by omega)
    push_cast at h1
    have h3 : (2 : ℝ) ^ (52 : ℤ) = 2 ^ 52 := by norm_cast
    linarith
  obtain ⟨k, hk⟩ := Int.le.dest he
  unfold fl
  rw [abs_of_pos hpos]
  have he : Int.log 2 x - 52 = -(k : ℤ) := by omega
  rw [he, zpow_neg, zpow_natCast, div_inv_eq_mul]
  have hle : ((n * 2 ^ k : ℕ) : ℤ) ≤ roundEven (x * 2 ^ k) := le_roundEven (by
    push_cast
    exact mul_le_mul_of_nonneg_right h (by positivity))
  have hle' : (n : ℝ) * 2 ^ k ≤ roundEven (x * 2 ^ k) := by
    have : (((n * 2 ^ k : ℕ) : ℤ) : ℝ) ≤ roundEven (x * 2 ^ k) := by exact_mod_cast hle
    push_cast at this
    exact this
  rw [← div_eq_mul_inv, le_div_iff₀ (by positivity)]
  exact hle'

/-- The literal 0.14 is rounded up. -/
theorem le_fl_014 : (0.14 : ℝ) ≤ fl 0.14 := by
  have hl : Int.log 2 |(0.14 : ℝ)| = -3 := by
    rw [abs_of_pos (by norm_num)]
    apply le_antisymm
    · have : Int.log 2 (0.14 : ℝ) < -2 := by
        rw [← Int.lt_zpow_iff_log_lt (by norm_num) (by norm_num)]
        norm_num
      omega
    · rw [← Int.zpow_le_iff_le_log (by norm_num) (by norm_num)]
      norm_num
  have hfl : ⌊(0.14 : ℝ) / 2 ^ (-3 - 52 : ℤ)⌋ = 5044031582654955 := by
    rw [Int.floor_eq_iff]
    norm_num
  have hr : roundEven ((0.14 : ℝ) / 2 ^ (-3 - 52 : ℤ)) = 5044031582654956 := by
    have hfr : Int.fract ((0.14 : ℝ) / 2 ^ (-3 - 52 : ℤ)) =
        (0.14 : ℝ) / 2 ^ (-3 - 52 : ℤ) - 5044031582654955 := by
      rw [← Int.self_sub_floor, hfl]
      norm_num
    unfold roundEven
    rw [hfr, hfl, if_neg (by norm_num), if_pos (by norm_num)]
    norm_num
  unfold fl
  rw [hl, hr]
  norm_num

/-- At width 1 and level 50 the threshold of the fifth power is attained, and recognised. -/
theorem attackable_tie {bits f : ℕ} (hm : min bits (p - 1).size = 50) :
    L.isAttackable p .exponentiation5 1 f 6 bits = some true := by
  have hmin : minNM p bits = 50 := by
    unfold minNM
    rw [Elem.maxBits_eq, hm]
    exact_mod_cast fl_natCast (n := 50) (by norm_num)
  have h1 : ((7 : ℕ) : ℝ) ≤ fl (fl 0.14 * minNM p bits) := by
    refine le_fl_of_le (by norm_num) ?_ ?_
    · rw [hmin]; have := le_fl_014; push_cast; linarith
    · rw [hmin]
      have h : fl 0.14 ≤ 0.14 * (1 + ulp) ^ 1 := (Rel.fl_self (by norm_num)).2.2
      have := ulp_lt
      rw [pow_one] at h
      norm_num
      linarith
  have h2 : ((6 : ℕ) : ℝ) ≤ fl (fl (fl 0.14 * minNM p bits) - 1) := by
    refine le_fl_of_le (by norm_num) ?_ ?_
    · push_cast at h1 ⊢; linarith
    · have h : fl (fl 0.14 * minNM p bits) ≤ 0.14 * 50 * (1 + ulp) ^ 2 := by
        have := (((Rel.fl_self (b := 0.14) (by norm_num)).mul
          (Rel.refl (b := 50) (by norm_num))).rnd).2.2
        rw [hmin]
        exact this
      have h3 : (1 + ulp) ^ 2 ≤ 2 := by
        have := ulp_lt
        have := ulp_pos
        nlinarith
      norm_num at h ⊢
      linarith
  have h3 : fl (((1 - 1) * f + 6 : ℕ) : ℝ) = 6 := by
    rw [Nat.sub_self, Nat.zero_mul, Nat.zero_add]
    exact_mod_cast fl_natCast (n := 6) (by norm_num)
  show isAttackable5 L p 1 f 6 bits = some true
  unfold isAttackable5
  rw [if_neg (by norm_num)]
  simp only [h3, Option.some.injEq, Bool.or_eq_true, decide_eq_true_eq]
  right
  push_cast at h2
  exact h2

/-- The margin makes up for the rounding errors. -/
theorem Partial.resists_padded {L : Libm} {s : PoseidonSbox} {bits w f r : ℕ} (hw : 0 < w)
    (hb : bits + w ≤ 2 ^ 40) (h : L.Partial p s bits w f r) :
    Resists p s bits w (f + 2) (padded r) := by
  have hres := h.resists hw (by omega)
  rcases le_or_gt 7 r with h7 | h7
  · refine Resists.mono hw (by omega) (lt_padded h7) (r := r + 1) (f := f) ?_
    exact ResistsUpTo.zero_iff.1 (ResistsUpTo.weaken hw tol_pos.le (hres.step hw hb))
  · refine Resists.mono hw (le_refl _) (le_padded r) ?_
    obtain ⟨m, hm, m0, mb, s1, s2, s3, s4⟩ := small (p := p) hw hb
    have c3 : Real.logb 3 2 * (tol * m) ≤ 1 * (tol * m) := mul_le_mul_of_nonneg_right logb3_le s2
    have c5 : Real.logb 5 2 * (tol * m) ≤ 1 * (tol * m) := mul_le_mul_of_nonneg_right logb5_le s2
    rcases Nat.lt_or_ge w 2 with hw1 | hw2
    · obtain rfl : w = 1 := by omega
      have hr6 : (r : ℝ) ≤ 6 := by exact_mod_cast (by omega : r ≤ 6)
      cases s
      · have a := hres.1; have b := hres.2; have c := hres.3
        rw [← hm] at a b c
        refine ⟨?_, ?_, ?_⟩
        · rw [← hm]; push_cast at a ⊢; nlinarith
        · rw [← hm]; push_cast; nlinarith
        · rw [← hm]
          by_contra hcon
          rw [not_lt] at hcon
          push_cast at hcon c
          have e1 : 100 * (r + 1) ≤ 18 * min bits (p - 1).size := by
            have : (100 : ℝ) * (r + 1) ≤ 18 * m := by linarith
            rw [hm] at this
            exact_mod_cast this
          have e2 : 18 * min bits (p - 1).size < 100 * (r + 1) + 1 + 100 := by
            have : (18 : ℝ) * m < 100 * (r + 1) + 1 + 100 := by nlinarith
            rw [hm] at this
            exact_mod_cast this
          have e3 : min bits (p - 1).size ≤ 1000 := by omega
          have e4 : tol * m ≤ 1 / 1000 := by
            have h5 : m ≤ 1000 := by rw [hm]; exact_mod_cast e3
            have : tol ≤ 1 / 1000000 := by unfold tol; norm_num
            nlinarith [tol_pos]
          have e5 : tol ≤ 1 / 1000 := by unfold tol; norm_num
          have e6 : 18 * min bits (p - 1).size < 100 * (r + 1) + 1 := by
            have : (18 : ℝ) * m < 100 * (r + 1) + 1 := by nlinarith
            rw [hm] at this
            exact_mod_cast this
          omega
      · have a := hres.1; have b := hres.2; have c := hres.3
        rw [← hm] at a b c
        refine ⟨?_, ?_, ?_⟩
        · rw [← hm]; push_cast at a ⊢; nlinarith
        · rw [← hm]; push_cast; nlinarith
        · rw [← hm]
          by_contra hcon
          rw [not_lt] at hcon
          push_cast at hcon c
          have e1 : 100 * (r + 1) ≤ 14 * min bits (p - 1).size := by
            have : (100 : ℝ) * (r + 1) ≤ 14 * m := by linarith
            rw [hm] at this
            exact_mod_cast this
          have e2 : 14 * min bits (p - 1).size < 100 * (r + 1) + 1 + 100 := by
            have : (14 : ℝ) * m < 100 * (r + 1) + 1 + 100 := by nlinarith
            rw [hm] at this
            exact_mod_cast this
          have e3 : min bits (p - 1).size ≤ 1000 := by omega
          have e4 : tol * m ≤ 1 / 1000 := by
            have h5 : m ≤ 1000 := by rw [hm]; exact_mod_cast e3
            have : tol ≤ 1 / 1000000 := by unfold tol; norm_num
            nlinarith [tol_pos]
          have e5 : tol ≤ 1 / 1000 := by unfold tol; norm_num
          have e6 : 14 * min bits (p - 1).size < 100 * (r + 1) + 1 := by
            have : (14 : ℝ) * m < 100 * (r + 1) + 1 := by nlinarith
            rw [hm] at this
            exact_mod_cast this
          obtain rfl : r = 6 := by omega
          have := L.attackable_tie (p := p) (bits := bits) (f := f) (by omega)
          rw [h.accepted] at this
          exact absurd this (by decide)
      · have a := hres.1; have b := hres.2
        rw [← hm] at a b
        push_cast at a b
        rw [Real.logb_one] at a
        have e1 : min bits (p - 1).size < r := by
          have : m < r := by nlinarith
          rw [hm] at this
          exact_mod_cast this
        have e2 : m + 1 ≤ r := by
          rw [hm]
          exact_mod_cast e1
        refine ⟨?_, ?_⟩
        · rw [← hm]; push_cast; rw [Real.logb_one]; linarith
        · rw [← hm]; push_cast; linarith
    · have hw2' : (2 : ℝ) ≤ w := by exact_mod_cast hw2
      have hl2 : 1 ≤ Real.logb 2 w := by
        rw [Real.le_logb_iff_rpow_le (by norm_num) (by positivity)]
        simpa using hw2'
      cases s
      · have a := hres.1; have b := hres.2; have c := hres.3
        rw [← hm] at a b c
        refine ⟨?_, ?_, ?_⟩ <;> rw [← hm] <;> push_cast <;> nlinarith
      · have a := hres.1; have b := hres.2; have c := hres.3
        rw [← hm] at a b c
        refine ⟨?_, ?_, ?_⟩ <;> rw [← hm] <;> push_cast <;> nlinarith
      · have a := hres.1; have b := hres.2
        rw [← hm] at a b
        refine ⟨?_, ?_⟩ <;> rw [← hm] <;> push_cast <;> nlinarith

end Libm

end R1CS
