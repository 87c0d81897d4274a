import Verif.Props.Expression
import Verif.Model.Text

/-!
# C82: text forms
-/

set_option linter.unusedSectionVars false

namespace R1CS

variable {p : ℕ} [hp : Fact p.Prime]

/-! ## Decimal numerals -/

/-- Decimal digits. -/
def IsDigit (c : Char) : Prop := ∃ d < 10, c = Nat.digitChar d

theorem IsDigit.ne {c c' : Char} (h : IsDigit c) (h' : ∀ d < 10, Nat.digitChar d ≠ c') : c ≠ c' := by
  obtain ⟨d, hd, rfl⟩ := h
  exact h' d hd

theorem decimal_digits (n : ℕ) : ∀ c ∈ decimal n, IsDigit c := by
  intro c hc
  unfold decimal at hc
  split at hc
  · rw [List.mem_singleton.1 hc]
    exact ⟨0, by decide, rfl⟩
  · obtain ⟨d, hd, rfl⟩ := List.mem_map.1 hc
    exact ⟨d, Nat.digits_lt_base (by decide) (List.mem_reverse.1 hd), rfl⟩

theorem decimal_ne_nil (n : ℕ) : decimal n ≠ [] := by
  unfold decimal
  split
  · decide
  · rename_i h
    simpa using Nat.digits_ne_nil_iff_ne_zero.2 h

theorem digitValue_digitChar : ∀ d < 10, digitValue (Nat.digitChar d) = some d := by decide

theorem parseDigits_map : ∀ (ds : List ℕ) (a : ℕ), (∀ d ∈ ds, d < 10) →
    parseDigits (ds.map Nat.digitChar) a = some (ds.foldl (fun a d => 10 * a + d) a)
  | [], a, _ => rfl
  | d :: ds, a, h => by
    have hd := h d List.mem_cons_self
    have h1 : ∀ d < 10, Nat.digitChar d ≠ '_' := by decide
    rw [List.map_cons, parseDigits, if_neg (h1 d hd), digitValue_digitChar d hd]
    exact parseDigits_map ds _ fun d' hd' => h d' (List.mem_cons_of_mem _ hd')

theorem parseDigits_decimal (n : ℕ) : parseDigits (decimal n) 0 = some n := by
  unfold decimal
  split
  · rename_i h; subst h; rfl
  · rw [parseDigits_map _ _ fun d hd => Nat.digits_lt_base (by decide) (List.mem_reverse.1 hd),
      List.foldl_reverse]
    have := Nat.ofDigits_digits 10 n
    rw [Nat.ofDigits_eq_foldr] at this
    rw [← this]
    congr 2
    · funext a d; simp; ring
    · rw [this]

theorem decimal_injective : Function.Injective decimal := fun m n h => by
  have h1 := parseDigits_decimal m
  rw [h, parseDigits_decimal] at h1
  exact (Option.some.inj h1).symm

theorem head_digit {s : List Char} (hs : s ≠ []) (h : ∀ c ∈ s, IsDigit c) :
    ∃ c t, s = c :: t ∧ IsDigit c := by
  cases s with
  | nil => exact absurd rfl hs
  | cons c t => exact ⟨c, t, rfl, h c List.mem_cons_self⟩

theorem parseBigUint_digits {s : List Char} (hs : s ≠ []) (h : ∀ c ∈ s, IsDigit c) :
    parseBigUint s = parseDigits s 0 := by
  obtain ⟨c, t, rfl, hc⟩ := head_digit hs h
  have h1 := hc.ne (c' := '+') (by decide)
  have h2 := hc.ne (c' := '_') (by decide)
  unfold parseBigUint
  split
  · rename_i heq
    exact absurd (List.cons.inj heq).1 h1
  · simp [h2]

/-- C82: parsing the text of an element gives back the element. -/
theorem C82_round_trip (a : Elem p) : Elem.fromStr p a.display = some (some a) := by
  unfold Elem.fromStr Elem.display
  rw [parseBigUint_digits (decimal_ne_nil _) (decimal_digits _), parseDigits_decimal]
  simp only [Elem.ofNat?_eq_some a.lt]
  rfl

/-- C82 is false for numerals which denote a number not below the order: `from_str` panics rather than
returning `Err`. -/
theorem C82_from_str_refuted {n : ℕ} (hn : p ≤ n) : Elem.fromStr p (decimal n) = none := by
  unfold Elem.fromStr
  rw [parseBigUint_digits (decimal_ne_nil _) (decimal_digits _), parseDigits_decimal]
  simp only
  rw [show Elem.ofNat? p n = none from (by unfold Elem.ofNat?; rw [dif_neg (by omega)])]
  rfl

theorem parseDigits_none : ∀ (s : List Char) (a : ℕ), (∃ c ∈ s, c ≠ '_' ∧ ¬ IsDigit c) →
    parseDigits s a = none
  | [], a, h => by obtain ⟨c, hc, -⟩ := h; exact absurd hc List.not_mem_nil
  | c :: cs, a, ⟨c', hc', h1, h2⟩ => by
    rw [parseDigits]
    rcases List.mem_cons.1 hc' with rfl | hc'
    · rw [if_neg h1]
      have : digitValue c' = none := by
        unfold digitValue
        rw [if_neg]
        rintro ⟨h3, h4⟩
        refine h2 ⟨c'.toNat - 48, ?_, ?_⟩
        · change c'.toNat ≤ 57 at h4; change 48 ≤ c'.toNat at h3; omega
        · change c'.toNat ≤ 57 at h4; change 48 ≤ c'.toNat at h3
          have h5 : ∀ d < 10, Nat.digitChar d = Char.ofNat (48 + d) := by decide
          rw [h5 _ (by omega), show 48 + (c'.toNat - 48) = c'.toNat by omega, Char.ofNat_toNat]
      rw [this]
      rfl
    · split
      · exact parseDigits_none cs a ⟨c', hc', h1, h2⟩
      · cases digitValue c with
        | none => rfl
        | some d => exact parseDigits_none cs _ ⟨c', hc', h1, h2⟩

/-- C82: the empty string and strings with a character which is neither a digit nor an underscore nor
a plus sign are errors. -/
theorem C82_from_str_error {s : List Char}
    (h : s = [] ∨ ∃ c ∈ s, c ≠ '+' ∧ c ≠ '_' ∧ ¬ ∃ d < 10, c = Nat.digitChar d) :
    Elem.fromStr p s = some none := by
  have : parseBigUint s = none := by
    rcases h with rfl | ⟨c, hc, h1, h2, h3⟩
    · rfl
    · unfold parseBigUint
      have key : ∀ t : List Char, c ∈ t →
          (if t.isEmpty then none else if t.head? = some '_' then none else parseDigits t 0) = none := by
        intro t ht
        split
        · rfl
        · split
          · rfl
          · exact parseDigits_none t 0 ⟨c, ht, h2, h3⟩
      refine key _ ?_
      split
      · split
        · exact hc
        · rename_i t _ 
          rcases List.mem_cons.1 hc with h | h
          · exact absurd h h1
          · exact h
      · exact hc
  unfold Elem.fromStr
  rw [this]

/-- The string stands for the number: decimal digits, highest first, with underscores anywhere but at
the start, and possibly a plus sign in front. -/
def Numeral (s : List Char) (n : ℕ) : Prop :=
  ∃ (ds : List ℕ) (d : ℕ) (t : List Char), (s = Nat.digitChar d :: t ∨ s = '+' :: Nat.digitChar d :: t) ∧
    (∀ e ∈ d :: ds, e < 10) ∧ t.filter (fun c => c ≠ '_') = ds.map Nat.digitChar ∧
    n = Nat.ofDigits 10 (d :: ds).reverse

theorem ofDigits_foldl (ds : List ℕ) :
    Nat.ofDigits 10 ds.reverse = ds.foldl (fun a d => 10 * a + d) 0 := by
  rw [Nat.ofDigits_eq_foldr, List.foldr_reverse]
  congr 1
  funext a d
  simp
  ring

theorem digitValue_some {c : Char} {d : ℕ} : digitValue c = some d ↔ d < 10 ∧ c = Nat.digitChar d := by
  constructor
  · intro h
    by_contra hn
    by_cases hc : IsDigit c
    · obtain ⟨e, he, rfl⟩ := hc
      rw [digitValue_digitChar e he] at h
      cases h
      exact hn ⟨he, rfl⟩
    · by_cases hu : c = '_'
      · subst hu; revert h; exact fun h => by cases h
      · have := parseDigits_none [c] 0 ⟨c, by simp, hu, hc⟩
        rw [parseDigits, if_neg hu, h] at this
        cases this
  · rintro ⟨h, rfl⟩
    exact digitValue_digitChar d h

theorem parseDigits_some : ∀ {t : List Char} {a n : ℕ}, parseDigits t a = some n ↔
    ∃ ds : List ℕ, (∀ e ∈ ds, e < 10) ∧ t.filter (fun c => c ≠ '_') = ds.map Nat.digitChar ∧
      n = ds.foldl (fun a d => 10 * a + d) a
  | [], a, n => by
    constructor
    · intro h
      exact ⟨[], by simp, rfl, (Option.some.inj h).symm⟩
    · rintro ⟨ds, -, h, rfl⟩
      obtain rfl : ds = [] := List.map_eq_nil_iff.1 h.symm
      rfl
  | c :: t, a, n => by
    rw [parseDigits]
    have hu : ∀ d < 10, Nat.digitChar d ≠ '_' := by decide
    by_cases hc : c = '_'
    · rw [if_pos hc, parseDigits_some, List.filter_cons_of_neg (by simp [hc])]
    · rw [if_neg hc, List.filter_cons_of_pos (by simp [hc])]
      constructor
      · intro h
        obtain ⟨d, hd, hr⟩ := Option.bind_eq_some_iff.1 h
        obtain ⟨hlt, rfl⟩ := digitValue_some.1 hd
        obtain ⟨ds, h1, h2, h3⟩ := parseDigits_some.1 hr
        refine ⟨d :: ds, ?_, by rw [h2]; rfl, h3⟩
        intro e he
        rcases List.mem_cons.1 he with rfl | he
        · exact hlt
        · exact h1 e he
      · rintro ⟨ds, h1, h2, rfl⟩
        match ds, h1, h2 with
        | d :: ds, h1, h2 =>
          obtain ⟨rfl, h3⟩ := List.cons.inj h2
          rw [digitValue_digitChar d (h1 d (by simp))]
          exact parseDigits_some.2 ⟨ds, fun e he => h1 e (by simp [he]), h3, rfl⟩

theorem parseBigUint_some {s : List Char} {n : ℕ} : parseBigUint s = some n ↔ Numeral s n := by
  have hu : ∀ d < 10, Nat.digitChar d ≠ '_' := by decide
  have hq : ∀ d < 10, Nat.digitChar d ≠ '+' := by decide
  -- the part after the sign
  have key : ∀ s : List Char, (if s.isEmpty then none else if s.head? = some '_' then none
      else parseDigits s 0) = some n ↔ ∃ (ds : List ℕ) (d : ℕ) (t : List Char),
        s = Nat.digitChar d :: t ∧ (∀ e ∈ d :: ds, e < 10) ∧
        t.filter (fun c => c ≠ '_') = ds.map Nat.digitChar ∧
        n = Nat.ofDigits 10 (d :: ds).reverse := by
    intro s
    cases s with
    | nil => simp
    | cons c t =>
      by_cases hc : c = '_'
      · subst hc
        simp only [List.isEmpty_cons, Bool.false_eq_true, if_false, List.head?_cons, if_true]
        constructor
        · intro h; cases h
        · rintro ⟨ds, d, t', h1, h2, _⟩
          exact absurd (List.cons.inj h1).1.symm (hu d (h2 d (by simp)))
      · simp only [List.isEmpty_cons, Bool.false_eq_true, if_false, List.head?_cons,
          Option.some.injEq, hc]
        rw [parseDigits_some, List.filter_cons_of_pos (by simp [hc])]
        constructor
        · rintro ⟨ds, h1, h2, h3⟩
          match ds, h1, h2, h3 with
          | d :: ds, h1, h2, h3 =>
            obtain ⟨rfl, h5⟩ := List.cons.inj h2
            exact ⟨ds, d, t, rfl, h1, h5, by rw [ofDigits_foldl]; exact h3⟩
        · rintro ⟨ds, d, t', h1, h2, h3, h4⟩
          obtain ⟨rfl, rfl⟩ := List.cons.inj h1
          exact ⟨d :: ds, h2, by rw [h3]; rfl, by rw [← ofDigits_foldl]; exact h4⟩
  unfold parseBigUint Numeral
  dsimp only
  rw [key]
  constructor
  · rintro ⟨ds, d, t, h1, h2, h3, h4⟩
    refine ⟨ds, d, t, ?_, h2, h3, h4⟩
    split at h1
    · split at h1
      · exact absurd (List.cons.inj h1).1.symm (hq d (h2 d (by simp)))
      · exact .inr (by rw [h1])
    · exact .inl h1
  · rintro ⟨ds, d, t, h1 | h1, h2, h3, h4⟩
    · refine ⟨ds, d, t, ?_, h2, h3, h4⟩
      subst h1
      split
      · rename_i heq
        exact absurd (List.cons.inj heq).1 (hq d (h2 d (by simp)))
      · rfl
    · refine ⟨ds, d, t, ?_, h2, h3, h4⟩
      subst h1
      simp [hq d (h2 d (by simp))]

/-- C82: exactly which strings `from_str` accepts, for which it panics, and which are errors. -/
theorem C82_from_str_exact (s : List Char) :
    (∀ a : Elem p, Elem.fromStr p s = some (some a) ↔ Numeral s a.n) ∧
    (Elem.fromStr p s = none ↔ ∃ n, Numeral s n ∧ p ≤ n) ∧
    (Elem.fromStr p s = some none ↔ ¬ ∃ n, Numeral s n) := by
  unfold Elem.fromStr
  cases h : parseBigUint s with
  | none =>
    have hn : ∀ n, ¬ Numeral s n := fun n hn => by
      rw [parseBigUint_some.2 hn] at h; cases h
    exact ⟨fun a => ⟨fun h => (by cases h), fun h => absurd h (hn _)⟩,
      ⟨fun h => (by cases h), fun ⟨n, h, _⟩ => absurd h (hn n)⟩, ⟨fun _ ⟨n, h⟩ => hn n h, fun _ => rfl⟩⟩
  | some n =>
    have hn := parseBigUint_some.1 h
    have hu : ∀ {m}, Numeral s m → m = n := fun hm =>
      Option.some.inj ((parseBigUint_some.2 hm).symm.trans h)
    dsimp only
    by_cases hlt : n < p
    · rw [Elem.ofNat?_eq_some hlt]
      refine ⟨fun a => ⟨fun h => ?_, fun h => ?_⟩, ⟨fun h => (by cases h), ?_⟩, ⟨fun h => (by cases h),
        fun h => absurd ⟨n, hn⟩ h⟩⟩
      · cases h; exact hn
      · have := hu h; subst this; rfl
      · rintro ⟨m, h1, h2⟩
        have := hu h1; omega
    · rw [show Elem.ofNat? p n = none from (by unfold Elem.ofNat?; rw [dif_neg hlt])]
      refine ⟨fun a => ⟨fun h => (by cases h), fun h => ?_⟩, ⟨fun _ => ⟨n, hn, by omega⟩, fun _ => rfl⟩,
        ⟨fun h => (by cases h), fun h => absurd ⟨n, hn⟩ h⟩⟩
      have := hu h
      have := a.lt
      omega

/-- Underscores and a plus sign. -/
example : Numeral "+1_0".toList 10 ∧ Elem.fromStr 13 "+1_0".toList = some (some 10) ∧
    Elem.fromStr 13 "++1".toList = some none ∧ Elem.fromStr 13 "_1".toList = some none ∧
    Elem.fromStr 13 "1_3".toList = none :=
  ⟨⟨[0], 1, ['_', '0'], .inr rfl, by decide, by decide, by decide⟩, by decide +kernel⟩

/-! ## Lists and strings -/

/-- C82: `concat` puts the slices one after the other. -/
theorem C82_concat {α : Type} (vecs : List (List α)) : concat vecs = vecs.flatten := by
  have : ∀ (vecs : List (List α)) (r : List α),
      vecs.foldl (fun result v => result ++ v) r = r ++ vecs.flatten := by
    intro vecs
    induction vecs with
    | nil => intro r; simp
    | cons v vs ih => intro r; rw [List.foldl_cons, ih]; simp
  exact (this vecs []).trans (by simp)

theorem join_foldl (sep : List Char) : ∀ (ss : List (List Char)) (b : List Char), b ≠ [] →
    ss.foldl (fun builder s => (if builder.isEmpty then builder else builder ++ sep) ++ s) b =
      b ++ (ss.map (sep ++ ·)).flatten
  | [], b, _ => by simp
  | s :: ss, b, hb => by
    have : b.isEmpty = false := by simpa using hb
    rw [List.foldl_cons, this]
    simp only [Bool.false_eq_true, if_false]
    rw [join_foldl sep ss _ (by simp [hb])]
    simp

theorem join_cons (sep : List Char) {s : List Char} (hs : s ≠ []) (ss : List (List Char)) :
    join sep (s :: ss) = s ++ (ss.map (sep ++ ·)).flatten := by
  unfold join
  rw [List.foldl_cons]
  simp only [List.isEmpty_nil, if_true, List.nil_append]
  exact join_foldl sep ss s hs

theorem intercalate_eq (sep : List Char) : ∀ (ss : List (List Char)) (s : List Char),
    sep.intercalate (s :: ss) = s ++ (ss.map (sep ++ ·)).flatten
  | [], s => by simp [List.intercalate]
  | t :: ss, s => by
    rw [List.intercalate_cons_cons, intercalate_eq sep ss t]
    simp

/-- C82: `join` puts the separator between the strings, provided the first is not empty. -/
theorem C82_join_partial (sep : List Char) {ss : List (List Char)} (h : ss.head? ≠ some []) :
    join sep ss = sep.intercalate ss := by
  cases ss with
  | nil => rfl
  | cons s ss => rw [join_cons sep (by simpa using h), intercalate_eq]

/-- C82 is false for `join` when the first string is empty: the separator is missing. -/
theorem C82_join_refuted :
    join [','] [[], ['a']] = ['a'] ∧ [','].intercalate [[], ['a']] = [',', 'a'] := by
  decide

/-! ## Expressions -/

theorem split_inj {c : Char} {x x' y y' : List Char} (hx : c ∉ x) (hx' : c ∉ x')
    (h : x ++ c :: y = x' ++ c :: y') : x = x' ∧ y = y' := by
  induction x generalizing x' with
  | nil =>
    cases x' with
    | nil => exact ⟨rfl, (List.cons.inj h).2⟩
    | cons a t =>
      exact absurd (List.cons.inj h).1 (fun e => hx' (e ▸ List.mem_cons_self))
  | cons a t ih =>
    cases x' with
    | nil => exact absurd (List.cons.inj h).1 (fun e => hx (e ▸ List.mem_cons_self))
    | cons a' t' =>
      obtain ⟨h1, h2⟩ := List.cons.inj h
      obtain ⟨h3, h4⟩ := ih (fun hm => hx (List.mem_cons_of_mem _ hm))
        (fun hm => hx' (List.mem_cons_of_mem _ hm)) h2
      exact ⟨by rw [h1, h3], h4⟩

theorem notMem_decimal {c : Char} (h : ∀ d < 10, Nat.digitChar d ≠ c) (n : ℕ) : c ∉ decimal n :=
  fun hm => (decimal_digits n c hm).ne h rfl

/-- C82: different wires have different texts. -/
theorem C82_wire_injective {j k : Wire} (h : Wire.display j = Wire.display k) : j = k := by
  unfold Wire.display at h
  split at h <;> split at h
  · omega
  · exact absurd (List.cons.inj h).1 (by decide)
  · exact absurd (List.cons.inj h).1 (by decide)
  · exact decimal_injective (List.append_cancel_left h)

namespace Expression

/-- The form of a term. -/
theorem displayTerm_cases (kv : Wire × Elem p) :
    (kv.1 = 0 ∧ displayTerm kv = decimal kv.2.n) ∨
    (kv.1 ≠ 0 ∧ kv.2 = 1 ∧ displayTerm kv = "wire_".toList ++ decimal kv.1) ∨
    (kv.1 ≠ 0 ∧ kv.2 ≠ 1 ∧
      displayTerm kv = "wire_".toList ++ decimal kv.1 ++ " * ".toList ++ decimal kv.2.n) := by
  unfold displayTerm
  by_cases h : kv.1 = 0
  · left; exact ⟨h, by rw [if_pos h]; rfl⟩
  · right
    rw [if_neg h]
    have hw : Wire.display kv.1 = "wire_".toList ++ decimal kv.1 := by
      unfold Wire.display; rw [if_neg h]
    by_cases h1 : kv.2 = 1
    · left; exact ⟨h, h1, by rw [if_pos ((Elem.isOne_iff _).2 h1), hw]⟩
    · right
      refine ⟨h, h1, ?_⟩
      rw [if_neg (fun h2 => h1 ((Elem.isOne_iff _).1 h2)), hw]
      rfl

theorem notMem_displayTerm {c : Char} (h : ∀ d < 10, Nat.digitChar d ≠ c)
    (hw : c ∉ "wire_".toList) (hs : c ∉ " * ".toList) (kv : Wire × Elem p) : c ∉ displayTerm kv := by
  have h1 := notMem_decimal h kv.1
  have h2 := notMem_decimal h kv.2.n
  rcases displayTerm_cases kv with ⟨-, e⟩ | ⟨-, -, e⟩ | ⟨-, -, e⟩ <;> rw [e]
  · exact h2
  · rw [List.mem_append]; exact fun h => h.elim hw h1
  · rw [List.mem_append, List.mem_append, List.mem_append]
    rintro (((h | h) | h) | h)
    exacts [hw h, h1 h, hs h, h2 h]

theorem displayTerm_ne_nil (kv : Wire × Elem p) : displayTerm kv ≠ [] := by
  rcases displayTerm_cases kv with ⟨-, e⟩ | ⟨-, -, e⟩ | ⟨-, -, e⟩ <;> rw [e]
  · exact decimal_ne_nil _
  · exact List.cons_ne_nil _ _
  · exact List.cons_ne_nil _ _

theorem decimal_ne_w (n : ℕ) (t : List Char) : decimal n ≠ "wire_".toList ++ t := by
  intro h
  have : 'w' ∈ decimal n := by rw [h]; exact List.mem_cons_self
  exact notMem_decimal (by decide) n this

theorem displayTerm_injective {a b : Wire × Elem p} (h : displayTerm a = displayTerm b) : a = b := by
  have sp : ∀ n, ' ' ∉ decimal n := fun n => notMem_decimal (by decide) n
  rcases displayTerm_cases a with ⟨ha, e⟩ | ⟨ha, ha', e⟩ | ⟨ha, ha', e⟩ <;>
    rcases displayTerm_cases b with ⟨hb, f⟩ | ⟨hb, hb', f⟩ | ⟨hb, hb', f⟩ <;> rw [e, f] at h
  · exact Prod.ext (ha.trans hb.symm) (Elem.ext_n (decimal_injective h))
  · exact absurd h (decimal_ne_w _ _)
  · rw [List.append_assoc, List.append_assoc] at h
    exact absurd h (decimal_ne_w _ _)
  · exact absurd h.symm (decimal_ne_w _ _)
  · exact Prod.ext (decimal_injective (List.append_cancel_left h)) (ha'.trans hb'.symm)
  · rw [List.append_assoc, List.append_assoc] at h
    have h1 := List.append_cancel_left h
    exact absurd (h1 ▸ (by simp : ' ' ∈ decimal b.1 ++ (" * ".toList ++ decimal b.2.n)))
      (sp a.1)
  · rw [List.append_assoc, List.append_assoc] at h
    exact absurd h.symm (decimal_ne_w _ _)
  · rw [List.append_assoc, List.append_assoc] at h
    have h1 := List.append_cancel_left h
    exact absurd (h1 ▸ (by simp : ' ' ∈ decimal a.1 ++ (" * ".toList ++ decimal a.2.n)))
      (sp b.1)
  · rw [List.append_assoc, List.append_assoc, List.append_assoc, List.append_assoc] at h
    have h1 := List.append_cancel_left h
    obtain ⟨h2, h3⟩ := split_inj (c := ' ') (sp a.1) (sp b.1) h1
    exact Prod.ext (decimal_injective h2)
      (Elem.ext_n (decimal_injective (List.append_cancel_left (as := ['*', ' ']) h3)))

theorem terms_injective : ∀ {as bs : List (Wire × Elem p)},
    (as.map fun a => " + ".toList ++ displayTerm a).flatten =
      (bs.map fun b => " + ".toList ++ displayTerm b).flatten → as = bs
  | [], [], _ => rfl
  | [], b :: bs, h => by simp at h
  | a :: as, [], h => by simp at h
  | a :: as, b :: bs, h => by
    rw [List.map_cons, List.map_cons, List.flatten_cons, List.flatten_cons, List.append_assoc,
      List.append_assoc] at h
    have h := List.append_cancel_left h
    have np : ∀ kv : Wire × Elem p, '+' ∉ displayTerm kv :=
      notMem_displayTerm (by decide) (by decide) (by decide)
    have key : ∀ (t t' : List Char) (l l' : List (Wire × Elem p)), '+' ∉ t → '+' ∉ t' →
        t ++ (l.map fun a => " + ".toList ++ displayTerm a).flatten =
          t' ++ (l'.map fun a => " + ".toList ++ displayTerm a).flatten →
        t = t' ∧ (l.map fun a => " + ".toList ++ displayTerm a).flatten =
          (l'.map fun a => " + ".toList ++ displayTerm a).flatten := by
      intro t t' l l' ht ht' h
      have mem : ∀ (x : Wire × Elem p) (l : List (Wire × Elem p)) (t : List Char),
          '+' ∈ t ++ ((x :: l).map fun a => " + ".toList ++ displayTerm a).flatten := by
        intro x l t; simp
      cases l with
      | nil =>
        cases l' with
        | nil => simpa using h
        | cons x l' =>
          refine absurd (h ▸ mem x l' t') ?_
          simpa using ht
      | cons x l =>
        cases l' with
        | nil =>
          refine absurd (h ▸ mem x l t) ?_
          simpa using ht'
        | cons y l' =>
          have sp : ∀ t : List Char, '+' ∉ t → '+' ∉ t ++ [' '] := by
            intro t ht; simp [ht]
          have h' : (t ++ [' ']) ++ '+' :: (' ' :: displayTerm x ++
              (l.map fun a => " + ".toList ++ displayTerm a).flatten) =
              (t' ++ [' ']) ++ '+' :: (' ' :: displayTerm y ++
              (l'.map fun a => " + ".toList ++ displayTerm a).flatten) := by
            simpa using h
          obtain ⟨h1, h2⟩ := split_inj (sp t ht) (sp t' ht') h'
          refine ⟨List.append_cancel_right h1, ?_⟩
          simp only [List.map_cons, List.flatten_cons, List.append_assoc]
          simpa using h2
    obtain ⟨h1, h2⟩ := key _ _ as bs (np a) (np b) h
    rw [displayTerm_injective h1, terms_injective h2]

theorem display_eq {e : Expression p} (he : e.Canonical) :
    e.display = match e.coefficients with
      | [] => ['0']
      | a :: as => displayTerm a ++ (as.map fun a => " + ".toList ++ displayTerm a).flatten := by
  have hs : e.coefficients.insertionSort (fun a b => Wire.cmp a.1 b.1 ≠ .gt) = e.coefficients := by
    refine List.Pairwise.insertionSort_eq (he.1.imp fun h => ?_)
    rw [h]; decide
  unfold display
  simp only [hs]
  cases e.coefficients with
  | nil => rfl
  | cons a as =>
    simp only [List.map_cons, List.isEmpty_cons, Bool.false_eq_true, if_false]
    rw [join_cons _ (displayTerm_ne_nil a), List.map_map]
    rfl

theorem display_injective {e f : Expression p} (he : e.Canonical) (hf : f.Canonical)
    (h : e.display = f.display) : e = f := by
  have zero : ∀ (a : Wire × Elem p) (as : List (Wire × Elem p)), a.2 ≠ 0 →
      displayTerm a ++ (as.map fun a => " + ".toList ++ displayTerm a).flatten ≠ ['0'] := by
    intro a as h0 h
    cases as with
    | cons b bs =>
      have : '+' ∈ ['0'] := by rw [← h]; simp
      exact absurd this (by decide)
    | nil =>
      rw [List.map_nil, List.flatten_nil, List.append_nil] at h
      rcases displayTerm_cases a with ⟨ha, e⟩ | ⟨ha, ha', e⟩ | ⟨ha, ha', e⟩ <;> rw [e] at h
      · exact h0 (Elem.ext_n (decimal_injective h))
      · exact absurd (List.cons.inj h).1 (by decide)
      · exact absurd (List.cons.inj h).1 (by decide)
  have h0 := he.2
  have h1 := hf.2
  rw [display_eq he, display_eq hf] at h
  apply Expression.ext
  cases hc : e.coefficients with
  | nil =>
    cases hd : f.coefficients with
    | nil => rfl
    | cons b bs =>
      rw [hc, hd] at h
      exact absurd h.symm (zero b bs (h1 b (by rw [hd]; exact List.mem_cons_self)))
  | cons a as =>
    cases hd : f.coefficients with
    | nil =>
      rw [hc, hd] at h
      exact absurd h (zero a as (h0 a (by rw [hc]; exact List.mem_cons_self)))
    | cons b bs =>
      rw [hc, hd] at h
      refine terms_injective ?_
      simp only [List.map_cons, List.flatten_cons, List.append_assoc]
      simp only at h
      rw [h]

end Expression

open Expression

/-- C82: the text of an expression determines the expression. -/
theorem C82_expression_injective {e f : Expression p} (he : e.Built) (hf : f.Built) :
    e.display = f.display ↔ e = f :=
  ⟨display_injective (C10_canonical e he) (C10_canonical f hf), fun h => by rw [h]⟩

/-- C82: so does the text of a boolean expression. -/
theorem C82_boolean_injective {x y : BooleanExpression p} (hx : x.expression.Built)
    (hy : y.expression.Built) : x.debug = y.debug ↔ x = y := by
  refine ⟨fun h => ?_, fun h => by rw [h]⟩
  unfold BooleanExpression.debug at h
  rw [List.append_assoc, List.append_assoc, List.append_cancel_left_eq,
    List.append_cancel_right_eq] at h
  exact BooleanExpression.ext ((C82_expression_injective hx hy).1 h)

example : (BooleanExpression.true : BooleanExpression 13).debug = "BooleanExpression[1]".toList := by
  decide +kernel

/-! ## Constraints -/

namespace Constraint

/-- The forms of a factor. -/
inductive Shape : List Char → Prop
  | paren (s : List Char) (h : ')' ∉ s) : Shape ('(' :: s ++ [')'])
  | const (m : ℕ) : Shape (decimal m)
  | wire (k : ℕ) : Shape ("wire_".toList ++ decimal k)
  | term (k m : ℕ) : Shape ("wire_".toList ++ (decimal k ++ ' ' :: '*' :: ' ' :: decimal m))

theorem decimal_head_ne {c : Char} (h : ∀ d < 10, Nat.digitChar d ≠ c) (n : ℕ) (t u : List Char) :
    decimal n ++ t ≠ c :: u := by
  intro e
  obtain ⟨c', t', h1, h2⟩ := head_digit (decimal_ne_nil n) (decimal_digits n)
  rw [h1] at e
  exact h2.ne h (List.cons.inj e).1

theorem wire_term {B B' : List Char} (hB : Shape B) {m : ℕ}
    (h : B = decimal m ++ ' ' :: B') : False := by
  cases hB with
  | paren s _ => exact decimal_head_ne (c := '(') (by decide) m _ _ h.symm
  | const m' =>
    have : ' ' ∈ decimal m' := by rw [h]; simp
    exact notMem_decimal (by decide) m' this
  | wire k => exact decimal_head_ne (c := 'w') (by decide) m _ _ h.symm
  | term k m' => exact decimal_head_ne (c := 'w') (by decide) m _ _ h.symm

theorem Shape.split {A B A' B' : List Char} (hA : Shape A) (hB : Shape B) (hA' : Shape A')
    (hB' : Shape B') (h : A ++ ' ' :: '*' :: ' ' :: B = A' ++ ' ' :: '*' :: ' ' :: B') :
    A = A' ∧ B = B' := by
  have sp : ∀ n, ' ' ∉ decimal n := fun n => notMem_decimal (by decide) n
  have tail : ∀ {x y : List Char}, '*' :: ' ' :: x = '*' :: ' ' :: y → x = y := fun h =>
    (List.cons.inj (List.cons.inj h).2).2
  cases hA with
  | paren s hs =>
    cases hA' with
    | paren s' hs' =>
      rw [List.cons_append, List.cons_append, List.append_assoc, List.append_assoc] at h
      obtain ⟨h1, h2⟩ := split_inj hs hs' (List.cons.inj h).2
      exact ⟨by rw [h1], (List.cons.inj (List.cons.inj (List.cons.inj h2).2).2).2⟩
    | const m => exact absurd h.symm (decimal_head_ne (by decide) m _ _)
    | wire k => exact absurd (List.cons.inj h).1 (by decide)
    | term k m => exact absurd (List.cons.inj h).1 (by decide)
  | const m =>
    cases hA' with
    | paren s' hs' => exact absurd h (decimal_head_ne (by decide) m _ _)
    | const m' =>
      obtain ⟨h1, h2⟩ := split_inj (sp m) (sp m') h
      exact ⟨h1, tail h2⟩
    | wire k => exact absurd h (decimal_head_ne (by decide) m _ _)
    | term k m' => exact absurd h (decimal_head_ne (by decide) m _ _)
  | wire k =>
    cases hA' with
    | paren s' hs' => exact absurd (List.cons.inj h).1 (by decide)
    | const m => exact absurd h.symm (decimal_head_ne (by decide) m _ _)
    | wire k' =>
      rw [List.append_assoc, List.append_assoc] at h
      obtain ⟨h1, h2⟩ := split_inj (sp k) (sp k') (List.append_cancel_left h)
      exact ⟨by rw [h1], tail h2⟩
    | term k' m =>
      rw [List.append_assoc, List.append_assoc] at h
      have h := List.append_cancel_left h
      rw [List.append_assoc] at h
      obtain ⟨h1, h2⟩ := split_inj (sp k) (sp k') h
      exact (wire_term hB (tail h2)).elim
  | term k m =>
    cases hA' with
    | paren s' hs' => exact absurd (List.cons.inj h).1 (by decide)
    | const m' => exact absurd h.symm (decimal_head_ne (by decide) m' _ _)
    | wire k' =>
      simp only [List.append_assoc, List.cons_append] at h
      have h := List.append_cancel_left h
      obtain ⟨h1, h2⟩ := split_inj (sp k) (sp k') h
      exact (wire_term hB' (tail h2).symm).elim
    | term k' m' =>
      simp only [List.append_assoc, List.cons_append] at h
      have h := List.append_cancel_left h
      obtain ⟨h1, h2⟩ := split_inj (sp k) (sp k') h
      obtain ⟨h3, h4⟩ := split_inj (sp m) (sp m') (tail h2)
      exact ⟨by rw [h1, h3], tail h4⟩

theorem notMem_display {c : Char} (h : ∀ d < 10, Nat.digitChar d ≠ c) (hw : c ∉ "wire_".toList)
    (hs : c ∉ " * ".toList) (hp : c ∉ " + ".toList) {e : Expression p} (he : e.Canonical) :
    c ∉ e.display := by
  rw [display_eq he]
  cases e.coefficients with
  | nil => 
    have := notMem_decimal h 0
    exact this
  | cons a as =>
    simp only [List.mem_append, List.mem_flatten, List.mem_map, not_or, not_exists, not_and]
    refine ⟨notMem_displayTerm h hw hs a, ?_⟩
    rintro _ ⟨b, _, rfl⟩
    rw [List.mem_append]
    exact fun h' => h'.elim hp (notMem_displayTerm h hw hs b)

theorem shape_displayFactor {e : Expression p} (he : e.Canonical) : Shape (displayFactor e) := by
  unfold displayFactor
  split
  · exact .paren _ (notMem_display (by decide) (by decide) (by decide) (by decide) he)
  · rename_i h
    unfold numTerms at h
    rw [display_eq he]
    cases hc : e.coefficients with
    | nil => exact .const 0
    | cons a as =>
      have : as = [] := by
        rw [hc, List.length_cons] at h
        exact List.length_eq_zero_iff.1 (by omega)
      subst this
      simp only [List.map_nil, List.flatten_nil, List.append_nil]
      rcases displayTerm_cases a with ⟨-, e⟩ | ⟨-, -, e⟩ | ⟨-, -, e⟩ <;> rw [e]
      · exact .const _
      · exact .wire _
      · rw [List.append_assoc, List.append_assoc]
        exact .term _ _

theorem notMem_displayFactor {e : Expression p} (he : e.Canonical) : '=' ∉ displayFactor e := by
  have := notMem_display (c := '=') (by decide) (by decide) (by decide) (by decide) he
  unfold displayFactor
  split
  · simp [this]
  · exact this

theorem displayFactor_injective {e f : Expression p} (he : e.Canonical) (hf : f.Canonical)
    (h : displayFactor e = displayFactor f) : e = f := by
  have ne : ∀ {e f : Expression p}, e.Canonical →
      e.display ≠ '(' :: f.display ++ [')'] := by
    intro e f he h
    have : '(' ∈ e.display := by rw [h]; simp
    exact notMem_display (by decide) (by decide) (by decide) (by decide) he this
  unfold displayFactor at h
  split at h <;> split at h
  · exact display_injective he hf (List.append_cancel_right (List.cons.inj h).2)
  · exact absurd h.symm (ne hf)
  · exact absurd h (ne he)
  · exact display_injective he hf h

end Constraint

/-- C82: the text of a constraint determines the constraint, although factors with one term have no
parentheses. -/
theorem C82_constraint_injective {k k' : Constraint p} (ha : k.a.Built) (hb : k.b.Built)
    (hc : k.c.Built) (ha' : k'.a.Built) (hb' : k'.b.Built) (hc' : k'.c.Built) :
    k.display = k'.display ↔ k = k' := by
  refine ⟨fun h => ?_, fun h => by rw [h]⟩
  replace ha := C10_canonical _ ha
  replace hb := C10_canonical _ hb
  replace hc := C10_canonical _ hc
  replace ha' := C10_canonical _ ha'
  replace hb' := C10_canonical _ hb'
  replace hc' := C10_canonical _ hc'
  have form : ∀ k : Constraint p, k.display =
      (Constraint.displayFactor k.a ++ ' ' :: '*' :: ' ' :: Constraint.displayFactor k.b ++ [' ']) ++
        '=' :: ' ' :: k.c.display := by
    intro k
    unfold Constraint.display
    simp
  have ni : ∀ {k : Constraint p}, k.a.Canonical → k.b.Canonical →
      '=' ∉ Constraint.displayFactor k.a ++ ' ' :: '*' :: ' ' :: Constraint.displayFactor k.b ++
        [' '] := by
    intro k ha hb
    have h1 := Constraint.notMem_displayFactor ha
    have h2 := Constraint.notMem_displayFactor hb
    simp [h1, h2]
  rw [form, form] at h
  obtain ⟨h1, h2⟩ := split_inj (ni ha hb) (ni ha' hb') h
  obtain ⟨h3, h4⟩ := Constraint.Shape.split (Constraint.shape_displayFactor ha)
    (Constraint.shape_displayFactor hb) (Constraint.shape_displayFactor ha')
    (Constraint.shape_displayFactor hb') (List.append_cancel_right h1)
  cases k with | mk a b c =>
  cases k' with | mk a' b' c' =>
  rw [show a = a' from Constraint.displayFactor_injective ha ha' h3,
    show b = b' from Constraint.displayFactor_injective hb hb' h4,
    show c = c' from display_injective hc hc' (List.cons.inj h2).2]

/-! ## Examples -/

example : Elem.fromStr 11 "1_0".toList = some (some 10) ∧ Elem.fromStr 11 "+7".toList = some (some 7) ∧
    Elem.fromStr 11 "11".toList = none ∧ Elem.fromStr 11 "-1".toList = some none ∧
    (10 : Elem 11).display = "10".toList := by decide

/-- The constant term is printed last; the constant wire itself as the number one. -/
example : (Expression.ofWire 2 + (Expression.ofWire 1).mulElem 3 + Expression.ofElem 5 :
      Expression 11).display = "wire_1 * 3 + wire_2 + 5".toList ∧
    (Expression.ofElem 0 : Expression 11).display = "0".toList ∧
    Constraint.display (⟨(Expression.ofWire 1).mulElem 3, Expression.ofWire 2 + Expression.ofElem 1,
      Expression.ofWire 3⟩ : Constraint 11) = "wire_1 * 3 * (wire_2 + 1) = wire_3".toList := by decide

end R1CS
