import Verif.Str.Spec

/-!
# C138: converting text to floating-point numbers

Source: `/repo/fly/types/string/detail/converter.hpp` 24-126 and `/repo/fly/fly.hpp` 39-43, reached by
`String::convert` (`/repo/fly/types/string/string.hpp` 810-833). There are two versions of the code: compilers with
`std::from_chars` for floating-point types use it, the others use `std::stof`, `std::stod` and `std::stold`.

What the two standard functions recognise is modelled here (as far as it decides about the text); the last step, from
the number written to the nearest value of the type or "out of range", is an input of the model (`round`). The decimal
point of `std::stof` is that of the program's locale, one character.
-/

namespace Verif.Str.Floats

open Verif.Str

/-! ## What a text can denote -/

/-- `num m b e` is the number `m * b ^ e`. -/
inductive Den where
  | num (mant base : Nat) (exp : Int)
  | inf
  | nan
deriving DecidableEq, Repr

/-! ## Model -/

/-- A decimal digit, as a test. -/
def isDec (c : Nat) : Bool := decide (AsciiDigit c)

/-- A hexadecimal digit, as a test. -/
def isHex (c : Nat) : Bool := decide (AsciiHex c)

/-- The digits before and after the decimal point and what is left, as `strtod` and `from_chars` read them (called from
converter.hpp 33, 57, 84, 111). -/
def scanMant (dig : Nat → Bool) (point : Nat) (s : List Nat) : Option (List Nat × List Nat × List Nat) :=
  let i := s.takeWhile dig
  let r := s.dropWhile dig
  let f := if r.head? = some point then r.tail.takeWhile dig else []
  let r' := if r.head? = some point then r.tail.dropWhile dig else r
  if i = [] ∧ f = [] then none else some (i, f, r')

/-- The exponent, with the letter `lower` in either case, and what is left; a letter without digits is left alone
(called from converter.hpp 33, 57, 84, 111). -/
def scanExp (lower : Nat) (s : List Nat) : Int × List Nat :=
  match s with
  | [] => (0, [])
  | c :: t =>
    if c = lower ∨ c + 0x20 = lower then
      let u := if t.head? = some 0x2b ∨ t.head? = some 0x2d then t.tail else t
      let n : Int := numeral 10 (u.takeWhile isDec)
      if u.takeWhile isDec = [] then (0, s) else (if t.head? = some 0x2d then -n else n, u.dropWhile isDec)
    else (0, s)

/-- A capital letter as a small one. -/
def low (c : Nat) : Nat := if 0x41 ≤ c ∧ c ≤ 0x5a then c + 0x20 else c

/-- A character of the brackets after `nan`. -/
def isNanChar (c : Nat) : Bool := decide (AsciiDigit c ∨ AsciiUpper c ∨ AsciiLower c ∨ c = 0x5f)

/-- `inf`, `infinity`, `nan` and `nan(...)` in any case (called from converter.hpp 33, 57, 84, 111). -/
def scanSpecial (s : List Nat) : Option (Den × List Nat) :=
  if (s.take 8).map low = [0x69, 0x6e, 0x66, 0x69, 0x6e, 0x69, 0x74, 0x79] then some (.inf, s.drop 8)
  else if (s.take 3).map low = [0x69, 0x6e, 0x66] then some (.inf, s.drop 3)
  else if (s.take 3).map low = [0x6e, 0x61, 0x6e] then
    let r := s.drop 3
    if r.head? = some 0x28 ∧ (r.tail.dropWhile isNanChar).head? = some 0x29
    then some (.nan, (r.tail.dropWhile isNanChar).tail) else some (.nan, r)
  else none

/-- A number without its sign, decimal (called from converter.hpp 33, 57, 84, 111). -/
def scanDecimal (point : Nat) (s : List Nat) : Option (Den × List Nat) :=
  match scanMant isDec point s with
  | some (i, f, r) => some (.num (numeral 10 (i ++ f)) 10 ((scanExp 0x65 r).1 - f.length), (scanExp 0x65 r).2)
  | none => scanSpecial s

/-- A number without its sign, as `strtod` reads it: hexadecimal too; `0x` without digits after it is the number 0
followed by other text (called from converter.hpp 57, 84, 111). -/
def scanStrtod (point : Nat) (s : List Nat) : Option (Den × List Nat) :=
  if s.head? = some 0x30 ∧ (s.tail.head? = some 0x78 ∨ s.tail.head? = some 0x58) then
    match scanMant isHex point (s.drop 2) with
    | some (i, f, r) =>
      some (.num (numeral 16 (i ++ f)) 2 ((scanExp 0x70 r).1 - 4 * f.length), (scanExp 0x70 r).2)
    | none => some (.num 0 10 0, s.drop 1)
  else scanDecimal point s

variable {F : Type}

/-- The end of the conversions: nothing may be left over, and the number must be in range
(converter.hpp 35-40, 59-69). -/
def finish (round : Bool → Den → Option F) (neg : Bool) : Option (Den × List Nat) → Option F
  | some (d, r) => if r = [] then round neg d else none
  | none => none

/-- `Converter<T>::convert` with `std::from_chars` (converter.hpp 27-41): only a minus may precede the number. -/
def convertFromChars (round : Bool → Den → Option F) (s : List Nat) : Option F :=
  if s.head? = some 0x2d then finish round true (scanDecimal 0x2e s.tail)
  else finish round false (scanDecimal 0x2e s)

/-- White space as `isspace` sees it. -/
def isBlank (c : Nat) : Bool := decide (AsciiSpace c)

/-- `Converter<float>`, `Converter<double>` and `Converter<long double>` with `std::stof` and its kin
(converter.hpp 46-124): blanks and a sign may precede the number. The exceptions of an empty match and of a number out
of range become an empty result. -/
def convertStof (point : Nat) (round : Bool → Den → Option F) (s : List Nat) : Option F :=
  let t := s.dropWhile isBlank
  if t.head? = some 0x2d then finish round true (scanStrtod point t.tail)
  else if t.head? = some 0x2b then finish round false (scanStrtod point t.tail)
  else finish round false (scanStrtod point t)

/-! ## Specification -/

/-- Digits with at most one decimal point among them: the text, the digits before and those after the point. There is
at least one digit. -/
inductive Mantissa (D : Nat → Prop) (point : Nat) : List Nat → List Nat → List Nat → Prop
  | whole {i} : i ≠ [] → (∀ c ∈ i, D c) → Mantissa D point i i []
  | point {i f} : i ≠ [] ∨ f ≠ [] → (∀ c ∈ i, D c) → (∀ c ∈ f, D c) → Mantissa D point (i ++ point :: f) i f

/-- An exponent: nothing, or a letter, perhaps a sign, and at least one decimal digit. -/
inductive Exponent (small capital : Nat) : List Nat → Int → Prop
  | none : Exponent small capital [] 0
  | bare {c ds} : c = small ∨ c = capital → ds ≠ [] → (∀ d ∈ ds, AsciiDigit d) →
      Exponent small capital (c :: ds) (numeral 10 ds)
  | plus {c ds} : c = small ∨ c = capital → ds ≠ [] → (∀ d ∈ ds, AsciiDigit d) →
      Exponent small capital (c :: 0x2b :: ds) (numeral 10 ds)
  | minus {c ds} : c = small ∨ c = capital → ds ≠ [] → (∀ d ∈ ds, AsciiDigit d) →
      Exponent small capital (c :: 0x2d :: ds) (-(numeral 10 ds : Int))

/-- A word of small letters, each of them written small or as a capital letter. -/
inductive Word : List Nat → List Nat → Prop
  | nil : Word [] []
  | cons {c w s ws} : c = w ∨ c + 0x20 = w → Word s ws → Word (c :: s) (w :: ws)

/-- A decimal number without its sign, or a name of infinity or "not a number" in any case. -/
inductive Decimal (point : Nat) : List Nat → Den → Prop
  | num {m i f x e} : Mantissa AsciiDigit point m i f → Exponent 0x65 0x45 x e →
      Decimal point (m ++ x) (.num (numeral 10 (i ++ f)) 10 (e - f.length))
  | inf {s} : Word s [0x69, 0x6e, 0x66] ∨ Word s [0x69, 0x6e, 0x66, 0x69, 0x6e, 0x69, 0x74, 0x79] →
      Decimal point s .inf
  | nan {s} : Word s [0x6e, 0x61, 0x6e] → Decimal point s .nan
  | nanWith {s w} : Word s [0x6e, 0x61, 0x6e] →
      (∀ c ∈ w, AsciiDigit c ∨ AsciiUpper c ∨ AsciiLower c ∨ c = 0x5f) →
      Decimal point (s ++ 0x28 :: (w ++ [0x29])) .nan

/-- A hexadecimal number: `0x`, hexadecimal digits, and a binary exponent. -/
inductive Hexadecimal (point : Nat) : List Nat → Den → Prop
  | num {z m i f x e} : z = 0x78 ∨ z = 0x58 → Mantissa AsciiHex point m i f → Exponent 0x70 0x50 x e →
      Hexadecimal point (0x30 :: z :: (m ++ x)) (.num (numeral 16 (i ++ f)) 2 (e - 4 * f.length))

/-- The text of a floating-point number: perhaps a minus, and a decimal number with a point. -/
def FloatText (s : List Nat) (neg : Bool) (d : Den) : Prop :=
  (s = (if neg then [0x2d] else []) ++ s.drop (if neg then 1 else 0)) ∧ Decimal 0x2e (s.drop (if neg then 1 else 0)) d

/-- What `std::stof` takes for a number: blanks, perhaps a sign, and a decimal or hexadecimal number with the decimal
point of the locale. -/
def StofText (point : Nat) (s : List Nat) (neg : Bool) (d : Den) : Prop :=
  ∃ b sg t, s = b ++ sg ++ t ∧ (∀ c ∈ b, AsciiSpace c) ∧
    (if neg then sg = [0x2d] else sg = [] ∨ sg = [0x2b]) ∧ (Decimal point t d ∨ Hexadecimal point t d)

/-! ## Proofs -/

theorem takeWhile_app {p : Nat → Bool} {i x : List Nat} (hi : ∀ c ∈ i, p c = true) (hx : ∀ c, x.head? = some c → p c = false) :
    (i ++ x).takeWhile p = i ∧ (i ++ x).dropWhile p = x := by
  induction i with
  | nil =>
    cases x with
    | nil => exact ⟨rfl, rfl⟩
    | cons c x =>
      have := hx c rfl
      simp [List.takeWhile, List.dropWhile, this]
  | cons a i ih =>
    have ha := hi a (List.mem_cons_self ..)
    have := ih fun c hc => hi c (List.mem_cons_of_mem _ hc)
    simp [List.takeWhile, List.dropWhile, ha, this]

theorem mem_takeWhile {p : Nat → Bool} {l : List Nat} : ∀ c ∈ l.takeWhile p, p c = true := by
  induction l with
  | nil => intro c hc; cases hc
  | cons a l ih =>
    intro c hc
    rw [List.takeWhile_cons] at hc
    split at hc
    · rename_i h
      rcases List.mem_cons.1 hc with rfl | hc
      · exact h
      · exact ih c hc
    · cases hc

theorem head_dropWhile {p : Nat → Bool} {l : List Nat} {c : Nat} (h : (l.dropWhile p).head? = some c) : p c = false := by
  induction l with
  | nil => cases h
  | cons a l ih =>
    rw [List.dropWhile_cons] at h
    split at h
    · exact ih h
    · rename_i hp
      cases h
      simpa using hp

theorem head_tail {l : List Nat} {c : Nat} (h : l.head? = some c) : l = c :: l.tail := by
  cases l with
  | nil => cases h
  | cons a l =>
    cases h
    rfl

theorem mant_sound {dig : Nat → Bool} {D : Nat → Prop} (hd : ∀ c, dig c = true ↔ D c) {point : Nat} {s i f r : List Nat}
    (h : scanMant dig point s = some (i, f, r)) : ∃ m, s = m ++ r ∧ Mantissa D point m i f := by
  unfold scanMant at h
  simp only at h
  have e := (List.takeWhile_append_dropWhile (p := dig) (l := s)).symm
  generalize hr : s.dropWhile dig = r0 at h e
  have hi : ∀ c ∈ s.takeWhile dig, D c := fun c hc => (hd c).1 (mem_takeWhile c hc)
  generalize s.takeWhile dig = i0 at h e hi
  by_cases hp : r0.head? = some point
  · rw [if_pos hp, if_pos hp] at h
    split at h
    · cases h
    · rename_i hn
      injection h with h
      injection h with h1 h
      injection h with h2 h3
      subst h1 h2 h3
      refine ⟨i0 ++ point :: r0.tail.takeWhile dig, ?_, .point ?_ hi fun c hc => (hd c).1 (mem_takeWhile c hc)⟩
      · rw [List.append_assoc, List.cons_append, List.takeWhile_append_dropWhile, ← head_tail hp]
        exact e
      · by_cases h0 : i0 = []
        · exact .inr fun hf => hn ⟨h0, hf⟩
        · exact .inl h0
  · rw [if_neg hp, if_neg hp] at h
    split at h
    · cases h
    · rename_i hn
      injection h with h
      injection h with h1 h
      injection h with h2 h3
      subst h1 h2 h3
      exact ⟨i0, e, .whole (fun h0 => hn ⟨h0, rfl⟩) hi⟩

theorem mant_complete {dig : Nat → Bool} {D : Nat → Prop} (hd : ∀ c, dig c = true ↔ D c) {point : Nat} {m i f x : List Nat}
    (hp : ¬ D point) (h : Mantissa D point m i f) (hx : ∀ c, x.head? = some c → ¬ D c ∧ c ≠ point) :
    scanMant dig point (m ++ x) = some (i, f, x) := by
  have hno : ∀ c, ¬ D c → dig c = false := fun c hc => by
    cases he : dig c
    · rfl
    · exact absurd ((hd c).1 he) hc
  cases h with
  | whole h0 hi =>
    have := takeWhile_app (p := dig) (fun c hc => (hd c).2 (hi c hc)) fun c hc => hno c (hx c hc).1
    unfold scanMant
    rw [this.1, this.2]
    have h1 : ¬ x.head? = some point := fun hh => (hx _ hh).2 rfl
    simp only [h1, if_false, h0, false_and]
  | point h0 hi hf =>
    have h1 := takeWhile_app (p := dig) (x := point :: (f ++ x)) (fun c hc => (hd c).2 (hi c hc)) fun c hc => by
      cases hc
      exact hno _ hp
    have h2 := takeWhile_app (p := dig) (fun c hc => (hd c).2 (hf c hc)) fun c hc => hno c (hx c hc).1
    unfold scanMant
    rw [List.append_assoc, List.cons_append, h1.1, h1.2]
    simp only [List.head?_cons, List.tail_cons, if_true, h2.1, h2.2]
    rw [if_neg]
    rintro ⟨a, b⟩
    rcases h0 with h0 | h0
    · exact h0 a
    · exact h0 b

theorem mant_none {dig : Nat → Bool} {point : Nat} {s : List Nat} (h : ∀ c, s.head? = some c → dig c = false ∧ c ≠ point) :
    scanMant dig point s = none := by
  have h1 := takeWhile_app (p := dig) (i := []) (x := s) (fun c hc => nomatch hc) fun c hc => (h c hc).1
  unfold scanMant
  rw [List.nil_append] at h1
  rw [h1.1, h1.2]
  have h2 : ¬ s.head? = some point := fun hh => (h _ hh).2 rfl
  simp only [h2, if_false, and_self, if_true]

theorem isDec_iff (c : Nat) : isDec c = true ↔ AsciiDigit c := decide_eq_true_iff

theorem isHex_iff (c : Nat) : isHex c = true ↔ AsciiHex c := decide_eq_true_iff

theorem exp_sound {l : Nat} (hl : 0x20 ≤ l) (s : List Nat) :
    ∃ x, s = x ++ (scanExp l s).2 ∧ Exponent l (l - 0x20) x (scanExp l s).1 := by
  unfold scanExp
  split
  · exact ⟨[], rfl, .none⟩
  · rename_i c t
    split
    · rename_i hc
      have hc' : c = l ∨ c = l - 0x20 := by omega
      have hm : ∀ u : List Nat, ∀ d ∈ u.takeWhile isDec, AsciiDigit d := fun u d hd => (isDec_iff d).1 (mem_takeWhile d hd)
      by_cases hm1 : t.head? = some 0x2d
      · have h1 : t.head? = some 0x2b ∨ t.head? = some 0x2d := .inr hm1
        simp only [if_pos h1, if_pos hm1]
        split
        · exact ⟨[], rfl, .none⟩
        · rename_i hne
          refine ⟨c :: 0x2d :: t.tail.takeWhile isDec, ?_, .minus hc' hne (hm _)⟩
          simp only
          rw [List.cons_append, List.cons_append, List.takeWhile_append_dropWhile, ← head_tail hm1]
      · by_cases hp1 : t.head? = some 0x2b
        · have h1 : t.head? = some 0x2b ∨ t.head? = some 0x2d := .inl hp1
          simp only [if_pos h1, if_neg hm1]
          split
          · exact ⟨[], rfl, .none⟩
          · rename_i hne
            refine ⟨c :: 0x2b :: t.tail.takeWhile isDec, ?_, .plus hc' hne (hm _)⟩
            simp only
            rw [List.cons_append, List.cons_append, List.takeWhile_append_dropWhile, ← head_tail hp1]
        · have h1 : ¬ (t.head? = some 0x2b ∨ t.head? = some 0x2d) := fun h => h.elim hp1 hm1
          simp only [if_neg h1, if_neg hm1]
          split
          · exact ⟨[], rfl, .none⟩
          · rename_i hne
            refine ⟨c :: t.takeWhile isDec, ?_, .bare hc' hne (hm _)⟩
            simp only
            rw [List.cons_append, List.takeWhile_append_dropWhile]
    · exact ⟨[], rfl, .none⟩

theorem exp_complete {l : Nat} {x : List Nat} {e : Int} (h : Exponent l (l - 0x20) x e) (hl : 0x20 ≤ l) :
    scanExp l x = (e, []) := by
  have key : ∀ ds : List Nat, (∀ d ∈ ds, AsciiDigit d) → ds.takeWhile isDec = ds ∧ ds.dropWhile isDec = [] := fun ds hd => by
    have := takeWhile_app (p := isDec) (i := ds) (x := []) (fun c hc => (isDec_iff c).2 (hd c hc)) fun c hc => nomatch hc
    rwa [List.append_nil] at this
  cases h with
  | none => rfl
  | @bare c ds hc h0 hd =>
    have hc' : c = l ∨ c + 0x20 = l := by omega
    have hn : ∀ k : Nat, ¬ AsciiDigit k → ¬ ds.head? = some k := fun k hk hh => hk (hd k (List.mem_of_mem_head? hh))
    have h1 := hn 0x2b (by decide)
    have h2 := hn 0x2d (by decide)
    simp only [scanExp, hc', h1, h2, or_self, if_true, if_false, (key ds hd).1, (key ds hd).2, h0]
  | @plus c ds hc h0 hd =>
    have hc' : c = l ∨ c + 0x20 = l := by omega
    simp [scanExp, hc', (key ds hd).1, (key ds hd).2, h0]
  | @minus c ds hc h0 hd =>
    have hc' : c = l ∨ c + 0x20 = l := by omega
    simp [scanExp, hc', (key ds hd).1, (key ds hd).2, h0]

theorem exp_head {l u : Nat} {x : List Nat} {e : Int} (h : Exponent l u x e) (c : Nat) (hc : x.head? = some c) : c = l ∨ c = u := by
  cases h with
  | none => cases hc
  | bare h _ _ | plus h _ _ | minus h _ _ =>
    cases hc
    exact h

/-- The decimal points of locales. -/
def IsPoint (p : Nat) : Prop := p = 0x2e ∨ p = 0x2c

theorem low_lower {c k : Nat} (h : low c = k) (hk : 0x61 ≤ k ∧ k ≤ 0x7a) : c = k ∨ c + 0x20 = k := by
  unfold low at h
  split at h <;> omega

theorem low_not {c k : Nat} (h : low c = k) (hk : 0x61 ≤ k ∧ k ≤ 0x7a) {p : Nat} (hp : IsPoint p) :
    isDec c = false ∧ c ≠ p ∧ c ≠ 0x2d ∧ c ≠ 0x2b ∧ isBlank c = false ∧ c ≠ 0x30 := by
  have := low_lower h hk
  have h1 : ¬ AsciiDigit c := by unfold AsciiDigit; omega
  have h2 : ¬ AsciiSpace c := by unfold AsciiSpace; omega
  refine ⟨decide_eq_false h1, ?_, ?_, ?_, decide_eq_false h2, ?_⟩
  · rcases hp with rfl | rfl <;> omega
  all_goals omega

theorem word_iff {ws : List Nat} (hw : ∀ w ∈ ws, 0x61 ≤ w ∧ w ≤ 0x7a) (s : List Nat) : s.map low = ws ↔ Word s ws := by
  induction ws generalizing s with
  | nil =>
    cases s with
    | nil => exact ⟨fun _ => .nil, fun _ => rfl⟩
    | cons c s => exact ⟨fun h => (nomatch h), fun h => (nomatch h)⟩
  | cons w ws ih =>
    cases s with
    | nil => exact ⟨fun h => (nomatch h), fun h => (nomatch h)⟩
    | cons c s =>
      have hw0 := hw w (List.mem_cons_self ..)
      have ih := ih (fun x hx => hw x (List.mem_cons_of_mem _ hx)) s
      rw [List.map_cons]
      constructor
      · intro h
        injection h with h1 h2
        exact .cons (low_lower h1 hw0) (ih.1 h2)
      · intro h
        cases h with
        | cons h1 h2 =>
          have : low c = w := by
            unfold low
            split <;> omega
          rw [this, ih.2 h2]

theorem word_inf (s : List Nat) : s.map low = [0x69, 0x6e, 0x66] ↔ Word s [0x69, 0x6e, 0x66] := word_iff (by decide) s

theorem word_infinity (s : List Nat) : s.map low = [0x69, 0x6e, 0x66, 0x69, 0x6e, 0x69, 0x74, 0x79] ↔
    Word s [0x69, 0x6e, 0x66, 0x69, 0x6e, 0x69, 0x74, 0x79] := word_iff (by decide) s

theorem word_nan (s : List Nat) : s.map low = [0x6e, 0x61, 0x6e] ↔ Word s [0x6e, 0x61, 0x6e] := word_iff (by decide) s

theorem special_sound {s r : List Nat} {d : Den} (p : Nat) (h : scanSpecial s = some (d, r)) :
    ∃ t, s = t ++ r ∧ Decimal p t d := by
  unfold scanSpecial at h
  split at h
  · rename_i hh
    cases h
    exact ⟨s.take 8, (List.take_append_drop 8 s).symm, .inf (.inr ((word_infinity _).1 hh))⟩
  · split at h
    · rename_i hh
      cases h
      exact ⟨s.take 3, (List.take_append_drop 3 s).symm, .inf (.inl ((word_inf _).1 hh))⟩
    · split at h
      · rename_i hh
        simp only at h
        split at h
        · rename_i hb
          cases h
          refine ⟨s.take 3 ++ 0x28 :: ((s.drop 3).tail.takeWhile isNanChar ++ [0x29]), ?_, .nanWith ((word_nan _).1 hh) ?_⟩
          · have h1 := head_tail hb.2
            have h2 := head_tail hb.1
            rw [List.append_assoc, List.cons_append, List.append_assoc, List.singleton_append, ← h1,
              List.takeWhile_append_dropWhile, ← h2, List.take_append_drop]
          · intro c hc
            have := mem_takeWhile c hc
            exact of_decide_eq_true this
        · cases h
          exact ⟨s.take 3, (List.take_append_drop 3 s).symm, .nan ((word_nan _).1 hh)⟩
      · cases h

theorem len3 {s : List Nat} {a b c : Nat} (h : s.map low = [a, b, c]) : s.length = 3 := by
  have := congrArg List.length h
  simpa using this

theorem special_complete {p : Nat} {s : List Nat} :
    (s.map low = [0x69, 0x6e, 0x66] ∨ s.map low = [0x69, 0x6e, 0x66, 0x69, 0x6e, 0x69, 0x74, 0x79] →
      scanSpecial s = some (.inf, [])) ∧
    (s.map low = [0x6e, 0x61, 0x6e] → scanSpecial s = some (.nan, []) ∧
      ∀ w : List Nat, (∀ c ∈ w, AsciiDigit c ∨ AsciiUpper c ∨ AsciiLower c ∨ c = 0x5f) →
        scanSpecial (s ++ 0x28 :: (w ++ [0x29])) = some (.nan, [])) := by
  have _ := p
  refine ⟨?_, ?_⟩
  · rintro (h | h)
    · have hl := len3 h
      have h8 : s.take 8 = s := List.take_of_length_le (by omega)
      have h3 : s.take 3 = s := List.take_of_length_le (by omega)
      have hd : s.drop 3 = [] := List.drop_of_length_le (by omega)
      unfold scanSpecial
      rw [h8, h3, h, if_neg (by decide), if_pos rfl, hd]
    · have hl : s.length = 8 := by
        have := congrArg List.length h
        simpa using this
      have h8 : s.take 8 = s := List.take_of_length_le (by omega)
      have hd : s.drop 8 = [] := List.drop_of_length_le (by omega)
      unfold scanSpecial
      rw [h8, h, if_pos rfl, hd]
  · intro h
    have hl := len3 h
    refine ⟨?_, ?_⟩
    · have h8 : s.take 8 = s := List.take_of_length_le (by omega)
      have h3 : s.take 3 = s := List.take_of_length_le (by omega)
      have hd : s.drop 3 = [] := List.drop_of_length_le (by omega)
      unfold scanSpecial
      rw [h8, h3, h, if_neg (by decide), if_neg (by decide), if_pos rfl, hd]
      rfl
    · intro w hw
      have h3 : (s ++ 0x28 :: (w ++ [0x29])).take 3 = s := by
        rw [List.take_append, hl, List.take_of_length_le (by omega)]
        simp
      have hd : (s ++ 0x28 :: (w ++ [0x29])).drop 3 = 0x28 :: (w ++ [0x29]) := by
        rw [List.drop_append, hl, List.drop_of_length_le (by omega)]
        simp
      have h8 : ((s ++ 0x28 :: (w ++ [0x29])).take 8).map low ≠ [0x69, 0x6e, 0x66, 0x69, 0x6e, 0x69, 0x74, 0x79] := by
        intro hh
        have := congrArg (List.take 3) hh
        rw [← List.map_take, List.take_take, show min 3 8 = 3 from rfl, h3, h] at this
        exact absurd this (by decide)
      have hw' := takeWhile_app (p := isNanChar) (i := w) (x := [0x29]) (fun c hc => decide_eq_true (hw c hc)) fun c hc => by
        cases hc
        decide
      unfold scanSpecial
      rw [if_neg h8, h3, h, if_neg (by decide), if_pos rfl, hd]
      simp only [List.head?_cons, List.tail_cons, hw'.2, true_and, if_true]

theorem decimal_sound {p : Nat} {s r : List Nat} {d : Den} (h : scanDecimal p s = some (d, r)) :
    ∃ t, s = t ++ r ∧ Decimal p t d := by
  unfold scanDecimal at h
  split at h
  · rename_i i f r0 hm
    obtain ⟨m, e1, hm⟩ := mant_sound isDec_iff hm
    obtain ⟨x, e2, hx⟩ := exp_sound (l := 0x65) (by decide) r0
    cases h
    exact ⟨m ++ x, by rw [List.append_assoc, ← e2]; exact e1, .num hm hx⟩
  · exact special_sound p h

theorem point_not_digit {p : Nat} (hp : IsPoint p) : ¬ AsciiDigit p ∧ ¬ AsciiHex p := by
  rcases hp with rfl | rfl <;> decide

theorem decimal_complete {p : Nat} (hp : IsPoint p) {s : List Nat} {d : Den} (h : Decimal p s d) :
    scanDecimal p s = some (d, []) := by
  cases h with
  | num hm hx =>
    have h1 := mant_complete isDec_iff (point_not_digit hp).1 hm fun c hc => by
      rcases exp_head hx c hc with rfl | rfl
      · exact ⟨by decide, by rcases hp with rfl | rfl <;> decide⟩
      · exact ⟨by decide, by rcases hp with rfl | rfl <;> decide⟩
    unfold scanDecimal
    rw [h1]
    simp only [exp_complete (l := 0x65) hx (by decide)]
  | inf hs =>
    rw [← word_inf, ← word_infinity] at hs
    have h1 : scanMant isDec p s = none := mant_none fun c hc => by
      rcases hs with hs | hs <;>
      · rw [head_tail hc, List.map_cons] at hs
        injection hs with hs _
        have := low_not hs (by decide) hp
        exact ⟨this.1, this.2.1⟩
    unfold scanDecimal
    rw [h1]
    exact (special_complete (p := p)).1 hs
  | nan hs =>
    rw [← word_nan] at hs
    have h1 : scanMant isDec p s = none := mant_none fun c hc => by
      rw [head_tail hc, List.map_cons] at hs
      injection hs with hs _
      have := low_not hs (by decide) hp
      exact ⟨this.1, this.2.1⟩
    unfold scanDecimal
    rw [h1]
    exact ((special_complete (p := p)).2 hs).1
  | @nanWith s w hs hw =>
    rw [← word_nan] at hs
    have h1 : scanMant isDec p (s ++ 0x28 :: (w ++ [0x29])) = none := mant_none fun c hc => by
      have hc' : s.head? = some c := by
        cases s with
        | nil => cases hs
        | cons a s => exact hc
      rw [head_tail hc', List.map_cons] at hs
      injection hs with hs _
      have := low_not hs (by decide) hp
      exact ⟨this.1, this.2.1⟩
    unfold scanDecimal
    rw [h1]
    exact ((special_complete (p := p)).2 hs).2 w hw

/-- How a number without its sign begins. -/
theorem decimal_head {p : Nat} (hp : IsPoint p) {s : List Nat} {d : Den} (h : Decimal p s d) :
    ∃ c, s.head? = some c ∧ c ≠ 0x2d ∧ c ≠ 0x2b ∧ isBlank c = false ∧
      (c = 0x30 → s.tail.head? ≠ some 0x78 ∧ s.tail.head? ≠ some 0x58) := by
  have dig : ∀ c, AsciiDigit c → c ≠ 0x2d ∧ c ≠ 0x2b ∧ isBlank c = false ∧ c ≠ 0x78 ∧ c ≠ 0x58 := fun c hc => by
    unfold AsciiDigit at hc
    refine ⟨by omega, by omega, decide_eq_false ?_, by omega, by omega⟩
    unfold AsciiSpace
    omega
  have pt : p ≠ 0x2d ∧ p ≠ 0x2b ∧ isBlank p = false ∧ p ≠ 0x78 ∧ p ≠ 0x58 ∧ p ≠ 0x30 := by
    rcases hp with rfl | rfl <;> decide
  have nm : ∀ (s r : List Nat) (a b c : Nat), (0x61 ≤ a ∧ a ≤ 0x7a) → s.map low = a :: b :: c :: r →
      ∃ x, s.head? = some x ∧ x ≠ 0x2d ∧ x ≠ 0x2b ∧ isBlank x = false ∧ x ≠ 0x30 := fun s r a b c ha hs => by
    cases s with
    | nil => cases hs
    | cons x s =>
      rw [List.map_cons] at hs
      injection hs with hs _
      have := low_not hs ha hp
      exact ⟨x, rfl, this.2.2.1, this.2.2.2.1, this.2.2.2.2.1, this.2.2.2.2.2⟩
  cases h with
  | @num m i f x e hm hx =>
    have htail : ∀ l : List Nat, (∀ c ∈ l, AsciiDigit c ∨ c = p) → ∀ k, (k = 0x78 ∨ k = 0x58) → (l ++ x).head? ≠ some k := by
      intro l hl k hk hh
      cases l with
      | nil =>
        rcases exp_head hx k hh with rfl | rfl <;> rcases hk with h | h <;> cases h
      | cons a l =>
        cases hh
        rcases hl _ (List.mem_cons_self ..) with h | h
        · have := dig _ h
          rcases hk with rfl | rfl
          · exact this.2.2.2.1 rfl
          · exact this.2.2.2.2 rfl
        · subst h
          rcases hk with h | h
          · exact pt.2.2.2.1 h
          · exact pt.2.2.2.2.1 h
    cases hm with
    | whole h0 hi =>
      cases m with
      | nil => exact absurd rfl h0
      | cons c i =>
        have := dig c (hi c (List.mem_cons_self ..))
        have ht := htail i fun c hc => .inl (hi c (List.mem_cons_of_mem _ hc))
        exact ⟨c, rfl, this.1, this.2.1, this.2.2.1, fun _ => ⟨ht _ (.inl rfl), ht _ (.inr rfl)⟩⟩
    | point h0 hi hf =>
      cases i with
      | nil => exact ⟨p, rfl, pt.1, pt.2.1, pt.2.2.1, fun h => absurd h pt.2.2.2.2.2⟩
      | cons c i =>
        have := dig c (hi c (List.mem_cons_self ..))
        have ht := htail (i ++ p :: f) fun c hc => by
          rcases List.mem_append.1 hc with hc | hc
          · exact .inl (hi c (List.mem_cons_of_mem _ hc))
          · rcases List.mem_cons.1 hc with hc | hc
            · exact .inr hc
            · exact .inl (hf c hc)
        exact ⟨c, rfl, this.1, this.2.1, this.2.2.1, fun _ => ⟨ht _ (.inl rfl), ht _ (.inr rfl)⟩⟩
  | inf hs =>
    rw [← word_inf, ← word_infinity] at hs
    rcases hs with hs | hs
    · obtain ⟨x, h1, h2, h3, h4, h5⟩ := nm _ _ _ _ _ (by decide) hs
      exact ⟨x, h1, h2, h3, h4, fun h => absurd h h5⟩
    · obtain ⟨x, h1, h2, h3, h4, h5⟩ := nm _ _ _ _ _ (by decide) hs
      exact ⟨x, h1, h2, h3, h4, fun h => absurd h h5⟩
  | nan hs =>
    rw [← word_nan] at hs
    obtain ⟨x, h1, h2, h3, h4, h5⟩ := nm _ _ _ _ _ (by decide) hs
    exact ⟨x, h1, h2, h3, h4, fun h => absurd h h5⟩
  | @nanWith s w hs hw =>
    rw [← word_nan] at hs
    obtain ⟨x, h1, h2, h3, h4, h5⟩ := nm _ _ _ _ _ (by decide) hs
    refine ⟨x, ?_, h2, h3, h4, fun h => absurd h h5⟩
    rw [head_tail h1]
    rfl

theorem strtod_sound {p : Nat} {s : List Nat} {d : Den} (h : scanStrtod p s = some (d, [])) :
    Decimal p s d ∨ Hexadecimal p s d := by
  unfold scanStrtod at h
  split at h
  · rename_i hz
    obtain ⟨z, hz1, hz2⟩ : ∃ z, s.tail.head? = some z ∧ (z = 0x78 ∨ z = 0x58) := by
      rcases hz.2 with h | h
      · exact ⟨_, h, .inl rfl⟩
      · exact ⟨_, h, .inr rfl⟩
    have es : s = 0x30 :: z :: s.drop 2 := by
      match s, hz.1, hz1 with
      | a :: b :: s, h1, h2 =>
        injection h1 with h1
        injection h2 with h2
        rw [h1, h2]
        rfl
    split at h
    · rename_i i f r0 hm
      obtain ⟨m, e2, hm⟩ := mant_sound isHex_iff hm
      obtain ⟨x, e3, hx⟩ := exp_sound (l := 0x70) (by decide) r0
      injection h with h
      injection h with h1 h2
      subst h1
      rw [h2, List.append_nil] at e3
      rw [es, e2, e3]
      have := Hexadecimal.num (point := p) hz2 hm hx
      rw [e3] at this
      exact .inr this
    · injection h with h
      injection h with h1 h2
      rw [es] at h2
      cases h2
  · obtain ⟨t, e, h⟩ := decimal_sound h
    rw [List.append_nil] at e
    subst e
    exact .inl h

theorem strtod_complete {p : Nat} (hp : IsPoint p) {s : List Nat} {d : Den} (h : Decimal p s d ∨ Hexadecimal p s d) :
    scanStrtod p s = some (d, []) := by
  rcases h with h | h
  · obtain ⟨c, h1, _, _, _, h2⟩ := decimal_head hp h
    unfold scanStrtod
    rw [if_neg]
    · exact decimal_complete hp h
    · rintro ⟨ha, hb⟩
      rw [h1] at ha
      cases ha
      have := h2 rfl
      rcases hb with hb | hb
      · exact this.1 hb
      · exact this.2 hb
  · cases h with
    | num hz hm hx =>
      have h1 := mant_complete isHex_iff (point_not_digit hp).2 hm fun c hc => by
        rcases exp_head hx c hc with rfl | rfl
        · exact ⟨by decide, by rcases hp with rfl | rfl <;> decide⟩
        · exact ⟨by decide, by rcases hp with rfl | rfl <;> decide⟩
      unfold scanStrtod
      rw [if_pos ⟨rfl, by rcases hz with rfl | rfl <;> simp⟩]
      simp only [List.drop_succ_cons, List.drop_zero, h1, exp_complete (l := 0x70) hx (by decide)]

theorem finish_iff {F : Type} (round : Bool → Den → Option F) (neg : Bool) (o : Option (Den × List Nat)) (v : F) :
    finish round neg o = some v ↔ ∃ d, o = some (d, []) ∧ round neg d = some v := by
  unfold finish
  split
  · rename_i d r
    split
    · rename_i h
      subst h
      exact ⟨fun h => ⟨d, rfl, h⟩, fun ⟨d', h, h'⟩ => by cases h; exact h'⟩
    · rename_i h
      exact ⟨fun h => (nomatch h), fun ⟨d', h', _⟩ => by cases h'; exact absurd rfl h⟩
  · exact ⟨fun h => (nomatch h), fun ⟨d', h', _⟩ => (nomatch h')⟩

/-- C138: with `std::from_chars`, a text is converted exactly if it is the text of a number in range, and to that
number; every other text gives an empty result. -/
theorem float_from_chars_exact {F : Type} (round : Bool → Den → Option F) (s : List Nat) (v : F) :
    convertFromChars round s = some v ↔ ∃ neg d, FloatText s neg d ∧ round neg d = some v := by
  have hp : IsPoint 0x2e := .inl rfl
  have it : ∀ t d, scanDecimal 0x2e t = some (d, []) ↔ Decimal 0x2e t d := fun t d =>
    ⟨fun h => by
      obtain ⟨u, e, h⟩ := decimal_sound h
      rw [List.append_nil] at e
      exact e ▸ h, decimal_complete hp⟩
  unfold convertFromChars
  split
  · rename_i hs
    rw [finish_iff]
    constructor
    · rintro ⟨d, h1, h2⟩
      refine ⟨true, d, ⟨?_, ?_⟩, h2⟩
      · rw [head_tail hs]
        rfl
      · rw [it] at h1
        rw [if_pos rfl, List.drop_one]
        exact h1
    · rintro ⟨neg, d, ⟨h1, h2⟩, h3⟩
      cases neg
      · exfalso
        rw [if_neg (by decide), List.drop_zero] at h2
        obtain ⟨c, hc, hn, _⟩ := decimal_head hp h2
        rw [hs] at hc
        cases hc
        exact hn rfl
      · rw [if_pos rfl, List.drop_one] at h2
        exact ⟨d, (it _ _).2 h2, h3⟩
  · rename_i hs
    rw [finish_iff]
    constructor
    · rintro ⟨d, h1, h2⟩
      exact ⟨false, d, ⟨by simp, by simpa using (it _ _).1 h1⟩, h2⟩
    · rintro ⟨neg, d, ⟨h1, h2⟩, h3⟩
      cases neg
      · rw [if_neg (by decide), List.drop_zero] at h2
        exact ⟨d, (it _ _).2 h2, h3⟩
      · exfalso
        apply hs
        rw [h1]
        rfl

theorem body_head {p : Nat} (hp : IsPoint p) {t : List Nat} {d : Den} (h : Decimal p t d ∨ Hexadecimal p t d) :
    ∃ c, t.head? = some c ∧ c ≠ 0x2d ∧ c ≠ 0x2b ∧ isBlank c = false := by
  rcases h with h | h
  · obtain ⟨c, h1, h2, h3, h4, _⟩ := decimal_head hp h
    exact ⟨c, h1, h2, h3, h4⟩
  · cases h
    exact ⟨0x30, rfl, by decide, by decide, by decide⟩

/-- C138: with `std::stof` and its kin, exactly the texts of `StofText` are converted. -/
theorem float_stof_exact {F : Type} (p : Nat) (hp : IsPoint p) (round : Bool → Den → Option F) (s : List Nat) (v : F) :
    convertStof p round s = some v ↔ ∃ neg d, StofText p s neg d ∧ round neg d = some v := by
  have it : ∀ t d, scanStrtod p t = some (d, []) ↔ (Decimal p t d ∨ Hexadecimal p t d) := fun t d =>
    ⟨strtod_sound, strtod_complete hp⟩
  have hb : ∀ c ∈ s.takeWhile isBlank, AsciiSpace c := fun c hc => of_decide_eq_true (mem_takeWhile c hc)
  have es := (List.takeWhile_append_dropWhile (p := isBlank) (l := s)).symm
  constructor
  · intro h
    unfold convertStof at h
    simp only at h
    generalize s.dropWhile isBlank = t at h es
    split at h
    · rename_i hs
      obtain ⟨d, h1, h2⟩ := (finish_iff _ _ _ _).1 h
      refine ⟨true, d, ⟨_, [0x2d], t.tail, ?_, hb, rfl, (it _ _).1 h1⟩, h2⟩
      rw [List.append_assoc, List.singleton_append, ← head_tail hs]
      exact es
    · split at h
      · rename_i hs
        obtain ⟨d, h1, h2⟩ := (finish_iff _ _ _ _).1 h
        refine ⟨false, d, ⟨_, [0x2b], t.tail, ?_, hb, .inr rfl, (it _ _).1 h1⟩, h2⟩
        rw [List.append_assoc, List.singleton_append, ← head_tail hs]
        exact es
      · obtain ⟨d, h1, h2⟩ := (finish_iff _ _ _ _).1 h
        refine ⟨false, d, ⟨_, [], t, ?_, hb, .inl rfl, (it _ _).1 h1⟩, h2⟩
        rw [List.append_nil]
        exact es
  · rintro ⟨neg, d, ⟨b, sg, t, rfl, hbl, hsg, hd⟩, hr⟩
    obtain ⟨c, hc, n1, n2, n3⟩ := body_head hp hd
    have hdrop : (b ++ sg ++ t).dropWhile isBlank = sg ++ t := by
      rw [List.append_assoc]
      refine (takeWhile_app (p := isBlank) (fun c hc => decide_eq_true (hbl c hc)) fun c' hc' => ?_).2
      cases neg
      · rcases hsg with rfl | rfl
        · rw [List.nil_append, hc] at hc'
          cases hc'
          exact n3
        · cases hc'
          decide
      · have hsg : sg = [0x2d] := hsg
        subst hsg
        cases hc'
        decide
    unfold convertStof
    rw [hdrop]
    have hf := (finish_iff round neg (scanStrtod p t) v).2 ⟨d, (it _ _).2 hd, hr⟩
    cases neg
    · rcases hsg with rfl | rfl
      · simp only [List.nil_append, hc, Option.some.injEq, n1, n2, if_false]
        exact hf
      · simp only [List.singleton_append, List.head?_cons, Option.some.injEq, List.tail_cons]
        exact hf
    · have hsg : sg = [0x2d] := hsg
      subst hsg
      simp only [List.singleton_append, List.head?_cons, List.tail_cons, if_true]
      exact hf

/-- A text that both versions of the code read the same way: no blank or plus before the number, and no `x`. -/
def Ordinary (s : List Nat) : Prop :=
  (∀ c, s.head? = some c → ¬ AsciiSpace c ∧ c ≠ 0x2b) ∧ 0x78 ∉ s ∧ 0x58 ∉ s

/-- C138: in the "C" locale both versions of the code give the same result for every ordinary text, and
`std::stof` converts whatever `std::from_chars` converts. -/
theorem float_versions_agree_partial {F : Type} (round : Bool → Den → Option F) (s : List Nat) :
    (Ordinary s → convertStof 0x2e round s = convertFromChars round s) ∧
    (∀ v, convertFromChars round s = some v → convertStof 0x2e round s = some v) := by
  have up : ∀ v, convertFromChars round s = some v → convertStof 0x2e round s = some v := by
    intro v h
    obtain ⟨neg, d, ⟨h1, h2⟩, h3⟩ := (float_from_chars_exact round s v).1 h
    refine (float_stof_exact 0x2e (.inl rfl) round s v).2 ⟨neg, d, ⟨[], _, _, h1, fun c hc => (nomatch hc), ?_, .inl h2⟩, h3⟩
    cases neg
    · exact .inl rfl
    · rfl
  refine ⟨fun ho => ?_, up⟩
  cases h : convertStof 0x2e round s with
  | none =>
    cases h' : convertFromChars round s with
    | none => rfl
    | some v =>
      rw [up v h'] at h
      cases h
  | some v =>
    obtain ⟨neg, d, ⟨b, sg, t, e, hb, hsg, hd⟩, hr⟩ := (float_stof_exact 0x2e (.inl rfl) round s v).1 h
    refine ((float_from_chars_exact round s v).2 ⟨neg, d, ?_, hr⟩).symm
    have hb0 : b = [] := by
      cases b with
      | nil => rfl
      | cons c b => exact absurd (hb c (List.mem_cons_self ..)) (ho.1 c (by rw [e]; rfl)).1
    subst hb0
    have hd : Decimal 0x2e t d := by
      rcases hd with hd | hd
      · exact hd
      · exfalso
        cases hd with
        | num hz _ _ =>
          rcases hz with rfl | rfl
          · exact ho.2.1 (by rw [e]; simp)
          · exact ho.2.2 (by rw [e]; simp)
    subst e
    cases neg
    · rcases hsg with rfl | rfl
      · exact ⟨by simp, by simpa using hd⟩
      · exact absurd rfl (ho.1 0x2b rfl).2
    · have hsg : sg = [0x2d] := hsg
      subst hsg
      exact ⟨by simp, by simpa using hd⟩

/-- C138 fails on compilers without `std::from_chars` for floating-point types: `" 1"`, `"+1"` and `"0x1p4"` are converted
although they are not texts of a floating-point number, and in a locale with a decimal comma `"1.5"` is refused and
`"1,5"` converted. The decimal comma and the others are refused by the version with `std::from_chars`. -/
theorem float_versions_agree_violated :
    let read := fun (_ : Bool) (d : Den) => some d
    (convertStof 0x2e read [0x20, 0x31] = some (.num 1 10 0) ∧ convertFromChars read [0x20, 0x31] = none) ∧
    (convertStof 0x2e read [0x2b, 0x31] = some (.num 1 10 0) ∧ convertFromChars read [0x2b, 0x31] = none) ∧
    (convertStof 0x2e read [0x30, 0x78, 0x31, 0x70, 0x34] = some (.num 1 2 4) ∧
      convertFromChars read [0x30, 0x78, 0x31, 0x70, 0x34] = none) ∧
    (convertStof 0x2c read [0x31, 0x2e, 0x35] = none ∧
      convertFromChars read [0x31, 0x2e, 0x35] = some (.num 15 10 (-1))) ∧
    (convertStof 0x2c read [0x31, 0x2c, 0x35] = some (.num 15 10 (-1)) ∧
      convertFromChars read [0x31, 0x2c, 0x35] = none) := by
  decide

/-- `-12.5e-3`. -/
example : FloatText [0x2d, 0x31, 0x32, 0x2e, 0x35, 0x65, 0x2d, 0x33] true (.num 125 10 (-4)) := by
  refine ⟨rfl, ?_⟩
  have := Decimal.num (point := 0x2e) (.point (i := [0x31, 0x32]) (f := [0x35]) (.inl (by decide)) (by decide) (by decide))
    (.minus (c := 0x65) (ds := [0x33]) (.inl rfl) (by decide) (by decide))
  exact this

/-- What is refused and what is not. -/
example :
    let read := fun (_ : Bool) (d : Den) => some d
    convertFromChars read [] = none ∧ convertFromChars read [0x2e] = none ∧ convertFromChars read [0x2e, 0x35] = some (.num 5 10 (-1)) ∧
    convertFromChars read [0x35, 0x2e] = some (.num 5 10 0) ∧ convertFromChars read [0x31, 0x65] = none ∧
    convertFromChars read [0x49, 0x6e, 0x46] = some .inf ∧ convertFromChars read [0x31, 0x00] = none ∧
    convertFromChars read [0x6e, 0x61, 0x6e, 0x28, 0x31, 0x29] = some .nan := by decide

example : Ordinary [0x31, 0x2e, 0x35] := ⟨by intro c hc; cases hc; decide, by decide, by decide⟩

end Verif.Str.Floats
