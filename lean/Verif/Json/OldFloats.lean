import Verif.Str.Floats
import Verif.Json.Numbers

/-!
# C139: JSON numbers on compilers without `std::from_chars` for floating-point types

Source: `parse_value` (`/repo/fly/parser/json_parser.cpp` 220-267) with `Converter<long double>` of
`/repo/fly/types/string/detail/converter.hpp` 100-124. `Verif.Json.Parser` models the other version of the converter.
-/

namespace Verif.Json.OldFloats

open Verif.Str (AsciiDigit AsciiSpace numeral)
open Verif.Str.Floats

/-! ## Model -/

/-- `Converter<long double>::convert` through `std::stold` (converter.hpp 100-124); the value of a text is taken from
`io`, as in `Verif.Json.convertFloat`. -/
def convertFloatStold (point : Nat) (io : FloatIO) (s : List Nat) : Option Flt :=
  convertStof point (fun _ _ => io.ofText s) s

/-- The end of `parse_value` (json_parser.cpp 237-266). -/
def convertNumberStold (point : Nat) (io : FloatIO) (s : List Nat) : Option Value :=
  match validateNumber s with
  | .signed => (convertSigned s).map .int
  | .unsigned => (convertUnsigned s).map .uint
  | .float => (convertFloatStold point io s).map .flt
  | .invalid => none

/-- `parse_value` (json_parser.cpp 220-267) on the text `consume_value` returned. -/
def valueOfStold (point : Nat) (io : FloatIO) (s : List Nat) : Option Value :=
  if s = fmtBool true then some (.bool true)
  else if s = fmtBool false then some (.bool false)
  else if s = nullText then some .null
  else convertNumberStold point io s

/-! ## Proofs -/

theorem isDec_eq : isDec = isDigit := by
  funext c
  cases h : isDigit c with
  | true => exact (isDec_iff c).2 ((isDigit_iff c).1 h)
  | false =>
    cases h' : isDec c with
    | false => rfl
    | true =>
      have := (isDigit_iff c).2 ((isDec_iff c).1 h')
      rw [h] at this
      cases this

theorem scanExp_drop (r : List Nat) : (scanExp 0x65 r).2 = dropExponent r := by
  unfold scanExp dropExponent
  rw [isDec_eq]
  cases r with
  | nil => rfl
  | cons c t =>
    simp only
    by_cases h : c = 0x65 ∨ c = 0x45
    · rw [if_pos h, if_pos (by omega)]
      split <;> split <;> rfl
    · rw [if_neg h, if_neg (by omega)]

theorem scanDecimal_drop {t : List Nat} {c : Nat} (hc : t.head? = some c) (hd : isDigit c = true) :
    ∃ d, scanDecimal 0x2e t = some (d, dropExponent
      (if (t.dropWhile isDigit).head? = some 0x2e then (t.dropWhile isDigit).tail.dropWhile isDigit else t.dropWhile isDigit)) := by
  have hi : t.takeWhile isDigit ≠ [] := by
    cases t with
    | nil => cases hc
    | cons a t =>
      cases hc
      rw [List.takeWhile_cons, if_pos hd]
      exact fun h => nomatch h
  unfold scanDecimal scanMant
  rw [isDec_eq]
  simp only [hi, false_and, if_false]
  rw [← scanExp_drop]
  exact ⟨_, rfl⟩

theorem starts_head {l : List Nat} (h : startsLikeNumber l = true) : ∃ c, l.head? = some c ∧ isDigit c = true := by
  match l, h with
  | [c], h => exact ⟨c, rfl, h⟩
  | c :: d :: l, h =>
    unfold startsLikeNumber at h
    rw [Bool.and_eq_true] at h
    exact ⟨c, rfl, h.1⟩

theorem float_starts {s : List Nat} (h : validateNumber s = .float) :
    ∃ c, (if s.head? = some 0x2d then s.tail else s).head? = some c ∧ isDigit c = true := by
  unfold validateNumber at h
  by_cases h1 : s.head? = some 0x2d
  · have h2 : (s.head? == some 0x2d) = true := by rw [h1]; rfl
    rw [h2] at h
    rw [if_pos h1]
    simp only [if_true] at h
    split at h
    · rename_i hs
      exact starts_head hs
    · cases h
  · have h2 : (s.head? == some 0x2d) = false := by simpa using h1
    rw [h2] at h
    rw [if_neg h1]
    simp only [Bool.false_eq_true, if_false] at h
    split at h
    · rename_i hs
      exact starts_head hs
    · cases h

theorem fromChars_eq {s : List Nat} (io : FloatIO) (h : validateNumber s = .float) :
    convertFromChars (fun _ _ => io.ofText s) s = convertFloat io s := by
  obtain ⟨c, hc, hd⟩ := float_starts h
  unfold convertFromChars convertFloat dropFloat
  by_cases h1 : s.head? = some 0x2d
  · rw [if_pos h1] at hc
    obtain ⟨d, e⟩ := scanDecimal_drop hc hd
    simp only [if_pos h1]
    rw [e]
    rfl
  · rw [if_neg h1] at hc
    obtain ⟨d, e⟩ := scanDecimal_drop hc hd
    simp only [if_neg h1]
    rw [e]
    rfl

theorem float_ordinary {s : List Nat} (h : validateNumber s = .float) (c : Nat) (hc : s.head? = some c) :
    ¬ AsciiSpace c ∧ c ≠ 0x2b := by
  obtain ⟨a, ha, hd⟩ := float_starts h
  by_cases h1 : s.head? = some 0x2d
  · rw [hc] at h1
    cases h1
    decide
  · rw [if_neg h1, hc] at ha
    cases ha
    have := (isDigit_iff c).1 hd
    unfold AsciiDigit at this
    unfold AsciiSpace
    omega

theorem valueOf_cases {point : Nat} (io : FloatIO) (s : List Nat) :
    valueOfStold point io s = valueOf io s ∨
    (validateNumber s = .float ∧ valueOfStold point io s = (convertFloatStold point io s).map .flt ∧
      valueOf io s = (convertFloat io s).map .flt) := by
  unfold valueOfStold valueOf
  split
  · exact .inl rfl
  · split
    · exact .inl rfl
    · split
      · exact .inl rfl
      · unfold convertNumberStold convertNumber
        cases h : validateNumber s with
        | float => exact .inr ⟨rfl, rfl, rfl⟩
        | signed | unsigned | invalid => exact .inl rfl

/-- C139: in the "C" locale, a text without the letter `x` has the same value with both versions of the converter, and
whatever is a JSON number keeps its value. -/
theorem json_stold_partial (io : FloatIO) (s : List Nat) :
    (0x78 ∉ s → 0x58 ∉ s → valueOfStold 0x2e io s = valueOf io s) ∧
    (∀ v, valueOf io s = some v → valueOfStold 0x2e io s = some v) := by
  rcases valueOf_cases (point := 0x2e) io s with h | ⟨hv, h1, h2⟩
  · exact ⟨fun _ _ => h, fun v hv => h ▸ hv⟩
  · have ag := float_versions_agree_partial (fun _ _ => io.ofText s) s
    rw [fromChars_eq io hv] at ag
    refine ⟨fun hx hX => ?_, fun v h => ?_⟩
    · rw [h1, h2, show convertFloatStold 0x2e io s = convertFloat io s from ag.1 ⟨float_ordinary hv, hx, hX⟩]
    · rw [h2] at h
      rw [h1]
      cases hc : convertFloat io s with
      | none =>
        rw [hc] at h
        cases h
      | some x =>
        rw [hc] at h
        rw [show convertFloatStold 0x2e io s = some x from ag.2 x hc]
        exact h

/-- C139: what is accepted beyond JSON is exactly hexadecimal: a text that is no JSON number and is accepted all the
same is a hexadecimal floating-point number, perhaps with a minus. -/
theorem json_stold_extra (io : FloatIO) (s : List Nat) (v : Value) (h : valueOfStold 0x2e io s = some v)
    (hn : valueOf io s ≠ some v) :
    ∃ sg t d, s = sg ++ t ∧ (sg = [] ∨ sg = [0x2d]) ∧ Hexadecimal 0x2e t d := by
  rcases valueOf_cases (point := 0x2e) io s with h0 | ⟨hv, h1, h2⟩
  · exact absurd (h0 ▸ h) hn
  · rw [h1] at h
    cases hc : convertFloatStold 0x2e io s with
    | none =>
      rw [hc] at h
      cases h
    | some x =>
      obtain ⟨neg, d, ⟨b, sg, t, e, hb, hsg, hd⟩, hr⟩ := (float_stof_exact 0x2e (.inl rfl) _ s x).1 hc
      have hb0 : b = [] := by
        cases b with
        | nil => rfl
        | cons c b => exact absurd (hb c (List.mem_cons_self ..)) (float_ordinary hv c (by rw [e]; rfl)).1
      subst hb0
      rw [List.nil_append] at e
      have hsg' : sg = [] ∨ sg = [0x2d] := by
        cases neg
        · rcases hsg with rfl | rfl
          · exact .inl rfl
          · exact absurd rfl (float_ordinary hv 0x2b (by rw [e]; rfl)).2
        · exact .inr hsg
      refine ⟨sg, t, d, e, hsg', ?_⟩
      rcases hd with hd | hd
      · exfalso
        apply hn
        have hf : convertFromChars (fun _ _ => io.ofText s) s = some x := by
          refine (float_from_chars_exact _ s x).2 ⟨neg, d, ?_, hr⟩
          subst e
          cases neg
          · rcases hsg with rfl | rfl
            · exact ⟨by simp, by simpa using hd⟩
            · exact absurd rfl (float_ordinary hv 0x2b rfl).2
          · have hsg : sg = [0x2d] := hsg
            subst hsg
            exact ⟨by simp, by simpa using hd⟩
        rw [fromChars_eq io hv] at hf
        rw [h2, hf, ← h, hc]
      · exact hd

/-- C139 fails on compilers without `std::from_chars` for floating-point types: the parser takes `0x1.8` and `-0xe1` for
numbers, whatever number `std::stold` makes of them, and with a decimal comma in the locale it refuses `1.5`. -/
theorem json_stold_violated (io : FloatIO) (x : Flt) (hx : ∀ s, io.ofText s = some x) :
    (valueOf io [0x30, 0x78, 0x31, 0x2e, 0x38] = none ∧
      valueOfStold 0x2e io [0x30, 0x78, 0x31, 0x2e, 0x38] = some (.flt x)) ∧
    (valueOf io [0x2d, 0x30, 0x78, 0x65, 0x31] = none ∧
      valueOfStold 0x2e io [0x2d, 0x30, 0x78, 0x65, 0x31] = some (.flt x)) ∧
    (valueOf io [0x31, 0x2e, 0x35] = some (.flt x) ∧ valueOfStold 0x2c io [0x31, 0x2e, 0x35] = none) := by
  have key : ∀ p s, (validateNumber s = .float) → s ≠ fmtBool true → s ≠ fmtBool false → s ≠ nullText →
      valueOf io s = (if dropFloat s = [] then some (.flt x) else none) ∧
      valueOfStold p io s = (convertStof p (fun _ _ => some x) s).map .flt := by
    intro p s hv h1 h2 h3
    unfold valueOf valueOfStold convertNumber convertNumberStold convertFloat convertFloatStold
    rw [if_neg h1, if_neg h1, if_neg h2, if_neg h2, if_neg h3, if_neg h3, hv]
    simp only [hx]
    refine ⟨?_, trivial⟩
    split <;> rfl
  have k1 := key 0x2e [0x30, 0x78, 0x31, 0x2e, 0x38] (by decide) (by decide) (by decide) (by decide)
  have k2 := key 0x2e [0x2d, 0x30, 0x78, 0x65, 0x31] (by decide) (by decide) (by decide) (by decide)
  have k3 := key 0x2c [0x31, 0x2e, 0x35] (by decide) (by decide) (by decide) (by decide)
  refine ⟨⟨?_, ?_⟩, ⟨?_, ?_⟩, ⟨?_, ?_⟩⟩
  · rw [k1.1, if_neg (by decide)]
  · rw [k1.2]; rfl
  · rw [k2.1, if_neg (by decide)]
  · rw [k2.2]; rfl
  · rw [k3.1, if_pos (by decide)]
  · rw [k3.2]; rfl

/-- Conversions that make something of every text exist, so the hypothesis is met. -/
example : ∃ (io : FloatIO) (x : Flt), ∀ s, io.ofText s = some x := ⟨⟨fun _ => [], fun _ => some (.fin 3 1)⟩, .fin 3 1, fun _ => rfl⟩

/-- And the hypotheses of `json_stold_extra`, by `0x1.8`. -/
example : ∃ (io : FloatIO) (v : Value), valueOfStold 0x2e io [0x30, 0x78, 0x31, 0x2e, 0x38] = some v ∧
    valueOf io [0x30, 0x78, 0x31, 0x2e, 0x38] ≠ some v := by
  have h := json_stold_violated ⟨fun _ => [], fun _ => some (.fin 3 1)⟩ (.fin 3 1) (fun _ => rfl)
  exact ⟨_, _, h.1.2, by rw [h.1.1]; simp⟩

end Verif.Json.OldFloats
