import Verif.Str.Text
import Verif.Json.Parser

/-!
# C37, C100: the JSON parser converts integers with `fly::String::convert`

Source: `/repo/fly/parser/json_parser.cpp` 246-259, `/repo/fly/types/string/detail/converter.hpp` 24-42. The parser's model has its own
text-to-integer functions; here they are shown to be the conversions of C100 for `std::int64_t` and `std::uint64_t`, on every text.
-/

namespace Verif.Json

open Verif.Str (numeral)

/-- The two conversions of the parser are `convert<std::int64_t>` and `convert<std::uint64_t>`, whatever text they are given. -/
theorem parser_integers (s : List Nat) :
    convertSigned s = fromChars ⟨true, 64⟩ s ∧ (convertUnsigned s).map (fun n => (n : Int)) = fromChars ⟨false, 64⟩ s := by
  constructor
  · unfold convertSigned fromChars fits
    by_cases h : s.head? = some 0x2d
    · simp only [h, if_true, beq_self_eq_true, Bool.and_true]
      by_cases h2 : s.tail ≠ [] ∧ s.tail.all isDigit = true
      · by_cases h3 : numeral 10 s.tail ≤ 2 ^ 63
        · rw [if_pos ⟨h2.1, h2.2, h3⟩, if_pos ⟨h2.1, h2.2, by simp; omega⟩]
        · rw [if_neg (fun q => h3 q.2.2), if_neg (fun q => h3 (by have := q.2.2; simp at this; omega))]
      · rw [if_neg (fun q => h2 ⟨q.1, q.2.1⟩), if_neg (fun q => h2 ⟨q.1, q.2.1⟩)]
    · have hb : (s.head? == some 0x2d) = false := by simpa using h
      simp only [h, hb, if_false, Bool.and_false, Bool.false_eq_true, if_true]
      by_cases h2 : s ≠ [] ∧ s.all isDigit = true
      · by_cases h3 : numeral 10 s < 2 ^ 63
        · rw [if_pos ⟨h2.1, h2.2, h3⟩, if_pos ⟨h2.1, h2.2, by simp; omega⟩]
        · rw [if_neg (fun q => h3 q.2.2), if_neg (fun q => h3 (by have := q.2.2; simp at this; omega))]
      · rw [if_neg (fun q => h2 ⟨q.1, q.2.1⟩), if_neg (fun q => h2 ⟨q.1, q.2.1⟩)]
  · unfold convertUnsigned fromChars fits
    simp only [Bool.false_and, Bool.false_eq_true, if_false]
    by_cases h2 : s ≠ [] ∧ s.all isDigit = true
    · by_cases h3 : numeral 10 s < 2 ^ 64
      · rw [if_pos ⟨h2.1, h2.2, h3⟩, if_pos ⟨h2.1, h2.2, by simp; omega⟩]; rfl
      · rw [if_neg (fun q => h3 q.2.2), if_neg (fun q => h3 (by have := q.2.2; simp at this; omega))]; rfl
    · rw [if_neg (fun q => h2 ⟨q.1, q.2.1⟩), if_neg (fun q => h2 ⟨q.1, q.2.1⟩)]; rfl

/-- The bounds: the smallest signed value and one below it; the largest unsigned value. -/
example : convertSigned (0x2d :: (Nat.toDigits 10 (2 ^ 63)).map Char.toNat) = some (-(2 ^ 63)) ∧
    convertSigned (0x2d :: (Nat.toDigits 10 (2 ^ 63 + 1)).map Char.toNat) = none ∧
    convertUnsigned ((Nat.toDigits 10 (2 ^ 64 - 1)).map Char.toNat) = some (2 ^ 64 - 1) ∧
    convertSigned [0x31, 0x32] = some 12 := by decide +kernel

end Verif.Json
