import Verif.Str.Spec

/-!
# Positional notation

`digits base n` is the usual text of `n` in a base up to 16 with lower-case letters: what
the library's `{}` / `{:x}` specifiers print for an unsigned integer (`append_number` and
`count_digits` of `fly/types/string/formatters.hpp`).
-/

namespace Verif.Digits

open Verif.Str

/-- Character of one digit. -/
def digitChar (d : Nat) : Nat := if d < 10 then 0x30 + d else 0x57 + d

/-- Digits of `n`, most significant first, without leading zeros. -/
def digits (base n : Nat) : List Nat :=
  if _h : base < 2 ∨ n < base then [digitChar n]
  else digits base (n / base) ++ [digitChar (n % base)]
  termination_by n
  decreasing_by exact Nat.div_lt_self (by omega) (by omega)

theorem digits_of_lt {base n : Nat} (h : n < base) : digits base n = [digitChar n] := by
  rw [digits]; simp [h]

theorem digits_of_ge {base n : Nat} (hb : 2 ≤ base) (h : base ≤ n) :
    digits base n = digits base (n / base) ++ [digitChar (n % base)] := by
  rw [digits, dif_neg (by omega)]

theorem digitValue_digitChar {d : Nat} (h : d < 16) : digitValue (digitChar d) = d := by
  unfold digitValue digitChar
  repeat' split
  all_goals omega

theorem digitChar_hex {d : Nat} (h : d < 16) : AsciiHex (digitChar d) := by
  unfold AsciiHex AsciiDigit digitChar
  split <;> omega

theorem digitChar_dec {d : Nat} (h : d < 10) : AsciiDigit (digitChar d) := by
  unfold AsciiDigit digitChar
  rw [if_pos h]; omega

theorem numeral_append (base : Nat) (a : List Nat) (c : Nat) :
    numeral base (a ++ [c]) = numeral base a * base + digitValue c := by
  unfold numeral; rw [List.foldl_append]; rfl

/-- The digits of a number have that value. -/
theorem numeral_digits {base : Nat} (hb : 2 ≤ base) (hb' : base ≤ 16) (n : Nat) :
    numeral base (digits base n) = n := by
  induction n using Nat.strongRecOn with
  | _ n ih =>
    by_cases h : n < base
    · rw [digits_of_lt h]
      simp only [numeral, List.foldl_cons, List.foldl_nil, Nat.zero_mul, Nat.zero_add]
      exact digitValue_digitChar (by omega)
    · rw [digits_of_ge hb (by omega), numeral_append, ih _ (Nat.div_lt_self (by omega) (by omega)),
        digitValue_digitChar (by have := Nat.mod_lt n (show 0 < base by omega); omega)]
      have := Nat.div_add_mod n base
      rw [Nat.mul_comm]; omega

theorem digits_ne_nil (base n : Nat) : digits base n ≠ [] := by
  rw [digits]; split <;> simp

theorem digits_mem {base : Nat} (hb : 2 ≤ base) (n : Nat) :
    ∀ c ∈ digits base n, ∃ d, d < base ∧ c = digitChar d := by
  induction n using Nat.strongRecOn with
  | _ n ih =>
    intro c hc
    by_cases h : n < base
    · rw [digits_of_lt h] at hc; simp at hc; exact ⟨n, h, hc⟩
    · rw [digits_of_ge hb (by omega)] at hc
      rw [List.mem_append, List.mem_singleton] at hc
      rcases hc with hc | hc
      · exact ih _ (Nat.div_lt_self (by omega) (by omega)) c hc
      · exact ⟨n % base, Nat.mod_lt _ (by omega), hc⟩

theorem digits_dec (n : Nat) : ∀ c ∈ digits 10 n, AsciiDigit c := by
  intro c hc
  obtain ⟨d, hd, rfl⟩ := digits_mem (by decide) n c hc
  exact digitChar_dec hd

theorem digits_hex (n : Nat) : ∀ c ∈ digits 16 n, AsciiHex c := by
  intro c hc
  obtain ⟨d, hd, rfl⟩ := digits_mem (by decide) n c hc
  exact digitChar_hex hd

/-- Number of digits. -/
theorem digits_length_le {base : Nat} (hb : 2 ≤ base) : ∀ (k n : Nat), n < base ^ (k + 1) →
    (digits base n).length ≤ k + 1 := by
  intro k
  induction k with
  | zero => intro n h; rw [digits_of_lt (by simpa using h)]; simp
  | succ k ih =>
    intro n h
    by_cases hn : n < base
    · rw [digits_of_lt hn]; simp
    · rw [digits_of_ge hb (by omega)]
      have := ih (n / base) (by
        rw [Nat.pow_succ'] at h
        exact Nat.div_lt_of_lt_mul h)
      simp; omega

end Verif.Digits
