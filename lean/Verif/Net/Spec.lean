import Verif.Str.Spec

/-!
# Specification of address texts
-/

namespace Verif.Net

open Verif.Str

/-- `V4Value parts h`: one to four numbers denote the 32-bit address `h` (host order), the last one
filling the remaining bytes. -/
inductive V4Value : List Nat → Nat → Prop
  | one {a} : a < 2 ^ 32 → V4Value [a] a
  | two {a b} : a < 2 ^ 8 → b < 2 ^ 24 → V4Value [a, b] (a * 2 ^ 24 + b)
  | three {a b c} : a < 2 ^ 8 → b < 2 ^ 8 → c < 2 ^ 16 →
      V4Value [a, b, c] (a * 2 ^ 24 + b * 2 ^ 16 + c)
  | four {a b c d} : a < 2 ^ 8 → b < 2 ^ 8 → c < 2 ^ 8 → d < 2 ^ 8 →
      V4Value [a, b, c, d] (a * 2 ^ 24 + b * 2 ^ 16 + c * 2 ^ 8 + d)

/-- Dot-decimal text of an IPv4 address. -/
def V4Text (s : List Nat) (h : Nat) : Prop :=
  ∃ parts : List (List Nat), s = joinWith 0x2e parts ∧
    (∀ p ∈ parts, p ≠ [] ∧ ∀ c ∈ p, AsciiDigit c) ∧ V4Value (parts.map (numeral 10)) h

/-- One group of an IPv6 text: one to four hexadecimal digits. -/
def HexGroup (t : List Nat) : Prop := 1 ≤ t.length ∧ t.length ≤ 4 ∧ ∀ c ∈ t, AsciiHex c

/-- IPv6 texts without embedded IPv4 (RFC 4291, section 2.2, forms 1 and 2) and the eight groups they
denote. -/
inductive V6Text : List Nat → List Nat → Prop
  | full {ts} : ts.length = 8 → (∀ t ∈ ts, HexGroup t) →
      V6Text (joinWith 0x3a ts) (ts.map (numeral 16))
  | short {ls rs} : ls.length + rs.length ≤ 7 → (∀ t ∈ ls, HexGroup t) → (∀ t ∈ rs, HexGroup t) →
      V6Text (joinWith 0x3a ls ++ [0x3a, 0x3a] ++ joinWith 0x3a rs)
        (ls.map (numeral 16) ++ List.replicate (8 - (ls.length + rs.length)) 0 ++ rs.map (numeral 16))

/-- The bytes of 16-bit groups, in network order. -/
def groupBytes : List Nat → List Nat
  | [] => []
  | g :: gs => g / 256 :: g % 256 :: groupBytes gs

end Verif.Net
