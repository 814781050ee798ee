import Verif.Str.Spec

/-!
# Specification of byte order and integer literals
-/

namespace Verif.Numeric

/-- The `i`-th byte of a value, least significant first. -/
def byteAt (v i : Nat) : Nat := v / 256 ^ i % 256

/-- The bytes of an `n`-byte value as a little-endian machine stores them. -/
def memLE (n v : Nat) : List Nat := (List.range n).map (byteAt v)

/-- The bytes of an `n`-byte value in big-endian (network) order. -/
def bigEndian (n v : Nat) : List Nat := (List.range n).map fun i => byteAt v (n - 1 - i)

/-- A digit (as a character code) of the given base, by the C++ grammar of integer literals. -/
def BaseDigit (base c : Nat) : Prop :=
  (0x30 ≤ c ∧ c ≤ 0x39 ∧ c < 0x30 + base) ∨
    (base = 16 ∧ ((0x41 ≤ c ∧ c ≤ 0x46) ∨ (0x61 ≤ c ∧ c ≤ 0x66)))

/-- `LiteralForm chars base body`: an integer literal's characters, its base and what follows the
base prefix (C++ [lex.icon]): `0b`/`0B`, `0x`/`0X`, `0`, or no prefix. -/
inductive LiteralForm : List Nat → Nat → List Nat → Prop
  | bin {c r} : c = 0x62 ∨ c = 0x42 → LiteralForm (0x30 :: c :: r) 2 r
  | hex {c r} : c = 0x78 ∨ c = 0x58 → LiteralForm (0x30 :: c :: r) 16 r
  | oct {r} : (∀ c, r.head? = some c → c ≠ 0x62 ∧ c ≠ 0x42 ∧ c ≠ 0x78 ∧ c ≠ 0x58) →
      LiteralForm (0x30 :: r) 8 r
  | dec {r} : r.head? ≠ some 0x30 → LiteralForm r 10 r

/-- `Denotes chars v`: the characters are digits of the literal's base and `'` separators, and the
digits without the separators have the value `v`. -/
def Denotes (chars : List Nat) (v : Nat) : Prop :=
  ∃ base body, LiteralForm chars base body ∧ (∀ c ∈ body, c = 0x27 ∨ BaseDigit base c) ∧
    v = Str.numeral base (body.filter (· ≠ 0x27))

end Verif.Numeric
