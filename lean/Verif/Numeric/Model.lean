import Verif.Numeric.Spec

/-!
# Model of `fly/types/numeric`

Byte swapping (`detail/byte_swap.hpp`, `endian.hpp`) and integer literal suffixes
(`detail/literal_parser.hpp`, `literals.hpp`). Values are the unsigned representation.
-/

namespace Verif.Numeric

/-- `byte_swap(std::uint16_t)`, byte_swap.hpp 64-76 (the constant-evaluated shift form; the
compiler built-ins of 23-37 and 41-55 are specified to compute the same). -/
def byteSwap16 (v : Nat) : Nat :=
  (((v &&& 0xff00) >>> 8) ||| ((v &&& 0x00ff) <<< 8)) % 2 ^ 16

/-- `byte_swap(std::uint32_t)`, byte_swap.hpp 78-92. -/
def byteSwap32 (v : Nat) : Nat :=
  (((v &&& 0xff000000) >>> 24) ||| ((v &&& 0x00ff0000) >>> 8) |||
    ((v &&& 0x0000ff00) <<< 8) ||| ((v &&& 0x000000ff) <<< 24)) % 2 ^ 32

/-- `byte_swap(std::uint64_t)`, byte_swap.hpp 94-114. -/
def byteSwap64 (v : Nat) : Nat :=
  (((v &&& 0xff00000000000000) >>> 56) ||| ((v &&& 0x00ff000000000000) >>> 40) |||
    ((v &&& 0x0000ff0000000000) >>> 24) ||| ((v &&& 0x000000ff00000000) >>> 8) |||
    ((v &&& 0x00000000ff000000) <<< 8) ||| ((v &&& 0x0000000000ff0000) <<< 24) |||
    ((v &&& 0x000000000000ff00) <<< 40) ||| ((v &&& 0x00000000000000ff) <<< 56)) % 2 ^ 64

/-- `endian_swap`, endian.hpp 22-41, for a type of `n` bytes; `none` for a size the concept
`EndianInteger` (endian_concepts.hpp 12-19) does not admit. -/
def endianSwap (n v : Nat) : Option Nat :=
  match n with
  | 1 => some v
  | 2 => some (byteSwap16 v)
  | 4 => some (byteSwap32 v)
  | 8 => some (byteSwap64 v)
  | _ => none

/-- `endian_swap_if_non_native<Endianness>`, endian.hpp 54-64; `native` says that the requested order
is the machine's. -/
def endianSwapIfNonNative (native : Bool) (n v : Nat) : Option Nat :=
  if native then some v else endianSwap n v

/-- `ValidLiteralForBase`, literal_parser.hpp 12-19. -/
def validLiteral (base c : Nat) : Bool :=
  c == 0x27 || (base == 2 && (0x30 ≤ c && c ≤ 0x31)) || (base == 8 && (0x30 ≤ c && c ≤ 0x37)) ||
  (base == 10 && (0x30 ≤ c && c ≤ 0x39)) || (base == 16 && (0x30 ≤ c && c ≤ 0x39)) ||
  (base == 16 && (0x41 ≤ c && c ≤ 0x46)) || (base == 16 && (0x61 ≤ c && c ≤ 0x66))

/-- `parse_and_validate_literal`, literal_parser.hpp 64-78. -/
def literalDigit (c : Nat) : Nat :=
  if 0x41 ≤ c ∧ c ≤ 0x46 then c - 0x41 + 0xa
  else if 0x61 ≤ c ∧ c ≤ 0x66 then c - 0x61 + 0xa
  else c - 0x30

/-- `Aggregator::aggregate`, literal_parser.hpp 50-54, 85-91 (separator), 95-101 (end). The
accumulator is `std::uintmax_t` for unsigned targets, which wraps modulo 2^64, and `std::intmax_t`
for signed ones, whose overflow makes the constant expression ill-formed: `none`. -/
def aggregate (signed : Bool) (base : Nat) : List Nat → Nat → Option Nat
  | [], acc => some acc
  | c :: r, acc =>
    if c = 0x27 then aggregate signed base r acc
    else
      let v := acc * base + literalDigit c
      if signed then (if v < 2 ^ 63 then aggregate signed base r v else none)
      else aggregate signed base r (v % 2 ^ 64)

/-- Choice of `Parser` specialization, literal_parser.hpp 125-155. -/
def literalBase : List Nat → Nat × List Nat
  | 0x30 :: 0x62 :: r => (2, r)
  | 0x30 :: 0x42 :: r => (2, r)
  | 0x30 :: 0x78 :: r => (16, r)
  | 0x30 :: 0x58 :: r => (16, r)
  | 0x30 :: r => (8, r)
  | r => (10, r)

/-- `literal<T, Literals...>`, literal_parser.hpp 183-188, with `validate_and_convert` (166-171):
`none` when compilation fails. `bits` is the width of the target. -/
def literal (signed : Bool) (bits : Nat) (chars : List Nat) : Option Nat :=
  let (base, body) := literalBase chars
  if body.all (validLiteral base) then
    match aggregate signed base body 0 with
    | some v => if v ≤ (if signed then 2 ^ (bits - 1) - 1 else 2 ^ bits - 1) then some v else none
    | none => none
  else none

end Verif.Numeric
