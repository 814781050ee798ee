import Verif.Unicode.Model
import Verif.Common.Digits

/-!
# Model of `fly::Json`: values, strings, serialization, comparison and hashing

Sources: `/repo/fly/types/json/{types.hpp,json.hpp,json.cpp}`. Strings are lists of bytes. `none` from
`serialize` is undefined behaviour (an empty `std::optional` is dereferenced); `none` from the string
constructor is the `JsonException` it throws.

Simplifications: `long double` values are exact dyadic rationals, infinities or NaN, and the
difference of two of them is not rounded (rounding can only turn a difference slightly above
`epsilon` into `epsilon`); the conversions between a `long double` and text are the parameter
`FloatIO` (they are the standard library's `std::to_chars`/`std::from_chars`).
-/

namespace Verif.Json

open Verif.Unicode (Enc)

/-- `json_floating_point_type` = `long double` (types.hpp 25): `fin n k` is n / 2^k. -/
inductive Flt where
  | fin (num : Int) (k : Nat)
  | inf (neg : Bool)
  | nan
deriving DecidableEq, Repr

/-- `json_type` (types.hpp 18-49), alternatives in variant order. An object is the sequence of its
entries in the order of `std::map` (by key bytes); well-formedness is `Value.WF` in `Spec.lean`. -/
inductive Value where
  | null
  | str (s : List Nat)
  | obj (m : List (List Nat × Value))
  | arr (l : List Value)
  | bool (b : Bool)
  | int (i : Int)
  | uint (n : Nat)
  | flt (f : Flt)
deriving Repr

/-- `m_value.index()` (types.hpp 41-49). -/
def Value.index : Value → Nat
  | .null => 0
  | .str _ => 1
  | .obj _ => 2
  | .arr _ => 3
  | .bool _ => 4
  | .int _ => 5
  | .uint _ => 6
  | .flt _ => 7

/-- The encoding of `json_char_type` = `char` (types.hpp 31). -/
def enc : Enc := .utf8 true

/-! ## Strings -/

/-- The one-character escapes accepted by `read_escaped_character` (json.cpp 864-895): the character
after the reverse solidus, and what it stands for. -/
def simpleEscape (n : Nat) : Option Nat :=
  if n = 0x22 then some 0x22
  else if n = 0x5c then some 0x5c
  else if n = 0x2f then some 0x2f
  else if n = 0x62 then some 0x08
  else if n = 0x66 then some 0x0c
  else if n = 0x6e then some 0x0a
  else if n = 0x72 then some 0x0d
  else if n = 0x74 then some 0x09
  else none

/-- `validate_string` (json.cpp 826-852) with `read_escaped_character` (855-915) inlined. The C++ code
edits the string in place and continues after the replacement; here the replaced part is the output.
Bytes from 0x80 up are negative `char`s, so only 0x00-0x1f are control characters. -/
def validateString : List Nat → Option (List Nat)
  | [] => some []
  | [c] =>
    if c = 0x5c then none
    else if c < 0x20 then none
    else if c = 0x22 then none
    else some [c]
  | c :: n :: s =>
    if c = 0x5c then
      match simpleEscape n with
      | some r => (validateString s).map (r :: ·)
      | none =>
        if _hn : n = 0x75 then
          match _hu : Verif.Unicode.unescapeCodepoint enc (Verif.Unicode.backslash :: n :: s) with
          | (none, _) => none
          | (some out, rest) => (validateString rest).map (out ++ ·)
        else none
    else if c < 0x20 then none
    else if c = 0x22 then none
    else (validateString (n :: s)).map (c :: ·)
termination_by s => s.length
decreasing_by
  · simp only [List.length_cons]; omega
  · have := Verif.Unicode.unescapeCodepoint_length enc n s (Or.inl _hn)
    rw [_hu] at this
    exact this
  · simp

/-- `convert_to_string` for a `std::string` (json.hpp 2005-2026): the constructor of a JSON string
and the conversion of every key argument. Simplification: other character types are transcoded
first (see `Verif.Unicode.convert`). -/
def convertToString (s : List Nat) : Option (List Nat) :=
  if Verif.Unicode.validate enc s then validateString s else none

/-- The characters `write_escaped_character` (json.cpp 923-951) gives a two-character escape. -/
def writeSimple (c : Nat) : Option Nat :=
  if c = 0x22 then some 0x22
  else if c = 0x5c then some 0x5c
  else if c = 0x08 then some 0x62
  else if c = 0x0c then some 0x66
  else if c = 0x0a then some 0x6e
  else if c = 0x0d then some 0x72
  else if c = 0x09 then some 0x74
  else none

/-- The loop of the lambda `serialize_string` (json.cpp 72-82) with `write_escaped_character`
(918-959) inlined; `none` is the dereference of an empty optional at 954. -/
def escapeBody : List Nat → Option (List Nat)
  | [] => some []
  | c :: s =>
    match writeSimple c with
    | some e => (escapeBody s).map (fun r => 0x5c :: e :: r)
    | none =>
      match _h : Verif.Unicode.escapeCodepoint enc true (c :: s) with
      | (none, _) => none
      | (some out, rest) => (escapeBody rest).map (out ++ ·)
termination_by s => s.length
decreasing_by
  · simp
  · have := Verif.Unicode.decodeCodepoint_length enc c s
    simp only [Verif.Unicode.escapeCodepoint] at _h
    split at _h
    · simp at _h
    · rename_i h2
      simp only [Prod.mk.injEq] at _h
      rw [h2] at this; rw [← _h.2]; exact this

/-- `serialize_string` (json.cpp 72-82). -/
def serializeString (s : List Nat) : Option (List Nat) :=
  (escapeBody s).map (fun r => 0x22 :: (r ++ [0x22]))

/-! ## Serialization -/

/-- The standard library's conversions between `long double` and text: `fmt` is what `"{}"` prints
(formatters.hpp), `ofText` the value `std::from_chars` stores for a text it accepts entirely, or
`none` when that value is out of range. -/
structure FloatIO where
  fmt : Flt → List Nat
  ofText : List Nat → Option Flt

/-- `"{}"` of a signed integer (json.cpp 135; formatters.hpp 203-221). -/
def fmtInt (i : Int) : List Nat :=
  if i < 0 then 0x2d :: Verif.Digits.digits 10 i.natAbs else Verif.Digits.digits 10 i.natAbs

/-- `"{:s}"` of a boolean (json.cpp 131). -/
def fmtBool (b : Bool) : List Nat :=
  if b then [0x74, 0x72, 0x75, 0x65] else [0x66, 0x61, 0x6c, 0x73, 0x65]

/-- `"null"` (json.cpp 89). -/
def nullText : List Nat := [0x6e, 0x75, 0x6c, 0x6c]

/-- `a`, then `b` preceded by a comma unless there is nothing more (json.cpp 105-108, 121-124). -/
def commaThen (more : Bool) (a b : List Nat) : List Nat := if more then a ++ 0x2c :: b else a ++ b

mutual
/-- `serialize` (json.cpp 68-141). -/
def serialize (io : FloatIO) : Value → Option (List Nat)
  | .null => some nullText
  | .str s => serializeString s
  | .obj m => (serializeMembers io m).map (fun r => 0x7b :: (r ++ [0x7d]))
  | .arr l => (serializeElems io l).map (fun r => 0x5b :: (r ++ [0x5d]))
  | .bool b => some (fmtBool b)
  | .int i => some (fmtInt i)
  | .uint n => some (Verif.Digits.digits 10 n)
  | .flt f => some (io.fmt f)
/-- The loop over an object's entries (json.cpp 99-109). -/
def serializeMembers (io : FloatIO) : List (List Nat × Value) → Option (List Nat)
  | [] => some []
  | (k, v) :: m =>
    match serializeString k, serialize io v, serializeMembers io m with
    | some tk, some tv, some r => some (commaThen (!m.isEmpty) (tk ++ 0x3a :: tv) r)
    | _, _, _ => none
/-- The loop over an array's elements (json.cpp 117-125). -/
def serializeElems (io : FloatIO) : List Value → Option (List Nat)
  | [] => some []
  | v :: l =>
    match serialize io v, serializeElems io l with
    | some tv, some r => some (commaThen (!l.isEmpty) tv r)
    | _, _ => none
end

/-! ## Comparison -/

/-- `static_cast<std::int64_t>` of a `std::uint64_t` (json.cpp 750, 792). -/
def toSigned (n : Nat) : Int := if n < 2 ^ 63 then (n : Int) else (n : Int) - 2 ^ 64

/-- `static_cast<std::uint64_t>` of a `std::int64_t` (json.cpp 750, 792). -/
def toUnsigned (i : Int) : Nat := if 0 ≤ i then i.toNat else (i + 2 ^ 64).toNat

/-- `static_cast<long double>` of an integer (json.cpp 743-744, 785-786): exact, the significand has
64 bits. -/
def Flt.ofInt (i : Int) : Flt := .fin i 0

/-- `std::abs(fvalue1 - fvalue2) <= epsilon` (json.cpp 741-746), epsilon being 2^-63. The difference
of two infinities of the same sign is NaN. -/
def Flt.near : Flt → Flt → Bool
  | .fin a j, .fin b k => decide ((a * 2 ^ k - b * 2 ^ j).natAbs * 2 ^ 63 ≤ 2 ^ (j + k))
  | _, _ => false

/-- `fvalue1 < fvalue2` (json.cpp 788). -/
def Flt.lt : Flt → Flt → Bool
  | .nan, _ => false
  | _, .nan => false
  | .inf a, .inf b => a && !b
  | .inf a, .fin _ _ => a
  | .fin _ _, .inf b => !b
  | .fin a j, .fin b k => decide (a * 2 ^ k < b * 2 ^ j)

mutual
/-- `operator==` (json.cpp 732-763); containers are compared by `std::map`/`std::vector` equality,
which calls `operator==` on the elements. -/
def eq : Value → Value → Bool
  | .null, .null => true
  | .str a, .str b => a == b
  | .obj a, .obj b => eqMembers a b
  | .arr a, .arr b => eqElems a b
  | .bool a, .bool b => a == b
  | .int a, .int b => a == b
  | .int a, .uint b => a == toSigned b
  | .uint a, .int b => a == toUnsigned b
  | .uint a, .uint b => a == b
  | .int a, .flt b => (Flt.ofInt a).near b
  | .uint a, .flt b => (Flt.ofInt a).near b
  | .flt a, .int b => a.near (Flt.ofInt b)
  | .flt a, .uint b => a.near (Flt.ofInt b)
  | .flt a, .flt b => a.near b
  | _, _ => false
/-- Equality of `json_object_type` (json.cpp 754). -/
def eqMembers : List (List Nat × Value) → List (List Nat × Value) → Bool
  | [], [] => true
  | (k, v) :: a, (k', v') :: b => k == k' && eq v v' && eqMembers a b
  | _, _ => false
/-- Equality of `json_array_type` (json.cpp 754). -/
def eqElems : List Value → List Value → Bool
  | [], [] => true
  | v :: a, v' :: b => eq v v' && eqElems a b
  | _, _ => false
end

/-- `operator<` of `std::string` (json.cpp 796, and the order of `json_object_type`, types.hpp 20):
lexicographic on the bytes as unsigned values. -/
def strLt : List Nat → List Nat → Bool
  | _, [] => false
  | [], _ :: _ => true
  | a :: s, b :: t => decide (a < b) || (decide (a = b) && strLt s t)

mutual
/-- `operator<` (json.cpp 772-805); containers are compared lexicographically, an entry by key and
then by value. -/
def less : Value → Value → Bool
  | .null, .null => false
  | .str a, .str b => strLt a b
  | .obj a, .obj b => lessMembers a b
  | .arr a, .arr b => lessElems a b
  | .bool a, .bool b => !a && b
  | .int a, .int b => decide (a < b)
  | .int a, .uint b => decide (a < toSigned b)
  | .uint a, .int b => decide (a < toUnsigned b)
  | .uint a, .uint b => decide (a < b)
  | .int a, .flt b => (Flt.ofInt a).lt b
  | .uint a, .flt b => (Flt.ofInt a).lt b
  | .flt a, .int b => a.lt (Flt.ofInt b)
  | .flt a, .uint b => a.lt (Flt.ofInt b)
  | .flt a, .flt b => a.lt b
  | a, b => decide (a.index < b.index)
termination_by a b => sizeOf a + sizeOf b
/-- `operator<` of `json_object_type` (json.cpp 796): `std::lexicographical_compare` on pairs. -/
def lessMembers : List (List Nat × Value) → List (List Nat × Value) → Bool
  | _, [] => false
  | [], _ :: _ => true
  | (k, v) :: a, (k', v') :: b =>
    strLt k k' || (!strLt k' k && (less v v' || (!less v' v && lessMembers a b)))
termination_by a b => sizeOf a + sizeOf b
/-- `operator<` of `json_array_type` (json.cpp 796). -/
def lessElems : List Value → List Value → Bool
  | _, [] => false
  | [], _ :: _ => true
  | v :: a, v' :: b => less v v' || (!less v' v && lessElems a b)
termination_by a b => sizeOf a + sizeOf b
end

/-- `operator<=` (json.cpp 808-811). -/
def lessEq (a b : Value) : Bool := !less b a

/-- `operator>` (json.cpp 814-817). -/
def greater (a b : Value) : Bool := !lessEq a b

/-- `operator>=` (json.cpp 820-823). -/
def greaterEq (a b : Value) : Bool := !less a b

/-! ## Hashing -/

/-- `std::hash` of the storage types (json.hpp 2174, 2200): functions of the value. -/
structure Hashers where
  str : List Nat → Nat
  bool : Bool → Nat
  int : Int → Nat
  uint : Nat → Nat
  flt : Flt → Nat

/-- `hash_combine` (json.hpp 2217-2223), modulo 2^64. -/
def hashCombine (a b : Nat) : Nat :=
  a ^^^ ((b + 0x9e3779b9 + a * 2 ^ 6 + a / 2 ^ 2) % 2 ^ 64)

mutual
/-- `std::hash<fly::Json>` (json.hpp 2161-2206). -/
def hash (h : Hashers) : Value → Nat
  | .null => hashCombine 0 0
  | .str s => hashCombine 1 (h.str s)
  | .obj m => hashMembers h (hashCombine 2 m.length) m
  | .arr l => hashElems h (hashCombine 3 l.length) l
  | .bool b => hashCombine 4 (h.bool b)
  | .int i => hashCombine 5 (h.int i)
  | .uint n => hashCombine 6 (h.uint n)
  | .flt f => hashCombine 7 (h.flt f)
/-- The loop over an object (json.hpp 2178-2182). -/
def hashMembers (h : Hashers) (acc : Nat) : List (List Nat × Value) → Nat
  | [] => acc
  | (k, v) :: m => hashMembers h (hashCombine (hashCombine acc (h.str k)) (hash h v)) m
/-- The loop over an array (json.hpp 2191-2194). -/
def hashElems (h : Hashers) (acc : Nat) : List Value → Nat
  | [] => acc
  | v :: l => hashElems h (hashCombine acc (hash h v)) l
end

end Verif.Json
