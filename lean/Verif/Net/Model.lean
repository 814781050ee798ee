import Verif.Str.Model
import Verif.Numeric.Model
import Verif.Common.Digits
import Verif.Net.Spec

/-!
# Model of `fly/net` addresses and endpoints

Strings are lists of `char` units. Numbers are scanned with the lexer model of `Verif.Str`.
-/

namespace Verif.Net

open Verif.Str Verif.Digits

/-- `char` on x86-64 Linux (the lexer of `std::string_view`, ipv4_address.hpp 143). -/
abbrev charK : CharKind := ⟨8, true⟩

/-! ## IPv4 -/

/-- The `do ... while` loop of `IPv4Address::from_string`, ipv4_address.hpp 148-158. The first
argument is 4 minus the number of parts read. -/
def v4Loop : Nat → Lexer → List Nat → Option (Lexer × List Nat)
  | 0, l, parts => some (l, parts)
  | n + 1, l, parts =>
    match l.consumeNumber charK with
    | (some v, l1) =>
      if v ≤ 0xffffffff then
        if (parts ++ [v]).length < 4 then
          match l1.consumeIf 0x2e with
          | (true, l2) => v4Loop n l2 (parts ++ [v])
          | (false, l2) => some (l2, parts ++ [v])
        else some (l1, parts ++ [v])
      else none
    | (none, _) => none

/-- Combination of the parts, ipv4_address.hpp 160-187 (32-bit shifts and ors). -/
def v4Combine : List Nat → Option Nat
  | [a] => some a
  | [a, b] => if a ≤ 0xff ∧ b ≤ 0xffffff then some ((a <<< 24) ||| b) else none
  | [a, b, c] =>
    if a ≤ 0xff ∧ b ≤ 0xff ∧ c ≤ 0xffff then some ((a <<< 24) ||| (b <<< 16) ||| c) else none
  | [a, b, c, d] =>
    if a ≤ 0xff ∧ b ≤ 0xff ∧ c ≤ 0xff ∧ d ≤ 0xff then
      some ((a <<< 24) ||| (b <<< 16) ||| (c <<< 8) ||| d) else none
  | _ => none

/-- `IPv4Address::from_string`, ipv4_address.hpp 138-195, on a little-endian machine: the stored
address is the network-order integer. -/
def v4FromString (s : List Nat) : Option Nat :=
  match v4Loop 4 ⟨s, 0⟩ [] with
  | some (l, parts) =>
    match v4Combine parts with
    | some h => if (l.peek 0).isSome then none else Numeric.endianSwapIfNonNative false 4 h
    | none => none
  | none => none

/-- `IPv4Address::host_order`, ipv4_address.hpp 203-206. -/
def v4HostOrder (a : Nat) : Nat := (Numeric.endianSwapIfNonNative false 4 a).getD 0

/-- `IPv4Address(address_type)`, ipv4_address.hpp 105-111: from four octets. -/
def v4OfOctets (a b c d : Nat) : Nat := a ||| (b <<< 8) ||| (c <<< 16) ||| (d <<< 24)

/-- The IPv4 formatter, ipv4_address.hpp 222-234. -/
def v4Format (a : Nat) : List Nat :=
  digits 10 (a &&& 0xff) ++ 0x2e :: digits 10 ((a >>> 8) &&& 0xff) ++
    0x2e :: digits 10 ((a >>> 16) &&& 0xff) ++ 0x2e :: digits 10 ((a >>> 24) &&& 0xff)

/-! ## IPv6 -/

/-- The `do ... while` loop of `IPv6Address::from_string`, ipv6_address.hpp 166-189. `parts` is the
filled prefix of the array, so `index` is its length. `fuel` bounds the rounds; every round consumes
a character, so the length of the text plus one is enough (`v6Loop_eq`). -/
def v6Loop : Nat → Lexer → List Nat → Option Nat → Option (Lexer × List Nat × Option Nat)
  | 0, _, _, _ => none
  | fuel + 1, l, parts, short =>
    let next (l : Lexer) (parts : List Nat) (short : Option Nat) :=
      if (l.peek 0).isSome && parts.length < 16 then v6Loop fuel l parts short
      else some (l, parts, short)
    match l.consumeIf 0x3a with
    | (true, l1) =>
      match l1.consumeIf 0x3a with
      | (true, l2) => if short.isSome then none else next l2 parts (some parts.length)
      | (false, l2) => next l2 parts short
    | (false, l1) =>
      match l1.consumeHexNumber charK with
      | (some v, l2) =>
        if v ≤ 0xffff then next l2 (parts ++ [(v >>> 8) &&& 0xff, v &&& 0xff]) short else none
      | (none, _) => none

/-- `std::rotate(r.begin(), r.begin() + mid, r.begin() + last)` of the standard library, used at
ipv6_address.hpp 200. -/
def rotateRange (r : List Nat) (mid last : Nat) : List Nat :=
  (r.take last).drop mid ++ (r.take last).take mid ++ r.drop last

/-- The final rotation, ipv6_address.hpp 195-201: the array is the bytes read padded with zeros, and
`std::rotate` works on it through reverse iterators, from `rbegin()` around `rbegin() + (16 - index)`
up to `rend() - index_after_short_form`. -/
def v6Rotate (parts : List Nat) (short : Nat) : List Nat :=
  let array := parts ++ List.replicate (16 - parts.length) 0
  (rotateRange array.reverse (16 - parts.length) (16 - short)).reverse

/-- `IPv6Address::from_string`, ipv6_address.hpp 154-204. -/
def v6FromString (s : List Nat) : Option (List Nat) :=
  match v6Loop (s.length + 1) ⟨s, 0⟩ [] none with
  | some (l, parts, short) =>
    if (l.peek 0).isSome || (parts.length != 16 && short.isNone) then none
    else match short with
      | some i => some (v6Rotate parts i)
      | none => some parts
  | none => none

/-- `join_segments`, ipv6_address.hpp 275-277, at byte index `i`. -/
def v6Segment (a : List Nat) (i : Nat) : Nat := ((a.getD i 0 <<< 8) ||| a.getD (i + 1) 0) % 2 ^ 16

/-- The inner `do ... while` that skips a run of zero segments, ipv6_address.hpp 287-290: the index of
the first non-zero segment after `i`, or 16. -/
def v6SkipZeros (a : List Nat) (i : Nat) : Nat :=
  if h : i + 2 < 16 ∧ v6Segment a (i + 2) = 0 then v6SkipZeros a (i + 2) else i + 2
  termination_by 16 - i

theorem v6SkipZeros_gt (a : List Nat) : ∀ (n i : Nat), 16 - i = n → i + 2 ≤ v6SkipZeros a i := by
  intro n
  induction n using Nat.strongRecOn with
  | _ n ih =>
    intro i h
    rw [v6SkipZeros]
    split
    · rename_i hc
      have := ih (16 - (i + 2)) (by omega) (i + 2) rfl
      omega
    · omega

/-- The formatter's loop, ipv6_address.hpp 281-301. -/
def v6FormatLoop (a : List Nat) (i : Nat) (used : Bool) : List Nat :=
  if _h : i < 16 then
    if v6Segment a i = 0 ∧ used = false then
      let i' := v6SkipZeros a i
      (if i' < 16 then [0x3a] else [0x3a, 0x3a]) ++ v6FormatLoop a i' true
    else (if 0 < i then [0x3a] else []) ++ digits 16 (v6Segment a i) ++ v6FormatLoop a (i + 2) used
  else []
  termination_by 16 - i
  decreasing_by
    · have := v6SkipZeros_gt a _ i rfl; omega
    · omega

/-- The IPv6 formatter, ipv6_address.hpp 266-302. -/
def v6Format (a : List Nat) : List Nat := v6FormatLoop a 0 false

/-! ## Endpoints -/

/-- `view.find_last_of(':')`, endpoint.hpp 154. -/
def lastColon (s : List Nat) : Option Nat :=
  if s.reverse.idxOf 0x3a < s.length then some (s.length - 1 - s.reverse.idxOf 0x3a) else none

/-- Port parsing of `Endpoint::from_string`, endpoint.hpp 179-187. -/
def parsePort (s : List Nat) : Option Nat :=
  match Lexer.consumeNumber charK ⟨s, 0⟩ with
  | (some p, l) => if p > 0xffff ∨ (l.peek 0).isSome then none else some p
  | (none, _) => none

/-- `Endpoint<IPv4Address>::from_string`, endpoint.hpp 148-190. -/
def endpoint4FromString (s : List Nat) : Option (Nat × Nat) :=
  match lastColon s with
  | none => none
  | some sep =>
    if sep = 0 then none
    else match v4FromString (s.take sep), parsePort (s.drop (sep + 1)) with
      | some a, some p => some (a, p)
      | _, _ => none

/-- `Endpoint<IPv6Address>::from_string`, endpoint.hpp 148-190, with the bracket handling of
164-177. -/
def endpoint6FromString (s : List Nat) : Option (List Nat × Nat) :=
  match lastColon s with
  | none => none
  | some sep =>
    if sep = 0 then none
    else
      let av := s.take sep
      if av.head? = some 0x5b ∧ av.getLast? = some 0x5d then
        match v6FromString ((av.drop 1).take (av.length - 2)), parsePort (s.drop (sep + 1)) with
        | some a, some p => some (a, p)
        | _, _ => none
      else none

/-- The IPv4 endpoint formatter, endpoint.hpp 272-275. -/
def endpoint4Format (a p : Nat) : List Nat := v4Format a ++ 0x3a :: digits 10 p

/-- The IPv6 endpoint formatter, endpoint.hpp 291-294. -/
def endpoint6Format (a : List Nat) (p : Nat) : List Nat :=
  0x5b :: v6Format a ++ [0x5d, 0x3a] ++ digits 10 p

/-- `Endpoint::operator<` as written for macOS, endpoint.hpp 224-232 (elsewhere the comparison is the
compiler-generated lexicographic one, 107). -/
def endpointLtMac (a b : Nat × Nat) : Bool := if a.1 < b.1 then true else decide (a.2 < b.2)

/-- The defaulted `operator<=>` of `Endpoint`, endpoint.hpp 107: address first, then port (addresses
compare as integers here, as `IPv4Address::operator<=>` = default does, ipv4_address.hpp 94-98). -/
def endpointLt (a b : Nat × Nat) : Bool := decide (a.1 < b.1 ∨ (a.1 = b.1 ∧ a.2 < b.2))

end Verif.Net
