import Verif.Common.Bits

/-!
# Specification of Base64 (RFC 4648, section 4)

Stated over bit strings; independent of buffers, tables and groups.
-/

namespace Verif.Base64
open Verif.Bits

/-- The alphabet: `A-Z`, `a-z`, `0-9`, `+`, `/`. -/
def letter (v : Nat) : Nat :=
  if v < 26 then 'A'.toNat + v
  else if v < 52 then 'a'.toNat + (v - 26)
  else if v < 62 then '0'.toNat + (v - 52)
  else if v = 62 then '+'.toNat
  else '/'.toNat

/-- A bit string cut into six-bit numbers, the last one padded with zero bits. -/
def sextets (l : List Bool) : List Nat :=
  if l = [] then []
  else ofBits (l.take 6 ++ List.replicate (6 - l.length) false) :: sextets (l.drop 6)
termination_by l.length
decreasing_by
  have : 0 < l.length := List.length_pos_iff.2 (by assumption)
  simp only [List.length_drop]; omega

/-- The RFC 4648 encoding of a byte string. -/
def rfcEncode (bs : List Nat) : List Nat :=
  (sextets (bytesBits bs)).map letter ++ List.replicate ((3 - bs.length % 3) % 3) '='.toNat

/-- The bits denoted by a sequence of six-bit numbers. -/
def sextetBits : List Nat → List Bool
  | [] => []
  | v :: vs => toBits 6 v ++ sextetBits vs

/-- `s` is a well-formed Base64 text - alphabet characters `vals` followed by at most two `=`, in
whole groups of four - and `out` is what it stands for: as many whole bytes as the sextets contain.
(Left-over bits below a whole byte are ignored.) -/
def Denotes (s out : List Nat) : Prop :=
  ∃ vals p, (∀ v ∈ vals, v < 64) ∧ p ≤ 2 ∧ s = vals.map letter ++ List.replicate p '='.toNat ∧
    s.length % 4 = 0 ∧ out.length = 6 * vals.length / 8 ∧ (∀ b ∈ out, b < 256) ∧
    bytesBits out = (sextetBits vals).take (8 * out.length)

end Verif.Base64
