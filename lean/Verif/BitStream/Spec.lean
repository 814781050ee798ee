import Verif.Common.Bits

/-!
# Specification of the bit stream

Stated over bit strings only; independent of the model's buffers and positions. A write sequence is
a list of `(size, value)` pairs; a read sequence a list of `(wide destination?, size)` pairs.
-/

namespace Verif.BitStream
open Verif.Bits

/-- All bits written so far by a write sequence. -/
def written : List (Nat × Nat) → List Bool
  | [] => []
  | (size, v) :: rest => toBits size v ++ written rest

/-- Legal write sequences: widths 1..64 and values that fit. -/
def Legal (ws : List (Nat × Nat)) : Prop := ∀ p ∈ ws, 0 < p.1 ∧ p.1 ≤ 64 ∧ p.2 < 2 ^ p.1

/-- A write sequence triggers undefined behaviour: a 64-bit write happens when a positive multiple
of 64 bits (counting `done` earlier bits) has been written. -/
def Overshift (done : Nat) : List (Nat × Nat) → Prop
  | [] => False
  | (size, _) :: rest => (size = 64 ∧ 0 < done ∧ done % 64 = 0) ∨ Overshift (done + size) rest

instance instDecidableOvershift : (n : Nat) → (ws : List (Nat × Nat)) → Decidable (Overshift n ws)
  | _, [] => isFalse (fun h => h)
  | n, (size, _) :: rest =>
    have := instDecidableOvershift (n + size) rest
    inferInstanceAs (Decidable (_ ∨ Overshift (n + size) rest))

/-- The bits stored in a stream: everything after the header byte except the number of padding bits
recorded in the low three bits of the header. -/
def payload : List Nat → List Bool
  | [] => []
  | h :: body => (bytesBits body).take (8 * body.length - h % 8)

/-- A stream starts with a header byte carrying the magic number in its top five bits. -/
def HasMagic : List Nat → Prop
  | [] => False
  | h :: _ => h / 8 % 32 = 0x1a

instance : (l : List Nat) → Decidable (HasMagic l)
  | [] => isFalse (fun h => h)
  | h :: _ => inferInstanceAs (Decidable (h / 8 % 32 = 0x1a))

/-- Legal read requests: at most 64 bits into a 64-bit destination, at most 32 bits otherwise. -/
def LegalReads (reqs : List (Bool × Nat)) : Prop := ∀ q ∈ reqs, q.2 ≤ if q.1 then 64 else 32

/-- What a sequence of reads must return on a stream whose unread bits are `U`: each read hands out
the next bits, left-aligned in the requested width, and how many there were. -/
def expected : List Bool → List (Bool × Nat) → List (Nat × Nat)
  | _, [] => []
  | U, (_, size) :: rest =>
    (ofBits (U.take size) * 2 ^ (size - min size U.length), min size U.length) ::
      expected (U.drop size) rest

end Verif.BitStream
