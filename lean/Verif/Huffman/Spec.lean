import Verif.Huffman.Model
import Verif.Common.Bits

/-!
# Specification of the Huffman coder
-/

namespace Verif.Huffman
open Verif.Bits

/-- The bits written for a code. -/
def Code.bits (c : Code) : List Bool := toBits c.length c.code

/-- Distinct symbols of a chunk. -/
def alphabet (chunk : List Nat) : List Nat := (List.range 256).filter fun s => decide (s ∈ chunk)

/-- A usable configuration for an input: at least one KiB per chunk (16 bits in the header), a maximum
code length the coder supports, and room for the distinct symbols of each chunk. -/
structure Valid (kb M : Nat) (input : List Nat) : Prop where
  kb_pos : 1 ≤ kb
  kb_lt : kb < 65536
  len_pos : 1 ≤ M
  len_le : M ≤ 15
  room : ∀ chunk ∈ chunks (kb * 1024) input, (alphabet chunk).length ≤ 2 ^ M

end Verif.Huffman
