import Verif.Base64.Model
import Verif.Huffman.Model

/-!
# Model of `Encoder::encode_file` and `Decoder::decode_file`

Source: `/repo/fly/coders/coder.cpp` 78-105 and 134-161, with the coders of `Verif/Base64/Model.lean` and
`Verif/Huffman/Model.lean`, and what `BitStreamWriter` does with a stream that refuses data
(`/repo/fly/types/bit_stream/bit_stream_writer.hpp` 127-137).

Simplifications: files are regular ones, nobody else changes them during the call, reading does not fail; what
is logged is left out.
-/

namespace Verif.Coder

/-- The files of a machine. Two names may denote the same file. -/
structure Disk where
  /-- the file a name denotes -/
  file : Nat → Option Nat
  /-- the contents of a file -/
  data : Nat → List Nat
  /-- the file may be opened for reading -/
  mayRead : Nat → Bool
  /-- the name may be opened for writing, creating the file if there is none -/
  mayWrite : Nat → Bool
  /-- the file the next creation gives -/
  fresh : Nat

/-- The contents found under a name. -/
def Disk.read (d : Disk) (p : Nat) : Option (List Nat) := (d.file p).map d.data

/-- Replace the contents of a file. -/
def Disk.put (d : Disk) (i : Nat) (l : List Nat) : Disk := { d with data := fun j => if j = i then l else d.data j }

/-- `std::ifstream input(path, in | binary)` (coder.cpp 14, 85, 141). -/
def Disk.openIn (d : Disk) (p : Nat) : Option Nat :=
  match d.file p with
  | some i => if d.mayRead i then some i else none
  | none => none

/-- `std::ofstream output(path, out | binary | trunc)` (coder.cpp 15, 86, 142). -/
def Disk.openOut (d : Disk) (p : Nat) : Option Nat × Disk :=
  if d.mayWrite p then
    match d.file p with
    | some i => (some i, d.put i [])
    | none => (some d.fresh,
        { (d.put d.fresh []) with file := fun q => if q = p then some d.fresh else d.file q, fresh := d.fresh + 1 })
  else (none, d)

/-- What a coder did: undefined behaviour, or its return value on streams that accept everything, with the bytes
it gave to the output stream. -/
inductive Run where
  | ub
  | ret (ok : Bool) (out : List Nat)

/-- A coder: the possible runs for an input, and whether it notices that the output stream refused data. -/
structure Coder where
  run : List Nat → Run → Prop
  notices : Bool

/-- `Base64Coder::encode_internal` (base64_coder.cpp 127-162); the stream's state is looked at in line 161. -/
def base64Encoder : Coder where
  run input r := ∃ stale : Nat → Nat → Nat, (∀ i j, stale i j < 256) ∧
    match Base64.encode stale input with
    | .ub => r = .ub
    | .fail => ∃ out, r = .ret false out
    | .ok out => r = .ret true out
  notices := true

/-- `Base64Coder::decode_internal` (base64_coder.cpp 165-224); the stream's state is looked at in line 223. -/
def base64Decoder : Coder where
  run input r :=
    match Base64.decode input with
    | .ub => r = .ub
    | .fail => ∃ out, r = .ret false out
    | .ok out => r = .ret true out
  notices := true

/-- `HuffmanEncoder::encode_binary` (huffman_encoder.cpp 32-55): refuses too large a code length, after the bit
stream's header byte has been written. `BitStreamWriter` writes to the stream's buffer and drops the result
(bit_stream_writer.hpp 127-137), so the state that `finish` returns (bit_stream_writer.cpp 46) knows nothing of
data that was refused. -/
def huffmanEncoder (kb M : Nat) : Coder where
  run input r := (∃ out, Huffman.Encodes kb M input out ∧ r = .ret true out) ∨
    (16 ≤ M ∧ r = .ret false [0xd0])
  notices := false

/-- `HuffmanDecoder::decode_binary` (huffman_decoder.cpp 34-67); the stream's state is looked at in line 66. -/
def huffmanDecoder : Coder where
  run input r :=
    match Huffman.decode input with
    | .fault _ => r = .ub
    | .fail => ∃ out, r = .ret false out
    | .ok out => r = .ret true out
  notices := true

/-- `encode_file` / `decode_file` (coder.cpp 78-105, 134-161) from `p` to `q`, on a device that takes `room` more
bytes. Both files are opened, the output is truncated, before anything is looked at. An input that is the same file
as the output is empty by then, and every coder reads to the end of the input before its first byte leaves the
output stream's buffer. Output that does not fit is cut somehow; a coder that looks at the stream's state may find
out before it returns, but not if the data was still in the stream's buffer, which is written when the stream is
destroyed (coder.cpp 92, 148), after the return value was fixed. -/
inductive CodeFile (c : Coder) (room : Nat) (d : Disk) (p q : Nat) : Disk → Bool → Prop
  | notOpened : (d.openIn p = none ∨ (d.openOut q).1 = none) → CodeFile c room d p q (d.openOut q).2 false
  | fits {i o ok out} : d.openIn p = some i → (d.openOut q).1 = some o →
      c.run ((d.openOut q).2.data i) (.ret ok out) → out.length ≤ room →
      CodeFile c room d p q ((d.openOut q).2.put o out) ok
  | cut {i o ok out kept late} : d.openIn p = some i → (d.openOut q).1 = some o →
      c.run ((d.openOut q).2.data i) (.ret ok out) → room < out.length → kept.length ≤ room →
      CodeFile c room d p q ((d.openOut q).2.put o kept) (ok && (!c.notices || late))

end Verif.Coder
