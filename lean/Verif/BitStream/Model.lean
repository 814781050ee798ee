/-!
# Model of `fly::BitStreamWriter` and `fly::BitStreamReader`

Sources: `/repo/fly/types/bit_stream/*`. All integers are `Nat`; the C++ widths appear as explicit
reductions (`% 2 ^ 64` for `buffer_type`, `% 256` for `byte_type`). A shift by 64 or more of a
64-bit operand is undefined behaviour in C++ and is the outcome `none` here.

Simplifications: the underlying `std::ostream`/`std::istream` is an always-good memory stream
(`m_stream` is true); the template parameter `DataType` only bounds the legal widths
(`size ≤ digits`), which the theorems state as hypotheses, so values are plain `Nat`s.
-/

namespace Verif.BitStream

/-- `detail::s_magic` (constants.hpp 14-26: magic `0x1a`). -/
def magic : Nat := 0x1a

/-- C++ `x << n` on a 64-bit operand; shifting by 64 or more is undefined. -/
def shl64 (x n : Nat) : Option Nat := if n < 64 then some ((x <<< n) % 2 ^ 64) else none

/-- C++ `x >> n` on a 64-bit operand; shifting by 64 or more is undefined. -/
def shr64 (x n : Nat) : Option Nat := if n < 64 then some (x >>> n) else none

/-- Big-endian bytes of a 64-bit value: `endian_swap_if_non_native<std::endian::big>` followed by a
raw memory write (bit_stream_writer.hpp 131-135). -/
def beBytes : Nat → Nat → List Nat
  | 0, _ => []
  | k + 1, v => (v >>> (8 * k)) % 256 :: beBytes k v

/-- Big-endian value of a byte list (bit_stream_reader.hpp 241-245, raw read then endian swap). -/
def beVal : List Nat → Nat
  | [] => 0
  | b :: bs => b * 2 ^ (8 * bs.length) + beVal bs

/-- Writer state: the memory stream (contents and put position), `m_buffer`, `m_position`
(bit_stream.hpp 63-66). -/
structure Writer where
  out : List Nat
  cur : Nat
  buf : Nat
  pos : Nat
deriving Repr, DecidableEq

/-- `sputn` at the put position of a memory stream: overwrite, extending at the end
(bit_stream_writer.hpp 127-137). -/
def Writer.put (w : Writer) (data : List Nat) : Writer :=
  { w with
    out := w.out.take w.cur ++ data ++ w.out.drop (w.cur + data.length)
    cur := w.cur + data.length }

/-- The header byte (bit_stream_writer.cpp 56-57; constants.hpp: shift of the magic by 3, of the
remainder by 0). -/
def headerByte (remainder : Nat) : Nat := ((magic <<< 3) ||| remainder) % 256

/-- `BitStreamWriter::flush_header` (bit_stream_writer.cpp 52-59). -/
def Writer.flushHeader (w : Writer) (remainder : Nat) : Writer :=
  ({ w with cur := 0 } : Writer).put [headerByte remainder]

/-- `BitStreamWriter::BitStreamWriter` over an empty memory stream (bit_stream_writer.cpp 9-14). -/
def Writer.init : Writer :=
  Writer.flushHeader { out := [], cur := 0, buf := 0, pos := 64 } 0

/-- `BitStreamWriter::flush_buffer` (bit_stream_writer.cpp 62-68). -/
def Writer.flushBuffer (w : Writer) : Writer :=
  { w.put (beBytes 8 w.buf) with buf := 0, pos := 64 }

/-- `BitStreamWriter::write_bits` (bit_stream_writer.hpp 100-123). `none` = undefined behaviour. -/
def Writer.writeBits (w : Writer) (bits size : Nat) : Option Writer :=
  if size > w.pos then
    let rshift := size - w.pos
    match shr64 bits rshift with
    | none => none
    | some hi =>
      let w := Writer.flushBuffer { w with buf := w.buf ||| hi }
      let bits := bits % 2 ^ rshift          -- `bits &= bit_mask<DataType>(rshift)`
      let size := rshift
      let lshift := w.pos - size
      match shl64 bits lshift with
      | none => none
      | some lo => some { w with buf := w.buf ||| lo, pos := lshift }
  else
    let lshift := w.pos - size
    match shl64 bits lshift with
    | none => none
    | some lo => some { w with buf := w.buf ||| lo, pos := lshift }

/-- `BitStreamWriter::finish` on a good stream (bit_stream_writer.cpp 30-49). The number of bytes
flushed is `bits_to_flush / 8`, taken from the most significant end of the buffer. -/
def Writer.finish (w : Writer) : Writer :=
  let bitsInBuffer := 64 - w.pos
  if bitsInBuffer > 0 then
    let bitsToFlush := bitsInBuffer + w.pos % 8
    let w := { w.put ((beBytes 8 w.buf).take (bitsToFlush / 8)) with buf := 0, pos := 64 }
    w.flushHeader (bitsToFlush - bitsInBuffer)
  else w

/-- A client's sequence of `write_bits(value, size)` calls, given as `(size, value)`. -/
def Writer.writeAll (w : Writer) : List (Nat × Nat) → Option Writer
  | [] => some w
  | (size, bits) :: rest =>
    match w.writeBits bits size with
    | none => none
    | some w => w.writeAll rest

/-- Construct, write everything, finish; the bytes left in the stream. -/
def encode (ws : List (Nat × Nat)) : Option (List Nat) :=
  (Writer.init.writeAll ws).map (fun w => w.finish.out)

/-- Reader state: unread stream bytes, `m_buffer`, `m_position`, `m_remainder`, and whether the
stream is good (bit_stream_reader.hpp 140-143). -/
structure Reader where
  rest : List Nat
  buf : Nat
  pos : Nat
  remainder : Nat
  good : Bool
deriving Repr, DecidableEq

/-- `BitStreamReader::BitStreamReader` (bit_stream_reader.cpp 9-28). -/
def Reader.init (bytes : List Nat) : Reader :=
  match bytes with
  | [] => { rest := [], buf := 0, pos := 0, remainder := 0, good := false }
  | h :: rest =>
    { rest := rest, buf := 0, pos := 0, remainder := h % 8, good := (h >>> 3) % 32 == magic }

/-- `BitStreamReader::refill_buffer` (bit_stream_reader.cpp 60-87) with `fill`
(bit_stream_reader.hpp 236-250). The bytes read occupy the most significant end of `buffer` after
the endian swap. -/
def Reader.refill (r : Reader) : Reader :=
  let bytes := if r.good then r.rest.take ((64 - r.pos) / 8) else []
  if bytes.length > 0 then
    let bitsRead := 8 * bytes.length
    let buffer := beVal bytes <<< (64 - bitsRead)
    let pos := r.pos + bitsRead
    let buf := (r.buf <<< bitsRead) % 2 ^ 64 ||| (buffer >>> (64 - bitsRead))
    let rest := r.rest.drop bytes.length
    if rest.isEmpty then
      { r with rest := rest, pos := pos - r.remainder, buf := buf >>> r.remainder }
    else
      { r with rest := rest, pos := pos, buf := buf }
  else r

/-- `BitStreamReader::peek_bits` (bit_stream_reader.hpp 176-227): the value, the number of bits
peeked, and the new state. `none` = undefined behaviour (over-wide shift). -/
def Reader.peekBits (r : Reader) (size : Nat) : Option (Nat × Nat × Reader) :=
  if size > r.pos then
    let peeked := r.pos
    let lshift := size - r.pos
    let bits := (r.buf % 2 ^ r.pos) <<< lshift
    let r := r.refill
    let size := min lshift (r.pos - peeked)
    let lshift := lshift - size
    let rshift := r.pos - peeked - size
    match shr64 r.buf rshift with
    | none => none
    | some buffer => some (bits ||| ((buffer % 2 ^ size) <<< lshift), peeked + size, r)
  else
    let rshift := r.pos - size
    match shr64 r.buf rshift with
    | none => none
    | some buffer => some (buffer % 2 ^ size, size, r)

/-- `BitStreamReader::discard_bits` (bit_stream_reader.hpp 230-233), `byte_type` arithmetic. -/
def Reader.discardBits (r : Reader) (size : Nat) : Reader :=
  { r with pos := (r.pos + 256 - size) % 256 }

/-- `read_bits` for the 8-, 16- and 32-bit types (bit_stream_reader.hpp 166-172). -/
def Reader.readNarrow (r : Reader) (size : Nat) : Option (Nat × Nat × Reader) :=
  match r.peekBits size with
  | none => none
  | some (bits, n, r) => some (bits, n, r.discardBits n)

/-- `read_bits` for the 64-bit type (bit_stream_reader.hpp 150-165). -/
def Reader.readWide (r : Reader) (size : Nat) : Option (Nat × Nat × Reader) :=
  let sizeHigh := size / 2
  let sizeLow := size - sizeHigh
  match r.readNarrow sizeHigh with
  | none => none
  | some (hi, nHigh, r) =>
    match r.readNarrow sizeLow with
    | none => none
    | some (lo, nLow, r) => some ((hi <<< sizeLow) ||| lo, nHigh + nLow, r)

/-- `read_bits`, selecting the overload by the width of the destination type. -/
def Reader.readBits (r : Reader) (wide : Bool) (size : Nat) : Option (Nat × Nat × Reader) :=
  if wide then r.readWide size else r.readNarrow size

/-- `BitStreamReader::fully_consumed` (bit_stream_reader.cpp 43-51). -/
def Reader.fullyConsumed (r : Reader) : Bool := r.pos == 0 && r.rest.isEmpty

/-- A client's sequence of reads `(wide destination?, size)`; returns `(value, bits read)` each. -/
def Reader.readAll (r : Reader) : List (Bool × Nat) → Option (List (Nat × Nat) × Reader)
  | [] => some ([], r)
  | (wide, size) :: rest =>
    match r.readBits wide size with
    | none => none
    | some (v, n, r) =>
      match r.readAll rest with
      | none => none
      | some (out, r) => some ((v, n) :: out, r)

end Verif.BitStream
