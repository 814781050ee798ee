/-!
# Model of `fly::coders::Base64Coder`

Source: `/repo/fly/coders/base64/base64_coder.cpp`, `.hpp`, and the string entry points of
`/repo/fly/coders/coder.cpp`. Bytes are `Nat`s below 256 (the unsigned value of a `char`). Any access
outside a table or a buffer is the outcome `ub`.

Simplifications: the input is a memory stream that never fails except by end of file, the output is a
memory stream that only fails through `setstate`; `char` is signed and eight bits wide, as the table
of negative codes requires.
-/

namespace Verif.Base64

/-- Result of a coder call on memory streams: undefined behaviour, reported failure, or success with
the bytes written. -/
inductive Res where
  | ub
  | fail
  | ok (out : List Nat)
deriving Repr, DecidableEq

/-- `s_base64_symbols` (base64_coder.cpp 11-21), as character codes. -/
def symbols : List Nat := [
  65, 66, 67, 68, 69, 70, 71, 72, 73, 74, 75, 76, 77, 78, 79, 80, 81, 82, 83, 84,
  85, 86, 87, 88, 89, 90, 97, 98, 99, 100, 101, 102, 103, 104, 105, 106, 107, 108, 109, 110,
  111, 112, 113, 114, 115, 116, 117, 118, 119, 120, 121, 122, 48, 49, 50, 51, 52, 53, 54, 55,
  56, 57, 43, 47]

/-- `s_base64_codes` (base64_coder.cpp 25-40). The C++ entries are signed chars; they are listed by
their eight-bit pattern, so -1 is 255 and -2 is 254. -/
def codes : List Nat := [
  255, 255, 255, 255, 255, 255, 255, 255, 255, 255, 255, 255, 255, 255, 255, 255, 255, 255, 255, 255,
  255, 255, 255, 255, 255, 255, 255, 255, 255, 255, 255, 255, 255, 255, 255, 255, 255, 255, 255, 255,
  255, 255, 255, 62, 255, 255, 255, 63, 52, 53, 54, 55, 56, 57, 58, 59, 60, 61, 255, 255,
  255, 254, 255, 255, 255, 0, 1, 2, 3, 4, 5, 6, 7, 8, 9, 10, 11, 12, 13, 14,
  15, 16, 17, 18, 19, 20, 21, 22, 23, 24, 25, 255, 255, 255, 255, 255, 255, 26, 27, 28,
  29, 30, 31, 32, 33, 34, 35, 36, 37, 38, 39, 40, 41, 42, 43, 44, 45, 46, 47, 48,
  49, 50, 51, 255, 255, 255, 255, 255, 255, 255, 255, 255, 255, 255, 255, 255, 255, 255, 255, 255,
  255, 255, 255, 255, 255, 255, 255, 255, 255, 255, 255, 255, 255, 255, 255, 255, 255, 255, 255, 255,
  255, 255, 255, 255, 255, 255, 255, 255, 255, 255, 255, 255, 255, 255, 255, 255, 255, 255, 255, 255,
  255, 255, 255, 255, 255, 255, 255, 255, 255, 255, 255, 255, 255, 255, 255, 255, 255, 255, 255, 255,
  255, 255, 255, 255, 255, 255, 255, 255, 255, 255, 255, 255, 255, 255, 255, 255, 255, 255, 255, 255,
  255, 255, 255, 255, 255, 255, 255, 255, 255, 255, 255, 255, 255, 255, 255, 255, 255, 255, 255, 255,
  255, 255, 255, 255, 255, 255, 255, 255, 255, 255, 255, 255, 255, 255, 255, 255]

/-- Number of 3-byte (decoded) / 4-byte (encoded) groups per buffer: `m_decoded` has `3 * groups`
and `m_encoded` has `4 * groups` bytes (base64_coder.hpp 41-45: `(64 * 3) << 10` and `(64 * 4) << 10`). -/
def groups : Nat := 65536

/-- `s_base64_symbols[i]`. -/
def symbolAt (i : Nat) : Nat := symbols.getD i 0

/-- `encode_chunk` (base64_coder.cpp 51-70). -/
def encodeChunk (ch0 ch1 ch2 : Nat) : List Nat :=
  [ symbolAt ((ch0 &&& 0xfc) >>> 2),
    symbolAt (((ch0 &&& 0x03) <<< 4) ||| ((ch1 &&& 0xf0) >>> 4)),
    symbolAt (((ch1 &&& 0x0f) <<< 2) ||| ((ch2 &&& 0xc0) >>> 6)),
    symbolAt (ch2 &&& 0x3f) ]

/-- The loop over whole 3-byte groups (base64_coder.cpp 137-142): the symbols written and the
unprocessed remainder (fewer than three bytes). -/
def encodeGroups : List Nat → List Nat × List Nat
  | a :: b :: c :: rest =>
    let (out, rem) := encodeGroups rest
    (encodeChunk a b c ++ out, rem)
  | rem => ([], rem)

/-- The buffer after `memset(m_decoded.data() + end, 0, end)` (base64_coder.cpp 150-151); `mem` is
the buffer before. `none` if the write leaves the buffer of `3 * n` bytes. -/
def clearTail (n : Nat) (mem : Nat → Nat) (e : Nat) : Option (Nat → Nat) :=
  if e + e ≤ 3 * n then some (fun i => if e ≤ i ∧ i < e + e then 0 else mem i) else none

/-- One iteration of the read loop of `encode_internal` (base64_coder.cpp 131-158) on the bytes
`chunk` just read into a buffer of `n` groups whose other positions hold the leftovers `stale`. -/
def encodeRead (n : Nat) (stale : Nat → Nat) (chunk : List Nat) : Option (List Nat) :=
  let (out, rem) := encodeGroups chunk
  if rem.length > 0 then
    let mem := fun i => chunk.getD i (stale i)
    let start := chunk.length - rem.length
    match clearTail n mem (start + rem.length) with
    | none => none
    | some mem =>
      some (out ++ (encodeChunk (mem start) (mem (start + 1)) (mem (start + 2))).take (rem.length + 1)
        ++ ([61, 61, 61].take (3 - rem.length)))
  else some out

/-- `Base64Coder::encode_internal` (base64_coder.cpp 127-162) with buffers of `n + 1` groups. A read
shorter than the buffer sets `eofbit` and ends the loop. `stale i` is the left-over buffer content at
the `i`-th read. -/
def encodeLoop (n : Nat) (stale : Nat → Nat → Nat) (i : Nat) (input : List Nat) : Option (List Nat) :=
  match encodeRead (n + 1) (stale i) (input.take (3 * (n + 1))) with
  | none => none
  | some out =>
    if input.length < 3 * (n + 1) then some out
    else
      match encodeLoop n stale (i + 1) (input.drop (3 * (n + 1))) with
      | none => none
      | some out' => some (out ++ out')
termination_by input.length
decreasing_by simp only [List.length_drop]; omega

/-- `Base64Coder::encode_internal` with the real buffer sizes. -/
def encode (stale : Nat → Nat → Nat) (input : List Nat) : Res :=
  match encodeLoop (groups - 1) stale 0 input with
  | none => .ub
  | some out => .ok out

/-- `s_base64_codes[static_cast<std::size_t>(ch)]`: a signed `char` at or above 0x80 converts to an
index far outside the 256-entry table. -/
def codeAt (ch : Nat) : Option Nat := if ch < 128 then some (codes.getD ch 0) else none

/-- The three bytes assembled by `decode_chunk` (base64_coder.cpp 92-100); `char` conversion keeps
the low eight bits. -/
def assemble (c0 c1 c2 c3 : Nat) : List Nat :=
  [ ((c0 <<< 2) ||| ((c1 >>> 4) &&& 0x03)) % 256,
    (((c1 &&& 0x0f) <<< 4) ||| ((c2 &&& 0xfc) >>> 2)) % 256,
    (((c2 &&& 0x03) <<< 6) ||| c3) % 256 ]

/-- `decode_chunk<std::false_type>` (base64_coder.cpp 84-122): the bytes stored, and whether every
code was valid. -/
def decodeChunk (a b c d : Nat) : Option (List Nat × Bool) := do
  let c0 ← codeAt a
  let c1 ← codeAt b
  let c2 ← codeAt c
  let c3 ← codeAt d
  return (assemble c0 c1 c2 c3, (c0 ||| c1 ||| c2 ||| c3) &&& 0x80 == 0)

/-- `decode_chunk<std::true_type>` (base64_coder.cpp 84-122): the bytes stored and how many of them
count (0 = failure). -/
def decodeLast (a b c d : Nat) : Option (List Nat × Nat) := do
  let c0 ← codeAt a
  let c1 ← codeAt b
  let c2 ← codeAt c
  let c3 ← codeAt d
  let n :=
    if c0 = 255 ∨ c1 = 255 ∨ c2 = 255 ∨ c3 = 255 then 0
    else if c0 = 254 ∨ c1 = 254 ∨ (c2 = 254 ∧ c3 ≠ 254) then 0
    else if c2 = 254 then 1 else if c3 = 254 then 2 else 3
  return (assemble c0 c1 c2 c3, n)

/-- The unpadded decoding loop (base64_coder.cpp 192-202): the bytes stored, whether no chunk failed,
and the encoded bytes from the current position on. `none` is undefined behaviour; running off the
bytes read (which the loop count excludes) is counted as such. -/
def decodeGroups : Nat → List Nat → Option (List Nat × Bool × List Nat)
  | 0, enc => some ([], true, enc)
  | k + 1, a :: b :: c :: d :: rest =>
    match decodeChunk a b c d with
    | none => none
    | some (_, false) => some ([], false, a :: b :: c :: d :: rest)
    | some (bytes, true) =>
      match decodeGroups k rest with
      | none => none
      | some (out, ok, rest) => some (bytes ++ out, ok, rest)
  | _ + 1, _ => none

/-- One iteration of the read loop of `decode_internal` after the size checks (base64_coder.cpp
182-219): the bytes written and whether the output stream is still good. The inner `break` leaves
only the inner loop, so the final chunk is still looked at. -/
def decodeRead (chunk : List Nat) (eof : Bool) : Option (List Nat × Bool) :=
  match decodeGroups (chunk.length / 4 - if eof then 1 else 0) chunk with
  | none => none
  | some (out, ok, rest) =>
    if eof then
      match rest with
      | a :: b :: c :: d :: _ =>
        match decodeLast a b c d with
        | none => none
        | some (bytes, n) => some (out ++ bytes.take n, ok && n != 0)
      | _ => none
    else some (out, ok)

/-- `Base64Coder::decode_internal` (base64_coder.cpp 165-224) with buffers of `n + 1` groups; `good`
is the state of the output stream so far. -/
def decodeLoop (n : Nat) (good : Bool) (input : List Nat) : Res :=
  let chunk := input.take (4 * (n + 1))
  if chunk.length % 4 ≠ 0 then .fail
  else if chunk.length = 0 then (if good then .ok [] else .fail)
  else
    match decodeRead chunk (input.length < 4 * (n + 1)) with
    | none => .ub
    | some (out, ok) =>
      if input.length < 4 * (n + 1) then (if good && ok then .ok out else .fail)
      else
        match decodeLoop n (good && ok) (input.drop (4 * (n + 1))) with
        | .ok out' => .ok (out ++ out')
        | r => r
termination_by input.length
decreasing_by simp only [List.length_drop]; omega

/-- `Base64Coder::decode_internal` with the real buffer sizes. -/
def decode (input : List Nat) : Res := decodeLoop (groups - 1) true input

/-- `Encoder::encode_string` / `Decoder::decode_string` (coder.cpp 53-75, 111-131): the caller's
output string is replaced only on success. -/
def assignOnSuccess (r : Res) (old : List Nat) : Option (Bool × List Nat) :=
  match r with
  | .ub => none
  | .fail => some (false, old)
  | .ok out => some (true, out)

end Verif.Base64
