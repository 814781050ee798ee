import Verif.BitStream.Model

/-!
# Model of `fly::coders::HuffmanEncoder` and `fly::coders::HuffmanDecoder`

Sources: `/repo/fly/coders/huffman/*`. The bit streams are those of `Verif.BitStream`.

Integers are `Nat` with the C++ reductions written out (`% 65536` for `code_type`, `% 256` for
`length_type`). Accesses outside an array are the fault `.bounds`, over-wide shifts `.shift`.

Simplifications: `std::priority_queue` pops *some* node of least frequency (its choice among equals is
left open, so the theorems hold for every implementation); the provisional codes formed from the tree's
frequency fields are left out because `convert_to_canonical_form` overwrites all of them; logging is
left out; the output stream stays good.
-/

namespace Verif.Huffman

/-- `HuffmanCode`, types.hpp 93-139. -/
structure Code where
  symbol : Nat
  code : Nat
  length : Nat
  deriving DecidableEq, Repr

/-- `operator<` on codes, types.cpp 83-91. -/
def Code.less (a b : Code) : Bool :=
  if a.length == b.length then decide (a.symbol < b.symbol) else decide (a.length < b.length)

/-- A Huffman tree: `HuffmanNode`, types.hpp 33-76. -/
inductive Tree
  | leaf (symbol freq : Nat)
  | node (left right : Tree)
  deriving DecidableEq, Repr

/-- `m_frequency`: types.cpp 31-46. -/
def Tree.freq : Tree → Nat
  | .leaf _ f => f
  | .node l r => l.freq + r.freq

/-- The nodes first pushed into the queue, huffman_encoder.cpp 68-92: one per symbol that occurs. -/
def leavesOf (chunk : List Nat) : List Tree :=
  ((List.range 256).filter fun s => decide (0 < chunk.count s)).map fun s => .leaf s (chunk.count s)

/-- Combining nodes until the root remains, huffman_encoder.cpp 94-111. The queue's content is a list
up to reordering; `left` is of least frequency, `right` of least frequency among the others. -/
inductive Build : List Tree → Tree → Prop
  | done {t : Tree} : Build [t] t
  | step {q rest : List Tree} {left right t : Tree} : q.Perm (left :: right :: rest) →
      (∀ x ∈ right :: rest, left.freq ≤ x.freq) → (∀ x ∈ rest, right.freq ≤ x.freq) →
      Build (.node left right :: rest) t → Build q t

/-- The leaves met by the traversal in `create_codes`, huffman_encoder.cpp 126-159: the right child is
on top of the stack; the length is the size of the path, as `length_type`. -/
def Tree.codes : Tree → Nat → List Code
  | .leaf s _, depth => [⟨s, 0, depth % 256⟩]
  | .node l r, depth => r.codes (depth + 1) ++ l.codes (depth + 1)

/-- `insert_code`, huffman_encoder.cpp 170-180, from the last code backwards. -/
def insertRev (c : Code) : List Code → List Code
  | [] => [c]
  | x :: xs => if c.less x then x :: insertRev c xs else c :: x :: xs

def insertCode (l : List Code) (c : Code) : List Code := (insertRev c l.reverse).reverse

/-- All codes of a tree in insertion order, huffman_encoder.cpp 146. -/
def collect (t : Tree) : List Code := (t.codes 0).foldl insertCode []

/-- `max_code_length`, huffman_encoder.cpp 144. -/
def maxLength (cs : List Code) : Nat := cs.foldl (fun m c => max m c.length) 0

/-- `compute_kraft`, huffman_encoder.cpp 185-187, as `code_type`. -/
def kraftOf (M length : Nat) : Nat := 2 ^ (M - length) % 65536

/-- The loop `while (code.m_length < m_max_code_length)`, huffman_encoder.cpp 208-212; `n` is the number
of iterations, `M - length`. -/
def raiseOne (M : Nat) : Nat → Nat → Nat → Nat × Nat
  | 0, length, k => (length, k)
  | n + 1, length, k => raiseOne M n (length + 1) ((k + 65536 - kraftOf M (length + 1)) % 65536)

/-- The second loop of `limit_code_lengths`, huffman_encoder.cpp 202-213, over the reversed codes. -/
def raiseRev (M : Nat) : List Code → Nat → List Code × Nat
  | [], k => ([], k)
  | c :: cs, k =>
    if k > 2 ^ M - 1 then
      let p := raiseOne M (M - c.length) c.length k
      let q := raiseRev M cs p.2
      ({ c with length := p.1 } :: q.1, q.2)
    else (c :: cs, k)

/-- The inner loop `while ((candidate = kraft + compute_kraft(code)) <= max_allowed_kraft)`,
huffman_encoder.cpp 222-226. `none`: the length underflows (undefined shift afterwards). -/
def lowerOne (M : Nat) : Nat → Nat → Option (Nat × Nat)
  | 0, k => if (k + kraftOf M 0) % 65536 ≤ 2 ^ M - 1 then none else some (0, k)
  | l + 1, k =>
    if (k + kraftOf M (l + 1)) % 65536 ≤ 2 ^ M - 1 then lowerOne M l ((k + kraftOf M (l + 1)) % 65536)
    else some (l + 1, k)

/-- The third loop of `limit_code_lengths`, huffman_encoder.cpp 215-227. -/
def lowerAll (M : Nat) : List Code → Nat → Option (List Code)
  | [], _ => some []
  | c :: cs, k =>
    match lowerOne M c.length k with
    | none => none
    | some (l, k') => (lowerAll M cs k').map ({ c with length := l } :: ·)

/-- `limit_code_lengths`, huffman_encoder.cpp 183-228. -/
def limit (M : Nat) (cs : List Code) : Option (List Code) :=
  let cs := cs.map fun c => { c with length := min c.length M }
  let kraft := cs.foldl (fun k c => (k + kraftOf M c.length) % 65536) 0
  let p := raiseRev M cs.reverse kraft
  lowerAll M p.1.reverse p.2

/-- The loop of `convert_to_canonical_form`, huffman_encoder.cpp 243-252. The lengths never decrease,
so the shift amount is not negative. -/
def canonicalFrom (prev : Code) : List Code → List Code
  | [] => []
  | c :: cs =>
    let c' := { c with code := ((prev.code + 1) % 65536 * 2 ^ (c.length - prev.length)) % 65536 }
    c' :: canonicalFrom c' cs

/-- `convert_to_canonical_form`, huffman_encoder.cpp 231-253. -/
def canonical : List Code → List Code
  | [] => []
  | [c] => [{ c with code := 0, length := 1 }]
  | c :: cs => { c with code := 0 } :: canonicalFrom { c with code := 0 } cs

/-- `create_codes`, huffman_encoder.cpp 115-167. -/
def createCodes (M : Nat) (t : Tree) : Option (List Code) :=
  let cs := collect t
  (if maxLength cs > M then limit M cs else some cs).map canonical

/-- `encode_header`, huffman_encoder.cpp 256-266, as the writes `(size, value)`. -/
def headerWrites (kb M : Nat) : List (Nat × Nat) := [(8, 1), (16, kb), (8, M)]

/-- `encode_codes`, huffman_encoder.cpp 269-301. The counts are resized up to the greatest length. -/
def codesWrites (cs : List Code) : List (Nat × Nat) :=
  (8, (maxLength cs + 1) % 256) ::
    ((List.range (maxLength cs + 1)).map fun l => (16, cs.countP fun c => c.length == l)) ++
    cs.map fun c => (8, c.symbol)

/-- Lookup in the table of `encode_symbols`, huffman_encoder.cpp 306-312; symbols without a code have
the default code. -/
def lookup (cs : List Code) (b : Nat) : Code := (cs.find? fun c => c.symbol == b).getD ⟨0, 0, 0⟩

/-- `encode_symbols`, huffman_encoder.cpp 304-321. -/
def symbolsWrites (cs : List Code) (chunk : List Nat) : List (Nat × Nat) :=
  chunk.map fun b => ((lookup cs b).length, (lookup cs b).code)

/-- `read_stream` until it returns zero, huffman_encoder.cpp 45, 58-65. With a chunk size of zero
nothing is ever read. -/
def chunks (size : Nat) (input : List Nat) : List (List Nat) :=
  if _h : size = 0 ∨ input = [] then [] else input.take size :: chunks size (input.drop size)
termination_by input.length
decreasing_by
  simp only [not_or] at _h
  have : 0 < input.length := List.length_pos_iff.mpr _h.2
  simp only [List.length_drop]; omega

/-- The loop of `encode_binary`, huffman_encoder.cpp 45-52. -/
inductive ChunkWrites (M : Nat) : List (List Nat) → List (Nat × Nat) → Prop
  | nil : ChunkWrites M [] []
  | cons {chunk rest t cs ws} : Build (leavesOf chunk) t → createCodes M t = some cs → ChunkWrites M rest ws →
      ChunkWrites M (chunk :: rest) (codesWrites cs ++ symbolsWrites cs chunk ++ ws)

/-- `encode_binary` (huffman_encoder.cpp 32-55) reports success and leaves `out` in the stream, with the
configuration's chunk size in KiB and maximum code length (coder_config.cpp 6-20). -/
def Encodes (kb M : Nat) (input out : List Nat) : Prop :=
  M < 16 ∧ ∃ ws, ChunkWrites M (chunks (kb * 1024) input) ws ∧
    BitStream.encode (headerWrites kb M ++ ws) = some out

/-- What can go wrong. -/
inductive Fault
  /-- an array is accessed outside its bounds -/
  | bounds
  /-- a shift by too much in the bit stream reader -/
  | shift
  /-- the model's iteration budget is exhausted -/
  | fuel
  deriving DecidableEq, Repr

/-- Result of decoding: undefined behaviour, failure, or success. -/
inductive Res (α : Type)
  | fault (f : Fault)
  | fail
  | ok (a : α)
  deriving DecidableEq, Repr

open BitStream (Reader)

/-- `read_byte` / `read_word`, bit_stream_reader.cpp 30-41. -/
def readWhole (r : Reader) (size : Nat) : Res (Nat × Reader) :=
  match r.readNarrow size with
  | none => .fault .shift
  | some (v, n, r) => if n == size then .ok (v, r) else .fail

/-- `decode_header`, huffman_decoder.cpp 70-133: chunk size and maximum code length. -/
def decodeHeader (r : Reader) : Res (Nat × Nat × Reader) :=
  match readWhole r 8 with
  | .fault f => .fault f
  | .fail => .fail
  | .ok (version, r) =>
    if version ≠ 1 then .fail
    else
      match readWhole r 16 with
      | .fault f => .fault f
      | .fail => .fail
      | .ok (kb, r) =>
        if kb = 0 then .fail
        else
          match readWhole r 8 with
          | .fault f => .fault f
          | .fail => .fail
          | .ok (M, r) => if M = 0 ∨ M ≥ 16 then .fail else .ok (kb * 1024, M, r)

/-- Reading the counts, huffman_decoder.cpp 158-168. -/
def decodeCounts : Nat → Reader → Res (List Nat × Reader)
  | 0, r => .ok ([], r)
  | n + 1, r =>
    match readWhole r 16 with
    | .fault f => .fault f
    | .fail => .fail
    | .ok (c, r) =>
      match decodeCounts n r with
      | .fault f => .fault f
      | .fail => .fail
      | .ok (cs, r) => .ok (c :: cs, r)

/-- The code the decoder assigns after the codes `acc` (last first), huffman_decoder.cpp 183-194. -/
def nextCode (acc : List Code) (length : Nat) : Nat :=
  match acc with
  | [] => 0
  | last :: _ => ((last.code + 1) * 2 ^ (length - last.length)) % 65536

/-- The inner loop over the symbols of one length, huffman_decoder.cpp 173-204; `acc` are the codes so
far, last first. -/
def decodeSymbolsOf (length : Nat) : Nat → List Code → Reader → Res (List Code × Reader)
  | 0, acc, r => .ok (acc, r)
  | n + 1, acc, r =>
    match readWhole r 8 with
    | .fault f => .fault f
    | .fail => .fail
    | .ok (symbol, r) =>
      if acc.length = 256 then .fail
      else decodeSymbolsOf length n (⟨symbol, nextCode acc length, length⟩ :: acc) r

/-- The outer loop over the lengths, huffman_decoder.cpp 170-205. -/
def decodeAllSymbols (length : Nat) : List Nat → List Code → Reader → Res (List Code × Reader)
  | [], acc, r => .ok (acc, r)
  | c :: cs, acc, r =>
    match decodeSymbolsOf length c acc r with
    | .fault f => .fault f
    | .fail => .fail
    | .ok (acc, r) => decodeAllSymbols (length + 1) cs acc r

/-- An entry of the prefix table: symbol and length. -/
abbrev Entry := Nat × Nat

/-- Writing one entry of `m_prefix_table`. -/
def setEntry (table : List Entry) (i : Nat) (e : Entry) : Res (List Entry) :=
  if i < table.length then .ok (table.set i e) else .fault .bounds

/-- The inner loop of `convert_to_prefix_table`, huffman_decoder.cpp 219-224: the remaining number of
iterations and `j`. -/
def fillCode (base : Nat) (e : Entry) : Nat → Nat → List Entry → Res (List Entry)
  | 0, _, table => .ok table
  | n + 1, j, table =>
    match setEntry table ((base + j) % 65536) e with
    | .fault f => .fault f
    | .fail => .fail
    | .ok table => fillCode base e n (j + 1) table

/-- `convert_to_prefix_table`, huffman_decoder.cpp 212-226. -/
def fillTable (maxLen : Nat) : List Code → List Entry → Res (List Entry)
  | [], table => .ok table
  | c :: cs, table =>
    match fillCode (c.code * 2 ^ (maxLen - c.length)) (c.symbol, c.length) (2 ^ (maxLen - c.length)) 0 table with
    | .fault f => .fault f
    | .fail => .fail
    | .ok table => fillTable maxLen cs table

/-- `decode_codes`, huffman_decoder.cpp 136-209: the greatest code length, the prefix table and the
reader. -/
def decodeCodes (M : Nat) (table : List Entry) (r : Reader) : Res (Nat × List Entry × Reader) :=
  match readWhole r 8 with
  | .fault f => .fault f
  | .fail => .fail
  | .ok (size, r) =>
    if size = 0 ∨ size > M + 1 then .fail
    else
      match decodeCounts size r with
      | .fault f => .fault f
      | .fail => .fail
      | .ok (counts, r) =>
        match decodeAllSymbols 0 counts [] r with
        | .fault f => .fault f
        | .fail => .fail
        | .ok (acc, r) =>
          match fillTable (size - 1) acc.reverse table with
          | .fault f => .fault f
          | .fail => .fail
          | .ok table => .ok (size - 1, table, r)

/-- The loop of `decode_symbols`, huffman_decoder.cpp 238-244, with the number of bytes still to come. -/
def decodeLoop (maxLen : Nat) (table : List Entry) : Nat → Reader → Res (List Nat × Reader)
  | 0, r => .ok ([], r)
  | n + 1, r =>
    match r.peekBits maxLen with
    | none => .fault .shift
    | some (prefix_, bits, r) =>
      if bits = 0 then .ok ([], r)
      else
        match table[prefix_]? with
        | none => .fault .bounds
        | some (symbol, length) =>
          match decodeLoop maxLen table n (r.discardBits length) with
          | .fault f => .fault f
          | .fail => .fail
          | .ok (out, r) => .ok (symbol :: out, r)

/-- `decode_symbols`, huffman_decoder.cpp 229-254. -/
def decodeSymbols (maxLen chunkSize : Nat) (table : List Entry) (r : Reader) : Res (List Nat × Reader) :=
  match decodeLoop maxLen table chunkSize r with
  | .fault f => .fault f
  | .fail => .fail
  | .ok (out, r) => if out.length = chunkSize ∨ r.fullyConsumed = true then .ok (out, r) else .fail

/-- The loop of `decode_binary`, huffman_decoder.cpp 47-64. -/
def decodeChunks (M chunkSize : Nat) : Nat → List Entry → Reader → Res (List Nat)
  | 0, _, _ => .fault .fuel
  | n + 1, table, r =>
    if r.fullyConsumed then .ok []
    else
      match decodeCodes M table r with
      | .fault f => .fault f
      | .fail => .fail
      | .ok (maxLen, table, r) =>
        match decodeSymbols maxLen chunkSize table r with
        | .fault f => .fault f
        | .fail => .fail
        | .ok (out, r) =>
          match decodeChunks M chunkSize n table r with
          | .fault f => .fault f
          | .fail => .fail
          | .ok out' => .ok (out ++ out')

/-- `decode_binary`, huffman_decoder.cpp 34-67, on a whole stream. Every round of the loop consumes at
least eight bits, so the budget suffices (`decode_no_fuel`). -/
def decode (bytes : List Nat) : Res (List Nat) :=
  match decodeHeader (Reader.init bytes) with
  | .fault f => .fault f
  | .fail => .fail
  | .ok (chunkSize, M, r) =>
    decodeChunks M chunkSize (bytes.length + 1) (List.replicate (2 ^ M) (0, 0)) r

end Verif.Huffman
