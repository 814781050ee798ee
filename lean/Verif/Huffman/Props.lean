import Verif.Huffman.Hostile

/-!
# C08–C11: the Huffman coder
-/

namespace Verif.Huffman
open Verif.Bits Verif.BitStream

/-- What the encoder leaves in the stream is the bit stream of its writes. -/
theorem encode_layout {kb M : Nat} {input : List Nat} (hv : Valid kb M input) (hb : ∀ b ∈ input, b < 256)
    {ws : List (Nat × Nat)} (hw : ChunkWrites M (chunks (kb * 1024) input) ws) :
    ∃ r body, BitStream.encode (headerWrites kb M ++ ws) = some ((0x1a * 8 + r) :: body) ∧ r < 8 ∧
      (∀ b ∈ body, b < 256) ∧ bytesBits body = written (headerWrites kb M ++ ws) ++ List.replicate r false := by
  have hs : Short (headerWrites kb M ++ ws) := short_append (header_short hv.kb_lt hv.len_le)
    (chunkWrites_short hv.len_pos hv.len_le hw fun ck hck =>
      ⟨fun b h => hb b ((mem_chunks _ input (Nat.le_refl _) ck hck).2 b h), hv.room ck hck⟩)
  exact bitstream_layout_partial _ hs.1 (not_overshift_of_lt _ hs.2 0)

/-- C08. With a usable configuration the encoder always produces an output, and every output it can produce
(whatever the priority queue does with ties) decodes to exactly the input. -/
theorem huffman_roundtrip (kb M : Nat) (input : List Nat) (hb : ∀ b ∈ input, b < 256) (hv : Valid kb M input) :
    (∃ out, Encodes kb M input out) ∧ ∀ out, Encodes kb M input out → decode out = .ok input := by
  have hsize : 0 < kb * 1024 := by have := hv.kb_pos; omega
  constructor
  · obtain ⟨ws, hws⟩ := chunkWrites_exists hv.len_pos hv.len_le (chunks (kb * 1024) input) fun ck hck =>
      ⟨(mem_chunks _ input (Nat.le_refl _) ck hck).1,
        fun b h => hb b ((mem_chunks _ input (Nat.le_refl _) ck hck).2 b h), hv.room ck hck⟩
    obtain ⟨r, body, h1, _⟩ := encode_layout hv hb hws
    exact ⟨_, by have := hv.len_le; omega, ws, hws, h1⟩
  · intro out ⟨_, ws, hws, he⟩
    obtain ⟨r, body, h1, h2, h3, h4⟩ := encode_layout hv hb hws
    rw [h1] at he
    cases he
    obtain ⟨g1, g2, g3⟩ := readAll_of_layout h2 h3 h4
    have hlen := congrArg List.length h4
    have h0 : Rd (Reader.init ((0x1a * 8 + r) :: body)) (written (headerWrites kb M ++ ws)) :=
      ⟨g2, by simp [Reader.init], g1, g3⟩
    rw [written_append] at h0 hlen
    simp only [headerWrites, written, List.append_nil, List.append_assoc] at h0
    obtain ⟨r1, a1, a2⟩ := rd_read h0 (by omega) (by omega)
    obtain ⟨r2, b1, b2⟩ := rd_read a2 (by have := hv.kb_lt; omega) (by omega)
    obtain ⟨r3, c1, c2⟩ := rd_read b2 (by have := hv.len_le; omega) (by omega)
    have hM : ¬ (M = 0 ∨ M ≥ 16) := by have := hv.len_pos; have := hv.len_le; omega
    have hkb : ¬ kb = 0 := by have := hv.kb_pos; omega
    have hh : decodeHeader (Reader.init ((0x1a * 8 + r) :: body)) = .ok (kb * 1024, M, r3) := by
      simp [decodeHeader, a1, b1, c1, hM, hkb]
    unfold decode
    rw [hh]
    refine decodeChunks_spec hv.len_pos hv.len_le hsize _ input ws _ r3 hb hv.room hws (by simp) c2 ?_
    simp [headerWrites, written] at hlen
    simp only [List.length_cons]; omega

/-- Maximum code lengths of eight and more have room for every chunk. -/
theorem valid_of_eight (kb M : Nat) (input : List Nat) (h1 : 1 ≤ kb) (h2 : kb < 65536) (h3 : 8 ≤ M) (h4 : M ≤ 15) :
    Valid kb M input :=
  ⟨h1, h2, by omega, h4, fun ck _ => Nat.le_trans (alphabet_length ck)
    (show 2 ^ 8 ≤ 2 ^ M from Nat.pow_le_pow_right (by omega) h3)⟩

/-- The default configuration (256 KiB chunks, 11 bits) on some input. -/
example : Valid 256 11 [104, 101, 108, 108, 111] := valid_of_eight _ _ _ (by omega) (by omega) (by omega) (by omega)

/-- C09. For every chunk of bytes, every tree the queue can build and every maximum length with enough room, the
codes are created, no code's bits are a prefix of another's, all lengths lie between one and the maximum, the
code value fits its length, and each symbol that occurs has exactly one code. -/
theorem huffman_prefix_code (M : Nat) (chunk : List Nat) (t : Tree) (hM1 : 1 ≤ M) (hM : M ≤ 15)
    (ht : Build (leavesOf chunk) t) (hroom : (alphabet chunk).length ≤ 2 ^ M) :
    ∃ cs, createCodes M t = some cs ∧
      cs.Pairwise (fun c d => ¬ c.bits <+: d.bits ∧ ¬ d.bits <+: c.bits) ∧
      (∀ c ∈ cs, 1 ≤ c.length ∧ c.length ≤ M ∧ c.code < 2 ^ c.length) ∧
      (cs.map (·.symbol)).Nodup ∧ ∀ b, b < 256 → (b ∈ cs.map (·.symbol) ↔ b ∈ chunk) := by
  obtain ⟨cs, h1, h2⟩ := createCodes_spec hM1 hM ht hroom
  refine ⟨cs, h1, coded_prefix_free h2, fun c hc => ⟨h2.pos c hc, h2.le c hc, coded_lt h2 hc⟩, ?_, ?_⟩
  · exact h2.symbols.nodup_iff.mpr (alphabet_nodup chunk)
  · intro b hb
    rw [h2.symbols.mem_iff, mem_alphabet hb]

/-- A tree can be built for every chunk that is not empty. -/
theorem huffman_tree_exists (chunk : List Nat) (hb : ∀ b ∈ chunk, b < 256) (hne : chunk ≠ []) :
    ∃ t, Build (leavesOf chunk) t := by
  refine build_exists _ (leavesOf chunk) rfl ?_
  cases chunk with
  | nil => exact absurd rfl hne
  | cons b ck =>
    intro e
    have hq := leavesOf_symbols (b :: ck)
    rw [e] at hq
    have : b ∈ alphabet (b :: ck) := (mem_alphabet (hb b (by simp))).mpr (by simp)
    rw [← hq] at this
    simp [queueSymbols] at this

/-- A five-symbol chunk whose tree is too deep for a maximum of three bits: the lengths are limited. -/
example : createCodes 3 (.node (.leaf 1 50) (.node (.leaf 2 20) (.node (.leaf 3 9) (.node (.leaf 4 4) (.leaf 5 2))))) =
    some [⟨1, 0, 2⟩, ⟨2, 1, 2⟩, ⟨3, 4, 3⟩, ⟨4, 5, 3⟩, ⟨5, 6, 3⟩] := by decide

/-! ### C10: hostile input -/

/-- C10 fails. A 13-byte stream announcing three codes of length one with a maximum of one bit makes the decoder
write past its prefix table; and a stream whose last code is cut short makes it shift by far too much. -/
theorem huffman_decoder_safe_violated :
    decode [0xd0, 1, 0, 1, 1, 2, 0, 0, 0, 3, 65, 66, 67] = .fault .bounds ∧
    decode [0xd7, 1, 0, 1, 2, 3, 0, 0, 0, 0, 0, 1, 65, 0] = .fault .shift := by
  constructor <;> decide +kernel

/-- What holds of C10: whatever the reader's state, (1) at most 256 codes are stored; (2) looking symbols up never
leaves a table of `2 ^ max_code_length` entries; (3) the prefix table is filled inside its bounds for count tables
whose Kraft sum does not exceed the table. Missing: count tables exceeding it, which the decoder does not reject. -/
theorem huffman_decoder_safe_partial (M : Nat) (hM : M ≤ 15) (counts : List Nat) (acc : List Code) (r r' : Reader)
    (hd : decodeAllSymbols 0 counts [] r = .ok (acc, r')) :
    acc.length ≤ 256 ∧
    (∀ (m n : Nat) (table : List Entry) (r : Reader), 2 ^ m ≤ table.length → decodeLoop m table n r ≠ .fault .bounds) ∧
    (counts ≠ [] → countsKraft (counts.length - 1) 0 counts ≤ 2 ^ M → ∀ table : List Entry, table.length = 2 ^ M →
      ∃ t', fillTable (counts.length - 1) acc.reverse table = .ok t' ∧ t'.length = 2 ^ M) := by
  refine ⟨(allSymbols_shape counts 0 [] r acc r' hd (by simp)).1, fun m n table r ht => decodeLoop_in_range ht n r, ?_⟩
  intro h1 h2 table ht
  exact fillTable_safe hM h1 hd ht h2

/-- Kraft sums: a full table, and the hostile one above. -/
example : countsKraft 2 0 [0, 1, 2] = 2 ^ 2 ∧ countsKraft 1 0 [0, 3] = 3 := by decide

theorem unread_le (r : Reader) (h : r.pos = 0) : r.unread.length ≤ 8 * r.rest.length := by
  unfold Reader.unread
  by_cases hg : r.good = true
  · simp [hg, h, toBits]
  · simp [hg, h, toBits]

/-- The decoder terminates on every input: the model's iteration budget is never exhausted. -/
theorem decode_no_fuel (bytes : List Nat) (hb : ∀ b ∈ bytes, b < 256) : decode bytes ≠ .fault .fuel := by
  have hr := RInv_init hb
  intro h
  unfold decode at h
  cases hh : decodeHeader (Reader.init bytes) with
  | fault f =>
    rw [hh] at h
    simp only [Res.fault.injEq] at h
    subst h
    simp only [decodeHeader] at hh
    split at hh
    · rename_i f hf; cases hh; exact readWhole_no_fuel hf
    · cases hh
    · split at hh
      · cases hh
      · split at hh
        · rename_i f hf; cases hh; exact readWhole_no_fuel hf
        · cases hh
        · split at hh
          · cases hh
          · split at hh
            · rename_i f hf; cases hh; exact readWhole_no_fuel hf
            · cases hh
            · split at hh <;> cases hh
  | fail => rw [hh] at h; cases h
  | ok x =>
    obtain ⟨size, M, r3⟩ := x
    rw [hh] at h
    simp only at h
    have key : RInv r3 ∧ r3.unread.length ≤ (Reader.init bytes).unread.length ∧ M ≤ 15 := by
      simp only [decodeHeader] at hh
      split at hh
      · cases hh
      · cases hh
      · rename_i v r1 h1
        obtain ⟨a1, a2⟩ := read_sane hr (by omega) (by omega) h1
        split at hh
        · cases hh
        · split at hh
          · cases hh
          · cases hh
          · rename_i k r2 h2
            obtain ⟨b1, b2⟩ := read_sane a1 (by omega) (by omega) h2
            split at hh
            · cases hh
            · split at hh
              · cases hh
              · cases hh
              · rename_i M' r4 h3
                obtain ⟨c1, c2⟩ := read_sane b1 (by omega) (by omega) h3
                split at hh
                · cases hh
                · cases hh
                  exact ⟨c1, by omega, by omega⟩
    refine chunks_no_fuel key.2.2 _ _ r3 ?_ (.inl ⟨key.1, ?_⟩) h
    · intro e he
      rw [List.eq_of_mem_replicate he]; simp
    · have : (Reader.init bytes).unread.length ≤ 8 * bytes.length := by
        cases bytes with
        | nil => exact unread_le _ rfl
        | cons x xs =>
          have := unread_le (Reader.init (x :: xs)) rfl
          have e : (Reader.init (x :: xs)).rest = xs := rfl
          rw [e] at this
          simp only [List.length_cons]; omega
      omega

/-- An input with an absurd chunk size: the decoder stops with a refusal. -/
example : decode [0xd0, 1, 0, 0, 11] ≠ .fault .fuel ∧ decode [0xd0, 1, 0, 0, 11] = .fail :=
  ⟨decode_no_fuel _ (by decide), by decide +kernel⟩

/-! ### C11: success means the data is there -/

/-- C11 fails for a chunk size of zero: whatever the input, the encoder reports success with an output that the
decoder rejects. -/
theorem huffman_lossless_violated (M : Nat) (hM : M ≤ 15) (input : List Nat) :
    ∃ out, Encodes 0 M input out ∧ decode out = .fail := by
  have hc : chunks (0 * 1024) input = [] := by rw [chunks]; simp
  have he : BitStream.encode (headerWrites 0 M ++ []) = some [0xd0, 1, 0, 0, M] := by
    have : M = 0 ∨ M = 1 ∨ M = 2 ∨ M = 3 ∨ M = 4 ∨ M = 5 ∨ M = 6 ∨ M = 7 ∨ M = 8 ∨ M = 9 ∨ M = 10 ∨ M = 11 ∨ M = 12 ∨
      M = 13 ∨ M = 14 ∨ M = 15 := by omega
    rcases this with rfl | rfl | rfl | rfl | rfl | rfl | rfl | rfl | rfl | rfl | rfl | rfl | rfl | rfl | rfl | rfl <;>
      decide +kernel
  refine ⟨_, ⟨by omega, [], by rw [hc]; exact .nil, he⟩, ?_⟩
  have : M = 0 ∨ M = 1 ∨ M = 2 ∨ M = 3 ∨ M = 4 ∨ M = 5 ∨ M = 6 ∨ M = 7 ∨ M = 8 ∨ M = 9 ∨ M = 10 ∨ M = 11 ∨ M = 12 ∨
    M = 13 ∨ M = 14 ∨ M = 15 := by omega
  rcases this with rfl | rfl | rfl | rfl | rfl | rfl | rfl | rfl | rfl | rfl | rfl | rfl | rfl | rfl | rfl | rfl <;>
    decide +kernel

/-- It also fails when a chunk has more distinct symbols than the maximum length has codes. -/
theorem huffman_lossless_violated_room :
    ∃ out, Encodes 1 1 [65, 66, 67] out ∧ decode out = .fault .bounds := by
  have hc : chunks (1 * 1024) [65, 66, 67] = [[65, 66, 67]] := by
    rw [chunks_cons (by omega) (by simp)]
    rw [show ([65, 66, 67] : List Nat).drop (1 * 1024) = [] from rfl, chunks_nil]; rfl
  have hl : leavesOf [65, 66, 67] = [.leaf 65 1, .leaf 66 1, .leaf 67 1] := by
    unfold leavesOf; decide +kernel
  have hb : Build (leavesOf [65, 66, 67]) (.node (.leaf 67 1) (.node (.leaf 65 1) (.leaf 66 1))) := by
    rw [hl]
    refine .step (.refl _) ?_ ?_ (.step (.swap _ _ _) ?_ ?_ .done) <;> simp [Tree.freq]
  refine ⟨_, ⟨by omega, _, by rw [hc]; exact .cons hb rfl .nil, rfl⟩, ?_⟩
  decide +kernel

/-- What holds of C11: for usable configurations (C08), success means the output decodes to the input. -/
theorem huffman_lossless_partial (kb M : Nat) (input out : List Nat) (hb : ∀ b ∈ input, b < 256) (hv : Valid kb M input)
    (h : Encodes kb M input out) : decode out = .ok input := (huffman_roundtrip kb M input hb hv).2 out h

/-- The hypotheses are met: the encoder has an output for these three bytes with the default configuration, and it
decodes to them. -/
example : Valid 256 11 [65, 65, 66] ∧ ∃ out, Encodes 256 11 [65, 65, 66] out ∧ decode out = .ok [65, 65, 66] := by
  have hv : Valid 256 11 [65, 65, 66] := valid_of_eight _ _ _ (by omega) (by omega) (by omega) (by omega)
  obtain ⟨out, ho⟩ := (huffman_roundtrip 256 11 [65, 65, 66] (by decide) hv).1
  exact ⟨hv, out, ho, huffman_lossless_partial _ _ _ _ (by decide) hv ho⟩

end Verif.Huffman
