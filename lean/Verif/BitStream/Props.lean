import Verif.BitStream.Lemmas

/-! # Bit stream properties: C01, C02, C03 -/

namespace Verif.BitStream
open Verif.Bits

/-- C02 (missing: only the sequences that reach the writer's undefined shift, characterised exactly by
`bitstream_write_ub_iff`). Every other legal write sequence leaves a stream consisting of one header byte - magic `0x1a` in the top
five bits, padding count `r` in the low three - followed by whole bytes whose bits are the written
bits followed by `r < 8` zero bits. -/
theorem bitstream_layout_partial (ws : List (Nat × Nat)) (hl : Legal ws) (hu : ¬ Overshift 0 ws) :
    ∃ r body, encode ws = some ((0x1a * 8 + r) :: body) ∧ r < 8 ∧ (∀ b ∈ body, b < 256) ∧
      bytesBits body = written ws ++ List.replicate r false := by
  rcases writeAll_spec (ws := ws) WInv_init hl with ⟨h1, _⟩ | ⟨_, w, h2, h3⟩
  · exact absurd h1 hu
  · obtain ⟨body, r, e, hr, hb, hbits⟩ := finish_spec h3
    refine ⟨r, body, ?_, hr, hb, by simpa using hbits⟩
    simp only [encode, h2, Option.map_some, e]
    have : headerByte r = 0x1a * 8 + r := by
      have : r = 0 ∨ r = 1 ∨ r = 2 ∨ r = 3 ∨ r = 4 ∨ r = 5 ∨ r = 6 ∨ r = 7 := by omega
      rcases this with rfl | rfl | rfl | rfl | rfl | rfl | rfl | rfl <;> decide
    rw [this]

example : Legal [(3, 5), (64, 12345), (13, 77)] ∧ ¬ Overshift 0 [(3, 5), (64, 12345), (13, 77)] := by
  refine ⟨by intro p hp; simp at hp; rcases hp with rfl | rfl | rfl <;> decide, by decide⟩

example : encode [(3, 5), (9, 1)] = some [0x1a * 8 + 4, 0xa0, 0x10] := by decide

/-- C02 (exactness of the undefined case): among legal write sequences the writer's over-wide shift
is reached exactly when a 64-bit write happens after a positive multiple of 64 bits. -/
theorem bitstream_write_ub_iff (ws : List (Nat × Nat)) (hl : Legal ws) :
    encode ws = none ↔ Overshift 0 ws := by
  rcases writeAll_spec (ws := ws) WInv_init hl with ⟨h1, h2⟩ | ⟨h1, w, h2, _⟩
  · simp only [encode, h2, Option.map_none, true_iff]; exact h1
  · simp only [encode, h2, Option.map_some]
    constructor
    · intro h; cases h
    · intro h; exact absurd h h1

/-- C01 is false of the unchanged code: two consecutive 64-bit writes shift a 64-bit value by 64
(bit_stream_writer.hpp 107-111 with `m_position == 0`), which is undefined behaviour. -/
theorem bitstream_roundtrip_violated :
    Legal [(64, 1), (64, 2)] ∧ encode [(64, 1), (64, 2)] = none := by
  constructor
  · intro p hp; simp at hp; rcases hp with rfl | rfl <;> decide
  · decide

/-- Every read of a stream produced by the writer. -/
theorem readAll_of_layout {ws : List (Nat × Nat)} {r : Nat} {body : List Nat} (hr : r < 8)
    (hb : ∀ b ∈ body, b < 256) (hbits : bytesBits body = written ws ++ List.replicate r false) :
    (Reader.init ((0x1a * 8 + r) :: body)).good = true ∧
    RInv (Reader.init ((0x1a * 8 + r) :: body)) ∧
    (Reader.init ((0x1a * 8 + r) :: body)).unread = written ws := by
  have hgood : (Reader.init ((0x1a * 8 + r) :: body)).good = true := by
    have : r = 0 ∨ r = 1 ∨ r = 2 ∨ r = 3 ∨ r = 4 ∨ r = 5 ∨ r = 6 ∨ r = 7 := by omega
    rcases this with rfl | rfl | rfl | rfl | rfl | rfl | rfl | rfl <;> rfl
  refine ⟨hgood, ?_, ?_⟩
  · apply RInv_init
    intro b h
    rcases List.mem_cons.1 h with rfl | h
    · omega
    · exact hb b h
  · unfold Reader.unread
    rw [if_pos hgood]
    show toBits 0 0 ++ (bytesBits body).take (8 * body.length - (0x1a * 8 + r) % 8) = _
    have e1 : (0x1a * 8 + r) % 8 = r := by omega
    have e2 : 8 * body.length - r = (written ws).length := by
      have := congrArg List.length hbits
      simp at this; omega
    rw [e1, e2, hbits]
    simp [toBits]

theorem expected_written (ws : List (Nat × Nat)) (hl : Legal ws) :
    ∀ (reqs : List (Bool × Nat)), reqs.map (·.2) = ws.map (·.1) →
      expected (written ws) reqs = ws.map (fun p => (p.2, p.1)) := by
  induction ws with
  | nil => intro reqs h; cases reqs with
    | nil => rfl
    | cons _ _ => simp at h
  | cons p ws ih =>
    intro reqs h
    obtain ⟨size, v⟩ := p
    cases reqs with
    | nil => simp at h
    | cons q reqs =>
      obtain ⟨wide, n⟩ := q
      simp only [List.map_cons, List.cons.injEq] at h
      obtain ⟨rfl, h⟩ := h
      have hp := hl (n, v) (by simp)
      have e1 : (toBits n v ++ written ws).take n = toBits n v := by
        rw [List.take_append, toBits_length]; simp [List.take_of_length_le]
      have e2 : (toBits n v ++ written ws).drop n = written ws := by
        rw [List.drop_append, toBits_length]; simp
      have e3 : min n (toBits n v ++ written ws).length = n := by simp
      simp only [written, expected, List.map_cons, e1, e2, e3, Nat.sub_self, Nat.pow_zero,
        Nat.mul_one, ofBits_toBits_of_lt hp.2.2]
      rw [ih (fun q hq => hl q (by simp [hq])) reqs h]

/-- C01 (all legal write sequences that do not reach the over-wide shift; missing: sequences with a
64-bit write exactly on a 64-bit boundary, where the code's behaviour is undefined, see
`bitstream_roundtrip_violated`). Whatever destination types the reader uses, reading the same widths
in the same order gives back every value at full width, and the stream is then fully consumed. -/
theorem bitstream_roundtrip_partial (ws : List (Nat × Nat)) (hl : Legal ws) (hu : ¬ Overshift 0 ws)
    (reqs : List (Bool × Nat)) (hreq : reqs.map (·.2) = ws.map (·.1)) (hlr : LegalReads reqs) :
    ∃ bytes r, encode ws = some bytes ∧ HasMagic bytes ∧
      (Reader.init bytes).readAll reqs = some (ws.map (fun p => (p.2, p.1)), r) ∧
      r.fullyConsumed = true := by
  obtain ⟨rm, body, henc, hrm, hb, hbits⟩ := bitstream_layout_partial ws hl hu
  obtain ⟨hgood, hinv, hun⟩ := readAll_of_layout hrm hb hbits
  obtain ⟨r', h1, h2, h3, h4, h5⟩ := readAll_spec hinv (by simp [Reader.init]) hlr
  refine ⟨_, r', henc, ?_, ?_, ?_⟩
  · show (0x1a * 8 + rm) / 8 % 32 = 0x1a; omega
  · rw [h1, hun, expected_written ws hl reqs hreq]
  · rw [hun, hreq] at h5
    have hsum : ∀ l : List (Nat × Nat), (written l).length = (l.map (·.1)).sum := by
      intro l; induction l with
      | nil => rfl
      | cons p l ih => simp [written, ih]
    rw [← hsum, List.drop_of_length_le (Nat.le_refl _)] at h5
    have h6 := congrArg List.length h5
    rw [hgood] at h4
    simp only [Reader.unread, h4, if_true] at h6
    simp at h6
    have h7 := h2.rem
    simp only [Reader.fullyConsumed, h6.1]
    have : r'.rest = [] := by
      apply List.length_eq_zero_iff.1
      have h8 := h6.2
      omega
    simp [this]

example : ∃ bytes r, encode [(3, 5), (64, 12345), (13, 77)] = some bytes ∧ HasMagic bytes ∧
    (Reader.init bytes).readAll [(false, 3), (true, 64), (false, 13)] =
      some ([(5, 3), (12345, 64), (77, 13)], r) ∧ r.fullyConsumed = true :=
  bitstream_roundtrip_partial [(3, 5), (64, 12345), (13, 77)]
    (by intro p hp; simp at hp; rcases hp with rfl | rfl | rfl <;> decide) (by decide) _ rfl
    (by intro q hq; simp at hq; rcases hq with rfl | rfl | rfl <;> decide)

/-- A sequence of writes none of which is a full 64 bits wide never reaches the over-wide shift. -/
theorem not_overshift_of_lt (ws : List (Nat × Nat)) (h : ∀ p ∈ ws, p.1 < 64) :
    ∀ n, ¬ Overshift n ws := by
  induction ws with
  | nil => intro n h; exact h
  | cons p ws ih =>
    rintro n (h' | h')
    · have := h p (by simp); omega
    · exact ih (fun q hq => h q (by simp [hq])) _ h'

/-- C03. On any byte string that starts with a valid header, every sequence of legal reads hands out
exactly the consecutive stored bits (`expected`): nothing is invented, and a read past the end
reports only the bits that were left. The reader ends up with exactly the rest unread. -/
theorem bitstream_reads_exact (bytes : List Nat) (hb : ∀ b ∈ bytes, b < 256) (hm : HasMagic bytes)
    (reqs : List (Bool × Nat)) (hlr : LegalReads reqs) :
    ∃ r, (Reader.init bytes).readAll reqs = some (expected (payload bytes) reqs, r) ∧
      r.unread = (payload bytes).drop (reqs.map (·.2)).sum := by
  cases bytes with
  | nil => exact absurd hm (by simp [HasMagic])
  | cons x body =>
    have hgood : (Reader.init (x :: body)).good = true := by
      simp only [HasMagic] at hm
      simp only [Reader.init, magic, Nat.shiftRight_eq_div_pow]
      simpa using hm
    have hun : (Reader.init (x :: body)).unread = payload (x :: body) := by
      unfold Reader.unread
      rw [if_pos hgood]
      simp [Reader.init, payload, toBits]
    obtain ⟨r, h1, _, _, _, h5⟩ := readAll_spec (RInv_init hb) (by simp [Reader.init]) hlr
    exact ⟨r, by rw [h1, hun], by rw [h5, hun]⟩

example : HasMagic [0x1a * 8 + 3, 0xff, 0x08] ∧
    payload [0x1a * 8 + 3, 0xff, 0x08] = toBits 8 0xff ++ toBits 5 1 := by decide

/-- C03 (end of stream): after any sequence of legal reads the stream reports itself fully consumed exactly if all
the bits stored have been asked for. -/
theorem bitstream_fully_consumed_iff (bytes : List Nat) (hb : ∀ b ∈ bytes, b < 256) (hm : HasMagic bytes)
    (reqs : List (Bool × Nat)) (hlr : LegalReads reqs) (out : List (Nat × Nat)) (r : Reader)
    (h : (Reader.init bytes).readAll reqs = some (out, r)) :
    r.fullyConsumed = true ↔ (payload bytes).length ≤ (reqs.map (·.2)).sum := by
  obtain ⟨r1, g1, g2⟩ := bitstream_reads_exact bytes hb hm reqs hlr
  rw [g1] at h
  cases h
  obtain ⟨r2, h1, h2, _, h4, _⟩ := readAll_spec (RInv_init hb) (by cases bytes <;> simp [Reader.init]) hlr
  rw [g1] at h1
  have h1 : r2 = r := ((Prod.mk.inj (Option.some.inj h1)).2).symm
  subst h1
  have hgood : (Reader.init bytes).good = true := by
    cases bytes with
    | nil => exact absurd hm (by simp [HasMagic])
    | cons x body =>
      simp only [HasMagic] at hm
      simp only [Reader.init, magic, Nat.shiftRight_eq_div_pow]
      simpa using hm
  rw [hgood] at h4
  have hl := congrArg List.length g2
  unfold Reader.unread at hl
  rw [if_pos h4] at hl
  simp only [List.length_append, toBits_length, List.length_take, bytesBits_length, List.length_drop] at hl
  have h7 := h2.rem
  simp only [Reader.fullyConsumed, Bool.and_eq_true, beq_iff_eq, List.isEmpty_iff]
  constructor
  · rintro ⟨e1, e2⟩
    rw [e1, e2] at hl
    simp only [List.length_nil, Nat.mul_zero, Nat.zero_sub, Nat.min_self, Nat.add_zero] at hl
    omega
  · intro hle
    refine ⟨by omega, List.length_eq_zero_iff.mp (by omega)⟩

/-- One byte of which three bits are padding: five bits must be asked for. -/
example : HasMagic [0x1a * 8 + 3, 0xff] ∧ (payload [0x1a * 8 + 3, 0xff]).length = 5 ∧
    (((Reader.init [0x1a * 8 + 3, 0xff]).readAll [(false, 4)]).map fun p => p.2.fullyConsumed) = some false ∧
    (((Reader.init [0x1a * 8 + 3, 0xff]).readAll [(false, 4), (true, 1)]).map fun p => p.2.fullyConsumed) = some true := by
  decide +kernel

/-- C03 (counting): the total number of bits ever reported by any sequence of legal reads is at most
the number stored in the stream. -/
theorem bitstream_reads_bounded (bytes : List Nat) (hb : ∀ b ∈ bytes, b < 256) (hm : HasMagic bytes)
    (reqs : List (Bool × Nat)) (hlr : LegalReads reqs) (out : List (Nat × Nat)) (r : Reader)
    (h : (Reader.init bytes).readAll reqs = some (out, r)) :
    (out.map (·.2)).sum ≤ (payload bytes).length := by
  obtain ⟨r', h1, h2⟩ := bitstream_reads_exact bytes hb hm reqs hlr
  rw [h1] at h
  simp only [Option.some.injEq, Prod.mk.injEq] at h
  rw [← h.1]
  clear h1 h2 h hlr
  generalize payload bytes = U
  induction reqs generalizing U with
  | nil => simp [expected]
  | cons q reqs ih =>
    have := ih (U.drop q.2)
    simp only [expected, List.map_cons, List.sum_cons, List.length_drop] at *
    omega

/-- C03 (rejection): a stream without the magic header is marked bad and yields no bits at all. -/
theorem bitstream_bad_header (bytes : List Nat) (hb : ∀ b ∈ bytes, b < 256) (hm : ¬ HasMagic bytes)
    (reqs : List (Bool × Nat)) (hlr : LegalReads reqs) :
    (Reader.init bytes).good = false ∧
    ∃ r, (Reader.init bytes).readAll reqs = some (reqs.map (fun _ => (0, 0)), r) := by
  have hgood : (Reader.init bytes).good = false := by
    cases bytes with
    | nil => rfl
    | cons x body =>
      simp only [HasMagic] at hm
      simp only [Reader.init, magic, Nat.shiftRight_eq_div_pow]
      simpa using hm
  have hpos : (Reader.init bytes).pos = 0 := by cases bytes <;> rfl
  refine ⟨hgood, ?_⟩
  obtain ⟨r, h1, h2⟩ := readAll_spec (RInv_init hb) (by omega) hlr
  refine ⟨r, ?_⟩
  rw [h1]
  have hun : (Reader.init bytes).unread = [] := by
    unfold Reader.unread; simp [hgood, hpos, toBits]
  rw [hun]
  congr 2
  clear h1 h2 hlr
  induction reqs with
  | nil => rfl
  | cons q reqs ih => simp [expected, ih, ofBits]

example : ¬ HasMagic [0x0f, 0x12] ∧ ¬ HasMagic [] := by decide

end Verif.BitStream
