import Verif.Base64.Lemmas

/-! # Base64 properties: C04, C05, C06, C07 -/

namespace Verif.Base64
open Verif.Bits

theorem zeros_lt (n : Nat) : ∀ b ∈ List.replicate n 0, b < 256 := by
  intro b hb; rw [List.mem_replicate] at hb; omega

/-- The input lengths on which `encode_internal` clears past the end of its buffer: the last, partial
read of `r` bytes is not a multiple of three and more than half a buffer long. -/
def Overrun (len : Nat) : Prop := len % 3 ≠ 0 ∧ 196608 < 2 * (len % 196608)

instance (len : Nat) : Decidable (Overrun len) := by unfold Overrun; infer_instance

/-- C07, encoder side (exact characterisation). Whatever the buffer held before, the encoder writes
outside its buffer exactly for the lengths in `Overrun`. -/
theorem base64_encode_ub_iff (stale : Nat → Nat → Nat) (hs : ∀ i j, stale i j < 256)
    (bs : List Nat) (hb : ∀ b ∈ bs, b < 256) : encode stale bs = .ub ↔ Overrun bs.length := by
  unfold encode
  rw [encodeLoop_spec (groups - 1) stale hs bs.length 0 bs rfl hb]
  show (match (if bs.length % 3 ≠ 0 ∧ 196608 < 2 * (bs.length % 196608) then none
    else some (rfcEncode bs)) with | none => Res.ub | some out => Res.ok out) = Res.ub ↔ _
  unfold Overrun
  by_cases h : bs.length % 3 ≠ 0 ∧ 196608 < 2 * (bs.length % 196608)
  · rw [if_pos h]; simp only [true_iff]; exact h
  · rw [if_neg h]; simp only [reduceCtorEq, false_iff]; exact h

/-- C07 is false of the unchanged code on the encoder side: 98305 bytes make the encoder clear past
the end of its 196608-byte buffer. -/
theorem base64_memory_safety_encode_violated :
    encode (fun _ _ => 0) (List.replicate 98305 0) = .ub := by
  rw [base64_encode_ub_iff _ (by simp) _ (zeros_lt _)]
  rw [List.length_replicate]; decide

/-- C07 is false of the unchanged code on the decoder side: a byte at or above 0x80 is sign extended
and used as an index far outside the 256-entry code table. -/
theorem base64_memory_safety_decode_violated : decode [0x80, 65, 65, 65] = .ub := by
  unfold decode; rw [decodeLoop]; decide

/-- C07 (missing: the encoder lengths in `Overrun` and non-ASCII decoder input, where the code does
leave its buffers and tables). Everywhere else neither direction does. -/
theorem base64_memory_safety_partial :
    (∀ stale : Nat → Nat → Nat, (∀ i j, stale i j < 256) → ∀ bs : List Nat, (∀ b ∈ bs, b < 256) →
      ¬ Overrun bs.length → encode stale bs ≠ .ub) ∧
    (∀ s : List Nat, (∀ b ∈ s, b < 128) → decode s ≠ .ub) := by
  constructor
  · intro stale hs bs hb hov h
    exact hov ((base64_encode_ub_iff stale hs bs hb).1 h)
  · intro s hs
    exact decodeLoop_ascii (groups - 1) s.length true s rfl hs

example : ¬ Overrun 98303 ∧ ¬ Overrun 98304 ∧ ¬ Overrun 0 ∧ ¬ Overrun (196608 * 5 + 7) ∧
    Overrun 98306 := by decide

/-- C05 (missing: the lengths in `Overrun`, where behaviour is undefined). The encoder's output is
the RFC 4648 encoding of its input, whatever the buffer held before. -/
theorem base64_encode_rfc_partial (stale : Nat → Nat → Nat) (hs : ∀ i j, stale i j < 256)
    (bs : List Nat) (hb : ∀ b ∈ bs, b < 256) (h : ¬ Overrun bs.length) :
    encode stale bs = .ok (rfcEncode bs) := by
  unfold encode
  rw [encodeLoop_spec (groups - 1) stale hs bs.length 0 bs rfl hb]
  rw [if_neg (show ¬ (bs.length % 3 ≠ 0 ∧ 3 * (groups - 1 + 1) <
    2 * (bs.length % (3 * (groups - 1 + 1)))) from h)]

/-- C05, shape of the RFC encoding: its length, its alphabet and its padding. -/
theorem base64_rfc_shape (bs : List Nat) :
    (rfcEncode bs).length = 4 * ((bs.length + 2) / 3) ∧
    (∃ core, (∀ c ∈ core, ∃ v < 64, c = letter v) ∧
      rfcEncode bs = core ++ List.replicate ((3 - bs.length % 3) % 3) 61) := by
  refine ⟨rfcEncode_length bs, (sextets (bytesBits bs)).map letter, ?_, rfl⟩
  intro c hc
  obtain ⟨v, hv, rfl⟩ := List.mem_map.1 hc
  exact ⟨v, sextets_lt _ v hv, rfl⟩

-- "foobar" and its prefixes, from RFC 4648 section 10.
example : encode (fun _ _ => 7) [102, 111, 111, 98] = .ok [90, 109, 57, 118, 89, 103, 61, 61] := by
  unfold encode; rw [encodeLoop]; decide

/-- The encoded lengths on which the decoder wrongly refuses padding: a multiple of its 262144-byte
buffer, so the last group is not recognised as last. -/
def Boundary (s : List Nat) : Prop := s ≠ [] ∧ s.length % 262144 = 0 ∧ s.getLast? = some '='.toNat

/-- C06 (soundness, every input including hostile bytes): success is reported only for well-formed
texts, and the bytes produced are the ones the text stands for. -/
theorem base64_decode_sound (s out : List Nat) (h : decode s = .ok out) : Denotes s out :=
  (decodeLoop_sound (groups - 1) s.length true s out rfl h).2.1

example : decode [90, 103, 61, 61] = .ok [102] := by
  unfold decode; rw [decodeLoop]; decide

/-- C06 (missing: bytes at or above 0x80, where behaviour is undefined). On ASCII input the decoder's
verdict is exactly: well formed and not in the `Boundary` case; everything else is a reported
failure. -/
theorem base64_decode_strict_partial (s : List Nat) (hs : ∀ b ∈ s, b < 128) (out : List Nat) :
    (decode s = .ok out ↔ Denotes s out ∧ ¬ Boundary s) ∧
    ((¬ ∃ o, decode s = .ok o) → decode s = .fail) := by
  refine ⟨⟨fun h => ?_, fun ⟨h, hb⟩ => ?_⟩, fun h => ?_⟩
  · obtain ⟨_, h1, h2⟩ := decodeLoop_sound (groups - 1) s.length true s out rfl h
    exact ⟨h1, fun ⟨b1, b2, b3⟩ => h2 b1 b2 b3⟩
  · obtain ⟨o, ho⟩ := decodeLoop_complete (groups - 1) s.length s out rfl h
      (fun b1 b2 b3 => hb ⟨b1, b2, b3⟩)
    have := base64_decode_sound s o ho
    rw [Denotes_unique h this]; exact ho
  · rcases hd : decode s with _ | _ | o
    · exact absurd hd (base64_memory_safety_partial.2 s hs)
    · rfl
    · exact absurd ⟨o, hd⟩ h

example : (∀ b ∈ [90, 109, 57, 118], b < 128) ∧ ¬ Boundary [90, 109, 57, 118] := by
  refine ⟨by decide, fun h => absurd h.2.1 (by decide)⟩

/-- The decoder refuses the RFC encoding of some byte strings (for example of 196607 bytes), although
it is well formed. -/
theorem base64_decode_boundary_violated :
    ∃ bs : List Nat, (∀ b ∈ bs, b < 256) ∧ Denotes (rfcEncode bs) bs ∧
      decode (rfcEncode bs) = .fail := by
  refine ⟨List.replicate 196607 0, zeros_lt _, rfcEncode_denotes _ (zeros_lt _), ?_⟩
  have hd := rfcEncode_denotes (List.replicate 196607 0) (zeros_lt _)
  have hl := rfcEncode_length (List.replicate 196607 0)
  have hp := (rfcEncode_padded (List.replicate 196607 0)).2 (by rw [List.length_replicate]; decide)
  rw [List.length_replicate] at hl
  have hasc : ∀ b ∈ rfcEncode (List.replicate 196607 0), b < 128 := by
    intro b hb
    obtain ⟨core, h1, h2⟩ := (base64_rfc_shape (List.replicate 196607 0)).2
    rw [h2] at hb
    rcases List.mem_append.1 hb with hb | hb
    · obtain ⟨v, hv, rfl⟩ := h1 b hb
      exact (codes_letter v hv).1
    · rw [List.mem_replicate] at hb; omega
  apply (base64_decode_strict_partial _ hasc []).2
  rintro ⟨o, ho⟩
  have := ((base64_decode_strict_partial _ hasc o).1.1 ho).2
  apply this
  refine ⟨?_, ?_, hp⟩
  · intro h; rw [h] at hl; simp at hl
  · rw [hl]

/-- C04 is false of the unchanged code: for 98305 bytes already the encoder's behaviour is
undefined. -/
theorem base64_roundtrip_violated :
    ∃ bs : List Nat, (∀ b ∈ bs, b < 256) ∧
      ¬ ∃ enc, encode (fun _ _ => 0) bs = .ok enc ∧ decode enc = .ok bs := by
  refine ⟨List.replicate 98305 0, zeros_lt _, ?_⟩
  rintro ⟨enc, h, _⟩
  rw [base64_memory_safety_encode_violated] at h
  cases h

/-- C04 (missing: exactly the lengths in `Overrun`, which include every length whose encoding falls in
the decoder's `Boundary` case). Every other byte string, of any length, encodes and decodes back to
itself. -/
theorem base64_roundtrip_partial (stale : Nat → Nat → Nat) (hs : ∀ i j, stale i j < 256)
    (bs : List Nat) (hb : ∀ b ∈ bs, b < 256) (h : ¬ Overrun bs.length) :
    ∃ enc, encode stale bs = .ok enc ∧ decode enc = .ok bs := by
  refine ⟨_, base64_encode_rfc_partial stale hs bs hb h, ?_⟩
  have hasc : ∀ b ∈ rfcEncode bs, b < 128 := by
    intro b hb
    obtain ⟨core, h1, h2⟩ := (base64_rfc_shape bs).2
    rw [h2] at hb
    rcases List.mem_append.1 hb with hb | hb
    · obtain ⟨v, hv, rfl⟩ := h1 b hb
      exact (codes_letter v hv).1
    · rw [List.mem_replicate] at hb; omega
  refine (base64_decode_strict_partial _ hasc bs).1.2 ⟨rfcEncode_denotes bs hb, ?_⟩
  rintro ⟨hne, hm, hp⟩
  have hp' := (rfcEncode_padded bs).1 hp
  rw [rfcEncode_length] at hm
  apply h
  unfold Overrun
  have hdiv : bs.length % 196608 + 196608 * (bs.length / 196608) = bs.length := Nat.mod_add_div _ _
  omega

example : ∀ b ∈ [0, 255, 16, 131], b < 256 := by decide

/-- `encode_string` / `decode_string` leave the caller's output string alone unless they report
success, and then it is exactly what the coder wrote. -/
theorem base64_output_only_on_success (r : Res) (old : List Nat) (ok : Bool) (new : List Nat)
    (h : assignOnSuccess r old = some (ok, new)) :
    (ok = false → new = old) ∧ (ok = true → r = .ok new) := by
  cases r with
  | ub => cases h
  | fail => cases h; simp
  | ok out => cases h; simp

end Verif.Base64
