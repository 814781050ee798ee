import Verif.BitStream.Props

/-!
# C158: a bit stream writer at every point of its life

Sources: `/repo/fly/types/bit_stream/bit_stream_writer.{hpp,cpp}`: the writer over a stream that already has content, its
stream before `finish`, and the writes after it.
-/

namespace Verif.BitStream
open Verif.Bits

/-- `BitStreamWriter::BitStreamWriter` over a memory stream with the bytes `old` (bit_stream_writer.cpp 9-14; the put
position is moved to the start, 54). -/
def Writer.over (old : List Nat) : Writer :=
  Writer.flushHeader { out := old, cur := old.length, buf := 0, pos := 64 } 0

/-- A call: `write_bits(value, size)` (bit_stream_writer.hpp 100-123) or `finish()` (bit_stream_writer.cpp 30-49). -/
inductive Call where
  | write (size value : Nat)
  | finish
deriving Repr, DecidableEq

/-- One call. `none`: undefined behaviour (bit_stream_writer.hpp 100-123, bit_stream_writer.cpp 30-49). -/
def Writer.call (w : Writer) : Call → Option Writer
  | .write size value => w.writeBits value size
  | .finish => some w.finish

/-- A program's calls (bit_stream_writer.hpp 39-70). -/
def Writer.calls (w : Writer) : List Call → Option Writer
  | [] => some w
  | c :: cs =>
    match w.call c with
    | none => none
    | some w => w.calls cs

/-! ## Specification -/

/-- The calls of a program that finishes after each of the given write sequences. -/
def finished : List (List (Nat × Nat)) → List Call
  | [] => []
  | ws :: segs => ws.map (fun p => .write p.1 p.2) ++ .finish :: finished segs

/-- `b` are whole bytes that hold the bits, followed by `r` zero bits. -/
def Packed (bits : List Bool) (r : Nat) (b : List Nat) : Prop :=
  r < 8 ∧ (∀ x ∈ b, x < 256) ∧ bytesBits b = bits ++ List.replicate r false

/-- What is in the stream after the header byte, and the padding the header byte records: each write sequence was written
over the start of what was there. -/
inductive Layers (base : List Nat) : List (List (Nat × Nat)) → Nat → List Nat → Prop
  | start : Layers base [] 0 base
  | more {segs r body ws r' b} : Layers base segs r body → written ws ≠ [] → Packed (written ws) r' b →
      Layers base (segs ++ [ws]) r' (b ++ body.drop b.length)
  | again {segs r body} : Layers base segs r body → Layers base (segs ++ [[]]) r body

/-- The calls do not reach the undefined shift. -/
def Fine (segs : List (List (Nat × Nat))) : Prop := ∀ ws ∈ segs, Legal ws ∧ ¬ Overshift 0 ws

/-! ## Proof -/

theorem headerByte_eq {r : Nat} (h : r < 8) : headerByte r = 0x1a * 8 + r := by
  have : r = 0 ∨ r = 1 ∨ r = 2 ∨ r = 3 ∨ r = 4 ∨ r = 5 ∨ r = 6 ∨ r = 7 := by omega
  rcases this with rfl | rfl | rfl | rfl | rfl | rfl | rfl | rfl <;> decide

/-- The writer `w` over other content does what `w0` does over an empty stream. -/
structure Sim (h : Nat) (base : List Nat) (w w0 : Writer) : Prop where
  cur : w.cur = w0.cur
  cur0 : w0.cur = w0.out.length
  buf : w.buf = w0.buf
  pos : w.pos = w0.pos
  out : ∃ h0 body, w0.out = h0 :: body ∧ w.out = h :: (body ++ base.drop body.length)

theorem Sim.put {h : Nat} {base : List Nat} {w w0 : Writer} (s : Sim h base w w0) (d : List Nat) :
    Sim h base (w.put d) (w0.put d) := by
  obtain ⟨h0, body, e0, e⟩ := s.out
  have hc : w.cur = body.length + 1 := by rw [s.cur, s.cur0, e0]; rfl
  have hc0 : w0.cur = body.length + 1 := by rw [s.cur0, e0]; rfl
  refine ⟨?_, ?_, s.buf, s.pos, h0, body ++ d, ?_, ?_⟩
  · simp [Writer.put, s.cur]
  · simp [Writer.put, hc0, e0]; omega
  · simp [Writer.put, hc0, e0]
  · have : body.length + 1 + d.length = (body.length + d.length) + 1 := by omega
    simp [Writer.put, hc, e, this, List.drop_append, Nat.add_comm]

theorem Sim.writeBits {h : Nat} {base : List Nat} {w w0 : Writer} (s : Sim h base w w0) (v n : Nat) :
    (w.writeBits v n = none ∧ w0.writeBits v n = none) ∨
      ∃ x x0, w.writeBits v n = some x ∧ w0.writeBits v n = some x0 ∧ Sim h base x x0 := by
  unfold Writer.writeBits
  rw [s.pos]
  by_cases hc : n > w0.pos
  · simp only [hc, if_true]
    cases hs : shr64 v (n - w0.pos) with
    | none => exact .inl ⟨rfl, rfl⟩
    | some hi =>
      have s1 : Sim h base { w with buf := w.buf ||| hi } { w0 with buf := w0.buf ||| hi } :=
        ⟨s.cur, s.cur0, by simp [s.buf], s.pos, s.out⟩
      have s2 := s1.put (beBytes 8 (w0.buf ||| hi))
      have hp : ∀ x : Writer, x.flushBuffer.pos = 64 := fun _ => rfl
      have s3 : Sim h base (Writer.flushBuffer { w with buf := w.buf ||| hi })
          (Writer.flushBuffer { w0 with buf := w0.buf ||| hi }) := by
        have e : (Writer.flushBuffer { w with buf := w.buf ||| hi }) =
            { Writer.put { w with buf := w.buf ||| hi } (beBytes 8 (w0.buf ||| hi)) with buf := 0, pos := 64 } := by
          simp [Writer.flushBuffer, s.buf]
        rw [e]
        exact ⟨s2.cur, s2.cur0, rfl, rfl, s2.out⟩
      simp only [hp]
      cases shl64 (v % 2 ^ (n - w0.pos)) (64 - (n - w0.pos)) with
      | none => exact .inl ⟨rfl, rfl⟩
      | some lo => exact .inr ⟨_, _, rfl, rfl, s3.cur, s3.cur0, congrArg (· ||| lo) s3.buf, rfl, s3.out⟩
  · simp only [hc, if_false]
    cases shl64 v (w0.pos - n) with
    | none => exact .inl ⟨rfl, rfl⟩
    | some lo => exact .inr ⟨_, _, rfl, rfl, s.cur, s.cur0, by simp [s.buf], rfl, s.out⟩

theorem calls_append (cs cs' : List Call) : ∀ w : Writer, w.calls (cs ++ cs') =
    match w.calls cs with
    | none => none
    | some w => w.calls cs' := by
  induction cs with
  | nil => intro w; rfl
  | cons c cs ih =>
    intro w
    simp only [List.cons_append, Writer.calls]
    cases w.call c with
    | none => rfl
    | some w' => exact ih w'

theorem calls_writes (ws : List (Nat × Nat)) : ∀ w : Writer,
    w.calls (ws.map fun p => .write p.1 p.2) = w.writeAll ws := by
  induction ws with
  | nil => intro w; rfl
  | cons p ws ih =>
    intro w
    simp only [List.map_cons, Writer.calls, Writer.call, Writer.writeAll]
    cases w.writeBits p.2 p.1 with
    | none => rfl
    | some w' => exact ih w'

theorem Sim.writeAll {h : Nat} {base : List Nat} (ws : List (Nat × Nat)) : ∀ {w w0 x0 : Writer}, Sim h base w w0 →
    w0.writeAll ws = some x0 → ∃ x, w.writeAll ws = some x ∧ Sim h base x x0 := by
  induction ws with
  | nil => intro w w0 x0 s e; cases e; exact ⟨w, rfl, s⟩
  | cons p ws ih =>
    intro w w0 x0 s e
    simp only [Writer.writeAll] at e ⊢
    rcases s.writeBits p.2 p.1 with ⟨_, h2⟩ | ⟨y, y0, h1, h2, s'⟩
    · rw [h2] at e; cases e
    · rw [h2] at e
      rw [h1]
      exact ih s' e

/-- The writer between two sequences: nothing buffered, and the put position after the header byte. -/
def Idle (w : Writer) (r : Nat) (body : List Nat) : Prop :=
  w.cur = 1 ∧ w.buf = 0 ∧ w.pos = 64 ∧ w.out = headerByte r :: body

theorem Idle.sim {w : Writer} {r : Nat} {body : List Nat} (i : Idle w r body) : Sim (headerByte r) body w Writer.init :=
  ⟨i.1, rfl, i.2.1, i.2.2.1, _, [], rfl, by simp [i.2.2.2]⟩

theorem Sim.finish {h : Nat} {base : List Nat} {w w0 : Writer} {W : List Bool} (s : Sim h base w w0) (hw : WInv w0 W)
    (hne : W ≠ []) : ∃ r b, Packed W r b ∧ Idle w.finish r (b ++ base.drop b.length) := by
  obtain ⟨body, r, e, hr, hb, hbits⟩ := finish_spec hw
  have hp : w0.pos < 64 := by rcases hw.fresh with h | h; exact absurd h hne; exact h
  refine ⟨r, body, ⟨hr, hb, hbits⟩, ?_⟩
  have s1 := s.put ((beBytes 8 w0.buf).take ((64 - w0.pos + w0.pos % 8) / 8))
  obtain ⟨h0, b1, e0, e1⟩ := s1.out
  have hpos : 64 - w0.pos > 0 := by omega
  have ef0 : w0.finish = Writer.flushHeader { w0.put ((beBytes 8 w0.buf).take ((64 - w0.pos + w0.pos % 8) / 8)) with
      buf := 0, pos := 64 } (64 - w0.pos + w0.pos % 8 - (64 - w0.pos)) := by
    unfold Writer.finish; rw [if_pos hpos]
  have ef : w.finish = Writer.flushHeader { w.put ((beBytes 8 w0.buf).take ((64 - w0.pos + w0.pos % 8) / 8)) with
      buf := 0, pos := 64 } (64 - w0.pos + w0.pos % 8 - (64 - w0.pos)) := by
    unfold Writer.finish; rw [s.pos, s.buf, if_pos hpos]
  have eo : w0.finish.out = headerByte (64 - w0.pos + w0.pos % 8 - (64 - w0.pos)) :: b1 := by
    rw [ef0]; simp [Writer.flushHeader, Writer.put] at e0 ⊢; simp [e0]
  rw [e] at eo
  injection eo with eh eb
  subst eb
  rw [ef]
  refine ⟨rfl, rfl, rfl, ?_⟩
  rw [eh]
  simp only [Writer.flushHeader]
  simp only [Writer.put] at e1 ⊢
  rw [e1]
  simp

theorem finish_idle {w : Writer} (h : w.pos = 64) : w.finish = w := by
  unfold Writer.finish; rw [h]; rfl

/-- One more sequence, finished. -/
theorem segment {w : Writer} {r : Nat} {body : List Nat} (i : Idle w r body) {ws : List (Nat × Nat)} (hl : Legal ws)
    (hu : ¬ Overshift 0 ws) : ∃ x, w.writeAll ws = some x ∧
    ((written ws = [] ∧ x = w) ∨ (written ws ≠ [] ∧ ∃ r' b, Packed (written ws) r' b ∧
      Idle x.finish r' (b ++ body.drop b.length))) := by
  rcases writeAll_spec (ws := ws) WInv_init hl with ⟨h1, _⟩ | ⟨_, w0, h2, h3⟩
  · exact absurd h1 hu
  · obtain ⟨x, hx, s⟩ := Sim.writeAll ws i.sim h2
    refine ⟨x, hx, ?_⟩
    by_cases hn : written ws = []
    · left
      refine ⟨hn, ?_⟩
      cases ws with
      | nil => cases hx; rfl
      | cons p ws =>
        have := (hl p (by simp)).1
        have hlen := congrArg List.length hn
        simp [written] at hlen
        omega
    · right
      exact ⟨hn, s.finish (by simpa using h3) hn⟩

theorem over_idle (old : List Nat) : Idle (Writer.over old) 0 old.tail := by
  refine ⟨rfl, rfl, rfl, ?_⟩
  simp [Writer.over, Writer.flushHeader, Writer.put]

theorem layers_run (old : List Nat) : ∀ (segs done : List (List (Nat × Nat))) (w : Writer) (r : Nat) (body : List Nat),
    Fine segs → Idle w r body → Layers old.tail done r body → r < 8 →
    ∃ x r' body', w.calls (finished segs) = some x ∧ Idle x r' body' ∧ Layers old.tail (done ++ segs) r' body' ∧ r' < 8 := by
  intro segs
  induction segs with
  | nil => intro done w r body _ i l hr; exact ⟨w, r, body, rfl, i, by simpa using l, hr⟩
  | cons ws segs ih =>
    intro done w r body hf i l hr
    obtain ⟨x, hx, h⟩ := segment i (hf ws (by simp)).1 (hf ws (by simp)).2
    have hrun : w.calls (finished (ws :: segs)) = x.finish.calls (finished segs) := by
      simp only [finished, calls_append, calls_writes, hx, Writer.calls, Writer.call]
    have hf' : Fine segs := fun s hs => hf s (by simp [hs])
    rw [hrun]
    rcases h with ⟨h1, rfl⟩ | ⟨h1, r', b, hp, i'⟩
    · rw [finish_idle i.2.2.1]
      have hws : ws = [] := by
        cases ws with
        | nil => rfl
        | cons p ws =>
          have := ((hf _ List.mem_cons_self).1 p (by simp)).1
          have hlen := congrArg List.length h1
          simp [written] at hlen
          omega
      subst hws
      obtain ⟨y, r', body', e1, e2, e3, e4⟩ := ih (done ++ [[]]) _ r body hf' i (.again l) hr
      exact ⟨y, r', body', e1, e2, by simpa using e3, e4⟩
    · obtain ⟨y, r'', body', e1, e2, e3, e4⟩ := ih (done ++ [ws]) _ r' _ hf' i' (.more l h1 hp) hp.1
      exact ⟨y, r'', body', e1, e2, by simpa using e3, e4⟩

/-- C158: a program that goes on writing after `finish` writes over the start of what the stream holds: for any sequences
of writes, each followed by `finish`, over a stream with any content, each sequence replaces the bytes from the second one
on, as many as it needs, and the header byte records its padding; a `finish` with nothing to write changes nothing. -/
theorem bitstream_segments (old : List Nat) (segs : List (List (Nat × Nat))) (hf : Fine segs) :
    ∃ w r body, (Writer.over old).calls (finished segs) = some w ∧ w.out = (0x1a * 8 + r) :: body ∧ r < 8 ∧
      Layers old.tail segs r body := by
  obtain ⟨w, r, body, h1, h2, h3, h4⟩ := layers_run old segs [] _ 0 _ hf (over_idle old) .start (by omega)
  exact ⟨w, r, body, h1, by rw [h2.2.2.2, headerByte_eq h4], h4, by simpa using h3⟩

example : Fine [[(8, 1), (3, 7)], [], [(64, 5)]] := by
  intro ws h
  simp only [List.mem_cons, List.not_mem_nil, or_false] at h
  rcases h with rfl | rfl | rfl <;> refine ⟨?_, by decide⟩ <;> intro p hp <;> simp at hp
  · rcases hp with rfl | rfl <;> decide
  · subst hp; decide

/-- C158: before `finish`, at every point, the stream holds a prefix of the bits: those in full groups of 64, except the
last one. The header byte still records the padding of the sequence before it. -/
theorem bitstream_unfinished (old : List Nat) (segs : List (List (Nat × Nat))) (hf : Fine segs) (ws : List (Nat × Nat))
    (hl : Legal ws) (hu : ¬ Overshift 0 ws) :
    ∃ w r body b, (Writer.over old).calls (finished segs ++ ws.map fun p => .write p.1 p.2) = some w ∧
      Layers old.tail segs r body ∧ r < 8 ∧ w.out = (0x1a * 8 + r) :: (b ++ body.drop b.length) ∧ (∀ x ∈ b, x < 256) ∧
      bytesBits b = (written ws).take (64 * (((written ws).length - 1) / 64)) := by
  obtain ⟨w, r, body, h1, h2, h3, h4⟩ := layers_run old segs [] _ 0 _ hf (over_idle old) .start (by omega)
  rcases writeAll_spec (ws := ws) WInv_init hl with ⟨e1, _⟩ | ⟨_, w0, e2, e3⟩
  · exact absurd e1 hu
  · obtain ⟨x, hx, s⟩ := Sim.writeAll ws h2.sim e2
    obtain ⟨h0, b, o0, o⟩ := s.out
    obtain ⟨b', o1, hb, hm, hW⟩ := e3.out
    rw [o0] at o1
    injection o1 with _ o1
    subst o1
    refine ⟨x, r, body, b, ?_, by simpa using h3, h4, by rw [o, headerByte_eq h4], hb, ?_⟩
    · rw [calls_append, h1]; simp only [calls_writes, hx]
    · simp only [List.nil_append] at hW
      have hlen := congrArg List.length hW
      simp at hlen
      have hp := e3.pos
      have hn : 64 * (((written ws).length - 1) / 64) = 8 * b.length := by
        rcases e3.fresh with h | h
        · have h := congrArg List.length h
          rw [List.nil_append, List.length_nil] at h
          omega
        · omega
      rw [hn, hW, List.take_append_of_le_length (by simp)]
      rw [List.take_of_length_le (by simp)]

/-- C158: so a stream that was empty and is not finished yet reads as a prefix of what was written. -/
theorem bitstream_crash_prefix (ws : List (Nat × Nat)) (hl : Legal ws) (hu : ¬ Overshift 0 ws) :
    ∃ w, (Writer.over []).calls (ws.map fun p => .write p.1 p.2) = some w ∧ HasMagic w.out ∧
      payload w.out <+: written ws := by
  obtain ⟨w, r, body, b, h1, h2, h3, h4, h5, h6⟩ := bitstream_unfinished [] [] (by simp [Fine]) ws hl hu
  refine ⟨w, by simpa [finished] using h1, ?_, ?_⟩
  · rw [h4]; show (0x1a * 8 + r) / 8 % 32 = 0x1a; omega
  · have h0 : r = 0 ∧ body = [] := by
      generalize hs : ([] : List (List (Nat × Nat))) = segs at h2
      cases h2 with
      | start => exact ⟨rfl, rfl⟩
      | more => simp at hs
      | again => simp at hs
    obtain ⟨rfl, rfl⟩ := h0
    rw [h4]
    have : payload ((0x1a * 8 + 0) :: (b ++ ([] : List Nat).drop b.length)) = bytesBits b := by
      simp only [payload, List.drop_nil, List.append_nil]
      rw [show 8 * b.length - (0x1a * 8 + 0) % 8 = 8 * b.length by omega]
      exact List.take_of_length_le (by simp)
    rw [this, h6]
    exact List.take_prefix _ _

/-- C158: the sequence finished last is read back first, in full. -/
theorem bitstream_last_segment (old : List Nat) (segs : List (List (Nat × Nat))) (ws : List (Nat × Nat))
    (hf : Fine (segs ++ [ws])) (hne : ws ≠ []) :
    ∃ w, (Writer.over old).calls (finished (segs ++ [ws])) = some w ∧ HasMagic w.out ∧ written ws <+: payload w.out := by
  obtain ⟨w, r, body, h1, h2, h3, h4⟩ := bitstream_segments old _ hf
  refine ⟨w, h1, by rw [h2]; show (0x1a * 8 + r) / 8 % 32 = 0x1a; omega, ?_⟩
  rw [h2]
  generalize hs : segs ++ [ws] = all at h4
  cases h4 with
  | start => simp at hs
  | again => exact absurd (List.append_inj' hs rfl).2 (by simpa using hne)
  | @more segs' r' body' ws' _ b l hn hp =>
    obtain ⟨_, e⟩ := List.append_inj' hs rfl
    simp only [List.cons.injEq, and_true] at e
    subst e
    have hlen := congrArg List.length hp.2.2
    simp at hlen
    simp only [payload, bytesBits_append, hp.2.2]
    rw [show (0x1a * 8 + r) % 8 = r by omega, List.append_assoc]
    rw [List.prefix_take_iff]
    refine ⟨List.prefix_append _ _, ?_⟩
    simp
    omega

/-- C158: `finish` twice is `finish` once. -/
theorem bitstream_finish_twice (w : Writer) : w.finish.finish = w.finish := by
  by_cases h : 64 - w.pos > 0
  · refine finish_idle ?_
    unfold Writer.finish
    rw [if_pos h]
    rfl
  · have : w.finish = w := by unfold Writer.finish; rw [if_neg h]
    rw [this, this]

/-- C158 is false of the unchanged code: what was finished is lost when the program goes on writing. -/
theorem bitstream_append_violated : Fine [[(8, 1)], [(8, 2)]] ∧
    ∃ w, (Writer.over []).calls (finished [[(8, 1)], [(8, 2)]]) = some w ∧ w.out = [0xd0, 2] := by
  constructor
  · intro ws h
    simp only [List.mem_cons, List.not_mem_nil, or_false] at h
    rcases h with rfl | rfl <;> refine ⟨?_, by decide⟩ <;> intro p hp <;> simp at hp <;> subst hp <;> decide
  · exact ⟨_, rfl, by decide⟩

/-- C158 is false of the unchanged code: the rest of a longer stream is read as if it had been written. -/
theorem bitstream_stale_violated : Fine [[(8, 1)]] ∧
    ∃ w, (Writer.over [0xd0, 7, 8, 9]).calls (finished [[(8, 1)]]) = some w ∧ payload w.out ≠ written [(8, 1)] := by
  constructor
  · intro ws h
    simp only [List.mem_cons, List.not_mem_nil, or_false] at h
    subst h
    refine ⟨?_, by decide⟩
    intro p hp
    simp at hp
    subst hp
    decide
  · exact ⟨_, rfl, by decide⟩

end Verif.BitStream
