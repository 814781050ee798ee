import Verif.Common.Bits
import Verif.BitStream.Model
import Verif.BitStream.Spec

/-! Helper lemmas for the bit stream model: writer and reader invariants. -/

namespace Verif.BitStream
open Verif.Bits

theorem beBytes_length (k v : Nat) : (beBytes k v).length = k := by
  induction k with
  | zero => rfl
  | succ k ih => simp [beBytes, ih]

theorem beBytes_lt (k v : Nat) : ∀ b ∈ beBytes k v, b < 256 := by
  induction k with
  | zero => simp [beBytes]
  | succ k ih =>
    intro b hb
    simp only [beBytes, List.mem_cons] at hb
    rcases hb with rfl | hb
    · omega
    · exact ih b hb

theorem bytesBits_beBytes (k v : Nat) : bytesBits (beBytes k v) = toBits (8 * k) v := by
  induction k with
  | zero => rfl
  | succ k ih =>
    simp only [beBytes, bytesBits_cons, ih]
    have : 8 * (k + 1) = 8 + 8 * k := by omega
    rw [this, toBits_append, Nat.shiftRight_eq_div_pow]
    rw [show (256 : Nat) = 2 ^ 8 from rfl, toBits_mod]

theorem bytesBits_take (l : List Nat) (j : Nat) :
    bytesBits (l.take j) = (bytesBits l).take (8 * j) := by
  induction l generalizing j with
  | nil => simp
  | cons x xs ih =>
    cases j with
    | zero => simp
    | succ j =>
      simp only [List.take_succ_cons, bytesBits_cons, ih]
      have h1 : List.take (8 * (j + 1)) (toBits 8 x) = toBits 8 x := by
        apply List.take_of_length_le; simp; omega
      rw [List.take_append, h1, toBits_length]
      congr 2

theorem bytesBits_drop (l : List Nat) (j : Nat) :
    bytesBits (l.drop j) = (bytesBits l).drop (8 * j) := by
  induction l generalizing j with
  | nil => simp
  | cons x xs ih =>
    cases j with
    | zero => simp
    | succ j =>
      simp only [List.drop_succ_cons, bytesBits_cons, ih]
      rw [List.drop_append, toBits_length,
        List.drop_of_length_le (l := toBits 8 x) (by simp; omega), List.nil_append]
      congr 1

theorem toBits_zero (n : Nat) : toBits n 0 = List.replicate n false := by
  induction n with
  | zero => rfl
  | succ n ih => simp [toBits, ih, List.replicate_succ]

theorem toBits_of_mod_zero {n v : Nat} (h : v % 2 ^ n = 0) :
    toBits n v = List.replicate n false := by
  rw [← toBits_mod, h, toBits_zero]

/-- Writer invariant: `W` is the sequence of bits written so far. -/
structure WInv (w : Writer) (W : List Bool) : Prop where
  cur : w.cur = w.out.length
  out : ∃ body, w.out = headerByte 0 :: body ∧ (∀ b ∈ body, b < 256) ∧ body.length % 8 = 0 ∧
    W = bytesBits body ++ toBits (64 - w.pos) (w.buf / 2 ^ w.pos)
  low : w.buf % 2 ^ w.pos = 0
  lt : w.buf < 2 ^ 64
  pos : w.pos ≤ 64
  fresh : W = [] ∨ w.pos < 64

theorem WInv_init : WInv Writer.init [] := by
  refine ⟨rfl, ⟨[], rfl, by simp, rfl, ?_⟩, ?_, ?_, ?_, Or.inl rfl⟩
  · simp [Writer.init, Writer.flushHeader, Writer.put, toBits]
  · simp [Writer.init, Writer.flushHeader, Writer.put]
  · simp [Writer.init, Writer.flushHeader, Writer.put]
  · simp [Writer.init, Writer.flushHeader, Writer.put]

theorem put_at_end (w : Writer) (d : List Nat) (h : w.cur = w.out.length) :
    w.put d = { w with out := w.out ++ d, cur := w.out.length + d.length } := by
  simp [Writer.put, h]

/-- The non-splitting half of `write_bits`. -/
theorem WInv_append {w : Writer} {W : List Bool} (hw : WInv w W) {bits size : Nat}
    (hs : 0 < size) (hsp : size ≤ w.pos) (hb : bits < 2 ^ size) :
    WInv { w with buf := w.buf ||| ((bits <<< (w.pos - size)) % 2 ^ 64), pos := w.pos - size }
      (W ++ toBits size bits) := by
  obtain ⟨body, hout, hby, hlen, hW⟩ := hw.out
  have hpos := hw.pos
  have hsh : bits <<< (w.pos - size) = bits * 2 ^ (w.pos - size) := Nat.shiftLeft_eq _ _
  have hpow : 2 ^ w.pos = 2 ^ size * 2 ^ (w.pos - size) := by
    rw [← Nat.pow_add]; congr 1; omega
  have hlt : bits * 2 ^ (w.pos - size) < 2 ^ w.pos := by
    rw [hpow]; exact Nat.mul_lt_mul_of_pos_right hb (Nat.two_pow_pos _)
  have hle : 2 ^ w.pos ≤ 2 ^ 64 := Nat.pow_le_pow_right (by omega) hpos
  have hmod : (bits <<< (w.pos - size)) % 2 ^ 64 = bits * 2 ^ (w.pos - size) := by
    rw [hsh]; exact Nat.mod_eq_of_lt (by omega)
  have hor : w.buf ||| (bits <<< (w.pos - size)) % 2 ^ 64 = w.buf + bits * 2 ^ (w.pos - size) := by
    rw [hmod]; exact or_eq_add hw.low hlt
  have hbuf : w.buf = (w.buf / 2 ^ w.pos) * 2 ^ w.pos := by
    have := Nat.div_add_mod w.buf (2 ^ w.pos)
    rw [hw.low] at this; rw [Nat.mul_comm]; omega
  have hbuf' : w.buf + bits * 2 ^ (w.pos - size) =
      ((w.buf / 2 ^ w.pos) * 2 ^ size + bits) * 2 ^ (w.pos - size) := by
    rw [Nat.add_mul, Nat.mul_assoc, ← hpow, ← hbuf]
  refine ⟨hw.cur, ⟨body, hout, hby, hlen, ?_⟩, ?_, ?_, ?_, ?_⟩
  · simp only [hor, hbuf']
    rw [Nat.mul_div_cancel _ (Nat.two_pow_pos _)]
    have : 64 - (w.pos - size) = (64 - w.pos) + size := by omega
    rw [this, toBits_add_mul _ _ hb, hW, List.append_assoc]
  · simp only [hor, hbuf']; exact Nat.mul_mod_left _ _
  · simp only [hor]
    have h1 : w.buf / 2 ^ w.pos < 2 ^ (64 - w.pos) := by
      rw [Nat.div_lt_iff_lt_mul (Nat.two_pow_pos _), ← Nat.pow_add]
      have : 64 - w.pos + w.pos = 64 := by omega
      rw [this]; exact hw.lt
    have h2 : (w.buf / 2 ^ w.pos + 1) * 2 ^ w.pos ≤ 2 ^ (64 - w.pos) * 2 ^ w.pos :=
      Nat.mul_le_mul_right _ h1
    rw [← Nat.pow_add, show 64 - w.pos + w.pos = 64 by omega, Nat.add_mul, ← hbuf] at h2
    omega
  · show w.pos - size ≤ 64; omega
  · right; show w.pos - size < 64; omega

/-- One `write_bits` call of a legal width: undefined behaviour exactly for a 64-bit write onto an
exactly full buffer, otherwise the invariant is extended by the written bits. -/
theorem WInv_write {w : Writer} {W : List Bool} (hw : WInv w W) {bits size : Nat}
    (hs : 0 < size) (hs64 : size ≤ 64) (hb : bits < 2 ^ size) :
    (size = 64 ∧ w.pos = 0 ∧ w.writeBits bits size = none) ∨
    (¬ (size = 64 ∧ w.pos = 0) ∧ ∃ w', w.writeBits bits size = some w' ∧
      WInv w' (W ++ toBits size bits)) := by
  have hpos := hw.pos
  by_cases h : size > w.pos
  · -- split
    by_cases hub : size - w.pos < 64
    · right
      refine ⟨by omega, ?_⟩
      -- fill the buffer
      have hpow : 2 ^ size = 2 ^ w.pos * 2 ^ (size - w.pos) := by
        rw [← Nat.pow_add]; congr 1; omega
      have hhi : bits >>> (size - w.pos) < 2 ^ w.pos := by
        rw [Nat.shiftRight_eq_div_pow, Nat.div_lt_iff_lt_mul (Nat.two_pow_pos _), ← hpow]
        exact hb
      -- the state after filling the buffer and before flushing
      have hfull : ∃ body, w.out = headerByte 0 :: body ∧ (∀ b ∈ body, b < 256) ∧
          body.length % 8 = 0 ∧
          W ++ toBits w.pos (bits >>> (size - w.pos)) =
            bytesBits body ++ toBits 64 (w.buf ||| bits >>> (size - w.pos)) := by
        obtain ⟨body, hout, hby, hlen, hW⟩ := hw.out
        refine ⟨body, hout, hby, hlen, ?_⟩
        rw [or_eq_add hw.low hhi, hW, List.append_assoc]
        congr 1
        have hbuf : w.buf = (w.buf / 2 ^ w.pos) * 2 ^ w.pos := by
          have := Nat.div_add_mod w.buf (2 ^ w.pos)
          rw [hw.low] at this; rw [Nat.mul_comm]; omega
        conv => rhs; rw [hbuf]
        have e := toBits_add_mul (m := 64 - w.pos) (n := w.pos) (w.buf / 2 ^ w.pos) _ hhi
        rw [show 64 - w.pos + w.pos = 64 by omega] at e
        exact e.symm
      obtain ⟨body, hout, hby, hlen, hW⟩ := hfull
      let w1 : Writer := Writer.flushBuffer { w with buf := w.buf ||| bits >>> (size - w.pos) }
      have hw1 : w1 = Writer.mk (w.out ++ beBytes 8 (w.buf ||| bits >>> (size - w.pos)))
          (w.out.length + 8) 0 64 := by
        show Writer.flushBuffer _ = _
        unfold Writer.flushBuffer
        have e := put_at_end { w with buf := w.buf ||| bits >>> (size - w.pos) }
          (beBytes 8 (w.buf ||| bits >>> (size - w.pos))) hw.cur
        simp only [e, beBytes_length]
      -- after flushing: either fresh (impossible) or continue with the low bits
      have hlow : bits % 2 ^ (size - w.pos) < 2 ^ (size - w.pos) := Nat.mod_lt _ (Nat.two_pow_pos _)
      have hle1 : 0 < size - w.pos := by omega
      have hle2 : size - w.pos ≤ 64 := by omega
      -- invariant for w1 except freshness; redo the append by hand via a helper state
      have hinv1 : ∀ W1, W1 = bytesBits (body ++ beBytes 8 (w.buf ||| bits >>> (size - w.pos))) →
          WInv { w1 with
              buf := w1.buf ||| ((bits % 2 ^ (size - w.pos)) <<< (64 - (size - w.pos))) % 2 ^ 64,
              pos := 64 - (size - w.pos) }
            (W1 ++ toBits (size - w.pos) (bits % 2 ^ (size - w.pos))) := by
        intro W1 hW1
        rw [hw1]
        have hpow2 : 2 ^ 64 = 2 ^ (size - w.pos) * 2 ^ (64 - (size - w.pos)) := by
          rw [← Nat.pow_add]; congr 1; omega
        have hsm : bits % 2 ^ (size - w.pos) * 2 ^ (64 - (size - w.pos)) < 2 ^ 64 := by
          rw [hpow2]; exact Nat.mul_lt_mul_of_pos_right hlow (Nat.two_pow_pos _)
        have hval : ((bits % 2 ^ (size - w.pos)) <<< (64 - (size - w.pos))) % 2 ^ 64 =
            bits % 2 ^ (size - w.pos) * 2 ^ (64 - (size - w.pos)) := by
          rw [Nat.shiftLeft_eq, Nat.mod_eq_of_lt hsm]
        refine ⟨?_, ⟨body ++ beBytes 8 (w.buf ||| bits >>> (size - w.pos)), ?_, ?_, ?_, ?_⟩,
          ?_, ?_, ?_, ?_⟩
        · simp [beBytes_length]
        · simp [hout]
        · intro b hb'
          rcases List.mem_append.1 hb' with h1 | h1
          · exact hby b h1
          · exact beBytes_lt _ _ b h1
        · simp [beBytes_length]; omega
        · simp only [hval, Nat.zero_or]
          rw [Nat.mul_div_cancel _ (Nat.two_pow_pos _), hW1]
          rw [show 64 - (64 - (size - w.pos)) = size - w.pos by omega]
        · simp only [hval, Nat.zero_or]; exact Nat.mul_mod_left _ _
        · simp only [hval, Nat.zero_or]; exact hsm
        · show 64 - (size - w.pos) ≤ 64; omega
        · right; show 64 - (size - w.pos) < 64; omega
      refine ⟨{ w1 with
              buf := w1.buf ||| ((bits % 2 ^ (size - w.pos)) <<< (64 - (size - w.pos))) % 2 ^ 64,
              pos := 64 - (size - w.pos) }, ?_, ?_⟩
      · unfold Writer.writeBits
        have hp64 : w1.pos = 64 := by rw [hw1]
        simp only [h, shr64, hub, ↓reduceIte]
        have hcond : w1.pos - (size - w.pos) < 64 := by rw [hp64]; omega
        show (match shl64 (bits % 2 ^ (size - w.pos)) (w1.pos - (size - w.pos)) with
          | none => none
          | some lo => some { w1 with buf := w1.buf ||| lo, pos := w1.pos - (size - w.pos) }) = _
        simp only [shl64, hcond, if_true]
        rw [hp64]
      · have hh := hinv1 _ rfl
        rw [bytesBits_append, bytesBits_beBytes, ← hW, List.append_assoc, toBits_mod] at hh
        have hsplit : toBits size bits =
            toBits w.pos (bits >>> (size - w.pos)) ++ toBits (size - w.pos) bits := by
          have e := toBits_append w.pos (size - w.pos) bits
          rw [show w.pos + (size - w.pos) = size by omega] at e
          rw [e, Nat.shiftRight_eq_div_pow]
        rw [hsplit]
        exact hh
    · left
      have h1 : size = 64 := by omega
      have h2 : w.pos = 0 := by omega
      refine ⟨h1, h2, ?_⟩
      unfold Writer.writeBits
      simp [h1, h2, shr64]
  · right
    refine ⟨by omega, ?_⟩
    refine ⟨_, ?_, WInv_append hw hs (by omega) hb⟩
    unfold Writer.writeBits
    have : w.pos - size < 64 := by omega
    simp [h, shl64, this]

theorem WInv_pos {w : Writer} {W : List Bool} (hw : WInv w W) :
    w.pos = 0 ↔ (W ≠ [] ∧ W.length % 64 = 0) := by
  obtain ⟨body, hout, hby, hlen, hW⟩ := hw.out
  have hl : W.length = 8 * body.length + (64 - w.pos) := by
    rw [hW]; simp
  have hp := hw.pos
  have hf := hw.fresh
  constructor
  · intro h
    refine ⟨?_, by omega⟩
    intro hn; rw [hn] at hl; simp at hl; omega
  · rintro ⟨h1, h2⟩
    rcases hf with h3 | h3
    · exact absurd h3 h1
    · omega

theorem writeAll_spec {ws : List (Nat × Nat)} : ∀ {w : Writer} {W : List Bool}, WInv w W →
    Legal ws →
    (Overshift W.length ws ∧ w.writeAll ws = none) ∨
    (¬ Overshift W.length ws ∧ ∃ w', w.writeAll ws = some w' ∧ WInv w' (W ++ written ws)) := by
  induction ws with
  | nil => intro w W hw _; right; exact ⟨by simp [Overshift], w, rfl, by simpa [written] using hw⟩
  | cons p rest ih =>
    intro w W hw hl
    obtain ⟨size, bits⟩ := p
    have hp := hl (size, bits) (by simp)
    have hposiff := WInv_pos hw
    have hlen : W ≠ [] ↔ 0 < W.length := List.length_pos_iff.symm
    rcases WInv_write hw hp.1 hp.2.1 hp.2.2 with ⟨h1, h2, h3⟩ | ⟨h1, w', h2, h3⟩
    · left
      refine ⟨?_, by simp [Writer.writeAll, h3]⟩
      left
      have := hposiff.1 h2
      exact ⟨h1, hlen.1 this.1, this.2⟩
    · have hnot : ¬ (size = 64 ∧ 0 < W.length ∧ W.length % 64 = 0) := by
        rintro ⟨a, b, c⟩
        exact h1 ⟨a, hposiff.2 ⟨hlen.2 b, c⟩⟩
      have hL : (W ++ toBits size bits).length = W.length + size := by simp
      rcases ih h3 (fun q hq => hl q (by simp [hq])) with ⟨h4, h5⟩ | ⟨h4, w'', h5, h6⟩
      · left
        rw [hL] at h4
        exact ⟨Or.inr h4, by simp [Writer.writeAll, h2, h5]⟩
      · right
        rw [hL] at h4
        refine ⟨?_, w'', by simp [Writer.writeAll, h2, h5], ?_⟩
        · rintro (h | h)
          · exact hnot h
          · exact h4 h
        · simpa [written, List.append_assoc] using h6

theorem finish_spec {w : Writer} {W : List Bool} (hw : WInv w W) :
    ∃ body r, w.finish.out = headerByte r :: body ∧ r < 8 ∧ (∀ b ∈ body, b < 256) ∧
      bytesBits body = W ++ List.replicate r false := by
  obtain ⟨body, hout, hby, hlen, hW⟩ := hw.out
  have hpos := hw.pos
  unfold Writer.finish
  by_cases h : 64 - w.pos > 0
  · simp only [h, if_true]
    rw [put_at_end _ _ hw.cur]
    refine ⟨body ++ (beBytes 8 w.buf).take ((64 - w.pos + w.pos % 8) / 8), w.pos % 8, ?_, by omega,
      ?_, ?_⟩
    · simp [Writer.flushHeader, Writer.put, hout]
    · intro b hb
      rcases List.mem_append.1 hb with h1 | h1
      · exact hby b h1
      · exact beBytes_lt _ _ b (List.mem_of_mem_take h1)
    · rw [bytesBits_append, bytesBits_take, bytesBits_beBytes, hW, List.append_assoc]
      congr 1
      have e := toBits_append (64 - w.pos) w.pos w.buf
      rw [show 64 - w.pos + w.pos = 64 by omega] at e
      rw [show 8 * 8 = 64 from rfl, e, toBits_of_mod_zero hw.low]
      have hn : 8 * ((64 - w.pos + w.pos % 8) / 8) = (64 - w.pos) + w.pos % 8 := by omega
      rw [hn, List.take_append, toBits_length]
      rw [List.take_of_length_le (by simp)]
      congr 1
      rw [show 64 - w.pos + w.pos % 8 - (64 - w.pos) = w.pos % 8 by omega, List.take_replicate]
      congr 1
      have := Nat.mod_le w.pos 8
      omega
  · simp only [h, if_false]
    refine ⟨body, 0, hout, by omega, hby, ?_⟩
    have : w.pos = 64 := by omega
    rw [hW, this]; simp [toBits]

/-! ### Reader -/

theorem beVal_lt (l : List Nat) (h : ∀ b ∈ l, b < 256) : beVal l < 2 ^ (8 * l.length) := by
  induction l with
  | nil => simp [beVal]
  | cons b bs ih =>
    have h1 := h b (by simp)
    have h2 := ih (fun x hx => h x (by simp [hx]))
    simp only [beVal, List.length_cons]
    rw [show 8 * (bs.length + 1) = 8 + 8 * bs.length by omega, Nat.pow_add]
    have : (b + 1) * 2 ^ (8 * bs.length) ≤ 2 ^ 8 * 2 ^ (8 * bs.length) :=
      Nat.mul_le_mul_right _ (by omega)
    rw [Nat.add_mul] at this
    omega

theorem bytesBits_beVal (l : List Nat) (h : ∀ b ∈ l, b < 256) :
    toBits (8 * l.length) (beVal l) = bytesBits l := by
  induction l with
  | nil => rfl
  | cons b bs ih =>
    have h2 := fun x hx => h x (List.mem_cons_of_mem b hx)
    simp only [beVal, List.length_cons, bytesBits_cons]
    rw [show 8 * (bs.length + 1) = 8 + 8 * bs.length by omega,
      toBits_add_mul _ _ (beVal_lt bs h2), ih h2]

/-- The bits a reader has yet to hand out. -/
def Reader.unread (r : Reader) : List Bool :=
  toBits r.pos r.buf ++
    (if r.good then (bytesBits r.rest).take (8 * r.rest.length - r.remainder) else [])

/-- Reader well-formedness. -/
structure RInv (r : Reader) : Prop where
  bytes : ∀ b ∈ r.rest, b < 256
  pos : r.pos ≤ 64
  buf : r.buf < 2 ^ 64
  rem : r.remainder < 8

theorem refill_spec {r : Reader} (hr : RInv r) (hp : r.pos ≤ 32) :
    RInv r.refill ∧ r.refill.unread = r.unread ∧
      r.refill.good = r.good ∧
      (r.refill.pos = r.unread.length ∧ (r.good = true → r.refill.rest = []) ∨
        32 ≤ r.refill.pos) ∧ r.pos ≤ r.refill.pos := by
  unfold Reader.refill
  by_cases hg : r.good = true
  · simp only [hg, if_true]
    by_cases hne : (r.rest.take ((64 - r.pos) / 8)).length > 0
    · simp only [hne, if_true]
      generalize hbs : r.rest.take ((64 - r.pos) / 8) = bs at hne
      have hlen : bs.length ≤ (64 - r.pos) / 8 := by
        rw [← hbs, List.length_take]; omega
      have hbl : bs.length = min ((64 - r.pos) / 8) r.rest.length := by
        rw [← hbs, List.length_take]
      have hlb : r.rest.length ≥ bs.length := by omega
      have hbyte : ∀ b ∈ bs, b < 256 := fun b hb => hr.bytes b (List.mem_of_mem_take (hbs ▸ hb))
      have hdrop : ∀ b ∈ r.rest.drop bs.length, b < 256 :=
        fun b hb => hr.bytes b (List.mem_of_mem_drop hb)
      have htake : bs = r.rest.take bs.length := by
        rw [← hbs, List.length_take, List.take_eq_take_iff]; omega
      have hvlt := beVal_lt bs hbyte
      have hsh : beVal bs <<< (64 - 8 * bs.length) >>> (64 - 8 * bs.length) = beVal bs := by
        rw [Nat.shiftLeft_shiftRight]
      have hmod0 : (r.buf <<< (8 * bs.length)) % 2 ^ 64 % 2 ^ (8 * bs.length) = 0 := by
        rw [Nat.shiftLeft_eq]
        rw [show (2:Nat) ^ 64 = 2 ^ (8 * bs.length) * 2 ^ (64 - 8 * bs.length) by
          rw [← Nat.pow_add]; congr 1; omega]
        rw [Nat.mod_mul_right_mod, Nat.mul_mod_left]
      have hor : (r.buf <<< (8 * bs.length)) % 2 ^ 64 ||| beVal bs =
          (r.buf <<< (8 * bs.length)) % 2 ^ 64 + beVal bs := or_eq_add hmod0 hvlt
      have hbuflt : (r.buf <<< (8 * bs.length)) % 2 ^ 64 ||| beVal bs < 2 ^ 64 := by
        apply Nat.or_lt_two_pow (Nat.mod_lt _ (Nat.two_pow_pos _))
        exact Nat.lt_of_lt_of_le hvlt (Nat.pow_le_pow_right (by omega) (by omega))
      -- bits of the new buffer
      have hbits : toBits (r.pos + 8 * bs.length)
          ((r.buf <<< (8 * bs.length)) % 2 ^ 64 ||| beVal bs) = toBits r.pos r.buf ++ bytesBits bs := by
        have h1 : (r.buf <<< (8 * bs.length)) % 2 ^ 64 ||| beVal bs =
            (r.buf % 2 ^ (64 - 8 * bs.length)) * 2 ^ (8 * bs.length) + beVal bs := by
          rw [hor, Nat.shiftLeft_eq]
          congr 1
          rw [show (2:Nat) ^ 64 = 2 ^ (64 - 8 * bs.length) * 2 ^ (8 * bs.length) by
            rw [← Nat.pow_add]; congr 1; omega]
          rw [Nat.mul_mod_mul_right]
        rw [h1, toBits_add_mul _ _ hvlt, bytesBits_beVal bs hbyte,
          toBits_mod_of_le (by omega)]
      rw [hsh]
      -- unread bits of the old state
      have hsplit : bytesBits r.rest = bytesBits bs ++ bytesBits (r.rest.drop bs.length) := by
        conv => lhs; rw [← List.take_append_drop bs.length r.rest]
        rw [bytesBits_append, ← htake]
      by_cases hempty : (r.rest.drop bs.length).isEmpty = true
      · simp only [hempty, if_true]
        have hnil : r.rest.drop bs.length = [] := List.isEmpty_iff.1 hempty
        have hrl : r.rest.length = bs.length := by
          have := congrArg List.length hnil
          simp at this; omega
        have hrem := hr.rem
        have hun : r.unread = toBits (r.pos + 8 * bs.length - r.remainder)
            (((r.buf <<< (8 * bs.length)) % 2 ^ 64 ||| beVal bs) >>> r.remainder) := by
          unfold Reader.unread
          simp only [hg, if_true]
          have e := toBits_take (r.pos + 8 * bs.length - r.remainder) r.remainder
            ((r.buf <<< (8 * bs.length)) % 2 ^ 64 ||| beVal bs)
          rw [show r.pos + 8 * bs.length - r.remainder + r.remainder = r.pos + 8 * bs.length by omega,
            hbits] at e
          rw [Nat.shiftRight_eq_div_pow, ← e, hsplit, hnil, bytesBits_nil, List.append_nil, hrl]
          rw [List.take_append, toBits_length]
          rw [List.take_of_length_le (l := toBits r.pos r.buf) (by simp; omega)]
          congr 2; omega
        refine ⟨⟨?_, ?_, ?_, hr.rem⟩, ?_, by simp, ?_, ?_⟩
        · simp [hnil]
        · show r.pos + 8 * bs.length - r.remainder ≤ 64; omega
        · show _ >>> r.remainder < _
          rw [Nat.shiftRight_eq_div_pow]
          exact Nat.lt_of_le_of_lt (Nat.div_le_self _ _) hbuflt
        · rw [hun]; unfold Reader.unread; simp [hnil]
        · left
          refine ⟨?_, fun _ => hnil⟩
          rw [hun]; simp
        · show r.pos ≤ r.pos + 8 * bs.length - r.remainder; omega
      · simp only [hempty]
        have hne2 : r.rest.drop bs.length ≠ [] := by
          intro h; rw [h] at hempty; simp at hempty
        have hlt : bs.length < r.rest.length := by
          have : 0 < (r.rest.drop bs.length).length := List.length_pos_iff.2 hne2
          rw [List.length_drop] at this; omega
        have hrem := hr.rem
        refine ⟨⟨hdrop, ?_, hbuflt, hr.rem⟩, ?_, by simp, ?_, ?_⟩
        · show r.pos + 8 * bs.length ≤ 64; omega
        · unfold Reader.unread
          simp only [hg, if_true]
          simp only [Bool.false_eq_true, if_false]
          rw [hbits, hsplit, List.append_assoc]
          congr 1
          rw [List.take_append, bytesBits_length, List.length_drop]
          rw [List.take_of_length_le (l := bytesBits bs) (by simp; omega)]
          have hh : 8 * (r.rest.length - bs.length) - r.remainder =
              8 * r.rest.length - r.remainder - 8 * bs.length := by omega
          rw [hh, if_pos trivial]
        · right
          show 32 ≤ r.pos + 8 * bs.length
          have h64 : 32 ≤ 64 - r.pos := by omega
          have : bs.length = (64 - r.pos) / 8 := by
            clear hbits hor hbuflt hmod0 hvlt hsh
            omega
          omega
        · show r.pos ≤ r.pos + 8 * bs.length; omega
    · simp only [hne, if_false]
      have hrest : r.rest = [] := by
        have h0 : (r.rest.take ((64 - r.pos) / 8)).length = 0 := by omega
        rw [List.length_take] at h0
        exact List.length_eq_zero_iff.1 (by omega)
      refine ⟨hr, by simp, hg, Or.inl ⟨?_, fun _ => hrest⟩, by simp⟩
      simp [Reader.unread, hrest]
  · have hg' : r.good = false := by simpa using hg
    simp only [hg']
    refine ⟨hr, rfl, by simp [hg'], Or.inl ⟨?_, by simp⟩, by simp⟩
    unfold Reader.unread; simp [hg']

theorem peek_spec {r : Reader} (hr : RInv r) {size : Nat} (hs : size ≤ 32)
    (hok : 0 < size ∨ r.pos < 64) :
    ∃ r', r.peekBits size =
        some (ofBits (r.unread.take size) * 2 ^ (size - min size r.unread.length),
          min size r.unread.length, r') ∧
      RInv r' ∧ r'.unread = r.unread ∧ r'.good = r.good ∧ min size r.unread.length ≤ r'.pos ∧
      (r'.pos = r.pos ∧ size ≤ r.pos ∨ r.pos < size) := by
  have hpos := hr.pos
  unfold Reader.peekBits
  by_cases h : size > r.pos
  · simp only [h, if_true]
    obtain ⟨h1, h2, h3, h4, h5⟩ := refill_spec hr (by omega)
    generalize hr2 : r.refill = r2 at *
    have hulen : r2.pos ≤ r.unread.length := by
      rw [← h2]; unfold Reader.unread; simp
    have hmin : min size r.unread.length = min size r2.pos := by
      rcases h4 with h4 | h4 <;> omega
    have hsz : min (size - r.pos) (r2.pos - r.pos) = min size r2.pos - r.pos := by omega
    have hpos2 := h1.pos
    have hcond : r2.pos - r.pos - (min size r2.pos - r.pos) < 64 := by omega
    rw [hsz]
    simp only [shr64, hcond, if_true]
    have hrp : r2.pos - r.pos - (min size r2.pos - r.pos) = r2.pos - min size r2.pos := by omega
    rw [hrp]
    -- unread prefix
    let n := min size r2.pos
    have hn : n = min size r2.pos := rfl
    have hnle : n ≤ r2.pos := Nat.min_le_right _ _
    have hrn : r.pos ≤ n := by omega
    have htk : r.unread.take size = toBits n (r2.buf / 2 ^ (r2.pos - n)) := by
      have e1 : r.unread.take size = r.unread.take n := by
        rw [List.take_eq_take_iff]; omega
      rw [e1, ← h2]; unfold Reader.unread
      rw [List.take_append, toBits_length, show n - r2.pos = 0 by omega, List.take_zero,
        List.append_nil]
      have e := toBits_take n (r2.pos - n) r2.buf
      rw [show n + (r2.pos - n) = r2.pos by omega] at e
      exact e
    -- its first r.pos bits are the old buffer
    have hold : r.buf % 2 ^ r.pos = r2.buf / 2 ^ (r2.pos - n) / 2 ^ (n - r.pos) % 2 ^ r.pos := by
      have e1 : r.unread.take r.pos = toBits r.pos r.buf := by
        unfold Reader.unread; simp
      have e2 : r.unread.take r.pos =
          toBits r.pos (r2.buf / 2 ^ (r2.pos - n) / 2 ^ (n - r.pos)) := by
        have e3 : r.unread.take r.pos = (r.unread.take size).take r.pos := by
          rw [List.take_take]; congr 1; omega
        rw [e3, htk]
        have e := toBits_take r.pos (n - r.pos) (r2.buf / 2 ^ (r2.pos - n))
        rw [show r.pos + (n - r.pos) = n by omega] at e
        exact e
      have := congrArg ofBits (e1.symm.trans e2)
      rwa [ofBits_toBits, ofBits_toBits] at this
    refine ⟨r2, ?_, h1, h2, h3, ?_, by simp⟩
    · rw [hmin, htk, ofBits_toBits]
      have hc2 : r.pos + (n - r.pos) = n := by omega
      refine congrArg some (Prod.ext ?_ (Prod.ext hc2 rfl))
      show (r.buf % 2 ^ r.pos) <<< (size - r.pos) |||
        (r2.buf >>> (r2.pos - n) % 2 ^ (n - r.pos)) <<< (size - r.pos - (n - r.pos)) =
        r2.buf / 2 ^ (r2.pos - n) % 2 ^ n * 2 ^ (size - n)
      rw [Nat.shiftRight_eq_div_pow]
      generalize hX : r2.buf / 2 ^ (r2.pos - n) = X at *
      have hsn : size - r.pos - (n - r.pos) = size - n := by omega
      have hsn2 : size - r.pos = (n - r.pos) + (size - n) := by omega
      rw [hsn, Nat.shiftLeft_eq, Nat.shiftLeft_eq]
      have hpw : 2 ^ (size - r.pos) = 2 ^ (n - r.pos) * 2 ^ (size - n) := by
        rw [← Nat.pow_add, ← hsn2]
      have hlow : X % 2 ^ (n - r.pos) * 2 ^ (size - n) < 2 ^ (size - r.pos) := by
        rw [hpw]
        exact Nat.mul_lt_mul_of_pos_right (Nat.mod_lt _ (Nat.two_pow_pos _)) (Nat.two_pow_pos _)
      rw [or_eq_add (Nat.mul_mod_left _ _) hlow, hold, hpw, ← Nat.mul_assoc, ← Nat.add_mul]
      congr 1
      have e := @Nat.mod_mul (2 ^ (n - r.pos)) (2 ^ r.pos) X
      rw [← Nat.pow_add, show n - r.pos + r.pos = n by omega] at e
      rw [e, Nat.mul_comm, Nat.add_comm]
    · omega
  · simp only [h, if_false]
    have hcond : r.pos - size < 64 := by omega
    simp only [shr64, hcond, if_true]
    have hul : r.pos ≤ r.unread.length := by unfold Reader.unread; simp
    have hmin : min size r.unread.length = size := by omega
    refine ⟨r, ?_, hr, rfl, rfl, by omega, Or.inl ⟨rfl, by omega⟩⟩
    have htk : r.unread.take size = toBits size (r.buf / 2 ^ (r.pos - size)) := by
      unfold Reader.unread
      rw [List.take_append, toBits_length, show size - r.pos = 0 by omega, List.take_zero,
        List.append_nil]
      have e := toBits_take size (r.pos - size) r.buf
      rw [show size + (r.pos - size) = r.pos by omega] at e
      exact e
    rw [hmin, htk, ofBits_toBits, Nat.shiftRight_eq_div_pow]
    simp

theorem discard_spec {r : Reader} (hr : RInv r) {n : Nat} (hn : n ≤ r.pos) :
    RInv (r.discardBits n) ∧ (r.discardBits n).unread = r.unread.drop n ∧
      (r.discardBits n).good = r.good ∧ (r.discardBits n).pos = r.pos - n := by
  have hpos := hr.pos
  have hp : (r.pos + 256 - n) % 256 = r.pos - n := by omega
  unfold Reader.discardBits
  rw [hp]
  refine ⟨⟨hr.bytes, ?_, hr.buf, hr.rem⟩, ?_, rfl, rfl⟩
  · show r.pos - n ≤ 64; omega
  · unfold Reader.unread
    rw [List.drop_append, toBits_length, show n - r.pos = 0 by omega, List.drop_zero]
    congr 1
    have e := toBits_drop n (r.pos - n) r.buf
    rw [show n + (r.pos - n) = r.pos by omega] at e
    exact e.symm

theorem readNarrow_spec {r : Reader} (hr : RInv r) {size : Nat} (hs : size ≤ 32)
    (hp : r.pos < 64) :
    ∃ r', r.readNarrow size =
        some (ofBits (r.unread.take size) * 2 ^ (size - min size r.unread.length),
          min size r.unread.length, r') ∧
      RInv r' ∧ r'.unread = r.unread.drop size ∧ r'.good = r.good ∧ r'.pos < 64 := by
  obtain ⟨r1, h1, h2, h3, h4, h5, h6⟩ := peek_spec hr hs (Or.inr hp)
  obtain ⟨d1, d2, d3, d4⟩ := discard_spec h2 h5
  refine ⟨_, by simp only [Reader.readNarrow, h1], d1, ?_, by rw [d3, h4], ?_⟩
  · rw [d2, h3]
    by_cases hc : size ≤ r.unread.length
    · rw [Nat.min_eq_left hc]
    · rw [List.drop_of_length_le (by omega), List.drop_of_length_le (by omega)]
  · rw [d4]
    have h7 := h2.pos
    rcases h6 with ⟨h6, h8⟩ | h6
    · omega
    · by_cases hz : min size r.unread.length = 0
      · have hz2 : r.unread.length = 0 := by omega
        have : r1.pos ≤ r1.unread.length := by unfold Reader.unread; simp
        rw [h3] at this; omega
      · omega

theorem readBits_spec {r : Reader} (hr : RInv r) (wide : Bool) {size : Nat}
    (hs : size ≤ if wide then 64 else 32) (hp : r.pos < 64) :
    ∃ r', r.readBits wide size =
        some (ofBits (r.unread.take size) * 2 ^ (size - min size r.unread.length),
          min size r.unread.length, r') ∧
      RInv r' ∧ r'.unread = r.unread.drop size ∧ r'.good = r.good ∧ r'.pos < 64 := by
  cases wide with
  | false =>
    simp only [Bool.false_eq_true, if_false] at hs
    simpa [Reader.readBits] using readNarrow_spec hr hs hp
  | true =>
    simp only [if_true] at hs
    simp only [Reader.readBits, if_true, Reader.readWide]
    obtain ⟨r1, h1, i1, u1, g1, p1⟩ := readNarrow_spec hr (size := size / 2) (by omega) hp
    obtain ⟨r2, h2, i2, u2, g2, p2⟩ := readNarrow_spec i1 (size := size - size / 2) (by omega) p1
    simp only [h1, h2]
    refine ⟨r2, ?_, i2, ?_, by rw [g2, g1], p2⟩
    · rw [u1, List.length_drop]
      generalize r.unread = U
      have hlen : min (size / 2) U.length + min (size - size / 2) (U.length - size / 2) =
          min size U.length := by omega
      refine congrArg some (Prod.ext ?_ (Prod.ext hlen rfl))
      show (ofBits (U.take (size / 2)) * 2 ^ (size / 2 - min (size / 2) U.length)) <<<
          (size - size / 2) |||
        ofBits ((U.drop (size / 2)).take (size - size / 2)) *
          2 ^ (size - size / 2 - min (size - size / 2) (U.length - size / 2)) =
        ofBits (U.take size) * 2 ^ (size - min size U.length)
      generalize hH : U.take (size / 2) = H
      generalize hL : (U.drop (size / 2)).take (size - size / 2) = L
      have hU : U.take size = H ++ L := by
        have e := List.take_append_drop (size / 2) (U.take size)
        rw [List.take_take, List.drop_take] at e
        rw [show min (size / 2) size = size / 2 by omega, hH, hL] at e
        exact e.symm
      have hHl : H.length = min (size / 2) U.length := by rw [← hH, List.length_take]
      have hLl : L.length = min (size - size / 2) (U.length - size / 2) := by
        rw [← hL, List.length_take, List.length_drop]
      have hLlt := ofBits_lt L
      have hpw : 2 ^ (size - size / 2) = 2 ^ L.length * 2 ^ (size - size / 2 - L.length) := by
        rw [← Nat.pow_add]; congr 1; omega
      have hlow : ofBits L * 2 ^ (size - size / 2 - L.length) < 2 ^ (size - size / 2) := by
        rw [hpw]; exact Nat.mul_lt_mul_of_pos_right hLlt (Nat.two_pow_pos _)
      rw [← hLl, ← hHl, Nat.shiftLeft_eq, or_eq_add (Nat.mul_mod_left _ _) hlow, hU, ofBits_append]
      by_cases hfull : size / 2 ≤ U.length
      · have e1 : size / 2 - H.length = 0 := by omega
        have e2 : size - min size U.length = size - size / 2 - L.length := by omega
        rw [e1, e2, Nat.pow_zero, Nat.mul_one, Nat.add_mul, Nat.mul_assoc, ← hpw]
      · have e1 : L = [] := List.length_eq_zero_iff.1 (by omega)
        subst e1
        simp only [ofBits, List.length_nil, Nat.pow_zero, Nat.mul_one, Nat.add_zero, Nat.zero_mul]
        rw [Nat.mul_assoc, ← Nat.pow_add]
        congr 2; omega
    · rw [u2, u1, List.drop_drop]; congr 1; omega

theorem readAll_spec {reqs : List (Bool × Nat)} : ∀ {r : Reader}, RInv r → r.pos < 64 →
    (∀ q ∈ reqs, q.2 ≤ if q.1 then 64 else 32) →
    ∃ r', r.readAll reqs = some (expected r.unread reqs, r') ∧ RInv r' ∧ r'.pos < 64 ∧
      r'.good = r.good ∧ r'.unread = r.unread.drop (reqs.map (·.2)).sum := by
  induction reqs with
  | nil => intro r hr hp _; exact ⟨r, rfl, hr, hp, rfl, by simp⟩
  | cons q rest ih =>
    intro r hr hp hq
    obtain ⟨wide, size⟩ := q
    obtain ⟨r1, h1, i1, u1, g1, p1⟩ :=
      readBits_spec hr wide (size := size) (hq (wide, size) (by simp)) hp
    obtain ⟨r2, h2, i2, p2, g2, u2⟩ := ih i1 p1 (fun q hq' => hq q (by simp [hq']))
    refine ⟨r2, ?_, i2, p2, by rw [g2, g1], ?_⟩
    · simp only [Reader.readAll, h1, h2, expected, u1]
    · rw [u2, u1, List.drop_drop]; simp

theorem RInv_init {bytes : List Nat} (h : ∀ b ∈ bytes, b < 256) : RInv (Reader.init bytes) := by
  cases bytes with
  | nil => exact ⟨by simp [Reader.init], by simp [Reader.init], by simp [Reader.init],
      by simp [Reader.init]⟩
  | cons x xs =>
    refine ⟨fun b hb => h b (by simp [Reader.init] at hb; simp [hb]), by simp [Reader.init],
      by simp [Reader.init], ?_⟩
    show x % 8 < 8; omega

end Verif.BitStream
