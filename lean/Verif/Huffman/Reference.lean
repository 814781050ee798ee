import Verif.Huffman.Overflow
import Verif.Huffman.Accept

/-!
# C149: what the Huffman decoder answers, on every stream

A reference decoder that works on the bits of the stream, without buffer, code arithmetic or loops over the table: a table of codes is
the list of its slots one after the other. The theorems say that `decode_binary` (model: `Verif/Huffman/Model.lean`) gives its answer on
every byte string, including refusals and undefined behaviour.
-/

namespace Verif.Huffman.Reference

open Verif.Bits Verif.BitStream Verif.Huffman

/-! ## Specification -/

/-- The number in the first `n` bits, and the other bits. -/
def number (n : Nat) (bits : List Bool) : Option (Nat × List Bool) :=
  if n ≤ bits.length then some (ofBits (bits.take n), bits.drop n) else none

/-- `k` numbers of `n` bits. -/
def numbers (n : Nat) : Nat → List Bool → Option (List Nat × List Bool)
  | 0, bits => some ([], bits)
  | k + 1, bits => do
    let (v, bits) ← number n bits
    let (vs, bits) ← numbers n k bits
    return (v :: vs, bits)

/-- How many codes there are of each length, from 0 on: their lengths in order. -/
def lengths : Nat → List Nat → List Nat
  | _, [] => []
  | l, c :: cs => List.replicate c l ++ lengths (l + 1) cs

/-- A chunk's table of codes: the greatest length, and the symbols with the lengths of their codes, in the order of the codes; and the bits
after it. At most 256 symbols, lengths up to `M`. -/
def readTable (M : Nat) (bits : List Bool) : Option (Nat × List (Nat × Nat) × List Bool) := do
  let (size, bits) ← number 8 bits
  if size = 0 ∨ M + 1 < size then none
  else
    let (counts, bits) ← numbers 16 size bits
    if 256 < counts.sum then none
    else
      let (symbols, bits) ← numbers 8 counts.sum bits
      return (size - 1, symbols.zip (lengths 0 counts), bits)

/-- The slots of a table whose greatest length is `m`: a code of length `l` takes `2 ^ (m - l)`. -/
def slots (m : Nat) (book : List (Nat × Nat)) : List (Nat × Nat) := book.flatMap fun e => List.replicate (2 ^ (m - e.2)) e

/-- The next `m` bits as a number, with zeros after the end. -/
def window (m : Nat) (bits : List Bool) : Nat := ofBits ((bits ++ List.replicate m false).take m)

/-- Reading up to `n` code words: the symbols, and the bits left; `none` if a word is longer than what is left. Slots which the chunk's codes do not
take have what an earlier chunk left there, possibly a word longer than `m`; with `loose`, such a word may count as too long although there are
bits enough, because the buffer need not hold more than `m` of them. Without `loose` such words are not allowed. -/
inductive Words (loose : Prop) (table : List (Nat × Nat)) (m : Nat) : Nat → List Bool → Option (List Nat × List Bool) → Prop
  | stop {n : Nat} {bits : List Bool} : n = 0 ∨ m = 0 ∨ bits = [] → Words loose table m n bits (some ([], bits))
  | word {n s l : Nat} {bits : List Bool} {o : Option (List Nat × List Bool)} : m ≠ 0 → bits ≠ [] → table[window m bits]? = some (s, l) →
      l ≤ bits.length → l ≤ m ∨ loose → Words loose table m n (bits.drop l) o → Words loose table m (n + 1) bits (o.map fun p => (s :: p.1, p.2))
  | long {n s l : Nat} {bits : List Bool} : m ≠ 0 → bits ≠ [] → table[window m bits]? = some (s, l) →
      bits.length < l ∨ m < l ∧ loose → Words loose table m (n + 1) bits none

/-- What a decoder can answer; the first two are undefined behaviour. -/
inductive Answer
  /-- the table has more slots than there is room for -/
  | overflow
  /-- the last word is cut off -/
  | overrun
  | refused
  | decoded (out : List Nat)
deriving DecidableEq, Repr

/-- The answer when `out` was decoded before. -/
def Answer.after (out : List Nat) : Answer → Answer
  | .decoded rest => .decoded (out ++ rest)
  | a => a

/-- The chunks of a stream, each of `size` bytes (the last may be shorter): `table` are the slots left by the chunks before. -/
inductive Chunks (loose : Prop) (M size : Nat) : List (Nat × Nat) → List Bool → Answer → Prop
  | done {table : List (Nat × Nat)} : Chunks loose M size table [] (.decoded [])
  | refused {table : List (Nat × Nat)} {bits : List Bool} : bits ≠ [] → readTable M bits = none → Chunks loose M size table bits .refused
  | overflow {table : List (Nat × Nat)} {bits rest : List Bool} {m : Nat} {book : List (Nat × Nat)} : bits ≠ [] →
      readTable M bits = some (m, book, rest) → 2 ^ M < (slots m book).length → Chunks loose M size table bits .overflow
  | overrun {table : List (Nat × Nat)} {bits rest : List Bool} {m : Nat} {book : List (Nat × Nat)} : bits ≠ [] →
      readTable M bits = some (m, book, rest) → (slots m book).length ≤ 2 ^ M →
      Words loose (slots m book ++ table.drop (slots m book).length) m size rest none → Chunks loose M size table bits .overrun
  | short {table : List (Nat × Nat)} {bits rest left : List Bool} {m : Nat} {book : List (Nat × Nat)} {out : List Nat} : bits ≠ [] →
      readTable M bits = some (m, book, rest) → (slots m book).length ≤ 2 ^ M →
      Words loose (slots m book ++ table.drop (slots m book).length) m size rest (some (out, left)) → out.length ≠ size → left ≠ [] →
      Chunks loose M size table bits .refused
  | chunk {table : List (Nat × Nat)} {bits rest left : List Bool} {m : Nat} {book : List (Nat × Nat)} {out : List Nat} {a : Answer} : bits ≠ [] →
      readTable M bits = some (m, book, rest) → (slots m book).length ≤ 2 ^ M →
      Words loose (slots m book ++ table.drop (slots m book).length) m size rest (some (out, left)) → out.length = size ∨ left = [] →
      Chunks loose M size (slots m book ++ table.drop (slots m book).length) left a → Chunks loose M size table bits (a.after out)

/-- The header: version 1, the chunk size in KiB, the greatest length; and the bits after it. -/
def header (bytes : List Nat) : Option (Nat × Nat × List Bool) := do
  let (version, bits) ← number 8 (payload bytes)
  let (kb, bits) ← number 16 bits
  let (M, bits) ← number 8 bits
  if HasMagic bytes ∧ version = 1 ∧ kb ≠ 0 ∧ M ≠ 0 ∧ M < 16 then some (kb, M, bits) else none

/-- The answer to a stream. -/
def Answers (loose : Prop) (bytes : List Nat) (a : Answer) : Prop :=
  match header bytes with
  | none => a = .refused
  | some (kb, M, bits) => Chunks loose M (kb * 1024) (List.replicate (2 ^ M) (0, 0)) bits a

/-- What the model says for it. -/
def Answer.res : Answer → Res (List Nat)
  | .overflow => .fault .bounds
  | .overrun => .fault .shift
  | .refused => .fail
  | .decoded out => .ok out

/-! ## Lemmas -/

theorem read_ref {r : Reader} {U : List Bool} (hr : Rg r U) {n : Nat} (hn : n ≤ 32) (h0 : 0 < n) :
    match number n U with
    | none => readWhole r n = .fail
    | some (v, V) => ∃ r', readWhole r n = .ok (v, r') ∧ Rg r' V ∧ r'.pos < 64 := by
  obtain ⟨r1, h1, h2, h3, h4, h5, h6⟩ := peek_spec hr.inv hn (.inl h0)
  rw [hr.unread] at h1 h5
  have hpos := h2.pos
  unfold number
  by_cases hl : n ≤ U.length
  · rw [if_pos hl]
    have hm : min n U.length = n := by omega
    rw [hm] at h1 h5
    obtain ⟨d1, d2, d3, d4⟩ := discard_spec h2 h5
    refine ⟨r1.discardBits n, ?_, ⟨d1, by rw [d3, h4]; exact hr.good, by rw [d2, h3, hr.unread]⟩, by omega⟩
    simp [readWhole, Reader.readNarrow, h1]
  · rw [if_neg hl]
    have hm : min n U.length ≠ n := by omega
    simp [readWhole, Reader.readNarrow, h1, hm]

theorem number_le {n v : Nat} {U V : List Bool} (h : number n U = some (v, V)) : V.length + n = U.length := by
  unfold number at h
  split at h
  · injection h with h
    injection h with _ h
    rw [← h, List.length_drop]; omega
  · cases h

theorem counts_ref : ∀ (k : Nat) (r : Reader) (U : List Bool), Rg r U → r.pos < 64 →
    match numbers 16 k U with
    | none => decodeCounts k r = .fail
    | some (vs, V) => ∃ r', decodeCounts k r = .ok (vs, r') ∧ Rg r' V ∧ r'.pos < 64 ∧ vs.length = k
  | 0, r, U, hr, hp => ⟨r, rfl, hr, hp, rfl⟩
  | k + 1, r, U, hr, hp => by
    have h := read_ref hr (n := 16) (by omega) (by omega)
    simp only [numbers, decodeCounts]
    cases e : number 16 U with
    | none => rw [e] at h; simp only [h]; trivial
    | some p =>
      obtain ⟨v, V⟩ := p
      rw [e] at h
      obtain ⟨r1, h1, h2, h3⟩ := h
      have ih := counts_ref k r1 V h2 h3
      simp only [h1, Option.bind_eq_bind, Option.bind_some]
      cases e2 : numbers 16 k V with
      | none => rw [e2] at ih; simp only [ih]; trivial
      | some q =>
        obtain ⟨vs, W⟩ := q
        rw [e2] at ih
        obtain ⟨r2, i1, i2, i3, i4⟩ := ih
        exact ⟨r2, by rw [i1], i2, i3, by simp [i4]⟩

/-- A code as the table of the specification has it. -/
def pair (c : Code) : Nat × Nat := (c.symbol, c.length)

theorem symbolsOf_ref {length : Nat} : ∀ (n : Nat) (acc : List Code) (r : Reader) (U : List Bool), Rg r U → r.pos < 64 → acc.length ≤ 256 →
    (256 < acc.length + n → decodeSymbolsOf length n acc r = .fail) ∧
    (acc.length + n ≤ 256 → match numbers 8 n U with
      | none => decodeSymbolsOf length n acc r = .fail
      | some (vs, V) => ∃ new r', decodeSymbolsOf length n acc r = .ok (new ++ acc, r') ∧ Rg r' V ∧ r'.pos < 64 ∧ vs.length = n ∧
          new.reverse.map pair = vs.zip (List.replicate n length))
  | 0, acc, r, U, hr, hp, hl => ⟨fun h => by omega, fun _ => ⟨[], r, rfl, hr, hp, rfl, rfl⟩⟩
  | n + 1, acc, r, U, hr, hp, hl => by
    have h := read_ref hr (n := 8) (by omega) (by omega)
    simp only [numbers, decodeSymbolsOf]
    cases e : number 8 U with
    | none => rw [e] at h; simp only [h]; exact ⟨fun _ => trivial, fun _ => trivial⟩
    | some p =>
      obtain ⟨v, V⟩ := p
      rw [e] at h
      obtain ⟨r1, h1, h2, h3⟩ := h
      simp only [h1, Option.bind_eq_bind, Option.bind_some]
      by_cases hf : acc.length = 256
      · simp only [hf, if_true]
        exact ⟨fun _ => trivial, fun h => by omega⟩
      · simp only [if_neg hf]
        obtain ⟨i1, i2⟩ := symbolsOf_ref (length := length) n (⟨v, nextCode acc length, length⟩ :: acc) r1 V h2 h3 (by simp only [List.length_cons]; omega)
        refine ⟨fun h => i1 (by simp only [List.length_cons]; omega), fun h => ?_⟩
        have i3 := i2 (by simp only [List.length_cons]; omega)
        cases e2 : numbers 8 n V with
        | none => rw [e2] at i3; exact i3
        | some q =>
          obtain ⟨vs, W⟩ := q
          rw [e2] at i3
          obtain ⟨new, r2, j1, j2, j3, j4, j5⟩ := i3
          refine ⟨new ++ [⟨v, nextCode acc length, length⟩], r2, by rw [j1]; simp, j2, j3, by simp [j4], ?_⟩
          rw [List.reverse_append]
          simp [List.replicate_succ, pair, ← j5]

theorem numbers_add (n : Nat) : ∀ (j k : Nat) (U : List Bool),
    numbers n (j + k) U = (numbers n j U).bind fun p => (numbers n k p.2).map fun q => (p.1 ++ q.1, q.2)
  | 0, k, U => by simp [numbers]
  | j + 1, k, U => by
    rw [Nat.succ_add]
    simp only [numbers]
    cases number n U with
    | none => rfl
    | some p =>
      simp only [Option.bind_eq_bind, Option.bind_some]
      rw [numbers_add n j k p.2]
      cases numbers n j p.2 with
      | none => rfl
      | some q =>
        show Option.bind (Option.map _ (numbers n k q.2)) _ = Option.map _ (numbers n k q.2)
        cases numbers n k q.2 <;> rfl

theorem numbers_length {n : Nat} : ∀ {k : Nat} {U V : List Bool} {vs : List Nat}, numbers n k U = some (vs, V) → vs.length = k
  | 0, U, V, vs, h => by
    simp only [numbers, Option.some.injEq, Prod.mk.injEq] at h
    rw [← h.1]; rfl
  | k + 1, U, V, vs, h => by
    simp only [numbers] at h
    cases e : number n U with
    | none => rw [e] at h; cases h
    | some p =>
      rw [e] at h
      simp only [Option.bind_eq_bind, Option.bind_some] at h
      cases e2 : numbers n k p.2 with
      | none => rw [e2] at h; cases h
      | some q =>
        rw [e2] at h
        have := numbers_length (vs := q.1) (V := q.2) e2
        injection h with h
        injection h with h _
        rw [← h]
        simp [this]

theorem numbers_le {n : Nat} : ∀ {k : Nat} {U V : List Bool} {vs : List Nat}, numbers n k U = some (vs, V) → V.length ≤ U.length
  | 0, U, V, vs, h => by
    simp only [numbers, Option.some.injEq, Prod.mk.injEq] at h
    rw [← h.2]; exact Nat.le_refl _
  | k + 1, U, V, vs, h => by
    simp only [numbers] at h
    cases e : number n U with
    | none => rw [e] at h; cases h
    | some p =>
      rw [e] at h
      simp only [Option.bind_eq_bind, Option.bind_some] at h
      cases e2 : numbers n k p.2 with
      | none => rw [e2] at h; cases h
      | some q =>
        rw [e2] at h
        have := numbers_le (vs := q.1) (V := q.2) e2
        injection h with h
        injection h with _ h
        rw [← h]
        unfold number at e
        split at e
        · injection e with e
          rw [← e] at this
          simp at this ⊢
          omega
        · cases e

theorem allSymbols_ref : ∀ (counts : List Nat) (length : Nat) (acc : List Code) (r : Reader) (U : List Bool), Rg r U → r.pos < 64 →
    acc.length ≤ 256 →
    (256 < acc.length + counts.sum → decodeAllSymbols length counts acc r = .fail) ∧
    (acc.length + counts.sum ≤ 256 → match numbers 8 counts.sum U with
      | none => decodeAllSymbols length counts acc r = .fail
      | some (vs, V) => ∃ new r', decodeAllSymbols length counts acc r = .ok (new ++ acc, r') ∧ Rg r' V ∧ r'.pos < 64 ∧ vs.length = counts.sum ∧
          new.reverse.map pair = vs.zip (lengths length counts))
  | [], length, acc, r, U, hr, hp, hl => ⟨fun h => by simp at h; omega, fun _ => ⟨[], r, rfl, hr, hp, rfl, rfl⟩⟩
  | c :: counts, length, acc, r, U, hr, hp, hl => by
    obtain ⟨s1, s2⟩ := symbolsOf_ref (length := length) c acc r U hr hp hl
    simp only [decodeAllSymbols, List.sum_cons]
    by_cases hc : 256 < acc.length + c
    · rw [s1 hc]
      exact ⟨fun _ => rfl, fun h => by omega⟩
    · have s3 := s2 (by omega)
      rw [numbers_add]
      cases e : numbers 8 c U with
      | none => rw [e] at s3; simp only [s3, Option.bind_none]; exact ⟨fun _ => trivial, fun _ => trivial⟩
      | some p =>
        obtain ⟨vs, V⟩ := p
        rw [e] at s3
        obtain ⟨new, r1, a1, a2, a3, a4, a5⟩ := s3
        have hnl : new.length = c := by
          have := congrArg List.length a5
          simpa [a4] using this
        obtain ⟨i1, i2⟩ := allSymbols_ref counts (length + 1) (new ++ acc) r1 V a2 a3 (by rw [List.length_append]; omega)
        rw [List.length_append] at i1 i2
        simp only [a1, Option.bind_some]
        refine ⟨fun h => i1 (by omega), fun h => ?_⟩
        have i3 := i2 (by omega)
        cases e2 : numbers 8 counts.sum V with
        | none => rw [e2] at i3; exact i3
        | some q =>
          obtain ⟨ws, W⟩ := q
          rw [e2] at i3
          obtain ⟨new2, r2, b1, b2, b3, b4, b5⟩ := i3
          refine ⟨new2 ++ new, r2, by rw [b1]; simp, b2, b3, by simp [a4, b4], ?_⟩
          rw [List.reverse_append, List.map_append, a5, b5, lengths, List.zip_append (by simp [a4])]

theorem lengths_eq : ∀ (counts : List Nat) (l : Nat), lengths l counts = lengthsOf l counts
  | [], _ => rfl
  | c :: cs, l => by simp only [lengths, lengthsOf, lengths_eq cs]

theorem slots_length (m : Nat) (cs : List Code) : (slots m (cs.map pair)).length = kraft m cs := by
  induction cs with
  | nil => rfl
  | cons c cs ih =>
    rw [kraft_cons, ← ih]
    simp [slots, pair]

theorem fillCode_eq {base n : Nat} {e : Entry} {table : List Entry} (ht : table.length ≤ 65536) (h : base + n ≤ table.length) :
    fillCode base e n 0 table = .ok (table.take base ++ List.replicate n e ++ table.drop (base + n)) := by
  obtain ⟨t', h1, h2, h3, h4⟩ := fillCode_spec base e n 0 table ht (by omega)
  rw [h1]
  congr 1
  refine List.ext_getElem? fun i => ?_
  have hl1 : (table.take base).length = base := by rw [List.length_take]; omega
  by_cases ha : i < base
  · rw [h4 i (by omega), List.getElem?_append_left (by simp; omega), List.getElem?_append_left (by omega), List.getElem?_take_of_lt ha]
  · by_cases hb : i < base + n
    · rw [h3 i (by omega) (by omega), List.getElem?_append_left (by simp; omega), List.getElem?_append_right (by omega), hl1,
        List.getElem?_replicate, if_pos (by omega)]
    · rw [h4 i (by omega), List.getElem?_append_right (by simp; omega), List.getElem?_drop]
      congr 1
      simp
      omega

theorem fillTable_eq {m : Nat} : ∀ (cs : List Code) (a : Nat) (table : List Entry), table.length ≤ 65536 → Canon m a cs →
    a + kraft m cs ≤ table.length →
    fillTable m cs table = .ok (table.take a ++ slots m (cs.map pair) ++ table.drop (a + kraft m cs))
  | [], a, table, _, _, _ => by simp [fillTable, slots]
  | c :: cs, a, table, ht, hc, hk => by
    rw [kraft_cons] at hk
    obtain ⟨h1, h2⟩ := hc
    simp only [fillTable, h1]
    clear h1
    rw [fillCode_eq ht (by omega)]
    simp only
    have hq := Nat.two_pow_pos (m - c.length)
    have hmin : min a table.length = a := Nat.min_eq_left (by omega)
    have hl : (table.take a ++ List.replicate (2 ^ (m - c.length)) (c.symbol, c.length) ++ table.drop (a + 2 ^ (m - c.length))).length = table.length := by
      simp only [List.length_append, List.length_take, List.length_replicate, List.length_drop, hmin]; omega
    rw [fillTable_eq cs _ _ (by omega) h2 (by rw [hl]; omega)]
    congr 1
    have hl2 : (table.take a ++ List.replicate (2 ^ (m - c.length)) (c.symbol, c.length)).length = a + 2 ^ (m - c.length) := by
      simp only [List.length_append, List.length_take, List.length_replicate, hmin]
    rw [List.take_append_of_le_length (by omega), List.take_of_length_le (by omega), List.drop_append, hl2,
      List.drop_eq_nil_of_le (by omega), List.drop_drop, kraft_cons]
    simp only [List.nil_append, slots, List.map_cons, List.flatMap_cons, pair, List.append_assoc]
    congr 4
    omega

theorem window_eq (m : Nat) (U : List Bool) : window m U = ofBits (U.take m) * 2 ^ (m - min m U.length) := by
  unfold window
  by_cases h : m ≤ U.length
  · rw [List.take_append_of_le_length h, show m - min m U.length = 0 by omega, Nat.pow_zero, Nat.mul_one]
  · have hz : ∀ k, ofBits (List.replicate k false) = 0 := by
      intro k
      induction k with
      | zero => rfl
      | succ k ih =>
        rw [List.replicate_succ']
        rw [ofBits_append, ih]
        rfl
    rw [List.take_append, List.take_of_length_le (show U.length ≤ m by omega), List.take_replicate, ofBits_append, hz, List.length_replicate, show min (m - U.length) m = m - min m U.length by omega, Nat.add_zero]

theorem codes_ref {M : Nat} (hM : M ≤ 15) {table : List Entry} {r : Reader} {U : List Bool} (hr : Rg r U) (ht : table.length = 2 ^ M) :
    match readTable M U with
    | none => decodeCodes M table r = .fail
    | some (m, book, V) => m ≤ M ∧ V.length + 8 ≤ U.length ∧ (∀ e ∈ book, e.2 ≤ m) ∧
        (2 ^ M < (slots m book).length → decodeCodes M table r = .fault .bounds) ∧
        ((slots m book).length ≤ 2 ^ M → ∃ r', decodeCodes M table r = .ok (m, slots m book ++ table.drop (slots m book).length, r') ∧ Rg r' V ∧
          r'.pos < 64) := by
  have h := read_ref hr (n := 8) (by omega) (by omega)
  unfold readTable decodeCodes
  cases e : number 8 U with
  | none => rw [e] at h; simp only [h]; trivial
  | some p =>
    obtain ⟨size, V⟩ := p
    rw [e] at h
    have hV : V.length + 8 ≤ U.length := by
      unfold number at e
      split at e
      · injection e with e
        injection e with _ e
        rw [← e, List.length_drop]; omega
      · cases e
    obtain ⟨r1, h1, h2, h3⟩ := h
    simp only [h1, Option.bind_eq_bind, Option.bind_some]
    by_cases hs : size = 0 ∨ M + 1 < size
    · have hs' : size = 0 ∨ size > M + 1 := hs
      rw [if_pos hs, if_pos hs']
    · have hs' : ¬ (size = 0 ∨ size > M + 1) := hs
      simp only [if_neg hs, if_neg hs']
      have hc := counts_ref size r1 V h2 h3
      cases e2 : numbers 16 size V with
      | none => rw [e2] at hc; simp only [hc]; trivial
      | some p =>
        obtain ⟨counts, W⟩ := p
        rw [e2] at hc
        obtain ⟨r2, c1, c2, c3, c4⟩ := hc
        have hW : W.length ≤ V.length := numbers_le e2
        simp only [c1, Option.bind_some]
        obtain ⟨s1, s2⟩ := allSymbols_ref counts 0 [] r2 W c2 c3 (by simp)
        simp only [List.length_nil, Nat.zero_add] at s1 s2
        by_cases hsum : 256 < counts.sum
        · rw [if_pos hsum, s1 hsum]
        · rw [if_neg hsum]
          have s3 := s2 (by omega)
          cases e3 : numbers 8 counts.sum W with
          | none => rw [e3] at s3; simp only [s3]; trivial
          | some p =>
            obtain ⟨vs, X⟩ := p
            rw [e3] at s3
            obtain ⟨new, r3, d1, d2, d3, d4, d5⟩ := s3
            have hX : X.length ≤ W.length := numbers_le e3
            rw [List.append_nil] at d1
            have hne : counts ≠ [] := by intro e; rw [e] at c4; simp at c4; omega
            obtain ⟨_, new', f1, f2, f3⟩ := allSymbols_shape counts 0 [] r2 new r3 d1 (by simp)
            rw [List.append_nil] at f1
            subst f1
            have hle : ∀ c ∈ new.reverse, c.length ≤ size - 1 := by
              intro c hc
              have : c.length ∈ lengthsOf 0 counts := by rw [← f2]; exact List.mem_map_of_mem hc
              have := lengthsOf_ge counts 0 _ this
              omega
            have hkr : kraft (size - 1) new.reverse = countsKraft (size - 1) 0 counts := by
              rw [← lengthsOf_kraft, ← f2]
              simp only [kraft, List.map_map, Function.comp_def]
            have hasc : Asc new.reverse := by
              have := lengthsOf_asc counts 0
              rw [← f2, List.pairwise_map] at this
              exact this
            have hpM : 2 ^ M ≤ 32768 := by have := pow_M hM 0; simpa using this
            have hex := prefix_table_exact M hM counts hne (by omega) new r2 r3 d1 table ht
            rw [c4, ← hkr] at hex
            simp only [d1, Option.bind_some]
            show size - 1 ≤ M ∧ _
            rw [← d5, slots_length]
            refine ⟨by omega, by omega, ?_, fun hk => ?_, fun hk => ?_⟩
            · intro x hx
              obtain ⟨c, hc, rfl⟩ := List.mem_map.mp hx
              exact hle c hc
            · rw [hex.1.mpr hk]
            · have hcan := chain_canon (m := size - 1) new.reverse [] 0 hle hasc f3 (by omega) rfl
              have hf := fillTable_eq new.reverse 0 table (by omega) hcan (by omega)
              rw [hf]
              simp only [List.take_zero, List.nil_append, Nat.zero_add]
              exact ⟨r3, rfl, d2, d3⟩

theorem loop_ref {M m : Nat} (hM : M ≤ 15) (hm : m ≤ M) {table : List Entry} (ht : table.length = 2 ^ M) (hb : ∀ e ∈ table, e.2 ≤ M) :
    ∀ (n : Nat) (r : Reader) (U : List Bool), Rg r U → (0 < m ∨ r.pos < 64) →
    ∃ o, Words True table m n U o ∧ (∀ o', Words False table m n U o' → o' = o) ∧
      match o with
      | none => decodeLoop m table n r = .fault .shift ∨ ∃ out r', decodeLoop m table n r = .ok (out, r') ∧ out.length = n ∧ Wrapped r'
      | some (out, V) => ∃ r', decodeLoop m table n r = .ok (out, r') ∧ Rg r' V ∧ V.length ≤ U.length
  | 0, r, U, hr, _ => by
    refine ⟨some ([], U), .stop (.inl rfl), fun o' h => ?_, r, rfl, hr, Nat.le_refl _⟩
    cases h with
    | stop => rfl
  | n + 1, r, U, hr, hp => by
    obtain ⟨r1, h1, h2, h3, h4, h5, h6⟩ := peek_spec hr.inv (size := m) (by omega) hp
    rw [hr.unread] at h1 h5
    have hr1 : Rg r1 U := ⟨h2, by rw [h4]; exact hr.good, by rw [h3, hr.unread]⟩
    have hpos := h2.pos
    simp only [decodeLoop, h1]
    by_cases hz : m = 0 ∨ U = []
    · have hz' : min m U.length = 0 := by
        rcases hz with hz | hz <;> rw [hz] <;> simp
      simp only [hz', if_true]
      refine ⟨some ([], U), .stop (.inr hz), fun o' h => ?_, r1, rfl, hr1, Nat.le_refl _⟩
      cases h with
      | stop => rfl
      | word a b => rcases hz with hz | hz <;> contradiction
      | long a b => rcases hz with hz | hz <;> contradiction
    · have hm0 : m ≠ 0 := fun e => hz (.inl e)
      have hU0 : U ≠ [] := fun e => hz (.inr e)
      have hUl := List.length_pos_iff.mpr hU0
      have hz' : min m U.length ≠ 0 := by omega
      rw [if_neg hz', ← window_eq]
      have hw : window m U < table.length := by
        rw [ht]
        have h7 := ofBits_lt ((U ++ List.replicate m false).take m)
        have h8 : ((U ++ List.replicate m false).take m).length = m := by simp
        rw [h8] at h7
        exact Nat.lt_of_lt_of_le h7 (Nat.pow_le_pow_right (by omega) hm)
      obtain ⟨⟨s, l⟩, he⟩ : ∃ e, table[window m U]? = some e := ⟨_, List.getElem?_eq_getElem hw⟩
      have hl : l ≤ M := hb _ (List.mem_of_getElem? he)
      rw [he]
      simp only
      have hpU : r1.pos ≤ U.length := by
        rw [← hr1.unread]; unfold Reader.unread; simp
      by_cases hc : l ≤ r1.pos
      · obtain ⟨d1, d2, d3, d4⟩ := discard_spec h2 hc
        have hr2 : Rg (r1.discardBits l) (U.drop l) := ⟨d1, by rw [d3]; exact hr1.good, by rw [d2, hr1.unread]⟩
        obtain ⟨o, i1, i2, i3⟩ := loop_ref hM hm ht hb n (r1.discardBits l) (U.drop l) hr2 (.inl (by omega))
        refine ⟨o.map fun p => (s :: p.1, p.2), .word hm0 hU0 he (by omega) (.inr trivial) i1, fun o' h => ?_, ?_⟩
        · cases h with
          | stop h => rcases h with h | h | h <;> contradiction
          | word a b c d e f =>
            rw [he] at c
            injection c with c
            injection c with c1 c2
            subst c1; subst c2
            rw [i2 _ f]
          | long a b c d =>
            rw [he] at c
            injection c with c
            injection c with c1 c2
            subst c1; subst c2
            rcases d with d | ⟨_, d⟩
            · omega
            · exact d.elim
        · cases o with
          | none =>
            simp only [Option.map_none]
            rcases i3 with i3 | ⟨out, r', i3, i4, i5⟩
            · exact .inl (by rw [i3])
            · exact .inr ⟨s :: out, r', by rw [i3], by simp [i4], i5⟩
          | some p =>
            obtain ⟨out, V⟩ := p
            obtain ⟨r', j1, j2, j3⟩ := i3
            rw [List.length_drop] at j3
            exact ⟨r', by rw [j1], j2, by show V.length ≤ U.length; omega⟩
      · have hcond : U.length < l ∨ m < l := by omega
        refine ⟨none, .long hm0 hU0 he (hcond.imp_right fun h => ⟨h, trivial⟩), fun o' h => ?_, ?_⟩
        · cases h with
          | stop h => rcases h with h | h | h <;> contradiction
          | word a b c d e f =>
            rw [he] at c
            injection c with c
            injection c with c1 c2
            subst c1; subst c2
            rcases e with e | e
            · omega
            · exact e.elim
          | long a b c d => rfl
        · have hw : Wrapped (r1.discardBits l) := by
            unfold Wrapped Reader.discardBits
            simp only
            omega
          cases n with
          | zero => exact .inr ⟨[s], _, by simp [decodeLoop], rfl, hw⟩
          | succ n => exact .inl (by simp [decodeLoop, wrapped_peek hw (size := m) (by omega)])

theorem wrapped_fault {M size fuel : Nat} {table : List Entry} {r : Reader} (hw : Wrapped r) :
    decodeChunks M size (fuel + 1) table r = .fault .shift := by
  have : r.fullyConsumed = false := by
    unfold Wrapped at hw
    simp [Reader.fullyConsumed]; intro h; omega
  simp [decodeChunks, this, decodeCodes, wrapped_read hw (size := 8) (by omega)]

theorem slots_bound {m M : Nat} {book : List (Nat × Nat)} (hm : m ≤ M) (h : ∀ e ∈ book, e.2 ≤ m) : ∀ e ∈ slots m book, e.2 ≤ M := by
  intro e he
  obtain ⟨x, hx, hx'⟩ := List.mem_flatMap.mp he
  rw [List.eq_of_mem_replicate hx']
  have := h x hx
  omega

theorem after_res (out : List Nat) (a : Answer) :
    (match a.res with
      | .fault f => .fault f
      | .fail => .fail
      | .ok out' => .ok (out ++ out')) = (a.after out).res := by
  cases a <;> rfl

theorem chunks_ref {M size : Nat} (hM : M ≤ 15) : ∀ (fuel : Nat) (table : List Entry) (r : Reader) (U : List Bool), Rg r U →
    table.length = 2 ^ M → (∀ e ∈ table, e.2 ≤ M) → U.length < 8 * fuel →
    ∃ a, Chunks True M size table U a ∧ (∀ a', Chunks False M size table U a' → a' = a) ∧ decodeChunks M size fuel table r = a.res
  | 0, table, r, U, _, _, _, hf => by omega
  | fuel + 1, table, r, U, hr, ht, hb, hf => by
    simp only [decodeChunks]
    by_cases hU : U = []
    · rw [if_pos ((rg_consumed hr).mpr hU)]
      subst hU
      refine ⟨.decoded [], .done, fun a' h => ?_, rfl⟩
      cases h with
      | done => rfl
      | refused h => exact absurd rfl h
      | overflow h => exact absurd rfl h
      | overrun h => exact absurd rfl h
      | short h => exact absurd rfl h
      | chunk h => exact absurd rfl h
    · rw [if_neg (fun h => hU ((rg_consumed hr).mp h))]
      have hc := codes_ref hM hr ht
      cases e : readTable M U with
      | none =>
        rw [e] at hc
        simp only [hc]
        refine ⟨.refused, .refused hU e, fun a' h => ?_, rfl⟩
        cases h with
        | done => exact absurd rfl hU
        | refused => rfl
        | overflow _ h => rw [e] at h; cases h
        | overrun _ h => rw [e] at h; cases h
        | short _ h => rfl
        | chunk _ h => rw [e] at h; cases h
      | some p =>
        obtain ⟨m, book, V⟩ := p
        rw [e] at hc
        obtain ⟨c1, c2, c3, c4, c5⟩ := hc
        by_cases hk : 2 ^ M < (slots m book).length
        · rw [c4 hk]
          refine ⟨.overflow, .overflow hU e hk, fun a' h => ?_, rfl⟩
          cases h with
          | done => exact absurd rfl hU
          | refused _ h => rw [e] at h; cases h
          | overflow => rfl
          | overrun _ h h' => rw [e] at h; injection h with h; injection h with h1 h2; injection h2 with h2 h3; subst h1; subst h2; omega
          | short _ h h' => rw [e] at h; injection h with h; injection h with h1 h2; injection h2 with h2 h3; subst h1; subst h2; omega
          | chunk _ h h' => rw [e] at h; injection h with h; injection h with h1 h2; injection h2 with h2 h3; subst h1; subst h2; omega
        · have hk' : (slots m book).length ≤ 2 ^ M := by omega
          obtain ⟨r1, d1, d2, d3⟩ := c5 hk'
          rw [d1]
          simp only
          have ht1 : (slots m book ++ table.drop (slots m book).length).length = 2 ^ M := by simp; omega
          have hb1 : ∀ e ∈ slots m book ++ table.drop (slots m book).length, e.2 ≤ M := by
            intro x hx
            rcases List.mem_append.mp hx with hx | hx
            · exact slots_bound c1 c3 x hx
            · exact hb x (List.mem_of_mem_drop hx)
          generalize hT : slots m book ++ table.drop (slots m book).length = T at *
          obtain ⟨o, w1, w2, w3⟩ := loop_ref hM c1 ht1 hb1 size r1 V d2 (.inr d3)
          have key : ∀ {a' : Answer}, Chunks False M size table U a' →
              a' = .overrun ∧ o = none ∨
              (∃ out left, o = some (out, left) ∧ (out.length ≠ size ∧ left ≠ [] ∧ a' = .refused ∨
                (out.length = size ∨ left = []) ∧ ∃ a, Chunks False M size T left a ∧ a' = a.after out)) := by
            intro a' h
            cases h with
            | done => exact absurd rfl hU
            | refused _ h => rw [e] at h; cases h
            | overflow _ h h' => rw [e] at h; injection h with h; injection h with h1 h2; injection h2 with h2 h3; subst h1; subst h2; omega
            | overrun _ h h' w =>
              rw [e] at h; injection h with h; injection h with h1 h2; injection h2 with h2 h3; subst h1; subst h2; subst h3
              rw [hT] at w
              exact .inl ⟨rfl, (w2 _ w).symm⟩
            | short _ h h' w x y =>
              rw [e] at h; injection h with h; injection h with h1 h2; injection h2 with h2 h3; subst h1; subst h2; subst h3
              rw [hT] at w
              exact .inr ⟨_, _, (w2 _ w).symm, .inl ⟨x, y, rfl⟩⟩
            | chunk _ h h' w x y =>
              rw [e] at h; injection h with h; injection h with h1 h2; injection h2 with h2 h3; subst h1; subst h2; subst h3
              rw [hT] at w y
              exact .inr ⟨_, _, (w2 _ w).symm, .inr ⟨x, _, y, rfl⟩⟩
          cases o with
          | none =>
            refine ⟨.overrun, .overrun hU e hk' (by rw [hT]; exact w1), fun a' h => ?_, ?_⟩
            · rcases key h with ⟨h, _⟩ | ⟨_, _, h, _⟩
              · exact h
              · cases h
            · simp only [decodeSymbols]
              rcases w3 with w3 | ⟨out, r', w3, w4, w5⟩
              · rw [w3]; rfl
              · rw [w3]
                simp only [w4, true_or, if_true]
                cases fuel with
                | zero => omega
                | succ fuel => rw [wrapped_fault w5]; rfl
          | some p =>
            obtain ⟨out, left⟩ := p
            obtain ⟨r2, x1, x2, x3⟩ := w3
            simp only [decodeSymbols, x1]
            by_cases hq : out.length = size ∨ left = []
            · have hq' : out.length = size ∨ r2.fullyConsumed = true := hq.imp_right (rg_consumed x2).mpr
              rw [if_pos hq']
              simp only
              obtain ⟨a, i1, i2, i3⟩ := chunks_ref (size := size) hM fuel T r2 left x2 ht1 hb1 (by omega)
              refine ⟨a.after out, .chunk hU e hk' (by rw [hT]; exact w1) hq (by rw [hT]; exact i1), fun a' h => ?_, ?_⟩
              · rcases key h with ⟨_, h⟩ | ⟨out', left', h, h'⟩
                · cases h
                · injection h with h
                  injection h with h1 h2
                  subst h1; subst h2
                  rcases h' with ⟨y1, y2, _⟩ | ⟨_, a1, y, rfl⟩
                  · rcases hq with hq | hq <;> contradiction
                  · rw [i2 _ y]
              · rw [i3]
                exact after_res out a
            · have hq' : ¬ (out.length = size ∨ r2.fullyConsumed = true) := fun h => hq (h.imp_right (rg_consumed x2).mp)
              rw [if_neg hq']
              refine ⟨.refused, .short hU e hk' (by rw [hT]; exact w1) (fun h => hq (.inl h)) (fun h => hq (.inr h)), fun a' h => ?_, rfl⟩
              rcases key h with ⟨_, h⟩ | ⟨out', left', h, h'⟩
              · cases h
              · injection h with h
                injection h with h1 h2
                subst h1; subst h2
                rcases h' with ⟨_, _, y⟩ | ⟨y, _⟩
                · exact y
                · exact absurd y hq

theorem header_ref (bytes : List Nat) (hb : ∀ b ∈ bytes, b < 256) :
    match header bytes with
    | none => decodeHeader (Reader.init bytes) = .fail
    | some (kb, M, V) => M ≤ 15 ∧ V.length + 8 ≤ 8 * bytes.length ∧
        ∃ r, decodeHeader (Reader.init bytes) = .ok (kb * 1024, M, r) ∧ Rg r V := by
  have hinv := RInv_init hb
  have hpl : (payload bytes).length + 8 ≤ 8 * bytes.length ∨ bytes = [] := by
    cases bytes with
    | nil => exact .inr rfl
    | cons x body =>
      left
      simp only [payload, List.length_take, List.length_cons]
      omega
  by_cases hg : (Reader.init bytes).good = true
  · have hm : HasMagic bytes := by
      cases bytes with
      | nil => simp [Reader.init] at hg
      | cons x body =>
        simp only [Reader.init, magic, Nat.shiftRight_eq_div_pow] at hg
        simpa [HasMagic] using hg
    have hun : (Reader.init bytes).unread = payload bytes := by
      cases bytes with
      | nil => simp [Reader.init] at hg
      | cons x body =>
        unfold Reader.unread
        rw [if_pos hg]
        simp [Reader.init, payload, toBits]
    have hbl : (payload bytes).length + 8 ≤ 8 * bytes.length := by
      rcases hpl with h | h
      · exact h
      · rw [h] at hm; exact hm.elim
    have h0 : Rg (Reader.init bytes) (payload bytes) := ⟨hinv, hg, hun⟩
    unfold header decodeHeader
    have h1 := read_ref h0 (n := 8) (by omega) (by omega)
    cases e1 : number 8 (payload bytes) with
    | none => rw [e1] at h1; simp only [h1]; trivial
    | some p =>
      obtain ⟨v, V1⟩ := p
      rw [e1] at h1
      obtain ⟨r1, a1, a2, a3⟩ := h1
      simp only [a1, Option.bind_eq_bind, Option.bind_some]
      have h2 := read_ref a2 (n := 16) (by omega) (by omega)
      cases e2 : number 16 V1 with
      | none => rw [e2] at h2; simp only [h2, Option.bind_none]; split <;> rfl
      | some p =>
        obtain ⟨kb, V2⟩ := p
        rw [e2] at h2
        obtain ⟨r2, b1, b2, b3⟩ := h2
        simp only [b1, Option.bind_some]
        have h3 := read_ref b2 (n := 8) (by omega) (by omega)
        cases e3 : number 8 V2 with
        | none => rw [e3] at h3; simp only [h3, Option.bind_none]; (repeat' split) <;> rfl
        | some p =>
          obtain ⟨M, V3⟩ := p
          rw [e3] at h3
          obtain ⟨r3, c1, c2, c3⟩ := h3
          simp only [c1, Option.bind_some]
          have l1 := number_le e1
          have l2 := number_le e2
          have l3 := number_le e3
          by_cases hv : v = 1
          · by_cases hkb : kb = 0
            · rw [if_neg (fun h => h.2.2.1 hkb), if_neg (fun h => h hv), if_pos hkb]
            · by_cases hM : M = 0 ∨ M ≥ 16
              · rw [if_neg (fun h => by omega), if_neg (fun h => h hv), if_neg hkb, if_pos hM]
              · rw [if_pos ⟨hm, hv, hkb, by omega⟩, if_neg (fun h => h hv), if_neg hkb, if_neg hM]
                exact ⟨by omega, by omega, r3, rfl, c2⟩
          · rw [if_neg (fun h => hv h.2.1), if_pos hv]
  · have hg' : (Reader.init bytes).good = false := by simpa using hg
    have hm : ¬ HasMagic bytes := by
      intro hm
      apply hg
      cases bytes with
      | nil => exact hm.elim
      | cons x body =>
        simp only [Reader.init, magic, Nat.shiftRight_eq_div_pow]
        simpa [HasMagic] using hm
    have hh : header bytes = none := by
      unfold header
      cases number 8 (payload bytes) with
      | none => rfl
      | some p =>
        simp only [Option.bind_eq_bind, Option.bind_some]
        cases number 16 p.2 with
        | none => rfl
        | some p =>
          simp only [Option.bind_some]
          cases number 8 p.2 with
          | none => rfl
          | some p => simp only [Option.bind_some]; rw [if_neg (fun h => hm h.1)]
    rw [hh]
    have h0 : (Reader.init bytes).unread = [] := by
      cases bytes with
      | nil => rfl
      | cons x body => simp [Reader.unread, hg']; simp [Reader.init, toBits]
    obtain ⟨r1, h1, -⟩ := peek_spec hinv (size := 8) (by omega) (.inl (by omega))
    rw [h0] at h1
    simp [decodeHeader, readWhole, Reader.readNarrow, h1]

/-! ## Theorems -/

/-- **C149.** On every byte string the decoder gives an answer of the reference decoder: what it decodes, that it refuses the stream, or which
undefined behaviour it has. If the reference answer does not need words longer than a chunk's own greatest length (left in the table by an
earlier chunk), it is the only one. -/
theorem decoder_is_reference (bytes : List Nat) (hb : ∀ b ∈ bytes, b < 256) :
    (∃ a, Answers True bytes a ∧ decode bytes = a.res) ∧ (∀ a, Answers False bytes a → decode bytes = a.res) := by
  have hh := header_ref bytes hb
  unfold Answers decode
  cases e : header bytes with
  | none =>
    rw [e] at hh
    simp only [hh]
    exact ⟨⟨.refused, rfl, rfl⟩, fun a h => by rw [h]; rfl⟩
  | some p =>
    obtain ⟨kb, M, V⟩ := p
    rw [e] at hh
    obtain ⟨h1, h2, r, h3, h4⟩ := hh
    simp only [h3]
    obtain ⟨a, a1, a2, a3⟩ := chunks_ref (size := kb * 1024) h1 (bytes.length + 1) (List.replicate (2 ^ M) (0, 0)) r V h4 (by simp)
      (fun e he => by rw [List.eq_of_mem_replicate he]; simp) (by omega)
    exact ⟨⟨a, a1, a3⟩, fun a' h => by rw [a2 a' h]; exact a3⟩

/-- The stream of C84's example: one chunk, codes 0 and 1 for A and B. -/
example : Answers False [0xd4, 1, 0, 1, 1, 2, 0, 0, 0, 2, 65, 66, 0x60] (.decoded [65, 66, 66, 65]) := by
  have hh : header [0xd4, 1, 0, 1, 1, 2, 0, 0, 0, 2, 65, 66, 0x60] = some (1, 1, bytesBits [2, 0, 0, 0, 2, 65, 66] ++ [false, true, true, false]) := by
    decide +kernel
  have ht : readTable 1 (bytesBits [2, 0, 0, 0, 2, 65, 66] ++ [false, true, true, false]) = some (1, [(65, 1), (66, 1)], [false, true, true, false]) := by
    decide +kernel
  unfold Answers
  rw [hh]
  refine Chunks.chunk (out := [65, 66, 66, 65]) (left := []) (a := .decoded []) (by decide) ht (by decide) ?_ (.inr rfl) .done
  refine .word (s := 65) (l := 1) (o := some ([66, 66, 65], [])) (by decide) (by decide) (by decide) (by decide) (.inl (by decide)) ?_
  refine .word (s := 66) (l := 1) (o := some ([66, 65], [])) (by decide) (by decide) (by decide) (by decide) (.inl (by decide)) ?_
  refine .word (s := 66) (l := 1) (o := some ([65], [])) (by decide) (by decide) (by decide) (by decide) (.inl (by decide)) ?_
  refine .word (s := 65) (l := 1) (o := some ([], [])) (by decide) (by decide) (by decide) (by decide) (.inl (by decide)) ?_
  exact .stop (.inr (.inr rfl))

/-- The two hostile streams of `huffman_decoder_safe_violated`: three codes of length one, and a word cut off. -/
example : Answers False [0xd0, 1, 0, 1, 1, 2, 0, 0, 0, 3, 65, 66, 67] .overflow ∧
    Answers False [0xd7, 1, 0, 1, 2, 3, 0, 0, 0, 0, 0, 1, 65, 0] .overrun := by
  have h1 : header [0xd0, 1, 0, 1, 1, 2, 0, 0, 0, 3, 65, 66, 67] = some (1, 1, bytesBits [2, 0, 0, 0, 3, 65, 66, 67]) := by decide +kernel
  have t1 : readTable 1 (bytesBits [2, 0, 0, 0, 3, 65, 66, 67]) = some (1, [(65, 1), (66, 1), (67, 1)], []) := by decide +kernel
  have h2 : header [0xd7, 1, 0, 1, 2, 3, 0, 0, 0, 0, 0, 1, 65, 0] = some (1, 2, bytesBits [3, 0, 0, 0, 0, 0, 1, 65] ++ [false]) := by decide +kernel
  have t2 : readTable 2 (bytesBits [3, 0, 0, 0, 0, 0, 1, 65] ++ [false]) = some (2, [(65, 2)], [false]) := by decide +kernel
  unfold Answers
  rw [h1, h2]
  refine ⟨.overflow (by decide) t1 (by decide), .overrun (by decide) t2 (by decide) ?_⟩
  exact .long (n := 1023) (s := 65) (l := 2) (by decide) (by decide) (by decide) (.inl (by decide))

end Verif.Huffman.Reference
