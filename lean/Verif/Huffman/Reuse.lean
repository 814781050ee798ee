import Verif.Huffman.Props
import Verif.Huffman.Accept

/-!
# A Huffman decoder as an object that is used again

`HuffmanDecoder` keeps `m_huffman_codes`, `m_huffman_codes_size` and `m_max_code_length` between calls (and shows
them through `compute_kraft_mcmillan_constant`), huffman_decoder.hpp 118-128. The prefix table and the chunk buffer
are made anew in every call. The functions here are those of `Verif.Huffman.Model` with the object's state written
out, whatever earlier calls left in it.
-/

namespace Verif.Huffman
open Verif.Bits Verif.BitStream

/-- The members that survive a call, huffman_decoder.hpp 120-123: all 256 cells of `m_huffman_codes`, the number of
cells in use, and the maximum code length. -/
structure Dec where
  codes : List Code
  size : Nat
  maxLen : Nat
  deriving DecidableEq, Repr

/-- `HuffmanDecoder::HuffmanDecoder`, huffman_decoder.cpp 14-18, with the cells made by `HuffmanCode`'s default
constructor (types.cpp 54-59). -/
def Dec.fresh : Dec := ⟨List.replicate 256 ⟨0, 0, 0⟩, 0, 0⟩

/-- The cells in use. -/
def Dec.book (d : Dec) : List Code := d.codes.take d.size

/-- `compute_kraft_mcmillan_constant`, huffman_decoder.cpp 21-31. `none`: a shift by a negative amount. -/
def Dec.kraftConstant (d : Dec) : Option Nat :=
  d.book.foldl (fun k c => k.bind fun k =>
    if d.maxLen < c.length then none else some ((k + 2 ^ (d.maxLen - c.length)) % 65536)) (some 0)

/-- The code of the next symbol, from the last cell in use, huffman_decoder.cpp 183-194. -/
def Dec.nextCode (d : Dec) (length : Nat) : Nat :=
  if d.size = 0 then 0
  else
    let last := d.codes.getD (d.size - 1) ⟨0, 0, 0⟩
    ((last.code + 1) * 2 ^ (length - last.length)) % 65536

/-- `m_huffman_codes[m_huffman_codes_size++] = …`, huffman_decoder.cpp 202-203. -/
def Dec.push (d : Dec) (c : Code) : Dec := { d with codes := d.codes.set d.size c, size := d.size + 1 }

/-- The symbols of one length, huffman_decoder.cpp 173-204. -/
def Dec.symbolsOf (length : Nat) : Nat → Dec → Reader → Dec × Res Reader
  | 0, d, r => (d, .ok r)
  | n + 1, d, r =>
    match readWhole r 8 with
    | .fault f => (d, .fault f)
    | .fail => (d, .fail)
    | .ok (symbol, r) =>
      if d.size = d.codes.length then (d, .fail)
      else Dec.symbolsOf length n (d.push ⟨symbol, d.nextCode length, length⟩) r

/-- The symbols of all lengths, huffman_decoder.cpp 170-205. -/
def Dec.allSymbols (length : Nat) : List Nat → Dec → Reader → Dec × Res Reader
  | [], d, r => (d, .ok r)
  | c :: cs, d, r =>
    match Dec.symbolsOf length c d r with
    | (d, .fault f) => (d, .fault f)
    | (d, .fail) => (d, .fail)
    | (d, .ok r) => Dec.allSymbols (length + 1) cs d r

/-- `decode_codes`, huffman_decoder.cpp 136-209; the size is reset first, line 138. -/
def Dec.decodeCodes (d : Dec) (table : List Entry) (r : Reader) : Dec × Res (Nat × List Entry × Reader) :=
  let d := { d with size := 0 }
  match readWhole r 8 with
  | .fault f => (d, .fault f)
  | .fail => (d, .fail)
  | .ok (size, r) =>
    if size = 0 ∨ size > d.maxLen + 1 then (d, .fail)
    else
      match decodeCounts size r with
      | .fault f => (d, .fault f)
      | .fail => (d, .fail)
      | .ok (counts, r) =>
        match Dec.allSymbols 0 counts d r with
        | (d, .fault f) => (d, .fault f)
        | (d, .fail) => (d, .fail)
        | (d, .ok r) =>
          match fillTable (size - 1) d.book table with
          | .fault f => (d, .fault f)
          | .fail => (d, .fail)
          | .ok table => (d, .ok (size - 1, table, r))

/-- The loop of `decode_binary`, huffman_decoder.cpp 47-64. -/
def Dec.decodeChunks (chunkSize : Nat) : Nat → Dec → List Entry → Reader → Dec × Res (List Nat)
  | 0, d, _, _ => (d, .fault .fuel)
  | n + 1, d, table, r =>
    if r.fullyConsumed then (d, .ok [])
    else
      match d.decodeCodes table r with
      | (d, .fault f) => (d, .fault f)
      | (d, .fail) => (d, .fail)
      | (d, .ok (maxLen, table, r)) =>
        match decodeSymbols maxLen chunkSize table r with
        | .fault f => (d, .fault f)
        | .fail => (d, .fail)
        | .ok (out, r) =>
          match Dec.decodeChunks chunkSize n d table r with
          | (d, .fault f) => (d, .fault f)
          | (d, .fail) => (d, .fail)
          | (d, .ok out') => (d, .ok (out ++ out'))

/-- `decode_binary` on an object, huffman_decoder.cpp 34-67: a rejected header leaves the object as it was (the
maximum code length is stored last, line 130); the table is made anew, line 45. -/
def Dec.decode (d : Dec) (bytes : List Nat) : Dec × Res (List Nat) :=
  match decodeHeader (Reader.init bytes) with
  | .fault f => (d, .fault f)
  | .fail => (d, .fail)
  | .ok (chunkSize, M, r) =>
    Dec.decodeChunks chunkSize (bytes.length + 1) { d with maxLen := M } (List.replicate (2 ^ M) (0, 0)) r

/-- One decoder used for a list of streams: the object afterwards and the answers. -/
def Dec.run : Dec → List (List Nat) → Dec × List (Res (List Nat))
  | d, [] => (d, [])
  | d, b :: bs =>
    let p := d.decode b
    let q := Dec.run p.1 bs
    (q.1, p.2 :: q.2)

/-! ### The object and the function agree -/

/-- The array has its 256 cells and no more are in use. -/
structure Dec.Sound (d : Dec) : Prop where
  cells : d.codes.length = 256
  size : d.size ≤ 256

theorem fresh_sound : Dec.fresh.Sound := ⟨List.length_replicate, Nat.zero_le _⟩

/-- The cells in use hold the codes `acc`, last first. -/
structure Holds (d : Dec) (acc : List Code) : Prop where
  cells : d.codes.length = 256
  size : d.size = acc.length
  le : acc.length ≤ 256
  book : d.book = acc.reverse

theorem Holds.sound {d : Dec} {acc : List Code} (h : Holds d acc) : d.Sound := ⟨h.cells, by rw [h.size]; exact h.le⟩

theorem Holds.next {d : Dec} {acc : List Code} (h : Holds d acc) (length : Nat) :
    d.nextCode length = Verif.Huffman.nextCode acc length := by
  cases acc with
  | nil => have := h.size; simp at this; simp [Dec.nextCode, Verif.Huffman.nextCode, this]
  | cons last acc =>
    have h1 := h.size
    simp only [List.length_cons] at h1
    have h2 : d.codes.getD (d.size - 1) ⟨0, 0, 0⟩ = last := by
      have hb := h.book
      unfold Dec.book at hb
      have h3 : (d.codes.take d.size)[d.size - 1]? = some last := by
        rw [hb, h1]; simp
      rw [List.getElem?_take_of_lt (by omega)] at h3
      rw [List.getD_eq_getElem?_getD, h3]; rfl
    simp only [Dec.nextCode, Verif.Huffman.nextCode, h2]
    simp [h1]

theorem Holds.push {d : Dec} {acc : List Code} (h : Holds d acc) (hl : acc.length < 256) (c : Code) :
    Holds (d.push c) (c :: acc) := by
  refine ⟨by simp [Dec.push, h.cells], by simp [Dec.push, h.size], by simp; omega, ?_⟩
  have hb := h.book
  have h1 := h.size
  have h2 := h.cells
  unfold Dec.book at hb ⊢
  simp only [Dec.push, List.reverse_cons]
  rw [List.take_add_one, List.getElem?_set_self (by omega), List.take_set_of_le (Nat.le_refl _), hb]
  rfl

theorem symbolsOf_holds (length : Nat) : ∀ (n : Nat) (d : Dec) (acc : List Code) (r : Reader), Holds d acc →
    (Dec.symbolsOf length n d r).1.maxLen = d.maxLen ∧
    (∃ new, Holds (Dec.symbolsOf length n d r).1 (new ++ acc) ∧ ∀ c ∈ new, c.length = length) ∧
    match decodeSymbolsOf length n acc r with
    | .fault f => (Dec.symbolsOf length n d r).2 = .fault f
    | .fail => (Dec.symbolsOf length n d r).2 = .fail
    | .ok (acc', r') => (Dec.symbolsOf length n d r).2 = .ok r' ∧ Holds (Dec.symbolsOf length n d r).1 acc' := by
  intro n
  induction n with
  | zero => intro d acc r h; exact ⟨rfl, ⟨[], h, by simp⟩, rfl, h⟩
  | succ n ih =>
    intro d acc r h
    simp only [Dec.symbolsOf, decodeSymbolsOf]
    cases hr : readWhole r 8 with
    | fault f => exact ⟨rfl, ⟨[], h, by simp⟩, rfl⟩
    | fail => exact ⟨rfl, ⟨[], h, by simp⟩, rfl⟩
    | ok x =>
      obtain ⟨s, r1⟩ := x
      simp only
      have h1 := h.size
      have h2 := h.cells
      by_cases hc : acc.length = 256
      · have : d.size = d.codes.length := by omega
        rw [if_pos this, if_pos hc]
        exact ⟨rfl, ⟨[], h, by simp⟩, rfl⟩
      · have : ¬ d.size = d.codes.length := by omega
        rw [if_neg this, if_neg hc, h.next length]
        have hp := h.push (by have := h.le; omega) ⟨s, Verif.Huffman.nextCode acc length, length⟩
        obtain ⟨a, ⟨new, b1, b2⟩, c⟩ := ih _ _ r1 hp
        refine ⟨a, ⟨new ++ [⟨s, Verif.Huffman.nextCode acc length, length⟩], by simpa using b1, ?_⟩, c⟩
        intro x hx
        rcases List.mem_append.mp hx with hx | hx
        · exact b2 x hx
        · simp at hx; subst hx; rfl

theorem allSymbols_holds : ∀ (cs : List Nat) (length : Nat) (d : Dec) (acc : List Code) (r : Reader), Holds d acc →
    (Dec.allSymbols length cs d r).1.maxLen = d.maxLen ∧
    (∃ new, Holds (Dec.allSymbols length cs d r).1 (new ++ acc) ∧ ∀ c ∈ new, c.length < length + cs.length) ∧
    match decodeAllSymbols length cs acc r with
    | .fault f => (Dec.allSymbols length cs d r).2 = .fault f
    | .fail => (Dec.allSymbols length cs d r).2 = .fail
    | .ok (acc', r') => (Dec.allSymbols length cs d r).2 = .ok r' ∧ Holds (Dec.allSymbols length cs d r).1 acc' := by
  intro cs
  induction cs with
  | nil => intro length d acc r h; exact ⟨rfl, ⟨[], h, by simp⟩, rfl, h⟩
  | cons c cs ih =>
    intro length d acc r h
    obtain ⟨a, ⟨new, b1, b2⟩, e⟩ := symbolsOf_holds length c d acc r h
    simp only [Dec.allSymbols, decodeAllSymbols]
    generalize hp : Dec.symbolsOf length c d r = p at a b1 e
    obtain ⟨d1, x⟩ := p
    simp only at a b1 e
    have hnew : ∀ c ∈ new, c.length < length + (cs.length + 1) := fun c hc => by rw [b2 c hc]; omega
    cases hq : decodeSymbolsOf length c acc r with
    | fault f => rw [hq] at e; simp only at e; subst e; exact ⟨a, ⟨new, b1, by simpa using hnew⟩, rfl⟩
    | fail => rw [hq] at e; simp only at e; subst e; exact ⟨a, ⟨new, b1, by simpa using hnew⟩, rfl⟩
    | ok y =>
      obtain ⟨acc', r'⟩ := y
      rw [hq] at e
      simp only at e
      obtain ⟨e1, e2⟩ := e
      subst e1
      simp only
      have hacc : acc' = new ++ acc := by
        have h1 := b1.book; rw [e2.book] at h1
        exact List.reverse_inj.mp h1
      subst hacc
      obtain ⟨f1, ⟨new', f2, f3⟩, f4⟩ := ih (length + 1) d1 _ r' e2
      refine ⟨f1.trans a, ⟨new' ++ new, by simpa using f2, ?_⟩, f4⟩
      intro x hx
      simp only [List.length_cons]
      rcases List.mem_append.mp hx with hx | hx
      · have := f3 x hx; omega
      · exact hnew x hx

theorem decodeCounts_length : ∀ (n : Nat) (r r' : Reader) (cs : List Nat), decodeCounts n r = .ok (cs, r') → cs.length = n := by
  intro n
  induction n with
  | zero => intro r r' cs h; simp only [decodeCounts, Res.ok.injEq, Prod.mk.injEq] at h; rw [← h.1]; rfl
  | succ n ih =>
    intro r r' cs h
    simp only [decodeCounts] at h
    split at h
    · cases h
    · cases h
    · split at h
      · cases h
      · cases h
      · rename_i hh; cases h; simp [ih _ _ _ hh]

/-- All codes in use are no longer than the maximum. -/
def Dec.Short (d : Dec) : Prop := ∀ c ∈ d.book, c.length ≤ d.maxLen

theorem codes_holds (d : Dec) (hd : d.Sound) (table : List Entry) (r : Reader) :
    (d.decodeCodes table r).1.maxLen = d.maxLen ∧ (d.decodeCodes table r).1.Sound ∧ (d.decodeCodes table r).1.Short ∧
    (d.decodeCodes table r).2 = decodeCodes d.maxLen table r := by
  have h0 : Holds { d with size := 0 } [] := ⟨hd.cells, rfl, by simp, by simp [Dec.book]⟩
  have hs : ∀ (d' : Dec) , Holds d' [] → d'.Short := by
    intro d' h c hc; rw [h.book] at hc; simp at hc
  simp only [Dec.decodeCodes, decodeCodes]
  cases hr : readWhole r 8 with
  | fault f => exact ⟨rfl, h0.sound, hs _ h0, rfl⟩
  | fail => exact ⟨rfl, h0.sound, hs _ h0, rfl⟩
  | ok x =>
    obtain ⟨size, r1⟩ := x
    simp only
    by_cases hz : size = 0 ∨ size > d.maxLen + 1
    · rw [if_pos hz, if_pos hz]; exact ⟨rfl, h0.sound, hs _ h0, rfl⟩
    · rw [if_neg hz, if_neg hz]
      cases hc : decodeCounts size r1 with
      | fault f => exact ⟨rfl, h0.sound, hs _ h0, rfl⟩
      | fail => exact ⟨rfl, h0.sound, hs _ h0, rfl⟩
      | ok y =>
        obtain ⟨counts, r2⟩ := y
        simp only
        have hlen := decodeCounts_length _ _ _ _ hc
        obtain ⟨a, ⟨new, b1, b2⟩, e⟩ := allSymbols_holds counts 0 { d with size := 0 } [] r2 h0
        generalize hp : Dec.allSymbols 0 counts { d with size := 0 } r2 = p at a b1 e
        obtain ⟨d1, x⟩ := p
        simp only at a b1 e
        have hsh : d1.Short := by
          intro c hcb
          rw [b1.book] at hcb
          simp only [List.append_nil, List.mem_reverse] at hcb
          have := b2 c hcb
          omega
        cases hq : decodeAllSymbols 0 counts [] r2 with
        | fault f => rw [hq] at e; simp only at e; subst e; exact ⟨a, b1.sound, hsh, rfl⟩
        | fail => rw [hq] at e; simp only at e; subst e; exact ⟨a, b1.sound, hsh, rfl⟩
        | ok z =>
          obtain ⟨acc, r3⟩ := z
          rw [hq] at e
          simp only at e
          obtain ⟨e1, e2⟩ := e
          subst e1
          simp only
          rw [e2.book]
          cases hf : fillTable (size - 1) acc.reverse table with
          | fault f => exact ⟨a, e2.sound, hsh, rfl⟩
          | fail => exact ⟨a, e2.sound, hsh, rfl⟩
          | ok t => exact ⟨a, e2.sound, hsh, rfl⟩

theorem chunks_holds (size : Nat) : ∀ (n : Nat) (d : Dec) (_ : d.Sound) (table : List Entry) (r : Reader),
    (Dec.decodeChunks size n d table r).1.maxLen = d.maxLen ∧ (Dec.decodeChunks size n d table r).1.Sound ∧
    ((d.Short ∨ r.fullyConsumed = false ∧ n ≠ 0) → (Dec.decodeChunks size n d table r).1.Short) ∧
    (Dec.decodeChunks size n d table r).2 = decodeChunks d.maxLen size n table r := by
  intro n
  induction n with
  | zero => intro d hd table r; exact ⟨rfl, hd, fun h => by simpa [Dec.decodeChunks] using h, rfl⟩
  | succ n ih =>
    intro d hd table r
    simp only [Dec.decodeChunks, decodeChunks]
    cases hf : r.fullyConsumed with
    | true => exact ⟨rfl, hd, fun h => by simpa using h, rfl⟩
    | false =>
      simp only [Bool.false_eq_true, if_false]
      obtain ⟨a, b, c, e⟩ := codes_holds d hd table r
      generalize d.decodeCodes table r = p at a b c e
      obtain ⟨d1, x⟩ := p
      simp only at a b c e
      subst e
      cases hx : decodeCodes d.maxLen table r with
      | fault f => exact ⟨a, b, fun _ => c, rfl⟩
      | fail => exact ⟨a, b, fun _ => c, rfl⟩
      | ok y =>
        obtain ⟨m, t, r1⟩ := y
        simp only
        cases hy : decodeSymbols m size t r1 with
        | fault f => exact ⟨a, b, fun _ => c, rfl⟩
        | fail => exact ⟨a, b, fun _ => c, rfl⟩
        | ok z =>
          obtain ⟨out, r2⟩ := z
          simp only
          obtain ⟨f1, f2, f3, f4⟩ := ih d1 b t r2
          generalize Dec.decodeChunks size n d1 t r2 = p at f1 f2 f3 f4
          obtain ⟨d2, x⟩ := p
          simp only at f1 f2 f3 f4
          subst f4
          rw [a]
          cases decodeChunks d.maxLen size n t r2 <;> exact ⟨f1.trans a, f2, fun _ => f3 (.inl c), rfl⟩

/-- One call: the answer is that of a decoder never used before. -/
theorem decode_holds (d : Dec) (hd : d.Sound) (bytes : List Nat) :
    (d.decode bytes).1.Sound ∧ (d.decode bytes).2 = decode bytes ∧
    ((d.Short ∧ decode bytes ≠ .ok [] ∨ d.size = 0) → (d.decode bytes).1.Short) := by
  simp only [Dec.decode, decode]
  cases hh : decodeHeader (Reader.init bytes) with
  | fault f =>
    refine ⟨hd, rfl, ?_⟩
    rintro (⟨h, _⟩ | h)
    · exact h
    · intro c hc; simp [Dec.book, h] at hc
  | fail =>
    refine ⟨hd, rfl, ?_⟩
    rintro (⟨h, _⟩ | h)
    · exact h
    · intro c hc; simp [Dec.book, h] at hc
  | ok x =>
    obtain ⟨size, M, r⟩ := x
    simp only
    obtain ⟨a, b, c, e⟩ := chunks_holds size (bytes.length + 1) { d with maxLen := M } ⟨hd.cells, hd.size⟩
      (List.replicate (2 ^ M) (0, 0)) r
    refine ⟨b, e, ?_⟩
    rintro (⟨h, hne⟩ | h)
    · refine c (.inr ⟨?_, by simp⟩)
      cases hf : r.fullyConsumed with
      | false => rfl
      | true => simp [decodeChunks, hf] at hne
    · exact c (.inl fun c hc => by simp [Dec.book, h] at hc)

theorem run_sound : ∀ (bs : List (List Nat)) (d : Dec), d.Sound → (d.run bs).1.Sound := by
  intro bs
  induction bs with
  | nil => intro d h; exact h
  | cons b bs ih => intro d h; exact ih _ (decode_holds d h b).1

/-- A decoder answers every stream as a new decoder would, whatever it has decoded before, successfully or not. -/
theorem huffman_decoder_history : ∀ (bs : List (List Nat)), (Dec.fresh.run bs).2 = bs.map decode := by
  have key : ∀ (bs : List (List Nat)) (d : Dec), d.Sound → (d.run bs).2 = bs.map decode := by
    intro bs
    induction bs with
    | nil => intro d _; rfl
    | cons b bs ih =>
      intro d h
      obtain ⟨h1, h2, _⟩ := decode_holds d h b
      simp only [Dec.run, List.map_cons, h2]
      rw [ih _ h1]
  intro bs
  exact key bs _ fresh_sound

/-- In particular encoded data comes back after any history. -/
theorem huffman_decoder_history_roundtrip (bs : List (List Nat)) (kb M : Nat) (input out : List Nat)
    (hb : ∀ b ∈ input, b < 256) (hv : Valid kb M input) (h : Encodes kb M input out) :
    ((Dec.fresh.run bs).1.decode out).2 = .ok input := by
  rw [(decode_holds _ (run_sound bs _ fresh_sound) out).2.1]
  exact (huffman_roundtrip kb M input hb hv).2 out h

/-! ### The Kraft–McMillan constant -/

theorem kraft_fold (M : Nat) : ∀ (cs : List Code) (k : Nat), (∀ c ∈ cs, c.length ≤ M) → k < 65536 →
    cs.foldl (fun k c => k.bind fun k => if M < c.length then none else some ((k + 2 ^ (M - c.length)) % 65536)) (some k) =
      some ((k + kraft M cs) % 65536) := by
  intro cs
  induction cs with
  | nil => intro k _ hk; simp [Nat.mod_eq_of_lt hk]
  | cons c cs ih =>
    intro k h hk
    have hc : ¬ M < c.length := by have := h c (by simp); omega
    simp only [List.foldl_cons, Option.bind_some, hc, if_false, kraft_cons]
    rw [ih _ (fun x hx => h x (by simp [hx])) (Nat.mod_lt _ (by omega))]
    simp only [Nat.mod_add_mod, Nat.add_assoc]

theorem kraft_of_short {d : Dec} (h : d.Short) : d.kraftConstant = some (kraft d.maxLen d.book % 65536) := by
  unfold Dec.kraftConstant
  rw [kraft_fold _ _ 0 h (by omega)]
  simp

theorem fresh_short : Dec.fresh.Short := by
  intro c hc
  have : Dec.fresh.book = [] := rfl
  rw [this] at hc; simp at hc

/-- Reading a chunk's code table leaves its codes in the object. -/
theorem codes_book {M : Nat} (hM : M ≤ 15) {chunk : List Nat} {cs : List Code} (h : Coded M chunk cs)
    {d : Dec} (hd : d.Sound) (hdM : d.maxLen = M) {table : List Entry} {r : Reader}
    {U : List Bool} (hr : Rd r (written (codesWrites cs) ++ U)) : (d.decodeCodes table r).1.book = cs := by
  obtain ⟨hm1, hm2⟩ := coded_max h
  have hn := coded_length h
  have hpM : 2 ^ M ≤ 32768 := by have := pow_M hM 0; simpa using this
  have hmod : (maxLength cs + 1) % 256 = maxLength cs + 1 := Nat.mod_eq_of_lt (by omega)
  simp only [codesWrites, hmod, List.cons_append, written, written_append, List.append_assoc] at hr
  obtain ⟨r1, a1, a2⟩ := rd_read hr (by omega) (by omega)
  obtain ⟨r2, b1, b2⟩ := counts_spec (fun l => cs.countP fun c => c.length == l)
    (fun l => by have := List.countP_le_length (p := fun c : Code => c.length == l) (l := cs); omega) _ r1 _ a2
  rw [List.length_range] at b1
  have hchain : Chain [] cs := canon_chain (m := maxLength cs) (by omega) cs [] 0
    (fun c hc => ⟨le_maxLength hc, coded_symbol h hc⟩) h.asc h.canon (by have := h.kraft; omega) (by simpa using hn) rfl
  obtain ⟨r3, c1, c2⟩ := allSymbols_spec (maxLength cs + 1) 0 cs [] r2 U h.asc
    (fun c hc => ⟨by omega, by have := le_maxLength hc; omega⟩) hchain b2
  have h0 : Holds { d with size := 0 } [] := ⟨hd.cells, rfl, by simp, by simp [Dec.book]⟩
  obtain ⟨_, _, e⟩ := allSymbols_holds ((List.range' 0 (maxLength cs + 1)).map fun l => cs.countP fun c => c.length == l)
    0 { d with size := 0 } [] r2 h0
  rw [c1] at e
  obtain ⟨e1, e2⟩ := e
  have hsz : ¬ (maxLength cs + 1 = 0 ∨ maxLength cs + 1 > d.maxLen + 1) := by omega
  simp only [Dec.decodeCodes, a1, hsz, if_false, b1, List.range_eq_range']
  generalize hp : Dec.allSymbols 0 ((List.range' 0 (maxLength cs + 1)).map fun l => cs.countP fun c => c.length == l)
    { d with size := 0 } r2 = p at e1 e2
  obtain ⟨d1, x⟩ := p
  simp only at e1 e2
  subst e1
  simp only
  have hb := e2.book
  simp at hb
  cases hf : fillTable (maxLength cs + 1 - 1) d1.book table <;> exact hb

theorem chunks_book {M size : Nat} (hM1 : 1 ≤ M) (hM : M ≤ 15) (hs : 0 < size) :
    ∀ (fuel : Nat) (input : List Nat) (ws : List (Nat × Nat)) (d : Dec) (table : List Entry) (r : Reader), d.Sound →
      d.maxLen = M → input ≠ [] →
      (∀ b ∈ input, b < 256) → (∀ chunk ∈ chunks size input, (alphabet chunk).length ≤ 2 ^ M) →
      ChunkWrites M (chunks size input) ws → table.length = 2 ^ M → Rd r (written ws) →
      (written ws).length < 8 * fuel →
      ∃ last t cs, (chunks size input).getLast? = some last ∧ Build (leavesOf last) t ∧ createCodes M t = some cs ∧
        Coded M last cs ∧ (Dec.decodeChunks size fuel d table r).1.book = cs := by
  intro fuel
  induction fuel with
  | zero => intro _ _ _ _ _ _ _ _ _ _ _ _ _ h; omega
  | succ fuel ih =>
    intro input ws d table r hd hdM hi hb hroom hw ht hr hf
    rw [chunks_cons hs hi] at hw hroom ⊢
    cases hw with
    | @cons _ _ t cs ws' hbuild hcreate hrest =>
      have hc := coded_of_create hM1 hM hbuild hcreate (hroom _ (by simp))
      rw [written_append, written_append, List.append_assoc] at hr
      obtain ⟨t', r1, a1, a2, a3, a4⟩ := decodeCodes_spec hM hc ht hr
      obtain ⟨hm1, hm2⟩ := coded_max hc
      have hall : ∀ b ∈ input.take size, b ∈ cs.map (·.symbol) := by
        intro b hbm
        refine hc.symbols.mem_iff.mpr ((mem_alphabet (hb b (List.mem_of_mem_take hbm))).mpr hbm)
      have hU : size = (input.take size).length ∨ written ws' = [] := by
        by_cases hl : size ≤ input.length
        · left; simp; omega
        · right
          rw [List.drop_of_length_le (by omega), chunks_nil] at hrest
          cases hrest; rfl
      obtain ⟨r2, b1, b2⟩ := decodeLoop_spec hm1 (by omega) a3 (input.take size) size r1 (written ws') hall
        (by simp; omega) hU a4
      have hnc : r.fullyConsumed = false := by
        cases h : r.fullyConsumed with
        | false => rfl
        | true =>
          have := (rd_consumed hr).mp h
          simp [codesWrites, written, toBits] at this
      have hds : decodeSymbols (maxLength cs) size t' r1 = .ok (input.take size, r2) := by
        have : (input.take size).length = size ∨ r2.fullyConsumed = true := by
          rcases hU with h | h
          · exact .inl h.symm
          · exact .inr ((rd_consumed b2).mpr h)
        simp only [decodeSymbols, b1, this, if_true]
      have hbook := codes_book hM hc hd hdM (table := table) hr
      obtain ⟨g1, g2, g3, g4⟩ := codes_holds d hd table r
      rw [hdM, a1] at g4
      simp only [Dec.decodeChunks, hnc, Bool.false_eq_true, if_false]
      generalize d.decodeCodes table r = p at hbook g1 g2 g3 g4
      obtain ⟨d1, x⟩ := p
      simp only at hbook g1 g2 g3 g4
      subst g4
      simp only [hds]
      by_cases hrest0 : input.drop size = []
      · refine ⟨input.take size, t, cs, by rw [hrest0, chunks_nil]; rfl, hbuild, hcreate, hc, ?_⟩
        have hw0 : written ws' = [] := by
          rw [hrest0, chunks_nil] at hrest; cases hrest; rfl
        have hcon := (rd_consumed b2).mpr hw0
        rw [written_append, written_append, List.length_append, List.length_append] at hf
        cases fuel with
        | zero =>
          have : 8 ≤ (written (codesWrites cs)).length := by simp [codesWrites, written]
          omega
        | succ fuel => simp only [Dec.decodeChunks, hcon, if_true]; exact hbook
      · obtain ⟨last, t2, cs2, i1, i2, i3, i4, i5⟩ := ih (input.drop size) ws' d1 t' r2 g2 (g1.trans hdM) hrest0
          (fun b hbm => hb b (List.mem_of_mem_drop hbm))
          (fun ch hch => hroom ch (by simp [hch])) hrest a2 b2 (by
            rw [written_append, written_append, List.length_append, List.length_append] at hf
            have : 8 ≤ (written (codesWrites cs)).length := by simp [codesWrites, written]
            omega)
        refine ⟨last, t2, cs2, ?_, i2, i3, i4, ?_⟩
        · rw [List.getLast?_cons, i1]; rfl
        · generalize Dec.decodeChunks size fuel d1 t' r2 = p at i5
          obtain ⟨d2, x⟩ := p
          cases x <;> exact i5

/-- After decoding what the encoder made of an input that is not empty, whatever the decoder did before, its constant
is the Kraft–McMillan sum of the codes the encoder made for the last chunk, scaled by `2 ^ M`; it lies between one and
`2 ^ M`, so the codes satisfy the Kraft–McMillan inequality. -/
theorem huffman_kraft_encoded (bs : List (List Nat)) (kb M : Nat) (input out : List Nat) (hne : input ≠ [])
    (hb : ∀ b ∈ input, b < 256) (hv : Valid kb M input) (h : Encodes kb M input out) :
    ∃ last t cs k, (chunks (kb * 1024) input).getLast? = some last ∧ Build (leavesOf last) t ∧
      createCodes M t = some cs ∧ ((Dec.fresh.run bs).1.decode out).1.kraftConstant = some k ∧
      k = (cs.map fun c => 2 ^ (M - c.length)).sum ∧ 1 ≤ k ∧ k ≤ 2 ^ M := by
  have hsize : 0 < kb * 1024 := by have := hv.kb_pos; omega
  obtain ⟨_, ws, hws, he⟩ := h
  obtain ⟨r, body, h1, h2, h3, h4⟩ := encode_layout hv hb hws
  rw [h1] at he
  cases he
  obtain ⟨g1, g2, g3⟩ := readAll_of_layout h2 h3 h4
  have hlen := congrArg List.length h4
  have h0 : Rd (Reader.init ((0x1a * 8 + r) :: body)) (written (headerWrites kb M ++ ws)) :=
    ⟨g2, by simp [Reader.init], g1, g3⟩
  rw [written_append] at h0 hlen
  simp only [headerWrites, written, List.append_nil, List.append_assoc] at h0
  obtain ⟨r1, a1, a2⟩ := rd_read h0 (by omega) (by omega)
  obtain ⟨r2, b1, b2⟩ := rd_read a2 (by have := hv.kb_lt; omega) (by omega)
  obtain ⟨r3, c1, c2⟩ := rd_read b2 (by have := hv.len_le; omega) (by omega)
  have hM : ¬ (M = 0 ∨ M ≥ 16) := by have := hv.len_pos; have := hv.len_le; omega
  have hkb : ¬ kb = 0 := by have := hv.kb_pos; omega
  have hh : decodeHeader (Reader.init ((0x1a * 8 + r) :: body)) = .ok (kb * 1024, M, r3) := by
    simp [decodeHeader, a1, b1, c1, hM, hkb]
  have hd := run_sound bs _ fresh_sound
  generalize (Dec.fresh.run bs).1 = d at hd
  unfold Dec.decode
  rw [hh]
  simp only
  have hS : ({ d with maxLen := M } : Dec).Sound := ⟨hd.cells, hd.size⟩
  have hl : (written ws).length < 8 * (((0x1a * 8 + r) :: body).length + 1) := by
    simp [headerWrites, written] at hlen
    simp only [List.length_cons]; omega
  obtain ⟨last, t, cs, i1, i2, i3, i4, i5⟩ := chunks_book hv.len_pos hv.len_le hsize
    (((0x1a * 8 + r) :: body).length + 1) input ws { d with maxLen := M }
    (List.replicate (2 ^ M) (0, 0)) r3 hS rfl hne hb hv.room hws (by simp) c2 hl
  obtain ⟨j1, _, _, _⟩ := chunks_holds (kb * 1024) (((0x1a * 8 + r) :: body).length + 1) { d with maxLen := M } hS
    (List.replicate (2 ^ M) (0, 0)) r3
  generalize (Dec.decodeChunks (kb * 1024) (((0x1a * 8 + r) :: body).length + 1) { d with maxLen := M }
    (List.replicate (2 ^ M) (0, 0)) r3).1 = d2 at i5 j1
  simp only at j1
  obtain ⟨m1, m2⟩ := coded_max i4
  have hk2 : kraft M cs ≤ 2 ^ M := by
    rw [kraft_lift m2 cs fun c hc => le_maxLength hc]
    calc 2 ^ (M - maxLength cs) * kraft (maxLength cs) cs ≤ 2 ^ (M - maxLength cs) * 2 ^ maxLength cs :=
          Nat.mul_le_mul_left _ i4.kraft
      _ = 2 ^ M := by rw [← Nat.pow_add]; congr 1; omega
  have hk1 : 1 ≤ kraft M cs := by
    cases hcs : cs with
    | nil => exact absurd hcs i4.ne
    | cons c l => rw [kraft_cons]; have := Nat.two_pow_pos (M - c.length); omega
  have hpM : 2 ^ M ≤ 32768 := by have := pow_M hv.len_le 0; simpa using this
  have hshort : d2.Short := by intro c hc; rw [i5] at hc; rw [j1]; exact i4.le c hc
  refine ⟨last, t, cs, kraft M cs, i1, i2, i3, ?_, rfl, hk1, hk2⟩
  rw [kraft_of_short hshort, i5, j1, Nat.mod_eq_of_lt (by omega)]

/-- The constant is not always defined: a decoder that has decoded three codes of up to two bits and then the encoding
of nothing with a maximum of one bit (both successfully) would shift by a negative amount. -/
theorem huffman_kraft_violated : ∃ first second : List Nat,
    (∃ out, decode first = .ok out) ∧ decode second = .ok [] ∧ Encodes 1 1 [] second ∧
    (Dec.fresh.run [first, second]).1.kraftConstant = none := by
  refine ⟨[0xd3, 1, 0, 1, 2, 3, 0, 0, 0, 1, 0, 2, 65, 66, 67, 0x58], [0xd0, 1, 0, 1, 1], ⟨[65, 66, 67], ?_⟩, ?_, ?_, ?_⟩
  · decide +kernel
  · decide +kernel
  · exact ⟨by omega, [], by rw [chunks_nil]; exact .nil, by decide +kernel⟩
  · decide +kernel

/-- It is defined for a decoder used once, on any stream, and after any history in which no stream decoded to nothing.
Missing: a decoder that accepts a stream without codes after one with codes. -/
theorem huffman_kraft_defined_partial :
    (∀ bytes, ((Dec.fresh.decode bytes).1.kraftConstant).isSome = true) ∧
    (∀ bs : List (List Nat), (∀ b ∈ bs, decode b ≠ .ok []) → ((Dec.fresh.run bs).1.kraftConstant).isSome = true) := by
  constructor
  · intro bytes
    rw [kraft_of_short ((decode_holds _ fresh_sound bytes).2.2 (.inr rfl))]; rfl
  · have key : ∀ (bs : List (List Nat)) (d : Dec), d.Sound → d.Short → (∀ b ∈ bs, decode b ≠ .ok []) →
        (d.run bs).1.Short := by
      intro bs
      induction bs with
      | nil => intro d _ h _; exact h
      | cons b bs ih =>
        intro d h1 h2 h3
        obtain ⟨a1, _, a3⟩ := decode_holds d h1 b
        exact ih _ a1 (a3 (.inl ⟨h2, h3 b (by simp)⟩)) fun x hx => h3 x (by simp [hx])
    intro bs h
    rw [kraft_of_short (key bs _ fresh_sound fresh_short h)]; rfl

/-- Three codes, then a rejected stream, then three codes again: the answers, and the constant (a full code). -/
example : (Dec.fresh.run [[0xd3, 1, 0, 1, 2, 3, 0, 0, 0, 1, 0, 2, 65, 66, 67, 0x58], [0xd0, 1, 0, 0, 11],
      [0xd3, 1, 0, 1, 2, 3, 0, 0, 0, 1, 0, 2, 65, 66, 67, 0x58]]).2 = [.ok [65, 66, 67], .fail, .ok [65, 66, 67]] ∧
    (Dec.fresh.run [[0xd3, 1, 0, 1, 2, 3, 0, 0, 0, 1, 0, 2, 65, 66, 67, 0x58]]).1.kraftConstant = some 4 := by
  rw [huffman_decoder_history]; constructor <;> decide +kernel

end Verif.Huffman
