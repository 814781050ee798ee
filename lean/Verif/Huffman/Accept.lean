import Verif.Huffman.Hostile

/-!
# What the decoder accepts
-/

namespace Verif.Huffman
open Verif.Bits Verif.BitStream

/-- The bits of a chunk's code table: the number of lengths, how many codes there are of each length from zero
upwards, and the symbols in the order of their codes. -/
def tableBits (counts symbols : List Nat) : List Bool :=
  toBits 8 counts.length ++ written (counts.map fun c => (16, c)) ++ written (symbols.map fun s => (8, s))

/-- The grammar of a stream's bits after the header, with the bytes it stands for: a sequence of chunks, each a code
table (`book`) followed by code words. Every chunk stands for exactly `size` bytes, except that the last may be
shorter. If the table is complete (its Kraft sum is one) then the code words are those of the table, none of
which is a prefix of another. -/
inductive Chunked (M size : Nat) : List Bool → List Nat → Prop
  | done : Chunked M size [] []
  | chunk (counts : List Nat) (book words : List Code) (rest : List Bool) (out : List Nat) :
      counts ≠ [] → counts.length ≤ M + 1 → (∀ c ∈ counts, c < 65536) → book.length ≤ 256 →
      book.map (·.length) = lengthsOf 0 counts → (∀ c ∈ book, c.symbol < 256) →
      (∀ c ∈ words, c.length ≤ M) →
      (countsKraft (counts.length - 1) 0 counts = 2 ^ (counts.length - 1) → (∀ c ∈ words, c ∈ book) ∧
        book.Pairwise fun c d => ¬ c.bits <+: d.bits ∧ ¬ d.bits <+: c.bits) →
      words.length ≤ size → (words.length < size → rest = []) →
      Chunked M size rest out →
      Chunked M size (tableBits counts (book.map (·.symbol)) ++ (words.map Code.bits).flatten ++ rest)
        (words.map (·.symbol) ++ out)

/-- A reader with these bits still to come. -/
structure Rg (r : Reader) (U : List Bool) : Prop where
  inv : RInv r
  good : r.good = true
  unread : r.unread = U

theorem read_inv {r r' : Reader} {U : List Bool} (hr : Rg r U) {n v : Nat} (hn : n ≤ 32) (h0 : 0 < n)
    (h : readWhole r n = .ok (v, r')) : v < 2 ^ n ∧ ∃ V, U = toBits n v ++ V ∧ Rg r' V ∧ r'.pos < 64 := by
  refine ⟨readWhole_lt h, ?_⟩
  obtain ⟨r1, h1, h2, h3, h4, h5, h6⟩ := peek_spec hr.inv hn (.inl h0)
  simp only [readWhole, Reader.readNarrow, h1] at h
  split at h
  · rename_i e
    simp only [beq_iff_eq] at e
    simp only [Res.ok.injEq, Prod.mk.injEq] at h
    obtain ⟨ha, hb⟩ := h
    rw [e] at h5 hb ha
    obtain ⟨d1, d2, d3, d4⟩ := discard_spec h2 h5
    subst hb
    rw [hr.unread] at ha e
    have hlen : (U.take n).length = n := by rw [List.length_take]; exact e
    refine ⟨U.drop n, ?_, ⟨d1, by rw [d3, h4]; exact hr.good, by rw [d2, h3, hr.unread]⟩, ?_⟩
    · rw [Nat.sub_self, Nat.pow_zero, Nat.mul_one] at ha
      have ht := toBits_ofBits (U.take n)
      rw [hlen, ha] at ht
      rw [ht, List.take_append_drop]
    · have := h2.pos; omega
  · cases h

theorem counts_inv : ∀ (n : Nat) (r r' : Reader) (U : List Bool) (cs : List Nat), Rg r U →
    decodeCounts n r = .ok (cs, r') → r.pos < 64 →
    cs.length = n ∧ (∀ c ∈ cs, c < 65536) ∧ ∃ V, U = written (cs.map fun c => (16, c)) ++ V ∧ Rg r' V ∧ r'.pos < 64 := by
  intro n
  induction n with
  | zero =>
    intro r r' U cs hr h hp
    simp only [decodeCounts, Res.ok.injEq, Prod.mk.injEq] at h
    obtain ⟨rfl, rfl⟩ := h
    exact ⟨rfl, by simp, U, by simp [written], hr, hp⟩
  | succ n ih =>
    intro r r' U cs hr h hp
    simp only [decodeCounts] at h
    split at h
    · cases h
    · cases h
    · rename_i c r1 h1
      obtain ⟨a0, V, a1, a2, a3⟩ := read_inv hr (by omega) (by omega) h1
      split at h
      · cases h
      · cases h
      · rename_i cs' r2 h2
        cases h
        obtain ⟨b1, b2, W, b3, b4, b5⟩ := ih r1 _ V cs' a2 h2 a3
        refine ⟨by simp [b1], ?_, W, ?_, b4, b5⟩
        · intro x hx
          rcases List.mem_cons.mp hx with rfl | hx
          · exact a0
          · exact b2 x hx
        · rw [a1, b3]; simp [written]

theorem symbolsOf_inv {length : Nat} : ∀ (n : Nat) (acc : List Code) (r : Reader) (acc' : List Code) (r' : Reader)
    (U : List Bool), Rg r U → r.pos < 64 → decodeSymbolsOf length n acc r = .ok (acc', r') →
    ∃ new V, acc' = new ++ acc ∧ U = written (new.reverse.map fun c => (8, c.symbol)) ++ V ∧ Rg r' V ∧ r'.pos < 64 ∧
      ∀ c ∈ new, c.symbol < 256 := by
  intro n
  induction n with
  | zero =>
    intro acc r acc' r' U hr hp h
    simp only [decodeSymbolsOf, Res.ok.injEq, Prod.mk.injEq] at h
    obtain ⟨rfl, rfl⟩ := h
    exact ⟨[], U, rfl, by simp [written], hr, hp, by simp⟩
  | succ n ih =>
    intro acc r acc' r' U hr hp h
    simp only [decodeSymbolsOf] at h
    split at h
    · cases h
    · cases h
    · rename_i s r1 h1
      obtain ⟨a0, V, a1, a2, a3⟩ := read_inv hr (by omega) (by omega) h1
      split at h
      · cases h
      · obtain ⟨new, W, b1, b2, b3, b4, b5⟩ := ih _ r1 acc' r' V a2 a3 h
        refine ⟨new ++ [⟨s, nextCode acc length, length⟩], W, by rw [b1]; simp, ?_, b3, b4, ?_⟩
        · rw [a1, b2]; simp [written]
        · intro c hc
          rcases List.mem_append.mp hc with hc | hc
          · exact b5 c hc
          · simp at hc; subst hc; exact a0

theorem allSymbols_inv : ∀ (counts : List Nat) (length : Nat) (acc : List Code) (r : Reader) (acc' : List Code)
    (r' : Reader) (U : List Bool), Rg r U → r.pos < 64 → decodeAllSymbols length counts acc r = .ok (acc', r') →
    ∃ new V, acc' = new ++ acc ∧ U = written (new.reverse.map fun c => (8, c.symbol)) ++ V ∧ Rg r' V ∧ r'.pos < 64 ∧
      ∀ c ∈ new, c.symbol < 256 := by
  intro counts
  induction counts with
  | nil =>
    intro length acc r acc' r' U hr hp h
    simp only [decodeAllSymbols, Res.ok.injEq, Prod.mk.injEq] at h
    obtain ⟨rfl, rfl⟩ := h
    exact ⟨[], U, rfl, by simp [written], hr, hp, by simp⟩
  | cons c counts ih =>
    intro length acc r acc' r' U hr hp h
    simp only [decodeAllSymbols] at h
    split at h
    · cases h
    · cases h
    · rename_i acc1 r1 h1
      obtain ⟨n1, V, a1, a2, a3, a4, a5⟩ := symbolsOf_inv c acc r acc1 r1 U hr hp h1
      obtain ⟨n2, W, b1, b2, b3, b4, b5⟩ := ih (length + 1) acc1 r1 acc' r' V a3 a4 h
      refine ⟨n2 ++ n1, W, by rw [b1, a1]; simp, ?_, b3, b4, ?_⟩
      · rw [a2, b2]; simp [written_append]
      · intro x hx
        rcases List.mem_append.mp hx with hx | hx
        · exact b5 x hx
        · exact a5 x hx

theorem fillCode_length {base : Nat} {e : Entry} : ∀ (n j : Nat) (table t' : List Entry),
    fillCode base e n j table = .ok t' → t'.length = table.length := by
  intro n
  induction n with
  | zero => intro j table t' h; simp [fillCode] at h; subst h; rfl
  | succ n ih =>
    intro j table t' h
    simp only [fillCode, setEntry] at h
    split at h
    · cases h
    · cases h
    · rename_i t1 h1
      split at h1
      · cases h1
        rw [ih _ _ _ h]; simp
      · cases h1

theorem fillTable_length {m : Nat} : ∀ (cs : List Code) (table t' : List Entry),
    fillTable m cs table = .ok t' → t'.length = table.length := by
  intro cs
  induction cs with
  | nil => intro table t' h; simp [fillTable] at h; subst h; rfl
  | cons c cs ih =>
    intro table t' h
    simp only [fillTable] at h
    split at h
    · cases h
    · cases h
    · rename_i t1 h1
      rw [ih _ _ h, fillCode_length _ _ _ _ h1]

theorem fillCode_bound {B base : Nat} {e : Entry} (he : e.2 ≤ B) : ∀ (n j : Nat) (table t' : List Entry),
    (∀ e ∈ table, e.2 ≤ B) → fillCode base e n j table = .ok t' → ∀ e ∈ t', e.2 ≤ B := by
  intro n
  induction n with
  | zero => intro j table t' h h1; simp [fillCode] at h1; subst h1; exact h
  | succ n ih =>
    intro j table t' h h1
    simp only [fillCode, setEntry] at h1
    split at h1
    · cases h1
    · cases h1
    · rename_i t1 h2
      split at h2
      · cases h2
        refine ih _ _ _ ?_ h1
        intro x hx
        rcases List.mem_or_eq_of_mem_set hx with hx | hx
        · exact h x hx
        · subst hx; exact he
      · cases h2

theorem fillTable_bound {B m : Nat} : ∀ (cs : List Code) (table t' : List Entry), (∀ c ∈ cs, c.length ≤ B) →
    (∀ e ∈ table, e.2 ≤ B) → fillTable m cs table = .ok t' → ∀ e ∈ t', e.2 ≤ B := by
  intro cs
  induction cs with
  | nil => intro table t' _ h h1; simp [fillTable] at h1; subst h1; exact h
  | cons c cs ih =>
    intro table t' hc h h1
    simp only [fillTable] at h1
    split at h1
    · cases h1
    · cases h1
    · rename_i t1 h2
      exact ih _ _ (fun x hx => hc x (by simp [hx])) (fillCode_bound (hc c (by simp)) _ _ _ _ h h2) h1

theorem canon_cover {m : Nat} : ∀ (cs : List Code) (a : Nat), Canon m a cs → ∀ i, a ≤ i → i < a + kraft m cs →
    ∃ c ∈ cs, ∃ j, j < 2 ^ (m - c.length) ∧ i = c.code * 2 ^ (m - c.length) + j := by
  intro cs
  induction cs with
  | nil => intro a _ i h1 h2; simp at h2; omega
  | cons c cs ih =>
    intro a h i h1 h2
    obtain ⟨hc, ht⟩ := h
    simp only [kraft_cons] at h2
    by_cases hi : i < a + 2 ^ (m - c.length)
    · exact ⟨c, by simp, i - a, by omega, by omega⟩
    · obtain ⟨d, hd, j, e1, e2⟩ := ih _ ht i (by omega) (by omega)
      exact ⟨d, by simp [hd], j, e1, e2⟩

theorem canon_prefix_free {m : Nat} {cs : List Code} (hc : Canon m 0 cs) (ha : Asc cs) (hl : ∀ c ∈ cs, c.length ≤ m)
    (hk : kraft m cs ≤ 2 ^ m) : cs.Pairwise fun c d => ¬ c.bits <+: d.bits ∧ ¬ d.bits <+: c.bits := by
  have hlt : ∀ c ∈ cs, c.code < 2 ^ c.length := by
    intro c hcc
    have h1 := canon_le cs 0 hc c hcc
    have h3 : 2 ^ m = 2 ^ c.length * 2 ^ (m - c.length) := by
      rw [← Nat.pow_add]; congr 1; have := hl c hcc; omega
    have h4 : (c.code + 1) * 2 ^ (m - c.length) ≤ 2 ^ c.length * 2 ^ (m - c.length) := by omega
    exact Nat.le_of_mul_le_mul_right h4 (Nat.two_pow_pos _)
  refine List.Pairwise.imp_of_mem ?_ ((canon_sep cs 0 hc).and ha)
  intro c d hcc hd ⟨hs, hle⟩
  have key : (c.code + 1) * 2 ^ (d.length - c.length) ≤ d.code := by
    rw [pow_split hle (hl d hd), ← Nat.mul_assoc] at hs
    exact Nat.le_of_mul_le_mul_right hs (Nat.two_pow_pos _)
  constructor
  · intro hp
    obtain ⟨_, e⟩ := prefix_code (hlt c hcc) hp (hlt d hd)
    have := (Nat.le_div_iff_mul_le (Nat.two_pow_pos (d.length - c.length))).mpr key
    omega
  · intro hp
    obtain ⟨e1, e⟩ := prefix_code (hlt d hd) hp (hlt c hcc)
    have e2 : d.length = c.length := by omega
    rw [e2] at key e; simp at key e
    omega

theorem codes_inv {M m : Nat} (hM : M ≤ 15) {table t' : List Entry} {r r' : Reader} {U : List Bool} (hr : Rg r U)
    (ht : table.length = 2 ^ M) (h : decodeCodes M table r = .ok (m, t', r')) :
    ∃ (counts : List Nat) (book : List Code) (V : List Bool), counts ≠ [] ∧ counts.length ≤ M + 1 ∧ m = counts.length - 1 ∧ (∀ c ∈ counts, c < 65536) ∧
      book.length ≤ 256 ∧ book.map (·.length) = lengthsOf 0 counts ∧ (∀ c ∈ book, c.symbol < 256) ∧
      U = tableBits counts (book.map (·.symbol)) ++ V ∧ Rg r' V ∧ r'.pos < 64 ∧ t'.length = 2 ^ M ∧
      ((∀ e ∈ table, e.2 ≤ M) → ∀ e ∈ t', e.2 ≤ M) ∧
      (countsKraft m 0 counts = 2 ^ m →
        book.Pairwise fun c d => ¬ c.bits <+: d.bits ∧ ¬ d.bits <+: c.bits) ∧
      (countsKraft m 0 counts = 2 ^ m → ∀ i, i < 2 ^ m → ∃ c ∈ book, c.length ≤ m ∧
        ∃ j, j < 2 ^ (m - c.length) ∧ i = c.code * 2 ^ (m - c.length) + j ∧ t'[i]? = some (c.symbol, c.length)) := by
  simp only [decodeCodes] at h
  split at h
  · cases h
  · cases h
  · rename_i size r1 h1
    obtain ⟨a0, V1, a1, a2, a3⟩ := read_inv hr (by omega) (by omega) h1
    split at h
    · cases h
    · rename_i hs
      split at h
      · cases h
      · cases h
      · rename_i counts r2 h2
        obtain ⟨b1, b2, V2, b3, b4, b5⟩ := counts_inv size r1 r2 V1 counts a2 h2 a3
        split at h
        · cases h
        · cases h
        · rename_i acc r3 h3
          obtain ⟨new, V3, c1, c2, c3, c4, c5⟩ := allSymbols_inv counts 0 [] r2 acc r3 V2 b4 b5 h3
          obtain ⟨d1, new', d2, d3, d4⟩ := allSymbols_shape counts 0 [] r2 acc r3 h3 (by simp)
          rw [List.append_nil] at c1 d2
          subst c1
          subst d2
          have hlens : ∀ c ∈ acc.reverse, c.length ≤ size - 1 := by
            intro c hc
            have : c.length ∈ lengthsOf 0 counts := by rw [← d3]; exact List.mem_map_of_mem hc
            have := lengthsOf_ge counts 0 _ this
            omega
          split at h
          · cases h
          · cases h
          · rename_i t1 h4
            simp only [Res.ok.injEq, Prod.mk.injEq] at h
            obtain ⟨rfl, rfl, rfl⟩ := h
            refine ⟨counts, acc.reverse, V3, ?_, by omega, by omega, b2, by simpa using d1, d3, ?_, ?_, c3, c4, ?_, ?_, ?_, ?_⟩
            · intro e; rw [e] at b1; simp at b1; omega
            · intro c hc; exact c5 c (by simpa using hc)
            · rw [a1, b3, c2, tableBits, b1]; simp [List.map_reverse, List.map_map, Function.comp_def]
            · rw [fillTable_length _ _ _ h4, ht]
            · intro hb
              exact fillTable_bound _ _ _ (fun c hc => by have := hlens c hc; omega) hb h4
            · intro hk
              have hkr : kraft (size - 1) acc.reverse = 2 ^ (size - 1) := by
                rw [← hk, ← lengthsOf_kraft, ← d3]; simp [kraft, List.map_map, Function.comp_def]
              have hpm : 2 ^ (size - 1) ≤ 32768 :=
                show 2 ^ (size - 1) ≤ 2 ^ 15 from Nat.pow_le_pow_right (by omega) (by omega)
              have hpM : 2 ^ (size - 1) ≤ 2 ^ M := Nat.pow_le_pow_right (by omega) (by omega)
              have hMl : 2 ^ M ≤ 65536 := show 2 ^ M ≤ 2 ^ 16 from Nat.pow_le_pow_right (by omega) (by omega)
              have hasc : Asc acc.reverse := by
                have := lengthsOf_asc counts 0
                rw [← d3, List.pairwise_map] at this
                exact this
              have hcan := chain_canon (m := size - 1) acc.reverse [] 0 hlens hasc d4 (by omega) rfl
              exact canon_prefix_free hcan hasc hlens (Nat.le_of_eq hkr)
            · intro hk i hi
              have hkr : kraft (size - 1) acc.reverse = 2 ^ (size - 1) := by
                rw [← hk, ← lengthsOf_kraft, ← d3]; simp [kraft, List.map_map, Function.comp_def]
              have hpm : 2 ^ (size - 1) ≤ 32768 :=
                show 2 ^ (size - 1) ≤ 2 ^ 15 from Nat.pow_le_pow_right (by omega) (by omega)
              have hpM : 2 ^ (size - 1) ≤ 2 ^ M := Nat.pow_le_pow_right (by omega) (by omega)
              have hMl : 2 ^ M ≤ 65536 := show 2 ^ M ≤ 2 ^ 16 from Nat.pow_le_pow_right (by omega) (by omega)
              have hasc : Asc acc.reverse := by
                have := lengthsOf_asc counts 0
                rw [← d3, List.pairwise_map] at this
                exact this
              have hcan := chain_canon (m := size - 1) acc.reverse [] 0 hlens hasc d4 (by omega) rfl
              obtain ⟨t2, e1, e2, e3, e4⟩ := fillTable_spec (size - 1) acc.reverse 0 table (by omega) hcan (by omega)
              rw [h4] at e1
              cases e1
              obtain ⟨c, hc, j, f1, f2⟩ := canon_cover acc.reverse 0 hcan i (by omega) (by omega)
              exact ⟨c, hc, hlens c hc, j, f1, f2, by rw [f2]; exact e3 c hc j f1⟩

/-- The first bits of a window give the code. -/
theorem window_code {m : Nat} {U : List Bool} {c : Code} {j : Nat} (hcm : c.length ≤ m) (hcU : c.length ≤ U.length)
    (hj : j < 2 ^ (m - c.length))
    (h : ofBits (U.take m) * 2 ^ (m - min m U.length) = c.code * 2 ^ (m - c.length) + j) :
    U.take c.length = c.bits := by
  have hk : U.take m = U.take c.length ++ (U.drop c.length).take (m - c.length) := by
    conv => lhs; rw [show m = c.length + (m - c.length) by omega]
    rw [List.take_add]
  have hl1 : (U.take c.length).length = c.length := by rw [List.length_take]; omega
  generalize hW : (U.drop c.length).take (m - c.length) = W at hk
  have hWl : W.length + (m - min m U.length) = m - c.length := by
    rw [← hW, List.length_take, List.length_drop]; omega
  rw [hk, ofBits_append, Nat.add_mul, Nat.mul_assoc, ← Nat.pow_add, hWl] at h
  have hlt : ofBits W * 2 ^ (m - min m U.length) < 2 ^ (m - c.length) := by
    rw [← hWl, Nat.pow_add]
    exact Nat.mul_lt_mul_of_pos_right (ofBits_lt W) (Nat.two_pow_pos _)
  have e : ofBits (U.take c.length) = c.code := by
    have h1 := congrArg (· / 2 ^ (m - c.length)) h
    rw [Nat.mul_comm, Nat.mul_add_div (Nat.two_pow_pos _), Nat.div_eq_of_lt hlt,
      Nat.mul_comm c.code, Nat.mul_add_div (Nat.two_pow_pos _), Nat.div_eq_of_lt hj] at h1
    omega
  have := toBits_ofBits (U.take c.length)
  rw [hl1, e] at this
  exact this.symm

theorem loop_inv {M m : Nat} (hM : M ≤ 15) (hm : m ≤ M) {table : List Entry} {book : List Code}
    (ht : ∀ e ∈ table, e.2 ≤ M) {full : Prop}
    (hfull : full → ∀ i, i < 2 ^ m → ∃ c ∈ book, c.length ≤ m ∧
        ∃ j, j < 2 ^ (m - c.length) ∧ i = c.code * 2 ^ (m - c.length) + j ∧ table[i]? = some (c.symbol, c.length)) :
    ∀ (n : Nat) (r r' : Reader) (U : List Bool) (out : List Nat), Rg r U → (0 < m ∨ r.pos < 64) →
    decodeLoop m table n r = .ok (out, r') →
    out.length ≤ n ∧ (Wrapped r' ∨ ∃ (words : List Code) (V : List Bool), words.map (·.symbol) = out ∧
      U = (words.map Code.bits).flatten ++ V ∧ Rg r' V ∧ (∀ c ∈ words, c.length ≤ M) ∧
      (full → ∀ c ∈ words, c ∈ book)) := by
  intro n
  induction n with
  | zero =>
    intro r r' U out hr _ h
    simp only [decodeLoop, Res.ok.injEq, Prod.mk.injEq] at h
    obtain ⟨rfl, rfl⟩ := h
    exact ⟨Nat.le_refl _, .inr ⟨[], U, rfl, rfl, hr, by simp, by simp⟩⟩
  | succ n ih =>
    intro r r' U out hr hp h
    obtain ⟨r1, h1, h2, h3, h4, h5, h6⟩ := peek_spec hr.inv (size := m) (by omega) hp
    simp only [decodeLoop, h1] at h
    rw [hr.unread] at h h5
    split at h
    · simp only [Res.ok.injEq, Prod.mk.injEq] at h
      obtain ⟨rfl, rfl⟩ := h
      exact ⟨by simp, .inr ⟨[], U, rfl, rfl, ⟨h2, by rw [h4]; exact hr.good, by rw [h3, hr.unread]⟩, by simp, by simp⟩⟩
    · rename_i hb
      split at h
      · cases h
      · rename_i s len htab
        have hlen : len ≤ M := ht _ (List.mem_of_getElem? htab)
        split at h
        · cases h
        · cases h
        · rename_i out' r2 hloop
          cases h
          by_cases hc : len ≤ r1.pos
          · obtain ⟨d1, d2, d3, d4⟩ := discard_spec h2 hc
            have hU : r1.unread = U := by rw [h3, hr.unread]
            have hle : len ≤ U.length := by
              have : r1.pos ≤ r1.unread.length := by unfold Reader.unread; simp
              rw [hU] at this; omega
            obtain ⟨i1, i2⟩ := ih _ r' (U.drop len) out' ⟨d1, by rw [d3, h4]; exact hr.good, by rw [d2, hU]⟩
              (.inl (by omega)) hloop
            refine ⟨by simp; omega, ?_⟩
            rcases i2 with i2 | ⟨words, V, e1, e2, e3, e4, e5⟩
            · exact .inl i2
            · refine .inr ⟨⟨s, ofBits (U.take len), len⟩ :: words, V, by simp [e1], ?_, e3, ?_, ?_⟩
              · have hl : (U.take len).length = len := by rw [List.length_take]; omega
                have hbits : Code.bits ⟨s, ofBits (U.take len), len⟩ = U.take len := by
                  have := toBits_ofBits (U.take len)
                  rw [hl] at this
                  exact this
                simp only [List.map_cons, List.flatten_cons, hbits]
                rw [List.append_assoc, ← e2, List.take_append_drop]
              · intro c hc
                rcases List.mem_cons.mp hc with rfl | hc
                · exact hlen
                · exact e4 c hc
              · intro hf c hc
                rcases List.mem_cons.mp hc with rfl | hc
                · have hi : ofBits (U.take m) * 2 ^ (m - min m U.length) < 2 ^ m := by
                    have h7 := ofBits_lt (U.take m)
                    rw [List.length_take] at h7
                    calc ofBits (U.take m) * 2 ^ (m - min m U.length) <
                          2 ^ (min m U.length) * 2 ^ (m - min m U.length) :=
                          Nat.mul_lt_mul_of_pos_right h7 (Nat.two_pow_pos _)
                      _ = 2 ^ m := by rw [← Nat.pow_add]; congr 1; omega
                  obtain ⟨c, hcb, hcm, j, hj, hij, hct⟩ := hfull hf _ hi
                  rw [htab] at hct
                  simp only [Option.some.injEq, Prod.mk.injEq] at hct
                  obtain ⟨q1, q2⟩ := hct
                  subst q1
                  subst q2
                  have hw := window_code hcm hle hj hij
                  have hcode : ofBits (U.take c.length) = c.code := by
                    rw [hw]
                    refine ofBits_toBits_of_lt ?_
                    have h8 := hi
                    rw [hij] at h8
                    have h9 : c.code * 2 ^ (m - c.length) < 2 ^ c.length * 2 ^ (m - c.length) := by
                      rw [← Nat.pow_add, show c.length + (m - c.length) = m by omega]; omega
                    exact Nat.lt_of_mul_lt_mul_right h9
                  rw [hcode]; exact hcb
                · exact e5 hf c hc
          · have hw : Wrapped (r1.discardBits len) := by
              unfold Wrapped Reader.discardBits
              simp only
              have := h2.pos
              omega
            cases n with
            | zero =>
              simp only [decodeLoop, Res.ok.injEq, Prod.mk.injEq] at hloop
              obtain ⟨rfl, rfl⟩ := hloop
              exact ⟨by simp, .inl hw⟩
            | succ n =>
              simp [decodeLoop, wrapped_peek hw (size := m) (by omega)] at hloop

theorem rg_consumed {r : Reader} {U : List Bool} (h : Rg r U) : r.fullyConsumed = true ↔ U = [] := by
  have hU := h.unread
  unfold Reader.unread at hU
  simp only [h.good, if_true] at hU
  constructor
  · intro hc
    simp [Reader.fullyConsumed] at hc
    rw [hc.1, hc.2] at hU
    simpa [toBits] using hU.symm
  · intro e
    subst e
    have h1 := congrArg List.length hU
    simp at h1
    have h2 := h.inv.rem
    have h3 : r.rest.length = 0 := by omega
    simp [Reader.fullyConsumed, h1.1, List.length_eq_zero_iff.mp h3]

theorem wrapped_chunks {M size : Nat} : ∀ (fuel : Nat) (table : List Entry) (r : Reader) (out : List Nat), Wrapped r →
    decodeChunks M size fuel table r ≠ .ok out := by
  intro fuel
  cases fuel with
  | zero => intro table r out _ h; simp [decodeChunks] at h
  | succ fuel =>
    intro table r out hw h
    have : r.fullyConsumed = false := by
      unfold Wrapped at hw
      simp [Reader.fullyConsumed]; intro h; omega
    simp [decodeChunks, this, decodeCodes, wrapped_read hw (size := 8) (by omega)] at h

theorem chunks_inv {M size : Nat} (hM : M ≤ 15) : ∀ (fuel : Nat) (table : List Entry) (r : Reader) (U : List Bool)
    (out : List Nat), Rg r U → table.length = 2 ^ M → (∀ e ∈ table, e.2 ≤ M) →
    decodeChunks M size fuel table r = .ok out → Chunked M size U out := by
  intro fuel
  induction fuel with
  | zero => intro table r U out _ _ _ h; simp [decodeChunks] at h
  | succ fuel ih =>
    intro table r U out hr ht hb h
    simp only [decodeChunks] at h
    split at h
    · rename_i hc
      rw [(rg_consumed hr).mp hc]
      cases h
      exact .done
    · split at h
      · cases h
      · cases h
      · rename_i m t1 r1 h1
        obtain ⟨counts, book, V, a1, a2, a3, a4, a5, a6, a7, a8, a9, a10, a11, a12, a12p, a13⟩ := codes_inv hM hr ht h1
        split at h
        · cases h
        · cases h
        · rename_i out1 r2 h2
          simp only [decodeSymbols] at h2
          split at h2
          · cases h2
          · cases h2
          · rename_i out1' r2' h3
            split at h2
            · rename_i hacc
              cases h2
              obtain ⟨b1, b2⟩ := loop_inv hM (by omega) (a12 hb) a13 size r1 r2 V out1 a9 (.inr a10) h3
              split at h
              · cases h
              · cases h
              · rename_i out2 h4
                cases h
                rcases b2 with b2 | ⟨words, W, e1, e2, e3, e4, e5⟩
                · exact absurd h4 (wrapped_chunks fuel t1 r2 out2 b2)
                · have hW := ih t1 r2 W out2 e3 a11 (a12 hb) h4
                  rw [a8, e2, ← List.append_assoc, ← e1]
                  refine .chunk counts book words W out2 a1 a2 a4 a5 a6 a7 e4 ?_ ?_ ?_ hW
                  · rw [← a3]; exact fun hf => ⟨e5 hf, a12p hf⟩
                  · rw [← e1] at b1; simpa using b1
                  · intro hlt
                    rcases hacc with hacc | hacc
                    · rw [← e1] at hacc; simp at hacc; omega
                    · exact (rg_consumed e3).mp hacc
            · cases h2

/-- C84. Whatever bytes the decoder accepts are a stream with the magic number whose payload is a version-1 header with
a chunk size and a maximum code length in range, followed by chunks of the grammar to its very last bit, and the
output is what the chunks stand for. -/
theorem huffman_accepts_wellformed (bytes : List Nat) (hb : ∀ b ∈ bytes, b < 256) (out : List Nat)
    (h : decode bytes = .ok out) :
    HasMagic bytes ∧ ∃ kb M tail, 1 ≤ kb ∧ kb < 65536 ∧ 1 ≤ M ∧ M ≤ 15 ∧
      payload bytes = toBits 8 1 ++ toBits 16 kb ++ toBits 8 M ++ tail ∧ Chunked M (kb * 1024) tail out := by
  have hinv := RInv_init hb
  unfold decode at h
  by_cases hg : (Reader.init bytes).good = true
  · have hm : HasMagic bytes := by
      cases bytes with
      | nil => simp [Reader.init] at hg
      | cons x body =>
        simp only [Reader.init, magic, Nat.shiftRight_eq_div_pow] at hg
        simpa [HasMagic] using hg
    refine ⟨hm, ?_⟩
    have hun : (Reader.init bytes).unread = payload bytes := by
      cases bytes with
      | nil => simp [Reader.init] at hg
      | cons x body =>
        unfold Reader.unread
        rw [if_pos hg]
        simp [Reader.init, payload, toBits]
    have h0 : Rg (Reader.init bytes) (payload bytes) := ⟨hinv, hg, hun⟩
    split at h
    · cases h
    · cases h
    · rename_i size M r3 hh
      simp only [decodeHeader] at hh
      split at hh
      · cases hh
      · cases hh
      · rename_i v r1 h1
        obtain ⟨a0, V1, a1, a2, a3⟩ := read_inv h0 (by omega) (by omega) h1
        split at hh
        · cases hh
        · rename_i hv
          have hv : v = 1 := by omega
          split at hh
          · cases hh
          · cases hh
          · rename_i k r2 h2
            obtain ⟨b0, V2, b1, b2, b3⟩ := read_inv a2 (by omega) (by omega) h2
            split at hh
            · cases hh
            · split at hh
              · cases hh
              · cases hh
              · rename_i M' r4 h3
                obtain ⟨c0, V3, c1, c2, c3⟩ := read_inv b2 (by omega) (by omega) h3
                split at hh
                · cases hh
                · cases hh
                  refine ⟨k, M, V3, by omega, b0, by omega, by omega, ?_, ?_⟩
                  · rw [a1, b1, c1, hv]; simp
                  · exact chunks_inv (by omega) _ _ r3 V3 out c2 (by simp)
                      (fun e he => by rw [List.eq_of_mem_replicate he]; simp) h
  · have h0 : (Reader.init bytes).unread = [] := by
      have hg' : (Reader.init bytes).good = false := by simpa using hg
      cases bytes with
      | nil => rfl
      | cons x body => simp [Reader.unread, hg']; simp [Reader.init, toBits]
    split at h
    · cases h
    · cases h
    · rename_i size M r3 hh
      simp only [decodeHeader] at hh
      split at hh
      · cases hh
      · cases hh
      · rename_i v r1 h1
        have := (read_sane hinv (by omega) (by omega) h1).2
        rw [h0] at this
        simp at this

/-- A hand-made stream: codes 0 and 1 for the letters A and B, and the chunk "ABBA"; with version 2, or with a bit left
over that is the start of another table, it is rejected. -/
example : decode [0xd4, 1, 0, 1, 1, 2, 0, 0, 0, 2, 65, 66, 0x60] = .ok [65, 66, 66, 65] ∧
    decode [0xd4, 2, 0, 1, 1, 2, 0, 0, 0, 2, 65, 66, 0x60] = .fail ∧
    decode [0xd4, 1, 0, 0, 1, 2, 0, 0, 0, 2, 65, 66, 0x60] = .fail ∧
    decode [0xd0, 1, 0, 1, 1, 1, 0, 0, 2, 0, 0, 0, 2, 65, 66] = .fail := by decide +kernel

end Verif.Huffman
