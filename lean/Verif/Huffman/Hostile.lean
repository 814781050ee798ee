import Verif.Huffman.Chunks

/-!
# Hostile input
-/

namespace Verif.Huffman
open Verif.Bits Verif.BitStream

/-! ### Lookups -/

theorem or_lt {a b n : Nat} (ha : a < 2 ^ n) (hb : b < 2 ^ n) : a ||| b < 2 ^ n := Nat.or_lt_two_pow ha hb

theorem shl_lt {x a b n : Nat} (h : x < 2 ^ a) (hn : a + b ≤ n) : x <<< b < 2 ^ n := by
  rw [Nat.shiftLeft_eq]
  calc x * 2 ^ b < 2 ^ a * 2 ^ b := Nat.mul_lt_mul_of_pos_right h (Nat.two_pow_pos b)
    _ = 2 ^ (a + b) := (Nat.pow_add 2 a b).symm
    _ ≤ 2 ^ n := Nat.pow_le_pow_right (by omega) hn

/-- A peeked value always fits the requested width, whatever state the reader is in. -/
theorem peek_lt {r r' : Reader} {size v n : Nat} (h : r.peekBits size = some (v, n, r')) : v < 2 ^ size := by
  unfold Reader.peekBits at h
  split at h
  · rename_i hs
    simp only at h
    split at h
    · cases h
    · rename_i buffer _
      simp only [Option.some.injEq, Prod.mk.injEq] at h
      rw [← h.1]
      refine or_lt (shl_lt (Nat.mod_lt _ (Nat.two_pow_pos _)) (by omega))
        (shl_lt (Nat.mod_lt _ (Nat.two_pow_pos _)) (by omega))
  · simp only at h
    split at h
    · cases h
    · rename_i buffer _
      simp only [Option.some.injEq, Prod.mk.injEq] at h
      rw [← h.1]
      exact Nat.mod_lt _ (Nat.two_pow_pos _)

theorem decodeLoop_in_range {m : Nat} {table : List Entry} (ht : 2 ^ m ≤ table.length) : ∀ (n : Nat) (r : Reader),
    decodeLoop m table n r ≠ .fault .bounds := by
  intro n
  induction n with
  | zero => intro r; simp [decodeLoop]
  | succ n ih =>
    intro r
    simp only [decodeLoop]
    cases hp : r.peekBits m with
    | none => simp
    | some x =>
      obtain ⟨v, bits, r1⟩ := x
      simp only
      split
      · simp
      · have hv := peek_lt hp
        have hlt : v < table.length := by omega
        rw [List.getElem?_eq_getElem hlt]
        simp only
        have := ih (r1.discardBits table[v].2)
        generalize decodeLoop m table n (r1.discardBits table[v].2) = x at this ⊢
        cases x with
        | fault f => simpa using this
        | fail => simp
        | ok => simp

/-! ### The code array and the prefix table -/

theorem readWhole_lt {r r' : Reader} {size v : Nat} (h : readWhole r size = .ok (v, r')) : v < 2 ^ size := by
  unfold readWhole Reader.readNarrow at h
  cases hp : r.peekBits size with
  | none => simp [hp] at h
  | some x =>
    obtain ⟨v', n, r1⟩ := x
    simp only [hp] at h
    split at h
    · cases h; exact peek_lt hp
    · cases h

theorem symbolsOf_shape {length : Nat} : ∀ (n : Nat) (acc : List Code) (r : Reader) (acc' : List Code) (r' : Reader),
    decodeSymbolsOf length n acc r = .ok (acc', r') → acc.length ≤ 256 →
    acc'.length ≤ 256 ∧ ∃ new, acc' = new ++ acc ∧ new.map (·.length) = List.replicate n length ∧ Chain acc new.reverse := by
  intro n
  induction n with
  | zero =>
    intro acc r acc' r' h hl
    simp [decodeSymbolsOf] at h
    obtain ⟨rfl, rfl⟩ := h
    exact ⟨hl, [], rfl, rfl, trivial⟩
  | succ n ih =>
    intro acc r acc' r' h hl
    simp only [decodeSymbolsOf] at h
    split at h
    · cases h
    · cases h
    · rename_i symbol r1 hr
      split at h
      · cases h
      · rename_i hne
        obtain ⟨h1, new, h2, h3, h4⟩ := ih _ _ _ _ h (by simp only [List.length_cons]; omega)
        refine ⟨h1, new ++ [⟨symbol, nextCode acc length, length⟩], by rw [h2]; simp, ?_, ?_⟩
        · rw [List.map_append, h3]; simp [List.replicate_succ']
        · rw [List.reverse_append]
          refine ⟨rfl, by omega, ?_, h4⟩
          exact readWhole_lt hr

/-- Lengths of the codes given by counts. -/
def lengthsOf : Nat → List Nat → List Nat
  | _, [] => []
  | l, c :: cs => List.replicate c l ++ lengthsOf (l + 1) cs

theorem allSymbols_shape : ∀ (counts : List Nat) (length : Nat) (acc : List Code) (r : Reader) (acc' : List Code) (r' : Reader),
    decodeAllSymbols length counts acc r = .ok (acc', r') → acc.length ≤ 256 →
    acc'.length ≤ 256 ∧ ∃ new, acc' = new ++ acc ∧ new.reverse.map (·.length) = lengthsOf length counts ∧
      Chain acc new.reverse := by
  intro counts
  induction counts with
  | nil =>
    intro length acc r acc' r' h hl
    simp [decodeAllSymbols] at h
    obtain ⟨rfl, rfl⟩ := h
    exact ⟨hl, [], rfl, rfl, trivial⟩
  | cons c counts ih =>
    intro length acc r acc' r' h hl
    simp only [decodeAllSymbols] at h
    split at h
    · cases h
    · cases h
    · rename_i acc1 r1 h1
      obtain ⟨a1, new1, a2, a3, a4⟩ := symbolsOf_shape c acc r acc1 r1 h1 hl
      obtain ⟨b1, new2, b2, b3, b4⟩ := ih _ _ _ _ _ h a1
      refine ⟨b1, new2 ++ new1, by rw [b2, a2]; simp, ?_, ?_⟩
      · rw [List.reverse_append, List.map_append, b3, List.map_reverse, a3]
        simp [lengthsOf]
      · rw [List.reverse_append, chain_append]
        refine ⟨a4, ?_⟩
        rw [List.reverse_reverse, ← a2]; exact b4

/-- Kraft sum of a count table, scaled by `2 ^ m`: `count * 2 ^ (m - length)` summed over the lengths. -/
def countsKraft (m : Nat) : Nat → List Nat → Nat
  | _, [] => 0
  | l, c :: cs => c * 2 ^ (m - l) + countsKraft m (l + 1) cs

theorem lengthsOf_ge : ∀ (counts : List Nat) (l : Nat), ∀ n ∈ lengthsOf l counts, l ≤ n ∧ n < l + counts.length := by
  intro counts
  induction counts with
  | nil => intro l n hn; simp [lengthsOf] at hn
  | cons c counts ih =>
    intro l n hn
    simp only [lengthsOf, List.mem_append] at hn
    simp only [List.length_cons]
    rcases hn with hn | hn
    · have := List.eq_of_mem_replicate hn; omega
    · have := ih (l + 1) n hn; omega

theorem lengthsOf_asc : ∀ (counts : List Nat) (l : Nat), (lengthsOf l counts).Pairwise (· ≤ ·) := by
  intro counts
  induction counts with
  | nil => intro l; exact .nil
  | cons c counts ih =>
    intro l
    refine List.pairwise_append.mpr ⟨?_, ih (l + 1), fun a ha b hb => ?_⟩
    · exact List.pairwise_replicate.mpr (.inr (Nat.le_refl _))
    · have := List.eq_of_mem_replicate ha
      have := lengthsOf_ge counts (l + 1) b hb
      omega

theorem lengthsOf_kraft (m : Nat) : ∀ (counts : List Nat) (l : Nat),
    ((lengthsOf l counts).map fun n => 2 ^ (m - n)).sum = countsKraft m l counts := by
  intro counts
  induction counts with
  | nil => intro l; rfl
  | cons c counts ih =>
    intro l
    simp [lengthsOf, countsKraft, ih]

theorem chain_canon {m : Nat} : ∀ (cs acc : List Code) (a : Nat), (∀ c ∈ cs, c.length ≤ m) →
    Asc cs → Chain acc cs → a + kraft m cs ≤ 32768 →
    (match acc with
      | [] => a = 0
      | last :: _ => (last.code + 1) * 2 ^ (m - last.length) = a ∧ last.length ≤ m ∧ ∀ c ∈ cs, last.length ≤ c.length) →
    Canon m a cs := by
  intro cs
  induction cs with
  | nil => intro _ _ _ _ _ _ _; trivial
  | cons c cs ih =>
    intro acc a hb hs hc hk hl
    obtain ⟨h1, h2, h3, h4⟩ := hc
    have hs' := List.pairwise_cons.mp hs
    have hcm := hb c (by simp)
    simp only [kraft_cons] at hk
    have hq := Nat.two_pow_pos (m - c.length)
    have e : c.code * 2 ^ (m - c.length) = a := by
      cases acc with
      | nil =>
        simp only at hl
        simp [h1, nextCode, hl]
      | cons last acc =>
        obtain ⟨l1, l2, l3⟩ := hl
        have l4 := l3 c (by simp)
        have l5 : (last.code + 1) * 2 ^ (c.length - last.length) * 2 ^ (m - c.length) = a := by
          rw [← l1, pow_split l4 hcm, ← Nat.mul_assoc]
        have := Nat.le_mul_of_pos_right ((last.code + 1) * 2 ^ (c.length - last.length)) hq
        rw [h1]; simp only [nextCode]
        rw [Nat.mod_eq_of_lt (by omega), l5]
    refine ⟨e, ih (c :: acc) _ (fun x hx => hb x (by simp [hx])) hs'.2 h4 (by omega) ⟨?_, hcm, hs'.1⟩⟩
    rw [Nat.add_mul, e, Nat.one_mul]

/-- Filling the table for codes whose counts satisfy the Kraft inequality (relative to the table). -/
theorem fillTable_safe {M : Nat} (hM : M ≤ 15) {counts : List Nat} {acc : List Code} {r r' : Reader} {table : List Entry}
    (hn : counts ≠ []) (hd : decodeAllSymbols 0 counts [] r = .ok (acc, r')) (ht : table.length = 2 ^ M)
    (hk : countsKraft (counts.length - 1) 0 counts ≤ 2 ^ M) :
    ∃ t', fillTable (counts.length - 1) acc.reverse table = .ok t' ∧ t'.length = 2 ^ M := by
  obtain ⟨_, new, h1, h2, h3⟩ := allSymbols_shape counts 0 [] r acc r' hd (by simp)
  rw [List.append_nil] at h1
  subst h1
  have hpM : 2 ^ M ≤ 32768 := by have := pow_M hM 0; simpa using this
  have hpos := List.length_pos_iff.mpr hn
  have hkr : kraft (counts.length - 1) acc.reverse = countsKraft (counts.length - 1) 0 counts := by
    rw [← lengthsOf_kraft, ← h2]
    simp only [kraft, List.map_map, Function.comp_def]
  have hle : ∀ c ∈ acc.reverse, c.length ≤ counts.length - 1 := by
    intro c hc
    have : c.length ∈ lengthsOf 0 counts := by rw [← h2]; exact List.mem_map_of_mem hc
    have := lengthsOf_ge counts 0 _ this
    omega
  have hasc : Asc acc.reverse := by
    have := lengthsOf_asc counts 0
    rw [← h2, List.pairwise_map] at this
    exact this
  have hc := chain_canon acc.reverse [] 0 hle hasc h3 (by omega) rfl
  obtain ⟨t', a1, a2, _⟩ := fillTable_spec (counts.length - 1) acc.reverse 0 table (by omega) hc (by omega)
  exact ⟨t', a1, by omega⟩

/-! ### Termination -/

/-- The reader's position has wrapped below zero. -/
def Wrapped (r : Reader) : Prop := 241 ≤ r.pos

theorem wrapped_peek {r : Reader} (h : Wrapped r) {size : Nat} (hs : size ≤ 32) : r.peekBits size = none := by
  unfold Wrapped at h
  unfold Reader.peekBits
  rw [if_neg (by omega)]
  have : ¬ r.pos - size < 64 := by omega
  simp only [shr64, if_neg this]

theorem wrapped_read {r : Reader} (h : Wrapped r) {size : Nat} (hs : size ≤ 32) : readWhole r size = .fault .shift := by
  simp [readWhole, Reader.readNarrow, wrapped_peek h hs]

theorem read_sane {r r' : Reader} (hr : RInv r) {size v : Nat} (hs : size ≤ 32) (h0 : 0 < size)
    (h : readWhole r size = .ok (v, r')) : RInv r' ∧ r'.unread.length + size = r.unread.length := by
  obtain ⟨r1, h1, h2, h3, h4, h5, h6⟩ := peek_spec hr hs (.inl h0)
  simp only [readWhole, Reader.readNarrow, h1] at h
  split at h
  · rename_i e
    simp at e
    cases h
    obtain ⟨e1, e2, e3, e4⟩ := discard_spec h2 h5
    refine ⟨e1, ?_⟩
    rw [e2, h3, List.length_drop]; omega
  · cases h

theorem counts_sane : ∀ (n : Nat) (r r' : Reader) (cs : List Nat), RInv r → decodeCounts n r = .ok (cs, r') →
    RInv r' ∧ r'.unread.length ≤ r.unread.length ∧ cs.length = n := by
  intro n
  induction n with
  | zero =>
    intro r r' cs hr h
    simp [decodeCounts] at h
    obtain ⟨rfl, rfl⟩ := h
    exact ⟨hr, Nat.le_refl _, rfl⟩
  | succ n ih =>
    intro r r' cs hr h
    simp only [decodeCounts] at h
    split at h
    · cases h
    · cases h
    · rename_i c r1 h1
      obtain ⟨a1, a2⟩ := read_sane hr (by omega) (by omega) h1
      split at h
      · cases h
      · cases h
      · rename_i cs' r2 h2
        obtain ⟨b1, b2, b3⟩ := ih r1 r2 cs' a1 h2
        cases h
        exact ⟨b1, by omega, by simp [b3]⟩

theorem symbolsOf_sane {length : Nat} : ∀ (n : Nat) (acc acc' : List Code) (r r' : Reader), RInv r →
    decodeSymbolsOf length n acc r = .ok (acc', r') → RInv r' ∧ r'.unread.length ≤ r.unread.length := by
  intro n
  induction n with
  | zero =>
    intro acc acc' r r' hr h
    simp [decodeSymbolsOf] at h
    obtain ⟨rfl, rfl⟩ := h
    exact ⟨hr, Nat.le_refl _⟩
  | succ n ih =>
    intro acc acc' r r' hr h
    simp only [decodeSymbolsOf] at h
    split at h
    · cases h
    · cases h
    · rename_i s r1 h1
      obtain ⟨a1, a2⟩ := read_sane hr (by omega) (by omega) h1
      split at h
      · cases h
      · obtain ⟨b1, b2⟩ := ih _ _ _ _ a1 h
        exact ⟨b1, by omega⟩

theorem allSymbols_sane : ∀ (counts : List Nat) (length : Nat) (acc acc' : List Code) (r r' : Reader), RInv r →
    decodeAllSymbols length counts acc r = .ok (acc', r') → RInv r' ∧ r'.unread.length ≤ r.unread.length := by
  intro counts
  induction counts with
  | nil =>
    intro length acc acc' r r' hr h
    simp [decodeAllSymbols] at h
    obtain ⟨rfl, rfl⟩ := h
    exact ⟨hr, Nat.le_refl _⟩
  | cons c counts ih =>
    intro length acc acc' r r' hr h
    simp only [decodeAllSymbols] at h
    split at h
    · cases h
    · cases h
    · rename_i acc1 r1 h1
      obtain ⟨a1, a2⟩ := symbolsOf_sane c acc acc1 r r1 hr h1
      obtain ⟨b1, b2⟩ := ih _ _ _ _ _ a1 h
      exact ⟨b1, by omega⟩

/-- All lengths in the table are below sixteen. -/
def TableOk (table : List Entry) : Prop := ∀ e ∈ table, e.2 ≤ 15

theorem fillCode_ok {base : Nat} {e : Entry} (he : e.2 ≤ 15) : ∀ (n j : Nat) (table t' : List Entry), TableOk table →
    fillCode base e n j table = .ok t' → TableOk t' := by
  intro n
  induction n with
  | zero => intro j table t' h h1; simp [fillCode] at h1; subst h1; exact h
  | succ n ih =>
    intro j table t' h h1
    simp only [fillCode, setEntry] at h1
    split at h1
    · cases h1
    · cases h1
    · rename_i t1 h2
      split at h2
      · cases h2
        refine ih _ _ _ ?_ h1
        intro x hx
        rcases List.mem_or_eq_of_mem_set hx with hx | hx
        · exact h x hx
        · rw [hx]; exact he
      · cases h2

theorem fillTable_ok {m : Nat} : ∀ (cs : List Code) (table t' : List Entry), (∀ c ∈ cs, c.length ≤ 15) → TableOk table →
    fillTable m cs table = .ok t' → TableOk t' := by
  intro cs
  induction cs with
  | nil => intro table t' _ h h1; simp [fillTable] at h1; subst h1; exact h
  | cons c cs ih =>
    intro table t' hc h h1
    simp only [fillTable] at h1
    split at h1
    · cases h1
    · cases h1
    · rename_i t1 h2
      exact ih _ _ (fun x hx => hc x (by simp [hx])) (fillCode_ok (hc c (by simp)) _ _ _ _ h h2) h1

theorem setEntry_fault {table : List Entry} {i : Nat} {e : Entry} {f : Fault} (h : setEntry table i e = .fault f) :
    f = .bounds := by
  unfold setEntry at h; split at h
  · cases h
  · cases h; rfl

theorem fillCode_no_fuel {base : Nat} {e : Entry} : ∀ (n j : Nat) (table : List Entry),
    fillCode base e n j table ≠ .fault .fuel := by
  intro n
  induction n with
  | zero => intro j table; simp [fillCode]
  | succ n ih =>
    intro j table h
    simp only [fillCode] at h
    split at h
    · rename_i f hf; cases h; have := setEntry_fault hf; cases this
    · cases h
    · exact ih _ _ h

theorem fillTable_no_fuel {m : Nat} : ∀ (cs : List Code) (table : List Entry), fillTable m cs table ≠ .fault .fuel := by
  intro cs
  induction cs with
  | nil => intro table; simp [fillTable]
  | cons c cs ih =>
    intro table h
    simp only [fillTable] at h
    split at h
    · rename_i f hf; cases h; exact fillCode_no_fuel _ _ _ hf
    · cases h
    · exact ih _ h

theorem readWhole_no_fuel {r : Reader} {n : Nat} : readWhole r n ≠ .fault .fuel := by
  unfold readWhole; split
  · simp
  · split <;> simp

theorem counts_no_fuel : ∀ (n : Nat) (r : Reader), decodeCounts n r ≠ .fault .fuel := by
  intro n
  induction n with
  | zero => intro r; simp [decodeCounts]
  | succ n ih =>
    intro r h
    simp only [decodeCounts] at h
    split at h
    · rename_i f hf; cases h; exact readWhole_no_fuel hf
    · cases h
    · split at h
      · rename_i f hf; cases h; exact ih _ hf
      · cases h
      · cases h

theorem symbolsOf_no_fuel {length : Nat} : ∀ (n : Nat) (acc : List Code) (r : Reader),
    decodeSymbolsOf length n acc r ≠ .fault .fuel := by
  intro n
  induction n with
  | zero => intro acc r; simp [decodeSymbolsOf]
  | succ n ih =>
    intro acc r h
    simp only [decodeSymbolsOf] at h
    split at h
    · rename_i f hf; cases h; exact readWhole_no_fuel hf
    · cases h
    · split at h
      · cases h
      · exact ih _ _ h

theorem allSymbols_no_fuel : ∀ (counts : List Nat) (length : Nat) (acc : List Code) (r : Reader),
    decodeAllSymbols length counts acc r ≠ .fault .fuel := by
  intro counts
  induction counts with
  | nil => intro length acc r; simp [decodeAllSymbols]
  | cons c counts ih =>
    intro length acc r h
    simp only [decodeAllSymbols] at h
    split at h
    · rename_i f hf; cases h; exact symbolsOf_no_fuel _ _ _ hf
    · cases h
    · exact ih _ _ _ h

theorem codes_no_fuel {M : Nat} {table : List Entry} {r : Reader} : decodeCodes M table r ≠ .fault .fuel := by
  intro h
  simp only [decodeCodes] at h
  split at h
  · rename_i f hf; cases h; exact readWhole_no_fuel hf
  · cases h
  · split at h
    · cases h
    · split at h
      · rename_i f hf; cases h; exact counts_no_fuel _ _ hf
      · cases h
      · split at h
        · rename_i f hf; cases h; exact allSymbols_no_fuel _ _ _ _ hf
        · cases h
        · split at h
          · rename_i f hf; cases h; exact fillTable_no_fuel _ _ hf
          · cases h
          · cases h

theorem codes_sane {M m : Nat} (hM : M ≤ 15) {table t' : List Entry} {r r' : Reader} (hr : RInv r) (ht : TableOk table)
    (h : decodeCodes M table r = .ok (m, t', r')) :
    RInv r' ∧ r'.unread.length + 8 ≤ r.unread.length ∧ TableOk t' ∧ m ≤ 15 := by
  simp only [decodeCodes] at h
  split at h
  · cases h
  · cases h
  · rename_i size r1 h1
    obtain ⟨a1, a2⟩ := read_sane hr (by omega) (by omega) h1
    split at h
    · cases h
    · rename_i hsz
      split at h
      · cases h
      · cases h
      · rename_i counts r2 h2
        obtain ⟨b1, b2, b3⟩ := counts_sane _ _ _ _ a1 h2
        split at h
        · cases h
        · cases h
        · rename_i acc r3 h3
          obtain ⟨c1, c2⟩ := allSymbols_sane _ _ _ _ _ _ b1 h3
          split at h
          · cases h
          · cases h
          · rename_i t1 h4
            cases h
            refine ⟨c1, by omega, fillTable_ok _ _ _ ?_ ht h4, by omega⟩
            obtain ⟨_, new, d1, d2, _⟩ := allSymbols_shape counts 0 [] r2 acc r' h3 (by simp)
            rw [List.append_nil] at d1
            subst d1
            intro c hc
            have : c.length ∈ lengthsOf 0 counts := by rw [← d2]; exact List.mem_map_of_mem hc
            have := lengthsOf_ge counts 0 _ this
            omega

theorem loop_sane {m : Nat} (hm : m ≤ 15) {table : List Entry} (ht : TableOk table) : ∀ (n : Nat) (r r' : Reader) (out : List Nat),
    (RInv r ∨ Wrapped r) → decodeLoop m table n r = .ok (out, r') →
    (RInv r' ∧ (RInv r → r'.unread.length ≤ r.unread.length)) ∨ Wrapped r' := by
  intro n
  induction n with
  | zero =>
    intro r r' out hr h
    simp [decodeLoop] at h
    obtain ⟨rfl, rfl⟩ := h
    rcases hr with hr | hr
    · exact .inl ⟨hr, fun _ => Nat.le_refl _⟩
    · exact .inr hr
  | succ n ih =>
    intro r r' out hr h
    rcases hr with hr | hr
    · simp only [decodeLoop] at h
      split at h
      · cases h
      · rename_i pre bits r1 hp
        have hinv : RInv r1 ∧ r1.unread = r.unread := by
          by_cases hok : 0 < m ∨ r.pos < 64
          · obtain ⟨r2, h1, h2, h3, _⟩ := peek_spec hr (size := m) (by omega) hok
            rw [hp] at h1; cases h1; exact ⟨h2, h3⟩
          · exfalso
            have hm0 : m = 0 := by omega
            subst hm0
            unfold Reader.peekBits at hp
            rw [if_neg (by omega)] at hp
            simp [shr64] at hp
            split at hp
            · cases hp
            · rename_i heq; split at heq
              · omega
              · cases heq
        split at h
        · cases h; left; exact ⟨hinv.1, fun _ => by rw [hinv.2]; exact Nat.le_refl _⟩
        · split at h
          · cases h
          · rename_i symbol length hl
            split at h
            · cases h
            · cases h
            · rename_i out' r2 h2
              cases h
              have hlen : length ≤ 15 := ht _ (List.mem_of_getElem? hl)
              by_cases hle : length ≤ r1.pos
              · obtain ⟨e1, e2, _, _⟩ := discard_spec hinv.1 hle
                rcases ih _ _ _ (.inl e1) h2 with ⟨f1, f2⟩ | f1
                · left
                  refine ⟨f1, fun _ => ?_⟩
                  have := f2 e1
                  rw [e2, hinv.2, List.length_drop] at this
                  omega
                · exact .inr f1
              · have hw : Wrapped (r1.discardBits length) := by
                  unfold Wrapped Reader.discardBits
                  simp only; omega
                rcases ih _ _ _ (.inr hw) h2 with f | f
                · cases n with
                  | zero =>
                    simp [decodeLoop] at h2
                    right; rw [← h2.2]; exact hw
                  | succ n => simp [decodeLoop, wrapped_peek hw (show m ≤ 32 by omega)] at h2
                · exact .inr f
    · simp [decodeLoop, wrapped_peek hr (show m ≤ 32 by omega)] at h

theorem loop_no_fuel {m : Nat} {table : List Entry} : ∀ (n : Nat) (r : Reader), decodeLoop m table n r ≠ .fault .fuel := by
  intro n
  induction n with
  | zero => intro r; simp [decodeLoop]
  | succ n ih =>
    intro r h
    simp only [decodeLoop] at h
    split at h
    · cases h
    · split at h
      · cases h
      · split at h
        · cases h
        · split at h
          · rename_i f hf; cases h; exact ih _ hf
          · cases h
          · cases h

theorem chunks_no_fuel {M size : Nat} (hM : M ≤ 15) : ∀ (fuel : Nat) (table : List Entry) (r : Reader),
    TableOk table → (RInv r ∧ r.unread.length < 8 * fuel ∨ Wrapped r ∧ 0 < fuel) →
    decodeChunks M size fuel table r ≠ .fault .fuel := by
  intro fuel
  induction fuel with
  | zero => intro table r ht hr; omega
  | succ fuel ih =>
    intro table r ht hr h
    simp only [decodeChunks] at h
    split at h
    · cases h
    · rcases hr with ⟨hr, hf⟩ | ⟨hr, _⟩
      · split at h
        · rename_i f hf'; cases h; exact codes_no_fuel hf'
        · cases h
        · rename_i m t1 r1 h1
          obtain ⟨a1, a2, a3, a4⟩ := codes_sane hM hr ht h1
          simp only [decodeSymbols] at h
          cases hl : decodeLoop m t1 size r1 with
          | fault f => simp [hl] at h; subst h; exact loop_no_fuel _ _ hl
          | fail => simp [hl] at h
          | ok x =>
            obtain ⟨out, r2⟩ := x
            simp only [hl] at h
            split at h
            · rename_i f hf2; split at hf2 <;> cases hf2
            · cases h
            · rename_i out2 r3 hf2
              have he : r3 = r2 := by split at hf2 <;> cases hf2; rfl
              subst he
              split at h
              · rename_i f hf3
                cases h
                refine ih t1 r3 a3 ?_ hf3
                rcases loop_sane a4 a3 size r1 r3 out (.inl a1) hl with ⟨b1, b2⟩ | b1
                · left; exact ⟨b1, by have := b2 a1; omega⟩
                · right; exact ⟨b1, by omega⟩
              · cases h
              · cases h
      · have : decodeCodes M table r = .fault .shift := by
          simp [decodeCodes, wrapped_read hr (show 8 ≤ 32 by omega)]
        rw [this] at h; cases h

end Verif.Huffman
