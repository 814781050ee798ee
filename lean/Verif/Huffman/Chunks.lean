import Verif.Huffman.Decode

/-!
# Whole streams
-/

namespace Verif.Huffman
open Verif.Bits Verif.BitStream

theorem coded_length {M : Nat} {chunk : List Nat} {cs : List Code} (h : Coded M chunk cs) : cs.length ≤ 256 := by
  have := h.symbols.length_eq
  simp at this
  rw [this]; exact alphabet_length chunk

theorem coded_symbol {M : Nat} {chunk : List Nat} {cs : List Code} (h : Coded M chunk cs) {c : Code} (hc : c ∈ cs) :
    c.symbol < 256 := alphabet_lt (h.symbols.mem_iff.mp (List.mem_map_of_mem hc))

theorem coded_max {M : Nat} {chunk : List Nat} {cs : List Code} (h : Coded M chunk cs) : 1 ≤ maxLength cs ∧ maxLength cs ≤ M := by
  refine ⟨?_, maxLength_le h.le⟩
  cases hcs : cs with
  | nil => exact absurd hcs h.ne
  | cons c l =>
    have h1 := h.pos c (by simp [hcs])
    have h2 : c.length ≤ maxLength (c :: l) := le_maxLength (by simp)
    omega

/-- Reading back the code table of one chunk. -/
theorem decodeCodes_spec {M : Nat} (hM : M ≤ 15) {chunk : List Nat} {cs : List Code} (h : Coded M chunk cs)
    {table : List Entry} (ht : table.length = 2 ^ M) {r : Reader} {U : List Bool}
    (hr : Rd r (written (codesWrites cs) ++ U)) :
    ∃ t' r', decodeCodes M table r = .ok (maxLength cs, t', r') ∧ t'.length = 2 ^ M ∧
      Decodes (maxLength cs) t' cs ∧ Rd r' U := by
  obtain ⟨hm1, hm2⟩ := coded_max h
  have hn := coded_length h
  have hpM : 2 ^ M ≤ 32768 := by have := pow_M hM 0; simpa using this
  have hmod : (maxLength cs + 1) % 256 = maxLength cs + 1 := Nat.mod_eq_of_lt (by omega)
  simp only [codesWrites, hmod, List.cons_append, written, written_append, List.append_assoc] at hr
  obtain ⟨r1, a1, a2⟩ := rd_read hr (by omega) (by omega)
  obtain ⟨r2, b1, b2⟩ := counts_spec (fun l => cs.countP fun c => c.length == l)
    (fun l => by have := List.countP_le_length (p := fun c : Code => c.length == l) (l := cs); omega) _ r1 _ a2
  rw [List.length_range] at b1
  have hchain : Chain [] cs := canon_chain (m := maxLength cs) (by omega) cs [] 0
    (fun c hc => ⟨le_maxLength hc, coded_symbol h hc⟩) h.asc h.canon (by have := h.kraft; omega) (by simpa using hn) rfl
  obtain ⟨r3, c1, c2⟩ := allSymbols_spec (maxLength cs + 1) 0 cs [] r2 U h.asc
    (fun c hc => ⟨by omega, by have := le_maxLength hc; omega⟩) hchain b2
  have hpm : 2 ^ maxLength cs ≤ 2 ^ M := Nat.pow_le_pow_right (by omega) hm2
  obtain ⟨t', d1, d2, d3, _⟩ := fillTable_spec (maxLength cs) cs 0 table (by omega) h.canon (by have := h.kraft; omega)
  refine ⟨t', r3, ?_, by omega, ?_, c2⟩
  · have hsz : ¬ (maxLength cs + 1 = 0 ∨ maxLength cs + 1 > M + 1) := by omega
    simp only [decodeCodes, a1, hsz, if_false, b1, List.range_eq_range', c1, List.append_nil, List.reverse_reverse,
      Nat.add_sub_cancel, d1]
  · intro c hc
    exact ⟨h.pos c hc, le_maxLength hc, coded_lt h hc, d3 c hc⟩

theorem chunks_cons {size : Nat} {input : List Nat} (hs : 0 < size) (hi : input ≠ []) :
    chunks size input = input.take size :: chunks size (input.drop size) := by
  rw [chunks]
  simp only [hi, or_false, show ¬ size = 0 by omega, dif_neg, not_false_eq_true]

theorem chunks_nil (size : Nat) : chunks size [] = [] := by
  rw [chunks]; simp

theorem mem_chunks {size : Nat} : ∀ (n : Nat) (input : List Nat), input.length ≤ n → ∀ ch ∈ chunks size input,
    ch ≠ [] ∧ ∀ b ∈ ch, b ∈ input := by
  intro n
  induction n with
  | zero =>
    intro input h ch hc
    have : input = [] := List.length_eq_zero_iff.mp (by omega)
    subst this; rw [chunks_nil] at hc; simp at hc
  | succ n ih =>
    intro input h ch hc
    by_cases hs : size = 0
    · rw [chunks] at hc; simp [hs] at hc
    by_cases hi : input = []
    · subst hi; rw [chunks_nil] at hc; simp at hc
    rw [chunks_cons (by omega) hi] at hc
    have hlen := List.length_pos_iff.mpr hi
    rcases List.mem_cons.mp hc with e | e
    · subst e
      refine ⟨?_, fun b hb => List.mem_of_mem_take hb⟩
      intro e
      rcases List.take_eq_nil_iff.mp e with e | e
      · omega
      · exact hi e
    · obtain ⟨h1, h2⟩ := ih (input.drop size) (by simp; omega) ch e
      exact ⟨h1, fun b hb => List.mem_of_mem_drop (h2 b hb)⟩

/-- The codes of every chunk are fit for it. -/
theorem coded_of_create {M : Nat} (hM1 : 1 ≤ M) (hM : M ≤ 15) {chunk : List Nat} {t : Tree} {cs : List Code}
    (ht : Build (leavesOf chunk) t) (hc : createCodes M t = some cs) (hn : (alphabet chunk).length ≤ 2 ^ M) :
    Coded M chunk cs := by
  obtain ⟨cs', h1, h2⟩ := createCodes_spec hM1 hM ht hn
  rw [hc] at h1
  cases h1; exact h2

theorem decodeChunks_spec {M size : Nat} (hM1 : 1 ≤ M) (hM : M ≤ 15) (hs : 0 < size) :
    ∀ (fuel : Nat) (input : List Nat) (ws : List (Nat × Nat)) (table : List Entry) (r : Reader),
      (∀ b ∈ input, b < 256) → (∀ chunk ∈ chunks size input, (alphabet chunk).length ≤ 2 ^ M) →
      ChunkWrites M (chunks size input) ws → table.length = 2 ^ M → Rd r (written ws) →
      (written ws).length < 8 * fuel → decodeChunks M size fuel table r = .ok input := by
  intro fuel
  induction fuel with
  | zero => intro _ _ _ _ _ _ _ _ _ h; omega
  | succ fuel ih =>
    intro input ws table r hb hroom hw ht hr hf
    by_cases hi : input = []
    · subst hi
      rw [chunks_nil] at hw
      cases hw
      have := (rd_consumed hr).mpr rfl
      simp [decodeChunks, this]
    · rw [chunks_cons hs hi] at hw hroom
      cases hw with
      | @cons _ _ t cs ws' hbuild hcreate hrest =>
        have hc := coded_of_create hM1 hM hbuild hcreate (hroom _ (by simp))
        rw [written_append, written_append, List.append_assoc] at hr
        obtain ⟨t', r1, a1, a2, a3, a4⟩ := decodeCodes_spec hM hc ht hr
        obtain ⟨hm1, hm2⟩ := coded_max hc
        have hall : ∀ b ∈ input.take size, b ∈ cs.map (·.symbol) := by
          intro b hbm
          refine hc.symbols.mem_iff.mpr ((mem_alphabet (hb b (List.mem_of_mem_take hbm))).mpr hbm)
        have hU : size = (input.take size).length ∨ written ws' = [] := by
          by_cases hl : size ≤ input.length
          · left; simp; omega
          · right
            rw [List.drop_of_length_le (by omega), chunks_nil] at hrest
            cases hrest; rfl
        obtain ⟨r2, b1, b2⟩ := decodeLoop_spec hm1 (by omega) a3 (input.take size) size r1 (written ws') hall
          (by simp; omega) hU a4
        have hnc : r.fullyConsumed = false := by
          cases h : r.fullyConsumed with
          | false => rfl
          | true =>
            have := (rd_consumed hr).mp h
            simp [codesWrites, written, toBits] at this
        have hds : decodeSymbols (maxLength cs) size t' r1 = .ok (input.take size, r2) := by
          have : (input.take size).length = size ∨ r2.fullyConsumed = true := by
            rcases hU with h | h
            · exact .inl h.symm
            · exact .inr ((rd_consumed b2).mpr h)
          simp only [decodeSymbols, b1, this, if_true]
        have hrec := ih (input.drop size) ws' t' r2 (fun b hbm => hb b (List.mem_of_mem_drop hbm))
          (fun ch hch => hroom ch (by simp [hch])) hrest a2 b2 (by
            rw [written_append, written_append, List.length_append, List.length_append] at hf
            have : 8 ≤ (written (codesWrites cs)).length := by simp [codesWrites, written]
            omega)
        simp only [decodeChunks, hnc, a1, hds, hrec, List.take_append_drop]
        rfl

/-! ### The writes are legal -/

theorem legal_append {a b : List (Nat × Nat)} (ha : Legal a) (hb : Legal b) : Legal (a ++ b) := by
  intro p hp
  rcases List.mem_append.mp hp with h | h
  · exact ha p h
  · exact hb p h

/-- Legal writes all shorter than 64 bits. -/
def Short (ws : List (Nat × Nat)) : Prop := Legal ws ∧ ∀ p ∈ ws, p.1 < 64

theorem short_append {a b : List (Nat × Nat)} (ha : Short a) (hb : Short b) : Short (a ++ b) := by
  refine ⟨legal_append ha.1 hb.1, fun p hp => ?_⟩
  rcases List.mem_append.mp hp with h | h
  · exact ha.2 p h
  · exact hb.2 p h

theorem short_of {ws : List (Nat × Nat)} (h : ∀ p ∈ ws, 0 < p.1 ∧ p.1 < 64 ∧ p.2 < 2 ^ p.1) : Short ws :=
  ⟨fun p hp => ⟨(h p hp).1, by have := (h p hp).2.1; omega, (h p hp).2.2⟩, fun p hp => (h p hp).2.1⟩

theorem codes_short {M : Nat} {chunk : List Nat} {cs : List Code} (h : Coded M chunk cs) :
    Short (codesWrites cs) := by
  refine short_of fun p hp => ?_
  simp only [codesWrites, List.mem_append, List.mem_cons, List.mem_map, List.cons_append] at hp
  have hm := coded_max h
  rcases hp with rfl | ⟨l, _, rfl⟩ | ⟨c, hc, rfl⟩
  · refine ⟨by simp, by simp, ?_⟩
    show (maxLength cs + 1) % 256 < 2 ^ 8
    omega
  · refine ⟨by simp, by simp, ?_⟩
    have := List.countP_le_length (p := fun c : Code => c.length == l) (l := cs)
    have := coded_length h
    show cs.countP _ < 2 ^ 16
    omega
  · have := coded_symbol h hc
    refine ⟨by simp, by simp, ?_⟩
    show c.symbol < 2 ^ 8
    omega

theorem symbols_short {M : Nat} (hM : M ≤ 15) {chunk : List Nat} {cs : List Code} (h : Coded M chunk cs)
    (hb : ∀ b ∈ chunk, b < 256) : Short (symbolsWrites cs chunk) := by
  refine short_of fun p hp => ?_
  obtain ⟨b, hbm, rfl⟩ := List.mem_map.mp hp
  have := lookup_mem (h.symbols.mem_iff.mpr ((mem_alphabet (hb b hbm)).mpr hbm))
  have h1 := h.pos _ this.1
  have h2 := h.le _ this.1
  exact ⟨by simp only; omega, by simp only; omega, coded_lt h this.1⟩

theorem chunkWrites_short {M : Nat} (hM1 : 1 ≤ M) (hM : M ≤ 15) : ∀ {cks : List (List Nat)} {ws : List (Nat × Nat)},
    ChunkWrites M cks ws → (∀ ck ∈ cks, (∀ b ∈ ck, b < 256) ∧ (alphabet ck).length ≤ 2 ^ M) → Short ws := by
  intro cks ws h
  induction h with
  | nil => intro _; exact short_of (by simp)
  | @cons chunk rest t cs ws hb hc _ ih =>
    intro hk
    have h := coded_of_create hM1 hM hb hc (hk chunk (by simp)).2
    exact short_append (short_append (codes_short h) (symbols_short hM h (hk chunk (by simp)).1))
      (ih fun ck hck => hk ck (by simp [hck]))

theorem header_short {kb M : Nat} (hk : kb < 65536) (hM : M ≤ 15) : Short (headerWrites kb M) := by
  refine short_of fun p hp => ?_
  simp [headerWrites] at hp
  rcases hp with rfl | rfl | rfl <;> simp <;> omega

/-! ### The encoder always finishes -/

theorem exists_min (q : List Tree) (h : q ≠ []) : ∃ x rest, q.Perm (x :: rest) ∧ ∀ y ∈ rest, x.freq ≤ y.freq := by
  induction q with
  | nil => exact absurd rfl h
  | cons a q ih =>
    cases q with
    | nil => exact ⟨a, [], .refl _, by simp⟩
    | cons b q =>
      obtain ⟨x, rest, h1, h2⟩ := ih (by simp)
      by_cases hc : a.freq ≤ x.freq
      · refine ⟨a, b :: q, .refl _, fun y hy => ?_⟩
        rcases List.mem_cons.mp (h1.mem_iff.mp hy) with e | e
        · subst e; exact hc
        · exact Nat.le_trans hc (h2 y e)
      · refine ⟨x, a :: rest, (h1.cons a).trans (.swap x a rest), fun y hy => ?_⟩
        rcases List.mem_cons.mp hy with e | e
        · subst e; omega
        · exact h2 y e

theorem build_exists : ∀ (n : Nat) (q : List Tree), q.length = n → q ≠ [] → ∃ t, Build q t := by
  intro n
  induction n with
  | zero => intro q h hn; exact absurd (List.length_eq_zero_iff.mp h) hn
  | succ n ih =>
    intro q h hn
    obtain ⟨x, rest, h1, h2⟩ := exists_min q hn
    cases hr : rest with
    | nil =>
      subst hr
      have : q = [x] := List.perm_singleton.mp h1
      subst this; exact ⟨x, .done⟩
    | cons a as =>
      obtain ⟨y, rest', h3, h4⟩ := exists_min rest (by simp [hr])
      obtain ⟨t, ht⟩ := ih (.node x y :: rest') (by
        have := h1.length_eq; have := h3.length_eq; simp at *; omega) (by simp)
      refine ⟨t, .step (h1.trans (h3.cons x)) (fun z hz => h2 z (h3.mem_iff.mpr hz)) h4 ht⟩

theorem chunkWrites_exists {M : Nat} (hM1 : 1 ≤ M) (hM : M ≤ 15) : ∀ (cks : List (List Nat)),
    (∀ ck ∈ cks, ck ≠ [] ∧ (∀ b ∈ ck, b < 256) ∧ (alphabet ck).length ≤ 2 ^ M) → ∃ ws, ChunkWrites M cks ws := by
  intro cks
  induction cks with
  | nil => intro _; exact ⟨[], .nil⟩
  | cons ck cks ih =>
    intro h
    obtain ⟨h1, h2, h3⟩ := h ck (by simp)
    obtain ⟨ws, hws⟩ := ih fun c hc => h c (by simp [hc])
    have hne : leavesOf ck ≠ [] := by
      cases ck with
      | nil => exact absurd rfl h1
      | cons b ck =>
        intro e
        have hq := leavesOf_symbols (b :: ck)
        rw [e] at hq
        have : b ∈ alphabet (b :: ck) := (mem_alphabet (h2 b (by simp))).mpr (by simp)
        rw [← hq] at this
        simp [queueSymbols] at this
    obtain ⟨t, ht⟩ := build_exists _ (leavesOf ck) rfl hne
    obtain ⟨cs, hcs, _⟩ := createCodes_spec hM1 hM ht h3
    exact ⟨_, .cons ht hcs hws⟩

end Verif.Huffman
