import Verif.Huffman.Props

/-! # C10, exactly: which count tables make the decoder write outside its prefix table -/

namespace Verif.Huffman
open Verif.Bits Verif.BitStream

theorem fillCode_overflow (base : Nat) (e : Entry) : ∀ (n j : Nat) (table : List Entry), base + j + n ≤ 65536 →
    base + j ≤ table.length → table.length < base + j + n → fillCode base e n j table = .fault .bounds := by
  intro n
  induction n with
  | zero => intro j table _ h1 h2; omega
  | succ n ih =>
    intro j table h0 h1 h2
    have hm : (base + j) % 65536 = base + j := Nat.mod_eq_of_lt (by omega)
    by_cases hlt : base + j < table.length
    · simp only [fillCode, setEntry, hm, hlt, if_true]
      exact ih (j + 1) _ (by omega) (by simp; omega) (by simp; omega)
    · simp only [fillCode, setEntry, hm, hlt, if_false]

theorem fillTable_overflow {m : Nat} (hm15 : m ≤ 15) : ∀ (cs acc : List Code) (a : Nat) (table : List Entry),
    (∀ c ∈ cs, c.length ≤ m) → Asc cs → Chain acc cs → table.length ≤ 32768 → a ≤ table.length →
    table.length < a + kraft m cs →
    (match acc with
      | [] => a = 0
      | last :: _ => (last.code + 1) * 2 ^ (m - last.length) = a ∧ last.length ≤ m ∧ ∀ c ∈ cs, last.length ≤ c.length) →
    fillTable m cs table = .fault .bounds := by
  intro cs
  induction cs with
  | nil => intro _ a table _ _ _ _ h1 h2 _; simp at h2; omega
  | cons c cs ih =>
    intro acc a table hb hs hc ht ha hk hl
    obtain ⟨h1, h2, h3, h4⟩ := hc
    have hs' := List.pairwise_cons.mp hs
    have hcm := hb c (by simp)
    simp only [kraft_cons] at hk
    have hq := Nat.two_pow_pos (m - c.length)
    have hq15 : 2 ^ (m - c.length) ≤ 32768 := by
      have : 2 ^ (m - c.length) ≤ 2 ^ 15 := Nat.pow_le_pow_right (by decide) (by omega)
      simpa using this
    have e : c.code * 2 ^ (m - c.length) = a := by
      cases acc with
      | nil =>
        simp only at hl
        simp [h1, nextCode, hl]
      | cons last acc =>
        obtain ⟨l1, l2, l3⟩ := hl
        have l4 := l3 c (by simp)
        have l5 : (last.code + 1) * 2 ^ (c.length - last.length) * 2 ^ (m - c.length) = a := by
          rw [← l1, pow_split l4 hcm, ← Nat.mul_assoc]
        have := Nat.le_mul_of_pos_right ((last.code + 1) * 2 ^ (c.length - last.length)) hq
        rw [h1]; simp only [nextCode]
        rw [Nat.mod_eq_of_lt (by omega), l5]
    rw [fillTable, e]
    by_cases hfit : a + 2 ^ (m - c.length) ≤ table.length
    · obtain ⟨t1, a1, a2, _⟩ := fillCode_spec a (c.symbol, c.length) (2 ^ (m - c.length)) 0 table (by omega) (by omega)
      rw [a1]
      simp only
      refine ih (c :: acc) (a + 2 ^ (m - c.length)) t1 (fun x hx => hb x (by simp [hx])) hs'.2 h4 (by omega) (by omega)
        (by omega) ⟨?_, hcm, hs'.1⟩
      rw [Nat.add_mul, e, Nat.one_mul]
    · rw [fillCode_overflow a _ _ 0 table (by omega) (by omega) (by omega)]

/-- **C10, exactly.** When a code table was read, filling the prefix table writes outside it exactly if the Kraft sum
of the counts (each code of length `l` takes `2 ^ (longest - l)` entries) exceeds the `2 ^ M` entries there are; otherwise
it succeeds. The decoder does not check this. -/
theorem prefix_table_exact (M : Nat) (hM : M ≤ 15) (counts : List Nat) (hn : counts ≠ []) (hl : counts.length ≤ M + 1)
    (acc : List Code) (r r' : Reader) (hd : decodeAllSymbols 0 counts [] r = .ok (acc, r'))
    (table : List Entry) (ht : table.length = 2 ^ M) :
    (fillTable (counts.length - 1) acc.reverse table = .fault .bounds ↔ 2 ^ M < countsKraft (counts.length - 1) 0 counts) ∧
    (countsKraft (counts.length - 1) 0 counts ≤ 2 ^ M ↔
      ∃ t', fillTable (counts.length - 1) acc.reverse table = .ok t' ∧ t'.length = 2 ^ M) := by
  have safe := fillTable_safe hM hn hd ht
  have over : 2 ^ M < countsKraft (counts.length - 1) 0 counts →
      fillTable (counts.length - 1) acc.reverse table = .fault .bounds := by
    intro hk
    obtain ⟨_, new, h1, h2, h3⟩ := allSymbols_shape counts 0 [] r acc r' hd (by simp)
    rw [List.append_nil] at h1
    subst h1
    have hpM : 2 ^ M ≤ 32768 := by have := pow_M hM 0; simpa using this
    have hpos := List.length_pos_iff.mpr hn
    have hkr : kraft (counts.length - 1) acc.reverse = countsKraft (counts.length - 1) 0 counts := by
      rw [← lengthsOf_kraft, ← h2]
      simp only [kraft, List.map_map, Function.comp_def]
    have hle : ∀ c ∈ acc.reverse, c.length ≤ counts.length - 1 := by
      intro c hc
      have : c.length ∈ lengthsOf 0 counts := by rw [← h2]; exact List.mem_map_of_mem hc
      have := lengthsOf_ge counts 0 _ this
      omega
    have hasc : Asc acc.reverse := by
      have := lengthsOf_asc counts 0
      rw [← h2, List.pairwise_map] at this
      exact this
    exact fillTable_overflow (by omega) acc.reverse [] 0 table hle hasc h3 (by omega) (by omega) (by omega) rfl
  refine ⟨⟨fun h => ?_, over⟩, safe, ?_⟩
  · rcases Nat.lt_or_ge (2 ^ M) (countsKraft (counts.length - 1) 0 counts) with hk | hk
    · exact hk
    · obtain ⟨t', e, _⟩ := safe hk
      rw [e] at h; cases h
  · rintro ⟨t', e, _⟩
    rcases Nat.lt_or_ge (2 ^ M) (countsKraft (counts.length - 1) 0 counts) with hk | hk
    · rw [over hk] at e; cases e
    · exact hk

/-- The hostile stream of `huffman_decoder_safe_violated` announces three codes of length one for a table of two. -/
example : 2 ^ 1 < countsKraft ([0, 3].length - 1) 0 [0, 3] := by decide

end Verif.Huffman
