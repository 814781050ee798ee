import Verif.Huffman.Canonical
import Verif.BitStream.Props

/-!
# Decoding what the encoder wrote
-/

namespace Verif.Huffman
open Verif.Bits Verif.BitStream

/-- A healthy reader with these bits still to come. -/
structure Rd (r : Reader) (U : List Bool) : Prop where
  inv : RInv r
  pos : r.pos < 64
  good : r.good = true
  unread : r.unread = U

theorem written_append (a b : List (Nat × Nat)) : written (a ++ b) = written a ++ written b := by
  induction a with
  | nil => rfl
  | cons p a ih => simp [written, ih]

theorem rd_read {r : Reader} {U : List Bool} {n v : Nat} (h : Rd r (toBits n v ++ U)) (hv : v < 2 ^ n) (hn : n ≤ 32) :
    ∃ r', readWhole r n = .ok (v, r') ∧ Rd r' U := by
  obtain ⟨r', h1, h2, h3, h4, h5⟩ := readNarrow_spec h.inv hn h.pos
  have hmin : min n r.unread.length = n := by rw [h.unread]; simp
  have htake : r.unread.take n = toBits n v := by
    rw [h.unread]; exact List.take_left' (toBits_length n v)
  rw [hmin, htake, ofBits_toBits_of_lt hv] at h1
  refine ⟨r', ?_, h2, h5, by rw [h4]; exact h.good, ?_⟩
  · simp [readWhole, h1]
  · rw [h3, h.unread]; exact List.drop_left' (toBits_length n v)

theorem rd_consumed {r : Reader} {U : List Bool} (h : Rd r U) : r.fullyConsumed = true ↔ U = [] := by
  have hU := h.unread
  unfold Reader.unread at hU
  simp only [h.good, if_true] at hU
  constructor
  · intro hc
    simp [Reader.fullyConsumed] at hc
    rw [hc.1, hc.2] at hU
    simpa [toBits] using hU.symm
  · intro e
    subst e
    have h1 := congrArg List.length hU
    simp at h1
    have h2 := h.inv.rem
    have h3 : r.rest.length = 0 := by omega
    simp [Reader.fullyConsumed, h1.1, List.length_eq_zero_iff.mp h3]

theorem counts_spec (f : Nat → Nat) (hf : ∀ l, f l < 65536) : ∀ (ls : List Nat) (r : Reader) (U : List Bool),
    Rd r (written (ls.map fun l => (16, f l)) ++ U) →
    ∃ r', decodeCounts ls.length r = .ok (ls.map f, r') ∧ Rd r' U := by
  intro ls
  induction ls with
  | nil => intro r U h; exact ⟨r, rfl, by simpa [written] using h⟩
  | cons l ls ih =>
    intro r U h
    simp only [List.map_cons, written, List.append_assoc] at h
    obtain ⟨r1, h1, h2⟩ := rd_read h (by have := hf l; omega) (by omega)
    obtain ⟨r2, h3, h4⟩ := ih r1 U h2
    exact ⟨r2, by simp [decodeCounts, h1, h3], h4⟩

/-- Each code is the one the decoder would assign. -/
def Chain : List Code → List Code → Prop
  | _, [] => True
  | acc, c :: cs => c.code = nextCode acc c.length ∧ acc.length < 256 ∧ c.symbol < 256 ∧ Chain (c :: acc) cs

theorem chain_append : ∀ (a acc b : List Code), Chain acc (a ++ b) ↔ Chain acc a ∧ Chain (a.reverse ++ acc) b := by
  intro a
  induction a with
  | nil => intro acc b; simp [Chain]
  | cons c a ih => intro acc b; simp [Chain, ih, and_assoc]

theorem symbolsOf_spec (l : Nat) : ∀ (cs acc : List Code) (r : Reader) (U : List Bool), (∀ c ∈ cs, c.length = l) →
    Chain acc cs → Rd r (written (cs.map fun c => (8, c.symbol)) ++ U) →
    ∃ r', decodeSymbolsOf l cs.length acc r = .ok (cs.reverse ++ acc, r') ∧ Rd r' U := by
  intro cs
  induction cs with
  | nil => intro acc r U _ _ h; exact ⟨r, rfl, by simpa [written] using h⟩
  | cons c cs ih =>
    intro acc r U hl hc h
    obtain ⟨c1, c2, c3, c4⟩ := hc
    simp only [List.map_cons, written, List.append_assoc] at h
    obtain ⟨r1, h1, h2⟩ := rd_read h (by omega) (by omega)
    obtain ⟨r2, h3, h4⟩ := ih (c :: acc) r1 U (fun x hx => hl x (by simp [hx])) c4 h2
    refine ⟨r2, ?_, h4⟩
    have hl' := hl c (by simp)
    have hne : ¬ acc.length = 256 := by omega
    simp only [List.length_cons, decodeSymbolsOf, h1, hne, if_false]
    have hcc : (⟨c.symbol, c.code, l⟩ : Code) = c := by rw [← hl']
    rw [← hl', ← c1, hl', hcc, h3]; simp

/-- Sorted codes split by length. -/
theorem split_length (l : Nat) : ∀ (cs : List Code), Asc cs → (∀ c ∈ cs, l ≤ c.length) →
    ∃ a b, cs = a ++ b ∧ (∀ c ∈ a, c.length = l) ∧ (∀ c ∈ b, l + 1 ≤ c.length) ∧
      a.length = cs.countP (fun c => c.length == l) ∧
      ∀ l', l < l' → b.countP (fun c => c.length == l') = cs.countP (fun c => c.length == l') := by
  intro cs
  induction cs with
  | nil => intro _ _; exact ⟨[], [], rfl, by simp, by simp, rfl, fun _ _ => rfl⟩
  | cons c cs ih =>
    intro hs hl
    have hs' := List.pairwise_cons.mp hs
    by_cases e : c.length = l
    · obtain ⟨a, b, h1, h2, h3, h4, h5⟩ := ih hs'.2 (fun x hx => hl x (by simp [hx]))
      refine ⟨c :: a, b, by rw [h1]; rfl, ?_, h3, by simp [e, h4], fun l' hl' => ?_⟩
      · intro x hx
        rcases List.mem_cons.mp hx with hx | hx
        · subst hx; exact e
        · exact h2 x hx
      · rw [h5 l' hl', List.countP_cons_of_neg]
        simp; omega
    · have := hl c (by simp)
      refine ⟨[], c :: cs, rfl, by simp, ?_, ?_, fun _ _ => rfl⟩
      · intro x hx
        rcases List.mem_cons.mp hx with hx | hx
        · subst hx; omega
        · have := hs'.1 x hx; omega
      · symm
        rw [List.length_nil, List.countP_eq_zero]
        intro x hx
        rcases List.mem_cons.mp hx with hx | hx
        · subst hx; simp; omega
        · have := hs'.1 x hx; simp; omega

theorem allSymbols_spec : ∀ (k l : Nat) (cs acc : List Code) (r : Reader) (U : List Bool), Asc cs →
    (∀ c ∈ cs, l ≤ c.length ∧ c.length < l + k) → Chain acc cs →
    Rd r (written (cs.map fun c => (8, c.symbol)) ++ U) →
    ∃ r', decodeAllSymbols l ((List.range' l k).map fun l => cs.countP fun c => c.length == l) acc r =
      .ok (cs.reverse ++ acc, r') ∧ Rd r' U := by
  intro k
  induction k with
  | zero =>
    intro l cs acc r U _ hb _ h
    have : cs = [] := by
      cases cs with
      | nil => rfl
      | cons c cs => have := hb c (by simp); omega
    subst this
    exact ⟨r, rfl, by simpa [written] using h⟩
  | succ k ih =>
    intro l cs acc r U hs hb hc h
    obtain ⟨a, b, h1, h2, h3, h4, h5⟩ := split_length l cs hs (fun c hc => (hb c hc).1)
    have hbs : Asc b := by
      rw [h1] at hs; exact (List.pairwise_append.mp hs).2.1
    rw [h1] at hc
    obtain ⟨hca, hcb⟩ := (chain_append a acc b).mp hc
    rw [h1, List.map_append, written_append, List.append_assoc] at h
    obtain ⟨r1, e1, e2⟩ := symbolsOf_spec l a acc r _ h2 hca h
    obtain ⟨r2, e3, e4⟩ := ih (l + 1) b (a.reverse ++ acc) r1 U hbs
      (fun c hc => ⟨h3 c hc, by have := (hb c (by rw [h1]; simp [hc])).2; omega⟩) hcb e2
    refine ⟨r2, ?_, e4⟩
    simp only [List.range'_succ, List.map_cons, decodeAllSymbols]
    rw [← h4, e1]
    simp only
    have : (List.range' (l + 1) k).map (fun l => cs.countP fun c => c.length == l) =
        (List.range' (l + 1) k).map (fun l => b.countP fun c => c.length == l) := by
      refine List.map_congr_left fun l' hl' => (h5 l' ?_).symm
      have := List.mem_range'_1.mp hl'; omega
    rw [this, e3, h1]
    simp

theorem canon_chain {m : Nat} (hm : m ≤ 15) : ∀ (cs acc : List Code) (a : Nat), (∀ c ∈ cs, c.length ≤ m ∧ c.symbol < 256) →
    Asc cs → Canon m a cs → a + kraft m cs ≤ 2 ^ m → acc.length + cs.length ≤ 256 →
    (match acc with
      | [] => a = 0
      | last :: _ => (last.code + 1) * 2 ^ (m - last.length) = a ∧ last.length ≤ m ∧ ∀ c ∈ cs, last.length ≤ c.length) →
    Chain acc cs := by
  intro cs
  induction cs with
  | nil => intro _ _ _ _ _ _ _ _; trivial
  | cons c cs ih =>
    intro acc a hb hs hc hk hn hl
    obtain ⟨h1, h2⟩ := hc
    have hs' := List.pairwise_cons.mp hs
    obtain ⟨hcm, hcs⟩ := hb c (by simp)
    simp only [kraft_cons] at hk
    simp only [List.length_cons] at hn
    have hq := Nat.two_pow_pos (m - c.length)
    have hpm : 2 ^ m ≤ 32768 := by have := pow_M hm 0; simpa using this
    refine ⟨?_, by omega, hcs, ?_⟩
    · cases acc with
      | nil =>
        simp only at hl
        rw [hl] at h1
        rcases Nat.mul_eq_zero.mp h1 with h | h
        · exact h
        · omega
      | cons last acc =>
        obtain ⟨l1, l2, l3⟩ := hl
        have l4 := l3 c (by simp)
        simp only [nextCode]
        have e : c.code = (last.code + 1) * 2 ^ (c.length - last.length) := by
          rw [← h1, pow_split l4 hcm, ← Nat.mul_assoc] at l1
          exact (Nat.eq_of_mul_eq_mul_right hq l1).symm
        rw [← e, Nat.mod_eq_of_lt]
        have := Nat.le_mul_of_pos_right c.code hq
        omega
    · refine ih (c :: acc) _ (fun x hx => hb x (by simp [hx])) hs'.2 h2 (by omega)
        (by simp only [List.length_cons]; omega) ?_
      refine ⟨?_, hcm, hs'.1⟩
      rw [Nat.add_mul, h1, Nat.one_mul]

/-! ### The prefix table -/

theorem fillCode_spec (base : Nat) (e : Entry) : ∀ (n j : Nat) (table : List Entry), table.length ≤ 65536 →
    base + j + n ≤ table.length →
    ∃ t', fillCode base e n j table = .ok t' ∧ t'.length = table.length ∧
      (∀ i, base + j ≤ i → i < base + j + n → t'[i]? = some e) ∧
      (∀ i, i < base + j ∨ base + j + n ≤ i → t'[i]? = table[i]?) := by
  intro n
  induction n with
  | zero => intro j table _ _; exact ⟨table, rfl, rfl, fun i h1 h2 => by omega, fun _ _ => rfl⟩
  | succ n ih =>
    intro j table h1 h2
    have hm : (base + j) % 65536 = base + j := Nat.mod_eq_of_lt (by omega)
    have hlt : base + j < table.length := by omega
    obtain ⟨t', a1, a2, a3, a4⟩ := ih (j + 1) (table.set (base + j) e) (by simpa using h1) (by simp; omega)
    refine ⟨t', by simp [fillCode, setEntry, hm, hlt, a1], by simpa using a2, fun i b1 b2 => ?_, fun i hi => ?_⟩
    · by_cases hi : i = base + j
      · rw [a4 i (.inl (by omega)), hi]; simp [hlt]
      · exact a3 i (by omega) (by omega)
    · rw [a4 i (by omega), List.getElem?_set_ne (by omega)]

theorem fillTable_spec (m : Nat) : ∀ (cs : List Code) (a : Nat) (table : List Entry), table.length ≤ 65536 →
    Canon m a cs → a + kraft m cs ≤ table.length →
    ∃ t', fillTable m cs table = .ok t' ∧ t'.length = table.length ∧
      (∀ c ∈ cs, ∀ j, j < 2 ^ (m - c.length) → t'[c.code * 2 ^ (m - c.length) + j]? = some (c.symbol, c.length)) ∧
      ∀ i, i < a → t'[i]? = table[i]? := by
  intro cs
  induction cs with
  | nil => intro a table _ _ _; exact ⟨table, rfl, rfl, by simp, fun _ _ => rfl⟩
  | cons c cs ih =>
    intro a table h1 hc hk
    obtain ⟨hc1, hc2⟩ := hc
    simp only [kraft_cons] at hk
    obtain ⟨t1, a1, a2, a3, a4⟩ := fillCode_spec (c.code * 2 ^ (m - c.length)) (c.symbol, c.length)
      (2 ^ (m - c.length)) 0 table h1 (by omega)
    obtain ⟨t2, b1, b2, b3, b4⟩ := ih (a + 2 ^ (m - c.length)) t1 (by omega) hc2 (by omega)
    refine ⟨t2, by simp [fillTable, a1, b1], by omega, ?_, ?_⟩
    · intro x hx j hj
      rcases List.mem_cons.mp hx with hx | hx
      · subst hx
        rw [b4 _ (by omega)]
        exact a3 _ (by omega) (by omega)
      · exact b3 x hx j hj
    · intro i hi
      rw [b4 i (Nat.lt_of_lt_of_le hi (Nat.le_add_right _ _)), a4 i (.inl (by omega))]

/-! ### Symbols -/

/-- A table that decodes these codes. -/
def Decodes (m : Nat) (table : List Entry) (cs : List Code) : Prop :=
  ∀ c ∈ cs, 1 ≤ c.length ∧ c.length ≤ m ∧ c.code < 2 ^ c.length ∧
    ∀ j, j < 2 ^ (m - c.length) → table[c.code * 2 ^ (m - c.length) + j]? = some (c.symbol, c.length)

theorem peek_code {m : Nat} {table : List Entry} {cs : List Code} (hd : Decodes m table cs) {c : Code} (hc : c ∈ cs)
    (V : List Bool) :
    table[ofBits ((c.bits ++ V).take m) * 2 ^ (m - min m (c.bits ++ V).length)]? = some (c.symbol, c.length) := by
  obtain ⟨h1, h2, h3, h4⟩ := hd c hc
  have hlen : c.bits.length = c.length := toBits_length _ _
  rw [List.take_append, hlen, List.take_of_length_le (by omega), ofBits_append]
  have e : ofBits c.bits = c.code := ofBits_toBits_of_lt h3
  rw [e]
  generalize hW : V.take (m - c.length) = W
  have hWl : W.length = min (m - c.length) V.length := by rw [← hW]; simp
  have hk : m - min m (c.bits ++ V).length + W.length = m - c.length := by
    rw [List.length_append, hlen, hWl]; omega
  generalize m - min m (c.bits ++ V).length = k at hk ⊢
  rw [Nat.add_mul, Nat.mul_assoc, ← Nat.pow_add, show W.length + k = m - c.length by omega]
  refine h4 _ ?_
  have := ofBits_lt W
  calc ofBits W * 2 ^ k < 2 ^ W.length * 2 ^ k := Nat.mul_lt_mul_of_pos_right this (Nat.two_pow_pos k)
    _ = 2 ^ (m - c.length) := by rw [← Nat.pow_add]; congr 1; omega

theorem lookup_mem {cs : List Code} {b : Nat} (h : b ∈ cs.map (·.symbol)) :
    lookup cs b ∈ cs ∧ (lookup cs b).symbol = b := by
  unfold lookup
  cases hf : cs.find? (fun c => c.symbol == b) with
  | none =>
    obtain ⟨c, hc, e⟩ := List.mem_map.mp h
    have := List.find?_eq_none.mp hf c hc
    simp [e] at this
  | some c =>
    have h1 := List.find?_some hf
    simp at h1
    exact ⟨List.mem_of_find?_eq_some hf, h1⟩

theorem decodeLoop_spec {m : Nat} (hm1 : 1 ≤ m) (hm : m ≤ 15) {table : List Entry} {cs : List Code}
    (hd : Decodes m table cs) :
    ∀ (chunk : List Nat) (n : Nat) (r : Reader) (U : List Bool), (∀ b ∈ chunk, b ∈ cs.map (·.symbol)) →
      chunk.length ≤ n → (n = chunk.length ∨ U = []) → Rd r (written (symbolsWrites cs chunk) ++ U) →
      ∃ r', decodeLoop m table n r = .ok (chunk, r') ∧ Rd r' U := by
  intro chunk
  induction chunk with
  | nil =>
    intro n r U _ _ hn h
    simp [symbolsWrites, written] at h
    cases n with
    | zero => exact ⟨r, rfl, h⟩
    | succ n =>
      have hU : U = [] := by
        rcases hn with hn | hn
        · simp at hn
        · exact hn
      subst hU
      obtain ⟨r1, h1, h2, h3, h4, h5, h6⟩ := peek_spec h.inv (size := m) (by omega) (.inl (by omega))
      refine ⟨r1, ?_, h2, ?_, by rw [h4]; exact h.good, by rw [h3]; exact h.unread⟩
      · simp [decodeLoop, h1, h.unread]
      · have : r1.pos ≤ r1.unread.length := by unfold Reader.unread; simp
        rw [h3, h.unread] at this
        simp at this; omega
  | cons b chunk ih =>
    intro n r U hb hn hnU h
    cases n with
    | zero => simp at hn
    | succ n =>
      obtain ⟨hl1, hl2⟩ := lookup_mem (hb b (by simp))
      generalize hcl : lookup cs b = c at hl1 hl2
      have hU : r.unread = c.bits ++ (written (symbolsWrites cs chunk) ++ U) := by
        rw [h.unread]
        simp only [symbolsWrites, List.map_cons, written, hcl, Code.bits, List.append_assoc]
      obtain ⟨r1, h1, h2, h3, h4, h5, h6⟩ := peek_spec h.inv (size := m) (by omega) (.inl (by omega))
      obtain ⟨d1, d2, d3, d4⟩ := hd c hl1
      have hlen : c.bits.length = c.length := toBits_length _ _
      have hav : c.length ≤ min m r.unread.length := by rw [hU, List.length_append, hlen]; omega
      have hnz : ¬ min m r.unread.length = 0 := by omega
      obtain ⟨e1, e2, e3, e4⟩ := discard_spec h2 (n := c.length) (by omega)
      have hp1 : (r1.discardBits c.length).pos < 64 := by
        have := h2.pos; omega
      obtain ⟨r2, f1, f2⟩ := ih n (r1.discardBits c.length) U (fun x hx => hb x (by simp [hx]))
        (Nat.le_of_succ_le_succ hn) (by simp only [List.length_cons, Nat.succ.injEq] at hnU; rcases hnU with h | h; exact .inl (by omega); exact .inr h)
        ⟨e1, hp1, by rw [e3, h4]; exact h.good, by rw [e2, h3, hU]; exact List.drop_left' hlen⟩
      refine ⟨r2, ?_, f2⟩
      have hpk := peek_code hd hl1 (written (symbolsWrites cs chunk) ++ U)
      rw [← hU] at hpk
      simp only [decodeLoop, h1, hnz, if_false, hpk, f1, hl2]

end Verif.Huffman
