import Verif.Net.Lemmas

/-!
# The IPv6 formatter prints an RFC 4291 text
-/

namespace Verif.Net

open Verif.Str Verif.Digits

/-- The eight groups of an address. -/
def groups (a : List Nat) : List Nat := (List.range 8).map fun k => v6Segment a (2 * k)

theorem groups_drop {a : List Nat} {k : Nat} (h : k < 8) :
    (groups a).drop k = v6Segment a (2 * k) :: (groups a).drop (k + 1) := by
  have hl : k < (groups a).length := by simpa [groups] using h
  rw [List.drop_eq_getElem_cons hl]
  congr 1
  simp [groups]

theorem groups_length (a : List Nat) : (groups a).length = 8 := by simp [groups]

/-- Text of the groups after the first. -/
def tailText (gs : List Nat) : List Nat := gs.flatMap fun g => 0x3a :: digits 16 g

theorem joinWith_cons_tail (g : Nat) (gs : List Nat) :
    joinWith 0x3a ((g :: gs).map (digits 16)) = digits 16 g ++ tailText gs := by
  induction gs generalizing g with
  | nil => simp [joinWith, tailText]
  | cons h gs ih =>
    have := ih h
    rw [List.map_cons] at this
    rw [List.map_cons, List.map_cons, joinWith, this]
    simp [tailText]

/-- Once the short form was used. -/
theorem formatLoop_used (a : List Nat) : ∀ (n k : Nat), 8 - k = n → 0 < k →
    v6FormatLoop a (2 * k) true = tailText ((groups a).drop k) := by
  intro n
  induction n with
  | zero =>
    intro k hn hk
    rw [v6FormatLoop, dif_neg (by omega), List.drop_eq_nil_of_le (by rw [groups_length]; omega)]
    rfl
  | succ n ih =>
    intro k hn hk
    rw [v6FormatLoop, dif_pos (by omega), if_neg (by simp), if_pos (by omega),
      show 2 * k + 2 = 2 * (k + 1) by omega, ih (k + 1) (by omega) (by omega),
      groups_drop (a := a) (k := k) (by omega)]
    simp [tailText]

/-- Index after the skipped zeros. -/
theorem skipZeros_eq (a : List Nat) : ∀ (n k : Nat), 8 - k = n → k < 8 →
    ∃ k', v6SkipZeros a (2 * k) = 2 * k' ∧ k < k' ∧ k' ≤ 8 ∧
      (groups a).drop k' = ((groups a).drop (k + 1)).dropWhile (· == 0) := by
  intro n
  induction n with
  | zero => intro k h h'; omega
  | succ n ih =>
    intro k hn hk
    rw [v6SkipZeros]
    by_cases hc : 2 * k + 2 < 16 ∧ v6Segment a (2 * k + 2) = 0
    · rw [dif_pos hc]
      have he : 2 * k + 2 = 2 * (k + 1) := by omega
      rw [he] at hc ⊢
      obtain ⟨k', h1, h2, h3, h4⟩ := ih (k + 1) (by omega) (by omega)
      refine ⟨k', h1, by omega, h3, ?_⟩
      rw [h4, groups_drop (show k + 1 < 8 by omega), List.dropWhile_cons_of_pos (by simpa using hc.2)]
    · rw [dif_neg hc]
      refine ⟨k + 1, by omega, by omega, by omega, ?_⟩
      by_cases hk8 : k + 1 < 8
      · rw [groups_drop hk8, List.dropWhile_cons_of_neg]
        have : ¬ v6Segment a (2 * k + 2) = 0 := fun h => hc ⟨by omega, h⟩
        rw [show 2 * k + 2 = 2 * (k + 1) by omega] at this
        simpa using this
      · rw [List.drop_eq_nil_of_le (by rw [groups_length]; omega)]; rfl

/-- From the first zero group on. -/
theorem formatLoop_zero (a : List Nat) (k : Nat) (hk : k < 8) (h0 : v6Segment a (2 * k) = 0) :
    v6FormatLoop a (2 * k) false =
      [0x3a, 0x3a] ++ joinWith 0x3a ((((groups a).drop k).dropWhile (· == 0)).map (digits 16)) := by
  obtain ⟨k', h1, h2, h3, h4⟩ := skipZeros_eq a _ k rfl hk
  rw [v6FormatLoop, dif_pos (by omega), if_pos ⟨h0, rfl⟩]
  simp only
  rw [h1, formatLoop_used a _ k' rfl (by omega), h4, groups_drop hk,
    List.dropWhile_cons_of_pos (by simp [h0])]
  by_cases hk8 : k' < 8
  · rw [if_pos (by omega)]
    rw [← h4, groups_drop hk8, joinWith_cons_tail]
    simp [tailText]
  · rw [if_neg (by omega), ← h4, List.drop_eq_nil_of_le (by rw [groups_length]; omega)]
    rfl

/-- The whole text after the first group, while no zero group has been met. -/
theorem formatLoop_pos (a : List Nat) : ∀ (n k : Nat), 8 - k = n → 0 < k → k ≤ 8 →
    (∃ nz, (groups a).drop k = nz ∧ v6FormatLoop a (2 * k) false = tailText nz) ∨
    (∃ nz zs rs, (groups a).drop k = nz ++ (zs ++ rs) ∧ zs ≠ [] ∧ (∀ z ∈ zs, z = 0) ∧
      v6FormatLoop a (2 * k) false =
        tailText nz ++ ([0x3a, 0x3a] ++ joinWith 0x3a (rs.map (digits 16)))) := by
  intro n
  induction n with
  | zero =>
    intro k hn _ _
    left
    refine ⟨[], List.drop_eq_nil_of_le (by rw [groups_length]; omega), ?_⟩
    rw [v6FormatLoop, dif_neg (by omega)]; rfl
  | succ n ih =>
    intro k hn hk hk8
    by_cases h0 : v6Segment a (2 * k) = 0
    · right
      refine ⟨[], ((groups a).drop k).takeWhile (· == 0), ((groups a).drop k).dropWhile (· == 0),
        ?_, ?_, ?_, ?_⟩
      · rw [List.nil_append, List.takeWhile_append_dropWhile]
      · rw [groups_drop (by omega), List.takeWhile_cons_of_pos (by simp [h0])]; simp
      · intro z hz
        have := mem_takeWhile_prop _ z hz
        simpa using this
      · rw [formatLoop_zero a k (by omega) h0]; rfl
    · have hstep : v6FormatLoop a (2 * k) false =
          0x3a :: digits 16 (v6Segment a (2 * k)) ++ v6FormatLoop a (2 * (k + 1)) false := by
        rw [v6FormatLoop, dif_pos (by omega), if_neg (fun h => h0 h.1), if_pos (by omega),
          show 2 * k + 2 = 2 * (k + 1) by omega]
        rfl
      rcases ih (k + 1) (by omega) (by omega) (by omega) with ⟨nz, e1, e2⟩ | ⟨nz, zs, rs, e1, e2, e3, e4⟩
      · left
        refine ⟨v6Segment a (2 * k) :: nz, ?_, ?_⟩
        · rw [groups_drop (by omega), e1]
        · rw [hstep, e2]; simp [tailText]
      · right
        refine ⟨v6Segment a (2 * k) :: nz, zs, rs, ?_, e2, e3, ?_⟩
        · rw [groups_drop (by omega), e1]; rfl
        · rw [hstep, e4]; simp [tailText]

theorem hexGroup_digits {g : Nat} (h : g < 2 ^ 16) : HexGroup (digits 16 g) := by
  refine ⟨?_, digits_length_le (by decide) 3 g (by omega), digits_hex g⟩
  exact List.length_pos_iff.mpr (digits_ne_nil 16 g)

theorem groups_lt (a : List Nat) : ∀ g ∈ groups a, g < 2 ^ 16 := by
  intro g hg
  simp only [groups, List.mem_map] at hg
  obtain ⟨k, _, rfl⟩ := hg
  exact Nat.mod_lt _ (by decide)

theorem map_numeral_digits (gs : List Nat) : (gs.map (digits 16)).map (numeral 16) = gs := by
  rw [List.map_map]
  conv => rhs; rw [← List.map_id gs]
  apply List.map_congr_left
  intro g _
  exact numeral_digits (by decide) (by decide) g

theorem zeros_eq {zs : List Nat} (h : ∀ z ∈ zs, z = 0) : zs = List.replicate zs.length 0 :=
  List.eq_replicate_iff.mpr ⟨rfl, h⟩

/-- A compressed text. -/
theorem v6Text_of_split (a nz zs rs : List Nat) (h : groups a = nz ++ (zs ++ rs)) (hz : zs ≠ [])
    (hz0 : ∀ z ∈ zs, z = 0) :
    V6Text (joinWith 0x3a (nz.map (digits 16)) ++ [0x3a, 0x3a] ++ joinWith 0x3a (rs.map (digits 16)))
      (groups a) := by
  have hlen := groups_length a
  rw [h] at hlen
  simp only [List.length_append] at hlen
  have hzl : 0 < zs.length := List.length_pos_iff.mpr hz
  have hlt := groups_lt a
  rw [h] at hlt
  have := V6Text.short (ls := nz.map (digits 16)) (rs := rs.map (digits 16)) (by simp; omega)
    (by
      intro t ht
      obtain ⟨g, hg, rfl⟩ := List.mem_map.mp ht
      exact hexGroup_digits (hlt g (by simp [hg])))
    (by
      intro t ht
      obtain ⟨g, hg, rfl⟩ := List.mem_map.mp ht
      exact hexGroup_digits (hlt g (by simp [hg])))
  rw [map_numeral_digits, map_numeral_digits] at this
  have e : nz ++ List.replicate (8 - ((nz.map (digits 16)).length + (rs.map (digits 16)).length)) 0
      ++ rs = groups a := by
    rw [h, List.length_map, List.length_map, show 8 - (nz.length + rs.length) = zs.length by omega,
      ← zeros_eq hz0, List.append_assoc]
  rw [e] at this
  exact this

/-- The formatter prints an RFC 4291 text of the address. -/
theorem v6Format_text (a : List Nat) : V6Text (v6Format a) (groups a) := by
  unfold v6Format
  by_cases h0 : v6Segment a (2 * 0) = 0
  · have := formatLoop_zero a 0 (by decide) h0
    rw [Nat.mul_zero, List.drop_zero] at this
    rw [this]
    have := v6Text_of_split a [] ((groups a).takeWhile (· == 0)) ((groups a).dropWhile (· == 0))
      (by rw [List.nil_append, List.takeWhile_append_dropWhile])
      (by
        have hg := groups_drop (a := a) (k := 0) (by decide)
        rw [List.drop_zero] at hg
        rw [hg, List.takeWhile_cons_of_pos (by simp [h0])]; simp)
      (by intro z hz; have := mem_takeWhile_prop _ z hz; simpa using this)
    simpa [joinWith] using this
  · have hg := groups_drop (a := a) (k := 0) (by decide)
    rw [List.drop_zero] at hg
    have hstep : v6FormatLoop a 0 false =
        digits 16 (v6Segment a (2 * 0)) ++ v6FormatLoop a (2 * 1) false := by
      rw [v6FormatLoop, dif_pos (by omega), if_neg (fun h => h0 h.1), if_neg (by omega)]
      rfl
    rw [hstep]
    rcases formatLoop_pos a _ 1 rfl (by omega) (by omega) with ⟨nz, e1, e2⟩ | ⟨nz, zs, rs, e1, e2, e3, e4⟩
    · rw [e2, ← joinWith_cons_tail, ← e1, ← hg]
      have := V6Text.full (ts := (groups a).map (digits 16)) (by simp [groups_length])
        (by
          intro t ht
          obtain ⟨g, hgm, rfl⟩ := List.mem_map.mp ht
          exact hexGroup_digits (groups_lt a g hgm))
      rw [map_numeral_digits] at this
      exact this
    · rw [e4, ← List.append_assoc, ← joinWith_cons_tail, ← List.append_assoc]
      apply v6Text_of_split a (v6Segment a (2 * 0) :: nz) zs rs _ e2 e3
      rw [hg, e1]; rfl

theorem v6Segment_eq {a : List Nat} {i : Nat} (h : ∀ b ∈ a, b < 256) :
    v6Segment a i = a.getD i 0 * 256 + a.getD (i + 1) 0 := by
  have hb : ∀ j, a.getD j 0 < 256 := by
    intro j
    rw [List.getD_eq_getElem?_getD]
    cases hj : a[j]? with
    | none => simp
    | some x => exact h x (List.mem_of_getElem? hj)
  have h1 := hb i
  have h2 := hb (i + 1)
  unfold v6Segment
  rw [shl_or (by omega)]
  omega

/-- The bytes of the groups are the address. -/
theorem groupBytes_groups {a : List Nat} (hl : a.length = 16) (h : ∀ b ∈ a, b < 256) :
    groupBytes (groups a) = a := by
  match a, hl with
  | [b0, b1, b2, b3, b4, b5, b6, b7, b8, b9, b10, b11, b12, b13, b14, b15], _ =>
    simp only [groups, v6Segment_eq h]
    have := h b1 (by simp); have := h b3 (by simp); have := h b5 (by simp); have := h b7 (by simp)
    have := h b9 (by simp); have := h b11 (by simp); have := h b13 (by simp); have := h b15 (by simp)
    simp [List.range, List.range.loop, groupBytes]
    omega

theorem ascii_of_text {s gs : List Nat} (h : V6Text s gs) : ∀ u ∈ s, u < 0x80 ∧ (AsciiHex u ∨ u = 0x3a) := by
  have hj : ∀ ts : List (List Nat), (∀ t ∈ ts, HexGroup t) →
      ∀ u ∈ joinWith 0x3a ts, u < 0x80 ∧ (AsciiHex u ∨ u = 0x3a) := by
    intro ts
    induction ts with
    | nil => intro _ u hu; simp [joinWith] at hu
    | cons t ts ih =>
      intro hg u hu
      have hhex : ∀ u ∈ t, u < 0x80 ∧ (AsciiHex u ∨ u = 0x3a) := by
        intro u hu
        have := (hg t (by simp)).2.2 u hu
        refine ⟨?_, .inl this⟩
        unfold AsciiHex AsciiDigit at this; omega
      cases ts with
      | nil => exact hhex u (by simpa [joinWith] using hu)
      | cons q r =>
        rw [joinWith, List.mem_append, List.mem_cons] at hu
        rcases hu with hu | rfl | hu
        · exact hhex u hu
        · exact ⟨by decide, .inr rfl⟩
        · exact ih (fun x hx => hg x (by simp at hx ⊢; right; exact hx)) u hu
  cases h with
  | full _ hg => exact hj _ hg
  | short _ hgl hgr =>
    intro u hu
    rw [List.mem_append, List.mem_append] at hu
    rcases hu with (hu | hu) | hu
    · exact hj _ hgl u hu
    · simp at hu; subst hu; exact ⟨by decide, .inr rfl⟩
    · exact hj _ hgr u hu

theorem joinWith_length_le (ts : List (List Nat)) (h : ∀ t ∈ ts, HexGroup t) :
    (joinWith 0x3a ts).length ≤ 5 * ts.length := by
  induction ts with
  | nil => simp [joinWith]
  | cons t ts ih =>
    have := (h t (by simp)).2.1
    have h2 := ih (fun x hx => h x (by simp [hx]))
    cases ts with
    | nil => simp [joinWith]; omega
    | cons q r => simp [joinWith] at h2 ⊢; omega

theorem text_length {s gs : List Nat} (h : V6Text s gs) : s.length < 2 ^ 64 := by
  cases h with
  | full h8 hg => have := joinWith_length_le _ hg; omega
  | short h7 hgl hgr =>
    have h1 := joinWith_length_le _ hgl
    have h2 := joinWith_length_le _ hgr
    simp; omega

end Verif.Net
