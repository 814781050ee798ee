import Verif.Net.Format6
import Verif.Net.Sound6

/-!
# Properties C56-C60 and C75
-/

namespace Verif.Net

open Verif.Str Verif.Digits

/-! ## IPv4 -/

theorem land_ff (x : Nat) : x &&& 0xff = x % 256 := Nat.and_two_pow_sub_one_eq_mod x 8

theorem v4Format_bytes (a : Nat) : v4Format a = joinWith 0x2e [digits 10 (Numeric.byteAt a 0),
    digits 10 (Numeric.byteAt a 1), digits 10 (Numeric.byteAt a 2), digits 10 (Numeric.byteAt a 3)] := by
  unfold v4Format Numeric.byteAt
  simp only [land_ff, Nat.shiftRight_eq_div_pow, joinWith, List.append_assoc, List.cons_append,
    Nat.pow_zero, Nat.div_one, show 256 ^ 1 = 2 ^ 8 from rfl, show 256 ^ 2 = 2 ^ 16 from rfl,
    show 256 ^ 3 = 2 ^ 24 from rfl]

theorem joinDot_mem {ps : List (List Nat)} {P : Nat → Prop} (hd : P 0x2e)
    (h : ∀ p ∈ ps, ∀ c ∈ p, P c) : ∀ c ∈ joinWith 0x2e ps, P c := by
  induction ps with
  | nil => simp [joinWith]
  | cons p ps ih =>
    intro c hc
    cases ps with
    | nil => exact h p (by simp) c (by simpa [joinWith] using hc)
    | cons q r =>
      rw [joinWith, List.mem_append, List.mem_cons] at hc
      rcases hc with hc | rfl | hc
      · exact h p (by simp) c hc
      · exact hd
      · exact ih (fun x hx => h x (by simp at hx ⊢; right; exact hx)) c hc

/-- Dot-decimal text of four octets. -/
def dotted (o : List Nat) : List Nat := joinWith 0x2e (o.map (digits 10))

theorem dotted_ascii (o : List Nat) : ∀ u ∈ dotted o, AsciiDigit u ∨ u = 0x2e := by
  unfold dotted
  refine joinDot_mem (.inr rfl) ?_
  intro p hp c hc
  obtain ⟨n, _, rfl⟩ := List.mem_map.mp hp
  exact .inl (digits_dec n c hc)

theorem dotted_length {a b c d : Nat} (ha : a < 256) (hb : b < 256) (hc : c < 256) (hd : d < 256) :
    (dotted [a, b, c, d]).length ≤ 15 := by
  have h := fun x (hx : x < 256) => digits_length_le (base := 10) (by decide) 2 x (by omega)
  have h1 := h a ha; have h2 := h b hb; have h3 := h c hc; have h4 := h d hd
  simp [dotted, joinWith]; omega

theorem v4OfOctets_eq {a b c d : Nat} (ha : a < 256) (hb : b < 256) (hc : c < 256) :
    v4OfOctets a b c d = d * 2 ^ 24 + c * 2 ^ 16 + b * 2 ^ 8 + a := by
  have o1 : a ||| (b <<< 8) = b * 2 ^ 8 + a := by rw [Nat.or_comm]; exact shl_or (by omega)
  have o2 : (b * 2 ^ 8 + a) ||| (c <<< 16) = c * 2 ^ 16 + (b * 2 ^ 8 + a) := by
    rw [Nat.or_comm]; exact shl_or (by omega)
  have o3 : (c * 2 ^ 16 + (b * 2 ^ 8 + a)) ||| (d <<< 24) =
      d * 2 ^ 24 + (c * 2 ^ 16 + (b * 2 ^ 8 + a)) := by
    rw [Nat.or_comm]; exact shl_or (by omega)
  unfold v4OfOctets
  rw [o1, o2, o3]; omega

theorem byteAt_octets {a b c d : Nat} (ha : a < 256) (hb : b < 256) (hc : c < 256) (hd : d < 256) :
    Numeric.byteAt (d * 2 ^ 24 + c * 2 ^ 16 + b * 2 ^ 8 + a) 0 = a ∧
    Numeric.byteAt (d * 2 ^ 24 + c * 2 ^ 16 + b * 2 ^ 8 + a) 1 = b ∧
    Numeric.byteAt (d * 2 ^ 24 + c * 2 ^ 16 + b * 2 ^ 8 + a) 2 = c ∧
    Numeric.byteAt (d * 2 ^ 24 + c * 2 ^ 16 + b * 2 ^ 8 + a) 3 = d := by
  unfold Numeric.byteAt
  omega

/-- C56 / C57: the dot-decimal text of four octets parses to the address with those octets. -/
theorem v4_from_dotted {a b c d : Nat} (ha : a < 256) (hb : b < 256) (hc : c < 256) (hd : d < 256) :
    v4FromString (dotted [a, b, c, d]) = some (v4OfOctets a b c d) := by
  refine v4FromString_of_text ?_ ?_ (h := a * 2 ^ 24 + b * 2 ^ 16 + c * 2 ^ 8 + d) ?_ ?_
  · intro u hu
    have := dotted_ascii _ u hu
    unfold AsciiDigit at this; omega
  · have := dotted_length ha hb hc hd; omega
  · refine ⟨_, rfl, ?_, ?_⟩
    · intro p hp
      obtain ⟨n, _, rfl⟩ := List.mem_map.mp hp
      exact ⟨digits_ne_nil 10 n, digits_dec n⟩
    · simp only [List.map_cons, List.map_nil, numeral_digits (base := 10) (by decide) (by decide)]
      exact .four ha hb hc hd
  · have hb4 := byteAt_octets hd hc hb ha
    have : Numeric.endianSwap 4 (a * 2 ^ 24 + b * 2 ^ 16 + c * 2 ^ 8 + d) =
        some (Numeric.byteSwap32 (a * 2 ^ 24 + b * 2 ^ 16 + c * 2 ^ 8 + d)) := rfl
    rw [this, Numeric.byteSwap32_eq, hb4.1, hb4.2.1, hb4.2.2.1, hb4.2.2.2, v4OfOctets_eq ha hb hc]

/-- C56: an address made of four octets formats as those octets separated by dots. -/
theorem v4_format_octets {a b c d : Nat} (ha : a < 256) (hb : b < 256) (hc : c < 256) (hd : d < 256) :
    v4Format (v4OfOctets a b c d) = dotted [a, b, c, d] := by
  have h := byteAt_octets ha hb hc hd
  rw [v4Format_bytes, v4OfOctets_eq ha hb hc, h.1, h.2.1, h.2.2.1, h.2.2.2]
  rfl

theorem exists_octets {v : Nat} (h : v < 2 ^ 32) :
    ∃ a b c d, a < 256 ∧ b < 256 ∧ c < 256 ∧ d < 256 ∧ v = v4OfOctets a b c d := by
  refine ⟨v % 256, v / 256 % 256, v / 2 ^ 16 % 256, v / 2 ^ 24, by omega, by omega, by omega, by omega, ?_⟩
  rw [v4OfOctets_eq (by omega) (by omega) (by omega)]
  omega

/-- C56: formatting any of the 2^32 addresses and parsing the text gives back the address. -/
theorem v4_round_trip (v : Nat) (h : v < 2 ^ 32) : v4FromString (v4Format v) = some v := by
  obtain ⟨a, b, c, d, ha, hb, hc, hd, rfl⟩ := exists_octets h
  rw [v4_format_octets ha hb hc hd, v4_from_dotted ha hb hc hd]

example : v4Format (v4OfOctets 192 168 0 1) = "192.168.0.1".toList.map Char.toNat := by
  rw [v4_format_octets (by decide) (by decide) (by decide) (by decide)]
  simp [dotted, joinWith, digits, digitChar]

/-- C57 partial: on ASCII texts in which no run of digits reaches 2^64, `from_string` accepts exactly
the dot-decimal texts, and the host-order form of the result is the address they denote. (Missing: see
`v4_parse_violated`.) -/
theorem v4_parse_exact_partial (s : List Nat) (ha : ∀ u ∈ s, u < 0x80) (hl : s.length < 2 ^ 64)
    (hw : NoWrap 10 AsciiDigit s) (h : Nat) :
    (∃ a, v4FromString s = some a ∧ v4HostOrder a = h) ↔ V4Text s h := by
  have swap : ∀ h a, h < 2 ^ 32 → Numeric.endianSwap 4 h = some a → v4HostOrder a = h := by
    intro h a hh e
    have := Numeric.endian_swap_involutive 4 h a (by simp) (by simpa using hh) e
    unfold v4HostOrder Numeric.endianSwapIfNonNative
    simp only [Bool.false_eq_true, if_false]
    rw [this]; rfl
  constructor
  · rintro ⟨a, h1, rfl⟩
    obtain ⟨h, h2, h3⟩ := (v4FromString_iff ha hl hw a).mp h1
    obtain ⟨_, _, _, hv⟩ := id h2
    rw [swap h a (v4Value_lt hv) h3]; exact h2
  · intro ht
    obtain ⟨_, _, _, hv⟩ := id ht
    have hlt := v4Value_lt hv
    exact ⟨_, (v4FromString_iff ha hl hw _).mpr ⟨h, ht, rfl⟩, swap h _ hlt rfl⟩

/-- The hypotheses of `v4_parse_exact_partial` hold for "127.1". -/
example : v4FromString ("127.1".toList.map Char.toNat) = some (v4OfOctets 127 0 0 1) := by decide

theorem v4Text_mem {s h} (ht : V4Text s h) : ∀ u ∈ s, AsciiDigit u ∨ u = 0x2e := by
  obtain ⟨parts, rfl, h1, _⟩ := ht
  exact joinDot_mem (.inr rfl) (fun p hp c hc => .inl ((h1 p hp).2 c hc))

theorem v4Text_no_dot {s h} (ht : V4Text s h) (hd : 0x2e ∉ s) : numeral 10 s < 2 ^ 32 := by
  obtain ⟨parts, rfl, _, h2⟩ := ht
  match parts with
  | [] => simp at h2; cases h2
  | [p] =>
    simp only [List.map_cons, List.map_nil] at h2
    rw [joinWith]
    cases h2 with
    | one h => exact h
  | p :: q :: r => simp [joinWith] at hd

/-- C57 refuted: "18446744073709551617" (2^64 + 1, outside every form's range) is accepted as 0.0.0.1;
and so is the text "5\xff", although 0xff is no digit. -/
theorem v4_parse_violated :
    (v4FromString [49,56,52,52,54,55,52,52,48,55,51,55,48,57,53,53,49,54,49,55] =
      some (v4OfOctets 0 0 0 1) ∧
      ¬ ∃ h, V4Text [49,56,52,52,54,55,52,52,48,55,51,55,48,57,53,53,49,54,49,55] h) ∧
    (v4FromString [0x35, 0xff] = some (v4OfOctets 0 0 0 1) ∧ ¬ ∃ h, V4Text [0x35, 0xff] h) := by
  refine ⟨⟨by decide, ?_⟩, by decide, ?_⟩
  · rintro ⟨h, ht⟩
    have := v4Text_no_dot ht (by decide)
    revert this; decide
  · rintro ⟨h, ht⟩
    have := v4Text_mem ht 0xff (by simp)
    revert this; decide

/-! ## IPv6 -/

/-- C58: formatting any address and parsing the text gives back the address. -/
theorem v6_round_trip (a : List Nat) (hl : a.length = 16) (h : ∀ b ∈ a, b < 256) :
    v6FromString (v6Format a) = some a := by
  have ht := v6Format_text a
  rw [v6FromString_of_text (text_length ht) (fun u hu => (ascii_of_text ht u hu).1) ht,
    groupBytes_groups hl h]

/-- C58: the printed text is an RFC 4291 text of the address. -/
theorem v6_format_text (a : List Nat) (hl : a.length = 16) (h : ∀ b ∈ a, b < 256) :
    ∃ gs, V6Text (v6Format a) gs ∧ groupBytes gs = a :=
  ⟨groups a, v6Format_text a, groupBytes_groups hl h⟩

example : v6FromString (v6Format [0x20, 1, 0xd, 0xb8, 0, 0, 0, 0, 0, 0, 0, 0, 0, 0, 0, 1]) =
    some [0x20, 1, 0xd, 0xb8, 0, 0, 0, 0, 0, 0, 0, 0, 0, 0, 0, 1] :=
  v6_round_trip _ rfl (by decide)

/-- C59, completeness: every RFC 4291 text (without embedded IPv4) is accepted as the address it
denotes. -/
theorem v6_parse_complete (s gs : List Nat) (h : V6Text s gs) : v6FromString s = some (groupBytes gs) :=
  v6FromString_of_text (text_length h) (fun u hu => (ascii_of_text h u hu).1) h

/-- C59 partial: an accepted ASCII text in which no run of hexadecimal digits reaches 2^64 consists of
groups of hexadecimal digits of value at most 0xffff and colons; either there are eight groups and the
result is their bytes, or `::` occurs, and the result is the bytes of the groups before it, zeros, and
the bytes of the groups after it. (Missing: single colons may be anywhere, leading, trailing or next
to `::`, and a group may have more than four digits; see `v6_parse_violated`.) -/
theorem v6_parse_sound_partial (s : List Nat) (ha : ∀ u ∈ s, u < 0x80) (hl : s.length < 2 ^ 64)
    (hw : NoWrap 16 AsciiHex s) (a : List Nat) (h : v6FromString s = some a) :
    (∃ ts, ts.length = 8 ∧ Pieces 0x3a s ts ∧
      (∀ t ∈ ts, t ≠ [] ∧ (∀ c ∈ t, AsciiHex c) ∧ numeral 16 t ≤ 0xffff) ∧
      a = groupBytes (ts.map (numeral 16))) ∨
    (∃ x y ls rs, s = x ++ [0x3a, 0x3a] ++ y ∧ Pieces 0x3a x ls ∧ Pieces 0x3a y rs ∧
      ls.length + rs.length ≤ 8 ∧
      (∀ t ∈ ls ++ rs, t ≠ [] ∧ (∀ c ∈ t, AsciiHex c) ∧ numeral 16 t ≤ 0xffff) ∧
      a = groupBytes (ls.map (numeral 16) ++ List.replicate (8 - (ls.length + rs.length)) 0 ++
        rs.map (numeral 16))) := by
  rw [v6FromString_eq ha hl] at h
  cases hr : v6Rest s [] none with
  | none => rw [hr] at h; simp at h
  | some r =>
    obtain ⟨s', parts, short⟩ := r
    rw [hr] at h
    simp only at h
    split at h
    · simp at h
    · rename_i hc
      have hs' : s' = [] := by
        cases s' with
        | nil => rfl
        | cons => exact absurd (.inl (by simp)) hc
      subst hs'
      have hlen := v6Rest_length _ s [] none [] parts short rfl (by simp) rfl hr
      rcases v6Rest_sound _ s [] none parts short rfl hw hr with
        ⟨ts, h1, h2, h3, h4⟩ | ⟨x, y, ls, rs, h1, h2, h3, h4, _, h6, h7⟩
      · left
        subst h3
        rw [List.nil_append] at h4
        have h16 : parts.length = 16 := by
          by_cases e : parts.length = 16
          · exact e
          · exact absurd (.inr ⟨e, rfl⟩) hc
        refine ⟨ts, ?_, h1.pieces, fun t ht => ⟨(h1.hex t ht).1, (h1.hex t ht).2, h2 t ht⟩, ?_⟩
        · rw [h4, groupBytes_length] at h16; simp at h16; omega
        · simp at h; rw [← h, h4]
      · right
        rw [List.nil_append] at h7
        have hl2 : parts.length = 2 * (ls.length + rs.length) := by
          rw [h7, groupBytes_length]; simp
        refine ⟨x, y, ls, rs, h1, h2.pieces, h3.pieces, by omega, ?_, ?_⟩
        · intro t ht
          refine ⟨?_, ?_, h4 t ht⟩
          · rcases List.mem_append.mp ht with ht | ht
            · exact (h2.hex t ht).1
            · exact (h3.hex t ht).1
          · rcases List.mem_append.mp ht with ht | ht
            · exact (h2.hex t ht).2
            · exact (h3.hex t ht).2
        · subst h6
          simp only [List.length_nil, Nat.zero_add, Option.some.injEq] at h
          rw [v6Rotate_eq hlen (by omega)] at h
          have hgl : (groupBytes (ls.map (numeral 16))).length = 2 * ls.length := by
            rw [groupBytes_length]; simp
          rw [← h, h7, List.map_append, groupBytes_append, List.take_left' hgl, List.drop_left' hgl,
            groupBytes_append, groupBytes_append, groupBytes_zeros, List.append_assoc,
            List.length_append, groupBytes_length, groupBytes_length]
          simp only [List.length_map]
          congr 3
          omega

theorem joinColon_head {ts : List (List Nat)} (h : ∀ t ∈ ts, HexGroup t) (z : List Nat) :
    ts = [] ∨ ∃ c, (joinWith 0x3a ts ++ z).head? = some c ∧ AsciiHex c := by
  cases ts with
  | nil => exact .inl rfl
  | cons t ts =>
    right
    have ht := h t (by simp)
    cases t with
    | nil => simp [HexGroup] at ht
    | cons c t =>
      refine ⟨c, ?_, ht.2.2 c (by simp)⟩
      cases ts <;> simp [joinWith]

theorem joinColon_last {ts : List (List Nat)} (h : ∀ t ∈ ts, HexGroup t) :
    ts = [] ∨ ∃ x c, joinWith 0x3a ts = x ++ [c] ∧ AsciiHex c := by
  induction ts with
  | nil => exact .inl rfl
  | cons t ts ih =>
    right
    have ht := h t (by simp)
    have hts : ∀ q ∈ ts, HexGroup q := fun x hx => h x (by simp [hx])
    rcases ih hts with rfl | ⟨x, c, e, hc⟩
    · refine ⟨t.dropLast, t.getLast (by intro e; subst e; simp [HexGroup] at ht), ?_,
        ht.2.2 _ (List.getLast_mem _)⟩
      rw [List.dropLast_concat_getLast]; rfl
    · cases ts with
      | nil => simp [joinWith] at e
      | cons q r => exact ⟨t ++ 0x3a :: x, c, by rw [joinWith, e]; simp, hc⟩

/-- In an RFC 4291 text a leading colon is doubled. -/
theorem v6Text_head {s gs} (h : V6Text s gs) (hs : s.head? = some 0x3a) :
    (s.drop 1).head? = some 0x3a := by
  cases h with
  | @full ts h8 hg =>
    rcases joinColon_head hg [] with rfl | ⟨c, hc, hx⟩
    · simp at h8
    · rw [List.append_nil, hs] at hc
      simp at hc; subst hc; exact absurd hx not_hex_colon
  | @short ls rs h7 hgl hgr =>
    rcases joinColon_head hgl ([0x3a, 0x3a] ++ joinWith 0x3a rs) with rfl | ⟨c, hc, hx⟩
    · simp [joinWith]
    · rw [← List.append_assoc, hs] at hc
      simp at hc; subst hc; exact absurd hx not_hex_colon

/-- In an RFC 4291 text a trailing colon is doubled. -/
theorem v6Text_last {s gs} (h : V6Text s gs) (hs : s.reverse.head? = some 0x3a) :
    (s.reverse.drop 1).head? = some 0x3a := by
  cases h with
  | @full ts h8 hg =>
    rcases joinColon_last hg with rfl | ⟨x, c, e, hx⟩
    · simp at h8
    · rw [e] at hs
      simp at hs; subst hs; exact absurd hx not_hex_colon
  | @short ls rs h7 hgl hgr =>
    rcases joinColon_last hgr with rfl | ⟨x, c, e, hx⟩
    · simp [joinWith]
    · rw [e] at hs
      simp at hs; subst hs; exact absurd hx not_hex_colon

/-- C59 refuted: neither ":1:2:3:4:5:6:7:8" nor "::1:" is an RFC 4291 text, and both are accepted. -/
theorem v6_parse_violated :
    (v6FromString (":1:2:3:4:5:6:7:8".toList.map Char.toNat) =
      some [0, 1, 0, 2, 0, 3, 0, 4, 0, 5, 0, 6, 0, 7, 0, 8] ∧
      ¬ ∃ gs, V6Text (":1:2:3:4:5:6:7:8".toList.map Char.toNat) gs) ∧
    (v6FromString ("::1:".toList.map Char.toNat) =
      some [0, 0, 0, 0, 0, 0, 0, 0, 0, 0, 0, 0, 0, 0, 0, 1] ∧
      ¬ ∃ gs, V6Text ("::1:".toList.map Char.toNat) gs) := by
  refine ⟨⟨by decide +kernel, ?_⟩, by decide +kernel, ?_⟩
  · rintro ⟨gs, h⟩
    have := v6Text_head h (by decide)
    revert this; decide
  · rintro ⟨gs, h⟩
    have := v6Text_last h (by decide)
    revert this; decide

/-- `v6_parse_sound_partial` applies to the accepted "1:::2". -/
example : (v6FromString ("1:::2".toList.map Char.toNat)).isSome := by decide +kernel

/-! ## Endpoints -/

theorem lastColon_append {a d : List Nat} (hd : 0x3a ∉ d) : lastColon (a ++ 0x3a :: d) = some a.length := by
  unfold lastColon
  have hi : (a ++ 0x3a :: d).reverse.idxOf 0x3a = d.length := by
    have e : (a ++ 0x3a :: d).reverse = d.reverse ++ 0x3a :: a.reverse := by simp
    rw [e, List.idxOf_append, if_neg (by simpa using hd)]
    simp
  rw [hi, if_pos (by simp; omega)]
  simp

theorem digits_no_colon (p : Nat) : 0x3a ∉ digits 10 p := by
  intro h
  have := digits_dec p _ h
  revert this; decide

theorem parsePort_digits {p : Nat} (h : p < 2 ^ 64) (hl : (digits 10 p).length < 2 ^ 64) :
    parsePort (digits 10 p) = if p ≤ 0xffff then some p else none := by
  have hok : LexOk ⟨digits 10 p, 0⟩ := lexOk_init (by
    intro u hu
    have := digits_dec p u hu
    unfold AsciiDigit at this; omega) hl
  have hrun : decRun (digits 10 p) = digits 10 p := by
    have := decRun_append (d := digits 10 p) (tail := []) (digits_dec p) (by simp)
    simpa using this
  unfold parsePort
  have hr : rest ⟨digits 10 p, 0⟩ = digits 10 p := rfl
  rcases consumeNumber_rest hok with ⟨h1, _⟩ | ⟨h1, l', h2, h3, h4⟩
  · rw [hr, hrun] at h1; exact absurd h1 (digits_ne_nil 10 p)
  · rw [hr, hrun] at h2 h4
    rw [h2]
    simp only
    rw [numeral_digits (by decide) (by decide), Nat.mod_eq_of_lt h]
    have hpk : (l'.peek 0).isSome = false := by
      rw [peek_rest h3, h4]; simp
    rw [hpk]
    by_cases hp : p ≤ 0xffff
    · rw [if_neg (by simp; omega), if_pos hp]
    · rw [if_pos (by left; omega), if_neg hp]

theorem port_len {p : Nat} (h : p < 2 ^ 64) : (digits 10 p).length < 2 ^ 64 := by
  have := digits_length_le (base := 10) (by decide) 19 p (by omega)
  omega

/-- C60: an IPv4 endpoint text with a port below 2^64 is accepted iff the port is at most 65535, and
then is that endpoint; in particular formatting and parsing round-trips. -/
theorem endpoint4_round_trip (a p : Nat) (ha : a < 2 ^ 32) (hp : p < 2 ^ 64) :
    endpoint4FromString (endpoint4Format a p) = if p ≤ 0xffff then some (a, p) else none := by
  unfold endpoint4FromString endpoint4Format
  rw [lastColon_append (digits_no_colon p)]
  simp only
  have hne : (v4Format a).length ≠ 0 := by
    unfold v4Format; simp
  have hdrop : (v4Format a ++ 0x3a :: digits 10 p).drop ((v4Format a).length + 1) = digits 10 p := by
    rw [← List.drop_drop, List.drop_left]; rfl
  rw [if_neg hne, List.take_left, v4_round_trip a ha, hdrop, parsePort_digits hp (port_len hp)]
  by_cases hle : p ≤ 0xffff
  · simp [hle]
  · simp [hle]

/-- C60: the same for IPv6 endpoints. -/
theorem endpoint6_round_trip (a : List Nat) (p : Nat) (hl : a.length = 16) (ha : ∀ b ∈ a, b < 256)
    (hp : p < 2 ^ 64) :
    endpoint6FromString (endpoint6Format a p) = if p ≤ 0xffff then some (a, p) else none := by
  unfold endpoint6FromString endpoint6Format
  have e : 0x5b :: v6Format a ++ [0x5d, 0x3a] ++ digits 10 p =
      (0x5b :: v6Format a ++ [0x5d]) ++ 0x3a :: digits 10 p := by simp
  rw [e, lastColon_append (digits_no_colon p)]
  simp only
  have hdrop : ((0x5b :: v6Format a ++ [0x5d]) ++ 0x3a :: digits 10 p).drop
      ((0x5b :: v6Format a ++ [0x5d]).length + 1) = digits 10 p := by
    rw [← List.drop_drop, List.drop_left]; rfl
  rw [if_neg (by simp), List.take_left, hdrop, parsePort_digits hp (port_len hp),
    if_pos ⟨by simp, List.getLast?_append⟩]
  have hin : ((0x5b :: v6Format a ++ [0x5d]).drop 1).take ((0x5b :: v6Format a ++ [0x5d]).length - 2) =
      v6Format a := by
    simp only [List.cons_append, List.drop_succ_cons, List.drop_zero, List.length_cons,
      List.length_append, List.length_nil]
    exact List.take_left' (by omega)
  rw [hin, v6_round_trip a hl ha]
  by_cases hle : p ≤ 0xffff
  · simp [hle]
  · simp [hle]

example : endpoint6FromString (endpoint6Format [0x20, 1, 0xd, 0xb8, 0, 0, 0, 0, 0, 0, 0, 0, 0, 0, 0, 1]
    8080) = some ([0x20, 1, 0xd, 0xb8, 0, 0, 0, 0, 0, 0, 0, 0, 0, 0, 0, 1], 8080) :=
  endpoint6_round_trip _ 8080 rfl (by decide) (by decide)

theorem lastColon_some {s : List Nat} {sep : Nat} (hc : lastColon s = some sep) :
    s = s.take sep ++ 0x3a :: s.drop (sep + 1) := by
  unfold lastColon at hc
  split at hc
  · rename_i hlt
    simp at hc
    have hlt' : s.length - 1 - s.reverse.idxOf 0x3a < s.length := by omega
    have hmem : s.reverse[s.reverse.idxOf 0x3a]'(by simpa using hlt) = 0x3a :=
      List.getElem_idxOf (by simpa using hlt)
    rw [List.getElem_reverse] at hmem
    simp only [hc] at hmem
    have hsl : sep < s.length := by omega
    rw [← hmem, List.getElem_cons_drop, List.take_append_drop]
  · simp at hc

theorem parsePort_iff {t : List Nat} (hu : ∀ u ∈ t, u < 0x80) (hl : t.length < 2 ^ 64) (p : Nat) :
    parsePort t = some p ↔ t ≠ [] ∧ (∀ c ∈ t, AsciiDigit c) ∧ numeral 10 t % 2 ^ 64 = p ∧ p ≤ 0xffff := by
  have hok : LexOk ⟨t, 0⟩ := lexOk_init hu hl
  have hrest : rest ⟨t, 0⟩ = t := rfl
  unfold parsePort
  rcases consumeNumber_rest hok with ⟨g1, g2⟩ | ⟨g1, l', g2, g3, g4⟩
  · rw [g2]
    simp only [reduceCtorEq, false_iff]
    rintro ⟨h1, h2, _⟩
    have := decRun_append (d := t) (tail := []) h2 (by simp)
    rw [hrest] at g1
    rw [List.append_nil] at this
    exact h1 (this.symm.trans g1)
  · rw [g2]
    simp only
    rw [hrest] at g1 g4 ⊢
    have hsplit := takeWhile_append_drop (fun u => decide (AsciiDigit u)) t
    constructor
    · intro h
      split at h
      · simp at h
      · rename_i hn
        simp only [Option.some.injEq] at h
        have hn2 : rest l' = [] := by
          by_cases hz : rest l' = []
          · exact hz
          · exact absurd (.inr ((peek_isSome g3).mpr hz)) hn
        have hall : t = decRun t := by
          rw [hn2] at g4
          unfold decRun at g4 ⊢
          rw [← g4, List.append_nil] at hsplit
          exact hsplit
        have hn1 : ¬ numeral 10 (decRun t) % 2 ^ 64 > 0xffff := fun h => hn (.inl h)
        rw [← hall] at g1 h hn1
        refine ⟨g1, ?_, h, by omega⟩
        intro c hc'
        rw [hall] at hc'
        exact mem_decRun hc'
    · rintro ⟨_, h2, h3, h4⟩
      have hall := decRun_append (d := t) (tail := []) h2 (by simp)
      rw [List.append_nil] at hall
      rw [hall] at g4 ⊢
      have hpk : rest l' = [] := by rw [g4]; simp
      rw [h3, if_neg]
      rintro (h | h)
      · omega
      · exact (peek_isSome g3).mp h hpk

/-- C60: exactly which texts are IPv4 endpoints: an accepted address, a colon, and one or more decimal
digits whose value, reduced modulo 2^64, is the port and at most 65535 (the reduction is what
`endpoint_port_violated` exploits). -/
theorem endpoint4_iff (s : List Nat) (hu : ∀ u ∈ s, u < 0x80) (hl : s.length < 2 ^ 64) (a p : Nat) :
    endpoint4FromString s = some (a, p) ↔
      ∃ at_ pt, s = at_ ++ 0x3a :: pt ∧ v4FromString at_ = some a ∧ pt ≠ [] ∧
        (∀ c ∈ pt, AsciiDigit c) ∧ numeral 10 pt % 2 ^ 64 = p ∧ p ≤ 0xffff := by
  unfold endpoint4FromString
  constructor
  · intro h
    cases hc : lastColon s with
    | none => rw [hc] at h; simp at h
    | some sep =>
      rw [hc] at h
      simp only at h
      split at h
      · simp at h
      · split at h
        · rename_i x y h1 h2
          simp only [Option.some.injEq, Prod.mk.injEq] at h
          obtain ⟨rfl, rfl⟩ := h
          exact ⟨_, _, lastColon_some hc, h1, (parsePort_iff
            (fun u hm => hu u (List.mem_of_mem_drop hm)) (by simp only [List.length_drop]; omega) _).1 h2⟩
        · simp at h
  · rintro ⟨at_, pt, rfl, h1, h2⟩
    have hne : at_ ≠ [] := by
      rintro rfl
      rw [show v4FromString [] = none by decide +kernel] at h1; cases h1
    have hdrop : (at_ ++ 0x3a :: pt).drop (at_.length + 1) = pt := by
      rw [← List.drop_drop, List.drop_left]; rfl
    rw [lastColon_append (fun h => by have := h2.2.1 _ h; revert this; decide)]
    simp only
    rw [if_neg (by simpa using hne), List.take_left, hdrop, h1, (parsePort_iff
      (fun u hm => hu u (by simp [hm])) (by simp at hl; omega) _).2 h2]

/-- C60: exactly which texts are IPv6 endpoints: an accepted address between brackets, a colon, and the
port as in `endpoint4_iff`. -/
theorem endpoint6_iff (s : List Nat) (hu : ∀ u ∈ s, u < 0x80) (hl : s.length < 2 ^ 64) (a : List Nat)
    (p : Nat) :
    endpoint6FromString s = some (a, p) ↔
      ∃ at_ pt, s = 0x5b :: at_ ++ 0x5d :: 0x3a :: pt ∧ v6FromString at_ = some a ∧ pt ≠ [] ∧
        (∀ c ∈ pt, AsciiDigit c) ∧ numeral 10 pt % 2 ^ 64 = p ∧ p ≤ 0xffff := by
  unfold endpoint6FromString
  constructor
  · intro h
    cases hc : lastColon s with
    | none => rw [hc] at h; simp at h
    | some sep =>
      rw [hc] at h
      simp only at h
      split at h
      · simp at h
      · split at h
        · rename_i hb
          split at h
          · rename_i x y h1 h2
            simp only [Option.some.injEq, Prod.mk.injEq] at h
            obtain ⟨rfl, rfl⟩ := h
            refine ⟨_, _, ?_, h1, (parsePort_iff
              (fun u hm => hu u (List.mem_of_mem_drop hm)) (by simp only [List.length_drop]; omega) _).1 h2⟩
            have hs := lastColon_some hc
            have hav : s.take sep = 0x5b :: ((s.take sep).drop 1).take ((s.take sep).length - 2) ++ [0x5d] := by
              obtain ⟨b1, b2⟩ := hb
              generalize s.take sep = av at b1 b2
              cases av with
              | nil => simp at b1
              | cons c av =>
                simp only [List.head?_cons, Option.some.injEq] at b1
                subst b1
                obtain ⟨ys, hy⟩ := List.getLast?_eq_some_iff.1 b2
                cases ys with
                | nil => simp at hy
                | cons d ys =>
                  simp only [List.cons_append, List.cons.injEq] at hy
                  obtain ⟨rfl, rfl⟩ := hy
                  simp
            calc s = s.take sep ++ 0x3a :: s.drop (sep + 1) := hs
              _ = (0x5b :: ((s.take sep).drop 1).take ((s.take sep).length - 2) ++ [0x5d]) ++
                    0x3a :: s.drop (sep + 1) := by rw [← hav]
              _ = _ := by simp
          · simp at h
        · simp at h
  · rintro ⟨at_, pt, rfl, h1, h2⟩
    have e : 0x5b :: at_ ++ 0x5d :: 0x3a :: pt = (0x5b :: at_ ++ [0x5d]) ++ 0x3a :: pt := by simp
    rw [e, lastColon_append (fun h => by have := h2.2.1 _ h; revert this; decide)]
    simp only
    have hdrop : ((0x5b :: at_ ++ [0x5d]) ++ 0x3a :: pt).drop
        ((0x5b :: at_ ++ [0x5d]).length + 1) = pt := by
      rw [← List.drop_drop, List.drop_left]; rfl
    have hin : ((0x5b :: at_ ++ [0x5d]).drop 1).take ((0x5b :: at_ ++ [0x5d]).length - 2) = at_ := by
      simp only [List.cons_append, List.drop_succ_cons, List.drop_zero, List.length_cons,
        List.length_append, List.length_nil]
      exact List.take_left' (by omega)
    rw [if_neg (by simp), List.take_left, hdrop, (parsePort_iff
      (fun u hm => hu u (by simp [hm])) (by simp at hl; omega) _).2 h2, if_pos ⟨by simp, List.getLast?_append⟩,
      hin, h1]

example : endpoint6FromString ("[::1:80".toList.map Char.toNat) = none ∧
    (endpoint6FromString ("[::1]:80".toList.map Char.toNat)).isSome = true := by decide +kernel

/-- C60 refuted for larger ports: port text "18446744073709551617" (2^64 + 1) is accepted as 1. -/
theorem endpoint_port_violated :
    endpoint4FromString ("1.2.3.4:18446744073709551617".toList.map Char.toNat) =
      some (v4OfOctets 1 2 3 4, 1) := by decide +kernel

/-! ## Ordering -/

/-- C75 refuted for the hand-written comparison used on macOS: two distinct endpoints are each less
than the other. -/
theorem endpoint_order_violated : ∃ a b : Nat × Nat, endpointLtMac a b = true ∧ endpointLtMac b a = true :=
  ⟨(1, 2), (2, 1), by decide, by decide⟩

/-- C75 partial: on macOS the comparison is irreflexive, decides endpoints of equal address by port and
of equal port by address. -/
theorem endpoint_order_partial (a b p q : Nat) :
    (endpointLtMac (a, p) (a, q) = true ↔ p < q) ∧ (endpointLtMac (a, p) (b, p) = true ↔ a < b) := by
  unfold endpointLtMac; simp

/-- C75, elsewhere: the defaulted comparison is a strict total order. -/
theorem endpoint_order_default :
    (∀ a : Nat × Nat, ¬ endpointLt a a) ∧
    (∀ a b c : Nat × Nat, endpointLt a b → endpointLt b c → endpointLt a c) ∧
    (∀ a b : Nat × Nat, a ≠ b → endpointLt a b ∨ endpointLt b a) := by
  unfold endpointLt
  refine ⟨?_, ?_, ?_⟩
  · intro a; simp
  · intro a b c; simp; omega
  · rintro ⟨a, p⟩ ⟨b, q⟩ h
    have : a ≠ b ∨ p ≠ q := by
      by_cases e : a = b
      · right; intro e'; exact h (by rw [e, e'])
      · exact .inl e
    simp; omega

end Verif.Net
