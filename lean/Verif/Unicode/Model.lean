/-!
# Model of `fly::detail::BasicUnicode` and the code point functions of `fly::BasicString`

Sources: `/repo/fly/types/string/detail/unicode.hpp`, `/repo/fly/types/string/string.hpp`. Strings
are lists of code units (`Nat`, the unsigned value of the unit); an iterator range is the list of
units still to be read, so functions that advance an iterator return the rest.

Simplification: `wchar_t` (4 bytes here) behaves like `char32_t` and is not listed separately.
-/

namespace Verif.Unicode

/-- The character types: `char` (signed), `char8_t`, `char16_t`, `char32_t`/`wchar_t`. The template
specialisations are chosen by size (`fly::SizeOfTypeIs`); the signedness of the one-byte type is only
visible in `next_encoded_byte`. -/
inductive Enc where
  | utf8 (signed : Bool)
  | utf16
  | utf32
deriving DecidableEq, Repr

/-- `s_invalid_codepoint` (unicode.hpp 350). -/
def invalid : Nat := 0xffffffff

/-- `next_encoded_byte` (unicode.hpp 795-801): the next unit converted to 32 bits - sign extended
for plain `char` - or the invalid marker at the end. -/
def next (e : Enc) : List Nat → Nat × List Nat
  | [] => (invalid, [])
  | b :: s =>
    match e with
    | .utf8 true => (if b < 0x80 then b else 0xffffff00 + b, s)
    | _ => (b, s)

/-- One row of `s_utf8_leading_bytes` (unicode.hpp 307-337). -/
structure Utf8Data where
  leadingByte : Nat
  encodingMask : Nat
  codepointMask : Nat
  size : Nat

/-- `s_utf8_leading_bytes` (unicode.hpp 322-335). -/
def leadingBytes : List Utf8Data := [
  ⟨0b00000000, 0b10000000, 0b01111111, 1⟩,
  ⟨0b11000000, 0b11100000, 0b00011111, 2⟩,
  ⟨0b11100000, 0b11110000, 0b00001111, 3⟩,
  ⟨0b11110000, 0b11111000, 0b00000111, 4⟩]

/-- The continuation-byte loop of the UTF-8 `codepoint_from_string` (unicode.hpp 630-641); `i`
counts the continuation bytes still to read, `shift = 6 * i` on entry. -/
def continuation (e : Enc) : Nat → Nat → List Nat → Option Nat × List Nat
  | 0, cp, s => (some cp, s)
  | i + 1, cp, s =>
    let (b, s) := next e s
    if b &&& 0b11000000 ≠ 0b10000000 then (none, s)
    else continuation e i (cp ||| ((b &&& 0b00111111) <<< (6 * i))) s

/-- `codepoint_from_string` for one-byte units (unicode.hpp 598-651). -/
def fromUtf8 (e : Enc) (s : List Nat) : Nat × List Nat :=
  let (lead, s) := next e s
  match leadingBytes.find? (fun d => lead &&& d.encodingMask == d.leadingByte) with
  | none => (invalid, s)
  | some d =>
    match continuation e (d.size - 1) ((lead &&& d.codepointMask) <<< (6 * (d.size - 1))) s with
    | (none, s) => (invalid, s)
    | (some cp, s) =>
      if (cp < 0x80 ∧ d.size ≠ 1) ∨ (cp ≥ 0x80 ∧ cp < 0x800 ∧ d.size ≠ 2) ∨
          (cp ≥ 0x800 ∧ cp < 0x10000 ∧ d.size ≠ 3) then (invalid, s)
      else (cp, s)

/-- `create_codepoint_from_surrogates` (unicode.hpp 735-773), `codepoint_type` arithmetic modulo
2^32; `nextCp` is the callback reading the next value. -/
def fromSurrogates (nextCp : List Nat → Nat × List Nat) (s : List Nat) : Nat × List Nat :=
  let (cp, s) := nextCp s
  if 0xd800 ≤ cp ∧ cp ≤ 0xdbff then
    let (low, s) := nextCp s
    if 0xdc00 ≤ low ∧ low ≤ 0xdfff then (((cp <<< 10) % 2 ^ 32 + low + 2 ^ 32 - 0x35fdc00) % 2 ^ 32, s)
    else (invalid, s)
  else if 0xdc00 ≤ cp ∧ cp ≤ 0xdfff then (invalid, s)
  else (cp, s)

/-- `codepoint_from_string`, all three specialisations (unicode.hpp 598-675). -/
def codepointFromString (e : Enc) (s : List Nat) : Nat × List Nat :=
  match e with
  | .utf8 _ => fromUtf8 e s
  | .utf16 => fromSurrogates (next e) s
  | .utf32 => next e s

/-- `validate_codepoint` (unicode.hpp 776-791). -/
def validateCodepoint (cp : Nat) : Bool :=
  if 0xd800 ≤ cp ∧ cp ≤ 0xdfff then false
  else if cp > 0x10ffff then false
  else true

/-- `decode_codepoint` (unicode.hpp 420-433). -/
def decodeCodepoint (e : Enc) (s : List Nat) : Option Nat × List Nat :=
  let (cp, s) := codepointFromString e s
  if validateCodepoint cp then (some cp, s) else (none, s)

/-- `codepoint_to_string` for one-byte units (unicode.hpp 678-706); the cast keeps eight bits. -/
def toUtf8 (cp : Nat) : List Nat :=
  if cp < 0x80 then [cp % 256]
  else if cp < 0x800 then [(0xc0 ||| (cp >>> 6)) % 256, (0x80 ||| (cp &&& 0x3f)) % 256]
  else if cp < 0x10000 then
    [(0xe0 ||| (cp >>> 12)) % 256, (0x80 ||| ((cp >>> 6) &&& 0x3f)) % 256,
      (0x80 ||| (cp &&& 0x3f)) % 256]
  else
    [(0xf0 ||| (cp >>> 18)) % 256, (0x80 ||| ((cp >>> 12) &&& 0x3f)) % 256,
      (0x80 ||| ((cp >>> 6) &&& 0x3f)) % 256, (0x80 ||| (cp &&& 0x3f)) % 256]

/-- `codepoint_to_string` for two-byte units (unicode.hpp 708-723). -/
def toUtf16 (cp : Nat) : List Nat :=
  if cp < 0x10000 then [cp % 65536]
  else
    let cp := cp - 0x10000
    [(0xd800 ||| (cp >>> 10)) % 65536, (0xdc00 ||| (cp &&& 0x3ff)) % 65536]

/-- `codepoint_to_string`, all three specialisations (unicode.hpp 678-732). -/
def codepointToString (e : Enc) (cp : Nat) : List Nat :=
  match e with
  | .utf8 _ => toUtf8 cp
  | .utf16 => toUtf16 cp
  | .utf32 => [cp % 2 ^ 32]

/-- `encode_codepoint` (unicode.hpp 436-449). -/
def encodeCodepoint (e : Enc) (cp : Nat) : Option (List Nat) :=
  if validateCodepoint cp then some (codepointToString e cp) else none

/-! Reading always makes progress; used to justify the loops' termination. -/

theorem next_length (e : Enc) (s : List Nat) : (next e s).2.length ≤ s.length - 1 := by
  unfold next
  split
  · simp
  · split <;> simp

theorem continuation_length (e : Enc) : ∀ i cp s, (continuation e i cp s).2.length ≤ s.length := by
  intro i
  induction i with
  | zero => intro cp s; simp [continuation]
  | succ i ih =>
    intro cp s
    have hn := next_length e s
    simp only [continuation]
    split
    · simp only; omega
    · have := ih (cp ||| (((next e s).1 &&& 0b00111111) <<< (6 * i))) (next e s).2
      omega

theorem codepointFromString_length (e : Enc) (b : Nat) (s : List Nat) :
    (codepointFromString e (b :: s)).2.length ≤ s.length := by
  have hn := next_length e (b :: s)
  simp only [List.length_cons, Nat.add_sub_cancel] at hn
  unfold codepointFromString
  split
  · rename_i x
    simp only [fromUtf8]
    split
    · exact hn
    · rename_i d _
      have := continuation_length (.utf8 x) (d.size - 1)
        (((next (.utf8 x) (b :: s)).1 &&& d.codepointMask) <<< (6 * (d.size - 1)))
        (next (.utf8 x) (b :: s)).2
      split
      · rename_i h; rw [h] at this; simp only at this ⊢; omega
      · rename_i h; rw [h] at this; simp only at this ⊢
        split <;> simp only <;> omega
  · simp only [fromSurrogates]
    split
    · have := next_length .utf16 (next .utf16 (b :: s)).2
      split <;> simp only <;> omega
    · split <;> simp only <;> omega
  · exact hn

theorem decodeCodepoint_length (e : Enc) (b : Nat) (s : List Nat) :
    (decodeCodepoint e (b :: s)).2.length < (b :: s).length := by
  have := codepointFromString_length e b s
  simp only [decodeCodepoint]
  split <;> simp only [List.length_cons] <;> omega

/-- The loop of `convert_encoding_into` (unicode.hpp 396-417) up to its output: the code points
decoded, or `none` when one is invalid. -/
def decodeAll (e : Enc) : List Nat → Option (List Nat)
  | [] => some []
  | b :: s =>
    match _h : decodeCodepoint e (b :: s) with
    | (none, _) => none
    | (some cp, rest) => (decodeAll e rest).map (cp :: ·)
termination_by s => s.length
decreasing_by
  have := decodeCodepoint_length e b s
  rw [_h] at this; exact this

/-- `validate_encoding` (unicode.hpp 364-377), reached through `BasicString::validate`
(string.hpp 636-643). -/
def validate (e : Enc) : List Nat → Bool
  | [] => true
  | b :: s =>
    match _h : decodeCodepoint e (b :: s) with
    | (none, _) => false
    | (some _, rest) => validate e rest
termination_by s => s.length
decreasing_by
  have := decodeCodepoint_length e b s
  rw [_h] at this; exact this

/-- `convert_encoding` (unicode.hpp 380-417), reached through `BasicString::convert`
(string.hpp 815-820). -/
def convert (src dst : Enc) (s : List Nat) : Option (List Nat) :=
  (decodeAll src s).map (fun cps => cps.flatMap (codepointToString dst))

/-- A lower-case hexadecimal digit: `s_digits[d]` (unicode.hpp 507). -/
def hexDigit (d : Nat) : Nat := if d < 10 then 0x30 + d else 0x61 + (d - 10)

/-- The lambda `to_hex` (unicode.hpp 506-517). -/
def toHex (cp : Nat) : Nat → List Nat
  | 0 => []
  | k + 1 => hexDigit ((cp >>> (4 * k)) &&& 0x0f) :: toHex cp k

/-- `\` and the prefix characters. -/
def backslash : Nat := 0x5c

/-- `'u'`. -/
def lowerU : Nat := 0x75

/-- `'U'`. -/
def upperU : Nat := 0x55

/-- `escape_codepoint(codepoint)` (unicode.hpp 500-552); `short` selects `UnicodePrefix == 'u'`. The
recursive calls are on surrogates, which take the first branch. -/
def escape (short : Bool) (cp : Nat) : List Nat :=
  if cp ≤ 0x1f ∨ cp ≥ 0x7f then
    if cp ≤ 0xffff then backslash :: lowerU :: toHex cp 4
    else if short then
      (backslash :: lowerU :: toHex (0xd7c0 + (cp >>> 10)) 4) ++
        (backslash :: lowerU :: toHex (0xdc00 + (cp &&& 0x3ff)) 4)
    else backslash :: upperU :: toHex cp 8
  else [cp]

/-- `escape_codepoint(it, end)` (unicode.hpp 452-464). -/
def escapeCodepoint (e : Enc) (short : Bool) (s : List Nat) : Option (List Nat) × List Nat :=
  match decodeCodepoint e s with
  | (none, s) => (none, s)
  | (some cp, s) => (some (escape short cp), s)

/-- The digit loop of `unescape_codepoint<UnicodePrefix>` (unicode.hpp 571-594); `k` digits are
still expected. -/
def hexDigits : Nat → Nat → List Nat → Nat × List Nat
  | 0, cp, s => (cp, s)
  | _ + 1, _, [] => (invalid, [])
  | k + 1, cp, c :: s =>
    if 0x30 ≤ c ∧ c ≤ 0x39 then hexDigits k (cp + ((c - 0x30) <<< (4 * k))) s
    else if 0x41 ≤ c ∧ c ≤ 0x46 then hexDigits k (cp + ((c - 0x37) <<< (4 * k))) s
    else if 0x61 ≤ c ∧ c ≤ 0x66 then hexDigits k (cp + ((c - 0x57) <<< (4 * k))) s
    else (invalid, c :: s)

/-- `unescape_codepoint<UnicodePrefix>(it, end)` (unicode.hpp 555-595); `digits` is 4 for `u`. -/
def unescapeRaw (prefix' digits : Nat) (s : List Nat) : Nat × List Nat :=
  match s with
  | [] => (invalid, [])
  | c :: s =>
    if c ≠ backslash then (invalid, c :: s)
    else
      match s with
      | [] => (invalid, [])
      | p :: s => if p ≠ prefix' then (invalid, p :: s) else hexDigits digits 0 s

/-- `unescape_codepoint(it, end)` (unicode.hpp 467-497). -/
def unescapeCodepoint (e : Enc) (s : List Nat) : Option (List Nat) × List Nat :=
  let (cp, rest) :=
    match s with
    | c :: p :: _ =>
      if c = backslash ∧ p = lowerU then fromSurrogates (unescapeRaw lowerU 4) s
      else if c = backslash ∧ p = upperU then unescapeRaw upperU 8 s
      else (invalid, s)
    | _ => (invalid, s)
  (encodeCodepoint e cp, rest)

/-- `escape_all_codepoints` (string.hpp 663-686). -/
def escapeAll (e : Enc) (short : Bool) : List Nat → Option (List Nat)
  | [] => some []
  | b :: s =>
    match _h : escapeCodepoint e short (b :: s) with
    | (none, _) => none
    | (some out, rest) => (escapeAll e short rest).map (out ++ ·)
termination_by s => s.length
decreasing_by
  have := decodeCodepoint_length e b s
  simp only [escapeCodepoint] at _h
  split at _h
  · simp at _h
  · rename_i h2
    simp only [Prod.mk.injEq] at _h
    rw [h2] at this; rw [← _h.2]; exact this

theorem hexDigits_length : ∀ k cp s, (hexDigits k cp s).2.length ≤ s.length := by
  intro k cp s
  fun_induction hexDigits k cp s with
  | case1 => simp
  | case2 => simp
  | case3 k cp c s h ih => simp only [List.length_cons]; omega
  | case4 k cp c s h1 h2 ih => simp only [List.length_cons]; omega
  | case5 k cp c s h1 h2 h3 ih => simp only [List.length_cons]; omega
  | case6 => simp

theorem unescapeRaw_length (p d : Nat) (s : List Nat) : (unescapeRaw p d s).2.length ≤ s.length := by
  unfold unescapeRaw
  split
  · simp
  · split
    · simp
    · split
      · simp
      · split
        · simp
        · exact Nat.le_trans (hexDigits_length _ _ _) (by simp only [List.length_cons]; omega)

theorem unescapeRaw_length' (p d : Nat) (s : List Nat) :
    (unescapeRaw p d (backslash :: p :: s)).2.length ≤ s.length := by
  simp only [unescapeRaw, ne_eq, not_true, if_false]
  exact hexDigits_length d 0 s

theorem unescapeCodepoint_length (e : Enc) (p : Nat) (s : List Nat) (hp : p = lowerU ∨ p = upperU) :
    (unescapeCodepoint e (backslash :: p :: s)).2.length < (backslash :: p :: s).length := by
  simp only [unescapeCodepoint, true_and]
  by_cases h : p = lowerU
  · subst h
    simp only [if_true]
    have h1 := unescapeRaw_length' lowerU 4 s
    have h2 := unescapeRaw_length lowerU 4 (unescapeRaw lowerU 4 (backslash :: lowerU :: s)).2
    simp only [fromSurrogates]
    split
    · split <;> simp only [List.length_cons] <;> omega
    · split <;> simp only [List.length_cons] <;> omega
  · have h' : p = upperU := by omega
    subst h'
    simp only [h, if_false, if_true]
    have h1 := unescapeRaw_length' upperU 8 s
    simp only [List.length_cons]; omega

/-- `unescape_all_codepoints` (string.hpp 699-739). -/
def unescapeAll (e : Enc) : List Nat → Option (List Nat)
  | [] => some []
  | [c] => some [c]
  | c :: p :: s =>
    if _h : c = backslash ∧ (p = lowerU ∨ p = upperU) then
      match _hu : unescapeCodepoint e (c :: p :: s) with
      | (none, _) => none
      | (some out, rest) => (unescapeAll e rest).map (out ++ ·)
    else (unescapeAll e (p :: s)).map (c :: ·)
termination_by s => s.length
decreasing_by
  · obtain ⟨rfl, hp⟩ := _h
    have := unescapeCodepoint_length e p s hp
    rw [_hu] at this; exact this
  · simp

end Verif.Unicode
