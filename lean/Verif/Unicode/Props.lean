import Verif.Unicode.Lemmas

/-! # Unicode properties: C12 - C17 -/

namespace Verif.Unicode

/-- C12. Every scalar value encodes to its RFC 3629 byte sequence, and decoding that sequence -
followed by any text whatsoever - gives the value back and stops exactly after it. -/
theorem utf8_codepoint_roundtrip (signed : Bool) (c : Nat) (hc : Scalar c) (rest : List Nat)
    (hr : ∀ b ∈ rest, b < 256) :
    encodeCodepoint (.utf8 signed) c = some (utf8Of c) ∧
    decodeCodepoint (.utf8 signed) (utf8Of c ++ rest) = (some c, rest) := by
  constructor
  · unfold encodeCodepoint
    rw [if_pos ((validateCodepoint_iff c).2 hc)]
    exact congrArg some (codepointToString_eq (.utf8 signed) hc)
  · refine (decode_iff (.utf8 signed) _ ?_ c rest).2 ⟨hc, rfl⟩
    intro b hb
    rcases List.mem_append.1 hb with hb | hb
    · exact formOf_bound (.utf8 signed) hc b hb
    · exact hr b hb

/-- C12, rejection: nothing but scalar values can be encoded. -/
theorem encode_rejects_non_scalar (e : Enc) (c : Nat) (hc : ¬ Scalar c) :
    encodeCodepoint e c = none := by
  unfold encodeCodepoint
  rw [if_neg (fun h => hc ((validateCodepoint_iff c).1 h))]

example : Scalar 0x1f600 ∧ utf8Of 0x1f600 = [0xf0, 0x9f, 0x98, 0x80] ∧ ¬ Scalar 0xd800 := by decide

/-- C13. Validation accepts a byte string exactly when it is well-formed UTF-8. -/
theorem utf8_validate_iff (signed : Bool) (s : List Nat) (hs : ∀ b ∈ s, b < 256) :
    validate (.utf8 signed) s = true ↔ WellFormed8 s := by
  rw [validate_eq _ _ s rfl, wf8_iff]
  constructor
  · intro h
    obtain ⟨cps, h⟩ := Option.isSome_iff_exists.1 h
    exact ⟨cps, (decodeAll_iff (.utf8 signed) _ s rfl hs cps).1 h⟩
  · rintro ⟨cps, h⟩
    exact Option.isSome_iff_exists.2 ⟨cps, (decodeAll_iff (.utf8 signed) _ s rfl hs cps).2 h⟩

example : WellFormed8 [0x41, 0xe2, 0x82, 0xac] :=
  .one (by unfold In; omega) (.three (by unfold In; omega) (by unfold In; omega) .nil)

-- Overlong, surrogate, out of range and truncated forms are not well formed.
example : ¬ WellFormed8 [0xc0, 0x80] ∧ ¬ WellFormed8 [0xed, 0xa0, 0x80] ∧
    ¬ WellFormed8 [0xf4, 0x90, 0x80, 0x80] ∧ ¬ WellFormed8 [0xe2, 0x82] := by
  refine ⟨?_, ?_, ?_, ?_⟩ <;> intro h <;> cases h <;> simp_all [In]

/-- C14, validation: a sequence of 16-bit units validates exactly when every surrogate is paired. -/
theorem utf16_validate_iff (s : List Nat) (hs : ∀ u ∈ s, u < 65536) :
    validate .utf16 s = true ↔ WellFormed16 s := by
  rw [validate_eq _ _ s rfl, wf16_iff s hs]
  constructor
  · intro h
    obtain ⟨cps, h⟩ := Option.isSome_iff_exists.1 h
    exact ⟨cps, (decodeAll_iff .utf16 _ s rfl hs cps).1 h⟩
  · rintro ⟨cps, h⟩
    exact Option.isSome_iff_exists.2 ⟨cps, (decodeAll_iff .utf16 _ s rfl hs cps).2 h⟩

/-- C14, round trip of every scalar value, followed by any text. -/
theorem utf16_codepoint_roundtrip (c : Nat) (hc : Scalar c) (rest : List Nat)
    (hr : ∀ b ∈ rest, b < 65536) :
    encodeCodepoint .utf16 c = some (utf16Of c) ∧
    decodeCodepoint .utf16 (utf16Of c ++ rest) = (some c, rest) := by
  constructor
  · unfold encodeCodepoint
    rw [if_pos ((validateCodepoint_iff c).2 hc)]
    exact congrArg some (codepointToString_eq .utf16 hc)
  · refine (decode_iff .utf16 _ ?_ c rest).2 ⟨hc, rfl⟩
    intro b hb
    rcases List.mem_append.1 hb with hb | hb
    · exact formOf_bound .utf16 hc b hb
    · exact hr b hb

example : utf16Of 0x1f600 = [0xd83d, 0xde00] ∧ WellFormed16 [0x41, 0xd83d, 0xde00] := by
  refine ⟨by decide, .one (by unfold In; omega) (.pair (by unfold In; omega) (by unfold In; omega) .nil)⟩

/-- C15. A string converts to another encoding exactly when it is valid; the result is the other
encoding form of the same scalar values, is itself valid, and converts back to the original. -/
theorem convert_roundtrip (src dst : Enc) (s : List Nat) (hs : ∀ u ∈ s, u < unitBound src) :
    (validate src s = false → convert src dst s = none) ∧
    (validate src s = true → ∃ cps t : List Nat, (∀ c ∈ cps, Scalar c) ∧ s = cps.flatMap (formOf src) ∧
      t = cps.flatMap (formOf dst) ∧ convert src dst s = some t ∧ validate dst t = true ∧
      convert dst src t = some s) := by
  rw [validate_eq _ _ s rfl]
  constructor
  · intro h
    have : decodeAll src s = none := by
      cases h' : decodeAll src s with
      | none => rfl
      | some _ => rw [h'] at h; cases h
    simp [convert, this]
  · intro h
    obtain ⟨cps, h⟩ := Option.isSome_iff_exists.1 h
    obtain ⟨h1, h2⟩ := (decodeAll_iff src _ s rfl hs cps).1 h
    have hb := flatMap_bound dst cps h1
    have hd := (decodeAll_iff dst _ _ rfl hb cps).2 ⟨h1, rfl⟩
    have c1 : ∀ e, cps.flatMap (codepointToString e) = cps.flatMap (formOf e) := fun e =>
      flatMap_congr_mem cps (fun x hx => codepointToString_eq e (h1 x hx))
    refine ⟨cps, cps.flatMap (formOf dst), h1, h2, rfl, ?_, ?_, ?_⟩
    · simp [convert, h, c1]
    · rw [validate_eq _ _ _ rfl, hd]; rfl
    · simp only [convert, hd, Option.map_some, c1, ← h2]

example : convert (.utf8 true) .utf16 [0x41] = some [0x41] := by
  simp [convert, (decodeAll_iff (.utf8 true) 1 [0x41] rfl (by simp [unitBound]) [0x41]).2
    ⟨by simp [Scalar], by decide⟩, codepointToString, toUtf16]

/-- C16. Both escape styles consist of printable ASCII; a character that is escaped unescapes to its
own encoding (whatever text follows), and all others are printable ASCII and left as they are. -/
theorem escape_codepoint_roundtrip (e : Enc) (short : Bool) (c : Nat) (hc : Scalar c)
    (rest : List Nat) :
    (∀ b ∈ escape short c, 0x20 ≤ b ∧ b ≤ 0x7e) ∧
    (0x20 ≤ c ∧ c ≤ 0x7e → escape short c = [c]) ∧
    (¬ (0x20 ≤ c ∧ c ≤ 0x7e) →
      ∃ enc, encodeCodepoint e c = some enc ∧
        unescapeCodepoint e (escape short c ++ rest) = (some enc, rest)) := by
  refine ⟨?_, ?_, ?_⟩
  · intro b hb
    unfold escape at hb
    have hcons : ∀ p cp k, p = lowerU ∨ p = upperU → b ∈ backslash :: p :: toHex cp k →
        0x20 ≤ b ∧ b ≤ 0x7e := by
      intro p cp k hp hb
      rcases List.mem_cons.1 hb with hb | hb
      · rw [hb]; decide
      · rcases List.mem_cons.1 hb with hb | hb
        · rw [hb]; rcases hp with hp | hp <;> rw [hp] <;> decide
        · exact toHex_printable cp k b hb
    split at hb
    · split at hb
      · exact hcons _ _ _ (Or.inl rfl) hb
      · split at hb
        · rcases List.mem_append.1 hb with hb | hb
          · exact hcons _ _ _ (Or.inl rfl) hb
          · exact hcons _ _ _ (Or.inl rfl) hb
        · exact hcons _ _ _ (Or.inr rfl) hb
    · simp only [List.mem_singleton] at hb
      omega
  · intro h; unfold escape; rw [if_neg (by omega)]
  · intro h
    refine ⟨formOf e c, ?_, unescape_escape e short hc (by unfold Escaped; omega) rest⟩
    unfold encodeCodepoint
    rw [if_pos ((validateCodepoint_iff c).2 hc), codepointToString_eq e hc]

example : escape true 0x1f600 =
    [0x5c, 0x75, 0x64, 0x38, 0x33, 0x64, 0x5c, 0x75, 0x64, 0x65, 0x30, 0x30] := by decide

/-- C17 is false of the unchanged code: the six characters `\u0041` are all printable, so escaping
leaves them alone and unescaping turns them into `A`. -/
theorem escape_all_inverse_violated :
    ∃ s t : List Nat, validate (.utf8 true) s = true ∧ escapeAll (.utf8 true) true s = some t ∧
      unescapeAll (.utf8 true) t ≠ some s := by
  refine ⟨[0x5c, 0x75, 0x30, 0x30, 0x34, 0x31], [0x5c, 0x75, 0x30, 0x30, 0x34, 0x31], ?_, ?_, ?_⟩
  · rw [utf8_validate_iff _ _ (by decide)]
    exact .one (by decide) (.one (by decide) (.one (by decide) (.one (by decide) (.one (by decide)
      (.one (by decide) .nil)))))
  · rw [escapeAll_eq _ _ _ _ rfl, (decodeAll_iff (.utf8 true) 6 _ rfl (by decide)
      [0x5c, 0x75, 0x30, 0x30, 0x34, 0x31]).2 ⟨by decide, by decide⟩]
    decide
  · rw [unescapeAll, dif_pos (by decide)]
    have : unescapeCodepoint (.utf8 true) [0x5c, 0x75, 0x30, 0x30, 0x34, 0x31] =
        (some [0x41], []) := by decide
    split
    · simp
    · rename_i out rest h
      rw [this] at h
      simp only [Prod.mk.injEq, Option.some.injEq] at h
      rw [← h.1, ← h.2, unescapeAll]
      decide

/-- C17 (missing: strings in which a literal backslash is directly followed by a literal `u` or `U`,
where it fails, see `escape_all_inverse_violated`). Every other valid string survives escaping and
unescaping. -/
theorem escape_all_inverse_partial (e : Enc) (short : Bool) (s : List Nat)
    (hs : ∀ u ∈ s, u < unitBound e) (cps : List Nat) (hc : ∀ c ∈ cps, Scalar c)
    (heq : s = cps.flatMap (formOf e)) (hn : NoLiteralEscape cps) :
    ∃ t, escapeAll e short s = some t ∧ unescapeAll e t = some s := by
  refine ⟨cps.flatMap (escape short), ?_, ?_⟩
  · rw [escapeAll_eq _ _ _ s rfl, (decodeAll_iff e _ s rfl hs cps).2 ⟨hc, heq⟩]; rfl
  · rw [unescapeAll_escape e short cps hc hn, heq]

/-- C17 (failure side): an invalid string is refused. -/
theorem escape_all_rejects (e : Enc) (short : Bool) (s : List Nat) (h : validate e s = false) :
    escapeAll e short s = none := by
  rw [validate_eq _ _ s rfl] at h
  rw [escapeAll_eq _ _ _ s rfl]
  cases h' : decodeAll e s with
  | none => rfl
  | some _ => rw [h'] at h; cases h

example : NoLiteralEscape [0x5c, 0xe9, 0x75, 0x5c, 0x6e] ∧
    (∀ c ∈ [0x5c, 0xe9, 0x75, 0x5c, 0x6e], Scalar c) := by
  refine ⟨⟨by decide, by decide, by decide, by decide, trivial⟩, by decide⟩

end Verif.Unicode
