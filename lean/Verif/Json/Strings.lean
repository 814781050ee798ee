import Verif.Unicode.Unescape
import Verif.Json.Spec

/-! # JSON strings: un-escaping and escaping -/

namespace Verif.Json

open Verif.Unicode
open Verif.Str (AsciiDigit AsciiHex numeral digitValue)

theorem unescapeRaw_hex4 {h : List Nat} {c : Nat} (hh : Hex4 h c) (s : List Nat) :
    unescapeRaw lowerU 4 (0x5c :: 0x75 :: (h ++ s)) = (c, s) := by
  obtain ⟨h1, h2, h3⟩ := hh
  have := hexDigits_run h 0 s h2
  rw [h1, Nat.zero_add, h3] at this
  simp only [unescapeRaw, backslash, lowerU, ne_eq, not_true, if_false]
  exact this

theorem unescapeRaw_inv {s : List Nat} {v : Nat} {r : List Nat}
    (h : unescapeRaw lowerU 4 s = (v, r)) (hv : v ≠ invalid) :
    ∃ g, Hex4 g v ∧ s = 0x5c :: 0x75 :: (g ++ r) := by
  unfold unescapeRaw at h
  cases s with
  | nil => simp only [Prod.mk.injEq] at h; exact absurd h.1.symm hv
  | cons a s =>
    simp only at h
    split at h
    · simp only [Prod.mk.injEq] at h; exact absurd h.1.symm hv
    · rename_i ha
      cases s with
      | nil => simp only [Prod.mk.injEq] at h; exact absurd h.1.symm hv
      | cons b s =>
        simp only at h
        split at h
        · simp only [Prod.mk.injEq] at h; exact absurd h.1.symm hv
        · rename_i hb
          rcases hexDigits_inv _ _ _ _ _ h with h1 | ⟨g, h1, h2, h3, h4⟩
          · exact absurd h1 hv
          · refine ⟨g, ⟨h2, h3, by omega⟩, ?_⟩
            simp only [ne_eq, Decidable.not_not] at ha hb
            rw [ha, hb, h1]; rfl

theorem hex4_lt {h : List Nat} {c : Nat} (hh : Hex4 h c) : c < 65536 := by
  obtain ⟨h1, h2, h3⟩ := hh
  have := numeral_hex_lt h h2
  rw [h1, h3] at this
  omega

theorem encode_scalar {c : Nat} (h : Scalar c) : encodeCodepoint enc c = some (utf8Of c) := by
  unfold encodeCodepoint
  rw [if_pos ((validateCodepoint_iff c).2 h), codepointToString_eq _ h]; rfl

theorem encode_inv {c : Nat} {out : List Nat} (h : encodeCodepoint enc c = some out) :
    Scalar c ∧ out = utf8Of c := by
  by_cases hc : Scalar c
  · rw [encode_scalar hc] at h; simp only [Option.some.injEq] at h; exact ⟨hc, h.symm⟩
  · rw [encode_rejects_non_scalar _ _ hc] at h; simp at h

theorem unescape_u (s : List Nat) : unescapeCodepoint enc (backslash :: 0x75 :: s) =
    (encodeCodepoint enc (fromSurrogates (unescapeRaw lowerU 4) (0x5c :: 0x75 :: s)).1,
      (fromSurrogates (unescapeRaw lowerU 4) (0x5c :: 0x75 :: s)).2) := by
  simp [unescapeCodepoint, backslash, lowerU]

theorem surrogate_value {hi lo : Nat} (h1 : 0xd800 ≤ hi ∧ hi ≤ 0xdbff) (h2 : 0xdc00 ≤ lo ∧ lo ≤ 0xdfff) :
    ((hi <<< 10) % 2 ^ 32 + lo + 2 ^ 32 - 0x35fdc00) % 2 ^ 32 =
      0x10000 + (hi - 0xd800) * 0x400 + (lo - 0xdc00) := by
  rw [Nat.shiftLeft_eq]; omega

theorem unescape_uni {h : List Nat} {c : Nat} (hh : Hex4 h c) (hc : Scalar c) (s : List Nat) :
    unescapeCodepoint enc (backslash :: 0x75 :: (h ++ s)) = (some (utf8Of c), s) := by
  rw [unescape_u, fromSurrogates_eq (unescapeRaw lowerU 4) (unescapeRaw_hex4 hh s)
    (low := (unescapeRaw lowerU 4 s).1) (s2 := (unescapeRaw lowerU 4 s).2) rfl]
  have hc' := hc
  unfold Scalar at hc'
  rw [if_neg (by omega), if_neg (by omega)]
  simp only [encode_scalar hc]

theorem unescape_pair {h l : List Nat} {hi lo : Nat} (hh : Hex4 h hi) (h1 : 0xd800 ≤ hi ∧ hi ≤ 0xdbff)
    (hl : Hex4 l lo) (h2 : 0xdc00 ≤ lo ∧ lo ≤ 0xdfff) (s : List Nat) :
    unescapeCodepoint enc (backslash :: 0x75 :: (h ++ 0x5c :: 0x75 :: (l ++ s))) =
      (some (utf8Of (0x10000 + (hi - 0xd800) * 0x400 + (lo - 0xdc00))), s) := by
  rw [unescape_u, fromSurrogates_eq (unescapeRaw lowerU 4) (unescapeRaw_hex4 hh _)
    (unescapeRaw_hex4 hl s), if_pos h1, if_pos h2, surrogate_value h1 h2]
  simp only
  rw [encode_scalar (by unfold Scalar; omega)]

theorem unescape_inv {s out rest : List Nat}
    (h : unescapeCodepoint enc (backslash :: 0x75 :: s) = (some out, rest)) :
    (∃ g c, Hex4 g c ∧ Scalar c ∧ out = utf8Of c ∧ s = g ++ rest) ∨
    (∃ g hi l lo, Hex4 g hi ∧ (0xd800 ≤ hi ∧ hi ≤ 0xdbff) ∧ Hex4 l lo ∧ (0xdc00 ≤ lo ∧ lo ≤ 0xdfff) ∧
      out = utf8Of (0x10000 + (hi - 0xd800) * 0x400 + (lo - 0xdc00)) ∧
      s = g ++ 0x5c :: 0x75 :: (l ++ rest)) := by
  rw [unescape_u] at h
  rcases h1 : unescapeRaw lowerU 4 (0x5c :: 0x75 :: s) with ⟨cp, s1⟩
  rcases h2 : unescapeRaw lowerU 4 s1 with ⟨low, s2⟩
  rw [fromSurrogates_eq (unescapeRaw lowerU 4) h1 h2] at h
  by_cases c1 : 0xd800 ≤ cp ∧ cp ≤ 0xdbff
  · rw [if_pos c1] at h
    by_cases c2 : 0xdc00 ≤ low ∧ low ≤ 0xdfff
    · rw [if_pos c2, surrogate_value c1 c2] at h
      simp only [Prod.mk.injEq] at h
      obtain ⟨_, ho⟩ := encode_inv h.1
      obtain ⟨g, hg, e1⟩ := unescapeRaw_inv h1 (by unfold invalid; omega)
      obtain ⟨l, hl, e2⟩ := unescapeRaw_inv h2 (by unfold invalid; omega)
      simp only [List.cons.injEq, true_and] at e1
      exact Or.inr ⟨g, cp, l, low, hg, c1, hl, c2, ho, by rw [e1, e2, h.2]⟩
    · rw [if_neg c2] at h
      simp only [Prod.mk.injEq] at h
      rw [encode_rejects_non_scalar _ _ (by decide)] at h; simp at h
  · rw [if_neg c1] at h
    by_cases c2 : 0xdc00 ≤ cp ∧ cp ≤ 0xdfff
    · rw [if_pos c2] at h
      simp only [Prod.mk.injEq] at h
      rw [encode_rejects_non_scalar _ _ (by decide)] at h; simp at h
    · rw [if_neg c2] at h
      simp only [Prod.mk.injEq] at h
      obtain ⟨hs, ho⟩ := encode_inv h.1
      obtain ⟨g, hg, e1⟩ := unescapeRaw_inv h1 (by
        intro hi; rw [hi] at hs; revert hs; decide)
      simp only [List.cons.injEq, true_and] at e1
      exact Or.inl ⟨g, cp, hg, hs, ho, by rw [e1, h.2]⟩

theorem simpleEscape_iff (n r : Nat) : simpleEscape n = some r ↔ (n, r) ∈ simpleEscapes := by
  unfold simpleEscape simpleEscapes
  simp only [List.mem_cons, Prod.mk.injEq, List.not_mem_nil, or_false]
  repeat' split
  all_goals (try simp only [Option.some.injEq, reduceCtorEq, false_iff])
  all_goals omega

theorem simpleEscape_u : simpleEscape 0x75 = none := by decide

theorem validateString_nil : validateString [] = some [] := by rw [validateString]

theorem validateString_plain {c : Nat} (h1 : 0x20 ≤ c) (h2 : c ≠ 0x22) (h3 : c ≠ 0x5c)
    (s : List Nat) : validateString (c :: s) = (validateString s).map (c :: ·) := by
  cases s with
  | nil =>
    rw [validateString_nil, validateString, if_neg h3, if_neg (by omega), if_neg h2]; rfl
  | cons d s => rw [validateString, if_neg h3, if_neg (by omega), if_neg h2]

theorem validateString_chars {t m : List Nat} (h : Chars t m) : validateString t = some m := by
  induction h with
  | nil => exact validateString_nil
  | plain h1 h2 h3 _ ih => rw [validateString_plain h1 h2 h3, ih]; rfl
  | simple h1 _ ih =>
    rw [validateString, if_pos rfl, (simpleEscape_iff _ _).2 h1]
    simp only [ih, Option.map_some]
  | uni h1 h2 _ ih =>
    rename_i h c t m _
    have hu := unescape_uni h1 h2 t
    rw [validateString, if_pos rfl, simpleEscape_u]
    simp only [dite_true]
    split
    · rename_i hx; rw [hu] at hx; simp at hx
    · rename_i hx; rw [hu] at hx
      simp only [Prod.mk.injEq, Option.some.injEq] at hx
      rw [← hx.1, ← hx.2, ih]; rfl
  | pair h1 h2 h3 h4 _ ih =>
    rename_i h hi l lo t m _
    have hu := unescape_pair h1 h2 h3 h4 t
    rw [validateString, if_pos rfl, simpleEscape_u]
    simp only [dite_true]
    split
    · rename_i hx; rw [hu] at hx; simp at hx
    · rename_i hx; rw [hu] at hx
      simp only [Prod.mk.injEq, Option.some.injEq] at hx
      rw [← hx.1, ← hx.2, ih]; rfl

theorem chars_validateString : ∀ (n : Nat) (t m : List Nat), t.length = n →
    validateString t = some m → Chars t m := by
  intro n
  induction n using Nat.strongRecOn with
  | _ n ih =>
    intro t m hn h
    match t, hn, h with
    | [], _, h => rw [validateString_nil] at h; simp only [Option.some.injEq] at h; subst h; exact .nil
    | [c], hn, h =>
      rw [validateString] at h
      split at h
      · simp at h
      · split at h
        · simp at h
        · split at h
          · simp at h
          · simp only [Option.some.injEq] at h; subst h
            exact .plain (by omega) (by assumption) (by assumption) .nil
    | c :: d :: s, hn, h =>
      simp only [List.length_cons] at hn
      rw [validateString] at h
      split at h
      · rename_i hc
        subst hc
        cases hs : simpleEscape d with
        | some r =>
          rw [hs] at h
          simp only [Option.map_eq_some_iff] at h
          obtain ⟨m', h1, rfl⟩ := h
          exact .simple ((simpleEscape_iff _ _).1 hs) (ih s.length (by omega) s m' rfl h1)
        | none =>
          rw [hs] at h
          simp only at h
          split at h
          · rename_i hd
            subst hd
            split at h
            · simp at h
            · rename_i out rest hu
              simp only [Option.map_eq_some_iff] at h
              obtain ⟨m', h1, rfl⟩ := h
              rcases unescape_inv hu with ⟨g, c, g1, g2, g3, g4⟩ |
                ⟨g, hi, l, lo, g1, g2, g3, g4, g5, g6⟩
              · rw [g3, g4]
                rw [g4] at hn
                exact .uni g1 g2 (ih rest.length (by simp only [List.length_append] at hn; omega)
                  rest m' rfl h1)
              · rw [g5, g6]
                rw [g6] at hn
                refine .pair g1 g2 g3 g4 (ih rest.length ?_ rest m' rfl h1)
                simp only [List.length_append, List.length_cons] at hn; omega
          · simp at h
      · split at h
        · simp at h
        · split at h
          · simp at h
          · simp only [Option.map_eq_some_iff] at h
            obtain ⟨m', h1, rfl⟩ := h
            exact .plain (by omega) (by assumption) (by assumption)
              (ih (d :: s).length (by simp only [List.length_cons]; omega) _ m' rfl h1)

theorem validateString_iff (t m : List Nat) : validateString t = some m ↔ Chars t m :=
  ⟨chars_validateString _ t m rfl, validateString_chars⟩

theorem convertToString_iff (t m : List Nat) (ht : ∀ b ∈ t, b < 256) :
    convertToString t = some m ↔ StringBody t m := by
  unfold convertToString StringBody enc
  rw [← utf8_validate_iff true t ht, ← validateString_iff]
  split <;> simp_all

theorem wf8_bytes {s : List Nat} (h : WellFormed8 s) : ∀ b ∈ s, b < 256 := by
  induction h with
  | nil => simp
  | one h1 _ ih => unfold In at *; intro b hb; rcases List.mem_cons.1 hb with rfl | hb; omega; exact ih b hb
  | two h1 h2 _ ih =>
    unfold In at *; intro b hb
    simp only [List.mem_cons] at hb
    rcases hb with rfl | rfl | hb
    · omega
    · omega
    · exact ih b hb
  | three h1 h2 _ ih =>
    unfold In at *; intro b hb
    simp only [List.mem_cons] at hb
    rcases hb with rfl | rfl | rfl | hb
    · omega
    · omega
    · omega
    · exact ih b hb
  | four h1 h2 h3 _ ih =>
    unfold In at *; intro b hb
    simp only [List.mem_cons] at hb
    rcases hb with rfl | rfl | rfl | rfl | hb
    · omega
    · omega
    · omega
    · omega
    · exact ih b hb

theorem stringBody_convert {t m : List Nat} (h : StringBody t m) : convertToString t = some m :=
  (convertToString_iff t m (wf8_bytes h.1)).2 h

end Verif.Json
