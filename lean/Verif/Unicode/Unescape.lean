import Verif.Unicode.Props
import Verif.Str.Spec

/-! # Which escape sequences are recognised, and what `escape` writes -/

namespace Verif.Unicode

open Verif.Str (AsciiDigit AsciiHex numeral digitValue)

/-! ## Specification -/

/-- `h` is a run of exactly `k` hexadecimal digits, of either case, with value `v`. -/
def HexRun (k : Nat) (h : List Nat) (v : Nat) : Prop :=
  h.length = k ∧ (∀ d ∈ h, AsciiHex d) ∧ numeral 16 h = v

/-- `EscapeText t c`: `t` is one escape sequence standing for the scalar value `c`: `\uXXXX` for a
scalar value, `\uXXXX\uXXXX` for a surrogate pair, `\UXXXXXXXX` for a scalar value. -/
inductive EscapeText : List Nat → Nat → Prop
  | short {h c} : HexRun 4 h c → Scalar c → EscapeText (0x5c :: 0x75 :: h) c
  | pair {h hi l lo} : HexRun 4 h hi → 0xd800 ≤ hi → hi ≤ 0xdbff → HexRun 4 l lo →
      0xdc00 ≤ lo → lo ≤ 0xdfff →
      EscapeText (0x5c :: 0x75 :: (h ++ 0x5c :: 0x75 :: l))
        (0x10000 + (hi - 0xd800) * 1024 + (lo - 0xdc00))
  | long {h c} : HexRun 8 h c → Scalar c → EscapeText (0x5c :: 0x55 :: h) c

/-- The text starts with a backslash and a `u` or `U`. -/
def StartsEscape (s : List Nat) : Prop :=
  ∃ p r, s = 0x5c :: p :: r ∧ (p = 0x75 ∨ p = 0x55)

/-- `Unescaped e s o`: reading `s` from the left, each escape sequence is replaced by the encoding of
the character it stands for and everything else is copied; a backslash followed by `u` or `U` is never
copied. -/
inductive Unescaped (e : Enc) : List Nat → List Nat → Prop
  | nil : Unescaped e [] []
  | esc {t c s o} : EscapeText t c → Unescaped e s o → Unescaped e (t ++ s) (formOf e c ++ o)
  | plain {c s o} : ¬ StartsEscape (c :: s) → Unescaped e s o → Unescaped e (c :: s) (c :: o)

/-- A lower-case hexadecimal digit. -/
def LowerHex (d : Nat) : Prop := (0x30 ≤ d ∧ d ≤ 0x39) ∨ (0x61 ≤ d ∧ d ≤ 0x66)

/-- `h` is the `k`-digit lower-case hexadecimal form of `v`. -/
def LowerHexRun (k : Nat) (h : List Nat) (v : Nat) : Prop :=
  h.length = k ∧ (∀ d ∈ h, LowerHex d) ∧ numeral 16 h = v

/-! ## Hexadecimal runs -/

theorem foldl_numeral (b : Nat) : ∀ (l : List Nat) (a : Nat),
    l.foldl (fun a u => a * b + digitValue u) a = a * b ^ l.length + numeral b l := by
  intro l
  induction l with
  | nil => intro a; simp [numeral]
  | cons c l ih =>
    intro a
    have h1 := ih (a * b + digitValue c)
    have h2 := ih (0 * b + digitValue c)
    simp only [numeral, List.foldl_cons] at *
    rw [h1, h2, List.length_cons, Nat.pow_succ, Nat.zero_mul, Nat.zero_add, Nat.add_mul,
      Nat.mul_assoc, Nat.mul_comm b, Nat.add_assoc]

theorem numeral_cons (b c : Nat) (l : List Nat) :
    numeral b (c :: l) = digitValue c * b ^ l.length + numeral b l := by
  have := foldl_numeral b l (0 * b + digitValue c)
  rw [Nat.zero_mul, Nat.zero_add] at this
  simp only [numeral, List.foldl_cons, Nat.zero_mul, Nat.zero_add] at *
  exact this

theorem digitValue_hex_lt {c : Nat} (h : AsciiHex c) : digitValue c < 16 := by
  unfold AsciiHex AsciiDigit at h
  unfold digitValue
  repeat' split
  all_goals omega

theorem numeral_hex_lt : ∀ l : List Nat, (∀ d ∈ l, AsciiHex d) → numeral 16 l < 16 ^ l.length := by
  intro l
  induction l with
  | nil => intro _; simp [numeral]
  | cons c l ih =>
    intro h
    have h1 := ih (fun d hd => h d (List.mem_cons_of_mem _ hd))
    have h2 := digitValue_hex_lt (h c List.mem_cons_self)
    rw [numeral_cons, List.length_cons, Nat.pow_succ, Nat.mul_comm]
    have h3 : 16 ^ l.length * digitValue c ≤ 16 ^ l.length * 15 := Nat.mul_le_mul_left _ (by omega)
    omega

theorem hexDigits_cons (k cp c : Nat) (s : List Nat) :
    hexDigits (k + 1) cp (c :: s) =
      if AsciiHex c then hexDigits k (cp + digitValue c * 16 ^ k) s else (invalid, c :: s) := by
  have e : (2 : Nat) ^ (4 * k) = 16 ^ k := by rw [Nat.pow_mul]
  rw [hexDigits]
  have hx : AsciiHex c ↔ (0x30 ≤ c ∧ c ≤ 0x39) ∨ (0x41 ≤ c ∧ c ≤ 0x46) ∨ (0x61 ≤ c ∧ c ≤ 0x66) := Iff.rfl
  by_cases h1 : 0x30 ≤ c ∧ c ≤ 0x39
  · have hd : digitValue c = c - 0x30 := by unfold digitValue; rw [if_pos h1.2]
    rw [if_pos h1, if_pos (hx.2 (by omega)), Nat.shiftLeft_eq, e, hd]
  · rw [if_neg h1]
    by_cases h2 : 0x41 ≤ c ∧ c ≤ 0x46
    · have hd : digitValue c = c - 0x37 := by
        unfold digitValue; rw [if_neg (by omega), if_pos h2.2]; omega
      rw [if_pos h2, if_pos (hx.2 (by omega)), Nat.shiftLeft_eq, e, hd]
    · rw [if_neg h2]
      by_cases h3 : 0x61 ≤ c ∧ c ≤ 0x66
      · have hd : digitValue c = c - 0x57 := by
          unfold digitValue; rw [if_neg (by omega), if_neg (by omega)]; omega
        rw [if_pos h3, if_pos (hx.2 (by omega)), Nat.shiftLeft_eq, e, hd]
      · rw [if_neg h3, if_neg (fun h => by have := hx.1 h; omega)]

theorem hexDigits_run : ∀ (h : List Nat) (cp : Nat) (s : List Nat), (∀ d ∈ h, AsciiHex d) →
    hexDigits h.length cp (h ++ s) = (cp + numeral 16 h, s) := by
  intro h
  induction h with
  | nil => intro cp s _; simp [hexDigits, numeral]
  | cons c h ih =>
    intro cp s hh
    simp only [List.length_cons, List.cons_append]
    rw [hexDigits_cons, if_pos (hh c List.mem_cons_self),
      ih _ _ (fun d hd => hh d (List.mem_cons_of_mem _ hd)), numeral_cons, Nat.add_assoc]

theorem hexDigits_inv : ∀ (k cp : Nat) (s : List Nat) (v : Nat) (r : List Nat),
    hexDigits k cp s = (v, r) → v = invalid ∨
      ∃ h, s = h ++ r ∧ h.length = k ∧ (∀ d ∈ h, AsciiHex d) ∧ v = cp + numeral 16 h := by
  intro k
  induction k with
  | zero =>
    intro cp s v r h
    simp only [hexDigits, Prod.mk.injEq] at h
    exact Or.inr ⟨[], by simp [h.2], rfl, by simp, by simp [numeral, h.1]⟩
  | succ k ih =>
    intro cp s v r h
    cases s with
    | nil => simp only [hexDigits, Prod.mk.injEq] at h; exact Or.inl h.1.symm
    | cons c s =>
      rw [hexDigits_cons] at h
      split at h
      · rename_i hc
        rcases ih _ _ _ _ h with h1 | ⟨g, h1, h2, h3, h4⟩
        · exact Or.inl h1
        · refine Or.inr ⟨c :: g, by rw [h1]; rfl, by simp [h2], ?_, ?_⟩
          · intro d hd
            rcases List.mem_cons.1 hd with rfl | hd
            · exact hc
            · exact h3 d hd
          · rw [numeral_cons, h2, h4, Nat.add_assoc]
      · simp only [Prod.mk.injEq] at h; exact Or.inl h.1.symm

theorem unescapeRaw_run {p k : Nat} {h : List Nat} {c : Nat} (hh : HexRun k h c) (s : List Nat) :
    unescapeRaw p k (0x5c :: p :: (h ++ s)) = (c, s) := by
  obtain ⟨h1, h2, h3⟩ := hh
  have := hexDigits_run h 0 s h2
  rw [h1, Nat.zero_add, h3] at this
  simp only [unescapeRaw, backslash, ne_eq, not_true, if_false]
  exact this

theorem unescapeRaw_only {p k : Nat} {s : List Nat} {v : Nat} {r : List Nat}
    (h : unescapeRaw p k s = (v, r)) (hv : v ≠ invalid) :
    ∃ g, HexRun k g v ∧ s = 0x5c :: p :: (g ++ r) := by
  unfold unescapeRaw at h
  cases s with
  | nil => simp only [Prod.mk.injEq] at h; exact absurd h.1.symm hv
  | cons a s =>
    simp only at h
    split at h
    · simp only [Prod.mk.injEq] at h; exact absurd h.1.symm hv
    · rename_i ha
      cases s with
      | nil => simp only [Prod.mk.injEq] at h; exact absurd h.1.symm hv
      | cons b s =>
        simp only at h
        split at h
        · simp only [Prod.mk.injEq] at h; exact absurd h.1.symm hv
        · rename_i hb
          rcases hexDigits_inv _ _ _ _ _ h with h1 | ⟨g, h1, h2, h3, h4⟩
          · exact absurd h1 hv
          · refine ⟨g, ⟨h2, h3, by omega⟩, ?_⟩
            simp only [ne_eq, Decidable.not_not] at ha hb
            rw [ha, hb, h1]; rfl

theorem hexRun_lt {k : Nat} {h : List Nat} {c : Nat} (hh : HexRun k h c) : c < 16 ^ k := by
  obtain ⟨h1, h2, h3⟩ := hh
  have := numeral_hex_lt h h2
  rw [h1, h3] at this
  exact this

theorem encode_of_scalar (e : Enc) {c : Nat} (h : Scalar c) :
    encodeCodepoint e c = some (formOf e c) := by
  unfold encodeCodepoint
  rw [if_pos ((validateCodepoint_iff c).2 h), codepointToString_eq e h]

theorem encode_some_inv {e : Enc} {c : Nat} {out : List Nat} (h : encodeCodepoint e c = some out) :
    Scalar c ∧ out = formOf e c := by
  by_cases hs : Scalar c
  · rw [encode_of_scalar e hs] at h
    simp only [Option.some.injEq] at h
    exact ⟨hs, h.symm⟩
  · rw [encode_rejects_non_scalar e c hs] at h; cases h

/-- C87. One escape sequence is consumed - and replaced by the encoding of its character - exactly
when the text starts with a well-formed one: the two styles, digits of either case, surrogates only as
a high-low pair of `\u` escapes, no other prefix, no fewer digits. -/
theorem unescape_codepoint_iff (e : Enc) (s out rest : List Nat) :
    unescapeCodepoint e s = (some out, rest) ↔
      ∃ t c, EscapeText t c ∧ s = t ++ rest ∧ out = formOf e c := by
  constructor
  · intro h
    unfold unescapeCodepoint at h
    split at h
    rename_i cp r hm
    simp only [Prod.mk.injEq] at h
    obtain ⟨h, rfl⟩ := h
    obtain ⟨hs, ho⟩ := encode_some_inv h
    have hninv : cp ≠ invalid := by rintro rfl; revert hs; decide
    split at hm
    · rename_i a b s'
      split at hm
      · -- `\u`
        unfold fromSurrogates at hm
        split at hm
        rename_i x cp1 s1 h1
        by_cases c1 : 0xd800 ≤ cp1 ∧ cp1 ≤ 0xdbff
        · rw [if_pos c1] at hm
          split at hm
          rename_i y low s2 h2
          by_cases c2 : 0xdc00 ≤ low ∧ low ≤ 0xdfff
          · rw [if_pos c2] at hm
            simp only [Prod.mk.injEq] at hm
            obtain ⟨g, hg, e1⟩ := unescapeRaw_only h1 (by unfold invalid; omega)
            obtain ⟨l, hl, e2⟩ := unescapeRaw_only h2 (by unfold invalid; omega)
            have hv : cp = 0x10000 + (cp1 - 0xd800) * 1024 + (low - 0xdc00) := by
              rw [← hm.1, Nat.shiftLeft_eq]; omega
            refine ⟨_, _, .pair hg c1.1 c1.2 hl c2.1 c2.2, ?_, ?_⟩
            · rw [e1, e2, hm.2]
              simp only [lowerU, List.cons_append, List.append_assoc]
            · rw [ho, hv]
          · rw [if_neg c2] at hm
            simp only [Prod.mk.injEq] at hm
            exact absurd hm.1.symm hninv
        · rw [if_neg c1] at hm
          by_cases c2 : 0xdc00 ≤ cp1 ∧ cp1 ≤ 0xdfff
          · rw [if_pos c2] at hm
            simp only [Prod.mk.injEq] at hm
            exact absurd hm.1.symm hninv
          · rw [if_neg c2] at hm
            simp only [Prod.mk.injEq] at hm
            obtain ⟨rfl, rfl⟩ := hm
            obtain ⟨g, hg, e1⟩ := unescapeRaw_only h1 hninv
            exact ⟨_, _, .short hg hs, by rw [e1]; rfl, ho⟩
      · split at hm
        · obtain ⟨g, hg, e1⟩ := unescapeRaw_only hm hninv
          exact ⟨_, _, .long hg hs, by rw [e1]; rfl, ho⟩
        · simp only [Prod.mk.injEq] at hm
          exact absurd hm.1.symm hninv
    · simp only [Prod.mk.injEq] at hm
      exact absurd hm.1.symm hninv
  · rintro ⟨t, c, ht, rfl, rfl⟩
    cases ht with
    | @short h c hh hs =>
      have h1 := unescapeRaw_run (p := lowerU) hh rest
      have hs' := hs
      unfold Scalar at hs'
      simp only [List.cons_append, unescapeCodepoint, backslash, lowerU, and_self, if_true]
      unfold lowerU at h1
      rw [fromSurrogates_eq (unescapeRaw 0x75 4) h1 (low := (unescapeRaw 0x75 4 rest).1)
        (s2 := (unescapeRaw 0x75 4 rest).2) rfl, if_neg (by omega), if_neg (by omega)]
      simp only [encode_of_scalar e hs]
    | @pair h hi l lo hh c1 c2 hl c3 c4 =>
      have h1 := unescapeRaw_run (p := lowerU) hh (0x5c :: 0x75 :: (l ++ rest))
      have h2 := unescapeRaw_run (p := lowerU) hl rest
      unfold lowerU at h1 h2
      simp only [List.cons_append, List.append_assoc, unescapeCodepoint, backslash, lowerU, and_self,
        if_true]
      rw [fromSurrogates_eq (unescapeRaw 0x75 4) h1 h2, if_pos (by omega), if_pos (by omega)]
      have e1 : ((hi <<< 10) % 2 ^ 32 + lo + 2 ^ 32 - 0x35fdc00) % 2 ^ 32 =
          0x10000 + (hi - 0xd800) * 1024 + (lo - 0xdc00) := by
        rw [Nat.shiftLeft_eq]; omega
      have hs : Scalar (0x10000 + (hi - 0xd800) * 1024 + (lo - 0xdc00)) := by
        unfold Scalar; omega
      simp only [e1, encode_of_scalar e hs]
    | @long h c hh hs =>
      have h1 := unescapeRaw_run (p := upperU) hh rest
      unfold upperU at h1
      simp only [List.cons_append, unescapeCodepoint, backslash, lowerU, upperU, true_and]
      rw [if_neg (by decide), if_pos trivial, h1]
      simp only [encode_of_scalar e hs]

theorem escapeText_starts {t : List Nat} {c : Nat} (h : EscapeText t c) (s : List Nat) :
    ∃ p r, t ++ s = 0x5c :: p :: r ∧ (p = 0x75 ∨ p = 0x55) := by
  cases h with
  | short _ _ => exact ⟨_, _, rfl, Or.inl rfl⟩
  | pair _ _ _ _ _ _ => exact ⟨_, _, rfl, Or.inl rfl⟩
  | long _ _ => exact ⟨_, _, rfl, Or.inr rfl⟩

theorem unescapeAll_esc (e : Enc) {t : List Nat} {c : Nat} (h : EscapeText t c) (s : List Nat) :
    unescapeAll e (t ++ s) = (unescapeAll e s).map (formOf e c ++ ·) := by
  obtain ⟨p, r, h1, h2⟩ := escapeText_starts h s
  have h3 := (unescape_codepoint_iff e (t ++ s) _ s).2 ⟨t, c, h, rfl, rfl⟩
  rw [h1] at h3 ⊢
  rw [unescapeAll, dif_pos ⟨rfl, h2⟩]
  split
  · rename_i hu; rw [h3] at hu; cases hu
  · rename_i out rest hu
    rw [h3] at hu
    simp only [Prod.mk.injEq, Option.some.injEq] at hu
    rw [← hu.1, ← hu.2]

theorem unescapeAll_plain (e : Enc) {c : Nat} {s : List Nat} (h : ¬ StartsEscape (c :: s)) :
    unescapeAll e (c :: s) = (unescapeAll e s).map (c :: ·) := by
  cases s with
  | nil => rw [unescapeAll, unescapeAll]; rfl
  | cons p s =>
    rw [unescapeAll, dif_neg]
    rintro ⟨rfl, hp⟩
    exact h ⟨p, s, rfl, hp⟩

/-- C87. Un-escaping a whole string replaces exactly its escape sequences, copies everything else, and
fails exactly when a backslash followed by `u` or `U` does not begin a well-formed escape sequence. -/
theorem unescape_all_iff (e : Enc) (s o : List Nat) :
    unescapeAll e s = some o ↔ Unescaped e s o := by
  constructor
  · intro h
    induction hn : s.length using Nat.strongRecOn generalizing s o with
    | ind n ih =>
    cases s with
    | nil =>
      rw [unescapeAll] at h
      simp only [Option.some.injEq] at h
      rw [← h]; exact .nil
    | cons c s =>
      by_cases hp : StartsEscape (c :: s)
      · obtain ⟨p, r, he, hpp⟩ := hp
        rw [he] at h hn ⊢
        rw [unescapeAll, dif_pos ⟨rfl, hpp⟩] at h
        split at h
        · cases h
        · rename_i out rest hu
          have hlen := unescapeCodepoint_length e p r hpp
          have hu' : unescapeCodepoint e (backslash :: p :: r) = (some out, rest) := hu
          rw [hu'] at hlen
          obtain ⟨t, c', ht, hs, rfl⟩ := (unescape_codepoint_iff e _ _ _).1 hu
          cases hr : unescapeAll e rest with
          | none => rw [hr] at h; cases h
          | some o' =>
            rw [hr] at h
            simp only [Option.map_some, Option.some.injEq] at h
            rw [hs, ← h]
            refine .esc ht (ih rest.length ?_ rest o' hr rfl)
            simp only [List.length_cons] at hlen hn
            omega
      · rw [unescapeAll_plain e hp] at h
        cases hr : unescapeAll e s with
        | none => rw [hr] at h; cases h
        | some o' =>
          rw [hr] at h
          simp only [Option.map_some, Option.some.injEq] at h
          rw [← h]
          refine .plain hp (ih s.length ?_ s o' hr rfl)
          simp only [List.length_cons] at hn
          omega
  · intro h
    induction h with
    | nil => rw [unescapeAll]
    | esc ht _ ih => rw [unescapeAll_esc e ht, ih]; rfl
    | plain hp _ ih => rw [unescapeAll_plain e hp, ih]; rfl

/-- C87 (failure side). A string is refused exactly when some copied prefix is followed by a backslash
and `u` or `U` that do not begin a well-formed escape sequence. -/
theorem unescape_all_fails_iff (e : Enc) (s : List Nat) :
    unescapeAll e s = none ↔
      ∃ a b o, s = a ++ b ∧ Unescaped e a o ∧ StartsEscape b ∧
        ¬ ∃ t c r, EscapeText t c ∧ b = t ++ r := by
  constructor
  · intro h
    induction hn : s.length using Nat.strongRecOn generalizing s with
    | ind n ih =>
    cases s with
    | nil => rw [unescapeAll] at h; cases h
    | cons c s =>
      by_cases hp : StartsEscape (c :: s)
      · by_cases hw : ∃ t c' r, EscapeText t c' ∧ c :: s = t ++ r
        · obtain ⟨t, c', r, ht, he⟩ := hw
          rw [he] at h hn ⊢
          rw [unescapeAll_esc e ht] at h
          simp only [Option.map_eq_none_iff] at h
          obtain ⟨p', r', h1, _⟩ := escapeText_starts ht []
          rw [List.append_nil] at h1
          obtain ⟨a, b, o, rfl, h2, h3, h4⟩ := ih r.length
            (by rw [← hn, List.length_append, h1]; simp only [List.length_cons]; omega) r h rfl
          exact ⟨t ++ a, b, _, by rw [List.append_assoc], .esc ht h2, h3, h4⟩
        · exact ⟨[], c :: s, [], rfl, .nil, hp, hw⟩
      · rw [unescapeAll_plain e hp] at h
        simp only [Option.map_eq_none_iff] at h
        obtain ⟨a, b, o, rfl, h2, h3, h4⟩ := ih s.length (by rw [← hn]; simp) s h rfl
        refine ⟨c :: a, b, _, rfl, .plain ?_ h2, h3, h4⟩
        rintro ⟨p, r, he, hpp⟩
        rw [show c :: a = [c] ++ a from rfl] at he
        apply hp
        simp only [List.cons_append, List.nil_append, List.cons.injEq] at he
        exact ⟨p, r ++ b, by rw [he.1, he.2]; rfl, hpp⟩
  · rintro ⟨a, b, o, rfl, h2, ⟨p, r, rfl, hp⟩, h4⟩
    induction h2 with
    | nil =>
      cases hu : unescapeAll e ([] ++ 0x5c :: p :: r) with
      | none => rfl
      | some o' =>
        exfalso
        rw [List.nil_append] at hu
        rw [unescapeAll, dif_pos ⟨rfl, hp⟩] at hu
        split at hu
        · cases hu
        · rename_i out rest hu'
          obtain ⟨t, c', ht, hs, _⟩ := (unescape_codepoint_iff e _ _ _).1 hu'
          exact h4 ⟨t, c', rest, ht, hs⟩
    | esc ht _ ih => rw [List.append_assoc, unescapeAll_esc e ht, ih]; rfl
    | @plain c s o hn h2 ih =>
      rw [List.cons_append, unescapeAll_plain, ih]
      · rfl
      · rintro ⟨p', r', he, hp'⟩
        cases s with
        | nil =>
          simp only [List.nil_append, List.cons.injEq] at he
          rcases hp' with rfl | rfl <;> omega
        | cons d s =>
          simp only [List.cons_append, List.cons.injEq] at he
          exact hn ⟨d, s, by rw [he.1], by rw [he.2.1]; exact hp'⟩

/-- `"\u00E9"`, `"\uD83d\uDe00"` and `"\U0001F600"`; `"\uD83D"` and `"\u12"` are not well formed. -/
example : EscapeText [0x5c, 0x75, 0x30, 0x30, 0x45, 0x39] 0xe9 ∧
    EscapeText [0x5c, 0x75, 0x44, 0x38, 0x33, 0x64, 0x5c, 0x75, 0x44, 0x65, 0x30, 0x30] 0x1f600 ∧
    EscapeText [0x5c, 0x55, 0x30, 0x30, 0x30, 0x31, 0x46, 0x36, 0x30, 0x30] 0x1f600 :=
  ⟨.short (h := [0x30, 0x30, 0x45, 0x39]) ⟨rfl, by decide, by decide⟩ (by decide),
    .pair (h := [0x44, 0x38, 0x33, 0x64]) (hi := 0xd83d) (l := [0x44, 0x65, 0x30, 0x30])
      (lo := 0xde00) ⟨rfl, by decide, by decide⟩ (by decide) (by decide) ⟨rfl, by decide, by decide⟩
      (by decide) (by decide),
    .long (h := [0x30, 0x30, 0x30, 0x31, 0x46, 0x36, 0x30, 0x30]) ⟨rfl, by decide, by decide⟩
      (by decide)⟩

example : unescapeAll (.utf8 true) [0x5c, 0x75, 0x31, 0x32] = none ∧
    Unescaped (.utf8 true) [0x5c, 0x6e, 0x5c] [0x5c, 0x6e, 0x5c] := by
  refine ⟨(unescape_all_fails_iff _ _).2 ⟨[], [0x5c, 0x75, 0x31, 0x32], [], rfl, .nil,
    ⟨_, _, rfl, Or.inl rfl⟩, ?_⟩, ?_⟩
  · rintro ⟨t, c, r, ht, he⟩
    have := (unescape_codepoint_iff (.utf8 true) _ _ r).2 ⟨t, c, ht, he, rfl⟩
    have h2 : (unescapeCodepoint (.utf8 true) [0x5c, 0x75, 0x31, 0x32]).1 = none := by decide
    rw [this] at h2; cases h2
  · have h : ∀ (a b : Nat) (l : List Nat), (a ≠ 0x5c ∨ (b ≠ 0x75 ∧ b ≠ 0x55)) →
        ¬ StartsEscape (a :: b :: l) := by
      rintro a b l h ⟨p, r, he, hp⟩
      simp only [List.cons.injEq] at he
      omega
    refine .plain (h _ _ _ (by decide)) (.plain (h _ _ _ (by decide)) (.plain ?_ .nil))
    rintro ⟨p, r, he, _⟩
    simp at he

/-! ## What `escape` writes -/

theorem toHex_numeral (cp : Nat) : ∀ k, LowerHexRun k (toHex cp k) (cp % 16 ^ k) := by
  intro k
  induction k with
  | zero => exact ⟨rfl, by simp [toHex], by simp [toHex, numeral, Nat.mod_one]⟩
  | succ k ih =>
    obtain ⟨h1, h2, h3⟩ := ih
    have hd : ∀ d, d < 16 → LowerHex (hexDigit d) ∧ digitValue (hexDigit d) = d := by
      unfold LowerHex; decide +kernel
    have hm := hd ((cp >>> (4 * k)) &&& 0x0f) (by rw [and_15]; omega)
    refine ⟨by simp [toHex, h1], ?_, ?_⟩
    · intro d hd'
      simp only [toHex, List.mem_cons] at hd'
      rcases hd' with rfl | hd'
      · exact hm.1
      · exact h2 d hd'
    · rw [toHex, numeral_cons, h1, h3, hm.2, and_15, Nat.shiftRight_eq_div_pow,
        show (2 : Nat) ^ (4 * k) = 16 ^ k by rw [Nat.pow_mul], Nat.pow_succ, Nat.mod_mul,
        Nat.mul_comm, Nat.add_comm]

/-- C16. The exact text: printable ASCII is copied; a code point up to U+FFFF is `\u` and four
lower-case hexadecimal digits; one above is `\U` and eight, or in the short style the `\u` escapes of
its two UTF-16 surrogates. -/
theorem escape_format (short : Bool) (c : Nat) (hc : Scalar c) :
    (0x20 ≤ c ∧ c ≤ 0x7e ∧ escape short c = [c]) ∨
    (¬ (0x20 ≤ c ∧ c ≤ 0x7e) ∧ c ≤ 0xffff ∧
      ∃ h, LowerHexRun 4 h c ∧ escape short c = 0x5c :: 0x75 :: h) ∨
    (0xffff < c ∧ short = false ∧ ∃ h, LowerHexRun 8 h c ∧ escape short c = 0x5c :: 0x55 :: h) ∨
    (0xffff < c ∧ short = true ∧ ∃ hi lo h l, utf16Of c = [hi, lo] ∧ LowerHexRun 4 h hi ∧
      LowerHexRun 4 l lo ∧ escape short c = 0x5c :: 0x75 :: (h ++ 0x5c :: 0x75 :: l)) := by
  unfold Scalar at hc
  have four : ∀ v, v < 65536 → LowerHexRun 4 (toHex v 4) v := by
    intro v hv
    have := toHex_numeral v 4
    rw [Nat.mod_eq_of_lt (by omega)] at this
    exact this
  unfold escape
  by_cases h1 : c ≤ 0x1f ∨ c ≥ 0x7f
  · rw [if_pos h1]
    by_cases h2 : c ≤ 0xffff
    · rw [if_pos h2]
      exact Or.inr (Or.inl ⟨by omega, h2, _, four c (by omega), rfl⟩)
    · rw [if_neg h2]
      cases short with
      | true =>
        refine Or.inr (Or.inr (Or.inr ⟨by omega, rfl, 0xd7c0 + (c >>> 10), 0xdc00 + (c &&& 0x3ff),
          _, _, ?_, four _ ?_, four _ ?_, ?_⟩))
        · unfold utf16Of
          rw [if_neg (by omega), Nat.shiftRight_eq_div_pow, show c &&& 0x3ff = c % 1024 from and_mod c 10]
          simp only [List.cons.injEq, and_true]
          omega
        · rw [Nat.shiftRight_eq_div_pow]; omega
        · rw [show c &&& 0x3ff = c % 1024 from and_mod c 10]; omega
        · rfl
      | false =>
        refine Or.inr (Or.inr (Or.inl ⟨by omega, rfl, toHex c 8, ?_, rfl⟩))
        have := toHex_numeral c 8
        rw [Nat.mod_eq_of_lt (by omega)] at this
        exact this
  · rw [if_neg h1]
    exact Or.inl ⟨by omega, by omega, rfl⟩

example : LowerHexRun 4 [0x30, 0x30, 0x65, 0x39] 0xe9 ∧ ¬ LowerHexRun 4 [0x30, 0x30, 0x45, 0x39] 0xe9 := by
  refine ⟨⟨rfl, by unfold LowerHex; decide, by decide⟩, ?_⟩
  rintro ⟨_, h, _⟩
  revert h; unfold LowerHex; decide

end Verif.Unicode
