import Verif.Unicode.Model

/-!
# C161: the memory the text functions touch

Source: `/repo/fly/types/string/detail/unicode.hpp` 364-497, 555-801, `/repo/fly/types/string/string.hpp` 636-748.

`Verif.Unicode.Model` treats a range of iterators as the list of the units still to be read. Here an iterator is a position in a
text, reading or advancing it outside of the text is undefined behaviour, and the loops end only if they do.
-/

namespace Verif.Unicode.Memory

open Verif.Unicode

/-! ## Model -/

/-- How a call ends: with a value; with undefined behaviour; or not within the number of rounds it was given. -/
inductive Run (α : Type) where
  | ok (a : α)
  | ub
  | spin
deriving DecidableEq, Repr

/-- One call after another. -/
def Run.bind {α β : Type} (r : Run α) (f : α → Run β) : Run β :=
  match r with
  | .ok a => f a
  | .ub => .ub
  | .spin => .spin

instance : Monad Run where
  pure := .ok
  bind := Run.bind

/-- `*it`: defined for the units of the text (unicode.hpp 478, 561, 576, 800). -/
def deref (m : List Nat) (it : Nat) : Run Nat :=
  match m[it]? with
  | some c => .ok c
  | none => .ub

/-- `++it`, `it + 1`: not past the end (unicode.hpp 473, 561, 567, 572, 800). -/
def inc (m : List Nat) (it : Nat) : Run Nat := if it < m.length then .ok (it + 1) else .ub

/-- The conversion of a unit to `codepoint_type` in `next_encoded_byte` (unicode.hpp 800): plain `char` is sign extended. -/
def widen (e : Enc) (b : Nat) : Nat :=
  match e with
  | .utf8 true => if b < 0x80 then b else 0xffffff00 + b
  | _ => b

/-- `next_encoded_byte` (unicode.hpp 795-801). -/
def nextByte (e : Enc) (m : List Nat) (it : Nat) : Run (Nat × Nat) :=
  if it = m.length then .ok (invalid, it)
  else do
    let b ← deref m it
    let it ← inc m it
    .ok (widen e b, it)

/-- The loop over the continuation bytes (unicode.hpp 628-640), with the number of rounds left, `shift` and `codepoint`. -/
def contLoop (e : Enc) (m : List Nat) : Nat → Nat → Nat → Nat → Run (Option Nat × Nat)
  | 0, _, cp, it => .ok (some cp, it)
  | n + 1, shift, cp, it => do
    let (b, it) ← nextByte e m it
    if b &&& 0b11000000 ≠ 0b10000000 then .ok (none, it)
    else contLoop e m n (shift - 6) (cp ||| ((b &&& 0b00111111) <<< (shift - 6))) it

/-- `codepoint_from_string` for one-byte units (unicode.hpp 598-651). -/
def fromUtf8At (e : Enc) (m : List Nat) (it : Nat) : Run (Nat × Nat) := do
  let (lead, it) ← nextByte e m it
  match leadingBytes.find? (fun d => lead &&& d.encodingMask == d.leadingByte) with
  | none => .ok (invalid, it)
  | some d => do
    let (r, it) ← contLoop e m (d.size - 1) (6 * (d.size - 1)) ((lead &&& d.codepointMask) <<< (6 * (d.size - 1))) it
    match r with
    | none => .ok (invalid, it)
    | some cp =>
      if (cp < 0x80 ∧ d.size ≠ 1) ∨ (cp ≥ 0x80 ∧ cp < 0x800 ∧ d.size ≠ 2) ∨
          (cp ≥ 0x800 ∧ cp < 0x10000 ∧ d.size ≠ 3) then .ok (invalid, it)
      else .ok (cp, it)

/-- `create_codepoint_from_surrogates` (unicode.hpp 735-773) with the callback that reads the next value. -/
def surrogatesAt (nextCp : Nat → Run (Nat × Nat)) (it : Nat) : Run (Nat × Nat) := do
  let (cp, it) ← nextCp it
  if 0xd800 ≤ cp ∧ cp ≤ 0xdbff then do
    let (low, it) ← nextCp it
    if 0xdc00 ≤ low ∧ low ≤ 0xdfff then .ok (((cp <<< 10) % 2 ^ 32 + low + 2 ^ 32 - 0x35fdc00) % 2 ^ 32, it)
    else .ok (invalid, it)
  else if 0xdc00 ≤ cp ∧ cp ≤ 0xdfff then .ok (invalid, it)
  else .ok (cp, it)

/-- `codepoint_from_string` (unicode.hpp 598-675). -/
def fromStringAt (e : Enc) (m : List Nat) (it : Nat) : Run (Nat × Nat) :=
  match e with
  | .utf8 _ => fromUtf8At e m it
  | .utf16 => surrogatesAt (nextByte e m) it
  | .utf32 => nextByte e m it

/-- `decode_codepoint(it, end)` (unicode.hpp 420-433). -/
def decodeAt (e : Enc) (m : List Nat) (it : Nat) : Run (Option Nat × Nat) := do
  let (cp, it) ← fromStringAt e m it
  if validateCodepoint cp then .ok (some cp, it) else .ok (none, it)

/-- `escape_codepoint(it, end)` (unicode.hpp 452-464). -/
def escapeAt (e : Enc) (short : Bool) (m : List Nat) (it : Nat) : Run (Option (List Nat) × Nat) := do
  let (r, it) ← decodeAt e m it
  match r with
  | none => .ok (none, it)
  | some cp => .ok (some (escape short cp), it)

/-- The digit loop (unicode.hpp 572-594): `k` rounds are left, so the shift of this round is `4 * (k - 1)`. -/
def digitsAt (m : List Nat) : Nat → Nat → Nat → Run (Nat × Nat)
  | 0, cp, it => .ok (cp, it)
  | k + 1, cp, it =>
    if it = m.length then .ok (invalid, it)
    else do
      let c ← deref m it
      if 0x30 ≤ c ∧ c ≤ 0x39 then do
        let it ← inc m it
        digitsAt m k (cp + ((c - 0x30) <<< (4 * k))) it
      else if 0x41 ≤ c ∧ c ≤ 0x46 then do
        let it ← inc m it
        digitsAt m k (cp + ((c - 0x37) <<< (4 * k))) it
      else if 0x61 ≤ c ∧ c ≤ 0x66 then do
        let it ← inc m it
        digitsAt m k (cp + ((c - 0x57) <<< (4 * k))) it
      else .ok (invalid, it)

/-- `unescape_codepoint<UnicodePrefix>(it, end)` (unicode.hpp 555-595): the conditions of line 561 from left to right. -/
def unescapeRawAt (prefix' digits : Nat) (m : List Nat) (it : Nat) : Run (Nat × Nat) :=
  if it = m.length then .ok (invalid, it)
  else do
    let c ← deref m it
    if c ≠ backslash then .ok (invalid, it)
    else do
      let it ← inc m it
      if it = m.length then .ok (invalid, it)
      else do
        let p ← deref m it
        if p ≠ prefix' then .ok (invalid, it)
        else do
          let it ← inc m it
          digitsAt m digits 0 it

/-- The lambda `escaped_with` (unicode.hpp 472-479). -/
def escapedWith (m : List Nat) (it : Nat) (ch : Nat) : Run Bool :=
  if it = m.length then .ok false
  else do
    let next ← inc m it
    if next = m.length then .ok false
    else do
      let c ← deref m it
      if c ≠ backslash then .ok false
      else do
        let p ← deref m next
        .ok (p == ch)

/-- `unescape_codepoint(it, end)` (unicode.hpp 467-497). -/
def unescapeAt (e : Enc) (m : List Nat) (it : Nat) : Run (Option (List Nat) × Nat) := do
  let lower ← escapedWith m it lowerU
  if lower then do
    let (cp, it) ← surrogatesAt (unescapeRawAt lowerU 4 m) it
    .ok (encodeCodepoint e cp, it)
  else do
    let upper ← escapedWith m it upperU
    if upper then do
      let (cp, it) ← unescapeRawAt upperU 8 m it
      .ok (encodeCodepoint e cp, it)
    else .ok (encodeCodepoint e invalid, it)

/-- `validate_encoding` (unicode.hpp 364-377): the loop, given the number of times its condition is evaluated. -/
def validateLoop (e : Enc) (m : List Nat) : Nat → Nat → Run Bool
  | 0, _ => .spin
  | k + 1, it =>
    if it = m.length then .ok true
    else do
      let (r, it) ← decodeAt e m it
      match r with
      | none => .ok false
      | some _ => validateLoop e m k it

/-- `convert_encoding_into` (unicode.hpp 396-417), with what was written so far. -/
def convertLoop (src dst : Enc) (m : List Nat) : Nat → Nat → List Nat → Run (Option (List Nat))
  | 0, _, _ => .spin
  | k + 1, it, out =>
    if it = m.length then .ok (some out)
    else do
      let (r, it) ← decodeAt src m it
      match r with
      | none => .ok none
      | some cp => convertLoop src dst m k it (out ++ codepointToString dst cp)

/-- `escape_all_codepoints` (string.hpp 662-684). -/
def escapeLoop (e : Enc) (short : Bool) (m : List Nat) : Nat → Nat → List Nat → Run (Option (List Nat))
  | 0, _, _ => .spin
  | k + 1, it, out =>
    if it = m.length then .ok (some out)
    else do
      let (r, it) ← escapeAt e short m it
      match r with
      | none => .ok none
      | some t => escapeLoop e short m k it (out ++ t)

/-- `result += *(it++)` (string.hpp 724, 730), then the next round. -/
def copyUnit (m : List Nat) (it : Nat) : Run (Nat × Nat) := do
  let c ← deref m it
  let it ← inc m it
  .ok (c, it)

/-- `unescape_all_codepoints` (string.hpp 698-736). -/
def unescapeLoop (e : Enc) (m : List Nat) : Nat → Nat → List Nat → Run (Option (List Nat))
  | 0, _, _ => .spin
  | k + 1, it, out =>
    if it = m.length then .ok (some out)
    else do
      let c ← deref m it
      let next ← inc m it
      if c = backslash ∧ next ≠ m.length then do
        let p ← deref m next
        if p = lowerU ∨ p = upperU then do
          let (r, it) ← unescapeAt e m it
          match r with
          | none => .ok none
          | some t => unescapeLoop e m k it (out ++ t)
        else do
          let (c, it) ← copyUnit m it
          unescapeLoop e m k it (out ++ [c])
      else do
        let (c, it) ← copyUnit m it
        unescapeLoop e m k it (out ++ [c])

/-- `BasicString::validate` (string.hpp 636-643). -/
def validateText (rounds : Nat) (e : Enc) (m : List Nat) : Run Bool := validateLoop e m rounds 0

/-- `BasicString::convert` (string.hpp 815-820, unicode.hpp 380-393). -/
def convertText (rounds : Nat) (src dst : Enc) (m : List Nat) : Run (Option (List Nat)) := convertLoop src dst m rounds 0 []

/-- `BasicString::escape_all_codepoints`. -/
def escapeText (rounds : Nat) (e : Enc) (short : Bool) (m : List Nat) : Run (Option (List Nat)) := escapeLoop e short m rounds 0 []

/-- `BasicString::unescape_all_codepoints`. -/
def unescapeText (rounds : Nat) (e : Enc) (m : List Nat) : Run (Option (List Nat)) := unescapeLoop e m rounds 0 []

/-! ## Specification -/

/-- The call ended with the value `q.1`; the iterator is at or after the place where it was, not after the end, and before the
units `q.2`. -/
def Follows {α : Type} (m : List Nat) (it : Nat) (r : Run (α × Nat)) (q : α × List Nat) : Prop :=
  ∃ it', r = .ok (q.1, it') ∧ q.2 = m.drop it' ∧ it ≤ it' ∧ it' ≤ m.length

/-! ## Proofs -/

@[simp] theorem bind_ok {α β : Type} (a : α) (f : α → Run β) : (Run.ok a >>= f) = f a := rfl

theorem deref_lt {m : List Nat} {it : Nat} (h : it < m.length) : deref m it = .ok (m[it]'h) := by
  simp [deref, List.getElem?_eq_getElem h]

theorem inc_lt {m : List Nat} {it : Nat} (h : it < m.length) : inc m it = .ok (it + 1) := by simp [inc, h]

theorem drop_lt {m : List Nat} {it : Nat} (h : it < m.length) : m.drop it = m[it]'h :: m.drop (it + 1) :=
  List.drop_eq_getElem_cons h

theorem drop_end {m : List Nat} {it : Nat} (h : it = m.length) : m.drop it = [] := by subst h; simp

theorem Follows.here {α : Type} {m : List Nat} {it : Nat} (h : it ≤ m.length) (a : α) :
    Follows m it (.ok (a, it)) (a, m.drop it) := ⟨it, rfl, rfl, Nat.le_refl _, h⟩

theorem Follows.trans {α : Type} {m : List Nat} {it it' : Nat} {r : Run (α × Nat)} {q : α × List Nat} (h : it ≤ it')
    (hr : Follows m it' r q) : Follows m it r q := by
  obtain ⟨j, h1, h2, h3, h4⟩ := hr
  exact ⟨j, h1, h2, Nat.le_trans h h3, h4⟩

/-- Sequencing. -/
theorem Follows.bind {α β : Type} {m : List Nat} {it : Nat} {r : Run (α × Nat)} {q : α × List Nat} (hr : Follows m it r q)
    {f : α × Nat → Run (β × Nat)} {q' : β × List Nat}
    (hf : ∀ a it', q = (a, m.drop it') → it ≤ it' → it' ≤ m.length → Follows m it' (f (a, it')) q') :
    Follows m it (r >>= f) q' := by
  obtain ⟨it', h1, h2, h3, h4⟩ := hr
  rw [h1, bind_ok]
  exact (hf q.1 it' (by rw [← h2]) h3 h4).trans h3

theorem nextByte_follows (e : Enc) {m : List Nat} {it : Nat} (h : it ≤ m.length) : Follows m it (nextByte e m it) (next e (m.drop it)) := by
  unfold nextByte
  split
  · rename_i hi
    rw [drop_end hi]
    exact ⟨it, rfl, by rw [drop_end hi]; rfl, Nat.le_refl _, h⟩
  · have hl : it < m.length := by omega
    rw [deref_lt hl, bind_ok, inc_lt hl, bind_ok, drop_lt hl]
    refine ⟨it + 1, ?_, ?_, by omega, hl⟩
    · unfold next widen; cases e with
      | utf8 b => cases b <;> rfl
      | utf16 => rfl
      | utf32 => rfl
    · unfold next; cases e with
      | utf8 b => cases b <;> rfl
      | utf16 => rfl
      | utf32 => rfl

theorem contLoop_follows (e : Enc) {m : List Nat} : ∀ (n cp it : Nat), it ≤ m.length →
    Follows m it (contLoop e m n (6 * n) cp it) (continuation e n cp (m.drop it)) := by
  intro n
  induction n with
  | zero => intro cp it h; exact .here h _
  | succ n ih =>
    intro cp it h
    unfold contLoop
    refine (nextByte_follows e h).bind ?_
    intro b it' hq _ hl
    simp only [continuation, hq]
    split
    · exact .here hl _
    · exact ih _ it' hl

theorem fromUtf8_follows (e : Enc) {m : List Nat} {it : Nat} (h : it ≤ m.length) :
    Follows m it (fromUtf8At e m it) (fromUtf8 e (m.drop it)) := by
  unfold fromUtf8At
  refine (nextByte_follows e h).bind ?_
  intro b it' hq _ hl
  simp only [fromUtf8, hq]
  generalize leadingBytes.find? (fun d => b &&& d.encodingMask == d.leadingByte) = o
  cases o with
  | none => exact .here hl _
  | some d =>
    refine (contLoop_follows e (d.size - 1) _ it' hl).bind ?_
    intro r it'' hq' _ hl'
    simp only
    rw [hq']
    cases r with
    | none => exact .here hl' _
    | some cp =>
      simp only
      split
      · exact .here hl' _
      · exact .here hl' _

theorem surrogates_follow {m : List Nat} {f : Nat → Run (Nat × Nat)} {g : List Nat → Nat × List Nat}
    (hfg : ∀ it, it ≤ m.length → Follows m it (f it) (g (m.drop it))) {it : Nat} (h : it ≤ m.length) :
    Follows m it (surrogatesAt f it) (fromSurrogates g (m.drop it)) := by
  unfold surrogatesAt
  refine (hfg it h).bind ?_
  intro cp it' hq _ hl
  simp only [fromSurrogates, hq]
  split
  · refine (hfg it' hl).bind ?_
    intro low it'' hq' _ hl'
    simp only [hq']
    split
    · exact .here hl' _
    · exact .here hl' _
  · split
    · exact .here hl _
    · exact .here hl _

theorem fromString_follows (e : Enc) {m : List Nat} {it : Nat} (h : it ≤ m.length) :
    Follows m it (fromStringAt e m it) (codepointFromString e (m.drop it)) := by
  unfold fromStringAt codepointFromString
  cases e with
  | utf8 b => exact fromUtf8_follows _ h
  | utf16 => exact surrogates_follow (fun it => nextByte_follows .utf16) h
  | utf32 => exact nextByte_follows _ h

theorem decode_follows (e : Enc) {m : List Nat} {it : Nat} (h : it ≤ m.length) :
    Follows m it (decodeAt e m it) (decodeCodepoint e (m.drop it)) := by
  unfold decodeAt
  refine (fromString_follows e h).bind ?_
  intro cp it' hq _ hl
  simp only [decodeCodepoint, hq]
  split
  · exact .here hl _
  · exact .here hl _

theorem escape_follows (e : Enc) (short : Bool) {m : List Nat} {it : Nat} (h : it ≤ m.length) :
    Follows m it (escapeAt e short m it) (escapeCodepoint e short (m.drop it)) := by
  unfold escapeAt
  refine (decode_follows e h).bind ?_
  intro r it' hq _ hl
  simp only [escapeCodepoint, hq]
  cases r with
  | none => exact .here hl _
  | some cp => exact .here hl _

theorem digits_follow {m : List Nat} : ∀ (k cp it : Nat), it ≤ m.length →
    Follows m it (digitsAt m k cp it) (hexDigits k cp (m.drop it)) := by
  intro k
  induction k with
  | zero => intro cp it h; simp only [digitsAt, hexDigits]; exact .here h _
  | succ k ih =>
    intro cp it h
    unfold digitsAt
    split
    · rename_i hi
      have := Follows.here h invalid
      rw [drop_end hi] at this ⊢
      exact this
    · have hl : it < m.length := by omega
      have hh := Follows.here h invalid
      rw [deref_lt hl, bind_ok]
      rw [drop_lt hl] at hh ⊢
      simp only [hexDigits, inc_lt hl, bind_ok]
      split
      · exact (ih _ _ hl).trans (by omega)
      · split
        · exact (ih _ _ hl).trans (by omega)
        · split
          · exact (ih _ _ hl).trans (by omega)
          · exact hh

theorem raw_follows (p d : Nat) {m : List Nat} {it : Nat} (h : it ≤ m.length) :
    Follows m it (unescapeRawAt p d m it) (unescapeRaw p d (m.drop it)) := by
  unfold unescapeRawAt
  split
  · rename_i hi
    have := Follows.here h invalid
    rw [drop_end hi] at this ⊢
    exact this
  · have hl : it < m.length := by omega
    have hh := Follows.here h invalid
    rw [deref_lt hl, bind_ok, inc_lt hl]
    rw [drop_lt hl] at hh ⊢
    simp only [unescapeRaw, bind_ok]
    split
    · exact hh
    · split
      · rename_i hi
        rw [drop_end hi]
        refine ⟨it + 1, rfl, ?_, by omega, hl⟩
        rw [drop_end hi]
      · have hl' : it + 1 < m.length := by omega
        have hh' := (Follows.here (Nat.le_of_lt hl') invalid).trans (Nat.le_succ it)
        rw [deref_lt hl', bind_ok, inc_lt hl']
        rw [drop_lt hl'] at hh' ⊢
        simp only [bind_ok]
        split
        · exact hh'
        · exact (digits_follow d 0 _ hl').trans (by omega)

theorem escapedWith_eq {m : List Nat} {it : Nat} (h : it ≤ m.length) (ch : Nat) :
    ∃ b, escapedWith m it ch = .ok b ∧ (b = true ↔ ∃ s, m.drop it = backslash :: ch :: s) := by
  unfold escapedWith
  split
  · rename_i hi
    exact ⟨false, rfl, by rw [drop_end hi]; simp⟩
  · have hl : it < m.length := by omega
    rw [inc_lt hl, bind_ok]
    split
    · rename_i hi
      exact ⟨false, rfl, by rw [drop_lt hl, drop_end hi]; simp⟩
    · have hl' : it + 1 < m.length := by omega
      rw [deref_lt hl, bind_ok, deref_lt hl', drop_lt hl, drop_lt hl']
      simp only [bind_ok]
      split
      · rename_i hc
        refine ⟨false, rfl, fun hx => Bool.noConfusion hx, fun ⟨s, hs⟩ => ?_⟩
        injection hs with h1 _
        exact absurd h1 hc
      · rename_i hc
        have hc : m[it] = backslash := Classical.byContradiction hc
        refine ⟨_, rfl, fun hx => ⟨m.drop (it + 1 + 1), ?_⟩, fun ⟨s, hs⟩ => ?_⟩
        · rw [hc, beq_iff_eq.1 hx]
        · injection hs with _ h1
          injection h1 with h1 _
          exact beq_iff_eq.2 h1

theorem unescape_follows (e : Enc) {m : List Nat} {it : Nat} (h : it ≤ m.length) :
    Follows m it (unescapeAt e m it) (unescapeCodepoint e (m.drop it)) := by
  unfold unescapeAt
  obtain ⟨b, hb, hbi⟩ := escapedWith_eq h lowerU
  obtain ⟨c, hc, hci⟩ := escapedWith_eq h upperU
  rw [hb, bind_ok]
  cases b with
  | true =>
    obtain ⟨s, hs⟩ := hbi.1 rfl
    refine Follows.bind (surrogates_follow (fun _ => raw_follows lowerU 4) h) ?_
    intro cp it' hq _ hl
    rw [hs] at hq ⊢
    simp only [unescapeCodepoint, and_self, if_true, hq]
    exact .here hl _
  | false =>
    have hb' : ¬ ∃ s, m.drop it = backslash :: lowerU :: s := fun hx => Bool.noConfusion (hbi.2 hx)
    simp only [Bool.false_eq_true, if_false]
    rw [hc, bind_ok]
    cases c with
    | true =>
      obtain ⟨s, hs⟩ := hci.1 rfl
      refine Follows.bind (raw_follows upperU 8 h) ?_
      intro cp it' hq _ hl
      rw [hs] at hq ⊢
      simp only [unescapeCodepoint, and_self, if_true, hq]
      exact .here hl _
    | false =>
      have hc' : ¬ ∃ s, m.drop it = backslash :: upperU :: s := fun hx => Bool.noConfusion (hci.2 hx)
      simp only [Bool.false_eq_true, if_false]
      have he : unescapeCodepoint e (m.drop it) = (encodeCodepoint e invalid, m.drop it) := by
        generalize m.drop it = l at hb' hc'
        match l with
        | [] => rfl
        | [x] => rfl
        | x :: y :: s =>
          have h1 : ¬ (x = backslash ∧ y = lowerU) := fun ⟨h1, h2⟩ => hb' ⟨s, by rw [h1, h2]⟩
          have h2 : ¬ (x = backslash ∧ y = upperU) := fun ⟨h1, h2⟩ => hc' ⟨s, by rw [h1, h2]⟩
          simp only [unescapeCodepoint, h1, h2, if_false]
      rw [he]
      exact .here h _

/-! ## The loops -/

theorem decode_step (e : Enc) {m : List Nat} {it : Nat} (h : it < m.length) :
    ∃ it', decodeAt e m it = .ok ((decodeCodepoint e (m.drop it)).1, it') ∧ (decodeCodepoint e (m.drop it)).2 = m.drop it' ∧
      it < it' ∧ it' ≤ m.length := by
  obtain ⟨it', h1, h2, h3, h4⟩ := decode_follows e (Nat.le_of_lt h)
  refine ⟨it', h1, h2, ?_, h4⟩
  have hp := decodeCodepoint_length e (m[it]'h) (m.drop (it + 1))
  rw [← drop_lt h, h2] at hp
  simp only [List.length_drop] at hp
  omega

theorem validateLoop_eq (e : Enc) (m : List Nat) : ∀ (k it : Nat), it ≤ m.length → m.length - it < k →
    validateLoop e m k it = .ok (validate e (m.drop it)) := by
  intro k
  induction k with
  | zero => intro it _ hk; omega
  | succ k ih =>
    intro it h hk
    unfold validateLoop
    split
    · rename_i hi; rw [drop_end hi, validate]
    · have hl : it < m.length := by omega
      obtain ⟨it', h1, h2, h3, h4⟩ := decode_step e hl
      rw [h1, bind_ok]
      rw [drop_lt hl] at h1 h2 ⊢
      rw [validate]
      simp only
      split
      · rename_i hd
        split
        · rfl
        · rename_i hd'; rw [hd'] at hd; simp at hd
      · rename_i hd
        split
        · rename_i hd'; rw [hd'] at hd; simp at hd
        · rename_i rest hd'
          rw [hd'] at h2
          rw [show rest = m.drop it' from h2]
          exact ih it' h4 (by omega)

theorem convertLoop_eq (src dst : Enc) (m : List Nat) : ∀ (k it : Nat) (out : List Nat), it ≤ m.length → m.length - it < k →
    convertLoop src dst m k it out = .ok ((convert src dst (m.drop it)).map (out ++ ·)) := by
  intro k
  induction k with
  | zero => intro it _ _ hk; omega
  | succ k ih =>
    intro it out h hk
    unfold convertLoop
    split
    · rename_i hi; rw [drop_end hi]; simp [convert, decodeAll]
    · have hl : it < m.length := by omega
      obtain ⟨it', h1, h2, h3, h4⟩ := decode_step src hl
      rw [h1, bind_ok]
      rw [drop_lt hl] at h1 h2 ⊢
      unfold convert
      rw [decodeAll]
      simp only
      split
      · rename_i hd
        split
        · rfl
        · rename_i hd'; rw [hd'] at hd; simp at hd
      · rename_i cp hd
        split
        · rename_i hd'; rw [hd'] at hd; simp at hd
        · rename_i cp' rest hd'
          rw [hd'] at h2 hd
          rw [show rest = m.drop it' from h2]
          cases hd
          rw [ih it' _ h4 (by omega)]
          unfold convert
          cases decodeAll src (m.drop it') <;> simp

theorem escapeLoop_eq (e : Enc) (short : Bool) (m : List Nat) : ∀ (k it : Nat) (out : List Nat), it ≤ m.length → m.length - it < k →
    escapeLoop e short m k it out = .ok ((escapeAll e short (m.drop it)).map (out ++ ·)) := by
  intro k
  induction k with
  | zero => intro it _ _ hk; omega
  | succ k ih =>
    intro it out h hk
    unfold escapeLoop
    split
    · rename_i hi; rw [drop_end hi]; simp [escapeAll]
    · have hl : it < m.length := by omega
      obtain ⟨it', h1, h2, _, h4⟩ := escape_follows e short h
      obtain ⟨it'', g1, g2, g3, g4⟩ := decode_step e hl
      have hit : it < it' := by
        have : (escapeCodepoint e short (m.drop it)).2 = (decodeCodepoint e (m.drop it)).2 := by
          unfold escapeCodepoint; split <;> rename_i hx <;> rw [hx]
        rw [h2, g2] at this
        have := congrArg List.length this
        simp only [List.length_drop] at this
        omega
      rw [h1, bind_ok]
      rw [drop_lt hl] at h1 h2 ⊢
      rw [escapeAll]
      simp only
      split
      · rename_i hd
        split
        · rfl
        · rename_i hd'; rw [hd'] at hd; simp at hd
      · rename_i t hd
        split
        · rename_i hd'; rw [hd'] at hd; simp at hd
        · rename_i t' rest hd'
          rw [hd'] at h2 hd
          rw [show rest = m.drop it' from h2]
          cases hd
          rw [ih it' _ h4 (by omega)]
          cases escapeAll e short (m.drop it') <;> simp

theorem copyUnit_lt {m : List Nat} {it : Nat} (h : it < m.length) : copyUnit m it = .ok (m[it]'h, it + 1) := by
  simp only [copyUnit, deref_lt h, inc_lt h, bind_ok]

theorem unescapeLoop_eq (e : Enc) (m : List Nat) : ∀ (k it : Nat) (out : List Nat), it ≤ m.length → m.length - it < k →
    unescapeLoop e m k it out = .ok ((unescapeAll e (m.drop it)).map (out ++ ·)) := by
  intro k
  induction k with
  | zero => intro it _ _ hk; omega
  | succ k ih =>
    intro it out h hk
    unfold unescapeLoop
    split
    · rename_i hi; rw [drop_end hi]; simp [unescapeAll]
    · have hl : it < m.length := by omega
      rw [deref_lt hl, bind_ok, inc_lt hl, bind_ok, copyUnit_lt hl, bind_ok]
      by_cases hn : it + 1 = m.length
      · simp only [hn, ne_eq, not_true, and_false, if_false]
        rw [ih _ _ (Nat.le_refl _) (by omega), drop_lt hl, drop_end hn]
        simp [unescapeAll]
      · have hl' : it + 1 < m.length := by omega
        rw [deref_lt hl']
        have hd : m.drop it = m[it] :: m[it + 1] :: m.drop (it + 2) := by rw [drop_lt hl, drop_lt hl']
        rw [hd, unescapeAll]
        by_cases hc : m[it] = backslash
        · simp only [hc, ne_eq, hn, not_false_eq_true, and_self, if_true, bind_ok, true_and]
          by_cases hp : m[it + 1] = lowerU ∨ m[it + 1] = upperU
          · rw [if_pos hp, dif_pos hp]
            obtain ⟨it', h1, h2, _, h4⟩ := unescape_follows e h
            have hlen := unescapeCodepoint_length e m[it + 1] (m.drop (it + 2)) hp
            rw [h1, bind_ok]
            have hd' : backslash :: m[it + 1] :: m.drop (it + 2) = m.drop it := by rw [hd, hc]
            rw [hd'] at hlen
            rw [h2] at hlen
            simp only [List.length_drop] at hlen
            simp only
            split
            · rename_i hx
              split
              · rfl
              · rename_i hy; rw [← hd] at hy; rw [hy] at hx; simp at hx
            · rename_i t hx
              split
              · rename_i hy; rw [← hd] at hy; rw [hy] at hx; simp at hx
              · rename_i t' rest hy
                rw [← hd] at hy; rw [hy] at hx h2
                cases hx
                rw [show rest = m.drop it' from h2, ih it' _ h4 (by omega)]
                cases unescapeAll e (m.drop it') <;> simp
          · rw [if_neg hp, dif_neg hp, ih _ _ hl (by omega), drop_lt hl']
            cases unescapeAll e (m[it + 1] :: m.drop (it + 1 + 1)) <;> simp
        · rw [if_neg (fun hx => hc hx.1), dif_neg (fun hx => hc hx.1)]
          simp only
          rw [ih _ _ hl (by omega), drop_lt hl']
          cases unescapeAll e (m[it + 1] :: m.drop (it + 1 + 1)) <;> simp

/-! ## Theorems -/

/-- C161: decoding, escaping and un-escaping one code point, from any position of any text, reads nothing outside of the text; the
iterator ends in the text or at its end, and the value and the units that remain are those of `decode_codepoint` (C12-C14),
`escape_codepoint` (C16) and `unescape_codepoint` (C87). Decoding and escaping, unless at the end, consume something. -/
theorem codepoint_in_bounds (e : Enc) (short : Bool) (m : List Nat) (it : Nat) (h : it ≤ m.length) :
    Follows m it (decodeAt e m it) (decodeCodepoint e (m.drop it)) ∧
    Follows m it (escapeAt e short m it) (escapeCodepoint e short (m.drop it)) ∧
    Follows m it (unescapeAt e m it) (unescapeCodepoint e (m.drop it)) ∧
    (it < m.length → ∃ r it', decodeAt e m it = .ok (r, it') ∧ it < it') := by
  refine ⟨decode_follows e h, escape_follows e short h, unescape_follows e h, fun hl => ?_⟩
  obtain ⟨it', h1, _, h3, _⟩ := decode_step e hl
  exact ⟨_, it', h1, h3⟩

/-- C161: validating, converting, escaping and un-escaping a whole text end after at most as many rounds as there are units, read
nothing outside of the text, and give the values of `validate` (C13, C14), `convert` (C15), `escape_all_codepoints` and
`unescape_all_codepoints` (C17, C87). -/
theorem text_in_bounds (e dst : Enc) (short : Bool) (m : List Nat) (rounds : Nat) (h : m.length < rounds) :
    validateText rounds e m = .ok (validate e m) ∧
    convertText rounds e dst m = .ok (convert e dst m) ∧
    escapeText rounds e short m = .ok (escapeAll e short m) ∧
    unescapeText rounds e m = .ok (unescapeAll e m) := by
  refine ⟨?_, ?_, ?_, ?_⟩
  · simpa [validateText] using validateLoop_eq e m rounds 0 (Nat.zero_le _) (by simpa using h)
  · simpa [convertText] using convertLoop_eq e dst m rounds 0 [] (Nat.zero_le _) (by simpa using h)
  · simpa [escapeText] using escapeLoop_eq e short m rounds 0 [] (Nat.zero_le _) (by simpa using h)
  · simpa [unescapeText] using unescapeLoop_eq e m rounds 0 [] (Nat.zero_le _) (by simpa using h)

/-- A text that ends in the middle of a code point, and one that ends in the middle of an escape sequence: nothing is read behind. -/
example : decodeAt (.utf8 true) [0xe2, 0x82] 0 = .ok (none, 2) ∧ unescapeAt (.utf8 true) [0x5c, 0x75, 0x30, 0x30] 0 = .ok (none, 4) ∧
    unescapeAt (.utf8 true) [0x5c] 0 = .ok (none, 0) ∧ decodeAt .utf16 [0xd83d] 0 = .ok (none, 1) := by decide +kernel

example : unescapeText 13 (.utf8 true) [0x5c, 0x75, 0x64, 0x38, 0x33, 0x64, 0x5c, 0x75, 0x64, 0x65, 0x30, 0x30] =
    .ok (some [0xf0, 0x9f, 0x98, 0x80]) := by
  rw [(text_in_bounds (.utf8 true) .utf16 true _ 13 (by decide)).2.2.2]
  congr 1
  decide +kernel

end Verif.Unicode.Memory
