import Verif.Unicode.Memory
import Verif.Json.Props

/-!
# C162: JSON strings are un-escaped in place and escaped without leaving their memory

Source: `/repo/fly/types/json/json.cpp` 69-82, 826-959, `/repo/fly/types/json/json.hpp` 2005-2026.

`Verif.Json.validateString` gives the replaced parts as its output. The code edits the string it iterates over: here the string has
a generation that every edit changes, an iterator belongs to the generation it was made in, and using one of an earlier generation
is undefined behaviour.
-/

namespace Verif.Json.InPlace

open Verif.Unicode (Enc codepointToString encodeCodepoint unescapeCodepoint WellFormed8)
open Verif.Unicode.Memory

/-! ## Model -/

/-- The `std::string` that is edited: its units, and how often it was edited. -/
structure Text where
  units : List Nat
  gen : Nat
deriving DecidableEq, Repr

/-- An iterator of it. -/
structure Iter where
  pos : Nat
  gen : Nat
deriving DecidableEq, Repr

/-- `value.end()`. -/
def Text.stop (v : Text) : Iter := ⟨v.units.length, v.gen⟩

/-- The position of an iterator that may be used. -/
def Text.at (v : Text) (it : Iter) : Run Nat := if it.gen = v.gen then .ok it.pos else .ub

/-- `it == value.end()` (json.cpp 833, 859). -/
def Text.isEnd (v : Text) (it : Iter) : Run Bool := do
  let p ← v.at it
  .ok (p == v.units.length)

/-- `*it` (json.cpp 835, 864). -/
def Text.deref (v : Text) (it : Iter) : Run Nat := do
  let p ← v.at it
  Verif.Unicode.Memory.deref v.units p

/-- `it + 1`, `++it` (json.cpp 833, 857). -/
def Text.next (v : Text) (it : Iter) : Run Iter := do
  let p ← v.at it
  let p ← inc v.units p
  .ok ⟨p, v.gen⟩

/-- `it - n` (json.cpp 902, 903). -/
def Text.back (v : Text) (it : Iter) (n : Nat) : Run Iter := do
  let p ← v.at it
  if n ≤ p then .ok ⟨p - n, v.gen⟩ else .ub

/-- `value.erase(it)` (json.cpp 869-893): the string, and an iterator at the same place. -/
def Text.erase (v : Text) (it : Iter) : Run (Text × Iter) := do
  let p ← v.at it
  if p < v.units.length then .ok (⟨v.units.eraseIdx p, v.gen + 1⟩, ⟨p, v.gen + 1⟩) else .ub

/-- `*it = c` (json.cpp 874-894). -/
def Text.store (v : Text) (it : Iter) (c : Nat) : Run Text := do
  let p ← v.at it
  if p < v.units.length then .ok ⟨v.units.set p c, v.gen⟩ else .ub

/-- `value.replace(first, last, text)` (json.cpp 902). -/
def Text.replace (v : Text) (first last : Iter) (text : List Nat) : Run Text := do
  let p ← v.at first
  let q ← v.at last
  if p ≤ q ∧ q ≤ v.units.length then .ok ⟨v.units.take p ++ text ++ v.units.drop q, v.gen + 1⟩ else .ub

/-- The letters of the control characters, and what is stored (json.cpp 872-895). -/
def control (n : Nat) : Option Nat :=
  if n = 0x62 then some 0x08
  else if n = 0x66 then some 0x0c
  else if n = 0x6e then some 0x0a
  else if n = 0x72 then some 0x0d
  else if n = 0x74 then some 0x09
  else none

/-- `read_escaped_character(value, it)` (json.cpp 855-915): the string and the iterator afterwards; `none` if it throws. -/
def readEscaped (v : Text) (it : Iter) : Run (Option (Text × Iter)) := do
  let next ← v.next it
  let atEnd ← v.isEnd next
  if atEnd then .ok none
  else do
    let n ← v.deref next
    if n = 0x22 ∨ n = 0x5c ∨ n = 0x2f then do
      let r ← v.erase it
      .ok (some r)
    else
      match control n with
      | some c => do
        let r ← v.erase it
        let w ← r.1.store r.2 c
        .ok (some (w, r.2))
      | none =>
        if n = 0x75 then do
          let p ← v.at it
          let r ← unescapeAt enc v.units p
          match r.1 with
          | none => .ok none
          | some out => do
            let distance := v.units.length - r.2
            let first ← v.back next 1
            let w ← v.replace first ⟨r.2, v.gen⟩ out
            let last ← w.back w.stop distance
            let it ← w.back last 1
            .ok (some (w, it))
        else .ok none

/-- The loop of `validate_string` (json.cpp 833-849), given how often its condition is evaluated; `none` if it throws. Bytes from 0x80
up are negative `char`s. -/
def validateLoop : Nat → Text → Iter → Run (Option (List Nat))
  | 0, _, _ => .spin
  | k + 1, v, it => do
    let done ← v.isEnd it
    if done then .ok (some v.units)
    else do
      let c ← v.deref it
      if c = 0x5c then do
        let r ← readEscaped v it
        match r with
        | none => .ok none
        | some (w, it) => do
          let it ← w.next it
          validateLoop k w it
      else if c < 0x20 then .ok none
      else if c = 0x22 then .ok none
      else do
        let it ← v.next it
        validateLoop k v it

/-- `convert_to_string` of a `std::string` (json.hpp 2005-2026): `validate`, then `validate_string`; `none` is an exception. -/
def construct (rounds : Nat) (t : List Nat) : Run (Option (List Nat)) := do
  let good ← validateText rounds enc t
  if good then validateLoop rounds ⟨t, 0⟩ ⟨0, 0⟩ else .ok none

/-- `write_escaped_character(output, it, end)` (json.cpp 918-959): what is appended, and the iterator afterwards. At 954 an empty
optional is dereferenced if the text is not UTF-8. -/
def writeEscaped (m : List Nat) (it : Nat) : Run (List Nat × Nat) := do
  let c ← Verif.Unicode.Memory.deref m it
  match writeSimple c with
  | some e => do
    let it ← inc m it
    .ok ([0x5c, e], it)
  | none => do
    let r ← escapeAt enc true m it
    match r.1 with
    | some out => .ok (out, r.2)
    | none => .ub

/-- The loop of `serialize_string` (json.cpp 76-79). -/
def writeLoop (m : List Nat) : Nat → Nat → List Nat → Run (List Nat)
  | 0, _, _ => .spin
  | k + 1, it, out =>
    if it = m.length then .ok out
    else do
      let r ← writeEscaped m it
      writeLoop m k r.2 (out ++ r.1)

/-- `serialize_string` (json.cpp 72-82). -/
def write (rounds : Nat) (m : List Nat) : Run (List Nat) := do
  let body ← writeLoop m rounds 0 [0x22]
  .ok (body ++ [0x22])

/-! ## Proofs -/

theorem at_same (v : Text) (p : Nat) : v.at ⟨p, v.gen⟩ = .ok p := by simp [Text.at]

theorem isEnd_same (u : List Nat) (g p : Nat) : Text.isEnd ⟨u, g⟩ ⟨p, g⟩ = .ok (p == u.length) := by simp [Text.isEnd, Text.at]

theorem next_lt {u : List Nat} {g p : Nat} (h : p < u.length) : Text.next ⟨u, g⟩ ⟨p, g⟩ = .ok ⟨p + 1, g⟩ := by
  simp [Text.next, Text.at, inc_lt h]

theorem deref_mid (pre rest : List Nat) (c g : Nat) : Text.deref ⟨pre ++ c :: rest, g⟩ ⟨pre.length, g⟩ = .ok c := by
  simp [Text.deref, Text.at, Verif.Unicode.Memory.deref]

theorem deref_mid' (pre rest : List Nat) (b c g : Nat) : Text.deref ⟨pre ++ b :: c :: rest, g⟩ ⟨pre.length + 1, g⟩ = .ok c := by
  simp [Text.deref, Text.at, Verif.Unicode.Memory.deref]

theorem erase_mid (pre rest : List Nat) (c g : Nat) :
    Text.erase ⟨pre ++ c :: rest, g⟩ ⟨pre.length, g⟩ = .ok (⟨pre ++ rest, g + 1⟩, ⟨pre.length, g + 1⟩) := by
  simp [Text.erase, Text.at, List.eraseIdx_append_of_length_le]

theorem store_mid (pre rest : List Nat) (b c g : Nat) :
    Text.store ⟨pre ++ b :: rest, g⟩ ⟨pre.length, g⟩ c = .ok ⟨pre ++ c :: rest, g⟩ := by
  simp [Text.store, Text.at]

theorem encode_pos {cp : Nat} {out : List Nat} (h : encodeCodepoint enc cp = some out) : 0 < out.length := by
  unfold encodeCodepoint at h
  split at h
  · cases h
    simp only [codepointToString, enc, Verif.Unicode.toUtf8]
    repeat' split
    all_goals simp
  · cases h

theorem unescape_pos {s out rest : List Nat} (h : unescapeCodepoint enc s = (some out, rest)) : 0 < out.length := by
  unfold unescapeCodepoint at h
  simp only [Prod.mk.injEq] at h
  exact encode_pos h.1

theorem control_simple {n : Nat} (h : ¬ (n = 0x22 ∨ n = 0x5c ∨ n = 0x2f)) : control n = simpleEscape n := by
  unfold control simpleEscape
  rw [if_neg (fun hx => h (.inl hx)), if_neg (fun hx => h (.inr (.inl hx))), if_neg (fun hx => h (.inr (.inr hx)))]

theorem simple_same {n : Nat} (h : n = 0x22 ∨ n = 0x5c ∨ n = 0x2f) : simpleEscape n = some n := by
  rcases h with rfl | rfl | rfl <;> rfl

/-- One escape sequence: the string holds the character in its place, and the iterator is at the last unit of it. -/
theorem readEscaped_simple {n c : Nat} (hn : simpleEscape n = some c) (pre rest : List Nat) (g : Nat) :
    readEscaped ⟨pre ++ 0x5c :: n :: rest, g⟩ ⟨pre.length, g⟩ = .ok (some (⟨pre ++ c :: rest, g + 1⟩, ⟨pre.length, g + 1⟩)) := by
  unfold readEscaped
  rw [next_lt (by simp), bind_ok, isEnd_same, bind_ok]
  rw [if_neg (by simp), deref_mid', bind_ok, erase_mid]
  by_cases h : n = 0x22 ∨ n = 0x5c ∨ n = 0x2f
  · rw [simple_same h] at hn
    cases hn
    rw [if_pos h, bind_ok]
  · rw [if_neg h, control_simple h, hn]
    simp only [bind_ok, store_mid]

theorem readEscaped_unicode {n : Nat} (hn : simpleEscape n = none) (pre rest : List Nat) (g : Nat) :
    readEscaped ⟨pre ++ 0x5c :: n :: rest, g⟩ ⟨pre.length, g⟩ =
      if n = 0x75 then
        match unescapeCodepoint enc (0x5c :: n :: rest) with
        | (none, _) => .ok none
        | (some out, rest') => .ok (some (⟨pre ++ out ++ rest', g + 1⟩, ⟨pre.length + out.length - 1, g + 1⟩))
      else .ok none := by
  unfold readEscaped
  have h : ¬ (n = 0x22 ∨ n = 0x5c ∨ n = 0x2f) := by
    intro hx; rw [simple_same hx] at hn; cases hn
  rw [next_lt (by simp), bind_ok, isEnd_same, bind_ok]
  rw [if_neg (by simp), deref_mid', bind_ok, if_neg h, control_simple h, hn]
  simp only
  split
  · obtain ⟨it', h1, h2, h3, h4⟩ := unescape_follows enc (m := pre ++ 0x5c :: n :: rest) (it := pre.length) (by simp)
    have hd : (pre ++ 0x5c :: n :: rest).drop pre.length = 0x5c :: n :: rest := by simp
    rw [hd] at h1 h2
    rw [at_same ⟨pre ++ 0x5c :: n :: rest, g⟩, bind_ok]
    rw [h1, bind_ok]
    cases hu : unescapeCodepoint enc (0x5c :: n :: rest) with
    | mk o rest' =>
      rw [hu] at h2
      cases o with
      | none => rfl
      | some out =>
        have hp := unescape_pos hu
        simp only at h2
        simp only
        have hlen : rest'.length = (pre ++ 0x5c :: n :: rest).length - it' := by rw [h2]; simp
        have hb : Text.back ⟨pre ++ 0x5c :: n :: rest, g⟩ ⟨pre.length + 1, g⟩ 1 = .ok ⟨pre.length, g⟩ := by simp [Text.back, Text.at]
        have hr : Text.replace ⟨pre ++ 0x5c :: n :: rest, g⟩ ⟨pre.length, g⟩ ⟨it', g⟩ out = .ok ⟨pre ++ out ++ rest', g + 1⟩ := by
          simp only [Text.replace, Text.at, if_true, bind_ok, h3, h4, and_self, List.take_left', ← h2]
        rw [hb, bind_ok, hr, bind_ok, ← hlen]
        have hb1 : Text.back ⟨pre ++ out ++ rest', g + 1⟩ (Text.stop ⟨pre ++ out ++ rest', g + 1⟩) rest'.length =
            .ok ⟨pre.length + out.length, g + 1⟩ := by
          simp only [Text.back, Text.at, Text.stop, if_true, bind_ok, List.length_append]
          rw [if_pos (by omega)]
          congr 2
          omega
        have hb2 : Text.back ⟨pre ++ out ++ rest', g + 1⟩ ⟨pre.length + out.length, g + 1⟩ 1 =
            .ok ⟨pre.length + out.length - 1, g + 1⟩ := by
          simp only [Text.back, Text.at, if_true, bind_ok]
          rw [if_pos (by omega)]
        rw [hb1, bind_ok, hb2, bind_ok]
  · rfl

theorem readEscaped_end (pre : List Nat) (g : Nat) : readEscaped ⟨pre ++ [0x5c], g⟩ ⟨pre.length, g⟩ = .ok none := by
  unfold readEscaped
  rw [next_lt (by simp), bind_ok, isEnd_same, bind_ok, if_pos (by simp)]

/-- The loop, with the part that was already looked at in front. -/
theorem validateLoop_eq (s : List Nat) : ∀ (k g : Nat) (pre : List Nat), s.length < k →
    validateLoop k ⟨pre ++ s, g⟩ ⟨pre.length, g⟩ = .ok ((validateString s).map (pre ++ ·)) := by
  have plain : ∀ (s : List Nat) (k g : Nat) (pre : List Nat) (c : Nat), s.length < k → c ≠ 0x5c → ¬ c < 0x20 → c ≠ 0x22 →
      (∀ (k g : Nat) (pre : List Nat), s.length < k →
        validateLoop k ⟨pre ++ s, g⟩ ⟨pre.length, g⟩ = .ok ((validateString s).map (pre ++ ·))) →
      validateLoop (k + 1) ⟨pre ++ c :: s, g⟩ ⟨pre.length, g⟩ = .ok (((validateString s).map (c :: ·)).map (pre ++ ·)) := by
    intro s k g pre c hk h1 h2 h3 ih
    unfold validateLoop
    rw [isEnd_same, bind_ok, if_neg (by simp), deref_mid, bind_ok, if_neg h1, if_neg h2, if_neg h3, next_lt (by simp), bind_ok]
    have := ih k g (pre ++ [c]) hk
    simp only [List.append_assoc, List.singleton_append, List.length_append, List.length_singleton] at this
    rw [this]
    cases validateString s <;> simp
  have bad : ∀ (s : List Nat) (k g : Nat) (pre : List Nat) (c : Nat), c ≠ 0x5c → c < 0x20 ∨ c = 0x22 →
      validateLoop (k + 1) ⟨pre ++ c :: s, g⟩ ⟨pre.length, g⟩ = .ok none := by
    intro s k g pre c h1 h2
    unfold validateLoop
    rw [isEnd_same, bind_ok, if_neg (by simp), deref_mid, bind_ok, if_neg h1]
    by_cases h : c < 0x20
    · rw [if_pos h]
    · rw [if_neg h, if_pos (h2.resolve_left h)]
  fun_induction validateString s with
  | case1 =>
    intro k g pre hk
    obtain ⟨k, rfl⟩ : ∃ j, k = j + 1 := ⟨k - 1, by simp at hk; omega⟩
    unfold validateLoop
    rw [isEnd_same, bind_ok, if_pos (by simp)]
    simp
  | case2 =>
    intro k g pre hk
    obtain ⟨k, rfl⟩ : ∃ j, k = j + 1 := ⟨k - 1, by simp at hk; omega⟩
    unfold validateLoop
    rw [isEnd_same, bind_ok, if_neg (by simp), deref_mid, bind_ok, if_pos rfl, readEscaped_end, bind_ok]
    rfl
  | case3 c h1 h2 =>
    intro k g pre hk
    obtain ⟨k, rfl⟩ : ∃ j, k = j + 1 := ⟨k - 1, by simp at hk; omega⟩
    exact bad [] k g pre c h1 (.inl h2)
  | case4 =>
    intro k g pre hk
    obtain ⟨k, rfl⟩ : ∃ j, k = j + 1 := ⟨k - 1, by simp at hk; omega⟩
    exact bad [] k g pre _ (by decide) (.inr rfl)
  | case5 c h1 h2 h3 =>
    intro k g pre hk
    obtain ⟨k, rfl⟩ : ∃ j, k = j + 1 := ⟨k - 1, by simp at hk; omega⟩
    have hv : validateString [] = some [] := validateString_nil
    have hp := plain [] k g pre c (by simp at hk; simp; omega) h1 h2 h3
    rw [hv] at hp
    refine hp ?_
    intro k g pre hk
    obtain ⟨k, rfl⟩ : ∃ j, k = j + 1 := ⟨k - 1, by simp at hk; omega⟩
    unfold validateLoop
    rw [isEnd_same, bind_ok, if_pos (by simp)]
    simp
  | case6 n s r hr ih =>
    intro k g pre hk
    simp only [List.length_cons] at hk
    obtain ⟨k, rfl⟩ : ∃ j, k = j + 1 := ⟨k - 1, by omega⟩
    unfold validateLoop
    rw [isEnd_same, bind_ok, if_neg (by simp), deref_mid, bind_ok, if_pos rfl, readEscaped_simple hr, bind_ok]
    simp only
    rw [next_lt (by simp), bind_ok]
    have := ih k (g + 1) (pre ++ [r]) (by omega)
    simp only [List.append_assoc, List.singleton_append, List.length_append, List.length_singleton] at this
    rw [this]
    cases validateString s <;> simp
  | case7 s rest hn hu =>
    intro k g pre hk
    simp only [List.length_cons] at hk
    obtain ⟨k, rfl⟩ : ∃ j, k = j + 1 := ⟨k - 1, by omega⟩
    unfold validateLoop
    rw [isEnd_same, bind_ok, if_neg (by simp), deref_mid, bind_ok, if_pos rfl, readEscaped_unicode hn, if_pos rfl]
    have hu' : unescapeCodepoint enc (0x5c :: 0x75 :: s) = (none, rest) := hu
    rw [hu']
    rfl
  | case8 s out rest hn hu ih =>
    intro k g pre hk
    simp only [List.length_cons] at hk
    obtain ⟨k, rfl⟩ : ∃ j, k = j + 1 := ⟨k - 1, by omega⟩
    unfold validateLoop
    rw [isEnd_same, bind_ok, if_neg (by simp), deref_mid, bind_ok, if_pos rfl, readEscaped_unicode hn, if_pos rfl]
    have hu' : unescapeCodepoint enc (0x5c :: 0x75 :: s) = (some out, rest) := hu
    have hp := unescape_pos hu'
    have hl := Verif.Unicode.unescapeCodepoint_length enc 0x75 s (Or.inl rfl)
    rw [show Verif.Unicode.backslash = 0x5c from rfl, hu'] at hl
    simp only [List.length_cons] at hl
    rw [hu', bind_ok]
    simp only
    rw [next_lt (by simp; omega), bind_ok]
    have := ih k (g + 1) (pre ++ out) (by omega)
    simp only [List.length_append] at this
    rw [show pre.length + out.length - 1 + 1 = pre.length + out.length by omega, this]
    cases validateString rest <;> simp
  | case9 n s hn hu =>
    intro k g pre hk
    obtain ⟨k, rfl⟩ : ∃ j, k = j + 1 := ⟨k - 1, by simp at hk; omega⟩
    unfold validateLoop
    rw [isEnd_same, bind_ok, if_neg (by simp), deref_mid, bind_ok, if_pos rfl, readEscaped_unicode hn, if_neg hu]
    rfl
  | case10 c n s h1 h2 =>
    intro k g pre hk
    obtain ⟨k, rfl⟩ : ∃ j, k = j + 1 := ⟨k - 1, by simp at hk; omega⟩
    exact bad _ k g pre c h1 (.inl h2)
  | case11 n s =>
    intro k g pre hk
    obtain ⟨k, rfl⟩ : ∃ j, k = j + 1 := ⟨k - 1, by simp at hk; omega⟩
    exact bad _ k g pre _ (by decide) (.inr rfl)
  | case12 c n s h1 h2 h3 ih =>
    intro k g pre hk
    simp only [List.length_cons] at hk
    obtain ⟨k, rfl⟩ : ∃ j, k = j + 1 := ⟨k - 1, by omega⟩
    exact plain _ k g pre c (by simp only [List.length_cons]; omega) h1 h2 h3 ih

theorem construct_eq (t : List Nat) (rounds : Nat) (h : t.length < rounds) : construct rounds t = .ok (convertToString t) := by
  unfold construct convertToString
  rw [(text_in_bounds enc enc true t rounds h).1, bind_ok]
  split
  · have := validateLoop_eq t rounds 0 [] h
    simp only [List.nil_append, List.length_nil] at this
    rw [this]
    cases validateString t <;> simp
  · rfl

theorem writeLoop_eq (m : List Nat) : ∀ (k it : Nat) (out : List Nat), it ≤ m.length → m.length - it < k →
    writeLoop m k it out = (match escapeBody (m.drop it) with | some r => .ok (out ++ r) | none => .ub) := by
  intro k
  induction k with
  | zero => intro it _ _ hk; omega
  | succ k ih =>
    intro it out h hk
    unfold writeLoop
    split
    · rename_i hi; rw [drop_end hi, escapeBody]; simp
    · have hl : it < m.length := by omega
      unfold writeEscaped
      rw [deref_lt hl, bind_ok]
      cases hw : writeSimple m[it] with
      | some e =>
        simp only
        rw [inc_lt hl, bind_ok, bind_ok]
        simp only
        rw [ih _ _ hl (by omega), drop_lt hl, escapeBody, hw]
        cases escapeBody (m.drop (it + 1)) <;> simp
      | none =>
        simp only
        obtain ⟨it', h1, h2, h3, h4⟩ := escape_follows enc true h
        obtain ⟨it'', g1, g2, g3, g4⟩ := decode_step enc hl
        have hit : it < it' := by
          have : (Verif.Unicode.escapeCodepoint enc true (m.drop it)).2 = (Verif.Unicode.decodeCodepoint enc (m.drop it)).2 := by
            unfold Verif.Unicode.escapeCodepoint; split <;> rename_i hx <;> rw [hx]
          rw [h2, g2] at this
          have := congrArg List.length this
          simp only [List.length_drop] at this
          omega
        rw [h1, bind_ok]
        rw [drop_lt hl] at h2 ⊢
        rw [escapeBody, hw]
        · cases hc : Verif.Unicode.escapeCodepoint enc true (m[it] :: m.drop (it + 1)) with
          | mk o rest =>
            rw [hc] at h2
            cases o with
            | none => rfl
            | some t =>
              simp only [bind_ok]
              rw [show rest = m.drop it' from h2, ih it' _ h4 (by omega)]
              cases escapeBody (m.drop it') <;> simp

/-! ## Theorems -/

/-- C162: constructing a JSON string (or a key) from any bytes ends, reads and edits nothing outside of the string, and uses no
iterator that an edit invalidated. It throws unless the bytes are UTF-8 and RFC 8259 characters; then the string is what they
denote. -/
theorem json_string_in_place (t : List Nat) (ht : ∀ b ∈ t, b < 256) (rounds : Nat) (h : t.length < rounds) :
    ∃ r, construct rounds t = .ok r ∧ ∀ m, r = some m ↔ StringBody t m :=
  ⟨_, construct_eq t rounds h, fun m => json_string_iff t m ht⟩

/-- A pair of surrogates in the middle: twelve bytes are replaced by four, and the loop goes on behind them. -/
example : construct 19 [0x61, 0x5c, 0x75, 0x64, 0x38, 0x33, 0x64, 0x5c, 0x75, 0x64, 0x65, 0x30, 0x30, 0x5c, 0x6e, 0x62, 0x5c, 0x2f] =
    .ok (some [0x61, 0xf0, 0x9f, 0x98, 0x80, 0x0a, 0x62, 0x2f]) := by
  rw [construct_eq _ _ (by decide)]
  congr 1
  decide +kernel

theorem write_eq (m : List Nat) (rounds : Nat) (h : m.length < rounds) :
    write rounds m = (match serializeString m with | some t => .ok t | none => .ub) := by
  unfold write serializeString
  rw [writeLoop_eq m rounds 0 [0x22] (Nat.zero_le _) (by simpa using h), List.drop_zero]
  cases escapeBody m <;> rfl

/-- C162: writing a JSON string that is UTF-8 ends and reads nothing outside of it; the text is a quoted, printable string that
denotes it. -/
theorem json_string_write_partial (m : List Nat) (hm : WellFormed8 m) (rounds : Nat) (h : m.length < rounds) :
    ∃ t, write rounds m = .ok (0x22 :: (t ++ [0x22])) ∧ StringBody t m ∧ ∀ b ∈ t, 0x20 ≤ b ∧ b < 0x7f := by
  obtain ⟨t, h1, h2, h3⟩ := escapeBody_wf hm
  refine ⟨t, ?_, h2, h3⟩
  rw [write_eq m rounds h, serializeString, h1]
  rfl

/-- C162 fails for a string that is not UTF-8 (`resize` can leave one behind, C93): the value of an empty optional is used. -/
theorem json_string_write_violated (m : List Nat) (hb : ∀ b ∈ m, b < 256) (hm : ¬ WellFormed8 m) (rounds : Nat) (h : m.length < rounds) :
    write rounds m = .ub := by
  rw [write_eq m rounds h, serializeString]
  cases he : escapeBody m with
  | none => rfl
  | some t => exact absurd (escapeBody_not_wf m.length m rfl hb t he) hm

example : write 4 [0x61, 0x0a, 0x22] = .ok [0x22, 0x61, 0x5c, 0x6e, 0x5c, 0x22, 0x22] := by decide +kernel

example : write 3 [0x61, 0xc3] = .ub := by
  refine json_string_write_violated _ (by decide) ?_ 3 (by decide)
  intro hm
  obtain ⟨t, h1, _⟩ := json_string_write_partial _ hm 3 (by decide)
  have h2 : write 3 [0x61, 0xc3] = .ub := by decide +kernel
  rw [h2] at h1
  cases h1

end Verif.Json.InPlace
