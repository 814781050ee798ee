import Verif.Str.LexerExact

/-!
# C88: every call of the lexer, in every order

`Verif.Str.Props` follows `consume` and `consume_if`; here every public call is followed, `set_position` and `peek` with an offset
included.

Source: `/repo/fly/types/string/lexer.hpp`.
-/

namespace Verif.Str

/-! ## Model -/

/-- `set_position` (lexer.hpp 182-185): not checked. -/
def Lexer.setPosition (l : Lexer) (p : Nat) : Lexer := { l with index := p }

/-- A call of a public member function (lexer.hpp 51-136). -/
inductive CursorCall
  | position
  | setPosition (p : Nat)
  | peek (offset : Nat)
  | consume
  | consumeIf (ch : Nat)
  | number
  | hex
  deriving DecidableEq, Repr

/-- What a call answers. -/
inductive CursorAnswer
  | nothing
  | size (n : Nat)
  | flag (b : Bool)
  | char (c : Option Nat)
  | num (n : Option Nat)
  deriving DecidableEq, Repr

/-- One call (lexer.hpp 175-178, 182-185, 189-198, 202-210, 214-223, 227-241, 245-269). -/
def Lexer.call (k : CharKind) (l : Lexer) : CursorCall → CursorAnswer × Lexer
  | .position => (.size l.index, l)
  | .setPosition p => (.nothing, l.setPosition p)
  | .peek off => (.char (l.peek off), l)
  | .consume => (.char l.consume.1, l.consume.2)
  | .consumeIf ch => (.flag (l.consumeIf ch).1, (l.consumeIf ch).2)
  | .number => (.num (l.consumeNumber k).1, (l.consumeNumber k).2)
  | .hex => (.num (l.consumeHexNumber k).1, (l.consumeHexNumber k).2)

/-- The answers to a sequence of calls (lexer.hpp 51-136). -/
def Lexer.calls (k : CharKind) : Lexer → List CursorCall → List CursorAnswer
  | _, [] => []
  | l, c :: cs => (l.call k c).1 :: Lexer.calls k (l.call k c).2 cs

/-! ## Specification -/

/-- The longest run of digits at a position of the text. -/
def runAt (digit : Nat → Bool) (text : List Nat) (pos : Nat) : List Nat := (text.drop pos).takeWhile digit

/-- The number at a position: none without a digit; a number that does not fit wraps (the overflow is documented nowhere, C23). -/
def numberAt (base : Nat) (run : List Nat) : Option Nat := if run = [] then none else some (numeral base run % 2 ^ 64)

/-- What a call has to answer on a text read at a position, and the position afterwards. -/
def expectedCall (text : List Nat) (pos : Nat) : CursorCall → CursorAnswer × Nat
  | .position => (.size pos, pos)
  | .setPosition p => (.nothing, p)
  | .peek off => (.char text[pos + off]?, pos)
  | .consume => (.char text[pos]?, if pos < text.length then pos + 1 else pos)
  | .consumeIf ch => if text[pos]? = some ch then (.flag true, pos + 1) else (.flag false, pos)
  | .number =>
    let run := runAt (fun u => decide (AsciiDigit u)) text pos
    (.num (numberAt 10 run), pos + run.length)
  | .hex =>
    let run := runAt (fun u => decide (AsciiHex u)) text pos
    (.num (numberAt 16 run), pos + run.length)

/-- What a sequence of calls has to answer. -/
def expectedCalls (text : List Nat) : Nat → List CursorCall → List CursorAnswer
  | _, [] => []
  | pos, c :: cs => (expectedCall text pos c).1 :: expectedCalls text (expectedCall text pos c).2 cs

/-- Positions and offsets below 2^63, so that no position plus an offset reaches 2^64. -/
def CursorCall.Small : CursorCall → Prop
  | .setPosition p => p < 2 ^ 63
  | .peek off => off < 2 ^ 63
  | _ => True

/-! ## Proofs -/

theorem runAt_bound (digit : Nat → Bool) (text : List Nat) (pos : Nat) (h : runAt digit text pos ≠ []) :
    pos + (runAt digit text pos).length ≤ text.length := by
  have h1 : (runAt digit text pos).length ≤ (text.drop pos).length := (List.takeWhile_sublist _).length_le
  rw [List.length_drop] at h1
  have h2 : (runAt digit text pos).length ≠ 0 := fun e => h (List.length_eq_zero_iff.1 e)
  omega

theorem call_expected (k : CharKind) (hk : IsCharKind k) (text : List Nat) (hu : ∀ u ∈ text, u < 2 ^ k.width ∧ k.neg u = false)
    (hl : text.length < 2 ^ 63) (pos : Nat) (hp : pos < 2 ^ 63) (c : CursorCall) (hc : c.Small) :
    Lexer.call k ⟨text, pos⟩ c = ((expectedCall text pos c).1, ⟨text, (expectedCall text pos c).2⟩) ∧
      (expectedCall text pos c).2 < 2 ^ 63 := by
  have h0 : Lexer.peek ⟨text, pos⟩ 0 = text[pos]? := by
    show text[(pos + 0) % 2 ^ 64]? = _
    rw [Nat.mod_eq_of_lt (by omega)]; rfl
  have some_lt : ∀ c, text[pos]? = some c → pos < text.length := by
    intro c h
    obtain ⟨h, _⟩ := List.getElem?_eq_some_iff.1 h
    exact h
  cases c with
  | position => exact ⟨rfl, hp⟩
  | setPosition p => exact ⟨rfl, hc⟩
  | peek off =>
    refine ⟨?_, hp⟩
    have hc : off < 2 ^ 63 := hc
    show (CursorAnswer.char text[(pos + off) % 2 ^ 64]?, _) = _
    rw [Nat.mod_eq_of_lt (by omega)]; rfl
  | consume =>
    by_cases h : pos < text.length
    · have hg : text[pos]? = some text[pos] := List.getElem?_eq_getElem h
      simp only [Lexer.call, expectedCall, Lexer.consume, hg, if_pos h]
      exact ⟨trivial, by omega⟩
    · have hg : text[pos]? = none := List.getElem?_eq_none (by omega)
      simp only [Lexer.call, expectedCall, Lexer.consume, hg, if_neg h]
      exact ⟨trivial, hp⟩
  | consumeIf ch =>
    by_cases h : text[pos]? = some ch
    · simp only [Lexer.call, expectedCall, Lexer.consumeIf, h0, if_pos h]
      have := some_lt _ h
      exact ⟨trivial, by omega⟩
    · simp only [Lexer.call, expectedCall, Lexer.consumeIf, h0, if_neg h]
      exact ⟨trivial, hp⟩
  | number =>
    have e : Lexer.consumeNumber k ⟨text, pos⟩ = if runAt (fun u => decide (AsciiDigit u)) text pos = [] then (none, ⟨text, pos⟩)
        else (some (numeral 10 (runAt (fun u => decide (AsciiDigit u)) text pos) % 2 ^ 64),
          ⟨text, pos + (runAt (fun u => decide (AsciiDigit u)) text pos).length⟩) :=
      consume_number_run k hk ⟨text, pos⟩ hu (by show pos < _; omega) (by show text.length < _; omega)
    have hb := runAt_bound (fun u => decide (AsciiDigit u)) text pos
    show (CursorAnswer.num _, _) = (CursorAnswer.num (numberAt 10 (runAt _ text pos)), (⟨text, pos + (runAt _ text pos).length⟩ : Lexer)) ∧ _
    rw [e]
    change _ ∧ pos + (runAt (fun u => decide (AsciiDigit u)) text pos).length < _
    unfold numberAt
    by_cases hr : runAt (fun u => decide (AsciiDigit u)) text pos = []
    · rw [if_pos hr, if_pos hr, hr]; exact ⟨rfl, hp⟩
    · rw [if_neg hr, if_neg hr]
      exact ⟨rfl, by have := hb hr; omega⟩
  | hex =>
    have e : Lexer.consumeHexNumber k ⟨text, pos⟩ = if runAt (fun u => decide (AsciiHex u)) text pos = [] then (none, ⟨text, pos⟩)
        else (some (numeral 16 (runAt (fun u => decide (AsciiHex u)) text pos) % 2 ^ 64),
          ⟨text, pos + (runAt (fun u => decide (AsciiHex u)) text pos).length⟩) :=
      consume_hex_number_run k hk ⟨text, pos⟩ hu (by show pos < _; omega) (by show text.length < _; omega)
    have hb := runAt_bound (fun u => decide (AsciiHex u)) text pos
    show (CursorAnswer.num _, _) = (CursorAnswer.num (numberAt 16 (runAt _ text pos)), (⟨text, pos + (runAt _ text pos).length⟩ : Lexer)) ∧ _
    rw [e]
    change _ ∧ pos + (runAt (fun u => decide (AsciiHex u)) text pos).length < _
    unfold numberAt
    by_cases hr : runAt (fun u => decide (AsciiHex u)) text pos = []
    · rw [if_pos hr, if_pos hr, hr]; exact ⟨rfl, hp⟩
    · rw [if_neg hr, if_neg hr]
      exact ⟨rfl, by have := hb hr; omega⟩

/-- C88: whatever is called in whatever order, every answer is the one of a cursor on the text: `peek` shows the character so many
places on, `consume` and `consume_if` take the one at the cursor, numbers take the whole run of digits there, `set_position` may be
past the end, and then nothing is found. Missing: offsets of `peek` that carry the position past 2^64 (`lexer_calls_violated`), and
texts with negative characters (C23). -/
theorem lexer_calls_partial (k : CharKind) (hk : IsCharKind k) (text : List Nat) (hu : ∀ u ∈ text, u < 2 ^ k.width ∧ k.neg u = false)
    (hl : text.length < 2 ^ 63) (cs : List CursorCall) (hcs : ∀ c ∈ cs, c.Small) :
    Lexer.calls k ⟨text, 0⟩ cs = expectedCalls text 0 cs := by
  have gen : ∀ (cs : List CursorCall), (∀ c ∈ cs, c.Small) → ∀ pos, pos < 2 ^ 63 →
      Lexer.calls k ⟨text, pos⟩ cs = expectedCalls text pos cs := by
    intro cs
    induction cs with
    | nil => intro _ pos _; rfl
    | cons c cs ih =>
      intro h pos hp
      obtain ⟨e, hb⟩ := call_expected k hk text hu hl pos hp c (h c (List.mem_cons_self ..))
      unfold Lexer.calls expectedCalls
      rw [e, ih (fun c hc => h c (List.mem_cons_of_mem _ hc)) _ hb]
  exact gen cs hcs 0 (by omega)

/-- A number behind a character, the end, past the end and back. -/
example : Lexer.calls ⟨8, true⟩ ⟨[0x61, 0x31, 0x32, 0x62], 0⟩
    [.consumeIf 0x61, .peek 2, .number, .position, .consume, .consume, .setPosition 100, .peek 0, .number, .setPosition 3, .hex] =
    [.flag true, .char (some 0x62), .num (some 12), .size 3, .char (some 0x62), .char none, .nothing, .char none, .num none, .nothing,
      .num (some 11)] := by decide +kernel

/-- C88: `peek(offset)` answers with the character at the sum of the position and the offset modulo 2^64, whatever they are. -/
theorem lexer_peek_exact (text : List Nat) (pos off : Nat) : Lexer.peek ⟨text, pos⟩ off = text[(pos + off) % 2 ^ 64]? := rfl

/-- C88 fails for offsets that carry past 2^64: after any character was taken, `peek(-1)` - the largest offset - is not past the end
but shows that character again; no cursor answers so. -/
theorem lexer_calls_violated :
    (∀ (c : Nat) (rest : List Nat), Lexer.calls ⟨8, true⟩ ⟨c :: rest, 0⟩ [.consume, .peek (2 ^ 64 - 1)] = [.char (some c), .char (some c)]) ∧
    (∀ (c : Nat) (rest : List Nat), rest.length < 2 ^ 64 - 1 →
      expectedCalls (c :: rest) 0 [.consume, .peek (2 ^ 64 - 1)] = [.char (some c), .char none]) := by
  refine ⟨fun c rest => ?_, fun c rest h => ?_⟩
  · have e : Lexer.peek ⟨c :: rest, 1⟩ (2 ^ 64 - 1) = some c := by
      show (c :: rest)[(1 + (2 ^ 64 - 1)) % 2 ^ 64]? = some c
      rw [show (1 + (2 ^ 64 - 1)) % 2 ^ 64 = 0 by omega]; rfl
    show [CursorAnswer.char (some c), CursorAnswer.char (Lexer.peek ⟨c :: rest, 1⟩ (2 ^ 64 - 1))] = _
    rw [e]
  · have e : (c :: rest)[1 + (2 ^ 64 - 1)]? = none := List.getElem?_eq_none (by simp only [List.length_cons]; omega)
    show [CursorAnswer.char (some c), CursorAnswer.char (c :: rest)[1 + (2 ^ 64 - 1)]?] = _
    rw [e]

end Verif.Str
