import Verif.Str.Spec

/-!
# Model of the string utilities

Models `fly/types/string/detail/classifier.hpp`, `fly/types/string/lexer.hpp` and the split, trim,
replace and wildcard functions of `fly/types/string/string.hpp`.

A character is the unsigned representation of a code unit; `CharKind` records the width of the
character type and whether it is signed (x86-64 Linux: `char` and `wchar_t` are signed).
-/

namespace Verif.Str

/-- A character type (`fly/types/string/concepts.hpp` 40, `StandardCharacter`): width in bits and signedness. -/
structure CharKind where
  width : Nat
  signed : Bool

/-- The five standard character types as laid out on x86-64 Linux
(`fly/types/string/concepts.hpp` 40). -/
inductive IsCharKind : CharKind → Prop
  | char : IsCharKind ⟨8, true⟩
  | wchar : IsCharKind ⟨32, true⟩
  | char8 : IsCharKind ⟨8, false⟩
  | char16 : IsCharKind ⟨16, false⟩
  | char32 : IsCharKind ⟨32, false⟩

/-- Whether the unit is negative as a value of its character type (C++ semantics of a signed
character type; used by every comparison of classifier.hpp 216-280). -/
def CharKind.neg (k : CharKind) (u : Nat) : Bool := k.signed && decide (2 ^ (k.width - 1) ≤ u)

/-- `ch >= lo && ch <= hi` for an ASCII range: never true of a negative character
(classifier.hpp 225, 232, 271). -/
def CharKind.inRange (k : CharKind) (u lo hi : Nat) : Bool :=
  !k.neg u && decide (lo ≤ u) && decide (u ≤ hi)

/-- `unify_az_characters`, classifier.hpp 284-287: `ch & ~0x20` at the width of the type (the
conversion to `int_type` and back keeps the low bits, so the result is the unit with bit 5 clear). -/
def CharKind.unify (k : CharKind) (u : Nat) : Nat := u &&& (2 ^ k.width - 1 - 0x20)

/-- `is_upper`, classifier.hpp 223-226. -/
def CharKind.isUpper (k : CharKind) (u : Nat) : Bool := k.inRange u 0x41 0x5a

/-- `is_lower`, classifier.hpp 230-233. -/
def CharKind.isLower (k : CharKind) (u : Nat) : Bool := k.inRange u 0x61 0x7a

/-- `is_alpha`, classifier.hpp 216-219. -/
def CharKind.isAlpha (k : CharKind) (u : Nat) : Bool := k.isUpper (k.unify u)

/-- `to_upper`, classifier.hpp 237-245. -/
def CharKind.toUpper (k : CharKind) (u : Nat) : Nat := if k.isLower u then k.unify u else u

/-- `to_lower`, classifier.hpp 249-257. -/
def CharKind.toLower (k : CharKind) (u : Nat) : Nat := if k.isUpper u then u ||| 0x20 else u

/-- `is_digit`, classifier.hpp 261-264: `(ch ^ '0') < 10`. Both operands are promoted, so for a
negative character of a signed type the exclusive-or is a negative `int`, which is less than 10. -/
def CharKind.isDigit (k : CharKind) (u : Nat) : Bool := k.neg u || decide (u ^^^ 0x30 < 10)

/-- `is_x_digit`, classifier.hpp 268-272. -/
def CharKind.isXDigit (k : CharKind) (u : Nat) : Bool :=
  k.isDigit u || k.inRange (k.unify u) 0x41 0x46

/-- `is_space`, classifier.hpp 276-280. -/
def CharKind.isSpace (_k : CharKind) (u : Nat) : Bool :=
  u == 0x20 || u == 0x0c || u == 0x0a || u == 0x0d || u == 0x09 || u == 0x0b

/-! ## `std::basic_string` searching -/

/-- `hay.find(needle)` of the standard library (used at string.hpp 519, 571, 584, 624): index of the
first occurrence. -/
def findSub (needle : List Nat) : List Nat → Option Nat
  | [] => if needle = [] then some 0 else none
  | c :: s => if needle.isPrefixOf (c :: s) then some 0 else (findSub needle s).map (· + 1)

/-- `hay.find(needle, start)` (string.hpp 542, 624): `npos` when `start` is past the end. -/
def findFrom (needle hay : List Nat) (start : Nat) : Option Nat :=
  if start ≤ hay.length then (findSub needle (hay.drop start)).map (· + start) else none

/-! ## Split -/

/-- `push_item` of `split`, string.hpp 521-534. -/
def pushItem (d count : Nat) (elements : List (List Nat)) (str : List Nat) : List (List Nat) :=
  if str = [] then elements
  else if 0 < count ∧ elements.length = count then
    elements.dropLast ++ [(elements.getLast?.getD []) ++ d :: str]
  else elements ++ [str]

theorem findSub_lt {n s : List Nat} (hn : n ≠ []) : ∀ {i}, findSub n s = some i → i < s.length := by
  induction s with
  | nil => intro i h; simp [findSub, hn] at h
  | cons c s ih =>
    intro i h
    rw [findSub] at h
    split at h
    · simp at h; subst h; simp
    · cases hf : findSub n s with
      | none => simp [hf] at h
      | some j => simp [hf] at h; have := ih hf; simp; omega

theorem findFrom_lt {n s : List Nat} {start i} (hn : n ≠ []) (h : findFrom n s start = some i) :
    start ≤ i ∧ i < s.length := by
  unfold findFrom at h
  split at h
  · cases hf : findSub n (s.drop start) with
    | none => simp [hf] at h
    | some j => simp [hf] at h; have := findSub_lt hn hf; simp at this; omega
  · simp at h

/-- The `while` loop of `split` from string.hpp 536-548, at position `start`. -/
def splitLoop (input : List Nat) (d count start : Nat) (elements : List (List Nat)) :
    List (List Nat) :=
  match _h : findFrom [d] input start with
  | some e => splitLoop input d count (e + 1)
      (pushItem d count elements ((input.drop start).take (e - start)))
  | none => pushItem d count elements (input.drop start)
  termination_by input.length - start
  decreasing_by
    have := findFrom_lt (by simp) _h
    omega

/-- `split(input, delimiter, count)`, string.hpp 513-551; `split(input, delimiter)` (505-510) is
count 0. -/
def split (input : List Nat) (d count : Nat) : List (List Nat) := splitLoop input d count 0 []

/-! ## Trim -/

/-- `trim`, string.hpp 554-566: erase up to the first non-space, then from the last non-space. -/
def trim (k : CharKind) (s : List Nat) : List Nat :=
  let t := s.dropWhile k.isSpace
  (t.reverse.dropWhile k.isSpace).reverse

/-! ## Replace -/

/-- One iteration of the loops of `replace_all`, string.hpp 573-577 and 586-590: `none` when the loop
exits. The character overload (569-578) is the string overload with a one-character replacement. -/
def replaceStep (search replace target : List Nat) : Option (List Nat) :=
  if search = [] then none
  else match findSub search target with
    | some i => some (target.take i ++ replace ++ target.drop (i + search.length))
    | none => none

/-- `ReplaceRuns search replace t r`: the loop of `replace_all` (string.hpp 582-591), started on `t`,
terminates with `r`. -/
inductive ReplaceRuns (search replace : List Nat) : List Nat → List Nat → Prop
  | done {t} : replaceStep search replace t = none → ReplaceRuns search replace t t
  | step {t t' r} : replaceStep search replace t = some t' → ReplaceRuns search replace t' r →
      ReplaceRuns search replace t r

/-- `remove_all`, string.hpp 595-598: replace by the empty string. -/
def RemoveRuns (search : List Nat) : List Nat → List Nat → Prop := ReplaceRuns search []

/-! ## Wildcard -/

/-- The segment loop of `wildcard_match`, string.hpp 622-630. The index is not advanced past the
segment that was found. -/
def wildcardLoop (source : List Nat) : List (List Nat) → Nat → Bool
  | [], _ => true
  | seg :: rest, index =>
    match findFrom seg source index with
    | some i => wildcardLoop source rest i
    | none => false

/-- `wildcard_match`, string.hpp 602-634. -/
def wildcardMatch (source search : List Nat) : Bool :=
  let segments := split search 0x2a 0
  let result := !search.isEmpty
  if segments = [] then result
  else
    let result := if result && (search.head? != some 0x2a) then
        (segments.headD []).isPrefixOf source else result
    let result := if result && (search.getLast? != some 0x2a) then
        (segments.getLast?.getD []).isSuffixOf source else result
    result && wildcardLoop source segments 0

/-! ## Lexer -/

/-- `BasicLexer`, lexer.hpp 143-146: the view and the index (`m_size` is the view's length). -/
structure Lexer where
  view : List Nat
  index : Nat

/-- `peek(offset)`, lexer.hpp 189-198. The sum is taken modulo 2^64 as `std::size_t` does. -/
def Lexer.peek (l : Lexer) (offset : Nat) : Option Nat := l.view[(l.index + offset) % 2 ^ 64]?

/-- `consume`, lexer.hpp 202-210. -/
def Lexer.consume (l : Lexer) : Option Nat × Lexer :=
  match l.view[l.index]? with
  | none => (none, l)
  | some c => (some c, { l with index := l.index + 1 })

/-- `consume_if(ch)`, lexer.hpp 214-223. -/
def Lexer.consumeIf (l : Lexer) (ch : Nat) : Bool × Lexer :=
  if l.peek 0 = some ch then (true, { l with index := l.index + 1 }) else (false, l)

/-- `consume_if(condition)`, lexer.hpp 273-281. -/
def Lexer.consumeCond (l : Lexer) (cond : Nat → Bool) : Option Nat × Lexer :=
  match l.peek 0 with
  | some c => if cond c then l.consume else (none, l)
  | none => (none, l)

/-- `ch.value() - s_zero` converted to `uintmax_t` (lexer.hpp 236, 265): sign-extend, subtract,
reduce modulo 2^64. -/
def CharKind.digitOf (k : CharKind) (u : Nat) : Nat :=
  if k.neg u then (u + 2 ^ 64 - 2 ^ k.width + (2 ^ 64 - 0x30)) % 2 ^ 64
  else (u + (2 ^ 64 - 0x30)) % 2 ^ 64

/-- The value added by one round of `consume_hex_number`, lexer.hpp 254-266. -/
def CharKind.hexOf (k : CharKind) (u : Nat) : Nat :=
  if k.inRange u 0x41 0x46 then u - 0x41 + 0xa
  else if k.inRange u 0x61 0x66 then u - 0x61 + 0xa
  else k.digitOf u

/-- Loop shared by `consume_number` (lexer.hpp 232-240) and `consume_hex_number` (249-267). `fuel`
bounds the rounds; the callers give the length of the view, which is enough because every round
advances the index. -/
def numberLoop (base : Nat) (cond : Nat → Bool) (val : Nat → Nat) :
    Nat → Lexer → Bool → Nat → Option Nat × Lexer
  | 0, l, parsed, number => (if parsed then some number else none, l)
  | fuel + 1, l, parsed, number =>
    match l.consumeCond cond with
    | (some ch, l') => numberLoop base cond val fuel l' true ((number * base + val ch) % 2 ^ 64)
    | (none, l') => (if parsed then some number else none, l')

/-- `consume_number`, lexer.hpp 227-241. -/
def Lexer.consumeNumber (k : CharKind) (l : Lexer) : Option Nat × Lexer :=
  numberLoop 10 k.isDigit k.digitOf (l.view.length + 1) l false 0

/-- `consume_hex_number`, lexer.hpp 245-269. -/
def Lexer.consumeHexNumber (k : CharKind) (l : Lexer) : Option Nat × Lexer :=
  numberLoop 16 k.isXDigit k.hexOf (l.view.length + 1) l false 0

end Verif.Str
