import Verif.Json.Model

/-!
# Model of `fly::parser::JsonParser`

Sources: `/repo/fly/parser/json_parser.{hpp,cpp}`, the symbol functions of
`/repo/fly/parser/parser.hpp` 234-270 and the number conversion of
`/repo/fly/types/string/detail/converter.hpp` 24-42. The stream is the list of bytes still to be read;
`peek`/`get` at the end of the list is `Token::EndOfFile` (the token type is `int`, so no byte equals
it). A `JsonException` is caught by `parse_internal` and becomes a failure.

Simplifications: line and column counting and logging are left out; the recursion depth is not
limited by a stack. `parseJson`, `objLoop` and `arrLoop` carry a fuel argument; running out of it is a
separate outcome `oom`, which `parse` never produces (`Verif.Json.parse_no_fuel`).
-/

namespace Verif.Json

open Verif.Str (AsciiDigit numeral)

/-- `JsonParser::Features` (json_parser.hpp 28-44; json_parser.cpp 22-28). -/
structure Features where
  comments : Bool := false
  trailingComma : Bool := false
  anyType : Bool := false
deriving DecidableEq, Repr

/-- `ParseState` (json_parser.hpp 108-113). -/
inductive PState where
  | invalid
  | stop
  | keep
deriving DecidableEq, Repr

/-- Outcome of a recursive parsing function. -/
inductive Res (α : Type) where
  | fail
  | oom
  | ok (a : α) (rest : List Nat)
deriving DecidableEq, Repr

/-- `is_whitespace` (json_parser.cpp 465-479). -/
def isWs (c : Nat) : Bool :=
  c == 0x09 || c == 0x0a || c == 0x0b || c == 0x0d || c == 0x20

/-- `consume_whitespace` (json_parser.cpp 351-357). -/
def skipWs (s : List Nat) : List Nat := s.dropWhile isWs

/-- The `//` loop (json_parser.cpp 376-379). -/
def dropLine : List Nat → List Nat
  | [] => []
  | c :: s => if c = 0x0a then s else dropLine s

/-- The `/*` loop (json_parser.cpp 385-397); `none` when the end of file comes first. -/
def dropBlock : List Nat → Option (List Nat)
  | [] => none
  | c :: s => if c = 0x2a ∧ s.head? = some 0x2f then some s.tail else dropBlock s

/-- `consume_comment` (json_parser.cpp 360-413) on a stream at a solidus: `t` is what follows the
solidus. Returns whether the comment is valid and the stream position afterwards. -/
def skipComment (allow : Bool) (t : List Nat) : Bool × List Nat :=
  if !allow then (false, 0x2f :: t)
  else
    match t with
    | [] => (false, [])
    | c :: u =>
      if c = 0x2f then (true, dropLine u)
      else if c = 0x2a then
        match dropBlock u with
        | some r => (true, r)
        | none => (false, [])
      else (false, u)

theorem dropLine_length : ∀ s, (dropLine s).length ≤ s.length := by
  intro s
  induction s with
  | nil => simp [dropLine]
  | cons c s ih => simp only [dropLine]; split <;> simp only [List.length_cons] <;> omega

theorem dropBlock_length : ∀ s r, dropBlock s = some r → r.length ≤ s.length := by
  intro s
  induction s with
  | nil => intro r h; simp [dropBlock] at h
  | cons c s ih =>
    intro r h
    simp only [dropBlock] at h
    split at h
    · simp only [Option.some.injEq] at h; subst h
      simp only [List.length_tail, List.length_cons]; omega
    · have := ih r h; simp only [List.length_cons]; omega

theorem skipComment_length (allow : Bool) (t : List Nat) (h : (skipComment allow t).1 = true) :
    (skipComment allow t).2.length ≤ t.length := by
  unfold skipComment at h ⊢
  split
  · rename_i h1; simp [h1] at h
  · split
    · simp
    · split
      · rename_i u _
        have := dropLine_length u
        simp only [List.length_cons]; omega
      · split
        · split
          · rename_i hb
            have := dropBlock_length _ _ hb
            simp only [List.length_cons]; omega
          · simp
        · simp only [List.length_cons]; omega

theorem dropWhile_length_le (p : Nat → Bool) : ∀ s : List Nat, (s.dropWhile p).length ≤ s.length := by
  intro s
  induction s with
  | nil => simp
  | cons c s ih => simp only [List.dropWhile_cons]; split <;> simp only [List.length_cons] <;> omega

/-- `consume_whitespace_and_comments` (json_parser.cpp 333-348): whether all comments were valid, and
the position afterwards. -/
def wsComments (allow : Bool) (s : List Nat) : Bool × List Nat :=
  match _h : skipWs s with
  | [] => (true, [])
  | c :: t =>
    if c = 0x2f then
      match _hc : skipComment allow t with
      | (false, r) => (false, r)
      | (true, r) => wsComments allow r
    else (true, c :: t)
termination_by s.length
decreasing_by
  have h1 := skipComment_length allow t (by rw [_hc])
  have h2 := dropWhile_length_le isWs s
  rw [show s.dropWhile isWs = c :: t from _h] at h2
  rw [_hc] at h1
  simp only [List.length_cons] at h1 h2
  omega

/-- `state_for_object_or_array` (json_parser.cpp 166-186). -/
def stateFor (allow : Bool) (endTok : Nat) (s : List Nat) : PState × List Nat :=
  match wsComments allow s with
  | (false, r) => (.invalid, r)
  | (true, []) => (.invalid, [])
  | (true, c :: t) => if c = endTok then (.stop, t) else (.keep, c :: t)

/-- `consume_token` (json_parser.cpp 270-281). -/
def consumeToken (tok : Nat) (s : List Nat) : PState × List Nat :=
  match skipWs s with
  | [] => (.invalid, [])
  | c :: t => if c = tok then (.keep, t) else (.invalid, t)

/-- The second half of `consume_comma` (json_parser.cpp 290-301), after the comma: an invalid state
is not reported. -/
def afterComma (ft : Features) (endTok : Nat) (s : List Nat) : PState × List Nat :=
  match stateFor ft.comments endTok s with
  | (.stop, r) => if ft.trailingComma then (.stop, r) else (.invalid, r)
  | (_, r) => (.keep, r)

/-- `consume_comma` (json_parser.cpp 284-302). -/
def consumeComma (ft : Features) (endTok : Nat) (s : List Nat) : PState × List Nat :=
  match consumeToken 0x2c s with
  | (.keep, r) => afterComma ft endTok r
  | (_, r) => (.invalid, r)

/-- The loop of `parse_quoted_string` (json_parser.cpp 199-214): the text up to the closing quote. -/
def quotedBody : List Nat → Option (List Nat × List Nat)
  | [] => none
  | [c] => if c = 0x22 then some ([], []) else none
  | c :: d :: s =>
    if c = 0x22 then some ([], d :: s)
    else if c = 0x5c then (quotedBody s).map (fun p => (c :: d :: p.1, p.2))
    else (quotedBody (d :: s)).map (fun p => (c :: p.1, p.2))

/-- `parse_quoted_string` (json_parser.cpp 189-217): the raw text and the position after it. -/
def parseQuoted (s : List Nat) : Option (List Nat × List Nat) :=
  match consumeToken 0x22 s with
  | (.keep, r) => quotedBody r
  | (_, _) => none

/-- The lambda `keep_parsing` of `consume_value` (json_parser.cpp 309-322). -/
def isValueChar (c : Nat) : Bool :=
  !(c == 0x2c || c == 0x2f || c == 0x5d || c == 0x7d || isWs c)

/-! ## Numbers -/

/-- `is_digit` (classifier.hpp) on a byte, see `Verif.Str`. -/
def isDigit (c : Nat) : Bool := decide (0x30 ≤ c) && decide (c ≤ 0x39)

/-- `NumberType` (json_parser.hpp 97-103). -/
inductive NumType where
  | invalid
  | signed
  | unsigned
  | float
deriving DecidableEq, Repr

/-- `std::min` of two positions of which `none` is `npos`. -/
def minPos : Option Nat → Option Nat → Option Nat
  | some a, some b => some (min a b)
  | some a, none => some a
  | none, b => b

/-- The lambda-free tail of `validate_number` (json_parser.cpp 436-461). -/
def numberKind (isSigned : Bool) (signless : List Nat) : NumType :=
  let e := minPos (signless.findIdx? (· == 0x65)) (signless.findIdx? (· == 0x45))
  match signless.findIdx? (· == 0x2e) with
  | some d => if d + 1 ≥ e.getD signless.length then .invalid else .float
  | none => if e.isSome then .float else if isSigned then .signed else .unsigned

/-- The first part of `validate_number` (json_parser.cpp 423-434) on the text after the sign. -/
def startsLikeNumber : List Nat → Bool
  | [] => false
  | [c] => isDigit c
  | c :: d :: _ => isDigit c && !(c == 0x30 && isDigit d)

/-- `validate_number` (json_parser.cpp 416-462). -/
def validateNumber (s : List Nat) : NumType :=
  let isSigned := s.head? == some 0x2d
  let signless := if isSigned then s.tail else s
  if startsLikeNumber signless then numberKind isSigned signless else .invalid

/-- `std::from_chars` for `std::uint64_t`, the whole text having to be consumed
(converter.hpp 27-41). -/
def convertUnsigned (s : List Nat) : Option Nat :=
  if s ≠ [] ∧ s.all isDigit ∧ numeral 10 s < 2 ^ 64 then some (numeral 10 s) else none

/-- `std::from_chars` for `std::int64_t`, the whole text having to be consumed
(converter.hpp 27-41). -/
def convertSigned (s : List Nat) : Option Int :=
  if s.head? = some 0x2d then
    if s.tail ≠ [] ∧ s.tail.all isDigit ∧ numeral 10 s.tail ≤ 2 ^ 63
    then some (-(numeral 10 s.tail : Int)) else none
  else
    if s ≠ [] ∧ s.all isDigit ∧ numeral 10 s < 2 ^ 63 then some (numeral 10 s : Int) else none

/-- The exponent `std::from_chars` matches after a mantissa: `[eE][+-]?[0-9]+`, or nothing. The
result is the text left over. -/
def dropExponent (s : List Nat) : List Nat :=
  match s with
  | [] => []
  | c :: t =>
    if c = 0x65 ∨ c = 0x45 then
      let u := if t.head? = some 0x2b ∨ t.head? = some 0x2d then t.tail else t
      if u.takeWhile isDigit = [] then s else u.dropWhile isDigit
    else s

/-- What `std::from_chars` for a floating-point type, general format, leaves unread of a text whose
first character after an optional minus is a digit: the pattern is
`-?[0-9]+(\.[0-9]*)?([eE][+-]?[0-9]+)?`. Simplification: the other patterns (leading point, `inf`,
`nan`) are not reached from `validate_number`. -/
def dropFloat (s : List Nat) : List Nat :=
  let s := if s.head? = some 0x2d then s.tail else s
  let s := s.dropWhile isDigit
  dropExponent (if s.head? = some 0x2e then s.tail.dropWhile isDigit else s)

/-- `Converter<long double>::convert` through `std::from_chars` (converter.hpp 27-41). -/
def convertFloat (io : FloatIO) (s : List Nat) : Option Flt :=
  if dropFloat s = [] then io.ofText s else none

/-- The end of `parse_value` (json_parser.cpp 237-266). -/
def convertNumber (io : FloatIO) (s : List Nat) : Option Value :=
  match validateNumber s with
  | .signed => (convertSigned s).map .int
  | .unsigned => (convertUnsigned s).map .uint
  | .float => (convertFloat io s).map .flt
  | .invalid => none

/-- `parse_value` (json_parser.cpp 220-267) on the text `consume_value` returned. -/
def valueOf (io : FloatIO) (s : List Nat) : Option Value :=
  if s = fmtBool true then some (.bool true)
  else if s = fmtBool false then some (.bool false)
  else if s = nullText then some .null
  else convertNumber io s

/-- `parse_value` (json_parser.cpp 220-267), with `consume_value` (305-330). -/
def parseValue (io : FloatIO) (s : List Nat) : Res Value :=
  match valueOf io (s.takeWhile isValueChar) with
  | some v => .ok v (s.dropWhile isValueChar)
  | none => .fail

/-! ## Objects and arrays -/

/-- `json_object_type` insertion or assignment of a value (json.hpp 1840-1851 on the map). -/
def insertOrAssign (k : List Nat) (v : Value) : List (List Nat × Value) → List (List Nat × Value)
  | [] => [(k, v)]
  | (k', v') :: m =>
    if strLt k k' then (k, v) :: (k', v') :: m
    else if strLt k' k then (k', v') :: insertOrAssign k v m
    else (k', v) :: m

/-- The string branch of `parse_json` (json_parser.cpp 82-88): the raw text is handed to the JSON
string constructor, which may throw. -/
def parseString (s : List Nat) : Res Value :=
  match parseQuoted s with
  | none => .fail
  | some (raw, r) =>
    match convertToString raw with
    | none => .fail
    | some v => .ok (.str v) r

/-- The loops' separator step (json_parser.cpp 108-111, 146-149): nothing before the first entry, a
comma before the others. -/
def separator (ft : Features) (endTok : Nat) (first : Bool) (s : List Nat) : PState × List Nat :=
  if first then (.keep, s) else consumeComma ft endTok s

/-- A key and its colon (json_parser.cpp 113-118). -/
def parseKey (s : List Nat) : Option (List Nat × List Nat) :=
  match parseQuoted s with
  | none => none
  | some (raw, r) =>
    match consumeToken 0x3a r with
    | (.keep, r) => some (raw, r)
    | (_, _) => none

mutual
/-- `parse_json` (json_parser.cpp 67-93). -/
def parseJson (io : FloatIO) (ft : Features) : Nat → List Nat → Res Value
  | 0, _ => .oom
  | n + 1, s =>
    match wsComments ft.comments s with
    | (false, _) => .fail
    | (true, []) => parseValue io []
    | (true, c :: t) =>
      if c = 0x7b then objLoop io ft n [] t
      else if c = 0x5b then arrLoop io ft n [] t
      else if c = 0x22 then parseString (c :: t)
      else parseValue io (c :: t)
/-- The loop of `parse_object` (json_parser.cpp 106-130); `m` is the object built so far. -/
def objLoop (io : FloatIO) (ft : Features) : Nat → List (List Nat × Value) → List Nat → Res Value
  | 0, _, _ => .oom
  | n + 1, m, s =>
    match stateFor ft.comments 0x7d s with
    | (.invalid, _) => .fail
    | (.stop, r) => .ok (.obj m) r
    | (.keep, r) =>
      match separator ft 0x7d m.isEmpty r with
      | (.invalid, _) => .fail
      | (.stop, r) => .ok (.obj m) r
      | (.keep, r) =>
        match parseKey r with
        | none => .fail
        | some (raw, r) =>
          match parseJson io ft n r with
          | .fail => .fail
          | .oom => .oom
          | .ok v r =>
            match convertToString raw with
            | none => .fail
            | some k => objLoop io ft n (insertOrAssign k v m) r
/-- The loop of `parse_array` (json_parser.cpp 144-162); `l` is the array built so far. -/
def arrLoop (io : FloatIO) (ft : Features) : Nat → List Value → List Nat → Res Value
  | 0, _, _ => .oom
  | n + 1, l, s =>
    match stateFor ft.comments 0x5d s with
    | (.invalid, _) => .fail
    | (.stop, r) => .ok (.arr l) r
    | (.keep, r) =>
      match separator ft 0x5d l.isEmpty r with
      | (.invalid, _) => .fail
      | (.stop, r) => .ok (.arr l) r
      | (.keep, r) =>
        match parseJson io ft n r with
        | .fail => .fail
        | .oom => .oom
        | .ok v r => arrLoop io ft n (l ++ [v]) r
end

/-- `is_object() || is_array()` (json.cpp 156-173). -/
def isContainer : Value → Bool
  | .obj _ => true
  | .arr _ => true
  | _ => false

/-- The end of `parse_internal` (json_parser.cpp 45-63). -/
def finish (ft : Features) (v : Value) (s : List Nat) : Option Value :=
  match wsComments ft.comments s with
  | (true, []) => if isContainer v || ft.anyType then some v else none
  | (_, _) => none

/-- `parse_internal` (json_parser.cpp 31-64) with an explicit amount of fuel. -/
def parseFuel (io : FloatIO) (ft : Features) (n : Nat) (s : List Nat) : Res Value :=
  match parseJson io ft n s with
  | .fail => .fail
  | .oom => .oom
  | .ok v r =>
    match finish ft v r with
    | some v => .ok v []
    | none => .fail

/-- `parse_internal` (json_parser.cpp 31-64) on a stream holding `s`. -/
def parse (io : FloatIO) (ft : Features) (s : List Nat) : Option Value :=
  match parseFuel io ft (2 * s.length + 2) s with
  | .ok v _ => some v
  | _ => none

end Verif.Json
