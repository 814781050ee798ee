import Verif.Str.Model
import Verif.Common.Digits
import Verif.Unicode.Model

/-!
# Model of `fly::string::format`

Sources, all below `/repo/fly/types/string`: `detail/format_string.hpp`,
`detail/format_parse_context.hpp`, `detail/format_specifier.hpp`, `detail/format.hpp`,
`detail/format_parameters.hpp`, `formatters.hpp`. Characters are the unsigned values of the units of the
format string's character type `k`. The lexer is the list of the characters not yet consumed (see
`Verif.Str.Lexer` for the model of the class itself, and `Verif.Str.consume_number_run`).

User-defined types are in `Verif/Format/User.lean`. Left out: that `format` raises a compilation error instead of a message when the
compiler evaluates the constructor at compile time.
-/

namespace Verif.Format

open Verif.Str (CharKind)

/-- `ParameterType` (format_parameter_type.hpp) without `UserDefined`. -/
inductive PType where
  | character
  | string
  | pointer
  | integral
  | floating
  | boolean
deriving DecidableEq, Repr

/-- `BasicFormatSpecifier::Alignment` (format_specifier.hpp 132-138). -/
inductive Alignment where
  | default
  | left
  | right
  | center
deriving DecidableEq, Repr

/-- `BasicFormatSpecifier::Sign` (format_specifier.hpp 140-146). -/
inductive Sign where
  | default
  | always
  | negativeOnly
  | positivePadding
deriving DecidableEq, Repr

/-- `BasicFormatSpecifier::Type` (format_specifier.hpp 150-164). -/
inductive Kind where
  | none
  | character
  | string
  | pointer
  | binary
  | octal
  | decimal
  | hex
  | hexFloat
  | scientific
  | fixed
  | general
deriving DecidableEq, Repr

/-- `BasicFormatSpecifier` (format_specifier.hpp 242-272). -/
structure FSpec where
  position : Nat := 0
  fill : Option Nat := .none
  align : Alignment := .default
  sign : Sign := .default
  alt : Bool := false
  zero : Bool := false
  width : Option Nat := .none
  widthPos : Option Nat := .none
  prec : Option Nat := .none
  precPos : Option Nat := .none
  loc : Bool := false
  kind : Kind := .none
  upper : Bool := false
  size : Nat := 0
deriving DecidableEq, Repr

/-- `BasicFormatParseContext` (format_parse_context.hpp 20-118): the lexer, `m_next_position`,
`m_expect_no_positions_specified`, `m_expect_all_positions_specified`, `m_error`. -/
structure Ctx where
  rest : List Nat
  next : Nat := 0
  auto : Bool := false
  manual : Bool := false
  err : Option String := .none

/-- `on_error` (format_parse_context.hpp 187-191). -/
def Ctx.onError (c : Ctx) (m : String) : Ctx := { c with err := some m }

/-- `on_error` under a condition. -/
def Ctx.errorIf (c : Ctx) (b : Bool) (m : String) : Ctx := if b then c.onError m else c

/-- `lexer().consume_if(ch)` (lexer.hpp 214-223). -/
def Ctx.consumeIf (c : Ctx) (ch : Nat) : Bool × Ctx :=
  match c.rest with
  | x :: r => if x = ch then (true, { c with rest := r }) else (false, c)
  | [] => (false, c)

/-- The number a run of digits stands for in `consume_number` (lexer.hpp 232-240), at 64 bits. -/
def numVal (k : CharKind) (ds : List Nat) : Nat :=
  ds.foldl (fun n d => (n * 10 + k.digitOf d) % 2 ^ 64) 0

/-- `lexer().consume_number()` (lexer.hpp 227-241). -/
def Ctx.consumeNumber (k : CharKind) (c : Ctx) : Option Nat × Ctx :=
  let ds := c.rest.takeWhile k.isDigit
  if ds = [] then (.none, c) else (some (numVal k ds), { c with rest := c.rest.dropWhile k.isDigit })

/-- `next_position` (format_parse_context.hpp 131-154). -/
def Ctx.nextPosition (k : CharKind) (c : Ctx) : Nat × Ctx :=
  match c.consumeNumber k with
  | (some n, c) =>
    let c := { c with manual := true }
    (n, c.errorIf (c.manual && c.auto)
      "Argument position must be provided on all or not on any specifier")
  | (.none, c) =>
    let p := c.next
    let c := { c with auto := true, next := c.next + 1 }
    (p, c.errorIf (c.manual && c.auto)
      "Argument position must be provided on all or not on any specifier")

/-- `parameter_type` (format_parse_context.hpp 157-168). -/
def Ctx.parameterType (ts : List PType) (c : Ctx) (pos : Nat) : Option PType × Ctx :=
  match ts[pos]? with
  | some t => (some t, c)
  | .none => (.none, c.onError "Argument position exceeds number of provided arguments")

/-- `infer_type` (format_specifier.hpp 690-720). -/
def inferKind : Option PType → Kind
  | some .character => .character
  | some .string => .string
  | some .pointer => .pointer
  | some .integral => .decimal
  | some .floating => .general
  | some .boolean => .string
  | .none => .none

/-- `s_type_map`, `type_of` (format_specifier.hpp 424-442, 925-937). -/
def typeOf (ch : Nat) : Option Kind :=
  if ch = 0x63 then some .character
  else if ch = 0x73 then some .string
  else if ch = 0x70 then some .pointer
  else if ch = 0x62 ∨ ch = 0x42 then some .binary
  else if ch = 0x6f then some .octal
  else if ch = 0x64 then some .decimal
  else if ch = 0x78 ∨ ch = 0x58 then some .hex
  else if ch = 0x61 ∨ ch = 0x41 then some .hexFloat
  else if ch = 0x65 ∨ ch = 0x45 then some .scientific
  else if ch = 0x66 ∨ ch = 0x46 then some .fixed
  else if ch = 0x67 ∨ ch = 0x47 then some .general
  else .none

/-- `is_numeric` (format_specifier.hpp 940-957). -/
def isNumeric : Kind → Bool
  | .binary | .octal | .decimal | .hex | .hexFloat | .scientific | .fixed | .general => true
  | _ => false

def isAlign (c : Nat) : Bool := c == 0x3c || c == 0x3e || c == 0x5e

/-- The first half of `parse_fill_and_alignment` (format_specifier.hpp 534-540): `peek(1)`. -/
def parseFill (s : FSpec) (c : Ctx) : FSpec × Ctx :=
  match c.rest with
  | f :: a :: r => if isAlign a then ({ s with fill := some f }, { c with rest := a :: r }) else (s, c)
  | _ => (s, c)

/-- `parse_fill_and_alignment` (format_specifier.hpp 532-555). -/
def parseFillAlign (s : FSpec) (c : Ctx) : FSpec × Ctx :=
  let (s, c) := parseFill s c
  match c.consumeIf 0x3c with
  | (true, c) => ({ s with align := .left }, c)
  | (false, c) =>
    match c.consumeIf 0x3e with
    | (true, c) => ({ s with align := .right }, c)
    | (false, c) =>
      match c.consumeIf 0x5e with
      | (true, c) => ({ s with align := .center }, c)
      | (false, c) => (s, c)

/-- `parse_sign` (format_specifier.hpp 558-573). -/
def parseSign (s : FSpec) (c : Ctx) : FSpec × Ctx :=
  match c.consumeIf 0x2b with
  | (true, c) => ({ s with sign := .always }, c)
  | (false, c) =>
    match c.consumeIf 0x2d with
    | (true, c) => ({ s with sign := .negativeOnly }, c)
    | (false, c) =>
      match c.consumeIf 0x20 with
      | (true, c) => ({ s with sign := .positivePadding }, c)
      | (false, c) => (s, c)

/-- `parse_alternate_form_and_zero_padding` (format_specifier.hpp 576-589). -/
def parseAltZero (s : FSpec) (c : Ctx) : FSpec × Ctx :=
  let (a, c) := c.consumeIf 0x23
  let s := if a then { s with alt := true } else s
  let (z, c) := c.consumeIf 0x30
  let s := if z && s.align == .default then { s with zero := true } else s
  (s, c)

/-- `parse_nested_specifier` (format_specifier.hpp 634-657): the position, if closed. The type it
infers is never used. -/
def parseNested (k : CharKind) (ts : List PType) (c : Ctx) : Option Nat × Ctx :=
  let (p, c) := c.nextPosition k
  let (_, c) := c.parameterType ts p
  match c.consumeIf 0x7d with
  | (true, c) => (some p, c)
  | (false, c) => (.none, c.onError "Detected unclosed replacement field - must end with }")

/-- `parse_width` (format_specifier.hpp 592-606). -/
def parseWidth (k : CharKind) (ts : List PType) (s : FSpec) (c : Ctx) : FSpec × Ctx :=
  match c.consumeNumber k with
  | (some w, c) => ({ s with width := some w }, c)
  | (.none, c) =>
    match c.consumeIf 0x7b with
    | (true, c) =>
      match parseNested k ts c with
      | (some p, c) => ({ s with widthPos := some p }, c)
      | (.none, c) => (s, c)
    | (false, c) => (s, c)

/-- `parse_precision` (format_specifier.hpp 609-631). -/
def parsePrecision (k : CharKind) (ts : List PType) (s : FSpec) (c : Ctx) : FSpec × Ctx :=
  match c.consumeIf 0x2e with
  | (false, c) => (s, c)
  | (true, c) =>
    match c.consumeNumber k with
    | (some w, c) => ({ s with prec := some w }, c)
    | (.none, c) =>
      match c.consumeIf 0x7b with
      | (true, c) =>
        match parseNested k ts c with
        | (some p, c) => ({ s with precPos := some p }, c)
        | (.none, c) => (s, c)
      | (false, c) =>
        (s, c.onError "Expected a non-negative precision or nested replacement field after decimal")

/-- `parse_locale_specific_form` (format_specifier.hpp 660-668). -/
def parseLocale (s : FSpec) (c : Ctx) : FSpec × Ctx :=
  match c.consumeIf 0x4c with
  | (true, c) => ({ s with loc := true }, c)
  | (false, c) => (s, c)

/-- `parse_type` (format_specifier.hpp 671-687). -/
def parseType (k : CharKind) (s : FSpec) (c : Ctx) : FSpec × Ctx :=
  match c.rest with
  | ch :: r =>
    match typeOf ch with
    | some t => ({ s with kind := t, upper := s.upper || k.isUpper ch }, { c with rest := r })
    | .none => (s, c)
  | [] => (s, c)

/-- The presentation types of a parameter type: `validate_type` (format_specifier.hpp 803-857). -/
def kindAllowed : PType → Kind → Bool
  | .character, t => t == .character || t == .binary || t == .octal || t == .decimal || t == .hex
  | .string, t => t == .string
  | .pointer, t => t == .pointer
  | .integral, t => t == .character || t == .binary || t == .octal || t == .decimal || t == .hex
  | .floating, t => t == .hexFloat || t == .scientific || t == .fixed || t == .general
  | .boolean, t =>
    t == .character || t == .string || t == .binary || t == .octal || t == .decimal || t == .hex

/-- The message of `validate_type`. -/
def kindMessage : PType → String
  | .character => "Character types must be formatted with {} or {:cbBodxX}"
  | .string => "String types must be formatted with {} or {:s}"
  | .pointer => "Pointer types must be formatted with {} or {:p}"
  | .integral => "Integral types must be formatted with {} or one of {:cbBodxX}"
  | .floating => "Floating-point types must be formatted with {} or one of {:aAeEfFgG}"
  | .boolean => "Boolean types must be formatted with {} or one of {:csbBodxX}"

/-- The fill character (format_specifier.hpp 727-735). -/
def checkFill (s : FSpec) (c : Ctx) : Ctx :=
  if s.fill = some 0x7b ∨ s.fill = some 0x7d then
    c.onError "Characters { and } are not allowed as fill characters"
  else c.errorIf (s.fill.any (fun f => decide (f ≥ 0x80)))
    "Non-ascii characters are not allowed as fill characters"

/-- The sign, the alternate form and zero-padding (format_specifier.hpp 737-754). -/
def checkNumeric (s : FSpec) (c : Ctx) : Ctx :=
  ((c.errorIf (s.sign != .default && !isNumeric s.kind)
      "Sign may only be used with numeric presentation types").errorIf
    (s.alt && (!isNumeric s.kind || s.kind == .decimal))
    "Alternate form may only be used with non-decimal numeric presentation types").errorIf
    (s.zero && !isNumeric s.kind) "Zero-padding may only be used with numeric presentation types"

/-- The width (format_specifier.hpp 756-767). -/
def checkWidth (ts : List PType) (s : FSpec) (c : Ctx) : Ctx :=
  if s.width = some 0 then c.onError "Width must be a positive (non-zero) value"
  else
    match s.widthPos with
    | some p =>
      let (wt, c) := c.parameterType ts p
      c.errorIf (wt != some .integral) "Position of width parameter must be an integral type"
    | .none => c

/-- The precision (format_specifier.hpp 769-784). -/
def checkPrecision (ts : List PType) (t : Option PType) (s : FSpec) (c : Ctx) : Ctx :=
  if s.prec.isSome || s.precPos.isSome then
    if t ≠ some .string ∧ t ≠ some .floating then
      c.onError "Precision may only be used for string and floating-point types"
    else
      match s.precPos with
      | some p =>
        let (pt, c) := c.parameterType ts p
        c.errorIf (pt != some .integral) "Position of precision parameter must be an integral type"
      | .none => c
  else c

/-- The locale-specific form (format_specifier.hpp 786-793). -/
def checkLocale (t : Option PType) (s : FSpec) (c : Ctx) : Ctx :=
  c.errorIf (s.loc && (t != some .integral && t != some .floating && t != some .boolean))
    "Locale-specific form may only be used for numeric and boolean types"

/-- The presentation type (format_specifier.hpp 795-799). -/
def checkKind (t : Option PType) (s : FSpec) (c : Ctx) : Ctx :=
  match t with
  | some pt => if s.kind ≠ .none then c.errorIf (!kindAllowed pt s.kind) (kindMessage pt) else c
  | .none => c

/-- `validate` (format_specifier.hpp 722-800). -/
def validate (ts : List PType) (s : FSpec) (c : Ctx) : Ctx :=
  let (t, c) := c.parameterType ts s.position
  checkKind t s (checkLocale t s (checkPrecision ts t s (checkWidth ts s (checkNumeric s (checkFill s c)))))

/-- The closing brace of a field: `consume_if(s_right_brace)` or an error (format_specifier.hpp 525-528,
format_string.hpp 179-182). -/
def closeField (s : FSpec) (c : Ctx) : FSpec × Ctx :=
  match c.consumeIf 0x7d with
  | (true, c) => (s, c)
  | (false, c) => (s, c.onError "Detected unclosed replacement field - must end with }")

/-- The end of `BasicFormatSpecifier::parse` (format_specifier.hpp 523-528). -/
def finishOptions (ts : List PType) (s : FSpec) (c : Ctx) : FSpec × Ctx :=
  if (validate ts s c).err = .none then closeField s (validate ts s c) else (s, validate ts s c)

/-- `BasicFormatSpecifier::parse` (format_specifier.hpp 510-529). -/
def parseOptions (k : CharKind) (ts : List PType) (s : FSpec) (c : Ctx) : FSpec × Ctx :=
  let (s, c) := parseFillAlign s c
  let (s, c) := parseSign s c
  let (s, c) := parseAltZero s c
  let (s, c) := parseWidth k ts s c
  let (s, c) := parsePrecision k ts s c
  let (s, c) := parseLocale s c
  let (s, c) := parseType k s c
  finishOptions ts s c

/-- `BasicFormatString::parse_specifier` (format_string.hpp 157-186), after the opening brace; with the
constructor of `BasicFormatSpecifier` (format_specifier.hpp 501-507). -/
def parseSpecifier (k : CharKind) (ts : List PType) (c : Ctx) : FSpec × Ctx :=
  let start := c.rest.length + 1
  let (p, c) := c.nextPosition k
  let (t, c) := c.parameterType ts p
  let s : FSpec := { position := p, kind := inferKind t }
  let (s, c) : FSpec × Ctx :=
    match c.consumeIf 0x3a with
    | (true, c) =>
      let (_, c) := c.parameterType ts s.position
      parseOptions k ts s c
    | (false, c) => closeField s c
  ({ s with size := start - c.rest.length }, c)

/-- The loop of the constructor of `BasicFormatString` (format_string.hpp 104-132); `m_specifiers` has
64 places. `fuel` bounds the rounds; every round consumes a character. -/
def parseLoop (k : CharKind) (ts : List PType) : Nat → List FSpec → Ctx → List FSpec × Ctx
  | 0, ss, c => (ss, c.onError "out of fuel")
  | fuel + 1, ss, c =>
    if c.err ≠ .none then (ss, c)
    else
      match c.rest with
      | [] => (ss, c)
      | ch :: r =>
        let c := { c with rest := r }
        if ch = 0x7b then
          match c.consumeIf 0x7b with
          | (true, c) => parseLoop k ts fuel ss c
          | (false, c) =>
            if ss.length ≥ 64 then
              parseLoop k ts fuel ss (c.onError "Exceeded maximum allowed number of specifiers")
            else
              let (s, c) := parseSpecifier k ts c
              parseLoop k ts fuel (ss ++ [s]) c
        else if ch = 0x7d then
          match c.consumeIf 0x7d with
          | (true, c) => parseLoop k ts fuel ss c
          | (false, c) => parseLoop k ts fuel ss (c.onError "Closing brace } must be escaped")
        else parseLoop k ts fuel ss c

/-- The constructor of `BasicFormatString`: the replacement fields, or the last error. -/
def parseFormat (k : CharKind) (ts : List PType) (fmt : List Nat) : Except String (List FSpec) :=
  match parseLoop k ts (fmt.length + 1) [] { rest := fmt } with
  | (ss, c) =>
    match c.err with
    | some e => .error e
    | .none => .ok ss

/-! ## Parameters and formatters -/

/-- A floating-point value: its sign bit; the text `std::to_chars` has for the absolute value in a
format with a precision (an unconstrained oracle); `std::numeric_limits<T>::digits`, the size of the
buffer of the formatter; and what the buffer holds when the text does not fit. -/
structure FloatVal where
  negative : Bool
  text : Kind → Int → List Nat
  bufferSize : Nat
  leftover : Kind → Int → List Nat

/-- A format parameter. Integers (and characters) are given by the bits of their representation. -/
inductive Param where
  | int (isChar signed : Bool) (bits repr : Nat)
  | str (units : List Nat)
  /-- a string of another character type: its encoding and that of the format string -/
  | foreign (src dst : Verif.Unicode.Enc) (units : List Nat)
  | ptr (address : Nat)
  | float (v : FloatVal)
  | bool (b : Bool)

/-- `infer_parameter_type` (format_parameter_type.hpp). -/
def Param.type : Param → PType
  | .int true _ _ _ => .character
  | .int false _ _ _ => .integral
  | .str _ => .string
  | .foreign _ _ _ => .string
  | .ptr _ => .pointer
  | .float _ => .floating
  | .bool _ => .boolean

/-- `resolve` (format_specifier.hpp 888-910). -/
def resolve (ps : List Param) (pos : Nat) : Option Nat :=
  match ps[pos]? with
  | some (.int _ signed bits repr) =>
    if signed then (if repr < 2 ^ (bits - 1) then some repr else .none) else some repr
  | _ => .none

/-- `width` (format_specifier.hpp 860-870). -/
def FSpec.widthOf (s : FSpec) (ps : List Param) (fallback : Nat) : Nat :=
  match s.widthPos with
  | some p => (resolve ps p).getD fallback
  | .none => s.width.getD fallback

/-- `precision` (format_specifier.hpp 874-884). -/
def FSpec.precisionOf (s : FSpec) (ps : List Param) (fallback : Nat) : Nat :=
  match s.precPos with
  | some p => (resolve ps p).getD fallback
  | .none => s.prec.getD fallback

/-- `append_padding` (formatters.hpp 68-73 and the others). -/
def padding (count ch : Nat) : List Nat := List.replicate count ch

/-- The formatter of strings (formatters.hpp 60-103); `append` is `append_string`. -/
def formatStringWith (append : List Nat → List Nat) (s : FSpec) (ps : List Param) (value : List Nat) :
    List Nat :=
  let minWidth := s.widthOf ps 0
  let maxWidth := s.precisionOf ps (2 ^ 64 - 1)
  let valueSize := min maxWidth value.length
  let pad := max valueSize minWidth - valueSize
  let ch := s.fill.getD 0x20
  match s.align with
  | .left | .default => append (value.take valueSize) ++ padding pad ch
  | .right => padding pad ch ++ append (value.take valueSize)
  | .center =>
    let left := pad / 2
    let right := if pad % 2 = 0 then left else left + 1
    padding left ch ++ append (value.take valueSize) ++ padding right ch

/-- The formatter for a string of the character type of the format string: `append_string` copies it
(formatters.hpp 119-146). -/
def formatString (s : FSpec) (ps : List Param) (value : List Nat) : List Nat :=
  formatStringWith id s ps value

/-- The formatter for a string of another character type: `append_string` transcodes it, and drops it if
that fails (formatters.hpp 147-159). -/
def formatForeign (src dst : Verif.Unicode.Enc) (s : FSpec) (ps : List Param) (value : List Nat) : List Nat :=
  formatStringWith (fun v => (Verif.Unicode.convert src dst v).getD []) s ps value

/-- `static_cast<int>(m_type)` (format_specifier.hpp 150-164). -/
def baseOf : Kind → Nat
  | .binary => 2
  | .octal => 8
  | .decimal => 10
  | .hex => 16
  | .none => 20
  | .character => 21
  | .string => 22
  | .pointer => 23
  | .hexFloat => 24
  | .scientific => 25
  | .fixed => 26
  | .general => 27

/-- `count_digits` (formatters.hpp 478-488). -/
def countDigits (base v : Nat) : Nat :=
  if _h : v / base = 0 ∨ base < 2 then 1 else 1 + countDigits base (v / base)
  termination_by v
  decreasing_by
    have h0 : 0 < v := by
      rcases Nat.eq_zero_or_pos v with h | h
      · subst h; simp at _h
      · exact h
    exact Nat.div_lt_self h0 (by omega)

/-- `append_number` (formatters.hpp 431-465); `std::to_chars` writes the digits of the value. A format
string of another character type gets the same characters. -/
def appendNumber (s : FSpec) (base v : Nat) : List Nat :=
  let t := Verif.Digits.digits base v
  if s.kind = .hex ∧ s.upper then t.map (CharKind.toUpper ⟨8, true⟩) else t

/-- `append_prefix` (formatters.hpp 255-283). -/
def appendPrefix (s : FSpec) (negative : Bool) : List Nat :=
  (if negative then [0x2d]
   else if s.sign = .always then [0x2b]
   else if s.sign = .positivePadding then [0x20]
   else []) ++
  (if s.alt then
     0x30 :: (if s.kind = .binary then [if s.upper then 0x42 else 0x62]
       else if s.kind = .hex then [if s.upper then 0x58 else 0x78]
       else [])
   else [])

/-- `format_as_character` (formatters.hpp 363-411). `maxChar` is the largest value of the character
type of the format string. -/
def formatAsCharacter (maxChar : Nat) (s : FSpec) (ps : List Param) (v : Nat) (negative : Bool) :
    List Nat :=
  if negative ∨ v > maxChar then []
  else
    let width := s.widthOf ps 0
    let pad := if width > 1 then width - 1 else 0
    let ch := s.fill.getD 0x20
    match s.align with
    | .left => v :: padding pad ch
    | .right => padding pad ch ++ [v]
    | .center =>
      let left := pad / 2
      let right := if pad % 2 = 0 then left else left + 1
      padding left ch ++ v :: padding right ch
    | .default => padding pad ch ++ [v]

/-- The formatter of unsigned integers (formatters.hpp 227-345). -/
def formatUnsigned (maxChar : Nat) (s : FSpec) (ps : List Param) (v : Nat) (negative : Bool) :
    List Nat :=
  if s.kind = .character then formatAsCharacter maxChar s ps v negative
  else
    let prefixSize :=
      (if negative || s.sign = .always || s.sign = .positivePadding then 1 else 0) +
      (if s.alt then (if s.kind = .binary || s.kind = .hex then 2 else 1) else 0)
    let base := baseOf s.kind
    let valueSize := countDigits base v + prefixSize
    let width := s.widthOf ps 0
    let pad := max valueSize width - valueSize
    let ch := s.fill.getD 0x20
    match s.align with
    | .left => appendPrefix s negative ++ appendNumber s base v ++ padding pad ch
    | .right => padding pad ch ++ appendPrefix s negative ++ appendNumber s base v
    | .center =>
      let left := pad / 2
      let right := if pad % 2 = 0 then left else left + 1
      padding left ch ++ appendPrefix s negative ++ appendNumber s base v ++ padding right ch
    | .default =>
      if s.zero then appendPrefix s negative ++ padding pad 0x30 ++ appendNumber s base v
      else padding pad ch ++ appendPrefix s negative ++ appendNumber s base v

/-- The formatter of integers (formatters.hpp 201-221): `sign` is the value shifted right
arithmetically by all value bits, the absolute value is `(value ^ sign) + (sign & 1)`. -/
def formatInteger (maxChar : Nat) (s : FSpec) (ps : List Param) (signed : Bool) (bits repr : Nat) :
    List Nat :=
  if signed then
    let sign := if repr.testBit (bits - 1) then 2 ^ bits - 1 else 0
    let v := (((repr ^^^ sign) % 2 ^ bits) + (sign &&& 1)) % 2 ^ bits
    formatUnsigned maxChar s ps v (sign != 0)
  else formatUnsigned maxChar s ps repr false

/-- `static_cast<int>` of a `std::size_t`. -/
def toInt32 (n : Nat) : Int :=
  let m : Nat := n % 2 ^ 32
  if m < 2 ^ 31 then (m : Int) else (m : Int) - 2 ^ 32

/-- `FloatConversionResult` (formatters.hpp 743-749). -/
structure FloatText where
  digits : List Nat
  exponent : List Nat := []
  decimal : Bool := false
  zeroes : Nat := 0

/-- The loop over the characters of `convert_value` (formatters.hpp 804-818): with the exponent
character `e`, the point is looked for and the text is cut at the (first and only) exponent. -/
def splitFloat (e : Nat) (t : List Nat) : FloatText :=
  { digits := if e ∈ t then t.takeWhile (· != e) else t
    exponent := if e ∈ t then t.dropWhile (· != e) else []
    decimal := !t.contains 0x2e }

/-- `convert_value` (formatters.hpp 765-836). -/
def convertValue (s : FSpec) (v : FloatVal) (precision : Int) : FloatText :=
  -- std::to_chars: if the text does not fit, `ptr` is the end of the buffer
  let t := v.text s.kind precision
  let chars := if t.length ≤ v.bufferSize then t else v.leftover s.kind precision
  let e := match s.kind with
    | .hexFloat => 0x70
    | .fixed => 0x00
    | _ => 0x65
  let r : FloatText :=
    if s.alt then
      let r := splitFloat e chars
      if s.kind = .general then
        let n := (r.digits.length + 2 ^ 64 - (if r.decimal then 0 else 1)) % 2 ^ 64
        let p := (precision % (2 : Int) ^ 64).toNat
        if p > n then { r with zeroes := p - n } else r
      else r
    else { digits := chars }
  if s.upper then
    { r with digits := r.digits.map (CharKind.toUpper ⟨8, true⟩)
             exponent := r.exponent.map (CharKind.toUpper ⟨8, true⟩) }
  else r

/-- The formatter of floating-point values with `std::to_chars` (formatters.hpp 523-650). -/
def formatFloat (s : FSpec) (ps : List Param) (v : FloatVal) : List Nat :=
  let prefixSize := if v.negative || s.sign = .always || s.sign = .positivePadding then 1 else 0
  let r := convertValue s v (toInt32 (s.precisionOf ps 6))
  let sign :=
    if v.negative then [0x2d]
    else if s.sign = .always then [0x2b]
    else if s.sign = .positivePadding then [0x20]
    else []
  let number := r.digits ++ (if r.decimal then [0x2e] else []) ++ padding r.zeroes 0x30 ++ r.exponent
  let valueSize := prefixSize + r.digits.length + r.exponent.length + (if r.decimal then 1 else 0) + r.zeroes
  let width := s.widthOf ps 0
  let pad := max valueSize width - valueSize
  let ch := s.fill.getD 0x20
  match s.align with
  | .left => sign ++ number ++ padding pad ch
  | .right => padding pad ch ++ sign ++ number
  | .center =>
    let left := pad / 2
    let right := if pad % 2 = 0 then left else left + 1
    padding left ch ++ sign ++ number ++ padding right ch
  | .default =>
    if s.zero then sign ++ padding pad 0x30 ++ number else padding pad ch ++ sign ++ number

def trueText : List Nat := [0x74, 0x72, 0x75, 0x65]
def falseText : List Nat := [0x66, 0x61, 0x6c, 0x73, 0x65]

/-- `BasicFormatParameter::format` (format_parameters.hpp) and the formatters of pointers
(formatters.hpp 175-186) and booleans (formatters.hpp 858-873). -/
def formatParam (maxChar : Nat) (s : FSpec) (ps : List Param) : Param → List Nat
  | .int _ signed bits repr => formatInteger maxChar s ps signed bits repr
  | .str u => formatString s ps u
  | .foreign src dst u => formatForeign src dst s ps u
  | .ptr a => formatUnsigned maxChar { s with alt := true, kind := .hex } ps a false
  | .float v => formatFloat s ps v
  | .bool b =>
    if s.kind = .string then formatString s ps (if b then trueText else falseText)
    else formatUnsigned maxChar s ps (if b then 1 else 0) false

/-- The loop of `format_to` (format.hpp 53-83); `none` is undefined behaviour (a character read past
the end, a specifier that does not exist). A parameter that does not exist is formatted as nothing. -/
def formatLoop (maxChar : Nat) (ps : List Param) : Nat → List FSpec → List Nat → Option (List Nat)
  | 0, _, _ => .none
  | _ + 1, _, [] => some []
  | fuel + 1, ss, ch :: r =>
    if ch = 0x7b then
      match r with
      | [] => .none
      | x :: r' =>
        if x = 0x7b then (formatLoop maxChar ps fuel ss r').map (ch :: ·)
        else
          match ss with
          | [] => .none
          | s :: ss =>
            let text := match ps[s.position]? with
              | some p => formatParam maxChar s ps p
              | .none => []
            (formatLoop maxChar ps fuel ss ((ch :: r).drop s.size)).map (text ++ ·)
    else if ch = 0x7d then (formatLoop maxChar ps fuel ss (r.drop 1)).map (ch :: ·)
    else (formatLoop maxChar ps fuel ss r).map (ch :: ·)

/-- The result of `format`. -/
inductive Outcome where
  /-- "Ignored invalid formatter: " and the message (or no compilation) -/
  | invalid (message : String)
  | text (t : List Nat)
  | ub
deriving DecidableEq, Repr

/-- `std::numeric_limits<CharType>::max()`. -/
def maxCharOf (k : CharKind) : Nat := if k.signed then 2 ^ (k.width - 1) - 1 else 2 ^ k.width - 1

/-- `fly::string::format` (format.hpp 31-87): the constructor of the format string, then `format_to`. -/
def format (k : CharKind) (fmt : List Nat) (ps : List Param) : Outcome :=
  match parseFormat k (ps.map Param.type) fmt with
  | .error e => .invalid e
  | .ok ss =>
    match formatLoop (maxCharOf k) ps (fmt.length + 1) ss fmt with
    | some t => .text t
    | .none => .ub

end Verif.Format
