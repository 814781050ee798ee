import Verif.Unicode.Spec
import Verif.Str.Spec
import Verif.Json.Model

/-!
# Specifications for JSON

Independent of the code (only the type `Value` and the float conversions `FloatIO` are shared): the
grammar of RFC 8259 with the value each text denotes, well-formed values, and finite maps.
-/

namespace Verif.Json

open Verif.Unicode (Scalar WellFormed8 utf8Of)
open Verif.Str (AsciiDigit AsciiHex numeral)

/-- Objects and arrays, the values RFC 4627 allowed at the top level of a text. -/
inductive Container : Value → Prop
  | obj (m : List (List Nat × Value)) : Container (.obj m)
  | arr (l : List Value) : Container (.arr l)

/-! ## RFC 8259 strings (section 7) -/

/-- `4HEXDIG` with its value. -/
def Hex4 (h : List Nat) (c : Nat) : Prop :=
  h.length = 4 ∧ (∀ d ∈ h, AsciiHex d) ∧ numeral 16 h = c

/-- The two-character escapes: the character after the reverse solidus and the character meant. -/
def simpleEscapes : List (Nat × Nat) :=
  [(0x22, 0x22), (0x5c, 0x5c), (0x2f, 0x2f), (0x62, 0x08), (0x66, 0x0c), (0x6e, 0x0a), (0x72, 0x0d),
    (0x74, 0x09)]

/-- `Chars t m`: `t` is a sequence of RFC 8259 `char`s (on the bytes of the text) denoting the UTF-8
bytes `m`. Escaped surrogates must come in pairs. -/
inductive Chars : List Nat → List Nat → Prop
  | nil : Chars [] []
  | plain {c t m} : 0x20 ≤ c → c ≠ 0x22 → c ≠ 0x5c → Chars t m → Chars (c :: t) (c :: m)
  | simple {e r t m} : (e, r) ∈ simpleEscapes → Chars t m → Chars (0x5c :: e :: t) (r :: m)
  | uni {h c t m} : Hex4 h c → Scalar c → Chars t m →
      Chars (0x5c :: 0x75 :: (h ++ t)) (utf8Of c ++ m)
  | pair {h hi l lo t m} : Hex4 h hi → 0xd800 ≤ hi ∧ hi ≤ 0xdbff → Hex4 l lo →
      0xdc00 ≤ lo ∧ lo ≤ 0xdfff → Chars t m →
      Chars (0x5c :: 0x75 :: (h ++ 0x5c :: 0x75 :: (l ++ t)))
        (utf8Of (0x10000 + (hi - 0xd800) * 0x400 + (lo - 0xdc00)) ++ m)

/-- The text between the quotes of a JSON string, with the bytes it denotes. -/
def StringBody (t m : List Nat) : Prop := WellFormed8 t ∧ Chars t m

/-! ## RFC 8259 numbers (section 6) -/

/-- `int`: a single zero, or digits not starting with zero. -/
def IntPart (ds : List Nat) : Prop :=
  ds = [0x30] ∨ ∃ c t, ds = c :: t ∧ 0x31 ≤ c ∧ c ≤ 0x39 ∧ ∀ d ∈ t, AsciiDigit d

/-- `[ frac ]`. -/
def FracPart (f : List Nat) : Prop :=
  f = [] ∨ ∃ ds, ds ≠ [] ∧ (∀ d ∈ ds, AsciiDigit d) ∧ f = 0x2e :: ds

/-- `[ exp ]`. -/
def ExpPart (e : List Nat) : Prop :=
  e = [] ∨ ∃ c sg ds, (c = 0x65 ∨ c = 0x45) ∧ (sg = [] ∨ sg = [0x2b] ∨ sg = [0x2d]) ∧ ds ≠ [] ∧
    (∀ d ∈ ds, AsciiDigit d) ∧ e = c :: (sg ++ ds)

/-- `Number io t v`: `t` is an RFC 8259 number within the range of the library's number types, and
`v` its value: unsigned without a minus sign, signed with one, floating point with a fraction or an
exponent. -/
inductive Number (io : FloatIO) : List Nat → Value → Prop
  | uint {ds} : IntPart ds → numeral 10 ds < 2 ^ 64 → Number io ds (.uint (numeral 10 ds))
  | int {ds} : IntPart ds → numeral 10 ds ≤ 2 ^ 63 →
      Number io (0x2d :: ds) (.int (-(numeral 10 ds : Int)))
  | flt {sg i f e x} : sg = [] ∨ sg = [0x2d] → IntPart i → FracPart f → ExpPart e →
      f ≠ [] ∨ e ≠ [] → io.ofText (sg ++ i ++ f ++ e) = some x →
      Number io (sg ++ i ++ f ++ e) (.flt x)

/-! ## Finite maps -/

/-- The value of the last entry with key `k`. -/
def lastOf (ms : List (List Nat × Value)) (k : List Nat) : Option Value :=
  (ms.reverse.find? (fun p => p.1 == k)).map (·.2)

/-- Strictly increasing keys, byte-wise lexicographic: the order of `std::map<std::string, _>`. -/
def SortedKeys (m : List (List Nat × Value)) : Prop := m.Pairwise (fun a b => a.1 < b.1)

/-- `m` is the finite map denoted by the entries `ms`: keys sorted, the last entry of a key wins. -/
def MapOf (ms m : List (List Nat × Value)) : Prop :=
  SortedKeys m ∧ ∀ k v, (k, v) ∈ m ↔ lastOf ms k = some v

/-! ## RFC 8259 texts (sections 2-5) -/

/-- What may stand between tokens. RFC 8259 allows `ws` everywhere; the fields exist to describe
dialects. -/
structure Dialect where
  /-- between any two tokens not listed below -/
  blank : List Nat → Prop
  /-- between a key and its colon -/
  beforeColon : List Nat → Prop
  /-- between a comma and the next array element -/
  beforeElem : List Nat → Prop
  /-- between a comma and the next key -/
  beforeKey : List Nat → Prop
  /-- after the value of the document -/
  final : List Nat → Prop
  /-- whether a comma may follow the last entry of an object or array -/
  trailingComma : Prop

/-- `ws` of RFC 8259: space, tab, line feed, carriage return. -/
def RfcWs (s : List Nat) : Prop := ∀ c ∈ s, c = 0x20 ∨ c = 0x09 ∨ c = 0x0a ∨ c = 0x0d

/-- RFC 8259 itself. -/
def rfc8259 : Dialect := ⟨RfcWs, RfcWs, RfcWs, RfcWs, RfcWs, False⟩

mutual
/-- `JValue io D t v`: `t` is a JSON value (without surrounding blanks) denoting `v`. -/
inductive JValue (io : FloatIO) (D : Dialect) : List Nat → Value → Prop
  | null : JValue io D [0x6e, 0x75, 0x6c, 0x6c] .null
  | tru : JValue io D [0x74, 0x72, 0x75, 0x65] (.bool true)
  | fals : JValue io D [0x66, 0x61, 0x6c, 0x73, 0x65] (.bool false)
  | num {t v} : Number io t v → JValue io D t v
  | str {t m} : StringBody t m → JValue io D (0x22 :: (t ++ [0x22])) (.str m)
  | obj0 {a} : D.blank a → JValue io D (0x7b :: (a ++ [0x7d])) (.obj [])
  | obj {a t k v r ms m} : D.blank a → JMember io D t k v → JMembers io D r ms →
      MapOf ((k, v) :: ms) m → JValue io D (0x7b :: (a ++ t ++ r ++ [0x7d])) (.obj m)
  | arr0 {a} : D.blank a → JValue io D (0x5b :: (a ++ [0x5d])) (.arr [])
  | arr {a t v r vs} : D.blank a → JValue io D t v → JElems io D r vs →
      JValue io D (0x5b :: (a ++ t ++ r ++ [0x5d])) (.arr (v :: vs))
/-- `*( , value )`: what may follow an array element, up to the closing bracket. -/
inductive JElems (io : FloatIO) (D : Dialect) : List Nat → List Value → Prop
  | nil {b} : D.blank b → JElems io D b []
  | trailing {b c} : D.blank b → D.trailingComma → D.blank c → JElems io D (b ++ 0x2c :: c) []
  | cons {b c t v r vs} : D.blank b → D.beforeElem c → JValue io D t v → JElems io D r vs →
      JElems io D (b ++ 0x2c :: (c ++ t ++ r)) (v :: vs)
/-- `member = string : value`, without the blanks around it. -/
inductive JMember (io : FloatIO) (D : Dialect) : List Nat → List Nat → Value → Prop
  | mk {t k e c u v} : StringBody t k → D.beforeColon e → D.blank c → JValue io D u v →
      JMember io D (0x22 :: (t ++ 0x22 :: (e ++ 0x3a :: (c ++ u)))) k v
/-- `*( , member )`: what may follow a member, up to the closing brace; the entries in text
order. -/
inductive JMembers (io : FloatIO) (D : Dialect) : List Nat → List (List Nat × Value) → Prop
  | nil {b} : D.blank b → JMembers io D b []
  | trailing {b c} : D.blank b → D.trailingComma → D.blank c → JMembers io D (b ++ 0x2c :: c) []
  | cons {b c t k v r ms} : D.blank b → D.beforeKey c → JMember io D t k v → JMembers io D r ms →
      JMembers io D (b ++ 0x2c :: (c ++ t ++ r)) ((k, v) :: ms)
end

/-- A whole document: a value with blanks around it. -/
def JText (io : FloatIO) (D : Dialect) (s : List Nat) (v : Value) : Prop :=
  ∃ a t b, s = a ++ t ++ b ∧ D.blank a ∧ JValue io D t v ∧ D.final b

/-! ## The dialects of the parser's feature flags -/

/-- White space of the library: RFC 8259 `ws` and the vertical tab. -/
def LibWs (s : List Nat) : Prop :=
  ∀ c ∈ s, c = 0x20 ∨ c = 0x09 ∨ c = 0x0a ∨ c = 0x0d ∨ c = 0x0b

/-- White space and, if allowed, `//` comments up to and including the line feed and `/* */`
comments. -/
inductive Blank (comments : Bool) : List Nat → Prop
  | nil : Blank comments []
  | ws {c s} : c = 0x20 ∨ c = 0x09 ∨ c = 0x0a ∨ c = 0x0d ∨ c = 0x0b → Blank comments s →
      Blank comments (c :: s)
  | line {b s} : comments = true → 0x0a ∉ b → Blank comments s →
      Blank comments (0x2f :: 0x2f :: (b ++ 0x0a :: s))
  | block {b s} : comments = true → (∀ p q, b ++ [0x2a] ≠ p ++ 0x2a :: 0x2f :: q) →
      Blank comments s → Blank comments (0x2f :: 0x2a :: (b ++ 0x2a :: 0x2f :: s))

/-- At the end of the document the line feed of a `//` comment may be missing. -/
def FinalBlank (comments : Bool) (s : List Nat) : Prop :=
  Blank comments s ∨
    ∃ a b, comments = true ∧ Blank comments a ∧ 0x0a ∉ b ∧ s = a ++ 0x2f :: 0x2f :: b

/-- A solidus that starts no comment, where comments are allowed: blanks, the solidus, one more
byte, and then `after`. -/
def BadComment (comments : Bool) (after : List Nat → Prop) (s : List Nat) : Prop :=
  ∃ a x b, comments = true ∧ Blank comments a ∧ x ≠ 0x2f ∧ x ≠ 0x2a ∧ after b ∧
    s = a ++ 0x2f :: x :: b

/-- The documented language of the parser with the given flags (`lenient = false`), and the language
it implements (`lenient = true`), where a malformed comment is tolerated after a comma. Comments are
not allowed between a key and its colon. -/
def dialect (lenient comments trailing : Bool) : Dialect where
  blank := Blank comments
  beforeColon := LibWs
  beforeElem := fun s => Blank comments s ∨ (lenient = true ∧ BadComment comments (Blank comments) s)
  beforeKey := fun s => Blank comments s ∨ (lenient = true ∧ BadComment comments LibWs s)
  final := FinalBlank comments
  trailingComma := trailing = true

/-! ## Well-formed values -/

mutual
/-- What every `fly::Json` built through constructors, parsing and container operations satisfies:
strings and keys are UTF-8, object entries are sorted by key without duplicates, integers fit. -/
def Value.WF : Value → Prop
  | .null => True
  | .str s => WellFormed8 s
  | .obj m => SortedKeys m ∧ WFMembers m
  | .arr l => WFElems l
  | .bool _ => True
  | .int i => -(2 ^ 63) ≤ i ∧ i < 2 ^ 63
  | .uint n => n < 2 ^ 64
  | .flt _ => True
/-- All entries. -/
def WFMembers : List (List Nat × Value) → Prop
  | [] => True
  | (k, v) :: m => WellFormed8 k ∧ v.WF ∧ WFMembers m
/-- All elements. -/
def WFElems : List Value → Prop
  | [] => True
  | v :: l => v.WF ∧ WFElems l
end

mutual
/-- `v.All p`: `p` holds of `v` and of every value inside it. -/
def Value.All (p : Value → Prop) : Value → Prop
  | .null => p .null
  | .str s => p (.str s)
  | .obj m => p (.obj m) ∧ AllMembers p m
  | .arr l => p (.arr l) ∧ AllElems p l
  | .bool b => p (.bool b)
  | .int i => p (.int i)
  | .uint n => p (.uint n)
  | .flt f => p (.flt f)
/-- All entries. -/
def AllMembers (p : Value → Prop) : List (List Nat × Value) → Prop
  | [] => True
  | (_, v) :: m => v.All p ∧ AllMembers p m
/-- All elements. -/
def AllElems (p : Value → Prop) : List Value → Prop
  | [] => True
  | v :: l => v.All p ∧ AllElems p l
end

/-- Not a floating-point number. -/
def NotFloat : Value → Prop
  | .flt _ => False
  | _ => True

end Verif.Json
