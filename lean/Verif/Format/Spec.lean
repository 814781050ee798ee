import Verif.Format.Model
import Verif.Str.Spec
import Verif.Str.Lemmas

/-!
# Specification of format strings

The syntax of format strings as trees with a rendering, the meaning of a replacement field, and the
layout of formatted values. Only the data types of requests (`FSpec`) and parameters are shared with the
model.
-/

namespace Verif.Format

open Verif.Str (CharKind)

/-- A width or precision: a number, or a nested replacement field. -/
inductive Arg where
  | number (digits : List Nat)
  | nested (digits : List Nat)

/-- The options after the colon. -/
structure Opts where
  align : Option (Option Nat × Alignment) := .none
  sign : Sign := .default
  alt : Bool := false
  zero : Bool := false
  width : Option Arg := .none
  prec : Option Arg := .none
  loc : Bool := false
  type : Option Nat := .none

/-- A replacement field: the position (no digits: automatic) and the options. -/
structure Field where
  pos : List Nat
  opts : Option Opts

/-- A piece of a format string. -/
inductive Seg where
  | chr (c : Nat)
  | lbrace
  | rbrace
  | field (f : Field)

/-! ## Rendering -/

def alignChar : Alignment → List Nat
  | .default => []
  | .left => [0x3c]
  | .right => [0x3e]
  | .center => [0x5e]

def signChar : Sign → List Nat
  | .default => []
  | .always => [0x2b]
  | .negativeOnly => [0x2d]
  | .positivePadding => [0x20]

def Arg.text : Arg → List Nat
  | .number ds => ds
  | .nested ds => 0x7b :: (ds ++ [0x7d])

def alignText : Option (Option Nat × Alignment) → List Nat
  | .none => []
  | some (.none, a) => alignChar a
  | some (some f, a) => f :: alignChar a

def widthText : Option Arg → List Nat
  | .none => []
  | some a => a.text

def precText : Option Arg → List Nat
  | .none => []
  | some a => 0x2e :: a.text

/-- The options without the alignment. -/
def Opts.tail (o : Opts) : List Nat :=
  signChar o.sign ++ ((if o.alt then [0x23] else []) ++ ((if o.zero then [0x30] else []) ++
    (widthText o.width ++ (precText o.prec ++ ((if o.loc then [0x4c] else []) ++
    (match o.type with | .none => [] | some t => [t]))))))

def Opts.text (o : Opts) : List Nat := alignText o.align ++ o.tail

/-- The text of a field after its opening brace. -/
def Field.body (f : Field) : List Nat :=
  f.pos ++ ((match f.opts with | .none => [] | some o => 0x3a :: o.text) ++ [0x7d])

def Seg.text : Seg → List Nat
  | .chr c => [c]
  | .lbrace => [0x7b, 0x7b]
  | .rbrace => [0x7d, 0x7d]
  | .field f => 0x7b :: f.body

/-- The format string. -/
def render (segs : List Seg) : List Nat := segs.flatMap Seg.text

/-! ## Well-formed trees: those whose rendering is read as the tree -/

/-- The characters taken for digits: the ASCII digits, and also (a defect, see C23) the negative values
of a signed character type. -/
def Digits (k : CharKind) (ds : List Nat) : Prop := ∀ d ∈ ds, k.isDigit d = true

def Arg.Wf (k : CharKind) : Arg → Prop
  | .number ds => ds ≠ [] ∧ Digits k ds
  | .nested ds => Digits k ds

/-- The characters of the presentation types. -/
def kindOf : Nat → Option Kind
  | 0x63 => some .character   -- c
  | 0x73 => some .string      -- s
  | 0x70 => some .pointer     -- p
  | 0x62 => some .binary      -- b
  | 0x42 => some .binary      -- B
  | 0x6f => some .octal       -- o
  | 0x64 => some .decimal     -- d
  | 0x78 => some .hex         -- x
  | 0x58 => some .hex         -- X
  | 0x61 => some .hexFloat    -- a
  | 0x41 => some .hexFloat    -- A
  | 0x65 => some .scientific  -- e
  | 0x45 => some .scientific  -- E
  | 0x66 => some .fixed       -- f
  | 0x46 => some .fixed       -- F
  | 0x67 => some .general     -- g
  | 0x47 => some .general     -- G
  | _ => .none

/-- The presentation types of numbers. -/
def numericKinds : List Kind := [.binary, .octal, .decimal, .hex, .hexFloat, .scientific, .fixed, .general]

/-- The presentation types a type of parameter can be shown in. -/
def kindsFor : PType → List Kind
  | .character => [.character, .binary, .octal, .decimal, .hex]
  | .string => [.string]
  | .pointer => [.pointer]
  | .integral => [.character, .binary, .octal, .decimal, .hex]
  | .floating => [.hexFloat, .scientific, .fixed, .general]
  | .boolean => [.character, .string, .binary, .octal, .decimal, .hex]

structure Opts.Wf (k : CharKind) (o : Opts) : Prop where
  align : ∀ fa, o.align = some fa → fa.2 ≠ .default
  width : ∀ a, o.width = some a → a.Wf k
  /-- a leading zero is the zero-padding option -/
  noZero : ∀ ds, o.zero = false → o.width = some (.number ds) → ds.head? ≠ some 0x30
  prec : ∀ a, o.prec = some a → a.Wf k
  type : ∀ t, o.type = some t → (kindOf t).isSome = true

structure Field.Wf (k : CharKind) (f : Field) : Prop where
  pos : Digits k f.pos
  opts : ∀ o, f.opts = some o → o.Wf k

/-- `{:}` followed by an alignment character is not recognised (a defect). -/
def Field.Confused (f : Field) (following : List Nat) : Prop :=
  ∃ o, f.opts = some o ∧ o.text = [] ∧ ∃ c, following.head? = some c ∧ (c = 0x3c ∨ c = 0x3e ∨ c = 0x5e)

def Wf (k : CharKind) : List Seg → Prop
  | [] => True
  | .chr c :: r => c ≠ 0x7b ∧ c ≠ 0x7d ∧ Wf k r
  | .lbrace :: r => Wf k r
  | .rbrace :: r => Wf k r
  | .field f :: r => f.Wf k ∧ ¬ f.Confused (render r) ∧ Wf k r

/-! ## Meaning -/

/-- The replacement fields of a format string in order. -/
def fieldsOf (segs : List Seg) : List Field :=
  segs.filterMap (fun s => match s with | .field f => some f | _ => .none)

/-- The references to parameters of a field, in order: itself, the nested width, the nested
precision. Each is the digits of its position; none means automatic. -/
def Field.refs (f : Field) : List (List Nat) :=
  f.pos :: (match f.opts with
    | .none => []
    | some o =>
      (match o.width with | some (.nested ds) => [ds] | _ => []) ++
      (match o.prec with | some (.nested ds) => [ds] | _ => []))

/-- The positions of a request, in the same order. -/
def FSpec.refs (s : FSpec) : List Nat := s.position :: (s.widthPos.toList ++ s.precPos.toList)

/-- The parameters the references denote: all automatic, numbered in order, or all explicit. -/
def Positions (k : CharKind) (refs : List (List Nat)) (ps : List Nat) : Prop :=
  ((∀ r ∈ refs, r = []) ∧ ps = List.range refs.length) ∨
  ((∀ r ∈ refs, r ≠ []) ∧ ps = refs.map (numVal k))

def argNumber (k : CharKind) : Option Arg → Option Nat
  | some (.number ds) => some (numVal k ds)
  | _ => .none

def isNested : Option Arg → Bool
  | some (.nested _) => true
  | _ => false

/-- The presentation type a parameter type has by default. -/
def defaultKind : PType → Kind
  | .character => .character
  | .string => .string
  | .pointer => .pointer
  | .integral => .decimal
  | .floating => .general
  | .boolean => .string

/-- What the options (all absent: no colon) say in the request `s` for a parameter of type `t`. -/
structure OptsMean (k : CharKind) (t : PType) (o : Opts) (s : FSpec) : Prop where
  fill : s.fill = o.align.bind (·.1)
  align : s.align = (o.align.map (·.2)).getD .default
  sign : s.sign = o.sign
  alt : s.alt = o.alt
  /-- zero-padding is ignored with an alignment -/
  zero : s.zero = (o.zero && o.align.isNone)
  width : s.width = argNumber k o.width
  widthPos : s.widthPos.isSome = isNested o.width
  prec : s.prec = argNumber k o.prec
  precPos : s.precPos.isSome = isNested o.prec
  loc : s.loc = o.loc
  kind : s.kind = (o.type.bind kindOf).getD (defaultKind t)
  upper : s.upper = (match o.type with | some c => decide (0x41 ≤ c ∧ c ≤ 0x5a) | .none => false)

/-- A valid request for a parameter of type `t`. -/
structure Valid (ts : List PType) (t : PType) (s : FSpec) : Prop where
  fill : ∀ f, s.fill = some f → f ≠ 0x7b ∧ f ≠ 0x7d ∧ f < 0x80
  sign : s.sign ≠ .default → s.kind ∈ numericKinds
  alt : s.alt = true → s.kind ∈ numericKinds ∧ s.kind ≠ .decimal
  zero : s.zero = true → s.kind ∈ numericKinds
  width : s.width ≠ some 0
  widthPos : ∀ p, s.widthPos = some p → ts[p]? = some .integral
  prec : s.prec.isSome = true ∨ s.precPos.isSome = true → t = .string ∨ t = .floating
  precPos : ∀ p, s.precPos = some p → ts[p]? = some .integral
  loc : s.loc = true → t = .integral ∨ t = .floating ∨ t = .boolean
  kind : s.kind ∈ kindsFor t

/-- The request `s` is what the field says, for the type of its parameter. -/
def FieldMeans (k : CharKind) (ts : List PType) (f : Field) (s : FSpec) : Prop :=
  ∃ t, ts[s.position]? = some t ∧ OptsMean k t (f.opts.getD {}) s ∧ Valid ts t s ∧
    s.size = f.body.length + 1

/-- The requests are what the fields say, one by one. -/
inductive Mean (k : CharKind) (ts : List PType) : List Field → List FSpec → Prop
  | nil : Mean k ts [] []
  | cons {f s fs ss} : FieldMeans k ts f s → Mean k ts fs ss → Mean k ts (f :: fs) (s :: ss)

/-- The requests of a format string for parameters of the types `ts`. -/
structure Denotes (k : CharKind) (ts : List PType) (fs : List Field) (ss : List FSpec) : Prop where
  count : fs.length ≤ 64
  each : Mean k ts fs ss
  positions : Positions k (fs.flatMap Field.refs) (ss.flatMap FSpec.refs)

/-! ## Output -/

/-- The output of a format string: literal text, braces, and one text for each field. -/
def output : List Seg → List (List Nat) → List Nat
  | [], _ => []
  | .chr c :: r, ts => c :: output r ts
  | .lbrace :: r, ts => 0x7b :: output r ts
  | .rbrace :: r, ts => 0x7d :: output r ts
  | .field _ :: r, [] => output r []
  | .field _ :: r, t :: ts => t ++ output r ts

/-- `out` is `body` with `n` characters `fill` put before and after it. -/
def PaddedBy (fill : Nat) (al : Alignment) (n : Nat) (body out : List Nat) : Prop :=
  ∃ l r, out = List.replicate l fill ++ body ++ List.replicate r fill ∧ l + r = n ∧
    (al = .left → l = 0) ∧ (al = .right → r = 0) ∧ (al = .center → l ≤ r ∧ r ≤ l + 1)

/-- `out` is `body` padded with the character `fill` up to the width `w`. -/
def Padded (fill : Nat) (al : Alignment) (w : Nat) (body out : List Nat) : Prop :=
  PaddedBy fill al (w - body.length) body out

/-- The alignment with the default of the type. -/
def Alignment.or : Alignment → Alignment → Alignment
  | .default, d => d
  | a, _ => a

/-- The value of an integer of `bits` bits with the representation `repr`. -/
def intValue (signed : Bool) (bits repr : Nat) : Int :=
  if signed ∧ 2 ^ (bits - 1) ≤ repr then (repr : Int) - 2 ^ bits else repr

/-- The digits of a base. -/
def BaseDigit (base : Nat) (upper : Bool) (c : Nat) : Prop :=
  (0x30 ≤ c ∧ c < 0x30 + min base 10) ∨
  (base = 16 ∧ upper = true ∧ 0x41 ≤ c ∧ c ≤ 0x46) ∨ (base = 16 ∧ upper = false ∧ 0x61 ≤ c ∧ c ≤ 0x66)

/-- `ds` is the number `n` in the base, without leading zeros. -/
structure Numeral (base : Nat) (upper : Bool) (n : Nat) (ds : List Nat) : Prop where
  digits : ∀ c ∈ ds, BaseDigit base upper c
  nonempty : ds ≠ []
  noZeros : ds.head? = some 0x30 → ds = [0x30]
  value : Verif.Str.numeral base ds = n

/-- The base of a presentation type of integers. -/
def Kind.Base : Kind → Nat → Prop
  | .binary, b => b = 2
  | .octal, b => b = 8
  | .decimal, b => b = 10
  | .hex, b => b = 16
  | _, _ => False

/-- The sign shown. -/
def signText (s : FSpec) (negative : Bool) : List Nat :=
  if negative then [0x2d]
  else match s.sign with
    | .always => [0x2b]
    | .positivePadding => [0x20]
    | _ => []

/-- The prefix of the alternate form. -/
def altText (s : FSpec) : List Nat :=
  if s.alt then
    match s.kind, s.upper with
    | .binary, false => [0x30, 0x62]
    | .binary, true => [0x30, 0x42]
    | .hex, false => [0x30, 0x78]
    | .hex, true => [0x30, 0x58]
    | _, _ => [0x30]
  else []

/-- `out` shows the number `n` (negative or not) as the request says, at the width `w`. -/
def ShowsNumber (s : FSpec) (w n : Nat) (negative : Bool) (out : List Nat) : Prop :=
  ∃ base ds, s.kind.Base base ∧ Numeral base (s.kind = .hex ∧ s.upper) n ds ∧
    out.length = max w (signText s negative ++ altText s ++ ds).length ∧
    (if s.zero ∧ s.align = .default then
       out = signText s negative ++ altText s ++
         List.replicate (w - (signText s negative ++ altText s ++ ds).length) 0x30 ++ ds
     else Padded (s.fill.getD 0x20) (s.align.or .right) w (signText s negative ++ altText s ++ ds) out)

/-- The number the request's precision is as an `int`: itself below 2^31, wrapped around beyond. -/
def FSpec.intPrecision (s : FSpec) (ps : List Param) : Int := Int.bmod (s.precisionOf ps 6) (2 ^ 32)

/-- The text of a floating-point value, without the alternate form. -/
def floatBody (s : FSpec) (ps : List Param) (v : FloatVal) : List Nat :=
  signText s v.negative ++
    (if s.upper then (v.text s.kind (s.intPrecision ps)).map (CharKind.toUpper ⟨8, true⟩)
     else v.text s.kind (s.intPrecision ps))

/-- `out` shows the parameter as the request says. `maxChar` is the largest character of the format
string's type. Nothing is said of floating-point values here. -/
def ShowsParam (maxChar : Nat) (ps : List Param) (s : FSpec) : Param → List Nat → Prop
  | .int _ signed bits repr, out =>
    if s.kind = .character then
      if 0 ≤ intValue signed bits repr ∧ intValue signed bits repr ≤ maxChar then
        Padded (s.fill.getD 0x20) (s.align.or .right) (s.widthOf ps 0) [(intValue signed bits repr).toNat] out
      else out = []
    else ShowsNumber s (s.widthOf ps 0) (intValue signed bits repr).natAbs
      (decide (intValue signed bits repr < 0)) out
  | .str u, out =>
    Padded (s.fill.getD 0x20) (s.align.or .left) (s.widthOf ps 0)
      (u.take (s.precisionOf ps (2 ^ 64 - 1))) out
  | .foreign src dst u, out =>
    -- a defect (see `foreign_width_violated`): the units of the source are counted
    PaddedBy (s.fill.getD 0x20) (s.align.or .left)
      (s.widthOf ps 0 - (u.take (s.precisionOf ps (2 ^ 64 - 1))).length)
      ((Verif.Unicode.convert src dst (u.take (s.precisionOf ps (2 ^ 64 - 1)))).getD []) out
  | .ptr a, out => ShowsNumber { s with alt := true, kind := .hex } (s.widthOf ps 0) a false out
  | .float _, _ => True
  | .bool b, out =>
    if s.kind = .string then
      -- the words true and false
      Padded (s.fill.getD 0x20) (s.align.or .left) (s.widthOf ps 0)
        ((if b then [0x74, 0x72, 0x75, 0x65] else [0x66, 0x61, 0x6c, 0x73, 0x65]).take (s.precisionOf ps (2 ^ 64 - 1))) out
    else if s.kind = .character then
      Padded (s.fill.getD 0x20) (s.align.or .right) (s.widthOf ps 0) [if b then 1 else 0] out
    else ShowsNumber s (s.widthOf ps 0) (if b then 1 else 0) false out

/-- A parameter a caller can pass: integers are values of their type. -/
def Param.Ok : Param → Prop
  | .int _ _ bits repr => 0 < bits ∧ repr < 2 ^ bits
  | _ => True

/-- The largest value of each character type: `char`, `char8_t`, `char16_t`, `wchar_t`, `char32_t`. -/
def largestChar (k : CharKind) : Nat :=
  if k.width = 8 then (if k.signed then 127 else 255)
  else if k.width = 16 then 65535
  else if k.signed then 2147483647 else 4294967295

/-- The texts of the fields, one by one. -/
inductive ShowsAll (maxChar : Nat) (ps : List Param) : List FSpec → List (List Nat) → Prop
  | nil : ShowsAll maxChar ps [] []
  | cons {s ss t ts p} : ps[s.position]? = some p → ShowsParam maxChar ps s p t →
      ShowsAll maxChar ps ss ts → ShowsAll maxChar ps (s :: ss) (t :: ts)

end Verif.Format
