import Verif.Unicode.Model
import Verif.Numeric.Model

/-!
# Model of `fly::parser::Parser::parse_file`

Sources: `/repo/fly/parser/parser.cpp`, `/repo/fly/parser/parser.hpp`. The file is the list of its
bytes. The rest of a parser (`parse_internal` of the INI or JSON parser) is an arbitrary function of
the bytes of the stream buffer.
-/

namespace Verif.Parser

/-- `Parser::Encoding` (parser.hpp). -/
inductive Encoding where
  | utf8
  | utf16Big
  | utf16Little
  | utf32Big
  | utf32Little
deriving DecidableEq, Repr

/-- `s_utf8_byte_order_mark` etc. (parser.cpp 10-23). -/
def utf8Mark : List Nat := [0xef, 0xbb, 0xbf]
def utf16BeMark : List Nat := [0xfe, 0xff]
def utf16LeMark : List Nat := [0xff, 0xfe]
def utf32BeMark : List Nat := [0x00, 0x00, 0xfe, 0xff]
def utf32LeMark : List Nat := [0xff, 0xfe, 0x00, 0x00]

/-- `stream.peek()` cast to `char` (as unsigned): the end of file is -1, so 0xff. -/
def peekChar (s : List Nat) : Nat := s.headD 0xff

/-- `check_bom<Size>(stream, bom)` (parser.cpp 25-43) on a stream at position 0 holding `s`: what is
left to be read if the mark is there. Otherwise the stream is rewound. -/
def checkBom (bom s : List Nat) : Option (List Nat) :=
  if peekChar s = bom.headD 0 then
    -- read(data, Size)
    let data := s.take bom.length
    if data.length = bom.length ∧ data = bom then some (s.drop bom.length) else none
  else none

/-- `parse_byte_order_mark` (parser.cpp 101-128): the encoding and the unread bytes. -/
def parseByteOrderMark (s : List Nat) : Encoding × List Nat :=
  match checkBom utf8Mark s with
  | some r => (.utf8, r)
  | none =>
    match checkBom utf32BeMark s with
    | some r => (.utf32Big, r)
    | none =>
      match checkBom utf32LeMark s with
      | some r => (.utf32Little, r)
      | none =>
        match checkBom utf16BeMark s with
        | some r => (.utf16Big, r)
        | none =>
          match checkBom utf16LeMark s with
          | some r => (.utf16Little, r)
          | none => (.utf8, s)

/-- One round of the loop of `ensure_utf8` for 16-bit units (parser.hpp 211-227): the bytes are put
together in big-endian order; a unit cut off by the end of the file is not appended. -/
def readUnits16 (little : Bool) : List Nat → List Nat
  | a :: b :: rest =>
    let c := ((a &&& 0xff) <<< 8) ||| ((b &&& 0xff) <<< 0)
    (if little then Verif.Numeric.byteSwap16 c else c) :: readUnits16 little rest
  | _ => []

/-- The same for 32-bit units. -/
def readUnits32 (little : Bool) : List Nat → List Nat
  | a :: b :: c :: d :: rest =>
    let u := ((a &&& 0xff) <<< 24) ||| ((b &&& 0xff) <<< 16) ||| ((c &&& 0xff) <<< 8) |||
      ((d &&& 0xff) <<< 0)
    (if little then Verif.Numeric.byteSwap32 u else u) :: readUnits32 little rest
  | _ => []

/-- `ensure_utf8<std::u16string, Endianness>` (parser.hpp 203-230). -/
def ensureUtf8From16 (little : Bool) (s : List Nat) : Option (List Nat) :=
  Verif.Unicode.convert .utf16 (.utf8 true) (readUnits16 little s)

/-- `ensure_utf8<std::u32string, Endianness>` (parser.hpp 203-230). -/
def ensureUtf8From32 (little : Bool) (s : List Nat) : Option (List Nat) :=
  Verif.Unicode.convert .utf32 (.utf8 true) (readUnits32 little s)

/-- `Parser::parse_file` (parser.cpp 48-85) of a file that can be opened. `internal` is the rest of the
parser, given the bytes from the position of the stream to its end. -/
def parseFile {α : Type} (internal : List Nat → Option α) (file : List Nat) : Option α :=
  match parseByteOrderMark file with
  | (.utf8, r) => internal r
  | (.utf16Big, r) => (ensureUtf8From16 false r).bind internal
  | (.utf16Little, r) => (ensureUtf8From16 true r).bind internal
  | (.utf32Big, r) => (ensureUtf8From32 false r).bind internal
  | (.utf32Little, r) => (ensureUtf8From32 true r).bind internal

end Verif.Parser
