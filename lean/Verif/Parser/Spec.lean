import Verif.Unicode.Spec

/-!
# Specification of encoded documents

What the bytes of a document with a byte-order mark are, by arithmetic.
-/

namespace Verif.Parser

/-- The five encodings of a document with a byte-order mark. -/
inductive Form where
  | utf8
  | utf16be
  | utf16le
  | utf32be
  | utf32le
deriving DecidableEq

/-- The byte-order mark: the code point U+FEFF in that encoding. -/
def mark : Form → List Nat
  | .utf8 => [0xef, 0xbb, 0xbf]
  | .utf16be => [0xfe, 0xff]
  | .utf16le => [0xff, 0xfe]
  | .utf32be => [0x00, 0x00, 0xfe, 0xff]
  | .utf32le => [0xff, 0xfe, 0x00, 0x00]

def be16 (u : Nat) : List Nat := [u / 256, u % 256]
def be32 (u : Nat) : List Nat := [u / 16777216, u / 65536 % 256, u / 256 % 256, u % 256]

/-- The bytes of the scalar value `c` in an encoding. -/
def bytesOf : Form → Nat → List Nat
  | .utf8, c => Verif.Unicode.utf8Of c
  | .utf16be, c => (Verif.Unicode.utf16Of c).flatMap be16
  | .utf16le, c => (Verif.Unicode.utf16Of c).flatMap (fun u => (be16 u).reverse)
  | .utf32be, c => be32 c
  | .utf32le, c => (be32 c).reverse

/-- A document with a byte-order mark. -/
def document (f : Form) (cps : List Nat) : List Nat := mark f ++ cps.flatMap (bytesOf f)

/-- The UTF-8 transcoding of the text. -/
def transcoded (cps : List Nat) : List Nat := cps.flatMap Verif.Unicode.utf8Of

example : document .utf16le [0x31, 0x1f600] = [0xff, 0xfe, 0x31, 0x00, 0x3d, 0xd8, 0x00, 0xde] := by decide
example : mark .utf16be = bytesOf .utf16be 0xfeff := by decide
example : mark .utf16le = bytesOf .utf16le 0xfeff := by decide
example : mark .utf32be = bytesOf .utf32be 0xfeff := by decide
example : mark .utf32le = bytesOf .utf32le 0xfeff := by decide
example : mark .utf8 = bytesOf .utf8 0xfeff := by decide

end Verif.Parser
