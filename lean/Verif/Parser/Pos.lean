/-!
# The position a parser keeps

`/repo/fly/parser/parser.hpp` and `parser.cpp`: the line and the column, updated by each symbol read.
-/

namespace Verif.Parser

/-- `m_line`, `m_column` (parser.hpp 178-179), 32-bit numbers. -/
structure Pos where
  line : Nat
  column : Nat
  deriving DecidableEq, Repr

/-- Where `parse_stream` starts (parser.cpp 93-94). -/
def Pos.start : Pos := ⟨1, 0⟩

/-- `get` (parser.hpp 242-258) of a character. -/
def Pos.get (p : Pos) (c : Nat) : Pos :=
  if c = 0x0a then ⟨(p.line + 1) % 2 ^ 32, 1⟩ else ⟨p.line, (p.column + 1) % 2 ^ 32⟩

/-- `get` (parser.hpp 242-258) at the end of the stream. -/
def Pos.eof (p : Pos) : Pos := ⟨p.line, (p.column + 1) % 2 ^ 32⟩

end Verif.Parser
