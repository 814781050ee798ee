import Verif.Styler.Model

/-!
# What a styled text looks like: a terminal (ECMA-48) and the documented meaning of a styler
-/

namespace Verif.Styler.Spec

/-- How characters are displayed. `fg`, `bg` are entries of the 256-colour table, `none` the
terminal's own colour. -/
structure Attr where
  bold : Bool := false
  dim : Bool := false
  italic : Bool := false
  underline : Bool := false
  blink : Bool := false
  strike : Bool := false
  fg : Option Nat := none
  bg : Option Nat := none
  deriving DecidableEq, Repr

/-- The state of the terminal's parser: text, after ESC, or in a control sequence with the parameter
bytes read so far. -/
inductive Mode
  | ground
  | esc
  | csi (ps : List Nat)
  deriving DecidableEq, Repr

/-- A terminal: the characters displayed so far with their look, the cursor movements performed, the
look of the next character. -/
structure Term where
  mode : Mode := .ground
  attr : Attr := {}
  shown : List (Nat × Attr) := []
  moves : List (Direction × Nat) := []
  deriving DecidableEq, Repr

/-- The value of a decimal parameter; an empty one is zero. -/
def number (ds : List Nat) : Nat := ds.foldl (fun v d => 10 * v + (d - 48)) 0

/-- The parameters of a control sequence, separated by semicolons. -/
def params : List Nat → List Nat → List Nat
  | cur, [] => [number cur]
  | cur, b :: bs => if b = 59 then number cur :: params [] bs else params (cur ++ [b]) bs

/-- Select graphic rendition (ECMA-48 8.3.117 and the 256-colour extension). -/
def sgr (a : Attr) : List Nat → Attr
  | 38 :: 5 :: n :: ps => sgr { a with fg := some n } ps
  | 48 :: 5 :: n :: ps => sgr { a with bg := some n } ps
  | n :: ps =>
    sgr (if n = 0 then {} else if n = 1 then { a with bold := true }
      else if n = 2 then { a with dim := true } else if n = 3 then { a with italic := true }
      else if n = 4 then { a with underline := true } else if n = 5 then { a with blink := true }
      else if n = 9 then { a with strike := true }
      else if 30 ≤ n ∧ n ≤ 37 then { a with fg := some (n - 30) }
      else if 40 ≤ n ∧ n ≤ 47 then { a with bg := some (n - 40) } else a) ps
  | [] => a

/-- The distance of a cursor movement: zero means one. -/
def distance (ps : List Nat) : Nat := match params [] ps with
  | n :: _ => if n = 0 then 1 else n
  | [] => 1

/-- The terminal receives one byte. -/
def feed (t : Term) (b : Nat) : Term :=
  match t.mode with
  | .ground => if b = 27 then { t with mode := .esc } else { t with shown := t.shown ++ [(b, t.attr)] }
  | .esc => if b = 91 then { t with mode := .csi [] } else { t with mode := .ground }
  | .csi ps =>
    if 48 ≤ b ∧ b ≤ 59 then { t with mode := .csi (ps ++ [b]) }
    else if b = 109 then { t with mode := .ground, attr := sgr t.attr (params [] ps) }
    else if b = 65 then { t with mode := .ground, moves := t.moves ++ [(.up, distance ps)] }
    else if b = 66 then { t with mode := .ground, moves := t.moves ++ [(.down, distance ps)] }
    else if b = 67 then { t with mode := .ground, moves := t.moves ++ [(.forward, distance ps)] }
    else if b = 68 then { t with mode := .ground, moves := t.moves ++ [(.backward, distance ps)] }
    else { t with mode := .ground }

/-- The terminal receives a text. -/
def display (t : Term) (bs : List Nat) : Term := bs.foldl feed t

/-- The styles asked for, in order. -/
def styles (ms : List Modifier) : List Style :=
  ms.filterMap fun | .style s => some s | _ => none

/-- The colours asked for on a plane, in order. -/
def colors (p : Plane) (ms : List Modifier) : List Nat :=
  ms.filterMap fun | .color c => if c.plane = p then some c.color else none | _ => none

/-- The style `s` is on: it was asked for, after any `Default`. -/
def on (s : Style) (ms : List Modifier) : Bool :=
  (((styles ms).reverse.takeWhile (· ≠ .default)).contains s)

/-- The look a styler's documentation promises: all styles combined, of each plane the last colour. -/
def wanted (ms : List Modifier) : Attr :=
  { bold := on .bold ms, dim := on .dim ms, italic := on .italic ms
    underline := on .underline ms, blink := on .blink ms, strike := on .strike ms
    fg := (colors .foreground ms).getLast?, bg := (colors .background ms).getLast? }

/-- The cursor movements a styler's documentation promises, in order; at least one step each. -/
def wantedMoves (ms : List Modifier) : List (Direction × Nat) :=
  ms.filterMap fun | .cursor d n => some (d, max n 1) | _ => none

/-- Colours are `std::uint8_t`, distances too. -/
def Legal : Modifier → Prop
  | .style _ => True
  | .color c => c.color < 256
  | .cursor _ n => n < 256

end Verif.Styler.Spec
