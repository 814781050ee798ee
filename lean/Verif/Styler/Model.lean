/-!
# Model of `fly::logger::Styler` and `fly::logger::detail::ConsoleSink`

Sources: `/repo/fly/logger/styler.hpp`, `/repo/fly/logger/styler.cpp`,
`/repo/fly/logger/detail/styler_proxy.{hpp,cpp}`, `/repo/fly/logger/detail/nix/styler_proxy_impl.cpp`
and `/repo/fly/logger/detail/console_sink.cpp`. Bytes are `Nat`s below 256.

Simplifications: the streams never fail and are never redirected; of the formatting state of a stream
only the number base, the field width, the fill character and left adjustment are kept (the rest is as
at construction); a moved-from `std::stack` is empty, as in the standard libraries the project supports.
Only the Linux/macOS implementation of the proxy is modelled.
-/

namespace Verif.Styler

/-- `Style`, styler.hpp 22-31. -/
inductive Style
  | default | blink | bold | dim | italic | strike | underline
  deriving DecidableEq, Repr

/-- `Color::Plane`, styler.hpp 64-68. -/
inductive Plane
  | foreground | background
  deriving DecidableEq, Repr

/-- `Color`, styler.hpp 36-84: a 256-colour value and a plane. -/
structure Color where
  color : Nat
  plane : Plane
  deriving DecidableEq, Repr

/-- `Cursor::Direction`, styler.hpp 94-100. -/
inductive Direction
  | up | down | forward | backward
  deriving DecidableEq, Repr

/-- The members of `Cursor`, styler.hpp 114-115. -/
structure Cursor where
  direction : Direction
  distance : Nat
  deriving DecidableEq, Repr

/-- The constructor of `Cursor`, styler.hpp 108-112. -/
def mkCursor (d : Direction) (distance : Nat) : Cursor :=
  { direction := d, distance := if distance > 0 then distance else 1 }

/-- An argument of the constructor of `Styler`, styler.hpp 118-122. A cursor argument carries the
distance given to its constructor (1 when only a direction is given). -/
inductive Modifier
  | style (s : Style)
  | color (c : Color)
  | cursor (d : Direction) (distance : Nat)
  deriving DecidableEq, Repr

/-- The three stacks of a `Styler`, styler.hpp 238-242; the head of a list is the top. -/
structure Stacks where
  styles : List Style := []
  colors : List Color := []
  cursors : List Cursor := []
  deriving DecidableEq, Repr

/-- `Styler::set_modifier`, styler.hpp 221-236. -/
def setModifier (st : Stacks) : Modifier → Stacks
  | .style s => { st with styles := s :: st.styles }
  | .color c => { st with colors := c :: st.colors }
  | .cursor d n => { st with cursors := mkCursor d n :: st.cursors }

/-- The constructors of `Styler`, styler.hpp 171-197: the delegating constructor handles the
remaining arguments first. -/
def construct : List Modifier → Stacks
  | [] => {}
  | m :: ms => setModifier (construct ms) m

/-- The part of a stream's formatting state that `operator<<` of a number, a character and a string
looks at. -/
structure Fmt where
  base : Nat := 10
  width : Nat := 0
  fill : Nat := 32
  left : Bool := false
  deriving DecidableEq, Repr

/-- A stream: what was written to it and its formatting state. -/
structure Stream where
  out : List Nat := []
  fmt : Fmt := {}
  deriving DecidableEq, Repr

/-- `operator<<` of a string or character (standard library): padded to the field width, which is
reset. -/
def Stream.put (s : Stream) (t : List Nat) : Stream :=
  let pad := List.replicate (s.fmt.width - t.length) s.fmt.fill
  { out := s.out ++ (if s.fmt.left then t ++ pad else pad ++ t)
    fmt := { s.fmt with width := 0 } }

/-- One digit character in bases up to sixteen. -/
def digitChar (d : Nat) : Nat := if d < 10 then 48 + d else 87 + d

/-- The digits of a number in a base of at least two. -/
def digits (base n : Nat) : List Nat :=
  if _h : 2 ≤ base ∧ base ≤ n then digits base (n / base) ++ [digitChar (n % base)] else [digitChar n]
termination_by n
decreasing_by exact Nat.div_lt_self (by omega) (by omega)

/-- `operator<<` of a non-negative integer (standard library). -/
def Stream.putNum (s : Stream) (n : Nat) : Stream := s.put (digits s.fmt.base n)

/-- `stream_value<Style>`, nix/styler_proxy_impl.cpp 38-66. -/
def streamStyle (s : Stream) : Style → Stream
  | .default => s.putNum 0
  | .bold => s.putNum 1
  | .dim => s.putNum 2
  | .italic => s.putNum 3
  | .underline => s.putNum 4
  | .blink => s.putNum 5
  | .strike => s.putNum 9

/-- `stream_value<Color>`, nix/styler_proxy_impl.cpp 69-98. The largest standard colour is
`White` = 7 (styler.hpp 49-59). -/
def streamColor (s : Stream) (c : Color) : Stream :=
  let s := if c.color ≤ 7 then
      (if c.plane = .foreground then s.put [51] else s.put [52])
    else
      (if c.plane = .foreground then s.put [51, 56, 59, 53, 59] else s.put [52, 56, 59, 53, 59])
  s.putNum c.color

/-- `stream_value<Cursor>`, nix/styler_proxy_impl.cpp 101-122. -/
def streamCursor (s : Stream) (c : Cursor) : Stream :=
  let s := (s.put [27, 91]).putNum c.distance
  match c.direction with
  | .up => s.put [65]
  | .down => s.put [66]
  | .forward => s.put [67]
  | .backward => s.put [68]

/-- The loop over the styles of `apply_styles_and_colors`, nix/styler_proxy_impl.cpp 133-141; the
result includes `first_modifier`. -/
def applyStyles (s : Stream) (first : Bool) : List Style → Stream × Bool
  | [] => (s, first)
  | x :: xs => applyStyles (streamStyle (if first then s else s.put [59]) x) false xs

/-- The loop over the colours of `apply_styles_and_colors`, nix/styler_proxy_impl.cpp 143-151. -/
def applyColors (s : Stream) (first : Bool) : List Color → Stream × Bool
  | [] => (s, first)
  | x :: xs => applyColors (streamColor (if first then s else s.put [59]) x) false xs

/-- `apply_styles_and_colors`, nix/styler_proxy_impl.cpp 125-154. -/
def applyStylesAndColors (s : Stream) (styles : List Style) (colors : List Color) : Stream :=
  let p := applyStyles (s.put [27, 91]) true styles
  (applyColors p.1 p.2 colors).1.put [109]

/-- `apply_cursors`, nix/styler_proxy_impl.cpp 157-163. -/
def applyCursors (s : Stream) : List Cursor → Stream
  | [] => s
  | c :: cs => applyCursors (streamCursor s c) cs

/-- The constructor of the proxy, nix/styler_proxy_impl.cpp 6-26: the stream afterwards and
`m_did_apply_style_or_color`. `std` is whether the stream is standard output or error
(styler_proxy.cpp 8-13). -/
def proxyOpen (std : Bool) (s : Stream) (st : Stacks) : Stream × Bool :=
  if std then
    let p := if !st.styles.isEmpty || !st.colors.isEmpty
      then (applyStylesAndColors s st.styles st.colors, true) else (s, false)
    (if !st.cursors.isEmpty then applyCursors p.1 st.cursors else p.1, p.2)
  else (s, false)

/-- The destructor of the proxy, nix/styler_proxy_impl.cpp 29-35. -/
def proxyClose (s : Stream) (applied : Bool) : Stream :=
  if applied then s.put [27, 91, 48, 109] else s

/-! ## Programs using stylers -/

/-- The streams of a program: standard output, standard error, and any other. -/
inductive Which
  | out | err | other (n : Nat)
  deriving DecidableEq, Repr

/-- `m_stream_is_stdout || m_stream_is_stderr`, styler_proxy.cpp 8-13. -/
def Which.std : Which → Bool
  | .out => true
  | .err => true
  | .other _ => false

/-- A `Styler` object: its stacks and its proxy (the stream it refers to and whether a style or
colour was applied), styler.hpp 238-244. -/
structure Obj where
  stacks : Stacks
  proxy : Option (Which × Bool) := none
  deriving DecidableEq, Repr

/-- A program's state: the streams and the living styler objects by name. -/
structure World where
  streams : Which → Stream := fun _ => {}
  objs : Nat → Option Obj := fun _ => none

/-- Replace one entry of a function. -/
def upd {α β : Type} [DecidableEq α] (f : α → β) (a : α) (b : β) : α → β :=
  fun x => if x = a then b else f x

/-- What a program does. `make` constructs a named styler, `put` streams it, `text` prints a string,
`drop` destroys the styler. -/
inductive Op
  | make (i : Nat) (mods : List Modifier)
  | put (i : Nat) (w : Which)
  | text (w : Which) (t : List Nat)
  | drop (i : Nat)
  deriving Repr

/-- Destroying a proxy, if there is one. -/
def closeProxy (ss : Which → Stream) : Option (Which × Bool) → (Which → Stream)
  | none => ss
  | some (w, applied) => upd ss w (proxyClose (ss w) applied)

/-- One operation. Streaming (styler.cpp 14-26) moves the stacks into a new proxy, which then
replaces the previous one; destroying a styler destroys its proxy. Operations on names that are not
alive (or already alive) do nothing: the C++ program could not be written. -/
def step (s : World) : Op → World
  | .make i mods =>
    match s.objs i with
    | none => { s with objs := upd s.objs i (some { stacks := construct mods }) }
    | some _ => s
  | .put i w =>
    match s.objs i with
    | none => s
    | some o =>
      let p := proxyOpen w.std (s.streams w) o.stacks
      { streams := closeProxy (upd s.streams w p.1) o.proxy
        objs := upd s.objs i (some { stacks := {}, proxy := some (w, p.2) }) }
  | .text w t => { s with streams := upd s.streams w ((s.streams w).put t) }
  | .drop i =>
    match s.objs i with
    | none => s
    | some o =>
      { streams := closeProxy s.streams o.proxy
        objs := upd s.objs i none }

/-- A whole program. -/
def exec (s : World) (ops : List Op) : World := ops.foldl step s

/-! ## The console sink -/

/-- `Level`, fly/logger/log.hpp 16-24. -/
inductive Level
  | debug | info | warn | error
  deriving DecidableEq, Repr

/-- The stream, style and colour chosen by `ConsoleSink::stream`, console_sink.cpp 22-46. -/
def consoleChoice : Level → Which × Style × Option Color
  | .debug => (.out, .default, none)
  | .info => (.out, .default, some ⟨2, .foreground⟩)
  | .warn => (.err, .default, some ⟨3, .foreground⟩)
  | .error => (.err, .bold, some ⟨1, .foreground⟩)

/-- `ConsoleSink::stream`, console_sink.cpp 20-56, as the operations performed: `pre` is the
formatted time and trace (two texts separated by a space), `msg` the message. -/
def consoleOps (i : Nat) (l : Level) (time trace msg : List Nat) : List Op :=
  let (w, style, color) := consoleChoice l
  [ .make i (match color with
      | some c => [.style style, .color c]
      | none => [.style style]),
    .put i w,
    .text w (time ++ [32] ++ trace),
    .drop i,
    .text w [58, 32],
    .text w msg,
    .text w [10] ]

end Verif.Styler
