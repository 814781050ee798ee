import Verif.Format.Props

/-!
# Floating-point values formatted with a stream (C127)

Where the compiler has no floating-point `std::to_chars`, the formatter of floating-point values prints with a
`std::stringstream` that the thread keeps between calls, and a guard undoes the changes each call makes to
it. The model follows the guard member by member and the insertion stage by stage ([facet.num.put.virtuals]);
the text that `printf` would make of a value is a parameter.
-/

namespace Verif.Format

open Verif.Str (CharKind)

namespace StreamFloat

/-- The `printf` conversions of a floating-point value: `%a`, `%e`, `%f`, `%g`. -/
inductive ConvKind where
  | a
  | e
  | f
  | g
deriving DecidableEq, Repr

/-- A `printf` conversion specification: the flags `+` and `#`, upper case, the letter, the precision. -/
structure Conv where
  plus : Bool := false
  alt : Bool := false
  upper : Bool := false
  kind : ConvKind := .g
  prec : Option Int := none
deriving DecidableEq, Repr

/-- The C library on floating-point values of type `V`: the sign bit, whether the value is neither infinite nor
not a number (formatters.hpp 715), and the text `printf` makes of the magnitude. -/
structure CFloat (V : Type) where
  neg : V → Bool
  finite : V → Bool
  mag : Conv → V → List Nat

/-- What `printf` makes of a value: the sign, then the magnitude. -/
def CFloat.printf {V : Type} (c : CFloat V) (cv : Conv) (v : V) : List Nat :=
  (if c.neg v then [0x2d] else if cv.plus then [0x2b] else []) ++ c.mag { cv with plus := false } v

/-- The bits of `std::ios_base::fmtflags` that the formatter touches. -/
structure Flags where
  showpos : Bool := false
  showpoint : Bool := false
  uppercase : Bool := false
  left : Bool := false
  right : Bool := false
  internal : Bool := false
  fixed : Bool := false
  scientific : Bool := false
deriving DecidableEq, Repr

/-- The part of a `std::locale` an insertion looks at: the decimal point, the insertion of digit separators, and
whether the `ctype` facet is `PositivePaddingFacet` (stream_util.hpp 102-118). -/
structure Loc where
  point : Nat := 0x2e
  group : List Nat → List Nat := id
  padded : Bool := false

/-- `PositivePaddingFacet::do_widen` (stream_util.hpp 200-219), or the one of the classic facet. -/
def Loc.widen (l : Loc) (c : Nat) : Nat := if l.padded ∧ c = 0x2b then 0x20 else c

/-- The thread's `std::stringstream` (formatters.hpp 667): its buffer, its formatting state and its bad bit. -/
structure Stream where
  buf : List Nat := []
  flags : Flags := {}
  loc : Loc := {}
  fill : Nat := 0x20
  width : Int := 0
  prec : Int := 6
  bad : Bool := false

/-- `ScopedStreamModifiers` (stream_util.hpp 77-99): what the constructor stored, and what was changed. -/
structure Mods where
  flags : Flags
  chFlags : Bool := false
  loc : Loc
  chLoc : Bool := false
  fill : Nat
  chFill : Bool := false
  width : Int
  chWidth : Bool := false
  prec : Int
  chPrec : Bool := false

/-- A stream with its guard. -/
structure Guarded where
  st : Stream
  m : Mods

/-- The constructor (stream_util.hpp 122-131). -/
def guard (st : Stream) : Guarded :=
  ⟨st, { flags := st.flags, loc := st.loc, fill := st.fill, width := st.width, prec := st.prec }⟩

/-- The destructor (stream_util.hpp 134-156). -/
def Guarded.release (g : Guarded) : Stream :=
  let s := g.st
  let s := if g.m.chFlags then { s with flags := g.m.flags } else s
  let s := if g.m.chLoc then { s with loc := g.m.loc } else s
  let s := if g.m.chFill then { s with fill := g.m.fill } else s
  let s := if g.m.chWidth then { s with width := g.m.width } else s
  if g.m.chPrec then { s with prec := g.m.prec } else s

/-- `setf` (stream_util.hpp 159-170), with or without a mask: `f` is what happens to the flags. -/
def Guarded.setf (g : Guarded) (f : Flags → Flags) : Guarded :=
  ⟨{ g.st with flags := f g.st.flags }, { g.m with chFlags := true }⟩

/-- `locale<PositivePaddingFacet>` (stream_util.hpp 173-178). -/
def Guarded.locale (g : Guarded) : Guarded :=
  ⟨{ g.st with loc := { g.st.loc with padded := true } }, { g.m with chLoc := true }⟩

/-- `fill` (stream_util.hpp 181-185). -/
def Guarded.fill (g : Guarded) (c : Nat) : Guarded :=
  ⟨{ g.st with fill := c }, { g.m with chFill := true }⟩

/-- `width` (stream_util.hpp 188-192). -/
def Guarded.width (g : Guarded) (n : Int) : Guarded :=
  ⟨{ g.st with width := n }, { g.m with chWidth := true }⟩

/-- `precision` (stream_util.hpp 195-199). -/
def Guarded.precision (g : Guarded) (n : Int) : Guarded :=
  ⟨{ g.st with prec := n }, { g.m with chPrec := true }⟩

/-- `static_cast<std::streamsize>` of a `std::size_t` (formatters.hpp 699 and 702). -/
def streamsize (n : Nat) : Int := Int.bmod n (2 ^ 64)

/-- First stage of an insertion: the conversion specification of the stream's state
([facet.num.put.virtuals], tables 98 to 100). -/
def convOf (f : Flags) (prec : Int) : Conv :=
  { plus := f.showpos
    alt := f.showpoint
    upper := f.uppercase
    kind := if f.fixed then (if f.scientific then .a else .f) else if f.scientific then .e else .g
    prec := if f.fixed ∧ f.scientific then none else some prec }

/-- Second stage: every character is widened, the point becomes the one of the locale, separators are put in. -/
def localize (l : Loc) (t : List Nat) : List Nat :=
  l.group (t.map fun c => if c = 0x2e then l.point else l.widen c)

/-- How many characters stay before the padding of an internal adjustment: the sign, or else `0x`. -/
def internalAt (t : List Nat) : Nat :=
  match t with
  | c :: r =>
    if c = 0x2d ∨ c = 0x2b then 1
    else if c = 0x30 ∧ (r.head? = some 0x78 ∨ r.head? = some 0x58) then 2
    else 0
  | [] => 0

/-- Third stage: padding to the width of the stream. `raw` is the text of the first stage. -/
def adjust (st : Stream) (raw t : List Nat) : List Nat :=
  let pad := List.replicate (st.width - t.length).toNat st.fill
  if st.flags.left then t ++ pad
  else if st.flags.internal then t.take (internalAt raw) ++ pad ++ t.drop (internalAt raw)
  else pad ++ t

/-- What may go wrong in a call: memory runs out in the insertion, or in what follows it. -/
inductive Fault where
  | none
  | insert
  | output
deriving DecidableEq, Repr

/-- `s_stream << value` (formatters.hpp 736). The insertion sets the width back to 0; if it fails, the stream
goes bad, and a bad stream takes nothing. -/
def insert {V : Type} (c : CFloat V) (fault : Fault) (st : Stream) (v : V) : Stream :=
  if st.bad then st
  else if fault = .insert then { st with bad := true }
  else
    let raw := c.printf (convOf st.flags st.prec) v
    { st with buf := st.buf ++ adjust st raw (localize st.loc raw), width := 0 }

/-- The `switch` on the sign (formatters.hpp 675-688). -/
def setSign (s : FSpec) (g : Guarded) : Guarded :=
  match s.sign with
  | .always => g.setf fun f => { f with showpos := true }
  | .positivePadding => g.locale.setf fun f => { f with showpos := true }
  | _ => g

/-- The alternate form (formatters.hpp 690-693). -/
def setAlt (s : FSpec) (g : Guarded) : Guarded :=
  if s.alt then g.setf fun f => { f with showpoint := true } else g

/-- Zero padding (formatters.hpp 695-700). -/
def setZero (s : FSpec) (ps : List Param) (g : Guarded) : Guarded :=
  if s.zero then
    ((g.setf fun f => { f with left := false, right := false, internal := true }).fill 0x30).width
      (streamsize (s.widthOf ps 0))
  else g

/-- The presentation type (formatters.hpp 706-727). -/
def setKind (s : FSpec) (finite : Bool) (g : Guarded) : Guarded :=
  match s.kind with
  | .hexFloat => g.setf fun f => { f with fixed := true, scientific := true }
  | .scientific => g.setf fun f => { f with fixed := false, scientific := true }
  | .fixed => if finite then g.setf fun f => { f with fixed := true, scientific := false } else g
  | _ => g

/-- The case (formatters.hpp 729-732). -/
def setCase (s : FSpec) (g : Guarded) : Guarded :=
  if s.upper then g.setf fun f => { f with uppercase := true } else g

/-- The changes a call makes to the stream (formatters.hpp 668-732). -/
def prepare (s : FSpec) (ps : List Param) (finite : Bool) (st : Stream) : Guarded :=
  setCase s (setKind s finite
    ((setZero s ps (setAlt s (setSign s (guard st)))).precision (streamsize (s.precisionOf ps 6))))

/-- The specifier the string formatter gets (formatters.hpp 670-673, 703-704, 738): aligned to the right by
default, and without a precision. -/
def stringSpec (s : FSpec) : FSpec :=
  { s with align := (if s.align = .default then .right else s.align), prec := none, precPos := none }

/-- `Formatter<float>::format` without `std::to_chars` (formatters.hpp 664-742), for a format string of `char`:
what is written (nothing if an exception leaves the call) and the stream of the thread after it. -/
def format {V : Type} (c : CFloat V) (fault : Fault) (s : FSpec) (ps : List Param) (v : V) (st : Stream) :
    Option (List Nat) × Stream :=
  let g := prepare s ps (c.finite v) st
  let g := { g with st := insert c fault g.st v }
  if fault = .output then (none, g.release)
  else
    let out := formatString (stringSpec s) ps g.st.buf
    (some out, { g with st := { g.st with buf := [] } }.release)

/-- One call: the replacement field, the parameters, the value, and what goes wrong. -/
structure Call (V : Type) where
  s : FSpec
  ps : List Param
  v : V
  fault : Fault := .none

/-- The calls of a thread, one after another, on its stream. -/
def calls {V : Type} (c : CFloat V) : Stream → List (Call V) → List (Option (List Nat)) × Stream
  | st, [] => ([], st)
  | st, k :: r =>
    let a := format c k.fault k.s k.ps k.v st
    let b := calls c a.2 r
    (a.1 :: b.1, b.2)

/-! ## Specification -/

/-- What the C standard says of `printf`: an infinity or a NaN looks the same with `%f` as with `%g`; a
magnitude starts with neither sign, and with `0x` only in `%a` (for values that are not hexadecimal). -/
structure CFloat.Standard {V : Type} (c : CFloat V) : Prop where
  special : ∀ (cv : Conv) v, c.finite v = false →
    c.mag { cv with kind := .f } v = c.mag { cv with kind := .g } v
  unsigned : ∀ cv v, (c.mag cv v).head? ≠ some 0x2d ∧ (c.mag cv v).head? ≠ some 0x2b
  decimal : ∀ cv v, cv.kind ≠ .a → ∀ r, c.mag cv v ≠ 0x30 :: 0x78 :: r ∧ c.mag cv v ≠ 0x30 :: 0x58 :: r

/-- The conversion that a replacement field asks for: `#`, upper case, the letter of the presentation type, and
the precision (6 where none is given; `%a` without a precision shows the exact value). -/
def documented (s : FSpec) (ps : List Param) : Conv :=
  { alt := s.alt
    upper := s.upper
    kind := (match s.kind with
      | .hexFloat => .a
      | .scientific => .e
      | .fixed => .f
      | _ => .g)
    prec :=
      if s.kind = .hexFloat ∧ s.prec = none ∧ s.precPos = none then none else some (s.precisionOf ps 6 : Nat) }

/-- What a replacement field should become: the sign and the magnitude, with zeros between them up to the width
if asked, otherwise filled up to the width, on the left by default. -/
def Shows {V : Type} (c : CFloat V) (k : Call V) (out : List Nat) : Prop :=
  let sign := signText k.s (c.neg k.v)
  let body := c.mag (documented k.s k.ps) k.v
  if k.s.zero then
    out = sign ++ List.replicate (k.s.widthOf k.ps 0 - (sign ++ body).length) 0x30 ++ body
  else Padded (k.s.fill.getD 0x20) (k.s.align.or .right) (k.s.widthOf k.ps 0) (sign ++ body) out

/-- The calls the property covers: nothing goes wrong; the width, the precision and the text fit a `std::streamsize`;
zero padding comes without an alignment, which is what the parser sees to; hexadecimal only without zero
padding and precision; a space for the sign only where no other `+` is in the text. -/
structure Call.Ok {V : Type} (c : CFloat V) (k : Call V) : Prop where
  fault : k.fault = .none
  width : k.s.widthOf k.ps 0 < 2 ^ 63
  size : (c.mag (documented k.s k.ps) k.v).length < 2 ^ 63
  prec : k.s.precisionOf k.ps 6 < 2 ^ 63
  zero : k.s.zero = true → k.s.align = .default ∧ k.s.kind ≠ .hexFloat
  hex : k.s.kind = .hexFloat → k.s.prec = none ∧ k.s.precPos = none
  space : k.s.sign = .positivePadding → 0x2b ∉ c.mag (documented k.s k.ps) k.v

/-! ## Proofs -/

/-- The guard knows the state `st` of the stream it was made for, and what differs from it. -/
structure Inv (st : Stream) (g : Guarded) : Prop where
  flags : g.m.flags = st.flags ∧ (g.m.chFlags = false → g.st.flags = st.flags)
  loc : g.m.loc = st.loc ∧ (g.m.chLoc = false → g.st.loc = st.loc)
  fill : g.m.fill = st.fill ∧ (g.m.chFill = false → g.st.fill = st.fill)
  width : g.m.width = st.width ∧ (g.m.chWidth = false → g.st.width = st.width)
  prec : g.m.prec = st.prec ∧ (g.m.chPrec = false → g.st.prec = st.prec)
  rest : g.st.buf = st.buf ∧ g.st.bad = st.bad

theorem inv_guard (st : Stream) : Inv st (guard st) := by
  exact ⟨⟨rfl, fun _ => rfl⟩, ⟨rfl, fun _ => rfl⟩, ⟨rfl, fun _ => rfl⟩, ⟨rfl, fun _ => rfl⟩,
    ⟨rfl, fun _ => rfl⟩, rfl, rfl⟩

theorem inv_setf {st : Stream} {g : Guarded} (h : Inv st g) (f : Flags → Flags) : Inv st (g.setf f) :=
  ⟨⟨h.flags.1, fun h => nomatch h⟩, h.loc, h.fill, h.width, h.prec, h.rest⟩

theorem inv_locale {st : Stream} {g : Guarded} (h : Inv st g) : Inv st g.locale :=
  ⟨h.flags, ⟨h.loc.1, fun h => nomatch h⟩, h.fill, h.width, h.prec, h.rest⟩

theorem inv_fill {st : Stream} {g : Guarded} (h : Inv st g) (n : Nat) : Inv st (g.fill n) :=
  ⟨h.flags, h.loc, ⟨h.fill.1, fun h => nomatch h⟩, h.width, h.prec, h.rest⟩

theorem inv_width {st : Stream} {g : Guarded} (h : Inv st g) (n : Int) : Inv st (g.width n) :=
  ⟨h.flags, h.loc, h.fill, ⟨h.width.1, fun h => nomatch h⟩, h.prec, h.rest⟩

theorem inv_precision {st : Stream} {g : Guarded} (h : Inv st g) (n : Int) : Inv st (g.precision n) :=
  ⟨h.flags, h.loc, h.fill, h.width, ⟨h.prec.1, fun h => nomatch h⟩, h.rest⟩

theorem inv_prepare (s : FSpec) (ps : List Param) (fin : Bool) (st : Stream) : Inv st (prepare s ps fin st) := by
  have h1 : Inv st (setSign s (guard st)) := by
    unfold setSign
    split
    · exact inv_setf (inv_guard st) _
    · exact inv_setf (inv_locale (inv_guard st)) _
    · exact inv_guard st
  have h2 : Inv st (setAlt s (setSign s (guard st))) := by
    unfold setAlt
    split
    · exact inv_setf h1 _
    · exact h1
  have h3 : Inv st (setZero s ps (setAlt s (setSign s (guard st)))) := by
    unfold setZero
    split
    · exact inv_width (inv_fill (inv_setf h2 _) _) _
    · exact h2
  have h4 : Inv st (setKind s fin ((setZero s ps (setAlt s (setSign s (guard st)))).precision
      (streamsize (s.precisionOf ps 6)))) := by
    have h4 := inv_precision h3 (streamsize (s.precisionOf ps 6))
    unfold setKind
    split
    · exact inv_setf h4 _
    · exact inv_setf h4 _
    · split
      · exact inv_setf h4 _
      · exact h4
    · exact h4
  unfold prepare setCase
  split
  · exact inv_setf h4 _
  · exact h4

/-- The destructor gives the stream its state back, but for a width that the insertion reset. -/
theorem release_eq {st : Stream} {g : Guarded} (h : Inv st g) (buf : List Nat) (w : Int) (bad : Bool)
    (hw : g.m.chWidth = false → w = st.width) :
    Guarded.release { g with st := { g.st with buf := buf, width := w, bad := bad } } =
      { st with buf := buf, bad := bad } := by
  obtain ⟨⟨b, f, l, fi, wi, p, bd⟩, ⟨mf, cf, ml, cl, mfi, cfi, mw, cw, mp, cp⟩⟩ := g
  obtain ⟨⟨rfl, h1⟩, ⟨rfl, h2⟩, ⟨rfl, h3⟩, ⟨rfl, h4⟩, ⟨rfl, h5⟩, h6⟩ := h
  simp only at h1 h2 h3 h4 h5 h6 hw
  unfold Guarded.release
  cases cf <;> cases cl <;> cases cfi <;> cases cw <;> cases cp <;> simp_all

/-- What a call does to the state of the stream, whatever the state was and whether or not the call succeeds. -/
theorem format_state {V : Type} (c : CFloat V) (fault : Fault) (s : FSpec) (ps : List Param) (v : V)
    (st : Stream) (hw : st.width = 0) :
    ∃ buf bad, (format c fault s ps v st).2 = { st with buf := buf, bad := bad } := by
  have hi := inv_prepare s ps (c.finite v) st
  have hx : ∃ buf w bad, insert c fault (prepare s ps (c.finite v) st).st v =
      { (prepare s ps (c.finite v) st).st with buf := buf, width := w, bad := bad } ∧
      ((prepare s ps (c.finite v) st).m.chWidth = false → w = st.width) := by
    unfold insert
    split
    · exact ⟨_, _, _, rfl, fun h => hi.width.2 h⟩
    · split
      · exact ⟨_, _, _, rfl, fun h => hi.width.2 h⟩
      · exact ⟨_, 0, _, rfl, fun _ => hw.symm⟩
  obtain ⟨buf, w, bad, hx, hcw⟩ := hx
  unfold format
  simp only [hx]
  split
  · exact ⟨buf, bad, release_eq hi buf w bad hcw⟩
  · exact ⟨[], bad, release_eq hi [] w bad hcw⟩

theorem prepare_aux (s : FSpec) (fin : Bool) (wd pr : Int) :
    (setCase s (setKind s fin ((if s.zero = true then
      (((setAlt s (setSign s (guard {}))).setf fun f => { f with left := false, right := false, internal := true }).fill
        0x30).width wd
      else setAlt s (setSign s (guard {}))).precision pr))).st =
      { flags :=
          { showpos := s.sign = .always || s.sign = .positivePadding
            showpoint := s.alt
            uppercase := s.upper
            internal := s.zero
            fixed := s.kind = .hexFloat || (s.kind = .fixed && fin)
            scientific := s.kind = .hexFloat || s.kind = .scientific }
        loc := { padded := s.sign = .positivePadding }
        fill := if s.zero then 0x30 else 0x20
        width := if s.zero then wd else 0
        prec := pr } := by
  have h1 : (setSign s (guard {})).st =
      { flags := { showpos := s.sign = .always || s.sign = .positivePadding }
        loc := { padded := s.sign = .positivePadding } } := by
    unfold setSign
    cases s.sign <;> rfl
  have h2 : ∀ g : Guarded, g.st.flags.showpoint = false →
      (setAlt s g).st = { g.st with flags := { g.st.flags with showpoint := s.alt } } := by
    rintro ⟨⟨b, ⟨f1, f2, f3, f4, f5, f6, f7, f8⟩, l, fi, w, p, bad⟩, m⟩ rfl
    unfold setAlt
    cases s.alt <;> rfl
  have h3 : ∀ g : Guarded, g.st.flags.left = false → g.st.flags.right = false → g.st.flags.internal = false →
      g.st.fill = 0x20 → g.st.width = 0 → (if s.zero = true then
          ((g.setf fun f => { f with left := false, right := false, internal := true }).fill 0x30).width wd
        else g).st =
        { g.st with
          flags := { g.st.flags with internal := s.zero }
          fill := if s.zero then 0x30 else 0x20
          width := if s.zero then wd else 0 } := by
    rintro ⟨⟨b, ⟨f1, f2, f3, f4, f5, f6, f7, f8⟩, l, fi, w, p, bad⟩, m⟩ rfl rfl rfl rfl rfl
    cases s.zero <;> rfl
  have h4 : ∀ g : Guarded, g.st.flags.fixed = false → g.st.flags.scientific = false →
      (setKind s fin g).st =
        { g.st with
          flags := { g.st.flags with
            fixed := s.kind = .hexFloat || (s.kind = .fixed && fin)
            scientific := s.kind = .hexFloat || s.kind = .scientific } } := by
    rintro ⟨⟨b, ⟨f1, f2, f3, f4, f5, f6, f7, f8⟩, l, fi, w, p, bad⟩, m⟩ rfl rfl
    unfold setKind
    cases s.kind <;> cases fin <;> rfl
  have h5 : ∀ g : Guarded, g.st.flags.uppercase = false →
      (setCase s g).st = { g.st with flags := { g.st.flags with uppercase := s.upper } } := by
    rintro ⟨⟨b, ⟨f1, f2, f3, f4, f5, f6, f7, f8⟩, l, fi, w, p, bad⟩, m⟩ rfl
    unfold setCase
    cases s.upper <;> rfl
  have a2 := h2 _ (by rw [h1])
  rw [h1] at a2
  have a3 := h3 _ (by rw [a2]) (by rw [a2]) (by rw [a2]) (by rw [a2]) (by rw [a2])
  rw [a2] at a3
  have a3' : ∀ g : Guarded, (g.precision pr).st = { g.st with prec := pr } := fun _ => rfl
  have a3'' := a3' (if s.zero = true then
    (((setAlt s (setSign s (guard {}))).setf fun f => { f with left := false, right := false, internal := true }).fill
      0x30).width wd
    else setAlt s (setSign s (guard {})))
  rw [a3] at a3''
  have a4 := h4 _ (by rw [a3'']) (by rw [a3''])
  rw [a3''] at a4
  have a5 := h5 _ (by rw [a4])
  rw [a4] at a5
  exact a5

/-- The state of a fresh stream when the value is inserted. -/
theorem prepare_fresh (s : FSpec) (ps : List Param) (fin : Bool) :
    (prepare s ps fin {}).st =
      { flags :=
          { showpos := s.sign = .always || s.sign = .positivePadding
            showpoint := s.alt
            uppercase := s.upper
            internal := s.zero
            fixed := s.kind = .hexFloat || (s.kind = .fixed && fin)
            scientific := s.kind = .hexFloat || s.kind = .scientific }
        loc := { padded := s.sign = .positivePadding }
        fill := if s.zero then 0x30 else 0x20
        width := if s.zero then streamsize (s.widthOf ps 0) else 0
        prec := streamsize (s.precisionOf ps 6) } :=
  prepare_aux s fin (streamsize (s.widthOf ps 0)) (streamsize (s.precisionOf ps 6))

theorem streamsize_small {n : Nat} (h : n < 2 ^ 63) : streamsize n = n := by
  unfold streamsize
  exact Int.bmod_eq_of_le (by omega) (by omega)

/-- The conversion made on a fresh stream is the documented one. -/
theorem conv_documented {V : Type} {c : CFloat V} (hc : c.Standard) {k : Call V} (ok : k.Ok c) :
    let f := (prepare k.s k.ps (c.finite k.v) {}).st
    c.mag { convOf f.flags f.prec with plus := false } k.v = c.mag (documented k.s k.ps) k.v ∧
    (convOf f.flags f.prec).plus = (k.s.sign = .always || k.s.sign = .positivePadding) := by
  intro f
  have hp := streamsize_small ok.prec
  have hh := ok.hex
  refine ⟨?_, by rw [show f = _ from prepare_fresh ..]; rfl⟩
  rw [show f = _ from prepare_fresh ..]
  simp only [convOf, hp]
  by_cases hf : k.s.kind = .fixed
  · cases hfin : c.finite k.v with
    | true => simp [documented, hf]
    | false =>
      have := hc.special { alt := k.s.alt, upper := k.s.upper, prec := some (k.s.precisionOf k.ps 6 : Nat) } k.v hfin
      simp [documented, hf]
      exact this.symm
  · cases hk : k.s.kind <;> simp_all [documented]

theorem take_sign (k : FSpec) (neg : Bool) (body : List Nat) (h1 : body.head? ≠ some 0x2d)
    (h2 : body.head? ≠ some 0x2b) (h3 : ∀ r, body ≠ 0x30 :: 0x78 :: r ∧ body ≠ 0x30 :: 0x58 :: r) :
    internalAt ((if neg then [0x2d] else if (k.sign = .always || k.sign = .positivePadding) then [0x2b] else [])
      ++ body) = (signText k neg).length := by
  have hb : internalAt body = 0 := by
    unfold internalAt
    match body, h1, h2, h3 with
    | [], _, _, _ => rfl
    | [x], h1, h2, _ => simp_all
    | x :: y :: r, h1, h2, h3 =>
      have h3 := h3 r
      simp at h1 h2 h3 ⊢
      simp [h1, h2]
      intro hx
      have := h3.1 hx
      have := h3.2 hx
      simp_all
  unfold signText
  cases neg <;> cases k.sign <;> first | exact hb | simp [internalAt]

/-- The text that a call leaves in a fresh stream. -/
theorem insert_fresh {V : Type} {c : CFloat V} (hc : c.Standard) {k : Call V} (ok : k.Ok c) :
    ∃ w, insert c .none (prepare k.s k.ps (c.finite k.v) {}).st k.v =
      { (prepare k.s k.ps (c.finite k.v) {}).st with
        buf := signText k.s (c.neg k.v) ++
          (if k.s.zero then List.replicate (k.s.widthOf k.ps 0 -
            (signText k.s (c.neg k.v) ++ c.mag (documented k.s k.ps) k.v).length) 0x30 else []) ++
          c.mag (documented k.s k.ps) k.v
        width := w } ∧ w = 0 := by
  obtain ⟨hmag, hplus⟩ := conv_documented hc ok
  refine ⟨0, ?_, rfl⟩
  have hi := inv_prepare k.s k.ps (c.finite k.v) {}
  generalize hraw : c.printf (convOf (prepare k.s k.ps (c.finite k.v) {}).st.flags
    (prepare k.s k.ps (c.finite k.v) {}).st.prec) k.v = raw
  have hraw' : raw = (if c.neg k.v then [0x2d] else
      if (k.s.sign = .always || k.s.sign = .positivePadding) then [0x2b] else []) ++
      c.mag (documented k.s k.ps) k.v := by
    rw [← hraw]
    unfold CFloat.printf
    rw [hmag, hplus]
  unfold insert
  rw [if_neg (by rw [hi.rest.2]; simp), if_neg (by simp)]
  simp only [hraw, show (prepare k.s k.ps (c.finite k.v) {}).st.buf = [] from hi.rest.1, List.nil_append]
  refine congrArg (fun b => ({ (prepare k.s k.ps (c.finite k.v) {}).st with buf := b, width := 0 } : Stream)) ?_
  have hloc : (prepare k.s k.ps (c.finite k.v) {}).st.loc = { padded := k.s.sign = .positivePadding } := by
    rw [prepare_fresh]
  have hl : localize (prepare k.s k.ps (c.finite k.v) {}).st.loc raw =
      signText k.s (c.neg k.v) ++ c.mag (documented k.s k.ps) k.v := by
    rw [hloc, hraw']
    unfold localize
    have hbody : ∀ t : List Nat, (k.s.sign = .positivePadding → 0x2b ∉ t) →
        t.map (fun x => if x = 0x2e then 0x2e else
          ({ padded := k.s.sign = .positivePadding } : Loc).widen x) = t := by
      intro t ht
      conv => rhs; rw [← List.map_id t]
      apply List.map_congr_left
      intro x hx
      unfold Loc.widen
      by_cases hs : k.s.sign = .positivePadding
      · have : x ≠ 0x2b := fun h => ht hs (h ▸ hx)
        simp [this]
        omega
      · simp [hs]
        omega
    simp only [id, List.map_append]
    rw [hbody _ ok.space]
    congr 1
    unfold signText Loc.widen
    cases c.neg k.v <;> cases k.s.sign <;> rfl
  rw [hl]
  unfold adjust
  have hfl : (prepare k.s k.ps (c.finite k.v) {}).st.flags.left = false := by rw [prepare_fresh]
  have hin : (prepare k.s k.ps (c.finite k.v) {}).st.flags.internal = k.s.zero := by rw [prepare_fresh]
  have hfill : (prepare k.s k.ps (c.finite k.v) {}).st.fill = if k.s.zero then 0x30 else 0x20 := by
    rw [prepare_fresh]
  have hwid : (prepare k.s k.ps (c.finite k.v) {}).st.width =
      if k.s.zero then streamsize (k.s.widthOf k.ps 0) else 0 := by rw [prepare_fresh]
  rw [hfl, hin, hfill, hwid, streamsize_small ok.width]
  cases hz : k.s.zero with
  | false =>
    simp
    omega
  | true =>
    have hk : (documented k.s k.ps).kind ≠ .a := by
      have := (ok.zero hz).2
      unfold documented
      cases hk : k.s.kind <;> simp_all
    rw [hraw', take_sign k.s (c.neg k.v) _ (hc.unsigned _ _).1 (hc.unsigned _ _).2 (hc.decimal _ _ hk)]
    simp
    congr 1
    omega

/-- One call on a fresh stream writes what its replacement field asks for, and leaves the stream fresh. -/
theorem format_fresh {V : Type} {c : CFloat V} (hc : c.Standard) {k : Call V} (ok : k.Ok c) :
    ∃ out, format c k.fault k.s k.ps k.v {} = (some out, {}) ∧ Shows c k out := by
  have hi := inv_prepare k.s k.ps (c.finite k.v) {}
  obtain ⟨w, hins, rfl⟩ := insert_fresh hc ok
  generalize hbuf : signText k.s (c.neg k.v) ++ (if k.s.zero then List.replicate (k.s.widthOf k.ps 0 -
    (signText k.s (c.neg k.v) ++ c.mag (documented k.s k.ps) k.v).length) 0x30 else []) ++
    c.mag (documented k.s k.ps) k.v = buf at hins
  refine ⟨formatString (stringSpec k.s) k.ps buf, ?_, ?_⟩
  · unfold format
    rw [ok.fault]
    simp only [hins]
    rw [if_neg (by simp)]
    exact congrArg (fun x => (some (formatString (stringSpec k.s) k.ps buf), x))
      (release_eq hi [] 0 (prepare k.s k.ps (c.finite k.v) {}).st.bad (fun _ => rfl) |>.trans (by rw [hi.rest.2]))
  · have hp := padded_precision (s := stringSpec k.s) (ps := k.ps) (v := buf)
    have hsl : (signText k.s (c.neg k.v)).length ≤ 1 := by
      unfold signText
      cases c.neg k.v <;> cases k.s.sign <;> simp
    have hlen : buf.length ≤ 2 ^ 64 - 1 := by
      have h1 := ok.size
      have h2 := ok.width
      rw [← hbuf]
      simp only [List.length_append]
      split <;> simp <;> omega
    have ht : buf.take ((stringSpec k.s).precisionOf k.ps (2 ^ 64 - 1)) = buf :=
      List.take_of_length_le hlen
    rw [ht] at hp
    have hw : (stringSpec k.s).widthOf k.ps 0 = k.s.widthOf k.ps 0 := rfl
    have ha : (stringSpec k.s).align.or .left = k.s.align.or .right := by
      unfold stringSpec
      cases k.s.align <;> rfl
    rw [hw, ha] at hp
    unfold Shows
    simp only
    cases hz : k.s.zero with
    | false =>
      rw [hz] at hbuf
      simp only [Bool.false_eq_true, if_false, List.append_nil] at hbuf ⊢
      rw [hbuf]
      exact hp
    | true =>
      rw [hz] at hbuf
      simp only [if_true] at hbuf ⊢
      obtain ⟨l, r, ho, hlr, -⟩ := hp
      have : l = 0 ∧ r = 0 := by
        have : k.s.widthOf k.ps 0 - buf.length = 0 := by
          rw [← hbuf]
          simp only [List.length_append, List.length_replicate]
          omega
        omega
      rw [ho, this.1, this.2, ← hbuf]
      simp

/-- C127, the part that holds: on a thread where nothing has gone wrong and the locale is the classic one,
every call writes what its own replacement field asks for, whatever was formatted before. -/
theorem stream_format_partial {V : Type} {c : CFloat V} (hc : c.Standard) (ks : List (Call V))
    (ok : ∀ k ∈ ks, k.Ok c) (i : Nat) (k : Call V) (hk : ks[i]? = some k) :
    ∃ out, (calls c {} ks).1[i]? = some (some out) ∧ Shows c k out := by
  induction ks generalizing i with
  | nil => simp at hk
  | cons a r ih =>
    obtain ⟨out, ho, hs⟩ := format_fresh hc (ok a (by simp))
    unfold calls
    simp only [ho]
    cases i with
    | zero =>
      simp at hk
      subst hk
      exact ⟨out, by simp, hs⟩
    | succ i =>
      simp at hk
      simpa using ih (fun k hk => ok k (by simp [hk])) i hk

/-- C127: whatever a call does, and even if an exception leaves it, the flags, the locale, the fill character, the
width and the precision of the stream are afterwards what they were. -/
theorem stream_state {V : Type} (c : CFloat V) (ks : List (Call V)) (st : Stream) (hw : st.width = 0) :
    ∃ buf bad, (calls c st ks).2 = { st with buf := buf, bad := bad } := by
  induction ks generalizing st with
  | nil => exact ⟨st.buf, st.bad, rfl⟩
  | cons a r ih =>
    obtain ⟨buf, bad, h⟩ := format_state c a.fault a.s a.ps a.v st hw
    obtain ⟨buf', bad', h'⟩ := ih (format c a.fault a.s a.ps a.v st).2 (by rw [h]; exact hw)
    exact ⟨buf', bad', by unfold calls; simp only [h] at h' ⊢; exact h'⟩

/-- C127: of the documented conversions of 1.5 and -1.5, as the C library makes them. -/
def sample : CFloat Bool where
  neg v := v
  finite _ := true
  mag cv _ :=
    match cv.kind with
    | .a => if cv.prec = some 0 then [0x30, 0x78, 0x32, 0x70, 0x2b, 0x30]
            else [0x30, 0x78, 0x31, 0x2e, 0x38, 0x70, 0x2b, 0x30]
    | .e => [0x31, 0x2e, 0x35, 0x65, 0x2b, 0x30, 0x30]
    | .f => [0x31, 0x2e, 0x35, 0x30]
    | .g => [0x31, 0x2e, 0x35]

theorem sample_standard : sample.Standard where
  special := by intro cv v h; simp [sample] at h
  unsigned := by
    intro cv v
    unfold sample
    obtain ⟨p, al, u, kd, pr⟩ := cv
    cases kd <;> simp
    by_cases h : pr = some 0 <;> simp [h]
  decimal := by
    intro cv v h r
    unfold sample
    cases hk : cv.kind <;> simp_all

example : ∀ k ∈ ([⟨{ kind := .scientific, sign := .always, zero := true, width := some 10 }, [], true, .none⟩,
    ⟨{ kind := .general, sign := .positivePadding, width := some 6, align := .center }, [], false, .none⟩,
    ⟨{ kind := .fixed }, [], false, .none⟩] : List (Call Bool)), k.Ok sample := by
  intro k hk
  simp at hk
  rcases hk with rfl | rfl | rfl <;> constructor <;> decide

example : (calls sample {} [⟨{ kind := .scientific, sign := .always, zero := true, width := some 10 }, [], true, .none⟩,
    ⟨{ kind := .general, sign := .positivePadding, width := some 6, align := .center }, [], false, .none⟩]).1 =
    [some [0x2d, 0x30, 0x30, 0x31, 0x2e, 0x35, 0x65, 0x2b, 0x30, 0x30],
     some [0x20, 0x20, 0x31, 0x2e, 0x35, 0x20]] := by decide +kernel

/-- C127 fails:
1. with a space for the sign, every `+` of the text becomes a space, also the one of the exponent;
2. a precision of the hexadecimal presentation is ignored;
3. zero padding of a hexadecimal value goes between `0x` and the digits;
4. after a call that an exception left behind the insertion, the next text starts with the one left over;
5. after an insertion that ran out of memory, every later value of the thread is written as nothing;
6. the decimal point is the one of the global locale when the thread formatted its first value, although the
   locale is not asked for. -/
theorem stream_format_violated :
    (∃ out, (calls sample {} [⟨{ kind := .scientific, sign := .positivePadding }, [], false, .none⟩]).1 = [some out] ∧
      out = [0x20, 0x31, 0x2e, 0x35, 0x65, 0x20, 0x30, 0x30] ∧
      ¬ Shows sample ⟨{ kind := .scientific, sign := .positivePadding }, [], false, .none⟩ out) ∧
    (∃ out, (calls sample {} [⟨{ kind := .hexFloat, prec := some 0 }, [], false, .none⟩]).1 = [some out] ∧
      ¬ Shows sample ⟨{ kind := .hexFloat, prec := some 0 }, [], false, .none⟩ out) ∧
    (∃ out, (calls sample {} [⟨{ kind := .hexFloat, zero := true, width := some 10 }, [], false, .none⟩]).1 = [some out] ∧
      ¬ Shows sample ⟨{ kind := .hexFloat, zero := true, width := some 10 }, [], false, .none⟩ out) ∧
    (∃ out, (calls sample {} [⟨{ kind := .general }, [], true, .output⟩,
        ⟨{ kind := .general }, [], false, .none⟩]).1 = [none, some out] ∧
      out = [0x2d, 0x31, 0x2e, 0x35, 0x31, 0x2e, 0x35] ∧
      ¬ Shows sample ⟨{ kind := .general }, [], false, .none⟩ out) ∧
    (∃ r, (calls sample {} [⟨{ kind := .general }, [], true, .insert⟩,
        ⟨{ kind := .general }, [], false, .none⟩]).1 = [r, some []] ∧
      ¬ Shows sample ⟨{ kind := .general }, [], false, .none⟩ []) ∧
    (∃ out, (calls sample { loc := { point := 0x2c } } [⟨{ kind := .general }, [], false, .none⟩]).1 = [some out] ∧
      out = [0x31, 0x2c, 0x35] ∧ ¬ Shows sample ⟨{ kind := .general }, [], false, .none⟩ out) := by
  have key : ∀ (k : Call Bool) (out : List Nat), k.s.zero = false → k.s.widthOf k.ps 0 = 0 →
      out ≠ signText k.s (sample.neg k.v) ++ sample.mag (documented k.s k.ps) k.v → ¬ Shows sample k out := by
    intro k out hz hw hne h
    unfold Shows at h
    simp only [hz, Bool.false_eq_true, if_false] at h
    obtain ⟨l, r, ho, hlr, -⟩ := h
    rw [hw] at hlr
    have : l = 0 ∧ r = 0 := by omega
    rw [this.1, this.2] at ho
    simp at ho
    exact hne ho
  refine ⟨⟨_, rfl, by decide +kernel, key _ _ rfl rfl (by decide +kernel)⟩,
    ⟨_, rfl, key _ _ rfl rfl (by decide +kernel)⟩,
    ⟨_, rfl, ?_⟩,
    ⟨_, rfl, by decide +kernel, key _ _ rfl rfl (by decide +kernel)⟩,
    ⟨_, rfl, key _ _ rfl rfl (by decide +kernel)⟩,
    ⟨_, rfl, by decide +kernel, key _ _ rfl rfl (by decide +kernel)⟩⟩
  intro h
  unfold Shows at h
  simp only [if_true] at h
  exact absurd h (by decide +kernel)

end StreamFloat

end Verif.Format
