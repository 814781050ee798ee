import Verif.Styler.Model

/-!
# Stylers on a Windows console

Model of `/repo/fly/logger/detail/win/styler_proxy_impl.{hpp,cpp}`: the attributes and the cursor of the console are set by system calls.
Both standard streams show on the same console. What the system calls answer is an input.

Simplifications: text reaches the console when it is streamed (no buffering); a styler is streamed once, when it is made.
-/

namespace Verif.Styler.Win

open Verif.Styler

/-- `CONSOLE_SCREEN_BUFFER_INFO`: `wAttributes`, `dwCursorPosition` and `dwSize`. -/
structure Console where
  attr : Nat
  x : Int
  y : Int
  width : Int
  height : Int
  deriving DecidableEq, Repr

/-- `attributes | mask` or `attributes & ~mask` of a 16-bit value (win/styler_proxy_impl.cpp 84-93). -/
def setBit (a mask : Nat) (on : Bool) : Nat := if on then a ||| mask else a &&& (0xffff ^^^ mask)

/-- `apply_value<WORD, Style>` (win/styler_proxy_impl.cpp 54-71). `FOREGROUND_INTENSITY` is 8, `COMMON_LVB_UNDERSCORE` is 0x8000. -/
def applyStyle (a : Nat) : Style → Nat
  | .bold => a ||| 2 ^ 3
  | .underline => a ||| 2 ^ 15
  | _ => a

/-- The lambda `apply_color` (win/styler_proxy_impl.cpp 80-94). `FOREGROUND_BLUE`, `GREEN`, `RED` are 1, 2, 4; `BACKGROUND_BLUE`, `GREEN`,
`RED` are 0x10, 0x20, 0x40. -/
def applyRgb (a : Nat) (p : Plane) (red green blue : Bool) : Nat :=
  if p = .foreground then setBit (setBit (setBit a (2 ^ 2) red) (2 ^ 1) green) (2 ^ 0) blue
  else setBit (setBit (setBit a (2 ^ 6) red) (2 ^ 5) green) (2 ^ 4) blue

/-- `apply_value<WORD, Color>` (win/styler_proxy_impl.cpp 74-123). The colours are numbered as in styler.hpp 49-59. -/
def applyColor (a : Nat) (c : Color) : Nat :=
  if c.color = 0 then applyRgb a c.plane false false false
  else if c.color = 1 then applyRgb a c.plane true false false
  else if c.color = 2 then applyRgb a c.plane false true false
  else if c.color = 4 then applyRgb a c.plane false false true
  else if c.color = 3 then applyRgb a c.plane true true false
  else if c.color = 5 then applyRgb a c.plane true false true
  else if c.color = 6 then applyRgb a c.plane false true true
  else if c.color = 7 then applyRgb a c.plane true true true
  else a

/-- A number stored in a `SHORT`. -/
def toShort (n : Int) : Int := (n + 2 ^ 15) % 2 ^ 16 - 2 ^ 15

/-- `apply_value<COORD, Cursor>` (win/styler_proxy_impl.cpp 126-148). -/
def applyCursor (p : Int × Int) (c : Cursor) : Int × Int :=
  match c.direction with
  | .up => (p.1, if p.2 > c.distance then p.2 - c.distance else 0)
  | .down => (p.1, toShort (p.2 + c.distance))
  | .forward => (toShort (p.1 + c.distance), p.2)
  | .backward => (if p.1 > c.distance then p.1 - c.distance else 0, p.2)

/-- What the system calls of one proxy answer: `GetStdHandle` and `GetConsoleScreenBufferInfo` together, `SetConsoleTextAttribute`. -/
structure Answer where
  info : Bool := true
  set : Bool := true
  deriving DecidableEq, Repr

/-- A proxy: `m_original_attributes` and `m_did_apply_style_or_color` (win/styler_proxy_impl.hpp). -/
structure Proxy where
  original : Nat := 0
  applied : Bool := false
  deriving DecidableEq, Repr

/-- `apply_styles_and_colors` (win/styler_proxy_impl.cpp 151-171). -/
def applyLook (k : Console) (st : Stacks) (set : Bool) : Console × Proxy :=
  (if set then { k with attr := st.colors.foldl applyColor (st.styles.foldl applyStyle k.attr) } else k, ⟨k.attr, set⟩)

/-- `apply_cursors` (win/styler_proxy_impl.cpp 174-186). `SetConsoleCursorPosition` refuses a position outside the screen buffer and then
leaves the cursor where it is. `k0` is the console information read before. -/
def applyCursors (k0 k : Console) (st : Stacks) : Console :=
  let p := st.cursors.foldl applyCursor (k0.x, k0.y)
  if 0 ≤ p.1 ∧ p.1 < k.width ∧ 0 ≤ p.2 ∧ p.2 < k.height then { k with x := p.1, y := p.2 } else k

/-- The constructor of the proxy (win/styler_proxy_impl.cpp 6-42). -/
def openProxy (k : Console) (w : Which) (st : Stacks) (ans : Answer) : Console × Proxy :=
  if w.std && ans.info then
    let p := if !st.styles.isEmpty || !st.colors.isEmpty then applyLook k st ans.set else (k, {})
    (if !st.cursors.isEmpty then applyCursors k p.1 st else p.1, p.2)
  else (k, {})

/-- The destructor of the proxy (win/styler_proxy_impl.cpp 45-51). -/
def closeProxy (k : Console) (p : Proxy) : Console := if p.applied then { k with attr := p.original } else k

/-- What a program does: make a styler with these modifiers and stream it, print a character, destroy the `n`-th youngest living
styler. -/
inductive Op
  | make (w : Which) (mods : List Modifier) (ans : Answer)
  | text (c : Nat)
  | drop (n : Nat)
  deriving Repr

/-- The console, the living proxies, the youngest first, and the characters shown with their attributes. -/
structure World where
  console : Console
  live : List Proxy := []
  shown : List (Nat × Nat) := []
  deriving Repr

/-- One operation (styler.cpp 14-26 with the constructor, the destructor of the styler). The cursor's movement by text is left out. -/
def step (s : World) : Op → World
  | .make w mods ans =>
    { s with console := (openProxy s.console w (construct mods) ans).1, live := (openProxy s.console w (construct mods) ans).2 :: s.live }
  | .text c => { s with shown := s.shown ++ [(c, s.console.attr)] }
  | .drop n =>
    match s.live[n]? with
    | some p => { s with console := closeProxy s.console p, live := s.live.eraseIdx n }
    | none => s

/-- A program. -/
def run (s : World) (ops : List Op) : World := ops.foldl step s

/-! ## Specification -/

/-- A modifier asks for a colour of a plane, by its three primary colours. Only the eight standard colours are known. -/
def asks (p : Plane) : Modifier → Option Nat
  | .color c => if c.plane = p ∧ c.color ≤ 7 then some c.color else none
  | _ => none

/-- The colour asked for last. -/
def lastColor (p : Plane) (mods : List Modifier) : Option Nat := mods.reverse.findSome? (asks p)

/-- Red, green and blue of a standard colour are the bits 0, 1 and 2 of its number; in the attributes of the console they are the bits 2, 1
and 0 (foreground) and 6, 5 and 4 (background). Bit 3 is bright (for bold), bit 15 underlined. The other bits are not touched. -/
def Look (a : Nat) (mods : List Modifier) (a' : Nat) : Prop :=
  (∀ i, i < 3 → a'.testBit i = match lastColor .foreground mods with
    | some c => c.testBit (2 - i)
    | none => a.testBit i) ∧
  (∀ i, i < 3 → a'.testBit (4 + i) = match lastColor .background mods with
    | some c => c.testBit (2 - i)
    | none => a.testBit (4 + i)) ∧
  a'.testBit 3 = (a.testBit 3 || decide (.style .bold ∈ mods)) ∧
  a'.testBit 15 = (a.testBit 15 || decide (.style .underline ∈ mods)) ∧
  (∀ i, i ≠ 15 → (i = 7 ∨ 8 ≤ i) → a'.testBit i = a.testBit i)

/-- What a program of properly nested stylers shows, starting with the attributes `a`. A styler whose stream is not a standard one, or that
the system refuses, has no effect. -/
inductive Shows : Nat → List Op → List (Nat × Nat) → Prop
  | nil {a : Nat} : Shows a [] []
  | text {a c : Nat} {ops : List Op} {o : List (Nat × Nat)} : Shows a ops o → Shows a (.text c :: ops) ((c, a) :: o)
  | styled {a a' : Nat} {w : Which} {mods : List Modifier} {body rest : List Op} {o o' : List (Nat × Nat)} : w.std = true → Look a mods a' →
      Shows a' body o → Shows a rest o' → Shows a (.make w mods ⟨true, true⟩ :: body ++ .drop 0 :: rest) (o ++ o')
  | plain {a : Nat} {w : Which} {mods : List Modifier} {ans : Answer} {body rest : List Op} {o o' : List (Nat × Nat)} :
      (w.std = false ∨ ans.info = false ∨ ans.set = false) →
      Shows a body o → Shows a rest o' → Shows a (.make w mods ans :: body ++ .drop 0 :: rest) (o ++ o')

/-- Where the cursor is asked to go: by so much in each direction, but not before the first line or column. -/
inductive Moves : Int × Int → List Modifier → Int × Int → Prop
  | nil {p : Int × Int} : Moves p [] p
  | style {p q : Int × Int} {s : Style} {ms : List Modifier} : Moves p ms q → Moves p (.style s :: ms) q
  | color {p q : Int × Int} {c : Color} {ms : List Modifier} : Moves p ms q → Moves p (.color c :: ms) q
  | up {x y : Int} {q : Int × Int} {n : Nat} {ms : List Modifier} : Moves (x, max 0 (y - max 1 n)) ms q → Moves (x, y) (.cursor .up n :: ms) q
  | down {x y : Int} {q : Int × Int} {n : Nat} {ms : List Modifier} : y + max 1 n < 2 ^ 15 → Moves (x, y + max 1 n) ms q → Moves (x, y) (.cursor .down n :: ms) q
  | forward {x y : Int} {q : Int × Int} {n : Nat} {ms : List Modifier} : x + max 1 n < 2 ^ 15 → Moves (x + max 1 n, y) ms q → Moves (x, y) (.cursor .forward n :: ms) q
  | backward {x y : Int} {q : Int × Int} {n : Nat} {ms : List Modifier} : Moves (max 0 (x - max 1 n), y) ms q → Moves (x, y) (.cursor .backward n :: ms) q

/-! ## Proofs -/

theorem setBit_testBit {a k : Nat} {on : Bool} (ha : a < 2 ^ 16) (hk : k < 16) (i : Nat) :
    (setBit a (2 ^ k) on).testBit i = if i = k then on else a.testBit i := by
  unfold setBit
  cases on with
  | true =>
    rw [if_pos rfl, Nat.testBit_or, Nat.testBit_two_pow]
    by_cases h : i = k
    · subst h; simp
    · rw [if_neg h, decide_eq_false (fun e => h e.symm), Bool.or_false]
  | false =>
    rw [if_neg (by simp), Nat.testBit_and, Nat.testBit_xor, Nat.testBit_two_pow, show (0xffff : Nat) = 2 ^ 16 - 1 from rfl, Nat.testBit_two_pow_sub_one]
    by_cases h : i = k
    · subst h
      simp [hk]
    · rw [if_neg h, show decide (k = i) = false from decide_eq_false (fun e => h e.symm), Bool.xor_false]
      by_cases hi : i < 16
      · simp [hi]
      · have : a.testBit i = false := Nat.testBit_lt_two_pow (Nat.lt_of_lt_of_le ha (Nat.pow_le_pow_right (by omega) (by omega)))
        rw [this]; rfl

theorem setBit_lt {a k : Nat} {on : Bool} (ha : a < 2 ^ 16) (hk : k < 16) : setBit a (2 ^ k) on < 2 ^ 16 := by
  unfold setBit
  split
  · exact Nat.or_lt_two_pow ha (Nat.pow_lt_pow_right (by omega) hk)
  · exact Nat.lt_of_le_of_lt Nat.and_le_left ha

theorem applyRgb_lt {a : Nat} {p : Plane} {r g b : Bool} (ha : a < 2 ^ 16) : applyRgb a p r g b < 2 ^ 16 := by
  unfold applyRgb
  split
  · exact setBit_lt (setBit_lt (setBit_lt ha (by omega)) (by omega)) (by omega)
  · exact setBit_lt (setBit_lt (setBit_lt ha (by omega)) (by omega)) (by omega)

theorem applyRgb_testBit {a : Nat} {p : Plane} {r g b : Bool} (ha : a < 2 ^ 16) (i : Nat) :
    (applyRgb a p r g b).testBit i = if p = .foreground
      then (if i = 0 then b else if i = 1 then g else if i = 2 then r else a.testBit i)
      else (if i = 4 then b else if i = 5 then g else if i = 6 then r else a.testBit i) := by
  unfold applyRgb
  split
  · rw [setBit_testBit (setBit_lt (setBit_lt ha (by omega)) (by omega)) (by omega), setBit_testBit (setBit_lt ha (by omega)) (by omega), setBit_testBit ha (by omega)]
  · rw [setBit_testBit (setBit_lt (setBit_lt ha (by omega)) (by omega)) (by omega), setBit_testBit (setBit_lt ha (by omega)) (by omega), setBit_testBit ha (by omega)]

theorem applyColor_eq (a : Nat) (c : Color) : applyColor a c =
    if c.color ≤ 7 then applyRgb a c.plane (c.color.testBit 0) (c.color.testBit 1) (c.color.testBit 2) else a := by
  obtain ⟨n, p⟩ := c
  unfold applyColor
  dsimp only
  by_cases h : n ≤ 7
  · rw [if_pos h]
    match n, h with
    | 0, _ => rfl
    | 1, _ => rfl
    | 2, _ => rfl
    | 3, _ => rfl
    | 4, _ => rfl
    | 5, _ => rfl
    | 6, _ => rfl
    | 7, _ => rfl
  · rw [if_neg h, if_neg (by omega), if_neg (by omega), if_neg (by omega), if_neg (by omega), if_neg (by omega), if_neg (by omega), if_neg (by omega), if_neg (by omega)]

theorem applyColor_lt {a : Nat} {c : Color} (ha : a < 2 ^ 16) : applyColor a c < 2 ^ 16 := by
  rw [applyColor_eq]
  split
  · exact applyRgb_lt ha
  · exact ha

theorem construct_cons (m : Modifier) (ms : List Modifier) : construct (m :: ms) = setModifier (construct ms) m := rfl

theorem styles_fold : ∀ (mods : List Modifier) (a : Nat), a < 2 ^ 16 →
    (construct mods).styles.foldl applyStyle a < 2 ^ 16 ∧
    ∀ i, ((construct mods).styles.foldl applyStyle a).testBit i =
      (a.testBit i || (decide (i = 3) && decide (.style .bold ∈ mods)) || (decide (i = 15) && decide (.style .underline ∈ mods))) := by
  intro mods
  induction mods with
  | nil => intro a ha; exact ⟨ha, fun i => by simp [construct]⟩
  | cons m ms ih =>
    intro a ha
    rw [construct_cons]
    cases m with
    | style st =>
      have hlt : applyStyle a st < 2 ^ 16 := by
        unfold applyStyle
        split
        · exact Nat.or_lt_two_pow ha (by decide)
        · exact Nat.or_lt_two_pow ha (by decide)
        · exact ha
      obtain ⟨h1, h2⟩ := ih (applyStyle a st) hlt
      refine ⟨h1, fun i => ?_⟩
      show ((construct ms).styles.foldl applyStyle (applyStyle a st)).testBit i = _
      rw [h2 i]
      have hb : (applyStyle a st).testBit i = (a.testBit i || (decide (i = 3) && decide (st = .bold)) || (decide (i = 15) && decide (st = .underline))) := by
        cases st <;> simp only [applyStyle, Nat.testBit_or, Nat.testBit_two_pow, eq_comm (a := 3), eq_comm (a := 15)] <;> simp
      rw [hb]
      have e1 : decide (Modifier.style .bold ∈ Modifier.style st :: ms) = (decide (st = .bold) || decide (Modifier.style .bold ∈ ms)) := by
        simp [eq_comm, Bool.decide_or]
      have e2 : decide (Modifier.style .underline ∈ Modifier.style st :: ms) = (decide (st = .underline) || decide (Modifier.style .underline ∈ ms)) := by
        simp [eq_comm, Bool.decide_or]
      rw [e1, e2]
      generalize a.testBit i = b1
      generalize decide (i = 3) = b2
      generalize decide (i = 15) = b3
      generalize decide (st = .bold) = b4
      generalize decide (st = .underline) = b5
      generalize decide (Modifier.style .bold ∈ ms) = b6
      generalize decide (Modifier.style .underline ∈ ms) = b7
      revert b1 b2 b3 b4 b5 b6 b7
      decide
    | color c =>
      obtain ⟨h1, h2⟩ := ih a ha
      exact ⟨h1, fun i => by
        show ((construct ms).styles.foldl applyStyle a).testBit i = _
        rw [h2 i]; simp⟩
    | cursor d n =>
      obtain ⟨h1, h2⟩ := ih a ha
      exact ⟨h1, fun i => by
        show ((construct ms).styles.foldl applyStyle a).testBit i = _
        rw [h2 i]; simp⟩

theorem lastColor_cons (p : Plane) (m : Modifier) (ms : List Modifier) : lastColor p (m :: ms) = (lastColor p ms).or (asks p m) := by
  unfold lastColor
  rw [List.reverse_cons, List.findSome?_append]
  congr 1
  simp [List.findSome?_cons]
  cases asks p m <;> rfl

theorem colors_fold : ∀ (mods : List Modifier) (a : Nat), a < 2 ^ 16 →
    (construct mods).colors.foldl applyColor a < 2 ^ 16 ∧
    (∀ i, i < 3 → ((construct mods).colors.foldl applyColor a).testBit i = match lastColor .foreground mods with
      | some c => c.testBit (2 - i)
      | none => a.testBit i) ∧
    (∀ i, i < 3 → ((construct mods).colors.foldl applyColor a).testBit (4 + i) = match lastColor .background mods with
      | some c => c.testBit (2 - i)
      | none => a.testBit (4 + i)) ∧
    (∀ i, i = 3 ∨ 7 ≤ i → ((construct mods).colors.foldl applyColor a).testBit i = a.testBit i) := by
  intro mods
  induction mods with
  | nil => intro a ha; exact ⟨ha, fun i _ => rfl, fun i _ => rfl, fun i _ => rfl⟩
  | cons m ms ih =>
    intro a ha
    rw [construct_cons, lastColor_cons, lastColor_cons]
    cases m with
    | style st =>
      simp only [asks, Option.or_none]
      exact ih a ha
    | cursor d n =>
      simp only [asks, Option.or_none]
      exact ih a ha
    | color c =>
      obtain ⟨h1, h2, h3, h4⟩ := ih (applyColor a c) (applyColor_lt ha)
      have hb : ∀ i, (applyColor a c).testBit i = if c.color ≤ 7 then (if c.plane = .foreground
          then (if i = 0 then c.color.testBit 2 else if i = 1 then c.color.testBit 1 else if i = 2 then c.color.testBit 0 else a.testBit i)
          else (if i = 4 then c.color.testBit 2 else if i = 5 then c.color.testBit 1 else if i = 6 then c.color.testBit 0 else a.testBit i)) else a.testBit i := by
        intro i
        rw [applyColor_eq]
        split
        · exact applyRgb_testBit ha i
        · rfl
      refine ⟨h1, fun i hi => ?_, fun i hi => ?_, fun i hi => ?_⟩
      · show ((construct ms).colors.foldl applyColor (applyColor a c)).testBit i = _
        rw [h2 i hi]
        cases lastColor .foreground ms with
        | some c' => rfl
        | none =>
          rw [Option.none_or, hb i]
          by_cases h7 : c.color ≤ 7
          · by_cases hp : c.plane = .foreground
            · rw [show asks .foreground (.color c) = some c.color from if_pos ⟨hp, h7⟩, if_pos h7, if_pos hp]
              match i, hi with
              | 0, _ => rfl
              | 1, _ => rfl
              | 2, _ => rfl
            · rw [show asks .foreground (.color c) = none from if_neg (fun h => hp h.1), if_pos h7, if_neg hp, if_neg (by omega), if_neg (by omega), if_neg (by omega)]
          · rw [show asks .foreground (.color c) = none from if_neg (fun h => h7 h.2), if_neg h7]
      · show ((construct ms).colors.foldl applyColor (applyColor a c)).testBit (4 + i) = _
        rw [h3 i hi]
        cases lastColor .background ms with
        | some c' => rfl
        | none =>
          rw [Option.none_or, hb (4 + i)]
          by_cases h7 : c.color ≤ 7
          · by_cases hp : c.plane = .foreground
            · rw [show asks .background (.color c) = none from if_neg (fun h => by rw [hp] at h; cases h.1), if_pos h7, if_pos hp, if_neg (by omega), if_neg (by omega), if_neg (by omega)]
            · have hp' : c.plane = .background := by
                cases hc : c.plane with
                | foreground => exact absurd hc hp
                | background => rfl
              rw [show asks .background (.color c) = some c.color from if_pos ⟨hp', h7⟩, if_pos h7, if_neg hp]
              match i, hi with
              | 0, _ => rfl
              | 1, _ => rfl
              | 2, _ => rfl
          · rw [show asks .background (.color c) = none from if_neg (fun h => h7 h.2), if_neg h7]
      · show ((construct ms).colors.foldl applyColor (applyColor a c)).testBit i = _
        rw [h4 i hi, hb i]
        split
        · split
          · rw [if_neg (by omega), if_neg (by omega), if_neg (by omega)]
          · rw [if_neg (by omega), if_neg (by omega), if_neg (by omega)]
        · rfl

/-- The attributes after the constructor. -/
def lookOf (a : Nat) (mods : List Modifier) : Nat := (construct mods).colors.foldl applyColor ((construct mods).styles.foldl applyStyle a)

theorem lookOf_lt {a : Nat} (mods : List Modifier) (ha : a < 2 ^ 16) : lookOf a mods < 2 ^ 16 :=
  (colors_fold mods _ (styles_fold mods a ha).1).1

theorem lookOf_look {a : Nat} (mods : List Modifier) (ha : a < 2 ^ 16) : Look a mods (lookOf a mods) := by
  obtain ⟨h1, h2⟩ := styles_fold mods a ha
  obtain ⟨_, h4, h5, h6⟩ := colors_fold mods _ h1
  refine ⟨fun i hi => ?_, fun i hi => ?_, ?_, ?_, fun i hi hj => ?_⟩
  · have := h4 i hi
    rw [h2 i, decide_eq_false (show ¬i = 3 by omega), decide_eq_false (show ¬i = 15 by omega)] at this
    simpa [lookOf] using this
  · have := h5 i hi
    rw [h2 (4 + i), decide_eq_false (show ¬4 + i = 3 by omega), decide_eq_false (show ¬4 + i = 15 by omega)] at this
    simpa [lookOf] using this
  · unfold lookOf
    rw [h6 3 (.inl rfl), h2 3]
    simp
  · unfold lookOf
    rw [h6 15 (.inr (by omega)), h2 15]
    simp
  · unfold lookOf
    rw [h6 i (by omega), h2 i, decide_eq_false (show ¬i = 3 by omega), decide_eq_false hi]
    simp

theorem look_unique {a b c : Nat} {mods : List Modifier} (h : Look a mods b) (h' : Look a mods c) : b = c := by
  obtain ⟨h1, h2, h3, h4, h5⟩ := h
  obtain ⟨k1, k2, k3, k4, k5⟩ := h'
  apply Nat.eq_of_testBit_eq
  intro i
  by_cases e15 : i = 15
  · subst e15; rw [h4, k4]
  · by_cases e3 : i = 3
    · subst e3; rw [h3, k3]
    · by_cases l3 : i < 3
      · rw [h1 i l3, k1 i l3]
      · by_cases l7 : i < 7
        · have := h2 (i - 4) (by omega)
          have := k2 (i - 4) (by omega)
          rw [show 4 + (i - 4) = i by omega] at *
          simp_all
        · rw [h5 i e15 (by omega), k5 i e15 (by omega)]

theorem openProxy_attr (k : Console) (w : Which) (mods : List Modifier) (ans : Answer) :
    (openProxy k w (construct mods) ans).1.attr = (if w.std && ans.info && ans.set then lookOf k.attr mods else k.attr) ∧
    ∀ k', k'.attr = (openProxy k w (construct mods) ans).1.attr → (closeProxy k' (openProxy k w (construct mods) ans).2).attr = k.attr := by
  have hc : ∀ k0 k' : Console, (applyCursors k0 k' (construct mods)).attr = k'.attr := by
    intro k0 k'
    unfold applyCursors
    dsimp only
    split <;> rfl
  have hi : ∀ (b : Bool) (k0 k' : Console), (if b = true then applyCursors k0 k' (construct mods) else k').attr = k'.attr := by
    intro b k0 k'
    split
    · exact hc _ _
    · rfl
  unfold openProxy
  cases h1 : (w.std && ans.info) with
  | false => exact ⟨rfl, fun k' h => h⟩
  | true =>
    simp only [if_true, Bool.true_and]
    rw [hi]
    by_cases h2 : (!(construct mods).styles.isEmpty || !(construct mods).colors.isEmpty) = true
    · rw [if_pos h2]
      cases hs : ans.set with
      | true => exact ⟨rfl, fun k' _ => rfl⟩
      | false => exact ⟨rfl, fun k' h => h⟩
    · rw [if_neg h2]
      have hl : lookOf k.attr mods = k.attr := by
        unfold lookOf
        simp only [Bool.or_eq_true, Bool.not_eq_true', not_or, Bool.not_eq_false, List.isEmpty_iff] at h2
        rw [h2.1, h2.2]
        rfl
      exact ⟨by rw [hl]; split <;> rfl, fun k' h => h⟩

theorem run_append (s : World) (a b : List Op) : run s (a ++ b) = run (run s a) b := List.foldl_append

theorem shows_run {a : Nat} {ops : List Op} {o : List (Nat × Nat)} (h : Shows a ops o) : ∀ (s : World), s.console.attr = a → a < 2 ^ 16 →
    (run s ops).shown = s.shown ++ o ∧ (run s ops).live = s.live ∧ (run s ops).console.attr = a := by
  induction h with
  | nil => intro s hs _; exact ⟨by simp [run], rfl, hs⟩
  | text h ih =>
    rename_i a c ops o
    intro s hs ha
    obtain ⟨h1, h2, h3⟩ := ih (step s (.text c)) hs ha
    refine ⟨?_, h2, h3⟩
    show (run (step s (.text c)) ops).shown = _
    rw [h1]
    simp [step, hs]
  | styled hw hl _ _ ih1 ih2 =>
    rename_i a a' w mods body rest o o' _ _
    intro s hs ha
    have e : a' = lookOf a mods := look_unique hl (lookOf_look mods ha)
    obtain ⟨p1, p2⟩ := openProxy_attr s.console w mods ⟨true, true⟩
    rw [hw, hs] at p1
    obtain ⟨b1, b2, b3⟩ := ih1 (step s (.make w mods ⟨true, true⟩)) (by rw [e]; exact p1) (by rw [e]; exact lookOf_lt mods ha)
    rw [run_append, show run s (.make w mods ⟨true, true⟩ :: body) = run (step s (.make w mods ⟨true, true⟩)) body from rfl]
    generalize run (step s (.make w mods ⟨true, true⟩)) body = t at *
    have hd : step t (.drop 0) = { t with console := closeProxy t.console (openProxy s.console w (construct mods) ⟨true, true⟩).2, live := s.live } := by
      unfold step
      rw [b2]
      rfl
    obtain ⟨c1, c2, c3⟩ := ih2 (step t (.drop 0)) (by
      rw [hd]
      exact (p2 t.console (by rw [b3, e]; exact p1.symm)).trans hs) ha
    refine ⟨?_, ?_, c3⟩
    · show (run (step t (.drop 0)) rest).shown = _
      rw [c1, hd]
      show t.shown ++ o' = _
      rw [b1]
      simp [step]
    · show (run (step t (.drop 0)) rest).live = _
      rw [c2, hd]
  | plain hw _ _ ih1 ih2 =>
    rename_i a w mods ans body rest o o' _ _
    intro s hs ha
    obtain ⟨p1, p2⟩ := openProxy_attr s.console w mods ans
    rw [if_neg (by
      intro h
      simp only [Bool.and_eq_true] at h
      rcases hw with hw | hw | hw
      · rw [hw] at h; exact absurd h.1.1 (by simp)
      · rw [hw] at h; exact absurd h.1.2 (by simp)
      · rw [hw] at h; exact absurd h.2 (by simp)), hs] at p1
    obtain ⟨b1, b2, b3⟩ := ih1 (step s (.make w mods ans)) p1 ha
    rw [run_append, show run s (.make w mods ans :: body) = run (step s (.make w mods ans)) body from rfl]
    generalize run (step s (.make w mods ans)) body = t at *
    have hd : step t (.drop 0) = { t with console := closeProxy t.console (openProxy s.console w (construct mods) ans).2, live := s.live } := by
      unfold step
      rw [b2]
      rfl
    obtain ⟨c1, c2, c3⟩ := ih2 (step t (.drop 0)) (by
      rw [hd]
      exact (p2 t.console (by rw [b3]; exact p1.symm)).trans hs) ha
    refine ⟨?_, ?_, c3⟩
    · show (run (step t (.drop 0)) rest).shown = _
      rw [c1, hd]
      show t.shown ++ o' = _
      rw [b1]
      simp [step]
    · show (run (step t (.drop 0)) rest).live = _
      rw [c2, hd]

theorem toShort_id {n : Int} (h : 0 ≤ n) (h' : n < 2 ^ 15) : toShort n = n := by
  unfold toShort
  omega

theorem mkCursor_distance (d : Direction) (n : Nat) : ((mkCursor d n).distance : Int) = max 1 (n : Int) := by
  unfold mkCursor
  dsimp only
  split <;> omega

theorem moves_fold {p q : Int × Int} {mods : List Modifier} (h : Moves p mods q) : 0 ≤ p.1 → 0 ≤ p.2 →
    (construct mods).cursors.foldl applyCursor p = q := by
  induction h with
  | nil => intro _ _; rfl
  | style _ ih => intro h1 h2; exact ih h1 h2
  | color _ ih => intro h1 h2; exact ih h1 h2
  | up _ ih =>
    rename_i x y q n ms _
    intro h1 h2
    show (construct ms).cursors.foldl applyCursor (applyCursor (x, y) (mkCursor .up n)) = q
    have hd := mkCursor_distance .up n
    have : applyCursor (x, y) (mkCursor .up n) = (x, max 0 (y - max 1 n)) := by
      unfold applyCursor
      rw [hd]
      show (x, if y > max 1 (n : Int) then y - max 1 (n : Int) else 0) = _
      congr 1
      split <;> omega
    rw [this]
    exact ih h1 (by omega)
  | down hb _ ih =>
    rename_i x y q n ms _
    intro h1 h2
    show (construct ms).cursors.foldl applyCursor (applyCursor (x, y) (mkCursor .down n)) = q
    have hd := mkCursor_distance .down n
    have : applyCursor (x, y) (mkCursor .down n) = (x, y + max 1 n) := by
      unfold applyCursor
      rw [hd]
      show (x, toShort (y + max 1 (n : Int))) = _
      rw [toShort_id (by dsimp only at h2; omega) (by omega), show max 1 (n : Int) = ((max 1 n : Nat) : Int) by omega]
    rw [this]
    exact ih h1 (by dsimp only at h2 ⊢; omega)
  | forward hb _ ih =>
    rename_i x y q n ms _
    intro h1 h2
    show (construct ms).cursors.foldl applyCursor (applyCursor (x, y) (mkCursor .forward n)) = q
    have hd := mkCursor_distance .forward n
    have : applyCursor (x, y) (mkCursor .forward n) = (x + max 1 n, y) := by
      unfold applyCursor
      rw [hd]
      show (toShort (x + max 1 (n : Int)), y) = _
      rw [toShort_id (by dsimp only at h1; omega) (by omega), show max 1 (n : Int) = ((max 1 n : Nat) : Int) by omega]
    rw [this]
    exact ih (by dsimp only at h1 ⊢; omega) h2
  | backward _ ih =>
    rename_i x y q n ms _
    intro h1 h2
    show (construct ms).cursors.foldl applyCursor (applyCursor (x, y) (mkCursor .backward n)) = q
    have hd := mkCursor_distance .backward n
    have : applyCursor (x, y) (mkCursor .backward n) = (max 0 (x - max 1 n), y) := by
      unfold applyCursor
      rw [hd]
      show ((if x > max 1 (n : Int) then x - max 1 (n : Int) else 0), y) = _
      congr 1
      split <;> omega
    rw [this]
    exact ih (by omega) h2

/-! ## Properties -/

/-- On a Windows console, in every program whose stylers are properly nested, each character is shown with the attributes in force before
changed as the stylers around it ask, outermost first; when the stylers are gone the console is as before. Stylers of other streams and
stylers the system refuses change nothing. -/
theorem win_styler_partial {ops : List Op} {o : List (Nat × Nat)} (s : World) (ha : s.console.attr < 2 ^ 16) (h : Shows s.console.attr ops o) :
    (run s ops).shown = s.shown ++ o ∧ (run s ops).live = s.live ∧ (run s ops).console.attr = s.console.attr :=
  shows_run h s rfl ha

/-- There is exactly one way in which attributes are changed as asked. -/
theorem win_look (a : Nat) (mods : List Modifier) (ha : a < 2 ^ 16) : ∃ b, Look a mods b ∧ ∀ c, Look a mods c → c = b :=
  ⟨_, lookOf_look mods ha, fun _ h => look_unique h (lookOf_look mods ha)⟩

/-- The cursor goes where it is asked to go if that is on the screen, and stays where it is otherwise. -/
theorem win_cursor_partial (k : Console) (w : Which) (mods : List Modifier) (set : Bool) (q : Int × Int) (hw : w.std = true) (hx : 0 ≤ k.x) (hy : 0 ≤ k.y)
    (h : Moves (k.x, k.y) mods q) :
    ((openProxy k w (construct mods) ⟨true, set⟩).1.x, (openProxy k w (construct mods) ⟨true, set⟩).1.y) =
      if 0 ≤ q.1 ∧ q.1 < k.width ∧ 0 ≤ q.2 ∧ q.2 < k.height then q else (k.x, k.y) := by
  have hq := moves_fold h hx hy
  have hlook : ∀ b : Bool, (if b = true then applyLook k (construct mods) set else (k, {})).1.x = k.x ∧
      (if b = true then applyLook k (construct mods) set else (k, {})).1.y = k.y ∧
      (if b = true then applyLook k (construct mods) set else (k, {})).1.width = k.width ∧
      (if b = true then applyLook k (construct mods) set else (k, {})).1.height = k.height := by
    intro b
    cases b
    · exact ⟨rfl, rfl, rfl, rfl⟩
    · cases set <;> exact ⟨rfl, rfl, rfl, rfl⟩
  unfold openProxy
  rw [hw]
  simp only [Bool.and_self, if_true]
  obtain ⟨l1, l2, l3, l4⟩ := hlook (!(construct mods).styles.isEmpty || !(construct mods).colors.isEmpty)
  generalize (if (!(construct mods).styles.isEmpty || !(construct mods).colors.isEmpty) = true then applyLook k (construct mods) set else (k, {})) = y at *
  by_cases he : (construct mods).cursors = []
  · rw [if_neg (by rw [he]; simp)]
    rw [he] at hq
    rw [l1, l2, ← hq]
    split <;> rfl
  · rw [if_pos (by simpa using he)]
    unfold applyCursors
    rw [hq, l3, l4]
    dsimp only
    split
    · rfl
    · rw [l1, l2]

/-- Two stylers that are destroyed in the order of their creation leave the look of the second one behind for ever; and a movement past the
right edge is not carried out at all, with it all other movements of the same styler. -/
theorem win_styler_violated :
    (run ⟨⟨7, 0, 0, 80, 25⟩, [], []⟩ [.make .out [.color ⟨1, .foreground⟩] {}, .make .out [.style .bold] {}, .drop 1, .drop 0, .text 65]).shown = [(65, 4)] ∧
    (openProxy ⟨7, 70, 5, 80, 25⟩ .out (construct [.cursor .up 1, .cursor .forward 20]) {}).1 = ⟨7, 70, 5, 80, 25⟩ := by
  decide +kernel

/-- A warning of the logger in yellow, inside a red text on blue, and a movement of the cursor. -/
example : ∃ o, Shows 7 [.make .out [.color ⟨1, .foreground⟩, .color ⟨4, .background⟩] ⟨true, true⟩, .text 65, .make .err [.color ⟨3, .foreground⟩] ⟨true, true⟩,
    .text 66, .drop 0, .text 67, .drop 0, .text 68] o ∧ Look 7 [.color ⟨1, .foreground⟩, .color ⟨4, .background⟩] 0x14 := by
  refine ⟨_, .styled (body := [.text 65, .make .err [.color ⟨3, .foreground⟩] ⟨true, true⟩, .text 66, .drop 0, .text 67]) (rest := [.text 68]) rfl
    (lookOf_look _ (by decide)) (.text (.styled (body := [.text 66]) (rest := [.text 67]) rfl
      (lookOf_look _ (by decide +kernel)) (.text .nil) (.text .nil))) (.text .nil), ?_⟩
  have h := lookOf_look (a := 7) [.color ⟨1, .foreground⟩, .color ⟨4, .background⟩] (by decide)
  rwa [show lookOf 7 [.color ⟨1, .foreground⟩, .color ⟨4, .background⟩] = 0x14 by decide +kernel] at h

example : Moves (3, 2) [.cursor .up 1, .style .bold, .cursor .backward 9] (0, 1) :=
  .up (.style (.backward .nil))

end Verif.Styler.Win
