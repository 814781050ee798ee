import Verif.Json.Ops
import Verif.Str.Model

/-!
# Model of `fly::parser::IniParser`

Source: `/repo/fly/parser/ini_parser.cpp`. The stream is the list of bytes still to be read. The
parser's `Json values` is the list of entries of the JSON object (in key order), its iterator
`current` the key it points to (`std::map` iterators stay valid). `none` is a failed parse
(`std::nullopt`, including a caught `JsonException`). Simplification: line counting and logging are
left out.
-/

namespace Verif.Ini

open Verif.Json (Value convertToString insertOrAssign lookup)
open Verif.Str (CharKind)

/-- `char` (signed on the platforms modelled). -/
def ch : CharKind := ⟨8, true⟩

/-- `TrimResult` (ini_parser.hpp 28-33). -/
inductive TrimResult where
  | trimmed
  | untrimmed
  | imbalanced
deriving DecidableEq, Repr

/-- `trim_value(str, start, end)` (ini_parser.cpp 155-172): the result and the string afterwards. The
count `str.size() - 2` of `substr` wraps around for a string of one character. -/
def trimValue (str : List Nat) (start fin : Nat) : TrimResult × List Nat :=
  let a := str.head? == some start
  let b := str.getLast? == some fin
  if a && b then (.trimmed, (str.drop 1).take ((str.length + 2 ^ 64 - 2) % 2 ^ 64))
  else if a || b then (.imbalanced, str)
  else (.untrimmed, str)

/-- `getline` (ini_parser.cpp 83-96): the line and the rest of the stream. -/
def getline : List Nat → List Nat × List Nat
  | [] => ([], [])
  | c :: s => if c = 0x0a then ([], s) else (c :: (getline s).1, (getline s).2)

theorem getline_length : ∀ s : List Nat, s ≠ [] → (getline s).2.length < s.length := by
  intro s
  induction s with
  | nil => intro h; exact absurd rfl h
  | cons c s ih =>
    intro _
    unfold getline
    split
    · simp
    · by_cases hs : s = []
      · subst hs; simp [getline]
      · have := ih hs
        simp only [List.length_cons]; omega

/-- `on_section` (ini_parser.cpp 99-111). -/
def onSection (section_ : List Nat) : Option (List Nat) :=
  let t := Verif.Str.trim ch section_
  if (trimValue t 0x27 0x27).1 ≠ .untrimmed ∨ (trimValue t 0x22 0x22).1 ≠ .untrimmed then none
  else some t

/-- The value part of `on_name_value_pair` (ini_parser.cpp 135-140): both kinds of quotes are removed
from the trimmed value. -/
def unquote (value : List Nat) : Option (List Nat) :=
  let r := trimValue value 0x27 0x27
  if r.1 = .imbalanced then none
  else
    let r2 := trimValue r.2 0x22 0x22
    if r2.1 = .imbalanced then none else some r2.2

/-- `on_name_value_pair` (ini_parser.cpp 114-150). -/
def onPair (line : List Nat) : Option (List Nat × List Nat) :=
  match Verif.Str.split line 0x3d 2 with
  | [n, v] =>
    let name := Verif.Str.trim ch n
    let value := Verif.Str.trim ch v
    if (trimValue name 0x27 0x27).1 ≠ .untrimmed ∨ (trimValue name 0x22 0x22).1 ≠ .untrimmed then none
    else (unquote value).map (fun v => (name, v))
  | _ => none

/-- `values` and `current` (ini_parser.cpp 15-16). -/
structure State where
  values : List (List Nat × Value)
  current : List Nat

/-- `current->insert_or_assign(name, value)` (ini_parser.cpp 61-63). A `current` that points nowhere
would throw. -/
def assign (st : State) (name value : List Nat) : Option State :=
  match lookup st.current st.values with
  | some (.obj m) =>
    some { st with values := insertOrAssign st.current (.obj (insertOrAssign name (.str value) m)) st.values }
  | _ => none

/-- The body of the loop of `parse_internal` (ini_parser.cpp 22-77) on one line. -/
def lineStep (st : State) (data : List Nat) : Option State :=
  let t := Verif.Str.trim ch data
  if t = [] ∨ t.head? = some 0x3b then some st
  else
    match trimValue t 0x5b 0x5d with
    | (.imbalanced, _) => none
    | (.trimmed, b) =>
      match onSection b with
      | none => none
      | some s =>
        match convertToString s with
        | none => none
        | some k => some { values := insertOrAssign k (.obj []) st.values, current := k }
    | (.untrimmed, b) =>
      if st.values = [] then none
      else
        match onPair b with
        | none => none
        | some (n, v) =>
          match convertToString n, convertToString v with
          | some n, some v => assign st n v
          | _, _ => none

/-- The loop of `parse_internal` (ini_parser.cpp 20-78), which ends when `getline` is at the end of the
stream with nothing read. -/
def loop (st : State) (s : List Nat) : Option State :=
  if _h : (getline s).2 = [] ∧ (getline s).1 = [] then some st
  else
    match lineStep st (getline s).1 with
    | none => none
    | some st => loop st (getline s).2
termination_by s.length
decreasing_by
  apply getline_length
  rintro rfl
  exact _h ⟨rfl, rfl⟩

/-- `parse_internal` (ini_parser.cpp 13-81). -/
def parse (s : List Nat) : Option Value :=
  match loop ⟨[], []⟩ s with
  | some st => if st.values = [] then none else some (.obj st.values)
  | none => none

end Verif.Ini
