import Verif.Json.Parser
import Verif.Parser.Pos

/-!
# The JSON parser with its positions and warnings

The parser of `Verif.Json.Parser` with the position kept by `Parser::get` and the warnings written to the log by `JLOG`
(json_parser.cpp 8-9), which carry that position. Texts of the warnings are left out, their arguments are kept. `none` as a symbol is
the end of the stream.
-/

namespace Verif.Json

open Verif.Parser (Pos)

/-- The stream and the position (parser.hpp 176-179). -/
structure Src where
  rest : List Nat
  pos : Pos
  deriving DecidableEq, Repr

/-- The warnings. -/
inductive Note
  /-- json_parser.cpp 364 -/
  | commentOff
  /-- json_parser.cpp 408 -/
  | commentStart (c : Option Nat)
  /-- json_parser.cpp 276 -/
  | unexpected (got : Option Nat) (tok : Nat)
  /-- json_parser.cpp 297 -/
  | trailing
  /-- json_parser.cpp 265 -/
  | badValue (v : List Nat)
  /-- json_parser.cpp 53 -/
  | extraneous (c : Nat)
  /-- json_parser.cpp 58 -/
  | anyType
  /-- json_parser.cpp 41: the JSON type threw -/
  | json
  deriving DecidableEq, Repr

/-- A warning with its position. -/
abbrev Warn := Pos × Note

/-- `consume_whitespace` (json_parser.cpp 351-357). -/
def skipWsAt : List Nat → Pos → Src
  | [], p => ⟨[], p⟩
  | c :: s, p => if isWs c then skipWsAt s (p.get c) else ⟨c :: s, p⟩

/-- The `//` loop (json_parser.cpp 376-379). -/
def dropLineAt : List Nat → Pos → Src
  | [], p => ⟨[], p.eof⟩
  | c :: s, p => if c = 0x0a then ⟨s, p.get c⟩ else dropLineAt s (p.get c)

/-- The `/*` loop (json_parser.cpp 385-397). -/
def dropBlockAt : List Nat → Pos → Bool × Src
  | [], p => (false, ⟨[], p.eof⟩)
  | c :: s, p => if c = 0x2a ∧ s.head? = some 0x2f then (true, ⟨s.tail, (p.get c).get 0x2f⟩) else dropBlockAt s (p.get c)

/-- `consume_comment` (json_parser.cpp 360-413) on a stream at a solidus: `t` is what follows it, `p` the position before it. -/
def skipCommentAt (allow : Bool) (t : List Nat) (p : Pos) : Bool × Src × List Warn :=
  if !allow then (false, ⟨0x2f :: t, p⟩, [(p, .commentOff)])
  else
    match t with
    | [] => (false, ⟨[], (p.get 0x2f).eof⟩, [((p.get 0x2f).eof, .commentStart none)])
    | c :: u =>
      if c = 0x2f then (true, dropLineAt u ((p.get 0x2f).get c), [])
      else if c = 0x2a then ((dropBlockAt u ((p.get 0x2f).get c)).1, (dropBlockAt u ((p.get 0x2f).get c)).2, [])
      else (false, ⟨u, (p.get 0x2f).get c⟩, [((p.get 0x2f).get c, .commentStart (some c))])

theorem skipWsAt_rest : ∀ (s : List Nat) (p : Pos), (skipWsAt s p).rest = skipWs s := by
  intro s
  induction s with
  | nil => intro p; rfl
  | cons c s ih =>
    intro p
    unfold skipWsAt skipWs
    rw [List.dropWhile_cons]
    split
    · exact ih _
    · rfl

theorem dropLineAt_rest : ∀ (s : List Nat) (p : Pos), (dropLineAt s p).rest = dropLine s := by
  intro s
  induction s with
  | nil => intro p; rfl
  | cons c s ih =>
    intro p
    unfold dropLineAt dropLine
    split
    · rfl
    · exact ih _

theorem dropBlockAt_rest : ∀ (s : List Nat) (p : Pos), dropBlock s = (if (dropBlockAt s p).1 then some (dropBlockAt s p).2.rest else none) ∧
    ((dropBlockAt s p).1 = false → (dropBlockAt s p).2.rest = []) := by
  intro s
  induction s with
  | nil => intro p; exact ⟨rfl, fun _ => rfl⟩
  | cons c s ih =>
    intro p
    unfold dropBlockAt dropBlock
    split
    · exact ⟨rfl, fun h => by cases h⟩
    · exact ih _

theorem skipCommentAt_eq (allow : Bool) (t : List Nat) (p : Pos) : skipComment allow t = ((skipCommentAt allow t p).1, (skipCommentAt allow t p).2.1.rest) := by
  unfold skipComment skipCommentAt
  split
  · rfl
  · cases t with
    | nil => rfl
    | cons c u =>
      simp only []
      split
      · rw [dropLineAt_rest]
      · split
        · obtain ⟨h1, h2⟩ := dropBlockAt_rest u ((p.get 0x2f).get c)
          rw [h1]
          cases hb : (dropBlockAt u ((p.get 0x2f).get c)).1 with
          | true => rfl
          | false => simp [h2 hb]
        · rfl

/-- `consume_whitespace_and_comments` (json_parser.cpp 333-348). -/
def wsCommentsAt (allow : Bool) (s : List Nat) (p : Pos) : Bool × Src × List Warn :=
  match _h : skipWsAt s p with
  | ⟨[], q⟩ => (true, ⟨[], q⟩, [])
  | ⟨c :: t, q⟩ =>
    if c = 0x2f then
      match _hc : skipCommentAt allow t q with
      | (false, r, ws) => (false, r, ws)
      | (true, r, ws) => ((wsCommentsAt allow r.rest r.pos).1, (wsCommentsAt allow r.rest r.pos).2.1, ws ++ (wsCommentsAt allow r.rest r.pos).2.2)
    else (true, ⟨c :: t, q⟩, [])
termination_by s.length
decreasing_by
  all_goals
    have e := skipCommentAt_eq allow t q
    rw [_hc] at e
    have h1 := skipComment_length allow t (by rw [e])
    have h2 := dropWhile_length_le isWs s
    have h3 := skipWsAt_rest s p
    rw [_h] at h3
    rw [show s.dropWhile isWs = c :: t from h3.symm] at h2
    rw [e] at h1
    simp only [List.length_cons] at h1 h2
    omega

/-- `state_for_object_or_array` (json_parser.cpp 166-186). -/
def stateForAt (allow : Bool) (endTok : Nat) (s : Src) : PState × Src × List Warn :=
  match wsCommentsAt allow s.rest s.pos with
  | (false, r, ws) => (.invalid, r, ws)
  | (true, ⟨[], q⟩, ws) => (.invalid, ⟨[], q⟩, ws)
  | (true, ⟨c :: t, q⟩, ws) => if c = endTok then (.stop, ⟨t, q.get c⟩, ws) else (.keep, ⟨c :: t, q⟩, ws)

/-- `consume_token` (json_parser.cpp 270-281). -/
def consumeTokenAt (tok : Nat) (s : Src) : PState × Src × List Warn :=
  match skipWsAt s.rest s.pos with
  | ⟨[], q⟩ => (.invalid, ⟨[], q.eof⟩, [(q.eof, .unexpected none tok)])
  | ⟨c :: t, q⟩ => if c = tok then (.keep, ⟨t, q.get c⟩, []) else (.invalid, ⟨t, q.get c⟩, [(q.get c, .unexpected (some c) tok)])

/-- The second half of `consume_comma` (json_parser.cpp 290-301), after the comma. -/
def afterCommaAt (ft : Features) (endTok : Nat) (s : Src) : PState × Src × List Warn :=
  match stateForAt ft.comments endTok s with
  | (.stop, r, ws) => if ft.trailingComma then (.stop, r, ws) else (.invalid, r, ws ++ [(r.pos, .trailing)])
  | (_, r, ws) => (.keep, r, ws)

/-- `consume_comma` (json_parser.cpp 284-302). -/
def consumeCommaAt (ft : Features) (endTok : Nat) (s : Src) : PState × Src × List Warn :=
  match consumeTokenAt 0x2c s with
  | (.keep, r, ws) => ((afterCommaAt ft endTok r).1, (afterCommaAt ft endTok r).2.1, ws ++ (afterCommaAt ft endTok r).2.2)
  | (_, r, ws) => (.invalid, r, ws)

/-- The loop of `parse_quoted_string` (json_parser.cpp 199-214). A reverse solidus at the end of the stream makes it read past the end
twice. -/
def quotedBodyAt : List Nat → Pos → Option (List Nat) × Src
  | [], p => (none, ⟨[], p.eof⟩)
  | [c], p =>
    if c = 0x22 then (some [], ⟨[], p.get c⟩)
    else if c = 0x5c then (none, ⟨[], (p.get c).eof.eof⟩)
    else (none, ⟨[], (p.get c).eof⟩)
  | c :: d :: s, p =>
    if c = 0x22 then (some [], ⟨d :: s, p.get c⟩)
    else if c = 0x5c then ((quotedBodyAt s ((p.get c).get d)).1.map (fun v => c :: d :: v), (quotedBodyAt s ((p.get c).get d)).2)
    else ((quotedBodyAt (d :: s) (p.get c)).1.map (fun v => c :: v), (quotedBodyAt (d :: s) (p.get c)).2)

/-- `parse_quoted_string` (json_parser.cpp 189-217). -/
def parseQuotedAt (s : Src) : Option (List Nat) × Src × List Warn :=
  match consumeTokenAt 0x22 s with
  | (.keep, r, ws) => ((quotedBodyAt r.rest r.pos).1, (quotedBodyAt r.rest r.pos).2, ws)
  | (_, r, ws) => (none, r, ws)

/-- Outcome of `parse_json`; `threw` when the JSON type threw. -/
inductive Got' where
  | fail
  | threw
  | oom
  | ok (v : Value)

/-- `parse_value` (json_parser.cpp 220-267), with `consume_value` (305-330). -/
def parseValueAt (io : FloatIO) (s : Src) : Got' × Src × List Warn :=
  match valueOf io (s.rest.takeWhile isValueChar) with
  | some v => (.ok v, ⟨s.rest.dropWhile isValueChar, (s.rest.takeWhile isValueChar).foldl Pos.get s.pos⟩, [])
  | none => (.fail, ⟨s.rest.dropWhile isValueChar, (s.rest.takeWhile isValueChar).foldl Pos.get s.pos⟩,
      [((s.rest.takeWhile isValueChar).foldl Pos.get s.pos, .badValue (s.rest.takeWhile isValueChar))])

/-- The string branch of `parse_json` (json_parser.cpp 82-88). -/
def parseStringAt (s : Src) : Got' × Src × List Warn :=
  match parseQuotedAt s with
  | (none, r, ws) => (.fail, r, ws)
  | (some raw, r, ws) =>
    match convertToString raw with
    | none => (.threw, r, ws)
    | some v => (.ok (.str v), r, ws)

/-- The loops' separator step (json_parser.cpp 108-111, 146-149). -/
def separatorAt (ft : Features) (endTok : Nat) (first : Bool) (s : Src) : PState × Src × List Warn :=
  if first then (.keep, s, []) else consumeCommaAt ft endTok s

/-- A key and its colon (json_parser.cpp 113-118). -/
def parseKeyAt (s : Src) : Option (List Nat) × Src × List Warn :=
  match parseQuotedAt s with
  | (none, r, ws) => (none, r, ws)
  | (some raw, r, ws) =>
    match consumeTokenAt 0x3a r with
    | (.keep, r, ws') => (some raw, r, ws ++ ws')
    | (_, r, ws') => (none, r, ws ++ ws')

mutual
/-- `parse_json` (json_parser.cpp 67-93). -/
def parseJsonAt (io : FloatIO) (ft : Features) : Nat → Src → Got' × Src × List Warn
  | 0, s => (.oom, s, [])
  | n + 1, s =>
    match wsCommentsAt ft.comments s.rest s.pos with
    | (false, r, ws) => (.fail, r, ws)
    | (true, ⟨[], q⟩, ws) => ((parseValueAt io ⟨[], q⟩).1, (parseValueAt io ⟨[], q⟩).2.1, ws ++ (parseValueAt io ⟨[], q⟩).2.2)
    | (true, ⟨c :: t, q⟩, ws) =>
      if c = 0x7b then
        ((objLoopAt io ft n [] ⟨t, q.get c⟩).1, (objLoopAt io ft n [] ⟨t, q.get c⟩).2.1, ws ++ (objLoopAt io ft n [] ⟨t, q.get c⟩).2.2)
      else if c = 0x5b then
        ((arrLoopAt io ft n [] ⟨t, q.get c⟩).1, (arrLoopAt io ft n [] ⟨t, q.get c⟩).2.1, ws ++ (arrLoopAt io ft n [] ⟨t, q.get c⟩).2.2)
      else if c = 0x22 then ((parseStringAt ⟨c :: t, q⟩).1, (parseStringAt ⟨c :: t, q⟩).2.1, ws ++ (parseStringAt ⟨c :: t, q⟩).2.2)
      else ((parseValueAt io ⟨c :: t, q⟩).1, (parseValueAt io ⟨c :: t, q⟩).2.1, ws ++ (parseValueAt io ⟨c :: t, q⟩).2.2)
/-- The loop of `parse_object` (json_parser.cpp 106-130). -/
def objLoopAt (io : FloatIO) (ft : Features) : Nat → List (List Nat × Value) → Src → Got' × Src × List Warn
  | 0, _, s => (.oom, s, [])
  | n + 1, m, s =>
    match stateForAt ft.comments 0x7d s with
    | (.invalid, r, ws) => (.fail, r, ws)
    | (.stop, r, ws) => (.ok (.obj m), r, ws)
    | (.keep, r, ws) =>
      match separatorAt ft 0x7d m.isEmpty r with
      | (.invalid, r, ws2) => (.fail, r, ws ++ ws2)
      | (.stop, r, ws2) => (.ok (.obj m), r, ws ++ ws2)
      | (.keep, r, ws2) =>
        match parseKeyAt r with
        | (none, r, ws3) => (.fail, r, ws ++ ws2 ++ ws3)
        | (some raw, r, ws3) =>
          match parseJsonAt io ft n r with
          | (.ok v, r, ws4) =>
            match convertToString raw with
            | none => (.threw, r, ws ++ ws2 ++ ws3 ++ ws4)
            | some k => ((objLoopAt io ft n (insertOrAssign k v m) r).1, (objLoopAt io ft n (insertOrAssign k v m) r).2.1,
                ws ++ ws2 ++ ws3 ++ ws4 ++ (objLoopAt io ft n (insertOrAssign k v m) r).2.2)
          | (g, r, ws4) => (g, r, ws ++ ws2 ++ ws3 ++ ws4)
/-- The loop of `parse_array` (json_parser.cpp 144-162). -/
def arrLoopAt (io : FloatIO) (ft : Features) : Nat → List Value → Src → Got' × Src × List Warn
  | 0, _, s => (.oom, s, [])
  | n + 1, l, s =>
    match stateForAt ft.comments 0x5d s with
    | (.invalid, r, ws) => (.fail, r, ws)
    | (.stop, r, ws) => (.ok (.arr l), r, ws)
    | (.keep, r, ws) =>
      match separatorAt ft 0x5d l.isEmpty r with
      | (.invalid, r, ws2) => (.fail, r, ws ++ ws2)
      | (.stop, r, ws2) => (.ok (.arr l), r, ws ++ ws2)
      | (.keep, r, ws2) =>
        match parseJsonAt io ft n r with
        | (.ok v, r, ws4) => ((arrLoopAt io ft n (l ++ [v]) r).1, (arrLoopAt io ft n (l ++ [v]) r).2.1,
            ws ++ ws2 ++ ws4 ++ (arrLoopAt io ft n (l ++ [v]) r).2.2)
        | (g, r, ws4) => (g, r, ws ++ ws2 ++ ws4)
end

/-- The end of `parse_internal` (json_parser.cpp 45-63). -/
def finishAt (ft : Features) (g : Got') (s : Src) : Option Value × Src × List Warn :=
  match wsCommentsAt ft.comments s.rest s.pos with
  | (false, r, ws) => (none, r, ws)
  | (true, r, ws) =>
    match g with
    | .ok v =>
      match r.rest with
      | c :: _ => (none, r, ws ++ [(r.pos, .extraneous c)])
      | [] => if isContainer v || ft.anyType then (some v, r, ws) else (none, r, ws ++ [(r.pos, .anyType)])
    | _ => (none, r, ws)

/-- `parse_internal` (json_parser.cpp 31-64) on a stream holding `s`: the result, the stream afterwards and the warnings. -/
def parseAt (io : FloatIO) (ft : Features) (s : List Nat) : Option Value × Src × List Warn :=
  match parseJsonAt io ft (2 * s.length + 2) ⟨s, .start⟩ with
  | (.threw, r, ws) => (none, r, ws ++ [(r.pos, .json)])
  | (g, r, ws) => ((finishAt ft g r).1, (finishAt ft g r).2.1, ws ++ (finishAt ft g r).2.2)

end Verif.Json
