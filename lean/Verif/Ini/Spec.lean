import Verif.Json.Spec
import Verif.Str.Spec

/-!
# Specification of INI documents

Independent of the parser: what a line means, and the object a sequence of lines denotes. Strings and
names are JSON strings (`StringBody`: escapes are allowed and un-escaped).
-/

namespace Verif.Ini

open Verif.Json (Value MapOf StringBody)
open Verif.Str (AsciiSpace Pieces joinWith)

/-- `t` is `l` without the white space around it. -/
def Stripped (l t : List Nat) : Prop :=
  ∃ a b, l = a ++ t ++ b ∧ (∀ c ∈ a, AsciiSpace c) ∧ (∀ c ∈ b, AsciiSpace c) ∧
    (∀ c, t.head? = some c → ¬ AsciiSpace c) ∧ (∀ c, t.getLast? = some c → ¬ AsciiSpace c)

/-- No quote at either end. -/
def Bare (t : List Nat) : Prop :=
  t.head? ≠ some 0x27 ∧ t.getLast? ≠ some 0x27 ∧ t.head? ≠ some 0x22 ∧ t.getLast? ≠ some 0x22

/-- `u` is `t` without the pair of quotes `q` around it, if there is one; a single quote character
alone counts as a pair. A quote at one end only is not allowed. -/
def Unquoted (q : Nat) (t u : List Nat) : Prop :=
  t = q :: (u ++ [q]) ∨ (t = [q] ∧ u = []) ∨ (t.head? ≠ some q ∧ t.getLast? ≠ some q ∧ u = t)

/-- What a line says. -/
inductive Item where
  | nothing
  | header (name : List Nat)
  | setting (name value : List Nat)

/-- The meaning of a line. -/
inductive Line : List Nat → Item → Prop
  /-- white space only -/
  | blank {l} : Stripped l [] → Line l .nothing
  /-- `; comment` -/
  | comment {l t} : Stripped l (0x3b :: t) → Line l .nothing
  /-- `[name]` -/
  | header {l b n k} : Stripped l (0x5b :: (b ++ [0x5d])) → Stripped b n → Bare n → StringBody n k →
      Line l (.header k)
  /-- `name=value`: the fields separated by one or more `=` are the name and the parts of the value -/
  | setting {l t n0 v0 r n v v1 v2 kn kv} : Stripped l t → t.head? ≠ some 0x3b →
      t.head? ≠ some 0x5b → t.getLast? ≠ some 0x5d → Pieces 0x3d t (n0 :: v0 :: r) →
      Stripped n0 n → Bare n → Stripped (joinWith 0x3d (v0 :: r)) v → Unquoted 0x27 v v1 →
      Unquoted 0x22 v1 v2 → StringBody n kn → StringBody v2 kv → Line l (.setting kn kv)

/-- The lines of a text. -/
def Lines (s : List Nat) (ls : List (List Nat)) : Prop :=
  ls ≠ [] ∧ (∀ l ∈ ls, 0x0a ∉ l) ∧ joinWith 0x0a ls = s

/-- The section declarations of a sequence of lines in order, each with its settings in order. -/
abbrev Doc := List (List Nat × List (List Nat × List Nat))

/-- `Reads ls d`: every line has a meaning, settings come after a section header, and `d` are the
declarations. -/
inductive Reads : List (List Nat) → Doc → Prop
  | nil : Reads [] []
  | nothing {ls d l} : Reads ls d → Line l .nothing → Reads (ls ++ [l]) d
  | header {ls d l k} : Reads ls d → Line l (.header k) → Reads (ls ++ [l]) (d ++ [(k, [])])
  | setting {ls d l k as n v} : Reads ls (d ++ [(k, as)]) → Line l (.setting n v) →
      Reads (ls ++ [l]) (d ++ [(k, as ++ [(n, v)])])

/-- The settings of one declaration as a JSON object: the last setting of a name wins. -/
def SectionValue (as : List (List Nat × List Nat)) (v : Value) : Prop :=
  ∃ m, v = .obj m ∧ MapOf (as.map (fun p => (p.1, .str p.2))) m

/-- The declarations, each with its JSON object. -/
inductive Entries : Doc → List (List Nat × Value) → Prop
  | nil : Entries [] []
  | snoc {d es k as v} : Entries d es → SectionValue as v → Entries (d ++ [(k, as)]) (es ++ [(k, v)])

/-- The JSON object of a document: of several declarations of a section, the last one counts. -/
def Denotes (d : Doc) (v : Value) : Prop := ∃ es m, Entries d es ∧ MapOf es m ∧ v = .obj m

end Verif.Ini
