import Verif.Json.OpsSpec

/-!
# C155: the other accessors of JSON objects and arrays

Source: `/repo/fly/types/json/json.hpp` 1778-1880, 1964-2003 and `/repo/fly/types/json/json.cpp` 230-320. `Op` (C35) has
the calls that are enough to build every document; here are the ones a program uses as well: references got from `at()`,
`front()` and `back()`, the const `operator[]`, `find`, `count`, and the two `emplace` functions, which construct the
new value from their argument.
-/

namespace Verif.Json

/-- What a value is constructed from (json.hpp 1585-1640): a `Json`, whose copy cannot fail (memory is not modelled),
or a text. -/
inductive Arg where
  | json (v : Value)
  | text (raw : List Nat)

/-- The constructed value; `none` when the constructor throws (json.hpp 1585-1590, 2009-2029). -/
def Arg.construct : Arg → Option Value
  | .json v => some v
  | .text raw => (convertToString raw).map .str

/-- A call. -/
inductive MoreOp where
  /-- one of the calls of C35 -/
  | old (o : Op)
  | constIdx (i : Nat)
  | constKey (raw : List Nat)
  /-- assignment to the reference `at()` returns -/
  | setAtIdx (i : Nat) (v : Value)
  | setAtKey (raw : List Nat) (v : Value)
  | front
  | back
  | setFront (v : Value)
  | setBack (v : Value)
  | count (raw : List Nat)
  /-- `find`, and a dereference if it is not `end()` -/
  | find (raw : List Nat)
  | emplace (raw : List Nat) (a : Arg)
  | emplaceBack (a : Arg)

/-- Assignment to the value of an entry that is there (json.hpp 1784, 1791). -/
def assignEntry (k : List Nat) (x : Value) : List (List Nat × Value) → List (List Nat × Value)
  | [] => []
  | (k', v) :: m => if k == k' then (k', x) :: m else (k', v) :: assignEntry k x m

/-- The position `front()` and `back()` dereference (json.cpp 277-317): `end()` if there is no element. -/
def endpoint (last : Bool) (n : Nat) : Nat := if last ∧ n ≠ 0 then n - 1 else 0

/-- `front()` and `back()` (json.cpp 277-317), and what is done with the reference; without an element the iterator
cannot be dereferenced, of other values there is no iterator (json_iterator.hpp 487-513, 544-562). -/
def atEndpoint (v : Value) (last : Bool) (onMap : List (List Nat × Value) → Nat → List Nat × Value → Value × Ret)
    (onSeq : List Value → Nat → Value → Value × Ret) : Value × Ret :=
  match v with
  | .obj m => match m[endpoint last m.length]? with
    | some e => onMap m (endpoint last m.length) e
    | none => (v, .threw)
  | .arr l => match l[endpoint last l.length]? with
    | some x => onSeq l (endpoint last l.length) x
    | none => (v, .threw)
  | _ => (v, .threw)

/-- One call. -/
def stepMore (cap : Nat) (v : Value) : MoreOp → Value × Ret
  | .old o => step cap v o
  -- json.cpp 272-275
  | .constIdx i => step cap v (.atIdx i)
  -- json.hpp 1819-1822
  | .constKey raw => step cap v (.atKey raw)
  -- json.cpp 233-243
  | .setAtIdx i x => match v with
    | .arr l => if i < l.length then (.arr (l.set i x), .unit) else (v, .threw)
    | _ => (v, .threw)
  -- json.hpp 1780-1792
  | .setAtKey raw x => withKey v raw fun m k => match lookup k m with
    | some _ => (.obj (assignEntry k x m), .unit)
    | none => (v, .threw)
  -- json.cpp 277-317
  | .front => atEndpoint v false (fun _ _ e => (v, .val e.2)) (fun _ _ y => (v, .val y))
  | .back => atEndpoint v true (fun _ _ e => (v, .val e.2)) (fun _ _ y => (v, .val y))
  | .setFront x => atEndpoint v false (fun m p e => (.obj (m.set p (e.1, x)), .unit)) (fun l p _ => (.arr (l.set p x), .unit))
  | .setBack x => atEndpoint v true (fun m p e => (.obj (m.set p (e.1, x)), .unit)) (fun l p _ => (.arr (l.set p x), .unit))
  -- json.hpp 1966-1970
  | .count raw => withKey v raw fun m k => (v, .num (if (lookup k m).isSome then 1 else 0))
  -- json.hpp 1974-1994
  | .find raw => withKey v raw fun m k => match lookup k m with
    | some x => (v, .val x)
    | none => (v, .flag false)
  -- json.hpp 1855-1864: a null value becomes an object first
  | .emplace raw a => withSubscript v raw fun m k => match a.construct with
    | some x => (.obj (insertNew k x m), .flag (lookup k m).isNone)
    | none => (.obj m, .threw)
  -- json.hpp 1868-1872: a null value becomes an array first
  | .emplaceBack a => match asArray v with
    | none => (v, .threw)
    | some l => match a.construct with
      | some x => if l.length < cap then (.arr (l ++ [x]), .val x) else (.arr l, .threw)
      | none => (.arr l, .threw)

/-- A history of calls on one object: the final value and the results in order. -/
def runMore (cap : Nat) : Value → List MoreOp → Value × List Ret
  | v, [] => (v, [])
  | v, o :: os =>
    ((runMore cap (stepMore cap v o).1 os).1, (stepMore cap v o).2 :: (runMore cap (stepMore cap v o).1 os).2)

/-! ## Specification -/

/-- The value a text or `Json` denotes. -/
def Arg.Means : Arg → Value → Prop
  | .json v, x => x = v
  | .text raw, x => ∃ t, StringBody raw t ∧ x = .str t

/-- `k` is the first key of the map in byte order. -/
def FirstKey (f : List Nat → Option Value) (k : List Nat) : Prop := f k ≠ none ∧ ∀ k', f k' ≠ none → k' = k ∨ k < k'

/-- `k` is the last one. -/
def LastKey (f : List Nat → Option Value) (k : List Nat) : Prop := f k ≠ none ∧ ∀ k', f k' ≠ none → k' = k ∨ k' < k

/-- Operations on a map. -/
def MoreMap (s : Abs) (f : List Nat → Option Value) (op : MoreOp) (s' : Abs) (r : Ret) : Prop :=
  match op with
  | .constKey raw => Keyed s raw s' r fun k =>
      (∃ x, f k = some x ∧ s' = s ∧ r = .val x) ∨ (f k = none ∧ Fails s s' r)
  | .setAtKey raw x => Keyed s raw s' r fun k =>
      (f k ≠ none ∧ s' = .map (upd f k (some x)) ∧ r = .unit) ∨ (f k = none ∧ Fails s s' r)
  | .front => (∃ k x, FirstKey f k ∧ f k = some x ∧ s' = s ∧ r = .val x) ∨ ((∀ k, f k = none) ∧ Fails s s' r)
  | .back => (∃ k x, LastKey f k ∧ f k = some x ∧ s' = s ∧ r = .val x) ∨ ((∀ k, f k = none) ∧ Fails s s' r)
  | .setFront x => (∃ k, FirstKey f k ∧ s' = .map (upd f k (some x)) ∧ r = .unit) ∨ ((∀ k, f k = none) ∧ Fails s s' r)
  | .setBack x => (∃ k, LastKey f k ∧ s' = .map (upd f k (some x)) ∧ r = .unit) ∨ ((∀ k, f k = none) ∧ Fails s s' r)
  | .count raw => Keyed s raw s' r fun k => s' = s ∧ r = .num (if f k = none then 0 else 1)
  | .find raw => Keyed s raw s' r fun k =>
      s' = s ∧ ((∃ x, f k = some x ∧ r = .val x) ∨ (f k = none ∧ r = .flag false))
  | .emplace raw a => Keyed s raw s' r fun k =>
      (∃ x, a.Means x ∧ ((f k = none ∧ s' = .map (upd f k (some x)) ∧ r = .flag true) ∨
        (f k ≠ none ∧ s' = s ∧ r = .flag false))) ∨
      ((∀ x, ¬ a.Means x) ∧ Fails s s' r)
  | _ => Fails s s' r

/-- Operations on a sequence; at most `cap` elements can be stored. -/
def MoreSeq (cap : Nat) (s : Abs) (l : List Value) (op : MoreOp) (s' : Abs) (r : Ret) : Prop :=
  match op with
  | .constIdx i => (∃ x, l[i]? = some x ∧ s' = s ∧ r = .val x) ∨ (l.length ≤ i ∧ Fails s s' r)
  | .setAtIdx i x => (∃ a y b, l = a ++ y :: b ∧ a.length = i ∧ s' = .seq (a ++ x :: b) ∧ r = .unit) ∨
      (l.length ≤ i ∧ Fails s s' r)
  | .front => (∃ x b, l = x :: b ∧ s' = s ∧ r = .val x) ∨ (l = [] ∧ Fails s s' r)
  | .back => (∃ a x, l = a ++ [x] ∧ s' = s ∧ r = .val x) ∨ (l = [] ∧ Fails s s' r)
  | .setFront x => (∃ y b, l = y :: b ∧ s' = .seq (x :: b) ∧ r = .unit) ∨ (l = [] ∧ Fails s s' r)
  | .setBack x => (∃ a y, l = a ++ [y] ∧ s' = .seq (a ++ [x]) ∧ r = .unit) ∨ (l = [] ∧ Fails s s' r)
  | .emplaceBack a => (∃ x, a.Means x ∧ l.length < cap ∧ s' = .seq (l ++ [x]) ∧ r = .val x) ∨
      (((∀ x, ¬ a.Means x) ∨ cap ≤ l.length) ∧ Fails s s' r)
  | _ => Fails s s' r

/-- What a call has to do: on a null value the `emplace` functions work as on an empty object or array. -/
def MoreExpected (cap : Nat) (s : Abs) (op : MoreOp) (s' : Abs) (r : Ret) : Prop :=
  match op with
  | .old o => Expected cap s o s' r
  | op =>
    match s with
    | .map f => MoreMap s f op s' r
    | .seq l => MoreSeq cap s l op s' r
    | .null => match op with
      | .emplace _ _ => MoreMap s (fun _ => none) op s' r
      | .emplaceBack _ => MoreSeq cap s [] op s' r
      | _ => Fails s s' r
    | .other _ => Fails s s' r

/-- A history of calls. -/
inductive MoreHistory (cap : Nat) : Abs → List MoreOp → Abs → List Ret → Prop
  | nil {s} : MoreHistory cap s [] s []
  | cons {s s' s'' op ops r rs} : MoreExpected cap s op s' r → MoreHistory cap s' ops s'' rs →
      MoreHistory cap s (op :: ops) s'' (r :: rs)

/-- Byte strings. -/
def Arg.Ok : Arg → Prop
  | .json _ => True
  | .text raw => ∀ b ∈ raw, b < 256

/-- Arguments a caller can pass. -/
def MoreOp.Ok : MoreOp → Prop
  | .old o => o.Ok
  | .constKey raw | .setAtKey raw _ | .count raw | .find raw => ∀ b ∈ raw, b < 256
  | .emplace raw a => (∀ b ∈ raw, b < 256) ∧ a.Ok
  | .emplaceBack a => a.Ok
  | .constIdx i | .setAtIdx i _ => i < 2 ^ 64
  | _ => True

/-- The calls that fail and change something: those of C35, and the `emplace` functions when they fail on a null value,
which becomes an empty container. -/
def MoreDeviates (cap : Nat) (v : Value) : MoreOp → Prop
  | .old o => Deviates cap v o
  | .emplace raw a => v = .null ∧ ((∀ k, ¬ StringBody raw k) ∨ ∀ x, ¬ a.Means x)
  | .emplaceBack a => v = .null ∧ ((∀ x, ¬ a.Means x) ∨ cap = 0)
  | _ => False

end Verif.Json
