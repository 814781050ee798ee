import Verif.Json.Parser

/-!
# Model of the container operations and iterators of `fly::Json`

Sources: `/repo/fly/types/json/json.cpp` 233-275, 392-454, 511-531, 602-619, 669-729,
`/repo/fly/types/json/json.hpp` 1781-1880, 1965-2003, 2030-2113 and
`/repo/fly/types/json/detail/{json_iterator.hpp,json_reverse_iterator.hpp}`.

A call is an `Op`; `step` gives the value of the JSON object afterwards and what the call returned or
that it threw. References returned by `at` and `operator[]` are modelled by the value referred to;
`json[i] = v` is the operation `setIdx`. `size_type` is 64 bits wide. `cap` is the largest array size
the allocator grants: above it the standard library throws and leaves the vector as it was.

Simplifications: iterator ranges as arguments are left out, except the single position of
`insert`/`erase`, which is given as the offset from `begin()`; self-arguments (`json.merge(json)`) are
left out.
-/

namespace Verif.Json

/-- A call of a member function. Keys are the raw argument texts. -/
inductive Op where
  | size
  | empty
  | atIdx (i : Nat)
  | atKey (raw : List Nat)
  | subIdx (i : Nat)
  | subKey (raw : List Nat)
  | setIdx (i : Nat) (v : Value)
  | setKey (raw : List Nat) (v : Value)
  | contains (raw : List Nat)
  | insert (raw : List Nat) (v : Value)
  | insertOrAssign (raw : List Nat) (v : Value)
  | eraseKey (raw : List Nat)
  | eraseIdx (i : Nat)
  | insertAt (pos : Nat) (v : Value)
  | pushBack (v : Value)
  | popBack
  | resize (n : Nat)
  | clear
  | merge (other : Value)

/-- What a call returns. -/
inductive Ret where
  | threw
  | unit
  | val (v : Value)
  | flag (b : Bool)
  | num (n : Nat)

/-- `std::map::find` (json.hpp 1784). -/
def lookup (k : List Nat) : List (List Nat × Value) → Option Value
  | [] => none
  | (k', v) :: m => if k == k' then some v else lookup k m

/-- `std::map::insert`, which leaves an existing entry alone (json.hpp 2040). -/
def insertNew (k : List Nat) (v : Value) : List (List Nat × Value) → List (List Nat × Value)
  | [] => [(k, v)]
  | (k', v') :: m =>
    if strLt k k' then (k, v) :: (k', v') :: m
    else if strLt k' k then (k', v') :: insertNew k v m
    else (k', v') :: m

/-- `std::map::erase` of a key (json.hpp 1879). -/
def eraseEntry (k : List Nat) : List (List Nat × Value) → List (List Nat × Value)
  | [] => []
  | (k', v) :: m => if k == k' then m else (k', v) :: eraseEntry k m

/-- `std::map::merge` (json.cpp 719): the entries of the other map that are new. -/
def mergeInto (m : List (List Nat × Value)) : List (List Nat × Value) → List (List Nat × Value)
  | [] => m
  | (k, v) :: o => mergeInto (insertNew k v m) o

/-- `std::vector::resize` (json.cpp 445, 265): `none` when it throws. -/
def resizeTo (cap n : Nat) (l : List Value) : Option (List Value) :=
  if n ≤ l.length then some (l.take n)
  else if n ≤ cap then some (l ++ List.replicate (n - l.length) .null)
  else none

/-- `std::string::resize` (json.cpp 445), which pads with zero bytes. -/
def resizeStr (cap n : Nat) (s : List Nat) : Option (List Nat) :=
  if n ≤ s.length then some (s.take n)
  else if n ≤ cap then some (s ++ List.replicate (n - s.length) 0)
  else none

/-- `get_or_promote<json_array_type>` (json.hpp 2084-2100): the promoted value and its elements. -/
def asArray : Value → Option (List Value)
  | .null => some []
  | .arr l => some l
  | _ => none

/-- `get_or_promote<json_object_type>` (json.hpp 2084-2100). -/
def asObject : Value → Option (List (List Nat × Value))
  | .null => some []
  | .obj m => some m
  | _ => none

/-- `operator[](size_type)` (json.cpp 259-269): the array after the call, and whether it throws
(`storage.at(index)` throws when `index + 1` wrapped around to 0). -/
def growTo (cap i : Nat) (l : List Value) : List Value × Bool :=
  if i < l.length then (l, true)
  else
    match resizeTo cap ((i + 1) % 2 ^ 64) l with
    | none => (l, false)
    | some l' => (l', decide (i < l'.length))

/-- `operator[](T key)` (json.hpp 1811-1815) on the map: the entry is created with a null value. -/
def subscript (k : List Nat) (m : List (List Nat × Value)) : List (List Nat × Value) × Value :=
  let m' := insertNew k .null m
  (m', (lookup k m').getD .null)

/-- `size()` (json.cpp 415-435). -/
def sizeOfJson : Value → Nat
  | .null => 0
  | .str s => s.length
  | .obj m => m.length
  | .arr l => l.length
  | _ => 1

/-- `empty()` (json.cpp 392-412). -/
def emptyJson : Value → Bool
  | .null => true
  | .str s => s.isEmpty
  | .obj m => m.isEmpty
  | .arr l => l.isEmpty
  | _ => false

/-- `clear()` (json.cpp 511-531). -/
def clearJson : Value → Value
  | .null => .null
  | .str _ => .str []
  | .obj _ => .obj []
  | .arr _ => .arr []
  | .bool _ => .bool false
  | .int _ => .int 0
  | .uint _ => .uint 0
  | .flt _ => .flt (.fin 0 0)

/-- `erase(size_type)` (json.cpp 695-705). -/
def eraseAt (i : Nat) (v : Value) : Value × Ret :=
  match v with
  | .arr l => if i < l.length then (.arr (l.eraseIdx i), .unit) else (v, .threw)
  | _ => (v, .threw)

/-- `resize` (json.cpp 438-454). -/
def resizeJson (cap n : Nat) (v : Value) : Value × Ret :=
  match v with
  | .arr l => match resizeTo cap n l with
    | some l' => (.arr l', .unit)
    | none => (v, .threw)
  | .str s => match resizeStr cap n s with
    | some s' => (.str s', .unit)
    | none => (v, .threw)
  | _ => (v, .threw)

/-- A call that needs an object and a valid key: `get<json_object_type>` and `convert_to_string`
(json.hpp 1781-1784 and others); nothing has happened when either throws. -/
def withKey (v : Value) (raw : List Nat)
    (f : List (List Nat × Value) → List Nat → Value × Ret) : Value × Ret :=
  match v with
  | .obj m => match convertToString raw with
    | some k => f m k
    | none => (v, .threw)
  | _ => (v, .threw)

/-- `operator[](T key)` with what is done to the reference (json.hpp 1811-1815): the promotion of a
null value happens before the key is converted. -/
def withSubscript (v : Value) (raw : List Nat)
    (f : List (List Nat × Value) → List Nat → Value × Ret) : Value × Ret :=
  match asObject v with
  | none => (v, .threw)
  | some m => match convertToString raw with
    | some k => f m k
    | none => (.obj m, .threw)

/-- `operator[](size_type)` with what is done to the reference (json.cpp 259-269). -/
def withIndex (cap : Nat) (v : Value) (i : Nat) (f : List Value → Value × Ret) : Value × Ret :=
  match asArray v with
  | none => (v, .threw)
  | some l => if (growTo cap i l).2 then f (growTo cap i l).1 else (.arr (growTo cap i l).1, .threw)

/-- One call. -/
def step (cap : Nat) (v : Value) : Op → Value × Ret
  -- json.cpp 415-435
  | .size => (v, .num (sizeOfJson v))
  -- json.cpp 392-412
  | .empty => (v, .flag (emptyJson v))
  -- json.cpp 233-243
  | .atIdx i => match v with
    | .arr l => match l[i]? with
      | some x => (v, .val x)
      | none => (v, .threw)
    | _ => (v, .threw)
  -- json.hpp 1781-1792
  | .atKey raw => withKey v raw fun m k => match lookup k m with
    | some x => (v, .val x)
    | none => (v, .threw)
  -- json.cpp 259-269
  | .subIdx i => withIndex cap v i fun l => (.arr l, .val (l.getD i .null))
  -- json.hpp 1811-1815
  | .subKey raw => withSubscript v raw fun m k => (.obj (subscript k m).1, .val (subscript k m).2)
  | .setIdx i x => withIndex cap v i fun l => (.arr (l.set i x), .unit)
  | .setKey raw x => withSubscript v raw fun m k => (.obj (insertOrAssign k x (subscript k m).1), .unit)
  -- json.hpp 1998-2003
  | .contains raw => withKey v raw fun m k => (v, .flag (lookup k m).isSome)
  -- json.hpp 1826-1829: the flag tells whether the entry is new
  | .insert raw x => withKey v raw fun m k => (.obj (insertNew k x m), .flag (lookup k m).isNone)
  -- json.hpp 1840-1851
  | .insertOrAssign raw x =>
    withKey v raw fun m k => (.obj (insertOrAssign k x m), .flag (lookup k m).isNone)
  -- json.hpp 1876-1880
  | .eraseKey raw => withKey v raw fun m k =>
    (.obj (eraseEntry k m), .num (if (lookup k m).isSome then 1 else 0))
  -- json.cpp 695-705
  | .eraseIdx i => eraseAt i v
  -- json.cpp 554-557, json.hpp 2051-2067: `insert(begin() + pos, x)`; the offset is checked
  | .insertAt pos x => match v with
    | .arr l => if pos ≤ l.length ∧ l.length < cap
      then (.arr (l.take pos ++ x :: l.drop pos), .unit) else (v, .threw)
    | _ => (v, .threw)
  -- json.cpp 602-613
  | .pushBack x => match asArray v with
    | some l => if l.length < cap then (.arr (l ++ [x]), .unit) else (v, .threw)
    | none => (v, .threw)
  -- json.cpp 616-619: `size() - 1` wraps around
  | .popBack => eraseAt ((sizeOfJson v + 2 ^ 64 - 1) % 2 ^ 64) v
  | .resize n => resizeJson cap n v
  -- json.cpp 511-531
  | .clear => (clearJson v, .unit)
  -- json.cpp 714-720
  | .merge o => match asObject v with
    | none => (v, .threw)
    | some m => match o with
      | .obj m' => (.obj (mergeInto m m'), .unit)
      | _ => (.obj m, .threw)

/-- A history of calls on one object: the final value and the results in order. -/
def run (cap : Nat) : Value → List Op → Value × List Ret
  | v, [] => (v, [])
  | v, o :: os => ((run cap (step cap v o).1 os).1, (step cap v o).2 :: (run cap (step cap v o).1 os).2)

/-! ## Iterators -/

/-- Outcome of an iterator operation. -/
inductive Out (α : Type) where
  | ok (a : α)
  | threw
  | ub
deriving DecidableEq, Repr

/-- The elements an iterator runs over: the values of an object or array (json_iterator.hpp 487-513);
`none` when the constructor throws. -/
def elements : Value → Option (List Value)
  | .obj m => some (m.map (·.2))
  | .arr l => some l
  | _ => none

/-- Whether offsets are supported (`is_array_iterator`, json_iterator.hpp 435). -/
def hasOffsets : Value → Bool
  | .arr _ => true
  | _ => false

/-- `validate_offset` (json_iterator.hpp 852-874) of an iterator at position `pos` of `n` elements:
`std::abs` of the smallest `difference_type` is undefined. -/
def validateOffset (n pos : Nat) (off : Int) : Out Unit :=
  if off = -(2 ^ 63) then .ub
  else if 0 ≤ off then (if off > (n : Int) - pos then .threw else .ok ())
  else (if -off > (pos : Int) then .threw else .ok ())

/-- `std::advance` on the position. -/
def advance (pos : Nat) (off : Int) : Nat := ((pos : Int) + off).toNat

/-- `operator+=` and `++`, `--` (json_iterator.hpp 679-739). -/
def moveBy (n pos : Nat) (off : Int) : Out Nat :=
  match validateOffset n pos off with
  | .ok _ => .ok (advance pos off)
  | .threw => .threw
  | .ub => .ub

/-- `operator*` (json_iterator.hpp 544-562) with `validate_dereference` (876-887): reading beyond the
last element is undefined. -/
def deref (l : List Value) (pos : Nat) : Out Value :=
  if pos = l.length then .threw
  else match l[pos]? with
    | some v => .ok v
    | none => .ub

/-- What is done with an iterator. -/
inductive ItOp where
  | inc
  | dec
  | add (off : Int)
  | sub (off : Int)
  | get
  | index (off : Int)
  /-- dereference of the reverse iterator over it (json_reverse_iterator.hpp 258-270) -/
  | getReverse

/-- Negation of a `difference_type`. -/
def negate (off : Int) : Out Int := if off = -(2 ^ 63) then .ub else .ok (-off)

/-- One iterator operation: the position afterwards and the element read, if any. -/
def itStep (v : Value) (l : List Value) (pos : Nat) : ItOp → Out (Nat × Option Value)
  -- json_iterator.hpp 679-691
  | .inc => match moveBy l.length pos 1 with
    | .ok p => .ok (p, none)
    | .threw => .threw
    | .ub => .ub
  -- json_iterator.hpp 705-717
  | .dec => match moveBy l.length pos (-1) with
    | .ok p => .ok (p, none)
    | .threw => .threw
    | .ub => .ub
  -- json_iterator.hpp 721-739
  | .add off => if hasOffsets v then
      match moveBy l.length pos off with
      | .ok p => .ok (p, none)
      | .threw => .threw
      | .ub => .ub
    else .threw
  -- json_iterator.hpp 743-746
  | .sub off => match negate off with
    | .ok o => if hasOffsets v then
        match moveBy l.length pos o with
        | .ok p => .ok (p, none)
        | .threw => .threw
        | .ub => .ub
      else .threw
    | .threw => .threw
    | .ub => .ub
  -- json_iterator.hpp 544-562
  | .get => match deref l pos with
    | .ok x => .ok (pos, some x)
    | .threw => .threw
    | .ub => .ub
  -- json_iterator.hpp 588-609
  | .index off => if hasOffsets v then
      match moveBy l.length pos off with
      | .ok p => match deref l p with
        | .ok x => .ok (pos, some x)
        | .threw => .threw
        | .ub => .ub
      | .threw => .threw
      | .ub => .ub
    else .threw
  -- std::reverse_iterator::operator* is `*--base`; an out-of-range exception is translated
  | .getReverse => match moveBy l.length pos (-1) with
    | .ok p => match deref l p with
      | .ok x => .ok (pos, some x)
      | .threw => .threw
      | .ub => .ub
    | .threw => .threw
    | .ub => .ub

/-- A sequence of operations on one iterator, an operation that throws leaving it where it was: the
final position and the elements read. `ub` as soon as one operation is undefined. -/
def itRun (v : Value) (l : List Value) : Nat → List ItOp → Out (Nat × List Value)
  | pos, [] => .ok (pos, [])
  | pos, o :: os =>
    match itStep v l pos o with
    | .ub => .ub
    | .threw => itRun v l pos os
    | .ok (p, x) =>
      match itRun v l p os with
      | .ok (q, xs) => .ok (q, x.toList ++ xs)
      | .threw => .threw
      | .ub => .ub

end Verif.Json
