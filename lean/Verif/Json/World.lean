import Verif.Json.Ops

/-!
# Model of programs with several `fly::Json` objects and iterators

Sources: `/repo/fly/types/json/detail/{json_iterator.hpp,json_reverse_iterator.hpp}`,
`/repo/fly/types/json/json.cpp` 277-389, 533-619, 621-666, 694-698 and
`/repo/fly/types/json/json.hpp` 1826-1852, 1973-1995, 2030-2066.

A program owns `Json` variables, named by numbers, and holds iterators. An iterator is what
`JsonIterator` stores: the object it was made for (`m_json`, null for a default-constructed one), which
alternative of the variant `m_iterator` it holds, and the place in that container.

The standard library invalidates iterators when a container changes its structure. The model is on the
safe side: every call that may insert or erase gives the variable a new version, and an iterator of an
older version is dangling. To use a dangling iterator is undefined (`ub`), unless the code throws
before it looks at the container. (`std::map` and parts of `std::vector` promise more; the theorems say
nothing about programs that rely on it.) Replacing an element through an iterator keeps the version.

Simplifications: variables are never destroyed; iterators into nested values are left out (their owner
is an element, which moves); `const` and non-`const` iterators are one type (json_iterator.hpp 516-540
copy the place unchanged); allocation fails only beyond `cap` elements, with an exception that changes
nothing.
-/

namespace Verif.Json

/-- A `JsonIterator` (json_iterator.hpp 481-482). -/
structure It where
  /-- `m_json` -/
  owner : Option Nat
  /-- the version of the owner's container it points into -/
  ver : Nat
  /-- whether `m_iterator` holds the array alternative -/
  isArr : Bool
  /-- the offset from `begin()` -/
  pos : Nat
deriving DecidableEq, Repr

/-- The variables of a program: their values and versions. -/
structure World where
  value : Nat → Value
  ver : Nat → Nat

/-- Store a value; the structure may have changed. -/
def World.put (w : World) (x : Nat) (v : Value) : World :=
  { value := fun y => if y = x then v else w.value y
    ver := fun y => if y = x then w.ver y + 1 else w.ver y }

/-- Replace the value of a variable without touching the structure of its container. -/
def World.poke (w : World) (x : Nat) (v : Value) : World :=
  { w with value := fun y => if y = x then v else w.value y }

/-- What a call returns. -/
inductive Got where
  | unit
  | flag (b : Bool)
  | num (n : Int)
  | val (v : Value)
  | key (k : List Nat)
  | it (i : It)
  | itFlag (i : It) (b : Bool)

/-- `validate_iterator()` (json_iterator.hpp 830-836). -/
def validate (i : It) : Out Nat :=
  match i.owner with
  | none => .threw
  | some x => .ok x

/-- `validate_iterator(JsonIterator const &)` (json_iterator.hpp 840-849). -/
def validatePair (i j : It) : Out Nat :=
  match i.owner, j.owner with
  | some x, some y => if x = y then .ok x else .threw
  | _, _ => .threw

/-- Whether the standard iterator inside may be used. -/
def live (w : World) (i : It) (x : Nat) : Bool := i.ver == w.ver x

/-- Sequencing of outcomes. -/
def Out.bind {α β : Type} : Out α → (α → Out β) → Out β
  | .ok a, f => f a
  | .threw, _ => .threw
  | .ub, _ => .ub

/-- `begin()` (json.cpp 320-323, json_iterator.hpp 487-513). -/
def beginOf (w : World) (x : Nat) : Out It :=
  match w.value x with
  | .obj _ => .ok ⟨some x, w.ver x, false, 0⟩
  | .arr _ => .ok ⟨some x, w.ver x, true, 0⟩
  | _ => .threw

/-- `end()` (json.cpp 338-341, json_iterator.hpp 487-513). -/
def endOf (w : World) (x : Nat) : Out It :=
  match w.value x with
  | .obj m => .ok ⟨some x, w.ver x, false, m.length⟩
  | .arr l => .ok ⟨some x, w.ver x, true, l.length⟩
  | _ => .threw

/-- `operator==` (json_iterator.hpp 613-617): the variants are compared. -/
def itEq (w : World) (i j : It) : Out Bool :=
  (validatePair i j).bind fun x =>
    if live w i x && live w j x then .ok (i.isArr == j.isArr && i.pos == j.pos) else .ub

/-- `operator!=` (json_iterator.hpp 621-624). -/
def itNe (w : World) (i j : It) : Out Bool := (itEq w i j).bind fun b => .ok (!b)

/-- `operator<` (json_iterator.hpp 628-644). -/
def itLt (w : World) (i j : It) : Out Bool :=
  (validatePair i j).bind fun x =>
    if i.isArr && j.isArr then
      if live w i x && live w j x then .ok (decide (i.pos < j.pos)) else .ub
    else .threw

/-- `operator<=` (json_iterator.hpp 648-651). -/
def itLe (w : World) (i j : It) : Out Bool := (itLt w j i).bind fun b => .ok (!b)

/-- `operator>` (json_iterator.hpp 655-658). -/
def itGt (w : World) (i j : It) : Out Bool := (itLe w i j).bind fun b => .ok (!b)

/-- `operator>=` (json_iterator.hpp 662-665). -/
def itGe (w : World) (i j : It) : Out Bool := (itLt w i j).bind fun b => .ok (!b)

/-- `operator-(JsonIterator)` (json_iterator.hpp 782-798). -/
def itDiff (w : World) (i j : It) : Out Int :=
  (validatePair i j).bind fun x =>
    if i.isArr && j.isArr then
      if live w i x && live w j x then .ok ((i.pos : Int) - j.pos) else .ub
    else .threw

/-- `validate_offset` and `std::advance` (json_iterator.hpp 852-874, 687-688) on a live iterator; the
owner's container is of the iterator's kind then. -/
def itMove (w : World) (i : It) (off : Int) : Out It :=
  (validate i).bind fun x =>
    if live w i x then
      match elements (w.value x) with
      | some l => (moveBy l.length i.pos off).bind fun p => .ok { i with pos := p }
      | none => .threw
    else .ub

/-- `operator+=`, `operator+` (json_iterator.hpp 721-739, 750-768). -/
def itAdd (w : World) (i : It) (off : Int) : Out It :=
  (validate i).bind fun _ => if i.isArr then itMove w i off else .threw

/-- `operator-=`, `operator-` of an offset (json_iterator.hpp 743-746, 772-778). -/
def itSub (w : World) (i : It) (off : Int) : Out It :=
  (negate off).bind fun o => itAdd w i o

/-- `operator*`, `operator->`, `value()` (json_iterator.hpp 544-584, 823-826). -/
def itGet (w : World) (i : It) : Out Value :=
  (validate i).bind fun x =>
    if live w i x then
      match elements (w.value x) with
      | some l => deref l i.pos
      | none => .threw
    else .ub

/-- `operator[]` (json_iterator.hpp 588-609). -/
def itIndex (w : World) (i : It) (off : Int) : Out Value :=
  (itAdd w i off).bind fun j => itGet w j

/-- `key()` (json_iterator.hpp 802-819). -/
def itKey (w : World) (i : It) : Out (List Nat) :=
  (validate i).bind fun x =>
    if i.isArr then .threw
    else if live w i x then
      match w.value x with
      | .obj m => if i.pos = m.length then .threw
        else match m[i.pos]? with
          | some e => .ok e.1
          | none => .ub
      | _ => .threw
    else .ub

/-- `*it = v`: the element is replaced where it is. -/
def itSet (w : World) (i : It) (v : Value) : Out World :=
  (itGet w i).bind fun _ =>
    match i.owner with
    | none => .threw
    | some x => match w.value x with
      | .obj m => .ok (w.poke x (.obj (m.mapIdx fun n e => if n = i.pos then (e.1, v) else e)))
      | .arr l => .ok (w.poke x (.arr (l.set i.pos v)))
      | _ => .threw

/-- `operator*` of the reverse iterator over `i` (json_reverse_iterator.hpp 258-270, standard:
`*--current`). -/
def revGet (w : World) (i : It) : Out Value := (itMove w i (-1)).bind fun j => itGet w j

/-- `key()` of the reverse iterator (json_reverse_iterator.hpp 361-372). -/
def revKey (w : World) (i : It) : Out (List Nat) := (itMove w i (-1)).bind fun j => itKey w j

/-- `operator-` of reverse iterators (json_reverse_iterator.hpp 353-357; standard: the other way round). -/
def revDiff (w : World) (i j : It) : Out Int := itDiff w j i

/-- `front()` (json.cpp 277-286). -/
def frontOf (w : World) (x : Nat) : Out Value := (beginOf w x).bind fun i => itGet w i

/-- `back()` (json.cpp 289-317). -/
def backOf (w : World) (x : Nat) : Out Value :=
  (endOf w x).bind fun e => (beginOf w x).bind fun b => (itNe w e b).bind fun ne =>
    if ne then (itMove w e (-1)).bind fun i => itGet w i else itGet w e

/-- `array_inserter` (json.hpp 2050-2067) with the elements to insert. `std::vector::insert` of a position
in the vector. -/
def arrayInsert (cap : Nat) (w : World) (x : Nat) (pos : It) (vs : List Value) : Out (World × It) :=
  match w.value x with
  | .arr l =>
    if pos.owner = some x then
      if pos.isArr then
        if live w pos x then
          if pos.pos ≤ l.length then
            if l.length + vs.length ≤ cap then
              .ok (w.put x (.arr (l.take pos.pos ++ vs ++ l.drop pos.pos)),
                ⟨some x, w.ver x + 1, true, pos.pos⟩)
            else .threw
          else .ub
        else .ub
      else .threw
    else .threw
  | _ => .threw

/-- `insert(position, first, last)` (json.cpp 572-593). A range whose end does not follow its start is
undefined. -/
def insertRange (cap : Nat) (w : World) (x : Nat) (pos first last : It) : Out (World × It) :=
  if first.owner ≠ last.owner then .threw
  else match first.owner with
    | none => .threw
    | some y => match w.value y with
      | .arr l =>
        if y = x then .threw
        else if first.isArr && last.isArr then
          match w.value x with
          | .arr _ =>
            if pos.owner = some x then
              if live w first y && live w last y && decide (first.pos ≤ last.pos) &&
                decide (last.pos ≤ l.length)
              then arrayInsert cap w x pos ((l.take last.pos).drop first.pos)
              else .ub
            else .threw
          | _ => .threw
        else .threw
      | _ => .threw

/-- `insert(first, last)` of object entries (json.cpp 534-551, json.hpp 2030-2047): entries whose keys
are present already are skipped. The standard forbids ranges of the map itself. -/
def insertEntries (w : World) (x : Nat) (first last : It) : Out World :=
  if first.owner ≠ last.owner then .threw
  else match first.owner with
    | none => .threw
    | some y => match w.value y with
      | .obj m =>
        if first.isArr || last.isArr then .threw
        else match w.value x with
          | .obj mx =>
            if live w first y && live w last y && decide (first.pos ≤ last.pos) &&
              decide (last.pos ≤ m.length) && decide (x ≠ y)
            then .ok (w.put x (.obj (mergeInto mx ((m.take last.pos).drop first.pos))))
            else .ub
          | _ => .threw
      | _ => .threw

/-- `std::vector::erase(first, last)`, `std::map::erase(first, last)`. -/
def eraseSpan {α : Type} (l : List α) (a b : Nat) : List α := l.take a ++ l.drop b

/-- The containers, with a span removed. -/
def withoutSpan (v : Value) (a b : Nat) : Value :=
  match v with
  | .obj m => .obj (eraseSpan m a b)
  | .arr l => .arr (eraseSpan l a b)
  | v => v

/-- `erase(const_iterator)` (json.cpp 622-657). -/
def eraseIt (w : World) (x : Nat) (pos : It) : Out (World × It) :=
  (endOf w x).bind fun e =>
    if pos.owner = some x then
      (itEq w pos e).bind fun b =>
        if b then .threw
        else if pos.isArr = e.isArr then
          if pos.pos < e.pos then
            .ok (w.put x (withoutSpan (w.value x) pos.pos (pos.pos + 1)),
              ⟨some x, w.ver x + 1, e.isArr, pos.pos⟩)
          else .ub
        else .threw
    else .threw

/-- `erase(const_iterator, const_iterator)` (json.cpp 660-691): the order of the two iterators is not
looked at. An empty range erases nothing and invalidates nothing in the standard library; the model
gives a new version all the same. -/
def eraseRange (w : World) (x : Nat) (first last : It) : Out (World × It) :=
  (endOf w x).bind fun e =>
    if first.owner = some x ∧ first.owner = last.owner then
      if first.isArr = e.isArr ∧ last.isArr = e.isArr then
        if live w first x && live w last x && decide (first.pos ≤ last.pos) && decide (last.pos ≤ e.pos)
        then .ok (w.put x (withoutSpan (w.value x) first.pos last.pos),
          ⟨some x, w.ver x + 1, e.isArr, first.pos⟩)
        else .ub
      else .threw
    else .threw

/-- `std::map::find` as a position (json.hpp 1979): that of the entry, or the end. -/
def keyPos (k : List Nat) : List (List Nat × Value) → Nat
  | [] => 0
  | (k', _) :: m => if k == k' then 0 else keyPos k m + 1

/-- `find(key)` (json.hpp 1973-1982). -/
def findKey (w : World) (x : Nat) (raw : List Nat) : Out It :=
  match w.value x with
  | .obj m => match convertToString raw with
    | some k => .ok ⟨some x, w.ver x, false, keyPos k m⟩
    | none => .threw
  | _ => .threw

/-- `insert(key, value)` (json.hpp 1825-1828, 2030-2047): the place of the entry of that key, and whether
it is new. -/
def insertKey (w : World) (x : Nat) (raw : List Nat) (v : Value) : Out (World × It × Bool) :=
  match w.value x with
  | .obj m => match convertToString raw with
    | some k =>
      .ok (w.put x (.obj (insertNew k v m)),
        ⟨some x, w.ver x + 1, false, keyPos k (insertNew k v m)⟩, (lookup k m).isNone)
    | none => .threw
  | _ => .threw

/-- `swap(Json &)` (json.cpp 708-711). -/
def swapVars (w : World) (x y : Nat) : World :=
  (w.put x (w.value y)).put y (w.value x)

/-- A call a program makes. -/
inductive Call where
  | make (x : Nat) (v : Value)
  | beginOf (x : Nat)
  | endOf (x : Nat)
  | front (x : Nat)
  | back (x : Nat)
  | find (x : Nat) (raw : List Nat)
  | insertKey (x : Nat) (raw : List Nat) (v : Value)
  | eq (i j : It)
  | ne (i j : It)
  | lt (i j : It)
  | le (i j : It)
  | gt (i j : It)
  | ge (i j : It)
  | diff (i j : It)
  | inc (i : It)
  | dec (i : It)
  | add (i : It) (off : Int)
  | sub (i : It) (off : Int)
  | get (i : It)
  | index (i : It) (off : Int)
  | key (i : It)
  | set (i : It) (v : Value)
  | revGet (i : It)
  | revKey (i : It)
  | revDiff (i j : It)
  | insert (x : Nat) (pos : It) (v : Value)
  | insertMany (x : Nat) (pos : It) (n : Nat) (v : Value)
  | insertRange (x : Nat) (pos first last : It)
  | insertEntries (x : Nat) (first last : It)
  | erase (x : Nat) (pos : It)
  | eraseRange (x : Nat) (first last : It)
  | swap (x y : Nat)
  /-- any of the calls of `Op`, by name -/
  | other (x : Nat) (o : Op)

/-- The outcome of a call that changes nothing. -/
def pureCall {α : Type} (w : World) (f : α → Got) (o : Out α) : Out (World × Got) :=
  o.bind fun a => .ok (w, f a)

/-- One call: the variables afterwards and what was returned. -/
def call (cap : Nat) (w : World) : Call → Out (World × Got)
  | .make x v => .ok (w.put x v, .unit)
  | .beginOf x => pureCall w .it (Verif.Json.beginOf w x)
  | .endOf x => pureCall w .it (Verif.Json.endOf w x)
  | .front x => pureCall w .val (frontOf w x)
  | .back x => pureCall w .val (backOf w x)
  | .find x raw => pureCall w .it (findKey w x raw)
  | .insertKey x raw v => (Verif.Json.insertKey w x raw v).bind fun r => .ok (r.1, .itFlag r.2.1 r.2.2)
  | .eq i j => pureCall w .flag (itEq w i j)
  | .ne i j => pureCall w .flag (itNe w i j)
  | .lt i j => pureCall w .flag (itLt w i j)
  | .le i j => pureCall w .flag (itLe w i j)
  | .gt i j => pureCall w .flag (itGt w i j)
  | .ge i j => pureCall w .flag (itGe w i j)
  | .diff i j => pureCall w .num (itDiff w i j)
  | .inc i => pureCall w .it (itMove w i 1)
  | .dec i => pureCall w .it (itMove w i (-1))
  | .add i off => pureCall w .it (itAdd w i off)
  | .sub i off => pureCall w .it (itSub w i off)
  | .get i => pureCall w .val (itGet w i)
  | .index i off => pureCall w .val (itIndex w i off)
  | .key i => pureCall w .key (itKey w i)
  | .set i v => (itSet w i v).bind fun w' => .ok (w', .unit)
  | .revGet i => pureCall w .val (Verif.Json.revGet w i)
  | .revKey i => pureCall w .key (Verif.Json.revKey w i)
  | .revDiff i j => pureCall w .num (Verif.Json.revDiff w i j)
  | .insert x pos v => (arrayInsert cap w x pos [v]).bind fun r => .ok (r.1, .it r.2)
  | .insertMany x pos n v => (arrayInsert cap w x pos (List.replicate n v)).bind fun r => .ok (r.1, .it r.2)
  | .insertRange x pos a b => (Verif.Json.insertRange cap w x pos a b).bind fun r => .ok (r.1, .it r.2)
  | .insertEntries x a b => (Verif.Json.insertEntries w x a b).bind fun w' => .ok (w', .unit)
  | .erase x pos => (eraseIt w x pos).bind fun r => .ok (r.1, .it r.2)
  | .eraseRange x a b => (Verif.Json.eraseRange w x a b).bind fun r => .ok (r.1, .it r.2)
  | .swap x y => .ok (swapVars w x y, .unit)
  | .other x o => .ok (w.put x (step cap (w.value x) o).1, .unit)

end Verif.Json
