import Verif.Json.Ops
import Verif.Unicode.Model

/-!
# Model of the conversions between `fly::Json` and C++ types

Sources: `/repo/fly/types/json/json.hpp` 1583-1777, `/repo/fly/types/string/detail/converter.hpp`,
`/repo/fly/types/json/detail/array_util.hpp`.

An integral type is its signedness and width. `Out.ub` is undefined behaviour (a floating-point value
that does not fit the integral type, or the dereference of an empty optional).
-/

namespace Verif.Json

open Verif.Str (AsciiDigit numeral)

/-- A C++ integral type other than `bool` (concepts.hpp 46-60). -/
structure IntTy where
  signed : Bool
  bits : Nat
deriving DecidableEq, Repr

/-- `static_cast` between integral types: modulo 2^bits (json.hpp 1772). -/
def castTo (t : IntTy) (x : Int) : Int :=
  let m := x % 2 ^ t.bits
  if t.signed && decide (2 ^ (t.bits - 1) ≤ m) then m - 2 ^ t.bits else m

/-- Whether the value is one of the type. -/
def fits (t : IntTy) (x : Int) : Bool :=
  if t.signed then decide (-(2 ^ (t.bits - 1)) ≤ x) && decide (x < 2 ^ (t.bits - 1))
  else decide (0 ≤ x) && decide (x < 2 ^ t.bits)

/-- `Converter<T>::convert` for an integral type (converter.hpp 24-42): `std::from_chars`, which reads
a minus sign only for signed types, no plus sign and no blanks, and fails when the value does not fit;
the whole text must have been read. -/
def fromChars (t : IntTy) (s : List Nat) : Option Int :=
  let neg := t.signed && s.head? == some 0x2d
  let ds := if neg then s.tail else s
  let x : Int := if neg then -(numeral 10 ds : Int) else (numeral 10 ds : Int)
  if ds ≠ [] ∧ ds.all isDigit ∧ fits t x then some x else none

/-- A floating-point value without its fraction; `none` for infinities and NaN. -/
def Flt.trunc : Flt → Option Int
  | .fin n k => some (Int.tdiv n (2 ^ k))
  | _ => none

/-- `Json(T)` for an integral type (json.hpp 1623-1633): stored as 64 bits. -/
def ofInt (t : IntTy) (x : Int) : Value := if t.signed then .int x else .uint x.toNat

/-- `operator T` for an integral type (json.hpp 1754-1777): a text is parsed, a number is cast; there is
no conversion of booleans and of null. -/
def toInt (t : IntTy) : Value → Out Int
  | .str s => match fromChars t s with
    | some x => .ok x
    | none => .threw
  | .int i => .ok (castTo t i)
  | .uint n => .ok (castTo t n)
  | .flt f => match f.trunc with
    | some x => if fits t x then .ok x else .ub
    | none => .ub
  | _ => .threw

/-- `operator bool` (json.hpp 1726-1751). -/
def toBool : Value → Bool
  | .null => false
  | .str s => !s.isEmpty
  | .obj m => !m.isEmpty
  | .arr l => !l.isEmpty
  | .bool b => b
  | .int i => i != 0
  | .uint n => n != 0
  | .flt (.fin n _) => n != 0
  | .flt (.inf _) => true
  | .flt .nan => false

/-- `operator std::string` (json.hpp 1644-1674). -/
def toStr (io : FloatIO) : Value → Out (List Nat)
  | .str s => .ok s
  | .int i => .ok (fmtInt i)
  | .uint n => .ok (Verif.Digits.digits 10 n)
  | .flt f => .ok (io.fmt f)
  | _ => .threw

/-- `operator T` for a string type of another encoding (json.hpp 1653-1660): the empty optional of a
failed conversion is dereferenced. Simplification: only for stored strings. -/
def toWide (e : Verif.Unicode.Enc) : Value → Out (List Nat)
  | .str s => match Verif.Unicode.convert enc e s with
    | some r => .ok r
    | none => .ub
  | _ => .threw

/-- The loop over the elements (json.hpp 1702-1707), which stops at the first that throws. -/
def convElems {α : Type} (conv : Value → Out α) : List Value → Out (List α)
  | [] => .ok []
  | v :: l => match conv v with
    | .ok x => match convElems conv l with
      | .ok xs => .ok (x :: xs)
      | .threw => .threw
      | .ub => .ub
    | .threw => .threw
    | .ub => .ub

/-- `operator T` for the sequence containers (json.hpp 1695-1710, array_util.hpp: every one of
`deque`, `forward_list`, `list` and `vector` appends at the end). -/
def toArr {α : Type} (conv : Value → Out α) : Value → Out (List α)
  | .arr l => convElems conv l
  | _ => .threw

/-- `operator std::array<T, N>` (json.hpp 1712-1725): elements beyond N are not looked at, missing ones
keep the default. -/
def toFixed {α : Type} (conv : Value → Out α) (dflt : α) (n : Nat) : Value → Out (List α)
  | .arr l => match convElems conv (l.take n) with
    | .ok xs => .ok (xs ++ List.replicate (n - xs.length) dflt)
    | .threw => .threw
    | .ub => .ub
  | _ => .threw

/-- `Json(T)` for an array type (json.hpp 1603-1614): `push_back` of each element. -/
def ofArr (l : List Value) : Value := .arr (l.foldl (fun acc v => acc ++ [v]) [])

/-- `Json(T)` for an object type (json.hpp 1592-1600): `insert` of each entry; `none` is the exception
of a key that is not acceptable. -/
def ofMap : List (List Nat × Value) → Option (List (List Nat × Value))
  | es => es.foldl (fun acc e => match acc, convertToString e.1 with
    | some m, some k => some (insertNew k e.2 m)
    | _, _ => none) (some [])

/-- `operator T` for `std::map` with string keys (json.hpp 1678-1692). -/
def toMap : Value → Out (List (List Nat × Value))
  | .obj m => .ok m
  | _ => .threw

/-- `is_object_like()` (json.cpp 162-167). -/
def isObjectLike : Value → Bool
  | .arr l => l.length == 2 && (match (l[0]? : Option Value) with
    | some (.str _) => true
    | _ => false)
  | _ => false

/-- One step of the loop that fills the object (json.cpp 43-47): `(*it)[0]` and `(*it)[1]` are the checked
`operator[](size_type) const` (272-275, 246-256), `std::get` throws when the alternative is another, and
`emplace` leaves an existing entry alone. The list is const, so the moves are copies. `none` is an
exception inside the `noexcept` constructor, which terminates the program. -/
def addPair (acc : Option (List (List Nat × Value))) (v : Value) : Option (List (List Nat × Value)) :=
  match acc, v with
  | some m, .arr l => match (l[0]? : Option Value), (l[1]? : Option Value) with
    | some (.str k), some w => some (insertNew k w m)
    | _, _ => none
  | _, _ => none

/-- `Json(std::initializer_list<Json>)` (json.cpp 32-58). -/
def initList (vs : List Value) : Option Value :=
  if vs.all isObjectLike then (vs.foldl addPair (some [])).map .obj
  else some (.arr (vs.foldl (fun acc v => acc ++ [v]) []))

end Verif.Json
