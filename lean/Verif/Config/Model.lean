import Verif.Json.Ops

/-!
# Model of `fly/config`

The configuration manager and its configuration objects. Every method runs under `m_configs_mutex`, so a history is a
list of whole calls. What the parser makes of the file is an input (the parsers are modelled in `Verif.Json`,
`Verif.Ini`). Objects are numbered; a type is a number too, and `casts a b` says that an object made as type `a`
can be seen as type `b` (`std::dynamic_pointer_cast`).

Simplifications: identifiers and names are taken as JSON keys as they are (they are literals in the code; a
key that is not well-formed UTF-8 would throw). `m_configs` is kept in order of insertion, not of identifier; the
order is not observable.
-/

namespace Verif.Config

open Verif.Json (Value lookup subscript asObject)

/-- A configuration object: its identifier and type, its `m_values` (config.hpp 51), and whether someone still holds it. -/
structure Obj where
  id : List Nat
  ty : Nat
  values : Value
  live : Bool

/-- `ConfigManager`, config_manager.hpp 118-126: `m_configs` (weak references) and `m_values`; and the objects. -/
structure Manager where
  objs : List Obj
  configs : List (List Nat × Nat)
  values : Value

/-- A fresh manager: `m_values` is null. -/
def Manager.init : Manager where
  objs := []
  configs := []
  values := .null

/-- `m_values[id]` (non-const, json.hpp 1808-1811): a null value becomes an object, an absent member becomes
null. The manager keeps `m_values` an object or null, so the exception for other types does not occur. -/
def section? (id : List Nat) (v : Value) : Value × Value :=
  match asObject v with
  | some m => (.obj (subscript id m).1, (subscript id m).2)
  | none => (v, .null)

/-- The object an identifier refers to: `m_configs.find`, config_manager.hpp 134. -/
def find (id : List Nat) : List (List Nat × Nat) → Option Nat
  | [] => none
  | (k, n) :: l => if k = id then some n else find id l

/-- `m_configs[id] = config`, config_manager.hpp 139 and 153. -/
def assign (id : List Nat) (n : Nat) : List (List Nat × Nat) → List (List Nat × Nat)
  | [] => [(id, n)]
  | (k, n') :: l => if k = id then (k, n) :: l else (k, n') :: assign id n l

/-- Whether the object exists and is held by someone (`weak_ptr::lock`). -/
def Manager.isLive (s : Manager) (n : Nat) : Bool :=
  match s.objs[n]? with
  | some o => o.live
  | none => false

/-- `Config::update`, config.cpp 6-12. -/
def setValues (objs : List Obj) (n : Nat) (v : Value) : List Obj := objs.modify n fun o => { o with values := v }

/-- `config->update(m_values[T::identifier])`, config_manager.hpp 157-160. -/
def Manager.fill (s : Manager) (n : Nat) (id : List Nat) : Manager :=
  { s with objs := setValues s.objs n (section? id s.values).2, values := (section? id s.values).1 }

/-- `create_config<T>()`, config_manager.hpp 128-168: the object returned, if any. -/
def Manager.create (casts : Nat → Nat → Bool) (s : Manager) (id : List Nat) (ty : Nat) : Manager × Option Nat :=
  let fresh : Manager := { s with
    objs := s.objs ++ [{ id := id, ty := ty, values := .null, live := true }]
    configs := assign id s.objs.length s.configs }
  match find id s.configs with
  | none => (fresh.fill s.objs.length id, some s.objs.length)
  | some n =>
    match s.objs[n]? with
    | some o =>
      if o.live then
        if casts o.ty ty then (s.fill n id, some n) else (s, none)
      else (fresh.fill s.objs.length id, some s.objs.length)
    | none => (fresh.fill s.objs.length id, some s.objs.length)

/-- The last reference to an object goes away. -/
def Manager.release (s : Manager) (n : Nat) : Manager := { s with objs := s.objs.modify n fun o => { o with live := false } }

/-- `prune`, config_manager.cpp 99-118: the number returned. -/
def Manager.prune (s : Manager) : Manager × Nat :=
  let kept := s.configs.filter fun e => s.isLive e.2
  ({ s with configs := kept }, kept.length)

/-- The loop of `update_config`, config_manager.cpp 136-150. -/
def refresh (s : Manager) : List (List Nat × Nat) → Manager
  | [] => s
  | (id, n) :: rest =>
    if s.isLive n then refresh (s.fill n id) rest
    else refresh s rest

/-- `update_config`, config_manager.cpp 121-157; `parsed` is what `parse_file` gives. -/
def Manager.update (s : Manager) (parsed : Option Value) : Manager :=
  let v := parsed.getD .null
  match v with
  | .obj _ | .null =>
    { refresh { s with values := v } s.configs with configs := s.configs.filter fun e => s.isLive e.2 }
  | _ => { s with values := .null }

/-- `Config::get_value`, config.hpp 55-69: the const `operator[]` throws if the value is not an object or has no such
member (json.hpp 1815-1824), the conversion throws if it is not possible; then the default is returned. -/
def getValue {α : Type} (conv : Value → Option α) (values : Value) (name : List Nat) (dflt : α) : α :=
  match values with
  | .obj m =>
    match lookup name m with
    | some v => (conv v).getD dflt
    | none => dflt
  | _ => dflt

/-- The calls of a history. -/
inductive Op
  | create (id : List Nat) (ty : Nat)
  | release (n : Nat)
  | prune
  | update (parsed : Option Value)

/-- One call. -/
def Manager.step (casts : Nat → Nat → Bool) (s : Manager) : Op → Manager
  | .create id ty => (s.create casts id ty).1
  | .release n => s.release n
  | .prune => s.prune.1
  | .update parsed => s.update parsed

/-- `create` and `start`, config_manager.cpp 11-33 and 75-97, with a file that parses as given: the file is only
monitored, it is not read before it changes. (The configuration of the path monitor, made by the constructor,
is left out.) -/
def Manager.started (_parsed : Option Value) : Manager := .init

/-- A history from the beginning. -/
def run (casts : Nat → Nat → Bool) (ops : List Op) : Manager := ops.foldl (Manager.step casts) .init

end Verif.Config
