/-!
# Specification of concurrent containers: linearizability

A history is the sequence of calls and returns of all threads. It is linearizable when one
instantaneous effect can be placed between each call and its return so that the effects, in order,
form a legal sequential history of the container, and each return reports the result of its effect.
-/

namespace Verif.Conc

/-- The calls of the public API. -/
inductive Op (α : Type)
  | push (v : α)
  /-- `pop(item)`, waiting indefinitely. -/
  | pop
  /-- `pop(item, duration)`. -/
  | popTimed
  | size
  | empty
  deriving DecidableEq

/-- What a call reports. -/
inductive Res (α : Type)
  | unit
  /-- an item was popped -/
  | item (v : α)
  /-- the timed pop gave up -/
  | nothing
  | num (n : Nat)
  | bool (b : Bool)
  deriving DecidableEq

/-- Events of a history. `lin` marks the instantaneous effect of a call; it is not visible. -/
inductive Ev (α : Type)
  | call (t : Nat) (op : Op α)
  | lin (t : Nat) (op : Op α) (r : Res α)
  | ret (t : Nat) (op : Op α) (r : Res α)
  deriving DecidableEq

/-- The thread of an event. -/
def Ev.thread {α} : Ev α → Nat
  | call t _ => t
  | lin t _ _ => t
  | ret t _ _ => t

/-- Calls and returns are visible to the program, effects are not. -/
def Ev.visible {α} : Ev α → Bool
  | lin _ _ _ => false
  | _ => true

/-- First-in first-out or last-in first-out. -/
inductive Kind
  | fifo
  | lifo
  deriving DecidableEq

/-- Sequential semantics. The list holds the items in the order they are to be popped. -/
inductive Seq {α : Type} (k : Kind) : List α → Op α → Res α → List α → Prop
  | push_fifo {l v} : k = .fifo → Seq k l (.push v) .unit (l ++ [v])
  | push_lifo {l v} : k = .lifo → Seq k l (.push v) .unit (v :: l)
  | pop {l v} : Seq k (v :: l) .pop (.item v) l
  | popTimed {l v} : Seq k (v :: l) .popTimed (.item v) l
  | popTimed_nothing : Seq k [] .popTimed .nothing []
  | size {l} : Seq k l .size (.num l.length) l
  | empty {l} : Seq k l .empty (.bool l.isEmpty) l

/-- A sequence of effects is legal from an empty container, leaving the given items. -/
inductive Legal {α : Type} (k : Kind) : List (Op α × Res α) → List α → Prop
  | nil : Legal k [] []
  | snoc {h l op r l'} : Legal k h l → Seq k l op r l' → Legal k (h ++ [(op, r)]) l'

/-- The effects in a history, in order. -/
def effects {α} (e : List (Ev α)) : List (Op α × Res α) :=
  e.filterMap fun
    | .lin _ op r => some (op, r)
    | _ => none

/-- Where a thread is after its events so far. -/
inductive Phase (α : Type)
  | idle
  | called (op : Op α)
  | effected (op : Op α) (r : Res α)

/-- The events of one thread: each call is followed by its effect and then by a return with the
effect's result. -/
inductive ThreadRun {α : Type} : List (Ev α) → Phase α → Prop
  | start : ThreadRun [] .idle
  | call {e t op} : ThreadRun e .idle → ThreadRun (e ++ [.call t op]) (.called op)
  | lin {e t op r} : ThreadRun e (.called op) → ThreadRun (e ++ [.lin t op r]) (.effected op r)
  | ret {e t op r} : ThreadRun e (.effected op r) → ThreadRun (e ++ [.ret t op r]) .idle

/-- Linearizability of a history of calls and returns. -/
def Linearizable {α} (k : Kind) (h : List (Ev α)) : Prop :=
  ∃ e : List (Ev α), e.filter Ev.visible = h ∧
    (∀ t, ∃ ph, ThreadRun (e.filter fun x => x.thread == t) ph) ∧ ∃ items, Legal k (effects e) items

/-- The values pushed / popped by effects, in order. -/
def pushes {α} (h : List (Op α × Res α)) : List α :=
  h.filterMap fun x => match x.1 with | .push v => some v | _ => none
def pops {α} (h : List (Op α × Res α)) : List α :=
  h.filterMap fun x => match x.2 with | .item v => some v | _ => none

end Verif.Conc
