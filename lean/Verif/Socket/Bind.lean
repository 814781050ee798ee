/-!
# C157: binding a socket to an endpoint

Sources: `/repo/fly/net/socket/detail/nix/socket_operations.cpp` 151-181, 221-234, 259-283, `/repo/fly/net/socket/detail/win/socket_operations.cpp`
268-293, `/repo/fly/net/socket/detail/base_socket.cpp` 139-164. The table of the operating system is part of the
model: it gives an endpoint to a second socket only if the sockets it would share it with permit that.
-/

namespace Verif.Socket.Bind

/-- An IPv4 address, 0 being the one that stands for all of them, and a port. -/
abbrev Ep := Nat × Nat

/-- `fly::net::BindMode` (types.hpp 46-50). -/
inductive Mode where
  | singleUse
  | allowReuse
deriving DecidableEq, Repr

/-- What the operating system keeps of a datagram socket. -/
structure Held where
  handle : Nat
  /-- `SO_REUSEADDR` -/
  reuse : Bool
  bound : Option Ep
deriving DecidableEq, Repr

/-- Two endpoints that would receive the same datagrams: the port is the same, and the address, unless one of them is
the one that stands for all. -/
def clash (a b : Ep) : Bool := a.2 == b.2 && (a.1 == b.1 || a.1 == 0 || b.1 == 0)

/-- The systems. -/
inductive System where
  | linux
  | windows
deriving DecidableEq, Repr

/-- Whether a socket may share the endpoint of one that has it already: on Linux both have set `SO_REUSEADDR` (as it is
set at that moment), on Windows the new one has. -/
def System.share : System → (new old : Bool) → Bool
  | .linux, new, old => new && old
  | .windows, new, _ => new

/-- The socket of a handle. -/
def socketOf (t : List Held) (h : Nat) : Option Held := t.find? (·.handle == h)

/-- Change the socket of a handle. -/
def change (t : List Held) (h : Nat) (f : Held → Held) : List Held := t.map fun o => if o.handle = h then f o else o

/-- `::bind` (nix/socket_operations.cpp 276, win/socket_operations.cpp 286). `fits`: the address is one of this system's and
the port may be used. -/
def osBind (sys : System) (t : List Held) (h : Nat) (ep : Ep) (fits : Bool) : List Held × Bool :=
  match socketOf t h with
  | none => (t, false)
  | some me =>
    if me.bound.isSome || !fits ||
        t.any (fun o => o.handle != h && o.bound.any (clash ep) && !sys.share me.reuse o.reuse) then (t, false)
    else (change t h fun o => { o with bound := some ep }, true)

/-- `::setsockopt` with `SO_REUSEADDR` (nix/socket_operations.cpp 267, win/socket_operations.cpp 276): it also works on a
socket that is bound. -/
def osReuse (t : List Held) (h : Nat) (ok : Bool) : List Held × Bool :=
  match socketOf t h with
  | none => (t, false)
  | some _ => if ok then (change t h fun o => { o with reuse := true }, true) else (t, false)

/-- `BaseSocket::bind` (base_socket.cpp 162-165) with `detail::bind` (nix/socket_operations.cpp 259-283,
win/socket_operations.cpp 268-293). -/
def bind (sys : System) (t : List Held) (h : Nat) (ep : Ep) (mode : Mode) (settable fits : Bool) : List Held × Bool :=
  match mode with
  | .allowReuse =>
    let r := osReuse t h settable
    if r.2 then osBind sys r.1 h ep fits else (t, false)
  | .singleUse => osBind sys t h ep fits

/-- `BaseSocket::local_endpoint` (base_socket.cpp 139-142, nix/socket_operations.cpp 221-234): Linux tells the empty
endpoint of a socket that is not bound. -/
def localEndpoint (t : List Held) (h : Nat) : Option Ep := (socketOf t h).map fun o => o.bound.getD (0, 0)

/-- A call. The handle a new socket gets is not in use. For an endpoint with port 0 the system chooses the port
(`chosen`); `settable`, `fits`: what it says. -/
inductive Op where
  | create (h : Nat)
  | close (h : Nat)
  | bind (h : Nat) (ep : Ep) (mode : Mode) (chosen : Nat) (settable fits : Bool)
  | local (h : Nat)

/-- A result. -/
inductive Ans where
  | done
  | ok (b : Bool)
  | endpoint (e : Option Ep)
deriving DecidableEq, Repr

/-- One call (the constructors: nix/socket_operations.cpp 151-176; `close`: base_socket.cpp 146-158,
nix/socket_operations.cpp 179-182). -/
def step (sys : System) (t : List Held) : Op → List Held × Ans
  | .create h => (⟨h, false, none⟩ :: t, .done)
  | .close h => (t.filter (·.handle != h), .done)
  | .bind h ep mode chosen settable fits =>
    let r := bind sys t h (ep.1, if ep.2 = 0 then chosen else ep.2) mode settable fits
    (r.1, .ok r.2)
  | .local h => (t, .endpoint (localEndpoint t h))

/-- A history of calls. -/
def run (sys : System) : List Held → List Op → List Held × List Ans
  | t, [] => (t, [])
  | t, o :: os =>
    ((run sys (step sys t o).1 os).1, (step sys t o).2 :: (run sys (step sys t o).1 os).2)

/-! ## Specification: what `bind` is documented to do -/

/-- The sockets that are open, and for each that is bound its endpoint and the mode it was bound with. -/
abbrev View := Nat → Option (Option (Ep × Mode))

/-- The same for one handle. -/
def View.set (v : View) (h : Nat) (x : Option (Option (Ep × Mode))) : View := fun k => if k = h then x else v k

/-- A datagram could be for both of them. -/
def Overlap (a b : Ep) : Prop := a.2 = b.2 ∧ (a.1 = b.1 ∨ a.1 = 0 ∨ b.1 = 0)

/-- Another socket has that endpoint and does not share it with a socket bound with `mode`. -/
def Taken (v : View) (h : Nat) (ep : Ep) (mode : Mode) : Prop :=
  ∃ k e m, k ≠ h ∧ v k = some (some (e, m)) ∧ Overlap ep e ∧ ¬ (mode = .allowReuse ∧ m = .allowReuse)

/-- What a call has to do. -/
def Expected (v : View) (op : Op) (v' : View) (r : Ans) : Prop :=
  match op with
  | .create h => v' = v.set h (some none) ∧ r = .done
  | .close h => v' = v.set h none ∧ r = .done
  | .local h => v' = v ∧ r = .endpoint ((v h).map fun b => (b.map (·.1)).getD (0, 0))
  | .bind h ep mode chosen settable fits =>
    ∃ e : Ep, e.1 = ep.1 ∧ (ep.2 ≠ 0 → e.2 = ep.2) ∧ (ep.2 = 0 → e.2 = chosen) ∧
      ((v h = some none ∧ ¬ Taken v h e mode ∧ fits = true ∧ (mode = .allowReuse → settable = true) ∧
          v' = v.set h (some (some (e, mode))) ∧ r = .ok true) ∨
       ((v h ≠ some none ∨ Taken v h e mode ∨ fits = false ∨ (mode = .allowReuse ∧ settable = false)) ∧
          v' = v ∧ r = .ok false))

/-- A history of calls, each new handle being one that is not in use. -/
inductive History : View → List Op → View → List Ans → Prop
  | nil {v} : History v [] v []
  | cons {v v' v'' op ops r rs} : Expected v op v' r → History v' ops v'' rs → History v (op :: ops) v'' (r :: rs)

/-- Handles of new sockets are not in use: `open` are those in use. -/
def FreshHandles : (Nat → Prop) → List Op → Prop
  | _, [] => True
  | used, .create h :: os => ¬ used h ∧ FreshHandles (fun k => k = h ∨ used k) os
  | used, .close h :: os => FreshHandles (fun k => k ≠ h ∧ used k) os
  | used, _ :: os => FreshHandles used os

/-- `bind` is called on each socket with one mode only. -/
def OneMode : (Nat → Option Mode) → List Op → Prop
  | _, [] => True
  | g, .create h :: os => OneMode (fun k => if k = h then none else g k) os
  | g, .bind h _ mode _ _ _ :: os => (g h = none ∨ g h = some mode) ∧ OneMode (fun k => if k = h then some mode else g k) os
  | g, _ :: os => OneMode g os

end Verif.Socket.Bind
