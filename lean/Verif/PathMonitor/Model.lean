/-!
# Model of `fly/path` (path monitor, Linux)

The path monitor and the kernel's inotify instance. Directory spellings (`std::filesystem::path` values), directories
(inodes), file names and callbacks are numbers. Each public call is one step, because it holds `m_mutex`; only
`remove_file` takes the mutex twice, and is two steps (`removeFile`, `prune`). What the kernel answers is an input.

Simplifications: a null callback (refused, path_monitor.cpp 50-53, 103-106) and the race between
`is_directory` and `inotify_add_watch` are left out. `remove_file` is recorded as successful at its first critical
section; if a concurrent `remove_path` removes the directory before the second one, the code returns false although the
file was removed. Events of the directory itself have no name and are skipped by the code (`len` is 0).
-/

namespace Verif.PathMonitor

/-! ## Maps -/

/-- `unordered_map::find`. -/
def get {β : Type} (k : Nat) : List (Nat × β) → Option β
  | [] => none
  | (k', v) :: l => if k' = k then some v else get k l

/-- `map[k] = v`. -/
def put {β : Type} (k : Nat) (v : β) : List (Nat × β) → List (Nat × β)
  | [] => [(k, v)]
  | (k', v') :: l => if k' = k then (k, v) :: l else (k', v') :: put k v l

/-- `erase`. -/
def del {β : Type} (k : Nat) (l : List (Nat × β)) : List (Nat × β) := l.filter fun e => e.1 != k

/-! ## State -/

/-- `PathEvent`, path_monitor.hpp. -/
inductive PathEvent
  | none
  | created
  | deleted
  | changed
  deriving DecidableEq, Repr

/-- `PathInfoImpl`, nix/path_monitor_impl.hpp 60-72 with path_monitor.hpp `PathInfo`: the watch, the directory's callback
and those of its files. -/
structure Info where
  wd : Nat
  pathHandler : Option Nat
  files : List (Nat × Nat)
  deriving DecidableEq, Repr

/-- An `inotify_event`. -/
structure Event where
  wd : Nat
  name : Nat
  mask : Nat
  deriving DecidableEq, Repr

/-- An invocation of a callback: with the path `dir / name` and the event. -/
structure Call where
  callback : Nat
  dir : Nat
  name : Nat
  event : PathEvent
  deriving DecidableEq, Repr

/-- The monitor (`m_path_info`), the file system (`dirs`: the directory a spelling denotes), the inotify instance
(directories watched with their descriptors, the next descriptor, the events not yet read), the callbacks invoked
so far, and the directories about to be pruned by a `remove_file` between its two critical sections. -/
structure Monitor where
  info : List (Nat × Info)
  dirs : Nat → Option Nat
  watches : List (Nat × Nat)
  nextWd : Nat
  queue : List Event
  invoked : List Call
  pending : List Nat

/-- A new monitor in a file system. -/
def Monitor.init (dirs : Nat → Option Nat) : Monitor where
  info := []
  dirs := dirs
  watches := []
  nextWd := 1
  queue := []
  invoked := []
  pending := []

/-! ## Registration -/

/-- `inotify_add_watch` in the constructor of `PathInfoImpl`, nix/path_monitor_impl.cpp 180-194: a directory that is
watched already gives the descriptor it has. `ok` is false if the kernel refuses. -/
def Monitor.addWatch (s : Monitor) (d : Nat) (ok : Bool) : Option (Monitor × Nat) :=
  match s.dirs d with
  | none => none
  | some i =>
    if ok then
      match get i s.watches with
      | some w => some (s, w)
      | none => some ({ s with watches := s.watches ++ [(i, s.nextWd)], nextWd := s.nextWd + 1 }, s.nextWd)
    else none

/-- `get_or_create_path_info`, path_monitor.cpp 164-184. -/
def Monitor.getOrCreate (s : Monitor) (d : Nat) (ok : Bool) : Option (Monitor × Info) :=
  match get d s.info with
  | some info => some (s, info)
  | none =>
    match s.addWatch d ok with
    | none => none
    | some (s, w) =>
      let info : Info := ⟨w, none, []⟩
      some ({ s with info := put d info s.info }, info)

/-- `add_path`, path_monitor.cpp 46-72. -/
def Monitor.addPath (s : Monitor) (d c : Nat) (ok : Bool) : Monitor × Bool :=
  if s.dirs d = none then (s, false)
  else
    match s.getOrCreate d ok with
    | none => (s, false)
    | some (s, info) => ({ s with info := put d { info with pathHandler := some c } s.info }, true)

/-- `add_file` for the file `d / f`, path_monitor.cpp 99-129; `fileIsDir` says that it is a directory. -/
def Monitor.addFile (s : Monitor) (d f c : Nat) (fileIsDir ok : Bool) : Monitor × Bool :=
  if fileIsDir then (s, false)
  else if s.dirs d = none then (s, false)
  else
    match s.getOrCreate d ok with
    | none => (s, false)
    | some (s, info) => ({ s with info := put d { info with files := put f c info.files } s.info }, true)

/-- `inotify_rm_watch` in the destructor of `PathInfoImpl`, nix/path_monitor_impl.cpp 197-204. -/
def Monitor.rmWatch (s : Monitor) (w : Nat) : Monitor := { s with watches := s.watches.filter fun e => e.2 != w }

/-- `remove_path`, path_monitor.cpp 75-89. -/
def Monitor.removePath (s : Monitor) (d : Nat) : Monitor × Bool :=
  match get d s.info with
  | some info => ({ s with info := del d s.info }.rmWatch info.wd, true)
  | none => (s, false)

/-- `remove_all_paths`, path_monitor.cpp 92-96. -/
def Monitor.removeAll (s : Monitor) : Monitor :=
  s.info.foldl (fun s e => s.rmWatch e.2.wd) { s with info := [] }

/-- `remove_file`, path_monitor.cpp 132-158, up to the end of the critical section; if it is to be pruned, the directory is
noted in `pending`. -/
def Monitor.removeFile (s : Monitor) (d f : Nat) : Monitor × Bool :=
  match get d s.info with
  | none => (s, false)
  | some info =>
    match get f info.files with
    | none => (s, false)
    | some _ =>
      let info' := { info with files := del f info.files }
      let s' := { s with info := put d info' s.info }
      if info'.files = [] ∧ info'.pathHandler = none then ({ s' with pending := d :: s.pending }, true)
      else (s', true)

/-- The rest of `remove_file`, path_monitor.cpp 160: `remove_path`. -/
def Monitor.prune (s : Monitor) (d : Nat) : Monitor × Bool := { s with pending := s.pending.erase d }.removePath d

/-! ## Events -/

/-- `IN_MODIFY`, `IN_MOVED_FROM`, `IN_MOVED_TO`, `IN_CREATE`, `IN_DELETE` of `sys/inotify.h`. -/
def inModify : Nat := 0x2
def inMovedFrom : Nat := 0x40
def inMovedTo : Nat := 0x80
def inCreate : Nat := 0x100
def inDelete : Nat := 0x200

/-- `convert_to_event`, nix/path_monitor_impl.cpp 159-177. -/
def convertToEvent (mask : Nat) : PathEvent :=
  if mask &&& inCreate ≠ 0 ∨ mask &&& inMovedTo ≠ 0 then .created
  else if mask &&& inDelete ≠ 0 ∨ mask &&& inMovedFrom ≠ 0 then .deleted
  else if mask &&& inModify ≠ 0 then .changed
  else .none

/-- `handle_event`, nix/path_monitor_impl.cpp 116-156. `order` is `m_path_info` in the order in which the hash map is
traversed. -/
def handleEvent (order : List (Nat × Info)) (e : Event) : List Call :=
  match order.find? (fun p => p.2.wd == e.wd) with
  | none => []
  | some (d, info) =>
    let ev := convertToEvent e.mask
    if ev = .none then []
    else
      match (match get e.name info.files with
        | some c => some c
        | none => info.pathHandler) with
      | some c => [⟨c, d, e.name, ev⟩]
      | none => []

/-- One event is read and handled: `poll`, `read_events`, nix/path_monitor_impl.cpp 53-75 and 84-113. -/
def Monitor.dispatch (s : Monitor) (order : List (Nat × Info)) : Monitor :=
  match s.queue with
  | [] => s
  | e :: q => { s with queue := q, invoked := s.invoked ++ handleEvent order e }

/-! ## Executions -/

/-- The steps. -/
inductive Op
  | addPath (d c : Nat) (ok : Bool)
  | addFile (d f c : Nat) (fileIsDir ok : Bool)
  | removePath (d : Nat)
  | removeAll
  | removeFile (d f : Nat)
  /-- second half of a `remove_file` -/
  | prune (d : Nat)
  /-- something happens to an entry of a directory: the kernel queues an event if it is watched -/
  | occur (i name mask : Nat)
  /-- a directory is removed: the kernel drops its watch -/
  | rmdir (i : Nat)
  /-- a directory is created -/
  | mkdir (d i : Nat)
  | dispatch (order : List (Nat × Info))

/-- A call that succeeded. -/
inductive Done
  | pathAdded (d c : Nat)
  | fileAdded (d f c : Nat)
  | pathRemoved (d : Nat)
  | fileRemoved (d f : Nat)
  | allRemoved
  deriving DecidableEq, Repr

/-- Result of a call as a list of what was done. -/
def done (b : Bool) (x : Done) : List Done := if b then [x] else []

/-- One step: the new state and the calls that succeeded. -/
def Monitor.step (s : Monitor) : Op → Monitor × List Done
  | .addPath d c ok => ((s.addPath d c ok).1, done (s.addPath d c ok).2 (.pathAdded d c))
  | .addFile d f c isDir ok => ((s.addFile d f c isDir ok).1, done (s.addFile d f c isDir ok).2 (.fileAdded d f c))
  | .removePath d => ((s.removePath d).1, done (s.removePath d).2 (.pathRemoved d))
  | .removeAll => (s.removeAll, [.allRemoved])
  | .removeFile d f => ((s.removeFile d f).1, done (s.removeFile d f).2 (.fileRemoved d f))
  | .prune d => ((s.prune d).1, [])
  | .occur i name mask =>
    match get i s.watches with
    | some w => ({ s with queue := s.queue ++ [⟨w, name, mask⟩] }, [])
    | none => (s, [])
  | .rmdir i =>
    ({ s with
      dirs := fun d => if s.dirs d = some i then none else s.dirs d
      watches := s.watches.filter fun e => e.1 != i }, [])
  | .mkdir d i => ({ s with dirs := fun x => if x = d then some i else s.dirs x }, [])
  | .dispatch order => (s.dispatch order, [])

/-- What can happen at all: a new directory is new, a prune is one that is pending, and the order of traversal is one of
the map's entries. -/
def Monitor.allowed (s : Monitor) : Op → Prop
  | .mkdir d i => s.dirs d = none ∧ (∀ x, s.dirs x ≠ some i) ∧ (∀ w, (i, w) ∉ s.watches)
  | .prune d => d ∈ s.pending
  | .dispatch order => order.Perm s.info
  | _ => True

/-- Reachable states with the successful calls, oldest first. -/
inductive Exec (dirs : Nat → Option Nat) : Monitor → List Done → Prop
  | init : Exec dirs (.init dirs) []
  | step {s : Monitor} {h : List Done} (op : Op) : Exec dirs s h → s.allowed op → Exec dirs (s.step op).1 (h ++ (s.step op).2)

end Verif.PathMonitor
