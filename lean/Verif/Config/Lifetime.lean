/-!
# The lifetime of a configuration manager and of its path monitor (C153)

Sources: `/repo/fly/config/config_manager.cpp`, `/repo/fly/path/path_monitor.cpp`,
`/repo/fly/path/nix/path_monitor_impl.cpp`.

One manager, its path monitor, the sequenced task runner they use, and any number of threads of the program that
share references to the manager. The steps are those between which other threads can be seen: a critical section
that calls nothing is one step. The mutex of the path monitor is held over several steps only by a poll that
handles events. The file has one handler and the directory is watched for it alone (the monitor is private to the
manager, config_manager.cpp 47-48). Exceptions and failures of `inotify` are left out.
-/

namespace Verif.Config.Lifetime

/-- The tasks on the runner: `poll` (path_monitor.cpp 194-200, weak reference to the monitor) and `update`
(config_manager.cpp 91-95, weak reference to the manager). -/
inductive Job where
  | poll
  | update
deriving DecidableEq, Repr

/-- What the runner's thread is doing. -/
inductive Phase where
  /-- none of the tasks -/
  | idle
  /-- a poll, waiting for events (it holds a reference to the monitor): nix/path_monitor_impl.cpp 60-66 -/
  | polling
  /-- a poll that holds the mutex of the monitor, between two events: nix/path_monitor_impl.cpp 66-73 -/
  | handling
  /-- in the callback, which has locked its reference to the manager: config_manager.cpp 88-91 -/
  | calling
  /-- in the callback, after it has posted `update`: config_manager.cpp 95-96 -/
  | posted
  /-- the poll is over and the mutex released, before the next poll is posted: path_monitor.cpp 196 -/
  | polled
  /-- the next poll is posted, the reference to the monitor still held: path_monitor.cpp 197 -/
  | reposted
  /-- `update`, before the file is read (it holds a reference to the manager): config_manager.cpp 91-92 -/
  | updating
  /-- `update`, after that -/
  | updated
  /-- the destructor of the manager at the end of `update` -/
  | destroying
  /-- the destructor of the manager at the end of the callback, that is, within the poll, which holds the mutex -/
  | stuck
deriving DecidableEq, Repr

/-- How far the destructor of the manager is (config_manager.cpp 67-73): `none`, it has not begun; waiting for the
mutex of the monitor in `remove_file`; the same in the `remove_path` it calls; about to destroy the members; over. -/
inductive Stage where
  | none
  | remove
  | prune
  | members
  | over
deriving DecidableEq, Repr

/-- What can be observed. -/
inductive Ev where
  /-- the callback found the manager and posted an update -/
  | noticed
  /-- the file was read again -/
  | reread
  /-- an update was thrown away because the manager was gone -/
  | dropped
  /-- an update was refused by the runner -/
  | refused
  /-- the destructor of the manager began -/
  | destroyBegins
  /-- the destructor of the manager returned -/
  | destroyEnds
  /-- the monitor was destroyed -/
  | monitorGone
deriving DecidableEq, Repr

structure State where
  /-- references to the manager that the program holds -/
  held : Nat
  phase : Phase
  queue : List Job
  stage : Stage
  /-- the file has a handler -/
  handler : Bool
  /-- the directory is watched -/
  watched : Bool
  /-- the monitor exists -/
  monitor : Bool
  /-- the runner takes tasks (its task manager exists) -/
  taking : Bool
  log : List Ev
deriving DecidableEq, Repr

/-- After `ConfigManager::create` (config_manager.cpp 15-35, 43-48, 76-100; path_monitor.cpp 15-22, 39-42): the
program has one reference, the file is registered, the first poll is posted. -/
def start : State :=
  { held := 1, phase := .idle, queue := [.poll], stage := .none, handler := true, watched := true, monitor := true,
    taking := true, log := [] }

/-- What the program, the runner's thread and the system can do. -/
inductive Op where
  /-- the program copies a reference it has -/
  | copy
  /-- the program releases a reference -/
  | release
  /-- the thread that runs the destructor goes on -/
  | destroy
  /-- the runner takes its next task -/
  | begin
  /-- the poll locks the mutex -/
  | lock
  /-- an event for the file -/
  | event
  /-- the callback posts `update` -/
  | post
  /-- the callback returns -/
  | back
  /-- the poll unlocks the mutex -/
  | unlock
  /-- the poll posts the next one -/
  | again
  /-- the task of the poll ends and releases the monitor -/
  | letGo
  /-- `update_config` -/
  | read
  /-- the task of the update ends and releases the manager -/
  | done
  /-- the task manager of the runner goes away -/
  | refuse
deriving DecidableEq, Repr

/-- The runner's thread has the manager. -/
def Phase.hasManager : Phase → Bool
  | .calling | .posted | .updating | .updated => true
  | _ => false

/-- The runner's thread has the monitor (a poll is being executed). -/
def Phase.hasMonitor : Phase → Bool
  | .polling | .handling | .calling | .posted | .polled | .reposted | .stuck => true
  | _ => false

/-- The runner's thread holds the mutex of the monitor (`std::lock_guard` of nix/path_monitor_impl.cpp 66, until the
end of the block). -/
def Phase.locked : Phase → Bool
  | .handling | .calling | .posted | .stuck => true
  | _ => false

/-- The last reference to the manager is gone: its destructor begins. -/
def State.lose (s : State) : State := { s with stage := .remove, log := s.log ++ [.destroyBegins] }

/-- One step, if it is possible. -/
def step (s : State) : Op → Option State
  | .copy => if s.held > 0 then some { s with held := s.held + 1 } else none
  -- the last reference runs the destructor in the releasing thread
  | .release =>
    if s.held = 0 then none
    else if s.held = 1 ∧ s.phase.hasManager = false then some { s with held := 0 }.lose
    else some { s with held := s.held - 1 }
  | .destroy =>
    match s.stage with
    | .none | .over => none
    -- `remove_file`, path_monitor.cpp 123-147: the handler was the only one of the directory
    | .remove => if s.phase.locked then none else some { s with stage := .prune, handler := false }
    -- `remove_path`, path_monitor.cpp 149, 73-88
    | .prune => if s.phase.locked then none else some { s with stage := .members, watched := false }
    -- the members: the monitor is destroyed too unless a poll has it (path_monitor.cpp 33-36)
    | .members =>
      let t : State := { s with stage := .over, log := s.log ++ [.destroyEnds],
                                phase := if s.phase = .destroying then .idle else s.phase }
      some (if t.phase.hasMonitor then t else { t with monitor := false, log := t.log ++ [.monitorGone] })
  -- a task whose object is gone is dropped (task_runner.hpp 649-770)
  | .begin =>
    if s.phase ≠ .idle then none
    else match s.queue with
      | [] => none
      | .poll :: q => some { s with queue := q, phase := if s.monitor then .polling else .idle }
      | .update :: q =>
        if s.stage = .none then some { s with queue := q, phase := .updating }
        else some { s with queue := q, log := s.log ++ [.dropped] }
  | .lock => if s.phase = .polling then some { s with phase := .handling } else none
  -- config_manager.cpp 88-90: nothing happens if the manager is gone
  | .event =>
    if s.phase = .handling then some (if s.handler ∧ s.stage = .none then { s with phase := .calling } else s) else none
  -- config_manager.cpp 91-95
  | .post =>
    if s.phase = .calling then
      some (if s.taking then { s with phase := .posted, queue := s.queue ++ [.update], log := s.log ++ [.noticed] }
        else { s with phase := .posted, log := s.log ++ [.noticed, .refused] })
    else none
  -- config_manager.cpp 96: `self` goes out of scope
  | .back =>
    if s.phase = .posted then
      some (if s.held = 0 then { s with phase := .stuck }.lose else { s with phase := .handling })
    else none
  -- also a poll in which no event arrives
  | .unlock => if s.phase = .polling ∨ s.phase = .handling then some { s with phase := .polled } else none
  -- path_monitor.cpp 185-200
  | .again =>
    if s.phase = .polled then
      some { s with phase := .reposted, queue := if s.taking then s.queue ++ [.poll] else s.queue }
    else none
  -- the monitor is destroyed here if the manager is gone
  | .letGo =>
    if s.phase = .reposted then
      some (if s.stage = .over then { s with phase := .idle, monitor := false, log := s.log ++ [.monitorGone] }
        else { s with phase := .idle })
    else none
  -- config_manager.cpp 122-165
  | .read => if s.phase = .updating then some { s with phase := .updated, log := s.log ++ [.reread] } else none
  | .done =>
    if s.phase = .updated then
      some (if s.held = 0 then { s with phase := .destroying }.lose else { s with phase := .idle })
    else none
  | .refuse => some { s with taking := false }

/-- A history. -/
def run : State → List Op → Option State
  | s, [] => some s
  | s, o :: r => (step s o).bind fun s' => run s' r

end Verif.Config.Lifetime
