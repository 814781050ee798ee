/-!
# Model of `fly/task`

A transition system for a task manager with any number of worker threads, any number of task runners
(sequenced or parallel), the timer thread, weak task owners, delays and replies, and a program that
posts tasks from any thread at any moment (in particular from within running tasks).

Granularity. One step is one critical section (`m_pending_tasks_mutex`, `m_delayed_tasks_mutex`), one
operation of the manager's queue (`ConcurrentQueue`, linearizable by C42), one load of the atomic
flag, one `weak_ptr::lock`, the beginning or the end of the user's function.

Simplifications: a task is an identity (the callable is opaque: its beginning, end and result are
events); `TaskLocation` is left out; the clock is a number that never decreases.
-/

namespace Verif.Task

/-- A wrapped task, task_runner.hpp 649-770 (`wrap_task`): the identity of the callable, the weak owner
if one was given, whether a reply is attached, and, for a reply, the task it answers and the result
bound into it. -/
structure Work where
  id : Nat
  owner : Option Nat
  hasReply : Bool
  replyTo : Option (Nat × Nat)
  deriving DecidableEq, Repr

/-- The state of a runner: `SequencedTaskRunner::m_pending_tasks`, `m_has_running_task`
(task_runner.hpp; a `ParallelTaskRunner` has no state). -/
structure Runner where
  hasRunning : Bool
  pending : List Work
  deriving DecidableEq, Repr

/-- What can be observed. Times are clock readings. -/
inductive Ev
  /-- a runner accepted a task (its posting method returned true, or the timer handed it over) -/
  | accepted (r : Nat) (w : Work) (t : Nat)
  | rejected (r : Nat) (w : Work)
  /-- a task was posted with a delay, due at the given time -/
  | delayed (r : Nat) (w : Work) (due : Nat)
  /-- a delayed task was discarded because its runner is gone -/
  | expired (r : Nat) (w : Work)
  /-- the user's function begins -/
  | begun (r : Nat) (w : Work) (t : Nat)
  /-- the user's function has returned this result -/
  | ended (r : Nat) (w : Work) (res : Nat)
  /-- an accepted task was discarded -/
  | dropped (r : Nat) (w : Work)
  | started
  | stopCalled
  /-- `stop` returned true -/
  | stopped
  | ownerDied (o : Nat)
  deriving DecidableEq, Repr

/-- A worker thread, task_manager.cpp 117-134. -/
inductive Worker
  /-- before the loop's test of `m_keep_running` (121) -/
  | idle
  /-- in `m_tasks.pop` (123) -/
  | popping
  /-- popped a task, before the second test of `m_keep_running` (123) -/
  | popped (r : Nat) (w : Work)
  /-- before `m_weak_task_runner.lock()` (125) -/
  | checked (r : Nat) (w : Work)
  /-- holding the runner, before the wrapped task is invoked (130, task_runner.cpp 48) -/
  | holding (r : Nat) (w : Work)
  /-- in the user's function -/
  | running (r : Nat) (w : Work)
  /-- the user's function returned, before the reply is posted (task_runner.hpp 707-716, 753-768) -/
  | finished (r : Nat) (w : Work) (res : Nat)
  /-- before `task_complete` (task_runner.cpp 49) -/
  | completing (r : Nat)
  | exited
  deriving DecidableEq, Repr

/-- The timer thread, task_manager.cpp 137-168. -/
inductive Timer
  | idle
  /-- `now` was read (141), the mutex not yet taken -/
  | armed (t : Nat)
  /-- in the loop over the delayed tasks, holding the mutex, at this index (145-163) -/
  | scanning (t : Nat) (i : Nat)
  | exited
  deriving DecidableEq, Repr

structure State where
  now : Nat
  keep : Bool
  stopping : Bool
  /-- the manager object exists (`m_weak_task_manager.lock()` succeeds) -/
  manager : Bool
  runners : Nat → Runner
  /-- the program still holds the runner -/
  live : Nat → Bool
  /-- the owner object exists -/
  owner : Nat → Bool
  queue : List (Nat × Work)
  delayedTasks : List (Nat × Nat × Work)
  workers : List Worker
  timer : Timer
  nextId : Nat
  log : List Ev

/-- Function update. -/
def upd {β : Type} (f : Nat → β) (i : Nat) (v : β) : Nat → β := fun j => if j = i then v else f j

/-- A worker that has locked the runner `r`. -/
def Worker.refs (r : Nat) : Worker → Bool
  | .holding r' _ => r' == r
  | .running r' _ => r' == r
  | .finished r' _ _ => r' == r
  | .completing r' => r' == r
  | _ => false

/-- `weak_ptr<TaskRunner>::lock` succeeds: somebody owns the runner. -/
def refd (s : State) (r : Nat) : Bool := s.live r || s.workers.any (·.refs r)

/-- Result of the critical section of a sequenced runner: its new state, what was pushed onto the
manager's queue, what was lost because the manager is gone, and the returned value. -/
structure Posted where
  runner : Runner
  out : List Work
  lost : List Work
  ok : Bool

/-- `SequencedTaskRunner::maybe_post_task`, task_runner.cpp 122-155. `none` is the null task of
`task_complete`; `manager` says whether `post_task_to_task_manager` (14-23) succeeds. A pending task
that cannot be posted has been moved out of the queue and is lost (132-137). -/
def maybePost (manager : Bool) (R : Runner) (task : Option Work) : Posted :=
  let (R1, out, lost, ok, task1) :=
    if task.isNone || !R.hasRunning then
      match R.pending with
      | p :: rest =>
        (({ hasRunning := manager, pending := rest } : Runner), (if manager then [p] else []),
          (if manager then [] else [p]), manager, task)
      | [] =>
        match task with
        | some w => ({ R with hasRunning := manager }, (if manager then [w] else []), [], manager, none)
        | none => ({ R with hasRunning := false }, [], [], false, none)
    else (R, [], [], false, task)
  match task1 with
  | some w => ⟨{ R1 with pending := R1.pending ++ [w] }, out, lost, true⟩
  | none => ⟨R1, out, lost, ok⟩

/-- `post_task_internal` of the runner `r`: task_runner.cpp 76-79 (parallel), 110-113 (sequenced). -/
def postInternal (seq : Nat → Bool) (s : State) (r : Nat) (w : Work) : State :=
  if seq r then
    let p := maybePost s.manager (s.runners r) (some w)
    { s with
      runners := upd s.runners r p.runner
      queue := s.queue ++ p.out.map fun x => (r, x)
      log := s.log ++ (p.lost.map (.dropped r)) ++ [if p.ok then .accepted r w s.now else .rejected r w] }
  else if s.manager then
    { s with queue := s.queue ++ [(r, w)], log := s.log ++ [.accepted r w s.now] }
  else { s with log := s.log ++ [.rejected r w] }

/-- `task_complete`: task_runner.cpp 82-84 (parallel), 116-119 (sequenced). -/
def taskComplete (seq : Nat → Bool) (s : State) (r : Nat) : State :=
  if seq r then
    let p := maybePost s.manager (s.runners r) none
    { s with
      runners := upd s.runners r p.runner
      queue := s.queue ++ p.out.map fun x => (r, x)
      log := s.log ++ p.lost.map (.dropped r) }
  else s

/-- Worker `i` moved. -/
def State.setWorker (s : State) (i : Nat) (x : Worker) : State := { s with workers := s.workers.set i x }
/-- Event logged. -/
def State.emit (s : State) (e : Ev) : State := { s with log := s.log ++ [e] }

/-- The owner of a task can be locked (or there is none), task_runner.hpp 675, 747. -/
def ownerAlive (s : State) (w : Work) : Bool := match w.owner with | some o => s.owner o | none => true

/-- A task posted by the program, task_runner.hpp 549-646. -/
def newWork (id : Nat) (owner : Option Nat) (hasReply : Bool) : Work := ⟨id, owner, hasReply, none⟩

/-- The reply posted after a task, task_runner.hpp 707-716 and 753-768: on the same runner, with the
same weak owner and the result bound into it. -/
def replyWork (id : Nat) (w : Work) (res : Nat) : Work := ⟨id, w.owner, false, some (w.id, res)⟩

/-- One step. `seq` tells sequenced runners from parallel ones, `n` is `m_thread_count`. -/
inductive Step (seq : Nat → Bool) (n : Nat) : State → State → Prop
  /-- Time passes. -/
  | tick {s d} : Step seq n s { s with now := s.now + d }
  /-- The program releases a runner. -/
  | release {s r} : Step seq n s { s with live := upd s.live r false }
  /-- An owner object is destroyed. -/
  | ownerDies {s o} : Step seq n s ({ s with owner := upd s.owner o false }.emit (.ownerDied o))
  /-- `post_task` / `post_task_with_reply` from any thread, task_runner.hpp 549-590. The caller has
  the runner, so it is alive. -/
  | post {s r owner hasReply} : refd s r = true →
      Step seq n s (postInternal seq { s with nextId := s.nextId + 1 } r (newWork s.nextId owner hasReply))
  /-- `post_task_with_delay`, task_runner.hpp 593-646, task_runner.cpp 26-43,
  task_manager.cpp 100-114: needs the delayed-tasks mutex, which the timer holds while scanning. -/
  | postDelayed {s r owner hasReply delay} : refd s r = true → s.manager = true →
      (∀ t i, s.timer ≠ .scanning t i) →
      Step seq n s ({ s with
        nextId := s.nextId + 1
        delayedTasks := s.delayedTasks ++ [(s.now + delay, r, (newWork s.nextId owner hasReply))] }.emit
          (.delayed r (newWork s.nextId owner hasReply) (s.now + delay)))
  /-- The same when the manager is gone, task_runner.cpp 42. -/
  | postDelayedFail {s r owner hasReply} : refd s r = true → s.manager = false →
      Step seq n s ({ s with nextId := s.nextId + 1 }.emit (.rejected r (newWork s.nextId owner hasReply)))
  /-- Loop test of a worker, task_manager.cpp 121. -/
  | workerCheck {s i} : s.workers[i]? = some .idle →
      Step seq n s (s.setWorker i (if s.keep then .popping else .exited))
  /-- The timed pop gives up, 123. -/
  | workerTimeout {s i} : s.workers[i]? = some .popping → s.queue = [] → Step seq n s (s.setWorker i .idle)
  /-- The timed pop succeeds, 123. -/
  | workerPop {s i r w q} : s.workers[i]? = some .popping → s.queue = (r, w) :: q →
      Step seq n s ({ s with queue := q }.setWorker i (.popped r w))
  /-- Second test of the flag, 123: the popped task is discarded when the manager is stopping. -/
  | workerGo {s i r w} : s.workers[i]? = some (.popped r w) → s.keep = true →
      Step seq n s (s.setWorker i (.checked r w))
  | workerStop {s i r w} : s.workers[i]? = some (.popped r w) → s.keep = false →
      Step seq n s ((s.setWorker i .idle).emit (.dropped r w))
  /-- `m_weak_task_runner.lock()`, 125. -/
  | workerLock {s i r w} : s.workers[i]? = some (.checked r w) → refd s r = true →
      Step seq n s (s.setWorker i (.holding r w))
  | workerNoRunner {s i r w} : s.workers[i]? = some (.checked r w) → refd s r = false →
      Step seq n s ((s.setWorker i .idle).emit (.dropped r w))
  /-- The wrapped task locks its owner and invokes the user's function, task_runner.hpp 649-770. -/
  | workerBegin {s i r w} : s.workers[i]? = some (.holding r w) → ownerAlive s w = true →
      Step seq n s ((s.setWorker i (.running r w)).emit (.begun r w s.now))
  /-- The owner is gone: neither the function nor the reply runs. -/
  | workerNoOwner {s i r w} : s.workers[i]? = some (.holding r w) → ownerAlive s w = false →
      Step seq n s ((s.setWorker i (.completing r)).emit (.dropped r w))
  /-- The user's function returns. -/
  | workerEnd {s i r w res} : s.workers[i]? = some (.running r w) →
      Step seq n s ((s.setWorker i (.finished r w res)).emit (.ended r w res))
  /-- The wrapped task posts the reply. -/
  | workerReply {s i r w res} : s.workers[i]? = some (.finished r w res) → w.hasReply = true →
      Step seq n s ((postInternal seq { s with nextId := s.nextId + 1 } r
        (replyWork s.nextId w res)).setWorker i (.completing r))
  | workerNoReply {s i r w res} : s.workers[i]? = some (.finished r w res) → w.hasReply = false →
      Step seq n s (s.setWorker i (.completing r))
  /-- `task_complete`, task_runner.cpp 49. -/
  | workerComplete {s i r} : s.workers[i]? = some (.completing r) →
      Step seq n s ((taskComplete seq s r).setWorker i .idle)
  /-- Loop test of the timer and `now()`, task_manager.cpp 139-141. -/
  | timerCheck {s} : s.timer = .idle →
      Step seq n s { s with timer := if s.keep then .armed s.now else .exited }
  /-- The mutex is taken, 143. -/
  | timerLock {s t} : s.timer = .armed t → Step seq n s { s with timer := .scanning t 0 }
  /-- A due task is handed to its runner and erased, 147-158. -/
  | timerDue {s t i due r w} : s.timer = .scanning t i → s.delayedTasks[i]? = some (due, r, w) →
      due ≤ t → refd s r = true →
      Step seq n s (postInternal seq { s with delayedTasks := s.delayedTasks.eraseIdx i } r w)
  /-- A due task whose runner is gone is erased, 149-158. -/
  | timerExpire {s t i due r w} : s.timer = .scanning t i → s.delayedTasks[i]? = some (due, r, w) →
      due ≤ t → refd s r = false →
      Step seq n s ({ s with delayedTasks := s.delayedTasks.eraseIdx i }.emit (.expired r w))
  /-- A task that is not due is kept, 159-162. -/
  | timerNotDue {s t i due r w} : s.timer = .scanning t i → s.delayedTasks[i]? = some (due, r, w) →
      t < due → Step seq n s { s with timer := .scanning t (i + 1) }
  /-- End of the scan, 163-166. -/
  | timerDone {s t i} : s.timer = .scanning t i → s.delayedTasks.length ≤ i →
      Step seq n s { s with timer := .idle }
  /-- `start`, task_manager.cpp 40-61. Assumption: not called while a `stop` is in progress (both
  would access `m_futures` without synchronisation), and the object exists. -/
  | start {s} : s.manager = true → s.keep = false → s.stopping = false →
      Step seq n s ({ s with
        keep := true, workers := s.workers ++ List.replicate n Worker.idle, timer := .idle }.emit .started)
  /-- `stop` wins the exchange, 64-68. -/
  | stopCall {s} : s.keep = true → Step seq n s ({ s with keep := false, stopping := true }.emit .stopCalled)
  /-- `stop` has joined all threads, 70-79. -/
  | stopReturn {s} : s.stopping = true → (∀ x ∈ s.workers, x = .exited) → s.timer = .exited →
      Step seq n s ({ s with stopping := false }.emit .stopped)
  /-- The last reference to the manager is released; the threads own it while they run. -/
  | managerGone {s} : s.keep = false → s.stopping = false → (∀ x ∈ s.workers, x = .exited) →
      Step seq n s { s with manager := false }

/-- A new manager, before `start`; all runners and owners exist. -/
def init : State :=
  { now := 0, keep := false, stopping := false, manager := true,
    runners := fun _ => ⟨false, []⟩, live := fun _ => true, owner := fun _ => true,
    queue := [], delayedTasks := [], workers := [], timer := .exited, nextId := 0, log := [] }

/-- The reachable states. -/
inductive Reach (seq : Nat → Bool) (n : Nat) : State → Prop
  | init : Reach seq n init
  | step {s s'} : Reach seq n s → Step seq n s s' → Reach seq n s'

end Verif.Task
