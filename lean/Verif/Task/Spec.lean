import Verif.Task.Model

/-!
# Reading the event log
-/

namespace Verif.Task

/-- Tasks a runner accepted, in order. -/
def acceptedOn (r : Nat) (log : List Ev) : List Work :=
  log.filterMap fun
    | .accepted r' w _ => if r' = r then some w else none
    | _ => none

/-- Tasks of a runner that were begun, in order. -/
def begunOn (r : Nat) (log : List Ev) : List Work :=
  log.filterMap fun
    | .begun r' w _ => if r' = r then some w else none
    | _ => none

/-- Tasks of a runner that were begun or discarded, in order. -/
def takenOn (r : Nat) (log : List Ev) : List Work :=
  log.filterMap fun
    | .begun r' w _ => if r' = r then some w else none
    | .dropped r' w => if r' = r then some w else none
    | _ => none

/-- Tasks of a runner whose function is being executed. -/
def runningOn (r : Nat) (s : State) : List Work :=
  s.workers.filterMap fun
    | .running r' w => if r' = r then some w else none
    | _ => none

/-- The worker carries this task, not yet begun. -/
def Worker.carries (r : Nat) (w : Work) : Worker → Bool
  | .popped r' w' => r' == r && w' == w
  | .checked r' w' => r' == r && w' == w
  | .holding r' w' => r' == r && w' == w
  | _ => false

/-- The worker is occupied by a task of this runner. -/
def Worker.busyFor (r : Nat) : Worker → Bool
  | .popped r' _ => r' == r
  | .checked r' _ => r' == r
  | .holding r' _ => r' == r
  | .running r' _ => r' == r
  | .finished r' _ _ => r' == r
  | .completing r' => r' == r
  | _ => false

/-- Number of places where a task of this runner is queued at the manager or occupies a worker. -/
def inFlight (s : State) (r : Nat) : Nat :=
  s.queue.countP (fun x => x.1 == r) + s.workers.countP (Worker.busyFor r)

/-- Life of a manager. -/
inductive Phase
  | off
  | on
  | stopping
  deriving DecidableEq, Repr

/-- The phase after a history: `start` switches on, the winning `stop` call begins stopping, and its
return switches off. -/
def phase (log : List Ev) : Phase :=
  log.foldl (fun p e =>
    match e with
    | .started => .on
    | .stopCalled => .stopping
    | .stopped => .off
    | _ => p) .off

/-- The task with this identity was handed to its runner (accepted or refused), or discarded because
the runner is gone. -/
def handed (id : Nat) : Ev → Bool
  | .accepted _ w _ => w.id == id
  | .rejected _ w => w.id == id
  | .expired _ w => w.id == id
  | _ => false

/-- A reply to the task with this identity was handed to the runner. -/
def repliedTo (id : Nat) : Ev → Bool
  | .accepted _ w _ => match w.replyTo with | some x => x.1 == id | none => false
  | .rejected _ w => match w.replyTo with | some x => x.1 == id | none => false
  | _ => false

/-- A task with this identity was begun. -/
def begins (id : Nat) : Ev → Bool
  | .begun _ w _ => w.id == id
  | _ => false

/-- A property of each event and the history before it. -/
def Each (P : List Ev → Ev → Prop) (log : List Ev) : Prop :=
  ∀ pre e post, log = pre ++ e :: post → P pre e

end Verif.Task
