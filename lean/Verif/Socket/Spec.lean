import Verif.Socket.Model

/-!
# What sockets should do
-/

namespace Verif.Socket

/-! ## Handles (C68) -/

/-- Executions in which a socket is moved onto another one only if that one holds no handle, and never
onto itself. -/
inductive HandleReachD : Handles → Prop
  | init : HandleReachD Handles.init
  | step {s : Handles} (op : HandleOp) : HandleReachD s → s.allowed op →
    (∀ dst src, op = .moveAssign dst src → dst ≠ src ∧ s.objects dst = some (-1)) → HandleReachD (s.step op)

/-! ## Sending (C70) -/

/-- The OS makes progress: no errors, and so many statuses that the loop ends by itself (by `EWOULDBLOCK` or because all
`n` bytes are gone). -/
def Healthy (n : Nat) (st : List Status) : Prop :=
  (∀ x ∈ st, x = .wouldBlock ∨ ∃ k, 0 < k ∧ x = .sent k) ∧ (.wouldBlock ∈ st ∨ n ≤ st.length)

/-! ## The service (C71, C72) -/

/-- The requests in a list of tasks. -/
def requestsOf (ts : List Task) : List Request :=
  ts.filterMap fun t => match t with
    | .notify r => some r
    | _ => none

/-- The requests of one direction and handle. -/
def ofHandle (d : Dir) (h : Int) (rs : List Request) : List Request := rs.filter fun r => r.dir == d && r.handle == h

/-- The list of the given direction. -/
def Service.list (s : Service) : Dir → List Request
  | .write => s.writes
  | .read => s.reads

/-- Number of polls waiting to run. -/
def Service.polls (s : Service) : Nat := s.queue.count .poll

/-- An execution from a state in which the requests `made0` had been made so far (oldest first). -/
inductive ExecFrom (s0 : Service) (made0 : List Request) : Service → List Request → Prop
  | refl : ExecFrom s0 made0 s0 made0
  | post {s : Service} {made : List Request} (t : Task) (h : t ≠ .poll) : ExecFrom s0 made0 s made →
    ExecFrom s0 made0 { s with queue := s.queue ++ [t] } (made ++ requestsOf [t])
  | run {s : Service} {made : List Request} (readyW readyR : List Int) (posts : List Task) (hne : s.queue ≠ [])
    (h : Task.poll ∉ posts) : ExecFrom s0 made0 s made →
    ExecFrom s0 made0 (s.runNext readyW readyR posts) (made ++ requestsOf posts)

/-- An execution from the beginning, with all requests ever made. -/
abbrev Exec := ExecFrom Service.init []

/-- An execution without `remove_socket`. -/
inductive ExecKeep : Service → Prop
  | init : ExecKeep Service.init
  | post {s : Service} (r : Request) : ExecKeep s → ExecKeep { s with queue := s.queue ++ [.notify r] }
  | run {s : Service} (readyW readyR : List Int) (posts : List Request) (hne : s.queue ≠ []) :
    ExecKeep s → ExecKeep (s.runNext readyW readyR (posts.map .notify))

end Verif.Socket
