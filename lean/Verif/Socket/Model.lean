/-!
# Model of `fly/net/socket`

Four state machines: who owns which OS handle (base_socket.cpp), the connection state of a TCP socket
(tcp_socket.cpp), sending and receiving (tcp_socket.cpp, udp_socket.cpp, nix/socket_operations.cpp),
and the socket service (socket_service.cpp). What the operating system answers is an input of the step.
Handles are integers; -1 is `invalid_socket()` (nix/socket_operations.cpp 113-116).
-/

namespace Verif.Socket

/-! ## Ownership of handles -/

/-- The socket objects of a program (`m_socket_handle` of each, by object number; `none` for objects that do not
exist), the handles open in the OS, and (observable at the OS) the handles opened and closed so far, newest first. -/
structure Handles where
  objects : Nat → Option Int
  osOpen : List Int
  opened : List Int
  closed : List Int

/-- Nothing constructed yet. -/
def Handles.init : Handles where
  objects := fun _ => none
  osOpen := []
  opened := []
  closed := []

/-- Point update. -/
def upd {β : Type} (f : Nat → β) (a : Nat) (b : β) : Nat → β := fun x => if x = a then b else f x

/-- What a program does with sockets. -/
inductive HandleOp
  /-- construct object `i`; the OS gives this handle (-1 if it fails); `modeOk` tells whether the I/O mode could be
  set. The same for a handle obtained from `accept`. -/
  | construct (i : Nat) (h : Int) (modeOk : Bool)
  | moveConstruct (i src : Nat)
  | moveAssign (dst src : Nat)
  | close (i : Nat)
  | destroy (i : Nat)
  deriving DecidableEq, Repr

/-- `BaseSocket::close`, base_socket.cpp 145-158, for an object holding `h` (the service is told to forget the
handle; see the service below). -/
def Handles.closeHandle (s : Handles) (h : Int) : Handles :=
  if h = -1 then s else { s with osOpen := s.osOpen.erase h, closed := h :: s.closed }

/-- One operation. Construction: base_socket.cpp 22-43 with `set_io_mode` 114-128 (on the invalid handle
it fails, and `close` does nothing). Move construction 46-55, destruction 58-62, move assignment 65-77 (the
handle held before is simply overwritten), `close` 145-158. -/
def Handles.step (s : Handles) : HandleOp → Handles
  | .construct i h modeOk =>
    if h = -1 then { s with objects := upd s.objects i (some (-1)) }
    else if modeOk then { s with objects := upd s.objects i (some h), osOpen := h :: s.osOpen, opened := h :: s.opened }
    else { s with objects := upd s.objects i (some (-1)), opened := h :: s.opened, closed := h :: s.closed }
  | .moveConstruct i src =>
    match s.objects src with
    | some h => { s with objects := upd (upd s.objects i (some h)) src (some (-1)) }
    | none => s
  | .moveAssign dst src =>
    match s.objects src with
    | some h => { s with objects := upd (upd s.objects dst (some h)) src (some (-1)) }
    | none => s
  | .close i =>
    match s.objects i with
    | some h => { s.closeHandle h with objects := upd s.objects i (some (-1)) }
    | none => s
  | .destroy i =>
    match s.objects i with
    | some h => { s.closeHandle h with objects := upd s.objects i none }
    | none => s

/-- The operation is one C++ allows: new objects are new, the others exist, and the OS hands out handles that are
not negative (except -1) and not open. -/
def Handles.allowed (s : Handles) : HandleOp → Prop
  | .construct i h _ => s.objects i = none ∧ (h = -1 ∨ (0 ≤ h ∧ h ∉ s.osOpen))
  | .moveConstruct i src => s.objects i = none ∧ s.objects src ≠ none
  | .moveAssign dst src => s.objects dst ≠ none ∧ s.objects src ≠ none
  | .close i => s.objects i ≠ none
  | .destroy i => s.objects i ≠ none

/-- Reachable by allowed operations. -/
inductive HandleReach : Handles → Prop
  | init : HandleReach Handles.init
  | step {s : Handles} (op : HandleOp) : HandleReach s → s.allowed op → HandleReach (s.step op)

/-! ## Connection state -/

/-- `ConnectedState`, types.hpp. -/
inductive Conn
  | disconnected
  | connecting
  | connected
  deriving DecidableEq, Repr

/-- A `TcpSocket`: whether it holds a handle, and `m_connected_state` (tcp_socket.hpp 310). -/
structure Tcp where
  isOpen : Bool
  conn : Conn
  deriving DecidableEq, Repr

/-- What happens to a TCP socket. The OS answers are inputs; on a closed socket they are errors
(`EBADF`), see `Tcp.answers`. -/
inductive TcpOp
  /-- `connect` with what `::connect` leads to -/
  | connect (r : Conn)
  /-- `finish_connect` with what `is_error_free` says -/
  | finish (errorFree : Bool)
  /-- `send` / a round of an asynchronous send: the number of bytes accepted, and whether the call ends by closing -/
  | io (closes : Bool)
  | close
  /-- the socket is moved from (move construction or assignment of another socket) -/
  | movedFrom
  deriving DecidableEq, Repr

/-- A freshly constructed socket: tcp_socket.cpp 14-33. -/
def Tcp.fresh (isOpen : Bool) : Tcp := ⟨isOpen, .disconnected⟩

/-- A socket made from an accepted handle: tcp_socket.cpp 37-55 (`isOpen` is false if the I/O mode could not
be set, base_socket.cpp 116-128). -/
def Tcp.accepted (isOpen : Bool) : Tcp := ⟨isOpen, .connected⟩

/-- `BaseSocket::close`, base_socket.cpp 145-158: it does not know about `m_connected_state`. -/
def Tcp.close (t : Tcp) : Tcp := { t with isOpen := false }

/-- One operation: `connect` tcp_socket.cpp 127-149, `finish_connect` 204-221, `send` 239-255, `receive` 277-293,
`ready_to_send` 315-350 and `ready_to_receive` 354-385 (they close on errors), the moved-from socket 59-63 and 111-116. -/
def Tcp.step (t : Tcp) : TcpOp → Tcp
  | .connect r => { (if r = .disconnected then t.close else t) with conn := r }
  | .finish ok => if t.isOpen && decide (t.conn = .connecting) && ok then { t with conn := .connected }
      else { t.close with conn := .disconnected }
  | .io closes => if closes then t.close else t
  | .close => t.close
  | .movedFrom => ⟨false, .disconnected⟩

/-- The OS does not connect an invalid handle (`::connect(-1)` fails with `EBADF`). -/
def Tcp.answers (t : Tcp) : TcpOp → Prop
  | .connect r => t.isOpen = false → r = .disconnected
  | _ => True

/-- A history of a TCP socket. -/
def Tcp.run (t : Tcp) (ops : List TcpOp) : Tcp := ops.foldl Tcp.step t

/-- Every OS answer in the history is one the OS can give. -/
def Tcp.Plausible (t : Tcp) : List TcpOp → Prop
  | [] => True
  | op :: ops => t.answers op ∧ Tcp.Plausible (t.step op) ops

/-! ## Sending and receiving -/

/-- The outcome of one `::send` / `::sendto`. -/
inductive Status
  /-- so many bytes (more than zero) were accepted -/
  | sent (n : Nat)
  /-- 0 was returned -/
  | zero
  /-- -1 with `EWOULDBLOCK` -/
  | wouldBlock
  /-- -1 with any other error -/
  | error
  deriving DecidableEq, Repr

/-- Result of the send loop: the bytes the OS accepted, in the order of the calls (one chunk per call), whether it
ended with `EWOULDBLOCK`. -/
structure Sent where
  chunks : List (List Nat)
  wouldBlock : Bool
  deriving DecidableEq, Repr

/-- `detail::send`, nix/socket_operations.cpp 358-392, and `detail::send_to`, 396-440. `packet` limits what is
handed over in one call (`send_to` only; for `send` it is at least the message size). One status per call of the OS; a
status list that is too short leaves the loop (the callers supply enough, see `Sends`). An OS that accepts more than it
was given is cut. -/
def sendLoop (packet : Nat) : List Nat → List Status → Sent
  | [], _ => ⟨[], false⟩
  | _ :: _, [] => ⟨[], false⟩
  | b :: bs, .sent n :: st =>
    let offered := (b :: bs).take packet
    let n := min n offered.length
    let r := sendLoop packet ((b :: bs).drop n) st
    ⟨offered.take n :: r.chunks, r.wouldBlock⟩
  | _ :: _, .zero :: _ => ⟨[], false⟩
  | _ :: _, .wouldBlock :: _ => ⟨[], true⟩
  | _ :: _, .error :: _ => ⟨[], false⟩

/-- An asynchronous send under way: `SendCompletion` pending or invoked. -/
structure AsyncSend where
  /-- the part of the message not yet accepted -/
  rest : List Nat
  bytesSent : Nat
  /-- the byte counts the callback was invoked with -/
  callbacks : List Nat
  closed : Bool
  /-- everything the OS accepted, in order -/
  wire : List Nat
  /-- the request is with the service -/
  waiting : Bool
  deriving DecidableEq, Repr

/-- `send_async`, tcp_socket.cpp 259-273 / udp_socket.cpp 108-126. -/
def AsyncSend.start (message : List Nat) : AsyncSend where
  rest := message
  bytesSent := 0
  callbacks := []
  closed := false
  wire := []
  waiting := true

/-- `ready_to_send`, tcp_socket.cpp 315-350 / udp_socket.cpp 189-231, when the service reports the handle writable. -/
def AsyncSend.ready (packet : Nat) (a : AsyncSend) (st : List Status) : AsyncSend :=
  if a.waiting then
    let r := sendLoop packet a.rest st
    let current := r.chunks.flatten.length
    let a1 := { a with bytesSent := a.bytesSent + current, wire := a.wire ++ r.chunks.flatten }
    if current = a.rest.length then { a1 with callbacks := a1.callbacks ++ [a1.bytesSent], waiting := false, rest := a.rest.drop current }
    else if r.wouldBlock then { a1 with rest := a.rest.drop current }
    else { a1 with closed := true, callbacks := a1.callbacks ++ [a1.bytesSent], waiting := false, rest := a.rest.drop current }
  else a

/-- Several rounds. -/
def AsyncSend.run (packet : Nat) (a : AsyncSend) (rounds : List (List Status)) : AsyncSend :=
  rounds.foldl (AsyncSend.ready packet) a

/-- `TcpSocket::send`, tcp_socket.cpp 239-255, `UdpSocket::send`, udp_socket.cpp 72-90: the bytes accepted, the number
returned, and whether the socket was closed. -/
def sendSync (packet : Nat) (message : List Nat) (st : List Status) : List Nat × Nat × Bool :=
  let r := sendLoop packet message st
  (r.chunks.flatten, r.chunks.flatten.length, r.chunks.flatten.length == 0)

/-- The outcome of one `::recv` / `::recvfrom`: data (at most the packet size; possibly none: end of stream for TCP, an
empty datagram for UDP), or an error. -/
inductive Arrival
  | data (bytes : List Nat)
  | wouldBlock
  | error
  deriving DecidableEq, Repr

/-- `detail::recv` / `recv_from`, nix/socket_operations.cpp 451-514: the string returned and `would_block`. -/
def recvOnce : Arrival → List Nat × Bool
  | .data bytes => (bytes, false)
  | .wouldBlock => ([], true)
  | .error => ([], false)

/-- `receive`, tcp_socket.cpp 277-293, udp_socket.cpp 149-167: what is returned, and whether the socket was closed. -/
def receiveSync (a : Arrival) : List Nat × Bool := ((recvOnce a).1, (recvOnce a).1.isEmpty)

/-- An asynchronous receive under way. -/
structure AsyncReceive where
  received : List Nat
  callbacks : List (List Nat)
  closed : Bool
  waiting : Bool
  deriving DecidableEq, Repr

/-- `receive_async`, tcp_socket.cpp 297-311, udp_socket.cpp 171-185. -/
def AsyncReceive.start : AsyncReceive where
  received := []
  callbacks := []
  closed := false
  waiting := true

/-- `ready_to_receive`, tcp_socket.cpp 354-385, udp_socket.cpp 235-266. -/
def AsyncReceive.ready (r : AsyncReceive) (a : Arrival) : AsyncReceive :=
  if r.waiting then
    let (current, wouldBlock) := recvOnce a
    let received := r.received ++ current
    if !current.isEmpty then { r with received := received, callbacks := r.callbacks ++ [received], waiting := false }
    else if wouldBlock then { r with received := received }
    else { r with received := received, closed := true, callbacks := r.callbacks ++ [received], waiting := false }
  else r

/-- Asynchronous sends on one TCP socket, in the order in which the service will serve them (oldest request first: C71),
and everything the OS accepted on the socket's stream. -/
structure Stream where
  sends : List AsyncSend
  wire : List Nat
  deriving DecidableEq, Repr

/-- The service reports the handle writable: the oldest request is served; a send that would block makes a new request,
which comes after those already made (tcp_socket.cpp 331-342, socket_service.cpp 68). -/
def Stream.ready (packet : Nat) (s : Stream) (st : List Status) : Stream :=
  match s.sends with
  | [] => s
  | a :: rest =>
    let a' := a.ready packet st
    {
      sends := if a'.waiting then rest ++ [a'] else rest
      wire := s.wire ++ a'.wire.drop a.wire.length }

/-! ## The socket service -/

/-- Direction of a request. -/
inductive Dir
  | write
  | read
  deriving DecidableEq, Repr

/-- A request: `SocketService::Request` with an identity for its callback. -/
structure Request where
  dir : Dir
  handle : Int
  id : Nat
  deriving DecidableEq, Repr

/-- The tasks the service posts to its sequence. -/
inductive Task
  | notify (r : Request)
  | remove (h : Int)
  | poll
  deriving DecidableEq, Repr

/-- The service: `m_write_requests`, `m_read_requests` (socket_service.hpp 174-175), its tasks waiting in the task
runner (oldest first), and what can be observed: the callbacks invoked, oldest first, and the handles passed to
`select` in each poll, newest poll first. -/
structure Service where
  writes : List Request
  reads : List Request
  queue : List Task
  invoked : List Request
  selects : List (List Int)
  deriving DecidableEq, Repr

/-- A fresh service. -/
def Service.init : Service := ⟨[], [], [], [], []⟩

/-- The loop of `invoke`, socket_service.cpp 114-125: for every ready handle the oldest request of that handle is invoked
and erased. (`find_if` finds one, because the ready handles are among those asked for.) -/
def serve (ready : List Int) (pending : List Request) : List Request × List Request :=
  match ready with
  | [] => (pending, [])
  | h :: hs =>
    match pending.find? (fun r => r.handle == h) with
    | some r =>
      let (p, i) := serve hs (pending.erase r)
      (p, r :: i)
    | none => serve hs pending

/-- The handles of requests, without repetition (`std::set`). -/
def handlesOf (rs : List Request) : List Int := (rs.map (·.handle)).eraseDups

/-- `SocketService::poll`, socket_service.cpp 98-139: `select` leaves those handles that are ready (`readyW`, `readyR` are
what the OS reports; only handles asked about remain), the callbacks run (they and other threads may post the
tasks `posts` meanwhile), and the poll is posted again if requests remain. -/
def Service.poll (s : Service) (readyW readyR : List Int) (posts : List Task) : Service :=
  let w := (handlesOf s.writes).filter (· ∈ readyW)
  let r := (handlesOf s.reads).filter (· ∈ readyR)
  let (writes, iw) := serve w s.writes
  let (reads, ir) := serve r s.reads
  {
    writes := writes
    reads := reads
    queue := s.queue ++ posts ++ (if writes ≠ [] ∨ reads ≠ [] then [.poll] else [])
    invoked := s.invoked ++ iw ++ ir
    selects := (handlesOf s.writes ++ handlesOf s.reads) :: s.selects }

/-- The request is appended to its list, socket_service.cpp 68 and 85. -/
def Service.add (s : Service) (r : Request) : Service :=
  match r.dir with
  | .write => { s with writes := s.writes ++ [r] }
  | .read => { s with reads := s.reads ++ [r] }

/-- The oldest waiting task runs: `notify_when_writable` 64-78, `notify_when_readable` 81-95 (poll at once if there was no
request at all), `remove_socket` 48-61, `poll` 98-139. Tasks posted meanwhile come after those already waiting. -/
def Service.runNext (s : Service) (readyW readyR : List Int) (posts : List Task) : Service :=
  match s.queue with
  | [] => s
  | t :: queue =>
    let s := { s with queue := queue }
    match t with
    | .notify r =>
      if s.writes = [] ∧ s.reads = [] then (s.add r).poll readyW readyR posts
      else { s.add r with queue := queue ++ posts }
    | .remove h =>
      { s with
        writes := s.writes.filter (fun r => r.handle != h)
        reads := s.reads.filter (fun r => r.handle != h)
        queue := queue ++ posts }
    | .poll => s.poll readyW readyR posts

/-- Executions of a service. Only the service itself posts polls. -/
inductive Step : Service → Service → Prop
  /-- a task is posted from any thread -/
  | post (s : Service) (t : Task) (h : t ≠ .poll) : Step s { s with queue := s.queue ++ [t] }
  /-- the sequence runs the oldest task -/
  | run (s : Service) (readyW readyR : List Int) (posts : List Task) (hne : s.queue ≠ []) (h : Task.poll ∉ posts) :
    Step s (s.runNext readyW readyR posts)

/-- Reachable states of a service. -/
inductive Reach : Service → Prop
  | init : Reach Service.init
  | step {s s' : Service} : Reach s → Step s s' → Reach s'

end Verif.Socket
