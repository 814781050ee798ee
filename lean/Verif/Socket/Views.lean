import Verif.Socket.Props

/-!
# Asynchronous sends keep a view of the caller's message

`send_async` takes a `std::string_view` and captures it as such (tcp_socket.cpp 263-267, udp_socket.cpp 114-120): the bytes are
read from the caller's buffer when the service finds the socket writable.
-/

namespace Verif.Socket

/-- An asynchronous send, and the caller's buffer, of which the send holds a view. -/
structure ViewSend where
  /-- the contents, or `none` once the buffer is destroyed -/
  buffer : Option (List Nat)
  send : AsyncSend
  /-- bytes of a destroyed buffer were read: undefined behaviour -/
  ub : Bool
  deriving DecidableEq, Repr

/-- What may happen after `send_async` returned. -/
inductive ViewOp
  /-- the program overwrites its buffer in place -/
  | overwrite (content : List Nat)
  /-- the program's buffer is destroyed (the function that called `send_async` returns) -/
  | destroy
  /-- the service finds the socket writable; the OS answers so -/
  | ready (st : List Status)

/-- `send_async` returned, tcp_socket.cpp 259-273 / udp_socket.cpp 108-126. -/
def ViewSend.start (message : List Nat) : ViewSend := ⟨some message, .start message, false⟩

/-- One event. `ready_to_send`, tcp_socket.cpp 315-350 / udp_socket.cpp 189-231, reads through the view what has not been sent yet.
(Simplified: overwriting keeps the size of the buffer; a change of size counts as destroying it.) -/
def ViewSend.step (packet : Nat) (v : ViewSend) : ViewOp → ViewSend
  | .overwrite c => { v with buffer := v.buffer.map fun old => if c.length = old.length then c else old }
  | .destroy => { v with buffer := none }
  | .ready st =>
    if v.send.waiting && !v.send.rest.isEmpty then
      match v.buffer with
      | none => { v with ub := true }
      | some c => { v with send := { v.send with rest := c.drop v.send.bytesSent }.ready packet st }
    else { v with send := v.send.ready packet st }

/-- C111 (missing: buffers that change or vanish before the callback, see `async_send_view_violated`). As long as the program
leaves its buffer alone until the callback was invoked, the message sent is the one given to `send_async`: at any time before
that the bytes accepted are a prefix of it, afterwards the callback was invoked once with their number, which is all of them unless the
socket was closed; and whatever happens to the buffer from then on has no effect. -/
theorem async_send_view_partial (packet : Nat) (message : List Nat) (rounds : List (List Status)) (later : List ViewOp)
    (hl : later ≠ [] → (rounds.foldl (fun v st => v.step packet (.ready st)) (ViewSend.start message)).send.waiting = false) :
    let v := later.foldl (ViewSend.step packet) (rounds.foldl (fun v st => v.step packet (.ready st)) (ViewSend.start message))
    v.ub = false ∧ (∃ rest, v.send.wire ++ rest = message) ∧
      (v.send.waiting = false → v.send.callbacks = [v.send.wire.length] ∧ (v.send.closed = false ↔ v.send.wire = message)) := by
  have key : ∀ (rounds : List (List Status)) (v : ViewSend), v.buffer = some message → v.ub = false → SendInv message v.send →
      let w := rounds.foldl (fun v st => v.step packet (.ready st)) v
      w.buffer = some message ∧ w.ub = false ∧ w.send = v.send.run packet rounds := by
    intro rounds
    induction rounds with
    | nil => intro v hb hu _; exact ⟨hb, hu, rfl⟩
    | cons st rounds ih =>
      intro v hb hu hi
      have hrest : message.drop v.send.bytesSent = v.send.rest := by
        rw [hi.count, ← hi.split, List.drop_left]
      have hs : v.step packet (.ready st) = { v with send := v.send.ready packet st } := by
        simp only [ViewSend.step]
        split
        · rw [hb]; simp only [hrest]
        · rfl
      have := ih (v.step packet (.ready st)) (by rw [hs]; exact hb) (by rw [hs]; exact hu) (by rw [hs]; exact hi.ready packet st)
      rw [hs] at this
      simp only [List.foldl_cons]
      rw [hs]
      exact this
  have hk := key rounds (ViewSend.start message) rfl rfl ⟨rfl, rfl, fun _ => ⟨rfl, rfl⟩, fun h => nomatch h⟩
  generalize hv : rounds.foldl (fun v st => v.step packet (.ready st)) (ViewSend.start message) = v at hk hl
  have hfix : ∀ (later : List ViewOp) (v : ViewSend), v.send.waiting = false → v.ub = false →
      (later.foldl (ViewSend.step packet) v).send = v.send ∧ (later.foldl (ViewSend.step packet) v).ub = false := by
    intro later
    induction later with
    | nil => intro v _ hu; exact ⟨rfl, hu⟩
    | cons op later ih =>
      intro v hw hu
      have h1 : (v.step packet op).send = v.send ∧ (v.step packet op).ub = false := by
        cases op with
        | overwrite c => exact ⟨rfl, hu⟩
        | destroy => exact ⟨rfl, hu⟩
        | ready st =>
          simp only [ViewSend.step, hw, Bool.false_and]
          refine ⟨?_, hu⟩
          simp [AsyncSend.ready, hw]
      have := ih (v.step packet op) (by rw [h1.1]; exact hw) h1.2
      rw [List.foldl_cons, this.1, h1.1]
      exact ⟨rfl, this.2⟩
  have hacc := async_send_accounting packet message rounds
  have hsend : v.send = (AsyncSend.start message).run packet rounds := hk.2.2
  have hend : (later.foldl (ViewSend.step packet) v).send = v.send ∧ (later.foldl (ViewSend.step packet) v).ub = false := by
    cases later with
    | nil => exact ⟨rfl, hk.2.1⟩
    | cons op later => exact hfix _ v (hl (fun h => nomatch h)) hk.2.1
  intro w
  have e1 : w.send = (AsyncSend.start message).run packet rounds := by rw [← hsend]; exact hend.1
  refine ⟨hend.2, ?_⟩
  rw [e1]
  exact ⟨hacc.1, hacc.2.2⟩

/-- C111 fails: nothing in the documentation of `send_async` asks the caller to keep the message, but if the message is destroyed
before the socket becomes writable, destroyed memory is read and sent; and if it is overwritten, the peer gets the new bytes,
and, after a partial send, a mixture of both. -/
theorem async_send_view_violated :
    ([ViewOp.destroy, .ready [.sent 3]].foldl (ViewSend.step 100) (.start [1, 2, 3])).ub = true ∧
      ([ViewOp.overwrite [7, 8, 9], .ready [.sent 3]].foldl (ViewSend.step 100) (.start [1, 2, 3])).send.wire = [7, 8, 9] ∧
      ([ViewOp.ready [.sent 1, .wouldBlock], .overwrite [7, 8, 9], .ready [.sent 2]].foldl (ViewSend.step 100)
        (.start [1, 2, 3])).send.wire = [1, 8, 9] := by
  decide +kernel

/-- Every send of a non-empty message whose buffer is destroyed before the first time the socket is writable reads destroyed memory. -/
theorem async_send_view_dangles (packet : Nat) (message : List Nat) (hm : message ≠ []) (st : List Status) :
    (((ViewSend.start message).step packet .destroy).step packet (.ready st)).ub = true := by
  cases message with
  | nil => exact absurd rfl hm
  | cons b bs => rfl

/-- Hypotheses of `async_send_view_partial`: a send in two rounds, after which the buffer is destroyed. -/
example : (([[.sent 1, .wouldBlock], [.sent 2]] : List (List Status)).foldl (fun v st => v.step 100 (.ready st))
    (ViewSend.start [1, 2, 3])).send.waiting = false := by decide +kernel

end Verif.Socket
