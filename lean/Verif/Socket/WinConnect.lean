import Verif.Socket.Connect

/-!
# C145: asynchronous connections on Windows

Source: `/repo/fly/net/socket/detail/win/socket_operations.cpp` 202-213 (`is_error_free`), 346-364 (`connect`) and 547-590 (`select`)
under `tcp_socket.cpp` 165-221. `Client`, the tasks of the service and `close` are those of C117; what differs is what the
system says:

* `select` is given no third set. A connection attempt that succeeded makes the socket writable; one that failed is
  reported in the third set only (documentation of `select` in Winsock).
* `getsockopt(SO_ERROR)` is given a buffer of one byte. The documentation asks for an `int`; whether the call is refused
  (`WSAEFAULT`) or writes the lowest byte is an input, `taken`.
* after a failed attempt the socket can be used for another one.
-/

namespace Verif.Socket.WinConnect

/-! ## Model -/

/-- `is_error_free` (win/socket_operations.cpp 202-213): `option_value` is a `char`, -1 at first. `code` is the pending error. -/
def isErrorFree (taken : Bool) (code : Nat) : Bool :=
  let optionValue : Int := if taken then (code % 256 : Nat) else -1
  optionValue == 0

/-- What `::connect` answers (win/socket_operations.cpp 346-364): `WSAEWOULDBLOCK` is "connecting", everything else but success is
"disconnected": `WSAENOTSOCK` on the invalid handle, `WSAEALREADY` while an attempt is under way, `WSAEISCONN` on a connected
socket. -/
def answer (s : Client) (os : Conn) : Conn :=
  if s.isOpen then
    match s.line with
    | .idle => os
    | .refused => os
    | .progress => .disconnected
    | .established => .disconnected
  else .disconnected

/-- `finish_connect` (tcp_socket.cpp 203-221). `code` is the error of a failed attempt. -/
def finish (taken : Bool) (code : Nat) (s : Client) : Client × Conn :=
  if s.isOpen && decide (s.conn = .connecting) && isErrorFree taken (if s.line = .refused then code else 0) then
    ({ s with conn := .connected }, .connected)
  else ({ s.close with conn := .disconnected }, .disconnected)

/-- One step, as in `Client.step`; `report` is a poll of the service in which `select` (win/socket_operations.cpp 547-590) reported the
socket, or had reported it when it was closed. -/
def step (taken : Bool) (code : Nat) (s : Client) : ClientOp → Client
  | .connectAsync cb os =>
    let r := answer s os
    let s := s.connect r
    { s with
      tasks := if r = .connecting then s.tasks ++ [.add cb] else s.tasks
      returned := s.returned ++ [(cb, r)] }
  | .establish => if s.line = .progress then { s with line := .established } else s
  | .refuse => if s.line = .progress then { s with line := .refused } else s
  | .runTask =>
    match s.tasks with
    | [] => s
    | .add cb :: ts => { s with tasks := ts, requests := s.requests ++ [cb] }
    | .remove :: ts => { s with tasks := ts, requests := [] }
  | .report =>
    if s.isOpen && decide (s.line ≠ .established) then s
    else match s.requests with
      | [] => s
      | cb :: rest =>
        let r := finish taken code { s with requests := rest }
        { r.1 with invoked := r.1.invoked ++ [(cb, r.2)] }
  | .close => s.close

/-- A history. -/
def run (taken : Bool) (code : Nat) (s : Client) (ops : List ClientOp) : Client := ops.foldl (step taken code) s

/-! ## Specification -/

/-- Nobody closes the socket or starts another attempt. -/
def LeftAlone : ClientOp → Prop
  | .close => False
  | .connectAsync _ _ => False
  | _ => True

/-! ## Lemmas -/

theorem finish_fields (taken : Bool) (code : Nat) (s : Client) : (finish taken code s).1.requests = s.requests ∧
    (finish taken code s).1.invoked = s.invoked ∧ (finish taken code s).1.returned = s.returned ∧
    adds (finish taken code s).1.tasks = adds s.tasks ∧ ((finish taken code s).2 = .connected ∨ (finish taken code s).2 = .disconnected) := by
  unfold finish
  have := close_fields s
  generalize (if s.line = .refused then code else 0) = x
  split
  · simp
  · simp [this]

theorem pipeline_step (taken : Bool) (code : Nat) (s : Client) (op : ClientOp) (h : (pipeline s).Sublist (connecting s)) :
    (pipeline (step taken code s op)).Sublist (connecting (step taken code s op)) := by
  unfold pipeline connecting at *
  cases op with
  | connectAsync cb os =>
    obtain ⟨h1, h2, h3, h4⟩ := connect_fields s (answer s os)
    simp only [step, h1, h2, h3]
    by_cases hr : answer s os = .connecting
    · simp only [hr, if_true, List.filter_append, List.map_append, adds_append] at *
      rw [h4]
      have := List.Sublist.append h (List.Sublist.refl [cb])
      simpa [adds] using this
    · simp only [hr, if_false, List.filter_append, List.map_append]
      rw [h4]
      exact h.trans (List.sublist_append_left _ _)
  | establish => simp only [step]; split <;> exact h
  | refuse => simp only [step]; split <;> exact h
  | runTask =>
    simp only [step]
    split
    · exact h
    · rename_i cb ts ht
      rw [ht] at h
      simpa [adds] using h
    · rename_i ts ht
      rw [ht] at h
      refine List.Sublist.trans ?_ h
      simp only [List.nil_append, adds, List.filterMap_cons]
      exact List.Sublist.append (List.Sublist.refl _) (List.sublist_append_right _ _)
  | report =>
    simp only [step]
    split
    · exact h
    · split
      · exact h
      · rename_i cb rest hq
        obtain ⟨h1, h2, h3, h4, -⟩ := finish_fields taken code { s with requests := rest }
        simp only [h1, h2, h3, h4]
        rw [hq] at h
        simpa using h
  | close =>
    obtain ⟨h1, h2, h3, h4, _⟩ := close_fields s
    simp only [step, h1, h2, h3, h4]
    exact h

theorem run_induct {taken : Bool} {code : Nat} {P : Client → Prop} {ok : ClientOp → Prop}
    (hstep : ∀ s op, P s → ok op → P (step taken code s op)) : ∀ (ops : List ClientOp) (s : Client), P s → (∀ op ∈ ops, ok op) →
      P (run taken code s ops)
  | [], _, h, _ => h
  | op :: ops, s, h, ho =>
    run_induct hstep ops (step taken code s op) (hstep s op h (ho op List.mem_cons_self)) fun o h => ho o (List.mem_cons_of_mem _ h)

/-! ## Theorems -/

/-- In every history, whatever `getsockopt` makes of the short buffer: the callbacks invoked are callbacks of calls that returned
"connecting", each call's at most once, in the order of the calls, and they are told "connected" or "disconnected". -/
theorem win_connect_callbacks (taken : Bool) (code : Nat) (ops : List ClientOp) :
    ((run taken code .fresh ops).invoked.map (·.1)).Sublist
      (((run taken code .fresh ops).returned.filter fun p => decide (p.2 = .connecting)).map (·.1)) ∧
    ∀ p ∈ (run taken code .fresh ops).invoked, p.2 = .connected ∨ p.2 = .disconnected := by
  constructor
  · have := run_induct (taken := taken) (code := code) (P := fun s => (pipeline s).Sublist (connecting s)) (ok := fun _ => True)
      (fun s op h _ => pipeline_step taken code s op h) ops .fresh (by simp [pipeline, connecting, Client.fresh, adds]) (fun _ _ => trivial)
    exact (List.sublist_append_left _ _).trans this
  · refine run_induct (taken := taken) (code := code) (P := fun s => ∀ p ∈ s.invoked, p.2 = .connected ∨ p.2 = .disconnected)
      (ok := fun _ => True) (fun s op h _ => ?_) ops .fresh (by simp [Client.fresh]) (fun _ _ => trivial)
    cases op with
    | connectAsync cb os =>
      obtain ⟨_, h2, _, _⟩ := connect_fields s (answer s os)
      simpa [step, h2] using h
    | establish => simp only [step]; split <;> exact h
    | refuse => simp only [step]; split <;> exact h
    | runTask => simp only [step]; split <;> exact h
    | report =>
      simp only [step]
      split
      · exact h
      · split
        · exact h
        · rename_i cb rest _
          obtain ⟨_, h2, _, _, h5⟩ := finish_fields taken code { s with requests := rest }
          intro p hp
          simp only [h2, List.mem_append, List.mem_singleton] at hp
          rcases hp with hp | rfl
          · exact h p hp
          · exact h5
    | close =>
      obtain ⟨_, h2, _, _⟩ := close_fields s
      simpa [step, h2] using h

/-- If `getsockopt` takes the short buffer, a connection that was made is reported as made, by the first poll that sees it, to the
callback of the call, and the socket is connected; provided the service has run its tasks. -/
theorem win_connect_success_partial (code : Nat) (s : Client) (cb : Nat) (rest : List Nat) (ho : s.isOpen = true) (hc : s.conn = .connecting)
    (hl : s.line = .established) (hr : s.requests = cb :: rest) :
    (step true code s .report).invoked = s.invoked ++ [(cb, .connected)] ∧ (step true code s .report).conn = .connected ∧
    (step true code s .report).isOpen = true ∧ (step true code s .report).requests = rest := by
  simp [step, ho, hl, hr, finish, hc, isErrorFree]

/-- The whole way from the call, as an example of the hypotheses. -/
example : (run true 10061 .fresh [.connectAsync 7 .connecting, .runTask, .establish, .report]).invoked = [(7, .connected)] ∧
    (run true 10061 .fresh [.connectAsync 7 .connecting, .runTask, .establish]).requests = [7] := by decide

/-- A connection attempt that fails is never reported: from any state in which the attempt is under way, whatever the service does
and however often it polls, the callback is not invoked and its request stays where it is (so that the service polls for
ever), until somebody closes the socket or tries again. -/
theorem win_connect_failure_violated (taken : Bool) (code : Nat) (s : Client) (hopen : s.isOpen = true) (hp : s.line = .progress)
    (ops : List ClientOp) (ho : ∀ op ∈ ops, LeftAlone op) :
    (run taken code s (.refuse :: ops)).invoked = s.invoked ∧
    ((∀ t ∈ s.tasks, t ≠ .remove) → ∀ cb ∈ s.requests, cb ∈ (run taken code s (.refuse :: ops)).requests) ∧
    (run taken code s (.refuse :: ops)).conn = s.conn := by
  have := run_induct (taken := taken) (code := code) (ok := LeftAlone) (P := fun t => t.isOpen = true ∧ t.line = .refused ∧
      t.invoked = s.invoked ∧ t.conn = s.conn ∧
      ((∀ x ∈ s.tasks, x ≠ .remove) → (∀ x ∈ t.tasks, x ≠ .remove) ∧ ∀ cb ∈ s.requests, cb ∈ t.requests))
    (fun t op h hop => ?_) ops (step taken code s .refuse) ?_ ho
  · exact ⟨this.2.2.1, fun h => (this.2.2.2.2 h).2, this.2.2.2.1⟩
  · obtain ⟨h1, h2, h3, h4, h5⟩ := h
    cases op with
    | connectAsync cb os => exact absurd hop id
    | close => exact absurd hop id
    | establish => simp only [step, h2]; exact ⟨h1, h2, h3, h4, h5⟩
    | refuse => simp only [step, h2]; exact ⟨h1, h2, h3, h4, h5⟩
    | report => simp only [step, h1, h2]; exact ⟨h1, h2, h3, h4, h5⟩
    | runTask =>
      simp only [step]
      split
      · exact ⟨h1, h2, h3, h4, h5⟩
      · rename_i cb ts ht
        refine ⟨h1, h2, h3, h4, fun hs => ?_⟩
        obtain ⟨k1, k2⟩ := h5 hs
        rw [ht] at k1
        exact ⟨fun x hx => k1 x (List.mem_cons_of_mem _ hx), fun c hc => List.mem_append_left _ (k2 c hc)⟩
      · rename_i ts ht
        refine ⟨h1, h2, h3, h4, fun hs => ?_⟩
        obtain ⟨k1, -⟩ := h5 hs
        rw [ht] at k1
        exact absurd rfl (k1 _ List.mem_cons_self)
  · simp only [step, hp, if_true]
    exact ⟨hopen, trivial, trivial, trivial, fun h => ⟨h, fun cb h => h⟩⟩

/-- On Linux the same attempt is reported (C117). -/
example : (Client.fresh.run [.connectAsync 7 .connecting, .runTask, .refuse, .report]).invoked = [(7, .disconnected)] ∧
    (run true 10061 .fresh [.connectAsync 7 .connecting, .runTask, .refuse, .report]).invoked = [] ∧
    (run true 10061 .fresh [.connectAsync 7 .connecting, .runTask, .refuse, .report]).requests = [7] := by decide

/-- If `getsockopt` refuses the short buffer, every connection that was made is reported as failed, and closed. -/
theorem win_connect_short_buffer_violated (code : Nat) (s : Client) (cb : Nat) (rest : List Nat) (ho : s.isOpen = true)
    (hl : s.line = .established) (hr : s.requests = cb :: rest) :
    (step false code s .report).invoked = s.invoked ++ [(cb, .disconnected)] ∧ (step false code s .report).isOpen = false := by
  simp [step, ho, hl, hr, finish, isErrorFree, Client.close]

/-- The lowest byte of an error code is all that is looked at: an error passes for success exactly if it is a multiple of 256, which
none of the errors from `WSAEINTR` (10004) to `WSAEREFUSED` (10112) is (9984 and 10240 are the nearest multiples). -/
theorem win_error_byte (code : Nat) : isErrorFree true code = true ↔ 256 ∣ code := by
  simp only [isErrorFree, if_true, beq_iff_eq]
  constructor
  · intro h
    exact Nat.dvd_of_mod_eq_zero (by omega)
  · intro h
    have := Nat.mod_eq_zero_of_dvd h
    omega

end Verif.Socket.WinConnect
