import Verif.Socket.Model

/-!
# C117: asynchronous connections

Model of `connect_async`, `connect` and `finish_connect` (`/repo/fly/net/socket/tcp_socket.cpp` 126-221) with
`close` (`detail/base_socket.cpp` 145-158), the service's tasks (`socket_service.cpp` 47-76) and the kernel's side
of the connection (`detail/nix/socket_operations.cpp` 334-352, 185-200). One socket made by a service that
exists; other sockets of the service have other handles and are left out. Callbacks are numbered by the caller
of the model.
-/

namespace Verif.Socket

/-- The kernel's side of the connection: none, being made, made, refused. -/
inductive Line
  | idle
  | progress
  | established
  | refused
  deriving DecidableEq, Repr

/-- A task posted to the service's sequenced task runner: `notify_when_writable` 64-76, `remove_socket` 47-61. -/
inductive ClientTask
  | add (callback : Nat)
  | remove
  deriving DecidableEq, Repr

/-- The socket (whether it holds a handle; `m_connected_state`), the kernel's side, the tasks posted and not run
yet, `m_write_requests` for its handle, oldest first; the callbacks invoked, with what they were given; what the
calls of `connect_async` returned. -/
structure Client where
  isOpen : Bool
  conn : Conn
  line : Line
  tasks : List ClientTask
  requests : List Nat
  invoked : List (Nat × Conn)
  returned : List (Nat × Conn)
  deriving DecidableEq, Repr

/-- A socket just made by the service (tcp_socket.cpp 64-83). -/
def Client.fresh : Client := ⟨true, .disconnected, .idle, [], [], [], []⟩

/-- What happens. -/
inductive ClientOp
  /-- `connect_async`, with what `::connect` answers if it has a choice -/
  | connectAsync (callback : Nat) (os : Conn)
  /-- the connection being made is made, or refused -/
  | establish
  | refuse
  /-- the service runs the next task -/
  | runTask
  /-- the service's `poll` found the handle writable (the connection was made or refused), or had found it so when
  the socket was closed: the oldest request is served -/
  | report
  | close
  deriving DecidableEq, Repr

/-- `BaseSocket::close`, base_socket.cpp 145-158. -/
def Client.close (s : Client) : Client :=
  if s.isOpen then { s with isOpen := false, line := .idle, tasks := s.tasks ++ [.remove] } else s

/-- What `::connect` answers (nix/socket_operations.cpp 334-352): on the invalid handle an error (`EBADF`); while a
connection is being made an error (`EALREADY`); after a refusal an error; on a connection that was made success
the first time, then an error (`EISCONN`). -/
def Client.answer (s : Client) (os : Conn) : Conn :=
  if s.isOpen then
    match s.line with
    | .idle => os
    | .progress => .disconnected
    | .established => if os = .connected then .connected else .disconnected
    | .refused => .disconnected
  else .disconnected

/-- `connect`, tcp_socket.cpp 127-149, once the OS has answered. -/
def Client.connect (s : Client) (r : Conn) : Client :=
  match r with
  | .connected => { s with conn := .connected, line := .established }
  | .connecting => { s with conn := .connecting, line := .progress }
  | .disconnected => { s.close with conn := .disconnected }

/-- `finish_connect`, tcp_socket.cpp 203-221; `is_error_free` (nix/socket_operations.cpp 185-200) is false after a
refusal. -/
def Client.finish (s : Client) : Client × Conn :=
  if s.isOpen && decide (s.conn = .connecting) && decide (s.line ≠ .refused) then
    ({ s with conn := .connected }, .connected)
  else ({ s.close with conn := .disconnected }, .disconnected)

/-- One step. `connect_async` 165-185; tasks: socket_service.cpp 47-76; `poll` 95-133 with the callback of 174-178. -/
def Client.step (s : Client) : ClientOp → Client
  | .connectAsync cb os =>
    let r := s.answer os
    let s := s.connect r
    { s with
      tasks := if r = .connecting then s.tasks ++ [.add cb] else s.tasks
      returned := s.returned ++ [(cb, r)] }
  | .establish => if s.line = .progress then { s with line := .established } else s
  | .refuse => if s.line = .progress then { s with line := .refused } else s
  | .runTask =>
    match s.tasks with
    | [] => s
    | .add cb :: ts => { s with tasks := ts, requests := s.requests ++ [cb] }
    | .remove :: ts => { s with tasks := ts, requests := [] }
  | .report =>
    if s.isOpen && (decide (s.line = .progress) || decide (s.line = .idle)) then s
    else match s.requests with
      | [] => s
      | cb :: rest =>
        let r := { s with requests := rest }.finish
        { r.1 with invoked := r.1.invoked ++ [(cb, r.2)] }
  | .close => s.close

/-- A history. -/
def Client.run (s : Client) (ops : List ClientOp) : Client := ops.foldl Client.step s

/-! ## Specification -/

/-- The callbacks of the calls that returned "connecting", in order. -/
def connecting (s : Client) : List Nat := (s.returned.filter (·.2 = .connecting)).map (·.1)

/-- The callbacks given to `connect_async`. -/
def given : List ClientOp → List Nat
  | [] => []
  | .connectAsync cb _ :: ops => cb :: given ops
  | _ :: ops => given ops

/-! ## Proof -/

/-- The callbacks in posted tasks. -/
def adds (ts : List ClientTask) : List Nat := ts.filterMap fun t => match t with
  | .add cb => some cb
  | .remove => none

theorem adds_append (a b : List ClientTask) : adds (a ++ b) = adds a ++ adds b := List.filterMap_append

theorem close_fields (s : Client) : s.close.requests = s.requests ∧ s.close.invoked = s.invoked ∧
    s.close.returned = s.returned ∧ adds s.close.tasks = adds s.tasks ∧ s.close.isOpen = false := by
  unfold Client.close
  split
  · simp [adds_append, adds]
  · rename_i h; simp [h]

theorem finish_fields (s : Client) : s.finish.1.requests = s.requests ∧ s.finish.1.invoked = s.invoked ∧
    s.finish.1.returned = s.returned ∧ adds s.finish.1.tasks = adds s.tasks := by
  unfold Client.finish
  have := close_fields s
  split
  · simp
  · simp [this]

theorem connect_fields (s : Client) (r : Conn) : (s.connect r).requests = s.requests ∧
    (s.connect r).invoked = s.invoked ∧ (s.connect r).returned = s.returned ∧
    adds (s.connect r).tasks = adds s.tasks := by
  unfold Client.connect
  have := close_fields s
  cases r <;> simp [this]

/-- The callbacks invoked, requested and posted, in this order. -/
def pipeline (s : Client) : List Nat := s.invoked.map (·.1) ++ (s.requests ++ adds s.tasks)

theorem pipeline_step (s : Client) (op : ClientOp) (h : (pipeline s).Sublist (connecting s)) :
    (pipeline (s.step op)).Sublist (connecting (s.step op)) := by
  unfold pipeline connecting at *
  cases op with
  | connectAsync cb os =>
    obtain ⟨h1, h2, h3, h4⟩ := connect_fields s (s.answer os)
    simp only [Client.step, h1, h2, h3]
    by_cases hr : s.answer os = .connecting
    · simp only [hr, if_true, List.filter_append, List.map_append, adds_append] at *
      rw [h4]
      have := List.Sublist.append h (List.Sublist.refl [cb])
      simpa [adds] using this
    · simp only [hr, if_false, List.filter_append, List.map_append]
      rw [h4]
      exact h.trans (List.sublist_append_left _ _)
  | establish => simp only [Client.step]; split <;> exact h
  | refuse => simp only [Client.step]; split <;> exact h
  | runTask =>
    simp only [Client.step]
    split
    · exact h
    · rename_i cb ts ht
      rw [ht] at h
      simpa [adds] using h
    · rename_i ts ht
      rw [ht] at h
      refine List.Sublist.trans ?_ h
      simp only [List.nil_append, adds, List.filterMap_cons]
      exact List.Sublist.append (List.Sublist.refl _) (List.sublist_append_right _ _)
  | report =>
    simp only [Client.step]
    split
    · exact h
    · split
      · exact h
      · rename_i cb rest hq
        obtain ⟨h1, h2, h3, h4⟩ := finish_fields { s with requests := rest }
        simp only [h1, h2, h3, h4]
        rw [hq] at h
        simpa using h
  | close =>
    obtain ⟨h1, h2, h3, h4, _⟩ := close_fields s
    simp only [Client.step, h1, h2, h3, h4]
    exact h

theorem pipeline_run : ∀ (ops : List ClientOp) (s : Client), (pipeline s).Sublist (connecting s) →
    (pipeline (s.run ops)).Sublist (connecting (s.run ops)) := by
  intro ops
  induction ops with
  | nil => intro s h; exact h
  | cons op ops ih => intro s h; exact ih (s.step op) (pipeline_step s op h)

theorem returned_run : ∀ (ops : List ClientOp) (s : Client),
    ((s.run ops).returned.map (·.1)) = s.returned.map (·.1) ++ given ops := by
  intro ops
  induction ops with
  | nil => intro s; simp [Client.run, given]
  | cons op ops ih =>
    intro s
    show ((s.step op).run ops).returned.map (·.1) = _
    rw [ih]
    cases op with
    | connectAsync cb os =>
      obtain ⟨_, _, h3, _⟩ := connect_fields s (s.answer os)
      simp [Client.step, h3, given]
    | establish => simp only [Client.step, given]; split <;> rfl
    | refuse => simp only [Client.step, given]; split <;> rfl
    | runTask => simp only [Client.step, given]; split <;> rfl
    | report =>
      simp only [Client.step, given]
      split
      · rfl
      · split
        · rfl
        · rename_i cb rest _
          obtain ⟨_, _, h3, _⟩ := finish_fields { s with requests := rest }
          simp [h3]
    | close =>
      obtain ⟨_, _, h3, _⟩ := close_fields s
      simp [Client.step, h3, given]

theorem finish_state (s : Client) : (s.finish.2 = .connected ∧ s.finish.1.isOpen = true ∧
      s.finish.1.conn = .connected ∧ s.finish.1.line = s.line ∧ s.line ≠ .refused) ∨
    (s.finish.2 = .disconnected ∧ s.finish.1.isOpen = false ∧ s.finish.1.conn = .disconnected) := by
  unfold Client.finish
  split
  · rename_i h
    simp only [Bool.and_eq_true, decide_eq_true_eq] at h
    exact Or.inl ⟨rfl, h.1.1, rfl, rfl, h.2⟩
  · exact Or.inr ⟨rfl, (close_fields s).2.2.2.2, rfl⟩

theorem invoked_final : ∀ (ops : List ClientOp) (s : Client), (∀ p ∈ s.invoked, p.2 ≠ .connecting) →
    ∀ p ∈ (s.run ops).invoked, p.2 ≠ .connecting := by
  intro ops
  induction ops with
  | nil => intro s h; exact h
  | cons op ops ih =>
    intro s h
    refine ih (s.step op) ?_
    cases op with
    | connectAsync cb os =>
      obtain ⟨_, h2, _, _⟩ := connect_fields s (s.answer os)
      simpa [Client.step, h2] using h
    | establish => simp only [Client.step]; split <;> exact h
    | refuse => simp only [Client.step]; split <;> exact h
    | runTask => simp only [Client.step]; split <;> exact h
    | report =>
      simp only [Client.step]
      split
      · exact h
      · split
        · exact h
        · rename_i cb rest _
          obtain ⟨_, h2, _, _⟩ := finish_fields { s with requests := rest }
          intro p hp
          simp only [h2, List.mem_append, List.mem_singleton] at hp
          rcases hp with hp | rfl
          · exact h p hp
          · rcases finish_state { s with requests := rest } with hf | hf <;> rw [hf.1] <;> decide
    | close =>
      obtain ⟨_, h2, _, _⟩ := close_fields s
      simpa [Client.step, h2] using h

/-- **C117.** In every history: the callbacks invoked are callbacks of calls that returned "connecting", in the order of
the calls; each call's callback is invoked at most once, and never with "connecting". So the callback of a call that
returned a final state is not invoked. -/
theorem connect_callbacks (ops : List ClientOp) :
    ((Client.fresh.run ops).invoked.map (·.1)).Sublist (connecting (Client.fresh.run ops)) ∧
    (Client.fresh.run ops).returned.map (·.1) = given ops ∧
    ∀ p ∈ (Client.fresh.run ops).invoked, p.2 = .connected ∨ p.2 = .disconnected := by
  refine ⟨(List.sublist_append_left _ _).trans (pipeline_run ops _ (by simp [pipeline, connecting, Client.fresh, adds])),
    by rw [returned_run]; simp [Client.fresh], ?_⟩
  intro p hp
  have := invoked_final ops .fresh (by simp [Client.fresh]) p hp
  rcases p with ⟨c, x⟩
  cases x <;> simp_all

/-- C117: with different callbacks none is invoked twice, and one whose call did not return "connecting" never. -/
theorem connect_callback_once (ops : List ClientOp) (hd : (given ops).Nodup) :
    ((Client.fresh.run ops).invoked.map (·.1)).Nodup ∧
    ∀ cb r, (cb, r) ∈ (Client.fresh.run ops).returned → r ≠ .connecting →
      ∀ x, (cb, x) ∉ (Client.fresh.run ops).invoked := by
  obtain ⟨h1, h2, _⟩ := connect_callbacks ops
  have hn : ((Client.fresh.run ops).returned.map (·.1)).Nodup := by rw [h2]; exact hd
  have hsub : (connecting (Client.fresh.run ops)).Sublist ((Client.fresh.run ops).returned.map (·.1)) :=
    List.Sublist.map _ List.filter_sublist
  refine ⟨hn.sublist (h1.trans hsub), ?_⟩
  intro cb r hr hne x hx
  have hm : cb ∈ connecting (Client.fresh.run ops) := h1.subset (List.mem_map.2 ⟨(cb, x), hx, rfl⟩)
  simp only [connecting, List.mem_map, List.mem_filter, decide_eq_true_eq] at hm
  obtain ⟨⟨cb', r'⟩, ⟨hm, hc⟩, rfl⟩ := hm
  have : (cb', r) = (cb', r') := by
    have key : ∀ (l : List (Nat × Conn)), (l.map (·.1)).Nodup → ∀ a b : Nat × Conn, a ∈ l → b ∈ l → a.1 = b.1 → a = b := by
      intro l
      induction l with
      | nil => intro _ a b ha; simp at ha
      | cons y l ih =>
        intro hl a b ha hb hab
        simp only [List.map_cons, List.nodup_cons, List.mem_map] at hl
        rcases List.mem_cons.1 ha with rfl | ha'
        · rcases List.mem_cons.1 hb with rfl | hb'
          · rfl
          · exact absurd ⟨b, hb', hab.symm⟩ hl.1
        · rcases List.mem_cons.1 hb with rfl | hb'
          · exact absurd ⟨a, ha', hab⟩ hl.1
          · exact ih hl.2 a b ha' hb' hab
    exact key _ hn _ _ hr hm rfl
  cases this
  exact hne hc

example : given [.connectAsync 1 .connecting, .runTask, .establish, .report, .connectAsync 2 .disconnected] = [1, 2] ∧
    (Client.fresh.run [.connectAsync 1 .connecting, .runTask, .establish, .report]).invoked = [(1, .connected)] ∧
    (Client.fresh.run [.connectAsync 1 .connecting, .runTask, .refuse, .report]).invoked = [(1, .disconnected)] := by
  decide

/-- C117: what a callback is told is the state of the socket: "connected" exactly when the socket is then open and
connected to a connection that was made; otherwise it is closed and disconnected. -/
theorem connect_callback_truth (s : Client) (cb : Nat) (r : Conn)
    (h : (s.step .report).invoked = s.invoked ++ [(cb, r)]) :
    (r = .connected ∧ (s.step .report).isOpen = true ∧ (s.step .report).conn = .connected ∧
      (s.step .report).line = .established) ∨
    (r = .disconnected ∧ (s.step .report).isOpen = false ∧ (s.step .report).conn = .disconnected) := by
  simp only [Client.step] at h ⊢
  split at h
  · simp at h
  · rename_i hg
    rw [if_neg hg]
    split at h
    · simp at h
    · rename_i cb' rest hq
      obtain ⟨_, h2, _, _⟩ := finish_fields { s with requests := rest }
      simp only [h2, List.append_cancel_left_eq, List.cons.injEq, Prod.mk.injEq, and_true] at h
      obtain ⟨_, rfl⟩ := h
      rcases finish_state { s with requests := rest } with ⟨f1, f2, f3, f4, f5⟩ | ⟨f1, f2, f3⟩
      · refine Or.inl ⟨f1, f2, f3, ?_⟩
        simp only at f4 f5
        have ho : s.isOpen = true := by
          have : ({ s with requests := rest } : Client).finish.1.isOpen = true := f2
          unfold Client.finish at this
          split at this
          · rename_i hh; simp only [Bool.and_eq_true] at hh; exact hh.1.1
          · have hc := (close_fields { s with requests := rest }).2.2.2.2
            simp only [hc] at this
            cases this
        show ({ s with requests := rest } : Client).finish.1.line = .established
        rw [f4]
        simp only [ho, Bool.true_and, Bool.or_eq_true, decide_eq_true_eq, not_or] at hg
        cases hl : s.line with
        | idle => exact absurd hl hg.2
        | progress => exact absurd hl hg.1
        | refused => exact absurd hl f5
        | established => rfl
      · exact Or.inr ⟨f1, f2, f3⟩

/-! ### Completion -/

/-- The operation closes nothing and connects nothing. -/
def Quiet : ClientOp → Prop
  | .close => False
  | .connectAsync _ _ => False
  | _ => True

/-- The stages of one asynchronous connection that is left alone. -/
inductive Stage (cb : Nat) (rt : List (Nat × Conn)) : Client → Prop
  | posted (l : Line) : l ≠ .idle → Stage cb rt ⟨true, .connecting, l, [.add cb], [], [], rt⟩
  | waiting (l : Line) : l ≠ .idle → Stage cb rt ⟨true, .connecting, l, [], [cb], [], rt⟩
  | made : Stage cb rt ⟨true, .connected, .established, [], [], [(cb, .connected)], rt⟩
  | failed (ts : List ClientTask) : ts = [] ∨ ts = [.remove] →
      Stage cb rt ⟨false, .disconnected, .idle, ts, [], [(cb, .disconnected)], rt⟩

theorem stage_step {cb : Nat} {rt : List (Nat × Conn)} {s : Client} (h : Stage cb rt s) (op : ClientOp) (hq : Quiet op) :
    Stage cb rt (s.step op) := by
  cases h with
  | posted l hl =>
    cases op with
    | connectAsync _ _ => exact hq.elim
    | close => exact hq.elim
    | establish => cases l <;> first | exact absurd rfl hl | exact .posted _ (by decide)
    | refuse => cases l <;> first | exact absurd rfl hl | exact .posted _ (by decide)
    | runTask => exact .waiting l hl
    | report => cases l <;> first | exact absurd rfl hl | exact .posted _ (by decide)
  | waiting l hl =>
    cases op with
    | connectAsync _ _ => exact hq.elim
    | close => exact hq.elim
    | establish => cases l <;> first | exact absurd rfl hl | exact .waiting _ (by decide)
    | refuse => cases l <;> first | exact absurd rfl hl | exact .waiting _ (by decide)
    | runTask => exact .waiting l hl
    | report =>
      cases l with
      | idle => exact absurd rfl hl
      | progress => exact .waiting _ (by decide)
      | established => exact .made
      | refused => exact .failed _ (Or.inr rfl)
  | made =>
    cases op with
    | connectAsync _ _ => exact hq.elim
    | close => exact hq.elim
    | _ => exact .made
  | failed ts hts =>
    cases op with
    | connectAsync _ _ => exact hq.elim
    | close => exact hq.elim
    | runTask => rcases hts with rfl | rfl <;> exact .failed _ (Or.inl rfl)
    | _ => exact .failed ts hts

/-- C117: a connection attempt left alone (no other call of `connect_async`, no `close`) is completed: at every moment its
callback has been invoked once, with the state the socket is in, or it is still waiting to be; and when the service has
run its tasks and then reports the handle, the callback has been invoked, with "connected" exactly if the connection
was made. -/
theorem connect_completes_partial (cb : Nat) (ops : List ClientOp) (hq : ∀ op ∈ ops, Quiet op) :
    let s := Client.fresh.run (.connectAsync cb .connecting :: ops)
    (s.invoked = [] ∧ s.isOpen = true ∧ s.conn = .connecting ∧ (adds s.tasks = [cb] ∨ s.requests = [cb])) ∨
    (s.invoked = [(cb, s.conn)] ∧ s.conn ≠ .connecting ∧ s.isOpen = decide (s.conn = .connected)) := by
  intro s
  have : Stage cb [(cb, .connecting)] s := by
    have key : ∀ (ops : List ClientOp) (t : Client), (∀ op ∈ ops, Quiet op) → Stage cb [(cb, .connecting)] t →
        Stage cb [(cb, .connecting)] (t.run ops) := by
      intro ops
      induction ops with
      | nil => intro t _ h; exact h
      | cons op ops ih =>
        intro t hq h
        exact ih _ (fun o ho => hq o (List.mem_cons_of_mem _ ho)) (stage_step h op (hq op (by simp)))
    exact key ops _ hq (.posted .progress (by decide))
  generalize s = t at this
  cases this with
  | posted l _ => exact Or.inl ⟨rfl, rfl, rfl, Or.inl rfl⟩
  | waiting l _ => exact Or.inl ⟨rfl, rfl, rfl, Or.inr rfl⟩
  | made => exact Or.inr ⟨rfl, by simp, rfl⟩
  | failed ts _ => exact Or.inr ⟨rfl, by simp, rfl⟩

/-- Left alone, and served. -/
example : (∀ op ∈ [ClientOp.runTask, .establish, .report], Quiet op) ∧
    (Client.fresh.run (.connectAsync 1 .connecting :: [.runTask, .establish, .report])).invoked = [(1, .connected)] := by
  refine ⟨fun op h => ?_, by decide⟩
  simp only [List.mem_cons, List.not_mem_nil, or_false] at h
  rcases h with rfl | rfl | rfl <;> trivial

/-- Progress of the same. -/
theorem connect_served (s : Client) (cb : Nat) (rest : List Nat) (hr : s.requests = cb :: rest)
    (hl : s.line = .established ∨ s.line = .refused) :
    ∃ r, (s.step .report).invoked = s.invoked ++ [(cb, r)] ∧ (s.step .report).requests = rest ∧
      (r = .connected ↔ s.isOpen = true ∧ s.conn = .connecting ∧ s.line = .established) := by
  have hg : ¬ (s.isOpen && (decide (s.line = .progress) || decide (s.line = .idle))) = true := by
    rcases hl with h | h <;> simp [h]
  simp only [Client.step, if_neg hg, hr]
  obtain ⟨h1, h2, _, _⟩ := finish_fields { s with requests := rest }
  refine ⟨_, by rw [h2], h1, ?_⟩
  unfold Client.finish
  split
  · rename_i h
    simp only [Bool.and_eq_true, decide_eq_true_eq] at h
    rcases hl with hl | hl
    · simp [h.1.1, h.1.2, hl]
    · exact absurd hl h.2
  · rename_i h
    simp only [Bool.and_eq_true, decide_eq_true_eq] at h
    constructor
    · intro hc; cases hc
    · rintro ⟨a, b, c⟩
      exact absurd ⟨⟨a, b⟩, by rw [c]; decide⟩ h

/-- The hypotheses hold when a connection was refused before the service reported the handle. -/
example : let s := Client.fresh.run [.connectAsync 1 .connecting, .runTask, .refuse]
    s.requests = [1] ∧ s.line = .refused ∧ (s.step .report).invoked = [(1, .disconnected)] := by decide

/-- C117 fails in full: the attempt ends and the callback is never told. First: the socket is closed while the connection
is being made. Second: another `connect_async` is made meanwhile; the OS answers `EALREADY`, which closes the socket, and
the first callback is dropped. In both, no task and no request is left. -/
theorem connect_callback_dropped_violated :
    (let s := Client.fresh.run [.connectAsync 1 .connecting, .runTask, .close, .runTask]
     connecting s = [1] ∧ s.invoked = [] ∧ s.tasks = [] ∧ s.requests = []) ∧
    (let s := Client.fresh.run [.connectAsync 1 .connecting, .connectAsync 2 .connecting, .runTask, .runTask]
     connecting s = [1] ∧ s.returned = [(1, .connecting), (2, .disconnected)] ∧ s.invoked = [] ∧ s.isOpen = false ∧
      s.tasks = [] ∧ s.requests = []) := by decide

/-- C117 fails in full: a second `connect_async` that is answered "connected" (the first attempt has just succeeded)
makes the first callback's `finish_connect` close the connection that was reported as made. -/
theorem connect_closes_connected_violated :
    (let s := Client.fresh.run [.connectAsync 1 .connecting, .runTask, .establish, .connectAsync 2 .connected]
     s.returned = [(1, .connecting), (2, .connected)] ∧ s.conn = .connected ∧ s.isOpen = true) ∧
    (let s := Client.fresh.run [.connectAsync 1 .connecting, .runTask, .establish, .connectAsync 2 .connected, .report]
     s.invoked = [(1, .disconnected)] ∧ s.isOpen = false) := by decide

end Verif.Socket
