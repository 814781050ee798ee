import Verif.Socket.Props

/-!
# Listening sockets (C95, C96)

Model of `fly/net/socket/listen_socket.cpp` with the `accept` of `detail/nix/socket_operations.cpp`, over the
kernel's queue of incoming connections. Connections and callbacks are numbered by the caller of the model.
-/

namespace Verif.Socket

/-- What `::accept` does, socket_operations.cpp 304-324: when a connection waits it is handed out, unless the
call fails for another reason (`ECONNABORTED`, `EMFILE`, ...: `error`); when none waits the call would block. -/
inductive AcceptOs
  | normal
  | error
  deriving DecidableEq, Repr

/-- A `ListenSocket` and what surrounds it: whether it holds a handle; `m_is_listening` (listen_socket.hpp 144);
the connections waiting in the kernel; the callbacks of `accept_async` waiting in the service, oldest first;
the callbacks that were invoked, with what they were given; what `accept` returned. -/
structure Listener where
  isOpen : Bool
  listening : Bool
  backlog : List Nat
  pending : List Nat
  invoked : List (Nat × Option Nat)
  returned : List (Option Nat)
  deriving DecidableEq, Repr

/-- A socket just constructed (listen_socket.cpp 14-36); `isOpen` is false if the OS gave no handle or the I/O
mode could not be set. -/
def Listener.fresh (isOpen : Bool) : Listener where
  isOpen := isOpen
  listening := false
  backlog := []
  pending := []
  invoked := []
  returned := []

/-- What happens to it. -/
inductive ListenOp
  /-- `listen`, with the answer of the OS for an open socket -/
  | listen (ok : Bool)
  /-- a connection arrives -/
  | arrive (c : Nat)
  /-- `accept_async` with a service that still exists -/
  | acceptAsync (callback : Nat)
  /-- the service found the handle readable: the oldest request is served -/
  | ready (os : AcceptOs)
  /-- `accept`; the call does not block (asynchronous I/O mode), or a connection is waiting -/
  | accept (os : AcceptOs)
  | close
  /-- the socket is moved from -/
  | movedFrom
  deriving DecidableEq, Repr

/-- `BaseSocket::close`, base_socket.cpp 145-158: the service forgets the requests of the handle (C71: they are
never invoked), and the kernel forgets the connections. `m_is_listening` is not touched. -/
def Listener.close (s : Listener) : Listener :=
  if s.isOpen then { s with isOpen := false, backlog := [], pending := [] } else s

/-- What `::accept` answers on the socket's handle: on the invalid handle always an error (`EBADF`),
nix/socket_operations.cpp 311-320. -/
def Listener.answer (s : Listener) (os : AcceptOs) : AcceptOs := if s.isOpen then os else .error

/-- `ready_to_accept`, listen_socket.cpp 134-161, for the oldest request (a request that would block is made again,
behind those already made). -/
def Listener.serve (s : Listener) (os : AcceptOs) : Listener :=
  match s.pending with
  | [] => s
  | cb :: rest =>
    match os, s.backlog with
    | .normal, c :: conns => { s with pending := rest, backlog := conns, invoked := s.invoked ++ [(cb, some c)] }
    | .normal, [] => { s with pending := rest ++ [cb] }
    | .error, _ =>
      let s := { s with pending := rest }.close
      { s with invoked := s.invoked ++ [(cb, none)] }

/-- One operation. `listen` 82-87 (on the invalid handle the OS answers `EBADF`), `accept` 98-113, `accept_async`
116-131, move construction 39-45 and assignment 69-76 (the service still holds the requests that were made; when it serves them,
`accept` is called on the invalid handle, which the OS refuses; and the connections waiting now belong to the other socket). A connection that arrives at a socket that is not listening is
refused by the kernel. -/
def Listener.step (s : Listener) : ListenOp → Listener
  | .listen ok => { s with listening := s.isOpen && ok }
  | .arrive c => if s.isOpen && s.listening then { s with backlog := s.backlog ++ [c] } else s
  | .acceptAsync cb => { s with pending := s.pending ++ [cb] }
  | .ready os => s.serve (s.answer os)
  | .accept os =>
    match os, s.backlog with
    | .normal, c :: conns => { s with backlog := conns, returned := s.returned ++ [some c] }
    | _, _ =>
      let s := s.close
      { s with returned := s.returned ++ [none] }
  | .close => s.close
  | .movedFrom => { s with isOpen := false, listening := false, backlog := [] }

/-- A history. -/
def Listener.run (s : Listener) (ops : List ListenOp) : Listener := ops.foldl Listener.step s

/-! ## Specification -/

/-- The connections the program got, in the order in which it got them, from either call. -/
def gotten (s0 : Listener) : List ListenOp → List Nat
  | [] => []
  | op :: ops =>
    let s1 := s0.step op
    ((s1.invoked.drop s0.invoked.length).filterMap (·.2) ++ (s1.returned.drop s0.returned.length).filterMap id) ++ gotten s1 ops

/-- The connections that arrived while the socket was listening. -/
def arrived (s0 : Listener) : List ListenOp → List Nat
  | [] => []
  | op :: ops =>
    (match op with
      | .arrive c => if s0.isOpen && s0.listening then [c] else []
      | _ => []) ++ arrived (s0.step op) ops

/-- The callbacks given to `accept_async`. -/
def asked : List ListenOp → List Nat
  | [] => []
  | .acceptAsync cb :: ops => cb :: asked ops
  | _ :: ops => asked ops

/-- The operation cannot close the socket: no `close`, no move, no error of the OS (nor a report for a socket that is not
open), and `accept` only when a connection waits. -/
def Keeps (s : Listener) : ListenOp → Prop
  | .ready os => os = .normal ∧ s.isOpen = true
  | .accept os => os = .normal ∧ s.backlog ≠ []
  | .close => False
  | .movedFrom => False
  | _ => True

/-- All operations of a history are such. -/
def KeepsAll (s : Listener) : List ListenOp → Prop
  | [] => True
  | op :: ops => Keeps s op ∧ KeepsAll (s.step op) ops

/-! ## C95: every connection once, in order -/

theorem step_invoked (s : Listener) (op : ListenOp) : s.invoked <+: (s.step op).invoked := by
  cases op with
  | listen => exact List.prefix_rfl
  | arrive => simp only [Listener.step]; split <;> exact List.prefix_rfl
  | acceptAsync => exact List.prefix_rfl
  | ready os =>
    simp only [Listener.step, Listener.serve]
    repeat' split
    all_goals first | exact List.prefix_rfl | exact List.prefix_append _ _ | skip
    unfold Listener.close
    split <;> exact List.prefix_append _ _
  | accept os =>
    simp only [Listener.step]
    repeat' split
    · exact List.prefix_rfl
    · unfold Listener.close; split <;> exact List.prefix_rfl
  | close => simp only [Listener.step, Listener.close]; split <;> exact List.prefix_rfl
  | movedFrom => exact List.prefix_rfl

/-- **C95.** In every history: the connections the program is given, one after the other, whether by `accept` or
by callbacks, are some of those that arrived, each as often as it arrived (so each once), in the order of
arrival; and as long as the socket is not closed (`close`, a move, an error of the OS, or a call of `accept` with no
connection waiting) none is lost: those given and those still waiting are exactly those that
arrived. -/
theorem connections_once_in_order (ops : List ListenOp) (isOpen : Bool) :
    (gotten (Listener.fresh isOpen) ops).Sublist (arrived (Listener.fresh isOpen) ops) ∧
    (KeepsAll (Listener.fresh isOpen) ops →
      gotten (Listener.fresh isOpen) ops ++ ((Listener.fresh isOpen).run ops).backlog =
        arrived (Listener.fresh isOpen) ops) := by
  have gen : ∀ (ops : List ListenOp) (s : Listener),
      (gotten s ops).Sublist (s.backlog ++ arrived s ops) ∧
      (KeepsAll s ops → gotten s ops ++ (s.run ops).backlog = s.backlog ++ arrived s ops) := by
    intro ops
    induction ops with
    | nil => intro s; exact ⟨List.nil_sublist _, fun _ => by simp [gotten, arrived, Listener.run]⟩
    | cons op ops ih =>
      intro s
      obtain ⟨h1, h2⟩ := ih (s.step op)
      have hrun : s.run (op :: ops) = (s.step op).run ops := rfl
      rw [hrun]
      cases op with
      | listen ok =>
        have e : (s.step (.listen ok)).backlog = s.backlog := rfl
        simp only [gotten, arrived]
        rw [e] at h1 h2
        have hi : (s.step (.listen ok)).invoked = s.invoked := rfl
        have hr : (s.step (.listen ok)).returned = s.returned := rfl
        rw [hi, hr]
        simp only [List.drop_length, List.filterMap_nil, List.nil_append]
        exact ⟨h1, fun hk => h2 hk.2⟩
      | arrive c =>
        have hi : (s.step (.arrive c)).invoked = s.invoked := by simp only [Listener.step]; split <;> rfl
        have hr : (s.step (.arrive c)).returned = s.returned := by simp only [Listener.step]; split <;> rfl
        have e : (s.step (.arrive c)).backlog = s.backlog ++ (if s.isOpen && s.listening then [c] else []) := by
          simp only [Listener.step]; split <;> simp
        simp only [gotten, arrived]
        rw [hi, hr]
        rw [e] at h1 h2
        simp only [List.drop_length, List.filterMap_nil, List.nil_append]
        rw [List.append_assoc] at h1 h2
        exact ⟨h1, fun hk => h2 hk.2⟩
      | acceptAsync cb =>
        have e : (s.step (.acceptAsync cb)).backlog = s.backlog := rfl
        simp only [gotten, arrived]
        rw [e] at h1 h2
        have hi : (s.step (.acceptAsync cb)).invoked = s.invoked := rfl
        have hr : (s.step (.acceptAsync cb)).returned = s.returned := rfl
        rw [hi, hr]
        simp only [List.drop_length, List.filterMap_nil, List.nil_append]
        exact ⟨h1, fun hk => h2 hk.2⟩
      | ready os =>
        simp only [gotten, arrived, List.nil_append]
        have hst : s.step (.ready os) = s.serve (s.answer os) := rfl
        have hks : KeepsAll s (.ready os :: ops) → s.answer os = .normal ∧ KeepsAll (s.serve (s.answer os)) ops := by
          rintro ⟨⟨rfl, ho⟩, hk⟩
          exact ⟨by simp [Listener.answer, ho], hk⟩
        rw [hst] at h1 h2 ⊢
        generalize s.answer os = os' at h1 h2 hks ⊢
        cases hp : s.pending with
        | nil =>
          have e : s.serve os' = s := by simp only [Listener.serve, hp]
          rw [e] at h1 h2 ⊢
          simp only [List.drop_length, List.filterMap_nil, List.nil_append]
          exact ⟨h1, fun hk => h2 (by have := (hks hk).2; rwa [e] at this)⟩
        | cons cb rest =>
          cases os' with
          | normal =>
            cases hb : s.backlog with
            | nil =>
              have hinv : (s.serve .normal).invoked = s.invoked := by simp only [Listener.serve, hp, hb]
              have hret : (s.serve .normal).returned = s.returned := by simp only [Listener.serve, hp, hb]
              have hbk : (s.serve .normal).backlog = [] := by simp only [Listener.serve, hp, hb]
              rw [hbk] at h1 h2
              rw [hinv, hret]
              simp only [List.drop_length, List.filterMap_nil, List.nil_append] at h1 h2 ⊢
              exact ⟨h1, fun hk => h2 (hks hk).2⟩
            | cons c conns =>
              have e : s.serve .normal =
                  { s with pending := rest, backlog := conns, invoked := s.invoked ++ [(cb, some c)] } := by
                simp only [Listener.serve, hp, hb]
              rw [e] at h1 h2 ⊢
              simp only at h1 h2
              simp only [List.drop_left, List.drop_length, List.filterMap_nil, List.append_nil, List.filterMap_cons]
              refine ⟨?_, fun hk => ?_⟩
              · exact h1.cons_cons c
              · have := h2 (by have := (hks hk).2; rwa [e] at this)
                simpa using this
          | error =>
            have hg : ∃ s1 : Listener, s.serve .error = { s1 with invoked := s.invoked ++ [(cb, none)] } ∧
                s1.returned = s.returned ∧ (s1.backlog = [] ∨ s1.backlog = s.backlog) := by
              refine ⟨({ s with pending := rest } : Listener).close, ?_, ?_, ?_⟩
              · simp only [Listener.serve, hp, Listener.close]
                split <;> rfl
              · simp only [Listener.close]; split <;> rfl
              · simp only [Listener.close]; split
                · exact .inl rfl
                · exact .inr rfl
            obtain ⟨s1, e, hr, hbk⟩ := hg
            have hret : (s.serve .error).returned = s.returned := by rw [e]; exact hr
            have hinv : (s.serve .error).invoked = s.invoked ++ [(cb, none)] := by rw [e]
            have hbl : (s.serve .error).backlog = s1.backlog := by rw [e]
            rw [hret, hinv]
            simp only [List.drop_left, List.drop_length, List.filterMap_nil, List.append_nil, List.filterMap_cons,
              List.nil_append]
            refine ⟨?_, fun hk => nomatch (hks hk).1⟩
            rw [hbl] at h1
            rcases hbk with hbk | hbk
            · rw [hbk] at h1; exact (h1).trans (List.sublist_append_right _ _)
            · rw [hbk] at h1; exact h1
      | accept os =>
        simp only [gotten, arrived, List.nil_append]
        by_cases hc : os = .normal ∧ s.backlog ≠ []
        · obtain ⟨rfl, hne⟩ := hc
          cases hb : s.backlog with
          | nil => exact absurd hb hne
          | cons c conns =>
            have e : s.step (.accept .normal) = { s with backlog := conns, returned := s.returned ++ [some c] } := by
              simp only [Listener.step, hb]
            rw [e] at h1 h2 ⊢
            simp only at h1 h2
            simp only [List.drop_left, List.drop_length, List.filterMap_nil, List.nil_append, List.filterMap_cons, id]
            refine ⟨?_, fun hk => ?_⟩
            · exact h1.cons_cons c
            · have := h2 (by have := hk.2; rwa [e] at this)
              simpa using this
        · have e : s.step (.accept os) = { s.close with returned := s.close.returned ++ [none] } := by
            cases os with
            | error => simp only [Listener.step]
            | normal =>
              have : s.backlog = [] := by
                cases hb : s.backlog with
                | nil => rfl
                | cons => exact absurd ⟨rfl, by rw [hb]; exact List.cons_ne_nil _ _⟩ hc
              simp only [Listener.step, this]
          have hr : s.close.returned = s.returned := by simp only [Listener.close]; split <;> rfl
          have hi : s.close.invoked = s.invoked := by simp only [Listener.close]; split <;> rfl
          have hinv : (s.step (.accept os)).invoked = s.invoked := by rw [e]; exact hi
          have hret : (s.step (.accept os)).returned = s.returned ++ [none] := by rw [e, hr]
          have hbl : (s.step (.accept os)).backlog = s.close.backlog := by rw [e]
          rw [hinv, hret]
          simp only [List.drop_left, List.drop_length, List.filterMap_nil, List.nil_append, List.filterMap_cons, id]
          refine ⟨?_, fun hk => absurd hk.1 hc⟩
          rw [hbl] at h1
          have : s.close.backlog = [] ∨ s.close.backlog = s.backlog := by
            simp only [Listener.close]; split
            · exact .inl rfl
            · exact .inr rfl
          rcases this with hbk | hbk
          · rw [hbk] at h1; exact (h1).trans (List.sublist_append_right _ _)
          · rw [hbk] at h1; exact h1
      | close =>
        simp only [gotten, arrived, List.nil_append]
        have hinv : (s.step .close).invoked = s.invoked := by simp only [Listener.step, Listener.close]; split <;> rfl
        have hret : (s.step .close).returned = s.returned := by simp only [Listener.step, Listener.close]; split <;> rfl
        have hb : (s.step .close).backlog = [] ∨ (s.step .close).backlog = s.backlog := by
          simp only [Listener.step, Listener.close]; split
          · exact .inl rfl
          · exact .inr rfl
        rw [hinv, hret]
        simp only [List.drop_length, List.filterMap_nil, List.nil_append]
        refine ⟨?_, fun hk => absurd hk.1 id⟩
        rcases hb with hbk | hbk
        · rw [hbk] at h1; exact (h1).trans (List.sublist_append_right _ _)
        · rw [hbk] at h1; exact h1
      | movedFrom =>
        simp only [gotten, arrived, List.nil_append]
        have hinv : (s.step .movedFrom).invoked = s.invoked := rfl
        have hret : (s.step .movedFrom).returned = s.returned := rfl
        have hbk : (s.step .movedFrom).backlog = [] := rfl
        rw [hinv, hret]
        simp only [List.drop_length, List.filterMap_nil, List.nil_append]
        refine ⟨?_, fun hk => absurd hk.1 id⟩
        rw [hbk] at h1; exact (h1).trans (List.sublist_append_right _ _)
  have := gen ops (Listener.fresh isOpen)
  exact ⟨by simpa [Listener.fresh] using this.1, fun hk => by simpa [Listener.fresh] using this.2 hk⟩

/-- Every callback given to `accept_async` is invoked at most as often as it was given (once, if it was given
once), and while the socket is not closed each one given was invoked or is waiting. -/
theorem accept_callbacks_once (ops : List ListenOp) (isOpen : Bool) (cb : Nat) :
    ((((Listener.fresh isOpen).run ops).invoked.map (·.1)).count cb ≤ (asked ops).count cb) ∧
    (KeepsAll (Listener.fresh isOpen) ops →
      (((Listener.fresh isOpen).run ops).invoked.map (·.1)).count cb + ((Listener.fresh isOpen).run ops).pending.count cb =
        (asked ops).count cb) := by
  have gen : ∀ (ops : List ListenOp) (s : Listener),
      (((s.run ops).invoked.map (·.1)).count cb + (s.run ops).pending.count cb ≤
        (s.invoked.map (·.1)).count cb + s.pending.count cb + (asked ops).count cb) ∧
      (KeepsAll s ops → ((s.run ops).invoked.map (·.1)).count cb + (s.run ops).pending.count cb =
        (s.invoked.map (·.1)).count cb + s.pending.count cb + (asked ops).count cb) := by
    intro ops
    induction ops with
    | nil => intro s; exact ⟨by simp [Listener.run, asked], fun _ => by simp [Listener.run, asked]⟩
    | cons op ops ih =>
      intro s
      obtain ⟨h1, h2⟩ := ih (s.step op)
      have hrun : s.run (op :: ops) = (s.step op).run ops := rfl
      rw [hrun]
      have key : ((s.step op).invoked.map (·.1)).count cb + (s.step op).pending.count cb + (asked ops).count cb ≤
            (s.invoked.map (·.1)).count cb + s.pending.count cb + (asked (op :: ops)).count cb ∧
          (Keeps s op → ((s.step op).invoked.map (·.1)).count cb + (s.step op).pending.count cb + (asked ops).count cb =
            (s.invoked.map (·.1)).count cb + s.pending.count cb + (asked (op :: ops)).count cb) := by
        cases op with
        | listen ok => exact ⟨Nat.le_refl _, fun _ => rfl⟩
        | arrive c => simp only [Listener.step, asked]; split <;> exact ⟨Nat.le_refl _, fun _ => rfl⟩
        | acceptAsync d =>
          have e : (s.invoked.map (·.1)).count cb + (s.pending ++ [d]).count cb + (asked ops).count cb =
              (s.invoked.map (·.1)).count cb + s.pending.count cb + (d :: asked ops).count cb := by
            rw [List.count_append, List.count_cons, List.count_cons, List.count_nil]; omega
          exact ⟨Nat.le_of_eq e, fun _ => e⟩
        | ready os =>
          have hks : Keeps s (.ready os) → s.answer os = .normal := by
            rintro ⟨rfl, ho⟩
            simp [Listener.answer, ho]
          have hst : s.step (.ready os) = s.serve (s.answer os) := rfl
          rw [hst]
          generalize s.answer os = os' at hks ⊢
          simp only [Listener.serve, asked]
          split
          · exact ⟨Nat.le_refl _, fun _ => rfl⟩
          · rename_i d rest hp
            rw [hp]
            split
            · simp only [List.map_append, List.map_cons, List.map_nil, List.count_append, List.count_cons, List.count_nil]
              exact ⟨by omega, fun _ => by omega⟩
            · simp only [List.count_append, List.count_cons, List.count_nil]
              exact ⟨by omega, fun _ => by omega⟩
            · refine ⟨?_, fun hk => nomatch hks hk⟩
              simp only [Listener.close]
              split
              · simp only [List.map_append, List.map_cons, List.map_nil, List.count_append, List.count_cons, List.count_nil]
                omega
              · simp only [List.map_append, List.map_cons, List.map_nil, List.count_append, List.count_cons, List.count_nil]
                omega
        | accept os =>
          simp only [Listener.step, asked]
          split
          · exact ⟨Nat.le_refl _, fun _ => rfl⟩
          · rename_i hno
            refine ⟨?_, fun hk => ?_⟩
            · simp only [Listener.close]
              split
              · simp only [List.count_nil]; omega
              · exact Nat.le_refl _
            · obtain ⟨rfl, hne⟩ := hk
              cases hb : s.backlog with
              | nil => exact absurd hb hne
              | cons c conns => exact absurd hb (hno c conns rfl)
        | close =>
          refine ⟨?_, fun hk => absurd hk id⟩
          simp only [Listener.step, Listener.close, asked]
          split
          · simp only [List.count_nil]; omega
          · exact Nat.le_refl _
        | movedFrom =>
          refine ⟨?_, fun hk => absurd hk id⟩
          simp only [Listener.step, asked]; omega
      exact ⟨Nat.le_trans h1 key.1, fun hk => (h2 hk.2).trans (key.2 hk.1)⟩
  have := gen ops (Listener.fresh isOpen)
  simp only [Listener.fresh, List.map_nil, List.count_nil, Nat.zero_add] at this
  exact ⟨by have := this.1; simp only [Listener.fresh]; omega, this.2⟩

/-- Progress: while a connection waits and a callback waits, the service's next report serves the oldest callback with
the oldest connection. -/
theorem accept_served (s : Listener) (ho : s.isOpen = true) (c cb : Nat) (conns rest : List Nat) (hb : s.backlog = c :: conns)
    (hp : s.pending = cb :: rest) :
    (s.step (.ready .normal)).invoked = s.invoked ++ [(cb, some c)] ∧ (s.step (.ready .normal)).backlog = conns ∧
      (s.step (.ready .normal)).pending = rest := by
  simp [Listener.step, Listener.serve, Listener.answer, ho, hb, hp]

/-- Two connections, a spurious report before the first, both calls. -/
example :
    let ops : List ListenOp := [.listen true, .acceptAsync 1, .ready .normal, .arrive 7, .arrive 8, .ready .normal, .accept .normal]
    KeepsAll (Listener.fresh true) ops ∧ gotten (Listener.fresh true) ops = [7, 8] ∧
      ((Listener.fresh true).run ops).invoked = [(1, some 7)] ∧ ((Listener.fresh true).run ops).returned = [some 8] := by
  refine ⟨⟨trivial, trivial, ⟨rfl, by decide +kernel⟩, trivial, trivial, ⟨rfl, by decide +kernel⟩, ⟨rfl, by decide +kernel⟩, trivial⟩, by decide +kernel, by decide +kernel, by decide +kernel⟩

/-- **C95 does not hold in full**: one failed `accept` (a client that gave up: `ECONNABORTED`; no descriptors
left: `EMFILE`) closes the listening socket: the connections already waiting are lost, and the other
callbacks are never invoked. -/
theorem accept_error_closes_violated :
    ∃ ops : List ListenOp, (∀ op ∈ ops, op ≠ .close ∧ op ≠ .movedFrom) ∧
      arrived (Listener.fresh true) ops = [7, 8] ∧ gotten (Listener.fresh true) ops = [] ∧ asked ops = [1, 2] ∧
      (∀ more : List ListenOp, (∀ op ∈ more, ∃ os, op = .ready os) →
        ((Listener.fresh true).run (ops ++ more)).invoked = [(1, none)]) := by
  refine ⟨[.listen true, .acceptAsync 1, .acceptAsync 2, .arrive 7, .arrive 8, .ready .error], by decide, by decide +kernel,
    by decide +kernel, rfl, ?_⟩
  intro more hm
  have stuck : ∀ (l : List ListenOp) (s : Listener), s.pending = [] → (∀ op ∈ l, ∃ os, op = .ready os) → s.run l = s := by
    intro l
    induction l with
    | nil => intro s _ _; rfl
    | cons op l ih =>
      intro s hp ho
      obtain ⟨os, rfl⟩ := ho op List.mem_cons_self
      have e : s.step (.ready os) = s := by simp only [Listener.step, Listener.serve, hp]
      show (s.step (.ready os)).run l = s
      rw [e]
      exact ih s hp fun q hq => ho q (List.mem_cons_of_mem _ hq)
  show (Listener.run _ _).invoked = _
  unfold Listener.run
  rw [List.foldl_append]
  have := stuck more _ (by decide +kernel : ((Listener.fresh true).run
    [.listen true, .acceptAsync 1, .acceptAsync 2, .arrive 7, .arrive 8, .ready .error]).pending = []) hm
  unfold Listener.run at this
  rw [this]
  decide +kernel

/-- **C95 does not hold in full**: `accept` on a socket in the asynchronous mode with no connection waiting closes it
(listen_socket.cpp 98-113 ignores `would_block`): the callbacks waiting are never invoked, later
connections are refused. -/
theorem accept_would_block_closes_violated :
    let s := (Listener.fresh true).run [.listen true, .acceptAsync 1, .accept .normal]
    s.isOpen = false ∧ s.pending = [] ∧ s.invoked = [] ∧ s.returned = [none] ∧ (s.step (.arrive 7)).backlog = [] := by
  decide +kernel

/-! ## C96: is_listening -/

/-- `is_listening` only if `listen` succeeded on an open socket, and not on a socket that was moved from since. -/
theorem listening_was_asked (ops : List ListenOp) (isOpen : Bool)
    (h : ((Listener.fresh isOpen).run ops).listening = true) :
    ∃ a b, ops = a ++ .listen true :: b ∧ ((Listener.fresh isOpen).run a).isOpen = true ∧ .movedFrom ∉ b ∧
      ∀ ok, .listen ok ∉ b := by
  have hsnoc : ∀ (l : List ListenOp), ((Listener.fresh isOpen).run l).listening = true → ∃ a b, l = a ++ .listen true :: b ∧
      ((Listener.fresh isOpen).run a).isOpen = true ∧ .movedFrom ∉ b ∧ ∀ ok, .listen ok ∉ b := by
    intro l
    induction hl : l.length generalizing l with
    | zero => intro h; rw [List.length_eq_zero_iff] at hl; subst hl; cases h
    | succ n ih =>
      intro h
      obtain ⟨op, l', rfl⟩ : ∃ op l', l = l' ++ [op] := by
        have hne : l ≠ [] := by intro e; rw [e] at hl; cases hl
        exact ⟨l.getLast hne, l.dropLast, (List.dropLast_concat_getLast hne).symm⟩
      have hrun : (Listener.fresh isOpen).run (l' ++ [op]) = ((Listener.fresh isOpen).run l').step op := by
        simp [Listener.run, List.foldl_append]
      rw [hrun] at h
      have hl' : l'.length = n := by simpa using hl
      generalize hs : (Listener.fresh isOpen).run l' = s at h
      have keep : (s.step op).listening = s.listening ∨ op = .movedFrom ∨ ∃ ok, op = .listen ok := by
        cases op with
        | listen ok => exact .inr (.inr ⟨ok, rfl⟩)
        | arrive c => simp only [Listener.step]; split <;> exact .inl rfl
        | acceptAsync => exact .inl rfl
        | ready os =>
          simp only [Listener.step, Listener.serve]
          repeat' split
          all_goals first | exact .inl rfl | (simp only [Listener.close]; split <;> exact .inl rfl)
        | accept os =>
          simp only [Listener.step]
          repeat' split
          all_goals first | exact .inl rfl | (simp only [Listener.close]; split <;> exact .inl rfl)
        | close => simp only [Listener.step, Listener.close]; split <;> exact .inl rfl
        | movedFrom => exact .inr (.inl rfl)
      rcases Classical.em (∃ ok, op = .listen ok) with ⟨ok, rfl⟩ | hnl
      · simp only [Listener.step, Bool.and_eq_true] at h
        obtain ⟨h1, rfl⟩ := h
        exact ⟨l', [], rfl, by rw [hs]; exact h1, by simp, by simp⟩
      · by_cases hmv : op = .movedFrom
        · subst hmv; cases h
        · rcases keep with hk | hk | hk
          · rw [hk] at h
            obtain ⟨a, b, e, h1, h2, h3⟩ := ih l' hl' (by rw [hs]; exact h)
            refine ⟨a, b ++ [op], by rw [e]; simp, h1, ?_, ?_⟩
            · simp only [List.mem_append, List.mem_singleton, not_or]; exact ⟨h2, fun e => hmv e.symm⟩
            · intro ok; simp only [List.mem_append, List.mem_singleton, not_or]
              exact ⟨h3 ok, fun e => hnl ⟨ok, e.symm⟩⟩
          · exact absurd hk hmv
          · exact absurd hk hnl
  exact hsnoc ops h

/-- **C96, what holds.** As long as nothing closes the socket, `is_listening` means an open socket the kernel
accepts connections for. -/
theorem listening_is_open_partial (ops : List ListenOp) (isOpen : Bool) (hk : KeepsAll (Listener.fresh isOpen) ops)
    (h : ((Listener.fresh isOpen).run ops).listening = true) :
    ((Listener.fresh isOpen).run ops).isOpen = true ∧
      ∀ c, (((Listener.fresh isOpen).run ops).step (.arrive c)).backlog = ((Listener.fresh isOpen).run ops).backlog ++ [c] := by
  have gen : ∀ (l : List ListenOp) (s : Listener), KeepsAll s l → (s.listening = true → s.isOpen = true) →
      (s.run l).listening = true → (s.run l).isOpen = true := by
    intro l
    induction l with
    | nil => intro s _ h; exact h
    | cons op l ih =>
      intro s hk hs
      refine ih (s.step op) hk.2 ?_
      have hk1 := hk.1
      cases op with
      | listen ok => intro h; simp only [Listener.step, Bool.and_eq_true] at h ⊢; exact h.1
      | arrive c => simp only [Listener.step]; split <;> exact hs
      | acceptAsync => exact hs
      | ready os =>
        obtain ⟨rfl, ho⟩ := hk1
        simp only [Listener.step, Listener.serve, Listener.answer, ho, if_true]
        repeat' split
        all_goals first | exact hs | contradiction | exact fun _ => ho | exact fun _ => rfl
      | accept os =>
        obtain ⟨rfl, hne⟩ := hk1
        cases hb : s.backlog with
        | nil => exact absurd hb hne
        | cons c conns => simp only [Listener.step, hb]; exact hs
      | close => exact absurd hk1 id
      | movedFrom => exact absurd hk1 id
  have ho := gen ops (Listener.fresh isOpen) hk (fun h => by cases h) h
  exact ⟨ho, fun c => by simp [Listener.step, ho, h]⟩

/-- **C96 does not hold in full**: after `close`, and after a failed `accept`, `is_listening` is still true. -/
theorem listening_after_close_violated :
    let s := (Listener.fresh true).run [.listen true, .close]
    let t := (Listener.fresh true).run [.listen true, .accept .error]
    s.listening = true ∧ s.isOpen = false ∧ t.listening = true ∧ t.isOpen = false := by
  decide +kernel

/-- A listening socket that is moved from is neither open nor listening: connections do not go to it, `accept` gives none,
and each callback still waiting at the service is invoked with none when its turn comes. -/
theorem moved_from_listener (s : Listener) (os : AcceptOs) (c : Nat) :
    let m := s.step .movedFrom
    m.isOpen = false ∧ m.listening = false ∧ (m.step (.arrive c)) = m ∧
      (m.step (.accept os)).returned = s.returned ++ [none] ∧
      ∀ cb rest, s.pending = cb :: rest →
        (m.step (.ready os)).invoked = s.invoked ++ [(cb, none)] ∧ (m.step (.ready os)).pending = rest := by
  refine ⟨rfl, rfl, rfl, ?_, fun cb rest h => ?_⟩
  · cases os <;> rfl
  · simp [Listener.step, Listener.serve, Listener.answer, Listener.close, h]

end Verif.Socket
