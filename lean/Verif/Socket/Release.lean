/-!
# C168: releasing sockets and their service

Sources: `/repo/fly/net/socket/socket_service.cpp`, `/repo/fly/net/socket/socket_service.hpp` 136-231 (`wrap_callback`).

Who keeps what: the program has references to sockets and to the service; the service has the callbacks of its requests; a callback
has a weak reference to its own socket and whatever the program captured in it, which may be references to sockets; the tasks on the
runner have a weak reference to the service, and the one that registers a request has the callback. Which handles are ready, and what
the operations do, is left to other properties: any request may be served at any time during a poll. A callback is one step
(what it does with the library are steps of their own).
-/

namespace Verif.Socket.Release

/-- A request: its callback, the socket it belongs to, and the sockets its callback has references to. -/
structure Req where
  id : Nat
  sock : Nat
  captures : List Nat
deriving DecidableEq, Repr

/-- The tasks of the service on its runner. -/
inductive Task where
  /-- `notify_when_writable` / `notify_when_readable`, socket_service.cpp 62-92 -/
  | add (r : Req)
  /-- `poll`, 130-138 -/
  | poll
  /-- `remove_socket`, 46-59 -/
  | remove (k : Nat)
deriving DecidableEq, Repr

/-- What became of a callback. -/
inductive Fate where
  | invoked
  | dropped
  /-- the call returned false -/
  | refused
deriving DecidableEq, Repr

structure State where
  /-- references of the program to the service, with those that sockets lock for a call -/
  svc : Nat
  /-- the service exists -/
  alive : Bool
  /-- the runner executes `poll`, which has a reference to the service -/
  polling : Bool
  queue : List Task
  reqs : List Req
  /-- references of the program to each socket -/
  held : Nat → Nat
  next : Nat
  log : List (Req × Fate)

/-- The callback a task has. -/
def Task.req? : Task → Option Req
  | .add r => some r
  | _ => none

/-- The callbacks that exist. -/
def State.carried (s : State) : List Req := s.queue.filterMap Task.req? ++ s.reqs

/-- The socket exists: somebody has a reference to it. -/
def State.exists? (s : State) (k : Nat) : Bool := decide (0 < s.held k) || s.carried.any fun r => r.captures.contains k

/-- The service is destroyed with its last reference, and its requests with it. -/
def State.settle (s : State) : State :=
  if s.svc = 0 ∧ s.polling = false ∧ s.alive = true then
    { s with alive := false, reqs := [], log := s.log ++ s.reqs.map fun r => (r, .dropped) }
  else s

/-- `SocketService::create` (socket_service.cpp 12-29), sockets as the program has them. -/
def created (held : Nat → Nat) : State :=
  { svc := 1, alive := true, polling := false, queue := [], reqs := [], held, next := 0, log := [] }

/-- What can happen. -/
inductive Op where
  /-- an asynchronous call on socket `k` with a callback that captures `caps` -/
  | call (k : Nat) (caps : List Nat)
  | copySocket (k : Nat)
  | releaseSocket (k : Nat)
  /-- a socket with this handle is closed -/
  | close (k : Nat)
  /-- also a weak reference that is locked -/
  | copyService
  | releaseService
  /-- the runner takes its next task -/
  | begin
  /-- the poll serves the request at this place -/
  | serve (i : Nat)
  | endPoll
deriving Repr

/-- One step, if it is possible. -/
def step (s : State) : Op → Option State
  -- tcp_socket.cpp 259-273 and the like: refused without a service
  | .call k caps =>
    if s.exists? k = true ∧ caps.all s.exists? = true then
      let r : Req := ⟨s.next, k, caps⟩
      some (if s.alive then { s with next := s.next + 1, queue := s.queue ++ [.add r] }
        else { s with next := s.next + 1, log := s.log ++ [(r, .refused)] })
    else none
  | .copySocket k =>
    if s.exists? k = true then some { s with held := fun j => if j = k then s.held j + 1 else s.held j } else none
  | .releaseSocket k =>
    if 0 < s.held k then some { s with held := fun j => if j = k then s.held j - 1 else s.held j } else none
  -- base_socket.cpp 145-156
  | .close k => some (if s.alive then { s with queue := s.queue ++ [.remove k] } else s)
  | .copyService => if s.alive then some { s with svc := s.svc + 1 } else none
  | .releaseService => if 0 < s.svc then some { s with svc := s.svc - 1 }.settle else none
  -- a task whose service is gone is dropped (task_runner.hpp 649-770)
  | .begin =>
    if s.polling then none
    else match s.queue with
      | [] => none
      | .add r :: q =>
        some (if s.alive then { s with queue := q, reqs := s.reqs ++ [r], polling := s.reqs.isEmpty }
          else { s with queue := q, log := s.log ++ [(r, .dropped)] })
      | .poll :: q => some { s with queue := q, polling := s.alive }
      | .remove k :: q =>
        some (if s.alive then { s with
            queue := q
            reqs := s.reqs.filter fun r => r.sock ≠ k
            log := s.log ++ (s.reqs.filter fun r => r.sock = k).map fun r => (r, .dropped) }
          else { s with queue := q })
  -- socket_service.cpp 112-122; the callback runs if its socket can be locked, socket_service.hpp 222-228
  | .serve i =>
    if s.polling then
      match s.reqs[i]? with
      | none => none
      | some r => some { s with
          reqs := s.reqs.eraseIdx i
          log := s.log ++ [(r, if s.exists? r.sock then .invoked else .dropped)] }
    else none
  -- socket_service.cpp 130-138
  | .endPoll =>
    if s.polling then
      some { s with polling := false, queue := if s.reqs.isEmpty then s.queue else s.queue ++ [Task.poll] }.settle
    else none

/-- A history. -/
def run : State → List Op → Option State
  | s, [] => some s
  | s, o :: r => (step s o).bind fun s' => run s' r

/-! ## Proofs -/

theorem fm_nil : ([] : List Task).filterMap Task.req? = [] := rfl
theorem fm_add (r : Req) (q : List Task) : (Task.add r :: q).filterMap Task.req? = r :: q.filterMap Task.req? := rfl
theorem fm_poll (q : List Task) : (Task.poll :: q).filterMap Task.req? = q.filterMap Task.req? := rfl
theorem fm_remove (k : Nat) (q : List Task) : (Task.remove k :: q).filterMap Task.req? = q.filterMap Task.req? := rfl

theorem settle_next (t : State) : t.settle.next = t.next := by unfold State.settle; split <;> rfl

theorem settle_polling (t : State) : t.settle.polling = t.polling := by unfold State.settle; split <;> rfl
theorem settle_gone {t : State} (h : t.alive = false) : t.settle.alive = false := by
  unfold State.settle
  split
  · rfl
  · exact h

/-- Occurrences of a request, held or with its fate known. -/
def total (s : State) (i : Nat) : Nat :=
  (s.queue.filterMap Task.req?).countP (·.id == i) + s.reqs.countP (·.id == i) + s.log.countP (·.1.id == i)

theorem total_settle (s : State) (i : Nat) : total s.settle i = total s i := by
  unfold State.settle total
  split
  · simp [List.countP_append, List.countP_map, Function.comp_def]
    omega
  · rfl

theorem count_erase {l : List Req} {j : Nat} {r : Req} (h : l[j]? = some r) (i : Nat) :
    (l.eraseIdx j).countP (·.id == i) + (if r.id == i then 1 else 0) = l.countP (·.id == i) := by
  induction l generalizing j with
  | nil => simp at h
  | cons a l ih =>
    cases j with
    | zero =>
      simp at h
      subst h
      simp [List.countP_cons]
    | succ j =>
      simp only [List.eraseIdx_cons_succ, List.countP_cons]
      have := ih h
      omega

theorem count_split (l : List Req) (k i : Nat) :
    (l.filter fun r => r.sock ≠ k).countP (·.id == i) + (l.filter fun r => r.sock = k).countP (·.id == i) =
      l.countP (·.id == i) := by
  induction l with
  | nil => rfl
  | cons a l ih =>
    by_cases h : a.sock = k <;> simp [h, List.countP_cons] at ih ⊢ <;> omega

theorem step_total {s s' : State} {o : Op} (hs : step s o = some s')
    (h : ∀ i, total s i = if i < s.next then 1 else 0) : ∀ i, total s' i = if i < s'.next then 1 else 0 := by
  intro i
  have hi := h i
  cases o with
  | call k caps =>
    simp only [step] at hs
    split at hs <;> cases hs
    have hb : ∀ h : ¬ s.next = i, (s.next == i) = false := fun h => by simpa using h
    split <;> simp only [total, List.filterMap_append, List.countP_append, fm_add, fm_nil, List.countP_cons, List.countP_nil] at hi ⊢ <;>
      by_cases e : s.next = i
    · subst e
      rw [if_neg (by omega)] at hi
      simp
      omega
    · rw [hb e]
      by_cases g : i < s.next
      · rw [if_pos g] at hi; rw [if_pos (show i < s.next + 1 by omega)]; simp; omega
      · rw [if_neg g] at hi; rw [if_neg (show ¬ i < s.next + 1 by omega)]; simp only [Bool.false_eq_true, if_false]; omega
    · subst e
      rw [if_neg (by omega)] at hi
      simp
      omega
    · rw [hb e]
      by_cases g : i < s.next
      · rw [if_pos g] at hi; rw [if_pos (show i < s.next + 1 by omega)]; simp; omega
      · rw [if_neg g] at hi; rw [if_neg (show ¬ i < s.next + 1 by omega)]; simp only [Bool.false_eq_true, if_false]; omega
  | copySocket k =>
    simp only [step] at hs
    split at hs <;> cases hs
    exact hi
  | releaseSocket k =>
    simp only [step] at hs
    split at hs <;> cases hs
    exact hi
  | close k =>
    simp only [step] at hs
    cases hs
    split
    · simpa [total, List.filterMap_append, fm_remove, fm_nil] using hi
    · exact hi
  | copyService =>
    simp only [step] at hs
    split at hs <;> cases hs
    exact hi
  | releaseService =>
    simp only [step] at hs
    split at hs <;> cases hs
    rw [total_settle]
    rw [settle_next]
    exact hi
  | begin =>
    simp only [step] at hs
    split at hs
    · cases hs
    · split at hs
      · cases hs
      · rename_i r q hq
        cases hs
        rw [total, hq, fm_add] at hi
        split <;> simp only [total, List.countP_cons, List.countP_append, List.countP_nil] at hi ⊢ <;> omega
      · rename_i q hq
        cases hs
        rw [total, hq, fm_poll] at hi
        exact hi
      · rename_i k q hq
        cases hs
        rw [total, hq, fm_remove] at hi
        have := count_split s.reqs k i
        split
        · simp only [total, List.countP_append, List.countP_map, Function.comp_def]
          simp only [decide_not, ne_eq] at this ⊢
          omega
        · exact hi
  | serve j =>
    simp only [step] at hs
    split at hs
    · split at hs
      · cases hs
      · rename_i r hr
        cases hs
        have := count_erase hr i
        simp only [total, List.countP_append, List.countP_cons, List.countP_nil] at hi ⊢
        omega
    · cases hs
  | endPoll =>
    simp only [step] at hs
    split at hs <;> cases hs
    rw [total_settle]
    rw [settle_next]
    simp only [total] at hi ⊢
    split
    · exact hi
    · simpa [List.filterMap_append, fm_poll, fm_nil] using hi

/-- What a step does to the callbacks that exist, to the references and to the record of invocations. -/
theorem step_gone {s s' : State} {o : Op} (hs : step s o = some s') :
    (s.alive = false → s'.alive = false ∧ (s.polling = false → s'.polling = false)) ∧
    (∀ k, s.exists? k = false → s'.exists? k = false) := by
  have settle_carried : ∀ t : State, ∀ r ∈ t.settle.carried, r ∈ t.carried := by
    intro t r hr
    unfold State.settle at hr
    split at hr
    · simp [State.carried] at hr ⊢
      exact .inl hr
    · exact hr
  have settle_held : ∀ t : State, t.settle.held = t.held := by
    intro t; unfold State.settle; split <;> rfl
  have mono : ∀ t : State, (∀ j, t.held j = 0 ∨ s.exists? j = true) → (∀ r ∈ t.carried, r ∈ s.carried ∨ ∀ j ∈ r.captures, s.exists? j = true) →
      ∀ k, s.exists? k = false → t.exists? k = false := by
    intro t h1 h2 k hk
    simp only [State.exists?, Bool.or_eq_false_iff, decide_eq_false_iff_not, List.any_eq_false]
    refine ⟨?_, fun r hr hc => ?_⟩
    · rcases h1 k with e | e
      · omega
      · rw [hk] at e; cases e
    · have hc : k ∈ r.captures := by simpa using hc
      rcases h2 r hr with e | e
      · have : s.exists? k = true := by
          simp only [State.exists?, Bool.or_eq_true, List.any_eq_true]
          exact .inr ⟨r, e, by simpa using hc⟩
        rw [hk] at this; cases this
      · have := e k hc
        rw [hk] at this; cases this
  have own : ∀ j, s.held j = 0 ∨ s.exists? j = true := by
    intro j
    by_cases e : s.held j = 0
    · exact .inl e
    · refine .inr ?_
      simp only [State.exists?, Bool.or_eq_true, decide_eq_true_eq]
      exact .inl (by omega)
  cases o with
  | call k caps =>
    simp only [step] at hs
    split at hs <;> cases hs
    rename_i hc
    split
    · rename_i ha
      refine ⟨fun e => (by rw [ha] at e; cases e), mono _ own fun r hr => ?_⟩
      simp only [State.carried, List.filterMap_append, List.mem_append] at hr
      rcases hr with (hr | hr) | hr
      · exact .inl (by simp only [State.carried, List.mem_append]; exact .inl hr)
      · simp [Task.req?] at hr
        subst hr
        exact .inr fun j hj => List.all_eq_true.1 hc.2 j hj
      · exact .inl (by simp only [State.carried, List.mem_append]; exact .inr hr)
    · exact ⟨fun e => ⟨e, fun e => e⟩, mono _ own fun r hr => .inl hr⟩
  | copySocket k =>
    simp only [step] at hs
    split at hs <;> cases hs
    rename_i hc
    refine ⟨fun e => ⟨e, fun e => e⟩, mono _ (fun j => ?_) fun r hr => .inl hr⟩
    by_cases e : j = k
    · subst e; exact .inr hc
    · simp only [e, if_false]; exact own j
  | releaseSocket k =>
    simp only [step] at hs
    split at hs <;> cases hs
    refine ⟨fun e => ⟨e, fun e => e⟩, mono _ (fun j => ?_) fun r hr => .inl hr⟩
    rcases own j with e | e
    · left
      simp only
      split <;> omega
    · exact .inr e
  | close k =>
    simp only [step] at hs
    cases hs
    split
    · rename_i ha
      refine ⟨fun e => (by rw [ha] at e; cases e), mono _ own fun r hr => .inl ?_⟩
      simpa [State.carried, List.filterMap_append, Task.req?] using hr
    · exact ⟨fun e => ⟨e, fun e => e⟩, fun k h => h⟩
  | copyService =>
    simp only [step] at hs
    split at hs <;> cases hs
    exact ⟨fun e => ⟨e, fun e => e⟩, fun k h => h⟩
  | releaseService =>
    simp only [step] at hs
    split at hs <;> cases hs
    refine ⟨fun e => ?_, mono _ (fun j => by rw [settle_held]; exact own j) fun r hr => .inl (by
      have := settle_carried _ r hr
      simpa only [State.carried] using this)⟩
    unfold State.settle
    split
    · exact ⟨rfl, fun e => e⟩
    · exact ⟨e, fun e => e⟩
  | begin =>
    simp only [step] at hs
    split at hs
    · cases hs
    · split at hs
      · cases hs
      · rename_i r q hq
        cases hs
        split
        · rename_i ha
          refine ⟨fun e => (by rw [ha] at e; cases e), mono _ own fun x hx => .inl ?_⟩
          simp [State.carried, hq, Task.req?] at hx ⊢
          rcases hx with h | h | h
          · exact .inr (.inl h)
          · exact .inr (.inr h)
          · exact .inl h
        · refine ⟨fun e => ⟨e, fun e => e⟩, mono _ own fun x hx => .inl ?_⟩
          simp [State.carried, hq, Task.req?] at hx ⊢
          exact .inr hx
      · rename_i q hq
        cases hs
        refine ⟨fun e => ⟨e, fun _ => e⟩, mono _ own fun x hx => .inl ?_⟩
        simpa [State.carried, hq, Task.req?] using hx
      · rename_i k q hq
        cases hs
        split
        · rename_i ha
          refine ⟨fun e => (by rw [ha] at e; cases e), mono _ own fun x hx => .inl ?_⟩
          simp [State.carried, hq, Task.req?] at hx ⊢
          rcases hx with h | h
          · exact .inl h
          · exact .inr h.1
        · refine ⟨fun e => ⟨e, fun e => e⟩, mono _ own fun x hx => .inl ?_⟩
          simpa [State.carried, hq, Task.req?] using hx
  | serve j =>
    simp only [step] at hs
    split at hs
    · rename_i hp
      split at hs
      · cases hs
      · rename_i r hr
        cases hs
        refine ⟨fun e => ⟨e, fun e => e⟩, mono _ own fun x hx => .inl ?_⟩
        simp only [State.carried, List.mem_append] at hx ⊢
        rcases hx with h | h
        · exact .inl h
        · exact .inr (List.mem_of_mem_eraseIdx h)
    · cases hs
  | endPoll =>
    simp only [step] at hs
    split at hs <;> cases hs
    refine ⟨fun e => ?_, mono _ (fun j => by rw [settle_held]; exact own j) fun r hr => .inl ?_⟩
    · exact ⟨settle_gone e, fun _ => settle_polling _⟩
    · have := settle_carried _ r hr
      simp only [State.carried] at this ⊢
      split at this
      · exact this
      · simpa [List.filterMap_append, Task.req?] using this

structure Inv (s : State) : Prop where
  total : ∀ i, total s i = if i < s.next then 1 else 0
  alive : s.alive = true ↔ 0 < s.svc ∨ s.polling = true
  empty : s.alive = false → s.reqs = []

theorem settle_alive {t : State} (h : 0 < t.svc ∨ t.polling = true → t.alive = true) (he : t.alive = false → t.reqs = []) :
    (t.settle.alive = true ↔ 0 < t.settle.svc ∨ t.settle.polling = true) ∧ (t.settle.alive = false → t.settle.reqs = []) := by
  unfold State.settle
  split
  · rename_i hc
    refine ⟨⟨fun e => by simp at e, fun e => ?_⟩, fun _ => rfl⟩
    rcases e with e | e
    · have e : 0 < t.svc := e
      omega
    · have e : t.polling = true := e
      rw [hc.2.1] at e; cases e
  · rename_i hc
    refine ⟨⟨fun e => ?_, h⟩, he⟩
    by_cases h1 : t.svc = 0
    · right
      cases h2 : t.polling with
      | true => rfl
      | false => exact absurd ⟨h1, h2, e⟩ hc
    · left; omega

theorem Inv.step {s s' : State} {o : Op} (h : Inv s) (hs : step s o = some s') : Inv s' := by
  suffices hx : (s'.alive = true ↔ 0 < s'.svc ∨ s'.polling = true) ∧ (s'.alive = false → s'.reqs = []) from
    ⟨step_total hs h.total, hx.1, hx.2⟩
  obtain ⟨_, ha, he⟩ := h
  cases o with
  | call k caps =>
    simp only [Release.step] at hs
    split at hs <;> cases hs
    split
    · exact ⟨ha, he⟩
    · exact ⟨ha, he⟩
  | copySocket k =>
    simp only [Release.step] at hs
    split at hs <;> cases hs
    exact ⟨ha, he⟩
  | releaseSocket k =>
    simp only [Release.step] at hs
    split at hs <;> cases hs
    exact ⟨ha, he⟩
  | close k =>
    simp only [Release.step] at hs
    cases hs
    split <;> exact ⟨ha, he⟩
  | copyService =>
    simp only [Release.step] at hs
    split at hs <;> cases hs
    rename_i hal
    exact ⟨⟨fun _ => .inl (by simp), fun _ => hal⟩, he⟩
  | releaseService =>
    simp only [Release.step] at hs
    split at hs <;> cases hs
    rename_i hu
    exact settle_alive (fun _ => ha.2 (.inl hu)) he
  | begin =>
    simp only [Release.step] at hs
    split at hs
    · cases hs
    · rename_i hp
      have hsvc : s.alive = true → 0 < s.svc := fun e => (ha.1 e).resolve_right hp
      split at hs
      · cases hs
      · cases hs
        split
        · rename_i hal
          exact ⟨⟨fun _ => .inl (hsvc hal), fun _ => hal⟩, fun e => by have e : s.alive = false := e; rw [hal] at e; cases e⟩
        · exact ⟨ha, he⟩
      · cases hs
        refine ⟨⟨fun e => .inl (hsvc e), fun e => ?_⟩, he⟩
        rcases e with e | e
        · exact ha.2 (.inl e)
        · exact e
      · cases hs
        split
        · rename_i hal
          exact ⟨ha, fun e => by have e : s.alive = false := e; rw [hal] at e; cases e⟩
        · exact ⟨ha, he⟩
  | serve j =>
    simp only [Release.step] at hs
    split at hs
    · rename_i hp
      split at hs
      · cases hs
      · cases hs
        exact ⟨ha, fun e => by have := ha.2 (.inr hp); have e : s.alive = false := e; rw [this] at e; cases e⟩
    · cases hs
  | endPoll =>
    simp only [Release.step] at hs
    split at hs <;> cases hs
    rename_i hp
    exact settle_alive (fun _ => ha.2 (.inr hp)) he

theorem inv_run {ops : List Op} : ∀ {s s' : State}, Inv s → run s ops = some s' → Inv s' := by
  induction ops with
  | nil => intro s s' h hr; cases hr; exact h
  | cons o r ih =>
    intro s s' h hr
    obtain ⟨t, h1, h2⟩ := Option.bind_eq_some_iff.1 hr
    exact ih (h.step h1) h2

theorem inv_created (held : Nat → Nat) : Inv (created held) :=
  ⟨fun i => by simp [total, created], by simp [created], fun e => by simp [created] at e⟩

/-- Who is invoked in a step: a request of a socket that exists, with a service that exists. -/
theorem step_invoked {s s' : State} {o : Op} (h : Inv s) (hs : step s o = some s') (r : Req) (hr : (r, Fate.invoked) ∈ s'.log) :
    (r, Fate.invoked) ∈ s.log ∨ s.exists? r.sock = true ∧ s.alive = true ∧ r ∈ s.reqs := by
  have st : ∀ t : State, (r, Fate.invoked) ∈ t.settle.log → (r, Fate.invoked) ∈ t.log := by
    intro t ht
    unfold State.settle at ht
    split at ht
    · simpa using ht
    · exact ht
  cases o with
  | call k caps =>
    simp only [step] at hs
    split at hs <;> cases hs
    split at hr
    · exact .inl hr
    · left; simpa using hr
  | copySocket k => simp only [step] at hs; split at hs <;> cases hs; exact .inl hr
  | releaseSocket k => simp only [step] at hs; split at hs <;> cases hs; exact .inl hr
  | close k => simp only [step] at hs; cases hs; split at hr <;> exact .inl hr
  | copyService => simp only [step] at hs; split at hs <;> cases hs; exact .inl hr
  | releaseService => simp only [step] at hs; split at hs <;> cases hs; left; have := st _ hr; exact this
  | begin =>
    simp only [step] at hs
    split at hs
    · cases hs
    · split at hs
      · cases hs
      · cases hs; split at hr
        · exact .inl hr
        · left; simpa using hr
      · cases hs; exact .inl hr
      · cases hs; split at hr
        · left; simpa using hr
        · exact .inl hr
  | serve j =>
    simp only [step] at hs
    split at hs
    · rename_i hp
      split at hs
      · cases hs
      · rename_i x hx
        cases hs
        simp only [List.mem_append, List.mem_singleton, Prod.mk.injEq] at hr
        rcases hr with hr | ⟨rfl, hr⟩
        · exact .inl hr
        · refine .inr ⟨?_, h.alive.2 (.inr hp), List.mem_of_getElem? hx⟩
          split at hr
          · assumption
          · cases hr
    · cases hs
  | endPoll => simp only [step] at hs; split at hs <;> cases hs; left; have := st _ hr; exact this

/-- The requests of socket `k` in the queue are before a task that removes them. -/
def Ahead (k : Nat) : List Task → Prop
  | [] => True
  | .add r :: q => (r.sock = k → Task.remove k ∈ q) ∧ Ahead k q
  | _ :: q => Ahead k q

theorem ahead_append {k : Nat} {t : Task} (h : ∀ r, t = .add r → r.sock ≠ k) : ∀ {q : List Task}, Ahead k q → Ahead k (q ++ [t])
  | [], _ => by
    cases t with
    | add r => exact ⟨fun e => absurd e (h r rfl), trivial⟩
    | poll => trivial
    | remove j => trivial
  | .add _ :: _, ⟨g1, g2⟩ => ⟨fun e => List.mem_append_left _ (g1 e), ahead_append h g2⟩
  | .poll :: q, g => ahead_append (q := q) h g
  | .remove _ :: q, g => ahead_append (q := q) h g

theorem ahead_close {k : Nat} : ∀ {q : List Task}, Ahead k (q ++ [.remove k])
  | [] => trivial
  | .add _ :: _ => ⟨fun _ => List.mem_append_right _ (List.mem_singleton.2 rfl), ahead_close⟩
  | .poll :: q => ahead_close (q := q)
  | .remove _ :: q => ahead_close (q := q)

/-- Socket `k` was closed: what it still has with the service will be removed. -/
def Closing (k : Nat) (s : State) : Prop :=
  s.alive = true → Ahead k s.queue ∧ ∀ r ∈ s.reqs, r.sock = k → Task.remove k ∈ s.queue

theorem Closing.settle {k : Nat} {s : State} (h : Closing k s) : Closing k s.settle := by
  unfold State.settle
  split
  · intro e; cases e
  · exact h

theorem Closing.step {k : Nat} {s s' : State} {o : Op} (h : Closing k s) (hs : step s o = some s') (ho : ∀ c, o ≠ .call k c) :
    Closing k s' := by
  cases o with
  | call j caps =>
    simp only [Release.step] at hs
    split at hs <;> cases hs
    split
    · intro e
      obtain ⟨h1, h2⟩ := h e
      refine ⟨ahead_append ?_ h1, fun r hr e => List.mem_append_left _ (h2 r hr e)⟩
      intro r e1 e2
      cases e1
      exact ho caps (by rw [show j = k from e2])
    · exact h
  | copySocket j => simp only [Release.step] at hs; split at hs <;> cases hs; exact h
  | releaseSocket j => simp only [Release.step] at hs; split at hs <;> cases hs; exact h
  | close j =>
    simp only [Release.step] at hs
    cases hs
    split
    · intro e
      obtain ⟨h1, h2⟩ := h e
      exact ⟨ahead_append (fun r e => by cases e) h1, fun r hr e => List.mem_append_left _ (h2 r hr e)⟩
    · exact h
  | copyService => simp only [Release.step] at hs; split at hs <;> cases hs; exact h
  | releaseService => simp only [Release.step] at hs; split at hs <;> cases hs; exact Closing.settle (s := { s with svc := s.svc - 1 }) h
  | begin =>
    simp only [Release.step] at hs
    split at hs
    · cases hs
    · split at hs
      · cases hs
      · rename_i r q hq
        cases hs
        split
        · rename_i ha
          intro _
          obtain ⟨h1, h2⟩ := h ha
          rw [hq] at h1 h2
          refine ⟨h1.2, fun x hx e => ?_⟩
          rcases List.mem_append.1 hx with g | g
          · have := h2 x g e
            simpa using this
          · rw [List.mem_singleton.1 g] at e
            exact h1.1 e
        · rename_i ha
          intro e
          exact absurd e ha
      · rename_i q hq
        cases hs
        intro e
        obtain ⟨h1, h2⟩ := h e
        rw [hq] at h1 h2
        exact ⟨h1, fun x hx e => by simpa using h2 x hx e⟩
      · rename_i j q hq
        cases hs
        split
        · rename_i ha
          intro _
          obtain ⟨h1, h2⟩ := h ha
          rw [hq] at h1 h2
          refine ⟨h1, fun x hx e => ?_⟩
          simp only [List.mem_filter, decide_eq_true_eq, ne_eq] at hx
          have := h2 x hx.1 e
          rcases List.mem_cons.1 this with g | g
          · cases g; exact absurd e hx.2
          · exact g
        · rename_i ha
          intro e
          exact absurd e ha
  | serve j =>
    simp only [Release.step] at hs
    split at hs
    · split at hs
      · cases hs
      · cases hs
        intro e
        obtain ⟨h1, h2⟩ := h e
        exact ⟨h1, fun x hx => h2 x (List.mem_of_mem_eraseIdx hx)⟩
    · cases hs
  | endPoll =>
    simp only [Release.step] at hs
    split at hs <;> cases hs
    apply Closing.settle
    intro e
    obtain ⟨h1, h2⟩ := h e
    refine ⟨?_, fun x hx e => ?_⟩
    · dsimp only; split
      · exact h1
      · exact ahead_append (fun r e => by cases e) h1
    · dsimp only; split
      · exact h2 x hx e
      · exact List.mem_append_left _ (h2 x hx e)

theorem ahead_none {k : Nat} {r : Req} (hk : r.sock = k) : ∀ {q : List Task}, Ahead k q → Task.remove k ∉ q → Task.add r ∉ q
  | [], _, _ => by simp
  | .add x :: q, g, n => by
    have n' : Task.remove k ∉ q := fun e => n (List.mem_cons_of_mem _ e)
    intro e
    rcases List.mem_cons.1 e with e | e
    · cases e; exact n' (g.1 hk)
    · exact ahead_none hk g.2 n' e
  | .poll :: q, g, n => by
    intro e
    rcases List.mem_cons.1 e with e | e
    · cases e
    · exact ahead_none hk (q := q) g (fun e => n (List.mem_cons_of_mem _ e)) e
  | .remove _ :: q, g, n => by
    intro e
    rcases List.mem_cons.1 e with e | e
    · cases e
    · exact ahead_none hk (q := q) g (fun e => n (List.mem_cons_of_mem _ e)) e

/-- The library has no request of socket `k`. -/
def Quiet (k : Nat) (s : State) : Prop :=
  s.alive = true → ∀ r : Req, r.sock = k → r ∉ s.reqs ∧ Task.add r ∉ s.queue

theorem Quiet.settle {k : Nat} {s : State} (h : Quiet k s) : Quiet k s.settle := by
  unfold State.settle
  split
  · intro e; cases e
  · exact h

theorem Quiet.step {k : Nat} {s s' : State} {o : Op} (h : Quiet k s) (hs : step s o = some s') (ho : ∀ c, o ≠ .call k c) :
    Quiet k s' := by
  cases o with
  | call j caps =>
    simp only [Release.step] at hs
    split at hs <;> cases hs
    split
    · intro e r hk
      obtain ⟨h1, h2⟩ := h e r hk
      refine ⟨h1, fun m => ?_⟩
      rcases List.mem_append.1 m with m | m
      · exact h2 m
      · rw [List.mem_singleton] at m
        cases m
        exact ho caps (by rw [show j = k from hk])
    · exact h
  | copySocket j => simp only [Release.step] at hs; split at hs <;> cases hs; exact h
  | releaseSocket j => simp only [Release.step] at hs; split at hs <;> cases hs; exact h
  | close j =>
    simp only [Release.step] at hs
    cases hs
    split
    · intro e r hk
      exact ⟨(h e r hk).1, fun m => by simpa using (h e r hk).2 (by simpa using m)⟩
    · exact h
  | copyService => simp only [Release.step] at hs; split at hs <;> cases hs; exact h
  | releaseService => simp only [Release.step] at hs; split at hs <;> cases hs; exact Quiet.settle (s := { s with svc := s.svc - 1 }) h
  | begin =>
    simp only [Release.step] at hs
    split at hs
    · cases hs
    · split at hs
      · cases hs
      · rename_i x q hq
        cases hs
        split
        · rename_i ha
          intro _ r hk
          obtain ⟨h1, h2⟩ := h ha r hk
          rw [hq] at h2
          refine ⟨fun m => ?_, fun m => h2 (List.mem_cons_of_mem _ m)⟩
          rcases List.mem_append.1 m with m | m
          · exact h1 m
          · rw [List.mem_singleton.1 m] at h2
            exact h2 (List.mem_cons_self ..)
        · rename_i ha
          intro e
          exact absurd e ha
      · rename_i q hq
        cases hs
        intro e r hk
        obtain ⟨h1, h2⟩ := h e r hk
        rw [hq] at h2
        exact ⟨h1, fun m => h2 (List.mem_cons_of_mem _ m)⟩
      · rename_i j q hq
        cases hs
        split
        · rename_i ha
          intro _ r hk
          obtain ⟨h1, h2⟩ := h ha r hk
          rw [hq] at h2
          exact ⟨fun m => h1 (List.mem_filter.1 m).1, fun m => h2 (List.mem_cons_of_mem _ m)⟩
        · rename_i ha
          intro e
          exact absurd e ha
  | serve j =>
    simp only [Release.step] at hs
    split at hs
    · split at hs
      · cases hs
      · cases hs
        intro e r hk
        exact ⟨fun m => (h e r hk).1 (List.mem_of_mem_eraseIdx m), (h e r hk).2⟩
    · cases hs
  | endPoll =>
    simp only [Release.step] at hs
    split at hs <;> cases hs
    apply Quiet.settle
    intro e r hk
    refine ⟨(h e r hk).1, ?_⟩
    dsimp only
    split
    · exact (h e r hk).2
    · intro m; exact (h e r hk).2 (by simpa using m)

theorem Closing.run {k : Nat} {mid : List Op} : ∀ {s s' : State}, Closing k s → run s mid = some s' → (∀ c, Op.call k c ∉ mid) →
    Closing k s' := by
  induction mid with
  | nil => intro s s' h hr _; cases hr; exact h
  | cons o l ih =>
    intro s s' h hr hc
    obtain ⟨t, h1, h2⟩ := Option.bind_eq_some_iff.1 hr
    exact ih (h.step h1 fun c e => hc c (e ▸ List.mem_cons_self ..)) h2 fun c m => hc c (List.mem_cons_of_mem _ m)

theorem run_append (a b : List Op) (s : State) : run s (a ++ b) = (run s a).bind fun t => run t b := by
  induction a generalizing s with
  | nil => rfl
  | cons o a ih =>
    simp only [List.cons_append, run]
    cases step s o with
    | none => rfl
    | some t => simp [ih]

/-! ## C168 -/

/-- C168: whatever happens, every callback that was ever given to a call is in exactly one place: waiting in a task, with the service, or
with exactly one fate: invoked, dropped, or refused by the call. So none is invoked twice, and none is lost without being destroyed. -/
theorem one_fate (held : Nat → Nat) (ops : List Op) (s : State) (hr : run (created held) ops = some s) (i : Nat) (hi : i < s.next) :
    (s.queue.filterMap Task.req? ++ s.reqs ++ s.log.map (·.1)).countP (·.id == i) = 1 := by
  have h := (inv_run (inv_created held) hr).total i
  rw [if_pos hi] at h
  simp only [total] at h
  simp only [List.countP_append, List.countP_map, Function.comp_def]
  omega

/-- C168: once nobody refers to a socket any more, none of its callbacks is invoked, whatever happens. -/
theorem released_socket_silent (held : Nat → Nat) (ops later : List Op) (s s' : State) (hr : run (created held) ops = some s)
    (k : Nat) (hk : s.exists? k = false) (hl : run s later = some s') (r : Req) (hs : r.sock = k)
    (hn : (r, Fate.invoked) ∈ s'.log) : (r, Fate.invoked) ∈ s.log := by
  have h := inv_run (inv_created held) hr
  subst hs
  have key : ∀ (l : List Op) (t : State), Inv t → t.exists? r.sock = false → run t l = some s' → (r, Fate.invoked) ∈ t.log := by
    intro l
    induction l with
    | nil => intro t _ _ e; cases e; exact hn
    | cons o l ih2 =>
      intro t ht hd e
      obtain ⟨u, e1, e2⟩ := Option.bind_eq_some_iff.1 e
      have := ih2 u (ht.step e1) ((step_gone e1).2 _ hd) e2
      rcases step_invoked ht e1 r this with g | g
      · exact g
      · rw [hd] at g; cases g.1
  exact key later s h hk hl

/-- C168: once the service is gone - the program has released it and no poll is in progress - no callback is invoked, no request is left,
and the runner, working off the tasks it has, destroys the callbacks in them; after that the library has no reference to a socket. -/
theorem released_service_silent (held : Nat → Nat) (ops : List Op) (s : State) (hr : run (created held) ops = some s)
    (hu : s.svc = 0) (hp : s.polling = false) :
    s.reqs = [] ∧
    (∀ later s', run s later = some s' → ∀ r, (r, Fate.invoked) ∈ s'.log → (r, Fate.invoked) ∈ s.log) ∧
    ∃ t, run s (List.replicate s.queue.length .begin) = some t ∧ t.queue = [] ∧ t.reqs = [] ∧
      ∀ k, t.exists? k = true ↔ 0 < s.held k := by
  have h := inv_run (inv_created held) hr
  have ha : s.alive = false := by
    cases e : s.alive with
    | false => rfl
    | true =>
      rcases h.alive.1 e with g | g
      · omega
      · rw [hp] at g; cases g
  refine ⟨h.empty ha, fun later => ?_, ?_⟩
  · clear hr
    induction later generalizing s with
    | nil => intro s' e r hn; cases e; exact hn
    | cons o l ih =>
      intro s' e r hn
      obtain ⟨t, e1, e2⟩ := Option.bind_eq_some_iff.1 e
      have g := (step_gone e1).1 ha
      have hti := h.step e1
      have hsv : t.svc = 0 := by
        by_cases e : t.svc = 0
        · exact e
        · have := hti.alive.2 (.inl (by omega))
          rw [g.1] at this; cases this
      have := ih t hsv (g.2 hp) hti g.1 s' e2 r hn
      rcases step_invoked h e1 r this with x | x
      · exact x
      · rw [ha] at x; cases x.2.1
  · have key : ∀ (q : List Task) (s : State), s.queue = q → s.alive = false → s.polling = false → s.reqs = [] →
        ∃ t, run s (List.replicate q.length .begin) = some t ∧ t.queue = [] ∧ t.reqs = [] ∧ t.held = s.held := by
      intro q
      induction q with
      | nil => intro s hq _ _ hz; exact ⟨s, rfl, hq, hz, rfl⟩
      | cons x q ih =>
        intro s hq ha hp hz
        have hstep : ∃ u, Release.step s .begin = some u ∧ u.queue = q ∧ u.alive = false ∧ u.polling = false ∧ u.reqs = [] ∧ u.held = s.held := by
          simp only [Release.step, hp, hq, ha]
          cases x <;> exact ⟨_, rfl, rfl, rfl, by first | exact hp | rfl, hz, rfl⟩
        obtain ⟨u, u1, u2, u3, u4, u5, u6⟩ := hstep
        obtain ⟨t, t1, t2, t3, t4⟩ := ih u u2 u3 u4 u5
        refine ⟨t, ?_, t2, t3, t4.trans u6⟩
        simp only [List.length_cons, List.replicate_succ, run, u1, Option.bind_some]
        exact t1
    obtain ⟨t, t1, t2, t3, t4⟩ := key s.queue s rfl ha hp (h.empty ha)
    refine ⟨t, t1, t2, t3, fun k => ?_⟩
    simp [State.exists?, State.carried, t2, t3, t4]

/-- A callback that refers to its own socket keeps it alive after the program released it; it is served, and another one,
of a socket that is gone, is dropped; a callback releases the service during the poll, which goes on. -/
example : ∃ s, run (created fun k => if k < 2 then 1 else 0)
    [.call 0 [0], .call 1 [], .releaseSocket 0, .releaseSocket 1, .begin, .endPoll, .begin, .begin, .serve 0, .releaseService, .serve 0,
      .endPoll, .call 0 []] = none ∧
    run (created fun k => if k < 2 then 1 else 0)
      [.call 0 [0], .call 1 [], .releaseSocket 0, .releaseSocket 1, .begin, .endPoll, .begin, .begin, .serve 0, .releaseService, .serve 0,
        .endPoll] = some s ∧
    s.log = [(⟨0, 0, [0]⟩, .invoked), (⟨1, 1, []⟩, .dropped)] ∧ s.svc = 0 ∧ s.polling = false ∧ s.alive = false ∧
    s.exists? 0 = false ∧ s.next = 2 := ⟨_, rfl, rfl, rfl, rfl, rfl, rfl, rfl, rfl⟩

/-- C168: after `close`, as long as no further call is made on the socket: when the runner has worked off the task that removes its
requests, no callback of the socket is with the service or, as long as the service exists, in a task, and from then on none is invoked. -/
theorem closed_socket_silent (held : Nat → Nat) (ops mid later : List Op) (k : Nat) (s s1 s' : State)
    (hr : run (created held) (ops ++ [.close k]) = some s)
    (hm : run s mid = some s1) (hl : run s1 later = some s')
    (hc : ∀ c, Op.call k c ∉ mid ++ later) (hq : Task.remove k ∉ s1.queue) (r : Req) (hk : r.sock = k) :
    r ∉ s1.reqs ∧ (s1.alive = true → Task.add r ∉ s1.queue) ∧ ((r, Fate.invoked) ∈ s'.log → (r, Fate.invoked) ∈ s1.log) := by
  have hi0 : Closing k s := by
    rw [run_append] at hr
    obtain ⟨t, _, h2⟩ := Option.bind_eq_some_iff.1 hr
    simp only [run, step, Option.bind_some, Option.some.injEq] at h2
    subst h2
    split
    · rename_i ha
      intro _
      exact ⟨ahead_close, fun _ _ _ => List.mem_append_right _ (List.mem_singleton.2 rfl)⟩
    · rename_i ha
      intro e
      exact absurd e ha
  have h0 := inv_run (inv_created held) hr
  have h1 := inv_run h0 hm
  have c1 := hi0.run hm fun c m => hc c (List.mem_append_left _ m)
  have q1 : Quiet k s1 := fun ha x hx => ⟨fun m => hq ((c1 ha).2 x m hx), ahead_none hx (c1 ha).1 hq⟩
  refine ⟨?_, fun ha => (q1 ha r hk).2, fun hn => ?_⟩
  · cases ha : s1.alive with
    | true => exact (q1 ha r hk).1
    | false => rw [h1.empty ha]; simp
  · have key : ∀ (l : List Op) (t : State), Inv t → Quiet k t → (∀ c, Op.call k c ∉ l) → run t l = some s' → (r, Fate.invoked) ∈ t.log := by
      intro l
      induction l with
      | nil => intro t _ _ _ e; cases e; exact hn
      | cons o l ih =>
        intro t ht hd hc e
        obtain ⟨u, e1, e2⟩ := Option.bind_eq_some_iff.1 e
        have := ih u (ht.step e1) (hd.step e1 fun c e => hc c (e ▸ List.mem_cons_self ..)) (fun c m => hc c (List.mem_cons_of_mem _ m)) e2
        rcases step_invoked ht e1 r this with g | g
        · exact g
        · exact absurd g.2.2 (hd g.2.1 r hk).1
    exact key later s1 h1 q1 (fun c m => hc c (List.mem_append_right _ m)) hl

/-- Two requests of a socket that is closed, one registered and one in a task: both are dropped. -/
example : ∃ s s1, run (created fun k => if k < 2 then 1 else 0) ([.call 0 [], .begin, .endPoll, .call 0 [], .call 1 []] ++ [.close 0]) = some s ∧
    run s [.begin, .endPoll, .begin, .begin, .begin] = some s1 ∧ Task.remove 0 ∉ s1.queue ∧ s1.alive = true ∧
    s1.reqs = [⟨2, 1, []⟩] ∧ s1.log = [(⟨0, 0, []⟩, .dropped), (⟨1, 0, []⟩, .dropped)] :=
  ⟨_, _, rfl, rfl, by decide, rfl, rfl, rfl⟩

def Op.copies (k : Nat) : Op → Bool
  | .copySocket j => j == k
  | _ => false

def Op.releases (k : Nat) : Op → Bool
  | .releaseSocket j => j == k
  | _ => false

theorem settle_held (t : State) : t.settle.held = t.held := by unfold State.settle; split <;> rfl

theorem step_held {s s' : State} {o : Op} (hs : step s o = some s') (k : Nat) :
    s'.held k + (if o.releases k then 1 else 0) = s.held k + (if o.copies k then 1 else 0) := by
  cases o with
  | call j caps => simp only [step] at hs; split at hs <;> cases hs; split <;> simp [Op.copies, Op.releases]
  | copySocket j =>
    simp only [step] at hs
    split at hs <;> cases hs
    by_cases e : j = k
    · subst e; simp [Op.copies, Op.releases]
    · simp [Op.copies, Op.releases, e, Ne.symm e]
  | releaseSocket j =>
    simp only [step] at hs
    split at hs <;> cases hs
    by_cases e : j = k
    · subst e; simp [Op.copies, Op.releases]; omega
    · simp [Op.copies, Op.releases, e, Ne.symm e]
  | close j => simp only [step] at hs; cases hs; split <;> simp [Op.copies, Op.releases]
  | copyService => simp only [step] at hs; split at hs <;> cases hs; simp [Op.copies, Op.releases]
  | releaseService => simp only [step] at hs; split at hs <;> cases hs; simp [settle_held, Op.copies, Op.releases]
  | begin =>
    simp only [step] at hs
    split at hs
    · cases hs
    · split at hs <;> cases hs <;> first | (simp [Op.copies, Op.releases]; done) | (split <;> simp [Op.copies, Op.releases])
  | serve j =>
    simp only [step] at hs
    split at hs
    · split at hs <;> cases hs
      simp [Op.copies, Op.releases]
    · cases hs
  | endPoll => simp only [step] at hs; split at hs <;> cases hs; simp [settle_held, Op.copies, Op.releases]

/-- C168: the library neither takes nor gives away references of the program: it has as many to a socket as it made more than released. -/
theorem program_references (held : Nat → Nat) (ops : List Op) (s : State) (hr : run (created held) ops = some s) (k : Nat) :
    s.held k + ops.countP (Op.releases k) = held k + ops.countP (Op.copies k) := by
  have key : ∀ (ops : List Op) (t : State), run t ops = some s →
      s.held k + ops.countP (Op.releases k) = t.held k + ops.countP (Op.copies k) := by
    intro ops
    induction ops with
    | nil => intro t e; cases e; rfl
    | cons o l ih =>
      intro t e
      obtain ⟨u, e1, e2⟩ := Option.bind_eq_some_iff.1 e
      have h1 := step_held e1 k
      have h2 := ih u e2
      simp only [List.countP_cons]
      omega
  exact key ops (created held) hr

example : ∃ s, run (created fun _ => 1) [.copySocket 0, .releaseSocket 1, .releaseSocket 0] = some s ∧ s.held 0 = 1 ∧ s.held 1 = 0 :=
  ⟨_, rfl, rfl, rfl⟩

end Verif.Socket.Release
