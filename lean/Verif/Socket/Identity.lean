import Verif.Socket.Model

/-!
# C146: the identity of a socket, and what can be done with one that was moved from

Source: `/repo/fly/net/socket/detail/base_socket.cpp` 14-77, 94-112, 145-158, 195-199; `tcp_socket.cpp` 59-62, 88-116, 239-312;
`udp_socket.cpp` 37-39, 44-68, 72-91, 148-168.

Socket objects are numbered by the caller of the model. `m_config` is non-null in the constructors. Which operating system
handle an object holds is C68's; here it is the number of the socket in the order of creation, `none` for the invalid handle.
-/

namespace Verif.Socket.Identity

/-! ## Model -/

/-- An object: the system's socket it holds; `m_socket_id`; whether `m_config` is non-null; whether `m_weak_socket_service` names a
service; whether the object is owned by a `shared_ptr`. -/
structure Sock where
  holds : Option Nat
  id : Nat
  config : Bool
  service : Bool
  shared : Bool
deriving DecidableEq, Repr

/-- The objects that exist, and how many sockets were created, modulo which `s_num_sockets` counts. -/
structure State where
  objects : Nat → Option Sock
  created : Nat

/-- No object yet. -/
def State.init : State := ⟨fun _ => none, 0⟩

/-- What a program does with socket objects. -/
inductive Op
  /-- a constructor with the mode only (base_socket.cpp 22-33) -/
  | construct (i : Nat)
  /-- `create_socket` of a service (base_socket.cpp 37-44, tcp_socket.cpp 88-107, udp_socket.cpp 44-61) -/
  | create (i : Nat)
  /-- the move constructor -/
  | moveConstruct (dst src : Nat) (shared : Bool)
  /-- the move assignment -/
  | moveAssign (dst src : Nat)
  | close (i : Nat)
  | destroy (i : Nat)
deriving DecidableEq, Repr

/-- Replace an object. -/
def State.put (s : State) (i : Nat) (o : Option Sock) : State := { s with objects := fun j => if j = i then o else s.objects j }

/-- The constructors (base_socket.cpp 22-44): the identifier is the old value of an unsigned 64-bit counter. -/
def State.construct (s : State) (i : Nat) (service : Bool) : State :=
  { s.put i (some ⟨some s.created, s.created % 2 ^ 64, true, service, service⟩) with created := s.created + 1 }

/-- What a move leaves behind (base_socket.cpp 47-55, 66-77): a null configuration, no service, the invalid handle; the identifier
stays. -/
def Sock.left (o : Sock) : Sock := { o with holds := none, config := false, service := false }

/-- One operation; `none` if the objects it names do not exist (or exist already). -/
def State.step (s : State) : Op → Option State
  | .construct i => if s.objects i = none then some (s.construct i false) else none
  | .create i => if s.objects i = none then some (s.construct i true) else none
  | .moveConstruct dst src shared =>
    match s.objects dst, s.objects src with
    | none, some o => some ((s.put src (some o.left)).put dst (some { o with shared := shared }))
    | _, _ => none
  | .moveAssign dst src =>
    match s.objects dst, s.objects src with
    | some d, some o =>
      if dst = src then some (s.put dst (some { d with holds := none }))
      else some ((s.put src (some o.left)).put dst (some { o with shared := d.shared }))
    | _, _ => none
  | .close i =>
    match s.objects i with
    | some o => some (s.put i (some { o with holds := none }))
    | none => none
  | .destroy i =>
    match s.objects i with
    | some _ => some (s.put i none)
    | none => none

/-- A program. -/
def State.run (s : State) : List Op → Option State
  | [] => some s
  | o :: os =>
    match s.step o with
    | some s' => s'.run os
    | none => none

/-- How a call ends. -/
inductive Outcome
  | returns
  /-- at once, with false -/
  | refused
  /-- a null pointer is dereferenced -/
  | ub
  /-- an exception (`std::bad_weak_ptr`) -/
  | throws
deriving DecidableEq, Repr

/-- `TcpSocket::receive`, `UdpSocket::receive`, `UdpSocket::send` (tcp_socket.cpp 277-293, udp_socket.cpp 72-91, 149-168) and the
receiving callbacks: `packet_size()` reads through `m_config` (base_socket.cpp 195-199). -/
def Sock.receive (o : Sock) : Outcome := if o.config then .returns else .ub

/-- `send_async`, `receive_async`, `accept_async` and the others with a callback (tcp_socket.cpp 259-273, 297-311): refused if
there is no service, else `shared_from_this()`. -/
def Sock.async (o : Sock) : Outcome := if o.service then (if o.shared then .returns else .throws) else .refused

/-! ## Specification -/

/-- The object was moved from (and not assigned to since by an object that was not). The history is given with the latest operation
first. -/
def MovedFrom : List Op → Nat → Prop
  | [], _ => False
  | .construct i :: h, j => if j = i then False else MovedFrom h j
  | .create i :: h, j => if j = i then False else MovedFrom h j
  | .moveConstruct dst src _ :: h, j => if j = dst then MovedFrom h src else if j = src then True else MovedFrom h j
  | .moveAssign dst src :: h, j => if dst = src then MovedFrom h j else if j = dst then MovedFrom h src else if j = src then True else MovedFrom h j
  | .close _ :: h, j => MovedFrom h j
  | .destroy _ :: h, j => MovedFrom h j

/-! ## Proofs -/

theorem put_self (s : State) (i : Nat) (o : Option Sock) : (s.put i o).objects i = o := by simp [State.put]

theorem put_ne (s : State) {i j : Nat} (o : Option Sock) (h : j ≠ i) : (s.put i o).objects j = s.objects j := by simp [State.put, h]

/-- What holds in every state. -/
structure Inv (s : State) : Prop where
  known : ∀ i o n, s.objects i = some o → o.holds = some n → n < s.created ∧ o.id = n % 2 ^ 64
  alone : ∀ i j o p n, s.objects i = some o → s.objects j = some p → o.holds = some n → p.holds = some n → i = j

theorem Inv.construct {s : State} (h : Inv s) (i : Nat) (b : Bool) : Inv (s.construct i b) := by
  have get : ∀ j o, (s.construct i b).objects j = some o →
      (j = i ∧ o = ⟨some s.created, s.created % 2 ^ 64, true, b, b⟩) ∨ (j ≠ i ∧ s.objects j = some o) := by
    intro j o hj
    by_cases e : j = i
    · subst e
      have : (s.construct j b).objects j = some ⟨some s.created, s.created % 2 ^ 64, true, b, b⟩ := put_self s j _
      rw [this] at hj
      injection hj with hj
      exact .inl ⟨rfl, hj.symm⟩
    · have : (s.construct i b).objects j = s.objects j := put_ne s _ e
      rw [this] at hj
      exact .inr ⟨e, hj⟩
  refine ⟨fun j o n hj hn => ?_, fun j k o p n hj hk hn hp => ?_⟩
  · rcases get j o hj with ⟨-, rfl⟩ | ⟨-, hj⟩
    · simp only [Option.some.injEq] at hn
      subst hn
      exact ⟨Nat.lt_succ_self _, rfl⟩
    · have := h.known j o n hj hn
      exact ⟨Nat.lt_succ_of_lt this.1, this.2⟩
  · rcases get j o hj with ⟨e, eo⟩ | ⟨-, hj'⟩ <;> rcases get k p hk with ⟨e', eo'⟩ | ⟨-, hk'⟩
    · rw [e, e']
    · subst eo
      simp only [Option.some.injEq] at hn
      subst hn
      have := (h.known k p _ hk' hp).1
      omega
    · subst eo'
      simp only [Option.some.injEq] at hp
      subst hp
      have := (h.known j o _ hj' hn).1
      omega
    · exact h.alone j k o p n hj' hk' hn hp

/-- An object changes without holding anything new. -/
theorem Inv.shrink {s : State} (h : Inv s) (i : Nat) (o : Option Sock) (ho : ∀ p, o = some p → p.holds = none) : Inv (s.put i o) := by
  have get : ∀ j p n, (s.put i o).objects j = some p → p.holds = some n → s.objects j = some p := by
    intro j p n hj hn
    by_cases e : j = i
    · subst e
      rw [put_self] at hj
      rw [ho p hj] at hn
      cases hn
    · rwa [put_ne s _ e] at hj
  exact ⟨fun j p n hj hn => h.known j p n (get j p n hj hn) hn,
    fun j k p q n hj hk hn hm => h.alone j k p q n (get j p n hj hn) (get k q n hk hm) hn hm⟩

/-- What an object holds goes to another. -/
theorem Inv.move {s : State} (h : Inv s) {src dst : Nat} (hne : dst ≠ src) {o : Sock} (hs : s.objects src = some o) (b : Bool) :
    Inv ((s.put src (some o.left)).put dst (some { o with shared := b })) := by
  have get : ∀ j p n, ((s.put src (some o.left)).put dst (some { o with shared := b })).objects j = some p → p.holds = some n →
      (j = dst ∧ o.holds = some n ∧ p.id = o.id) ∨ (j ≠ src ∧ j ≠ dst ∧ s.objects j = some p) := by
    intro j p n hj hn
    by_cases e : j = dst
    · subst e
      rw [put_self] at hj
      injection hj with hj
      subst hj
      exact .inl ⟨rfl, hn, rfl⟩
    · rw [put_ne _ _ e] at hj
      by_cases e' : j = src
      · subst e'
        rw [put_self] at hj
        injection hj with hj
        subst hj
        cases hn
      · rw [put_ne _ _ e'] at hj
        exact .inr ⟨e', e, hj⟩
  refine ⟨fun j p n hj hn => ?_, fun j k p q n hj hk hn hm => ?_⟩
  · rcases get j p n hj hn with ⟨rfl, ho, hid⟩ | ⟨-, -, hj⟩
    · rw [hid]
      exact h.known src o n hs ho
    · exact h.known j p n hj hn
  · rcases get j p n hj hn with ⟨e, ho, -⟩ | ⟨hjs, -, hj'⟩ <;> rcases get k q n hk hm with ⟨e', ho', -⟩ | ⟨hks, -, hk'⟩
    · rw [e, e']
    · exact absurd (h.alone k src q o n hk' hs hm ho) hks
    · exact absurd (h.alone j src p o n hj' hs hn ho') hjs
    · exact h.alone j k p q n hj' hk' hn hm

theorem Inv.step {s s' : State} {op : Op} (h : Inv s) (hs : s.step op = some s') : Inv s' := by
  cases op with
  | construct i =>
    simp only [State.step] at hs
    split at hs
    · injection hs with hs; subst hs; exact h.construct i false
    · cases hs
  | create i =>
    simp only [State.step] at hs
    split at hs
    · injection hs with hs; subst hs; exact h.construct i true
    · cases hs
  | moveConstruct dst src b =>
    simp only [State.step] at hs
    split at hs
    · rename_i o hd ho
      injection hs with hs
      subst hs
      exact h.move (fun e => by rw [e, ho] at hd; cases hd) ho b
    · cases hs
  | moveAssign dst src =>
    simp only [State.step] at hs
    split at hs
    · rename_i d o hd ho
      split at hs
      · injection hs with hs
        subst hs
        exact h.shrink _ _ (fun p hp => by injection hp with hp; subst hp; rfl)
      · rename_i hne
        injection hs with hs
        subst hs
        exact h.move hne ho _
    · cases hs
  | close i =>
    simp only [State.step] at hs
    split at hs
    · injection hs with hs
      subst hs
      exact h.shrink _ _ (fun p hp => by injection hp with hp; subst hp; rfl)
    · cases hs
  | destroy i =>
    simp only [State.step] at hs
    split at hs
    · injection hs with hs
      subst hs
      exact h.shrink _ _ (fun p hp => by cases hp)
    · cases hs

theorem run_snoc {s : State} {os : List Op} {o : Op} : s.run (os ++ [o]) = (s.run os).bind (·.step o) := by
  induction os generalizing s with
  | nil => simp only [List.nil_append, State.run, Option.bind_some]; cases s.step o <;> rfl
  | cons a os ih =>
    simp only [List.cons_append, State.run]
    cases s.step a with
    | none => rfl
    | some t => exact ih

/-- An invariant that may look at the history (latest first). -/
theorem run_induct {P : List Op → State → Prop} (hinit : P [] .init)
    (hstep : ∀ h s o s', P h s → s.step o = some s' → P (o :: h) s') : ∀ (h : List Op) (s : State), State.init.run h.reverse = some s → P h s := by
  intro h
  induction h with
  | nil => intro s hs; simp only [List.reverse_nil, State.run, Option.some.injEq] at hs; exact hs ▸ hinit
  | cons o h ih =>
    intro s hs
    rw [List.reverse_cons, run_snoc] at hs
    cases ht : State.init.run h.reverse with
    | none => rw [ht] at hs; cases hs
    | some t =>
      rw [ht] at hs
      exact hstep h t o s (ih t ht) hs

theorem Inv.run {os : List Op} {s : State} (h : State.init.run os = some s) : Inv s := by
  have := run_induct (P := fun _ s => Inv s)
    ⟨fun i o n hi => (by cases hi), fun i j o p n hi => (by cases hi)⟩ (fun _ _ _ _ h hs => h.step hs) os.reverse s (by rwa [List.reverse_reverse])
  exact this

/-- Whatever a program does with sockets: as long as fewer than 2^64 were created, two objects that are open have different identifiers. -/
theorem socket_ids_unique (ops : List Op) (s : State) (h : State.init.run ops = some s) (hc : s.created ≤ 2 ^ 64) (i j : Nat) (o p : Sock)
    (hi : s.objects i = some o) (hj : s.objects j = some p) (ho : o.holds ≠ none) (hp : p.holds ≠ none) (hid : o.id = p.id) : i = j := by
  have hI := Inv.run h
  cases hn : o.holds with
  | none => exact absurd hn ho
  | some n =>
    cases hm : p.holds with
    | none => exact absurd hm hp
    | some m =>
      obtain ⟨h1, h2⟩ := hI.known i o n hi hn
      obtain ⟨h3, h4⟩ := hI.known j p m hj hm
      have e : n = m := by
        rw [Nat.mod_eq_of_lt (by omega)] at h2 h4
        omega
      subst e
      exact hI.alone i j o p n hi hj hn hm

/-- The identifier goes with the system's socket, through any number of moves: an object that holds the n-th socket created has
the identifier n. -/
theorem socket_id_follows (ops : List Op) (s : State) (h : State.init.run ops = some s) (i n : Nat) (o : Sock)
    (hi : s.objects i = some o) (hn : o.holds = some n) : n < s.created ∧ o.id = n % 2 ^ 64 := (Inv.run h).known i o n hi hn

/-- How many sockets a program created. -/
def creations : List Op → Nat
  | [] => 0
  | .construct _ :: os => creations os + 1
  | .create _ :: os => creations os + 1
  | .moveConstruct _ _ _ :: os => creations os
  | .moveAssign _ _ :: os => creations os
  | .close _ :: os => creations os
  | .destroy _ :: os => creations os

theorem creations_run {ops : List Op} {s t : State} (h : s.run ops = some t) : t.created = s.created + creations ops := by
  induction ops generalizing s with
  | nil => simp only [State.run, Option.some.injEq] at h; subst h; rfl
  | cons o ops ih =>
    simp only [State.run] at h
    cases hs : s.step o with
    | none => rw [hs] at h; cases h
    | some u =>
      rw [hs] at h
      have e := ih h
      cases o <;> simp only [State.step] at hs <;> split at hs <;> try (cases hs; done)
      · injection hs with hs; subst hs; simp only [creations, State.construct] at e ⊢; omega
      · injection hs with hs; subst hs; simp only [creations, State.construct] at e ⊢; omega
      · injection hs with hs; subst hs; exact e
      · split at hs <;> (injection hs with hs; subst hs; exact e)
      · injection hs with hs; subst hs; exact e
      · injection hs with hs; subst hs; exact e

/-- A socket can be created wherever there is none; it is open, and its identifier is the number of sockets created before; the
calls with a callback are accepted exactly on those a service created. -/
theorem socket_created (ops : List Op) (s : State) (h : State.init.run ops = some s) (i : Nat) (hi : s.objects i = none) :
    (∃ s' o, s.step (.construct i) = some s' ∧ s'.objects i = some o ∧ o.holds = some (creations ops) ∧ o.id = creations ops % 2 ^ 64 ∧
      o.receive = .returns ∧ o.async = .refused) ∧
    (∃ s' o, s.step (.create i) = some s' ∧ s'.objects i = some o ∧ o.holds = some (creations ops) ∧ o.id = creations ops % 2 ^ 64 ∧
      o.receive = .returns ∧ o.async = .returns) := by
  have hc : s.created = creations ops := by have := creations_run h; simpa [State.init] using this
  refine ⟨⟨s.construct i false, ⟨some s.created, s.created % 2 ^ 64, true, false, false⟩, by simp [State.step, hi], put_self _ _ _,
    by rw [hc], by rw [hc], rfl, rfl⟩, ⟨s.construct i true, ⟨some s.created, s.created % 2 ^ 64, true, true, true⟩, by simp [State.step, hi],
    put_self _ _ _, by rw [hc], by rw [hc], rfl, rfl⟩⟩

example : creations [.construct 4, .close 4, .create 7] = 2 := rfl

/-- Two moves; the objects left behind keep the identifier but hold nothing. -/
example : ∃ s, State.init.run [.construct 0, .create 1, .moveConstruct 2 1 false, .moveAssign 0 2] = some s ∧
    s.objects 0 = some ⟨some 1, 1, true, true, false⟩ ∧ s.objects 1 = some ⟨none, 1, false, false, true⟩ ∧
    s.objects 2 = some ⟨none, 1, false, false, false⟩ := ⟨_, rfl, rfl, rfl, rfl⟩

/-- Receiving (and sending datagrams) is defined exactly for the objects that were not moved from; in particular for closed ones. -/
theorem receive_defined_iff (history : List Op) (s : State) (h : State.init.run history.reverse = some s) (i : Nat) (o : Sock)
    (hi : s.objects i = some o) : o.receive = .returns ↔ ¬ MovedFrom history i := by
  have key : ∀ (h : List Op) (s : State), State.init.run h.reverse = some s → ∀ i o, s.objects i = some o → (o.config = true ↔ ¬ MovedFrom h i) := by
    refine run_induct (P := fun h s => ∀ i o, s.objects i = some o → (o.config = true ↔ ¬ MovedFrom h i)) (fun i o hi => by cases hi) ?_
    intro h s op s' ih hs i o hi
    cases op with
    | construct k =>
      simp only [State.step] at hs
      split at hs
      · injection hs with hs
        subst hs
        simp only [MovedFrom]
        by_cases e : i = k
        · subst e
          rw [show (s.construct i false).objects i = _ from put_self s i _] at hi
          injection hi with hi
          subst hi
          simp
        · rw [show (s.construct k false).objects i = _ from put_ne s _ e] at hi
          rw [if_neg e]
          exact ih i o hi
      · cases hs
    | create k =>
      simp only [State.step] at hs
      split at hs
      · injection hs with hs
        subst hs
        simp only [MovedFrom]
        by_cases e : i = k
        · subst e
          rw [show (s.construct i true).objects i = _ from put_self s i _] at hi
          injection hi with hi
          subst hi
          simp
        · rw [show (s.construct k true).objects i = _ from put_ne s _ e] at hi
          rw [if_neg e]
          exact ih i o hi
      · cases hs
    | moveConstruct dst src b =>
      simp only [State.step] at hs
      split at hs
      · rename_i q hd hq
        injection hs with hs
        subst hs
        simp only [MovedFrom]
        by_cases e : i = dst
        · subst e
          rw [put_self] at hi
          injection hi with hi
          subst hi
          rw [if_pos rfl]
          exact ih src q hq
        · rw [put_ne _ _ e] at hi
          rw [if_neg e]
          by_cases e' : i = src
          · subst e'
            rw [put_self] at hi
            injection hi with hi
            subst hi
            simp [Sock.left]
          · rw [put_ne _ _ e'] at hi
            rw [if_neg e']
            exact ih i o hi
      · cases hs
    | moveAssign dst src =>
      simp only [State.step] at hs
      split at hs
      · rename_i d q hd hq
        simp only [MovedFrom]
        by_cases hne : dst = src
        · rw [if_pos hne] at hs ⊢
          injection hs with hs
          subst hs
          by_cases e : i = dst
          · subst e
            rw [put_self] at hi
            injection hi with hi
            subst hi
            exact ih i d hd
          · rw [put_ne _ _ e] at hi
            exact ih i o hi
        · rw [if_neg hne] at hs ⊢
          injection hs with hs
          subst hs
          by_cases e : i = dst
          · subst e
            rw [put_self] at hi
            injection hi with hi
            subst hi
            rw [if_pos rfl]
            exact ih src q hq
          · rw [put_ne _ _ e] at hi
            rw [if_neg e]
            by_cases e' : i = src
            · subst e'
              rw [put_self] at hi
              injection hi with hi
              subst hi
              simp [Sock.left]
            · rw [put_ne _ _ e'] at hi
              rw [if_neg e']
              exact ih i o hi
      · cases hs
    | close k =>
      simp only [State.step] at hs
      split at hs
      · rename_i q hq
        injection hs with hs
        subst hs
        simp only [MovedFrom]
        by_cases e : i = k
        · subst e
          rw [put_self] at hi
          injection hi with hi
          subst hi
          exact ih i q hq
        · rw [put_ne _ _ e] at hi
          exact ih i o hi
      · cases hs
    | destroy k =>
      simp only [State.step] at hs
      split at hs
      · rename_i q hq
        injection hs with hs
        subst hs
        simp only [MovedFrom]
        by_cases e : i = k
        · subst e
          rw [put_self] at hi
          cases hi
        · rw [put_ne _ _ e] at hi
          exact ih i o hi
      · cases hs
  rw [← key history s h i o hi]
  unfold Sock.receive
  cases o.config <;> simp

/-- A closed socket and a moved-from one. -/
example : (∃ s o, State.init.run [.construct 0, .close 0] = some s ∧ s.objects 0 = some o ∧ o.receive = .returns) ∧
    (∃ s o, State.init.run [.construct 0, .moveConstruct 1 0 false] = some s ∧ s.objects 0 = some o ∧ o.receive = .ub) :=
  ⟨⟨_, _, rfl, rfl, rfl⟩, ⟨_, _, rfl, rfl, rfl⟩⟩

/-- A call on a socket that was moved from should fail as on a closed socket; instead receiving from it dereferences a null pointer,
for every socket a program has and whatever else it does with others meanwhile (the calls with a callback are refused). -/
theorem moved_from_receive_violated (before : List Op) (s s' : State) (i j : Nat) (b : Bool) (hs : State.init.run before = some s)
    (h : s.step (.moveConstruct j i b) = some s') : ∃ o, s'.objects i = some o ∧ o.holds = none ∧ o.receive = .ub ∧ o.async = .refused := by
  simp only [State.step] at h
  split at h
  · rename_i o hd ho
    injection h with h
    subst h
    have hne : i ≠ j := fun e => by rw [e, hd] at ho; cases ho
    refine ⟨o.left, ?_, rfl, rfl, rfl⟩
    rw [put_ne _ _ hne, put_self]
  · cases h

/-- Asynchronous calls are accepted or refused, without exceptions, on every object a service made or that was constructed in
place; an object into which an asynchronous socket was moved, and which is not itself owned by a `shared_ptr`, is open and
asynchronous but every asynchronous call on it throws. -/
theorem moved_async_violated (before : List Op) (s s' : State) (i j : Nat) (o : Sock) (hs : State.init.run before = some s)
    (ho : s.objects i = some o) (hv : o.service = true) (hh : o.holds ≠ none) (h : s.step (.moveConstruct j i false) = some s') :
    ∃ p, s'.objects j = some p ∧ p.holds = o.holds ∧ p.holds ≠ none ∧ p.async = .throws := by
  simp only [State.step] at h
  split at h
  · rename_i o' hd ho'
    rw [ho] at ho'
    injection ho' with ho'
    subst ho'
    injection h with h
    subst h
    refine ⟨_, put_self _ _ _, rfl, hh, ?_⟩
    simp [Sock.async, hv]
  · cases h

/-- Without moves nothing throws and nothing is undefined. -/
theorem calls_defined_partial (ops : List Op) (hm : ∀ o ∈ ops, (∀ d s b, o ≠ .moveConstruct d s b) ∧ ∀ d s, o ≠ .moveAssign d s) (s : State)
    (h : State.init.run ops = some s) (i : Nat) (o : Sock) (hi : s.objects i = some o) : o.receive = .returns ∧ o.async ≠ .throws ∧ o.async ≠ .ub := by
  have := run_induct (P := fun h s => (∀ o ∈ h, (∀ d s b, o ≠ .moveConstruct d s b) ∧ ∀ d s, o ≠ .moveAssign d s) →
      ∀ i o, s.objects i = some o → o.config = true ∧ (o.service = true → o.shared = true)) (fun _ i o hi => by cases hi) ?_ ops.reverse s
      (by rwa [List.reverse_reverse]) (fun o ho => hm o (List.mem_reverse.1 ho)) i o hi
  · constructor
    · simp [Sock.receive, this.1]
    · unfold Sock.async
      cases hv : o.service with
      | false => simp
      | true => simp [this.2 hv]
  · intro h s op s' ih hs hm i o hi
    have ih := ih fun o ho => hm o (List.mem_cons_of_mem _ ho)
    cases op with
    | construct k =>
      simp only [State.step] at hs
      split at hs
      · injection hs with hs
        subst hs
        by_cases e : i = k
        · subst e
          rw [show (s.construct i false).objects i = _ from put_self s i _] at hi
          injection hi with hi
          subst hi
          exact ⟨rfl, fun h => h⟩
        · rw [show (s.construct k false).objects i = _ from put_ne s _ e] at hi
          exact ih i o hi
      · cases hs
    | create k =>
      simp only [State.step] at hs
      split at hs
      · injection hs with hs
        subst hs
        by_cases e : i = k
        · subst e
          rw [show (s.construct i true).objects i = _ from put_self s i _] at hi
          injection hi with hi
          subst hi
          exact ⟨rfl, fun h => h⟩
        · rw [show (s.construct k true).objects i = _ from put_ne s _ e] at hi
          exact ih i o hi
      · cases hs
    | moveConstruct d s b => exact absurd rfl ((hm _ List.mem_cons_self).1 d s b)
    | moveAssign d s => exact absurd rfl ((hm _ List.mem_cons_self).2 d s)
    | close k =>
      simp only [State.step] at hs
      split at hs
      · rename_i q hq
        injection hs with hs
        subst hs
        by_cases e : i = k
        · subst e
          rw [put_self] at hi
          injection hi with hi
          subst hi
          exact ih i q hq
        · rw [put_ne _ _ e] at hi
          exact ih i o hi
      · cases hs
    | destroy k =>
      simp only [State.step] at hs
      split at hs
      · injection hs with hs
        subst hs
        by_cases e : i = k
        · subst e
          rw [put_self] at hi
          cases hi
        · rw [put_ne _ _ e] at hi
          exact ih i o hi
      · cases hs

end Verif.Socket.Identity
