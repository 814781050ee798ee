/-!
# C142: the locks of the task module, and where the objects captured by tasks are destroyed

Source: `/repo/fly/task/task_manager.cpp`, `/repo/fly/task/task_runner.cpp` and
`/repo/fly/types/concurrency/detail/concurrent_container.hpp`. Every function is described by what one thread does with the
three kinds of locks, and by the moments at which it destroys a task that nobody has: then the destructors of the objects
captured by that task run, which is the user's code.

Simplification: what a function finds (is the runner alive, is there a pending task, …) is a parameter of its description,
so the theorems hold for whatever the other threads do in between.
-/

namespace Verif.Task.Locks

/-! ## Model -/

/-- `m_delayed_tasks_mutex` of the manager, `m_pending_tasks_mutex` of a sequenced runner, `m_container_mutex` of the
manager's queue. -/
inductive Lock where
  | delayed
  | pending (r : Nat)
  | queue
deriving DecidableEq, Repr

/-- What a thread does. -/
inductive Ev where
  | acquire (l : Lock)
  | release (l : Lock)
  /-- a task is put into the manager's queue: from now on a worker may run it -/
  | hand (t : Nat)
  /-- the user's function of a task is running -/
  | call (t : Nat)
  /-- a task is destroyed, with the objects captured by it -/
  | destroy (t : Nat)
deriving DecidableEq, Repr

/-- A runner as a function finds it: for a sequenced one whether a task of it is on its way, and its first pending task
(task_runner.hpp 543-545). -/
structure Found where
  r : Nat
  sequenced : Bool
  hasRunning : Bool
  front : Option Nat
deriving DecidableEq, Repr

/-- `ConcurrentContainer::push` (concurrent_container.hpp 88-97), from `TaskManager::post_task` (task_manager.cpp 84-97). -/
def push (t : Nat) : List Ev := [.acquire .queue, .hand t, .release .queue]

/-- The timed `ConcurrentContainer::pop` (concurrent_container.hpp 113-132) into a holder; `waits` times the condition
variable releases the lock and takes it again. If an item is there it is moved over the holder's content, which is
destroyed then (concurrent_queue.hpp 32-36), under the lock. -/
def pop (waits : Nat) (old popped : Option Nat) : List Ev :=
  [.acquire .queue] ++ (List.replicate waits [.release .queue, .acquire .queue]).flatten ++
  (if popped.isSome then old.toList.map .destroy else []) ++ [.release .queue]

/-- `SequencedTaskRunner::maybe_post_task` (task_runner.cpp 122-155); `manager` says whether the manager is still there.
A pending task that cannot be posted is destroyed at the end of its block (132-137), and a task that cannot be posted at
`task = nullptr` (142), both under the lock. -/
def maybePost (R : Found) (manager : Bool) (task : Option Nat) : List Ev :=
  [.acquire (.pending R.r)] ++
  (if task.isNone || !R.hasRunning then
    match R.front, task with
    | some p, _ => if manager then push p else [.destroy p]
    | none, some t => if manager then push t else [.destroy t]
    | none, none => []
  else []) ++
  [.release (.pending R.r)]

/-- `post_task_internal` (task_runner.cpp 76-79 and 110-113) with what becomes of the task if it is not taken: the caller
destroys it at the end of its statement or block. -/
def postInternal (R : Found) (manager : Bool) (t : Nat) : List Ev :=
  if R.sequenced then maybePost R manager (some t) else if manager then push t else [.destroy t]

/-- `task_complete` (task_runner.cpp 82-84 and 116-119); on a thread of the manager, which keeps the manager alive
(task_manager.cpp 47-56). -/
def complete (R : Found) : List Ev := if R.sequenced then maybePost R true none else []

/-- What a program does with runners. -/
inductive Call where
  /-- `post_task` (task_runner.hpp 549-590) -/
  | post (R : Found) (manager : Bool) (t : Nat)
  /-- `post_task_with_delay` (task_runner.hpp 593-646, task_runner.cpp 26-43, task_manager.cpp 100-114) -/
  | postDelayed (manager : Bool) (t : Nat)
  /-- the last owner of a runner lets it go: its pending tasks are destroyed -/
  | letGo (pending : List Nat)
deriving DecidableEq, Repr

/-- The calls of a program. -/
def calls : List Call → List Ev
  | [] => []
  | .post R manager t :: r => postInternal R manager t ++ calls r
  | .postDelayed true _ :: r => [.acquire .delayed, .release .delayed] ++ calls r
  | .postDelayed false t :: r => [.destroy t] ++ calls r
  | .letGo ts :: r => ts.map .destroy ++ calls r

/-- What a worker finds in one turn of its loop (task_manager.cpp 121-133): whether it popped a task, whether the manager
still runs, the runner if it is alive, what the user's function calls (its reply included), and the pending tasks of the
runner if the worker is its last owner. -/
structure Turn where
  waits : Nat
  popped : Option Nat
  keep : Bool
  runner : Option Found
  code : List Call
  last : List Nat
deriving DecidableEq, Repr

/-- The task is run. -/
def Turn.runs (u : Turn) : Bool := u.keep && u.runner.isSome

/-- One turn (task_manager.cpp 121-133, task_runner.cpp 46-50). The task lives in a variable of the block until after
`execute`, that is after `task_complete`. -/
def turn (old : Option Nat) (u : Turn) : List Ev :=
  pop u.waits old u.popped ++
  match u.popped, u.keep, u.runner with
  | some t, true, some R => [.call t] ++ calls u.code ++ complete R ++ [.destroy t] ++ u.last.map .destroy
  | _, _, _ => []

/-- The holder after the turn (task_manager.cpp 119, 123-128): emptied if its task was run, else it keeps what was
popped. -/
def holder (old : Option Nat) (u : Turn) : Option Nat :=
  match u.popped with
  | none => old
  | some t => if u.runs then none else some t

/-- A worker (task_manager.cpp 117-134); at its end the holder is destroyed. -/
def worker (old : Option Nat) : List Turn → List Ev
  | [] => old.toList.map .destroy
  | u :: r => turn old u ++ worker (holder old u) r

/-- What the timer finds for a delayed task (task_manager.cpp 147-158): whether it is due, its runner if alive, and the
pending tasks of that runner if the timer is its last owner. -/
structure Delayed where
  task : Nat
  due : Bool
  runner : Option Found
  last : List Nat
deriving DecidableEq, Repr

/-- One delayed task (task_manager.cpp 145-162). -/
def delayed (d : Delayed) : List Ev :=
  if d.due then
    match d.runner with
    | some R => postInternal R true d.task ++ d.last.map .destroy
    | none => [.destroy d.task]
  else []

/-- The body of the timer's loop (task_manager.cpp 141-164). -/
def pass (ds : List Delayed) : List Ev := [.acquire .delayed] ++ ds.flatMap delayed ++ [.release .delayed]

/-- The timer thread (task_manager.cpp 137-168). -/
def timer (passes : List (List Delayed)) : List Ev := passes.flatMap pass

/-! ## Specification -/

/-- What one thread of the program and of the library may do, for ever so many turns. -/
inductive Thread : List Ev → Prop
  | program (c : List Call) : Thread (calls c)
  | worker (us : List Turn) : Thread (worker none us)
  | timer (passes : List (List Delayed)) : Thread (timer passes)

/-- Threads: the locks each of them holds and what it still has to do. -/
abbrev Sys := List (List Lock × List Ev)

/-- One step of a thread: a lock can only be acquired if nobody holds it (not even the thread itself: the mutexes are not
recursive). -/
inductive Step : Sys → Sys → Prop
  | acquire {s : Sys} {i : Nat} {h l es} : s[i]? = some (h, .acquire l :: es) → (∀ x ∈ s, l ∉ x.1) →
      Step s (s.set i (l :: h, es))
  | release {s : Sys} {i : Nat} {h l es} : s[i]? = some (h, .release l :: es) → Step s (s.set i (h.erase l, es))
  | other {s : Sys} {i : Nat} {h e es} : s[i]? = some (h, e :: es) → (∀ l, e ≠ .acquire l ∧ e ≠ .release l) →
      Step s (s.set i (h, es))

inductive Steps : Sys → Sys → Prop
  | refl (s) : Steps s s
  | tail {a b c} : Steps a b → Step b c → Steps a c

/-- Everything a thread destroys it destroys while it holds no lock. -/
def Clean : List Lock → List Ev → Prop
  | _, [] => True
  | h, .acquire l :: es => Clean (l :: h) es
  | h, .release l :: es => Clean (h.erase l) es
  | h, .destroy _ :: es => h = [] ∧ Clean h es
  | h, _ :: es => Clean h es

/-- The thread gets to the end, if the destruction of task `t` means doing `dtor t` (nothing else stands in its way). -/
inductive Completes (dtor : Nat → List Ev) : List Lock → List Ev → Prop
  | nil {h} : Completes dtor h []
  | acquire {h l es} : l ∉ h → Completes dtor (l :: h) es → Completes dtor h (.acquire l :: es)
  | release {h l es} : Completes dtor (h.erase l) es → Completes dtor h (.release l :: es)
  | hand {h t es} : Completes dtor h es → Completes dtor h (.hand t :: es)
  | call {h t es} : Completes dtor h es → Completes dtor h (.call t :: es)
  | destroy {h t es} : Completes dtor h (dtor t) → Completes dtor h es → Completes dtor h (.destroy t :: es)

/-! ## Proofs -/

/-- The order in which locks are taken. -/
def rank : Lock → Nat
  | .delayed => 0
  | .pending _ => 1
  | .queue => 2

/-- Locks are taken in increasing order, and none is held at the end. -/
def Ordered : List Lock → List Ev → Prop
  | h, [] => h = []
  | h, .acquire l :: es => (∀ x ∈ h, rank x < rank l) ∧ Ordered (l :: h) es
  | h, .release l :: es => Ordered (h.erase l) es
  | h, _ :: es => Ordered h es

/-- A piece that can be put anywhere where only locks of a rank below `k` are held. -/
def Piece (k : Nat) (p : List Ev) : Prop := ∀ h es, (∀ x ∈ h, rank x < k) → Ordered h es → Ordered h (p ++ es)

theorem Piece.nil (k : Nat) : Piece k [] := fun _ _ _ h => h

theorem Piece.append {k : Nat} {p q : List Ev} (hp : Piece k p) (hq : Piece k q) : Piece k (p ++ q) := by
  intro h es hh ho
  rw [List.append_assoc]
  exact hp h _ hh (hq h es hh ho)

theorem Piece.mono {k k' : Nat} {p : List Ev} (hp : Piece k p) (hk : k' ≤ k) : Piece k' p :=
  fun h es hh ho => hp h es (fun x hx => Nat.lt_of_lt_of_le (hh x hx) hk) ho

theorem Piece.destroy (k : Nat) (ts : List Nat) : Piece k (ts.map .destroy) := by
  intro h es _ ho
  induction ts with
  | nil => exact ho
  | cons t r ih => exact ih

/-- A critical section. -/
theorem Piece.section (l : Lock) {p : List Ev} (hp : Piece (rank l + 1) p) : Piece (rank l) ([.acquire l] ++ p ++ [.release l]) := by
  intro h es hh ho
  show Ordered h (.acquire l :: (p ++ [.release l] ++ es))
  refine ⟨hh, ?_⟩
  rw [List.append_assoc]
  refine hp (l :: h) _ ?_ ?_
  · intro x hx
    rcases List.mem_cons.1 hx with rfl | hx
    · omega
    · exact Nat.lt_succ_of_lt (hh x hx)
  · show Ordered ((l :: h).erase l) es
    rw [List.erase_cons_head]
    exact ho

theorem piece_push (t : Nat) : Piece 2 (push t) := by
  have h : Piece 3 [Ev.hand t] := fun h es _ ho => ho
  exact Piece.section .queue h

theorem piece_pop (waits : Nat) (old popped : Option Nat) : Piece 2 (pop waits old popped) := by
  intro h es hh ho
  have hq : ∀ n (es' : List Ev), Ordered (.queue :: h) es' →
      Ordered (.queue :: h) ((List.replicate n [Ev.release .queue, .acquire .queue]).flatten ++ es') := by
    intro n es' ho'
    induction n with
    | zero => exact ho'
    | succ n ih =>
      show Ordered ((Lock.queue :: h).erase .queue) (.acquire .queue :: ((List.replicate n [Ev.release .queue, .acquire .queue]).flatten ++ es'))
      rw [List.erase_cons_head]
      exact ⟨hh, ih⟩
  unfold pop
  simp only [List.append_assoc]
  refine ⟨hh, hq waits _ ?_⟩
  have hlast : Ordered (.queue :: h) ([.release .queue] ++ es) := by
    show Ordered ((Lock.queue :: h).erase .queue) es
    rw [List.erase_cons_head]
    exact ho
  split
  · refine Piece.destroy 3 _ _ _ ?_ hlast
    intro x hx
    rcases List.mem_cons.1 hx with rfl | hx
    · show 2 < 3
      omega
    · exact Nat.lt_succ_of_lt (hh x hx)
  · exact hlast

theorem piece_maybePost (R : Found) (m : Bool) (t : Option Nat) : Piece 1 (maybePost R m t) := by
  refine Piece.section (.pending R.r) (p := _) ?_
  show Piece 2 _
  split
  · split
    · split
      · exact piece_push _
      · exact Piece.destroy 2 [_]
    · split
      · exact piece_push _
      · exact Piece.destroy 2 [_]
    · exact Piece.nil 2
  · exact Piece.nil 2

theorem piece_postInternal (R : Found) (m : Bool) (t : Nat) : Piece 1 (postInternal R m t) := by
  unfold postInternal
  split
  · exact piece_maybePost R m _
  · split
    · exact (piece_push t).mono (by omega)
    · exact Piece.destroy 1 [t]

theorem piece_complete (R : Found) : Piece 1 (complete R) := by
  unfold complete
  split
  · exact piece_maybePost R true none
  · exact Piece.nil 1

theorem piece_calls (c : List Call) : Piece 0 (calls c) := by
  induction c with
  | nil => exact Piece.nil 0
  | cons x r ih =>
    cases x with
    | post R m t => exact ((piece_postInternal R m t).mono (by omega)).append ih
    | postDelayed m t =>
      cases m with
      | true => exact (Piece.section .delayed (Piece.nil 1)).append ih
      | false => exact (Piece.destroy 0 [t]).append ih
    | letGo ts => exact (Piece.destroy 0 ts).append ih

theorem piece_turn (old : Option Nat) (u : Turn) : Piece 0 (turn old u) := by
  refine ((piece_pop u.waits old u.popped).mono (by omega)).append ?_
  split
  · rename_i t R _ _ _
    refine Piece.append (Piece.append (Piece.append (Piece.append ?_ (piece_calls _)) ((piece_complete R).mono (by omega))) ?_) ?_
    · exact fun h es _ ho => ho
    · exact Piece.destroy 0 [t]
    · exact Piece.destroy 0 _
  · exact Piece.nil 0

theorem piece_worker (old : Option Nat) (us : List Turn) : Piece 0 (worker old us) := by
  induction us generalizing old with
  | nil => exact Piece.destroy 0 _
  | cons u r ih => exact (piece_turn old u).append (ih _)

theorem piece_pass (ds : List Delayed) : Piece 0 (pass ds) := by
  refine Piece.section .delayed (p := ds.flatMap delayed) ?_
  show Piece 1 _
  induction ds with
  | nil => exact Piece.nil 1
  | cons d r ih =>
    rw [List.flatMap_cons]
    refine Piece.append ?_ ih
    unfold delayed
    split
    · split
      · exact (piece_postInternal _ _ _).append (Piece.destroy 1 _)
      · exact Piece.destroy 1 [d.task]
    · exact Piece.nil 1

theorem piece_timer (ps : List (List Delayed)) : Piece 0 (timer ps) := by
  unfold timer
  induction ps with
  | nil => exact Piece.nil 0
  | cons d r ih =>
    rw [List.flatMap_cons]
    exact (piece_pass d).append ih

theorem thread_ordered {es : List Ev} (h : Thread es) : Ordered [] es := by
  have key : Piece 0 es → Ordered [] es := by
    intro hp
    have := hp [] [] (fun x hx => by cases hx) rfl
    rwa [List.append_nil] at this
  cases h with
  | program c => exact key (piece_calls c)
  | worker us => exact key (piece_worker none us)
  | timer ps => exact key (piece_timer ps)

/-- Every thread goes on in the order of the locks. -/
def Good (s : Sys) : Prop := ∀ x ∈ s, Ordered x.1 x.2

theorem Good.step {s s' : Sys} (h : Good s) (hs : Step s s') : Good s' := by
  have key : ∀ {i : Nat} {x : List Lock × List Ev}, Ordered x.1 x.2 → Good (s.set i x) := by
    intro i x hx y hy
    rcases List.mem_or_eq_of_mem_set hy with hy | rfl
    · exact h y hy
    · exact hx
  cases hs with
  | acquire hi _ => exact key (h _ (List.mem_of_getElem? hi)).2
  | release hi =>
    have := h _ (List.mem_of_getElem? hi)
    exact key this
  | other hi hne =>
    rename_i i hh e es
    have := h _ (List.mem_of_getElem? hi)
    refine key ?_
    cases e with
    | acquire l => exact absurd rfl (hne l).1
    | release l => exact absurd rfl (hne l).2
    | hand t => exact this
    | call t => exact this
    | destroy t => exact this

theorem exists_max (s : Sys) (f : (List Lock × List Ev) → Nat) (p : (List Lock × List Ev) → Prop) (h : ∃ x ∈ s, p x) :
    ∃ x ∈ s, p x ∧ ∀ y ∈ s, p y → f y ≤ f x := by
  induction s with
  | nil => obtain ⟨x, hx, _⟩ := h; cases hx
  | cons a r ih =>
    by_cases hr : ∃ x ∈ r, p x
    · obtain ⟨x, hx, hp, hm⟩ := ih hr
      by_cases ha : p a ∧ f x ≤ f a
      · refine ⟨a, List.mem_cons_self, ha.1, ?_⟩
        intro y hy hpy
        rcases List.mem_cons.1 hy with rfl | hy
        · exact Nat.le_refl _
        · exact Nat.le_trans (hm y hy hpy) ha.2
      · refine ⟨x, List.mem_cons_of_mem _ hx, hp, ?_⟩
        intro y hy hpy
        rcases List.mem_cons.1 hy with rfl | hy
        · by_cases hle : f x ≤ f y
          · exact absurd ⟨hpy, hle⟩ ha
          · omega
        · exact hm y hy hpy
    · obtain ⟨x, hx, hp⟩ := h
      rcases List.mem_cons.1 hx with rfl | hx
      · refine ⟨x, List.mem_cons_self, hp, ?_⟩
        intro y hy hpy
        rcases List.mem_cons.1 hy with rfl | hy
        · exact Nat.le_refl _
        · exact absurd ⟨y, hy, hpy⟩ hr
      · exact absurd ⟨x, hx, hp⟩ hr

/-- The rank of the lock a thread wants. -/
def wants : List Lock × List Ev → Nat
  | (_, .acquire l :: _) => rank l
  | _ => 0

theorem good_progress {s : Sys} (h : Good s) : (∀ x ∈ s, x.2 = []) ∨ ∃ s', Step s s' := by
  by_cases hd : ∀ x ∈ s, x.2 = []
  · exact .inl hd
  refine .inr ?_
  have hex : ∃ x ∈ s, x.2 ≠ [] := by
    apply Classical.byContradiction
    intro hne
    exact hd fun x hx => Classical.byContradiction fun hx' => hne ⟨x, hx, hx'⟩
  apply Classical.byContradiction
  intro hstuck
  -- everybody who is not done wants a lock somebody holds
  have hblocked : ∀ x ∈ s, x.2 ≠ [] → ∃ l es, x.2 = .acquire l :: es ∧ ∃ y ∈ s, l ∈ y.1 := by
    intro x hx hne
    obtain ⟨i, hi, hxi⟩ := List.getElem_of_mem hx
    have hi' : s[i]? = some x := by rw [List.getElem?_eq_getElem hi, hxi]
    obtain ⟨hh, es⟩ := x
    cases es with
    | nil => exact absurd rfl hne
    | cons e es =>
      cases e with
      | acquire l =>
        refine ⟨l, es, rfl, ?_⟩
        apply Classical.byContradiction
        intro hno
        exact hstuck ⟨_, .acquire hi' fun y hy hl => hno ⟨y, hy, hl⟩⟩
      | release l => exact absurd ⟨_, .release hi'⟩ hstuck
      | hand t => exact absurd ⟨_, .other hi' fun l => ⟨fun h => (nomatch h), fun h => (nomatch h)⟩⟩ hstuck
      | call t => exact absurd ⟨_, .other hi' fun l => ⟨fun h => (nomatch h), fun h => (nomatch h)⟩⟩ hstuck
      | destroy t => exact absurd ⟨_, .other hi' fun l => ⟨fun h => (nomatch h), fun h => (nomatch h)⟩⟩ hstuck
  obtain ⟨x, hx, hne, hmax⟩ := exists_max s wants (fun x => x.2 ≠ []) hex
  obtain ⟨l, es, hl, y, hy, hly⟩ := hblocked x hx hne
  have hy2 : y.2 ≠ [] := by
    intro e
    have := h y hy
    rw [e] at this
    have : y.1 = [] := this
    rw [this] at hly
    cases hly
  obtain ⟨l', es', hl', _⟩ := hblocked y hy hy2
  have h1 := hmax y hy hy2
  have hyo := h y hy
  rw [hl'] at hyo
  have h2 := hyo.1 l hly
  obtain ⟨xh, xe⟩ := x
  obtain ⟨yh, ye⟩ := y
  subst hl hl'
  have h1 : rank l' ≤ rank l := h1
  omega

/-- C142, first part: threads that use the manager and its runners, the workers and the timer never wait for each other
(or for themselves) for ever: whatever they find, whatever the functions of the tasks call, and however they are
interleaved, as long as not all of them are done one of them can go on. (The objects captured by tasks are destroyed
without calling the library.) -/
theorem no_deadlock (threads : List (List Ev)) (h : ∀ es ∈ threads, Thread es) (s : Sys)
    (hs : Steps (threads.map fun es => ([], es)) s) : (∀ x ∈ s, x.2 = []) ∨ ∃ s', Step s s' := by
  refine good_progress ?_
  induction hs with
  | refl =>
    intro x hx
    obtain ⟨es, hes, rfl⟩ := List.mem_map.1 hx
    exact thread_ordered (h es hes)
  | tail _ hst ih => exact ih.step hst

/-- Destruction within a critical section. -/
theorem clean_append_destroy {h : List Lock} {ts : List Nat} {es : List Ev} :
    Clean h (ts.map .destroy ++ es) ↔ (ts = [] ∨ h = []) ∧ Clean h es := by
  induction ts with
  | nil => simp
  | cons t r ih =>
    show (h = [] ∧ Clean h (r.map .destroy ++ es)) ↔ _
    rw [ih]
    simp
    exact fun a _ => .inr a

theorem clean_push {h : List Lock} {t : Nat} {es : List Ev} : Clean h (push t ++ es) ↔ Clean h es := by
  show Clean ((Lock.queue :: h).erase .queue) es ↔ _
  rw [List.erase_cons_head]

theorem clean_pop {waits : Nat} {old popped : Option Nat} {es : List Ev} :
    Clean [] (pop waits old popped ++ es) ↔ (popped = none ∨ old = none) ∧ Clean [] es := by
  have hq : ∀ n (es' : List Ev),
      Clean [.queue] ((List.replicate n [Ev.release .queue, .acquire .queue]).flatten ++ es') ↔ Clean [.queue] es' := by
    intro n es'
    induction n with
    | zero => exact Iff.rfl
    | succ n ih =>
      show Clean (([Lock.queue]).erase .queue) (.acquire .queue :: ((List.replicate n [Ev.release .queue, .acquire .queue]).flatten ++ es')) ↔ _
      rw [List.erase_cons_head]
      exact ih
  unfold pop
  simp only [List.append_assoc]
  show Clean [.queue] ((List.replicate waits [Ev.release .queue, .acquire .queue]).flatten ++ (_ ++ ([.release .queue] ++ es))) ↔ _
  rw [hq]
  have hlast : Clean [.queue] ([.release .queue] ++ es) ↔ Clean [] es := Iff.rfl
  cases popped with
  | none =>
    refine hlast.trans ?_
    simp
  | some t =>
    simp only [Option.isSome_some, if_true]
    rw [clean_append_destroy, hlast]
    cases old <;> simp

theorem clean_maybePost {R : Found} {m : Bool} {t : Option Nat} {h : List Lock} {es : List Ev} :
    Clean h (maybePost R m t ++ es) ↔
      ((m = true ∨ (t.isSome ∧ R.hasRunning = true) ∨ (t = none ∧ R.front = none)) ∧ Clean h es) := by
  have hlast : Clean (.pending R.r :: h) ([.release (.pending R.r)] ++ es) ↔ Clean h es := by
    show Clean ((Lock.pending R.r :: h).erase _) es ↔ _
    rw [List.erase_cons_head]
  have hd : ∀ p, Clean (.pending R.r :: h) (([p].map .destroy) ++ ([.release (.pending R.r)] ++ es)) ↔ False := by
    intro p
    rw [clean_append_destroy]
    simp
  unfold maybePost
  simp only [List.append_assoc]
  show Clean (.pending R.r :: h) _ ↔ _
  cases hr : R.hasRunning <;> cases hf : R.front <;> cases t <;> cases m <;> simp [hr, hf]
  all_goals first
    | exact hlast
    | exact clean_push.trans hlast
    | exact fun h => (hd _).1 h

theorem clean_postInternal {R : Found} {m : Bool} {t : Nat} {h : List Lock} {es : List Ev} :
    Clean h (postInternal R m t ++ es) ↔
      (m = true ∨ (if R.sequenced then R.hasRunning = true else h = [])) ∧ Clean h es := by
  unfold postInternal
  cases hs : R.sequenced with
  | true =>
    simp only [if_true]
    rw [clean_maybePost]
    simp
  | false =>
    cases m with
    | true => simp [clean_push]
    | false =>
      simp only [Bool.false_eq_true, if_false]
      show (h = [] ∧ Clean h es) ↔ _
      simp

theorem clean_complete {R : Found} {es : List Ev} : Clean [] (complete R ++ es) ↔ Clean [] es := by
  unfold complete
  split
  · rw [clean_maybePost]
    simp
  · exact Iff.rfl

theorem clean_calls {c : List Call} {es : List Ev} :
    Clean [] (calls c ++ es) ↔
      (∀ R t, Call.post R false t ∈ c → R.sequenced = true → R.hasRunning = true) ∧ Clean [] es := by
  induction c with
  | nil => simp [calls]
  | cons x r ih =>
    cases x with
    | post R m t =>
      show Clean [] (postInternal R m t ++ calls r ++ es) ↔ _
      rw [List.append_assoc, clean_postInternal, ih]
      constructor
      · rintro ⟨h1, h2, h3⟩
        refine ⟨?_, h3⟩
        intro R' t' hm hs
        rcases List.mem_cons.1 hm with e | hm
        · cases e
          rcases h1 with h1 | h1
          · cases h1
          · rw [if_pos hs] at h1
            exact h1
        · exact h2 R' t' hm hs
      · rintro ⟨h1, h3⟩
        refine ⟨?_, fun R' t' hm => h1 R' t' (List.mem_cons_of_mem _ hm), h3⟩
        cases m with
        | true => exact .inl rfl
        | false =>
          refine .inr ?_
          split
          · rename_i hs
            exact h1 R t List.mem_cons_self hs
          · rfl
    | postDelayed m t =>
      have e : Clean [] (calls (.postDelayed m t :: r) ++ es) ↔ Clean [] (calls r ++ es) := by
        cases m with
        | true => exact Iff.rfl
        | false =>
          show ([] = [] ∧ _) ↔ _
          simp
      rw [e, ih]
      simp
    | letGo ts =>
      show Clean [] (ts.map .destroy ++ calls r ++ es) ↔ _
      rw [List.append_assoc, clean_append_destroy, ih]
      simp

theorem clean_turn {old : Option Nat} {u : Turn} {es : List Ev} :
    Clean [] (turn old u ++ es) ↔
      (u.popped = none ∨ old = none) ∧
      (u.popped.isSome → u.runs = true → Clean [] (calls u.code)) ∧ Clean [] es := by
  have hc : Clean [] (calls u.code) ↔ ∀ R t, Call.post R false t ∈ u.code → R.sequenced = true → R.hasRunning = true := by
    have := clean_calls (c := u.code) (es := [])
    rw [List.append_nil] at this
    rw [this]
    simp [Clean]
  unfold turn
  rw [List.append_assoc, clean_pop]
  refine and_congr_right fun _ => ?_
  split
  · rename_i t R hp hk hr
    rw [List.append_assoc, List.append_assoc, List.append_assoc, List.append_assoc]
    show Clean [] (calls u.code ++ (complete R ++ (Ev.destroy t :: (u.last.map .destroy ++ es)))) ↔ _
    rw [clean_calls, clean_complete, hc]
    have : Clean [] (Ev.destroy t :: (u.last.map .destroy ++ es)) ↔ Clean [] es := by
      show ([] = [] ∧ Clean [] (u.last.map .destroy ++ es)) ↔ _
      rw [clean_append_destroy]
      simp
    rw [this]
    simp [hp, Turn.runs, hk, hr]
  · rename_i hne
    have : ¬ (u.popped.isSome ∧ u.runs = true) := by
      rintro ⟨h1, h2⟩
      obtain ⟨t, ht⟩ := Option.isSome_iff_exists.1 h1
      simp only [Turn.runs, Bool.and_eq_true] at h2
      obtain ⟨R, hR⟩ := Option.isSome_iff_exists.1 h2.2
      exact hne t R ht h2.1 hR
    constructor
    · intro h
      exact ⟨fun a b => absurd ⟨a, b⟩ this, h⟩
    · exact fun h => h.2

/-- The exact condition for a worker. -/
theorem clean_worker {old : Option Nat} {us : List Turn} :
    Clean [] (worker old us) ↔
      (old.isSome → ∀ v ∈ us, v.popped = none) ∧
      (∀ u ∈ us, u.popped.isSome → u.runs = true → Clean [] (calls u.code)) ∧
      us.Pairwise fun u v => u.popped.isSome → u.runs = false → v.popped = none := by
  induction us generalizing old with
  | nil =>
    have := clean_append_destroy (h := []) (ts := old.toList) (es := [])
    rw [List.append_nil] at this
    show Clean [] (old.toList.map .destroy) ↔ _
    rw [this]
    simp [Clean]
  | cons u r ih =>
    show Clean [] (turn old u ++ worker (holder old u) r) ↔ _
    rw [clean_turn, ih, List.pairwise_cons]
    have hh : holder old u = match u.popped with | none => old | some t => if u.runs then none else some t := rfl
    cases hp : u.popped with
    | none =>
      rw [hp] at hh
      simp only at hh
      rw [hh]
      simp [hp]
    | some t =>
      rw [hp] at hh
      simp only at hh
      rw [hh]
      cases hr : u.runs <;> simp [hp, hr] <;> grind

theorem clean_pass {ds : List Delayed} {es : List Ev} :
    Clean [] (pass ds ++ es) ↔ (∀ d ∈ ds, d.due = true → d.runner.isSome ∧ d.last = []) ∧ Clean [] es := by
  unfold pass
  rw [List.append_assoc, List.append_assoc]
  show Clean [.delayed] (ds.flatMap delayed ++ ([.release .delayed] ++ es)) ↔ _
  induction ds with
  | nil =>
    show Clean [] es ↔ _
    simp
  | cons d r ih =>
    rw [List.flatMap_cons, List.append_assoc]
    have : ∀ es', Clean [.delayed] (delayed d ++ es') ↔ (d.due = true → d.runner.isSome ∧ d.last = []) ∧ Clean [.delayed] es' := by
      intro es'
      unfold delayed
      cases d.due with
      | false => simp
      | true =>
        cases d.runner with
        | none =>
          show ([Lock.delayed] = [] ∧ _) ↔ _
          simp
        | some R =>
          simp only [if_true, List.append_assoc]
          rw [clean_postInternal, clean_append_destroy]
          simp
    rw [this, ih]
    simp
    exact and_assoc.symm

theorem clean_timer {ps : List (List Delayed)} :
    Clean [] (timer ps) ↔ ∀ ds ∈ ps, ∀ d ∈ ds, d.due = true → d.runner.isSome ∧ d.last = [] := by
  unfold timer
  induction ps with
  | nil => simp [Clean]
  | cons ds r ih =>
    rw [List.flatMap_cons, clean_pass, ih]
    simp

theorem completes_of {dtor : Nat → List Ev} (hd : ∀ t, Completes dtor [] (dtor t)) {h : List Lock} {es : List Ev}
    (ho : Ordered h es) (hc : Clean h es) : Completes dtor h es := by
  induction es generalizing h with
  | nil => exact .nil
  | cons e r ih =>
    cases e with
    | acquire l => exact .acquire (fun hl => Nat.lt_irrefl _ (ho.1 l hl)) (ih ho.2 hc)
    | release l => exact .release (ih (h := h.erase l) ho hc)
    | hand t => exact .hand (ih (h := h) ho hc)
    | call t => exact .call (ih (h := h) ho hc)
    | destroy t =>
      obtain ⟨rfl, hc⟩ := hc
      exact .destroy (hd t) (ih (h := []) ho hc)

/-- C142, second part: exactly when a thread destroys tasks only while it holds no lock, and that then the destructors of
captured objects may use the library as they like. A program must not post to an idle sequenced runner whose manager is
gone; a worker must not pop after it has dropped a task (because the runner was gone); the timer must not find the runner
of a due task gone, nor become the last owner of a runner with pending tasks. -/
theorem captures_partial (dtor : Nat → List Ev) (hd : ∀ t, Completes dtor [] (dtor t)) :
    (∀ c, (Clean [] (calls c) ↔ ∀ R t, Call.post R false t ∈ c → R.sequenced = true → R.hasRunning = true)) ∧
    (∀ us, (Clean [] (worker none us) ↔ (∀ u ∈ us, u.popped.isSome → u.runs = true → Clean [] (calls u.code)) ∧
      ∀ (i j : Nat) (u v : Turn), i < j → us[i]? = some u → us[j]? = some v → u.popped.isSome → (u.keep && u.runner.isSome) = false →
        v.popped = none)) ∧
    (∀ ps, (Clean [] (timer ps) ↔ ∀ ds ∈ ps, ∀ d ∈ ds, d.due = true → d.runner.isSome ∧ d.last = [])) ∧
    ∀ es, Thread es → Clean [] es → Completes dtor [] es := by
  refine ⟨?_, ?_, fun ps => clean_timer, fun es ht hc => completes_of hd (thread_ordered ht) hc⟩
  · intro c
    have := clean_calls (c := c) (es := [])
    rw [List.append_nil] at this
    rw [this]
    simp [Clean]
  · intro us
    rw [clean_worker]
    simp only [Option.isSome_none, Bool.false_eq_true, false_implies, true_and]
    refine and_congr_right fun _ => ?_
    rw [List.pairwise_iff_getElem]
    constructor
    · intro h i j u v hij hi hj
      obtain ⟨hi', rfl⟩ := List.getElem?_eq_some_iff.1 hi
      obtain ⟨hj', rfl⟩ := List.getElem?_eq_some_iff.1 hj
      exact h i j hi' hj' hij
    · intro h i j hi hj hij
      exact h i j _ _ hij (List.getElem?_eq_getElem hi) (List.getElem?_eq_getElem hj)

/-- A thread that wants a lock it holds does not get to the end. -/
theorem not_completes {dtor : Nat → List Ev} {h : List Lock} {l : Lock} {a es : List Ev} (hl : l ∈ h)
    (ha : ∀ e ∈ a, ∃ t, e = .hand t ∨ e = .call t) : ¬ Completes dtor h (a ++ .acquire l :: es) := by
  induction a with
  | nil =>
    intro hc
    cases hc with
    | acquire hn _ => exact hn hl
  | cons e r ih =>
    intro hc
    obtain ⟨t, rfl | rfl⟩ := ha e List.mem_cons_self
    · cases hc with
      | hand hc => exact ih (fun e he => ha e (List.mem_cons_of_mem _ he)) hc
    · cases hc with
      | call hc => exact ih (fun e he => ha e (List.mem_cons_of_mem _ he)) hc

/-- C142, against it: objects captured by tasks whose destructors post a task make the thread wait for itself.
A worker that drops a task because its runner is gone destroys it at the next pop, under the lock of the queue. The timer
drops a delayed task under the lock of the delayed tasks. And a program whose task is refused by a sequenced runner, as the
manager is gone, destroys it under the lock of that runner. -/
theorem captures_violated (dtor : Nat → List Ev) (t : Nat) :
    (∀ (R : Found) (x : Nat) (u v : Turn) (us : List Turn), R.sequenced = false → dtor t = calls [.post R true x] →
      u.popped = some t → u.runner = none → v.popped.isSome → ¬ Completes dtor [] (worker none (u :: v :: us))) ∧
    (∀ (x : Nat) (d : Delayed) (ds : List Delayed), dtor t = calls [.postDelayed true x] → d.task = t → d.due = true →
      d.runner = none → ¬ Completes dtor [] (timer [d :: ds])) ∧
    (∀ (R : Found) (m : Bool) (x : Nat), R.sequenced = true → R.hasRunning = false → R.front = none →
      dtor t = calls [.post R m x] → ¬ Completes dtor [] (calls [.post R false t])) := by
  refine ⟨?_, ?_, ?_⟩
  · intro R x u v us hR hdt hu hun hv hc
    have hpop : ∀ n (es' : List Ev), Completes dtor [.queue] ((List.replicate n [Ev.release .queue, .acquire .queue]).flatten ++ es') →
        Completes dtor [.queue] es' := by
      intro n es' h
      induction n with
      | zero => exact h
      | succ n ih =>
        rw [List.replicate_succ, List.flatten_cons] at h
        cases h with
        | release h =>
          rw [List.erase_cons_head] at h
          cases h with
          | acquire _ h => exact ih h
    have hcall : ∀ es', ¬ Completes dtor [.queue] (.destroy t :: es') := by
      intro es' h
      cases h with
      | destroy h _ =>
        rw [hdt] at h
        refine not_completes (dtor := dtor) (h := [.queue]) (l := .queue) (a := []) (es := [.hand x, .release .queue]) List.mem_cons_self (fun e he => by cases he) ?_
        simpa [calls, postInternal, hR, push] using h
    have hturn : turn none u = pop u.waits none (some t) := by
      unfold turn
      rw [hu, hun]
      split
      · rename_i h
        cases h
      · exact List.append_nil _
    have hhold : holder none u = some t := by
      unfold holder
      rw [hu]
      simp [Turn.runs, hun]
    obtain ⟨t', ht'⟩ := Option.isSome_iff_exists.1 hv
    have e : worker none (u :: v :: us) =
        .acquire .queue :: ((List.replicate u.waits [Ev.release .queue, .acquire .queue]).flatten ++ (.release .queue ::
          .acquire .queue :: ((List.replicate v.waits [Ev.release .queue, .acquire .queue]).flatten ++ (.destroy t :: (.release .queue ::
            ((match v.popped, v.keep, v.runner with
              | some t, true, some R => [.call t] ++ calls v.code ++ complete R ++ [.destroy t] ++ v.last.map .destroy
              | _, _, _ => []) ++ worker (holder (some t) v) us)))))) := by
      show turn none u ++ (turn (holder none u) v ++ worker (holder (holder none u) v) us) = _
      rw [hturn, hhold]
      unfold turn pop
      rw [ht']
      simp
    rw [e] at hc
    cases hc with
    | acquire _ hc =>
      have hc := hpop _ _ hc
      cases hc with
      | release hc =>
        rw [List.erase_cons_head] at hc
        cases hc with
        | acquire _ hc => exact hcall _ (hpop _ _ hc)
  · intro x d ds hdt hd hdue hrun hc
    have e : timer [d :: ds] = .acquire .delayed :: .destroy t :: (ds.flatMap delayed ++ [.release .delayed]) := by
      simp [timer, pass, delayed, hd, hdue, hrun]
    rw [e] at hc
    cases hc with
    | acquire _ hc =>
      cases hc with
      | destroy hc _ =>
        rw [hdt] at hc
        exact not_completes (a := []) List.mem_cons_self (fun e he => by cases he) hc
  · intro R m x hs hr hf hdt hc
    have e : calls [.post R false t] = [.acquire (.pending R.r), .destroy t, .release (.pending R.r)] := by
      simp [calls, postInternal, hs, maybePost, hr, hf]
    rw [e] at hc
    cases hc with
    | acquire _ hc =>
      cases hc with
      | destroy hc _ =>
        rw [hdt] at hc
        have e' : ∃ es, calls [.post R m x] = .acquire (.pending R.r) :: es := by
          simp [calls, postInternal, hs, maybePost]
        obtain ⟨es, e'⟩ := e'
        rw [e'] at hc
        exact not_completes (a := []) List.mem_cons_self (fun e he => by cases he) hc

/-- C142, also against it: the objects captured by a task of a sequenced runner are destroyed only after the next task of
that runner has been handed to the workers, so their destructors can run at the same time as the next task. -/
theorem sequence_captures_violated (old : Option Nat) (u : Turn) (t p : Nat) (R : Found) (hp : u.popped = some t)
    (hk : u.keep = true) (hR : u.runner = some R) (hs : R.sequenced = true) (hf : R.front = some p) :
    ∃ a c, turn old u = a ++ [.call t] ++ calls u.code ++ [.acquire (.pending R.r), .acquire .queue, .hand p, .release .queue,
      .release (.pending R.r), .destroy t] ++ c ∧ ∀ x, Ev.destroy x ∈ a → old = some x := by
  refine ⟨pop u.waits old u.popped, u.last.map .destroy, ?_, ?_⟩
  · unfold turn
    rw [hp, hk, hR]
    simp [complete, hs, maybePost, hf, push]
  · intro x hx
    unfold pop at hx
    simp only [List.mem_append, List.mem_singleton, List.mem_flatten, List.mem_replicate] at hx
    rcases hx with ((h | ⟨l, ⟨_, rfl⟩, h⟩) | h) | h
    · cases h
    · simp at h
    · split at h
      · obtain ⟨y, hy, e⟩ := List.mem_map.1 h
        cases e
        cases old with
        | none => cases hy
        | some z =>
          rcases List.mem_singleton.1 hy with rfl
          rfl
      · cases h
    · cases h

/-- A worker that runs two tasks of a sequenced runner, the first of which posts the second. -/
example : worker none
    [⟨1, some 7, true, some ⟨0, true, true, some 8⟩, [.post ⟨0, true, true, none⟩ true 8], []⟩,
     ⟨0, some 8, true, some ⟨0, true, true, none⟩, [], []⟩] =
    [.acquire .queue, .release .queue, .acquire .queue, .release .queue, .call 7,
     .acquire (.pending 0), .release (.pending 0),
     .acquire (.pending 0), .acquire .queue, .hand 8, .release .queue, .release (.pending 0), .destroy 7,
     .acquire .queue, .release .queue, .call 8, .acquire (.pending 0), .release (.pending 0), .destroy 8] := by decide

/-- A dropped task is destroyed within the next pop. -/
example : worker none [⟨0, some 7, true, none, [], []⟩, ⟨0, some 8, true, some ⟨0, false, false, none⟩, [], []⟩] =
    [.acquire .queue, .release .queue, .acquire .queue, .destroy 7, .release .queue, .call 8, .destroy 8] := by decide

/-- Three threads of the kinds `no_deadlock` speaks of. -/
example : ∀ es ∈ [worker none [⟨0, some 7, true, some ⟨0, true, true, some 8⟩, [.postDelayed true 9], []⟩],
      timer [[⟨9, true, some ⟨0, true, false, none⟩, []⟩]], calls [.post ⟨0, true, true, none⟩ true 8, .letGo [8]]],
    Thread es := by
  intro es h
  rcases List.mem_cons.1 h with rfl | h
  · exact .worker _
  rcases List.mem_cons.1 h with rfl | h
  · exact .timer _
  rcases List.mem_cons.1 h with rfl | h
  · exact .program _
  cases h

end Verif.Task.Locks
