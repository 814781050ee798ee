import Verif.Conc.Spec

/-!
# Model of `fly/types/concurrency`

A small-step transition system for any number of threads using one `ConcurrentContainer`. Every
acquisition and release of the mutex, every access to the container, and every operation of the
condition variable is a separate step, so all interleavings of the C++ code are covered. Standard
library primitives: the mutex admits one holder; `wait` releases the mutex and blocks; `notify_one`
wakes one blocked thread if there is one; blocked threads may wake spuriously; a timed wait may end
by time-out at any moment; a woken thread re-acquires the mutex before it goes on.
-/

namespace Verif.Conc

/-- Where a thread is in the code. `timed` distinguishes the two `pop` overloads. -/
inductive PC (α : Type)
  | idle
  /-- `push`, before the lock is acquired (concurrent_container.hpp 88-91) -/
  | pushLock (v : α)
  /-- `push`, holding the lock, before `push_internal` (92) -/
  | pushHeld (v : α)
  /-- `push`, after `push_internal`, before the lock is released (93) -/
  | pushedHeld (v : α)
  /-- `push`, lock released, before `notify_one` (95) -/
  | pushNotify (v : α)
  /-- `push`, about to return -/
  | pushRet (v : α)
  /-- `pop`, before the lock is acquired (102 / 117) -/
  | popLock (timed : Bool)
  /-- `pop`, holding the lock, before the emptiness test (104 / predicate of 123) -/
  | popHeld (timed : Bool)
  /-- blocked in the condition variable (106 / 123) -/
  | popWait (timed : Bool)
  /-- woken, re-acquiring the lock -/
  | popWoken (timed : Bool)
  /-- timed wait ended by time-out, re-acquiring the lock -/
  | popExpired
  /-- timed `pop`, holding the lock after the time-out, before the last emptiness test (123) -/
  | popLast
  /-- `pop`, after `pop_internal`, before the lock is released (109 / 127-130) -/
  | popped (timed : Bool) (v : α)
  /-- timed `pop` that gave up, before the lock is released (130) -/
  | popFailed
  /-- `pop`, lock released, about to return -/
  | popRet (timed : Bool) (r : Res α)
  /-- `size` (true) or `empty` (false), before the lock is acquired (137 / 145) -/
  | queryLock (size : Bool)
  | queryHeld (size : Bool)
  | queried (size : Bool) (r : Res α)
  | queryRet (size : Bool) (r : Res α)

/-- The program state: the mutex holder, the container (next item to pop first), the threads. -/
structure State (α : Type) where
  holder : Option Nat
  items : List α
  pcs : List (PC α)

/-- `push_internal`: `ConcurrentQueue`, concurrent_queue.hpp 27-30 (`std::queue::push` appends), and
`ConcurrentStack`, concurrent_stack.hpp 27-30 (`std::stack::push` puts on top). -/
def pushInternal {α} (k : Kind) (v : α) (l : List α) : List α :=
  match k with
  | .fifo => l ++ [v]
  | .lifo => v :: l

/-- The call of `pop`. -/
def popOp {α} (timed : Bool) : Op α := if timed then .popTimed else .pop
/-- The call of `size` or `empty`. -/
def queryOp {α} (size : Bool) : Op α := if size then .size else .empty

/-- The state with thread `t` moved. -/
def State.at_ {α} (s : State α) (t : Nat) (pc : PC α) : State α := { s with pcs := s.pcs.set t pc }

/-- One step of one thread, with the event it causes. -/
inductive Step {α : Type} (k : Kind) : State α → Option (Ev α) → State α → Prop
  /-- The program calls `push`, 88. -/
  | callPush {s t v} : s.pcs[t]? = some .idle → Step k s (some (.call t (.push v))) (s.at_ t (.pushLock v))
  /-- `std::unique_lock` in `push`, 91. -/
  | pushAcquire {s t v} : s.pcs[t]? = some (.pushLock v) → s.holder = none →
      Step k s none { (s.at_ t (.pushHeld v)) with holder := some t }
  /-- `push_internal`, 92. -/
  | pushDo {s t v} : s.pcs[t]? = some (.pushHeld v) →
      Step k s (some (.lin t (.push v) .unit))
        { (s.at_ t (.pushedHeld v)) with items := pushInternal k v s.items }
  /-- End of the scope, 93. -/
  | pushRelease {s t v} : s.pcs[t]? = some (.pushedHeld v) →
      Step k s none { (s.at_ t (.pushNotify v)) with holder := none }
  /-- `notify_one` with a blocked thread `w`, 95. -/
  | notify {s t v w timed} : s.pcs[t]? = some (.pushNotify v) → s.pcs[w]? = some (.popWait timed) →
      Step k s none ((s.at_ t (.pushRet v)).at_ w (.popWoken timed))
  /-- `notify_one` with no blocked thread, 95. -/
  | notifyNone {s t v} : s.pcs[t]? = some (.pushNotify v) →
      (∀ (w : Nat) (timed : Bool), s.pcs[w]? ≠ some (PC.popWait timed)) → Step k s none (s.at_ t (.pushRet v))
  | pushReturn {s t v} : s.pcs[t]? = some (.pushRet v) →
      Step k s (some (.ret t (.push v) .unit)) (s.at_ t .idle)
  /-- The program calls `pop`, 100 / 115. -/
  | callPop {s t} (timed) : s.pcs[t]? = some .idle →
      Step k s (some (.call t (popOp timed))) (s.at_ t (.popLock timed))
  /-- `std::unique_lock` in `pop`, 102 / 117. -/
  | popAcquire {s t timed} : s.pcs[t]? = some (.popLock timed) → s.holder = none →
      Step k s none { (s.at_ t (.popHeld timed)) with holder := some t }
  /-- Emptiness test fails: `wait` releases the lock and blocks, 104-106 / 123. -/
  | popBlock {s t timed} : s.pcs[t]? = some (.popHeld timed) → s.items = [] →
      Step k s none { (s.at_ t (.popWait timed)) with holder := none }
  /-- Items are there: `pop_internal`, 109 / 127 (concurrent_queue.hpp 34-38, concurrent_stack.hpp
  34-38). -/
  | popDo {s t timed v l} : s.pcs[t]? = some (.popHeld timed) → s.items = v :: l →
      Step k s (some (.lin t (popOp timed) (.item v))) { (s.at_ t (.popped timed v)) with items := l }
  /-- Spurious wake-up. -/
  | spurious {s t timed} : s.pcs[t]? = some (.popWait timed) →
      Step k s none (s.at_ t (.popWoken timed))
  /-- The timed wait expires, 123. -/
  | expire {s t} : s.pcs[t]? = some (.popWait true) → Step k s none (s.at_ t .popExpired)
  /-- A thread that was notified finds at its return that the time is over. -/
  | expireWoken {s t} : s.pcs[t]? = some (.popWoken true) →
      Step k s none (s.at_ t .popExpired)
  /-- Re-acquisition after a wake-up: back to the loop's test. -/
  | reacquire {s t timed} : s.pcs[t]? = some (.popWoken timed) → s.holder = none →
      Step k s none { (s.at_ t (.popHeld timed)) with holder := some t }
  /-- Re-acquisition after the time-out: `wait_for` returns the predicate, 123. -/
  | reacquireLast {s t} : s.pcs[t]? = some .popExpired → s.holder = none →
      Step k s none { (s.at_ t .popLast) with holder := some t }
  | lastDo {s t v l} : s.pcs[t]? = some .popLast → s.items = v :: l →
      Step k s (some (.lin t .popTimed (.item v))) { (s.at_ t (.popped true v)) with items := l }
  | lastFail {s t} : s.pcs[t]? = some .popLast → s.items = [] →
      Step k s (some (.lin t .popTimed .nothing)) (s.at_ t .popFailed)
  /-- The lock is released at the end of `pop`, 110 / 131. -/
  | popRelease {s t timed v} : s.pcs[t]? = some (.popped timed v) →
      Step k s none { (s.at_ t (.popRet timed (.item v))) with holder := none }
  | popReleaseFail {s t} : s.pcs[t]? = some .popFailed →
      Step k s none { (s.at_ t (.popRet true .nothing)) with holder := none }
  | popReturn {s t timed r} : s.pcs[t]? = some (.popRet timed r) →
      Step k s (some (.ret t (popOp timed) r)) (s.at_ t .idle)
  /-- `empty`, 135-139, and `size`, 143-147. -/
  | callQuery {s t} (size) : s.pcs[t]? = some .idle →
      Step k s (some (.call t (queryOp size))) (s.at_ t (.queryLock size))
  | queryAcquire {s t size} : s.pcs[t]? = some (.queryLock size) → s.holder = none →
      Step k s none { (s.at_ t (.queryHeld size)) with holder := some t }
  | queryDo {s t size} : s.pcs[t]? = some (.queryHeld size) →
      Step k s (some (.lin t (queryOp size) (if size then .num s.items.length else .bool s.items.isEmpty)))
        (s.at_ t (.queried size (if size then .num s.items.length else .bool s.items.isEmpty)))
  | queryRelease {s t size r} : s.pcs[t]? = some (.queried size r) →
      Step k s none { (s.at_ t (.queryRet size r)) with holder := none }
  | queryReturn {s t size r} : s.pcs[t]? = some (.queryRet size r) →
      Step k s (some (.ret t (queryOp size) r)) (s.at_ t .idle)

/-- The initial state of a program with `n` threads. -/
def init (α : Type) (n : Nat) : State α := ⟨none, [], List.replicate n .idle⟩

/-- `Run k n e s`: some execution of `n` threads has caused the events `e` and reached `s`. -/
inductive Run {α : Type} (k : Kind) (n : Nat) : List (Ev α) → State α → Prop
  | init : Run k n [] (init α n)
  | step {e s ev s'} : Run k n e s → Step k s ev s' → Run k n (e ++ ev.toList) s'

end Verif.Conc
