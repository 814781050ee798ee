/-!
# C167: releasing a task manager

Source: `/repo/fly/task/task_manager.cpp` 14-85, `/repo/fly/task/task_runner.cpp` 8-43.

`start` hands every thread a `std::shared_ptr` to the manager (task_manager.cpp 46-55), which `std::async` keeps with the
arguments of the call in the state that the future in `m_futures` refers to; `stop` waits for the future and so lets go of it.
The task runners have weak references and lock them for the time of a post. Left out: tasks that capture references to
their own manager (they count as references of the program as long as they exist), `start` during a `stop` (C141), and
threads that end by an exception.
-/

namespace Verif.Task.Release

/-- A thread with its future. -/
inductive Thread where
  /-- in its loop -/
  | running
  /-- the function has returned, the future not yet waited for -/
  | exited
  /-- `stop` has taken the result, and the shared state with the reference to the manager is gone -/
  | joined
deriving DecidableEq, Repr

structure State where
  /-- references of the program -/
  user : Nat
  /-- references locked by runners for a post -/
  posting : Nat
  keep : Bool
  futures : List Thread
  /-- a `stop` in progress, at this future -/
  stopping : Option Nat
  alive : Bool
  /-- number of destructions -/
  destroyed : Nat
deriving DecidableEq, Repr

/-- The references that keep the manager alive. -/
def State.refs (s : State) : Nat := s.user + s.posting + (s.futures.filter (· ≠ .joined)).length

/-- `std::shared_ptr`: the manager is destroyed when the last reference is gone. -/
def State.settle (s : State) : State :=
  if s.alive = true ∧ s.refs = 0 then { s with alive := false, destroyed := s.destroyed + 1 } else s

/-- `TaskManager::create` (task_manager.cpp 16-30) with `n` workers: they and the timer have been started, the program has one
reference. -/
def created (n : Nat) : State :=
  { user := 1, posting := 0, keep := true, futures := List.replicate (n + 1) .running, stopping := none, alive := true,
    destroyed := 0 }

/-- What can happen. -/
inductive Op where
  /-- the program copies a reference -/
  | copy
  /-- the program releases a reference -/
  | release
  /-- a runner locks its weak reference: task_runner.cpp 16, 31 -/
  | lock
  /-- and lets go of it: task_runner.cpp 20, 40 -/
  | unlock
  /-- `start`: task_manager.cpp 40-61 -/
  | start
  /-- `stop` changes the flag: task_manager.cpp 64-68 -/
  | stop
  /-- thread `i` sees the flag and returns: task_manager.cpp 121, 139 -/
  | exit (i : Nat)
  /-- `stop` waits for the next future, or returns: task_manager.cpp 70-78 -/
  | join
deriving DecidableEq, Repr

/-- One step, if it is possible. A call of `start` or `stop` is made through a reference the program has, and that is not released
before the call returns. -/
def step (n : Nat) (s : State) : Op → Option State
  | .copy => if 0 < s.user then some { s with user := s.user + 1 } else none
  | .release =>
    if 0 < s.user ∧ (s.stopping = none ∨ 1 < s.user) then some { s with user := s.user - 1 }.settle else none
  | .lock => if 0 < s.refs then some { s with posting := s.posting + 1 } else none
  | .unlock => if 0 < s.posting then some { s with posting := s.posting - 1 }.settle else none
  | .start =>
    if 0 < s.user ∧ s.stopping = none then
      some (if s.keep then s else { s with keep := true, futures := s.futures ++ List.replicate (n + 1) .running })
    else none
  | .stop =>
    if 0 < s.user ∧ s.stopping = none then
      some (if s.keep then { s with keep := false, stopping := some 0 } else s)
    else none
  | .exit i =>
    if s.keep = false ∧ s.futures[i]? = some .running then some { s with futures := s.futures.set i .exited } else none
  | .join =>
    match s.stopping with
    | none => none
    | some i =>
      match s.futures[i]? with
      | none => some { s with stopping := none }
      | some .running => none
      | some .exited => some { s with futures := s.futures.set i .joined, stopping := some (i + 1) }.settle
      | some .joined => some { s with stopping := some (i + 1) }

/-- A history. -/
def run (n : Nat) : State → List Op → Option State
  | s, [] => some s
  | s, o :: r => (step n s o).bind fun s' => run n s' r

/-! ## Proofs -/

structure Inv (n : Nat) (s : State) : Prop where
  alive : s.alive = true ↔ 0 < s.refs
  once : s.destroyed = (!s.alive).toNat
  running : s.keep = true → s.futures.count .running = n + 1 ∧ s.stopping = none
  rest : s.keep = false → s.stopping = none → ∀ f ∈ s.futures, f = .joined
  behind : ∀ i, s.stopping = some i → s.keep = false ∧ 0 < s.user ∧ ∀ j f, j < i → s.futures[j]? = some f → f = .joined

theorem inv_created (n : Nat) : Inv n (created n) := by
  refine ⟨?_, rfl, fun _ => ⟨by simp [created], rfl⟩, fun h => by simp [created] at h, fun i h => by simp [created] at h⟩
  simp [created, State.refs]
  omega

/-- Destroying what nobody refers to. -/
theorem settle_inv {n : Nat} {s : State} (hz : s.alive = false → s.refs = 0) (ho : s.destroyed = (!s.alive).toNat)
    (hr : s.keep = true → s.futures.count .running = n + 1 ∧ s.stopping = none)
    (hj : s.keep = false → s.stopping = none → ∀ f ∈ s.futures, f = .joined)
    (hb : ∀ i, s.stopping = some i → s.keep = false ∧ 0 < s.user ∧ ∀ j f, j < i → s.futures[j]? = some f → f = .joined) :
    Inv n s.settle := by
  unfold State.settle
  split
  · rename_i h
    refine ⟨?_, ?_, hr, hj, hb⟩
    · have h0 : s.refs = 0 := h.2
      refine ⟨fun e => by simp at e, fun hp => ?_⟩
      have hp : 0 < s.refs := hp
      omega
    · show s.destroyed + 1 = _
      rw [ho, h.1]
      rfl
  · rename_i h
    refine ⟨⟨fun ha => ?_, fun hp => ?_⟩, ho, hr, hj, hb⟩
    · have : s.refs ≠ 0 := fun e => h ⟨ha, e⟩
      omega
    · cases ha : s.alive with
      | true => rfl
      | false => have := hz ha; omega

theorem refs_set_exited {s : State} {i : Nat} (h : s.futures[i]? = some .running) :
    ((s.futures.set i .exited).filter (· ≠ .joined)).length = (s.futures.filter (· ≠ .joined)).length := by
  generalize s.futures = l at *
  induction l generalizing i with
  | nil => simp at h
  | cons a l ih =>
    cases i with
    | zero =>
      simp at h
      subst h
      simp
    | succ i =>
      simp only [List.set_cons_succ, List.filter_cons]
      have := ih h
      split <;> simp_all

theorem Inv.step {n : Nat} {s s' : State} {o : Op} (h : Inv n s) (hs : step n s o = some s') : Inv n s' := by
  have hdead : s.alive = false → s.refs = 0 := by
    intro e
    have := h.alive
    rw [e] at this
    simp at this
    omega
  cases o with
  | copy =>
    simp only [Release.step] at hs
    split at hs <;> cases hs
    rename_i hu
    refine ⟨⟨fun _ => by simp [State.refs]; omega, fun _ => h.alive.2 (by simp [State.refs]; omega)⟩, h.once, h.running, h.rest,
      fun i hi => ?_⟩
    obtain ⟨a, b, c⟩ := h.behind i hi
    exact ⟨a, by simp, c⟩
  | release =>
    simp only [Release.step] at hs
    split at hs <;> cases hs
    rename_i hu
    refine settle_inv (fun e => ?_) h.once h.running h.rest fun i hi => ?_
    · have := hdead e
      simp only [State.refs] at this ⊢
      omega
    · obtain ⟨a, b, c⟩ := h.behind i hi
      have hi' : s.stopping = some i := hi
      refine ⟨a, ?_, c⟩
      rcases hu.2 with e | e
      · rw [e] at hi'; cases hi'
      · show 0 < s.user - 1
        omega
  | lock =>
    simp only [Release.step] at hs
    split at hs <;> cases hs
    rename_i hu
    exact ⟨⟨fun _ => by simp [State.refs]; omega, fun _ => h.alive.2 hu⟩, h.once, h.running, h.rest, h.behind⟩
  | unlock =>
    simp only [Release.step] at hs
    split at hs <;> cases hs
    refine settle_inv (fun e => ?_) h.once h.running h.rest h.behind
    have := hdead e
    simp only [State.refs] at this ⊢
    omega
  | start =>
    simp only [Release.step] at hs
    split at hs <;> cases hs
    rename_i hu
    split
    · exact h
    · rename_i hk
      have hk : s.keep = false := by simpa using hk
      have hall := h.rest hk hu.2
      refine ⟨⟨fun _ => by simp [State.refs]; omega, fun _ => h.alive.2 (by simp [State.refs]; omega)⟩, h.once, fun _ => ⟨?_, hu.2⟩,
        fun e => by simp at e, fun i hi => ?_⟩
      · show (s.futures ++ List.replicate (n + 1) Thread.running).count Thread.running = n + 1
        have : s.futures.count Thread.running = 0 := List.count_eq_zero.2 fun hm => by have := hall _ hm; cases this
        rw [List.count_append, this]
        simp
      · have : s.stopping = some i := hi
        rw [hu.2] at this
        cases this
  | stop =>
    simp only [Release.step] at hs
    split at hs <;> cases hs
    rename_i hu
    split
    · refine ⟨h.alive, h.once, fun e => by simp at e, fun _ e => by simp at e, fun i hi => ?_⟩
      simp at hi
      subst hi
      exact ⟨rfl, hu.1, fun j f hj => absurd hj (by omega)⟩
    · exact h
  | exit i =>
    simp only [Release.step] at hs
    split at hs <;> cases hs
    rename_i hu
    have hr := refs_set_exited hu.2
    refine ⟨?_, h.once, fun e => ?_, fun _ hn f hf => ?_, fun k hk => ?_⟩
    · have := h.alive
      simp only [State.refs] at this ⊢
      rw [hr]
      exact this
    · have e : s.keep = true := e
      rw [hu.1] at e
      cases e
    · have := h.rest hu.1 hn _ (List.mem_of_getElem? hu.2)
      cases this
    · obtain ⟨a, b, c⟩ := h.behind k hk
      refine ⟨a, b, fun j f hj hf => ?_⟩
      have hne : i ≠ j := by
        rintro rfl
        have := c i _ hj hu.2
        cases this
      have hf : (s.futures.set i .exited)[j]? = some f := hf
      rw [List.getElem?_set_ne hne] at hf
      exact c j f hj hf
  | join =>
    simp only [Release.step] at hs
    split at hs
    · cases hs
    · rename_i i hi
      obtain ⟨a, b, c⟩ := h.behind i hi
      split at hs
      · rename_i hn
        cases hs
        refine ⟨h.alive, h.once, fun e => ?_, fun _ _ f hf => ?_, fun k hk => by simp at hk⟩
        · have e : s.keep = true := e
          rw [a] at e
          cases e
        · obtain ⟨j, hj⟩ := List.getElem?_of_mem hf
          refine c j f ?_ hj
          have := List.getElem?_eq_none_iff.1 hn
          obtain ⟨hl, _⟩ := List.getElem?_eq_some_iff.1 hj
          have hl : j < s.futures.length := hl
          omega
      · cases hs
      · rename_i he
        cases hs
        refine settle_inv (fun e => ?_) h.once (fun e => ?_) (fun _ e => by simp at e) fun k hk => ?_
        · have := hdead e
          simp only [State.refs] at this
          omega
        · have e : s.keep = true := e
          rw [a] at e
          cases e
        · simp at hk
          subst hk
          refine ⟨a, b, fun j f hj hf => ?_⟩
          have hf : (s.futures.set i .joined)[j]? = some f := hf
          by_cases hij : i = j
          · subst hij
            rw [List.getElem?_set_self (List.getElem?_eq_some_iff.1 he).1] at hf
            cases hf
            rfl
          · rw [List.getElem?_set_ne hij] at hf
            exact c j f (by omega) hf
      · rename_i he
        cases hs
        refine ⟨h.alive, h.once, fun e => ?_, fun _ e => by simp at e, fun k hk => ?_⟩
        · have e : s.keep = true := e
          rw [a] at e
          cases e
        · simp at hk
          subst hk
          refine ⟨a, b, fun j f hj hf => ?_⟩
          by_cases hij : j = i
          · subst hij
            have hf : s.futures[j]? = some f := hf
            rw [he] at hf
            cases hf
            rfl
          · exact c j f (by omega) hf

theorem inv_run {n : Nat} {ops : List Op} : ∀ {s s' : State}, Inv n s → run n s ops = some s' → Inv n s' := by
  induction ops with
  | nil => intro s s' h hr; cases hr; exact h
  | cons o r ih =>
    intro s s' h hr
    obtain ⟨t, h1, h2⟩ := Option.bind_eq_some_iff.1 hr
    exact ih (h.step h1) h2

/-! ## C167 -/

/-- C167, safety, for every history: the manager is destroyed at most once, and when it is, nobody refers to it any more: the
program and the runners have let go, the flag is off, and every thread it ever had has returned and been waited for; so its
destructor waits for nothing, and no thread can touch it afterwards. -/
theorem destroyed_only_unused (n : Nat) (ops : List Op) (s : State) (hr : run n (created n) ops = some s) :
    s.destroyed ≤ 1 ∧ (s.destroyed = 1 → s.user = 0 ∧ s.posting = 0 ∧ s.keep = false ∧ ∀ f ∈ s.futures, f = .joined) := by
  have h := inv_run (inv_created n) hr
  refine ⟨by rw [h.once]; cases s.alive <;> simp, fun hd => ?_⟩
  have ha : s.alive = false := by
    have := h.once
    rw [hd] at this
    cases e : s.alive with
    | false => rfl
    | true => rw [e] at this; cases this
  have h0 : s.refs = 0 := by
    have := h.alive
    rw [ha] at this
    simp at this
    omega
  simp only [State.refs] at h0
  have hj : ∀ f ∈ s.futures, f = .joined := by
    intro f hf
    have hz : (s.futures.filter (· ≠ .joined)) = [] := List.length_eq_zero_iff.1 (by omega)
    have := List.filter_eq_nil_iff.1 hz f hf
    simpa using this
  refine ⟨by omega, by omega, ?_, hj⟩
  cases hk : s.keep with
  | false => rfl
  | true =>
    exfalso
    have hc := (h.running hk).1
    have : Thread.running ∈ s.futures := List.count_pos_iff.1 (by omega)
    have := hj _ this
    cases this

/-- C167 (missing: managers that were not stopped, see `release_without_stop_violated`). Once `stop` has returned (and `start` was
not called again) the manager is destroyed as soon as the program and the runners hold no reference to it. -/
theorem release_after_stop_partial (n : Nat) (ops : List Op) (s : State) (hr : run n (created n) ops = some s)
    (hk : s.keep = false) (hs : s.stopping = none) (hu : s.user = 0) (hp : s.posting = 0) : s.destroyed = 1 := by
  have h := inv_run (inv_created n) hr
  have hz : (s.futures.filter (· ≠ .joined)) = [] := by
    refine List.filter_eq_nil_iff.2 fun f hf => ?_
    simp [h.rest hk hs f hf]
  have h0 : s.refs = 0 := by simp only [State.refs, hz, hu, hp, List.length_nil]
  rw [h.once]
  cases ha : s.alive with
  | false => rfl
  | true =>
    have := h.alive.1 ha
    omega

/-- Created, stopped and restarted, stopped and released. -/
example : ∃ s, run 0 (created 0) [.copy, .stop, .exit 0, .join, .join, .start, .release, .stop, .exit 1, .lock, .join, .join, .join,
    .release, .unlock] = some s ∧ s.keep = false ∧ s.stopping = none ∧ s.user = 0 ∧ s.posting = 0 ∧ s.destroyed = 1 ∧
    s.futures = [.joined, .joined] := ⟨_, rfl, rfl, rfl, rfl, rfl, rfl, rfl⟩

/-- C167 fails for a manager that was not stopped: its threads have references to it, so when the program has released its last one the manager
is never destroyed, and all its threads run for ever, whatever happens: nobody can call `stop` any more. -/
theorem release_without_stop_violated (n : Nat) (ops later : List Op) (s s' : State) (hr : run n (created n) ops = some s)
    (hk : s.keep = true) (hu : s.user = 0) (hl : run n s later = some s') :
    s'.destroyed = 0 ∧ s'.keep = true ∧ s'.user = 0 ∧ s'.futures.count .running = n + 1 := by
  have h := inv_run (inv_created n) hr
  have key : ∀ (later : List Op) (s : State), Inv n s → s.keep = true → s.user = 0 → run n s later = some s' →
      s'.keep = true ∧ s'.user = 0 := by
    intro later
    induction later with
    | nil => intro s _ hk hu hl; cases hl; exact ⟨hk, hu⟩
    | cons o r ih =>
      intro s hi hk hu hl
      obtain ⟨t, h1, h2⟩ := Option.bind_eq_some_iff.1 hl
      have hst := (hi.running hk).2
      have : t.keep = true ∧ t.user = 0 := by
        cases o <;> simp [Release.step, hk, hu, hst] at h1
        · obtain ⟨_, rfl⟩ := h1; exact ⟨rfl, rfl⟩
        · obtain ⟨_, rfl⟩ := h1
          unfold State.settle
          split <;> exact ⟨rfl, rfl⟩
      exact ih t (hi.step h1) this.1 this.2 h2
  obtain ⟨k1, k2⟩ := key later s h hk hu hl
  have h' := inv_run h hl
  have hc := (h'.running k1).1
  refine ⟨?_, k1, k2, hc⟩
  have hm : Thread.running ∈ s'.futures := List.count_pos_iff.1 (by omega)
  have hp : 0 < (s'.futures.filter (· ≠ .joined)).length :=
    List.length_pos_of_mem (List.mem_filter.2 ⟨hm, by decide⟩)
  have ha := h'.alive.2 (by simp only [State.refs]; omega)
  rw [h'.once, ha]
  rfl

/-- The shortest such program: create and release; and what can happen then. -/
example : ∃ s t, run 4 (created 4) [.release] = some s ∧ s.keep = true ∧ s.user = 0 ∧ run 4 s [.lock, .unlock] = some t ∧
    t.alive = true ∧ run 4 t [.stop] = none ∧ run 4 t [.exit 0] = none := ⟨_, _, rfl, rfl, rfl, rfl, rfl, rfl, rfl⟩

end Verif.Task.Release
