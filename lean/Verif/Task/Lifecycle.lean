/-!
# C141: starting and stopping a task manager from any thread

Source: `TaskManager::start` and `TaskManager::stop` (`/repo/fly/task/task_manager.cpp` 41-87), with the loops of the
threads (117-171) as far as they end. Other threads and tasks of the manager may call either method at any time. A step is
one access to the atomic flag, one access to the vector of futures, or one event of a thread of the manager.
-/

namespace Verif.Task.Lifecycle

/-! ## Model -/

/-- A call of `start` or `stop` that has changed the flag and has not returned. -/
inductive Call where
  /-- in `start` (task_manager.cpp 49-56), with so many threads left to be created -/
  | starting (left : Nat)
  /-- in `stop` (task_manager.cpp 74-80), at this future -/
  | stopping (i : Nat)
deriving DecidableEq, Repr

/-- A thread of the manager: in its loop, in a task (which may be in a call), or ended (task_manager.cpp 117-171). -/
inductive Phase where
  | looping
  | inTask (call : Option Call)
  | ended
deriving DecidableEq, Repr

/-- `timer` says whether it is the timer thread, which does not run tasks. -/
structure Thread where
  timer : Bool
  phase : Phase
deriving DecidableEq, Repr

/-- `m_keep_running`, `m_futures` (whether each of them is valid; the `i`-th belongs to the `i`-th thread ever created),
the threads, and the other threads of the program, each of them perhaps in a call. -/
structure State where
  keep : Bool
  futures : List Bool
  threads : List Thread
  others : List (Option Call)
deriving DecidableEq, Repr

/-- Who calls: another thread, or the task running on a thread of the manager. -/
inductive Who where
  | other (j : Nat)
  | task (w : Nat)
deriving DecidableEq, Repr

/-- The call a caller is in; `none` if there is no such caller. -/
def getCall (s : State) : Who → Option (Option Call)
  | .other j => s.others[j]?
  | .task w =>
    match s.threads[w]? with
    | some ⟨_, .inTask c⟩ => some c
    | _ => none

/-- Change of the call a caller is in. -/
def setCall (s : State) (c : Option Call) : Who → State
  | .other j => { s with others := s.others.set j c }
  | .task w => { s with threads := s.threads.set w ⟨false, .inTask c⟩ }

inductive Op where
  | callStart (who : Who)
  | callStop (who : Who)
  /-- the call goes on -/
  | go (who : Who)
  /-- a worker begins a task -/
  | begin (w : Nat)
  /-- a task returns -/
  | finish (w : Nat)
  /-- a thread finds the flag cleared and ends -/
  | exit (w : Nat)
deriving DecidableEq, Repr

/-- One step; `none` if it is not possible. A manager of `n` workers. -/
def step (n : Nat) (s : State) : Op → Option State
  -- task_manager.cpp 43-45: the exchange; if it fails the call returns false at once
  | .callStart who =>
    if getCall s who = some none then
      if s.keep then some s else some (setCall { s with keep := true } (some (.starting (n + 1))) who)
    else none
  -- task_manager.cpp 70-72
  | .callStop who =>
    if getCall s who = some none then
      if s.keep then some (setCall { s with keep := false } (some (.stopping 0)) who) else some s
    else none
  | .go who =>
    match getCall s who with
    | some (some (.starting 0)) => some (setCall s none who)
    -- task_manager.cpp 49-56: workers first, the timer last
    | some (some (.starting (k + 1))) =>
      some (setCall { s with futures := s.futures ++ [true], threads := s.threads ++ [⟨k == 0, .looping⟩] }
        (some (.starting k)) who)
    -- task_manager.cpp 74-80: `get` waits for the thread and makes the future invalid
    | some (some (.stopping i)) =>
      match s.futures[i]? with
      | none => some (setCall s none who)
      | some false => some (setCall s (some (.stopping (i + 1))) who)
      | some true =>
        if (s.threads[i]?).map (·.phase) = some .ended then
          some (setCall { s with futures := s.futures.set i false } (some (.stopping (i + 1))) who)
        else none
    | _ => none
  | .begin w =>
    if s.threads[w]? = some ⟨false, .looping⟩ then some { s with threads := s.threads.set w ⟨false, .inTask none⟩ } else none
  | .finish w =>
    if s.threads[w]? = some ⟨false, .inTask none⟩ then some { s with threads := s.threads.set w ⟨false, .looping⟩ } else none
  | .exit w =>
    match s.threads[w]? with
    | some ⟨t, .looping⟩ => if s.keep then none else some { s with threads := s.threads.set w ⟨t, .ended⟩ }
    | _ => none

/-- The manager as it is created, in a program with `m` other threads (task_manager.cpp 33-37). -/
def initial (m : Nat) : State := ⟨false, [], [], List.replicate m none⟩

/-- A run. -/
def run (n : Nat) (s : State) : List Op → Option State
  | [] => some s
  | o :: r => (step n s o).bind fun s' => run n s' r

/-! ## Specification -/

/-- Somebody is in a call. -/
def InCall (s : State) (who : Who) (c : Call) : Prop := getCall s who = some (some c)

/-- Nobody is in a call. -/
def Quiet (s : State) : Prop := ∀ who c, ¬ InCall s who c

/-- Undefined behaviour: the vector of futures is about to be changed by a call while another call is using it. -/
def Race (s : State) : Prop :=
  ∃ who who' k c, who ≠ who' ∧ InCall s who (.starting (k + 1)) ∧ InCall s who' c ∧ c ≠ .starting 0

/-- All threads of the manager have ended. -/
def AllEnded (s : State) : Prop := ∀ t ∈ s.threads, t.phase = .ended

/-- The use the manager is made for: a call begins only when no other one is in progress, and tasks do not call `stop`. -/
def Orderly (s : State) : Op → Prop
  | .callStart _ => Quiet s
  | .callStop who => Quiet s ∧ ∃ j, who = .other j
  | _ => True

/-- The states an orderly program can reach. -/
inductive Reachable (n m : Nat) : State → Prop
  | initial : Reachable n m (initial m)
  | step {s s' o} : Reachable n m s → Orderly s o → step n s o = some s' → Reachable n m s'

/-! ## Proofs -/

theorem task_thread {s : State} {w : Nat} {c : Option Call} (h : getCall s (.task w) = some c) :
    ∃ t, s.threads[w]? = some ⟨t, .inTask c⟩ := by
  have h : (match s.threads[w]? with | some ⟨_, .inTask c⟩ => some c | _ => none) = some c := h
  split at h
  · rename_i t c' h0
    cases h
    exact ⟨t, h0⟩
  · cases h

theorem thread_task {s : State} {w : Nat} {t : Bool} {c : Option Call} (h : s.threads[w]? = some ⟨t, .inTask c⟩) :
    getCall s (.task w) = some c := by
  show (match s.threads[w]? with | some ⟨_, .inTask c⟩ => some c | _ => none) = some c
  rw [h]

theorem getCall_setCall {s : State} {who : Who} {c0 : Option Call} (h : getCall s who = some c0) (c : Option Call) (who' : Who) :
    getCall (setCall s c who) who' = if who' = who then some c else getCall s who' := by
  cases who with
  | other j =>
    have hj : s.others[j]? = some c0 := h
    have hj' : j < s.others.length := (List.getElem?_eq_some_iff.1 hj).1
    cases who' with
    | other k =>
      show (s.others.set j c)[k]? = _
      rw [List.getElem?_set]
      by_cases e : j = k
      · subst e
        rw [if_pos rfl, if_pos hj', if_pos rfl]
      · rw [if_neg e, if_neg (fun h => e (by injection h with h; exact h.symm))]
        rfl
    | task w =>
      rw [if_neg (fun h => nomatch h)]
      rfl
  | task w =>
    cases who' with
    | other k =>
      rw [if_neg (fun h => nomatch h)]
      rfl
    | task v =>
      obtain ⟨t, ht⟩ := task_thread h
      have hw : w < s.threads.length := (List.getElem?_eq_some_iff.1 ht).1
      show (match (s.threads.set w ⟨false, .inTask c⟩)[v]? with | some ⟨_, .inTask c⟩ => some c | _ => none) = _
      rw [List.getElem?_set]
      by_cases e : w = v
      · subst e
        rw [if_pos rfl, if_pos hw, if_pos rfl]
      · rw [if_neg e, if_neg (fun h => e (by injection h with h; exact h.symm))]
        rfl

/-- Calls after a caller's call was changed. -/
theorem inCall_setCall {s : State} {who : Who} {c0 : Option Call} (h : getCall s who = some c0) (c : Option Call) (who' : Who) (d : Call) :
    InCall (setCall s c who) who' d ↔ (who' = who ∧ c = some d) ∨ (who' ≠ who ∧ InCall s who' d) := by
  unfold InCall
  rw [getCall_setCall h]
  by_cases e : who' = who
  · rw [if_pos e]
    simp [e]
  · rw [if_neg e]
    simp [e]

/-- A phase without a call. -/
def NoCall : Phase → Prop
  | .inTask (some _) => False
  | _ => True

theorem inCall_thread {s : State} {w : Nat} {a b : Thread} (h : s.threads[w]? = some a) (ha : NoCall a.phase) (hb : NoCall b.phase)
    (who : Who) (c : Call) : InCall { s with threads := s.threads.set w b } who c ↔ InCall s who c := by
  cases who with
  | other j => exact Iff.rfl
  | task v =>
    have hw : w < s.threads.length := (List.getElem?_eq_some_iff.1 h).1
    constructor
    · intro hc
      obtain ⟨t, ht⟩ := task_thread hc
      have ht : (s.threads.set w b)[v]? = _ := ht
      rw [List.getElem?_set] at ht
      by_cases e : w = v
      · rw [if_pos e, if_pos hw] at ht
        cases ht
        exact absurd hb id
      · rw [if_neg e] at ht
        exact thread_task ht
    · intro hc
      obtain ⟨t, ht⟩ := task_thread hc
      by_cases e : w = v
      · subst e
        rw [h] at ht
        cases ht
        exact absurd ha id
      · refine thread_task (t := t) ?_
        show (s.threads.set w b)[v]? = _
        rw [List.getElem?_set, if_neg e]
        exact ht

theorem inCall_append {s : State} {f : List Bool} {t : Bool} (who : Who) (c : Call) :
    InCall { s with futures := f, threads := s.threads ++ [⟨t, .looping⟩] } who c ↔ InCall s who c := by
  cases who with
  | other j => exact Iff.rfl
  | task v =>
    constructor
    · intro hc
      obtain ⟨t', ht⟩ := task_thread hc
      have ht : (s.threads ++ [⟨t, .looping⟩])[v]? = _ := ht
      rw [List.getElem?_append] at ht
      split at ht
      · exact thread_task ht
      · rename_i hv
        rcases hd : v - s.threads.length with _ | k
        · rw [hd] at ht
          cases ht
        · rw [hd] at ht
          cases ht
    · intro hc
      obtain ⟨t', ht⟩ := task_thread hc
      refine thread_task (t := t') ?_
      show (s.threads ++ [⟨t, .looping⟩])[v]? = _
      rw [List.getElem?_append_left (List.getElem?_eq_some_iff.1 ht).1]
      exact ht

theorem getCall_append {s : State} {f : List Bool} {t : Bool} {who : Who} {c : Option Call} (h : getCall s who = some c) :
    getCall { s with futures := f, threads := s.threads ++ [⟨t, .looping⟩] } who = some c := by
  cases who with
  | other j => exact h
  | task v =>
    obtain ⟨t', ht⟩ := task_thread h
    refine thread_task (t := t') ?_
    show (s.threads ++ [⟨t, .looping⟩])[v]? = _
    rw [List.getElem?_append_left (List.getElem?_eq_some_iff.1 ht).1]
    exact ht

/-- Threads and futures after a caller's call was changed: nothing ended or was joined. -/
theorem setCall_fields (s : State) (c : Option Call) (who : Who) :
    (setCall s c who).keep = s.keep ∧ (setCall s c who).futures = s.futures ∧
    (setCall s c who).threads.length = s.threads.length := by
  cases who with
  | other j => exact ⟨rfl, rfl, rfl⟩
  | task w => exact ⟨rfl, rfl, List.length_set ..⟩

theorem setCall_ended {s : State} {c0 c : Option Call} {who : Who} (h : getCall s who = some c0) (i : Nat) :
    ((setCall s c who).threads[i]?).map Thread.phase = some .ended ↔ (s.threads[i]?).map Thread.phase = some .ended := by
  cases who with
  | other j => exact Iff.rfl
  | task w =>
    obtain ⟨t, ht⟩ := task_thread h
    have hw : w < s.threads.length := (List.getElem?_eq_some_iff.1 ht).1
    show ((s.threads.set w ⟨false, .inTask c⟩)[i]?).map Thread.phase = _ ↔ _
    rw [List.getElem?_set]
    by_cases e : w = i
    · subst e
      rw [if_pos rfl, if_pos hw, ht]
      exact ⟨fun h => (nomatch h), fun h => (nomatch h)⟩
    · rw [if_neg e]

/-- The invariant of orderly programs. -/
structure Inv (s : State) : Prop where
  same : s.futures.length = s.threads.length
  joined : ∀ i : Nat, s.futures[i]? = some false → (s.threads[i]?).map Thread.phase = some .ended
  one : ∀ who who' c c', InCall s who c → InCall s who' c' → who = who'
  outside : ∀ w i, ¬ InCall s (.task w) (.stopping i)
  start : ∀ who k, InCall s who (.starting k) → s.keep = true
  stop : ∀ who i, InCall s who (.stopping i) → s.keep = false ∧ ∀ j : Nat, j < i → j < s.futures.length → s.futures[j]? = some false
  rest : Quiet s → s.keep = false → ∀ i : Nat, i < s.futures.length → s.futures[i]? = some false

theorem inv_initial (m : Nat) : Inv (initial m) := by
  have q : Quiet (initial m) := by
    intro who c h
    cases who with
    | other j =>
      have h : (List.replicate m (none : Option Call))[j]? = some (some c) := h
      rw [List.getElem?_replicate] at h
      split at h <;> cases h
    | task w =>
      obtain ⟨t, ht⟩ := task_thread h
      cases ht
  exact ⟨rfl, fun i h => (nomatch h), fun who _ c _ h _ => absurd h (q who c), fun w i => q _ _,
    fun who k h => absurd h (q _ _), fun who i h => absurd h (q _ _), fun _ _ i h => absurd h (Nat.not_lt_zero i)⟩

theorem Inv.step {n : Nat} {s s' : State} {o : Op} (h : Inv s) (ho : Orderly s o) (hs : step n s o = some s') : Inv s' := by
  obtain ⟨same, joined, one, outside, start, stop, rest⟩ := h
  cases o with
  | callStart who =>
    simp only [Lifecycle.step] at hs
    split at hs
    · rename_i hg
      split at hs
      · cases hs
        exact ⟨same, joined, one, outside, start, stop, rest⟩
      · rename_i hk
        injection hs with hs
        subst hs
        have hg' : getCall { s with keep := true } who = some none := by cases who <;> exact hg
        have hi : ∀ w d, InCall (setCall { s with keep := true } (some (.starting (n + 1))) who) w d ↔
            w = who ∧ d = .starting (n + 1) := by
          intro w d
          rw [inCall_setCall hg']
          constructor
          · rintro (⟨e, e'⟩ | ⟨_, h⟩)
            · injection e' with e'
              exact ⟨e, e'.symm⟩
            · have h : InCall s w d := by cases w <;> exact h
              exact absurd h (ho w d)
          · rintro ⟨e, e'⟩
            exact .inl ⟨e, by rw [e']⟩
        have hf := setCall_fields { s with keep := true } (some (.starting (n + 1))) who
        refine ⟨?_, ?_, ?_, ?_, ?_, ?_, ?_⟩
        · rw [hf.2.1, hf.2.2]
          exact same
        · intro i hi'
          rw [setCall_ended hg']
          rw [hf.2.1] at hi'
          exact joined i hi'
        · intro w w' c c' h1 h2
          rw [hi] at h1 h2
          rw [h1.1, h2.1]
        · intro w i h1
          rw [hi] at h1
          cases h1.2
        · intro w k _
          exact hf.1
        · intro w i h1
          rw [hi] at h1
          cases h1.2
        · intro q
          exact absurd ((hi who _).2 ⟨rfl, rfl⟩) (q _ _)
    · cases hs
  | callStop who =>
    obtain ⟨ho, j, rfl⟩ := ho
    simp only [Lifecycle.step] at hs
    split at hs
    · rename_i hg
      split at hs
      · rename_i hk
        injection hs with hs
        subst hs
        have hg' : getCall { s with keep := false } (.other j) = some none := hg
        have hi : ∀ w d, InCall (setCall { s with keep := false } (some (.stopping 0)) (.other j)) w d ↔
            w = .other j ∧ d = .stopping 0 := by
          intro w d
          rw [inCall_setCall hg']
          constructor
          · rintro (⟨e, e'⟩ | ⟨_, h⟩)
            · injection e' with e'
              exact ⟨e, e'.symm⟩
            · have h : InCall s w d := by cases w <;> exact h
              exact absurd h (ho w d)
          · rintro ⟨e, e'⟩
            exact .inl ⟨e, by rw [e']⟩
        have hf := setCall_fields { s with keep := false } (some (.stopping 0)) (.other j)
        refine ⟨?_, ?_, ?_, ?_, ?_, ?_, ?_⟩
        · exact same
        · intro i hi'
          exact joined i hi'
        · intro w w' c c' h1 h2
          rw [hi] at h1 h2
          rw [h1.1, h2.1]
        · intro w i h1
          rw [hi] at h1
          cases h1.1
        · intro w k h1
          rw [hi] at h1
          cases h1.2
        · intro w i h1
          rw [hi] at h1
          cases h1.2
          exact ⟨rfl, fun j hj => absurd hj (Nat.not_lt_zero j)⟩
        · intro q
          exact absurd ((hi _ _).2 ⟨rfl, rfl⟩) (q _ _)
      · cases hs
        exact ⟨same, joined, one, outside, start, stop, rest⟩
    · cases hs
  | go who =>
    simp only [Lifecycle.step] at hs
    split at hs
    · rename_i hg
      injection hs with hs
      subst hs
      have hi : ∀ w d, ¬ InCall (setCall s none who) w d := by
        intro w d h1
        rw [inCall_setCall hg] at h1
        rcases h1 with ⟨_, e⟩ | ⟨e, h1⟩
        · cases e
        · exact e (one _ _ _ _ h1 hg)
      have hf := setCall_fields s none who
      refine ⟨?_, ?_, ?_, ?_, ?_, ?_, ?_⟩
      · rw [hf.2.1, hf.2.2]
        exact same
      · intro i hi'
        rw [setCall_ended hg]
        rw [hf.2.1] at hi'
        exact joined i hi'
      · intro w w' c c' h1
        exact absurd h1 (hi _ _)
      · intro w i
        exact hi _ _
      · intro w k h1
        exact absurd h1 (hi _ _)
      · intro w i h1
        exact absurd h1 (hi _ _)
      · intro _ hk
        rw [hf.1, start who _ hg] at hk
        cases hk
    · rename_i k hg
      injection hs with hs
      subst hs
      have hg' := getCall_append (f := s.futures ++ [true]) (t := k == 0) hg
      have hi : ∀ w d, InCall (setCall { s with futures := s.futures ++ [true], threads := s.threads ++ [⟨k == 0, .looping⟩] }
          (some (.starting k)) who) w d ↔ w = who ∧ d = .starting k := by
        intro w d
        rw [inCall_setCall hg']
        constructor
        · rintro (⟨e, e'⟩ | ⟨e, h⟩)
          · injection e' with e'
            exact ⟨e, e'.symm⟩
          · rw [inCall_append] at h
            exact absurd (one _ _ _ _ h hg) e
        · rintro ⟨e, e'⟩
          exact .inl ⟨e, by rw [e']⟩
      have hf := setCall_fields { s with futures := s.futures ++ [true], threads := s.threads ++ [⟨k == 0, .looping⟩] }
        (some (.starting k)) who
      refine ⟨?_, ?_, ?_, ?_, ?_, ?_, ?_⟩
      · rw [hf.2.1, hf.2.2]
        simp [same]
      · intro i hi'
        rw [hf.2.1] at hi'
        rw [setCall_ended hg']
        have hi' : (s.futures ++ [true])[i]? = some false := hi'
        rw [List.getElem?_append] at hi'
        split at hi'
        · rename_i hl
          show ((s.threads ++ [_])[i]?).map Thread.phase = _
          rw [List.getElem?_append_left (same ▸ hl)]
          exact joined i hi'
        · rcases hd : i - s.futures.length with _ | k' <;> (rw [hd] at hi'; cases hi')
      · intro w w' c c' h1 h2
        rw [hi] at h1 h2
        rw [h1.1, h2.1]
      · intro w i h1
        rw [hi] at h1
        cases h1.2
      · intro w k' _
        rw [hf.1]
        exact start who _ hg
      · intro w i h1
        rw [hi] at h1
        cases h1.2
      · intro q
        exact absurd ((hi who _).2 ⟨rfl, rfl⟩) (q _ _)
    · rename_i i hg
      have hstop := stop who i hg
      have hother : ∃ j, who = .other j := by
        cases who with
        | other j => exact ⟨j, rfl⟩
        | task w => exact absurd hg (outside w i)
      obtain ⟨j, rfl⟩ := hother
      split at hs
      · rename_i hlen
        injection hs with hs
        subst hs
        have hl : s.futures.length ≤ i := by simpa using hlen
        have hi : ∀ w d, ¬ InCall (setCall s none (.other j)) w d := by
          intro w d h1
          rw [inCall_setCall hg] at h1
          rcases h1 with ⟨_, e⟩ | ⟨e, h1⟩
          · cases e
          · exact e (one _ _ _ _ h1 hg)
        refine ⟨same, joined, ?_, ?_, ?_, ?_, ?_⟩
        · intro w w' c c' h1
          exact absurd h1 (hi _ _)
        · intro w i
          exact hi _ _
        · intro w k h1
          exact absurd h1 (hi _ _)
        · intro w i h1
          exact absurd h1 (hi _ _)
        · intro _ _ k hk
          exact hstop.2 k (Nat.lt_of_lt_of_le hk hl) hk
      · rename_i hf
        injection hs with hs
        subst hs
        have hi : ∀ w d, InCall (setCall s (some (.stopping (i + 1))) (.other j)) w d ↔ w = .other j ∧ d = .stopping (i + 1) := by
          intro w d
          rw [inCall_setCall hg]
          constructor
          · rintro (⟨e, e'⟩ | ⟨e, h⟩)
            · injection e' with e'
              exact ⟨e, e'.symm⟩
            · exact absurd (one _ _ _ _ h hg) e
          · rintro ⟨e, e'⟩
            exact .inl ⟨e, by rw [e']⟩
        refine ⟨same, joined, ?_, ?_, ?_, ?_, ?_⟩
        · intro w w' c c' h1 h2
          rw [hi] at h1 h2
          rw [h1.1, h2.1]
        · intro w i h1
          rw [hi] at h1
          cases h1.1
        · intro w k h1
          rw [hi] at h1
          cases h1.2
        · intro w i' h1
          rw [hi] at h1
          cases h1.2
          refine ⟨hstop.1, fun k hk hk' => ?_⟩
          by_cases e : k = i
          · subst e
            exact hf
          · exact hstop.2 k (by omega) hk'
        · intro q
          exact absurd ((hi _ _).2 ⟨rfl, rfl⟩) (q _ _)
      · rename_i hf
        split at hs
        · rename_i hend
          injection hs with hs
          subst hs
          have hg' : getCall { s with futures := s.futures.set i false } (.other j) = some (some (.stopping i)) := hg
          have hil : i < s.futures.length := (List.getElem?_eq_some_iff.1 hf).1
          have hi : ∀ w d, InCall (setCall { s with futures := s.futures.set i false } (some (.stopping (i + 1))) (.other j)) w d ↔
              w = .other j ∧ d = .stopping (i + 1) := by
            intro w d
            rw [inCall_setCall hg']
            constructor
            · rintro (⟨e, e'⟩ | ⟨e, h⟩)
              · injection e' with e'
                exact ⟨e, e'.symm⟩
              · have h : InCall s w d := by cases w <;> exact h
                exact absurd (one _ _ _ _ h hg) e
            · rintro ⟨e, e'⟩
              exact .inl ⟨e, by rw [e']⟩
          refine ⟨?_, ?_, ?_, ?_, ?_, ?_, ?_⟩
          · show (s.futures.set i false).length = _
            rw [List.length_set]
            exact same
          · intro k hk
            have hk : (s.futures.set i false)[k]? = some false := hk
            rw [List.getElem?_set] at hk
            by_cases e : i = k
            · subst e
              exact hend
            · rw [if_neg e] at hk
              exact joined k hk
          · intro w w' c c' h1 h2
            rw [hi] at h1 h2
            rw [h1.1, h2.1]
          · intro w i h1
            rw [hi] at h1
            cases h1.1
          · intro w k h1
            rw [hi] at h1
            cases h1.2
          · intro w i' h1
            rw [hi] at h1
            cases h1.2
            refine ⟨hstop.1, fun k hk hk' => ?_⟩
            show (s.futures.set i false)[k]? = _
            have hk' : k < (s.futures.set i false).length := hk'
            rw [List.length_set] at hk'
            rw [List.getElem?_set]
            by_cases e : i = k
            · rw [if_pos e, if_pos hil]
            · rw [if_neg e]
              exact hstop.2 k (by omega) hk'
          · intro q
            exact absurd ((hi _ _).2 ⟨rfl, rfl⟩) (q _ _)
        · cases hs
    · cases hs
  | begin w | finish w | exit w =>
    have key : ∀ {a b : Thread}, s.threads[w]? = some a → a.phase ≠ .ended → NoCall a.phase → NoCall b.phase →
        Inv { s with threads := s.threads.set w b } := by
      intro a b hw hne ha hb
      have hi := inCall_thread hw ha hb
      refine ⟨?_, ?_, ?_, ?_, ?_, ?_, ?_⟩
      · show _ = (s.threads.set w b).length
        rw [List.length_set]
        exact same
      · intro i hf
        have h1 := joined i hf
        show ((s.threads.set w b)[i]?).map Thread.phase = _
        rw [List.getElem?_set]
        by_cases e : w = i
        · subst e
          rw [hw] at h1
          injection h1 with h1
          exact absurd h1 hne
        · rw [if_neg e]
          exact h1
      · intro w w' c c' h1 h2
        exact one _ _ _ _ ((hi _ _).1 h1) ((hi _ _).1 h2)
      · intro w i h1
        exact outside w i ((hi _ _).1 h1)
      · intro w k h1
        exact start w k ((hi _ _).1 h1)
      · intro w i h1
        exact stop w i ((hi _ _).1 h1)
      · intro q
        exact rest fun w c h1 => q w c ((hi _ _).2 h1)
    simp only [Lifecycle.step] at hs
    split at hs
    all_goals first
      | (rename_i hw; injection hs with hs; subst hs; exact key hw (fun h => nomatch h) trivial trivial)
      | (rename_i t hw
         split at hs
         · cases hs
         · injection hs with hs
           subst hs
           exact key hw (fun h => nomatch h) trivial trivial)
      | cases hs

/-- Only workers run tasks. -/
def WorkersOnly (s : State) : Prop := ∀ t ∈ s.threads, ∀ c, t.phase = .inTask c → t.timer = false

theorem WorkersOnly.set {s : State} (h : WorkersOnly s) (w : Nat) (t : Thread) (ht : ∀ c, t.phase = .inTask c → t.timer = false)
    (f : List Bool) (k : Bool) (o : List (Option Call)) : WorkersOnly ⟨k, f, s.threads.set w t, o⟩ := by
  intro x hx c hc
  have hx : x ∈ s.threads.set w t := hx
  rcases List.mem_or_eq_of_mem_set hx with hx | rfl
  · exact h x hx c hc
  · exact ht c hc

theorem WorkersOnly.setCall {s : State} (h : WorkersOnly s) (c : Option Call) (who : Who) : WorkersOnly (setCall s c who) := by
  cases who with
  | other j => exact h
  | task w => exact h.set w ⟨false, .inTask c⟩ (fun _ _ => rfl) _ _ _

theorem WorkersOnly.step {n : Nat} {s s' : State} {o : Op} (h : WorkersOnly s) (hs : step n s o = some s') : WorkersOnly s' := by
  cases o with
  | callStart who =>
    have h' : WorkersOnly { s with keep := true } := h
    simp only [Lifecycle.step] at hs
    split at hs
    · split at hs
      · injection hs with hs
        subst hs
        exact h
      · injection hs with hs
        subst hs
        exact h'.setCall _ _
    · cases hs
  | callStop who =>
    have h' : WorkersOnly { s with keep := false } := h
    simp only [Lifecycle.step] at hs
    split at hs
    · split at hs
      · injection hs with hs
        subst hs
        exact h'.setCall _ _
      · injection hs with hs
        subst hs
        exact h
    · cases hs
  | go who =>
    simp only [Lifecycle.step] at hs
    split at hs
    · injection hs with hs
      subst hs
      exact h.setCall _ _
    · rename_i k _
      injection hs with hs
      subst hs
      refine WorkersOnly.setCall (s := { s with futures := s.futures ++ [true], threads := s.threads ++ [⟨k == 0, .looping⟩] }) ?_ _ _
      intro x hx c hc
      have hx : x ∈ s.threads ++ [⟨k == 0, .looping⟩] := hx
      rcases List.mem_append.1 hx with hx | hx
      · exact h x hx c hc
      · rcases List.mem_singleton.1 hx with rfl
        cases hc
    · rename_i i _
      split at hs
      · injection hs with hs
        subst hs
        exact h.setCall _ _
      · injection hs with hs
        subst hs
        exact h.setCall _ _
      · split at hs
        · injection hs with hs
          subst hs
          have h' : WorkersOnly { s with futures := s.futures.set i false } := h
          exact h'.setCall _ _
        · cases hs
    · cases hs
  | begin w | finish w =>
    simp only [Lifecycle.step] at hs
    split at hs
    · injection hs with hs
      subst hs
      exact h.set w _ (fun _ _ => rfl) _ _ _
    · cases hs
  | exit w =>
    simp only [Lifecycle.step] at hs
    split at hs
    · split at hs
      · cases hs
      · injection hs with hs
        subst hs
        exact h.set w _ (fun _ e => by cases e) _ _ _
    · cases hs

theorem reachable_workers {n m : Nat} {s : State} (h : Reachable n m s) : WorkersOnly s := by
  induction h with
  | initial => intro t ht; cases ht
  | step _ _ hs ih => exact ih.step hs

theorem reachable_inv {n m : Nat} {s : State} (h : Reachable n m s) : Inv s := by
  induction h with
  | initial => exact inv_initial m
  | step _ ho hs ih => exact ih.step ho hs

/-- C141: in a program whose calls do not overlap and whose tasks do not call `stop`, the vector of futures is never used
by two calls at once; a `stop` that returns has waited for every thread the manager ever created; and as long as `stop`
has not returned it can go on, or one of the threads can: it never hangs. This holds for any number of stops and
starts. -/
theorem lifecycle_partial (n m : Nat) (s : State) (h : Reachable n m s) :
    ¬ Race s ∧
    (∀ who i s', InCall s who (.stopping i) → step n s (.go who) = some s' → Quiet s' → AllEnded s') ∧
    (∀ who i, InCall s who (.stopping i) → ∃ o s', (o = .go who ∨ ∃ w, o = .exit w ∨ o = .finish w) ∧ step n s o = some s') := by
  have inv := reachable_inv h
  refine ⟨?_, ?_, ?_⟩
  · rintro ⟨w, w', k, c, hne, h1, h2, _⟩
    exact hne (inv.one _ _ _ _ h1 h2)
  · intro who i s' hc hs hq
    have inv' : Inv s' := inv.step (o := .go who) trivial hs
    have hk : s'.keep = false := by
      have hk := (inv.stop who i hc).1
      simp only [step] at hs
      rw [show getCall s who = some (some (.stopping i)) from hc] at hs
      simp only at hs
      split at hs
      · injection hs with hs
        subst hs
        rw [(setCall_fields _ _ _).1]
        exact hk
      · injection hs with hs
        subst hs
        rw [(setCall_fields _ _ _).1]
        exact hk
      · split at hs
        · injection hs with hs
          subst hs
          rw [(setCall_fields _ _ _).1]
          exact hk
        · cases hs
    intro t ht
    obtain ⟨k, hk1, hk2⟩ := List.getElem_of_mem ht
    have := inv'.joined k (inv'.rest hq hk k (by rw [inv'.same]; exact hk1))
    rw [List.getElem?_eq_getElem hk1, hk2] at this
    injection this
  · intro who i hc
    have hg : getCall s who = some (some (.stopping i)) := hc
    cases hf : s.futures[i]? with
    | none => exact ⟨.go who, setCall s none who, .inl rfl, by simp only [step, hg, hf]⟩
    | some b =>
      cases b with
      | false => exact ⟨.go who, setCall s (some (.stopping (i + 1))) who, .inl rfl, by simp only [step, hg, hf]⟩
      | true =>
        have hil : i < s.threads.length := inv.same ▸ (List.getElem?_eq_some_iff.1 hf).1
        have ht : s.threads[i]? = some s.threads[i] := List.getElem?_eq_getElem hil
        generalize s.threads[i] = t at ht
        obtain ⟨tm, p⟩ := t
        cases p with
        | ended =>
          refine ⟨.go who, setCall { s with futures := s.futures.set i false } (some (.stopping (i + 1))) who, .inl rfl, ?_⟩
          simp only [step, hg, hf, ht, Option.map_some, if_true]
        | looping =>
          refine ⟨.exit i, { s with threads := s.threads.set i ⟨tm, .ended⟩ }, .inr ⟨i, .inl rfl⟩, ?_⟩
          simp only [step, ht, (inv.stop who i hc).1, Bool.false_eq_true, if_false]
        | inTask c =>
          cases c with
          | none =>
            have htm : tm = false := reachable_workers h ⟨tm, .inTask none⟩ (List.mem_of_getElem? ht) none rfl
            subst htm
            exact ⟨.finish i, { s with threads := s.threads.set i ⟨false, .looping⟩ }, .inr ⟨i, .inr rfl⟩, by
              simp only [step, ht, if_true]⟩
          | some d =>
            exfalso
            have := inv.one _ _ _ _ (thread_task ht : InCall s (.task i) d) hc
            subst this
            exact inv.outside i _ hc

/-! ## What goes wrong otherwise -/

/-- What holds in every program: a future is only invalid if its thread has ended. -/
structure Joined (s : State) : Prop where
  same : s.futures.length = s.threads.length
  joined : ∀ i : Nat, s.futures[i]? = some false → (s.threads[i]?).map Thread.phase = some .ended

theorem Joined.setCall {s : State} (h : Joined s) {c0 : Option Call} {who : Who} (hg : getCall s who = some c0) (c : Option Call) :
    Joined (setCall s c who) := by
  have hf := setCall_fields s c who
  refine ⟨by rw [hf.2.1, hf.2.2]; exact h.same, fun i hi => ?_⟩
  rw [setCall_ended hg]
  rw [hf.2.1] at hi
  exact h.joined i hi

theorem Joined.thread {s : State} (h : Joined s) {w : Nat} {a b : Thread} (hw : s.threads[w]? = some a) (hne : a.phase ≠ .ended) :
    Joined { s with threads := s.threads.set w b } := by
  refine ⟨?_, fun i hf => ?_⟩
  · show _ = (s.threads.set w b).length
    rw [List.length_set]
    exact h.same
  · have h1 := h.joined i hf
    show ((s.threads.set w b)[i]?).map Thread.phase = _
    rw [List.getElem?_set]
    by_cases e : w = i
    · subst e
      rw [hw] at h1
      injection h1 with h1
      exact absurd h1 hne
    · rw [if_neg e]
      exact h1

theorem Joined.append {s : State} (h : Joined s) (t : Bool) :
    Joined { s with futures := s.futures ++ [true], threads := s.threads ++ [⟨t, .looping⟩] } := by
  refine ⟨by simp [h.same], fun i hi' => ?_⟩
  have hi' : (s.futures ++ [true])[i]? = some false := hi'
  rw [List.getElem?_append] at hi'
  split at hi'
  · rename_i hl
    show ((s.threads ++ [_])[i]?).map Thread.phase = _
    rw [List.getElem?_append_left (h.same ▸ hl)]
    exact h.joined i hi'
  · rcases hd : i - s.futures.length with _ | k' <;> (rw [hd] at hi'; cases hi')

theorem Joined.join {s : State} (h : Joined s) {i : Nat} (hend : (s.threads[i]?).map Thread.phase = some .ended) :
    Joined { s with futures := s.futures.set i false } := by
  refine ⟨?_, fun k hk => ?_⟩
  · show (s.futures.set i false).length = _
    rw [List.length_set]
    exact h.same
  · have hk : (s.futures.set i false)[k]? = some false := hk
    rw [List.getElem?_set] at hk
    by_cases e : i = k
    · subst e
      exact hend
    · rw [if_neg e] at hk
      exact h.joined k hk

theorem getCall_keep {s : State} {k : Bool} {f : List Bool} {who : Who} {c : Option Call} (h : getCall s who = some c) :
    getCall { s with keep := k, futures := f } who = some c := by cases who <;> exact h

theorem Joined.step {n : Nat} {s s' : State} {o : Op} (h : Joined s) (hs : step n s o = some s') : Joined s' := by
  cases o with
  | callStart who =>
    simp only [Lifecycle.step] at hs
    split at hs
    · rename_i hg
      split at hs
      · injection hs with hs
        subst hs
        exact h
      · injection hs with hs
        subst hs
        have h' : Joined { s with keep := true } := ⟨h.same, h.joined⟩
        exact h'.setCall (getCall_keep hg) _
    · cases hs
  | callStop who =>
    simp only [Lifecycle.step] at hs
    split at hs
    · rename_i hg
      split at hs
      · injection hs with hs
        subst hs
        have h' : Joined { s with keep := false } := ⟨h.same, h.joined⟩
        exact h'.setCall (getCall_keep hg) _
      · injection hs with hs
        subst hs
        exact h
    · cases hs
  | go who =>
    simp only [Lifecycle.step] at hs
    split at hs
    · rename_i hg
      injection hs with hs
      subst hs
      exact h.setCall hg _
    · rename_i k hg
      injection hs with hs
      subst hs
      exact (h.append (k == 0)).setCall (getCall_append hg) _
    · rename_i i hg
      split at hs
      · injection hs with hs
        subst hs
        exact h.setCall hg _
      · injection hs with hs
        subst hs
        exact h.setCall hg _
      · split at hs
        · rename_i hend
          injection hs with hs
          subst hs
          exact (h.join hend).setCall (getCall_keep hg) _
        · cases hs
    · cases hs
  | begin w | finish w =>
    simp only [Lifecycle.step] at hs
    split at hs
    · rename_i hw
      injection hs with hs
      subst hs
      exact h.thread hw (fun h => nomatch h)
    · cases hs
  | exit w =>
    simp only [Lifecycle.step] at hs
    split at hs
    · rename_i t hw
      split at hs
      · cases hs
      · injection hs with hs
        subst hs
        exact h.thread hw (fun h => nomatch h)
    · cases hs

theorem joined_run {n : Nat} {s s' : State} {ops : List Op} (h : Joined s) (hr : run n s ops = some s') : Joined s' := by
  induction ops generalizing s with
  | nil => cases hr; exact h
  | cons o r ih =>
    simp only [run] at hr
    cases hs : step n s o with
    | none => rw [hs] at hr; cases hr
    | some s1 =>
      rw [hs] at hr
      exact ih (h.step hs) hr

/-- A caller's step leaves another thread as it is. -/
theorem setCall_thread {s : State} {c : Option Call} {who : Who} {w : Nat} (hne : who ≠ .task w) :
    (setCall s c who).threads[w]? = s.threads[w]? := by
  cases who with
  | other j => rfl
  | task v =>
    show (s.threads.set v _)[w]? = _
    rw [List.getElem?_set, if_neg (fun e => hne (by rw [e]))]

/-- The task of thread `w` is in a `stop` that has not passed the future of its own thread. -/
def SelfWait (w : Nat) (s : State) : Prop :=
  s.futures[w]? = some true ∧ ∃ t i, i ≤ w ∧ s.threads[w]? = some ⟨t, .inTask (some (.stopping i))⟩

theorem SelfWait.setCall {w : Nat} {s : State} (h : SelfWait w s) {who : Who} (hne : who ≠ .task w) (c : Option Call) :
    SelfWait w (setCall s c who) := by
  obtain ⟨hf, t, i, hi, ht⟩ := h
  refine ⟨by rw [(setCall_fields s c who).2.1]; exact hf, t, i, hi, ?_⟩
  rw [setCall_thread hne]
  exact ht

theorem SelfWait.step {n w : Nat} {s s' : State} {o : Op} (h : SelfWait w s) (hs : step n s o = some s') : SelfWait w s' := by
  obtain ⟨hf, t, i, hi, ht⟩ := h
  have hg0 : getCall s (.task w) = some (some (.stopping i)) := thread_task ht
  have notw : ∀ {who : Who}, getCall s who = some none → who ≠ .task w := by
    intro who hg e
    subst e
    rw [hg0] at hg
    cases hg
  have notv : ∀ {v : Nat} {a : Thread}, s.threads[v]? = some a → NoCall a.phase → v ≠ w := by
    intro v a hv ha e
    subst e
    rw [ht] at hv
    cases hv
    exact ha
  have key : ∀ {v : Nat} {b : Thread}, v ≠ w → SelfWait w { s with threads := s.threads.set v b } := by
    intro v b e
    refine ⟨hf, t, i, hi, ?_⟩
    show (s.threads.set v b)[w]? = _
    rw [List.getElem?_set, if_neg e]
    exact ht
  have hwl : w < s.futures.length := (List.getElem?_eq_some_iff.1 hf).1
  have hwt : w < s.threads.length := (List.getElem?_eq_some_iff.1 ht).1
  cases o with
  | callStart who =>
    simp only [Lifecycle.step] at hs
    split at hs
    · rename_i hg
      split at hs
      · injection hs with hs
        subst hs
        exact ⟨hf, t, i, hi, ht⟩
      · injection hs with hs
        subst hs
        have h' : SelfWait w { s with keep := true } := ⟨hf, t, i, hi, ht⟩
        exact h'.setCall (notw hg) _
    · cases hs
  | callStop who =>
    simp only [Lifecycle.step] at hs
    split at hs
    · rename_i hg
      split at hs
      · injection hs with hs
        subst hs
        have h' : SelfWait w { s with keep := false } := ⟨hf, t, i, hi, ht⟩
        exact h'.setCall (notw hg) _
      · injection hs with hs
        subst hs
        exact ⟨hf, t, i, hi, ht⟩
    · cases hs
  | go who =>
    have hself : SelfWait w s := ⟨hf, t, i, hi, ht⟩
    simp only [Lifecycle.step] at hs
    split at hs
    · rename_i hg
      injection hs with hs
      subst hs
      refine hself.setCall (fun e => ?_) _
      subst e
      rw [hg0] at hg
      cases hg
    · rename_i k hg
      injection hs with hs
      subst hs
      have h' : SelfWait w { s with futures := s.futures ++ [true], threads := s.threads ++ [⟨k == 0, .looping⟩] } := by
        refine ⟨?_, t, i, hi, ?_⟩
        · show (s.futures ++ [true])[w]? = _
          rw [List.getElem?_append_left hwl]
          exact hf
        · show (s.threads ++ [_])[w]? = _
          rw [List.getElem?_append_left hwt]
          exact ht
      refine h'.setCall (fun e => ?_) _
      subst e
      rw [hg0] at hg
      cases hg
    · rename_i k hg
      by_cases e : who = .task w
      · subst e
        rw [hg0] at hg
        cases hg
        have after : ∀ f : List Bool, f[w]? = some true → i ≠ w →
            SelfWait w (Lifecycle.setCall { s with futures := f } (some (.stopping (i + 1))) (.task w)) := by
          intro f hfw e
          refine ⟨hfw, false, i + 1, by omega, ?_⟩
          show (s.threads.set w _)[w]? = _
          rw [List.getElem?_set, if_pos rfl, if_pos hwt]
        split at hs
        · rename_i hn
          have : s.futures.length ≤ i := by simpa using hn
          omega
        · rename_i hn
          injection hs with hs
          subst hs
          refine after s.futures hf (fun e => ?_)
          subst e
          rw [hf] at hn
          cases hn
        · split at hs
          · rename_i hend
            injection hs with hs
            subst hs
            have hne : i ≠ w := by
              intro e
              subst e
              rw [ht] at hend
              cases hend
            refine after _ ?_ hne
            rw [List.getElem?_set, if_neg hne]
            exact hf
          · cases hs
      · split at hs
        · injection hs with hs
          subst hs
          exact hself.setCall e _
        · injection hs with hs
          subst hs
          exact hself.setCall e _
        · split at hs
          · rename_i hend
            injection hs with hs
            subst hs
            have hne : k ≠ w := by
              intro e
              subst e
              rw [ht] at hend
              cases hend
            have h' : SelfWait w { s with futures := s.futures.set k false } := by
              refine ⟨?_, t, i, hi, ht⟩
              show (s.futures.set k false)[w]? = _
              rw [List.getElem?_set, if_neg hne]
              exact hf
            exact h'.setCall e _
          · cases hs
    · cases hs
  | begin v | finish v =>
    simp only [Lifecycle.step] at hs
    split at hs
    · rename_i hw
      injection hs with hs
      subst hs
      exact key (notv hw trivial)
    · cases hs
  | exit v =>
    simp only [Lifecycle.step] at hs
    split at hs
    · rename_i t' hw
      split at hs
      · cases hs
      · injection hs with hs
        subst hs
        exact key (notv hw trivial)
    · cases hs

theorem selfWait_run {n w : Nat} {s s' : State} {ops : List Op} (h : SelfWait w s) (hr : run n s ops = some s') : SelfWait w s' := by
  induction ops generalizing s with
  | nil => cases hr; exact h
  | cons o r ih =>
    simp only [run] at hr
    cases hs : step n s o with
    | none => rw [hs] at hr; cases hr
    | some s1 =>
      rw [hs] at hr
      exact ih (h.step hs) hr

/-- The threads a `start` makes when so many are left. -/
def made : Nat → List Thread
  | 0 => []
  | k + 1 => ⟨k == 0, .looping⟩ :: made k

theorem run_start (n k j : Nat) (f : List Bool) (t : List Thread) (os : List (Option Call))
    (h : os[j]? = some (some (.starting k))) :
    run n ⟨true, f, t, os⟩ (List.replicate (k + 1) (.go (.other j))) =
      some ⟨true, f ++ List.replicate k true, t ++ made k, os.set j none⟩ := by
  have hj : j < os.length := (List.getElem?_eq_some_iff.1 h).1
  induction k generalizing f t os with
  | zero =>
    have hg : getCall ⟨true, f, t, os⟩ (.other j) = some (some (.starting 0)) := h
    simp [run, step, hg, setCall, made]
  | succ k ih =>
    have hg : getCall ⟨true, f, t, os⟩ (.other j) = some (some (.starting (k + 1))) := h
    rw [List.replicate_succ]
    simp only [run, step, hg, setCall, Option.bind_some]
    rw [ih _ _ _ (by rw [List.getElem?_set, if_pos rfl, if_pos hj]) (by simpa using hj)]
    simp [made, List.replicate_succ]

theorem run_append {n : Nat} {s s1 : State} {a b : List Op} (h : run n s a = some s1) : run n s (a ++ b) = run n s1 b := by
  induction a generalizing s with
  | nil => cases h; rfl
  | cons o r ih =>
    simp only [run, List.cons_append] at h ⊢
    cases hs : step n s o with
    | none => rw [hs] at h; cases h
    | some s2 =>
      rw [hs] at h
      exact ih h

theorem set_none_replicate (m : Nat) (c : Option Call) : ((List.replicate m (none : Option Call)).set 0 c).set 0 none = List.replicate m none := by
  cases m <;> simp [List.replicate_succ]

/-- Another thread starts the manager. -/
theorem run_first_start (n m : Nat) (hm : 0 < m) :
    run n (initial m) (.callStart (.other 0) :: List.replicate (n + 2) (.go (.other 0))) =
      some ⟨true, List.replicate (n + 1) true, made (n + 1), List.replicate m none⟩ := by
  have hg : getCall (initial m) (.other 0) = some none := by
    show (List.replicate m (none : Option Call))[0]? = _
    rw [List.getElem?_replicate, if_pos hm]
  have hs : step n (initial m) (.callStart (.other 0)) =
      some ⟨true, [], [], (List.replicate m none).set 0 (some (.starting (n + 1)))⟩ := by
    simp only [step]
    rw [if_pos hg]
    rfl
  simp only [run, hs, Option.bind_some]
  rw [run_start n (n + 1) 0 [] [] _ (by rw [List.getElem?_set, if_pos rfl, if_pos (by simpa using hm)])]
  rw [set_none_replicate]
  simp

/-- C141, why tasks must not call `stop` (task_manager.hpp 50-52 asks for the thread that started the manager): a task that
stops its own manager never returns from that call, whatever else happens, in any program: the call waits for the thread
it runs on. Every manager with a worker can get there. -/
theorem stop_in_task_hangs :
    (∀ (n m : Nat) (ops ops' : List Op) (s s' s'' : State) (w : Nat), run n (initial m) ops = some s → s.keep = true →
      step n s (.callStop (.task w)) = some s' → run n s' ops' = some s'' → ∃ i, InCall s'' (.task w) (.stopping i)) ∧
    ∀ n m : Nat, 0 < n → 0 < m → ∃ ops s s', run n (initial m) ops = some s ∧ s.keep = true ∧
      step n s (.callStop (.task 0)) = some s' := by
  constructor
  · intro n m ops ops' s s' s'' w hr hk hs hr'
    have hJ : Joined s := joined_run ⟨rfl, fun i h => by cases h⟩ hr
    simp only [step, hk, if_true] at hs
    split at hs
    · rename_i hg
      injection hs with hs
      obtain ⟨t, ht⟩ := task_thread hg
      have hwt : w < s.threads.length := (List.getElem?_eq_some_iff.1 ht).1
      have hself : SelfWait w s' := by
        subst hs
        refine ⟨?_, false, 0, Nat.zero_le _, ?_⟩
        · show s.futures[w]? = _
          cases hf : s.futures[w]? with
          | none =>
            have : s.futures.length ≤ w := by simpa using hf
            rw [hJ.same] at this
            omega
          | some b =>
            cases b with
            | true => rfl
            | false =>
              have := hJ.joined w hf
              rw [ht] at this
              cases this
        · show (s.threads.set w _)[w]? = _
          rw [List.getElem?_set, if_pos rfl, if_pos hwt]
      obtain ⟨_, t', i, _, ht'⟩ := selfWait_run hself hr'
      exact ⟨i, thread_task ht'⟩
    · cases hs
  · intro n m hn hm
    have hb : step n ⟨true, List.replicate (n + 1) true, made (n + 1), List.replicate m none⟩ (.begin 0) =
        some ⟨true, List.replicate (n + 1) true, ⟨false, .inTask none⟩ :: made n, List.replicate m none⟩ := by
      obtain ⟨k, rfl⟩ : ∃ k, n = k + 1 := ⟨n - 1, by omega⟩
      rfl
    refine ⟨_, ⟨true, List.replicate (n + 1) true, ⟨false, .inTask none⟩ :: made n, List.replicate m none⟩,
      ⟨false, List.replicate (n + 1) true, ⟨false, .inTask (some (.stopping 0))⟩ :: made n, List.replicate m none⟩,
      (run_append (b := [.begin 0]) (run_first_start n m hm)).trans ?_, ?_, ?_⟩
    · simp only [run, hb, Option.bind_some]
    · rfl
    · rfl

/-- The program stays in the `stop` of the first of the other threads. -/
def Held (s : State) : Prop :=
  s.keep = true ∧ s.futures[0]? = some true ∧ (∃ t, s.threads[0]? = some t ∧ t.phase ≠ .ended) ∧
  s.others[0]? = some (some (.stopping 0))

theorem Held.setCall {s : State} (h : Held s) {c0 : Option Call} {who : Who} (hg : getCall s who = some c0) (hne : who ≠ .other 0)
    (c : Option Call) : Held (setCall s c who) := by
  obtain ⟨hk, hf, ⟨t, ht, hp⟩, ho⟩ := h
  cases who with
  | other j =>
    refine ⟨hk, hf, ⟨t, ht, hp⟩, ?_⟩
    show (s.others.set j c)[0]? = _
    rw [List.getElem?_set, if_neg (fun e => hne (by rw [e]))]
    exact ho
  | task w =>
    refine ⟨hk, hf, ?_, ho⟩
    obtain ⟨t', ht'⟩ := task_thread hg
    by_cases e : w = 0
    · subst e
      refine ⟨⟨false, .inTask c⟩, ?_, fun h => (nomatch h)⟩
      show (s.threads.set 0 _)[0]? = _
      rw [List.getElem?_set, if_pos rfl, if_pos (List.getElem?_eq_some_iff.1 ht').1]
    · refine ⟨t, ?_, hp⟩
      show (s.threads.set w _)[0]? = _
      rw [List.getElem?_set, if_neg e]
      exact ht

theorem Held.step {n : Nat} {s s' : State} {o : Op} (h : Held s) (ho : ∀ who, o ≠ .callStop who) (hs : step n s o = some s') :
    Held s' := by
  have hH := h
  obtain ⟨hk, hf, ⟨t, ht, hp⟩, hoth⟩ := h
  have hg0 : getCall s (.other 0) = some (some (.stopping 0)) := hoth
  have hl : 0 < s.threads.length := (List.getElem?_eq_some_iff.1 ht).1
  have hfl : 0 < s.futures.length := (List.getElem?_eq_some_iff.1 hf).1
  have key : ∀ {v : Nat} {a b : Thread}, s.threads[v]? = some a → b.phase ≠ .ended → Held { s with threads := s.threads.set v b } := by
    intro v a b hv hb
    refine ⟨hk, hf, ?_, hoth⟩
    by_cases e : v = 0
    · subst e
      refine ⟨b, ?_, hb⟩
      show (s.threads.set 0 b)[0]? = _
      rw [List.getElem?_set, if_pos rfl, if_pos hl]
    · refine ⟨t, ?_, hp⟩
      show (s.threads.set v b)[0]? = _
      rw [List.getElem?_set, if_neg e]
      exact ht
  cases o with
  | callStart who =>
    simp only [Lifecycle.step, hk, if_true] at hs
    split at hs
    · injection hs with hs
      subst hs
      exact hH
    · cases hs
  | callStop who => exact absurd rfl (ho who)
  | go who =>
    simp only [Lifecycle.step] at hs
    split at hs
    · rename_i hg
      injection hs with hs
      subst hs
      refine hH.setCall hg (fun e => ?_) _
      subst e
      rw [hg0] at hg
      cases hg
    · rename_i k hg
      injection hs with hs
      subst hs
      have h' : Held { s with futures := s.futures ++ [true], threads := s.threads ++ [⟨k == 0, .looping⟩] } := by
        refine ⟨hk, ?_, ⟨t, ?_, hp⟩, hoth⟩
        · show (s.futures ++ [true])[0]? = _
          rw [List.getElem?_append_left hfl]
          exact hf
        · show (s.threads ++ [_])[0]? = _
          rw [List.getElem?_append_left hl]
          exact ht
      refine h'.setCall (getCall_append hg) (fun e => ?_) _
      subst e
      rw [hg0] at hg
      cases hg
    · rename_i i hg
      by_cases e : who = .other 0
      · subst e
        rw [hg0] at hg
        cases hg
        rw [hf, ht] at hs
        simp only [Option.map_some] at hs
        split at hs
        · rename_i he
          injection he with he
          exact absurd he hp
        · cases hs
      · split at hs
        · injection hs with hs
          subst hs
          exact hH.setCall hg e _
        · injection hs with hs
          subst hs
          exact hH.setCall hg e _
        · split at hs
          · rename_i hend
            injection hs with hs
            subst hs
            have hne : i ≠ 0 := by
              intro e
              subst e
              rw [ht] at hend
              injection hend with hend
              exact hp hend
            have h' : Held { s with futures := s.futures.set i false } := by
              refine ⟨hk, ?_, ⟨t, ht, hp⟩, hoth⟩
              show (s.futures.set i false)[0]? = _
              rw [List.getElem?_set, if_neg hne]
              exact hf
            exact h'.setCall (getCall_keep hg) e _
          · cases hs
    · cases hs
  | begin v | finish v =>
    simp only [Lifecycle.step] at hs
    split at hs
    · rename_i hw
      injection hs with hs
      subst hs
      exact key hw (fun h => nomatch h)
    · cases hs
  | exit v =>
    simp only [Lifecycle.step] at hs
    split at hs
    · rw [if_pos hk] at hs
      cases hs
    · cases hs

theorem held_run {n : Nat} {s s' : State} {ops : List Op} (h : Held s) (ho : ∀ who, Op.callStop who ∉ ops)
    (hr : run n s ops = some s') : Held s' := by
  induction ops generalizing s with
  | nil => cases hr; exact h
  | cons o r ih =>
    simp only [run] at hr
    cases hs : step n s o with
    | none => rw [hs] at hr; cases hr
    | some s1 =>
      rw [hs] at hr
      exact ih (h.step (fun who e => ho who (e ▸ List.mem_cons_self)) hs) (fun who hm => ho who (List.mem_cons_of_mem _ hm)) hr

/-- C141, against it: a `start` that comes while another thread is in `stop` succeeds, and then two calls use the vector
of futures at once; moreover that `stop` does not return, whatever happens, until somebody calls `stop` once more. And a
`stop` that comes second returns at once although no thread has ended. For any number of workers. -/
theorem start_during_stop_violated (n m : Nat) (hm : 2 ≤ m) :
    (∃ ops s, run n (initial m) ops = some s ∧ Race s ∧ InCall s (.other 0) (.stopping 0) ∧
      ∀ ops' s', (∀ who, Op.callStop who ∉ ops') → run n s ops' = some s' → InCall s' (.other 0) (.stopping 0)) ∧
    ∃ ops s, run n (initial m) ops = some s ∧ step n s (.callStop (.other 1)) = some s ∧ s.keep = false ∧
      s.threads.length = n + 1 ∧ ∀ t ∈ s.threads, t.phase ≠ .ended := by
  obtain ⟨k, rfl⟩ : ∃ k, m = k + 2 := ⟨m - 2, by omega⟩
  have h0 := run_first_start n (k + 2) (by omega)
  have hstop : step n ⟨true, List.replicate (n + 1) true, made (n + 1), List.replicate (k + 2) none⟩ (.callStop (.other 0)) =
      some ⟨false, List.replicate (n + 1) true, made (n + 1), some (.stopping 0) :: none :: List.replicate k none⟩ := rfl
  have hstart : step n ⟨false, List.replicate (n + 1) true, made (n + 1), some (.stopping 0) :: none :: List.replicate k none⟩
      (.callStart (.other 1)) = some ⟨true, List.replicate (n + 1) true, made (n + 1),
        some (.stopping 0) :: some (.starting (n + 1)) :: List.replicate k none⟩ := rfl
  have hmade : ∀ k, (made k).length = k ∧ ∀ t ∈ made k, t.phase ≠ .ended := by
    intro k
    induction k with
    | zero => exact ⟨rfl, fun t h => by cases h⟩
    | succ k ih =>
      refine ⟨by simp [made, ih.1], fun t h => ?_⟩
      rcases List.mem_cons.1 h with rfl | h
      · exact fun h => (nomatch h)
      · exact ih.2 t h
  refine ⟨⟨_, ⟨true, List.replicate (n + 1) true, made (n + 1), some (.stopping 0) :: some (.starting (n + 1)) :: List.replicate k none⟩,
      (run_append (b := [.callStop (.other 0), .callStart (.other 1)]) h0).trans ?_, ?_, rfl, ?_⟩,
    ⟨_, ⟨false, List.replicate (n + 1) true, made (n + 1), some (.stopping 0) :: none :: List.replicate k none⟩,
      (run_append (b := [.callStop (.other 0)]) h0).trans ?_, ?_, rfl, (hmade _).1, (hmade _).2⟩⟩
  · simp only [run, hstop, hstart, Option.bind_some]
  · exact ⟨.other 1, .other 0, n, .stopping 0, fun h => (nomatch h), rfl, rfl, fun h => (nomatch h)⟩
  · intro ops' s' ho hr
    exact (held_run ⟨rfl, rfl, ⟨_, rfl, fun h => by cases h⟩, rfl⟩ ho hr).2.2.2
  · simp only [run, hstop, Option.bind_some]
  · rfl

/-- A manager of two workers: started, a task begun, stopped (the stop waits for the task), started again by another
thread, stopped again. -/
example :
    (run 2 (initial 2)
      ([.callStart (.other 0)] ++ List.replicate 4 (.go (.other 0)) ++
        [.begin 1, .callStop (.other 0), .exit 0, .go (.other 0), .finish 1, .exit 1, .go (.other 0), .exit 2, .go (.other 0),
          .go (.other 0)] ++
        [.callStart (.other 1)] ++ List.replicate 4 (.go (.other 1)) ++
        [.callStop (.other 1), .exit 3, .exit 4, .exit 5] ++ List.replicate 7 (.go (.other 1)))) =
    some ⟨false, List.replicate 6 false,
      [⟨false, .ended⟩, ⟨false, .ended⟩, ⟨true, .ended⟩, ⟨false, .ended⟩, ⟨false, .ended⟩, ⟨true, .ended⟩], [none, none]⟩ := by
  decide +kernel

/-- While the task runs, the stop cannot go on. -/
example :
    (run 2 (initial 2)
      ([.callStart (.other 0)] ++ List.replicate 4 (.go (.other 0)) ++
        [.begin 1, .callStop (.other 0), .exit 0, .go (.other 0), .go (.other 0)])) = none := by
  decide +kernel

end Verif.Task.Lifecycle
