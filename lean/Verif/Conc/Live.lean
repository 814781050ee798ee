import Verif.Conc.Props

/-!
# Every schedule completes the calls in progress

Once the program makes no further calls, and leaving spurious wake-ups aside (they may be repeated for
ever by definition), every schedule of the threads stops after a bounded number of steps, and then
nobody is left in the library except untimed pops of an empty container.
-/

namespace Verif.Conc

variable {α : Type}

/-- The event is a call by the program. -/
def isCall : Option (Ev α) → Bool
  | some (.call _ _) => true
  | _ => false

/-- The step is a spurious wake-up. -/
def Spurious (s s' : State α) : Prop :=
  ∃ (t : Nat) (timed : Bool), s.pcs[t]? = some (.popWait timed) ∧ s' = s.at_ t (.popWoken timed)

/-- A step of the library's own code: neither a new call nor a spurious wake-up. -/
def Internal (k : Kind) (s s' : State α) : Prop :=
  ∃ ev, Step k s ev s' ∧ isCall ev = false ∧ ¬ Spurious s s'

/-- A schedule of `m` internal steps. -/
inductive Schedule (k : Kind) : Nat → State α → State α → Prop
  | nil {s} : Schedule k 0 s s
  | cons {m s s1 s2} : Internal k s s1 → Schedule k m s1 s2 → Schedule k (m + 1) s s2

/-- Nobody is in the library except untimed pops waiting for an item that is not there. -/
def Quiet (s : State α) : Prop :=
  ∀ (t : Nat) (pc : PC α), s.pcs[t]? = some pc → pc = .idle ∨ (pc = .popWait false ∧ s.items = [])

/-- An upper bound of the steps a thread can still take (with those it causes by notifying). -/
def work : PC α → Nat
  | .idle => 0
  | .pushLock _ => 13
  | .pushHeld _ => 12
  | .pushedHeld _ => 11
  | .pushNotify _ => 10
  | .pushRet _ => 1
  | .popLock _ => 7
  | .popHeld _ => 6
  | .popWait timed => if timed then 5 else 0
  | .popWoken _ => 7
  | .popExpired => 4
  | .popLast => 3
  | .popped _ _ => 2
  | .popFailed => 2
  | .popRet _ _ => 1
  | .queryLock _ => 4
  | .queryHeld _ => 3
  | .queried _ _ => 2
  | .queryRet _ _ => 1

def total (l : List (PC α)) : Nat := (l.map work).sum

theorem total_set {l : List (PC α)} {t : Nat} {old : PC α} (pc : PC α) (h : l[t]? = some old) :
    total (l.set t pc) + work old = total l + work pc := by
  induction l generalizing t with
  | nil => simp at h
  | cons a l ih =>
    cases t with
    | zero =>
      simp at h; subst h
      simp [total]; omega
    | succ t =>
      simp at h
      have := ih h
      simp [total] at this ⊢; omega

theorem total_lt {l : List (PC α)} {t : Nat} {old : PC α} (pc : PC α) (h : l[t]? = some old)
    (hw : work pc < work old) : total (l.set t pc) < total l := by
  have := total_set pc h; omega

theorem total_le (l : List (PC α)) : total l ≤ 13 * l.length := by
  induction l with
  | nil => simp [total]
  | cons a l ih =>
    have : work a ≤ 13 := by cases a <;> simp [work]; split <;> omega
    simp [total] at ih ⊢; omega

theorem internal_decreases {k : Kind} {s s' : State α} (h : Internal k s s') :
    total s'.pcs < total s.pcs := by
  obtain ⟨ev, hs, hc, hns⟩ := h
  cases hs with
  | callPush _ => simp [isCall] at hc
  | callPop _ _ => simp [isCall] at hc
  | callQuery _ _ => simp [isCall] at hc
  | spurious h => exact absurd ⟨_, _, h, rfl⟩ hns
  | pushAcquire h _ => exact total_lt _ h (by simp [work])
  | pushDo h => exact total_lt _ h (by simp [work])
  | pushRelease h => exact total_lt _ h (by simp [work])
  | @notify t v w timed h h2 =>
    have hne : w ≠ t := by intro e; rw [e, h] at h2; simp at h2
    have h3 : (s.pcs.set t (.pushRet v))[w]? = some (.popWait timed) := by
      rw [getElem?_set' h, if_neg hne, h2]
    have e1 := total_set (.pushRet v) h
    have e2 := total_set (.popWoken timed) h3
    show total ((s.pcs.set t (.pushRet v)).set w (.popWoken timed)) < total s.pcs
    simp only [work] at e1 e2
    split at e2 <;> omega
  | notifyNone h _ => exact total_lt _ h (by simp [work])
  | pushReturn h => exact total_lt _ h (by simp [work])
  | popAcquire h _ => exact total_lt _ h (by simp [work])
  | @popBlock t timed h _ => exact total_lt _ h (by cases timed <;> simp [work])
  | popDo h _ => exact total_lt _ h (by simp [work])
  | expire h => exact total_lt _ h (by simp [work])
  | expireWoken h => exact total_lt _ h (by simp [work])
  | reacquire h _ => exact total_lt _ h (by simp [work])
  | reacquireLast h _ => exact total_lt _ h (by simp [work])
  | lastDo h _ => exact total_lt _ h (by simp [work])
  | lastFail h _ => exact total_lt _ h (by simp [work])
  | popRelease h => exact total_lt _ h (by simp [work])
  | popReleaseFail h => exact total_lt _ h (by simp [work])
  | popReturn h => exact total_lt _ h (by simp [work])
  | queryAcquire h _ => exact total_lt _ h (by simp [work])
  | queryDo h => exact total_lt _ h (by simp [work])
  | queryRelease h => exact total_lt _ h (by simp [work])
  | queryReturn h => exact total_lt _ h (by simp [work])

/-- C89: from any reachable state of `n` threads, no schedule without new calls is longer than `13 n`
steps: the library never spins or bounces threads between each other. -/
theorem container_schedules_bounded (k : Kind) (n : Nat) (e : List (Ev α)) (s s' : State α) (m : Nat)
    (h : Run k n e s) (hm : Schedule k m s s') : m ≤ 13 * n := by
  have key : ∀ {m : Nat} {s s' : State α}, Schedule k m s s' → m + total s'.pcs ≤ total s.pcs := by
    intro m s s' hm
    induction hm with
    | nil => omega
    | cons hi _ ih => have := internal_decreases hi; omega
  have h1 := key hm
  have h2 := total_le s.pcs
  rw [(run_holder_lt h).1] at h2
  omega

theorem not_spurious {s s' : State α} {t : Nat} {pc : PC α} (hp : s.pcs[t]? = some pc)
    (hw : waits pc = false) (hne : s'.pcs[t]? ≠ some pc) : ¬ Spurious s s' := by
  rintro ⟨u, timed, hu, rfl⟩
  by_cases e : t = u
  · subst e; rw [hp] at hu; simp at hu; subst hu; simp [waits] at hw
  · apply hne
    show (s.pcs.set u _)[t]? = _
    rw [getElem?_set' hu, if_neg e, hp]

/-- C89: a schedule that cannot be continued has completed everything: every thread is outside the
library or in an untimed pop, and then the container is empty. -/
theorem container_no_deadlock (k : Kind) (n : Nat) (e : List (Ev α)) (s : State α) (h : Run k n e s)
    (hstop : ¬ ∃ s', Internal k s s') : Quiet s := by
  -- a thread that is not waiting and can move gives a contradiction
  have go : ∀ {t : Nat} {pc : PC α} {ev : Option (Ev α)} {s' : State α}, s.pcs[t]? = some pc →
      waits pc = false → Step k s ev s' → isCall ev = false → s'.pcs[t]? ≠ some pc → False := by
    intro t pc ev s' hp hw hs hc hne
    exact hstop ⟨s', ev, hs, hc, not_spurious hp hw hne⟩
  have free : s.holder = none := by
    cases hh : s.holder with
    | none => rfl
    | some t =>
      exfalso
      have ht := run_holder_lt h
      have htl : t < s.pcs.length := by rw [ht.1]; exact ht.2 t hh
      have hpc : s.pcs[t]? = some s.pcs[t] := List.getElem?_eq_getElem htl
      have hold := (run_holder h t _ hpc).mpr hh
      generalize s.pcs[t] = pc at hpc hold
      cases pc <;> simp [holds] at hold
      · exact go hpc rfl (.pushDo hpc) rfl (set_ne hpc (by simp))
      · exact go hpc rfl (.pushRelease hpc) rfl (set_ne hpc (by simp))
      · cases hi : s.items with
        | nil => exact go hpc rfl (.popBlock hpc hi) rfl (set_ne hpc (by simp))
        | cons v l => exact go hpc rfl (.popDo hpc hi) rfl (set_ne hpc (by simp))
      · cases hi : s.items with
        | nil => exact go hpc rfl (.lastFail hpc hi) rfl (set_ne hpc (by simp))
        | cons v l => exact go hpc rfl (.lastDo hpc hi) rfl (set_ne hpc (by simp))
      · exact go hpc rfl (.popRelease hpc) rfl (set_ne hpc (by simp))
      · exact go hpc rfl (.popReleaseFail hpc) rfl (set_ne hpc (by simp))
      · exact go hpc rfl (.queryDo hpc) rfl (set_ne hpc (by simp))
      · exact go hpc rfl (.queryRelease hpc) rfl (set_ne hpc (by simp))
  intro t pc hpc
  have hnh : holds pc = false := by
    cases hb : holds pc with
    | false => rfl
    | true => have := (run_holder h t pc hpc).mp hb; rw [free] at this; simp at this
  cases pc with
  | idle => exact Or.inl rfl
  | popWait timed =>
    cases timed with
    | true =>
      exfalso
      apply hstop
      refine ⟨_, _, .expire hpc, rfl, ?_⟩
      rintro ⟨u, timed, hu, he⟩
      have h1 : ((s.at_ t .popExpired).pcs)[t]? = some (PC.popExpired : PC α) := by
        show (s.pcs.set t _)[t]? = _
        rw [getElem?_set' hpc, if_pos rfl]
      rw [he] at h1
      change (s.pcs.set u _)[t]? = _ at h1
      rw [getElem?_set' hu] at h1
      split at h1
      · simp at h1
      · rw [hpc] at h1; simp at h1
    | false =>
      refine Or.inr ⟨rfl, ?_⟩
      cases hi : s.items with
      | nil => rfl
      | cons v l =>
        exfalso
        obtain ⟨t', pc', ev, s', h1, h2, h3, h4, h5⟩ := no_stuck_waiter k n e s h (by rw [hi]; simp)
          ⟨t, false, hpc⟩
        by_cases hc : isCall ev = false
        · exact go h1 h3 h4 hc h5
        · cases h4 with
          | callPush h6 =>
            rename_i u v'
            by_cases e' : t' = u
            · subst e'; rw [h1] at h6; simp at h6; exact h2 h6
            · apply h5; show (s.pcs.set u _)[t']? = _; rw [getElem?_set' h6, if_neg e', h1]
          | callPop timed h6 =>
            rename_i u
            by_cases e' : t' = u
            · subst e'; rw [h1] at h6; simp at h6; exact h2 h6
            · apply h5; show (s.pcs.set u _)[t']? = _; rw [getElem?_set' h6, if_neg e', h1]
          | callQuery size h6 =>
            rename_i u
            by_cases e' : t' = u
            · subst e'; rw [h1] at h6; simp at h6; exact h2 h6
            · apply h5; show (s.pcs.set u _)[t']? = _; rw [getElem?_set' h6, if_neg e', h1]
          | _ => exact hc rfl
  | pushLock v => exact (go hpc rfl (.pushAcquire hpc free) rfl (set_ne hpc (by simp))).elim
  | pushNotify v =>
    exfalso
    by_cases hw : ∃ (w : Nat) (timed : Bool), s.pcs[w]? = some (PC.popWait timed)
    · obtain ⟨w, timed, hw⟩ := hw
      refine go hpc rfl (.notify hpc hw) rfl ?_
      have hne : w ≠ t := by intro e; rw [e, hpc] at hw; simp at hw
      have h3 : (s.pcs.set t (.pushRet v))[w]? = some (.popWait timed) := by
        rw [getElem?_set' hpc, if_neg hne, hw]
      show ((s.pcs.set t (.pushRet v)).set w _)[t]? ≠ _
      rw [getElem?_set' h3, if_neg (fun e => hne e.symm)]
      exact set_ne hpc (by simp)
    · exact go hpc rfl (.notifyNone hpc (fun w timed hh => hw ⟨w, timed, hh⟩)) rfl
        (set_ne hpc (by simp))
  | pushRet v => exact (go hpc rfl (.pushReturn hpc) rfl (set_ne hpc (by simp))).elim
  | popLock b => exact (go hpc rfl (.popAcquire hpc free) rfl (set_ne hpc (by simp))).elim
  | popWoken b => exact (go hpc rfl (.reacquire hpc free) rfl (set_ne hpc (by simp))).elim
  | popExpired => exact (go hpc rfl (.reacquireLast hpc free) rfl (set_ne hpc (by simp))).elim
  | popRet b r => exact (go hpc rfl (.popReturn hpc) rfl (set_ne hpc (by simp))).elim
  | queryLock b => exact (go hpc rfl (.queryAcquire hpc free) rfl (set_ne hpc (by simp))).elim
  | queryRet b r => exact (go hpc rfl (.queryReturn hpc) rfl (set_ne hpc (by simp))).elim
  | pushHeld v => simp [holds] at hnh
  | pushedHeld v => simp [holds] at hnh
  | popHeld b => simp [holds] at hnh
  | popLast => simp [holds] at hnh
  | popped b v => simp [holds] at hnh
  | popFailed => simp [holds] at hnh
  | queryHeld b => simp [holds] at hnh
  | queried b r => simp [holds] at hnh

/-- C89: so every reachable state has a schedule that completes all calls in progress. -/
theorem container_completes (k : Kind) (n : Nat) (e : List (Ev α)) (s : State α) (h : Run k n e s) :
    ∃ m s', Schedule k m s s' ∧ Quiet s' := by
  induction hm : total s.pcs using Nat.strongRecOn generalizing s e with
  | ind x ih =>
    by_cases hs : ∃ s', Internal k s s'
    · obtain ⟨s1, ev, hstep, hc, hn⟩ := hs
      have hi : Internal k s s1 := ⟨ev, hstep, hc, hn⟩
      obtain ⟨m, s', h1, h2⟩ := ih (total s1.pcs) (by rw [← hm]; exact internal_decreases hi) _ s1
        (.step h hstep) rfl
      exact ⟨m + 1, s', .cons hi h1, h2⟩
    · exact ⟨0, s, .nil, container_no_deadlock k n e s h hs⟩

/-- Two threads: one blocked in `pop`, the other about to notify it, is not quiet; it takes a schedule
of five internal steps until both calls have returned. -/
example : ∃ e s, Run (α := Nat) .fifo 2 e s ∧ ¬ Quiet s ∧ ∃ s', Internal .fifo s s' := by
  refine ⟨_, _, .step (.step (.step (.step (.step (.step (.step .init
    (.callPop false (t := 0) rfl)) (.popAcquire (t := 0) rfl rfl)) (.popBlock (t := 0) rfl rfl))
    (.callPush (t := 1) (v := 7) rfl)) (.pushAcquire (t := 1) rfl rfl)) (.pushDo (t := 1) rfl))
    (.pushRelease (t := 1) rfl), ?_, _, none, .notify (t := 1) (w := 0) (timed := false) rfl rfl, rfl, ?_⟩
  · intro h
    rcases h 1 (.pushNotify 7) rfl with h | h
    · cases h
    · cases h.1
  · exact not_spurious (t := 1) (pc := .pushNotify 7) rfl rfl (by simp [State.at_, init])

end Verif.Conc
