import Verif.Conc.Model

namespace Verif.Conc

variable {α : Type}

/-- Where a thread's events stand at a program point. -/
def phase : PC α → Phase α
  | .idle => .idle
  | .pushLock v | .pushHeld v => .called (.push v)
  | .pushedHeld v | .pushNotify v | .pushRet v => .effected (.push v) .unit
  | .popLock timed | .popHeld timed | .popWait timed | .popWoken timed => .called (popOp timed)
  | .popLast | .popExpired => .called .popTimed
  | .popped timed v => .effected (popOp timed) (.item v)
  | .popFailed => .effected .popTimed .nothing
  | .popRet timed r => .effected (popOp timed) r
  | .queryLock size | .queryHeld size => .called (queryOp size)
  | .queried size r | .queryRet size r => .effected (queryOp size) r

/-- Program points inside the critical section. -/
def holds : PC α → Bool
  | .pushHeld _ | .pushedHeld _ | .popHeld _ | .popLast | .popped _ _ | .popFailed | .queryHeld _
  | .queried _ _ => true
  | _ => false

/-- Blocked in the condition variable. -/
def waits : PC α → Bool
  | .popWait _ => true
  | _ => false

/-- Threads that will still look at the container or notify somebody who does. -/
def active : PC α → Bool
  | .pushedHeld _ | .pushNotify _ | .popHeld _ | .popWoken _ | .popExpired | .popLast => true
  | _ => false

def phaseAt (s : State α) (t : Nat) : Phase α :=
  match s.pcs[t]? with
  | some pc => phase pc
  | none => .idle

theorem getElem?_set' {l : List (PC α)} {t : Nat} {pc old : PC α} (h : l[t]? = some old) (u : Nat) :
    (l.set t pc)[u]? = if u = t then some pc else l[u]? := by
  have ht : t < l.length := (List.getElem?_eq_some_iff.mp h).1
  rw [List.getElem?_set]
  by_cases e : t = u
  · subst e; simp [ht]
  · rw [if_neg e, if_neg (fun h => e h.symm)]

/-! ## Threads -/

theorem run_thread {k : Kind} {n : Nat} {e : List (Ev α)} {s : State α} (h : Run k n e s) :
    ∀ u, ThreadRun (e.filter fun x => x.thread == u) (phaseAt s u) := by
  induction h with
  | init =>
    intro u
    have : phaseAt (init α n) u = .idle := by
      unfold phaseAt init
      simp only
      rw [List.getElem?_replicate]
      split <;> rename_i h
      · split at h
        · simp at h; subst h; rfl
        · simp at h
      · rfl
    rw [this]; exact .start
  | @step e s ev s' hr hs ih =>
    intro u
    have silent : ∀ (s2 : State α) (t : Nat) (old pc : PC α), s.pcs[t]? = some old →
        s2.pcs = s.pcs.set t pc → phase old = phase pc → phaseAt s2 u = phaseAt s u := by
      intro s2 t old pc h1 h2 h3
      unfold phaseAt
      rw [h2, getElem?_set' h1]
      by_cases e : u = t
      · subst e; simp [h1, h3]
      · rw [if_neg e]
    have quiet : ∀ (s2 : State α) (t : Nat) (old pc : PC α), s.pcs[t]? = some old →
        s2.pcs = s.pcs.set t pc → phase old = phase pc →
        ThreadRun ((e ++ (none : Option (Ev α)).toList).filter fun y => y.thread == u) (phaseAt s2 u) := by
      intro s2 t old pc h1 h2 h3
      rw [silent s2 t old pc h1 h2 h3]
      simpa using ih u
    have loud : ∀ (s2 : State α) (x : Ev α) (old pc : PC α), s.pcs[x.thread]? = some old →
        s2.pcs = s.pcs.set x.thread pc →
        (∀ e', ThreadRun e' (phase old) → ThreadRun (e' ++ [x]) (phase pc)) →
        ThreadRun ((e ++ [x]).filter fun y => y.thread == u) (phaseAt s2 u) := by
      intro s2 x old pc h1 h2 h3
      have hu := ih u
      unfold phaseAt at hu ⊢
      rw [h2, getElem?_set' h1, List.filter_append]
      by_cases e' : u = x.thread
      · subst e'
        rw [h1] at hu
        rw [if_pos rfl]
        have : [x].filter (fun y => y.thread == x.thread) = [x] := by simp
        rw [this]
        exact h3 _ hu
      · rw [if_neg e']
        have : [x].filter (fun y => y.thread == u) = [] := by
          simp; exact fun h => e' h.symm
        rw [this, List.append_nil]
        exact hu
    cases hs with
    | callPush h => exact loud _ _ _ _ h rfl fun e' he => .call he
    | pushAcquire h _ => exact quiet _ _ _ _ h rfl rfl
    | pushDo h => exact loud _ _ _ _ h rfl fun e' he => .lin he
    | pushRelease h => exact quiet _ _ _ _ h rfl rfl
    | @notify t v w timed h h2 =>
      have hne : w ≠ t := by intro e; rw [e, h] at h2; simp at h2
      have h3 : (s.at_ t (.pushRet v)).pcs[w]? = some (.popWait timed) := by
        unfold State.at_; simp only; rw [getElem?_set' h, if_neg hne, h2]
      have e1 : phaseAt (s.at_ t (.pushRet v)) u = phaseAt s u := silent _ _ _ _ h rfl rfl
      have e2 : phaseAt ((s.at_ t (.pushRet v)).at_ w (.popWoken timed)) u =
          phaseAt (s.at_ t (.pushRet v)) u := by
        unfold phaseAt
        rw [show ((s.at_ t (.pushRet v)).at_ w (.popWoken timed)).pcs =
          (s.at_ t (.pushRet v)).pcs.set w (.popWoken timed) from rfl, getElem?_set' h3]
        by_cases e : u = w
        · subst e; simp [h3, phase]
        · rw [if_neg e]
      rw [e2, e1]
      simpa using ih u
    | notifyNone h _ => exact quiet _ _ _ _ h rfl rfl
    | pushReturn h => exact loud _ _ _ _ h rfl fun e' he => .ret he
    | callPop timed h => exact loud _ _ _ _ h rfl fun e' he => .call he
    | popAcquire h _ => exact quiet _ _ _ _ h rfl rfl
    | popBlock h _ => exact quiet _ _ _ _ h rfl rfl
    | popDo h _ => exact loud _ _ _ _ h rfl fun e' he => .lin he
    | spurious h => exact quiet _ _ _ _ h rfl rfl
    | expire h => exact quiet _ _ _ _ h rfl rfl
    | expireWoken h => exact quiet _ _ _ _ h rfl rfl
    | reacquire h _ => exact quiet _ _ _ _ h rfl rfl
    | reacquireLast h _ => exact quiet _ _ _ _ h rfl rfl
    | lastDo h _ => exact loud _ _ _ _ h rfl fun e' he => .lin he
    | lastFail h _ => exact loud _ _ _ _ h rfl fun e' he => .lin he
    | popRelease h => exact quiet _ _ _ _ h rfl rfl
    | popReleaseFail h => exact quiet _ _ _ _ h rfl rfl
    | popReturn h => exact loud _ _ _ _ h rfl fun e' he => .ret he
    | callQuery size h => exact loud _ _ _ _ h rfl fun e' he => .call he
    | queryAcquire h _ => exact quiet _ _ _ _ h rfl rfl
    | queryDo h => exact loud _ _ _ _ h rfl fun e' he => .lin he
    | queryRelease h => exact quiet _ _ _ _ h rfl rfl
    | queryReturn h => exact loud _ _ _ _ h rfl fun e' he => .ret he

/-! ## Effects -/

theorem run_legal {k : Kind} {n : Nat} {e : List (Ev α)} {s : State α} (h : Run k n e s) :
    Legal k (effects e) s.items := by
  induction h with
  | init => exact .nil
  | @step e s ev s' hr hs ih =>
    have app : ∀ x : Ev α, effects (e ++ [x]) = effects e ++ effects [x] := fun x =>
      List.filterMap_append
    cases hs with
    | pushDo h =>
      show Legal k (effects (e ++ [_])) _
      rw [app]
      refine .snoc ih ?_
      cases k with
      | fifo => exact .push_fifo rfl
      | lifo => exact .push_lifo rfl
    | @popDo t timed v l h hl =>
      show Legal k (effects (e ++ [_])) _
      rw [app]
      refine .snoc ih ?_
      rw [hl]
      cases timed with
      | true => exact .popTimed
      | false => exact .pop
    | lastDo h hl =>
      show Legal k (effects (e ++ [_])) _
      rw [app]
      refine .snoc ih ?_
      rw [hl]
      exact .popTimed
    | lastFail h hl =>
      show Legal k (effects (e ++ [_])) _
      rw [app]
      refine .snoc ih ?_
      show Seq k s.items _ _ s.items
      rw [hl]
      exact .popTimed_nothing
    | @queryDo t size h =>
      show Legal k (effects (e ++ [_])) _
      rw [app]
      refine .snoc ih ?_
      cases size with
      | true => exact .size
      | false => exact .empty
    | callPush h => show Legal k (effects (e ++ [_])) _; rw [app]; simpa [effects, State.at_] using ih
    | pushReturn h => show Legal k (effects (e ++ [_])) _; rw [app]; simpa [effects, State.at_] using ih
    | callPop timed h => show Legal k (effects (e ++ [_])) _; rw [app]; simpa [effects, State.at_] using ih
    | popReturn h => show Legal k (effects (e ++ [_])) _; rw [app]; simpa [effects, State.at_] using ih
    | callQuery size h => show Legal k (effects (e ++ [_])) _; rw [app]; simpa [effects, State.at_] using ih
    | queryReturn h => show Legal k (effects (e ++ [_])) _; rw [app]; simpa [effects, State.at_] using ih
    | pushAcquire h _ => simpa [State.at_] using ih
    | pushRelease h => simpa [State.at_] using ih
    | notify h h2 => simpa [State.at_] using ih
    | notifyNone h _ => simpa [State.at_] using ih
    | popAcquire h _ => simpa [State.at_] using ih
    | popBlock h _ => simpa [State.at_] using ih
    | spurious h => simpa [State.at_] using ih
    | expire h => simpa [State.at_] using ih
    | expireWoken h => simpa [State.at_] using ih
    | reacquire h _ => simpa [State.at_] using ih
    | reacquireLast h _ => simpa [State.at_] using ih
    | popRelease h => simpa [State.at_] using ih
    | popReleaseFail h => simpa [State.at_] using ih
    | queryAcquire h _ => simpa [State.at_] using ih
    | queryRelease h => simpa [State.at_] using ih

/-! ## Mutual exclusion -/

theorem run_holder {k : Kind} {n : Nat} {e : List (Ev α)} {s : State α} (h : Run k n e s) :
    ∀ t pc, s.pcs[t]? = some pc → (holds pc = true ↔ s.holder = some t) := by
  induction h with
  | init =>
    intro t pc h
    unfold init at h ⊢
    simp only at h ⊢
    rw [List.getElem?_replicate] at h
    split at h
    · simp at h; subst h; simp [holds]
    · simp at h
  | @step e s ev s' hr hs ih =>
    intro u pcu hu
    have same : ∀ (t : Nat) (old pc : PC α), s.pcs[t]? = some old →
        (s.pcs.set t pc)[u]? = some pcu → holds old = holds pc → (holds pcu = true ↔ s.holder = some u) := by
      intro t old pc h1 h3 h2
      rw [getElem?_set' h1] at h3
      by_cases e : u = t
      · subst e
        rw [if_pos rfl] at h3
        simp at h3; subst h3
        rw [← h2]; exact ih u old h1
      · rw [if_neg e] at h3; exact ih u pcu h3
    have acq : ∀ (t : Nat) (old pc : PC α), s.pcs[t]? = some old → holds pc = true →
        s.holder = none → (s.pcs.set t pc)[u]? = some pcu → (holds pcu = true ↔ some t = some u) := by
      intro t old pc h1 h2 h3 h4
      rw [getElem?_set' h1] at h4
      by_cases e : u = t
      · subst e
        rw [if_pos rfl] at h4
        simp at h4; subst h4
        simp [h2]
      · rw [if_neg e] at h4
        have := ih u pcu h4
        rw [h3] at this
        rw [this]
        simp; exact fun h => e h.symm
    have rel : ∀ (t : Nat) (old pc : PC α), s.pcs[t]? = some old → holds old = true →
        holds pc = false → (s.pcs.set t pc)[u]? = some pcu → (holds pcu = true ↔ none = some u) := by
      intro t old pc h1 h2 h3 h4
      have hh := (ih t old h1).mp h2
      rw [getElem?_set' h1] at h4
      by_cases e : u = t
      · subst e
        rw [if_pos rfl] at h4
        simp at h4; subst h4
        simp [h3]
      · rw [if_neg e] at h4
        have := ih u pcu h4
        rw [hh] at this
        rw [this]
        simp; exact fun h => e h.symm
    cases hs with
    | callPush h => exact same _ _ _ h hu rfl
    | pushAcquire h hn => exact acq _ _ _ h rfl hn hu
    | pushDo h => exact same _ _ _ h hu rfl
    | pushRelease h => exact rel _ _ _ h rfl rfl hu
    | @notify t v w timed h h2 =>
      have hne : w ≠ t := by intro e; rw [e, h] at h2; simp at h2
      have h3 : (s.pcs.set t (.pushRet v))[w]? = some (.popWait timed) := by
        rw [getElem?_set' h, if_neg hne, h2]
      change ((s.pcs.set t (.pushRet v)).set w (.popWoken timed))[u]? = some pcu at hu
      rw [getElem?_set' h3] at hu
      by_cases e : u = w
      · subst e
        rw [if_pos rfl] at hu
        simp at hu; subst hu
        have := ih u _ h2
        simpa [holds, State.at_] using this
      · rw [if_neg e] at hu
        exact same _ _ _ h hu rfl
    | notifyNone h _ => exact same _ _ _ h hu rfl
    | pushReturn h => exact same _ _ _ h hu rfl
    | callPop timed h => exact same _ _ _ h hu rfl
    | popAcquire h hn => exact acq _ _ _ h rfl hn hu
    | popBlock h _ => exact rel _ _ _ h rfl rfl hu
    | popDo h _ => exact same _ _ _ h hu rfl
    | spurious h => exact same _ _ _ h hu rfl
    | expire h => exact same _ _ _ h hu rfl
    | expireWoken h => exact same _ _ _ h hu rfl
    | reacquire h hn => exact acq _ _ _ h rfl hn hu
    | reacquireLast h hn => exact acq _ _ _ h rfl hn hu
    | lastDo h _ => exact same _ _ _ h hu rfl
    | lastFail h _ => exact same _ _ _ h hu rfl
    | popRelease h => exact rel _ _ _ h rfl rfl hu
    | popReleaseFail h => exact rel _ _ _ h rfl rfl hu
    | popReturn h => exact same _ _ _ h hu rfl
    | callQuery size h => exact same _ _ _ h hu rfl
    | queryAcquire h hn => exact acq _ _ _ h rfl hn hu
    | queryDo h => exact same _ _ _ h hu rfl
    | queryRelease h => exact rel _ _ _ h rfl rfl hu
    | queryReturn h => exact same _ _ _ h hu rfl

/-! ## Wake-ups -/

theorem countP_set' {l : List (PC α)} {t : Nat} {old pc : PC α} (p : PC α → Bool) (h : l[t]? = some old) :
    (l.set t pc).countP p + (if p old then 1 else 0) = l.countP p + (if p pc then 1 else 0) := by
  induction l generalizing t with
  | nil => simp at h
  | cons a l ih =>
    cases t with
    | zero =>
      simp at h; subst h
      simp only [List.set_cons_zero, List.countP_cons]
      omega
    | succ t =>
      simp at h
      simp only [List.set_cons_succ, List.countP_cons]
      have := ih h
      omega

theorem countP_zero_of_none {l : List (PC α)} (h : ∀ (w : Nat) (timed : Bool), l[w]? ≠ some (PC.popWait timed)) :
    l.countP waits = 0 := by
  rw [List.countP_eq_zero]
  intro pc hpc hw
  obtain ⟨i, hi⟩ := List.getElem?_of_mem hpc
  cases pc <;> simp [waits] at hw
  exact h _ _ hi

theorem run_wakeups {k : Kind} {n : Nat} {e : List (Ev α)} {s : State α} (h : Run k n e s) :
    s.pcs.countP waits = 0 ∨ s.items.length ≤ s.pcs.countP active := by
  induction h with
  | init => right; simp [init]
  | @step e s ev s' hr hs ih =>
    have key : ∀ (t : Nat) (old pc : PC α), s.pcs[t]? = some old →
        (s.pcs.set t pc).countP waits + (if waits old then 1 else 0) =
          s.pcs.countP waits + (if waits pc then 1 else 0) ∧
        (s.pcs.set t pc).countP active + (if active old then 1 else 0) =
          s.pcs.countP active + (if active pc then 1 else 0) :=
      fun t old pc h => ⟨countP_set' waits h, countP_set' active h⟩
    cases hs with
    | @notify t v w timed h h2 =>
      have hne : w ≠ t := by intro e; rw [e, h] at h2; simp at h2
      have h3 : (s.pcs.set t (.pushRet v))[w]? = some (.popWait timed) := by
        rw [getElem?_set' h, if_neg hne, h2]
      have k1 := key _ _ (.pushRet v) h
      have k2 := countP_set' waits h3 (pc := .popWoken timed)
      have k3 := countP_set' active h3 (pc := .popWoken timed)
      simp only [waits, active, if_true, Bool.false_eq_true, if_false] at k1 k2 k3
      simp only [State.at_]
      omega
    | @notifyNone t v h hn =>
      have k1 := key _ _ (.pushRet v) h
      have := countP_zero_of_none hn
      simp only [waits, active, if_true, Bool.false_eq_true, if_false] at k1
      simp only [State.at_]
      omega
    | @popBlock t timed h hl =>
      right; simp [State.at_, hl]
    | @lastFail t h hl => right; simp [State.at_, hl]
    | @popDo t timed v l h hl =>
      have k1 := key _ _ (.popped timed v) h
      simp only [waits, active, if_true, Bool.false_eq_true, if_false] at k1
      simp only [State.at_]
      rw [hl] at ih
      simp only [List.length_cons] at ih
      omega
    | @lastDo t v l h hl =>
      have k1 := key _ _ (.popped true v) h
      simp only [waits, active, if_true, Bool.false_eq_true, if_false] at k1
      simp only [State.at_]
      rw [hl] at ih
      simp only [List.length_cons] at ih
      omega
    | @pushDo t v h =>
      have k1 := key _ _ (.pushedHeld v) h
      simp only [waits, active, if_true, Bool.false_eq_true, if_false] at k1
      have hl : (pushInternal k v s.items).length = s.items.length + 1 := by
        cases k <;> simp [pushInternal]
      simp only [State.at_, hl]
      omega
    | @callPush t v h => have k1 := key _ _ (.pushLock v) h; simp [waits, active] at k1; simp only [State.at_]; omega
    | @pushAcquire t v h _ => have k1 := key _ _ (.pushHeld v) h; simp [waits, active] at k1; simp only [State.at_]; omega
    | @pushRelease t v h => have k1 := key _ _ (.pushNotify v) h; simp [waits, active] at k1; simp only [State.at_]; omega
    | pushReturn h => have k1 := key _ _ .idle h; simp [waits, active] at k1; simp only [State.at_]; omega
    | callPop timed h => have k1 := key _ _ (.popLock timed) h; simp [waits, active] at k1; simp only [State.at_]; omega
    | @popAcquire t timed h _ => have k1 := key _ _ (.popHeld timed) h; simp [waits, active] at k1; simp only [State.at_]; omega
    | @spurious t timed h => have k1 := key _ _ (.popWoken timed) h; simp [waits, active] at k1; simp only [State.at_]; omega
    | @expire t h => have k1 := key _ _ .popExpired h; simp [waits, active] at k1; simp only [State.at_]; omega
    | @expireWoken t h => have k1 := key _ _ .popExpired h; simp [waits, active] at k1; simp only [State.at_]; omega
    | @reacquire t timed h _ => have k1 := key _ _ (.popHeld timed) h; simp [waits, active] at k1; simp only [State.at_]; omega
    | @reacquireLast t h _ => have k1 := key _ _ .popLast h; simp [waits, active] at k1; simp only [State.at_]; omega
    | @popRelease t timed v h => have k1 := key _ _ (.popRet timed (.item v)) h; simp [waits, active] at k1; simp only [State.at_]; omega
    | @popReleaseFail t h => have k1 := key _ _ (.popRet true .nothing) h; simp [waits, active] at k1; simp only [State.at_]; omega
    | popReturn h => have k1 := key _ _ .idle h; simp [waits, active] at k1; simp only [State.at_]; omega
    | callQuery size h => have k1 := key _ _ (.queryLock size) h; simp [waits, active] at k1; simp only [State.at_]; omega
    | @queryAcquire t size h _ => have k1 := key _ _ (.queryHeld size) h; simp [waits, active] at k1; simp only [State.at_]; omega
    | @queryDo t size h =>
      have k1 := key _ _ (.queried size (if size then .num s.items.length else .bool s.items.isEmpty)) h
      simp [waits, active] at k1; simp only [State.at_]; omega
    | @queryRelease t size r h => have k1 := key _ _ (.queryRet size r) h; simp [waits, active] at k1; simp only [State.at_]; omega
    | queryReturn h => have k1 := key _ _ .idle h; simp [waits, active] at k1; simp only [State.at_]; omega

end Verif.Conc
