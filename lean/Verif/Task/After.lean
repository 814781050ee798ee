import Verif.Task.Stop

/-!
# What may still happen once `stop` was called, and what is never thrown away
-/

namespace Verif.Task

variable {seq : Nat → Bool} {n : Nat} {s : State}

/-- The tasks begun in a history. -/
def isBegun : Ev → Bool
  | .begun _ _ _ => true
  | _ => false

/-- Number of tasks begun since `stop` was called last. -/
def sinceStop (log : List Ev) : Nat :=
  log.foldl (fun k e => match e with | .stopCalled => 0 | .begun _ _ _ => k + 1 | _ => k) 0

/-- A worker that can still begin a task without testing the flag. -/
def Worker.ready : Worker → Bool
  | .checked _ _ => true
  | .holding _ _ => true
  | _ => false

def Worker.alive : Worker → Bool
  | .exited => false
  | _ => true

theorem sinceStop_append (l m : List Ev) (h1 : Ev.stopCalled ∉ m) :
    sinceStop (l ++ m) = sinceStop l + m.countP isBegun := by
  unfold sinceStop
  rw [List.foldl_append]
  generalize List.foldl _ 0 l = k
  induction m generalizing k with
  | nil => simp
  | cons e m ih =>
    have ih := ih (fun h => h1 (List.mem_cons_of_mem _ h))
    rw [List.foldl_cons, ih]
    cases e <;> simp [List.countP_cons, isBegun] <;> first | omega | skip
    · simp at h1

theorem sinceStop_stopCalled (l m : List Ev) (h1 : Ev.stopCalled ∉ m) :
    sinceStop (l ++ .stopCalled :: m) = m.countP isBegun := by
  have : l ++ .stopCalled :: m = (l ++ [.stopCalled]) ++ m := by simp
  rw [this, sinceStop_append _ _ h1]
  simp [sinceStop]

theorem post_log' (s : State) (r : Nat) (w : Work) :
    ∃ m, (postInternal seq s r w).log = s.log ++ m ∧ Ev.stopCalled ∉ m ∧ m.countP isBegun = 0 := by
  unfold postInternal
  split
  · refine ⟨_, by simp only [List.append_assoc]; rfl, ?_, ?_⟩
    · simp only [List.mem_append, List.mem_map, List.mem_singleton, not_or]
      refine ⟨by simp, ?_⟩
      split <;> simp
    · rw [List.countP_append, List.countP_eq_zero.2, List.countP_eq_zero.2]
      · intro a ha
        simp only [List.mem_singleton] at ha
        subst ha
        split <;> simp [isBegun]
      · intro a ha
        simp only [List.mem_map] at ha
        obtain ⟨x, _, rfl⟩ := ha
        simp [isBegun]
  · split
    · exact ⟨_, rfl, by simp, by simp [isBegun]⟩
    · exact ⟨_, rfl, by simp, by simp [isBegun]⟩

theorem post_sinceStop (s : State) (r : Nat) (w : Work) :
    sinceStop (postInternal seq s r w).log = sinceStop s.log := by
  obtain ⟨m, h1, h2, h3⟩ := post_log' (seq := seq) s r w
  rw [h1, sinceStop_append _ _ h2, h3]; rfl

theorem complete_sinceStop (s : State) (r : Nat) :
    sinceStop (taskComplete seq s r).log = sinceStop s.log := by
  unfold taskComplete
  split
  · simp only
    rw [sinceStop_append _ _ (by simp), List.countP_eq_zero.2]
    · rfl
    · intro a ha
      simp only [List.mem_map] at ha
      obtain ⟨x, _, rfl⟩ := ha
      simp [isBegun]
  · rfl

theorem emit_sinceStop (s : State) (e : Ev) (h1 : e ≠ .stopCalled) (h2 : isBegun e = false) :
    sinceStop (s.emit e).log = sinceStop s.log := by
  simp only [State.emit]
  rw [sinceStop_append _ _ (by simp [Ne.symm h1])]
  simp [h2]

theorem ready_le_alive (l : List Worker) : l.countP Worker.ready ≤ l.countP Worker.alive :=
  List.countP_mono_left fun x _ h => by cases x <;> simp_all [Worker.ready, Worker.alive]

/-- At most `n` threads are alive. -/
theorem reach_alive (h : Reach seq n s) : s.workers.countP Worker.alive ≤ n := by
  induction h with
  | init => simp [init]
  | @step s s' hr hs ih =>
    have set : ∀ {i : Nat} {a b : Worker}, s.workers[i]? = some a → a.alive = true →
        (s.workers.set i b).countP Worker.alive ≤ n := by
      intro i a b h1 h2
      have := countP_set' (b := b) Worker.alive h1
      have hb : b.alive.toNat ≤ 1 := by cases b.alive <;> simp
      simp [h2] at this
      omega
    cases hs with
    | start h1 h2 h3 =>
      obtain ⟨p1, p2, p3⟩ := reach_phase hr
      have hoff : phase s.log = .off := by
        cases hp : phase s.log with
        | off => rfl
        | on => have := p1.2 hp; simp [h2] at this
        | stopping => have := p2.2 hp; simp [h3] at this
      have hz : s.workers.countP Worker.alive = 0 := by
        rw [List.countP_eq_zero]
        intro a ha
        rw [(p3 hoff).1 a ha]; simp [Worker.alive]
      simp only [State.emit, List.countP_append, hz]
      simp [List.countP_replicate, Worker.alive]
    | post => rw [post_workers]; exact ih
    | timerDue => rw [post_workers]; exact ih
    | workerReply h1 => simp only [State.setWorker, post_workers]; exact set h1 rfl
    | workerComplete h1 => simp only [State.setWorker, complete_workers]; exact set h1 rfl
    | workerCheck h1 => exact set h1 rfl
    | workerTimeout h1 => exact set h1 rfl
    | workerPop h1 => exact set h1 rfl
    | workerGo h1 => exact set h1 rfl
    | workerStop h1 => exact set h1 rfl
    | workerLock h1 => exact set h1 rfl
    | workerNoRunner h1 => exact set h1 rfl
    | workerBegin h1 => exact set h1 rfl
    | workerNoOwner h1 => exact set h1 rfl
    | workerEnd h1 => exact set h1 rfl
    | workerNoReply h1 => exact set h1 rfl
    | _ => exact ih

theorem reach_sinceStop (h : Reach seq n s) (hk : s.keep = false) :
    sinceStop s.log + s.workers.countP Worker.ready ≤ n := by
  induction h with
  | init => simp [init, sinceStop]
  | @step s s' hr hs ih =>
    have set : ∀ {i : Nat} {a b : Worker}, s.workers[i]? = some a → (b.ready = true → a.ready = true) →
        (s.workers.set i b).countP Worker.ready ≤ s.workers.countP Worker.ready := by
      intro i a b h1 h2
      have := countP_set' (b := b) Worker.ready h1
      cases hb : b.ready <;> cases ha : a.ready <;> simp_all <;> omega
    cases hs with
    | start h1 h2 h3 => simp [State.emit] at hk
    | stopCall h1 =>
      have h2 := reach_alive hr
      have h3 := ready_le_alive s.workers
      simp only [State.emit]
      rw [sinceStop_stopCalled _ [] (by simp)]
      simp; omega
    | post =>
      rw [(post_frame _ _ _).2.2.1] at hk
      rw [post_workers, post_sinceStop]; exact ih hk
    | timerDue =>
      rw [(post_frame _ _ _).2.2.1] at hk
      rw [post_workers, post_sinceStop]; exact ih hk
    | @workerReply i r w res h1 =>
      simp only [State.setWorker] at hk ⊢
      rw [(post_frame _ _ _).2.2.1] at hk
      rw [post_workers, post_sinceStop]
      have := set (b := .completing r) h1 (by simp [Worker.ready])
      have := ih hk
      simp only; omega
    | workerComplete h1 =>
      simp only [State.setWorker] at hk ⊢
      rw [(complete_frame _ _).2.2.1] at hk
      rw [complete_workers, complete_sinceStop]
      have := set (b := .idle) h1 (by simp [Worker.ready])
      have := ih hk
      omega
    | workerCheck h1 =>
      have := set (b := if s.keep then .popping else .exited) h1 (by split <;> simp [Worker.ready])
      have := ih hk
      simp only [State.setWorker]; omega
    | workerTimeout h1 =>
      have := set (b := .idle) h1 (by simp [Worker.ready])
      have := ih hk
      simp only [State.setWorker]; omega
    | @workerPop i r w q h1 =>
      have := set (b := .popped r w) h1 (by simp [Worker.ready])
      have := ih hk
      simp only [State.setWorker]; omega
    | workerGo h1 h2 => simp only [State.setWorker] at hk; simp [h2] at hk
    | workerStop h1 =>
      have := set (b := .idle) h1 (by simp [Worker.ready])
      have := ih hk
      rw [emit_sinceStop _ _ (by simp) rfl]
      simp only [State.setWorker, State.emit]; omega
    | @workerLock i r w h1 =>
      have := set (b := .holding r w) h1 (by simp [Worker.ready])
      have := ih hk
      simp only [State.setWorker]; omega
    | workerNoRunner h1 =>
      have := set (b := .idle) h1 (by simp [Worker.ready])
      have := ih hk
      rw [emit_sinceStop _ _ (by simp) rfl]
      simp only [State.setWorker, State.emit]; omega
    | @workerBegin i r w h1 =>
      have h2 := countP_set' (b := .running r w) Worker.ready h1
      have := ih hk
      simp only [State.setWorker, State.emit]
      rw [sinceStop_append _ _ (by simp)]
      simp [Worker.ready, isBegun] at h2 ⊢
      omega
    | @workerNoOwner i r w h1 =>
      have := set (b := .completing r) h1 (by simp [Worker.ready])
      have := ih hk
      rw [emit_sinceStop _ _ (by simp) rfl]
      simp only [State.setWorker, State.emit]; omega
    | @workerEnd i r w res h1 =>
      have := set (b := .finished r w res) h1 (by simp [Worker.ready])
      have := ih hk
      rw [emit_sinceStop _ _ (by simp) rfl]
      simp only [State.setWorker, State.emit]; omega
    | @workerNoReply i r w res h1 =>
      have := set (b := .completing r) h1 (by simp [Worker.ready])
      have := ih hk
      simp only [State.setWorker]; omega
    | ownerDies => rw [emit_sinceStop _ _ (by simp) rfl]; exact ih hk
    | postDelayed => rw [emit_sinceStop _ _ (by simp) rfl]; exact ih hk
    | postDelayedFail => rw [emit_sinceStop _ _ (by simp) rfl]; exact ih hk
    | timerExpire => rw [emit_sinceStop _ _ (by simp) rfl]; exact ih hk
    | stopReturn => rw [emit_sinceStop _ _ (by simp) rfl]; exact ih hk
    | _ => exact ih hk

theorem phase_not_on (pre a : List Ev) (ha : Ev.started ∉ a) : phase (pre ++ .stopCalled :: a) ≠ .on := by
  unfold phase
  rw [List.foldl_append, List.foldl_cons]
  simp only
  have : ∀ (a : List Ev) (p : Phase), Ev.started ∉ a → p ≠ .on → a.foldl (fun p e =>
      match e with
      | .started => .on
      | .stopCalled => .stopping
      | .stopped => .off
      | _ => p) p ≠ Phase.on := by
    intro a
    induction a with
    | nil => intro p _ hp; exact hp
    | cons e a ih =>
      intro p h1 h2
      rw [List.foldl_cons]
      refine ih _ (fun h => h1 (List.mem_cons_of_mem _ h)) ?_
      cases e <;> simp_all
  exact this a _ ha (by simp)

/-- C48: once `stop` was called, every worker thread begins at most one more task, however long the
queue is, until the manager is started again. -/
theorem stop_abandons_queue (h : Reach seq n s) (pre post : List Ev) (hl : s.log = pre ++ .stopCalled :: post)
    (hns : Ev.started ∉ post) : post.countP isBegun ≤ n := by
  have hstop : Ev.stopCalled ∉ post := by
    intro hm
    obtain ⟨a, b, e⟩ := List.append_of_mem hm
    have h1 := (start_stop_alternate h (pre ++ .stopCalled :: a) b .stopCalled (by rw [hl, e]; simp)).2.1 rfl
    exact phase_not_on pre a (fun h => hns (by rw [e]; simp [h])) h1
  have hk : s.keep = false := by
    cases hk : s.keep with
    | false => rfl
    | true => exact absurd ((reach_phase h).1.1 hk) (by rw [hl]; exact phase_not_on pre post hns)
  have := reach_sinceStop h hk
  rw [hl, sinceStop_stopCalled _ _ hstop] at this
  omega

/-- C48, an example: two workers, three tasks; one is begun, then `stop` is called. -/
example : ∃ s, Reach (fun _ => false) 2 s ∧ ∃ pre post, s.log = pre ++ .stopCalled :: post ∧
    Ev.started ∉ post ∧ post.countP isBegun = 1 ∧ s.queue.length = 2 := by
  have r0 := Reach.init (seq := fun _ => false) (n := 2)
  have r1 := r0.step (.start rfl rfl rfl)
  have r2 := r1.step (.post (r := 0) (owner := none) (hasReply := false) rfl)
  have r3 := r2.step (.post (r := 0) (owner := none) (hasReply := false) rfl)
  have r4 := r3.step (.post (r := 0) (owner := none) (hasReply := false) rfl)
  have r5 := r4.step (.workerCheck (i := 0) rfl)
  have r6 := r5.step (.workerPop (i := 0) rfl rfl)
  have r7 := r6.step (.workerGo (i := 0) rfl rfl)
  have r8 := r7.step (.stopCall rfl)
  have r9 := r8.step (.workerLock (i := 0) rfl rfl)
  have r10 := r9.step (.workerBegin (i := 0) rfl rfl)
  exact ⟨_, r10, [.started, .accepted 0 ⟨0, none, false, none⟩ 0, .accepted 0 ⟨1, none, false, none⟩ 0,
    .accepted 0 ⟨2, none, false, none⟩ 0], [.begun 0 ⟨0, none, false, none⟩ 0], rfl, by decide, by decide, rfl⟩

/-! ## Nothing is thrown away while its runner and the manager exist -/

/-- C47: a delayed task is discarded only if the program had released its runner. -/
theorem delayed_discarded_only_released (h : Reach seq n s) (r : Nat) (w : Work) (he : Ev.expired r w ∈ s.log) :
    s.live r = false := by
  induction h with
  | init => simp [init] at he
  | @step s s' hr hs ih =>
    have postc : ∀ {s0 : State} {r' : Nat} {w' : Work}, Ev.expired r w ∈ (postInternal seq s0 r' w').log →
        Ev.expired r w ∈ s0.log := by
      intro s0 r' w' hm
      unfold postInternal at hm
      split at hm
      · simp only [List.mem_append, List.mem_map, List.mem_singleton] at hm
        rcases hm with (hm | ⟨_, _, hm⟩) | hm
        · exact hm
        · cases hm
        · split at hm <;> cases hm
      · split at hm
        · simp at hm; exact hm
        · simp at hm; exact hm
    have postl : ∀ {s0 : State} {r' : Nat} {w' : Work}, (postInternal seq s0 r' w').live = s0.live := by
      intro s0 r' w'
      unfold postInternal
      split
      · rfl
      · split <;> rfl
    cases hs with
    | @release r0 => simp only [upd]; split
                     · rfl
                     · exact ih he
    | post => rw [postl]; have h0 := postc he; exact ih h0
    | timerDue => rw [postl]; have h0 := postc he; exact ih h0
    | workerReply => simp only [State.setWorker] at he ⊢; rw [postl]; have h0 := postc he; exact ih h0
    | workerComplete =>
      simp only [State.setWorker, taskComplete] at he ⊢
      split at he
      · rename_i hseq
        rw [if_pos hseq]
        simp only [List.mem_append, List.mem_map] at he
        rcases he with he | ⟨_, _, he⟩
        · exact ih he
        · cases he
      · rename_i hseq
        rw [if_neg hseq]
        exact ih he
    | @timerExpire t i due r0 w0 h1 h2 h3 h4 =>
      simp only [State.emit, List.mem_append, List.mem_singleton] at he
      rcases he with he | he
      · exact ih he
      · cases he
        simp only [refd, Bool.or_eq_false_iff] at h4
        exact h4.1
    | _ =>
      first
      | exact ih he
      | (simp only [State.emit, State.setWorker, List.mem_append, List.mem_singleton] at he
         rcases he with he | he
         · exact ih he
         · cases he)

/-- A task with delay 0 whose runner is released before the timer gets to it. -/
example : ∃ s, Reach (fun _ => false) 1 s ∧ Ev.expired 0 ⟨0, none, false, none⟩ ∈ s.log := by
  have r0 := Reach.init (seq := fun _ => false) (n := 1)
  have r1 := r0.step (.start rfl rfl rfl)
  have r2 := r1.step (.postDelayed (r := 0) (owner := none) (hasReply := false) (delay := 0) rfl rfl (fun _ _ h => by cases h))
  have r3 := r2.step (.release (r := 0))
  have r4 := r3.step (.timerCheck rfl)
  have r5 := r4.step (.timerLock (t := 0) rfl)
  have r6 := r5.step (.timerExpire (t := 0) (i := 0) rfl rfl (by decide) rfl)
  exact ⟨_, r6, by decide⟩

/-- C46, C47: a task is refused only if the task manager is gone. -/
theorem rejected_only_without_manager (h : Reach seq n s) (r : Nat) (w : Work) (he : Ev.rejected r w ∈ s.log) :
    s.manager = false := by
  induction h with
  | init => simp [init] at he
  | @step s s' hr hs ih =>
    have mono : s.manager = false → s'.manager = false := by
      intro hm
      cases hs with
      | post => unfold postInternal; split
                · exact hm
                · split <;> exact hm
      | timerDue => unfold postInternal; split
                    · exact hm
                    · split <;> exact hm
      | workerReply => simp only [State.setWorker]; unfold postInternal; split
                       · exact hm
                       · split <;> exact hm
      | workerComplete => simp only [State.setWorker]; unfold taskComplete; split <;> exact hm
      | managerGone => rfl
      | _ => exact hm
    by_cases ho : Ev.rejected r w ∈ s.log
    · exact mono (ih ho)
    · apply mono
      have postc : ∀ {s0 : State} {r' : Nat} {w' : Work}, Ev.rejected r w ∈ (postInternal seq s0 r' w').log →
          Ev.rejected r w ∉ s0.log → s0.manager = false := by
        intro s0 r' w' hm hn
        unfold postInternal at hm
        split at hm
        · simp only [List.mem_append, List.mem_map, List.mem_singleton] at hm
          rcases hm with (hm | ⟨_, _, hm⟩) | hm
          · exact absurd hm hn
          · cases hm
          · split at hm
            · cases hm
            · rename_i hok
              cases hmm : s0.manager with
              | false => rfl
              | true =>
                exfalso
                apply hok
                rw [hmm]
                unfold maybePost
                cases hr : (s0.runners r').hasRunning <;> cases hp : (s0.runners r').pending <;> simp
        · split at hm
          · simp at hm; exact absurd hm hn
          · rename_i hmm; simpa using hmm
      cases hs with
      | post => exact postc (s0 := { s with nextId := s.nextId + 1 }) he ho
      | timerDue => exact postc (s0 := { s with delayedTasks := s.delayedTasks.eraseIdx _ }) he ho
      | workerReply => exact postc (s0 := { s with nextId := s.nextId + 1 }) he ho
      | postDelayedFail _ h2 => exact h2
      | workerComplete =>
        exfalso
        simp only [State.setWorker, taskComplete] at he
        split at he
        · simp only [List.mem_append, List.mem_map] at he
          rcases he with he | ⟨_, _, he⟩
          · exact ho he
          · cases he
        · exact ho he
      | _ =>
        exfalso
        first
        | exact ho he
        | (simp only [State.emit, State.setWorker, List.mem_append, List.mem_singleton] at he
           rcases he with he | he
           · exact ho he
           · cases he)

/-- A task posted to a runner that outlived its manager. -/
example : ∃ s, Reach (fun _ => false) 1 s ∧ Ev.rejected 0 ⟨0, none, false, none⟩ ∈ s.log := by
  have r0 := Reach.init (seq := fun _ => false) (n := 1)
  have r1 := r0.step (.managerGone rfl rfl (fun x h => by cases h))
  have r2 := r1.step (.post (r := 0) (owner := none) (hasReply := false) rfl)
  exact ⟨_, r2, by decide⟩

end Verif.Task
