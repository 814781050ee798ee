import Verif.Task.After

/-!
# A runner that was found gone stays gone
-/

namespace Verif.Task

variable {seq : Nat → Bool} {n : Nat} {s : State}

theorem refd_of_worker {i r : Nat} {a : Worker} (h : s.workers[i]? = some a) (ha : a.refs r = true) :
    refd s r = true := by
  simp only [refd, Bool.or_eq_true, List.any_eq_true]
  exact .inr ⟨a, List.mem_of_getElem? h, ha⟩

theorem refd_le {s' : State} {r : Nat} (hl : s'.live r = true → s.live r = true)
    (hw : ∀ x ∈ s'.workers, x.refs r = true → x ∈ s.workers ∨ refd s r = true) (h : refd s r = false) :
    refd s' r = false := by
  cases h' : refd s' r with
  | false => rfl
  | true =>
    have h0 := h
    simp only [refd, Bool.or_eq_true, List.any_eq_true, Bool.or_eq_false_iff, List.any_eq_false] at h' h
    rcases h' with h' | ⟨x, hx, h'⟩
    · exact absurd (hl h') (by simp [h.1])
    · rcases hw x hx h' with h2 | h2
      · exact absurd h' (h.2 x h2)
      · rw [h0] at h2; exact absurd h2 (by simp)

/-- Nobody can come to own a runner that nobody owns. -/
theorem gone_step {s' : State} (hs : Step seq n s s') (r : Nat) (h : refd s r = false) : refd s' r = false := by
  have moved : ∀ {i : Nat} {a b : Worker} {st : State}, s.workers[i]? = some a → st.live = s.live →
      st.workers = s.workers → (b.refs r = true → a.refs r = true ∨ refd s r = true) →
      refd (st.setWorker i b) r = false := by
    intro i a b st hi hl hw hb
    refine refd_le (s := s) (fun x => by rw [← hl]; exact x) (fun x hx hr => ?_) h
    simp only [State.setWorker, hw] at hx
    rcases List.mem_or_eq_of_mem_set hx with hx | hx
    · exact .inl hx
    · subst hx
      rcases hb hr with h2 | h2
      · exact .inr (refd_of_worker hi h2)
      · exact .inr h2
  have emit : ∀ {st : State} {e : Ev}, refd st r = false → refd (st.emit e) r = false := fun x => x
  cases hs with
  | @release r0 =>
    refine refd_le (s := s) (fun x => ?_) (fun x hx _ => .inl hx) h
    simp only [upd] at x
    split at x
    · cases x
    · exact x
  | post _ => exact refd_le (s := s) (fun x => by rw [post_live] at x; exact x) (fun x hx _ => .inl (by simpa using hx)) h
  | timerDue _ _ _ _ =>
    exact refd_le (s := s) (fun x => by rw [post_live] at x; exact x) (fun x hx _ => .inl (by simpa using hx)) h
  | workerCheck h1 => exact moved h1 rfl rfl (fun x => by split at x <;> simp [Worker.refs] at x)
  | workerTimeout h1 _ => exact moved h1 rfl rfl (fun x => by simp [Worker.refs] at x)
  | workerPop h1 _ => exact moved h1 rfl rfl (fun x => by simp [Worker.refs] at x)
  | workerGo h1 _ => exact moved h1 rfl rfl (fun x => by simp [Worker.refs] at x)
  | workerStop h1 _ => exact emit (moved h1 rfl rfl (fun x => by simp [Worker.refs] at x))
  | workerLock h1 h2 =>
    exact moved h1 rfl rfl (fun x => by simp only [Worker.refs, beq_iff_eq] at x; subst x; exact .inr h2)
  | workerNoRunner h1 _ => exact emit (moved h1 rfl rfl (fun x => by simp [Worker.refs] at x))
  | workerBegin h1 _ => exact emit (moved h1 rfl rfl (fun x => .inl (by simpa [Worker.refs] using x)))
  | workerNoOwner h1 _ => exact emit (moved h1 rfl rfl (fun x => .inl (by simpa [Worker.refs] using x)))
  | workerEnd h1 => exact emit (moved h1 rfl rfl (fun x => .inl (by simpa [Worker.refs] using x)))
  | workerReply h1 _ =>
    exact moved h1 (by rw [post_live]) (by simp) (fun x => .inl (by simpa [Worker.refs] using x))
  | workerNoReply h1 _ => exact moved h1 rfl rfl (fun x => .inl (by simpa [Worker.refs] using x))
  | workerComplete h1 => exact moved h1 (by rw [complete_live]) (by simp) (fun x => by simp [Worker.refs] at x)
  | start _ _ _ =>
    refine refd_le (s := s) (fun x => x) (fun x hx hr => ?_) h
    simp only [State.emit, List.mem_append] at hx
    rcases hx with hx | hx
    · exact .inl hx
    · rw [List.eq_of_mem_replicate hx] at hr; simp [Worker.refs] at hr
  | _ => exact h

/-- A runner for which a task was discarded is owned by nobody. -/
theorem reach_gone (h : Reach seq n s) (r : Nat) (w : Work) (he : Ev.expired r w ∈ s.log) : refd s r = false := by
  induction h with
  | init => simp [init] at he
  | @step s s' hr hs ih =>
    by_cases ho : Ev.expired r w ∈ s.log
    · exact gone_step hs r (ih ho)
    · have postc : ∀ {s0 : State} {r' : Nat} {w' : Work}, Ev.expired r w ∈ (postInternal seq s0 r' w').log →
          Ev.expired r w ∈ s0.log := by
        intro s0 r' w' hm
        obtain ⟨L, e, h, he, _⟩ := post_log seq s0 r' w'
        rw [h] at hm
        simp only [List.mem_append, List.mem_map, List.mem_singleton] at hm
        rcases hm with hm | ⟨_, _, hm⟩ | hm
        · exact hm
        · cases hm
        · rcases he with he | he <;> rw [he] at hm <;> cases hm
      cases hs with
      | post => exact absurd (postc he) ho
      | timerDue => exact absurd (postc he) ho
      | workerReply => simp only [State.setWorker] at he; exact absurd (postc he) ho
      | @workerComplete i r0 h1 =>
        simp only [State.setWorker] at he
        obtain ⟨L, h⟩ := complete_log seq s r0
        rw [h] at he
        simp only [List.mem_append, List.mem_map] at he
        rcases he with he | ⟨_, _, he⟩
        · exact absurd he ho
        · cases he
      | @timerExpire t i due r0 w0 h1 h2 h3 h4 =>
        simp only [State.emit, List.mem_append, List.mem_singleton] at he
        rcases he with he | he
        · exact absurd he ho
        · cases he; exact h4
      | _ =>
        first
        | exact absurd he ho
        | (simp only [State.emit, State.setWorker, List.mem_append, List.mem_singleton] at he
           rcases he with he | he
           · exact absurd he ho
           · cases he)

/-- The runner of an event that only an existing runner can cause. -/
def needsRunner : Ev → Option Nat
  | .begun r _ _ => some r
  | .ended r _ _ => some r
  | .accepted r _ _ => some r
  | .rejected r _ => some r
  | .delayed r _ _ => some r
  | _ => none

/-- C47: once a delayed task has been discarded for want of its runner, that runner never does anything
again: nothing is begun, ended, accepted, refused or delayed on it. So a delayed task is never
discarded while another task of its runner is still being executed. -/
theorem discarded_runner_is_gone (h : Reach seq n s) (pre post : List Ev) (r : Nat) (w : Work)
    (hl : s.log = pre ++ .expired r w :: post) (e : Ev) (he : e ∈ post) : needsRunner e ≠ some r := by
  have key : Each (fun pre e => ∀ r w, Ev.expired r w ∈ pre → needsRunner e ≠ some r) s.log := by
    clear hl he
    induction h with
    | init => intro pre e post h; simp [init] at h
    | @step s s' hr hs ih =>
      have gone : ∀ {r0 : Nat}, refd s r0 = true → ∀ r w, Ev.expired r w ∈ s.log → r0 ≠ r := by
        intro r0 h1 r w h2 h3
        subst h3
        rw [reach_gone hr _ _ h2] at h1
        cases h1
      have post : ∀ (s1 : State) (r0 : Nat) (w0 : Work), s1.log = s.log → refd s r0 = true →
          Each (fun pre e => ∀ r w, Ev.expired r w ∈ pre → needsRunner e ≠ some r) (postInternal seq s1 r0 w0).log := by
        intro s1 r0 w0 hl hw
        obtain ⟨L, e, h, he, _⟩ := post_log seq s1 r0 w0
        rw [h, ← List.append_assoc, hl]
        refine each_snoc (each_dropped L ih (fun _ _ _ _ _ => by simp [needsRunner])) ?_
        intro r w hm
        have hm' : Ev.expired r w ∈ s.log := by
          simp only [List.mem_append, List.mem_map] at hm
          rcases hm with hm | ⟨_, _, hm⟩
          · exact hm
          · cases hm
        have := gone hw r w hm'
        rcases he with he | he <;> subst he <;> simpa [needsRunner] using this
      have one : ∀ {e : Ev} {r0 : Nat}, refd s r0 = true → needsRunner e = some r0 →
          Each (fun pre e => ∀ r w, Ev.expired r w ∈ pre → needsRunner e ≠ some r) (s.log ++ [e]) := by
        intro e r0 h1 h2
        refine each_snoc ih (fun r w hm => ?_)
        rw [h2]
        simpa using gone h1 r w hm
      have free : ∀ {e : Ev}, needsRunner e = none →
          Each (fun pre e => ∀ r w, Ev.expired r w ∈ pre → needsRunner e ≠ some r) (s.log ++ [e]) :=
        fun h => each_snoc ih (fun r w _ => by rw [h]; simp)
      cases hs with
      | post h1 => exact post _ _ _ rfl h1
      | @workerReply i r0 w0 res h1 h2 =>
        exact post { s with nextId := s.nextId + 1 } _ _ rfl (refd_of_worker h1 (by simp [Worker.refs]))
      | @timerDue t i due r w h1 h2 h3 h4 =>
        exact post { s with delayedTasks := s.delayedTasks.eraseIdx i } _ _ rfl h4
      | @workerComplete i r0 h1 =>
        obtain ⟨L, h⟩ := complete_log seq s r0
        simp only [State.setWorker]
        rw [h]
        exact each_dropped L ih (fun _ _ _ _ _ => by simp [needsRunner])
      | workerBegin h1 _ => exact one (refd_of_worker h1 (by simp [Worker.refs])) rfl
      | workerEnd h1 => exact one (refd_of_worker h1 (by simp [Worker.refs])) rfl
      | postDelayed h1 _ _ => exact one h1 rfl
      | postDelayedFail h1 _ => exact one h1 rfl
      | start => exact free rfl
      | stopCall => exact free rfl
      | stopReturn => exact free rfl
      | workerStop => exact free rfl
      | workerNoRunner => exact free rfl
      | workerNoOwner => exact free rfl
      | ownerDies => exact free rfl
      | timerExpire => exact free rfl
      | _ => exact ih
  obtain ⟨a, b, hb⟩ := List.append_of_mem he
  exact key (pre ++ .expired r w :: a) e b (by rw [hl, hb]; simp) r w (by simp)

/-- A delayed task whose runner the program released is discarded when it is due. -/
example : ∃ s, Reach (fun _ => true) 1 s ∧ ∃ pre post, s.log = pre ++ .expired 0 ⟨0, none, false, none⟩ :: post ∧
    post = [.accepted 1 ⟨1, none, false, none⟩ 5] := by
  have r1 := (Reach.init (seq := fun _ => true) (n := 1)).step (.start rfl rfl rfl)
  have r2 := r1.step (.postDelayed (r := 0) (owner := none) (hasReply := false) (delay := 5) rfl rfl (fun _ _ h => nomatch h))
  have r3 := r2.step (.release (r := 0))
  have r4 := r3.step (.tick (d := 5))
  have r5 := r4.step (.timerCheck rfl)
  have r6 := r5.step (.timerLock (t := 5) rfl)
  have r7 := r6.step (.timerExpire (i := 0) rfl rfl (Nat.le_refl 5) rfl)
  have r8 := r7.step (.post (r := 1) (owner := none) (hasReply := false) rfl)
  exact ⟨_, r8, [.started, .delayed 0 ⟨0, none, false, none⟩ 5], _, rfl, rfl⟩

end Verif.Task
