import Verif.Task.Lemmas

/-!
# Invariants of reachable states
-/

namespace Verif.Task

section fields
variable {seq : Nat → Bool} {s : State} {r : Nat} {w : Work}
@[simp] theorem post_now : (postInternal seq s r w).now = s.now := by
  unfold postInternal; split
  · rfl
  · split <;> rfl
@[simp] theorem complete_now : (taskComplete seq s r).now = s.now := by
  unfold taskComplete; split <;> rfl
@[simp] theorem post_keep : (postInternal seq s r w).keep = s.keep := by
  unfold postInternal; split
  · rfl
  · split <;> rfl
@[simp] theorem complete_keep : (taskComplete seq s r).keep = s.keep := by
  unfold taskComplete; split <;> rfl
@[simp] theorem post_stopping : (postInternal seq s r w).stopping = s.stopping := by
  unfold postInternal; split
  · rfl
  · split <;> rfl
@[simp] theorem complete_stopping : (taskComplete seq s r).stopping = s.stopping := by
  unfold taskComplete; split <;> rfl
@[simp] theorem post_manager : (postInternal seq s r w).manager = s.manager := by
  unfold postInternal; split
  · rfl
  · split <;> rfl
@[simp] theorem complete_manager : (taskComplete seq s r).manager = s.manager := by
  unfold taskComplete; split <;> rfl
@[simp] theorem post_live : (postInternal seq s r w).live = s.live := by
  unfold postInternal; split
  · rfl
  · split <;> rfl
@[simp] theorem complete_live : (taskComplete seq s r).live = s.live := by
  unfold taskComplete; split <;> rfl
@[simp] theorem post_owner : (postInternal seq s r w).owner = s.owner := by
  unfold postInternal; split
  · rfl
  · split <;> rfl
@[simp] theorem complete_owner : (taskComplete seq s r).owner = s.owner := by
  unfold taskComplete; split <;> rfl
@[simp] theorem post_delayedTasks : (postInternal seq s r w).delayedTasks = s.delayedTasks := by
  unfold postInternal; split
  · rfl
  · split <;> rfl
@[simp] theorem complete_delayedTasks : (taskComplete seq s r).delayedTasks = s.delayedTasks := by
  unfold taskComplete; split <;> rfl
@[simp] theorem post_timer : (postInternal seq s r w).timer = s.timer := by
  unfold postInternal; split
  · rfl
  · split <;> rfl
@[simp] theorem complete_timer : (taskComplete seq s r).timer = s.timer := by
  unfold taskComplete; split <;> rfl
@[simp] theorem post_nextId : (postInternal seq s r w).nextId = s.nextId := by
  unfold postInternal; split
  · rfl
  · split <;> rfl
@[simp] theorem complete_nextId : (taskComplete seq s r).nextId = s.nextId := by
  unfold taskComplete; split <;> rfl
attribute [simp] post_workers complete_workers

theorem post_log (seq : Nat → Bool) (s : State) (r : Nat) (w : Work) : ∃ (L : List Work) (e : Ev),
    (postInternal seq s r w).log = s.log ++ (L.map (.dropped r) ++ [e]) ∧
    (e = .accepted r w s.now ∨ e = .rejected r w) ∧ ((seq r = true ∧ s.manager = false) ∨ L = []) := by
  unfold postInternal
  by_cases h : seq r = true
  · rw [if_pos h]
    refine ⟨_, _, List.append_assoc _ _ _, by split <;> simp, ?_⟩
    cases hm : s.manager with
    | false => exact .inl ⟨h, rfl⟩
    | true =>
      right
      rcases maybePost_some (m := true) (R := s.runners r) (w := w) rfl with ⟨_, b⟩ | ⟨_, _, b⟩ | ⟨_, _, _, _, b⟩ <;>
        simp [b]
  · rw [if_neg h]
    split
    · exact ⟨[], _, rfl, .inl rfl, .inr rfl⟩
    · exact ⟨[], _, rfl, .inr rfl, .inr rfl⟩

theorem complete_log (seq : Nat → Bool) (s : State) (r : Nat) : ∃ L : List Work,
    (taskComplete seq s r).log = s.log ++ L.map (.dropped r) := by
  unfold taskComplete
  split
  · exact ⟨_, rfl⟩
  · exact ⟨[], by simp⟩
end fields

/-- The log only grows. -/
theorem step_log {seq : Nat → Bool} {n : Nat} {s s' : State} (h : Step seq n s s') :
    ∃ es, s'.log = s.log ++ es := by
  cases h with
  | post h => obtain ⟨L, e, h, _⟩ := post_log seq { s with nextId := s.nextId + 1 } _ _; exact ⟨_, h⟩
  | workerReply => obtain ⟨L, e, h, _⟩ := post_log seq { s with nextId := s.nextId + 1 } _ _; exact ⟨_, h⟩
  | @timerDue t i due r w =>
    obtain ⟨L, e, h, _⟩ := post_log seq { s with delayedTasks := s.delayedTasks.eraseIdx i } r w; exact ⟨_, h⟩
  | workerComplete => obtain ⟨L, h⟩ := complete_log seq s _; exact ⟨_, h⟩
  | _ => first | exact ⟨_, rfl⟩ | exact ⟨[], (List.append_nil _).symm⟩

theorem step_mem {seq : Nat → Bool} {n : Nat} {s s' : State} {e : Ev} (h : Step seq n s s') (he : e ∈ s.log) :
    e ∈ s'.log := by
  obtain ⟨es, h⟩ := step_log h
  rw [h]; simp [he]

/-- Workers exist only after a start, and stay. -/
theorem reach_workers {seq : Nat → Bool} {n : Nat} {s : State} (h : Reach seq n s) :
    s.workers ≠ [] → s.keep = true ∨ Ev.stopCalled ∈ s.log := by
  induction h with
  | init => intro h; simp [init] at h
  | @step s s' _ hs ih =>
    intro hw
    have keepOr : ∀ (h1 : s.workers ≠ []), (s'.keep = s.keep) → s'.keep = true ∨ Ev.stopCalled ∈ s'.log := by
      intro h1 h2
      rcases ih h1 with h | h
      · exact .inl (h2.trans h)
      · exact .inr (step_mem hs h)
    cases hs with
    | start => exact .inl rfl
    | stopCall => right; simp [State.emit]
    | _ =>
      first
        | exact keepOr (by simpa [State.emit, State.setWorker] using hw) (by simp [State.emit, State.setWorker])

theorem reach_linv {seq : Nat → Bool} {n : Nat} {s : State} (h : Reach seq n s) (r : Nat) :
    LInv (seq r) (view s r) := by
  induction h with
  | init =>
    refine ⟨fun _ => ?_, fun _ _ => ?_, fun _ => ⟨[], ?_, ?_, ?_⟩, fun _ => ⟨?_, fun w => ?_⟩⟩ <;>
      simp [view, init, queueOf, acceptedOn, takenOn]
  | @step s s' h hs ih => exact linv_step (carry_le s r) ih (step_lstep (reach_workers h) hs r)

theorem healthy_back {seq : Nat → Bool} {n : Nat} {s s' : State} {r : Nat} (hs : Step seq n s s')
    (h : healthy s' r = true) : healthy s r = true := by
  simp only [healthy, Bool.and_eq_true, Bool.not_eq_true', decide_eq_false_iff_not] at h ⊢
  obtain ⟨⟨h1, h2⟩, h3⟩ := h
  refine ⟨⟨fun e => h1 (step_mem hs e), ?_⟩, ?_⟩
  · cases hs <;> simp_all [State.emit, State.setWorker]
    rename_i r'
    by_cases e : r = r' <;> simp_all [upd]
  · cases hs <;> simp_all [State.emit, State.setWorker]

theorem reach_llive {seq : Nat → Bool} {n : Nat} {s : State} (h : Reach seq n s) (r : Nat)
    (hh : healthy s r = true) : LLive (seq r) (view s r) := by
  induction h with
  | init => exact ⟨fun _ e => by simp [view, init] at e, fun _ e => by simp [view, init] at e⟩
  | @step s s' h hs ih =>
    have h1 := healthy_back hs hh
    have := step_lstep (reach_workers h) hs r
    rw [h1] at this
    exact llive_step (reach_linv h r) (ih h1) this

end Verif.Task
