import Verif.Task.Inv

/-!
# Invariants about the history
-/

namespace Verif.Task

theorem each_snoc {P : List Ev → Ev → Prop} {l : List Ev} {e : Ev} (h : Each P l) (he : P l e) :
    Each P (l ++ [e]) := by
  intro pre x post h1
  rcases List.eq_nil_or_concat post with h2 | ⟨q, y, h2⟩
  · subst h2
    have := List.append_inj' h1 rfl
    simp at this
    rw [← this.1, ← this.2]; exact he
  · subst h2
    have : l ++ [e] = (pre ++ x :: q) ++ [y] := by rw [h1]; simp
    have := List.append_inj' this rfl
    exact h pre x q this.1

theorem each_dropped {P : List Ev → Ev → Prop} {l : List Ev} {r : Nat} (L : List Work) (h : Each P l)
    (hd : ∀ pre w, P pre (.dropped r w)) : Each P (l ++ L.map (.dropped r)) := by
  induction L generalizing l with
  | nil => simpa using h
  | cons a L ih =>
    have := ih (each_snoc h (hd l a))
    simpa using this

theorem mem_set_ne {l : List Worker} {i : Nat} {a b x : Worker} (hx : x ∈ l) (hi : l[i]? = some a) (h : a ≠ x) :
    x ∈ l.set i b := by
  induction l generalizing i with
  | nil => simp at hx
  | cons y l ih =>
    cases i with
    | zero =>
      simp at hi
      simp only [List.set_cons_zero, List.mem_cons] at hx ⊢
      rcases hx with hx | hx
      · exact absurd (hi.symm.trans hx.symm) h
      · exact .inr hx
    | succ i =>
      simp at hi
      simp only [List.set_cons_succ, List.mem_cons] at hx ⊢
      rcases hx with hx | hx
      · exact .inl hx
      · exact .inr (ih hx hi)

theorem mem_of_getElem? {l : List Worker} {i : Nat} {a : Worker} (h : l[i]? = some a) : a ∈ l :=
  List.mem_of_getElem? h

variable {seq : Nat → Bool} {n : Nat} {s : State}

theorem reach_owner (h : Reach seq n s) : ∀ o, Ev.ownerDied o ∈ s.log → s.owner o = false := by
  induction h with
  | init => intro o h; simp [init] at h
  | @step s s' _ hs ih =>
    intro o
    cases hs with
    | @ownerDies o' =>
      intro ho
      simp only [State.emit, List.mem_append, List.mem_singleton] at ho ⊢
      by_cases e : o = o'
      · simp [upd, e]
      · have := ih o (ho.resolve_right (by simp [e]))
        simp [upd, e, this]
    | post =>
      obtain ⟨L, e, h, he, _⟩ := post_log seq { s with nextId := s.nextId + 1 } _ _
      rw [h]; rcases he with he | he <;> subst he <;> simpa using ih o
    | workerReply =>
      obtain ⟨L, e, h, he, _⟩ := post_log seq { s with nextId := s.nextId + 1 } _ _
      simp only [State.setWorker]; rw [h]; rcases he with he | he <;> subst he <;> simpa using ih o
    | @timerDue t i due r w =>
      obtain ⟨L, e, h, he, _⟩ := post_log seq { s with delayedTasks := s.delayedTasks.eraseIdx i } r w
      rw [h]; rcases he with he | he <;> subst he <;> simpa using ih o
    | workerComplete =>
      obtain ⟨L, h⟩ := complete_log seq s _
      simp only [State.setWorker]; rw [h]; simpa using ih o
    | _ => simpa [State.emit, State.setWorker] using ih o

/-- Time stamps are in the past. -/
theorem reach_time (h : Reach seq n s) :
    (∀ r w t, Ev.accepted r w t ∈ s.log → t ≤ s.now) ∧
    (∀ t, s.timer = .armed t → t ≤ s.now) ∧ (∀ t i, s.timer = .scanning t i → t ≤ s.now) := by
  induction h with
  | init => simp [init]
  | @step s s' _ hs ih =>
    obtain ⟨i1, i2, i3⟩ := ih
    cases hs with
    | tick =>
      refine ⟨fun r w t h => ?_, fun t h => ?_, fun t i h => ?_⟩
      · have := i1 r w t h; simp only; omega
      · have := i2 t h; simp only; omega
      · have := i3 t i h; simp only; omega
    | post =>
      obtain ⟨L, e, h, he, _⟩ := post_log seq { s with nextId := s.nextId + 1 } _ _
      rw [h]
      refine ⟨fun r w t h => ?_, by simpa using i2, by simpa using i3⟩
      rcases he with he | he <;> subst he <;> simp at h ⊢
      · rcases h with h | h
        · exact i1 r w t h
        · omega
      · exact i1 r w t h
    | workerReply =>
      obtain ⟨L, e, h, he, _⟩ := post_log seq { s with nextId := s.nextId + 1 } _ _
      simp only [State.setWorker]; rw [h]
      refine ⟨fun r w t h => ?_, by simpa using i2, by simpa using i3⟩
      rcases he with he | he <;> subst he <;> simp at h ⊢
      · rcases h with h | h
        · exact i1 r w t h
        · omega
      · exact i1 r w t h
    | @timerDue t i due r w =>
      obtain ⟨L, e, h, he, _⟩ := post_log seq { s with delayedTasks := s.delayedTasks.eraseIdx i } r w
      rw [h]
      refine ⟨fun r w t h => ?_, by simpa using i2, by simpa using i3⟩
      rcases he with he | he <;> subst he <;> simp at h ⊢
      · rcases h with h | h
        · exact i1 r w t h
        · omega
      · exact i1 r w t h
    | workerComplete =>
      obtain ⟨L, h⟩ := complete_log seq s _
      simp only [State.setWorker]; rw [h]
      refine ⟨by simpa using i1, by simpa using i2, by simpa using i3⟩
    | timerCheck h =>
      refine ⟨i1, fun t h => ?_, fun t i h => ?_⟩ <;> simp only at h
      · split at h <;> simp at h; exact Nat.le_of_eq h.symm
      · split at h <;> simp at h
    | timerLock h =>
      refine ⟨i1, fun t h => by simp at h, fun t i h2 => ?_⟩
      simp at h2
      exact h2.1 ▸ i2 _ h
    | timerNotDue h h1 h2 =>
      refine ⟨i1, fun t h => by simp at h, fun t i h2 => ?_⟩
      simp at h2
      exact h2.1 ▸ i3 _ _ h
    | timerDone => exact ⟨i1, fun t h => by simp at h, fun t i h => by simp at h⟩
    | start => exact ⟨by simpa [State.emit] using i1, fun t h => by simp [State.emit] at h, fun t i h => by simp [State.emit] at h⟩
    | _ =>
      exact ⟨by simpa [State.emit, State.setWorker] using i1, by simpa [State.emit, State.setWorker] using i2,
        by simpa [State.emit, State.setWorker] using i3⟩

theorem countP_eraseIdx {α : Type} {l : List α} {i : Nat} {a : α} (p : α → Bool) (h : l[i]? = some a) :
    (l.eraseIdx i).countP p + (p a).toNat = l.countP p := by
  induction l generalizing i with
  | nil => simp at h
  | cons x l ih =>
    cases i with
    | zero =>
      simp at h; subst h
      cases hp : p x <;> simp [List.countP_cons, hp]
    | succ i =>
      simp at h
      have := ih h
      simp only [List.eraseIdx_cons_succ, List.countP_cons]; omega

theorem handed_dropped (id r : Nat) (L : List Work) : (L.map (Ev.dropped r)).countP (handed id) = 0 := by
  induction L with
  | nil => rfl
  | cons a L ih => simp [handed]

theorem countP_one {α : Type} (p : α → Bool) (a : α) : [a].countP p = (p a).toNat := by
  cases h : p a <;> simp [h]

theorem handed_post {s : State} (id r : Nat) (w : Work) :
    (postInternal seq s r w).log.countP (handed id) =
      s.log.countP (handed id) + (w.id == id).toNat := by
  obtain ⟨L, e, h, he, _⟩ := post_log seq s r w
  rw [h, List.countP_append, List.countP_append, handed_dropped]
  rcases he with he | he <;> subst he <;> rw [countP_one] <;> simp [handed]

theorem handed_complete {s : State} (id r : Nat) :
    (taskComplete seq s r).log.countP (handed id) = s.log.countP (handed id) := by
  obtain ⟨L, h⟩ := complete_log seq s r
  rw [h, List.countP_append, handed_dropped]; rfl

/-- Every identity given out was handed over once or is waiting in the list of delayed tasks. -/
theorem reach_ids (h : Reach seq n s) (id : Nat) :
    (id < s.nextId → s.log.countP (handed id) + s.delayedTasks.countP (fun x => x.2.2.id == id) = 1) ∧
    (s.nextId ≤ id → s.log.countP (handed id) + s.delayedTasks.countP (fun x => x.2.2.id == id) = 0) := by
  induction h with
  | init => simp [init]
  | @step s s' _ hs ih =>
    have fresh : ∀ a : Nat, a = s.log.countP (handed id) + s.delayedTasks.countP (fun x => x.2.2.id == id) +
        (s.nextId == id).toNat → (id < s.nextId + 1 → a = 1) ∧ (s.nextId + 1 ≤ id → a = 0) := by
      intro a ha
      by_cases h2 : s.nextId = id
      · have := ih.2 (by omega); simp [h2] at ha; omega
      · have h3 : (s.nextId == id) = false := by simpa using h2
        rw [h3, Bool.toNat_false] at ha
        refine ⟨fun h => ?_, fun h => ?_⟩
        · have := ih.1 (by omega); omega
        · have := ih.2 (by omega); omega
    cases hs with
    | post =>
      rw [handed_post, post_nextId, post_delayedTasks]
      exact fresh _ (Nat.add_right_comm _ _ _)
    | workerReply =>
      simp only [State.setWorker]
      rw [handed_post, post_nextId, post_delayedTasks]
      exact fresh _ (Nat.add_right_comm _ _ _)
    | @timerDue t i due r w h1 h2 =>
      rw [handed_post]
      simp only [post_nextId, post_delayedTasks]
      have := countP_eraseIdx (fun x : Nat × Nat × Work => x.2.2.id == id) h2
      simp only at this
      rw [Nat.add_assoc, Nat.add_comm (w.id == id).toNat, this]; exact ih
    | workerComplete =>
      simp only [State.setWorker]
      rw [handed_complete]; simpa using ih
    | @timerExpire t i due r w h1 h2 =>
      have := countP_eraseIdx (fun x : Nat × Nat × Work => x.2.2.id == id) h2
      simp only at this
      have h3 : ([Ev.expired r w] : List Ev).countP (handed id) = (w.id == id).toNat := countP_one _ _
      simp only [State.emit, List.countP_append, h3]
      rw [Nat.add_assoc, Nat.add_comm (w.id == id).toNat, this]; exact ih
    | @postDelayed r ow hr d =>
      refine fresh _ ?_
      have h3 : ([(s.now + d, r, newWork s.nextId ow hr)] : List (Nat × Nat × Work)).countP
          (fun x => x.2.2.id == id) = (s.nextId == id).toNat := countP_one _ _
      simp only [State.emit, List.countP_append, h3]
      simp [List.countP_cons, handed, Nat.add_assoc]
    | @postDelayedFail r ow hr =>
      refine fresh _ ?_
      have h3 : ([Ev.rejected r (newWork s.nextId ow hr)] : List Ev).countP (handed id) = (s.nextId == id).toNat := countP_one _ _
      simp only [State.emit, List.countP_append, h3]
      exact Nat.add_right_comm _ _ _
    | _ => simpa [State.emit, State.setWorker, List.countP_append, List.countP_cons, handed] using ih

/-- Delayed tasks: the list is backed by the history, identities are fresh, nothing is accepted early. -/
theorem reach_delayed (h : Reach seq n s) :
    (∀ x ∈ s.delayedTasks, Ev.delayed x.2.1 x.2.2 x.1 ∈ s.log ∧ x.2.2.replyTo = none) ∧
    (∀ r w due, Ev.delayed r w due ∈ s.log → w.id < s.nextId) ∧
    (∀ r w due r' w' due', Ev.delayed r w due ∈ s.log → Ev.delayed r' w' due' ∈ s.log → w.id = w'.id →
      r = r' ∧ w = w' ∧ due = due') ∧
    (∀ r w due r' w' t, Ev.delayed r w due ∈ s.log → Ev.accepted r' w' t ∈ s.log → w.id = w'.id →
      r = r' ∧ w = w' ∧ due ≤ t) := by
  induction h with
  | init => simp [init]
  | @step s s' hr hs ih =>
    obtain ⟨i1, i2, i3, i4⟩ := ih
    have acc_lt : ∀ r w t, Ev.accepted r w t ∈ s.log → w.id < s.nextId := by
      intro r w t h
      have := reach_ids hr w.id
      have h2 : 0 < s.log.countP (handed w.id) := List.countP_pos_iff.mpr ⟨_, h, by simp [handed]⟩
      by_cases e : w.id < s.nextId
      · exact e
      · have := this.2 (by omega); omega
    cases hs with
    | @post r0 ow hr0 =>
      obtain ⟨L, e, h, he, _⟩ := post_log seq { s with nextId := s.nextId + 1 } r0 (newWork s.nextId ow hr0)
      rw [h]
      have hd : ∀ r w due, Ev.delayed r w due ∈ s.log ++ (L.map (.dropped r0) ++ [e]) ↔ Ev.delayed r w due ∈ s.log := by
        intro r w due; rcases he with he | he <;> subst he <;> simp
      simp only [hd, post_nextId, post_delayedTasks]
      refine ⟨i1, fun r w due h => Nat.lt_succ_of_lt (i2 r w due h), i3, ?_⟩
      intro r w due r' w' t h1 h2 h3
      rcases he with he | he <;> subst he <;> simp at h2
      · rcases h2 with h2 | ⟨_, h2, _⟩
        · exact i4 _ _ _ _ _ _ h1 h2 h3
        · have := i2 _ _ _ h1
          rw [h3, h2] at this; simp [newWork] at this
      · exact i4 _ _ _ _ _ _ h1 h2 h3
    | @workerReply i r0 w0 res =>
      obtain ⟨L, e, h, he, _⟩ := post_log seq { s with nextId := s.nextId + 1 } r0 (replyWork s.nextId w0 res)
      simp only [State.setWorker]; rw [h]
      have hd : ∀ r w due, Ev.delayed r w due ∈ s.log ++ (L.map (.dropped r0) ++ [e]) ↔ Ev.delayed r w due ∈ s.log := by
        intro r w due; rcases he with he | he <;> subst he <;> simp
      simp only [hd, post_nextId, post_delayedTasks]
      refine ⟨i1, fun r w due h => Nat.lt_succ_of_lt (i2 r w due h), i3, ?_⟩
      intro r w due r' w' t h1 h2 h3
      rcases he with he | he <;> subst he <;> simp at h2
      · rcases h2 with h2 | ⟨_, h2, _⟩
        · exact i4 _ _ _ _ _ _ h1 h2 h3
        · have := i2 _ _ _ h1
          rw [h3, h2] at this; simp [replyWork] at this
      · exact i4 _ _ _ _ _ _ h1 h2 h3
    | @timerDue t0 i due0 r0 w0 g1 g2 g3 g4 =>
      obtain ⟨L, e, h, he, _⟩ := post_log seq { s with delayedTasks := s.delayedTasks.eraseIdx i } r0 w0
      rw [h]
      have hd : ∀ r w due, Ev.delayed r w due ∈ s.log ++ (L.map (.dropped r0) ++ [e]) ↔ Ev.delayed r w due ∈ s.log := by
        intro r w due; rcases he with he | he <;> subst he <;> simp
      simp only [hd, post_nextId, post_delayedTasks]
      refine ⟨fun x hx => i1 x (List.mem_of_mem_eraseIdx hx), i2, i3, ?_⟩
      intro r w due r' w' t h1 h2 h3
      rcases he with he | he <;> subst he <;> simp at h2
      · rcases h2 with h2 | ⟨h21, h22, h23⟩
        · exact i4 _ _ _ _ _ _ h1 h2 h3
        · have hm := (i1 _ (List.mem_of_getElem? g2)).1
          subst h21 h22 h23
          obtain ⟨a, b, c⟩ := i3 _ _ _ _ _ _ h1 hm h3
          refine ⟨a, b, ?_⟩
          have := (reach_time hr).2.2 _ _ g1
          simp only at c; omega
      · exact i4 _ _ _ _ _ _ h1 h2 h3
    | workerComplete =>
      obtain ⟨L, h⟩ := complete_log seq s _
      simp only [State.setWorker]; rw [h]
      exact ⟨by simpa using i1, by simpa using i2,
        by simpa using i3, by simpa using i4⟩
    | @timerExpire t i due r w h1 h2 =>
      refine ⟨fun x hx => ?_, by simpa [State.emit] using i2, by simpa [State.emit] using i3, by simpa [State.emit] using i4⟩
      have := i1 x (List.mem_of_mem_eraseIdx hx)
      simpa [State.emit] using this
    | @postDelayed r0 ow hr0 delay =>
      simp only [State.emit, List.mem_append, List.mem_singleton, Ev.delayed.injEq, reduceCtorEq, or_false]
      refine ⟨fun x hx => ?_, fun r w due h => ?_, fun r w due r' w' due' h h' hw => ?_, fun r w due r' w' t h h' hw => ?_⟩
      · rcases hx with hx | hx
        · exact ⟨.inl (i1 x hx).1, (i1 x hx).2⟩
        · subst hx; exact ⟨.inr ⟨rfl, rfl, rfl⟩, rfl⟩
      · rcases h with h | ⟨_, h, _⟩
        · exact Nat.lt_succ_of_lt (i2 _ _ _ h)
        · subst h; simp [newWork]
      · rcases h with h | ⟨a, b, c⟩ <;> rcases h' with h' | ⟨a', b', c'⟩
        · exact i3 _ _ _ _ _ _ h h' hw
        · have := i2 _ _ _ h; rw [hw, b'] at this; simp [newWork] at this
        · have := i2 _ _ _ h'; rw [← hw, b] at this; simp [newWork] at this
        · exact ⟨a.trans a'.symm, b.trans b'.symm, c.trans c'.symm⟩
      · rcases h with h | ⟨a, b, c⟩
        · exact i4 _ _ _ _ _ _ h h' hw
        · have := acc_lt _ _ _ h'; rw [← hw, b] at this; simp [newWork] at this
    | postDelayedFail =>
      simp only [State.emit, List.mem_append, List.mem_singleton, reduceCtorEq, or_false]
      exact ⟨i1, fun r w due h => Nat.lt_succ_of_lt (i2 r w due h), i3, i4⟩
    | _ =>
      exact ⟨by simpa [State.emit, State.setWorker] using i1, by simpa [State.emit, State.setWorker] using i2,
        by simpa [State.emit, State.setWorker] using i3, by simpa [State.emit, State.setWorker] using i4⟩

end Verif.Task
