import Verif.Task.Events

/-!
# Every event is justified by the history before it
-/

namespace Verif.Task

variable {seq : Nat → Bool} {n : Nat} {s : State}

theorem phase_snoc (l : List Ev) (e : Ev) :
    phase (l ++ [e]) = match e with
      | .started => .on
      | .stopCalled => .stopping
      | .stopped => .off
      | _ => phase l := by
  simp only [phase, List.foldl_append, List.foldl_cons, List.foldl_nil]
  cases e <;> rfl

theorem phase_dropped (l : List Ev) (r : Nat) (L : List Work) : phase (l ++ L.map (.dropped r)) = phase l := by
  induction L generalizing l with
  | nil => simp
  | cons a L ih =>
    have := ih (l ++ [.dropped r a])
    rw [phase_snoc] at this
    simpa using this

theorem phase_post (s : State) (r : Nat) (w : Work) : phase (postInternal seq s r w).log = phase s.log := by
  obtain ⟨L, e, h, he, _⟩ := post_log seq s r w
  rw [h, ← List.append_assoc, phase_snoc]
  rcases he with he | he <;> subst he <;> exact phase_dropped _ _ _

theorem phase_complete (s : State) (r : Nat) : phase (taskComplete seq s r).log = phase s.log := by
  obtain ⟨L, h⟩ := complete_log seq s r
  rw [h, phase_dropped]

/-- The flags follow the history, and when the manager is off all its threads are gone. -/
theorem reach_phase (h : Reach seq n s) :
    (s.keep = true ↔ phase s.log = .on) ∧ (s.stopping = true ↔ phase s.log = .stopping) ∧
    (phase s.log = .off → (∀ x ∈ s.workers, x = .exited) ∧ s.timer = .exited) := by
  induction h with
  | init => simp [init, phase]
  | @step s s' _ hs ih =>
    obtain ⟨i1, i2, i3⟩ := ih
    have noWorker : ∀ {i : Nat} {a : Worker}, s.workers[i]? = some a → a ≠ .exited → phase s.log = .off → False :=
      fun h1 h2 h3 => h2 ((i3 h3).1 _ (List.mem_of_getElem? h1))
    cases hs with
    | post => rw [phase_post]; simpa using ⟨i1, i2, i3⟩
    | workerReply h1 =>
      simp only [State.setWorker]; rw [phase_post]
      exact ⟨by simpa using i1, by simpa using i2, fun h => (noWorker h1 (by simp) h).elim⟩
    | timerDue h1 =>
      rw [phase_post]
      exact ⟨by simpa using i1, by simpa using i2, fun h => by have := (i3 h).2; simp [h1] at this⟩
    | workerComplete h1 =>
      simp only [State.setWorker]; rw [phase_complete]
      exact ⟨by simpa using i1, by simpa using i2, fun h => (noWorker h1 (by simp) h).elim⟩
    | workerCheck h1 => exact ⟨i1, i2, fun h => (noWorker h1 (by simp) h).elim⟩
    | workerTimeout h1 => exact ⟨i1, i2, fun h => (noWorker h1 (by simp) h).elim⟩
    | workerPop h1 => exact ⟨i1, i2, fun h => (noWorker h1 (by simp) h).elim⟩
    | workerGo h1 => exact ⟨i1, i2, fun h => (noWorker h1 (by simp) h).elim⟩
    | workerLock h1 => exact ⟨i1, i2, fun h => (noWorker h1 (by simp) h).elim⟩
    | workerNoReply h1 => exact ⟨i1, i2, fun h => (noWorker h1 (by simp) h).elim⟩
    | workerStop h1 =>
      simp only [State.emit, phase_snoc]; exact ⟨i1, i2, fun h => (noWorker h1 (by simp) h).elim⟩
    | workerNoRunner h1 =>
      simp only [State.emit, phase_snoc]; exact ⟨i1, i2, fun h => (noWorker h1 (by simp) h).elim⟩
    | workerBegin h1 =>
      simp only [State.emit, phase_snoc]; exact ⟨i1, i2, fun h => (noWorker h1 (by simp) h).elim⟩
    | workerNoOwner h1 =>
      simp only [State.emit, phase_snoc]; exact ⟨i1, i2, fun h => (noWorker h1 (by simp) h).elim⟩
    | workerEnd h1 =>
      simp only [State.emit, phase_snoc]; exact ⟨i1, i2, fun h => (noWorker h1 (by simp) h).elim⟩
    | timerCheck h1 => exact ⟨i1, i2, fun h => by have := (i3 h).2; simp [h1] at this⟩
    | timerLock h1 => exact ⟨i1, i2, fun h => by have := (i3 h).2; simp [h1] at this⟩
    | timerNotDue h1 => exact ⟨i1, i2, fun h => by have := (i3 h).2; simp [h1] at this⟩
    | timerDone h1 => exact ⟨i1, i2, fun h => by have := (i3 h).2; simp [h1] at this⟩
    | timerExpire h1 =>
      simp only [State.emit, phase_snoc]
      exact ⟨i1, i2, fun h => by have := (i3 h).2; simp [h1] at this⟩
    | start h1 h2 h3 => simp only [State.emit, phase_snoc]; simp [h3]
    | stopCall => simp only [State.emit, phase_snoc]; simp
    | stopReturn h1 h2 h3 =>
      simp only [State.emit, phase_snoc]
      have : s.keep = false := by
        rw [i2] at h1
        cases hk : s.keep with
        | false => rfl
        | true => rw [i1, h1] at hk; simp at hk
      simp [this, h3]; exact h2
    | ownerDies => simp only [State.emit, phase_snoc]; exact ⟨i1, i2, i3⟩
    | postDelayed => simp only [State.emit, phase_snoc]; exact ⟨i1, i2, i3⟩
    | postDelayedFail => simp only [State.emit, phase_snoc]; exact ⟨i1, i2, i3⟩
    | tick => exact ⟨i1, i2, i3⟩
    | release => exact ⟨i1, i2, i3⟩
    | managerGone => exact ⟨i1, i2, i3⟩

theorem mem_set {l : List Worker} {i : Nat} {b x : Worker} (h : x ∈ l.set i b) : x ∈ l ∨ x = b :=
  List.mem_or_eq_of_mem_set h

/-- What is known of the user's functions. -/
theorem reach_running (h : Reach seq n s) :
    (∀ r w, Worker.running r w ∈ s.workers → ∃ t, Ev.begun r w t ∈ s.log) ∧
    (∀ r w res, Worker.finished r w res ∈ s.workers → Ev.ended r w res ∈ s.log) ∧
    (∀ r w t, Ev.begun r w t ∈ s.log → (∃ res, Ev.ended r w res ∈ s.log) ∨ Worker.running r w ∈ s.workers) := by
  induction h with
  | init => simp [init]
  | @step s s' _ hs ih =>
    obtain ⟨i1, i2, i3⟩ := ih
    -- a worker's move that neither begins nor ends a function
    have move : ∀ {i : Nat} {a : Worker} (b : Worker), s.workers[i]? = some a →
        (∀ r w, a ≠ .running r w) → (∀ r w, b ≠ .running r w) → (∀ r w res, b ≠ .finished r w res) →
        (∀ r w, Worker.running r w ∈ s.workers.set i b → ∃ t, Ev.begun r w t ∈ s.log) ∧
        (∀ r w res, Worker.finished r w res ∈ s.workers.set i b → Ev.ended r w res ∈ s.log) ∧
        (∀ r w t, Ev.begun r w t ∈ s.log →
          (∃ res, Ev.ended r w res ∈ s.log) ∨ Worker.running r w ∈ s.workers.set i b) := by
      intro i a b h1 h2 h3 h4
      refine ⟨fun r w h => ?_, fun r w res h => ?_, fun r w t h => ?_⟩
      · rcases mem_set h with h | h
        · exact i1 r w h
        · exact absurd h.symm (h3 r w)
      · rcases mem_set h with h | h
        · exact i2 r w res h
        · exact absurd h.symm (h4 r w res)
      · rcases i3 r w t h with h | h
        · exact .inl h
        · exact .inr (mem_set_ne h h1 (h2 r w))
    have grow : ∀ {W : List Worker} {L L' : List Ev}, L' = s.log ++ L →
        (∀ r w t, Ev.begun r w t ∉ L) →
        ((∀ r w, Worker.running r w ∈ W → ∃ t, Ev.begun r w t ∈ s.log) ∧
        (∀ r w res, Worker.finished r w res ∈ W → Ev.ended r w res ∈ s.log) ∧
        (∀ r w t, Ev.begun r w t ∈ s.log → (∃ res, Ev.ended r w res ∈ s.log) ∨ Worker.running r w ∈ W)) →
        ((∀ r w, Worker.running r w ∈ W → ∃ t, Ev.begun r w t ∈ L') ∧
        (∀ r w res, Worker.finished r w res ∈ W → Ev.ended r w res ∈ L') ∧
        (∀ r w t, Ev.begun r w t ∈ L' → (∃ res, Ev.ended r w res ∈ L') ∨ Worker.running r w ∈ W)) := by
      intro W L L' he hL ⟨j1, j2, j3⟩
      subst he
      refine ⟨fun r w h => ?_, fun r w res h => ?_, fun r w t h => ?_⟩
      · obtain ⟨t, h⟩ := j1 r w h; exact ⟨t, by simp [h]⟩
      · simp [j2 r w res h]
      · simp only [List.mem_append] at h ⊢
        rcases h with h | h
        · rcases j3 r w t h with ⟨res, h⟩ | h
          · exact .inl ⟨res, .inl h⟩
          · exact .inr h
        · exact absurd h (hL r w t)
    cases hs with
    | @post r0 ow hr =>
      obtain ⟨L, e, h, he, _⟩ := post_log seq { s with nextId := s.nextId + 1 } r0 (newWork s.nextId ow hr)
      rw [post_workers]
      refine grow h ?_ ⟨i1, i2, i3⟩
      rcases he with he | he <;> subst he <;> simp
    | @workerReply i r0 w0 res h1 =>
      obtain ⟨L, e, h, he, _⟩ := post_log seq { s with nextId := s.nextId + 1 } r0 (replyWork s.nextId w0 res)
      simp only [State.setWorker]
      rw [post_workers]
      refine grow h ?_ (move _ h1 (by simp) (by simp) (by simp))
      rcases he with he | he <;> subst he <;> simp
    | @timerDue t i due r w h1 =>
      obtain ⟨L, e, h, he, _⟩ := post_log seq { s with delayedTasks := s.delayedTasks.eraseIdx i } r w
      rw [post_workers]
      refine grow h ?_ ⟨i1, i2, i3⟩
      rcases he with he | he <;> subst he <;> simp
    | @workerComplete i r h1 =>
      obtain ⟨L, h⟩ := complete_log seq s r
      simp only [State.setWorker]
      rw [complete_workers]
      exact grow h (by simp) (move _ h1 (by simp) (by simp) (by simp))
    | workerCheck h1 => exact move _ h1 (by simp) (by intros; split <;> simp) (by intros; split <;> simp)
    | workerTimeout h1 => exact move _ h1 (by simp) (by simp) (by simp)
    | workerPop h1 => exact move _ h1 (by simp) (by simp) (by simp)
    | workerGo h1 => exact move _ h1 (by simp) (by simp) (by simp)
    | workerLock h1 => exact move _ h1 (by simp) (by simp) (by simp)
    | workerNoReply h1 => exact move _ h1 (by simp) (by simp) (by simp)
    | workerStop h1 => exact grow rfl (by simp) (move _ h1 (by simp) (by simp) (by simp))
    | workerNoRunner h1 => exact grow rfl (by simp) (move _ h1 (by simp) (by simp) (by simp))
    | workerNoOwner h1 => exact grow rfl (by simp) (move _ h1 (by simp) (by simp) (by simp))
    | @workerBegin i r0 w0 h1 =>
      simp only [State.emit, State.setWorker, List.mem_append, List.mem_singleton]
      refine ⟨fun r w h => ?_, fun r w res h => ?_, fun r w t h => ?_⟩
      · rcases mem_set h with h | h
        · obtain ⟨t, h⟩ := i1 r w h; exact ⟨t, .inl h⟩
        · simp at h; obtain ⟨rfl, rfl⟩ := h; exact ⟨s.now, .inr rfl⟩
      · rcases mem_set h with h | h
        · exact .inl (i2 r w res h)
        · simp at h
      · rcases h with h | h
        · rcases i3 r w t h with ⟨res, h⟩ | h
          · exact .inl ⟨res, .inl h⟩
          · exact .inr (mem_set_ne h h1 (by simp))
        · simp at h; obtain ⟨rfl, rfl, _⟩ := h
          have hl : i < s.workers.length := by
            by_cases hl : i < s.workers.length
            · exact hl
            · simp [List.getElem?_eq_none (Nat.le_of_not_lt hl)] at h1
          exact .inr (List.mem_set hl _)
    | @workerEnd i r0 w0 res0 h1 =>
      simp only [State.emit, State.setWorker, List.mem_append, List.mem_singleton]
      refine ⟨fun r w h => ?_, fun r w res h => ?_, fun r w t h => ?_⟩
      · rcases mem_set h with h | h
        · obtain ⟨t, h⟩ := i1 r w h; exact ⟨t, .inl h⟩
        · simp at h
      · rcases mem_set h with h | h
        · exact .inl (i2 r w res h)
        · simp at h; obtain ⟨rfl, rfl, rfl⟩ := h; exact .inr rfl
      · simp at h
        by_cases e : r = r0 ∧ w = w0
        · obtain ⟨rfl, rfl⟩ := e
          exact .inl ⟨res0, .inr rfl⟩
        · rcases i3 r w t h with ⟨res, h⟩ | h
          · exact .inl ⟨res, .inl h⟩
          · refine .inr (mem_set_ne h h1 ?_)
            intro e2; simp at e2; exact e ⟨e2.1.symm, e2.2.symm⟩
    | start h1 h2 h3 =>
      refine grow rfl (by simp) ⟨fun r w h => i1 r w ?_, fun r w res h => i2 r w res ?_, fun r w t h => ?_⟩
      · simpa [State.emit] using h
      · simpa [State.emit] using h
      · rcases i3 r w t h with h | h
        · exact .inl h
        · right; simp [State.emit, h]
    | stopCall => exact grow rfl (by simp) ⟨i1, i2, i3⟩
    | stopReturn h1 h2 h3 => exact grow rfl (by simp) ⟨i1, i2, i3⟩
    | timerExpire => exact grow rfl (by simp) ⟨i1, i2, i3⟩
    | ownerDies => exact grow rfl (by simp) ⟨i1, i2, i3⟩
    | postDelayed => exact grow rfl (by simp) ⟨i1, i2, i3⟩
    | postDelayedFail => exact grow rfl (by simp) ⟨i1, i2, i3⟩
    | _ => exact ⟨i1, i2, i3⟩

/-- The tasks a worker carries were accepted. -/
theorem carried_accepted (h : Reach seq n s) {i r : Nat} {w : Work} {a : Worker} (hi : s.workers[i]? = some a)
    (hc : a.carries r w = true) : ∃ t, t ≤ s.now ∧ Ev.accepted r w t ∈ s.log := by
  have h1 : 0 < (view s r).carry w := List.countP_pos_iff.mpr ⟨a, List.mem_of_getElem? hi, hc⟩
  have h2 : 0 < (view s r).acc.count w := by
    cases hs : seq r with
    | true =>
      obtain ⟨mid, _, b, c⟩ := (reach_linv h r).order hs
      have := c w
      rw [b]; simp only [List.count_append]; omega
    | false =>
      have := (reach_linv h r).par hs |>.2 w
      omega
  have h3 : w ∈ acceptedOn r s.log := List.count_pos_iff.mp h2
  simp only [acceptedOn, List.mem_filterMap] at h3
  obtain ⟨e, he, h4⟩ := h3
  cases e <;> simp at h4
  obtain ⟨rfl, rfl⟩ := h4
  exact ⟨_, (reach_time h).1 _ _ _ he, he⟩

/-- What must have happened before an event. -/
def Justified (pre : List Ev) : Ev → Prop
  | .begun r w t => (∃ t', t' ≤ t ∧ Ev.accepted r w t' ∈ pre) ∧
      (∀ o, w.owner = some o → Ev.ownerDied o ∉ pre) ∧ phase pre ≠ .off
  | .accepted r w _ => ∀ id res, w.replyTo = some (id, res) →
      ∃ w0 : Work, w0.id = id ∧ w0.hasReply = true ∧ w0.owner = w.owner ∧ Ev.ended r w0 res ∈ pre
  | .ended r w _ => ∃ t, Ev.begun r w t ∈ pre
  | .started => phase pre = .off
  | .stopCalled => phase pre = .on
  | .stopped => phase pre = .stopping ∧ ∀ r w t, Ev.begun r w t ∈ pre → ∃ res, Ev.ended r w res ∈ pre
  | _ => True

theorem reach_justified (h : Reach seq n s) : Each Justified s.log := by
  induction h with
  | init => intro pre e post h; simp [init] at h
  | @step s s' hr hs ih =>
    have post : ∀ (s1 : State) (r : Nat) (w : Work), s1.log = s.log →
        (∀ id res, w.replyTo = some (id, res) →
          ∃ w0 : Work, w0.id = id ∧ w0.hasReply = true ∧ w0.owner = w.owner ∧ Ev.ended r w0 res ∈ s.log) →
        Each Justified (postInternal seq s1 r w).log := by
      intro s1 r w hl hw
      obtain ⟨L, e, h, he, _⟩ := post_log seq s1 r w
      rw [h, ← List.append_assoc, hl]
      refine each_snoc (each_dropped L ih (fun _ _ => trivial)) ?_
      rcases he with he | he <;> subst he
      · intro id res h1
        obtain ⟨w0, a, b, c, d⟩ := hw id res h1
        exact ⟨w0, a, b, c, by simp [d]⟩
      · trivial
    cases hs with
    | post => exact post _ _ _ rfl (by simp [newWork])
    | @workerReply i r0 w0 res h1 h2 =>
      refine post { s with nextId := s.nextId + 1 } _ _ rfl ?_
      intro id res' h
      simp [replyWork] at h
      obtain ⟨rfl, rfl⟩ := h
      exact ⟨w0, rfl, h2, rfl, (reach_running hr).2.1 _ _ _ (List.mem_of_getElem? h1)⟩
    | @timerDue t i due r w h1 h2 h3 h4 =>
      refine post { s with delayedTasks := s.delayedTasks.eraseIdx i } _ _ rfl ?_
      intro id res h
      have := ((reach_delayed hr).1 _ (List.mem_of_getElem? h2)).2
      simp only at this
      rw [this] at h; simp at h
    | @workerComplete i r h1 =>
      obtain ⟨L, h⟩ := complete_log seq s r
      simp only [State.setWorker]
      rw [h]
      exact each_dropped L ih (fun _ _ => trivial)
    | @workerBegin i r w h1 h2 =>
      refine each_snoc ih ⟨carried_accepted hr h1 (by simp [Worker.carries]), ?_, ?_⟩
      · intro o ho hd
        have := reach_owner hr o hd
        simp [ownerAlive, ho, this] at h2
      · intro hp
        have := ((reach_phase hr).2.2 hp).1 _ (List.mem_of_getElem? h1)
        simp at this
    | workerEnd h1 => exact each_snoc ih ((reach_running hr).1 _ _ (List.mem_of_getElem? h1))
    | start h1 h2 h3 =>
      refine each_snoc ih ?_
      obtain ⟨a, b, _⟩ := reach_phase hr
      show phase s.log = .off
      cases hp : phase s.log with
      | off => rfl
      | on => rw [hp] at a; simp [h2] at a
      | stopping => rw [hp] at b; simp [h3] at b
    | stopCall h => exact each_snoc ih ((reach_phase hr).1.mp h)
    | stopReturn h1 h2 h3 =>
      refine each_snoc ih ⟨(reach_phase hr).2.1.mp h1, fun r w t h => ?_⟩
      rcases (reach_running hr).2.2 r w t h with h | h
      · exact h
      · have := h2 _ h; simp at this
    | workerStop => exact each_snoc ih trivial
    | workerNoRunner => exact each_snoc ih trivial
    | workerNoOwner => exact each_snoc ih trivial
    | ownerDies => exact each_snoc ih trivial
    | postDelayed => exact each_snoc ih trivial
    | postDelayedFail => exact each_snoc ih trivial
    | timerExpire => exact each_snoc ih trivial
    | _ => exact ih

/-- The worker executes this task, or has executed it and is about to post its reply. -/
def Worker.executes (id : Nat) : Worker → Bool
  | .running _ w => w.id == id
  | .finished _ w _ => w.id == id
  | _ => false

theorem countP_set' {l : List Worker} {i : Nat} {a b : Worker} (p : Worker → Bool) (h : l[i]? = some a) :
    (l.set i b).countP p + (p a).toNat = l.countP p + (p b).toNat := by
  have := countP_set (b := b) p h
  cases h1 : p a <;> cases h2 : p b <;> simp_all

theorem count_post (p : Ev → Bool) (s : State) (r : Nat) (w : Work) (hd : ∀ x, p (.dropped r x) = false)
    (hp : p (.accepted r w s.now) = p (.rejected r w)) :
    (postInternal seq s r w).log.countP p = s.log.countP p + (p (.rejected r w)).toNat := by
  obtain ⟨L, e, h, he, _⟩ := post_log seq s r w
  have : (L.map (Ev.dropped r)).countP p = 0 := by simp [hd]
  rw [h, List.countP_append, List.countP_append, this]
  rcases he with he | he <;> subst he <;> rw [countP_one] <;> simp [hp]

theorem count_complete (p : Ev → Bool) (s : State) (r : Nat) (hd : ∀ x, p (.dropped r x) = false) :
    (taskComplete seq s r).log.countP p = s.log.countP p := by
  obtain ⟨L, h⟩ := complete_log seq s r
  have : (L.map (Ev.dropped r)).countP p = 0 := by simp [hd]
  rw [h, List.countP_append, this]; rfl

/-- Each beginning of a task is followed by at most one reply. -/
theorem reach_replies (h : Reach seq n s) (id : Nat) :
    s.log.countP (repliedTo id) + s.workers.countP (Worker.executes id) ≤ s.log.countP (begins id) := by
  induction h with
  | init => simp [init]
  | @step s s' hr hs ih =>
    have mv : ∀ {i : Nat} {a : Worker} (b : Worker), s.workers[i]? = some a → a.executes id = false →
        b.executes id = false → (s.workers.set i b).countP (Worker.executes id) = s.workers.countP (Worker.executes id) := by
      intro i a b h1 h2 h3
      have := countP_set' (b := b) (Worker.executes id) h1
      simpa [h2, h3] using this
    cases hs with
    | post =>
      rw [count_post _ _ _ _ (fun _ => rfl) rfl, count_post _ _ _ _ (fun _ => rfl) rfl, post_workers]
      exact ih
    | @timerDue t i due r w h1 h2 =>
      have : w.replyTo = none := ((reach_delayed hr).1 _ (List.mem_of_getElem? h2)).2
      rw [count_post _ _ _ _ (fun _ => rfl) rfl, count_post _ _ _ _ (fun _ => rfl) rfl, post_workers]
      simpa [repliedTo, begins, this] using ih
    | @workerReply i r w res h1 =>
      simp only [State.setWorker]
      rw [count_post _ _ _ _ (fun _ => rfl) rfl, count_post _ _ _ _ (fun _ => rfl) rfl, post_workers]
      have := countP_set' (b := .completing r) (Worker.executes id) h1
      simp only [Worker.executes, Bool.toNat_false, Nat.add_zero] at this
      simp only [repliedTo, replyWork, begins, Bool.toNat_false, Nat.add_zero]
      omega
    | @workerComplete i r h1 =>
      simp only [State.setWorker]
      rw [count_complete _ _ _ (fun _ => rfl), count_complete _ _ _ (fun _ => rfl), complete_workers, mv _ h1 rfl rfl]
      exact ih
    | workerCheck h1 => simp only [State.setWorker]; rw [mv _ h1 rfl (by split <;> rfl)]; exact ih
    | workerTimeout h1 => simp only [State.setWorker]; rw [mv _ h1 rfl rfl]; exact ih
    | workerPop h1 => simp only [State.setWorker]; rw [mv _ h1 rfl rfl]; exact ih
    | workerGo h1 => simp only [State.setWorker]; rw [mv _ h1 rfl rfl]; exact ih
    | workerLock h1 => simp only [State.setWorker]; rw [mv _ h1 rfl rfl]; exact ih
    | @workerNoReply i r w res h1 =>
      simp only [State.setWorker]
      have := countP_set' (b := .completing r) (Worker.executes id) h1
      simp only [Worker.executes, Bool.toNat_false, Nat.add_zero] at this
      omega
    | workerStop h1 =>
      simp only [State.setWorker, State.emit, List.countP_append, countP_one, repliedTo, begins, Bool.toNat_false,
        Nat.add_zero]
      rw [mv _ h1 rfl rfl]; exact ih
    | workerNoRunner h1 =>
      simp only [State.setWorker, State.emit, List.countP_append, countP_one, repliedTo, begins, Bool.toNat_false,
        Nat.add_zero]
      rw [mv _ h1 rfl rfl]; exact ih
    | workerNoOwner h1 =>
      simp only [State.setWorker, State.emit, List.countP_append, countP_one, repliedTo, begins, Bool.toNat_false,
        Nat.add_zero]
      rw [mv _ h1 rfl rfl]; exact ih
    | @workerBegin i r w h1 =>
      simp only [State.setWorker, State.emit, List.countP_append, countP_one, repliedTo, begins, Bool.toNat_false,
        Nat.add_zero]
      have := countP_set' (b := .running r w) (Worker.executes id) h1
      simp only [Worker.executes, Bool.toNat_false, Nat.add_zero] at this
      omega
    | @workerEnd i r w res h1 =>
      simp only [State.setWorker, State.emit, List.countP_append, countP_one, repliedTo, begins, Bool.toNat_false,
        Nat.add_zero]
      have := countP_set' (b := .finished r w res) (Worker.executes id) h1
      simp only [Worker.executes] at this
      omega
    | postDelayedFail =>
      simpa [State.emit, List.countP_append, countP_one, repliedTo, begins, newWork] using ih
    | start =>
      simpa [State.emit, List.countP_append, countP_one, repliedTo, begins, List.countP_replicate, Worker.executes] using ih
    | _ => simpa [State.emit, List.countP_append, countP_one, repliedTo, begins] using ih

end Verif.Task
