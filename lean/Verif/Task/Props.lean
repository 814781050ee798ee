import Verif.Task.History

/-!
# Properties C45-C49

`Reach seq n s` ranges over every state reachable with `n` worker threads, any set of runners (`seq`
says which are sequenced), and every interleaving of posts (from any thread, also from within tasks),
timer expiries, executions, `start`, `stop`, and destruction of runners, owners and the manager.
-/

namespace Verif.Task

variable {seq : Nat → Bool} {n : Nat} {s : State}

theorem busyFor_split (r : Nat) (x : Worker) : (x.busyFor r).toNat = (x.carrier r).toNat + (x.other r).toNat := by
  cases x <;> simp [Worker.busyFor, Worker.carrier, Worker.other]

theorem inFlight_view (s : State) (r : Nat) :
    inFlight s r = (view s r).q.length + (view s r).carrN + (view s r).others := by
  have h1 : ∀ q : List (Nat × Work), q.countP (fun x => x.1 == r) = (queueOf r q).length := by
    intro q
    induction q with
    | nil => rfl
    | cons a q ih =>
      by_cases h : a.1 = r
      · have h' : (a.1 == r) = true := by simpa using h
        simp only [queueOf, List.countP_cons, List.filterMap_cons, h, if_true] at ih ⊢
        simp [ih]
      · have h' : (a.1 == r) = false := by simpa using h
        simp only [queueOf, List.countP_cons, List.filterMap_cons, h, if_false] at ih ⊢
        simp [ih, h]
  have h2 : ∀ l : List Worker, l.countP (Worker.busyFor r) = l.countP (Worker.carrier r) + l.countP (Worker.other r) := by
    intro l
    induction l with
    | nil => rfl
    | cons a l ih =>
      have := busyFor_split r a
      simp only [List.countP_cons, ih]
      cases h3 : a.busyFor r <;> cases h4 : a.carrier r <;> cases h5 : a.other r <;> simp_all <;> omega
  simp only [inFlight, h1, h2, view]
  omega

theorem running_le_inFlight (s : State) (r : Nat) : (runningOn r s).length ≤ inFlight s r := by
  have : ∀ l : List Worker, (l.filterMap fun
      | .running r' w => if r' = r then some w else none
      | _ => none).length ≤ l.countP (Worker.busyFor r) := by
    intro l
    induction l with
    | nil => simp
    | cons a l ih =>
      cases a <;> simp only [List.filterMap_cons, List.countP_cons, Worker.busyFor] <;> try omega
      rename_i r' w
      by_cases h : r' = r
      · simp [h]; exact ih
      · simp [h]; exact ih
  exact Nat.le_trans (this s.workers) (Nat.le_add_left _ _)

/-- C45: at every moment at most one task of a sequenced runner is executing; indeed at most one is
queued at the manager or occupying a worker. -/
theorem sequenced_no_overlap (h : Reach seq n s) (r : Nat) (hr : seq r = true) :
    (runningOn r s).length ≤ 1 ∧ inFlight s r ≤ 1 := by
  have h1 := (reach_linv h r).one hr
  rw [← inFlight_view] at h1
  exact ⟨Nat.le_trans (running_le_inFlight s r) h1, h1⟩

theorem begunOn_sublist (r : Nat) (log : List Ev) : (begunOn r log).Sublist (takenOn r log) := by
  induction log with
  | nil => exact .slnil
  | cons e log ih =>
    cases e <;> simp only [begunOn, takenOn, List.filterMap_cons] at ih ⊢ <;> try exact ih
    · split
      · split at * <;> simp_all
      · rename_i h
        split at h <;> simp at h
        subst h
        simp_all
    · split
      · exact ih
      · exact .cons _ ih

/-- C45: tasks of a sequenced runner leave it in the order in which they were accepted, with none
skipped: the tasks begun or discarded so far are a prefix of the tasks accepted so far. -/
theorem sequenced_in_order (h : Reach seq n s) (r : Nat) (hr : seq r = true) :
    takenOn r s.log <+: acceptedOn r s.log ∧ (begunOn r s.log).Sublist (acceptedOn r s.log) := by
  obtain ⟨mid, _, b, _⟩ := (reach_linv h r).order hr
  have h1 : takenOn r s.log <+: acceptedOn r s.log := ⟨_, b.symm⟩
  exact ⟨h1, (begunOn_sublist r s.log).trans h1.sublist⟩

theorem taken_eq_begun (r : Nat) (log : List Ev) (h : ∀ w, Ev.dropped r w ∉ log) : takenOn r log = begunOn r log := by
  induction log with
  | nil => rfl
  | cons e log ih =>
    have ih := ih (fun w hw => h w (List.mem_cons_of_mem _ hw))
    cases e <;> simp only [begunOn, takenOn, List.filterMap_cons] at ih ⊢ <;> try exact ih
    · rw [ih]
    · rename_i r' w
      have : ¬ r' = r := fun e => h w (by simp [e])
      simp only [this, if_false]; exact ih

/-- C45: as long as nothing is discarded, the tasks executed are exactly an initial part of the tasks
posted, in the same order. -/
theorem sequenced_executes_prefix (h : Reach seq n s) (r : Nat) (hr : seq r = true)
    (hd : ∀ w, Ev.dropped r w ∉ s.log) : begunOn r s.log <+: acceptedOn r s.log := by
  rw [← taken_eq_begun r s.log hd]; exact (sequenced_in_order h r hr).1

theorem accepted_count_le (r : Nat) (w : Work) (log : List Ev) :
    (acceptedOn r log).count w ≤ log.countP (handed w.id) := by
  induction log with
  | nil => simp [acceptedOn]
  | cons e log ih =>
    cases e <;> simp only [acceptedOn, List.filterMap_cons, List.countP_cons, handed] at ih ⊢ <;> try omega
    rename_i r' w' t
    by_cases h : r' = r
    · simp only [h, if_true, List.count_cons]
      by_cases h2 : w' = w
      · subst h2; simp; exact ih
      · have : (w' == w) = false := by simpa using h2
        simp [this]; omega
    · simp only [h, if_false]; omega

theorem accepted_mem {r : Nat} {w : Work} {t : Nat} {log : List Ev} (h : Ev.accepted r w t ∈ log) :
    w ∈ acceptedOn r log := by
  simp only [acceptedOn, List.mem_filterMap]
  exact ⟨_, h, by simp⟩

theorem accepted_of_mem {r : Nat} {w : Work} {log : List Ev} (h : w ∈ acceptedOn r log) :
    ∃ t, Ev.accepted r w t ∈ log := by
  simp only [acceptedOn, List.mem_filterMap] at h
  obtain ⟨e, he, h4⟩ := h
  cases e <;> simp at h4
  obtain ⟨rfl, rfl⟩ := h4
  exact ⟨_, he⟩

theorem handed_le_one (h : Reach seq n s) (id : Nat) : s.log.countP (handed id) ≤ 1 := by
  have := reach_ids h id
  by_cases e : id < s.nextId
  · have := this.1 e; omega
  · have := this.2 (by omega); omega

theorem accepted_count_one (h : Reach seq n s) {r : Nat} {w : Work} {t : Nat} (ha : Ev.accepted r w t ∈ s.log) :
    (acceptedOn r s.log).count w = 1 := by
  have h1 := handed_le_one h w.id
  have h2 := accepted_count_le r w s.log
  have h3 : 0 < (acceptedOn r s.log).count w := List.count_pos_iff.mpr (accepted_mem ha)
  omega

/-- C46: every accepted task is in exactly one place: begun or discarded, in the manager's queue,
carried by one worker, or waiting in its runner. -/
theorem accepted_held_once (h : Reach seq n s) (r : Nat) (w : Work) (t : Nat) (ha : Ev.accepted r w t ∈ s.log) :
    (takenOn r s.log).count w + s.queue.count (r, w) + s.workers.countP (Worker.carries r w) +
      (s.runners r).pending.count w = 1 := by
  have h1 := accepted_count_one h ha
  have hq : ∀ q : List (Nat × Work), q.count (r, w) = (queueOf r q).count w := by
    intro q
    induction q with
    | nil => rfl
    | cons a q ih =>
      obtain ⟨r', w'⟩ := a
      by_cases e : r' = r
      · subst e
        simp only [queueOf, List.filterMap_cons, List.count_cons, if_true] at ih ⊢
        rw [ih]
        by_cases e2 : w' = w
        · simp [e2]
        · simp [e2]
      · simp only [queueOf, List.filterMap_cons, List.count_cons, e, if_false] at ih ⊢
        rw [ih]
        simp [e]
  rw [hq]
  cases hs : seq r with
  | true =>
    obtain ⟨mid, _, b, c⟩ := (reach_linv h r).order hs
    have hc := c w
    simp only [view] at b hc
    rw [b] at h1
    simp only [List.count_append] at h1
    omega
  | false =>
    obtain ⟨a, b⟩ := (reach_linv h r).par hs
    have hb := b w
    simp only [view] at a hb
    rw [a]; simp only [List.count_nil]; omega

theorem unique_of_countP {p : Ev → Bool} {log : List Ev} (h : log.countP p ≤ 1) {a b : Ev} (ha : a ∈ log)
    (hb : b ∈ log) (pa : p a = true) (pb : p b = true) : a = b := by
  induction log with
  | nil => simp at ha
  | cons e log ih =>
    simp only [List.countP_cons] at h
    have none : ∀ x ∈ log, p e = true → p x = true → False := by
      intro x hx h1 h2
      have : 0 < log.countP p := List.countP_pos_iff.mpr ⟨x, hx, h2⟩
      rw [if_pos h1] at h; omega
    rcases List.mem_cons.mp ha with ha1 | ha1 <;> rcases List.mem_cons.mp hb with hb1 | hb1
    · rw [ha1, hb1]
    · rw [ha1] at pa; exact (none b hb1 pa pb).elim
    · rw [hb1] at pb; exact (none a ha1 pb pa).elim
    · exact ih (by omega) ha1 hb1

theorem begins_count {id r : Nat} {w : Work} (log : List Ev) (hw : w.id = id)
    (h : ∀ e ∈ log, begins id e = true → ∃ t, e = .begun r w t) :
    log.countP (begins id) = (begunOn r log).count w := by
  induction log with
  | nil => rfl
  | cons e log ih =>
    have ih := ih fun e' he' => h e' (List.mem_cons_of_mem _ he')
    have he := h e (by simp)
    cases e <;> simp only [begunOn, List.filterMap_cons, List.countP_cons, begins] at ih he ⊢ <;>
      try (rw [ih]; simp; done)
    rename_i r' w' t
    by_cases hid : (w'.id == id) = true
    · obtain ⟨t', h2⟩ := he hid
      simp at h2
      obtain ⟨rfl, rfl, rfl⟩ := h2
      simp only [hid, if_true, List.count_cons, beq_self_eq_true, ih]
    · by_cases hr' : r' = r
      · have hne : (w' == w) = false := by
          simp; intro e; subst e; simp [hw] at hid
        simp [hid, hr', ih, hne, List.count_cons]
      · simp [hid, hr', ih]

/-- C46: no task is executed twice, by whatever runner. -/
theorem executed_at_most_once (h : Reach seq n s) (id : Nat) : s.log.countP (begins id) ≤ 1 := by
  by_cases h0 : s.log.countP (begins id) = 0
  · omega
  obtain ⟨e, he, hb⟩ := List.countP_pos_iff.mp (Nat.pos_of_ne_zero h0)
  have acc : ∀ {r : Nat} {w : Work} {t : Nat}, Ev.begun r w t ∈ s.log → ∃ t', Ev.accepted r w t' ∈ s.log := by
    intro r w t hm
    obtain ⟨pre, post, hsplit⟩ := List.append_of_mem hm
    obtain ⟨⟨t', _, h2⟩, _⟩ := reach_justified h pre _ post hsplit
    exact ⟨t', by rw [hsplit]; simp [h2]⟩
  cases e <;> simp [begins] at hb
  rename_i r w t
  obtain ⟨t', ha⟩ := acc he
  have same : ∀ e ∈ s.log, begins id e = true → ∃ t, e = .begun r w t := by
    intro e he' hb'
    cases e <;> simp [begins] at hb'
    rename_i r2 w2 t2
    obtain ⟨t2', ha2⟩ := acc he'
    have := unique_of_countP (handed_le_one h id) ha ha2 (by simp [handed, hb]) (by simp [handed, hb'])
    simp at this
    exact ⟨t2, by simp [this]⟩
  rw [begins_count s.log hb same]
  have h1 := accepted_held_once h r w t' ha
  have h2 := (begunOn_sublist r s.log).count_le w
  omega

/-- C46, first part of the progress claim: as long as `stop` has never been called and the runner and
the manager are alive, a sequenced runner with waiting tasks always has a task in flight (queued at the
manager or on a worker), so that its completion brings the next one. Missing: the same after the manager
was stopped and started again, where it is false (`restart_wedges_runner_violated`). -/
theorem sequenced_progress_partial (h : Reach seq n s) (r : Nat) (hr : seq r = true)
    (hs : Ev.stopCalled ∉ s.log) (hl : s.live r = true) (hm : s.manager = true)
    (hp : (s.runners r).pending ≠ []) : inFlight s r = 1 := by
  have hh : healthy s r = true := by simp [healthy, hs, hl, hm]
  have h1 := reach_llive h r hh
  rw [inFlight_view]
  exact h1.busy hr (h1.wait hr hp)

/-- A state that meets the hypotheses. -/
example : ∃ s, Reach (fun _ => true) 2 s ∧ Ev.stopCalled ∉ s.log ∧ s.live 0 = true ∧ s.manager = true ∧
    (s.runners 0).pending ≠ [] ∧ inFlight s 0 = 1 := by
  have r0 := Reach.init (seq := fun _ => true) (n := 2)
  have r1 := r0.step (.start rfl rfl rfl)
  have r2 := r1.step (.post (r := 0) (owner := none) (hasReply := false) rfl)
  have r3 := r2.step (.post (r := 0) (owner := none) (hasReply := false) rfl)
  exact ⟨_, r3, by decide, rfl, rfl, by decide, rfl⟩

/-- C46: under the same conditions nothing but the death of its owner makes a task disappear. -/
theorem dropped_only_without_owner_partial (h : Reach seq n s) (r : Nat) (hs : Ev.stopCalled ∉ s.log)
    (hl : s.live r = true) (hm : s.manager = true) (w : Work) (hd : Ev.dropped r w ∈ s.log) :
    ∃ o, w.owner = some o ∧ s.owner o = false := by
  have hh : healthy s r = true := by simp [healthy, hs, hl, hm]
  clear hs hl hm
  induction h with
  | init => simp [init] at hd
  | @step s s' hr hs ih =>
    have hb := healthy_back hs hh
    have ih := fun h => ih h hb
    have owner_mono : ∀ {o}, s.owner o = false → s'.owner o = false := by
      intro o ho
      cases hs <;> simp_all [State.emit, State.setWorker]
      rename_i o'
      by_cases e : o = o' <;> simp_all [upd]
    have back : Ev.dropped r w ∈ s.log → ∃ o, w.owner = some o ∧ s'.owner o = false := by
      intro hd
      obtain ⟨o, a, b⟩ := ih hd
      exact ⟨o, a, owner_mono b⟩
    have hb' := hb
    simp only [healthy, Bool.and_eq_true, Bool.not_eq_true', decide_eq_false_iff_not] at hb
    obtain ⟨⟨b1, b2⟩, b3⟩ := hb
    have hpost : ∀ (s1 : State) (r0 : Nat) (w0 : Work), s1.log = s.log → s1.manager = s.manager →
        Ev.dropped r w ∈ (postInternal seq s1 r0 w0).log → Ev.dropped r w ∈ s.log := by
      intro s1 r0 w0 h1 h2 hd
      obtain ⟨L, e, h, he, hL⟩ := post_log seq s1 r0 w0
      rw [h2, b3] at hL
      simp at hL
      subst hL
      rw [h, h1] at hd
      rcases he with he | he <;> subst he <;> simpa using hd
    cases hs with
    | post => exact back (hpost { s with nextId := s.nextId + 1 } _ _ rfl rfl hd)
    | workerReply => exact back (hpost { s with nextId := s.nextId + 1 } _ _ rfl rfl hd)
    | @timerDue t i due r0 w0 =>
      exact back (hpost { s with delayedTasks := s.delayedTasks.eraseIdx i } _ _ rfl rfl hd)
    | @workerComplete i r0 h1 =>
      simp only [State.setWorker] at hd
      refine back ?_
      unfold taskComplete at hd
      split at hd
      · simp only [b3] at hd
        rcases maybePost_none (m := true) (R := s.runners r0) rfl with ⟨_, e⟩ | ⟨_, _, _, e⟩ <;>
          · simpa [e] using hd
      · exact hd
    | @workerStop i r0 w0 h1 h2 =>
      rcases reach_workers hr (by intro e; simp [e] at h1) with h | h
      · rw [h2] at h; simp at h
      · exact absurd h b1
    | @workerNoRunner i r0 w0 h1 h2 =>
      simp only [State.emit, List.mem_append, List.mem_singleton, Ev.dropped.injEq] at hd
      rcases hd with hd | ⟨rfl, _⟩
      · exact back hd
      · simp [refd, b2] at h2
    | @workerNoOwner i r0 w0 h1 h2 =>
      simp only [State.emit, List.mem_append, List.mem_singleton, Ev.dropped.injEq] at hd
      rcases hd with hd | ⟨rfl, rfl⟩
      · exact back hd
      · cases ho : w.owner with
        | none => simp [ownerAlive, ho] at h2
        | some o =>
          refine ⟨o, rfl, ?_⟩
          simpa [ownerAlive, ho, State.emit, State.setWorker] using h2
    | _ => exact back (by simpa [State.emit, State.setWorker] using hd)

/-- C47: a task posted with a delay never begins before it is due, on whatever runner. -/
theorem delayed_never_early (h : Reach seq n s) (r : Nat) (w : Work) (due : Nat)
    (hd : Ev.delayed r w due ∈ s.log) (r' : Nat) (w' : Work) (t : Nat) (hb : Ev.begun r' w' t ∈ s.log)
    (hid : w'.id = w.id) : r' = r ∧ w' = w ∧ due ≤ t := by
  obtain ⟨pre, post, hsplit⟩ := List.append_of_mem hb
  obtain ⟨⟨t', h1, h2⟩, _⟩ := reach_justified h pre _ post hsplit
  have ha : Ev.accepted r' w' t' ∈ s.log := by rw [hsplit]; simp [h2]
  obtain ⟨a, b, c⟩ := (reach_delayed h).2.2.2 _ _ _ _ _ _ hd ha hid.symm
  exact ⟨a.symm, b.symm, Nat.le_trans c h1⟩

/-- C47: a delayed task is either still waiting (once) or was handed to its runner once (or discarded
once because the runner is gone). -/
theorem delayed_handed_once (h : Reach seq n s) (r : Nat) (w : Work) (due : Nat)
    (hd : Ev.delayed r w due ∈ s.log) :
    s.log.countP (handed w.id) + s.delayedTasks.countP (fun x => x.2.2.id == w.id) = 1 :=
  (reach_ids h w.id).1 ((reach_delayed h).2.1 _ _ _ hd)

theorem append_cons_split {pre pre2 post post2 : List Ev} {a b : Ev} (h : pre ++ a :: post = pre2 ++ b :: post2)
    (hl : pre.length < pre2.length) : ∃ mid, pre2 = pre ++ a :: mid ∧ post = mid ++ b :: post2 := by
  induction pre generalizing pre2 with
  | nil =>
    cases pre2 with
    | nil => simp at hl
    | cons x pre2 =>
      simp at h
      exact ⟨pre2, by simp [h.1], h.2⟩
  | cons x pre ih =>
    cases pre2 with
    | nil => simp at hl
    | cons y pre2 =>
      simp only [List.cons_append, List.cons.injEq] at h
      obtain ⟨mid, h1, h2⟩ := ih h.2 (by simpa using hl)
      exact ⟨mid, by simp [h.1, h1], h2⟩

theorem phase_no_start (l : List Ev) (h : Ev.started ∉ l) (pre : List Ev) (h0 : phase pre = .off)
    (hj : Each Justified (pre ++ l)) : phase (pre ++ l) = .off := by
  induction l generalizing pre with
  | nil => simpa using h0
  | cons e l ih =>
    have h1 : phase (pre ++ [e]) = .off := by
      rw [phase_snoc]
      have := hj pre e l rfl
      cases e <;> simp_all [Justified]
    have := ih (fun hh => h (List.mem_cons_of_mem _ hh)) (pre ++ [e]) h1 (by simpa using hj)
    simpa using this

/-- C48: `start` succeeds only when the manager is off, `stop` only when it is on, and a successful `stop`
returns before the next `start` succeeds: the successes alternate. -/
theorem start_stop_alternate (h : Reach seq n s) (pre post : List Ev) (e : Ev) (hl : s.log = pre ++ e :: post) :
    (e = .started → phase pre = .off) ∧ (e = .stopCalled → phase pre = .on) ∧
    (e = .stopped → phase pre = .stopping) := by
  have := reach_justified h pre e post hl
  refine ⟨?_, ?_, ?_⟩ <;> intro he <;> subst he
  · exact this
  · exact this
  · exact this.1

/-- C48: after `stop` has returned, no task begins until the manager is started again. -/
theorem stop_is_final (h : Reach seq n s) (pre post : List Ev) (hl : s.log = pre ++ .stopped :: post)
    (hns : Ev.started ∉ post) (r : Nat) (w : Work) (t : Nat) : Ev.begun r w t ∉ post := by
  intro hb
  obtain ⟨p1, p2, hp⟩ := List.append_of_mem hb
  have hj := reach_justified h
  have e1 : s.log = (pre ++ [.stopped] ++ p1) ++ .begun r w t :: p2 := by rw [hl, hp]; simp
  have h1 := (hj _ _ _ e1).2.2
  refine h1 (phase_no_start p1 (fun hh => hns (by rw [hp]; simp [hh])) _ (by rw [phase_snoc]) ?_)
  intro a e b hab
  exact hj a e (b ++ .begun r w t :: p2) (by rw [e1, hab]; simp)

/-- C48: when `stop` returns, every function that has begun has returned, and no worker is executing. -/
theorem stop_waits (h : Reach seq n s) (pre post : List Ev) (hl : s.log = pre ++ .stopped :: post) (r : Nat)
    (w : Work) (t : Nat) (hb : Ev.begun r w t ∈ pre) : ∃ res, Ev.ended r w res ∈ pre :=
  (reach_justified h _ _ _ hl).2 r w t hb

/-- C48: while the manager is off all its threads have finished. -/
theorem off_threads_gone (h : Reach seq n s) (hp : phase s.log = .off) :
    (∀ x ∈ s.workers, x = .exited) ∧ s.timer = .exited := (reach_phase h).2.2 hp

/-- C49: a reply begins only after its task has ended, on the same runner, with the same owner and with
the task's result. -/
theorem reply_after_task (h : Reach seq n s) (pre post : List Ev) (r : Nat) (w : Work) (t id res : Nat)
    (hl : s.log = pre ++ .begun r w t :: post) (hw : w.replyTo = some (id, res)) :
    ∃ w0 : Work, w0.id = id ∧ w0.hasReply = true ∧ w0.owner = w.owner ∧ Ev.ended r w0 res ∈ pre := by
  have hj := reach_justified h
  obtain ⟨⟨t', _, ha⟩, _⟩ := hj _ _ _ hl
  obtain ⟨a, b, hp⟩ := List.append_of_mem ha
  have e1 : s.log = a ++ .accepted r w t' :: (b ++ .begun r w t :: post) := by rw [hl, hp]; simp
  obtain ⟨w0, h1, h2, h3, h4⟩ := hj _ _ _ e1 id res hw
  exact ⟨w0, h1, h2, h3, by rw [hp]; simp [h4]⟩

/-- C49: a task is answered at most once. -/
theorem replied_at_most_once (h : Reach seq n s) (id : Nat) : s.log.countP (repliedTo id) ≤ 1 := by
  have h1 := reach_replies h id
  have h2 := executed_at_most_once h id
  omega

/-- C49: a task or reply with a weak owner never begins after the owner has died. -/
theorem never_without_owner (h : Reach seq n s) (pre post : List Ev) (r : Nat) (w : Work) (t o : Nat)
    (hl : s.log = pre ++ .begun r w t :: post) (ho : w.owner = some o) : Ev.ownerDied o ∉ pre :=
  (reach_justified h _ _ _ hl).2.1 o ho

/-- A runner that waits for a completion that will never come. -/
structure Wedged (s : State) (r : Nat) : Prop where
  waiting : (s.runners r).hasRunning = true
  nothing : inFlight s r = 0

theorem wedged_step {seq : Nat → Bool} {n : Nat} {s s' : State} (hr : Reach seq n s) (hs : Step seq n s s')
    (r : Nat) (hsq : seq r = true) (hw : Wedged s r) : Wedged s' r ∧ takenOn r s'.log = takenOn r s.log := by
  obtain ⟨h1, h2⟩ := hw
  rw [inFlight_view] at h2
  have hl := step_lstep (reach_workers hr) hs r
  have h1' : (view s r).hr = true := h1
  have goal : ∀ v' : View, LStep (seq r) (healthy s r) (view s r) v' →
      v'.hr = true ∧ v'.q.length + v'.carrN + v'.others = 0 ∧ v'.taken = (view s r).taken := by
    intro v' hl
    have hq : (view s r).q = [] := List.eq_nil_of_length_eq_zero (by omega)
    cases hl with
    | refl => exact ⟨h1', h2, rfl⟩
    | held => exact ⟨h1', h2, rfl⟩
    | direct _ h => rw [h1'] at h; simp at h
    | directPar h => rw [hsq] at h; simp at h
    | shift _ h => rw [h1'] at h; simp at h
    | shiftLost _ _ h => rw [h1'] at h; simp at h
    | pop h => rw [hq] at h; simp at h
    | begin_ _ h => omega
    | drop _ _ h => omega
    | complete _ _ h => omega
    | completeNone _ _ h => omega
    | completeLost _ _ _ h => omega
    | completePar h => rw [hsq] at h; simp at h
  obtain ⟨a, b, c⟩ := goal _ hl
  exact ⟨⟨a, by rw [inFlight_view]; exact b⟩, c⟩

/-- Continuations of an execution. -/
inductive Later (seq : Nat → Bool) (n : Nat) : State → State → Prop
  | refl {a : State} : Later seq n a a
  | step {a b c : State} : Later seq n a b → Step seq n b c → Later seq n a c

theorem wedged_later {seq : Nat → Bool} {n : Nat} {s s' : State} (hr : Reach seq n s) (hl : Later seq n s s')
    (r : Nat) (hsq : seq r = true) (hw : Wedged s r) :
    Reach seq n s' ∧ Wedged s' r ∧ takenOn r s'.log = takenOn r s.log := by
  induction hl with
  | refl => exact ⟨hr, hw, rfl⟩
  | step _ hs ih =>
    obtain ⟨a, b, c⟩ := ih
    obtain ⟨d, e⟩ := wedged_step a hs r hsq b
    exact ⟨.step a hs, d, e.trans c⟩

theorem later_log {seq : Nat → Bool} {n : Nat} {s s' : State} (hl : Later seq n s s') :
    ∃ es, s'.log = s.log ++ es := by
  induction hl with
  | refl => exact ⟨[], by simp⟩
  | step _ hs ih =>
    obtain ⟨a, ha⟩ := ih
    obtain ⟨b, hb⟩ := step_log hs
    exact ⟨a ++ b, by rw [hb, ha]; simp⟩

/-- The state after: start, post, stop while the worker holds the popped task, start again, post. -/
theorem wedge_reachable : ∃ s, Reach (fun _ => true) 1 s ∧ s.keep = true ∧ s.live 0 = true ∧ s.manager = true ∧
    Wedged s 0 ∧ (s.runners 0).pending = [newWork 1 none false] ∧
    Ev.accepted 0 (newWork 1 none false) 0 ∈ s.log ∧ begunOn 0 s.log = [] := by
  have r0 := Reach.init (seq := fun _ => true) (n := 1)
  have r1 := r0.step (.start rfl rfl rfl)
  have r2 := r1.step (.workerCheck (i := 0) rfl)
  have r3 := r2.step (.post (r := 0) (owner := none) (hasReply := false) rfl)
  have r4 := r3.step (.stopCall rfl)
  have r5 := r4.step (.workerPop (i := 0) (r := 0) (w := newWork 0 none false) (q := []) rfl rfl)
  have r6 := r5.step (.workerStop (i := 0) (r := 0) (w := newWork 0 none false) rfl rfl)
  have r7 := r6.step (.workerCheck (i := 0) rfl)
  have r8 := r7.step (.timerCheck rfl)
  have r9 := r8.step (.stopReturn rfl (by intro x hx; simpa [State.emit, State.setWorker, postInternal, init] using hx) rfl)
  have r10 := r9.step (.start rfl rfl rfl)
  have r11 := r10.step (.post (r := 0) (owner := none) (hasReply := false) rfl)
  refine ⟨_, r11, rfl, rfl, rfl, ⟨rfl, rfl⟩, rfl, ?_, rfl⟩
  exact List.mem_append_right _ (by simp [maybePost, newWork, postInternal, upd, State.emit, State.setWorker, init])

/-- C46 refuted as stated: a task manager that was stopped and started again may leave a sequenced runner
that accepts tasks (the call returns true) and never executes any of them, in any continuation. -/
theorem restart_wedges_runner_violated : ∃ s, Reach (fun _ => true) 1 s ∧ s.keep = true ∧ s.live 0 = true ∧
    s.manager = true ∧ (s.runners 0).pending ≠ [] ∧
    ∀ s', Later (fun _ => true) 1 s s' → begunOn 0 s'.log = [] ∧ inFlight s' 0 = 0 := by
  obtain ⟨s, h1, h2, h3, h4, h5, h6, h7, h8⟩ := wedge_reachable
  refine ⟨s, h1, h2, h3, h4, by rw [h6]; simp, fun s' hl => ?_⟩
  obtain ⟨_, hw, ht⟩ := wedged_later h1 hl 0 rfl h5
  obtain ⟨es, he⟩ := later_log hl
  refine ⟨?_, hw.nothing⟩
  rw [he, takenOn_append] at ht
  have h9 : takenOn 0 es = [] := by
    have := congrArg List.length ht
    simp only [List.length_append] at this
    exact List.eq_nil_of_length_eq_zero (by omega)
  have h10 := begunOn_sublist 0 es
  rw [h9] at h10
  rw [he, begunOn_append, h8, List.sublist_nil.mp h10]; rfl

/-- A concrete execution that meets the hypotheses above: two workers, one sequenced runner, a task with
a reply, a queued task, a delayed task whose owner dies in time, and a stop. -/
example : ∃ s, Reach (fun _ => true) 2 s ∧ s.log =
    [.started, .accepted 0 ⟨0, some 5, true, none⟩ 0, .accepted 0 ⟨1, none, false, none⟩ 0,
      .delayed 0 ⟨2, some 6, false, none⟩ 3,
      .begun 0 ⟨0, some 5, true, none⟩ 0, .ended 0 ⟨0, some 5, true, none⟩ 7,
      .accepted 0 ⟨3, some 5, false, some (0, 7)⟩ 0,
      .accepted 0 ⟨2, some 6, false, none⟩ 4,
      .begun 0 ⟨1, none, false, none⟩ 4, .ended 0 ⟨1, none, false, none⟩ 7,
      .begun 0 ⟨3, some 5, false, some (0, 7)⟩ 4, .ended 0 ⟨3, some 5, false, some (0, 7)⟩ 7,
      .ownerDied 6, .dropped 0 ⟨2, some 6, false, none⟩, .stopCalled, .stopped] := by
  have r0 := Reach.init (seq := fun _ => true) (n := 2)
  have r1 := r0.step (.start rfl rfl rfl)
  have r2 := r1.step (.post (r := 0) (owner := some 5) (hasReply := true) rfl)
  have r3 := r2.step (.post (r := 0) (owner := none) (hasReply := false) rfl)
  have r4 := r3.step (.postDelayed (r := 0) (owner := some 6) (hasReply := false) (delay := 3) rfl rfl (by intro t i h; cases h))
  have r5 := r4.step (.workerCheck (i := 0) rfl)
  have r6 := r5.step (.workerPop (i := 0) (r := 0) (w := ⟨0, some 5, true, none⟩) (q := []) rfl rfl)
  have r7 := r6.step (.workerGo (i := 0) (r := 0) (w := ⟨0, some 5, true, none⟩) rfl rfl)
  have r8 := r7.step (.workerLock (i := 0) (r := 0) (w := ⟨0, some 5, true, none⟩) rfl rfl)
  have r9 := r8.step (.workerBegin (i := 0) (r := 0) (w := ⟨0, some 5, true, none⟩) rfl rfl)
  have r10 := r9.step (.workerEnd (i := 0) (r := 0) (w := ⟨0, some 5, true, none⟩) (res := 7) rfl)
  have r11 := r10.step (.workerReply (i := 0) (r := 0) (w := ⟨0, some 5, true, none⟩) (res := 7) rfl rfl)
  have r12 := r11.step (.workerComplete (i := 0) (r := 0) rfl)
  have r13 := r12.step (.tick (d := 4))
  have r14 := r13.step (.timerCheck rfl)
  have r15 := r14.step (.timerLock (t := 4) rfl)
  have r16 := r15.step (.timerDue (t := 4) (i := 0) (due := 3) (r := 0) (w := ⟨2, some 6, false, none⟩) rfl rfl (by decide) rfl)
  have r17 := r16.step (.timerDone (t := 4) (i := 0) rfl (by decide))
  have r18 := r17.step (.workerCheck (i := 0) rfl)
  have r19 := r18.step (.workerPop (i := 0) (r := 0) (w := ⟨1, none, false, none⟩) (q := []) rfl rfl)
  have r20 := r19.step (.workerGo (i := 0) (r := 0) (w := ⟨1, none, false, none⟩) rfl rfl)
  have r21 := r20.step (.workerLock (i := 0) (r := 0) (w := ⟨1, none, false, none⟩) rfl rfl)
  have r22 := r21.step (.workerBegin (i := 0) (r := 0) (w := ⟨1, none, false, none⟩) rfl rfl)
  have r23 := r22.step (.workerEnd (i := 0) (r := 0) (w := ⟨1, none, false, none⟩) (res := 7) rfl)
  have r24 := r23.step (.workerNoReply (i := 0) (r := 0) (w := ⟨1, none, false, none⟩) (res := 7) rfl rfl)
  have r25 := r24.step (.workerComplete (i := 0) (r := 0) rfl)
  have r26 := r25.step (.workerCheck (i := 0) rfl)
  have r27 := r26.step (.workerPop (i := 0) (r := 0) (w := ⟨3, some 5, false, some (0, 7)⟩) (q := []) rfl rfl)
  have r28 := r27.step (.workerGo (i := 0) (r := 0) (w := ⟨3, some 5, false, some (0, 7)⟩) rfl rfl)
  have r29 := r28.step (.workerLock (i := 0) (r := 0) (w := ⟨3, some 5, false, some (0, 7)⟩) rfl rfl)
  have r30 := r29.step (.workerBegin (i := 0) (r := 0) (w := ⟨3, some 5, false, some (0, 7)⟩) rfl rfl)
  have r31 := r30.step (.workerEnd (i := 0) (r := 0) (w := ⟨3, some 5, false, some (0, 7)⟩) (res := 7) rfl)
  have r32 := r31.step (.workerNoReply (i := 0) (r := 0) (w := ⟨3, some 5, false, some (0, 7)⟩) (res := 7) rfl rfl)
  have r33 := r32.step (.workerComplete (i := 0) (r := 0) rfl)
  have r34 := r33.step (.ownerDies (o := 6))
  have r35 := r34.step (.workerCheck (i := 0) rfl)
  have r36 := r35.step (.workerPop (i := 0) (r := 0) (w := ⟨2, some 6, false, none⟩) (q := []) rfl rfl)
  have r37 := r36.step (.workerGo (i := 0) (r := 0) (w := ⟨2, some 6, false, none⟩) rfl rfl)
  have r38 := r37.step (.workerLock (i := 0) (r := 0) (w := ⟨2, some 6, false, none⟩) rfl rfl)
  have r39 := r38.step (.workerNoOwner (i := 0) (r := 0) (w := ⟨2, some 6, false, none⟩) rfl rfl)
  have r40 := r39.step (.workerComplete (i := 0) (r := 0) rfl)
  have r41 := r40.step (.stopCall rfl)
  have r42 := r41.step (.workerCheck (i := 0) rfl)
  have r43 := r42.step (.workerCheck (i := 1) rfl)
  have r44 := r43.step (.timerCheck rfl)
  have r45 := r44.step (.stopReturn rfl (by decide) rfl)
  exact ⟨_, r45, rfl⟩

end Verif.Task
