import Verif.Task.Local

/-!
# Every step is a local step for every runner
-/

namespace Verif.Task

theorem countP_set {l : List Worker} {i : Nat} {a b : Worker} (p : Worker → Bool) (h : l[i]? = some a) :
    (l.set i b).countP p + (if p a then 1 else 0) = l.countP p + (if p b then 1 else 0) := by
  induction l generalizing i with
  | nil => simp at h
  | cons x l ih =>
    cases i with
    | zero =>
      simp at h; subst h
      simp only [List.set_cons_zero, List.countP_cons]; omega
    | succ i =>
      simp at h
      have := ih h
      simp only [List.set_cons_succ, List.countP_cons]; omega

theorem carries_carrier {r : Nat} {w : Work} {x : Worker} (h : x.carries r w = true) : x.carrier r = true := by
  cases x <;> simp_all [Worker.carries, Worker.carrier]

theorem carry_le (s : State) (r : Nat) (w : Work) : (view s r).carry w ≤ (view s r).carrN := by
  simp only [view]
  exact List.countP_mono_left fun x _ h => carries_carrier h

@[simp] theorem acceptedOn_append (r : Nat) (a b : List Ev) :
    acceptedOn r (a ++ b) = acceptedOn r a ++ acceptedOn r b := by simp [acceptedOn]
@[simp] theorem takenOn_append (r : Nat) (a b : List Ev) :
    takenOn r (a ++ b) = takenOn r a ++ takenOn r b := by simp [takenOn]
@[simp] theorem begunOn_append (r : Nat) (a b : List Ev) :
    begunOn r (a ++ b) = begunOn r a ++ begunOn r b := by simp [begunOn]
@[simp] theorem queueOf_append (r : Nat) (a b : List (Nat × Work)) :
    queueOf r (a ++ b) = queueOf r a ++ queueOf r b := by simp [queueOf]

theorem queueOf_map (r r' : Nat) (l : List Work) :
    queueOf r (l.map fun x => (r', x)) = if r' = r then l else [] := by
  induction l with
  | nil => simp [queueOf]
  | cons a l ih =>
    by_cases h : r' = r
    · simp [queueOf, h] at ih ⊢; exact ih
    · simp [queueOf, h] at ih ⊢

theorem acceptedOn_dropped (r r' : Nat) (l : List Work) : acceptedOn r (l.map (Ev.dropped r')) = [] := by
  induction l with
  | nil => rfl
  | cons a l ih => simpa [acceptedOn] using ih

theorem takenOn_dropped (r r' : Nat) (l : List Work) :
    takenOn r (l.map (Ev.dropped r')) = if r' = r then l else [] := by
  induction l with
  | nil => simp [takenOn]
  | cons a l ih =>
    by_cases h : r' = r
    · simp [takenOn, h] at ih ⊢; exact ih
    · simp [takenOn, h] at ih ⊢

/-- The outcomes of `maybePost` with a task. -/
theorem maybePost_some {m : Bool} {R : Runner} {w : Work} {p : Posted} (h : maybePost m R (some w) = p) :
    (R.hasRunning = true ∧ p = ⟨⟨R.hasRunning, R.pending ++ [w]⟩, [], [], true⟩) ∨
    (R.hasRunning = false ∧ R.pending = [] ∧
      p = ⟨⟨m, []⟩, if m then [w] else [], [], m⟩) ∨
    (∃ a rest, R.hasRunning = false ∧ R.pending = a :: rest ∧
      p = ⟨⟨m, rest ++ [w]⟩, if m then [a] else [], if m then [] else [a], true⟩) := by
  subst h
  rcases R with ⟨hr, pend⟩
  cases hr <;> cases pend <;> cases m <;> first
    | (simp [maybePost]; done)
    | (simp [maybePost]; exact ⟨_, _, ⟨rfl, rfl⟩, rfl, rfl⟩)

/-- The outcomes of `maybePost` without a task. -/
theorem maybePost_none {m : Bool} {R : Runner} {p : Posted} (h : maybePost m R none = p) :
    (R.pending = [] ∧ p = ⟨⟨false, []⟩, [], [], false⟩) ∨
    (∃ a rest, R.pending = a :: rest ∧
      p = ⟨⟨m, rest⟩, if m then [a] else [], if m then [] else [a], m⟩) := by
  subst h
  rcases R with ⟨hr, pend⟩
  cases hr <;> cases pend <;> cases m <;> first
    | (simp [maybePost]; done)
    | (simp [maybePost]; exact ⟨_, _, ⟨rfl, rfl⟩, rfl, rfl⟩)

theorem LStep.of_eq {sq ok : Bool} {v v1 v2 : View} (h : LStep sq ok v v1) (e : v1 = v2) : LStep sq ok v v2 :=
  e ▸ h

theorem view_ext {a b : View} (h1 : a.hr = b.hr) (h2 : a.pending = b.pending) (h3 : a.q = b.q)
    (h4 : ∀ w, a.carry w = b.carry w) (h5 : a.carrN = b.carrN) (h6 : a.others = b.others) (h7 : a.acc = b.acc)
    (h8 : a.taken = b.taken) : a = b := by
  cases a; cases b; simp only [View.mk.injEq]
  exact ⟨h1, h2, h3, funext h4, h5, h6, h7, h8⟩

theorem upd_same {β : Type} (f : Nat → β) (i : Nat) (v : β) : upd f i v i = v := by simp [upd]
theorem upd_ne {β : Type} (f : Nat → β) {i j : Nat} (v : β) (h : j ≠ i) : upd f i v j = f j := by simp [upd, h]

theorem post_other {seq : Nat → Bool} {s : State} {r0 r : Nat} {w : Work} (h : r ≠ r0) :
    view (postInternal seq s r0 w) r = view s r := by
  have h' : ¬ r0 = r := fun e => h e.symm
  unfold postInternal
  by_cases h1 : seq r0 = true
  · rw [if_pos h1]
    apply view_ext <;> simp only [view]
    · rw [upd_ne _ _ h]
    · rw [upd_ne _ _ h]
    · rw [queueOf_append, queueOf_map]; simp [h']
    · intro _; trivial
    · rw [acceptedOn_append, acceptedOn_append, acceptedOn_dropped]
      split <;> simp [acceptedOn, h']
    · rw [takenOn_append, takenOn_append, takenOn_dropped, if_neg h']
      split <;> simp [takenOn]
  · rw [if_neg h1]
    by_cases h2 : s.manager = true
    · rw [if_pos h2]
      apply view_ext <;> simp only [view]
      · simp [queueOf, h']
      · intro _; trivial
      · simp [acceptedOn, h']
      · simp [takenOn]
    · rw [if_neg h2]
      apply view_ext <;> simp only [view]
      · intro _; trivial
      · simp [acceptedOn]
      · simp [takenOn]

theorem post_lstep {seq : Nat → Bool} {s : State} {ok : Bool} (hok : s.manager = false → ok = false)
    (r0 r : Nat) (w : Work) : LStep (seq r) ok (view s r) (view (postInternal seq s r0 w) r) := by
  by_cases hr : r = r0
  rotate_left
  · rw [post_other hr]; exact .refl
  subst hr
  unfold postInternal
  by_cases h1 : seq r = true
  · rw [if_pos h1]
    have := maybePost_some (m := s.manager) (R := s.runners r) (w := w) rfl
    rcases this with ⟨a, b⟩ | ⟨a, b, c⟩ | ⟨x, rest, a, b, c⟩
    · simp only [b]
      refine (LStep.held (w := w) h1 a).of_eq ?_
      apply view_ext <;> simp [view, upd, acceptedOn, takenOn]
    · simp only [c]
      cases hm : s.manager with
      | true =>
        refine (LStep.direct (w := w) h1 a b).of_eq ?_
        apply view_ext <;> simp [view, upd, acceptedOn, takenOn, queueOf, b]
      | false =>
        refine LStep.refl.of_eq ?_
        apply view_ext <;> simp [view, upd, acceptedOn, takenOn, a, b]
    · simp only [c]
      cases hm : s.manager with
      | true =>
        refine (LStep.shift (w := w) h1 a b).of_eq ?_
        apply view_ext <;> simp [view, upd, acceptedOn, takenOn, queueOf]
      | false =>
        refine (LStep.shiftLost (w := w) h1 (hok hm) a b).of_eq ?_
        apply view_ext <;> simp [view, upd, acceptedOn, takenOn, a]
  · rw [if_neg h1]
    have h1' : seq r = false := by simpa using h1
    by_cases h2 : s.manager = true
    · rw [if_pos h2]
      refine (LStep.directPar (w := w) h1').of_eq ?_
      apply view_ext <;> simp [view, acceptedOn, takenOn, queueOf]
    · rw [if_neg h2]
      refine LStep.refl.of_eq ?_
      apply view_ext <;> simp [view, acceptedOn, takenOn]

theorem complete_other {seq : Nat → Bool} {s : State} {r0 r : Nat} (h : r ≠ r0) :
    view (taskComplete seq s r0) r = view s r := by
  have h' : ¬ r0 = r := fun e => h e.symm
  unfold taskComplete
  by_cases h1 : seq r0 = true
  · rw [if_pos h1]
    apply view_ext <;> simp only [view]
    · rw [upd_ne _ _ h]
    · rw [upd_ne _ _ h]
    · rw [queueOf_append, queueOf_map]; simp [h']
    · intro _; trivial
    · rw [acceptedOn_append, acceptedOn_dropped]; simp
    · rw [takenOn_append, takenOn_dropped]; simp [h']
  · rw [if_neg h1]

/-- A worker's move, seen from a runner. -/
theorem view_setWorker {s : State} {i : Nat} {a b : Worker} (r : Nat) (h : s.workers[i]? = some a) :
    (∀ w, (view (s.setWorker i b) r).carry w + (if a.carries r w then 1 else 0) =
      (view s r).carry w + (if b.carries r w then 1 else 0)) ∧
    ((view (s.setWorker i b) r).carrN + (if a.carrier r then 1 else 0) =
      (view s r).carrN + (if b.carrier r then 1 else 0)) ∧
    ((view (s.setWorker i b) r).others + (if a.other r then 1 else 0) =
      (view s r).others + (if b.other r then 1 else 0)) := by
  refine ⟨fun w => ?_, ?_, ?_⟩ <;> simp only [view, State.setWorker]
  · exact countP_set _ h
  · exact countP_set _ h
  · exact countP_set _ h

/-- A move that is invisible to the runner. -/
theorem view_setWorker_same {s : State} {i : Nat} {a b : Worker} (r : Nat) (h : s.workers[i]? = some a)
    (h1 : ∀ w, a.carries r w = b.carries r w) (h2 : a.carrier r = b.carrier r) (h3 : a.other r = b.other r) :
    view (s.setWorker i b) r = view s r := by
  obtain ⟨x, y, z⟩ := view_setWorker (b := b) r h
  apply view_ext
  · rfl
  · rfl
  · rfl
  · intro w; have := x w; rw [h1 w] at this; omega
  · rw [h2] at y; omega
  · rw [h3] at z; omega
  · rfl
  · rfl

theorem complete_workers {seq : Nat → Bool} {s : State} {r : Nat} : (taskComplete seq s r).workers = s.workers := by
  unfold taskComplete; split <;> rfl

theorem post_workers {seq : Nat → Bool} {s : State} {r : Nat} {w : Work} :
    (postInternal seq s r w).workers = s.workers := by
  unfold postInternal; split
  · rfl
  · split <;> rfl

theorem complete_lstep {seq : Nat → Bool} {s : State} {ok : Bool} {i : Nat} (hok : s.manager = false → ok = false)
    (r0 r : Nat) (hi : s.workers[i]? = some (.completing r0)) :
    LStep (seq r) ok (view s r) (view ((taskComplete seq s r0).setWorker i .idle) r) := by
  have hi' : (taskComplete seq s r0).workers[i]? = some (.completing r0) := by rw [complete_workers]; exact hi
  by_cases hr : r = r0
  rotate_left
  · have : ¬ r0 = r := fun e => hr e.symm
    rw [view_setWorker_same (b := .idle) r hi' (by intro w; rfl) rfl (by simp [Worker.other, this]), complete_other hr]
    exact .refl
  subst hr
  obtain ⟨x, y, z⟩ := view_setWorker (b := .idle) r hi
  simp [Worker.carries, Worker.carrier, Worker.other] at x y z
  unfold taskComplete
  by_cases h1 : seq r = true
  · rw [if_pos h1]
    have := maybePost_none (m := s.manager) (R := s.runners r) rfl
    rcases this with ⟨a, b⟩ | ⟨p, rest, a, b⟩
    · simp only [b]
      refine (LStep.completeNone h1 a z.symm).of_eq ?_
      apply view_ext <;> simp [view, upd, acceptedOn, takenOn, queueOf, State.setWorker]
      · exact a
      · intro w; exact (x w).symm
      · exact y.symm
    · simp only [b]
      cases hm : s.manager with
      | true =>
        refine (LStep.complete h1 a z.symm).of_eq ?_
        apply view_ext <;> simp [view, upd, acceptedOn, takenOn, queueOf, State.setWorker]
        · intro w; exact (x w).symm
        · exact y.symm
      | false =>
        refine (LStep.completeLost h1 (hok hm) a z.symm).of_eq ?_
        apply view_ext <;> simp [view, upd, acceptedOn, takenOn, queueOf, State.setWorker]
        · intro w; exact (x w).symm
        · exact y.symm
  · rw [if_neg h1]
    have h1' : seq r = false := by simpa using h1
    refine (LStep.completePar h1' z.symm).of_eq ?_
    apply view_ext
    · rfl
    · rfl
    · rfl
    · intro w; exact (x w).symm
    · exact y.symm
    · rfl
    · rfl
    · rfl

/-- Nothing of a runner's work can be lost in this state. -/
def healthy (s : State) (r : Nat) : Bool := !decide (Ev.stopCalled ∈ s.log) && s.live r && s.manager

theorem healthy_manager {s : State} {r : Nat} (h : s.manager = false) : healthy s r = false := by simp [healthy, h]

theorem view_emit {s : State} {e : Ev} {r : Nat} (h1 : acceptedOn r [e] = []) (h2 : takenOn r [e] = []) :
    view (s.emit e) r = view s r := by
  apply view_ext <;> simp [view, State.emit, h1, h2]

/-- The worker carrying `w` begins it or finds its owner gone. -/
theorem begin_lstep {s : State} {i r0 r : Nat} {w : Work} {b : Worker} {e : Ev} {sq ok : Bool}
    (hi : s.workers[i]? = some (.holding r0 w))
    (hb1 : ∀ x r, b.carries r x = false) (hb2 : ∀ r, b.carrier r = false) (hb3 : ∀ r, b.other r = (r0 == r))
    (he1 : ∀ r, acceptedOn r [e] = []) (he2 : ∀ r, takenOn r [e] = if r0 = r then [w] else []) :
    LStep sq ok (view s r) (view ((s.setWorker i b).emit e) r) := by
  by_cases hr : r0 = r
  · obtain ⟨x, y, z⟩ := view_setWorker (b := b) r hi
    simp only [hb1, hb2, hb3] at x y z
    simp [Worker.carries, Worker.carrier, Worker.other, hr] at x y z
    refine (LStep.begin_ (w := w) (c' := (view (s.setWorker i b) r).carry)
      (m := (view (s.setWorker i b) r).carrN) (fun a => ?_) y.symm).of_eq ?_
    · rw [← x a]
      by_cases h : a = w
      · simp [h]
      · have : ¬ w = a := fun e => h e.symm
        simp [h, this]
    · apply view_ext
      · rfl
      · rfl
      · rfl
      · intro w; rfl
      · rfl
      · exact z.symm
      · simp [view, State.emit, State.setWorker, he1]
      · simp [view, State.emit, State.setWorker, he2, hr]
  · rw [view_emit (he1 r) (by simp [he2, hr]),
      view_setWorker_same r hi (by intro x; rw [hb1]; simp [Worker.carries, hr])
        (by rw [hb2]; simp [Worker.carrier, hr]) (by rw [hb3]; simp [Worker.other, hr])]
    exact .refl

/-- The worker carrying `w` discards it. -/
theorem drop_lstep {s : State} {i r0 r : Nat} {w : Work} {a : Worker} {sq ok : Bool}
    (hi : s.workers[i]? = some a) (hok : r0 = r → ok = false)
    (ha1 : ∀ x r, a.carries r x = (r0 == r && w == x)) (ha2 : ∀ r, a.carrier r = (r0 == r))
    (ha3 : ∀ r, a.other r = false) :
    LStep sq ok (view s r) (view ((s.setWorker i .idle).emit (.dropped r0 w)) r) := by
  by_cases hr : r0 = r
  · obtain ⟨x, y, z⟩ := view_setWorker (b := .idle) r hi
    simp only [ha1, ha2, ha3] at x y z
    simp [Worker.carries, Worker.carrier, Worker.other, hr] at x y z
    refine (LStep.drop (w := w) (c' := (view (s.setWorker i .idle) r).carry)
      (m := (view (s.setWorker i .idle) r).carrN) (hok hr) (fun a => ?_) y.symm).of_eq ?_
    · rw [← x a]
      by_cases h : a = w
      · simp [h]
      · have : ¬ w = a := fun e => h e.symm
        simp [h, this]
    · apply view_ext
      · rfl
      · rfl
      · rfl
      · intro w; rfl
      · rfl
      · exact z.symm
      · simp [view, State.emit, State.setWorker, acceptedOn]
      · simp [view, State.emit, State.setWorker, takenOn, hr]
  · rw [view_emit (by simp [acceptedOn]) (by simp [takenOn, hr]),
      view_setWorker_same r hi (by intro x; rw [ha1]; simp [Worker.carries, hr])
        (by rw [ha2]; simp [Worker.carrier, hr]) (by rw [ha3]; simp [Worker.other])]
    exact .refl

theorem step_lstep {seq : Nat → Bool} {n : Nat} {s s' : State}
    (hw : s.workers ≠ [] → s.keep = true ∨ Ev.stopCalled ∈ s.log) (h : Step seq n s s') (r : Nat) :
    LStep (seq r) (healthy s r) (view s r) (view s' r) := by
  have hwne : ∀ {i : Nat} {a : Worker}, s.workers[i]? = some a → s.workers ≠ [] := by
    intro i a e e2; simp [e2] at e
  cases h with
  | tick => exact .refl
  | release => exact .refl
  | ownerDies =>
    rw [view_emit (by simp [acceptedOn]) (by simp [takenOn])]; exact .refl
  | post h => exact post_lstep (s := { s with nextId := s.nextId + 1 }) healthy_manager _ _ _
  | postDelayed h1 h2 h3 =>
    rw [view_emit (by simp [acceptedOn]) (by simp [takenOn])]; exact .refl
  | postDelayedFail h1 h2 =>
    rw [view_emit (by simp [acceptedOn]) (by simp [takenOn])]; exact .refl
  | workerCheck h1 =>
    rw [view_setWorker_same (b := (if s.keep then .popping else .exited)) r h1 (by intro w; split <;> rfl) (by split <;> rfl) (by split <;> rfl)]; exact .refl
  | workerTimeout h1 h2 =>
    rw [view_setWorker_same (b := .idle) r h1 (by intro w; rfl) rfl rfl]; exact .refl
  | @workerPop i r0 w q h1 h2 =>
    by_cases hr : r0 = r
    · obtain ⟨x, y, z⟩ := view_setWorker (s := { s with queue := q }) (b := .popped r0 w) r h1
      simp [Worker.carries, Worker.carrier, Worker.other, hr] at x y z
      refine (LStep.pop (w := w) (q' := queueOf r q)
        (c' := (view ({ s with queue := q }.setWorker i (.popped r0 w)) r).carry) ?_ (fun a => ?_)).of_eq ?_
      · simp [view, h2, queueOf, hr]
      · rw [hr, x a]
        by_cases h : a = w
        · simp [h]; rfl
        · have : ¬ w = a := fun e => h e.symm
          simp [h, this]; rfl
      · subst hr
        apply view_ext
        · rfl
        · rfl
        · rfl
        · intro w; rfl
        · exact y.symm
        · exact z.symm
        · rfl
        · rfl
    · rw [view_setWorker_same (s := { s with queue := q }) (b := .popped r0 w) r h1 (by intro x; simp [Worker.carries, hr])
        (by simp [Worker.carrier, hr]) rfl]
      refine LStep.refl.of_eq ?_
      apply view_ext <;> simp [view, h2, queueOf, hr]
  | workerGo h1 h2 =>
    rw [view_setWorker_same (b := .checked _ _) r h1 (by intro w; rfl) rfl rfl]; exact .refl
  | workerStop h1 h2 =>
    refine drop_lstep h1 (fun _ => ?_) (fun _ _ => rfl) (fun _ => rfl) (fun _ => rfl)
    rcases hw (hwne h1) with h | h
    · rw [h2] at h; simp at h
    · simp [healthy, h]
  | workerLock h1 h2 =>
    rw [view_setWorker_same (b := .holding _ _) r h1 (by intro w; rfl) rfl rfl]; exact .refl
  | workerNoRunner h1 h2 =>
    refine drop_lstep h1 (fun e => ?_) (fun _ _ => rfl) (fun _ => rfl) (fun _ => rfl)
    subst e
    simp only [refd, Bool.or_eq_false_iff] at h2
    simp [healthy, h2.1]
  | workerBegin h1 h2 =>
    exact begin_lstep h1 (fun _ _ => rfl) (fun _ => rfl) (fun _ => rfl) (fun _ => rfl) (by intro r; simp [takenOn]; split <;> simp_all)
  | workerNoOwner h1 h2 =>
    exact begin_lstep h1 (fun _ _ => rfl) (fun _ => rfl) (fun _ => rfl) (fun _ => rfl) (by intro r; simp [takenOn]; split <;> simp_all)
  | workerEnd h1 =>
    rw [view_emit (by simp [acceptedOn]) (by simp [takenOn]), view_setWorker_same (b := .finished _ _ _) r h1 (by intro w; rfl) rfl rfl]
    exact .refl
  | @workerReply i r0 w res h1 h2 =>
    rw [view_setWorker_same (b := .completing r0) r (a := .finished r0 w res) (by rw [post_workers]; exact h1) (by intro w; rfl) rfl rfl]
    exact post_lstep (s := { s with nextId := s.nextId + 1 }) healthy_manager _ _ _
  | workerNoReply h1 h2 =>
    rw [view_setWorker_same (b := .completing _) r h1 (by intro w; rfl) rfl rfl]; exact .refl
  | workerComplete h1 => exact complete_lstep healthy_manager _ _ h1
  | timerCheck h => exact .refl
  | timerLock h => exact .refl
  | @timerDue t i due r0 w h1 h2 h3 h4 =>
    exact post_lstep (s := { s with delayedTasks := s.delayedTasks.eraseIdx i }) healthy_manager _ _ _
  | timerExpire h1 h2 h3 h4 =>
    rw [view_emit (by simp [acceptedOn]) (by simp [takenOn])]; exact .refl
  | timerNotDue => exact .refl
  | timerDone => exact .refl
  | start h1 h2 h3 =>
    rw [view_emit (by simp [acceptedOn]) (by simp [takenOn])]
    refine LStep.refl.of_eq ?_
    apply view_ext <;> simp [view, List.countP_replicate, Worker.carries, Worker.carrier, Worker.other]
  | stopCall h =>
    rw [view_emit (by simp [acceptedOn]) (by simp [takenOn])]; exact .refl
  | stopReturn =>
    rw [view_emit (by simp [acceptedOn]) (by simp [takenOn])]; exact .refl
  | managerGone => exact .refl

end Verif.Task
