import Verif.Task.Live

/-!
# `stop` completes, and a scan of the timer hands over everything that is due
-/

namespace Verif.Task

variable {seq : Nat → Bool} {n : Nat} {s : State}

/-- A worker thread or the timer thread took the step. -/
def ThreadMoved (s s' : State) : Prop :=
  (∃ (i : Nat) (a b : Worker), s.workers[i]? = some a ∧ s'.workers = s.workers.set i b ∧ a ≠ b) ∨
    s'.timer ≠ s.timer ∨ s'.delayedTasks.length < s.delayedTasks.length

/-- A step of one of the manager's threads. -/
def ThreadStep (seq : Nat → Bool) (n : Nat) (s s' : State) : Prop := Step seq n s s' ∧ ThreadMoved s s'

/-- `m` steps of the manager's threads, in any order. -/
inductive ThreadSteps (seq : Nat → Bool) (n' : Nat) : Nat → State → State → Prop
  | nil (s : State) : ThreadSteps seq n' 0 s s
  | cons {m : Nat} {s1 s2 s3 : State} : ThreadStep seq n' s1 s2 → ThreadSteps seq n' m s2 s3 →
      ThreadSteps seq n' (m + 1) s1 s3

/-! ## A measure for a manager that is stopping -/

def popCost : Worker → Nat
  | .popping => 2
  | _ => 0

def delayCosts (l : List (Nat × Nat × Work)) : Nat := (l.map fun x => cost x.2.2 + 2).sum

def timerCost (len : Nat) : Timer → Nat
  | .idle => 1
  | .armed _ => 3 + len
  | .scanning _ i => 2 + (len - i)
  | .exited => 0

def popCosts (l : List Worker) : Nat := (l.map popCost).sum

def potential2 (B : Nat) (s : State) : Nat :=
  potential B s + popCosts s.workers + delayCosts s.delayedTasks + timerCost s.delayedTasks.length s.timer

structure Below2 (B : Nat) (s : State) : Prop extends Below B s where
  delayed : ∀ x ∈ s.delayedTasks, x.2.1 < B

theorem exists_below2 (s : State) : ∃ B, Below2 B s := by
  obtain ⟨B, hB⟩ := exists_below s
  have h1 : ∀ q : List (Nat × Nat × Work), ∃ B, ∀ x ∈ q, x.2.1 < B := by
    intro q
    induction q with
    | nil => exact ⟨0, by simp⟩
    | cons a q ih =>
      obtain ⟨B, hB⟩ := ih
      refine ⟨a.2.1 + 1 + B, fun x hx => ?_⟩
      rcases List.mem_cons.1 hx with rfl | hx
      · omega
      · have := hB x hx; omega
  obtain ⟨C, hC⟩ := h1 s.delayedTasks
  exact ⟨B + C, ⟨fun x hx => by have := hB.queue x hx; omega,
    fun x hx => Worker.below_mono (by omega) (hB.workers x hx)⟩, fun x hx => by have := hC x hx; omega⟩

theorem popCosts_set {l : List Worker} {i : Nat} {a : Worker} (b : Worker) (h : l[i]? = some a) :
    popCosts (l.set i b) + popCost a = popCosts l + popCost b := by
  induction l generalizing i with
  | nil => simp at h
  | cons c l ih =>
    cases i with
    | zero => simp at h; subst h; simp [popCosts]; omega
    | succ i => simp at h; have := ih h; simp [popCosts] at this ⊢; omega

theorem delayCosts_erase {l : List (Nat × Nat × Work)} {i : Nat} {x : Nat × Nat × Work} (h : l[i]? = some x) :
    delayCosts (l.eraseIdx i) + cost x.2.2 + 2 = delayCosts l := by
  induction l generalizing i with
  | nil => simp at h
  | cons c l ih =>
    cases i with
    | zero => simp at h; subst h; simp [delayCosts]; omega
    | succ i => simp at h; have := ih h; simp [delayCosts] at this ⊢; omega

theorem post_frame (s : State) (r : Nat) (w : Work) :
    (postInternal seq s r w).delayedTasks = s.delayedTasks ∧ (postInternal seq s r w).timer = s.timer ∧
      (postInternal seq s r w).keep = s.keep ∧ (postInternal seq s r w).stopping = s.stopping := by
  unfold postInternal
  split
  · exact ⟨rfl, rfl, rfl, rfl⟩
  · split <;> exact ⟨rfl, rfl, rfl, rfl⟩

theorem complete_frame (s : State) (r : Nat) :
    (taskComplete seq s r).delayedTasks = s.delayedTasks ∧ (taskComplete seq s r).timer = s.timer ∧
      (taskComplete seq s r).keep = s.keep ∧ (taskComplete seq s r).stopping = s.stopping := by
  unfold taskComplete
  split <;> exact ⟨rfl, rfl, rfl, rfl⟩

theorem not_thread {s s' : State} (h1 : s'.workers = s.workers) (h2 : s'.timer = s.timer)
    (h3 : s.delayedTasks.length ≤ s'.delayedTasks.length) : ¬ ThreadMoved s s' := by
  rintro (⟨i, a, b, h, h4, h5⟩ | h | h)
  · rw [h1] at h4
    have : s.workers[i]? = some b := by
      rw [h4, List.getElem?_set_self (List.getElem?_eq_some_iff.1 h).1]
    rw [h] at this
    exact h5 (Option.some.inj this)
  · exact h h2
  · omega

theorem below_erase {B : Nat} {l : List (Nat × Nat × Work)} (i : Nat) (h : ∀ x ∈ l, x.2.1 < B) :
    ∀ x ∈ l.eraseIdx i, x.2.1 < B := fun x hx => h x (List.mem_of_mem_eraseIdx hx)

/-- While a `stop` is in progress every step of a thread uses up some of the measure. -/
theorem thread_step_decreases {B : Nat} {s s' : State} (hb : Below2 B s) (hk : s.keep = false)
    (hst : s.stopping = true) (h : ThreadStep seq n s s') :
    Below2 B s' ∧ potential2 B s' < potential2 B s ∧ s'.keep = false ∧ s'.stopping = true := by
  obtain ⟨hs, hm⟩ := h
  have hw : ∀ {i : Nat} {a : Worker}, s.workers[i]? = some a → a.below B :=
    fun h => hb.workers _ (mem_of_getElem? h)
  have simple : ∀ {i : Nat} {a b : Worker}, s.workers[i]? = some a → b.below B →
      wcost b + popCost b < wcost a + popCost a →
      Below2 B (s.setWorker i b) ∧ potential2 B (s.setWorker i b) < potential2 B s ∧
        (s.setWorker i b).keep = false ∧ (s.setWorker i b).stopping = true := by
    intro i a b h1 h2 h3
    have e1 := wcosts_set b h1
    have e2 := popCosts_set b h1
    refine ⟨⟨⟨hb.queue, below_set hb.workers h2⟩, hb.delayed⟩, ?_, hk, hst⟩
    simp only [potential2, potential, State.setWorker]; omega
  have simpleE : ∀ {i : Nat} {a b : Worker} {e : Ev}, s.workers[i]? = some a → b.below B →
      wcost b + popCost b < wcost a + popCost a →
      Below2 B ((s.setWorker i b).emit e) ∧ potential2 B ((s.setWorker i b).emit e) < potential2 B s ∧
        ((s.setWorker i b).emit e).keep = false ∧ ((s.setWorker i b).emit e).stopping = true := by
    intro i a b e h1 h2 h3
    have := simple h1 h2 h3
    exact ⟨⟨⟨this.1.queue, this.1.workers⟩, this.1.delayed⟩, this.2⟩
  cases hs with
  | workerCheck h =>
    rw [hk]
    exact simple (b := .exited) h trivial (by simp [wcost, popCost])
  | workerTimeout h _ => exact simple (b := .idle) h trivial (by simp [wcost, popCost])
  | @workerPop i r w q h hq =>
    have h1 := wcosts_set (.popped r w) h
    have h2 := popCosts_set (.popped r w) h
    have hr : r < B := hb.queue (r, w) (by rw [hq]; simp)
    refine ⟨⟨⟨fun x hx => hb.queue x (by rw [hq]; exact List.mem_cons_of_mem _ hx),
      below_set hb.workers hr⟩, hb.delayed⟩, ?_, hk, hst⟩
    have := cost_ge w
    simp only [potential2, potential, State.setWorker, hq, List.map_cons, costs_cons]
    simp only [wcost, popCost] at h1 h2
    omega
  | workerGo _ h => rw [hk] at h; exact Bool.noConfusion h
  | @workerStop i r w h _ =>
    have := cost_ge w
    exact simpleE (b := .idle) h (by trivial) (by simp only [wcost, popCost]; omega)
  | @workerLock i r w h _ =>
    have := cost_ge w
    have hrb : r < B := hw h
    exact simple (b := .holding r w) h hrb (by simp only [wcost, popCost]; omega)
  | @workerNoRunner i r w h _ =>
    have := cost_ge w
    exact simpleE (b := .idle) h (by trivial) (by simp only [wcost, popCost]; omega)
  | @workerBegin i r w h _ =>
    have := cost_ge w
    have hrb : r < B := hw h
    exact simpleE (b := .running r w) h hrb (by simp only [wcost, popCost]; omega)
  | @workerNoOwner i r w h _ =>
    have := cost_ge w
    have hrb : r < B := hw h
    exact simpleE (b := .completing r) h hrb (by simp only [wcost, popCost]; omega)
  | @workerEnd i r w res h =>
    have := cost_ge w
    have hrb : r < B := hw h
    exact simpleE (b := .finished r w res) h hrb (by simp only [wcost, popCost]; omega)
  | @workerReply i r w res h hr =>
    have hrb : r < B := hw h
    have h1 := potential_post (seq := seq) B { s with nextId := s.nextId + 1 } r (replyWork s.nextId w res) hrb
    have h2 := potential_setWorker B (postInternal seq { s with nextId := s.nextId + 1 } r
      (replyWork s.nextId w res)) i (.finished r w res) (.completing r) (by rw [post_workers]; exact h)
    have h3 := popCosts_set (.completing r) h
    obtain ⟨f1, f2, f3, f4⟩ := post_frame (seq := seq) { s with nextId := s.nextId + 1 } r (replyWork s.nextId w res)
    refine ⟨⟨⟨post_queue_below hrb hb.queue, ?_⟩, ?_⟩, ?_, f3.trans hk, f4.trans hst⟩
    · simp only [State.setWorker, post_workers]
      exact below_set hb.workers hrb
    · simp only [State.setWorker, f1]; exact hb.delayed
    · have e1 : cost (replyWork s.nextId w res) = 10 := rfl
      have e2 : cost w = 20 := by unfold cost; rw [hr]; rfl
      have e3 : potential B { s with nextId := s.nextId + 1 } = potential B s := rfl
      simp only [wcost] at h2
      simp only [popCost] at h3
      simp only [potential2, State.setWorker, f1, f2, post_workers] at h2 ⊢
      omega
  | @workerNoReply i r w res h hr =>
    have := cost_ge w
    have hrb : r < B := hw h
    exact simple (b := .completing r) h hrb (by simp only [wcost, popCost]; omega)
  | @workerComplete i r h =>
    have hrb : r < B := hw h
    have h1 := potential_complete (seq := seq) B s r hrb
    have h2 := potential_setWorker B (taskComplete seq s r) i (.completing r) .idle
      (by rw [complete_workers]; exact h)
    have h3 := popCosts_set .idle h
    obtain ⟨f1, f2, f3, f4⟩ := complete_frame (seq := seq) s r
    refine ⟨⟨⟨complete_queue_below hrb hb.queue, ?_⟩, ?_⟩, ?_, f3.trans hk, f4.trans hst⟩
    · simp only [State.setWorker, complete_workers]
      exact below_set hb.workers (by trivial)
    · simp only [State.setWorker, f1]; exact hb.delayed
    · simp only [wcost] at h2
      simp only [popCost] at h3
      simp only [potential2, State.setWorker, f1, f2, complete_workers] at h2 ⊢
      omega
  | timerCheck h =>
    refine ⟨⟨⟨hb.queue, hb.workers⟩, hb.delayed⟩, ?_, hk, hst⟩
    simp only [potential2, potential, h, hk, timerCost, Bool.false_eq_true, if_false]; omega
  | @timerLock t h =>
    refine ⟨⟨⟨hb.queue, hb.workers⟩, hb.delayed⟩, ?_, hk, hst⟩
    simp only [potential2, potential, h, timerCost]; omega
  | @timerDue t i due r w h h1 h2 h3 =>
    have hr : r < B := hb.delayed _ (List.mem_of_getElem? h1)
    have h4 := potential_post (seq := seq) B { s with delayedTasks := s.delayedTasks.eraseIdx i } r w hr
    have h5 := delayCosts_erase h1
    obtain ⟨f1, f2, f3, f4⟩ := post_frame (seq := seq) { s with delayedTasks := s.delayedTasks.eraseIdx i } r w
    refine ⟨⟨⟨post_queue_below hr hb.queue, ?_⟩, ?_⟩, ?_, f3.trans hk, f4.trans hst⟩
    · rw [post_workers]; exact hb.workers
    · rw [f1]; exact below_erase i hb.delayed
    · have e3 : potential B { s with delayedTasks := s.delayedTasks.eraseIdx i } = potential B s := rfl
      have hl : (s.delayedTasks.eraseIdx i).length ≤ s.delayedTasks.length := List.length_eraseIdx_le ..
      have f5 : (postInternal seq { s with delayedTasks := s.delayedTasks.eraseIdx i } r w).workers = s.workers :=
        post_workers
      have h6 : delayCosts (s.delayedTasks.eraseIdx i) + (cost w + 2) = delayCosts s.delayedTasks := h5
      rw [e3] at h4
      generalize postInternal seq { s with delayedTasks := s.delayedTasks.eraseIdx i } r w = P at *
      simp only at f1 f2
      simp only [potential2, f1, f2, f5]
      simp only [h, timerCost]
      omega
  | @timerExpire t i due r w h h1 h2 h3 =>
    have h5 := delayCosts_erase h1
    have hl : (s.delayedTasks.eraseIdx i).length ≤ s.delayedTasks.length := List.length_eraseIdx_le ..
    refine ⟨⟨⟨hb.queue, hb.workers⟩, below_erase i hb.delayed⟩, ?_, hk, hst⟩
    simp only [potential2, potential, State.emit, h, timerCost]; omega
  | @timerNotDue t i due r w h h1 h2 =>
    have hi := (List.getElem?_eq_some_iff.1 h1).1
    refine ⟨⟨⟨hb.queue, hb.workers⟩, hb.delayed⟩, ?_, hk, hst⟩
    simp only [potential2, potential, h, timerCost]; omega
  | @timerDone t i h h1 =>
    refine ⟨⟨⟨hb.queue, hb.workers⟩, hb.delayed⟩, ?_, hk, hst⟩
    simp only [potential2, potential, h, timerCost]; omega
  | start _ _ h => rw [hst] at h; exact Bool.noConfusion h
  | stopCall h => rw [hk] at h; exact Bool.noConfusion h
  | post =>
    refine absurd hm (not_thread post_workers (post_frame _ _ _).2.1 ?_)
    rw [(post_frame _ _ _).1]; exact Nat.le_refl _
  | postDelayed => exact absurd hm (not_thread rfl rfl (by simp [State.emit]))
  | _ => exact absurd hm (not_thread rfl rfl (Nat.le_refl _))

/-- C91: once `stop` has been called, the threads of the manager take only finitely many more steps,
however they are scheduled (user functions that are running return: each takes one step to its end). -/
theorem stop_bounded (s : State) (hk : s.keep = false) (hst : s.stopping = true) :
    ∃ N, ∀ m s', ThreadSteps seq n m s s' → m ≤ N := by
  obtain ⟨B, hB⟩ := exists_below2 s
  refine ⟨potential2 B s, fun m s' h => ?_⟩
  induction h with
  | nil => omega
  | cons hs _ ih =>
    obtain ⟨h1, h2, h3, h4⟩ := thread_step_decreases hB hk hst hs
    have := ih h3 h4 h1
    omega

theorem reach_stopping (h : Reach seq n s) (hst : s.stopping = true) : s.keep = false := by
  induction h with
  | init => rfl
  | @step s s' hr hs ih =>
    cases hs with
    | stopCall => rfl
    | start h1 h2 h3 => simp_all [State.emit]
    | stopReturn => simp [State.emit] at hst
    | post => have f := post_frame (seq := seq) { s with nextId := s.nextId + 1 }; simp_all
    | timerDue =>
      rw [(post_frame _ _ _).2.2.1]; rw [(post_frame _ _ _).2.2.2] at hst; exact ih hst
    | workerReply =>
      simp only [State.setWorker] at hst ⊢
      rw [(post_frame _ _ _).2.2.1]; rw [(post_frame _ _ _).2.2.2] at hst; exact ih hst
    | workerComplete =>
      simp only [State.setWorker] at hst ⊢
      rw [(complete_frame _ _).2.2.1]; rw [(complete_frame _ _).2.2.2] at hst; exact ih hst
    | _ => exact ih hst

theorem thread_set {s s' : State} {i : Nat} {a b : Worker} (h1 : s.workers[i]? = some a)
    (h2 : s'.workers = s.workers.set i b) (h3 : a ≠ b) : ThreadMoved s s' := Or.inl ⟨i, a, b, h1, h2, h3⟩

/-- C91: when the threads of a stopping manager can do nothing more, all of them have finished, and so
the call of `stop` returns. -/
theorem stop_no_deadlock (h : Reach seq n s) (hst : s.stopping = true)
    (hdone : ¬ ∃ s', ThreadStep seq n s s') :
    (∀ x ∈ s.workers, x = .exited) ∧ s.timer = .exited ∧
      Step seq n s ({ s with stopping := false }.emit .stopped) := by
  have hk := reach_stopping h hst
  have hw : ∀ x ∈ s.workers, x = .exited := by
    intro a hx
    obtain ⟨i, hi⟩ := List.getElem?_of_mem hx
    cases a with
    | exited => rfl
    | popping =>
      cases hq : s.queue with
      | nil => exact (hdone ⟨_, .workerTimeout hi hq, thread_set hi rfl (by simp)⟩).elim
      | cons x q => exact (hdone ⟨_, .workerPop (r := x.1) (w := x.2) hi hq, thread_set hi rfl (by simp)⟩).elim
    | idle => exact (hdone ⟨_, .workerCheck hi, thread_set hi rfl (by rw [hk]; simp)⟩).elim
    | popped r w => exact (hdone ⟨_, .workerStop hi hk, thread_set hi rfl (by simp)⟩).elim
    | checked r w =>
      cases hr : refd s r with
      | true => exact (hdone ⟨_, .workerLock hi hr, thread_set hi rfl (by simp)⟩).elim
      | false => exact (hdone ⟨_, .workerNoRunner hi hr, thread_set hi rfl (by simp)⟩).elim
    | holding r w =>
      cases hr : ownerAlive s w with
      | true => exact (hdone ⟨_, .workerBegin hi hr, thread_set hi rfl (by simp)⟩).elim
      | false => exact (hdone ⟨_, .workerNoOwner hi hr, thread_set hi rfl (by simp)⟩).elim
    | running r w => exact (hdone ⟨_, .workerEnd (res := 0) hi, thread_set hi rfl (by simp)⟩).elim
    | finished r w res =>
      cases hr : w.hasReply with
      | true =>
        exact (hdone ⟨_, .workerReply hi hr, thread_set (b := .completing r) hi
          (by simp only [State.setWorker, post_workers]) (by simp)⟩).elim
      | false => exact (hdone ⟨_, .workerNoReply hi hr, thread_set hi rfl (by simp)⟩).elim
    | completing r =>
      exact (hdone ⟨_, .workerComplete hi, thread_set (b := .idle) hi
        (by simp only [State.setWorker, complete_workers]) (by simp)⟩).elim
  have ht : s.timer = .exited := by
    cases ht : s.timer with
    | exited => rfl
    | idle => exact (hdone ⟨_, .timerCheck ht, Or.inr (Or.inl (by rw [ht, hk]; simp))⟩).elim
    | armed t => exact (hdone ⟨_, .timerLock ht, Or.inr (Or.inl (by rw [ht]; simp))⟩).elim
    | scanning t i =>
      cases hx : s.delayedTasks[i]? with
      | none =>
        exact (hdone ⟨_, .timerDone ht (List.getElem?_eq_none_iff.1 hx),
          Or.inr (Or.inl (by rw [ht]; simp))⟩).elim
      | some x =>
        obtain ⟨due, r, w⟩ := x
        have hlt := (List.getElem?_eq_some_iff.1 hx).1
        have hlen : (s.delayedTasks.eraseIdx i).length < s.delayedTasks.length := by
          rw [List.length_eraseIdx_of_lt hlt]; omega
        by_cases hd : due ≤ t
        · cases hr : refd s r with
          | true =>
            refine (hdone ⟨_, .timerDue ht hx hd hr, Or.inr (Or.inr ?_)⟩).elim
            rw [(post_frame _ _ _).1]; exact hlen
          | false => exact (hdone ⟨_, .timerExpire ht hx hd hr, Or.inr (Or.inr hlen)⟩).elim
        · refine (hdone ⟨_, .timerNotDue ht hx (by omega), Or.inr (Or.inl ?_)⟩).elim
          rw [ht]; simp
  exact ⟨hw, ht, .stopReturn hst hw ht⟩

/-- C91: from every reachable state in which `stop` has been called, the manager's threads alone reach
a state in which it returns. -/
theorem stop_completes (h : Reach seq n s) (hst : s.stopping = true) :
    ∃ m s', ThreadSteps seq n m s s' ∧ Reach seq n s' ∧
      Step seq n s' ({ s' with stopping := false }.emit .stopped) := by
  obtain ⟨B, hB⟩ := exists_below2 s
  have hk := reach_stopping h hst
  induction hp : potential2 B s using Nat.strongRecOn generalizing s with
  | ind x ih =>
    by_cases hd : ∃ s', ThreadStep seq n s s'
    · obtain ⟨s1, h1⟩ := hd
      obtain ⟨b1, b2, b3, b4⟩ := thread_step_decreases hB hk hst h1
      obtain ⟨m, s', g1, g2, g3⟩ := ih (potential2 B s1) (by omega) (h.step h1.1) b4 b1 b3 rfl
      exact ⟨m + 1, s', .cons h1 g1, g2, g3⟩
    · exact ⟨0, s, .nil s, h, (stop_no_deadlock h hst hd).2.2⟩

/-- A manager that is stopping with a task still queued. -/
example : ∃ s, Reach (fun _ => true) 2 s ∧ s.stopping = true ∧ s.queue ≠ [] ∧
    ∃ s', ThreadStep (fun _ => true) 2 s s' := by
  have r0 := Reach.init (seq := fun _ => true) (n := 2)
  have r1 := r0.step (.start rfl rfl rfl)
  have r2 := r1.step (.post (r := 0) (owner := none) (hasReply := true) rfl)
  have r3 := r2.step (.stopCall rfl)
  exact ⟨_, r3, rfl, by decide, _, .workerCheck (i := 0) rfl,
    thread_set (i := 0) (a := .idle) (b := .exited) rfl rfl (by simp)⟩

/-! ## The timer -/

/-- While the timer scans, everything it has passed is not due yet. -/
theorem reach_scan (h : Reach seq n s) (t i : Nat) (ht : s.timer = .scanning t i) :
    ∀ j, j < i → ∀ x, s.delayedTasks[j]? = some x → t < x.1 := by
  induction h generalizing t i with
  | init => simp [init] at ht
  | @step s s' hr hs ih =>
    cases hs with
    | timerCheck h1 => simp only at ht; split at ht <;> simp at ht
    | timerLock h1 => simp only [Timer.scanning.injEq] at ht; intro j hj; omega
    | @timerNotDue t0 i0 due r w h1 h2 h3 =>
      simp only [Timer.scanning.injEq] at ht
      obtain ⟨rfl, rfl⟩ := ht
      intro j hj x hx
      by_cases e : j = i0
      · subst e
        change s.delayedTasks[j]? = _ at hx
        rw [h2] at hx
        rw [← Option.some.inj hx]; exact h3
      · exact ih _ _ h1 j (by omega) x hx
    | timerDone h1 => simp at ht
    | @timerDue t0 i0 due r w h1 h2 h3 h4 =>
      rw [(post_frame _ _ _).2.1] at ht
      change s.timer = _ at ht
      rw [h1] at ht
      simp only [Timer.scanning.injEq] at ht
      obtain ⟨rfl, rfl⟩ := ht
      intro j hj x hx
      rw [(post_frame _ _ _).1] at hx
      simp only at hx
      rw [List.getElem?_eraseIdx_of_lt hj] at hx
      exact ih _ _ h1 j hj x hx
    | @timerExpire t0 i0 due r w h1 h2 h3 h4 =>
      simp only [State.emit] at ht
      rw [h1] at ht
      simp only [Timer.scanning.injEq] at ht
      obtain ⟨rfl, rfl⟩ := ht
      intro j hj x hx
      simp only [State.emit] at hx
      rw [List.getElem?_eraseIdx_of_lt hj] at hx
      exact ih _ _ h1 j hj x hx
    | postDelayed _ _ h1 => simp only [State.emit] at ht; exact absurd ht (h1 t i)
    | start => simp [State.emit] at ht
    | post =>
      rw [(post_frame _ _ _).2.1] at ht
      rw [(post_frame _ _ _).1]; exact ih t i ht
    | workerReply =>
      simp only [State.setWorker] at ht ⊢
      rw [(post_frame _ _ _).2.1] at ht
      rw [(post_frame _ _ _).1]; exact ih t i ht
    | workerComplete =>
      simp only [State.setWorker] at ht ⊢
      rw [(complete_frame _ _).2.1] at ht
      rw [(complete_frame _ _).1]; exact ih t i ht
    | _ => exact ih t i ht

/-- C47: one pass of the timer, begun at time `t`, leaves no delayed task that was due at `t`. -/
theorem timer_pass_complete (h : Reach seq n s) (t i : Nat) (ht : s.timer = .scanning t i)
    (hend : s.delayedTasks.length ≤ i) : ∀ x ∈ s.delayedTasks, t < x.1 := by
  intro x hx
  obtain ⟨j, hj⟩ := List.getElem?_of_mem hx
  have := (List.getElem?_eq_some_iff.1 hj).1
  exact reach_scan h t i ht j (by omega) x hj

/-- A pass that begins at time 5 with tasks due at 3 and 9: at its end the second is left. -/
example : ∃ s, Reach (fun _ => false) 1 s ∧ s.timer = .scanning 5 1 ∧ s.delayedTasks.length ≤ 1 ∧
    s.delayedTasks.map (·.1) = [9] := by
  have r0 := Reach.init (seq := fun _ => false) (n := 1)
  have r1 := r0.step (.start rfl rfl rfl)
  have r2 := r1.step (.postDelayed (r := 0) (owner := none) (hasReply := false) (delay := 3) rfl rfl (fun _ _ h => by cases h))
  have r3 := r2.step (.postDelayed (r := 0) (owner := none) (hasReply := false) (delay := 9) rfl rfl (fun _ _ h => by cases h))
  have r4 := r3.step (.tick (d := 5))
  have r5 := r4.step (.timerCheck rfl)
  have r6 := r5.step (.timerLock (t := 5) rfl)
  have r7 := r6.step (.timerDue (t := 5) (i := 0) rfl rfl (by decide) rfl)
  have r8 := r7.step (.timerNotDue (t := 5) (i := 0) rfl rfl (by decide))
  exact ⟨_, r8, rfl, by decide, rfl⟩

end Verif.Task
