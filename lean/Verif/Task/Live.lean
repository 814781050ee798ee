import Verif.Task.Props

/-!
# Accepted tasks are executed

Progress of the workers: leaving aside time-outs of the queue (which only repeat the same test), the
workers of a manager can take only finitely many steps on their own, and when they can take no more,
every task accepted by a runner that is still there has been executed (or discarded with its owner).
-/

namespace Verif.Task

variable {seq : Nat → Bool} {n : Nat} {s : State}

/-- Some worker thread moved, and not by its timed pop giving up. -/
def WorkerMoved (s s' : State) : Prop :=
  ∃ (i : Nat) (a b : Worker), s.workers[i]? = some a ∧ s'.workers = s.workers.set i b ∧ a ≠ b ∧
    ¬ (a = .popping ∧ b = .idle)

/-- A step of a worker thread. -/
def WorkerStep (seq : Nat → Bool) (n : Nat) (s s' : State) : Prop := Step seq n s s' ∧ WorkerMoved s s'

/-- `m` steps of worker threads, by any of them in any order. -/
inductive WorkerSteps (seq : Nat → Bool) (n' : Nat) : Nat → State → State → Prop
  | nil (s : State) : WorkerSteps seq n' 0 s s
  | cons {m : Nat} {s1 s2 s3 : State} : WorkerStep seq n' s1 s2 → WorkerSteps seq n' m s2 s3 →
      WorkerSteps seq n' (m + 1) s1 s3

/-! ## A measure -/

/-- Steps needed for a task, with those of its reply. -/
def cost (w : Work) : Nat := if w.hasReply then 20 else 10

def costs (l : List Work) : Nat := (l.map cost).sum

def wcost : Worker → Nat
  | .idle => 1
  | .popping => 0
  | .popped _ w => cost w - 1
  | .checked _ w => cost w - 2
  | .holding _ w => cost w - 3
  | .running _ w => cost w - 4
  | .finished _ w _ => cost w - 5
  | .completing _ => 3
  | .exited => 0

def wcosts (l : List Worker) : Nat := (l.map wcost).sum

/-- Cost of the tasks waiting in the first `B` runners. -/
def pendCosts (B : Nat) (f : Nat → Runner) : Nat := ((List.range B).map fun r => costs (f r).pending).sum

def potential (B : Nat) (s : State) : Nat :=
  pendCosts B s.runners + costs (s.queue.map (·.2)) + wcosts s.workers

/-- Only the first `B` runners are in use. -/
def Worker.below (B : Nat) : Worker → Prop
  | .popped r _ => r < B
  | .checked r _ => r < B
  | .holding r _ => r < B
  | .running r _ => r < B
  | .finished r _ _ => r < B
  | .completing r => r < B
  | _ => True

structure Below (B : Nat) (s : State) : Prop where
  queue : ∀ x ∈ s.queue, x.1 < B
  workers : ∀ x ∈ s.workers, x.below B

theorem Worker.below_mono {B B' : Nat} (h : B ≤ B') {x : Worker} (hx : x.below B) : x.below B' := by
  cases x <;> simp only [Worker.below] at hx ⊢ <;> omega

theorem exists_below (s : State) : ∃ B, Below B s := by
  have h1 : ∀ q : List (Nat × Work), ∃ B, ∀ x ∈ q, x.1 < B := by
    intro q
    induction q with
    | nil => exact ⟨0, by simp⟩
    | cons a q ih =>
      obtain ⟨B, hB⟩ := ih
      refine ⟨a.1 + 1 + B, fun x hx => ?_⟩
      rcases List.mem_cons.1 hx with rfl | hx
      · omega
      · have := hB x hx; omega
  have h2 : ∀ q : List Worker, ∃ B, ∀ x ∈ q, x.below B := by
    intro q
    induction q with
    | nil => exact ⟨0, by simp⟩
    | cons a q ih =>
      obtain ⟨B, hB⟩ := ih
      have : ∃ C, a.below C := by
        cases a <;> simp only [Worker.below] <;> first | exact ⟨0, trivial⟩ | exact ⟨_, Nat.lt_succ_self _⟩
      obtain ⟨C, hC⟩ := this
      refine ⟨B + C, fun x hx => ?_⟩
      rcases List.mem_cons.1 hx with rfl | hx
      · exact Worker.below_mono (by omega) hC
      · exact Worker.below_mono (by omega) (hB x hx)
  obtain ⟨B, hB⟩ := h1 s.queue
  obtain ⟨C, hC⟩ := h2 s.workers
  exact ⟨B + C, fun x hx => by have := hB x hx; omega,
    fun x hx => Worker.below_mono (by omega) (hC x hx)⟩

theorem wcosts_set {l : List Worker} {i : Nat} {a : Worker} (b : Worker) (h : l[i]? = some a) :
    wcosts (l.set i b) + wcost a = wcosts l + wcost b := by
  induction l generalizing i with
  | nil => simp at h
  | cons c l ih =>
    cases i with
    | zero => simp at h; subst h; simp [wcosts]; omega
    | succ i => simp at h; have := ih h; simp [wcosts] at this ⊢; omega

theorem pendCosts_upd (B : Nat) (f : Nat → Runner) (r : Nat) (R : Runner) (h : r < B) :
    pendCosts B (upd f r R) + costs (f r).pending = pendCosts B f + costs R.pending := by
  induction B with
  | zero => omega
  | succ B ih =>
    unfold pendCosts at ih ⊢
    rw [List.range_succ, List.map_append, List.map_append, List.sum_append, List.sum_append]
    simp only [List.map_cons, List.map_nil, List.sum_cons, List.sum_nil, Nat.add_zero]
    by_cases hr : r = B
    · subst hr
      rw [upd_same]
      have : (List.range r).map (fun r' => costs (upd f r R r').pending) =
          (List.range r).map (fun r' => costs (f r').pending) := by
        apply List.map_congr_left
        intro x hx
        rw [upd_ne _ _ (by have := List.mem_range.1 hx; omega)]
      rw [this]; omega
    · have := ih (by omega)
      rw [upd_ne f R (show B ≠ r by omega)]
      omega

theorem costs_append (a b : List Work) : costs (a ++ b) = costs a + costs b := by simp [costs]

theorem costs_cons (a : Work) (b : List Work) : costs (a :: b) = cost a + costs b := by simp [costs]

theorem costs_nil : costs [] = 0 := rfl

theorem map_snd_pair (r : Nat) (l : List Work) : (l.map fun x => (r, x)).map (·.2) = l := by
  induction l with
  | nil => rfl
  | cons a l ih => simp only [List.map_cons, ih]

/-- Posting adds at most the cost of the posted task. -/
theorem potential_post (B : Nat) (s : State) (r : Nat) (w : Work) (h : r < B) :
    potential B (postInternal seq s r w) ≤ potential B s + cost w := by
  unfold postInternal
  split
  · have hu := pendCosts_upd B s.runners r (maybePost s.manager (s.runners r) (some w)).runner h
    simp only [potential, List.map_append, costs_append, map_snd_pair]
    rcases maybePost_some (m := s.manager) (R := s.runners r) (w := w) rfl with ⟨_, e⟩ | ⟨_, _, e⟩ | ⟨a, rest, _, e1, e⟩
    · rw [e] at hu ⊢
      simp only [costs_append, costs_cons, costs_nil] at hu ⊢; omega
    · rw [e] at hu ⊢
      cases hm : s.manager <;> simp only [hm, costs_nil, costs_cons, if_true, Bool.false_eq_true, if_false] at hu ⊢ <;> omega
    · rw [e] at hu ⊢
      rw [e1] at hu
      cases hm : s.manager <;>
        simp only [hm, costs_nil, costs_cons, costs_append, if_true, Bool.false_eq_true, if_false] at hu ⊢ <;> omega
  · split
    · simp only [potential, List.map_append, costs_append, List.map_cons, List.map_nil, costs_cons, costs_nil]
      omega
    · simp only [potential]; omega

theorem potential_complete (B : Nat) (s : State) (r : Nat) (h : r < B) :
    potential B (taskComplete seq s r) ≤ potential B s := by
  unfold taskComplete
  split
  · have hu := pendCosts_upd B s.runners r (maybePost s.manager (s.runners r) none).runner h
    simp only [potential, List.map_append, costs_append, map_snd_pair]
    rcases maybePost_none (m := s.manager) (R := s.runners r) rfl with ⟨e1, e⟩ | ⟨a, rest, e1, e⟩
    · rw [e] at hu ⊢
      rw [e1] at hu
      simp only [costs_nil] at hu ⊢; omega
    · rw [e] at hu ⊢
      rw [e1] at hu
      cases hm : s.manager <;>
        simp only [hm, costs_nil, costs_cons, if_true, Bool.false_eq_true, if_false] at hu ⊢ <;> omega
  · exact Nat.le_refl _

theorem post_queue_below {B : Nat} {s : State} {r : Nat} {w : Work} (h : r < B) (hq : ∀ x ∈ s.queue, x.1 < B) :
    ∀ x ∈ (postInternal seq s r w).queue, x.1 < B := by
  intro x hx
  unfold postInternal at hx
  split at hx
  · simp only [List.mem_append, List.mem_map] at hx
    rcases hx with hx | ⟨_, _, rfl⟩
    · exact hq x hx
    · exact h
  · split at hx
    · simp only [List.mem_append, List.mem_singleton] at hx
      rcases hx with hx | rfl
      · exact hq x hx
      · exact h
    · exact hq x hx

theorem complete_queue_below {B : Nat} {s : State} {r : Nat} (h : r < B) (hq : ∀ x ∈ s.queue, x.1 < B) :
    ∀ x ∈ (taskComplete seq s r).queue, x.1 < B := by
  intro x hx
  unfold taskComplete at hx
  split at hx
  · simp only [List.mem_append, List.mem_map] at hx
    rcases hx with hx | ⟨_, _, rfl⟩
    · exact hq x hx
    · exact h
  · exact hq x hx

theorem potential_setWorker (B : Nat) (s : State) (i : Nat) (a b : Worker) (h : s.workers[i]? = some a) :
    potential B (s.setWorker i b) + wcost a = potential B s + wcost b := by
  have := wcosts_set b h
  simp only [potential, State.setWorker]; omega

theorem cost_ge (w : Work) : 10 ≤ cost w := by unfold cost; split <;> omega

theorem below_set {B : Nat} {l : List Worker} {i : Nat} {b : Worker} (h : ∀ x ∈ l, x.below B) (hb : b.below B) :
    ∀ x ∈ l.set i b, x.below B := by
  intro x hx
  rcases mem_set hx with hx | rfl
  · exact h x hx
  · exact hb

theorem not_moved {s s' : State} (h : s'.workers = s.workers) : ¬ WorkerMoved s s' := by
  rintro ⟨i, a, b, h1, h2, h3, _⟩
  rw [h] at h2
  have : s.workers[i]? = some b := by
    rw [h2, List.getElem?_set_self (List.getElem?_eq_some_iff.1 h1).1]
  rw [h1] at this
  exact h3 (Option.some.inj this)

/-- A worker's step uses up some of the measure. -/
theorem worker_step_decreases {B : Nat} {s s' : State} (hb : Below B s) (h : WorkerStep seq n s s') :
    Below B s' ∧ potential B s' < potential B s := by
  obtain ⟨hs, hm⟩ := h
  have hw : ∀ {i : Nat} {a : Worker}, s.workers[i]? = some a → a.below B :=
    fun h => hb.workers _ (mem_of_getElem? h)
  have simple : ∀ {i : Nat} {a b : Worker}, s.workers[i]? = some a → b.below B → wcost b < wcost a →
      Below B (s.setWorker i b) ∧ potential B (s.setWorker i b) < potential B s := by
    intro i a b h1 h2 h3
    have := potential_setWorker B s i a b h1
    exact ⟨⟨hb.queue, below_set hb.workers h2⟩, by omega⟩
  have simpleE : ∀ {i : Nat} {a b : Worker} {e : Ev}, s.workers[i]? = some a → b.below B → wcost b < wcost a →
      Below B ((s.setWorker i b).emit e) ∧ potential B ((s.setWorker i b).emit e) < potential B s := by
    intro i a b e h1 h2 h3
    have := simple h1 h2 h3
    exact ⟨⟨this.1.queue, this.1.workers⟩, this.2⟩
  cases hs with
  | workerCheck h =>
    refine simple h ?_ ?_
    · split <;> trivial
    · split <;> simp [wcost]
  | @workerTimeout i h hq =>
    exfalso
    obtain ⟨j, a, b, h1, h2, h3, h4⟩ := hm
    have hij : i = j := by
      by_cases e : i = j
      · exact e
      · exfalso
        have hj : (s.workers.set i .idle)[j]? = some a := by
          rw [List.getElem?_set_ne e, h1]
        change s.workers.set i .idle = _ at h2
        rw [h2, List.getElem?_set_self (List.getElem?_eq_some_iff.1 h1).1] at hj
        exact h3 (Option.some.inj hj).symm
    subst hij
    rw [h] at h1
    have ha : Worker.popping = a := Option.some.inj h1
    have hbi : b = .idle := by
      have hj : (s.workers.set i .idle)[i]? = some .idle :=
        List.getElem?_set_self (List.getElem?_eq_some_iff.1 h).1
      change s.workers.set i .idle = _ at h2
      rw [h2, List.getElem?_set_self (List.getElem?_eq_some_iff.1 h).1] at hj
      exact Option.some.inj hj
    exact h4 ⟨ha.symm, hbi⟩
  | @workerPop i r w q h hq =>
    have h1 := wcosts_set (.popped r w) h
    have hr : r < B := hb.queue (r, w) (by rw [hq]; simp)
    refine ⟨⟨fun x hx => hb.queue x (by rw [hq]; exact List.mem_cons_of_mem _ hx),
      below_set hb.workers hr⟩, ?_⟩
    have := cost_ge w
    simp only [potential, State.setWorker, hq, List.map_cons, costs_cons]
    simp only [wcost] at h1
    omega
  | @workerGo i r w h _ =>
    have := cost_ge w
    have hrb : r < B := hw h
    exact simple (b := .checked r w) h hrb (by simp only [wcost]; omega)
  | @workerStop i r w h _ =>
    have := cost_ge w
    have hrb : r < B := hw h
    exact simpleE (b := .idle) h (by trivial) (by simp only [wcost]; omega)
  | @workerLock i r w h _ =>
    have := cost_ge w
    have hrb : r < B := hw h
    exact simple (b := .holding r w) h hrb (by simp only [wcost]; omega)
  | @workerNoRunner i r w h _ =>
    have := cost_ge w
    have hrb : r < B := hw h
    exact simpleE (b := .idle) h (by trivial) (by simp only [wcost]; omega)
  | @workerBegin i r w h _ =>
    have := cost_ge w
    have hrb : r < B := hw h
    exact simpleE (b := .running r w) h hrb (by simp only [wcost]; omega)
  | @workerNoOwner i r w h _ =>
    have := cost_ge w
    have hrb : r < B := hw h
    exact simpleE (b := .completing r) h hrb (by simp only [wcost]; omega)
  | @workerEnd i r w res h =>
    have := cost_ge w
    have hrb : r < B := hw h
    exact simpleE (b := .finished r w res) h hrb (by simp only [wcost]; omega)
  | @workerReply i r w res h hr =>
    have hrb : r < B := hw h
    have h1 := potential_post (seq := seq) B { s with nextId := s.nextId + 1 } r (replyWork s.nextId w res) hrb
    have h2 := potential_setWorker B (postInternal seq { s with nextId := s.nextId + 1 } r
      (replyWork s.nextId w res)) i (.finished r w res) (.completing r) (by rw [post_workers]; exact h)
    refine ⟨⟨post_queue_below hrb hb.queue, ?_⟩, ?_⟩
    · simp only [State.setWorker, post_workers]
      exact below_set hb.workers hrb
    · have e1 : cost (replyWork s.nextId w res) = 10 := rfl
      have e2 : cost w = 20 := by unfold cost; rw [hr]; rfl
      have e3 : potential B { s with nextId := s.nextId + 1 } = potential B s := rfl
      simp only [wcost] at h2
      omega
  | @workerNoReply i r w res h hr =>
    have := cost_ge w
    have hrb : r < B := hw h
    exact simple (b := .completing r) h hrb (by simp only [wcost]; omega)
  | @workerComplete i r h =>
    have hrb : r < B := hw h
    have h1 := potential_complete (seq := seq) B s r hrb
    have h2 := potential_setWorker B (taskComplete seq s r) i (.completing r) .idle
      (by rw [complete_workers]; exact h)
    refine ⟨⟨complete_queue_below hrb hb.queue, ?_⟩, ?_⟩
    · simp only [State.setWorker, complete_workers]
      exact below_set hb.workers (by trivial)
    · simp only [wcost] at h2
      omega
  | start =>
    exfalso
    obtain ⟨i, a, b, h1, h2, h3, _⟩ := hm
    have hlen := congrArg List.length h2
    simp [State.emit] at hlen
    exact not_moved (s := s) (s' := s) rfl ⟨i, a, b, h1, by simpa [State.emit, hlen] using h2, h3, ‹_›⟩
  | post => exact absurd hm (not_moved post_workers)
  | timerDue => exact absurd hm (not_moved post_workers)
  | _ => exact absurd hm (not_moved rfl)

/-- C90: without new tasks, the workers of a manager take only finitely many steps (other than
repeating the test of an empty queue): nothing is passed around for ever. -/
theorem workers_terminate (s : State) :
    ∃ N, ∀ m s', WorkerSteps seq n m s s' → m ≤ N := by
  obtain ⟨B, hB⟩ := exists_below s
  refine ⟨potential B s, fun m s' h => ?_⟩
  induction h with
  | nil => omega
  | cons hs _ ih =>
    obtain ⟨h1, h2⟩ := worker_step_decreases hB hs
    have := ih h1
    omega

/-! ## What is left when the workers are done -/

theorem reach_on (h : Reach seq n s) (hk : s.keep = true) : s.manager = true ∧ n ≤ s.workers.length := by
  induction h with
  | init => simp [init] at hk
  | @step s s' hr hs ih =>
    cases hs with
    | start h1 h2 h3 => exact ⟨h1, by simp [State.emit]⟩
    | stopCall => simp [State.emit] at hk
    | managerGone h1 => simp_all
    | post => exact (by simpa using ih (by simpa using hk))
    | _ => simp_all [State.emit, State.setWorker]

theorem reach_not_exited (h : Reach seq n s) (hs : Ev.stopCalled ∉ s.log) : Worker.exited ∉ s.workers := by
  induction h with
  | init => simp [init]
  | @step s s' hr hst ih =>
    have hs0 : Ev.stopCalled ∉ s.log := fun e => hs (step_mem hst e)
    have ih := ih hs0
    have keep : s.workers ≠ [] → s.keep = true := fun h => (reach_workers hr h).resolve_right hs0
    intro hx
    have set_case : ∀ {i : Nat} {b : Worker} , b ≠ .exited → Worker.exited ∈ s.workers.set i b → False := by
      intro i b hb hx
      rcases mem_set hx with hx | hx
      · exact ih hx
      · exact hb hx.symm
    cases hst with
    | workerCheck h =>
      have hk := keep (fun e => by rw [e] at h; simp at h)
      simp only [State.setWorker, hk, if_true] at hx
      exact set_case (by simp) hx
    | start =>
      simp only [State.emit, List.mem_append, List.mem_replicate] at hx
      rcases hx with hx | hx
      · exact ih hx
      · exact Worker.noConfusion hx.2
    | post => rw [post_workers] at hx; exact ih hx
    | timerDue => rw [post_workers] at hx; exact ih hx
    | workerReply =>
      simp only [State.setWorker, post_workers] at hx
      exact set_case (by simp) hx
    | workerComplete =>
      simp only [State.setWorker, complete_workers] at hx
      exact set_case (by simp) hx
    | _ =>
      simp only [State.setWorker, State.emit] at hx
      first
        | exact ih hx
        | exact set_case (by simp) hx

theorem moved_set {s s' : State} {i : Nat} {a b : Worker} (h1 : s.workers[i]? = some a)
    (h2 : s'.workers = s.workers.set i b) (h3 : a ≠ b) (h4 : ¬ (a = .popping ∧ b = .idle)) :
    WorkerMoved s s' := ⟨i, a, b, h1, h2, h3, h4⟩

/-- C90: when the workers of a running manager (never stopped, at least one thread) have nothing more
to do, every task accepted by a runner that still exists has been executed or was discarded because its
owner died. -/
theorem workers_done_all_executed_partial (h : Reach seq n s) (hn : 0 < n) (hk : s.keep = true)
    (hs : Ev.stopCalled ∉ s.log) (hdone : ¬ ∃ s', WorkerStep seq n s s') (r : Nat) (hl : s.live r = true)
    (w : Work) (t : Nat) (ha : Ev.accepted r w t ∈ s.log) :
    (∃ t', Ev.begun r w t' ∈ s.log) ∨ ∃ o, w.owner = some o ∧ s.owner o = false := by
  obtain ⟨hm, hlen⟩ := reach_on h hk
  have hne := reach_not_exited h hs
  have allpop : ∀ (i : Nat) (a : Worker), s.workers[i]? = some a → a = .popping := by
    intro i a hi
    cases a with
    | popping => rfl
    | exited => exact absurd (mem_of_getElem? hi) hne
    | idle =>
      exact (hdone ⟨_, .workerCheck hi, moved_set hi rfl (by rw [hk]; simp) (by simp)⟩).elim
    | popped r w => exact (hdone ⟨_, .workerGo hi hk, moved_set hi rfl (by simp) (by simp)⟩).elim
    | checked r w =>
      cases hr : refd s r with
      | true => exact (hdone ⟨_, .workerLock hi hr, moved_set hi rfl (by simp) (by simp)⟩).elim
      | false => exact (hdone ⟨_, .workerNoRunner hi hr, moved_set hi rfl (by simp) (by simp)⟩).elim
    | holding r w =>
      cases hr : ownerAlive s w with
      | true => exact (hdone ⟨_, .workerBegin hi hr, moved_set hi rfl (by simp) (by simp)⟩).elim
      | false => exact (hdone ⟨_, .workerNoOwner hi hr, moved_set hi rfl (by simp) (by simp)⟩).elim
    | running r w =>
      exact (hdone ⟨_, .workerEnd (res := 0) hi, moved_set hi rfl (by simp) (by simp)⟩).elim
    | finished r w res =>
      cases hr : w.hasReply with
      | true =>
        exact (hdone ⟨_, .workerReply hi hr, moved_set (b := .completing r) hi
          (by simp only [State.setWorker, post_workers]) (by simp) (by simp)⟩).elim
      | false => exact (hdone ⟨_, .workerNoReply hi hr, moved_set hi rfl (by simp) (by simp)⟩).elim
    | completing r =>
      exact (hdone ⟨_, .workerComplete hi, moved_set (b := .idle) hi
        (by simp only [State.setWorker, complete_workers]) (by simp) (by simp)⟩).elim
  have hw0 : s.workers[0]? = some .popping := by
    have h0 : 0 < s.workers.length := by omega
    have : s.workers[0]? = some s.workers[0] := List.getElem?_eq_getElem h0
    rw [this, allpop 0 _ this]
  have hq : s.queue = [] := by
    cases hq : s.queue with
    | nil => rfl
    | cons x q => exact (hdone ⟨_, .workerPop (r := x.1) (w := x.2) hw0 hq, moved_set hw0 rfl (by simp) (by simp)⟩).elim
  have hall : ∀ x ∈ s.workers, x = .popping := by
    intro x hx
    obtain ⟨i, hi⟩ := List.getElem?_of_mem hx
    exact allpop i x hi
  have hcar : s.workers.countP (Worker.carries r w) = 0 := by
    rw [List.countP_eq_zero]; intro x hx; rw [hall x hx]; simp [Worker.carries]
  have hfl : inFlight s r = 0 := by
    unfold inFlight
    have : s.workers.countP (Worker.busyFor r) = 0 := by
      rw [List.countP_eq_zero]; intro x hx; rw [hall x hx]; simp [Worker.busyFor]
    rw [hq, this]; simp
  have hp : (s.runners r).pending = [] := by
    cases hsq : seq r with
    | true =>
      by_cases hp : (s.runners r).pending = []
      · exact hp
      · have := sequenced_progress_partial h r hsq hs hl hm hp
        omega
    | false => exact ((reach_linv h r).par hsq).1
  have h1 := accepted_held_once h r w t ha
  rw [hq, hcar, hp] at h1
  simp only [List.count_nil, Nat.add_zero] at h1
  have hmem : w ∈ takenOn r s.log := List.count_pos_iff.1 (by omega)
  unfold takenOn at hmem
  obtain ⟨e, he, h2⟩ := List.mem_filterMap.1 hmem
  cases e <;> simp at h2
  · obtain ⟨rfl, rfl⟩ := h2
    exact Or.inl ⟨_, he⟩
  · obtain ⟨rfl, rfl⟩ := h2
    exact Or.inr (dropped_only_without_owner_partial h _ hs hl hm _ he)

/-- Workers that all wait for a task when there is none have nothing to do. -/
theorem waiting_workers_done {s : State} (hw : ∀ x ∈ s.workers, x = .popping) (hq : s.queue = []) :
    ¬ ∃ s', WorkerStep seq n s s' := by
  rintro ⟨s', hs, i, a, b, h1, h2, h3, h4⟩
  have ha : a = .popping := hw a (mem_of_getElem? h1)
  subst ha
  have other : ∀ {j : Nat} {x : Worker}, s.workers[j]? = some x → x ≠ .popping → False :=
    fun h hx => hx (hw _ (mem_of_getElem? h))
  have same : s'.workers = s.workers → False := fun e => not_moved e ⟨i, .popping, b, h1, h2, h3, h4⟩
  have posted : ∀ (t : State) (r : Nat) (w : Work), (postInternal seq t r w).workers = t.workers := by
    intro t r w
    unfold postInternal
    split
    · rfl
    · split <;> rfl
  cases hs with
  | post => exact same (posted _ _ _)
  | timerDue => exact same (posted _ _ _)
  | workerPop _ h => rw [hq] at h; cases h
  | @workerTimeout j hj hq' =>
    simp only [State.setWorker] at h2
    have hj' : i = j := by
      have hi : (s.workers.set j Worker.idle)[i]? = some b := by
        rw [h2, List.getElem?_set_self (List.getElem?_eq_some_iff.1 h1).1]
      by_cases e : i = j
      · exact e
      · rw [List.getElem?_set_ne (fun e' => e e'.symm), h1] at hi
        exact absurd (Option.some.inj hi) h3
    subst hj'
    have hi : (s.workers.set i Worker.idle)[i]? = some b := by
      rw [h2, List.getElem?_set_self (List.getElem?_eq_some_iff.1 h1).1]
    rw [List.getElem?_set_self (List.getElem?_eq_some_iff.1 h1).1] at hi
    exact h4 ⟨rfl, (Option.some.inj hi).symm⟩
  | start =>
    have e : (s.workers ++ List.replicate n Worker.idle).length = (s.workers.set i b).length := by
      simp only [State.emit] at h2
      rw [h2]
    simp only [List.length_append, List.length_replicate, List.length_set] at e
    have : n = 0 := by omega
    subst this
    exact same (by simp [State.emit])
  | workerCheck h => exact other h (by simp)
  | workerGo h => exact other h (by simp)
  | workerStop h => exact other h (by simp)
  | workerLock h => exact other h (by simp)
  | workerNoRunner h => exact other h (by simp)
  | workerBegin h => exact other h (by simp)
  | workerNoOwner h => exact other h (by simp)
  | workerEnd h => exact other h (by simp)
  | workerReply h => exact other h (by simp)
  | workerNoReply h => exact other h (by simp)
  | workerComplete h => exact other h (by simp)
  | _ => exact same rfl

/-- The hypotheses are met by one worker that has executed a task and waits for the next. -/
example : ∃ s, Reach (fun _ => false) 1 s ∧ s.keep = true ∧ Ev.stopCalled ∉ s.log ∧
    (¬ ∃ s', WorkerStep (fun _ => false) 1 s s') ∧ s.live 0 = true ∧ Ev.accepted 0 ⟨0, none, false, none⟩ 0 ∈ s.log := by
  have r0 := Reach.init (seq := fun _ => false) (n := 1)
  have r1 := r0.step (.start rfl rfl rfl)
  have r2 := r1.step (.post (r := 0) (owner := none) (hasReply := false) rfl)
  have r3 := r2.step (.workerCheck (i := 0) rfl)
  have r4 := r3.step (.workerPop (i := 0) rfl rfl)
  have r5 := r4.step (.workerGo (i := 0) rfl rfl)
  have r6 := r5.step (.workerLock (i := 0) rfl rfl)
  have r7 := r6.step (.workerBegin (i := 0) rfl rfl)
  have r8 := r7.step (.workerEnd (i := 0) (res := 5) rfl)
  have r9 := r8.step (.workerNoReply (i := 0) rfl rfl)
  have r10 := r9.step (.workerComplete (i := 0) rfl)
  have r11 := r10.step (.workerCheck (i := 0) rfl)
  exact ⟨_, r11, rfl, by decide, waiting_workers_done (by decide) rfl, rfl, by decide⟩

theorem worker_step_keep {s s' : State} (h : WorkerStep seq n s s') :
    s'.keep = s.keep ∧ s'.live = s.live ∧ (Ev.stopCalled ∉ s.log → Ev.stopCalled ∉ s'.log) ∧
      (s.manager = true → s'.manager = true) := by
  obtain ⟨hs, hm⟩ := h
  have hpost : ∀ (s1 : State) (r : Nat) (w : Work), s1.log = s.log → Ev.stopCalled ∉ s.log →
      Ev.stopCalled ∉ (postInternal seq s1 r w).log := by
    intro s1 r w h1 h2
    obtain ⟨L, e, h, he, _⟩ := post_log seq s1 r w
    rw [h, h1]
    intro hh
    simp only [List.mem_append, List.mem_map, List.mem_singleton] at hh
    rcases hh with hh | ⟨_, _, hh⟩ | hh
    · exact h2 hh
    · exact Ev.noConfusion hh
    · rcases he with he | he <;> rw [he] at hh <;> exact Ev.noConfusion hh
  have hpk : ∀ (s1 : State) (r : Nat) (w : Work), (postInternal seq s1 r w).keep = s1.keep ∧
      (postInternal seq s1 r w).live = s1.live ∧ (postInternal seq s1 r w).manager = s1.manager := by
    intro s1 r w
    unfold postInternal
    split
    · exact ⟨rfl, rfl, rfl⟩
    · split <;> exact ⟨rfl, rfl, rfl⟩
  cases hs with
  | workerReply h hr =>
    exact ⟨(hpk _ _ _).1, (hpk _ _ _).2.1, hpost { s with nextId := s.nextId + 1 } _ _ rfl, fun e => (hpk _ _ _).2.2.trans e⟩
  | @workerComplete i r h =>
    obtain ⟨L, hL⟩ := complete_log seq s r
    have e : (taskComplete seq s r).keep = s.keep ∧ (taskComplete seq s r).live = s.live ∧
        (taskComplete seq s r).manager = s.manager := by
      unfold taskComplete; split <;> exact ⟨rfl, rfl, rfl⟩
    refine ⟨e.1, e.2.1, fun h2 hh => ?_, fun h => e.2.2.trans h⟩
    change _ ∈ (taskComplete seq s r).log at hh
    rw [hL] at hh
    simp only [List.mem_append, List.mem_map] at hh
    rcases hh with hh | ⟨_, _, hh⟩
    · exact h2 hh
    · exact Ev.noConfusion hh
  | start =>
    exfalso
    obtain ⟨i, a, b, h1, h2, h3, _⟩ := hm
    have hlen := congrArg List.length h2
    simp [State.emit] at hlen
    exact not_moved (s := s) (s' := s) rfl ⟨i, a, b, h1, by simpa [State.emit, hlen] using h2, h3, ‹_›⟩
  | post => exact absurd hm (not_moved post_workers)
  | timerDue => exact absurd hm (not_moved post_workers)
  | workerCheck h => exact ⟨rfl, rfl, fun h => h, fun h => h⟩
  | workerTimeout h _ => exact ⟨rfl, rfl, fun h => h, fun h => h⟩
  | workerPop h _ => exact ⟨rfl, rfl, fun h => h, fun h => h⟩
  | workerGo h _ => exact ⟨rfl, rfl, fun h => h, fun h => h⟩
  | workerLock h _ => exact ⟨rfl, rfl, fun h => h, fun h => h⟩
  | workerNoReply h _ => exact ⟨rfl, rfl, fun h => h, fun h => h⟩
  | workerStop h _ => exact ⟨rfl, rfl, by simp [State.emit, State.setWorker], fun h => h⟩
  | workerNoRunner h _ => exact ⟨rfl, rfl, by simp [State.emit, State.setWorker], fun h => h⟩
  | workerBegin h _ => exact ⟨rfl, rfl, by simp [State.emit, State.setWorker], fun h => h⟩
  | workerNoOwner h _ => exact ⟨rfl, rfl, by simp [State.emit, State.setWorker], fun h => h⟩
  | workerEnd h => exact ⟨rfl, rfl, by simp [State.emit, State.setWorker], fun h => h⟩
  | _ => exact absurd hm (not_moved rfl)

/-- C90: in every reachable state of a running manager with at least one worker (see
`accepted_tasks_get_executed_violated` for none), whatever has happened, the workers alone can
bring every accepted task to execution (the task is never stuck). -/
theorem accepted_tasks_get_executed_partial (h : Reach seq n s) (hn : 0 < n) (hk : s.keep = true)
    (hs : Ev.stopCalled ∉ s.log) :
    ∃ m s', WorkerSteps seq n m s s' ∧ ∀ r w t, s.live r = true → Ev.accepted r w t ∈ s.log →
      (∃ t', Ev.begun r w t' ∈ s'.log) ∨ ∃ o, w.owner = some o ∧ s'.owner o = false := by
  obtain ⟨B, hB⟩ := exists_below s
  induction hp : potential B s using Nat.strongRecOn generalizing s with
  | ind x ih =>
    by_cases hd : ∃ s', WorkerStep seq n s s'
    · obtain ⟨s1, h1⟩ := hd
      obtain ⟨b1, b2⟩ := worker_step_decreases hB h1
      obtain ⟨k1, k2, k3, _⟩ := worker_step_keep h1
      obtain ⟨m, s', hsteps, hall⟩ := ih (potential B s1) (by omega) (h.step h1.1) (k1.trans hk) (k3 hs) b1 rfl
      exact ⟨m + 1, s', .cons h1 hsteps, fun r w t hl ha =>
        hall r w t (by rw [k2]; exact hl) (step_mem h1.1 ha)⟩
    · exact ⟨0, s, .nil s, fun r w t hl ha => workers_done_all_executed_partial h hn hk hs hd r hl w t ha⟩

/-- A state with work to do: two tasks accepted, nothing begun, and the workers able to move. -/
example : ∃ s, Reach (fun _ => true) 2 s ∧ s.keep = true ∧ Ev.stopCalled ∉ s.log ∧ s.live 0 = true ∧
    (∃ w t, Ev.accepted 0 w t ∈ s.log) ∧ begunOn 0 s.log = [] ∧ ∃ s', WorkerStep (fun _ => true) 2 s s' := by
  have r0 := Reach.init (seq := fun _ => true) (n := 2)
  have r1 := r0.step (.start rfl rfl rfl)
  have r2 := r1.step (.post (r := 0) (owner := none) (hasReply := true) rfl)
  have r3 := r2.step (.post (r := 0) (owner := none) (hasReply := false) rfl)
  exact ⟨_, r3, rfl, by decide, rfl, ⟨⟨0, none, true, none⟩, 0, by decide⟩, rfl, _,
    .workerCheck (i := 0) rfl, moved_set (i := 0) (a := .idle) (b := .popping) rfl rfl (by simp) (by simp)⟩

/-- With no worker thread nothing is ever begun, whatever happens. -/
theorem no_workers_nothing_begun (h : Reach seq 0 s) :
    s.workers = [] ∧ ∀ r w t, Ev.begun r w t ∉ s.log := by
  have posted : ∀ (t : State) (r : Nat) (w : Work), (postInternal seq t r w).workers = t.workers ∧
      ∀ r' w' t', Ev.begun r' w' t' ∈ (postInternal seq t r w).log → Ev.begun r' w' t' ∈ t.log := by
    intro t r w
    unfold postInternal
    refine ⟨by
      split
      · rfl
      · split <;> rfl, fun r' w' t' => ?_⟩
    split
    · simp only [List.mem_append, List.mem_map, List.mem_singleton]
      rintro ((h | ⟨x, _, h⟩) | h)
      · exact h
      · cases h
      · split at h <;> cases h
    · split <;> simp
  induction h with
  | init => simp [init]
  | @step s s' _ hs ih =>
    obtain ⟨ih1, ih2⟩ := ih
    have no : ∀ {i : Nat} {x : Worker}, s.workers[i]? = some x → False := by
      intro i x hx
      rw [ih1] at hx
      simp at hx
    cases hs with
    | post => exact ⟨(posted _ _ _).1.trans ih1, fun r w t hm => by
        have h1 := (posted _ _ _).2 r w t hm
        exact ih2 r w t h1⟩
    | timerDue => exact ⟨(posted _ _ _).1.trans ih1, fun r w t hm => by
        have h1 := (posted _ _ _).2 r w t hm
        exact ih2 r w t h1⟩
    | _ => first
      | exact (no ‹_›).elim
      | (refine ⟨by simp [State.emit, ih1], fun r w t hm => ih2 r w t ?_⟩
         simpa [State.emit] using hm)

/-- Violation of the claim for "every number of workers": `TaskManager::create(0)` succeeds and starts
only the timer thread (task_manager.cpp 57-64). A runner of that running manager accepts the task, and
in no later state, whatever happens, has the task begun. -/
theorem accepted_tasks_get_executed_violated : ∃ s, Reach (fun _ => false) 0 s ∧ s.keep = true ∧
    Ev.stopCalled ∉ s.log ∧ s.live 0 = true ∧ Ev.accepted 0 ⟨0, none, false, none⟩ 0 ∈ s.log ∧
    (⟨0, none, false, none⟩ : Work).owner = none ∧
    ∀ s', Reach (fun _ => false) 0 s' → ∀ t, Ev.begun 0 ⟨0, none, false, none⟩ t ∉ s'.log := by
  have r0 := Reach.init (seq := fun _ => false) (n := 0)
  have r1 := r0.step (.start rfl rfl rfl)
  have r2 := r1.step (.post (r := 0) (owner := none) (hasReply := false) rfl)
  exact ⟨_, r2, rfl, by decide, rfl, by decide, rfl, fun s' h t => (no_workers_nothing_begun h).2 _ _ _⟩

/-! ## Replies -/

/-- The worker has executed this task and is about to post its reply. -/
def Worker.replying (r : Nat) (w : Work) (res : Nat) : Worker → Bool
  | .finished r' w' res' => r' == r && w' == w && res' == res
  | _ => false

/-- C49: the reply of a task that has ended is handed to the runner, with the result, as soon as the
worker that executed it goes on. -/
theorem reply_posted (h : Reach seq n s) (r : Nat) (w : Work) (res : Nat) (he : Ev.ended r w res ∈ s.log)
    (hr : w.hasReply = true) :
    .finished r w res ∈ s.workers ∨ ∃ w', w'.replyTo = some (w.id, res) ∧ w'.owner = w.owner ∧
      ((∃ t, Ev.accepted r w' t ∈ s.log) ∨ Ev.rejected r w' ∈ s.log) := by
  induction h with
  | init => simp [init] at he
  | @step s s' hreach hs ih =>
    have old : Ev.ended r w res ∈ s.log → s'.workers = s.workers →
        .finished r w res ∈ s'.workers ∨ ∃ w', w'.replyTo = some (w.id, res) ∧ w'.owner = w.owner ∧
          ((∃ t, Ev.accepted r w' t ∈ s'.log) ∨ Ev.rejected r w' ∈ s'.log) := by
      intro h1 h2
      rcases ih h1 with h | ⟨w', a, b, c⟩
      · left; rw [h2]; exact h
      · refine Or.inr ⟨w', a, b, ?_⟩
        rcases c with ⟨t, c⟩ | c
        · exact Or.inl ⟨t, step_mem hs c⟩
        · exact Or.inr (step_mem hs c)
    have oldSet : ∀ {i : Nat} {a b : Worker}, Ev.ended r w res ∈ s.log → s.workers[i]? = some a →
        a ≠ .finished r w res → s'.workers = s.workers.set i b →
        .finished r w res ∈ s'.workers ∨ ∃ w', w'.replyTo = some (w.id, res) ∧ w'.owner = w.owner ∧
          ((∃ t, Ev.accepted r w' t ∈ s'.log) ∨ Ev.rejected r w' ∈ s'.log) := by
      intro i a b h1 h2 h3 h4
      rcases ih h1 with h | ⟨w', a, b, c⟩
      · left; rw [h4]; exact mem_set_ne h h2 h3
      · refine Or.inr ⟨w', a, b, ?_⟩
        rcases c with ⟨t, c⟩ | c
        · exact Or.inl ⟨t, step_mem hs c⟩
        · exact Or.inr (step_mem hs c)
    have hpost : ∀ (s1 : State) (r0 : Nat) (w0 : Work), s1.log = s.log →
        Ev.ended r w res ∈ (postInternal seq s1 r0 w0).log → Ev.ended r w res ∈ s.log := by
      intro s1 r0 w0 h1 hh
      obtain ⟨L, e, h, he, _⟩ := post_log seq s1 r0 w0
      rw [h, h1] at hh
      simp only [List.mem_append, List.mem_map, List.mem_singleton] at hh
      rcases hh with hh | ⟨_, _, hh⟩ | hh
      · exact hh
      · exact Ev.noConfusion hh
      · rcases he with he | he <;> rw [he] at hh <;> exact Ev.noConfusion hh
    cases hs with
    | post => exact old (hpost { s with nextId := s.nextId + 1 } _ _ rfl he) post_workers
    | @timerDue t i due r0 w0 =>
      exact old (hpost { s with delayedTasks := s.delayedTasks.eraseIdx i } _ _ rfl he) post_workers
    | @workerReply i r0 w0 res0 h1 h2 =>
      have he' := hpost { s with nextId := s.nextId + 1 } _ _ rfl he
      by_cases hx : (Worker.finished r0 w0 res0) = .finished r w res
      · simp only [Worker.finished.injEq] at hx
        obtain ⟨rfl, rfl, rfl⟩ := hx
        refine Or.inr ⟨replyWork s.nextId w0 res0, rfl, rfl, ?_⟩
        obtain ⟨L, e, h, he2, _⟩ := post_log seq { s with nextId := s.nextId + 1 } r0 (replyWork s.nextId w0 res0)
        simp only [State.setWorker]
        rw [h]
        rcases he2 with he2 | he2
        · exact Or.inl ⟨s.now, by rw [he2]; simp⟩
        · exact Or.inr (by rw [he2]; simp)
      · exact oldSet (b := .completing r0) he' h1 hx (by simp only [State.setWorker, post_workers])
    | @workerNoReply i r0 w0 res0 h1 h2 =>
      refine oldSet he h1 ?_ rfl
      intro hx
      simp only [Worker.finished.injEq] at hx
      rw [hx.2.1, hr] at h2
      exact Bool.noConfusion h2
    | @workerComplete i r0 h1 =>
      obtain ⟨L, hL⟩ := complete_log seq s r0
      change _ ∈ (taskComplete seq s r0).log at he
      rw [hL] at he
      simp only [List.mem_append, List.mem_map] at he
      rcases he with he | ⟨_, _, he⟩
      · exact oldSet (b := .idle) he h1 (by simp) (by simp only [State.setWorker, complete_workers])
      · exact Ev.noConfusion he
    | @workerEnd i r0 w0 res0 h1 =>
      simp only [State.emit, List.mem_append, List.mem_singleton, Ev.ended.injEq] at he
      rcases he with he | ⟨rfl, rfl, rfl⟩
      · exact oldSet he h1 (by simp) rfl
      · left
        exact List.mem_of_getElem? (i := i) (List.getElem?_set_self (List.getElem?_eq_some_iff.1 h1).1)
    | start =>
      simp only [State.emit, List.mem_append, List.mem_singleton] at he
      rcases he with he | he
      · rcases ih he with h | ⟨w', a, b, c⟩
        · exact Or.inl (by simp only [State.emit]; exact List.mem_append_left _ h)
        · refine Or.inr ⟨w', a, b, ?_⟩
          simp only [State.emit]
          rcases c with ⟨t, c⟩ | c
          · exact Or.inl ⟨t, List.mem_append_left _ c⟩
          · exact Or.inr (List.mem_append_left _ c)
      · exact Ev.noConfusion he
    | workerCheck h1 => exact oldSet he h1 (by simp) rfl
    | workerTimeout h1 _ => exact oldSet he h1 (by simp) rfl
    | workerPop h1 _ => exact oldSet he h1 (by simp) rfl
    | workerGo h1 _ => exact oldSet he h1 (by simp) rfl
    | workerLock h1 _ => exact oldSet he h1 (by simp) rfl
    | workerStop h1 _ => exact oldSet (by simpa [State.emit, State.setWorker] using he) h1 (by simp) rfl
    | workerNoRunner h1 _ => exact oldSet (by simpa [State.emit, State.setWorker] using he) h1 (by simp) rfl
    | workerBegin h1 _ => exact oldSet (by simpa [State.emit, State.setWorker] using he) h1 (by simp) rfl
    | workerNoOwner h1 _ => exact oldSet (by simpa [State.emit, State.setWorker] using he) h1 (by simp) rfl
    | _ => exact old (by simpa [State.emit, State.setWorker] using he) rfl

end Verif.Task
