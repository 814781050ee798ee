import Verif.Config.Lifetime

/-!
# C153: releasing a configuration manager
-/

namespace Verif.Config.Lifetime

/-! ## The invariant -/

/-- A poll is under way and has not posted the next one. -/
def Phase.inPoll : Phase → Bool
  | .polling | .handling | .calling | .posted | .polled | .stuck => true
  | _ => false

structure Inv (s : State) : Prop where
  used : s.phase.hasManager = true → s.stage = .none
  owned : s.stage = .none → 0 < s.held ∨ s.phase.hasManager = true
  gone : s.stage ≠ .none → s.held = 0
  monitor : s.monitor = true ↔ s.stage ≠ .over ∨ s.phase.hasMonitor = true
  destroying : s.phase = .destroying → s.stage = .remove ∨ s.stage = .prune ∨ s.stage = .members
  stuck : s.phase = .stuck → s.stage = .remove
  handler : s.handler = true ↔ s.stage = .none ∨ s.stage = .remove
  watched : s.watched = true ↔ s.stage = .none ∨ s.stage = .remove ∨ s.stage = .prune
  atMost : s.queue.count .poll + s.phase.inPoll.toNat ≤ 1
  poll : s.taking = true → s.monitor = true → s.queue.count .poll + s.phase.inPoll.toNat = 1
  account : s.log.count .noticed = s.log.count .reread + s.queue.count .update + (decide (s.phase = .updating)).toNat +
    s.log.count .dropped + s.log.count .refused
  dropped : .dropped ∈ s.log → s.stage ≠ .none
  refused : .refused ∈ s.log → s.taking = false
  begins : s.log.count .destroyBegins = (decide (s.stage ≠ .none)).toNat
  ends : s.log.count .destroyEnds = (decide (s.stage = .over)).toNat
  goneOnce : s.log.count .monitorGone = (!s.monitor).toNat
  quiet : ∀ pre post, s.log = pre ++ .destroyBegins :: post → Ev.reread ∉ post ∧ Ev.noticed ∉ post

theorem inv_start : Inv start := by
  constructor <;> simp [start, Phase.hasManager, Phase.hasMonitor, Phase.inPoll]

/-- Appending one event that is not `destroyBegins`. -/
theorem quiet_append {l : List Ev} {e : Ev} (h : ∀ pre post, l = pre ++ .destroyBegins :: post → Ev.reread ∉ post ∧ Ev.noticed ∉ post)
    (hm : .destroyBegins ∈ l → e ≠ .reread ∧ e ≠ .noticed) :
    ∀ pre post, l ++ [e] = pre ++ .destroyBegins :: post → Ev.reread ∉ post ∧ Ev.noticed ∉ post := by
  intro pre post hp
  rcases List.eq_nil_or_concat post with rfl | ⟨post', x, rfl⟩
  · simp
  · have hp' : l ++ [e] = (pre ++ .destroyBegins :: post') ++ [x] := by simpa using hp
    obtain ⟨h1, h2⟩ := List.append_inj' hp' rfl
    cases h2
    obtain ⟨q1, q2⟩ := h pre post' h1
    obtain ⟨m1, m2⟩ := hm (by rw [h1]; simp)
    simp only [List.concat_eq_append, List.mem_append, List.mem_singleton, not_or]
    exact ⟨⟨q1, fun h => m1 h.symm⟩, q2, fun h => m2 h.symm⟩

/-- Appending the first `destroyBegins`. -/
theorem quiet_first {l : List Ev} (h : .destroyBegins ∉ l) :
    ∀ pre post, l ++ [.destroyBegins] = pre ++ .destroyBegins :: post → Ev.reread ∉ post ∧ Ev.noticed ∉ post := by
  intro pre post hp
  rcases List.eq_nil_or_concat post with rfl | ⟨post', x, rfl⟩
  · simp
  · have hp' : l ++ [.destroyBegins] = (pre ++ .destroyBegins :: post') ++ [x] := by simpa using hp
    obtain ⟨h1, -⟩ := List.append_inj' hp' rfl
    exact absurd (by rw [h1]; simp) h

theorem not_begun {s : State} (h : Inv s) (hs : s.stage = .none) : .destroyBegins ∉ s.log := by
  have := h.begins
  rw [hs] at this
  exact List.count_eq_zero.1 (by simpa using this)

theorem inv_copy {s s' : State} (h : Inv s) (hs : step s .copy = some s') : Inv s' := by
  obtain ⟨held, phase, queue, stage, handler, watched, monitor, taking, log⟩ := s
  have nb := not_begun h
  obtain ⟨h1, h2, h3, h4, h5, h6, h7, h8, h9, h10, h11, h12, h13, h14, h15, h16, h17⟩ := h
  simp only [step] at hs
  split at hs
  · cases hs
    exact ⟨h1, fun _ => .inl (Nat.succ_pos _), fun hn => by have := h3 hn; simp only at this; omega, h4, h5, h6, h7, h8, h9,
      h10, h11, h12, h13, h14, h15, h16, h17⟩
  · cases hs


theorem inv_release {s s' : State} (h : Inv s) (hs : step s .release = some s') : Inv s' := by
  obtain ⟨held, phase, queue, stage, handler, watched, monitor, taking, log⟩ := s
  have nb := not_begun h
  obtain ⟨h1, h2, h3, h4, h5, h6, h7, h8, h9, h10, h11, h12, h13, h14, h15, h16, h17⟩ := h
  simp only [step] at hs
  split at hs
  · cases hs
  · split at hs
    · rename_i hh hp
      obtain ⟨hp1, hp2⟩ := hp
      have hst : stage = .none := by
        cases hx : stage with
        | none => rfl
        | _ => exact absurd (h3 (by simp [hx])) (by simp only; omega)
      subst hst
      cases hs
      refine ⟨?_, ?_, ?_, ?_, ?_, ?_, ?_, ?_, h9, h10, ?_, ?_, ?_, ?_, ?_, ?_, quiet_first (nb rfl)⟩ <;>
        simp_all [State.lose]
    · rename_i hh hp
      simp only [not_and] at hp hh
      have hg : stage = .none → 0 < held - 1 ∨ phase.hasManager = true := by
        intro hx
        by_cases h1' : held = 1
        · have := hp h1'
          simp at this
          exact .inr this
        · left; omega
      have hg3 : stage ≠ .none → held - 1 = 0 := fun hn => absurd (h3 hn) hh
      cases hs
      exact ⟨h1, hg, hg3, h4, h5, h6, h7, h8, h9, h10, h11, h12, h13, h14, h15, h16, h17⟩


theorem inv_destroy {s s' : State} (h : Inv s) (hs : step s .destroy = some s') : Inv s' := by
  obtain ⟨held, phase, queue, stage, handler, watched, monitor, taking, log⟩ := s
  have nb := not_begun h
  obtain ⟨h1, h2, h3, h4, h5, h6, h7, h8, h9, h10, h11, h12, h13, h14, h15, h16, h17⟩ := h
  cases stage with
  | none => cases hs
  | over => cases hs
  | remove =>
    simp only [step] at hs
    split at hs
    · cases hs
    · cases hs
      clear nb
      cases phase <;> simp_all [Phase.locked] <;>
      refine ⟨?_, ?_, ?_, ?_, ?_, ?_, ?_, ?_, ?_, ?_, ?_, ?_, ?_, ?_, ?_, ?_, h17⟩ <;>
        simp_all [Phase.hasManager, Phase.hasMonitor, Phase.inPoll]
  | prune =>
    simp only [step] at hs
    split at hs
    · cases hs
    · cases hs
      clear nb
      cases phase <;> simp_all [Phase.locked] <;>
      refine ⟨?_, ?_, ?_, ?_, ?_, ?_, ?_, ?_, ?_, ?_, ?_, ?_, ?_, ?_, ?_, ?_, h17⟩ <;>
        simp_all [Phase.hasManager, Phase.hasMonitor, Phase.inPoll]
  | members =>
    have q1 := quiet_append h17 (e := .destroyEnds) (fun _ => by simp)
    have q2 := quiet_append q1 (e := .monitorGone) (fun _ => by simp)
    clear nb h17
    have key : (Phase.hasMonitor phase = true ∧ s' = ⟨held, phase, queue, .over, handler, watched, monitor, taking, log ++ [.destroyEnds]⟩) ∨
        (Phase.hasMonitor phase = false ∧ s' = ⟨held, if phase = .destroying then .idle else phase, queue, .over, handler, watched,
          false, taking, log ++ [.destroyEnds] ++ [.monitorGone]⟩) := by
      cases phase <;> simp [step, Phase.hasMonitor] at hs ⊢ <;> exact hs.symm
    rcases key with ⟨k1, rfl⟩ | ⟨k1, rfl⟩
    · clear hs q2
      refine ⟨?_, ?_, ?_, ?_, ?_, ?_, ?_, ?_, ?_, ?_, ?_, ?_, ?_, ?_, ?_, ?_, q1⟩ <;> clear q1 <;> cases phase <;> simp_all [Phase.hasManager, Phase.hasMonitor, Phase.inPoll]
    · clear hs q1
      refine ⟨?_, ?_, ?_, ?_, ?_, ?_, ?_, ?_, ?_, ?_, ?_, ?_, ?_, ?_, ?_, ?_, q2⟩ <;> clear q2 <;> cases phase <;> simp_all [Phase.hasManager, Phase.hasMonitor, Phase.inPoll]


theorem inv_begin {s s' : State} (h : Inv s) (hs : step s .begin = some s') : Inv s' := by
  obtain ⟨held, phase, queue, stage, handler, watched, monitor, taking, log⟩ := s
  have nb := not_begun h
  obtain ⟨h1, h2, h3, h4, h5, h6, h7, h8, h9, h10, h11, h12, h13, h14, h15, h16, h17⟩ := h
  clear nb
  have hp : phase = .idle := by
    simp only [step] at hs
    split at hs
    · cases hs
    · rename_i h; exact Decidable.not_not.1 h
  subst hp
  simp only [step] at hs
  cases queue with
  | nil => simp at hs
  | cons j q =>
    cases j with
    | poll =>
      simp at hs
      subst hs
      cases hm : monitor <;>
      refine ⟨?_, ?_, ?_, ?_, ?_, ?_, ?_, ?_, ?_, ?_, ?_, ?_, ?_, ?_, ?_, ?_, h17⟩ <;> clear h17 <;>
        simp_all [Phase.hasManager, Phase.hasMonitor, Phase.inPoll] <;> omega
    | update =>
      have q1 := quiet_append h17 (e := .dropped) (fun _ => by simp)
      by_cases hst : stage = .none
      · subst hst
        simp at hs
        subst hs
        refine ⟨?_, ?_, ?_, ?_, ?_, ?_, ?_, ?_, ?_, ?_, ?_, ?_, ?_, ?_, ?_, ?_, h17⟩ <;> clear h17 q1 <;>
          simp_all [Phase.hasManager, Phase.hasMonitor, Phase.inPoll] <;> omega
      · simp [hst] at hs
        subst hs
        refine ⟨?_, ?_, ?_, ?_, ?_, ?_, ?_, ?_, ?_, ?_, ?_, ?_, ?_, ?_, ?_, ?_, q1⟩ <;> clear h17 q1 <;>
          simp_all [Phase.hasManager, Phase.hasMonitor, Phase.inPoll] <;> omega


theorem inv_lock {s s' : State} (h : Inv s) (hs : step s .lock = some s') : Inv s' := by
  obtain ⟨held, phase, queue, stage, handler, watched, monitor, taking, log⟩ := s
  have nb := not_begun h
  obtain ⟨h1, h2, h3, h4, h5, h6, h7, h8, h9, h10, h11, h12, h13, h14, h15, h16, h17⟩ := h
  clear nb
  have hp : phase = .polling := by
    simp only [step] at hs
    split at hs
    · assumption
    · cases hs
  subst hp
  simp [step] at hs
  subst hs
  refine ⟨?_, ?_, ?_, ?_, ?_, ?_, ?_, ?_, ?_, ?_, ?_, ?_, ?_, ?_, ?_, ?_, h17⟩ <;> clear h17 <;> simp_all [Phase.hasManager, Phase.hasMonitor, Phase.inPoll]


theorem inv_event {s s' : State} (h : Inv s) (hs : step s .event = some s') : Inv s' := by
  obtain ⟨held, phase, queue, stage, handler, watched, monitor, taking, log⟩ := s
  have nb := not_begun h
  obtain ⟨h1, h2, h3, h4, h5, h6, h7, h8, h9, h10, h11, h12, h13, h14, h15, h16, h17⟩ := h
  clear nb
  have hp : phase = .handling := by
    simp only [step] at hs
    split at hs
    · assumption
    · cases hs
  subst hp
  simp only [step, if_true, Option.some.injEq] at hs
  split at hs
  · subst hs
    refine ⟨?_, ?_, ?_, ?_, ?_, ?_, ?_, ?_, ?_, ?_, ?_, ?_, ?_, ?_, ?_, ?_, h17⟩ <;> clear h17 <;> simp_all [Phase.hasManager, Phase.hasMonitor, Phase.inPoll]
  · subst hs
    exact ⟨h1, h2, h3, h4, h5, h6, h7, h8, h9, h10, h11, h12, h13, h14, h15, h16, h17⟩


theorem inv_post {s s' : State} (h : Inv s) (hs : step s .post = some s') : Inv s' := by
  obtain ⟨held, phase, queue, stage, handler, watched, monitor, taking, log⟩ := s
  have nb := not_begun h
  obtain ⟨h1, h2, h3, h4, h5, h6, h7, h8, h9, h10, h11, h12, h13, h14, h15, h16, h17⟩ := h
  have hp : phase = .calling := by
    simp only [step] at hs
    split at hs
    · assumption
    · cases hs
  subst hp
  have hst : stage = .none := h1 rfl
  subst hst
  have nb := nb rfl
  have q1 := quiet_append h17 (e := .noticed) (fun h => absurd h nb)
  have q2 := quiet_append q1 (e := .refused) (fun _ => by simp)
  rw [List.append_assoc] at q2
  simp only [step, if_true, Option.some.injEq] at hs
  split at hs
  · subst hs
    refine ⟨?_, ?_, ?_, ?_, ?_, ?_, ?_, ?_, ?_, ?_, ?_, ?_, ?_, ?_, ?_, ?_, q1⟩ <;> clear h17 q1 q2 <;> simp_all [Phase.hasManager, Phase.hasMonitor, Phase.inPoll] <;> omega
  · subst hs
    refine ⟨?_, ?_, ?_, ?_, ?_, ?_, ?_, ?_, ?_, ?_, ?_, ?_, ?_, ?_, ?_, ?_, q2⟩ <;> clear h17 q1 q2 <;> simp_all [Phase.hasManager, Phase.hasMonitor, Phase.inPoll] <;> omega


theorem inv_back {s s' : State} (h : Inv s) (hs : step s .back = some s') : Inv s' := by
  obtain ⟨held, phase, queue, stage, handler, watched, monitor, taking, log⟩ := s
  have nb := not_begun h
  obtain ⟨h1, h2, h3, h4, h5, h6, h7, h8, h9, h10, h11, h12, h13, h14, h15, h16, h17⟩ := h
  have hp : phase = .posted := by
    simp only [step] at hs
    split at hs
    · assumption
    · cases hs
  subst hp
  have hst : stage = .none := h1 rfl
  subst hst
  have nb := nb rfl
  simp only [step, if_true, Option.some.injEq] at hs
  split at hs
  · subst hs
    refine ⟨?_, ?_, ?_, ?_, ?_, ?_, ?_, ?_, ?_, ?_, ?_, ?_, ?_, ?_, ?_, ?_, quiet_first nb⟩ <;> clear h17 <;> simp_all [State.lose, Phase.hasManager, Phase.hasMonitor, Phase.inPoll]
  · subst hs
    refine ⟨?_, ?_, ?_, ?_, ?_, ?_, ?_, ?_, ?_, ?_, ?_, ?_, ?_, ?_, ?_, ?_, h17⟩ <;> clear h17 <;> simp_all [Phase.hasManager, Phase.hasMonitor, Phase.inPoll] <;> omega


theorem inv_done {s s' : State} (h : Inv s) (hs : step s .done = some s') : Inv s' := by
  obtain ⟨held, phase, queue, stage, handler, watched, monitor, taking, log⟩ := s
  have nb := not_begun h
  obtain ⟨h1, h2, h3, h4, h5, h6, h7, h8, h9, h10, h11, h12, h13, h14, h15, h16, h17⟩ := h
  have hp : phase = .updated := by
    simp only [step] at hs
    split at hs
    · assumption
    · cases hs
  subst hp
  have hst : stage = .none := h1 rfl
  subst hst
  have nb := nb rfl
  simp only [step, if_true, Option.some.injEq] at hs
  split at hs
  · subst hs
    refine ⟨?_, ?_, ?_, ?_, ?_, ?_, ?_, ?_, ?_, ?_, ?_, ?_, ?_, ?_, ?_, ?_, quiet_first nb⟩ <;> clear h17 <;> simp_all [State.lose, Phase.hasManager, Phase.hasMonitor, Phase.inPoll]
  · subst hs
    refine ⟨?_, ?_, ?_, ?_, ?_, ?_, ?_, ?_, ?_, ?_, ?_, ?_, ?_, ?_, ?_, ?_, h17⟩ <;> clear h17 <;> simp_all [Phase.hasManager, Phase.hasMonitor, Phase.inPoll] <;> omega


theorem inv_unlock {s s' : State} (h : Inv s) (hs : step s .unlock = some s') : Inv s' := by
  obtain ⟨held, phase, queue, stage, handler, watched, monitor, taking, log⟩ := s
  have nb := not_begun h
  obtain ⟨h1, h2, h3, h4, h5, h6, h7, h8, h9, h10, h11, h12, h13, h14, h15, h16, h17⟩ := h
  clear nb
  have hp : phase = .polling ∨ phase = .handling := by
    simp only [step] at hs
    split at hs
    · assumption
    · cases hs
  rcases hp with rfl | rfl <;> simp [step] at hs <;> subst hs <;>
  refine ⟨?_, ?_, ?_, ?_, ?_, ?_, ?_, ?_, ?_, ?_, ?_, ?_, ?_, ?_, ?_, ?_, h17⟩ <;> clear h17 <;> simp_all [Phase.hasManager, Phase.hasMonitor, Phase.inPoll]


theorem inv_again {s s' : State} (h : Inv s) (hs : step s .again = some s') : Inv s' := by
  obtain ⟨held, phase, queue, stage, handler, watched, monitor, taking, log⟩ := s
  have nb := not_begun h
  obtain ⟨h1, h2, h3, h4, h5, h6, h7, h8, h9, h10, h11, h12, h13, h14, h15, h16, h17⟩ := h
  clear nb
  have hp : phase = .polled := by
    simp only [step] at hs
    split at hs
    · assumption
    · cases hs
  subst hp
  simp only [step, if_true, Option.some.injEq] at hs
  subst hs
  cases ht : taking <;>
  refine ⟨?_, ?_, ?_, ?_, ?_, ?_, ?_, ?_, ?_, ?_, ?_, ?_, ?_, ?_, ?_, ?_, h17⟩ <;> clear h17 <;> simp_all [Phase.hasManager, Phase.hasMonitor, Phase.inPoll]


theorem inv_letGo {s s' : State} (h : Inv s) (hs : step s .letGo = some s') : Inv s' := by
  obtain ⟨held, phase, queue, stage, handler, watched, monitor, taking, log⟩ := s
  have nb := not_begun h
  obtain ⟨h1, h2, h3, h4, h5, h6, h7, h8, h9, h10, h11, h12, h13, h14, h15, h16, h17⟩ := h
  clear nb
  have hp : phase = .reposted := by
    simp only [step] at hs
    split at hs
    · assumption
    · cases hs
  subst hp
  have q1 := quiet_append h17 (e := .monitorGone) (fun _ => by simp)
  simp only [step, if_true, Option.some.injEq] at hs
  split at hs
  · subst hs
    refine ⟨?_, ?_, ?_, ?_, ?_, ?_, ?_, ?_, ?_, ?_, ?_, ?_, ?_, ?_, ?_, ?_, q1⟩ <;> clear h17 q1 <;> simp_all [Phase.hasManager, Phase.hasMonitor, Phase.inPoll]
  · subst hs
    refine ⟨?_, ?_, ?_, ?_, ?_, ?_, ?_, ?_, ?_, ?_, ?_, ?_, ?_, ?_, ?_, ?_, h17⟩ <;> clear h17 q1 <;> simp_all [Phase.hasManager, Phase.hasMonitor, Phase.inPoll]


theorem inv_read {s s' : State} (h : Inv s) (hs : step s .read = some s') : Inv s' := by
  obtain ⟨held, phase, queue, stage, handler, watched, monitor, taking, log⟩ := s
  have nb := not_begun h
  obtain ⟨h1, h2, h3, h4, h5, h6, h7, h8, h9, h10, h11, h12, h13, h14, h15, h16, h17⟩ := h
  have hp : phase = .updating := by
    simp only [step] at hs
    split at hs
    · assumption
    · cases hs
  subst hp
  have hst : stage = .none := h1 rfl
  subst hst
  have nb := nb rfl
  have q1 := quiet_append h17 (e := .reread) (fun h => absurd h nb)
  simp [step] at hs
  subst hs
  refine ⟨?_, ?_, ?_, ?_, ?_, ?_, ?_, ?_, ?_, ?_, ?_, ?_, ?_, ?_, ?_, ?_, q1⟩ <;> clear h17 q1 <;> simp_all [Phase.hasManager, Phase.hasMonitor, Phase.inPoll] <;> omega


theorem inv_refuse {s s' : State} (h : Inv s) (hs : step s .refuse = some s') : Inv s' := by
  obtain ⟨held, phase, queue, stage, handler, watched, monitor, taking, log⟩ := s
  have nb := not_begun h
  obtain ⟨h1, h2, h3, h4, h5, h6, h7, h8, h9, h10, h11, h12, h13, h14, h15, h16, h17⟩ := h
  cases hs
  exact ⟨h1, h2, h3, h4, h5, h6, h7, h8, h9, fun h => (nomatch h), h11, h12, fun _ => rfl, h14, h15, h16, h17⟩


theorem Inv.step {s s' : State} {o : Op} (h : Inv s) (hs : step s o = some s') : Inv s' := by
  cases o with
  | copy => exact inv_copy h hs
  | release => exact inv_release h hs
  | destroy => exact inv_destroy h hs
  | begin => exact inv_begin h hs
  | lock => exact inv_lock h hs
  | event => exact inv_event h hs
  | post => exact inv_post h hs
  | back => exact inv_back h hs
  | unlock => exact inv_unlock h hs
  | again => exact inv_again h hs
  | letGo => exact inv_letGo h hs
  | read => exact inv_read h hs
  | done => exact inv_done h hs
  | refuse => exact inv_refuse h hs

theorem inv_run {s s' : State} {ops : List Op} (h : Inv s) (hr : run s ops = some s') : Inv s' := by
  induction ops generalizing s with
  | nil => cases hr; exact h
  | cons o r ih =>
    unfold run at hr
    cases hs : step s o with
    | none => rw [hs] at hr; cases hr
    | some t => rw [hs] at hr; exact ih (h.step hs) hr

theorem run_append {s : State} {a b : List Op} : run s (a ++ b) = (run s a).bind fun t => run t b := by
  induction a generalizing s with
  | nil => rfl
  | cons o r ih =>
    simp only [List.cons_append, run]
    cases step s o with
    | none => rfl
    | some t => exact ih

theorem members_stage {s t : State} (hy : s.stage = .members) (hs : step s .destroy = some t) : t.stage = .over := by
  simp only [step, hy, Option.some.injEq] at hs
  cases hp : s.phase <;> simp [hp, Phase.hasMonitor] at hs <;> subst hs <;> rfl

theorem members_stuck {s t : State} (hy : s.stage = .members) (hs : step s .destroy = some t) (ht : t.phase = .stuck) :
    s.phase = .stuck := by
  simp only [step, hy, Option.some.injEq] at hs
  cases hp : s.phase <;> simp [hp, Phase.hasMonitor] at hs <;> subst hs <;> first | rfl | cases ht

/-! ## C153 -/

/-- C153: in every history the manager is destroyed at most once, only when the program has released all its references,
and never while one of its tasks or its callback is using it: after the destructor has begun, the file is not read any
more, and no further change is taken note of. Its monitor is destroyed at most once, not before the destructor of the
manager returned. -/
theorem manager_lifetime (ops : List Op) (s : State) (hr : run start ops = some s) :
    s.log.count .destroyBegins ≤ 1 ∧ s.log.count .destroyEnds ≤ s.log.count .destroyBegins ∧
    s.log.count .monitorGone ≤ s.log.count .destroyEnds ∧ (.destroyBegins ∈ s.log → s.held = 0) ∧
    (∀ pre post, s.log = pre ++ .destroyBegins :: post → .reread ∉ post ∧ .noticed ∉ post) := by
  have h := inv_run inv_start hr
  have e1 := h.begins
  have e2 := h.ends
  have e3 := h.goneOnce
  refine ⟨by rw [e1]; exact Bool.toNat_le _, ?_, ?_, ?_, h.quiet⟩
  · rw [e1, e2]
    cases s.stage <;> decide
  · rw [e2, e3]
    have := h.monitor
    cases hm : s.monitor with
    | true => simp
    | false =>
      rw [hm] at this
      simp at this
      rw [this.1]; decide
  · intro hm
    refine h.gone fun hn => ?_
    exact not_begun h hn hm

/-- Two references, a change, an update, and the release of both while the runner is idle. -/
example : (run start [.copy, .begin, .lock, .event, .post, .back, .unlock, .again, .letGo, .begin, .read, .done, .release,
    .release, .destroy, .destroy, .destroy, .begin]).map (fun s => (s.log, s.queue)) =
    some ([.noticed, .reread, .destroyBegins, .destroyEnds, .monitorGone], []) := by decide

/-- A poll is being executed by the runner's thread and has not posted the next one. -/
def Polling (s : State) : Prop := s.phase ∈ [.polling, .handling, .calling, .posted, .polled, .stuck]

instance (s : State) : Decidable (Polling s) := by unfold Polling; infer_instance

/-- C153: as long as the monitor exists and the runner takes tasks there is exactly one poll, waiting or being executed;
there are never two, so events are handled by one thread at a time. -/
theorem one_poll (ops : List Op) (s : State) (hr : run start ops = some s) :
    s.queue.count .poll + (if Polling s then 1 else 0) ≤ 1 ∧
    (s.taking = true → .monitorGone ∉ s.log → s.queue.count .poll + (if Polling s then 1 else 0) = 1) := by
  have h := inv_run inv_start hr
  have e : (if Polling s then 1 else 0) = s.phase.inPoll.toNat := by
    have : ∀ p : Phase, (if p ∈ [Phase.polling, .handling, .calling, .posted, .polled, .stuck] then 1 else 0) = p.inPoll.toNat := by
      intro p; cases p <;> rfl
    exact this s.phase
  rw [e]
  refine ⟨h.atMost, fun ht hm => h.poll ht ?_⟩
  have e3 := h.goneOnce
  rw [List.count_eq_zero.2 hm] at e3
  cases hx : s.monitor with
  | true => rfl
  | false => rw [hx] at e3; cases e3

/-- Hypotheses: after a poll. -/
example : (run start [.begin, .lock, .unlock, .again, .letGo]).map (fun s => (s.taking, s.log, s.queue)) =
    some (true, [], [.poll]) := by decide

/-- C153: every change that is noticed leads to the file being read again: in every history, the changes noticed are as
many as the times the file was read, plus the updates still to come, plus those that came when the manager was gone, plus
those refused by a runner whose task manager was gone. -/
theorem changes_reread (ops : List Op) (s : State) (hr : run start ops = some s) :
    s.log.count .noticed = s.log.count .reread + s.queue.count .update + (if s.phase = .updating then 1 else 0) +
      s.log.count .dropped + s.log.count .refused ∧
    (.dropped ∈ s.log → .destroyBegins ∈ s.log) ∧ (.refused ∈ s.log → s.taking = false) := by
  have h := inv_run inv_start hr
  refine ⟨?_, ?_, h.refused⟩
  · rw [h.account]
    by_cases hp : s.phase = .updating <;> simp [hp]
  · intro hd
    have hst := h.dropped hd
    have := h.begins
    exact List.count_pos_iff.1 (by rw [this]; simp [hst])

/-- Two changes in one poll, one of them already followed by a read, and an update that comes too late. -/
example : (run start [.begin, .lock, .event, .post, .back, .event, .post, .back, .unlock, .again, .letGo, .begin, .read, .done,
    .release, .destroy, .destroy, .destroy, .begin]).map (fun s => (s.log, s.queue)) =
    some ([.noticed, .noticed, .reread, .destroyBegins, .destroyEnds, .monitorGone, .dropped], [.poll]) := by decide

/-! ### Is the manager destroyed? -/

/-- What the threads do on their own: neither the program nor the file system. -/
def OnItsOwn (o : Op) : Prop := o ≠ .copy ∧ o ≠ .release ∧ o ≠ .event ∧ o ≠ .refuse

/-- Everything is over: the destructors have returned, and no task is left. -/
def Finished (s : State) : Prop :=
  .destroyEnds ∈ s.log ∧ .monitorGone ∈ s.log ∧ s.handler = false ∧ s.watched = false ∧ s.queue = [] ∧ s.phase = .idle

/-- The callback of the manager is being executed. -/
def InCallback (s : State) : Prop := s.phase = .calling ∨ s.phase = .posted

/-- The tasks left of a monitor and a manager that are gone are dropped. -/
theorem drain {q : List Job} {s : State} (h : Inv s) (hst : s.stage = .over) (hp : s.phase = .idle) (hq : s.queue = q) :
    ∃ ops s', (∀ o ∈ ops, OnItsOwn o) ∧ run s ops = some s' ∧ Finished s' := by
  have hm : s.monitor = false := by
    have := h.monitor
    rw [hst, hp] at this
    cases hx : s.monitor with
    | false => rfl
    | true => rw [hx] at this; simp [Phase.hasMonitor] at this
  induction q generalizing s with
  | nil =>
    refine ⟨[], s, by simp, rfl, ?_, ?_, ?_, ?_, hq, hp⟩
    · exact List.count_pos_iff.1 (by rw [h.ends, hst]; decide)
    · exact List.count_pos_iff.1 (by rw [h.goneOnce, hm]; decide)
    · have := h.handler; rw [hst] at this; simpa using this
    · have := h.watched; rw [hst] at this; simpa using this
  | cons j q ih =>
    have hs : ∃ t, step s .begin = some t ∧ t.stage = .over ∧ t.phase = .idle ∧ t.queue = q ∧ t.monitor = false := by
      cases j with
      | poll =>
        refine ⟨{ s with queue := q, phase := .idle }, ?_, hst, rfl, rfl, hm⟩
        simp [step, hp, hq, hm]
      | update =>
        refine ⟨{ s with queue := q, log := s.log ++ [.dropped] }, ?_, hst, hp, rfl, hm⟩
        simp [step, hp, hq, hst]
    obtain ⟨t, ht, t1, t2, t3, t4⟩ := hs
    obtain ⟨ops, s', h1, h2, h3⟩ := ih (h.step ht) t1 t2 t3 t4
    refine ⟨.begin :: ops, s', ?_, by simp only [run, ht, Option.bind_some]; exact h2, h3⟩
    intro o ho
    rcases List.mem_cons.1 ho with rfl | ho
    · simp [OnItsOwn]
    · exact h1 o ho

/-- From a state in which the destructor has begun and the runner does nothing, or runs it. -/
theorem destroy_rest {s : State} (h : Inv s) (hst : s.stage ≠ .none) (hp : s.phase = .idle ∨ s.phase = .destroying) :
    ∃ ops s', (∀ o ∈ ops, OnItsOwn o) ∧ run s ops = some s' ∧ Finished s' := by
  have hl : s.phase.locked = false := by rcases hp with e | e <;> rw [e] <;> rfl
  have key : ∀ (n : Nat) (s : State), Inv s → s.phase = .idle ∨ s.phase = .destroying →
      (s.stage = .over ∧ n = 0 ∨ s.stage = .members ∧ n = 1 ∨ s.stage = .prune ∧ n = 2 ∨ s.stage = .remove ∧ n = 3) →
      ∃ ops s', (∀ o ∈ ops, OnItsOwn o) ∧ run s ops = some s' ∧ Finished s' := by
    intro n
    induction n with
    | zero =>
      intro s h hp hst
      rcases hst with ⟨hst, -⟩ | ⟨-, hn⟩ | ⟨-, hn⟩ | ⟨-, hn⟩
      · rcases hp with hp | hp
        · exact drain h hst hp rfl
        · have := h.destroying hp
          rw [hst] at this
          simp at this
      all_goals omega
    | succ n ih =>
      intro s h hp hst
      have hl : s.phase.locked = false := by rcases hp with e | e <;> rw [e] <;> rfl
      have hs : ∃ t, step s .destroy = some t ∧ (t.phase = .idle ∨ t.phase = .destroying) ∧
          (t.stage = .over ∧ n = 0 ∨ t.stage = .members ∧ n = 1 ∨ t.stage = .prune ∧ n = 2 ∨ t.stage = .remove ∧ n = 3) := by
        rcases hst with ⟨-, hn⟩ | ⟨hst, hn⟩ | ⟨hst, hn⟩ | ⟨hst, hn⟩
        · omega
        · have hn : n = 0 := by omega
          have hph : (if s.phase = .destroying then Phase.idle else s.phase) = .idle := by rcases hp with e | e <;> simp [e]
          refine ⟨{ s with stage := .over, phase := .idle, monitor := false, log := s.log ++ [.destroyEnds] ++ [.monitorGone] }, ?_,
            .inl rfl, .inl ⟨rfl, hn⟩⟩
          simp [step, hst, hph, Phase.hasMonitor]
        · have hn : n = 1 := by omega
          refine ⟨{ s with stage := .members, watched := false }, ?_, hp, .inr (.inl ⟨rfl, hn⟩)⟩
          simp [step, hst, hl]
        · have hn : n = 2 := by omega
          refine ⟨{ s with stage := .prune, handler := false }, ?_, hp, .inr (.inr (.inl ⟨rfl, hn⟩))⟩
          simp [step, hst, hl]
      obtain ⟨t, ht, t1, t2⟩ := hs
      obtain ⟨ops, s', h1, h2, h3⟩ := ih t (h.step ht) t1 t2
      refine ⟨.destroy :: ops, s', ?_, by simp only [run, ht, Option.bind_some]; exact h2, h3⟩
      intro o ho
      rcases List.mem_cons.1 ho with rfl | ho
      · simp [OnItsOwn]
      · exact h1 o ho
  cases hx : s.stage with
  | none => exact absurd hx hst
  | remove => exact key 3 s h hp (.inr (.inr (.inr ⟨hx, rfl⟩)))
  | prune => exact key 2 s h hp (.inr (.inr (.inl ⟨hx, rfl⟩)))
  | members => exact key 1 s h hp (.inr (.inl ⟨hx, rfl⟩))
  | over => exact key 0 s h hp (.inl ⟨hx, rfl⟩)

/-- C153, as far as it holds: once the program has released its last reference, the threads can always bring everything to
an end on their own: the manager and its monitor are destroyed, and no task is left. Except from within the callback. -/
theorem release_completes_partial (before : List Op) (s : State) (hr : run start before = some s) (hh : s.held = 0)
    (hc : ¬ InCallback s) (hs : s.phase ≠ .stuck) :
    ∃ ops s', (∀ o ∈ ops, OnItsOwn o) ∧ run s ops = some s' ∧ Finished s' := by
  have h := inv_run inv_start hr
  have lift : ∀ (ops : List Op) (t : State), (∀ o ∈ ops, OnItsOwn o) → run s ops = some t → t.stage ≠ .none →
      (t.phase = .idle ∨ t.phase = .destroying) → ∃ ops s', (∀ o ∈ ops, OnItsOwn o) ∧ run s ops = some s' ∧ Finished s' := by
    intro ops t h1 h2 h3 h4
    obtain ⟨ops', s', k1, k2, k3⟩ := destroy_rest (inv_run h h2) h3 h4
    refine ⟨ops ++ ops', s', ?_, by rw [run_append, h2]; exact k2, k3⟩
    intro o ho
    rcases List.mem_append.1 ho with ho | ho
    · exact h1 o ho
    · exact k1 o ho
  have begun : s.phase.hasManager = false → s.stage ≠ .none := by
    intro hm hn
    rcases h.owned hn with h | h
    · omega
    · rw [hm] at h; cases h
  have poll : ∀ t, step s .again = some t ∨ s.phase = .reposted ∧ t = s → t.stage = s.stage → t.phase = .reposted →
      s.stage ≠ .none → ∃ u, step t .letGo = some u ∧ u.stage ≠ .none ∧ u.phase = .idle := by
    intro t _ ht hp hst
    by_cases ho : t.stage = .over
    · exact ⟨{ t with phase := .idle, monitor := false, log := t.log ++ [.monitorGone] }, by simp [step, hp, ho],
        by simp [ho], rfl⟩
    · exact ⟨{ t with phase := .idle }, by simp [step, hp, ho], by rw [← ht] at hst; exact hst, rfl⟩
  cases hp : s.phase with
  | idle => exact lift [] s (by simp) rfl (begun (by rw [hp]; rfl)) (.inl hp)
  | destroying =>
    refine lift [] s (by simp) rfl ?_ (.inr hp)
    rcases h.destroying hp with e | e | e <;> rw [e] <;> simp
  | calling => exact absurd (.inl hp) hc
  | posted => exact absurd (.inr hp) hc
  | stuck => exact absurd hp hs
  | updating =>
    refine lift [.read, .done] ({ s with phase := .destroying, log := s.log ++ [.reread] } : State).lose (by simp [OnItsOwn]) ?_
      (by simp [State.lose]) (.inr rfl)
    simp [run, step, hp, hh]
  | updated =>
    refine lift [.done] ({ s with phase := .destroying } : State).lose (by simp [OnItsOwn]) ?_
      (by simp [State.lose]) (.inr rfl)
    simp [run, step, hp, hh]
  | reposted =>
    have hst := begun (by rw [hp]; rfl)
    obtain ⟨u, u1, u2, u3⟩ := poll s (.inr ⟨hp, rfl⟩) rfl hp hst
    exact lift [.letGo] u (by simp [OnItsOwn]) (by simp [run, u1]) u2 (.inl u3)
  | polled =>
    have hst := begun (by rw [hp]; rfl)
    have e : step s .again = some { s with phase := .reposted, queue := if s.taking then s.queue ++ [.poll] else s.queue } := by
      simp [step, hp]
    obtain ⟨u, u1, u2, u3⟩ := poll _ (.inl e) rfl rfl hst
    exact lift [.again, .letGo] u (by simp [OnItsOwn]) (by simp only [run, e, Option.bind_some, u1]) u2 (.inl u3)
  | polling =>
    have hst := begun (by rw [hp]; rfl)
    let t : State := { s with phase := .polled }
    have e0 : step s .unlock = some t := by simp [step, hp, t]
    have e : step t .again = some { t with phase := .reposted, queue := if t.taking then t.queue ++ [.poll] else t.queue } := by
      simp [step, t]
    by_cases ho : s.stage = .over
    · refine lift [.unlock, .again, .letGo] { t with
        phase := .idle, queue := if t.taking then t.queue ++ [.poll] else t.queue, monitor := false, log := t.log ++ [.monitorGone] } (by simp [OnItsOwn]) ?_ hst (.inl rfl)
      simp only [run, e0, e, Option.bind_some]
      simp [step, t, ho]
    · refine lift [.unlock, .again, .letGo] { t with phase := .idle, queue := if t.taking then t.queue ++ [.poll] else t.queue }
        (by simp [OnItsOwn]) ?_ hst (.inl rfl)
      simp only [run, e0, e, Option.bind_some]
      simp [step, t, ho]
  | handling =>
    have hst := begun (by rw [hp]; rfl)
    let t : State := { s with phase := .polled }
    have e0 : step s .unlock = some t := by simp [step, hp, t]
    have e : step t .again = some { t with phase := .reposted, queue := if t.taking then t.queue ++ [.poll] else t.queue } := by
      simp [step, t]
    by_cases ho : s.stage = .over
    · refine lift [.unlock, .again, .letGo] { t with
        phase := .idle, queue := if t.taking then t.queue ++ [.poll] else t.queue, monitor := false, log := t.log ++ [.monitorGone] } (by simp [OnItsOwn]) ?_ hst (.inl rfl)
      simp only [run, e0, e, Option.bind_some]
      simp [step, t, ho]
    · refine lift [.unlock, .again, .letGo] { t with phase := .idle, queue := if t.taking then t.queue ++ [.poll] else t.queue }
        (by simp [OnItsOwn]) ?_ hst (.inl rfl)
      simp only [run, e0, e, Option.bind_some]
      simp [step, t, ho]

/-- The hypotheses hold when the release comes during an update, and the task of the update destroys the manager. -/
example : ((run start [.begin, .lock, .event, .post, .back, .unlock, .again, .letGo, .begin, .release]).map
    fun s => (s.held, s.phase)) = some (0, .updating) := by decide

/-- C153 fails in full: if the program releases its last reference while the callback is being executed, the manager is never
destroyed: the callback's own reference is then the last one, and the destructor waits for the mutex that its own thread
holds. Whatever happens later, the destructor does not return, the runner's thread does not leave the poll, and so no other
task of this runner is executed and nobody else gets the monitor's mutex. -/
theorem release_in_callback_violated (before later : List Op) (s s' : State) (hr : run start before = some s) (hh : s.held = 0)
    (hc : InCallback s ∨ s.phase = .stuck) (hl : run s later = some s') :
    .destroyEnds ∉ s'.log ∧ s'.log.count .reread = s.log.count .reread ∧ Polling s' ∧ s'.phase.locked = true ∧
    (InCallback s' ∨ s'.phase = .stuck) := by
  have h := inv_run inv_start hr
  suffices x : s'.held = 0 ∧ s'.log.count .reread = s.log.count .reread ∧ (InCallback s' ∨ s'.phase = .stuck) by
    obtain ⟨_, x2, x3⟩ := x
    have h' := inv_run h hl
    refine ⟨?_, x2, ?_, ?_, x3⟩
    · refine List.count_eq_zero.1 ?_
      rw [h'.ends]
      rcases x3 with (e | e) | e
      · rw [h'.used (by rw [e]; rfl)]; decide
      · rw [h'.used (by rw [e]; rfl)]; decide
      · rw [h'.stuck e]; decide
    · unfold Polling
      rcases x3 with (e | e) | e <;> rw [e] <;> simp
    · rcases x3 with (e | e) | e <;> rw [e] <;> rfl
  clear hr
  induction later generalizing s with
  | nil => cases hl; exact ⟨hh, rfl, hc⟩
  | cons o r ih =>
    unfold run at hl
    cases hs : step s o with
    | none => rw [hs] at hl; cases hl
    | some t =>
      rw [hs] at hl
      have ht : t.held = 0 ∧ t.log.count .reread = s.log.count .reread ∧ (InCallback t ∨ t.phase = .stuck) := by
        unfold InCallback at hc ⊢
        cases o with
        | copy => simp [step, hh] at hs
        | release => simp [step, hh] at hs
        | destroy =>
          rcases hc with (e | e) | e
          · have := h.used (by rw [e]; rfl); simp [step, this] at hs
          · have := h.used (by rw [e]; rfl); simp [step, this] at hs
          · have := h.stuck e; simp [step, this, e, Phase.locked] at hs
        | post =>
          rcases hc with (e | e) | e <;> simp [step, e] at hs
          subst hs
          split <;> simp [hh]
        | back =>
          rcases hc with (e | e) | e <;> simp [step, e, hh] at hs
          subst hs
          simp [State.lose, hh]
        | refuse => cases hs; exact ⟨hh, rfl, hc⟩
        | _ => rcases hc with (e | e) | e <;> simp [step, e] at hs
      obtain ⟨t1, t2, t3⟩ := ht
      obtain ⟨u1, u2, u3⟩ := ih t t1 t3 hl (h.step hs)
      exact ⟨u1, u2.trans t2, u3⟩

/-- That happens: the release comes between the callback's lock and its return. -/
theorem release_hangs : ∃ s, run start [.begin, .lock, .event, .release, .post, .back] = some s ∧ s.held = 0 ∧
    s.phase = .stuck ∧ .destroyBegins ∈ s.log := ⟨_, rfl, rfl, rfl, by decide⟩

/-- C153: it happens in no other way: the thread of the runner gets stuck only if the program released its last reference
while the callback was being executed. -/
theorem hangs_only_in_callback (ops : List Op) (s : State) (hr : run start ops = some s) (hst : s.phase = .stuck) :
    ∃ a b t, ops = a ++ .release :: b ∧ run start a = some t ∧ InCallback t ∧ t.held = 1 := by
  -- the state before is in the callback with references left, or already without
  have key : ∀ (ops : List Op) (s0 : State), Inv s0 → run s0 ops = some s → s.phase = .stuck → ¬ (s0.held = 0 ∧ InCallback s0) →
      s0.phase ≠ .stuck → ∃ a b t, ops = a ++ .release :: b ∧ run s0 a = some t ∧ InCallback t ∧ t.held = 1 := by
    intro ops
    induction ops with
    | nil => intro s0 _ hr hst _ hn; cases hr; exact absurd hst hn
    | cons o r ih =>
      intro s0 hi hr hst hd hn
      unfold run at hr
      cases hs : step s0 o with
      | none => rw [hs] at hr; cases hr
      | some t =>
        rw [hs] at hr
        by_cases hd' : t.held = 0 ∧ InCallback t
        · by_cases ho : o = .release
          · subst ho
            refine ⟨[], r, s0, rfl, rfl, ?_⟩
            simp only [step] at hs
            split at hs
            · cases hs
            · rename_i hh
              split at hs
              · rename_i hx
                cases hs
                have := hd'.2
                unfold InCallback State.lose at this
                simp only at this
                rcases this with e | e <;> rw [e] at hx <;> exact absurd hx.2 (by decide)
              · cases hs
                have h0 : s0.held - 1 = 0 := hd'.1
                exact ⟨hd'.2, by omega⟩
          · exfalso
            obtain ⟨d1, d2⟩ := hd'
            unfold InCallback at d2 hd
            cases o with
            | release => exact ho rfl
            | copy =>
              simp only [step] at hs
              split at hs <;> cases hs
              simp at d1
            | event =>
              simp only [step] at hs
              split at hs
              · split at hs
                · rename_i h1 h2
                  cases hs
                  have : s0.held = 0 := d1
                  rcases hi.owned h2.2 with h | h
                  · omega
                  · rw [h1] at h; cases h
                · rename_i h1 h2
                  cases hs
                  rw [h1] at d2
                  simp at d2
              · cases hs
            | post =>
              simp only [step] at hs
              split at hs
              · rename_i h1
                refine hd ⟨?_, .inl h1⟩
                split at hs <;> cases hs <;> exact d1
              · cases hs
            | back =>
              simp only [step] at hs
              split at hs
              · split at hs <;> cases hs <;> simp [State.lose] at d2
              · cases hs
            | refuse => cases hs; exact hd ⟨d1, d2⟩
            | destroy =>
              have hx : s0.stage ≠ .none := by intro e; simp [step, e] at hs
              have : Inv t := hi.step hs
              have ht : t.stage = .none := this.used (by rcases d2 with e | e <;> rw [e] <;> rfl)
              cases hy : s0.stage with
              | none => exact hx hy
              | over => simp [step, hy] at hs
              | remove => simp only [step, hy] at hs; split at hs <;> cases hs; cases ht
              | prune => simp only [step, hy] at hs; split at hs <;> cases hs; cases ht
              | members => rw [members_stage hy hs] at ht; cases ht
            | begin =>
              simp only [step] at hs
              split at hs
              · cases hs
              · rename_i hi'
                have hi' : s0.phase = .idle := Decidable.not_not.1 hi'
                split at hs
                · cases hs
                · cases hs
                  simp only at d2
                  cases hm : s0.monitor <;> rw [hm] at d2 <;> simp at d2
                · split at hs <;> cases hs
                  · simp at d2
                  · rw [hi'] at d2; simp at d2
            | done =>
              simp only [step] at hs
              split at hs
              · split at hs <;> cases hs <;> simp [State.lose] at d2
              · cases hs
            | letGo =>
              simp only [step] at hs
              split at hs
              · split at hs <;> cases hs <;> simp at d2
              · cases hs
            | _ =>
              simp only [step] at hs
              split at hs
              · cases hs; simp at d2
              · cases hs
        · by_cases hn' : t.phase = .stuck
          · exfalso
            cases o with
            | back =>
              simp only [step] at hs
              split at hs
              · rename_i h1
                split at hs
                · rename_i h2
                  exact hd ⟨h2, .inr h1⟩
                · cases hs; cases hn'
              · cases hs
            | copy => simp only [step] at hs; split at hs <;> cases hs; exact hn hn'
            | release =>
              simp only [step] at hs
              split at hs
              · cases hs
              · split at hs <;> cases hs <;> exact hn hn'
            | refuse => cases hs; exact hn hn'
            | destroy =>
              cases hy : s0.stage with
              | none => simp [step, hy] at hs
              | over => simp [step, hy] at hs
              | remove => simp only [step, hy] at hs; split at hs <;> cases hs; exact hn hn'
              | prune => simp only [step, hy] at hs; split at hs <;> cases hs; exact hn hn'
              | members =>
                exact hn (members_stuck hy hs hn')
            | begin =>
              simp only [step] at hs
              split at hs
              · cases hs
              · rename_i hi'
                have hi' : s0.phase = .idle := Decidable.not_not.1 hi'
                split at hs
                · cases hs
                · cases hs
                  simp only at hn'
                  cases hm : s0.monitor <;> rw [hm] at hn' <;> simp at hn'
                · split at hs <;> cases hs
                  · simp at hn'
                  · exact hn hn'
            | event =>
              simp only [step] at hs
              split at hs
              · split at hs <;> cases hs
                · cases hn'
                · exact hn hn'
              · cases hs
            | post =>
              simp only [step] at hs
              split at hs
              · split at hs <;> cases hs <;> cases hn'
              · cases hs
            | done =>
              simp only [step] at hs
              split at hs
              · split at hs <;> cases hs <;> cases hn'
              · cases hs
            | letGo =>
              simp only [step] at hs
              split at hs
              · split at hs <;> cases hs <;> cases hn'
              · cases hs
            | _ =>
              simp only [step] at hs
              split at hs
              · cases hs; cases hn'
              · cases hs
          · obtain ⟨a, b, u, k1, k2, k3⟩ := ih t (hi.step hs) hr hst hd' hn'
            exact ⟨o :: a, b, u, by rw [k1]; rfl, by simp only [run, hs, Option.bind_some]; exact k2, k3⟩
  exact key ops start inv_start hr hst (by simp [start]) (by simp [start])

end Verif.Config.Lifetime
