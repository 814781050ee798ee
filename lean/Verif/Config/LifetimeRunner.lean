import Verif.Config.LifetimeProps

/-!
# C153: the configuration manager and a task runner that goes away

Sources: those of `Verif/Config/Lifetime.lean`.
-/

namespace Verif.Config.Lifetime

theorem step_refused {s s' : State} {o : Op} (h : s.taking = true → Ev.refused ∉ s.log) (hs : step s o = some s') :
    s'.taking = true → Ev.refused ∉ s'.log := by
  cases o <;> simp only [step, State.lose] at hs <;> repeat' split at hs
  all_goals first
    | (cases hs; done)
    | (injection hs with hs; subst hs; intro ht; simp_all)
    | (simp at hs; subst hs; intro ht; simp_all)

theorem step_gone {s s' : State} {o : Op} (h : s.taking = false) (hs : step s o = some s') : s'.taking = false ∧
    s'.queue <:+ s.queue ∧ s'.log.count .noticed + s.log.count .refused = s.log.count .noticed + s'.log.count .refused := by
  cases o <;> simp only [step, State.lose] at hs <;> repeat' split at hs
  all_goals first
    | (cases hs; done)
    | (injection hs with hs; subst hs; simp_all <;> omega)

/-- C153: as long as the runner takes tasks no reading of the file is refused; once it takes none, nothing of the manager
and its monitor is queued any more, and every change that is noticed is refused. -/
theorem runner_gone (os : List Op) : ∀ s s', run s os = some s' →
    ((s.taking = true → Ev.refused ∉ s.log) → s'.taking = true → Ev.refused ∉ s'.log) ∧
    (s.taking = false → s'.queue <:+ s.queue ∧
      s'.log.count .noticed + s.log.count .refused = s.log.count .noticed + s'.log.count .refused) := by
  induction os with
  | nil => intro s s' h; cases h; exact ⟨fun h => h, fun _ => ⟨List.suffix_refl _, rfl⟩⟩
  | cons o os ih =>
    intro s s' h
    obtain ⟨t, h1, h2⟩ := Option.bind_eq_some_iff.1 h
    obtain ⟨i1, i2⟩ := ih t s' h2
    refine ⟨fun hr => i1 (step_refused hr h1), fun hg => ?_⟩
    obtain ⟨g1, g2, g3⟩ := step_gone hg h1
    obtain ⟨g4, g5⟩ := i2 g1
    exact ⟨g4.trans g2, by omega⟩

/-- A change noticed before the runner goes away, and one after. -/
example : ∃ s t, run start [.begin, .lock, .event, .post, .back, .event] = some s ∧ s.queue = [.update] ∧
    run s [.refuse, .post, .back, .unlock, .again, .letGo] = some t ∧ t.queue = [.update] ∧
    t.log = [.noticed, .noticed, .refused] :=
  ⟨_, _, rfl, rfl, rfl, rfl, rfl⟩

/-- Between taking the mutex and releasing it a poll is in one of these phases. -/
def Handling (s : State) : Prop :=
  s.phase = .handling ∨ s.phase = .calling ∨ s.phase = .posted ∨ s.phase = .stuck

instance (s : State) : Decidable (Handling s) := inferInstanceAs (Decidable (_ ∨ _))

/-- C153: the destructor and the poll exclude each other: whatever the history, no step made while a poll is handling
events (it holds the mutex) removes the handler or the watch; they are removed only between polls' critical sections
(path_monitor.cpp 73-88, 123-147, nix/path_monitor_impl.cpp 66). -/
theorem destructor_waits_for_poll (before : List Op) (o : Op) (s s' : State) (_ : run start before = some s)
    (hs : step s o = some s') (hh : Handling s) : s'.handler = s.handler ∧ s'.watched = s.watched := by
  unfold Handling at hh
  cases o with
  | destroy =>
    simp only [step] at hs
    split at hs
    · cases hs
    · cases hs
    · split at hs
      · cases hs
      · rename_i hl
        rcases hh with e | e | e | e <;> rw [e] at hl <;> exact absurd rfl hl
    · split at hs
      · cases hs
      · rename_i hl
        rcases hh with e | e | e | e <;> rw [e] at hl <;> exact absurd rfl hl
    · cases hs
      refine ⟨?_, ?_⟩ <;> split <;> first | rfl | (split <;> rfl)
  | _ =>
    simp only [step] at hs
    repeat' split at hs
    all_goals first
      | (cases hs; done)
      | (cases hs; exact ⟨rfl, rfl⟩)
      | (cases hs; simp only [State.lose]; split <;> exact ⟨rfl, rfl⟩)

/-- The manager is released while a poll handles an event: the watch stays until the poll is over, then it goes. -/
example : ∃ s t, run start [.begin, .lock, .release] = some s ∧ Handling s ∧ step s .destroy = none ∧ s.watched = true ∧
    run s [.unlock, .destroy, .destroy] = some t ∧ t.watched = false ∧ t.handler = false :=
  ⟨_, _, rfl, by decide, rfl, rfl, rfl, rfl, rfl⟩

/-- The same, released between the two critical sections of the destructor: the second one waits for the poll. -/
example : ∃ s, run start [.release, .destroy, .begin, .lock] = some s ∧ Handling s ∧ s.stage = .prune ∧
    step s .destroy = none := ⟨_, rfl, by decide, rfl, rfl⟩

end Verif.Config.Lifetime
