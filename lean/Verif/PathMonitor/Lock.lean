/-!
# Model of the monitor's mutex while callbacks run

`PathMonitorImpl::poll` (nix/path_monitor_impl.cpp 53-75) holds `m_mutex` while `read_events` and `handle_event`
invoke callbacks. The mutex is a `std::mutex` (path_monitor.hpp 173): it is not recursive, so a thread that
locks it again waits for itself (by the standard it is even undefined behaviour). Threads are scripts of
instructions; any number of threads, any interleaving.
-/

namespace Verif.PathMonitor.Lock

/-- What a thread does next. -/
inductive Instr
  /-- lock `m_mutex`: begin of every method of the monitor (path_monitor.cpp 60, 77, 94, 116, 136) and of the
  dispatch (nix/path_monitor_impl.cpp 68) -/
  | acquire
  /-- unlock it -/
  | release
  /-- anything that does not use the monitor -/
  | work
  /-- the callback of a `ConfigManager`, config_manager.cpp 84-94: `weak_self.lock()`; if the manager is
  alive, a reference to it is held until the end of the callback -/
  | visit
  /-- a reference to the `ConfigManager` is given up; the last one runs its destructor -/
  | drop
  deriving DecidableEq, Repr

/-- `~ConfigManager`, config_manager.cpp 67-73: `remove_file`, which locks the mutex, and locks it again to prune the directory
(path_monitor.cpp 132-161). -/
def destructor : List Instr := [.acquire, .release, .acquire, .release]

/-- The mutex, the number of references to the configuration manager, and what the threads still have to do. -/
structure State where
  holder : Option Nat
  refs : Nat
  scripts : List (List Instr)

/-- A step of thread `t`. -/
inductive Step : State → State → Prop
  | acquire {s : State} {t : Nat} {rest} : s.scripts[t]? = some (.acquire :: rest) → s.holder = none →
      Step s { s with
        holder := some t
        scripts := s.scripts.set t rest }
  | release {s : State} {t : Nat} {rest} : s.scripts[t]? = some (.release :: rest) → s.holder = some t →
      Step s { s with
        holder := none
        scripts := s.scripts.set t rest }
  | work {s : State} {t : Nat} {rest} : s.scripts[t]? = some (.work :: rest) → Step s { s with scripts := s.scripts.set t rest }
  | visitAlive {s : State} {t : Nat} {rest} : s.scripts[t]? = some (.visit :: rest) → 0 < s.refs →
      Step s { s with
        refs := s.refs + 1
        scripts := s.scripts.set t (.work :: .drop :: rest) }
  | visitDead {s : State} {t : Nat} {rest} : s.scripts[t]? = some (.visit :: rest) → s.refs = 0 →
      Step s { s with scripts := s.scripts.set t rest }
  | dropOne {s : State} {t : Nat} {rest} : s.scripts[t]? = some (.drop :: rest) → s.refs ≠ 1 →
      Step s { s with
        refs := s.refs - 1
        scripts := s.scripts.set t rest }
  | dropLast {s : State} {t : Nat} {rest} : s.scripts[t]? = some (.drop :: rest) → s.refs = 1 →
      Step s { s with
        refs := 0
        scripts := s.scripts.set t (destructor ++ rest) }

/-- Any number of steps. -/
inductive Steps : State → State → Prop
  | refl (s : State) : Steps s s
  | tail {a b c : State} : Steps a b → Step b c → Steps a c

/-- All threads are done. -/
def State.finished (s : State) : Prop := ∀ l ∈ s.scripts, l = []

/-- The thread will never make a step again. -/
def State.stuckForever (s : State) (t : Nat) : Prop := ∃ l, l ≠ [] ∧ ∀ s', Steps s s' → s'.scripts[t]? = some l

/-! ## Callbacks that use the monitor -/

theorem get_set_ne {l : List (List Instr)} {t u : Nat} {x : List Instr} {a b : Instr} {ra rb : List Instr} (ht : l[t]? = some (a :: ra))
    (hu : l[u]? = some (b :: rb)) (hab : a ≠ b) : (l.set u x)[t]? = some (a :: ra) := by
  rw [List.getElem?_set_ne, ht]
  rintro rfl
  rw [ht] at hu
  cases hu
  exact hab rfl

/-- A thread that locks the mutex it holds never goes on. -/
theorem self_lock_stuck {s : State} {t : Nat} {rest : List Instr} (hh : s.holder = some t) (hs : s.scripts[t]? = some (.acquire :: rest)) :
    s.stuckForever t := by
  refine ⟨.acquire :: rest, by simp, fun s' hs' => ?_⟩
  suffices h : s'.holder = some t ∧ s'.scripts[t]? = some (.acquire :: rest) from h.2
  induction hs' with
  | refl => exact ⟨hh, hs⟩
  | tail _ st ih =>
    obtain ⟨h1, h2⟩ := ih
    cases st with
    | acquire hg hn => rw [h1] at hn; cases hn
    | release hg hn =>
      rw [h1] at hn; cases hn
      rw [h2] at hg; cases hg
    | work hg => exact ⟨h1, get_set_ne h2 hg (by simp)⟩
    | visitAlive hg _ => exact ⟨h1, get_set_ne h2 hg (by simp)⟩
    | visitDead hg _ => exact ⟨h1, get_set_ne h2 hg (by simp)⟩
    | dropOne hg _ => exact ⟨h1, get_set_ne h2 hg (by simp)⟩
    | dropLast hg _ => exact ⟨h1, get_set_ne h2 hg (by simp)⟩

/-- C55 fails for a callback that calls the monitor (here `remove_path`): the dispatching thread waits for
itself forever, in every execution in which it gets that far; and any other thread that uses the monitor waits too. -/
theorem callback_uses_monitor_violated :
    let start : State := { holder := none, refs := 0, scripts := [[.acquire, .work, .acquire, .release, .release], [.acquire, .release]] }
    ∃ s, Steps start s ∧ s.stuckForever 0 ∧ s.stuckForever 1 := by
  intro start
  have h : Steps start { holder := some 0, refs := 0, scripts := [[.acquire, .release, .release], [.acquire, .release]] } :=
    .tail (.tail (.refl _) (.acquire (t := 0) rfl rfl)) (.work (t := 0) rfl)
  refine ⟨_, h, self_lock_stuck rfl rfl, [.acquire, .release], by simp, fun s' hs' => ?_⟩
  suffices h : s'.holder = some 0 ∧ s'.scripts = [[.acquire, .release, .release], [.acquire, .release]] by rw [h.2]; rfl
  induction hs' with
  | refl => exact ⟨rfl, rfl⟩
  | tail _ st ih =>
    obtain ⟨h1, h2⟩ := ih
    have hno : ∀ (t : Nat) (i : Instr) (rest : List Instr), i ≠ .acquire → ([[.acquire, .release, .release], [.acquire, .release]] : List (List Instr))[t]? ≠ some (i :: rest) := by
      intro t i rest hi
      match t with
      | 0 => intro e; cases e; exact hi rfl
      | 1 => intro e; cases e; exact hi rfl
      | _ + 2 => intro e; cases e
    cases st with
    | acquire hg hn => rw [h1] at hn; cases hn
    | release hg hn => rw [h2] at hg; exact absurd hg (hno _ _ _ (by simp))
    | work hg => rw [h2] at hg; exact absurd hg (hno _ _ _ (by simp))
    | visitAlive hg _ => rw [h2] at hg; exact absurd hg (hno _ _ _ (by simp))
    | visitDead hg _ => rw [h2] at hg; exact absurd hg (hno _ _ _ (by simp))
    | dropOne hg _ => rw [h2] at hg; exact absurd hg (hno _ _ _ (by simp))
    | dropLast hg _ => rw [h2] at hg; exact absurd hg (hno _ _ _ (by simp))

/-- C55 fails for the library's own callback: if the user of a `ConfigManager` gives up the last reference while a change of the file is
being dispatched, the reference held by the callback becomes the last one; the destructor then runs inside the
callback and locks the monitor's mutex, which its thread holds. -/
theorem config_manager_released_violated :
    let start : State := { holder := none, refs := 1, scripts := [[.acquire, .visit, .release], [.drop]] }
    ∃ s, Steps start s ∧ s.stuckForever 0 := by
  intro start
  have h : Steps start { holder := some 0, refs := 0, scripts := [destructor ++ [.release], []] } :=
    .tail (.tail (.tail (.tail (.tail (.refl _) (.acquire (t := 0) rfl rfl)) (.visitAlive (t := 0) rfl (by decide)))
      (.dropOne (t := 1) rfl (by decide))) (.work (t := 0) rfl)) (.dropLast (t := 0) rfl rfl)
  exact ⟨_, h, self_lock_stuck rfl rfl⟩

/-! ## Other programs -/

/-- A script that uses the mutex as the code does: never locks it twice, and gives it back. If it visits a manager or drops a
reference while it holds the mutex, then `kept` (someone keeps a reference all the time). -/
def Fine (kept : Prop) : Bool → List Instr → Prop
  | held, [] => held = false
  | held, .acquire :: l => held = false ∧ Fine kept true l
  | held, .release :: l => held = true ∧ Fine kept false l
  | held, .work :: l => Fine kept held l
  | held, .visit :: l => (held = true → kept) ∧ Fine kept held l
  | held, .drop :: l => (held = true → kept) ∧ Fine kept held l

/-- The number of references that will be given up. -/
def drops (l : List Instr) : Nat := l.count .drop
/-- That number for all threads. -/
def totalDrops (ls : List (List Instr)) : Nat := (ls.map drops).sum

/-- A measure of the work left. -/
def weight : List Instr → Nat
  | [] => 0
  | .acquire :: l => 1 + weight l
  | .release :: l => 1 + weight l
  | .work :: l => 1 + weight l
  | .drop :: l => 5 + weight l
  | .visit :: l => 7 + weight l
/-- That measure for all threads. -/
def totalWeight (ls : List (List Instr)) : Nat := (ls.map weight).sum

theorem sum_set (f : List Instr → Nat) : ∀ (ls : List (List Instr)) (t : Nat) (l l' : List Instr), ls[t]? = some l →
    ((ls.set t l').map f).sum + f l = (ls.map f).sum + f l' := by
  intro ls
  induction ls with
  | nil => intro t l l' h; cases h
  | cons x ls ih =>
    intro t l l' h
    cases t with
    | zero => cases h; simp only [List.set_cons_zero, List.map_cons, List.sum_cons]; omega
    | succ t =>
      have := ih t l l' h
      simp only [List.set_cons_succ, List.map_cons, List.sum_cons]; omega

/-- The invariant. -/
structure Inv (kept : Prop) (s : State) : Prop where
  fine : ∀ (t : Nat) (l : List Instr), s.scripts[t]? = some l → Fine kept (s.holder == some t) l
  holder : ∀ t, s.holder = some t → ∃ l, s.scripts[t]? = some l
  refs : kept → totalDrops s.scripts < s.refs

theorem Inv.move {kept : Prop} {s : State} (h : Inv kept s) {t : Nat} {l l' : List Instr} (ht : s.scripts[t]? = some l) {refs' : Nat}
    (hf : Fine kept (s.holder == some t) l') (hr : kept → totalDrops (s.scripts.set t l') < refs') :
    Inv kept { s with
      refs := refs'
      scripts := s.scripts.set t l' } := by
  have hlt : t < s.scripts.length := (List.getElem?_eq_some_iff.mp ht).1
  refine ⟨fun u m hu => ?_, fun u hu => ?_, hr⟩
  · have hu : (s.scripts.set t l')[u]? = some m := hu
    by_cases e : t = u
    · subst e
      rw [List.getElem?_set_self hlt] at hu
      cases hu
      exact hf
    · rw [List.getElem?_set_ne e] at hu
      exact h.fine u m hu
  · show ∃ m, (s.scripts.set t l')[u]? = some m
    by_cases e : t = u
    · subst e; exact ⟨l', List.getElem?_set_self hlt⟩
    · rw [List.getElem?_set_ne e]; exact h.holder u hu

theorem Inv.hold {kept : Prop} {s : State} (h : Inv kept s) {t : Nat} {l l' : List Instr} (ht : s.scripts[t]? = some l)
    {holder' : Option Nat} (hf : Fine kept (holder' == some t) l') (ho : ∀ u, u ≠ t → (holder' == some u) = (s.holder == some u))
    (hr : kept → totalDrops (s.scripts.set t l') < s.refs) :
    Inv kept { s with
      holder := holder'
      scripts := s.scripts.set t l' } := by
  have hlt : t < s.scripts.length := (List.getElem?_eq_some_iff.mp ht).1
  refine ⟨fun u m hu => ?_, fun u hu => ?_, hr⟩
  · have hu : (s.scripts.set t l')[u]? = some m := hu
    show Fine kept (holder' == some u) m
    by_cases e : t = u
    · subst e
      rw [List.getElem?_set_self hlt] at hu
      cases hu
      exact hf
    · rw [List.getElem?_set_ne e] at hu
      rw [ho u (fun e' => e e'.symm)]
      exact h.fine u m hu
  · show ∃ m, (s.scripts.set t l')[u]? = some m
    by_cases e : t = u
    · subst e; exact ⟨l', List.getElem?_set_self hlt⟩
    · rw [List.getElem?_set_ne e]
      have := ho u (fun e' => e e'.symm)
      have hu : holder' = some u := hu
      rw [hu] at this
      exact h.holder u (by simpa using this.symm)

theorem Inv.step {kept : Prop} {s s' : State} (h : Inv kept s) (st : Step s s') : Inv kept s' ∧ totalWeight s'.scripts < totalWeight s.scripts := by
  have hd : ∀ {t l} (l' : List Instr), s.scripts[t]? = some l → totalDrops (s.scripts.set t l') + drops l = totalDrops s.scripts + drops l' :=
    fun l' ht => sum_set drops _ _ _ l' ht
  have hw : ∀ {t l} (l' : List Instr), s.scripts[t]? = some l → totalWeight (s.scripts.set t l') + weight l = totalWeight s.scripts + weight l' :=
    fun l' ht => sum_set weight _ _ _ l' ht
  cases st with
  | @acquire t rest ht hn =>
    have hf := h.fine t _ ht
    refine ⟨h.hold ht ?_ ?_ ?_, ?_⟩
    · rw [beq_self_eq_true]; exact hf.2
    · intro u hu; rw [hn]; simp; exact fun e => hu e.symm
    · intro hk
      have := hd rest ht; have := h.refs hk
      simp only [drops, List.count_cons] at *; simp at *; omega
    · have := hw rest ht; simp only [weight] at this; show totalWeight (s.scripts.set t rest) < _; omega
  | @release t rest ht hn =>
    have hf := h.fine t _ ht
    refine ⟨h.hold ht ?_ ?_ ?_, ?_⟩
    · exact hf.2
    · intro u hu; rw [hn]; simp; exact fun e => hu e.symm
    · intro hk
      have := hd rest ht; have := h.refs hk
      simp only [drops, List.count_cons] at *; simp at *; omega
    · have := hw rest ht; simp only [weight] at this; show totalWeight (s.scripts.set t rest) < _; omega
  | @work t rest ht =>
    have hf := h.fine t _ ht
    refine ⟨h.move ht (refs' := s.refs) hf ?_, ?_⟩
    · intro hk
      have := hd rest ht; have := h.refs hk
      simp only [drops, List.count_cons] at *; simp at *; omega
    · have := hw rest ht; simp only [weight] at this; show totalWeight (s.scripts.set t rest) < _; omega
  | @visitAlive t rest ht hr =>
    have hf := h.fine t _ ht
    refine ⟨h.move ht (refs' := s.refs + 1) (l' := .work :: .drop :: rest) hf ?_, ?_⟩
    · intro hk
      have := hd (.work :: .drop :: rest) ht; have := h.refs hk
      simp only [drops, List.count_cons] at *; simp at *; omega
    · have := hw (.work :: .drop :: rest) ht; simp only [weight] at this
      show totalWeight (s.scripts.set t _) < _; omega
  | @visitDead t rest ht hr =>
    have hf := h.fine t _ ht
    refine ⟨h.move ht (refs' := s.refs) hf.2 ?_, ?_⟩
    · intro hk; have := h.refs hk; omega
    · have := hw rest ht; simp only [weight] at this; show totalWeight (s.scripts.set t rest) < _; omega
  | @dropOne t rest ht hr =>
    have hf := h.fine t _ ht
    refine ⟨h.move ht (refs' := s.refs - 1) hf.2 ?_, ?_⟩
    · intro hk
      have := hd rest ht; have := h.refs hk
      simp only [drops, List.count_cons] at *; simp at *; omega
    · have := hw rest ht; simp only [weight] at this; show totalWeight (s.scripts.set t rest) < _; omega
  | @dropLast t rest ht hr =>
    have hf := h.fine t _ ht
    have hnk : ¬ kept := by
      intro hk
      have h1 := hd [] ht; have := h.refs hk
      simp only [drops, List.count_cons] at h1; simp at h1; omega
    refine ⟨h.move ht (refs' := 0) (l' := destructor ++ rest) ?_ (fun hk => absurd hk hnk), ?_⟩
    · have hh : (s.holder == some t) = false := by
        cases hb : (s.holder == some t) with
        | false => rfl
        | true => rw [hb] at hf; exact absurd (hf.1 rfl) hnk
      rw [hh] at hf ⊢
      exact ⟨rfl, rfl, rfl, rfl, hf.2⟩
    · have := hw (destructor ++ rest) ht
      simp only [weight, destructor, List.cons_append, List.nil_append] at this
      show totalWeight (s.scripts.set t (destructor ++ rest)) < _
      simp only [destructor, List.cons_append, List.nil_append]
      omega

theorem Inv.steps {kept : Prop} {s s' : State} (h : Inv kept s) (st : Steps s s') : Inv kept s' := by
  induction st with
  | refl => exact h
  | tail _ st ih => exact (ih.step st).1

theorem Inv.progress {kept : Prop} {s : State} (h : Inv kept s) (hn : ¬ s.finished) : ∃ s', Step s s' := by
  have run : ∀ (t : Nat) (i : Instr) (rest : List Instr), s.scripts[t]? = some (i :: rest) → (i = .acquire → s.holder = none) →
      (i = .release → s.holder = some t) → ∃ s', Step s s' := by
    intro t i rest ht ha hr
    cases i with
    | acquire => exact ⟨_, .acquire ht (ha rfl)⟩
    | release => exact ⟨_, .release ht (hr rfl)⟩
    | work => exact ⟨_, .work ht⟩
    | visit =>
      by_cases e : s.refs = 0
      · exact ⟨_, .visitDead ht e⟩
      · exact ⟨_, .visitAlive ht (Nat.pos_of_ne_zero e)⟩
    | drop =>
      by_cases e : s.refs = 1
      · exact ⟨_, .dropLast ht e⟩
      · exact ⟨_, .dropOne ht e⟩
  cases hh : s.holder with
  | some t =>
    obtain ⟨l, ht⟩ := h.holder t hh
    have hf := h.fine t l ht
    rw [hh, beq_self_eq_true] at hf
    cases l with
    | nil => exact (nomatch hf)
    | cons i rest =>
      refine run t i rest ht ?_ (fun _ => hh)
      rintro rfl; exact (nomatch hf.1)
  | none =>
    have : ∃ l ∈ s.scripts, l ≠ [] := by
      apply Classical.byContradiction
      intro hno
      apply hn
      intro l hl
      apply Classical.byContradiction
      intro hne
      exact hno ⟨l, hl, hne⟩
    obtain ⟨l, hl, hne⟩ := this
    obtain ⟨t, ht⟩ := List.getElem?_of_mem hl
    cases l with
    | nil => exact absurd rfl hne
    | cons i rest =>
      refine run t i rest ht (fun _ => hh) ?_
      rintro rfl
      have hf := h.fine t _ ht
      rw [hh] at hf
      exact (nomatch hf.1)

/-- C55, as far as it holds: any number of threads, of which none calls the monitor from within a callback, and none
handles a `ConfigManager` within a callback unless a reference is kept elsewhere all the time: whatever the
interleaving, as long as not all threads are done one of them can go on, and every step brings the end nearer. So dispatching always
ends. -/
theorem dispatch_completes_partial (kept : Prop) (refs : Nat) (scripts : List (List Instr)) (hf : ∀ l ∈ scripts, Fine kept false l)
    (hk : kept → (scripts.map (·.count .drop)).sum < refs) (s : State) (hs : Steps { holder := none, refs := refs, scripts := scripts } s) :
    (¬ s.finished → ∃ s', Step s s') ∧ ∀ s', Step s s' → totalWeight s'.scripts < totalWeight s.scripts := by
  have h0 : Inv kept { holder := none, refs := refs, scripts := scripts } :=
    ⟨fun t l ht => hf l (List.mem_of_getElem? ht), fun t ht => (nomatch ht), hk⟩
  have h := h0.steps hs
  exact ⟨h.progress, fun s' st => (h.step st).2⟩

/-- The dispatching thread with a plain callback, one with the callback of a manager to which the user keeps a reference, a
user of the monitor; and one who drops another reference. -/
example : let scripts : List (List Instr) := [[.acquire, .work, .release, .work], [.acquire, .visit, .release], [.drop, .acquire, .release]]
    (∀ l ∈ scripts, Fine True false l) ∧ (scripts.map (·.count .drop)).sum < 2 := by
  refine ⟨?_, by decide⟩
  intro l hl
  simp only [List.mem_cons, List.not_mem_nil, or_false] at hl
  rcases hl with rfl | rfl | rfl <;> simp [Fine]

end Verif.PathMonitor.Lock
