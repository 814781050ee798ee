/-!
# Destroying a path monitor

Several monitors (and other users of file descriptors) in one process, with the kernel's table of descriptors. Each
public call and each system call of a destructor is one step; steps of different threads interleave in any order.

Simplifications: what a registration is for (callbacks, file names) is left out, see `Verif.PathMonitor.Model`; directories
are identified with their inodes; calls that fail change nothing and are left out.
-/

namespace Verif.PathMonitor.Destroy

/-- What a descriptor is open on: an inotify instance, or anything else. -/
inductive Open
  | inotify (instance_ : Nat)
  | other
  deriving DecidableEq, Repr

/-- The kernel: the table of descriptors, the directories each inotify instance watches with their watch descriptors, the
next watch descriptor of each instance (they start at 1), and the number of instances made so far. -/
structure Kernel where
  table : Nat → Option Open
  watches : Nat → List (Nat × Nat)
  nextWd : Nat → Nat
  instances : Nat

/-- A `PathMonitorImpl` object: not there, alive with its descriptor and its `m_path_info` (directory and watch descriptor),
or inside its destructor with the part of `m_path_info` not destroyed yet. -/
inductive Object
  | absent
  | alive (fd : Nat) (info : List (Nat × Nat))
  | dying (fd : Nat) (info : List (Nat × Nat))
  deriving DecidableEq, Repr

/-- The process. -/
structure State where
  kernel : Kernel
  objects : Nat → Object

/-- A function changed at one argument. -/
def upd {β : Type} (f : Nat → β) (k : Nat) (v : β) : Nat → β := fun x => if x = k then v else f x

/-- `inotify_init1` in the constructor, nix/path_monitor_impl.cpp 24-34, giving the free descriptor `fd`. -/
def Kernel.init1 (k : Kernel) (fd : Nat) : Kernel where
  table := upd k.table fd (some (.inotify k.instances))
  watches := upd k.watches k.instances []
  nextWd := upd k.nextWd k.instances 1
  instances := k.instances + 1

/-- `inotify_add_watch`, nix/path_monitor_impl.cpp 187-188, for a directory that is not watched yet by the instance. -/
def Kernel.addWatch (k : Kernel) (inst dir : Nat) : Kernel where
  table := k.table
  watches := upd k.watches inst (k.watches inst ++ [(dir, k.nextWd inst)])
  nextWd := upd k.nextWd inst (k.nextWd inst + 1)
  instances := k.instances

/-- `inotify_rm_watch(fd, wd)`, nix/path_monitor_impl.cpp 201: on whatever inotify instance the number `fd` means now;
otherwise it fails and changes nothing. -/
def Kernel.rmWatch (k : Kernel) (fd wd : Nat) : Kernel :=
  match k.table fd with
  | some (.inotify i) => { k with watches := upd k.watches i ((k.watches i).filter fun e => e.2 != wd) }
  | _ => k

/-- `close(fd)`, nix/path_monitor_impl.cpp 41. -/
def Kernel.close (k : Kernel) (fd : Nat) : Kernel := { k with table := upd k.table fd none }

/-- The steps of the process. The destructor of the derived class runs first and closes the descriptor
(nix/path_monitor_impl.cpp 37-44), then that of the base class clears `m_path_info` (path_monitor.cpp 34-37, 92-96), whose
entries remove their watches one by one with the number of the closed descriptor (nix/path_monitor_impl.cpp 197-204). -/
inductive Step : State → State → Prop
  /-- a new monitor, path_monitor.cpp 15-22 -/
  | create {s : State} (m fd : Nat) : s.objects m = .absent → s.kernel.table fd = none →
      Step s ⟨s.kernel.init1 fd, upd s.objects m (.alive fd [])⟩
  /-- another descriptor is opened, by any other code -/
  | openOther {s : State} (fd : Nat) : s.kernel.table fd = none →
      Step s { s with kernel := { s.kernel with table := upd s.kernel.table fd (some .other) } }
  /-- and closed -/
  | closeOther {s : State} (fd : Nat) : s.kernel.table fd = some .other → Step s { s with kernel := s.kernel.close fd }
  /-- `add_path` or `add_file` for a directory that is not monitored yet, path_monitor.cpp 164-184 -/
  | add {s : State} (m fd inst dir : Nat) (info : List (Nat × Nat)) : s.objects m = .alive fd info → dir ∉ info.map Prod.fst →
      s.kernel.table fd = some (.inotify inst) → dir ∉ (s.kernel.watches inst).map Prod.fst →
      Step s ⟨s.kernel.addWatch inst dir, upd s.objects m (.alive fd (info ++ [(dir, s.kernel.nextWd inst)]))⟩
  /-- `remove_path`, or `remove_file` of the last file, path_monitor.cpp 75-89 -/
  | remove {s : State} (m fd dir wd : Nat) (info : List (Nat × Nat)) : s.objects m = .alive fd info → (dir, wd) ∈ info →
      Step s ⟨s.kernel.rmWatch fd wd, upd s.objects m (.alive fd (info.filter fun e => e.1 != dir))⟩
  /-- `~PathMonitorImpl`, nix/path_monitor_impl.cpp 37-44 -/
  | close {s : State} (m fd : Nat) (info : List (Nat × Nat)) : s.objects m = .alive fd info →
      Step s ⟨s.kernel.close fd, upd s.objects m (.dying fd info)⟩
  /-- `~PathInfoImpl` of the next entry, nix/path_monitor_impl.cpp 197-204 -/
  | forget {s : State} (m fd dir wd : Nat) (info : List (Nat × Nat)) : s.objects m = .dying fd ((dir, wd) :: info) →
      Step s ⟨s.kernel.rmWatch fd wd, upd s.objects m (.dying fd info)⟩
  /-- the object is gone -/
  | gone {s : State} (m fd : Nat) : s.objects m = .dying fd [] → Step s { s with objects := upd s.objects m .absent }

/-- A process without monitors; some descriptors are in use. -/
def State.fresh (used : Nat → Bool) : State where
  kernel := { table := fun fd => if used fd then some .other else none, watches := fun _ => [], nextWd := fun _ => 1, instances := 0 }
  objects := fun _ => .absent

/-- Any execution of the process. -/
inductive Reach (used : Nat → Bool) : State → Prop
  | fresh : Reach used (.fresh used)
  | step {s s' : State} : Reach used s → Step s s' → Reach used s'

/-! ## What should hold -/

/-- Monitor `m` is alive and has the directory registered. -/
def State.registered (s : State) (m dir : Nat) : Prop := ∃ fd info, s.objects m = .alive fd info ∧ dir ∈ info.map Prod.fst

/-- The kernel reports changes of the directory on the descriptor of monitor `m`. -/
def State.served (s : State) (m dir : Nat) : Prop :=
  ∃ fd info inst wd, s.objects m = .alive fd info ∧ s.kernel.table fd = some (.inotify inst) ∧ (dir, wd) ∈ s.kernel.watches inst ∧
    (dir, wd) ∈ info

/-- No monitor is being destroyed. -/
def State.quiet (s : State) : Prop := ∀ m fd info, s.objects m ≠ .dying fd info

/-- The step opens a descriptor: it is open afterwards and was not before. -/
def opens (s s' : State) : Prop := ∃ fd, s.kernel.table fd = none ∧ s'.kernel.table fd ≠ none

/-- Executions in which no descriptor is opened, by anyone, while a monitor is being destroyed. -/
inductive Careful (used : Nat → Bool) : State → Prop
  | fresh : Careful used (.fresh used)
  | step {s s' : State} : Careful used s → Step s s' → (opens s s' → s.quiet) → Careful used s'

/-! ## Proofs -/

@[simp] theorem upd_same {β : Type} (f : Nat → β) (k : Nat) (v : β) : upd f k v k = v := by simp [upd]

theorem upd_other {β : Type} (f : Nat → β) {k x : Nat} (v : β) (h : x ≠ k) : upd f k v x = f x := by simp [upd, h]

/-- What holds in every execution: a live monitor owns the descriptor it uses, no two share an instance or a number. -/
structure Owned (s : State) : Prop where
  own : ∀ m fd info, s.objects m = .alive fd info → ∃ i, s.kernel.table fd = some (.inotify i)
  fds : ∀ m m' fd info info', s.objects m = .alive fd info → s.objects m' = .alive fd info' → m = m'
  insts : ∀ fd fd' i, s.kernel.table fd = some (.inotify i) → s.kernel.table fd' = some (.inotify i) → fd = fd'
  old : ∀ fd i, s.kernel.table fd = some (.inotify i) → i < s.kernel.instances
  used : ∀ fd i, s.kernel.table fd = some (.inotify i) → ∃ m info, s.objects m = .alive fd info

theorem rmWatch_table (k : Kernel) (fd wd : Nat) : (k.rmWatch fd wd).table = k.table := by
  unfold Kernel.rmWatch; split <;> rfl

theorem rmWatch_instances (k : Kernel) (fd wd : Nat) : (k.rmWatch fd wd).instances = k.instances := by
  unfold Kernel.rmWatch; split <;> rfl

theorem rmWatch_nextWd (k : Kernel) (fd wd : Nat) : (k.rmWatch fd wd).nextWd = k.nextWd := by
  unfold Kernel.rmWatch; split <;> rfl

/-- Changing the entries of a live monitor keeps ownership. -/
theorem Owned.keep {s : State} (h : Owned s) {k : Kernel} (ht : k.table = s.kernel.table) (hi : k.instances = s.kernel.instances)
    {m fd : Nat} {info info' : List (Nat × Nat)} (hm : s.objects m = .alive fd info) : Owned ⟨k, upd s.objects m (.alive fd info')⟩ := by
  refine ⟨?_, ?_, ?_, ?_, ?_⟩
  · intro m1 fd1 info1 h1
    simp only [ht]
    by_cases e : m1 = m
    · subst e
      simp only [upd_same, Object.alive.injEq] at h1
      obtain ⟨rfl, _⟩ := h1
      exact h.own _ _ _ hm
    · simp only [upd_other _ _ e] at h1
      exact h.own _ _ _ h1
  · intro m1 m2 fd1 i1 i2 h1 h2
    by_cases e1 : m1 = m <;> by_cases e2 : m2 = m
    · rw [e1, e2]
    · subst e1
      simp only [upd_same, Object.alive.injEq] at h1
      simp only [upd_other _ _ e2] at h2
      obtain ⟨rfl, _⟩ := h1
      exact h.fds _ _ _ _ _ hm h2
    · subst e2
      simp only [upd_same, Object.alive.injEq] at h2
      simp only [upd_other _ _ e1] at h1
      obtain ⟨rfl, _⟩ := h2
      exact h.fds _ _ _ _ _ h1 hm
    · simp only [upd_other _ _ e1] at h1
      simp only [upd_other _ _ e2] at h2
      exact h.fds _ _ _ _ _ h1 h2
  · simpa only [ht] using h.insts
  · simpa only [ht, hi] using h.old
  · intro fd1 i1 h1
    simp only [ht] at h1
    obtain ⟨m1, info1, h2⟩ := h.used _ _ h1
    by_cases e : m1 = m
    · subst e
      rw [hm] at h2
      cases h2
      exact ⟨m1, info', by simp⟩
    · exact ⟨m1, info1, by simp only [upd_other _ _ e]; exact h2⟩

/-- Changing an object that is not alive, into one that is not alive, keeps ownership. -/
theorem Owned.skip {s : State} (h : Owned s) {k : Kernel} (ht : k.table = s.kernel.table) (hi : k.instances = s.kernel.instances)
    {m : Nat} {o : Object} (hm : ∀ fd info, s.objects m ≠ .alive fd info) (ho : ∀ fd info, o ≠ .alive fd info) :
    Owned ⟨k, upd s.objects m o⟩ := by
  have key : ∀ m1 fd1 info1, upd s.objects m o m1 = .alive fd1 info1 ↔ s.objects m1 = .alive fd1 info1 := by
    intro m1 fd1 info1
    by_cases e : m1 = m
    · subst e; simp only [upd_same]
      exact ⟨fun c => absurd c (ho _ _), fun c => absurd c (hm _ _)⟩
    · simp only [upd_other _ _ e]
  refine ⟨?_, ?_, ?_, ?_, ?_⟩
  · intro m1 fd1 info1 h1; simp only [ht]; exact h.own _ _ _ ((key _ _ _).1 h1)
  · intro m1 m2 fd1 i1 i2 h1 h2; exact h.fds _ _ _ _ _ ((key _ _ _).1 h1) ((key _ _ _).1 h2)
  · simpa only [ht] using h.insts
  · simpa only [ht, hi] using h.old
  · intro fd1 i1 h1
    simp only [ht] at h1
    obtain ⟨m1, info1, h2⟩ := h.used _ _ h1
    exact ⟨m1, info1, (key _ _ _).2 h2⟩

theorem Owned.step {s s' : State} (h : Owned s) (st : Step s s') : Owned s' := by
  cases st with
  | create m fd hm ht =>
    refine ⟨?_, ?_, ?_, ?_, ?_⟩
    · intro m1 fd1 info1 h1
      by_cases e : m1 = m
      · subst e
        simp only [upd_same, Object.alive.injEq] at h1
        obtain ⟨rfl, _⟩ := h1
        exact ⟨s.kernel.instances, by simp [Kernel.init1]⟩
      · simp only [upd_other _ _ e] at h1
        obtain ⟨i, hi⟩ := h.own _ _ _ h1
        refine ⟨i, ?_⟩
        have : fd1 ≠ fd := by rintro rfl; rw [ht] at hi; cases hi
        simp only [Kernel.init1, upd_other _ _ this]; exact hi
    · intro m1 m2 fd1 i1 i2 h1 h2
      have no : ∀ m' info', s.objects m' ≠ .alive fd info' := by
        intro m' info' h'; obtain ⟨i, hi⟩ := h.own _ _ _ h'; rw [ht] at hi; cases hi
      by_cases e1 : m1 = m <;> by_cases e2 : m2 = m
      · rw [e1, e2]
      · subst e1
        simp only [upd_same, Object.alive.injEq] at h1
        simp only [upd_other _ _ e2] at h2
        obtain ⟨rfl, _⟩ := h1
        exact absurd h2 (no _ _)
      · subst e2
        simp only [upd_same, Object.alive.injEq] at h2
        simp only [upd_other _ _ e1] at h1
        obtain ⟨rfl, _⟩ := h2
        exact absurd h1 (no _ _)
      · simp only [upd_other _ _ e1] at h1
        simp only [upd_other _ _ e2] at h2
        exact h.fds _ _ _ _ _ h1 h2
    · intro fd1 fd2 i h1 h2
      simp only [Kernel.init1] at h1 h2
      by_cases e1 : fd1 = fd <;> by_cases e2 : fd2 = fd
      · rw [e1, e2]
      · subst e1
        simp only [upd_same, upd_other _ _ e2, Option.some.injEq, Open.inotify.injEq] at h1 h2
        have := h.old _ _ h2; omega
      · subst e2
        simp only [upd_same, upd_other _ _ e1, Option.some.injEq, Open.inotify.injEq] at h1 h2
        have := h.old _ _ h1; omega
      · simp only [upd_other _ _ e1, upd_other _ _ e2] at h1 h2
        exact h.insts _ _ _ h1 h2
    · intro fd1 i h1
      simp only [Kernel.init1] at h1 ⊢
      by_cases e1 : fd1 = fd
      · subst e1
        simp only [upd_same, Option.some.injEq, Open.inotify.injEq] at h1
        omega
      · simp only [upd_other _ _ e1] at h1
        have := h.old _ _ h1; omega
    · intro fd1 i h1
      simp only [Kernel.init1] at h1
      by_cases e1 : fd1 = fd
      · subst e1; exact ⟨m, [], by simp⟩
      · simp only [upd_other _ _ e1] at h1
        obtain ⟨m1, info1, h2⟩ := h.used _ _ h1
        have : m1 ≠ m := by rintro rfl; rw [hm] at h2; cases h2
        exact ⟨m1, info1, by simp only [upd_other _ _ this]; exact h2⟩
  | openOther fd ht =>
    have key : ∀ fd1 i, upd s.kernel.table fd (some .other) fd1 = some (.inotify i) ↔ s.kernel.table fd1 = some (.inotify i) := by
      intro fd1 i
      by_cases e : fd1 = fd
      · subst e; simp [ht]
      · simp only [upd_other _ _ e]
    refine ⟨?_, h.fds, ?_, ?_, ?_⟩
    · intro m1 fd1 info1 h1
      obtain ⟨i, hi⟩ := h.own _ _ _ h1
      exact ⟨i, (key _ _).2 hi⟩
    · intro fd1 fd2 i h1 h2; exact h.insts _ _ _ ((key _ _).1 h1) ((key _ _).1 h2)
    · intro fd1 i h1; exact h.old _ _ ((key _ _).1 h1)
    · intro fd1 i h1; exact h.used _ _ ((key _ _).1 h1)
  | closeOther fd ht =>
    have key : ∀ fd1 i, upd s.kernel.table fd none fd1 = some (.inotify i) ↔ s.kernel.table fd1 = some (.inotify i) := by
      intro fd1 i
      by_cases e : fd1 = fd
      · subst e; simp [ht]
      · simp only [upd_other _ _ e]
    refine ⟨?_, h.fds, ?_, ?_, ?_⟩
    · intro m1 fd1 info1 h1
      obtain ⟨i, hi⟩ := h.own _ _ _ h1
      exact ⟨i, (key _ _).2 hi⟩
    · intro fd1 fd2 i h1 h2; exact h.insts _ _ _ ((key _ _).1 h1) ((key _ _).1 h2)
    · intro fd1 i h1; exact h.old _ _ ((key _ _).1 h1)
    · intro fd1 i h1; exact h.used _ _ ((key _ _).1 h1)
  | add m fd inst dir info hm hd ht hw => exact h.keep (k := s.kernel.addWatch inst dir) rfl rfl hm
  | remove m fd dir wd info hm hd => exact h.keep (rmWatch_table _ _ _) (rmWatch_instances _ _ _) hm
  | close m fd info hm =>
    have key : ∀ fd1 i, upd s.kernel.table fd none fd1 = some (.inotify i) → fd1 ≠ fd ∧ s.kernel.table fd1 = some (.inotify i) := by
      intro fd1 i h1
      by_cases e : fd1 = fd
      · subst e; simp at h1
      · simp only [upd_other _ _ e] at h1; exact ⟨e, h1⟩
    have alive : ∀ m1 fd1 info1, upd s.objects m (.dying fd info) m1 = .alive fd1 info1 → m1 ≠ m ∧ s.objects m1 = .alive fd1 info1 := by
      intro m1 fd1 info1 h1
      by_cases e : m1 = m
      · subst e; simp at h1
      · simp only [upd_other _ _ e] at h1; exact ⟨e, h1⟩
    refine ⟨?_, ?_, ?_, ?_, ?_⟩
    · intro m1 fd1 info1 h1
      obtain ⟨ne, h1'⟩ := alive _ _ _ h1
      obtain ⟨i, hi⟩ := h.own _ _ _ h1'
      have : fd1 ≠ fd := by rintro rfl; exact ne (h.fds _ _ _ _ _ h1' hm)
      exact ⟨i, by simp only [Kernel.close, upd_other _ _ this]; exact hi⟩
    · intro m1 m2 fd1 i1 i2 h1 h2; exact h.fds _ _ _ _ _ (alive _ _ _ h1).2 (alive _ _ _ h2).2
    · intro fd1 fd2 i h1 h2; exact h.insts _ _ _ (key _ _ h1).2 (key _ _ h2).2
    · intro fd1 i h1; exact h.old _ _ (key _ _ h1).2
    · intro fd1 i h1
      obtain ⟨ne, h1⟩ := key _ _ h1
      obtain ⟨m1, info1, h2⟩ := h.used _ _ h1
      have : m1 ≠ m := by
        rintro rfl; rw [hm] at h2; cases h2; exact ne rfl
      exact ⟨m1, info1, by simp only [upd_other _ _ this]; exact h2⟩
  | forget m fd dir wd info hm =>
    exact h.skip (rmWatch_table _ _ _) (rmWatch_instances _ _ _) (by simp [hm]) (by simp)
  | gone m fd hm => exact h.skip rfl rfl (by simp [hm]) (by simp)

theorem Owned.fresh (used : Nat → Bool) : Owned (.fresh used) := by
  have no : ∀ fd i, (State.fresh used).kernel.table fd ≠ some (.inotify i) := by
    intro fd i h
    simp only [State.fresh] at h
    split at h <;> cases h
  refine ⟨?_, ?_, ?_, ?_, ?_⟩
  · intro m fd info h; cases h
  · intro m m' fd i i' h; cases h
  · intro fd fd' i h; exact absurd h (no _ _)
  · intro fd i h; exact absurd h (no _ _)
  · intro fd i h; exact absurd h (no _ _)

theorem Reach.owned {used : Nat → Bool} {s : State} (h : Reach used s) : Owned s := by
  induction h with
  | fresh => exact .fresh used
  | step _ st ih => exact ih.step st

/-- What holds in careful executions: the entries of a live monitor are exactly what the kernel watches for it, and the
number of a closed descriptor means nothing while the destructor that closed it runs. -/
structure Exact (s : State) : Prop where
  same : ∀ m fd info i, s.objects m = .alive fd info → s.kernel.table fd = some (.inotify i) → s.kernel.watches i = info
  wds : ∀ i, ((s.kernel.watches i).map Prod.snd).Nodup ∧ ∀ e ∈ s.kernel.watches i, e.2 < s.kernel.nextWd i
  dirs : ∀ i, ((s.kernel.watches i).map Prod.fst).Nodup
  closed : ∀ m fd info, s.objects m = .dying fd info → s.kernel.table fd = none

theorem filter_wd {l : List (Nat × Nat)} (h1 : (l.map Prod.fst).Nodup) (h2 : (l.map Prod.snd).Nodup) {dir wd : Nat} (hm : (dir, wd) ∈ l) :
    (l.filter fun e => e.2 != wd) = l.filter fun e => e.1 != dir := by
  induction l with
  | nil => rfl
  | cons a l ih =>
    obtain ⟨d, w⟩ := a
    simp only [List.map_cons, List.nodup_cons, List.mem_map, not_exists, not_and] at h1 h2
    rcases List.mem_cons.1 hm with h | h
    · cases h
      have hx : ∀ e ∈ l, (e.2 != wd) = true := by
        intro e he; simp only [bne_iff_ne]; exact h2.1 e he
      have hy : ∀ e ∈ l, (e.1 != dir) = true := by
        intro e he; simp only [bne_iff_ne]; exact h1.1 e he
      rw [List.filter_cons, List.filter_cons]
      simp only [bne_self_eq_false, Bool.false_eq_true, if_false]
      rw [List.filter_eq_self.2 hx, List.filter_eq_self.2 hy]
    · have e1 : (w != wd) = true := by
        simp only [bne_iff_ne]; rintro rfl; exact h2.1 _ h rfl
      have e2 : (d != dir) = true := by
        simp only [bne_iff_ne]; rintro rfl; exact h1.1 _ h rfl
      rw [List.filter_cons, List.filter_cons]
      simp only [e1, e2, if_true]
      rw [ih h1.2 h2.2 h]

theorem Exact.step {s s' : State} (o : Owned s) (h : Exact s) (st : Step s s') (hq : opens s s' → s.quiet) : Exact s' := by
  cases st with
  | create m fd hm ht =>
    have hq := hq ⟨fd, ht, by simp [Kernel.init1]⟩
    refine ⟨?_, ?_, ?_, ?_⟩
    · intro m1 fd1 info1 i h1 h2
      simp only [Kernel.init1] at h2 ⊢
      by_cases e : m1 = m
      · subst e
        simp only [upd_same, Object.alive.injEq] at h1
        obtain ⟨rfl, rfl⟩ := h1
        simp only [upd_same, Option.some.injEq, Open.inotify.injEq] at h2
        subst h2
        simp
      · simp only [upd_other _ _ e] at h1
        obtain ⟨j, hj⟩ := o.own _ _ _ h1
        have ne : fd1 ≠ fd := by rintro rfl; rw [ht] at hj; cases hj
        simp only [upd_other _ _ ne] at h2
        have := o.old _ _ h2
        rw [upd_other _ _ (by omega)]
        exact h.same _ _ _ _ h1 h2
    · intro i
      simp only [Kernel.init1]
      by_cases e : i = s.kernel.instances
      · subst e; simp
      · simp only [upd_other _ _ e]; exact h.wds i
    · intro i
      simp only [Kernel.init1]
      by_cases e : i = s.kernel.instances
      · subst e; simp
      · simp only [upd_other _ _ e]; exact h.dirs i
    · intro m1 fd1 info1 h1
      by_cases e : m1 = m
      · subst e; simp at h1
      · simp only [upd_other _ _ e] at h1; exact absurd h1 (hq _ _ _)
  | openOther fd ht =>
    have hq := hq ⟨fd, ht, by simp⟩
    refine ⟨?_, h.wds, h.dirs, ?_⟩
    · intro m1 fd1 info1 i h1 h2
      refine h.same _ _ _ _ h1 ?_
      by_cases e : fd1 = fd
      · subst e; simp at h2
      · simpa only [upd_other _ _ e] using h2
    · intro m1 fd1 info1 h1; exact absurd h1 (hq _ _ _)
  | closeOther fd ht =>
    refine ⟨?_, h.wds, h.dirs, ?_⟩
    · intro m1 fd1 info1 i h1 h2
      refine h.same _ _ _ _ h1 ?_
      simp only [Kernel.close] at h2
      by_cases e : fd1 = fd
      · subst e; simp at h2
      · simpa only [upd_other _ _ e] using h2
    · intro m1 fd1 info1 h1
      simp only [Kernel.close]
      by_cases e : fd1 = fd
      · subst e; simp
      · simp only [upd_other _ _ e]; exact h.closed _ _ _ h1
  | add m fd inst dir info hm hd ht hw =>
    refine ⟨?_, ?_, ?_, ?_⟩
    · intro m1 fd1 info1 i h1 h2
      simp only [Kernel.addWatch] at h2 ⊢
      by_cases e : m1 = m
      · subst e
        simp only [upd_same, Object.alive.injEq] at h1
        obtain ⟨rfl, rfl⟩ := h1
        rw [ht] at h2; cases h2
        simp only [upd_same]
        rw [h.same _ _ _ _ hm ht]
      · simp only [upd_other _ _ e] at h1
        have : i ≠ inst := by
          rintro rfl
          have := o.insts _ _ _ h2 ht
          subst this
          exact e (o.fds _ _ _ _ _ h1 hm)
        simp only [upd_other _ _ this]
        exact h.same _ _ _ _ h1 h2
    · intro i
      simp only [Kernel.addWatch]
      by_cases e : i = inst
      · subst e
        simp only [upd_same, List.map_append, List.map_cons, List.map_nil, List.mem_append, List.mem_singleton]
        obtain ⟨n, b⟩ := h.wds i
        refine ⟨?_, ?_⟩
        · rw [List.nodup_append]
          refine ⟨n, by simp, ?_⟩
          intro a ha c hc
          simp only [List.mem_singleton] at hc
          obtain ⟨e, he, rfl⟩ := List.mem_map.1 ha
          have := b e he; omega
        · rintro e (he | rfl)
          · have := b e he; omega
          · simp
      · simp only [upd_other _ _ e]; exact h.wds i
    · intro i
      simp only [Kernel.addWatch]
      by_cases e : i = inst
      · subst e
        simp only [upd_same, List.map_append, List.map_cons, List.map_nil]
        rw [List.nodup_append]
        refine ⟨h.dirs i, by simp, ?_⟩
        intro a ha c hc
        simp only [List.mem_singleton] at hc
        subst hc
        rintro rfl
        exact hw ha
      · simp only [upd_other _ _ e]; exact h.dirs i
    · intro m1 fd1 info1 h1
      by_cases e : m1 = m
      · subst e; simp at h1
      · simp only [upd_other _ _ e] at h1; exact h.closed _ _ _ h1
  | remove m fd dir wd info hm hd =>
    obtain ⟨inst, ht⟩ := o.own _ _ _ hm
    have hk : s.kernel.rmWatch fd wd = { s.kernel with watches := upd s.kernel.watches inst ((s.kernel.watches inst).filter fun e => e.2 != wd) } := by
      simp only [Kernel.rmWatch, ht]
    rw [hk]
    have hs := h.same _ _ _ _ hm ht
    refine ⟨?_, ?_, ?_, ?_⟩
    · intro m1 fd1 info1 i h1 h2
      by_cases e : m1 = m
      · subst e
        simp only [upd_same, Object.alive.injEq] at h1
        obtain ⟨rfl, rfl⟩ := h1
        rw [ht] at h2; cases h2
        simp only [upd_same, ← hs]
        rw [← hs] at hd
        exact filter_wd (h.dirs _) (h.wds _).1 hd
      · simp only [upd_other _ _ e] at h1
        have : i ≠ inst := by
          rintro rfl
          have := o.insts _ _ _ h2 ht
          subst this
          exact e (o.fds _ _ _ _ _ h1 hm)
        simp only [upd_other _ _ this]
        exact h.same _ _ _ _ h1 h2
    · intro i
      by_cases e : i = inst
      · subst e
        simp only [upd_same]
        exact ⟨(h.wds i).1.sublist (List.filter_sublist.map _), fun e he => (h.wds i).2 e (List.mem_filter.1 he).1⟩
      · simp only [upd_other _ _ e]; exact h.wds i
    · intro i
      by_cases e : i = inst
      · subst e
        simp only [upd_same]
        exact (h.dirs i).sublist (List.filter_sublist.map _)
      · simp only [upd_other _ _ e]; exact h.dirs i
    · intro m1 fd1 info1 h1
      by_cases e : m1 = m
      · subst e; simp at h1
      · simp only [upd_other _ _ e] at h1; exact h.closed _ _ _ h1
  | close m fd info hm =>
    refine ⟨?_, h.wds, h.dirs, ?_⟩
    · intro m1 fd1 info1 i h1 h2
      simp only [Kernel.close] at h2
      by_cases e : m1 = m
      · subst e; simp at h1
      · simp only [upd_other _ _ e] at h1
        refine h.same _ _ _ _ h1 ?_
        by_cases e : fd1 = fd
        · subst e; simp at h2
        · simpa only [upd_other _ _ e] using h2
    · intro m1 fd1 info1 h1
      simp only [Kernel.close]
      by_cases e : m1 = m
      · subst e
        simp only [upd_same, Object.dying.injEq] at h1
        obtain ⟨rfl, _⟩ := h1
        simp
      · simp only [upd_other _ _ e] at h1
        by_cases e : fd1 = fd
        · subst e; simp
        · simp only [upd_other _ _ e]; exact h.closed _ _ _ h1
  | forget m fd dir wd info hm =>
    have hk : s.kernel.rmWatch fd wd = s.kernel := by
      simp only [Kernel.rmWatch, h.closed _ _ _ hm]
    rw [hk]
    refine ⟨?_, h.wds, h.dirs, ?_⟩
    · intro m1 fd1 info1 i h1 h2
      by_cases e : m1 = m
      · subst e; simp at h1
      · simp only [upd_other _ _ e] at h1; exact h.same _ _ _ _ h1 h2
    · intro m1 fd1 info1 h1
      by_cases e : m1 = m
      · subst e
        simp only [upd_same, Object.dying.injEq] at h1
        obtain ⟨rfl, _⟩ := h1
        exact h.closed _ _ _ hm
      · simp only [upd_other _ _ e] at h1; exact h.closed _ _ _ h1
  | gone m fd hm =>
    refine ⟨?_, h.wds, h.dirs, ?_⟩
    · intro m1 fd1 info1 i h1 h2
      by_cases e : m1 = m
      · subst e; simp at h1
      · simp only [upd_other _ _ e] at h1; exact h.same _ _ _ _ h1 h2
    · intro m1 fd1 info1 h1
      by_cases e : m1 = m
      · subst e; simp at h1
      · simp only [upd_other _ _ e] at h1; exact h.closed _ _ _ h1

theorem Careful.reach {used : Nat → Bool} {s : State} (h : Careful used s) : Reach used s := by
  induction h with
  | fresh => exact .fresh
  | step _ st _ ih => exact .step ih st

theorem Careful.exact {used : Nat → Bool} {s : State} (h : Careful used s) : Exact s := by
  induction h with
  | fresh =>
    refine ⟨?_, ?_, ?_, ?_⟩
    · intro m fd info i h; cases h
    · intro i; simp [State.fresh]
    · intro i; simp [State.fresh]
    · intro m fd info h; cases h
  | step h st hq ih => exact ih.step h.reach.owned st hq

/-! ## The property -/

/-- Destroying a monitor closes its own descriptor, once, and nobody else's: in every execution, when the destructor closes
the number it has, that number is open on an inotify instance which no other live monitor uses; and every inotify instance
still open belongs to a live monitor, so none is leaked. -/
theorem destroy_closes_own (used : Nat → Bool) (s : State) (h : Reach used s) :
    (∀ m fd info, s.objects m = .alive fd info → (∃ i, s.kernel.table fd = some (.inotify i)) ∧
      ∀ m' info', s.objects m' = .alive fd info' → m' = m) ∧
    (∀ fd i, s.kernel.table fd = some (.inotify i) → ∃ m info, s.objects m = .alive fd info) :=
  ⟨fun m fd info hm => ⟨h.owned.own m fd info hm, fun m' info' hm' => h.owned.fds _ _ _ _ _ hm' hm⟩, h.owned.used⟩

/-- Destroying a monitor can silence another one: monitor 0 watches a directory and is destroyed; between the `close` and the
`inotify_rm_watch` of its destructor, monitor 1 is created, is given the number just closed, and starts to watch a directory; the
destructor then removes that watch. Monitor 1 has the directory registered, and hears nothing of it any more. -/
theorem destroy_silences_other_violated :
    ∃ s, Reach (fun _ => false) s ∧ s.registered 1 7 ∧ ¬ s.served 1 7 ∧ s.quiet := by
  have r0 : Reach (fun _ => false) (.fresh fun _ => false) := .fresh
  have r1 := r0.step (Step.create 0 3 rfl rfl)
  have r2 := r1.step (Step.add 0 3 0 5 [] rfl (by simp) rfl (by simp [Kernel.init1, State.fresh, upd]))
  have r3 := r2.step (Step.close 0 3 [(5, 1)] rfl)
  have r4 := r3.step (Step.create 1 3 rfl rfl)
  have r5 := r4.step (Step.add 1 3 1 7 [] rfl (by simp) rfl
    (by simp [Kernel.init1, Kernel.close, Kernel.addWatch, State.fresh, upd]))
  have r6 := r5.step (Step.forget 0 3 5 1 [] rfl)
  have r7 := r6.step (Step.gone 0 3 rfl)
  refine ⟨_, r7, ⟨3, [(7, 1)], rfl, by simp⟩, ?_, ?_⟩
  · rintro ⟨fd, info, inst, wd, h1, h2, h3, h4⟩
    have e : Object.alive 3 [(7, 1)] = .alive fd info := h1
    cases e
    have e : some (Open.inotify 1) = some (.inotify inst) := h2
    cases e
    have e : (7, wd) ∈ ([] : List (Nat × Nat)) := h3
    simp at e
  · intro m fd info hm
    match m with
    | 0 => cases hm
    | 1 => cases hm
    | _ + 2 => cases hm

/-- As long as nothing else is opened while a monitor is being destroyed, every directory a live monitor has registered is
watched for it, and nothing else is, however many monitors come and go. -/
theorem destroy_spares_others_partial (used : Nat → Bool) (s : State) (h : Careful used s) (m dir : Nat) :
    (s.registered m dir → s.served m dir) ∧
    (∀ fd info inst wd, s.objects m = .alive fd info → s.kernel.table fd = some (.inotify inst) → (dir, wd) ∈ s.kernel.watches inst →
      s.registered m dir) := by
  have e := h.exact
  constructor
  · rintro ⟨fd, info, hm, hd⟩
    obtain ⟨inst, ht⟩ := h.reach.owned.own _ _ _ hm
    have hs := e.same _ _ _ _ hm ht
    obtain ⟨⟨d, wd⟩, hmem, rfl⟩ := List.mem_map.1 hd
    exact ⟨fd, info, inst, wd, hm, ht, by rw [hs]; exact hmem, hmem⟩
  · intro fd info inst wd hm ht hw
    rw [e.same _ _ _ _ hm ht] at hw
    exact ⟨fd, info, hm, List.mem_map.2 ⟨_, hw, rfl⟩⟩

/-- Two monitors, one destroyed with a watch, the other one still served: a careful execution. -/
example : ∃ s, Careful (fun fd => decide (fd < 3)) s ∧ s.objects 0 = .absent ∧ s.registered 1 7 ∧ s.served 1 7 := by
  have quiet : ∀ {s s' : State}, (∀ fd, s'.kernel.table fd ≠ none → s.kernel.table fd ≠ none) → opens s s' → s.quiet := by
    rintro s s' h ⟨fd, h1, h2⟩; exact absurd h1 (h fd h2)
  have c0 : Careful (fun fd => decide (fd < 3)) (.fresh fun fd => decide (fd < 3)) := .fresh
  have c1 := c0.step (Step.create 0 3 rfl rfl) (fun _ m fd info h => by cases h)
  have c2 := c1.step (Step.create 1 4 rfl rfl) (fun _ m fd info h => by
    match m with
    | 0 => cases h
    | _ + 1 => cases h)
  have c3 := c2.step (Step.add 0 3 0 5 [] rfl (by simp) rfl (by simp [Kernel.init1, State.fresh, upd])) (quiet fun _ h => h)
  have c4 := c3.step (Step.add 1 4 1 7 [] rfl (by simp) rfl (by simp [Kernel.init1, Kernel.addWatch, State.fresh, upd])) (quiet fun _ h => h)
  have c5 := c4.step (Step.close 0 3 [(5, 1)] rfl) (quiet fun fd h => by
    simp only [Kernel.close] at h
    by_cases e : fd = 3
    · subst e; simp at h
    · simpa only [upd_other _ _ e] using h)
  have c6 := c5.step (Step.forget 0 3 5 1 [] rfl) (quiet fun fd h => by rwa [rmWatch_table] at h)
  have c7 := c6.step (Step.gone 0 3 rfl) (quiet fun _ h => h)
  exact ⟨_, c7, rfl, ⟨4, [(7, 1)], rfl, by simp⟩, (destroy_spares_others_partial _ _ c7 1 7).1 ⟨4, [(7, 1)], rfl, by simp⟩⟩

end Verif.PathMonitor.Destroy
