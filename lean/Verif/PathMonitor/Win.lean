import Verif.PathMonitor.Lemmas

/-!
# C144: the path monitor on Windows, called from several threads

Source: `/repo/fly/path/win/path_monitor_impl.cpp` with `/repo/fly/path/path_monitor.cpp`. Each registered directory has a
handle of its own with one request for changes on it. A poll looks at every request under the mutex and, after releasing it,
takes the mutex again for each directory that could not be asked about any further. Other threads may add and remove paths
at any time, in particular between those critical sections.

Simplifications: directories, callbacks and changes are numbers; only callbacks of directories are kept (those of files are
in C125); paths given to `add_path` are directories and callbacks are not null, so that what is left to fail is the system.
How a completed request is taken apart is C125. What the system answers is an input.
-/

namespace Verif.PathMonitor.Win

/-! ## Model -/

/-- The request for changes of a handle, `m_overlapped`: accepted and not completed, completed with changes, completed with
an error, or refused. -/
inductive Io
  | pending
  | done (changes : List Nat)
  | failed
  | refused
deriving DecidableEq, Repr

/-- `PathInfoImpl` (win/path_monitor_impl.hpp 55-79) with the callback of `PathInfo`. -/
structure Info where
  handle : Nat
  io : Io
  callback : Nat
deriving DecidableEq, Repr

/-- An invocation of a callback. -/
structure Invoked where
  callback : Nat
  dir : Nat
  change : Nat
deriving DecidableEq, Repr

/-- `m_path_info`; how many handles were opened so far (they are numbered in that order); the handles given to `CloseHandle`
so far; `paths_to_remove` of the poll under way; the callbacks invoked so far; whether the monitor exists. -/
structure State where
  info : List (Nat × Info)
  opened : Nat
  closed : List Nat
  doomed : List Nat
  invoked : List Invoked
  alive : Bool
deriving DecidableEq, Repr

/-- A new monitor (win/path_monitor_impl.cpp 29-34). -/
def State.init : State := ⟨[], 0, [], [], [], true⟩

/-- What can happen next: a call from some thread, with what the system says to `CreateFileW` and `ReadDirectoryChangesW`;
the system completes the request of a directory, or fails it; the first critical section of a poll, with what the system
says to the next request for each directory; one of the others; the destructor. -/
inductive Act
  | addPath (d c : Nat) (openOk readOk : Bool)
  | removePath (d : Nat)
  | removeAll
  | complete (d : Nat) (changes : List Nat)
  | fail (d : Nat)
  | scan (readOk : Nat → Bool)
  | removeNext
  | destroy

/-- `add_path` (path_monitor.cpp 46-72) with `get_or_create_path_info` (path_monitor.cpp 164-184), the constructor of
`PathInfoImpl`, `is_valid` and the destructor of an object that is not valid (win/path_monitor_impl.cpp 158-193). -/
def State.addPath (s : State) (d c : Nat) (openOk readOk : Bool) : State × Bool :=
  match get d s.info with
  | some i => ({ s with info := put d { i with callback := c } s.info }, true)
  | none =>
    if openOk = false then (s, false)
    else if readOk = false then ({ s with opened := s.opened + 1, closed := s.closed ++ [s.opened] }, false)
    else ({ s with info := put d ⟨s.opened, .pending, c⟩ s.info, opened := s.opened + 1 }, true)

/-- `remove_path` (path_monitor.cpp 75-89) with the destructor of `PathInfoImpl` (win/path_monitor_impl.cpp 179-187). -/
def State.removePath (s : State) (d : Nat) : State × Bool :=
  match get d s.info with
  | some i => ({ s with info := del d s.info, closed := s.closed ++ [i.handle] }, true)
  | none => (s, false)

/-- `remove_all_paths` (path_monitor.cpp 92-96). -/
def State.removeAll (s : State) : State :=
  { s with info := [], closed := s.closed ++ s.info.map (·.2.handle) }

/-- The system ends the request of a directory. -/
def State.endRequest (s : State) (d : Nat) (io : Io) : Option State :=
  match get d s.info with
  | some i => if i.io = .pending then some { s with info := put d { i with io := io } s.info } else none
  | none => none

/-- One turn of the loop of `poll` (win/path_monitor_impl.cpp 50-64): what becomes of the directory, the invocations, and the
directories to remove. -/
def look (readOk : Nat → Bool) (e : Nat × Info) : (Nat × Info) × List Invoked × List Nat :=
  match e.2.io with
  | .done changes =>
    ((e.1, { e.2 with io := if readOk e.1 then .pending else .refused }),
      changes.map (fun v => ⟨e.2.callback, e.1, v⟩),
      if readOk e.1 then [] else [e.1])
  | _ => (e, [], [])

/-- The first critical section of `poll` (win/path_monitor_impl.cpp 44-65). -/
def State.scan (s : State) (readOk : Nat → Bool) : State :=
  { s with
    info := s.info.map fun e => (look readOk e).1
    invoked := s.invoked ++ s.info.flatMap fun e => (look readOk e).2.1
    doomed := s.info.flatMap fun e => (look readOk e).2.2 }

/-- One thing happens; what a call returns. Polls are tasks of a sequenced runner, so there is one at a time, and it keeps
the monitor alive (path_monitor.cpp 187-201). The destructor is in path_monitor.cpp 34-37. -/
def State.act (s : State) : Act → Option (State × Bool)
  | .addPath d c o r => if s.alive then some (s.addPath d c o r) else none
  | .removePath d => if s.alive then some (s.removePath d) else none
  | .removeAll => if s.alive then some (s.removeAll, true) else none
  | .complete d changes => (s.endRequest d (.done changes)).map (·, true)
  | .fail d => (s.endRequest d .failed).map (·, true)
  | .scan readOk => if s.alive ∧ s.doomed = [] then some (s.scan readOk, true) else none
  | .removeNext =>
    match s.doomed with
    | [] => none
    | d :: ds => some ((({ s with doomed := ds } : State).removePath d).1, true)
  | .destroy => if s.alive ∧ s.doomed = [] then some ({ s.removeAll with alive := false }, true) else none

/-- A series of things that happen. -/
def State.run (s : State) : List Act → Option State
  | [] => some s
  | a :: as =>
    match s.act a with
    | some (s', _) => s'.run as
    | none => none

/-! ## Specification -/

/-- Nothing takes the registration of `d` away or replaces its callback: nobody removes it, everything, or the monitor, or
adds it again, and the system never refuses the next request for it. -/
def Keeps (d : Nat) : Act → Prop
  | .addPath d' _ _ _ => d' ≠ d
  | .removePath d' => d' ≠ d
  | .removeAll => False
  | .scan readOk => readOk d = true
  | .destroy => False
  | .complete _ _ => True
  | .fail _ => True
  | .removeNext => True

/-- The changes in `d` the system reported, in order. -/
def reported (d : Nat) : List Act → List Nat
  | [] => []
  | .complete d' changes :: as => if d' = d then changes ++ reported d as else reported d as
  | _ :: as => reported d as

/-- The invocations about `d`, in order. -/
def State.about (s : State) (d : Nat) : List Invoked := s.invoked.filter fun v => v.dir == d

/-! ## Lemmas -/

theorem run_append {s : State} {as bs : List Act} : s.run (as ++ bs) = (s.run as).bind (·.run bs) := by
  induction as generalizing s with
  | nil => rfl
  | cons a as ih =>
    simp only [List.cons_append, State.run]
    cases h : s.act a with
    | none => rfl
    | some p => simp only; exact ih

/-- An invariant of `act` is one of `run`. -/
theorem run_induct {P : State → Prop} {ok : Act → Prop} (hstep : ∀ s a s' b, P s → ok a → s.act a = some (s', b) → P s') {s s' : State}
    {as : List Act} (h : P s) (hok : ∀ a ∈ as, ok a) (hr : s.run as = some s') : P s' := by
  induction as generalizing s with
  | nil => simp only [State.run, Option.some.injEq] at hr; exact hr ▸ h
  | cons a as ih =>
    simp only [State.run] at hr
    cases hc : s.act a with
    | none => rw [hc] at hr; cases hr
    | some p =>
      obtain ⟨s1, b⟩ := p
      rw [hc] at hr
      exact ih (hstep s a s1 b h (hok a List.mem_cons_self) hc) (fun a ha => hok a (List.mem_cons_of_mem _ ha)) hr

theorem look_key (r : Nat → Bool) (e : Nat × Info) : (look r e).1.1 = e.1 := by
  unfold look; split <;> rfl

theorem look_handle (r : Nat → Bool) (e : Nat × Info) : (look r e).1.2.handle = e.2.handle := by
  unfold look; split <;> rfl

theorem get_look (r : Nat → Bool) (d : Nat) (l : List (Nat × Info)) :
    get d (l.map fun e => (look r e).1) = (get d l).map fun i => (look r (d, i)).1.2 := by
  induction l with
  | nil => rfl
  | cons e l ih =>
    have hk := look_key r e
    obtain ⟨k, i⟩ := e
    have : (look r (k, i)).1 = (k, (look r (k, i)).1.2) := Prod.ext hk rfl
    simp only [List.map_cons]
    rw [this]
    simp only [get]
    by_cases h : k = d
    · subst h; simp
    · simp [h, ih]

theorem keys_del {β : Type} {l : List (Nat × β)} (h : Keys l) (k : Nat) : Keys (del k l) := by
  unfold Keys del at *
  exact h.sublist (List.filter_sublist.map _)

/-- How often `h` is the handle of a registered directory. -/
def owners (l : List (Nat × Info)) (h : Nat) : Nat := l.countP fun e => e.2.handle == h

theorem owners_put_new {l : List (Nat × Info)} {d : Nat} (hg : get d l = none) (i : Info) (h : Nat) :
    owners (put d i l) h = owners l h + if i.handle = h then 1 else 0 := by
  induction l with
  | nil => simp [put, owners, List.countP_cons]
  | cons e l ih =>
    obtain ⟨k, j⟩ := e
    simp only [get] at hg
    by_cases hk : k = d
    · simp [hk] at hg
    · rw [if_neg hk] at hg
      have := ih hg
      simp only [put, if_neg hk, owners, List.countP_cons] at this ⊢
      omega

theorem owners_put_same {l : List (Nat × Info)} {d : Nat} {i j : Info} (hg : get d l = some i) (hh : j.handle = i.handle) (h : Nat) :
    owners (put d j l) h = owners l h := by
  induction l with
  | nil => cases hg
  | cons e l ih =>
    obtain ⟨k, v⟩ := e
    simp only [get] at hg
    by_cases hk : k = d
    · rw [if_pos hk] at hg
      injection hg with hg
      simp [put, hk, owners, List.countP_cons, hh, hg]
    · rw [if_neg hk] at hg
      have := ih hg
      simp only [put, if_neg hk, owners, List.countP_cons] at this ⊢
      omega

theorem owners_del {l : List (Nat × Info)} (hk : Keys l) {d : Nat} {i : Info} (hg : get d l = some i) (h : Nat) :
    owners (del d l) h + (if i.handle = h then 1 else 0) = owners l h := by
  induction l with
  | nil => cases hg
  | cons e l ih =>
    obtain ⟨k, v⟩ := e
    have hk' : Keys l := by unfold Keys at hk ⊢; exact (List.nodup_cons.mp hk).2
    simp only [get] at hg
    by_cases hkd : k = d
    · subst hkd
      rw [if_pos rfl] at hg
      injection hg with hg
      subst hg
      have hd : del k ((k, v) :: l) = l := by
        unfold del
        rw [List.filter_cons]
        simp only [bne_self_eq_false, Bool.false_eq_true, if_false]
        rw [List.filter_eq_self]
        intro e he
        have := (List.nodup_cons.mp hk).1
        simp only [bne_iff_ne, ne_eq]
        intro hc
        exact this (List.mem_map.mpr ⟨e, he, hc⟩)
      rw [hd]
      simp [owners, List.countP_cons]
    · rw [if_neg hkd] at hg
      have := ih hk' hg
      have hb : (k != d) = true := by simpa using hkd
      simp only [del, List.filter_cons, hb, if_true, owners, List.countP_cons] at this ⊢
      omega

theorem owners_look (r : Nat → Bool) (l : List (Nat × Info)) (h : Nat) : owners (l.map fun e => (look r e).1) h = owners l h := by
  unfold owners
  rw [List.countP_map]
  congr 1
  funext e
  simp [look_handle]

theorem count_handles (l : List (Nat × Info)) (h : Nat) : (l.map (·.2.handle)).count h = owners l h := by
  induction l with
  | nil => rfl
  | cons e l ih => simp only [List.map_cons, List.count_cons, owners, List.countP_cons] at ih ⊢; omega

/-- Every handle opened so far is in one place, and no other is. -/
structure Accounted (s : State) : Prop where
  keys : Keys s.info
  once : ∀ h, owners s.info h + s.closed.count h = if h < s.opened then 1 else 0
  dead : s.alive = false → s.info = []

theorem Accounted.addPath {s s' : State} {b : Bool} (p : Accounted s) (hl : s.alive = true) {d c : Nat} {o r : Bool}
    (h : s.addPath d c o r = (s', b)) : Accounted s' := by
  unfold State.addPath at h
  cases hg : get d s.info with
  | some i =>
    rw [hg] at h
    injection h with h1 h2
    subst h1
    refine ⟨keys_put p.keys _ _, fun x => ?_, fun hd => ?_⟩
    · have := p.once x
      have e : owners (put d { i with callback := c } s.info) x = owners s.info x := owners_put_same hg (by rfl) x
      simp only [e]
      exact this
    · simp only at hd; rw [hl] at hd; cases hd
  | none =>
    rw [hg] at h
    simp only at h
    by_cases ho : o = false
    · rw [if_pos ho] at h; injection h with h1 h2; exact h1 ▸ p
    · rw [if_neg ho] at h
      by_cases hr : r = false
      · rw [if_pos hr] at h
        injection h with h1 h2
        subst h1
        refine ⟨p.keys, fun x => ?_, p.dead⟩
        have := p.once x
        simp only [List.count_append, List.count_singleton, beq_iff_eq] at this ⊢
        split at this <;> split <;> split <;> omega
      · rw [if_neg hr] at h
        injection h with h1 h2
        subst h1
        refine ⟨keys_put p.keys _ _, fun x => ?_, fun hd => ?_⟩
        · have := p.once x
          have e := owners_put_new hg ⟨s.opened, .pending, c⟩ x
          simp only at e ⊢
          rw [e]
          split at this <;> split <;> split <;> omega
        · simp only at hd; rw [hl] at hd; cases hd

theorem Accounted.removePath {s : State} (p : Accounted s) (d : Nat) : Accounted (s.removePath d).1 := by
  unfold State.removePath
  cases hg : get d s.info with
  | none => exact p
  | some i =>
    refine ⟨keys_del p.keys _, fun x => ?_, fun hd => ?_⟩
    · have := p.once x
      have e := owners_del p.keys hg x
      simp only [List.count_append, List.count_singleton, beq_iff_eq]
      omega
    · have := p.dead hd
      rw [this] at hg
      cases hg

theorem Accounted.removeAll {s : State} (p : Accounted s) : Accounted s.removeAll := by
  refine ⟨List.nodup_nil, fun x => ?_, fun _ => rfl⟩
  have := p.once x
  have e : s.removeAll.opened = s.opened := rfl
  rw [e, ← this]
  simp only [State.removeAll, List.count_append, count_handles]
  simp only [owners, List.countP_nil]
  omega

theorem Accounted.endRequest {s s' : State} (p : Accounted s) {d : Nat} {io : Io} (h : s.endRequest d io = some s') : Accounted s' := by
  unfold State.endRequest at h
  cases hg : get d s.info with
  | none => rw [hg] at h; cases h
  | some i =>
    rw [hg] at h
    simp only at h
    split at h
    · injection h with h
      subst h
      refine ⟨keys_put p.keys _ _, fun x => ?_, fun hd => ?_⟩
      · have := p.once x
        have e : owners (put d { i with io := io } s.info) x = owners s.info x := owners_put_same hg (by rfl) x
        simp only [e]
        exact this
      · have := p.dead hd
        rw [this] at hg
        cases hg
    · cases h

theorem Accounted.act {s s' : State} {b : Bool} {a : Act} (p : Accounted s) (h : s.act a = some (s', b)) : Accounted s' := by
  cases a with
  | addPath d c o r =>
    simp only [State.act] at h
    split at h
    · rename_i hl
      injection h with h
      exact p.addPath hl h
    · cases h
  | removePath d =>
    simp only [State.act] at h
    split at h
    · injection h with h
      have := p.removePath d
      rw [h] at this
      exact this
    · cases h
  | removeAll =>
    simp only [State.act] at h
    split at h
    · injection h with h; injection h with h1 h2; subst h1; exact p.removeAll
    · cases h
  | complete d changes =>
    simp only [State.act, Option.map_eq_some_iff] at h
    obtain ⟨t, ht, he⟩ := h
    injection he with h1 h2
    subst h1
    exact p.endRequest ht
  | fail d =>
    simp only [State.act, Option.map_eq_some_iff] at h
    obtain ⟨t, ht, he⟩ := h
    injection he with h1 h2
    subst h1
    exact p.endRequest ht
  | scan r =>
    simp only [State.act] at h
    split at h
    · rename_i hl
      injection h with h; injection h with h1 h2
      subst h1
      refine ⟨?_, fun x => ?_, fun hd => ?_⟩
      · have := p.keys
        unfold Keys at this ⊢
        simp only [State.scan, List.map_map]
        have e : ((fun x : Nat × Info => x.1) ∘ fun e => (look r e).1) = fun x => x.1 := by funext e; exact look_key r e
        rw [e]
        exact this
      · have := p.once x
        simp only [State.scan, owners_look]
        exact this
      · have : s.alive = false := hd
        rw [hl.1] at this
        cases this
    · cases h
  | removeNext =>
    simp only [State.act] at h
    split at h
    · cases h
    · rename_i d ds hdd
      injection h with h; injection h with h1 h2
      subst h1
      exact Accounted.removePath (s := { s with doomed := ds }) ⟨p.keys, p.once, p.dead⟩ d
  | destroy =>
    simp only [State.act] at h
    split at h
    · injection h with h; injection h with h1 h2; subst h1
      have q := p.removeAll
      exact ⟨q.keys, q.once, fun _ => rfl⟩
    · cases h

theorem Accounted.init : Accounted .init := ⟨List.nodup_nil, fun h => by simp [State.init, owners], fun h => by cases h⟩

theorem Accounted.run {as : List Act} {s : State} (h : State.init.run as = some s) : Accounted s :=
  run_induct (ok := fun _ => True) (fun _ _ _ _ p _ hc => p.act hc) Accounted.init (fun _ _ => trivial) h

/-- What a series of acts does to the entry of `d`, as long as they keep it: it stays as it is but for its request, and the
callbacks invoked for it and the changes waiting are those reported. -/
structure Served (d : Nat) (i : Info) (s : State) : Prop where
  entry : ∃ io, get d s.info = some { i with io := io }
  doomed : d ∉ s.doomed

/-- The changes of `d` reported and not yet given to the callback. -/
def waiting (d : Nat) (l : List (Nat × Info)) : List Nat :=
  match get d l with
  | some i => match i.io with
    | .done changes => changes
    | _ => []
  | none => []

theorem look_doomed {r : Nat → Bool} {d : Nat} (hr : r d = true) (l : List (Nat × Info)) : d ∉ l.flatMap fun e => (look r e).2.2 := by
  intro hm
  obtain ⟨e, -, hm⟩ := List.mem_flatMap.mp hm
  unfold look at hm
  split at hm
  · simp only at hm
    split at hm
    · cases hm
    · rename_i hn
      rw [List.mem_singleton] at hm
      subst hm
      exact hn hr
  · cases hm

theorem look_about_ne {r : Nat → Bool} {d : Nat} {e : Nat × Info} (h : e.1 ≠ d) : ((look r e).2.1).filter (fun v => v.dir == d) = [] := by
  rw [List.filter_eq_nil_iff]
  intro v hv
  unfold look at hv
  split at hv
  · simp only [List.mem_map] at hv
    obtain ⟨x, -, hx⟩ := hv
    subst hx
    simpa using h
  · cases hv

theorem look_about (r : Nat → Bool) {d : Nat} : ∀ {l : List (Nat × Info)} (_ : Keys l),
    (l.flatMap fun e => (look r e).2.1).filter (fun v => v.dir == d) =
      match get d l with
      | some i => (waiting d l).map fun v => ⟨i.callback, d, v⟩
      | none => []
  | [], _ => rfl
  | (k, j) :: l, hk => by
    have hk' : Keys l := by unfold Keys at hk ⊢; exact (List.nodup_cons.mp hk).2
    rw [List.flatMap_cons, List.filter_append, look_about r hk']
    by_cases h : k = d
    · subst h
      have hn : get k l = none := by
        cases hg : get k l with
        | none => rfl
        | some v => exact absurd (List.mem_map.mpr ⟨(k, v), (get_iff hk' k v).mp hg, rfl⟩) (List.nodup_cons.mp hk).1
      have hg : get k ((k, j) :: l) = some j := by simp [get]
      rw [hn, hg]
      simp only [List.append_nil, waiting, hg]
      unfold look
      cases j.io <;> simp [List.filter_eq_self]
    · rw [look_about_ne (e := (k, j)) h]
      have hg : get d ((k, j) :: l) = get d l := by simp [get, h]
      simp only [waiting, hg, List.nil_append]

theorem removePath_get {s : State} {d k : Nat} (h : k ≠ d) : get d (s.removePath k).1.info = get d s.info := by
  unfold State.removePath
  cases hg : get k s.info with
  | none => rfl
  | some i => simp only [get_del, if_neg (Ne.symm h)]

theorem removePath_rest (s : State) (k : Nat) : (s.removePath k).1.doomed = s.doomed ∧ (s.removePath k).1.invoked = s.invoked := by
  unfold State.removePath
  cases get k s.info <;> exact ⟨rfl, rfl⟩

theorem addPath_rest (s : State) (d c : Nat) (o r : Bool) : (s.addPath d c o r).1.doomed = s.doomed ∧ (s.addPath d c o r).1.invoked = s.invoked := by
  unfold State.addPath
  cases get d s.info with
  | some i => exact ⟨rfl, rfl⟩
  | none => simp only; split <;> first | exact ⟨rfl, rfl⟩ | (split <;> exact ⟨rfl, rfl⟩)

theorem addPath_get {s : State} {d k c : Nat} {o r : Bool} (h : k ≠ d) : get d (s.addPath k c o r).1.info = get d s.info := by
  unfold State.addPath
  cases hg : get k s.info with
  | some i => simp only [get_put, if_neg (Ne.symm h)]
  | none => simp only; split <;> first | rfl | (split <;> simp only [get_put, if_neg (Ne.symm h)])

theorem waiting_congr {d : Nat} {l l' : List (Nat × Info)} (h : get d l' = get d l) : waiting d l' = waiting d l := by
  unfold waiting; rw [h]

/-- What one act that keeps `d` does about it. -/
theorem keeps_act {d : Nat} {i : Info} {s s' : State} {a : Act} {b : Bool} (acc : Accounted s) (h : Served d i s) (hk : Keeps d a)
    (hc : s.act a = some (s', b)) :
    Served d i s' ∧
      s'.about d ++ (waiting d s'.info).map (fun v => (⟨i.callback, d, v⟩ : Invoked)) =
        s.about d ++ (waiting d s.info ++ reported d [a]).map fun v => ⟨i.callback, d, v⟩ := by
  obtain ⟨⟨io, hg⟩, hd⟩ := h
  -- nothing about `d` changes
  have same : ∀ t : State, get d t.info = get d s.info → t.doomed = s.doomed → t.invoked = s.invoked → reported d [a] = [] →
      Served d i t ∧
      t.about d ++ (waiting d t.info).map (fun v => (⟨i.callback, d, v⟩ : Invoked)) =
        s.about d ++ (waiting d s.info ++ reported d [a]).map fun v => ⟨i.callback, d, v⟩ := by
    intro t h1 h2 h3 h4
    refine ⟨⟨⟨io, h1 ▸ hg⟩, h2 ▸ hd⟩, ?_⟩
    rw [waiting_congr h1, h4, List.append_nil, State.about, h3]
    rfl
  cases a with
  | addPath k c o r =>
    simp only [State.act] at hc
    split at hc
    · injection hc with hc
      have e : s' = (s.addPath k c o r).1 := by rw [hc]
      subst e
      exact same _ (addPath_get hk) (addPath_rest s k c o r).1 (addPath_rest s k c o r).2 rfl
    · cases hc
  | removePath k =>
    simp only [State.act] at hc
    split at hc
    · injection hc with hc
      have e : s' = (s.removePath k).1 := by rw [hc]
      subst e
      exact same _ (removePath_get hk) (removePath_rest s k).1 (removePath_rest s k).2 rfl
    · cases hc
  | removeAll => exact absurd hk id
  | destroy => exact absurd hk id
  | complete k changes =>
    simp only [State.act, Option.map_eq_some_iff] at hc
    obtain ⟨t, ht, he⟩ := hc
    injection he with h1 h2
    subst h1
    unfold State.endRequest at ht
    cases hgk : get k s.info with
    | none => rw [hgk] at ht; cases ht
    | some j =>
      rw [hgk] at ht
      simp only at ht
      split at ht
      · rename_i hp
        injection ht with ht
        subst ht
        by_cases hkd : k = d
        · subst hkd
          rw [hg] at hgk
          injection hgk with hgk
          subst hgk
          simp only at hp
          subst hp
          refine ⟨⟨⟨.done changes, by simp [get_put]⟩, hd⟩, ?_⟩
          simp [waiting, get_put, hg, reported, State.about]
        · exact same _ (by simp only [get_put, if_neg (Ne.symm hkd)]) rfl rfl (by simp [reported, hkd])
      · cases ht
  | fail k =>
    simp only [State.act, Option.map_eq_some_iff] at hc
    obtain ⟨t, ht, he⟩ := hc
    injection he with h1 h2
    subst h1
    unfold State.endRequest at ht
    cases hgk : get k s.info with
    | none => rw [hgk] at ht; cases ht
    | some j =>
      rw [hgk] at ht
      simp only at ht
      split at ht
      · rename_i hp
        injection ht with ht
        subst ht
        by_cases hkd : k = d
        · subst hkd
          rw [hg] at hgk
          injection hgk with hgk
          subst hgk
          simp only at hp
          subst hp
          refine ⟨⟨⟨.failed, by simp [get_put]⟩, hd⟩, ?_⟩
          simp [waiting, get_put, hg, reported, State.about]
        · exact same _ (by simp only [get_put, if_neg (Ne.symm hkd)]) rfl rfl rfl
      · cases ht
  | scan r =>
    simp only [State.act] at hc
    split at hc
    · injection hc with hc
      injection hc with h1 h2
      subst h1
      have hr : r d = true := hk
      have hgl := get_look r d s.info
      rw [hg] at hgl
      refine ⟨⟨?_, look_doomed hr _⟩, ?_⟩
      · simp only [State.scan]
        rw [hgl]
        cases io <;> exact ⟨_, rfl⟩
      · have ha := look_about r (d := d) acc.keys
        simp only [State.about, State.scan, List.filter_append]
        rw [ha]
        simp only [hg]
        have hw : waiting d (s.info.map fun e => (look r e).1) = [] := by
          simp only [waiting, hgl]
          cases io <;> simp [look, hr]
        rw [hw]
        simp [reported]
    · cases hc
  | removeNext =>
    simp only [State.act] at hc
    split at hc
    · cases hc
    · rename_i k ks hdd
      injection hc with hc
      injection hc with h1 h2
      subst h1
      have hkd : k ≠ d := fun e => hd (by rw [hdd, e]; exact List.mem_cons_self)
      have hrest := removePath_rest { s with doomed := ks } k
      have hget : get d (State.removePath { s with doomed := ks } k).1.info = get d s.info := removePath_get hkd
      refine ⟨⟨⟨io, hget ▸ hg⟩, ?_⟩, ?_⟩
      · rw [hrest.1]
        exact fun hm => hd (by rw [hdd]; exact List.mem_cons_of_mem _ hm)
      · rw [waiting_congr hget, State.about, hrest.2]
        simp [State.about, reported]

theorem reported_cons (d : Nat) (a : Act) (as : List Act) : reported d (a :: as) = reported d [a] ++ reported d as := by
  cases a <;> simp only [reported, List.nil_append]
  split <;> simp

theorem reported_append (d : Nat) (as bs : List Act) : reported d (as ++ bs) = reported d as ++ reported d bs := by
  induction as with
  | nil => rfl
  | cons a as ih => rw [List.cons_append, reported_cons, ih, reported_cons d a as, List.append_assoc]

theorem keeps_run {d : Nat} {i : Info} {as : List Act} {s s' : State} (acc : Accounted s) (h : Served d i s) (hk : ∀ a ∈ as, Keeps d a)
    (hr : s.run as = some s') :
    Served d i s' ∧ Accounted s' ∧
      s'.about d ++ (waiting d s'.info).map (fun v => (⟨i.callback, d, v⟩ : Invoked)) =
        s.about d ++ (waiting d s.info ++ reported d as).map fun v => ⟨i.callback, d, v⟩ := by
  induction as generalizing s with
  | nil =>
    simp only [State.run, Option.some.injEq] at hr
    subst hr
    exact ⟨h, acc, by simp [reported]⟩
  | cons a as ih =>
    simp only [State.run] at hr
    cases hc : s.act a with
    | none => rw [hc] at hr; cases hr
    | some p =>
      obtain ⟨s1, b⟩ := p
      rw [hc] at hr
      obtain ⟨q, e⟩ := keeps_act acc h (hk a List.mem_cons_self) hc
      obtain ⟨q', acc', e'⟩ := ih (acc.act hc) q (fun a ha => hk a (List.mem_cons_of_mem _ ha)) hr
      refine ⟨q', acc', ?_⟩
      rw [e', reported_cons d a as]
      simp only [List.map_append, ← List.append_assoc] at e ⊢
      rw [e]

/-! ## Theorems -/

/-- Whatever the threads, the system and the polls do, in any order: a handle that was opened belongs to exactly one registered
directory, or was closed exactly once, and no other handle is touched; when the monitor is gone, all were closed. -/
theorem handles_closed_once (acts : List Act) (s : State) (h : State.init.run acts = some s) :
    (∀ x, x < s.opened → (s.info.filter fun e => e.2.handle == x).length + s.closed.count x = 1) ∧
    (∀ x, s.opened ≤ x → x ∉ s.closed ∧ ∀ e ∈ s.info, e.2.handle ≠ x) ∧
    (s.alive = false → ∀ x, x < s.opened → s.closed.count x = 1) := by
  have p := Accounted.run h
  refine ⟨fun x hx => ?_, fun x hx => ?_, fun hd x hx => ?_⟩
  · have := p.once x
    rw [if_pos hx, owners, List.countP_eq_length_filter] at this
    exact this
  · have := p.once x
    rw [if_neg (by omega)] at this
    refine ⟨fun hm => ?_, fun e he hc => ?_⟩
    · have := List.count_pos_iff.mpr hm
      omega
    · have : 0 < owners s.info x := List.countP_pos_iff.mpr ⟨e, he, by simpa using hc⟩
      omega
  · have := p.once x
    rw [if_pos hx, p.dead hd] at this
    simpa [owners] using this

example : (State.init.run [.addPath 1 10 true true, .addPath 2 20 true false, .addPath 3 30 false true, .removePath 1,
    .addPath 1 11 true true, .destroy]).map (fun s => (s.opened, s.closed)) = some (3, [1, 0, 2]) := by decide

/-- A registration that succeeded for a directory not registered before, while no poll is about to remove directories, is kept
and served, whatever happens to other directories, from any thread: as long as nobody removes or replaces it and the system
goes on taking requests for it, the directory stays registered, and after the next poll exactly the changes the system reported
since have been given to its callback, once and in order. That no poll is between its critical sections is what is missing
(`registration_lost_violated`), and that the system never fails a request only matters in that it then reports nothing more
(`registration_dead_violated`). -/
theorem registration_served_partial (before after : List Act) (s s1 s2 : State) (d c : Nat) (o r : Bool) (ready : Nat → Bool)
    (hs : State.init.run before = some s) (hnew : ∀ e ∈ s.info, e.1 ≠ d) (hquiet : s.doomed = [])
    (hadd : s.act (.addPath d c o r) = some (s1, true)) (hkeep : ∀ a ∈ after, Keeps d a) (hready : ready d = true)
    (hrun : s1.run (after ++ [.scan ready]) = some s2) :
    (∃ i, (d, i) ∈ s2.info ∧ i.callback = c) ∧
    s2.invoked.filter (fun v => v.dir == d) =
      s.invoked.filter (fun v => v.dir == d) ++ (reported d after).map fun v => ⟨c, d, v⟩ := by
  have acc := Accounted.run hs
  have hg : get d s.info = none := by
    cases hg : get d s.info with
    | none => rfl
    | some i => exact absurd rfl (hnew _ ((get_iff acc.keys d i).mp hg))
  have acc1 := acc.act hadd
  simp only [State.act] at hadd
  split at hadd
  · injection hadd with hadd
    have hrest := addPath_rest s d c o r
    rw [hadd] at hrest
    unfold State.addPath at hadd
    rw [hg] at hadd
    simp only at hadd
    by_cases ho : o = false
    · rw [if_pos ho] at hadd; injection hadd with h1 h2; cases h2
    · rw [if_neg ho] at hadd
      by_cases hr : r = false
      · rw [if_pos hr] at hadd; injection hadd with h1 h2; cases h2
      · rw [if_neg hr] at hadd
        injection hadd with h1 h2
        have hg1 : get d s1.info = some ⟨s.opened, .pending, c⟩ := by rw [← h1]; simp [get_put]
        have hserved : Served d ⟨s.opened, .pending, c⟩ s1 := ⟨⟨.pending, hg1⟩, by rw [hrest.1, hquiet]; exact List.not_mem_nil⟩
        have hw1 : waiting d s1.info = [] := by simp [waiting, hg1]
        have hkeep' : ∀ a ∈ after ++ [.scan ready], Keeps d a := by
          intro a ha
          rcases List.mem_append.mp ha with ha | ha
          · exact hkeep a ha
          · rw [List.mem_singleton] at ha; subst ha; exact hready
        obtain ⟨⟨⟨io, hg2⟩, -⟩, acc2, e⟩ := keeps_run acc1 hserved hkeep' hrun
        refine ⟨⟨_, (get_iff acc2.keys d _).mp hg2, rfl⟩, ?_⟩
        have hw2 : waiting d s2.info = [] := by
          rw [run_append] at hrun
          cases ht : s1.run after with
          | none => rw [ht] at hrun; cases hrun
          | some t =>
            rw [ht] at hrun
            simp only [Option.bind_some, State.run] at hrun
            obtain ⟨⟨⟨io', hgt⟩, -⟩, -, -⟩ := keeps_run acc1 hserved hkeep ht
            simp only [State.act] at hrun
            split at hrun
            · rename_i t' b hq
              split at hq
              · injection hq with hq
                injection hq with h3 h4
                subst h3
                injection hrun with hrun
                subst hrun
                have hgl := get_look ready d t.info
                rw [hgt] at hgl
                simp only [State.scan, waiting, hgl]
                cases io' <;> simp [look, hready]
              · cases hq
            · cases hrun
        rw [hw2, hw1, reported_append] at e
        have hi : s1.invoked = s.invoked := hrest.2
        simpa [State.about, reported, hi] using e
  · cases hadd

/-- The hypotheses hold of a run with two directories, the other of which is refused and removed meanwhile. -/
example : (State.init.run ([.addPath 2 20 true true, .addPath 1 10 true true] ++
    [.complete 2 [5], .complete 1 [6, 7], .scan (· == 1), .complete 1 [8], .removeNext] ++ [.scan (· == 1)])).map
      (fun s => (s.info, s.invoked)) =
    some ([(1, ⟨1, .pending, 10⟩)], [⟨20, 2, 5⟩, ⟨10, 1, 6⟩, ⟨10, 1, 7⟩, ⟨10, 1, 8⟩]) := by decide

/-- A directory is registered. -/
def Registered (s : State) (d : Nat) : Prop := ∃ e ∈ s.info, e.1 = d

theorem registered_iff {s : State} (p : Accounted s) (d : Nat) : Registered s d ↔ get d s.info ≠ none := by
  constructor
  · rintro ⟨⟨k, i⟩, he, hk⟩ hn
    simp only at hk
    subst hk
    rw [(get_iff p.keys k i).mpr he] at hn
    cases hn
  · intro h
    cases hg : get d s.info with
    | none => exact absurd hg h
    | some i => exact ⟨(d, i), (get_iff p.keys d i).mp hg, rfl⟩

/-- What the calls return and do to the registrations, at any time: adding returns true exactly if the directory was registered
already or the system opened it and took the request, and then, and only then, it is registered; removing returns true exactly if it
was registered, and it is not any more; removing everything returns true; none affects other directories otherwise. -/
theorem win_returns (acts : List Act) (s s' : State) (b : Bool) (h : State.init.run acts = some s) :
    (∀ d c o r, s.act (.addPath d c o r) = some (s', b) →
      (b = true ↔ Registered s d ∨ (o = true ∧ r = true)) ∧ ∀ k, Registered s' k ↔ Registered s k ∨ (k = d ∧ b = true)) ∧
    (∀ d, s.act (.removePath d) = some (s', b) → (b = true ↔ Registered s d) ∧ ∀ k, Registered s' k ↔ Registered s k ∧ k ≠ d) ∧
    (s.act .removeAll = some (s', b) → b = true ∧ ∀ k, ¬ Registered s' k) := by
  have p := Accounted.run h
  refine ⟨fun d c o r ha => ?_, fun d ha => ?_, fun ha => ?_⟩
  · have p' := p.act ha
    have hreg : ∀ k, Registered s' k ↔ get k s'.info ≠ none := registered_iff p'
    have hreg0 : ∀ k, Registered s k ↔ get k s.info ≠ none := registered_iff p
    simp only [State.act] at ha
    split at ha
    · injection ha with ha
      unfold State.addPath at ha
      cases hg : get d s.info with
      | some i =>
        rw [hg] at ha
        injection ha with h1 h2
        subst h1
        subst h2
        refine ⟨⟨fun _ => .inl ((hreg0 d).mpr (by rw [hg]; exact Option.some_ne_none _)), fun _ => rfl⟩, fun k => ?_⟩
        rw [hreg, hreg0]
        simp only [get_put]
        by_cases e : k = d
        · subst e; simp
        · simp [e]
      | none =>
        have hn : ¬ Registered s d := fun x => (hreg0 d).mp x hg
        rw [hg] at ha
        simp only at ha
        by_cases ho : o = false
        · rw [if_pos ho] at ha
          injection ha with h1 h2
          subst h1
          subst h2
          subst ho
          exact ⟨⟨fun x => (by cases x), fun x => absurd x (by simp [hn])⟩, fun k => by simp⟩
        · rw [if_neg ho] at ha
          by_cases hr : r = false
          · rw [if_pos hr] at ha
            injection ha with h1 h2
            subst h1
            subst h2
            subst hr
            refine ⟨⟨fun x => (by cases x), fun x => absurd x (by simp [hn])⟩, fun k => ?_⟩
            simp [Registered]
          · rw [if_neg hr] at ha
            injection ha with h1 h2
            subst h1
            subst h2
            refine ⟨⟨fun _ => .inr ⟨by simpa using ho, by simpa using hr⟩, fun _ => rfl⟩, fun k => ?_⟩
            rw [hreg, hreg0]
            simp only [get_put]
            by_cases e : k = d
            · subst e; simp
            · simp [e]
    · cases ha
  · have p' := p.act ha
    simp only [State.act] at ha
    split at ha
    · injection ha with ha
      unfold State.removePath at ha
      cases hg : get d s.info with
      | some i =>
        rw [hg] at ha
        injection ha with h1 h2
        subst h1
        subst h2
        refine ⟨⟨fun _ => (registered_iff p d).mpr (by rw [hg]; exact Option.some_ne_none _), fun _ => rfl⟩, fun k => ?_⟩
        unfold Registered
        constructor
        · rintro ⟨e, he, hk⟩
          simp only [del, List.mem_filter, bne_iff_ne] at he
          exact ⟨⟨e, he.1, hk⟩, hk ▸ he.2⟩
        · rintro ⟨⟨e, he, hk⟩, hne⟩
          exact ⟨e, by simp only [del, List.mem_filter, bne_iff_ne]; exact ⟨he, hk ▸ hne⟩, hk⟩
      | none =>
        rw [hg] at ha
        injection ha with h1 h2
        subst h1
        subst h2
        have hn : ¬ Registered s d := fun x => (registered_iff p d).mp x hg
        exact ⟨⟨fun x => (by cases x), fun x => absurd x hn⟩, fun k => ⟨fun x => ⟨x, fun e => hn (e ▸ x)⟩, fun x => x.1⟩⟩
    · cases ha
  · simp only [State.act] at ha
    split at ha
    · injection ha with ha
      injection ha with h1 h2
      subst h1
      exact ⟨h2.symm, fun k ⟨e, he, _⟩ => by cases he⟩
    · cases ha

/-- When the monitor is gone nothing is registered and nothing happens any more. -/
theorem destroyed_silent (s s' : State) (b : Bool) (h : s.act .destroy = some (s', b)) :
    (∀ d, ¬ Registered s' d) ∧ s'.invoked = s.invoked ∧ ∀ a, s'.act a = none := by
  simp only [State.act] at h
  split at h
  · rename_i hc
    injection h with h
    injection h with h1 h2
    subst h1
    refine ⟨fun d ⟨e, he, _⟩ => (by cases he), rfl, fun a => ?_⟩
    have hd : s.doomed = [] := hc.2
    cases a <;> simp [State.act, State.removeAll, State.endRequest, get, hd]
  · cases h

example : ((State.init.addPath 1 10 true true).1.act .destroy).map (fun p => (p.1.info, p.1.closed, p.1.alive, p.2)) =
    some ([], [0], false, true) := by decide

/-- A directory leaves the monitor only if somebody removes it or the system refused a request for it: what the removals of a poll
take away was refused by the system in that poll. -/
theorem poll_removes_only_refused (s s' : State) (ready : Nat → Bool) (b : Bool) (h : s.act (.scan ready) = some (s', b)) :
    b = true ∧ (∀ d ∈ s'.doomed, ready d = false ∧ d ∈ s.info.map (·.1)) ∧ s'.info.map (·.1) = s.info.map (·.1) := by
  simp only [State.act] at h
  split at h
  · injection h with h
    injection h with h1 h2
    subst h1
    refine ⟨h2.symm, fun d hd => ?_, ?_⟩
    · obtain ⟨e, he, hm⟩ := List.mem_flatMap.mp hd
      unfold look at hm
      split at hm
      · simp only at hm
        split at hm
        · cases hm
        · rename_i hn
          rw [List.mem_singleton] at hm
          subst hm
          exact ⟨by simpa using hn, List.mem_map.mpr ⟨e, he, rfl⟩⟩
      · cases hm
    · simp only [State.scan, List.map_map]
      congr 1
      funext e
      exact look_key ready e
  · cases h

/-- A registration that succeeded is lost although nobody removed it and the system took every request for it: a poll finds that
the directory cannot be asked about any further and lets go of the mutex; another thread removes the directory and adds it again,
which succeeds, with a new handle; then the poll removes it. -/
theorem registration_lost_violated :
    ∃ (before after : List Act) (s s1 s2 : State) (d c : Nat),
      State.init.run before = some s ∧ (∀ e ∈ s.info, e.1 ≠ d) ∧ s.act (.addPath d c true true) = some (s1, true) ∧
      (∀ a ∈ after, Keeps d a) ∧ s1.run after = some s2 ∧ ¬ ∃ i, (d, i) ∈ s2.info := by
  refine ⟨[.addPath 1 10 true true, .complete 1 [5], .scan fun _ => false, .removePath 1], [.removeNext], _, _, _, 1, 11,
    rfl, by decide, rfl, ?_, rfl, fun ⟨i, hi⟩ => by cases hi⟩
  intro a ha
  rw [List.mem_singleton] at ha
  subst ha
  trivial

/-- A failed request stays failed. -/
theorem failed_act {d : Nat} {s s' : State} {a : Act} {b : Bool} (acc : Accounted s) (h : ∃ i, get d s.info = some i ∧ i.io = .failed)
    (hd : d ∉ s.doomed) (hk : (match a with | .removePath k => k ≠ d | .removeAll => False | .destroy => False | _ => True))
    (hc : s.act a = some (s', b)) :
    (∃ i, get d s'.info = some i ∧ i.io = .failed) ∧ d ∉ s'.doomed ∧ s'.about d = s.about d := by
  obtain ⟨i, hg, hf⟩ := h
  cases a with
  | addPath k c o r =>
    simp only [State.act] at hc
    split at hc
    · injection hc with hc
      have e : s' = (s.addPath k c o r).1 := by rw [hc]
      subst e
      have hrest := addPath_rest s k c o r
      refine ⟨?_, by rw [hrest.1]; exact hd, by rw [State.about, hrest.2]; rfl⟩
      by_cases hkd : k = d
      · subst hkd
        unfold State.addPath
        rw [hg]
        exact ⟨{ i with callback := c }, by simp [get_put], hf⟩
      · exact ⟨i, by rw [addPath_get hkd]; exact hg, hf⟩
    · cases hc
  | removePath k =>
    simp only [State.act] at hc
    split at hc
    · injection hc with hc
      have e : s' = (s.removePath k).1 := by rw [hc]
      subst e
      have hrest := removePath_rest s k
      exact ⟨⟨i, by rw [removePath_get hk]; exact hg, hf⟩, by rw [hrest.1]; exact hd, by rw [State.about, hrest.2]; rfl⟩
    · cases hc
  | removeAll => exact absurd hk id
  | destroy => exact absurd hk id
  | complete k changes =>
    simp only [State.act, Option.map_eq_some_iff] at hc
    obtain ⟨t, ht, he⟩ := hc
    injection he with h1 h2
    subst h1
    unfold State.endRequest at ht
    cases hgk : get k s.info with
    | none => rw [hgk] at ht; cases ht
    | some j =>
      rw [hgk] at ht
      simp only at ht
      split at ht
      · rename_i hp
        injection ht with ht
        subst ht
        have hkd : k ≠ d := by
          intro e
          subst e
          rw [hg] at hgk
          injection hgk with hgk
          subst hgk
          rw [hf] at hp
          cases hp
        exact ⟨⟨i, by simp only [get_put, if_neg (Ne.symm hkd)]; exact hg, hf⟩, hd, rfl⟩
      · cases ht
  | fail k =>
    simp only [State.act, Option.map_eq_some_iff] at hc
    obtain ⟨t, ht, he⟩ := hc
    injection he with h1 h2
    subst h1
    unfold State.endRequest at ht
    cases hgk : get k s.info with
    | none => rw [hgk] at ht; cases ht
    | some j =>
      rw [hgk] at ht
      simp only at ht
      split at ht
      · rename_i hp
        injection ht with ht
        subst ht
        have hkd : k ≠ d := by
          intro e
          subst e
          rw [hg] at hgk
          injection hgk with hgk
          subst hgk
          rw [hf] at hp
          cases hp
        exact ⟨⟨i, by simp only [get_put, if_neg (Ne.symm hkd)]; exact hg, hf⟩, hd, rfl⟩
      · cases ht
  | scan r =>
    simp only [State.act] at hc
    split at hc
    · injection hc with hc
      injection hc with h1 h2
      subst h1
      have hgl := get_look r d s.info
      rw [hg] at hgl
      have hl : look r (d, i) = ((d, i), [], []) := by unfold look; simp only [hf]
      refine ⟨⟨i, by simp only [State.scan]; rw [hgl, Option.map_some, hl], hf⟩, ?_, ?_⟩
      · intro hm
        simp only [State.scan] at hm
        obtain ⟨e, he, hm⟩ := List.mem_flatMap.mp hm
        have hk2 : e.1 = d := by
          unfold look at hm
          split at hm
          · simp only at hm
            split at hm
            · cases hm
            · exact (List.mem_singleton.mp hm).symm
          · cases hm
        have : get d s.info = some e.2 := (get_iff acc.keys d e.2).mpr (by rw [← hk2]; exact he)
        rw [hg] at this
        injection this with this
        have hee : e = (d, i) := by rw [← hk2, this]
        rw [hee, hl] at hm
        cases hm
      · have ha := look_about r (d := d) acc.keys
        simp only [State.about, State.scan, List.filter_append]
        rw [ha]
        simp [hg, waiting, hf]
    · cases hc
  | removeNext =>
    simp only [State.act] at hc
    split at hc
    · cases hc
    · rename_i k ks hdd
      injection hc with hc
      injection hc with h1 h2
      subst h1
      have hkd : k ≠ d := fun e => hd (by rw [hdd, e]; exact List.mem_cons_self)
      have hrest := removePath_rest { s with doomed := ks } k
      have hget : get d (State.removePath { s with doomed := ks } k).1.info = get d s.info := removePath_get hkd
      refine ⟨⟨i, hget ▸ hg, hf⟩, ?_, ?_⟩
      · rw [hrest.1]
        exact fun hm => hd (by rw [hdd]; exact List.mem_cons_of_mem _ hm)
      · rw [State.about, hrest.2]
        rfl

/-- Once the system has failed the request of a directory (it was deleted, say), the directory stays registered but dead: until
it is removed by a call, no callback is invoked for it any more, however often it is added again, and whatever the system does. -/
theorem failed_never_served (before after : List Act) (s s1 s2 : State) (d : Nat) (hs : State.init.run before = some s)
    (hq : s.doomed = []) (hfail : s.act (.fail d) = some (s1, true))
    (hkeep : ∀ a ∈ after, match a with | .removePath k => k ≠ d | .removeAll => False | .destroy => False | _ => True)
    (hrun : s1.run after = some s2) :
    (∃ i, (d, i) ∈ s2.info) ∧ s2.invoked.filter (fun v => v.dir == d) = s.invoked.filter (fun v => v.dir == d) := by
  have acc := Accounted.run hs
  have acc1 := acc.act hfail
  have h1 : (∃ i, get d s1.info = some i ∧ i.io = .failed) ∧ d ∉ s1.doomed ∧ s1.about d = s.about d := by
    simp only [State.act, Option.map_eq_some_iff] at hfail
    obtain ⟨t, ht, he⟩ := hfail
    injection he with h1 h2
    subst h1
    unfold State.endRequest at ht
    cases hg : get d s.info with
    | none => rw [hg] at ht; cases ht
    | some i =>
      rw [hg] at ht
      simp only at ht
      split at ht
      · injection ht with ht
        subst ht
        exact ⟨⟨{ i with io := .failed }, by simp [get_put], rfl⟩, by simp [hq], rfl⟩
      · cases ht
  have := run_induct (P := fun t => Accounted t ∧ (∃ i, get d t.info = some i ∧ i.io = .failed) ∧ d ∉ t.doomed ∧ t.about d = s.about d)
    (fun t a t' b p ok hc => by
      obtain ⟨q1, q2, q3⟩ := failed_act p.1 p.2.1 p.2.2.1 ok hc
      exact ⟨p.1.act hc, q1, q2, q3.trans p.2.2.2⟩) ⟨acc1, h1⟩ hkeep hrun
  obtain ⟨acc2, ⟨i, hi, -⟩, -, e⟩ := this
  exact ⟨⟨i, (get_iff acc2.keys d i).mp hi⟩, e⟩

/-- The hypotheses hold of a directory whose request fails, that is added again, and of another one that is served. -/
example : ∃ s s1 s2, State.init.run [.addPath 1 10 true true, .complete 1 [5], .scan (fun _ => true)] = some s ∧ s.doomed = [] ∧
    s.act (.fail 1) = some (s1, true) ∧
    s1.run [.addPath 1 11 true true, .addPath 2 20 true true, .complete 2 [7], .scan (fun _ => true)] = some s2 ∧
    s2.invoked = [⟨10, 1, 5⟩, ⟨20, 2, 7⟩] := by
  refine ⟨_, _, _, rfl, rfl, rfl, rfl, ?_⟩
  decide

/-- A registration succeeds and is never served, though nobody removes it and the system takes requests for the directory: the
directory was registered, deleted and made again, and then added again. -/
theorem registration_dead_violated :
    ∃ (before : List Act) (s s1 : State) (d c : Nat),
      State.init.run before = some s ∧ s.doomed = [] ∧ s.act (.addPath d c true true) = some (s1, true) ∧
      ∀ (after : List Act) (s2 : State), (∀ a ∈ after, Keeps d a) → s1.run after = some s2 →
        ∀ v ∈ s2.invoked, v.dir ≠ d := by
  refine ⟨[.addPath 1 10 true true, .fail 1], _, _, 1, 11, rfl, rfl, rfl, fun after s2 hk hrun => ?_⟩
  have h := failed_never_served [.addPath 1 10 true true] ([.addPath 1 11 true true] ++ after) _ _ s2 1 rfl rfl rfl ?_ ?_
  · intro v hv hc
    have : v ∈ s2.invoked.filter (fun v => v.dir == 1) := List.mem_filter.mpr ⟨hv, by simpa using hc⟩
    rw [h.2] at this
    cases this
  · intro a ha
    rcases List.mem_append.mp ha with ha | ha
    · rw [List.mem_singleton] at ha; subst ha; trivial
    · have := hk a ha
      cases a <;> first | trivial | exact this
  · exact hrun

end Verif.PathMonitor.Win
