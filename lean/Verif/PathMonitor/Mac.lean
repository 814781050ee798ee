import Verif.PathMonitor.Lemmas

/-!
# C143: the path monitor on macOS

Source: `/repo/fly/path/mac/path_monitor_impl.mm` with `/repo/fly/path/path_monitor.cpp`. File system events arrive on a
stream that watches a fixed set of directories; when a directory is added or removed the stream is closed and a new one is
created. Directories, file names and callbacks are numbers; `dirs d` is the inode of the directory spelled `d`, or 0.

Simplifications: a public call is one step (it holds `m_mutex`, `remove_file` takes it twice); a null callback is left out.
What the system answers is an input.
-/

namespace Verif.PathMonitor.Mac

/-! ## Model -/

/-- `PathInfoImpl` (mac/path_monitor_impl.hpp 70-85) with `PathInfo`: `cf` is the identity of the string object made for the
path. -/
structure Info where
  cf : Nat
  inode : Nat
  handler : Option Nat
  files : List (Nat × Nat)
deriving DecidableEq, Repr

/-- A file system event: the directory and the file it is about, the flags, whether the path is a directory. -/
structure Event where
  dir : Nat
  file : Nat
  flags : Nat
  isDir : Bool
deriving DecidableEq, Repr

/-- `m_path_info`, `m_paths`, the directories the running stream watches (none if there is no stream), the events the stream
has not passed on yet, `m_event_queue`, and the callbacks invoked so far. -/
structure Monitor where
  dirs : Nat → Nat
  info : List (Nat × Info)
  paths : List (Nat × Nat)
  nextCf : Nat
  stream : Option (List Nat)
  buffer : List Event
  queue : List (Nat × Nat × PathEvent)
  invoked : List Call

/-- A new monitor. -/
def Monitor.init (dirs : Nat → Nat) : Monitor := ⟨dirs, [], [], 0, none, [], [], []⟩

/-- `close_event_stream` and `refresh_monitored_paths` (mac/path_monitor_impl.mm 117-162): the old stream is stopped, with
what it had not passed on, and a new one watches the present paths from now on. `ok` says whether it could be created. -/
def Monitor.refresh (s : Monitor) (ok : Bool) : Monitor :=
  { s with stream := if ok then some (s.paths.map (·.2)) else none, buffer := [] }

/-- `get_or_create_path_info` (path_monitor.cpp 164-184) with the constructor of `PathInfoImpl`
(mac/path_monitor_impl.mm 269-286); `cfOk` says whether the string object could be made. -/
def Monitor.getOrCreate (s : Monitor) (d : Nat) (cfOk ok : Bool) : Option (Monitor × Info) :=
  match get d s.info with
  | some info => some (s, info)
  | none =>
    if cfOk = true ∧ s.dirs d ≠ 0 then
      let info : Info := ⟨s.nextCf, s.dirs d, none, []⟩
      let s := { s with paths := s.paths ++ [(s.nextCf, d)], nextCf := s.nextCf + 1 }.refresh ok
      some ({ s with info := put d info s.info }, info)
    else none

/-- `add_path` (path_monitor.cpp 46-72). -/
def Monitor.addPath (s : Monitor) (d c : Nat) (cfOk ok : Bool) : Monitor × Bool :=
  if s.dirs d = 0 then (s, false)
  else
    match s.getOrCreate d cfOk ok with
    | none => (s, false)
    | some (s, info) => ({ s with info := put d { info with handler := some c } s.info }, true)

/-- `add_file` (path_monitor.cpp 99-129). -/
def Monitor.addFile (s : Monitor) (d f c : Nat) (fileIsDir cfOk ok : Bool) : Monitor × Bool :=
  if fileIsDir then (s, false)
  else if s.dirs d = 0 then (s, false)
  else
    match s.getOrCreate d cfOk ok with
    | none => (s, false)
    | some (s, info) => ({ s with info := put d { info with files := put f c info.files } s.info }, true)

/-- The destructor of `PathInfoImpl` (mac/path_monitor_impl.mm 289-301), for a valid one. -/
def Monitor.drop (s : Monitor) (info : Info) (ok : Bool) : Monitor :=
  if s.paths.any (fun e => e.1 == info.cf) then
    { s with paths := s.paths.filter fun e => e.1 != info.cf }.refresh ok
  else s

/-- `remove_path` (path_monitor.cpp 75-89). -/
def Monitor.removePath (s : Monitor) (d : Nat) (ok : Bool) : Monitor × Bool :=
  match get d s.info with
  | some info => ({ s with info := del d s.info }.drop info ok, true)
  | none => (s, false)

/-- `remove_file` (path_monitor.cpp 132-161), both critical sections. -/
def Monitor.removeFile (s : Monitor) (d f : Nat) (ok : Bool) : Monitor × Bool :=
  match get d s.info with
  | none => (s, false)
  | some info =>
    match get f info.files with
    | none => (s, false)
    | some _ =>
      let info' := { info with files := del f info.files }
      let s' := { s with info := put d info' s.info }
      if info'.files = [] ∧ info'.handler = none then s'.removePath d ok else (s', true)

/-- `remove_all_paths` (path_monitor.cpp 92-96), the directories one after the other. -/
def Monitor.removeAll (s : Monitor) (ok : Bool) : Monitor :=
  s.info.foldl (fun s e => s.drop e.2 ok) { s with info := [] }

/-- `convert_to_events` (mac/path_monitor_impl.mm 208-226), with `kFSEventStreamEventFlagItemCreated`, `…Modified` and
`…Removed` of `FSEvents.h`. -/
def convert (flags : Nat) : List PathEvent :=
  (if flags &&& 0x100 ≠ 0 then [.created] else []) ++
  (if flags &&& 0x1000 ≠ 0 then [.changed] else []) ++
  (if flags &&& 0x200 ≠ 0 then [.deleted] else [])

/-- What `event_callback` (mac/path_monitor_impl.mm 165-205) queues for an event. -/
def queued (e : Event) : List (Nat × Nat × PathEvent) :=
  if e.isDir then [] else (convert e.flags).map fun k => (e.dir, e.file, k)

/-- `handle_event` (mac/path_monitor_impl.mm 229-266). `order` is `m_path_info` in the order in which the hash map is
traversed; `inode` that of the event's directory, as it is found now. -/
def handle (order : List (Nat × Info)) (inode file : Nat) (k : PathEvent) : List Call :=
  match order.find? (fun p => p.2.inode == inode) with
  | none => []
  | some (d, info) =>
    match (match get file info.files with
      | some c => some c
      | none => info.handler) with
    | some c => [⟨c, d, file, k⟩]
    | none => []

inductive Op where
  | addPath (d c : Nat) (cfOk ok : Bool)
  | addFile (d f c : Nat) (fileIsDir cfOk ok : Bool)
  | removePath (d : Nat) (ok : Bool)
  | removeFile (d f : Nat) (ok : Bool)
  | removeAll (ok : Bool)
  /-- something happens to a file; the stream notices it if it watches that directory -/
  | change (e : Event)
  /-- the system calls `event_callback` with the events the stream has collected -/
  | deliver
  /-- `poll` takes one event from the queue (mac/path_monitor_impl.mm 81-107) -/
  | pop (order : List (Nat × Info))
deriving Repr

/-- The stream watches the directory of this event. -/
def Monitor.watches (s : Monitor) (e : Event) : Bool :=
  match s.stream with
  | some ws => s.dirs e.dir != 0 && ws.any fun w => s.dirs w == s.dirs e.dir
  | none => false

/-- One step, with the value the call returns. -/
def step (s : Monitor) : Op → Monitor × Bool
  | .addPath d c cfOk ok => s.addPath d c cfOk ok
  | .addFile d f c fd cfOk ok => s.addFile d f c fd cfOk ok
  | .removePath d ok => s.removePath d ok
  | .removeFile d f ok => s.removeFile d f ok
  | .removeAll ok => (s.removeAll ok, true)
  | .change e => ((if s.watches e then { s with buffer := s.buffer ++ [e] } else s), true)
  | .deliver => ({ s with buffer := [], queue := s.queue ++ s.buffer.flatMap queued }, true)
  | .pop order =>
    match s.queue with
    | [] => (s, false)
    | (d, f, k) :: q => ({ s with queue := q, invoked := s.invoked ++ handle order (s.dirs d) f k }, true)

/-- A history. -/
def run (s : Monitor) (ops : List Op) : Monitor := ops.foldl (fun s o => (step s o).1) s

/-- The destructors `~PathMonitorImpl`, its members, and `~PathMonitor` (mac/path_monitor_impl.mm 64-72, path_monitor.cpp
34-37): `m_paths`, `m_context` and the dispatch queue are gone when `remove_all_paths` destroys the `PathInfoImpl` objects,
each of which uses them if it is valid (mac/path_monitor_impl.mm 289-307). The result says whether all of that is
defined. -/
def Monitor.destroy (s : Monitor) : Bool := s.info.all fun e => e.2.inode == 0

/-! ## Specification -/

/-- `order` is the map in some order. -/
def Order (s : Monitor) (order : List (Nat × Info)) : Prop := order.Perm s.info

/-- The directory is registered, with what. -/
def Registered (s : Monitor) (d : Nat) (i : Info) : Prop := (d, i) ∈ s.info

/-- No two registered spellings are the same directory. -/
def Distinct (s : Monitor) : Prop := ∀ d i d' i', Registered s d i → Registered s d' i' → i.inode = i'.inode → d = d' ∧ i = i'

/-- Every stream this step creates can be created. -/
def Streams : Op → Prop
  | .addPath _ _ _ ok => ok = true
  | .addFile _ _ _ _ _ ok => ok = true
  | .removePath _ ok => ok = true
  | .removeFile _ _ ok => ok = true
  | .removeAll ok => ok = true
  | _ => True

/-- The steps that do not change what is registered. -/
def Passive : Op → Prop
  | .change _ => True
  | .deliver => True
  | .pop _ => True
  | _ => False

/-- The stream notices what happens in the directory of this event. -/
def Noticed (s : Monitor) (e : Event) : Prop :=
  ∃ ws w, s.stream = some ws ∧ w ∈ ws ∧ s.dirs w = s.dirs e.dir ∧ s.dirs e.dir ≠ 0

open Classical in
/-- What has happened, in order: the kinds of change the flags tell, for files in watched directories. -/
noncomputable def happened (s : Monitor) : List Op → List (Nat × Nat × PathEvent)
  | [] => []
  | .change e :: r =>
    (if Noticed s e ∧ e.isDir = false then
      (([(0x100, PathEvent.created), (0x1000, .changed), (0x200, .deleted)].filter fun x => e.flags &&& x.1 != 0).map
        fun x => (e.dir, e.file, x.2)) else []) ++ happened s r
  | _ :: r => happened s r

/-! ## Proofs -/

/-- The invariant. -/
structure Inv (s : Monitor) : Prop where
  keys : Keys s.info
  fresh : ∀ e ∈ s.paths, e.1 < s.nextCf
  nodup : (s.paths.map (·.1)).Nodup
  same : ∀ c d, (c, d) ∈ s.paths ↔ ∃ i, get d s.info = some i ∧ i.cf = c
  valid : ∀ d i, get d s.info = some i → i.inode ≠ 0
  watch : ∀ ws, s.stream = some ws → ws = s.paths.map (·.2)

theorem inv_init (dirs : Nat → Nat) : Inv (.init dirs) :=
  ⟨List.nodup_nil, fun e h => (by cases h), List.nodup_nil, fun c d => ⟨fun h => (by cases h), fun ⟨i, h, _⟩ => (by cases h)⟩,
    fun d i h => (by cases h), fun ws h => (by cases h)⟩

/-- A handler is set: nothing but the handlers changes. -/
theorem Inv.put {s : Monitor} (h : Inv s) {d : Nat} {i i' : Info} (hg : get d s.info = some i) (hcf : i'.cf = i.cf)
    (hin : i'.inode = i.inode) : Inv { s with info := put d i' s.info } := by
  refine ⟨keys_put h.keys d i', h.fresh, h.nodup, ?_, ?_, h.watch⟩
  · intro c x
    show (c, x) ∈ s.paths ↔ ∃ i, get x (PathMonitor.put d i' s.info) = some i ∧ i.cf = c
    rw [h.same, get_put]
    by_cases e : x = d
    · subst e
      rw [if_pos rfl, hg]
      constructor
      · rintro ⟨j, hj, hc⟩
        cases hj
        exact ⟨i', rfl, hcf.trans hc⟩
      · rintro ⟨j, hj, hc⟩
        cases hj
        exact ⟨i, rfl, hcf.symm.trans hc⟩
    · rw [if_neg e]
  · intro x j hj
    have hj : get x (PathMonitor.put d i' s.info) = some j := hj
    rw [get_put] at hj
    by_cases e : x = d
    · rw [if_pos e] at hj
      cases hj
      rw [hin]
      exact h.valid d i hg
    · rw [if_neg e] at hj
      exact h.valid x j hj

theorem Inv.getOrCreate {s s' : Monitor} (h : Inv s) {d : Nat} {cfOk ok : Bool} {i : Info}
    (hg : s.getOrCreate d cfOk ok = some (s', i)) : Inv s' ∧ get d s'.info = some i := by
  unfold Monitor.getOrCreate at hg
  cases hi : get d s.info with
  | some j =>
    rw [hi] at hg
    cases hg
    exact ⟨h, hi⟩
  | none =>
    rw [hi] at hg
    simp only at hg
    split at hg
    · rename_i hc
      injection hg with hg
      injection hg with h1 h2
      subst h2
      subst h1
      refine ⟨⟨keys_put h.keys d _, ?_, ?_, ?_, ?_, ?_⟩, ?_⟩
      · intro e he
        rcases List.mem_append.1 he with he | he
        · exact Nat.lt_succ_of_lt (h.fresh e he)
        · rcases List.mem_singleton.1 he with rfl
          exact Nat.lt_succ_self _
      · show ((s.paths ++ [(s.nextCf, d)]).map (·.1)).Nodup
        rw [List.map_append, List.nodup_append]
        refine ⟨h.nodup, by simp, ?_⟩
        intro a ha b hb e
        obtain ⟨x, hx, rfl⟩ := List.mem_map.1 ha
        have : b = s.nextCf := by simpa using hb
        have := h.fresh x hx
        omega
      · intro c x
        show (c, x) ∈ s.paths ++ [(s.nextCf, d)] ↔ ∃ i, get x (PathMonitor.put d _ s.info) = some i ∧ i.cf = c
        rw [get_put, List.mem_append, h.same]
        by_cases e : x = d
        · subst e
          rw [if_pos rfl, hi]
          simp
          exact eq_comm
        · rw [if_neg e]
          simp [e]
      · intro x j hj
        have hj : get x (PathMonitor.put d _ s.info) = some j := hj
        rw [get_put] at hj
        by_cases e : x = d
        · rw [if_pos e] at hj
          cases hj
          exact hc.2
        · rw [if_neg e] at hj
          exact h.valid x j hj
      · intro ws hw
        have hw : (if ok = true then some ((s.paths ++ [(s.nextCf, d)]).map (·.2)) else none) = some ws := hw
        split at hw
        · cases hw
          rfl
        · cases hw
      · show get d (PathMonitor.put d _ s.info) = _
        rw [get_put, if_pos rfl]
    · cases hg

theorem nodup_filter_mem {l : List (Nat × Nat)} (h : (l.map (·.1)).Nodup) {c d d' : Nat} (h1 : (c, d) ∈ l) (h2 : (c, d') ∈ l) : d = d' := by
  induction l with
  | nil => cases h1
  | cons a r ih =>
    rw [List.map_cons, List.nodup_cons] at h
    rcases List.mem_cons.1 h1 with e1 | h1 <;> rcases List.mem_cons.1 h2 with e2 | h2
    · rw [← e1] at e2
      cases e2
      rfl
    · exact absurd (List.mem_map.2 ⟨_, h2, by rw [← e1]⟩) h.1
    · exact absurd (List.mem_map.2 ⟨_, h1, by rw [← e2]⟩) h.1
    · exact ih h.2 h1 h2

theorem Inv.removePath {s : Monitor} (h : Inv s) (d : Nat) (ok : Bool) : Inv (s.removePath d ok).1 := by
  unfold Monitor.removePath
  cases hi : get d s.info with
  | none => exact h
  | some i =>
    have hmem : (i.cf, d) ∈ s.paths := (h.same _ _).2 ⟨i, hi, rfl⟩
    have hany : (s.paths.any fun e => e.1 == i.cf) = true := List.any_eq_true.2 ⟨_, hmem, by simp⟩
    show Inv (Monitor.drop { s with info := del d s.info } i ok)
    unfold Monitor.drop
    simp only [hany, if_true]
    refine ⟨?_, ?_, ?_, ?_, ?_, ?_⟩
    · show ((del d s.info).map (·.1)).Nodup
      exact List.Nodup.sublist (List.Sublist.map _ List.filter_sublist) h.keys
    · intro e he
      exact h.fresh e (List.mem_filter.1 he).1
    · exact List.Nodup.sublist (List.Sublist.map _ List.filter_sublist) h.nodup
    · intro c x
      show (c, x) ∈ s.paths.filter (fun e => e.1 != i.cf) ↔ ∃ j, get x (del d s.info) = some j ∧ j.cf = c
      rw [List.mem_filter, h.same, get_del]
      constructor
      · rintro ⟨⟨j, hj, hc⟩, hne⟩
        have hne : c ≠ i.cf := by simpa using hne
        refine ⟨j, ?_, hc⟩
        rw [if_neg]
        · exact hj
        · intro e
          subst e
          rw [hi] at hj
          cases hj
          exact hne hc.symm
      · rintro ⟨j, hj, hc⟩
        by_cases e : x = d
        · rw [if_pos e] at hj
          cases hj
        · rw [if_neg e] at hj
          refine ⟨⟨j, hj, hc⟩, ?_⟩
          have : c ≠ i.cf := by
            intro ec
            subst ec
            have h2 : (i.cf, x) ∈ s.paths := (h.same _ _).2 ⟨j, hj, hc⟩
            exact e (nodup_filter_mem h.nodup h2 hmem)
          simpa using this
    · intro x j hj
      have hj : get x (del d s.info) = some j := hj
      rw [get_del] at hj
      by_cases e : x = d
      · rw [if_pos e] at hj
        cases hj
      · rw [if_neg e] at hj
        exact h.valid x j hj
    · intro ws hw
      have hw : (if ok = true then some ((s.paths.filter fun e => e.1 != i.cf).map (·.2)) else none) = some ws := hw
      split at hw
      · cases hw
        rfl
      · cases hw

/-- The stream after every directory was dropped. -/
theorem drop_all (l : List (Nat × Info)) (s : Monitor) (ok : Bool) :
    (l.foldl (fun s e => s.drop e.2 ok) s).paths = s.paths.filter (fun e => l.all fun x => x.2.cf != e.1) ∧
    (l.foldl (fun s e => s.drop e.2 ok) s).info = s.info ∧
    (l.foldl (fun s e => s.drop e.2 ok) s).nextCf = s.nextCf ∧
    ((∀ ws, s.stream = some ws → ws = s.paths.map (·.2)) → ∀ ws, (l.foldl (fun s e => s.drop e.2 ok) s).stream = some ws →
      ws = (l.foldl (fun s e => s.drop e.2 ok) s).paths.map (·.2)) ∧
    (ok = true → (s.stream = none → s.paths = []) → (l.foldl (fun s e => s.drop e.2 ok) s).stream = none →
      (l.foldl (fun s e => s.drop e.2 ok) s).paths = []) := by
  induction l generalizing s with
  | nil =>
    refine ⟨?_, rfl, rfl, fun h => h, fun _ h => h⟩
    show s.paths = s.paths.filter fun _ => true
    rw [List.filter_eq_self.2 fun _ _ => rfl]
  | cons a r ih =>
    simp only [List.foldl_cons]
    obtain ⟨h1, h2, h3, h4, h5⟩ := ih (s.drop a.2 ok)
    have hp : (s.drop a.2 ok).paths = s.paths.filter fun e => e.1 != a.2.cf := by
      unfold Monitor.drop
      split
      · rfl
      · rename_i hn
        symm
        rw [List.filter_eq_self]
        intro e he
        have : ¬ (e.1 == a.2.cf) = true := fun h => hn (List.any_eq_true.2 ⟨e, he, h⟩)
        simpa using this
    have hf : (s.drop a.2 ok).info = s.info ∧ (s.drop a.2 ok).nextCf = s.nextCf := by
      unfold Monitor.drop
      split <;> exact ⟨rfl, rfl⟩
    have hw : (∀ ws, s.stream = some ws → ws = s.paths.map (·.2)) →
        ∀ ws, (s.drop a.2 ok).stream = some ws → ws = (s.drop a.2 ok).paths.map (·.2) := by
      intro h ws
      unfold Monitor.drop
      split
      · intro hw
        have hw : (if ok = true then some ((s.paths.filter fun e => e.1 != a.2.cf).map (·.2)) else none) = some ws := hw
        split at hw
        · cases hw
          rfl
        · cases hw
      · exact h ws
    have hn : ok = true → (s.stream = none → s.paths = []) → (s.drop a.2 ok).stream = none → (s.drop a.2 ok).paths = [] := by
      intro hok h
      unfold Monitor.drop
      split
      · intro hw
        have hw : (if ok = true then some ((s.paths.filter fun e => e.1 != a.2.cf).map (·.2)) else none) = none := hw
        rw [if_pos hok] at hw
        cases hw
      · exact h
    refine ⟨?_, h2.trans hf.1, h3.trans hf.2, fun h => h4 (hw h), fun hok h => h5 hok (hn hok h)⟩
    rw [h1, hp, List.filter_filter]
    apply List.filter_congr
    intro e _
    simp only [List.all_cons]
    rw [Bool.and_comm]
    congr 1
    exact bne_comm

theorem removeAll_facts {s : Monitor} (h : Inv s) (ok : Bool) : (s.removeAll ok).paths = [] ∧ (s.removeAll ok).info = [] := by
  unfold Monitor.removeAll
  obtain ⟨h1, h2, h3, h4, _⟩ := drop_all s.info { s with info := [] } ok
  refine ⟨?_, h2⟩
  rw [h1, List.filter_eq_nil_iff]
  intro e he hall
  obtain ⟨i, hi, hc⟩ := (h.same e.1 e.2).1 he
  have := List.all_eq_true.1 hall (e.2, i) ((get_iff h.keys _ _).1 hi)
  rw [hc] at this
  simp at this

theorem Inv.removeAll {s : Monitor} (h : Inv s) (ok : Bool) : Inv (s.removeAll ok) := by
  obtain ⟨hp, hi⟩ := removeAll_facts h ok
  obtain ⟨_, _, _, h4, _⟩ := drop_all s.info { s with info := [] } ok
  refine ⟨?_, ?_, ?_, ?_, ?_, ?_⟩
  · rw [hi]; exact List.nodup_nil
  · rw [hp]; intro e he; cases he
  · rw [hp]; exact List.nodup_nil
  · intro c d
    rw [hp, hi]
    exact ⟨fun h => (by cases h), fun ⟨i, h, _⟩ => (by cases h)⟩
  · intro d i hg
    rw [hi] at hg
    cases hg
  · exact h4 h.watch

theorem Inv.step {s : Monitor} (h : Inv s) (o : Op) : Inv (step s o).1 := by
  cases o with
  | addPath d c cfOk ok =>
    show Inv (s.addPath d c cfOk ok).1
    unfold Monitor.addPath
    split
    · exact h
    · split
      · exact h
      · rename_i s' i hg
        obtain ⟨h', hg'⟩ := h.getOrCreate hg
        exact h'.put hg' rfl rfl
  | addFile d f c fd cfOk ok =>
    show Inv (s.addFile d f c fd cfOk ok).1
    unfold Monitor.addFile
    split
    · exact h
    · split
      · exact h
      · split
        · exact h
        · rename_i s' i hg
          obtain ⟨h', hg'⟩ := h.getOrCreate hg
          exact h'.put hg' rfl rfl
  | removePath d ok => exact h.removePath d ok
  | removeFile d f ok =>
    show Inv (s.removeFile d f ok).1
    unfold Monitor.removeFile
    split
    · exact h
    · rename_i i hi
      split
      · exact h
      · have h' : Inv { s with info := PathMonitor.put d { i with files := del f i.files } s.info } := h.put hi rfl rfl
        simp only
        split
        · exact h'.removePath d ok
        · exact h'
  | removeAll ok => exact h.removeAll ok
  | change e =>
    show Inv (if s.watches e then { s with buffer := s.buffer ++ [e] } else s)
    split
    · exact ⟨h.keys, h.fresh, h.nodup, h.same, h.valid, h.watch⟩
    · exact h
  | deliver => exact ⟨h.keys, h.fresh, h.nodup, h.same, h.valid, h.watch⟩
  | pop order =>
    show Inv (Mac.step s (.pop order)).1
    unfold Mac.step
    simp only
    split
    · exact h
    · exact ⟨h.keys, h.fresh, h.nodup, h.same, h.valid, h.watch⟩

theorem run_cons (s : Monitor) (o : Op) (r : List Op) : run s (o :: r) = run (step s o).1 r := rfl

theorem inv_run {s : Monitor} (h : Inv s) (ops : List Op) : Inv (run s ops) := by
  induction ops generalizing s with
  | nil => exact h
  | cons o r ih => exact ih (h.step o)

/-- With streams that can be created there is none only as long as there is nothing to watch. -/
theorem noStream_step {s : Monitor} (h : s.stream = none → s.paths = []) {o : Op} (ho : Streams o) :
    (step s o).1.stream = none → (step s o).1.paths = [] := by
  have hcreate : ∀ {d cfOk ok s' i}, ok = true → s.getOrCreate d cfOk ok = some (s', i) → s'.stream = none → s'.paths = [] := by
    intro d cfOk ok s' i hok hg
    unfold Monitor.getOrCreate at hg
    split at hg
    · cases hg
      exact h
    · split at hg
      · injection hg with hg
        injection hg with h1 _
        subst h1
        intro hw
        have hw : (if ok = true then some ((s.paths ++ [(s.nextCf, d)]).map (·.2)) else none) = none := hw
        rw [if_pos hok] at hw
        cases hw
      · cases hg
  have hdrop : ∀ {s : Monitor}, (s.stream = none → s.paths = []) → ∀ {i ok}, ok = true → (s.drop i ok).stream = none → (s.drop i ok).paths = [] := by
    intro s h i ok hok
    unfold Monitor.drop
    split
    · intro hw
      have hw : (if ok = true then some ((s.paths.filter fun e => e.1 != i.cf).map (·.2)) else none) = none := hw
      rw [if_pos hok] at hw
      cases hw
    · exact h
  have hremove : ∀ {s : Monitor}, (s.stream = none → s.paths = []) → ∀ {d ok}, ok = true →
      (s.removePath d ok).1.stream = none → (s.removePath d ok).1.paths = [] := by
    intro s h d ok hok
    unfold Monitor.removePath
    split
    · rename_i i _
      exact hdrop (s := { s with info := del d s.info }) h hok
    · exact h
  cases o with
  | addPath d c cfOk ok =>
    show (s.addPath d c cfOk ok).1.stream = none → (s.addPath d c cfOk ok).1.paths = []
    unfold Monitor.addPath
    split
    · exact h
    · split
      · exact h
      · rename_i s' i hg
        exact hcreate (s' := s') ho hg
  | addFile d f c fd cfOk ok =>
    show (s.addFile d f c fd cfOk ok).1.stream = none → (s.addFile d f c fd cfOk ok).1.paths = []
    unfold Monitor.addFile
    split
    · exact h
    · split
      · exact h
      · split
        · exact h
        · rename_i s' i hg
          exact hcreate (s' := s') ho hg
  | removePath d ok => exact hremove h ho
  | removeFile d f ok =>
    show (s.removeFile d f ok).1.stream = none → (s.removeFile d f ok).1.paths = []
    unfold Monitor.removeFile
    split
    · exact h
    · rename_i i _
      split
      · exact h
      · simp only
        split
        · exact hremove (s := { s with info := put d { i with files := del f i.files } s.info }) h ho
        · exact h
  | removeAll ok => exact (drop_all s.info { s with info := [] } ok).2.2.2.2 ho h
  | change e =>
    show (if s.watches e then { s with buffer := s.buffer ++ [e] } else s).stream = none → _
    simp only [Mac.step]
    split <;> exact h
  | deliver => exact h
  | pop order =>
    simp only [Mac.step]
    split <;> exact h

theorem noStream_run {s : Monitor} (h : s.stream = none → s.paths = []) {ops : List Op} (ho : ∀ o ∈ ops, Streams o) :
    (run s ops).stream = none → (run s ops).paths = [] := by
  induction ops generalizing s with
  | nil => exact h
  | cons o r ih => exact ih (noStream_step h (ho o List.mem_cons_self)) (fun o' h' => ho o' (List.mem_cons_of_mem _ h'))

/-- C143: after any history in which the event streams could be created, exactly the registered directories are watched. -/
theorem mac_watched_partial (dirs : Nat → Nat) (ops : List Op) (ho : ∀ o ∈ ops, Streams o) :
    ∃ ws, ((run (.init dirs) ops).stream = some ws ∨ (run (.init dirs) ops).stream = none ∧ ws = []) ∧
      ∀ d, d ∈ ws ↔ ∃ i, Registered (run (.init dirs) ops) d i := by
  have hI := inv_run (inv_init dirs) ops
  have hN := noStream_run (s := .init dirs) (fun _ => rfl) ho
  generalize run (.init dirs) ops = s at hI hN
  have key : ∀ d, d ∈ s.paths.map (·.2) ↔ ∃ i, Registered s d i := by
    intro d
    rw [List.mem_map]
    constructor
    · rintro ⟨⟨c, d'⟩, hm, rfl⟩
      obtain ⟨i, hi, _⟩ := (hI.same c d').1 hm
      exact ⟨i, (get_iff hI.keys _ _).1 hi⟩
    · rintro ⟨i, hi⟩
      exact ⟨(i.cf, d), (hI.same _ _).2 ⟨i, (get_iff hI.keys _ _).2 hi, rfl⟩, rfl⟩
  cases hs : s.stream with
  | some ws =>
    refine ⟨ws, .inl rfl, ?_⟩
    rw [hI.watch ws hs]
    exact key
  | none =>
    refine ⟨[], .inr ⟨rfl, rfl⟩, fun d => ?_⟩
    rw [← key, hN hs]
    rfl

/-- Two directories registered, one of them through a file, and one removed. -/
example : (∀ o ∈ [Op.addPath 1 100 true true, .addFile 2 7 200 false true true, .removePath 1 true], Streams o) ∧
    (run (.init fun d => d + 10) [.addPath 1 100 true true, .addFile 2 7 200 false true true, .removePath 1 true]).stream =
      some [2] := by
  refine ⟨fun o h => ?_, by decide +kernel⟩
  simp only [List.mem_cons, List.not_mem_nil, or_false] at h
  rcases h with rfl | rfl | rfl <;> trivial

/-- C143: an event is given to the callback of the file, or else to that of the directory, of the registered directory it
is in, with the path as it was registered; and to nobody if no such directory is registered. For any order of the hash
map. -/
theorem mac_dispatch_partial (s : Monitor) (hs : Distinct s) (order : List (Nat × Info)) (ho : Order s order)
    (inode file : Nat) (k : PathEvent) :
    (∀ d i, Registered s d i → i.inode = inode →
      handle order inode file k = ((get file i.files).or i.handler).toList.map fun c => ⟨c, d, file, k⟩) ∧
    ((∀ d i, Registered s d i → i.inode ≠ inode) → handle order inode file k = []) := by
  constructor
  · intro d i hr hi
    unfold handle
    cases hf : order.find? (fun p => p.2.inode == inode) with
    | none =>
      have := List.find?_eq_none.1 hf (d, i) (ho.mem_iff.2 hr)
      simp [hi] at this
    | some x =>
      obtain ⟨d', i'⟩ := x
      have hm : Registered s d' i' := ho.mem_iff.1 (List.mem_of_find?_eq_some hf)
      have hi' : i'.inode = inode := by simpa using List.find?_some hf
      obtain ⟨rfl, rfl⟩ := hs d i d' i' hr hm (hi.trans hi'.symm)
      simp only
      cases get file i.files <;> cases i.handler <;> rfl
  · intro hne
    unfold handle
    cases hf : order.find? (fun p => p.2.inode == inode) with
    | none => rfl
    | some x =>
      obtain ⟨d', i'⟩ := x
      have hm : Registered s d' i' := ho.mem_iff.1 (List.mem_of_find?_eq_some hf)
      have hi' : i'.inode = inode := by simpa using List.find?_some hf
      exact absurd hi' (hne d' i' hm)

/-- Two directories with different inodes, and either order. -/
example : Distinct (run (.init fun d => d + 10) [.addPath 1 100 true true, .addFile 2 7 200 false true true]) ∧
    Order (run (.init fun d => d + 10) [.addPath 1 100 true true, .addFile 2 7 200 false true true])
      [(2, ⟨1, 12, none, [(7, 200)]⟩), (1, ⟨0, 11, some 100, []⟩)] := by
  have e : (run (.init fun d => d + 10) [.addPath 1 100 true true, .addFile 2 7 200 false true true]).info =
      [(1, ⟨0, 11, some 100, []⟩), (2, ⟨1, 12, none, [(7, 200)]⟩)] := by decide +kernel
  refine ⟨?_, ?_⟩
  · intro d i d' i' h h' hi
    unfold Registered at h h'
    rw [e] at h h'
    simp only [List.mem_cons, List.not_mem_nil, or_false, Prod.mk.injEq] at h h'
    rcases h with ⟨rfl, rfl⟩ | ⟨rfl, rfl⟩ <;> rcases h' with ⟨rfl, rfl⟩ | ⟨rfl, rfl⟩ <;>
      first | exact ⟨rfl, rfl⟩ | (exact absurd hi (by decide))
  · unfold Order
    rw [e]
    exact .swap _ _ _

/-- What is on its way to a callback. -/
def outstanding (s : Monitor) : List (Nat × Nat × PathEvent) := s.queue ++ s.buffer.flatMap queued

theorem watches_iff (s : Monitor) (e : Event) : s.watches e = true ↔ Noticed s e := by
  unfold Monitor.watches Noticed
  cases s.stream with
  | none => simp
  | some ws =>
    simp only [Bool.and_eq_true, bne_iff_ne, List.any_eq_true, beq_iff_eq, Option.some.injEq]
    constructor
    · rintro ⟨h, w, hw, he⟩
      exact ⟨ws, w, rfl, hw, he, h⟩
    · rintro ⟨ws', w, rfl, hw, he, h⟩
      exact ⟨h, w, hw, he⟩

theorem queued_eq (e : Event) (h : e.isDir = false) :
    queued e = ([(0x100, PathEvent.created), (0x1000, .changed), (0x200, .deleted)].filter fun x => e.flags &&& x.1 != 0).map
      fun x => (e.dir, e.file, x.2) := by
  unfold queued convert
  rw [h]
  by_cases h1 : e.flags &&& 0x100 = 0 <;> by_cases h2 : e.flags &&& 0x1000 = 0 <;> by_cases h3 : e.flags &&& 0x200 = 0 <;>
    simp [h1, h2, h3]

/-- C143: as long as no directory is added or removed, every change the stream notices is passed to the callbacks once, in
order: those invoked, with those still on their way, are those that have happened. (For several kinds of change within one
notification the order is created, changed, deleted.) -/
theorem mac_reported_partial (s : Monitor) (order : List (Nat × Info)) (ops : List Op) (hp : ∀ o ∈ ops, Passive o)
    (ho : ∀ o ∈ ops, ∀ order', o = .pop order' → order' = order) (hq : s.queue = []) (hb : s.buffer = []) :
    (run s ops).invoked ++ (outstanding (run s ops)).flatMap (fun x => handle order (s.dirs x.1) x.2.1 x.2.2) =
      s.invoked ++ (happened s ops).flatMap (fun x => handle order (s.dirs x.1) x.2.1 x.2.2) := by
  have key : ∀ (ops : List Op), (∀ o ∈ ops, Passive o) → (∀ o ∈ ops, ∀ order', o = .pop order' → order' = order) →
      ∀ s' : Monitor, s'.dirs = s.dirs → s'.stream = s.stream →
      (run s' ops).invoked ++ (outstanding (run s' ops)).flatMap (fun x => handle order (s.dirs x.1) x.2.1 x.2.2) =
        s'.invoked ++ (outstanding s' ++ happened s ops).flatMap (fun x => handle order (s.dirs x.1) x.2.1 x.2.2) := by
    intro ops
    induction ops with
    | nil =>
      intro _ _ s' _ _
      simp [run, happened]
    | cons o r ih =>
      intro hp ho s' hd hst
      have hpr : ∀ o ∈ r, Passive o := fun o h => hp o (List.mem_cons_of_mem _ h)
      have hor : ∀ o ∈ r, ∀ order', o = .pop order' → order' = order := fun o h => ho o (List.mem_cons_of_mem _ h)
      rw [run_cons]
      cases o with
      | change e =>
        have hw : s'.watches e = s.watches e := by
          unfold Monitor.watches
          rw [hd, hst]
        rw [ih hpr hor _ (by simp only [step]; split <;> exact hd) (by simp only [step]; split <;> exact hst)]
        simp only [step, happened]
        rw [hw]
        cases hwe : s.watches e with
        | false =>
          have hn : ¬ Noticed s e := fun h => by rw [(watches_iff s e).2 h] at hwe; cases hwe
          simp [hn]
        | true =>
          have hy : Noticed s e := (watches_iff s e).1 hwe
          simp only [hy]
          cases hdir : e.isDir with
          | true => simp [outstanding, queued, hdir]
          | false =>
            simp only [if_true, and_self]
            rw [← queued_eq e hdir]
            simp [outstanding]
      | deliver =>
        rw [ih hpr hor (step s' .deliver).1 hd hst]
        simp [step, happened, outstanding]
      | pop order' =>
        cases ho (.pop order') List.mem_cons_self order' rfl
        have hh : happened s (.pop order :: r) = happened s r := rfl
        rw [hh]
        cases hqq : s'.queue with
        | nil =>
          have e : (step s' (.pop order)).1 = s' := by
            unfold step
            simp only [hqq]
          rw [e]
          exact ih hpr hor s' hd hst
        | cons x q =>
          obtain ⟨d, f, k⟩ := x
          have e : (step s' (.pop order)).1 = { s' with queue := q, invoked := s'.invoked ++ handle order (s'.dirs d) f k } := by
            unfold step
            simp only [hqq]
          rw [e, ih hpr hor { s' with queue := q, invoked := s'.invoked ++ handle order (s'.dirs d) f k } hd hst]
          simp [outstanding, hqq, hd]
      | addPath d c a b => exact absurd (hp _ List.mem_cons_self) id
      | addFile d f c a b c' => exact absurd (hp _ List.mem_cons_self) id
      | removePath d b => exact absurd (hp _ List.mem_cons_self) id
      | removeFile d f b => exact absurd (hp _ List.mem_cons_self) id
      | removeAll b => exact absurd (hp _ List.mem_cons_self) id
  have := key ops hp ho s rfl rfl
  rw [this]
  simp [outstanding, hq, hb]

/-- A monitor with nothing on its way, and a history with one change that has been passed on and one that has not. -/
example : ∃ (s : Monitor) (order : List (Nat × Info)), s.queue = [] ∧ s.buffer = [] ∧
    (∀ o ∈ [Op.change ⟨1, 5, 0x100, false⟩, .deliver, .pop order, .change ⟨1, 6, 0x200, false⟩], Passive o) ∧
    (run s [.change ⟨1, 5, 0x100, false⟩, .deliver, .pop order, .change ⟨1, 6, 0x200, false⟩]).invoked =
      [⟨100, 1, 5, .created⟩] ∧
    outstanding (run s [.change ⟨1, 5, 0x100, false⟩, .deliver, .pop order, .change ⟨1, 6, 0x200, false⟩]) =
      [(1, 6, .deleted)] := by
  refine ⟨run (.init fun d => d + 10) [.addPath 1 100 true true], [(1, ⟨0, 11, some 100, []⟩)], rfl, rfl, fun o h => ?_,
    by decide +kernel, by decide +kernel⟩
  simp only [List.mem_cons, List.not_mem_nil, or_false] at h
  rcases h with rfl | rfl | rfl | rfl <;> trivial

/-- Nothing on its way, nothing happens: nothing is reported. -/
theorem silent_run {s : Monitor} (hq : s.queue = []) (hb : s.buffer = []) {ops : List Op} (ho : ∀ e, Op.change e ∉ ops) :
    (run s ops).invoked = s.invoked := by
  have hdrop : ∀ (s : Monitor) i ok, s.queue = [] → s.buffer = [] → (s.drop i ok).queue = [] ∧ (s.drop i ok).buffer = [] ∧
      (s.drop i ok).invoked = s.invoked := by
    intro s i ok hq hb
    unfold Monitor.drop
    split
    · exact ⟨hq, rfl, rfl⟩
    · exact ⟨hq, hb, rfl⟩
  have hremove : ∀ (s : Monitor) d ok, s.queue = [] → s.buffer = [] → (s.removePath d ok).1.queue = [] ∧
      (s.removePath d ok).1.buffer = [] ∧ (s.removePath d ok).1.invoked = s.invoked := by
    intro s d ok hq hb
    unfold Monitor.removePath
    split
    · exact hdrop _ _ _ hq hb
    · exact ⟨hq, hb, rfl⟩
  have hcreate : ∀ (s : Monitor) d cfOk ok s' i, s.getOrCreate d cfOk ok = some (s', i) → s.queue = [] → s.buffer = [] →
      s'.queue = [] ∧ s'.buffer = [] ∧ s'.invoked = s.invoked := by
    intro s d cfOk ok s' i hg hq hb
    unfold Monitor.getOrCreate at hg
    split at hg
    · cases hg
      exact ⟨hq, hb, rfl⟩
    · split at hg
      · injection hg with hg
        injection hg with h1 _
        subst h1
        exact ⟨hq, rfl, rfl⟩
      · cases hg
  have hstep : ∀ (s : Monitor) (o : Op), (∀ e, o ≠ .change e) → s.queue = [] → s.buffer = [] →
      (step s o).1.queue = [] ∧ (step s o).1.buffer = [] ∧ (step s o).1.invoked = s.invoked := by
    intro s o ho hq hb
    cases o with
    | addPath d c cfOk ok =>
      show (s.addPath d c cfOk ok).1.queue = [] ∧ (s.addPath d c cfOk ok).1.buffer = [] ∧ (s.addPath d c cfOk ok).1.invoked = s.invoked
      unfold Monitor.addPath
      split
      · exact ⟨hq, hb, rfl⟩
      · split
        · exact ⟨hq, hb, rfl⟩
        · rename_i s' i hg
          exact hcreate _ _ _ _ s' _ hg hq hb
    | addFile d f c fd cfOk ok =>
      show (s.addFile d f c fd cfOk ok).1.queue = [] ∧ (s.addFile d f c fd cfOk ok).1.buffer = [] ∧
        (s.addFile d f c fd cfOk ok).1.invoked = s.invoked
      unfold Monitor.addFile
      split
      · exact ⟨hq, hb, rfl⟩
      · split
        · exact ⟨hq, hb, rfl⟩
        · split
          · exact ⟨hq, hb, rfl⟩
          · rename_i s' i hg
            exact hcreate _ _ _ _ s' _ hg hq hb
    | removePath d ok => exact hremove s d ok hq hb
    | removeFile d f ok =>
      show (s.removeFile d f ok).1.queue = [] ∧ (s.removeFile d f ok).1.buffer = [] ∧ (s.removeFile d f ok).1.invoked = s.invoked
      unfold Monitor.removeFile
      split
      · exact ⟨hq, hb, rfl⟩
      · split
        · exact ⟨hq, hb, rfl⟩
        · simp only
          split
          · exact hremove { s with info := _ } d ok hq hb
          · exact ⟨hq, hb, rfl⟩
    | removeAll ok =>
      have : ∀ (l : List (Nat × Info)) (s0 : Monitor), s0.queue = [] → s0.buffer = [] → s0.invoked = s.invoked →
          (l.foldl (fun s e => s.drop e.2 ok) s0).queue = [] ∧ (l.foldl (fun s e => s.drop e.2 ok) s0).buffer = [] ∧
          (l.foldl (fun s e => s.drop e.2 ok) s0).invoked = s.invoked := by
        intro l
        induction l with
        | nil => exact fun s0 h1 h2 h3 => ⟨h1, h2, h3⟩
        | cons a r ih =>
          intro s0 h1 h2 h3
          obtain ⟨k1, k2, k3⟩ := hdrop s0 a.2 ok h1 h2
          exact ih _ k1 k2 (k3.trans h3)
      exact this s.info { s with info := [] } hq hb rfl
    | change e => exact absurd rfl (ho e)
    | deliver => exact ⟨by simp [step, hq, hb], rfl, rfl⟩
    | pop order =>
      simp only [step, hq]
      first | exact ⟨hq, hb, rfl⟩ | simp [hq, hb]
  induction ops generalizing s with
  | nil => rfl
  | cons o r ih =>
    obtain ⟨h1, h2, h3⟩ := hstep s o (fun e h => ho e (h ▸ List.mem_cons_self)) hq hb
    rw [run_cons, ih h1 h2 (fun e h => ho e (List.mem_cons_of_mem _ h)), h3]

/-- C143, against it: a change to a watched file is not reported, ever, if another directory is registered (or one is
removed) before the stream has passed it on: for any monitor with nothing else on its way, whatever happens later. -/
theorem mac_refresh_violated (s : Monitor) (e : Event) (d c : Nat) (ok : Bool) (hq : s.queue = []) (hb : s.buffer = [])
    (hd : s.dirs d ≠ 0) (hnew : get d s.info = none) (ops : List Op) (ho : ∀ e, Op.change e ∉ ops) :
    (step (step s (.change e)).1 (.addPath d c true ok)).2 = true ∧
    (run s ([.change e, .addPath d c true ok] ++ ops)).invoked = s.invoked := by
  have h1 : ∀ s' : Monitor, s'.dirs = s.dirs → s'.info = s.info → s'.queue = [] →
      (s'.addPath d c true ok).2 = true ∧ (s'.addPath d c true ok).1.queue = [] ∧ (s'.addPath d c true ok).1.buffer = [] ∧
      (s'.addPath d c true ok).1.invoked = s'.invoked := by
    intro s' hdirs hinfo hq'
    unfold Monitor.addPath Monitor.getOrCreate
    rw [hdirs, hinfo, hnew, if_neg hd]
    simp only [hd, ne_eq, not_false_eq_true, and_self, if_true]
    exact ⟨trivial, hq', rfl, rfl⟩
  have hch : (step s (.change e)).1.dirs = s.dirs ∧ (step s (.change e)).1.info = s.info ∧ (step s (.change e)).1.queue = [] ∧
      (step s (.change e)).1.invoked = s.invoked := by
    simp only [step]
    split <;> exact ⟨rfl, rfl, hq, rfl⟩
  obtain ⟨k1, k2, k3, k4⟩ := h1 _ hch.1 hch.2.1 hch.2.2.1
  refine ⟨k1, ?_⟩
  show (run (Monitor.addPath (step s (.change e)).1 d c true ok).1 ops).invoked = _
  rw [silent_run k2 k3 ho, k4, hch.2.2.2]

/-- The hypotheses hold of a monitor of one directory, in which the change is noticed. -/
example : let s := run (.init fun d => d + 10) [.addPath 1 100 true true]
    s.queue = [] ∧ s.buffer = [] ∧ s.dirs 2 ≠ 0 ∧ get 2 s.info = none ∧ s.watches ⟨1, 5, 0x1000, false⟩ = true := by
  decide +kernel

/-- C143, against it: a registration succeeds although no stream could be created, and then nothing is noticed in any
directory, the ones registered earlier included. -/
theorem mac_unserved_violated (s : Monitor) (d c : Nat) (hd : s.dirs d ≠ 0) (hnew : get d s.info = none) :
    (s.addPath d c true false).2 = true ∧ ∀ e, (s.addPath d c true false).1.watches e = false := by
  unfold Monitor.addPath Monitor.getOrCreate
  rw [hnew, if_neg hd]
  simp only [hd, ne_eq, not_false_eq_true, and_self, if_true]
  exact ⟨trivial, fun e => rfl⟩

/-- C143, against it: of two spellings of one directory only one is served: an event leads to one call at most, so one of
the two callbacks is not invoked, for whatever order of the hash map. -/
theorem mac_same_directory_violated (order : List (Nat × Info)) (inode file d d' : Nat) (k : PathEvent) (h : d ≠ d') :
    (∀ c ∈ handle order inode file k, c.dir ≠ d) ∨ (∀ c ∈ handle order inode file k, c.dir ≠ d') := by
  have : (handle order inode file k).length ≤ 1 := by
    unfold handle
    split
    · exact Nat.zero_le _
    · split
      · exact Nat.le_refl _
      · exact Nat.zero_le _
  match handle order inode file k, this with
  | [], _ => exact .inl fun c hc => by cases hc
  | [c], _ =>
    by_cases e : c.dir = d
    · refine .inr fun c' hc' => ?_
      rcases List.mem_singleton.1 hc' with rfl
      rw [e]
      exact h
    · refine .inl fun c' hc' => ?_
      rcases List.mem_singleton.1 hc' with rfl
      exact e
  | a :: b :: r, h => exact absurd h (by simp)

/-- C143, against it: files that are moved (`kFSEventStreamEventFlagItemRenamed` is 0x800) are not reported. On Linux they
are (`created` where they appear, `deleted` where they vanish). -/
theorem mac_rename_violated (e : Event) (h : e.flags = 0x800) : queued e = [] := by
  unfold queued
  rw [h]
  split <;> rfl

/-- C143, against it: destroying a monitor is defined only if nothing is registered: otherwise the directories use the parts
of the monitor that are gone. After any history. -/
theorem mac_destroy_violated (dirs : Nat → Nat) (ops : List Op) :
    (run (.init dirs) ops).destroy = true ↔ ∀ d i, ¬ Registered (run (.init dirs) ops) d i := by
  have hI := inv_run (inv_init dirs) ops
  generalize run (.init dirs) ops = s at hI
  unfold Monitor.destroy
  rw [List.all_eq_true]
  constructor
  · intro h d i hr
    have := h (d, i) hr
    exact hI.valid d i ((get_iff hI.keys _ _).2 hr) (by simpa using this)
  · intro h e he
    exact absurd he (h e.1 e.2)

/-! ## What the calls do and return -/

/-- A callback is registered for the directory or for a file in it. -/
def Has (r : Reg) (d : Nat) : Prop := r.path d ≠ none ∨ ∃ f, r.file d f ≠ none

/-- What a call does to the registrations, and when it succeeds: an existing directory can be registered unless the system
refuses a string for a new one, what is not registered cannot be removed, a directory cannot be registered as a file. What
is not a call changes nothing. -/
inductive Effect (dirs : Nat → Nat) (r : Reg) : Op → Bool → Reg → Prop
  | pathAdded (d c : Nat) (cfOk ok : Bool) (h : dirs d ≠ 0) (hc : Has r d ∨ cfOk = true) :
    Effect dirs r (.addPath d c cfOk ok) true (r.after (.pathAdded d c))
  | pathRefused (d c : Nat) (cfOk ok : Bool) (h : dirs d = 0 ∨ ¬ Has r d ∧ cfOk = false) :
    Effect dirs r (.addPath d c cfOk ok) false r
  | fileAdded (d f c : Nat) (cfOk ok : Bool) (h : dirs d ≠ 0) (hc : Has r d ∨ cfOk = true) :
    Effect dirs r (.addFile d f c false cfOk ok) true (r.after (.fileAdded d f c))
  | fileRefused (d f c : Nat) (isDir cfOk ok : Bool) (h : isDir = true ∨ dirs d = 0 ∨ ¬ Has r d ∧ cfOk = false) :
    Effect dirs r (.addFile d f c isDir cfOk ok) false r
  | pathRemoved (d : Nat) (ok : Bool) (h : Has r d) : Effect dirs r (.removePath d ok) true (r.after (.pathRemoved d))
  | pathUnknown (d : Nat) (ok : Bool) (h : ¬ Has r d) : Effect dirs r (.removePath d ok) false r
  | fileRemoved (d f : Nat) (ok : Bool) (h : r.file d f ≠ none) : Effect dirs r (.removeFile d f ok) true (r.after (.fileRemoved d f))
  | fileUnknown (d f : Nat) (ok : Bool) (h : r.file d f = none) : Effect dirs r (.removeFile d f ok) false r
  | allRemoved (ok : Bool) (b : Bool) : Effect dirs r (.removeAll ok) b .empty
  | change (e : Event) (b : Bool) : Effect dirs r (.change e) b r
  | deliver (b : Bool) : Effect dirs r .deliver b r
  | pop (order : List (Nat × Info)) (b : Bool) : Effect dirs r (.pop order) b r

/-- The registrations after a series of steps, with what they returned. -/
inductive Effects (dirs : Nat → Nat) : Reg → List (Op × Bool) → Reg → Prop
  | nil (r : Reg) : Effects dirs r [] r
  | cons {r r' r'' : Reg} {o : Op} {b : Bool} {l : List (Op × Bool)} (h : Effect dirs r o b r') (hs : Effects dirs r' l r'') :
    Effects dirs r ((o, b) :: l) r''

/-- What the steps of a history returned. -/
def returned (s : Monitor) : List Op → List (Op × Bool)
  | [] => []
  | o :: r => (o, (step s o).2) :: returned (step s o).1 r

/-- The monitor holds these registrations: a directory with any is in the map, with the callbacks, and no other is. -/
structure Holds (s : Monitor) (r : Reg) : Prop where
  some : ∀ d i, get d s.info = some i → i.handler = r.path d ∧ (∀ f, get f i.files = r.file d f) ∧ Has r d
  none : ∀ d, get d s.info = none → ¬ Has r d

theorem Holds.has {s : Monitor} {r : Reg} (h : Holds s r) {d : Nat} : Has r d ↔ ∃ i, get d s.info = .some i := by
  constructor
  · intro hh
    cases hg : get d s.info with
    | none => exact absurd hh (h.none d hg)
    | some i => exact ⟨i, rfl⟩
  · rintro ⟨i, hi⟩
    exact (h.some d i hi).2.2

theorem Holds.congr {s s' : Monitor} {r : Reg} (h : Holds s r) (e : s'.info = s.info) : Holds s' r :=
  ⟨fun d i hg => h.some d i (e ▸ hg), fun d hg => h.none d (e ▸ hg)⟩

/-- One directory changes. -/
theorem Holds.update {s s' : Monitor} {r r' : Reg} (h : Holds s r) {d : Nat} {i' : Info} (e : s'.info = PathMonitor.put d i' s.info)
    (hp : i'.handler = r'.path d) (hf : ∀ f, get f i'.files = r'.file d f) (hh : Has r' d)
    (ho : ∀ x, x ≠ d → r'.path x = r.path x ∧ ∀ f, r'.file x f = r.file x f) : Holds s' r' := by
  have hx : ∀ x, x ≠ d → (Has r' x ↔ Has r x) := by
    intro x hx
    unfold Has
    rw [(ho x hx).1]
    simp only [(ho x hx).2]
  refine ⟨fun x i hg => ?_, fun x hg => ?_⟩
  · rw [e, get_put] at hg
    by_cases hxd : x = d
    · subst hxd
      rw [if_pos rfl] at hg
      injection hg with hg
      subst hg
      exact ⟨hp, hf, hh⟩
    · rw [if_neg hxd] at hg
      obtain ⟨h1, h2, h3⟩ := h.some x i hg
      refine ⟨h1.trans (ho x hxd).1.symm, fun f => (h2 f).trans ((ho x hxd).2 f).symm, (hx x hxd).2 h3⟩
  · rw [e, get_put] at hg
    by_cases hxd : x = d
    · rw [if_pos hxd] at hg; cases hg
    · rw [if_neg hxd] at hg
      rw [hx x hxd]
      exact h.none x hg

/-- One directory goes. -/
theorem Holds.remove {s s' : Monitor} {r r' : Reg} (h : Holds s r) {d : Nat} (e : ∀ x, get x s'.info = if x = d then Option.none else get x s.info) (hh : ¬ Has r' d)
    (ho : ∀ x, x ≠ d → r'.path x = r.path x ∧ ∀ f, r'.file x f = r.file x f) : Holds s' r' := by
  have hx : ∀ x, x ≠ d → (Has r' x ↔ Has r x) := by
    intro x hx
    unfold Has
    rw [(ho x hx).1]
    simp only [(ho x hx).2]
  refine ⟨fun x i hg => ?_, fun x hg => ?_⟩
  · rw [e] at hg
    by_cases hxd : x = d
    · rw [if_pos hxd] at hg; cases hg
    · rw [if_neg hxd] at hg
      obtain ⟨h1, h2, h3⟩ := h.some x i hg
      refine ⟨h1.trans (ho x hxd).1.symm, fun f => (h2 f).trans ((ho x hxd).2 f).symm, (hx x hxd).2 h3⟩
  · by_cases hxd : x = d
    · rw [hxd]; exact hh
    · rw [e, if_neg hxd] at hg
      rw [hx x hxd]
      exact h.none x hg

theorem drop_info (s : Monitor) (i : Info) (ok : Bool) : (s.drop i ok).info = s.info ∧ (s.drop i ok).dirs = s.dirs := by
  unfold Monitor.drop
  split <;> exact ⟨rfl, rfl⟩

theorem removePath_info (s : Monitor) (d : Nat) (ok : Bool) :
    (s.removePath d ok).1.dirs = s.dirs ∧
    match get d s.info with
    | some _ => (s.removePath d ok).2 = true ∧ (s.removePath d ok).1.info = del d s.info
    | none => (s.removePath d ok).2 = false ∧ (s.removePath d ok).1.info = s.info := by
  unfold Monitor.removePath
  cases get d s.info with
  | none => simp
  | some i => simp [drop_info]

theorem getOrCreate_info (s : Monitor) (d : Nat) (cfOk ok : Bool) :
    match s.getOrCreate d cfOk ok with
    | some (s', i) => s'.dirs = s.dirs ∧
        ((get d s.info = some i ∧ s'.info = s.info) ∨
         (get d s.info = none ∧ cfOk = true ∧ s.dirs d ≠ 0 ∧ i.handler = none ∧ i.files = [] ∧ s'.info = PathMonitor.put d i s.info))
    | none => get d s.info = none ∧ (cfOk = false ∨ s.dirs d = 0) := by
  unfold Monitor.getOrCreate
  cases hg : get d s.info with
  | some i => exact ⟨by trivial, .inl ⟨by trivial, by trivial⟩⟩
  | none =>
    simp only
    by_cases hc : cfOk = true ∧ s.dirs d ≠ 0
    · rw [if_pos hc]
      exact ⟨by rfl, .inr ⟨by trivial, hc.1, hc.2, by trivial, by trivial, by rfl⟩⟩
    · rw [if_neg hc]
      refine ⟨by trivial, ?_⟩
      by_cases h : s.dirs d = 0
      · exact .inr h
      · refine .inl ?_
        cases cfOk
        · rfl
        · exact absurd ⟨rfl, h⟩ hc

theorem put_put {β : Type} (d : Nat) (v w : β) (l : List (Nat × β)) : PathMonitor.put d w (PathMonitor.put d v l) = PathMonitor.put d w l := by
  induction l with
  | nil => simp [PathMonitor.put]
  | cons e l ih =>
    obtain ⟨k, x⟩ := e
    by_cases h : k = d
    · simp [PathMonitor.put, h]
    · simp [PathMonitor.put, h, ih]

/-- After `getOrCreate` and a change to the entry. -/
theorem added_info {s s' : Monitor} {d : Nat} {cfOk ok : Bool} {i j : Info} (hg : s.getOrCreate d cfOk ok = some (s', i)) :
    ({ s' with info := PathMonitor.put d j s'.info } : Monitor).info = PathMonitor.put d j s.info := by
  have := getOrCreate_info s d cfOk ok
  rw [hg] at this
  obtain ⟨-, ⟨-, h⟩ | ⟨-, -, -, -, -, h⟩⟩ := this
  · show PathMonitor.put d j s'.info = _
    rw [h]
  · show PathMonitor.put d j s'.info = _
    rw [h, put_put]

theorem step_effect {s : Monitor} (hI : Inv s) {r : Reg} (h : Holds s r) (o : Op) :
    (step s o).1.dirs = s.dirs ∧ ∃ r', Effect s.dirs r o (step s o).2 r' ∧ Holds (step s o).1 r' := by
  cases o with
  | addPath d c cfOk ok =>
    simp only [step]
    unfold Monitor.addPath
    by_cases hd : s.dirs d = 0
    · rw [if_pos hd]
      exact ⟨rfl, r, .pathRefused d c cfOk ok (.inl hd), h⟩
    · rw [if_neg hd]
      have hi := getOrCreate_info s d cfOk ok
      cases hg : s.getOrCreate d cfOk ok with
      | none =>
        rw [hg] at hi
        refine ⟨rfl, r, .pathRefused d c cfOk ok (.inr ⟨h.none d hi.1, hi.2.resolve_right hd⟩), h⟩
      | some p =>
        obtain ⟨s', i⟩ := p
        rw [hg] at hi
        simp only at hi ⊢
        refine ⟨hi.1, _, .pathAdded d c cfOk ok hd ?_, h.update (added_info hg) ?_ ?_ ?_ ?_⟩
        · rcases hi.2 with ⟨h1, -⟩ | ⟨-, h1, -⟩
          · exact .inl (h.some d i h1).2.2
          · exact .inr h1
        · simp [Reg.after]
        · intro f
          simp only [Reg.after]
          rcases hi.2 with ⟨h1, -⟩ | ⟨h1, -, -, -, h2, -⟩
          · exact (h.some d i h1).2.1 f
          · have := h.none d h1
            rw [h2]
            simp only [Has, not_or, not_exists, ne_eq, Decidable.not_not] at this
            exact (this.2 f).symm
        · exact .inl (by simp [Reg.after])
        · intro x hx
          simp [Reg.after, hx]
  | addFile d f c fd cfOk ok =>
    simp only [step]
    unfold Monitor.addFile
    by_cases hfd : fd = true
    · rw [if_pos hfd]
      exact ⟨rfl, r, .fileRefused d f c fd cfOk ok (.inl hfd), h⟩
    rw [if_neg hfd]
    by_cases hd : s.dirs d = 0
    · rw [if_pos hd]
      exact ⟨rfl, r, .fileRefused d f c fd cfOk ok (.inr (.inl hd)), h⟩
    · rw [if_neg hd]
      have hfd : fd = false := by simpa using hfd
      subst hfd
      have hi := getOrCreate_info s d cfOk ok
      cases hg : s.getOrCreate d cfOk ok with
      | none =>
        rw [hg] at hi
        exact ⟨rfl, r, .fileRefused d f c false cfOk ok (.inr (.inr ⟨h.none d hi.1, hi.2.resolve_right hd⟩)), h⟩
      | some p =>
        obtain ⟨s', i⟩ := p
        rw [hg] at hi
        simp only at hi ⊢
        refine ⟨hi.1, _, .fileAdded d f c cfOk ok hd ?_, h.update (added_info hg) ?_ ?_ ?_ ?_⟩
        · rcases hi.2 with ⟨h1, -⟩ | ⟨-, h1, -⟩
          · exact .inl (h.some d i h1).2.2
          · exact .inr h1
        · simp only [Reg.after]
          rcases hi.2 with ⟨h1, -⟩ | ⟨h1, -, -, h2, -, -⟩
          · exact (h.some d i h1).1
          · have := h.none d h1
            rw [h2]
            simp only [Has, not_or, not_exists, ne_eq, Decidable.not_not] at this
            exact this.1.symm
        · intro g
          simp only [Reg.after, get_put, true_and]
          by_cases hgf : g = f
          · simp [hgf]
          · rw [if_neg hgf, if_neg hgf]
            rcases hi.2 with ⟨h1, -⟩ | ⟨h1, -, -, -, h2, -⟩
            · exact (h.some d i h1).2.1 g
            · have := h.none d h1
              rw [h2]
              simp only [Has, not_or, not_exists, ne_eq, Decidable.not_not] at this
              exact (this.2 g).symm
        · exact .inr ⟨f, by simp [Reg.after]⟩
        · intro x hx
          simp [Reg.after, hx]
  | removePath d ok =>
    simp only [step]
    obtain ⟨h1, h2⟩ := removePath_info s d ok
    refine ⟨h1, ?_⟩
    cases hg : get d s.info with
    | none =>
      rw [hg] at h2
      rw [h2.1]
      exact ⟨r, .pathUnknown d ok (h.none d hg), h.congr h2.2⟩
    | some i =>
      rw [hg] at h2
      rw [h2.1]
      refine ⟨_, .pathRemoved d ok (h.some d i hg).2.2, h.remove (d := d) (fun x => by rw [h2.2, get_del]) (by simp [Has, Reg.after]) ?_⟩
      intro x hx
      simp [Reg.after, hx]
  | removeFile d f ok =>
    simp only [step]
    unfold Monitor.removeFile
    cases hg : get d s.info with
    | none =>
      have hn := h.none d hg
      refine ⟨rfl, r, .fileUnknown d f ok ?_, h⟩
      simp only [Has, not_or, not_exists, ne_eq, Decidable.not_not] at hn
      exact hn.2 f
    | some i =>
      obtain ⟨p1, p2, p3⟩ := h.some d i hg
      simp only
      cases hf : get f i.files with
      | none =>
        refine ⟨rfl, r, .fileUnknown d f ok ?_, h⟩
        rw [← p2 f]
        exact hf
      | some c =>
        simp only
        have hsome : r.file d f ≠ none := by rw [← p2 f, hf]; exact fun e => by cases e
        have hother : ∀ x, x ≠ d → (r.after (.fileRemoved d f)).path x = r.path x ∧ ∀ g, (r.after (.fileRemoved d f)).file x g = r.file x g := by
          intro x hx
          simp [Reg.after, hx]
        have hfile : ∀ g, get g (del f i.files) = (r.after (.fileRemoved d f)).file d g := by
          intro g
          simp only [Reg.after, get_del, true_and]
          split
          · rfl
          · exact p2 g
        by_cases hpr : del f i.files = [] ∧ i.handler = none
        · rw [if_pos hpr]
          obtain ⟨q1, q2⟩ := removePath_info { s with info := PathMonitor.put d { i with files := del f i.files } s.info } d ok
          simp only [get_put, if_true] at q2
          refine ⟨q1, _, by rw [q2.1]; exact .fileRemoved d f ok hsome, ?_⟩
          refine h.remove (d := d) (fun x => ?_) ?_ ?_
          · rw [q2.2, get_del, get_put]
            by_cases hx : x = d <;> simp [hx]
          · intro hh
            rcases hh with hh | ⟨g, hh⟩
            · exact hh (by simp only [Reg.after]; rw [← p1]; exact hpr.2)
            · exact hh (by rw [← hfile g, hpr.1]; rfl)
          · intro x hx
            simp [Reg.after, hx]
        · rw [if_neg hpr]
          refine ⟨rfl, _, .fileRemoved d f ok hsome, h.update rfl p1 hfile ?_ hother⟩
          by_cases hh : i.handler = none
          · have hne : del f i.files ≠ [] := fun e => hpr ⟨e, hh⟩
            obtain ⟨e, l, hl⟩ := List.exists_cons_of_ne_nil hne
            refine .inr ⟨e.1, ?_⟩
            rw [← hfile e.1, hl]
            simp [get]
          · refine .inl ?_
            show r.path d ≠ none
            rw [← p1]
            exact hh
  | removeAll ok =>
    simp only [step]
    obtain ⟨h1, h2⟩ := removeAll_facts hI ok
    refine ⟨?_, .empty, .allRemoved ok true, ⟨fun d i hg => ?_, fun d hg hh => ?_⟩⟩
    · have : ∀ (l : List (Nat × Info)) (s0 : Monitor), (l.foldl (fun s e => s.drop e.2 ok) s0).dirs = s0.dirs := by
        intro l
        induction l with
        | nil => exact fun _ => rfl
        | cons a l ih => intro s0; exact (ih _).trans (drop_info _ _ _).2
      exact this s.info { s with info := [] }
    · rw [h2] at hg; cases hg
    · rcases hh with hh | ⟨f, hh⟩ <;> exact hh rfl
  | change e =>
    refine ⟨?_, r, .change e _, h.congr ?_⟩ <;> (simp only [step]; split <;> rfl)
  | deliver => exact ⟨rfl, r, .deliver _, h.congr rfl⟩
  | pop order =>
    refine ⟨?_, r, .pop order _, h.congr ?_⟩ <;> (simp only [step]; split <;> rfl)

/-- C143: every call returns what it should and does to the registrations what it should, over any history: what the monitor
holds after it are the registrations of the calls that succeeded. -/
theorem mac_registrations (dirs : Nat → Nat) (ops : List Op) :
    ∃ r, Effects dirs .empty (returned (.init dirs) ops) r ∧
      ∀ d, (∀ i, Registered (run (.init dirs) ops) d i → i.handler = r.path d ∧ ∀ f, get f i.files = r.file d f) ∧
        ((∃ i, Registered (run (.init dirs) ops) d i) ↔ r.path d ≠ none ∨ ∃ f, r.file d f ≠ none) := by
  have key : ∀ (ops : List Op) (s : Monitor) (r : Reg), Inv s → Holds s r → s.dirs = dirs →
      ∃ r', Effects dirs r (returned s ops) r' ∧ Holds (run s ops) r' := by
    intro ops
    induction ops with
    | nil => exact fun s r _ h _ => ⟨r, .nil r, h⟩
    | cons o l ih =>
      intro s r hI h hd
      obtain ⟨e, r', he, h'⟩ := step_effect hI h o
      obtain ⟨r'', hes, h''⟩ := ih _ r' (hI.step o) h' (e.trans hd)
      exact ⟨r'', .cons (hd ▸ he) hes, h''⟩
  obtain ⟨r, he, h⟩ := key ops (.init dirs) .empty (inv_init dirs)
    ⟨fun d i hg => (by cases hg), fun d _ hh => (by rcases hh with hh | ⟨f, hh⟩ <;> exact hh rfl)⟩ rfl
  have hI := inv_run (inv_init dirs) ops
  refine ⟨r, he, fun d => ⟨fun i hi => ?_, ?_⟩⟩
  · obtain ⟨h1, h2, -⟩ := h.some d i ((get_iff hI.keys _ _).2 hi)
    exact ⟨h1, h2⟩
  · refine Iff.trans ?_ h.has.symm
    exact ⟨fun ⟨i, hi⟩ => ⟨i, (get_iff hI.keys _ _).2 hi⟩, fun ⟨i, hi⟩ => ⟨i, (get_iff hI.keys _ _).1 hi⟩⟩

/-- A history in which some calls fail. -/
example : (returned (.init fun d => if d = 1 then 11 else 0) [.addPath 1 100 true true, .addPath 2 100 true true,
      .removePath 2 true, .addFile 1 7 200 false false true, .addFile 1 8 200 true true true, .removeFile 1 7 true,
      .removeFile 1 7 true, .removePath 1 true]).map (·.2) = [true, false, false, true, false, true, false, true] := by
  decide +kernel

/-! ## How long a poll lasts -/

/-- The loop of `poll` (mac/path_monitor_impl.mm 81-107): every turn either pops an event or not, and takes so many
nanoseconds, which are rounded down to milliseconds. The result is the time remaining (milliseconds). -/
def pollLoop : Nat → List (Bool × Nat) → Nat
  | remaining, [] => remaining
  | remaining, (_, ns) :: r =>
    if remaining = 0 then 0
    else if ns / 1000000 ≥ remaining then pollLoop 0 r
    else pollLoop (remaining - ns / 1000000) r

theorem pollLoop_zero (r : List (Bool × Nat)) : pollLoop 0 r = 0 := by
  cases r <;> simp [pollLoop]

/-- C143: a turn that does not get an event waits for all the time that remains, and so ends the poll. -/
theorem mac_poll_idle (remaining : Nat) (ns : Nat) (r : List (Bool × Nat)) (h : remaining * 1000000 ≤ ns) :
    pollLoop remaining ((false, ns) :: r) = 0 := by
  have hd : remaining ≤ ns / 1000000 := by omega
  unfold pollLoop
  by_cases h0 : remaining = 0
  · rw [if_pos h0]
  · rw [if_neg h0, if_pos hd]
    exact pollLoop_zero r

/-- C143, against it: events that are handled in less than a millisecond each do not use up the time of the poll: with a
timeout of one millisecond (or any other), it can last as long as you like, and other tasks of the runner wait. -/
theorem mac_poll_violated (timeout n ns : Nat) (h : ns < 1000000) (ht : 0 < timeout) :
    pollLoop timeout (List.replicate n (true, ns)) = timeout := by
  induction n with
  | zero => rfl
  | succ n ih =>
    have : ns / 1000000 = 0 := by omega
    rw [List.replicate_succ]
    simp only [pollLoop, this, Nat.sub_zero]
    rw [if_neg (by omega), if_neg (by omega)]
    exact ih

/-! ## Examples -/

/-- Two directories; one file has a callback of its own. -/
def exampleDirs (d : Nat) : Nat := if d = 1 then 11 else if d = 2 then 22 else if d = 3 then 11 else 0

/-- Registration, changes, delivery, two turns of the poll. -/
example :
    (run (.init exampleDirs) [.addPath 1 100 true true, .addFile 2 7 200 false true true,
      .change ⟨1, 5, 0x1100, false⟩, .change ⟨2, 7, 0x200, false⟩, .deliver,
      .pop [(1, ⟨0, 11, some 100, []⟩), (2, ⟨1, 22, none, [(7, 200)]⟩)],
      .pop [(1, ⟨0, 11, some 100, []⟩), (2, ⟨1, 22, none, [(7, 200)]⟩)],
      .pop [(1, ⟨0, 11, some 100, []⟩), (2, ⟨1, 22, none, [(7, 200)]⟩)]]).invoked =
    [⟨100, 1, 5, .created⟩, ⟨100, 1, 5, .changed⟩, ⟨200, 2, 7, .deleted⟩] := by decide +kernel

/-- The same changes, with the second registration after the first change. -/
example :
    (run (.init exampleDirs) [.addPath 1 100 true true, .change ⟨1, 5, 0x1100, false⟩, .addFile 2 7 200 false true true,
      .deliver, .pop [(1, ⟨0, 11, some 100, []⟩), (2, ⟨1, 22, none, [(7, 200)]⟩)]]).invoked = [] := by decide +kernel

/-- A monitor in which the spellings 1 and 3 are the same directory. -/
example : (run (.init exampleDirs) [.addPath 1 100 true true, .addPath 3 300 true true, .change ⟨1, 5, 0x100, false⟩, .deliver,
      .pop [(3, ⟨1, 11, some 300, []⟩), (1, ⟨0, 11, some 100, []⟩)]]).invoked = [⟨300, 3, 5, .created⟩] := by decide +kernel

/-- The removal of what was registered makes destruction defined. -/
example : (run (.init exampleDirs) [.addPath 1 100 true true]).destroy = false ∧
    (run (.init exampleDirs) [.addPath 1 100 true true, .removePath 1 true]).destroy = true := by decide +kernel

end Verif.PathMonitor.Mac
