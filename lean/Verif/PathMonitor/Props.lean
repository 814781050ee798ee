import Verif.PathMonitor.Lemmas

/-!
# The path monitor: the properties
-/

namespace Verif.PathMonitor

/-! ## C52: which callback is invoked -/

/-- The event reported for a mask: created if an entry appeared, otherwise deleted if one disappeared, otherwise
changed if one was modified, otherwise none. -/
theorem convert_to_event_spec (mask : Nat) :
    (convertToEvent mask = .created ↔ appeared mask) ∧
    (convertToEvent mask = .deleted ↔ ¬ appeared mask ∧ disappeared mask) ∧
    (convertToEvent mask = .changed ↔ ¬ appeared mask ∧ ¬ disappeared mask ∧ modified mask) ∧
    (convertToEvent mask = .none ↔ ¬ appeared mask ∧ ¬ disappeared mask ∧ ¬ modified mask) := by
  have h8 : (mask &&& inCreate ≠ 0) ↔ mask.testBit 8 = true := testBit_and mask 8
  have h7 : (mask &&& inMovedTo ≠ 0) ↔ mask.testBit 7 = true := testBit_and mask 7
  have h9 : (mask &&& inDelete ≠ 0) ↔ mask.testBit 9 = true := testBit_and mask 9
  have h6 : (mask &&& inMovedFrom ≠ 0) ↔ mask.testBit 6 = true := testBit_and mask 6
  have h1 : (mask &&& inModify ≠ 0) ↔ mask.testBit 1 = true := testBit_and mask 1
  have ha : (mask &&& inCreate ≠ 0 ∨ mask &&& inMovedTo ≠ 0) ↔ appeared mask := by rw [h8, h7]; rfl
  have hd : (mask &&& inDelete ≠ 0 ∨ mask &&& inMovedFrom ≠ 0) ↔ disappeared mask := by rw [h9, h6]; rfl
  have hm : (mask &&& inModify ≠ 0) ↔ modified mask := h1
  unfold convertToEvent
  by_cases a : appeared mask
  · rw [if_pos (ha.mpr a)]; simp [a]
  · rw [if_neg (fun h => a (ha.mp h))]
    by_cases d : disappeared mask
    · rw [if_pos (hd.mpr d)]; simp [a, d]
    · rw [if_neg (fun h => d (hd.mp h))]
      by_cases m : modified mask
      · rw [if_pos (hm.mpr m)]; simp [a, d, m]
      · rw [if_neg (fun h => m (hm.mp h))]; simp [a, d, m]

/-- `IN_MOVED_TO` and `IN_MODIFY`. -/
example : convertToEvent 0x80 = .created ∧ convertToEvent 2 = .changed ∧ convertToEvent 0x20 = .none := by decide

/-- What an event for the file `f` of directory `d` should cause: one call of the callback registered for the file, else
of the one registered for the directory, else nothing; nothing either if the mask is of no reported kind. -/
def expected (r : Reg) (d f mask : Nat) : List Call :=
  if convertToEvent mask = .none then []
  else
    match r.callback d f with
    | some c => [⟨c, d, f, convertToEvent mask⟩]
    | none => []

theorem handleEvent_expected {s : Monitor} {r : Reg} (h : MInv s r) {order : List (Nat × Info)} (ho : order.Perm s.info) {d : Nat} {info : Info}
    (hg : get d s.info = some info) (f mask : Nat) : handleEvent order ⟨info.wd, f, mask⟩ = expected r d f mask := by
  unfold handleEvent expected Reg.callback
  rw [find_wd h ho hg]
  simp only []
  obtain ⟨h1, h2⟩ := h.present d info hg
  rw [h2 f, h1]
  split
  · rfl
  · cases r.file d f <;> rfl

/-- `occur` for each of the entries, then a dispatch for each of the orders. -/
def happen (i : Nat) (evs : List (Nat × Nat)) (s : Monitor) : Monitor :=
  evs.foldl (fun s e => (s.step (.occur i e.1 e.2)).1) s

/-- Dispatches with the given orders of traversal. -/
def dispatches (orders : List (List (Nat × Info))) (s : Monitor) : Monitor := orders.foldl Monitor.dispatch s

theorem happen_watched (i w : Nat) (evs : List (Nat × Nat)) : ∀ s : Monitor, get i s.watches = some w →
    happen i evs s = { s with queue := s.queue ++ evs.map fun e => ⟨w, e.1, e.2⟩ } := by
  induction evs with
  | nil => intro s _; simp [happen]
  | cons e evs ih =>
    intro s hw
    have e1 : happen i (e :: evs) s = happen i evs (s.step (.occur i e.1 e.2)).1 := rfl
    have e2 : (s.step (.occur i e.1 e.2)).1 = { s with queue := s.queue ++ [⟨w, e.1, e.2⟩] } := by
      simp only [Monitor.step, hw]
    rw [e1, e2, ih { s with queue := s.queue ++ [⟨w, e.1, e.2⟩] } hw]
    simp

theorem happen_unwatched (i : Nat) (evs : List (Nat × Nat)) : ∀ s : Monitor, get i s.watches = none → happen i evs s = s := by
  induction evs with
  | nil => intro s _; rfl
  | cons e evs ih =>
    intro s hw
    have e1 : happen i (e :: evs) s = happen i evs (s.step (.occur i e.1 e.2)).1 := rfl
    have e2 : (s.step (.occur i e.1 e.2)).1 = s := by simp only [Monitor.step, hw]
    rw [e1, e2, ih s hw]

theorem dispatches_empty : ∀ (orders : List (List (Nat × Info))) (s : Monitor), s.queue = [] → dispatches orders s = s := by
  intro orders
  induction orders with
  | nil => intro s _; rfl
  | cons o orders ih =>
    intro s hq
    have : s.dispatch o = s := by simp only [Monitor.dispatch, hq]
    show dispatches orders (s.dispatch o) = s
    rw [this]; exact ih s hq

theorem dispatches_watched {s : Monitor} {r : Reg} (h : MInv s r) {d : Nat} {info : Info} (hg : get d s.info = some info) :
    ∀ (evs : List (Nat × Nat)) (orders : List (List (Nat × Info))) (calls : List Call), (∀ o ∈ orders, o.Perm s.info) →
      orders.length = evs.length →
      (dispatches orders { s with
        queue := evs.map (fun e => ⟨info.wd, e.1, e.2⟩)
        invoked := calls }).invoked = calls ++ evs.flatMap fun e => expected r d e.1 e.2 := by
  intro evs
  induction evs with
  | nil => intro orders calls _ hl; rw [List.length_eq_zero_iff.mp hl]; simp [dispatches]
  | cons e evs ih =>
    intro orders calls ho hl
    cases orders with
    | nil => cases hl
    | cons o orders =>
      show (dispatches orders (Monitor.dispatch _ o)).invoked = _
      simp only [Monitor.dispatch, List.map_cons]
      rw [handleEvent_expected h (ho o List.mem_cons_self) hg]
      have := ih orders (calls ++ expected r d e.1 e.2) (fun o' hm => ho o' (List.mem_cons_of_mem _ hm)) (by simpa using hl)
      rw [List.flatMap_cons, ← List.append_assoc]
      exact this

/-- C52, as far as it holds: in every history without removal of a monitored directory, without aliases of directories, and
without registrations for a directory that a concurrent `remove_file` is about to prune: whatever happens to
the entries of a directory is reported in order, each event by exactly one call, of the callback of the file, else of the
directory, with the file's path and the kind of the event; and by no call if nothing is registered. -/
theorem dispatch_partial (dirs : Nat → Option Nat) (hd : NoAlias dirs) (s : Monitor) (h : List Done) (he : CalmExec dirs s h)
    (hq : s.queue = []) (d i : Nat) (hi : s.dirs d = some i) (evs : List (Nat × Nat)) (orders : List (List (Nat × Info)))
    (ho : ∀ o ∈ orders, o.Perm s.info) (hl : orders.length = evs.length) :
    (dispatches orders (happen i evs s)).invoked = s.invoked ++ evs.flatMap fun e => expected (registered h) d e.1 e.2 := by
  have hm := mInv hd he
  cases hg : get d s.info with
  | some info =>
    obtain ⟨j, h1, h2⟩ := hm.watched d info hg
    rw [hi] at h1; cases h1
    rw [happen_watched i info.wd evs s h2, hq, List.nil_append]
    exact dispatches_watched hm hg evs orders s.invoked ho hl
  | none =>
    have hw : get i s.watches = none := by
      cases hw : get i s.watches with
      | none => rfl
      | some w =>
        obtain ⟨d', info, h1, h2⟩ := hm.used i w hw
        have := hm.alias d d' i hi h2
        subst this
        rw [hg] at h1; cases h1
    rw [happen_unwatched i evs s hw, dispatches_empty orders s hq]
    have ha := hm.absent d hg
    have : evs.flatMap (fun e => expected (registered h) d e.1 e.2) = [] := by
      rw [List.flatMap_eq_nil_iff]
      intro e _
      simp only [expected, Reg.callback, ha.1, ha.2 e.1, ite_self]
    rw [this, List.append_nil]

/-- A file system with two directories. -/
def twoDirs : Nat → Option Nat
  | 1 => some 10
  | 2 => some 20
  | _ => none

theorem twoDirs_noAlias : NoAlias twoDirs := by
  intro d d' i h h'
  unfold twoDirs at h h'
  split at h <;> split at h' <;> first | rfl | (cases h; done) | (cases h'; done) | (cases h; cases h')

/-- The callbacks 7 for directory 1 and 8 for its file 5: the events of files 5 and 6. -/
example : ∃ s h, CalmExec twoDirs s h ∧ s.queue = [] ∧ s.dirs 1 = some 10 ∧
    (dispatches [s.info, s.info] (happen 10 [(5, inModify), (6, inCreate)] s)).invoked = [⟨8, 1, 5, .changed⟩, ⟨7, 1, 6, .created⟩] := by
  refine ⟨_, _, .step (.addFile 1 5 8 false true) (.step (.addPath 1 7 true) .init trivial (by simp [Calm, Monitor.init])) trivial
    (by simp [Calm, Monitor.step, Monitor.addPath, Monitor.getOrCreate, Monitor.addWatch, Monitor.init, twoDirs, get]), ?_⟩
  decide +kernel

/-- In any history, without exception: whatever is dispatched, at most one call is made, and only of a callback that is
registered, for that very file or for its directory. In particular a callback that was removed is
never invoked again. -/
theorem only_registered_called (dirs : Nat → Option Nat) (s : Monitor) (h : List Done) (he : Exec dirs s h) (order : List (Nat × Info))
    (ho : order.Perm s.info) : (s.dispatch order).invoked = s.invoked ∨
      ∃ c d f ev, (s.dispatch order).invoked = s.invoked ++ [⟨c, d, f, ev⟩] ∧
        ((registered h).file d f = some c ∨ (registered h).path d = some c) := by
  have hk := below he
  unfold Monitor.dispatch
  cases hq : s.queue with
  | nil => exact .inl rfl
  | cons e q =>
    simp only []
    unfold handleEvent
    cases hf : order.find? (fun p => p.2.wd == e.wd) with
    | none => exact .inl (List.append_nil _)
    | some p =>
      obtain ⟨d, info⟩ := p
      simp only []
      have hm : (d, info) ∈ s.info := ho.mem_iff.mp (List.mem_of_find?_eq_some hf)
      obtain ⟨h1, h2⟩ := hk.2 d info ((get_iff hk.1 d info).mpr hm)
      split
      · exact .inl (List.append_nil _)
      · cases hc : get e.name info.files with
        | some c => exact .inr ⟨c, d, e.name, _, rfl, .inl (h2 e.name c hc)⟩
        | none =>
          simp only []
          cases hp : info.pathHandler with
          | some c => exact .inr ⟨c, d, e.name, _, rfl, .inr (h1 c hp)⟩
          | none => exact .inl (List.append_nil _)

/-- `add_path` succeeds if the directory exists and the kernel agrees, `add_file` if moreover the file is not itself a
directory; a refused registration changes nothing; and `remove_file` succeeds exactly for a
registered file; `remove_path` succeeds if anything is registered for the directory. -/
theorem results_partial (dirs : Nat → Option Nat) (hd : NoAlias dirs) (s : Monitor) (h : List Done) (he : CalmExec dirs s h) (d f c : Nat) :
    ((s.addPath d c true).2 = true ↔ s.dirs d ≠ none) ∧
    (∀ isDir, (s.addFile d f c isDir true).2 = true ↔ isDir = false ∧ s.dirs d ≠ none) ∧
    (∀ isDir ok, (s.addFile d f c isDir ok).2 = false → (s.addFile d f c isDir ok).1 = s) ∧
    (∀ ok, (s.addPath d c ok).2 = false → (s.addPath d c ok).1 = s) ∧
    ((s.removeFile d f).2 = true ↔ (registered h).file d f ≠ none) ∧
    (((registered h).path d ≠ none ∨ (registered h).file d f ≠ none) → (s.removePath d).2 = true) := by
  have hm := mInv hd he
  have hgc : s.dirs d ≠ none → ∃ p, s.getOrCreate d true = some p := by
    intro hne
    unfold Monitor.getOrCreate Monitor.addWatch
    cases get d s.info with
    | some info => exact ⟨_, rfl⟩
    | none =>
      cases hdd : s.dirs d with
      | none => exact absurd hdd hne
      | some i =>
        simp only [if_true]
        cases get i s.watches <;> exact ⟨_, rfl⟩
  refine ⟨?_, ?_, ?_, ?_, ?_, ?_⟩
  · unfold Monitor.addPath
    by_cases hn : s.dirs d = none
    · rw [if_pos hn]; simp [hn]
    · obtain ⟨p, hp⟩ := hgc hn
      rw [if_neg hn, hp]; simp [hn]
  · intro isDir
    unfold Monitor.addFile
    cases isDir with
    | true => simp
    | false =>
      by_cases hn : s.dirs d = none
      · simp [hn]
      · obtain ⟨p, hp⟩ := hgc hn
        rw [if_neg (by simp), if_neg hn, hp]; simp [hn]
  · intro isDir ok
    unfold Monitor.addFile
    split
    · exact fun _ => rfl
    · split
      · exact fun _ => rfl
      · split
        · exact fun _ => rfl
        · intro h; cases h
  · intro ok
    unfold Monitor.addPath
    split
    · exact fun _ => rfl
    · split
      · exact fun _ => rfl
      · intro h; cases h
  · unfold Monitor.removeFile
    cases hg : get d s.info with
    | none => simp [(hm.absent d hg).2 f]
    | some info =>
      simp only []
      rw [← (hm.present d info hg).2 f]
      cases get f info.files with
      | none => simp
      | some x => simp only []; split <;> simp
  · intro hr
    unfold Monitor.removePath
    cases hg : get d s.info with
    | none =>
      have := hm.absent d hg
      rw [this.1, this.2 f] at hr
      rcases hr with hr | hr <;> exact absurd rfl hr
    | some info => rfl

/-! ## C53: concurrent registration -/

/-- The schedule: file 5 of directory 1 is registered; one thread removes it; between the two critical sections of that
call another thread registers file 6, and is told that this succeeded. -/
def raceOps : List Op := [.addFile 1 5 7 false true, .removeFile 1 5, .addFile 1 6 8 false true, .prune 1]

/-- The steps of a list of operations, with the calls that succeeded. -/
def runOps (ops : List Op) (p : Monitor × List Done) : Monitor × List Done :=
  ops.foldl (fun p op => ((p.1.step op).1, p.2 ++ (p.1.step op).2)) p

/-- C53 fails: `remove_file` of one file and `add_file` of another run concurrently and both succeed, but afterwards the added
file is not monitored: whatever happens to it, no callback is invoked. -/
theorem concurrent_registration_violated : NoAlias twoDirs ∧ ∃ s h, Exec twoDirs s h ∧
    Done.fileAdded 1 6 8 ∈ h ∧ (registered h).callback 1 6 = some 8 ∧ s.queue = [] ∧ s.dirs 1 = some 10 ∧
    ∀ evs orders, (dispatches orders (happen 10 evs s)).invoked = [] := by
  refine ⟨twoDirs_noAlias, _, _, .step (.prune 1) (.step (.addFile 1 6 8 false true) (.step (.removeFile 1 5)
    (.step (.addFile 1 5 7 false true) .init trivial) trivial) trivial) ?_, by decide +kernel, by decide +kernel, by decide +kernel,
    by decide +kernel, ?_⟩
  · show 1 ∈ _; decide +kernel
  · intro evs orders
    rw [happen_unwatched 10 evs _ (by decide +kernel), dispatches_empty orders _ (by decide +kernel)]
    decide +kernel

/-- C53, as far as it holds: if registrations avoid directories with a pending prune, then after any
interleaving of the steps of calls the files registered are those that were added and not removed: the added
file is served and the removed one is not. -/
theorem concurrent_registration_partial (dirs : Nat → Option Nat) (hd : NoAlias dirs) (s : Monitor) (h : List Done)
    (he : CalmExec dirs s h) (hq : s.queue = []) (d i : Nat) (hi : s.dirs d = some i) (f mask : Nat) (order : List (Nat × Info))
    (ho : order.Perm s.info) :
    (∀ c, (registered h).file d f = some c → convertToEvent mask ≠ .none →
      (dispatches [order] (happen i [(f, mask)] s)).invoked = s.invoked ++ [⟨c, d, f, convertToEvent mask⟩]) ∧
    ((registered h).file d f = none → (registered h).path d = none →
      (dispatches [order] (happen i [(f, mask)] s)).invoked = s.invoked) := by
  have hx := dispatch_partial dirs hd s h he hq d i hi [(f, mask)] [order] (by simpa using ho) rfl
  simp only [List.flatMap_cons, List.flatMap_nil, List.append_nil] at hx
  constructor
  · intro c hc hm
    rw [hx]
    simp only [expected, hm, if_false, Reg.callback, hc]
  · intro hc hp
    rw [hx]
    simp only [expected, Reg.callback, hc, hp, ite_self, List.append_nil]

/-- An interleaving of a `remove_file` in two steps with an `add_file` for another directory. -/
example : ∃ s h, CalmExec twoDirs s h ∧ s.queue = [] ∧ (registered h).file 2 6 = some 8 ∧ (registered h).file 1 5 = none ∧
    (dispatches [s.info] (happen 20 [(6, inModify)] s)).invoked = [⟨8, 2, 6, .changed⟩] := by
  refine ⟨_, _, .step (.prune 1) (.step (.addFile 2 6 8 false true) (.step (.removeFile 1 5)
    (.step (.addFile 1 5 7 false true) .init trivial ?_) trivial trivial) trivial ?_) ?_ trivial, ?_⟩
  · simp [Calm, Monitor.init]
  · simp [Calm, Monitor.step, Monitor.removeFile, Monitor.addFile, Monitor.getOrCreate, Monitor.addWatch, Monitor.init, twoDirs, get, put, del]
  · show 1 ∈ _; decide +kernel
  · decide +kernel

/-! ## C54: registrations are served -/

/-- A directory with two spellings, such as `dir` and `dir/.`. -/
def twoNames : Nat → Option Nat
  | 1 => some 10
  | 2 => some 10
  | _ => none

/-- C54 fails with two spellings of one directory: both registrations succeed, but an event is reported under
one of them only, depending on the order of the hash map; and after one of them is removed the other, though still
registered, is never served again. -/
theorem registration_served_aliases_violated : ∃ s h, Exec twoNames s h ∧
    (registered h).callback 1 5 = some 7 ∧ (registered h).callback 2 5 = some 8 ∧ s.queue = [] ∧
    (dispatches [s.info] (happen 10 [(5, inModify)] s)).invoked = [⟨7, 1, 5, .changed⟩] ∧
    (dispatches [s.info.reverse] (happen 10 [(5, inModify)] s)).invoked = [⟨8, 2, 5, .changed⟩] ∧
    ∃ s' h', Exec twoNames s' h' ∧ h' = h ++ [.pathRemoved 1] ∧ (registered h').callback 2 5 = some 8 ∧
      ∀ evs orders, (dispatches orders (happen 10 evs s')).invoked = [] := by
  have he := Exec.step (dirs := twoNames) (.addPath 2 8 true) (.step (.addPath 1 7 true) .init trivial) trivial
  refine ⟨_, _, he, by decide +kernel, by decide +kernel, by decide +kernel, by decide +kernel, by decide +kernel, _, _,
    .step (.removePath 1) he trivial, by decide +kernel, by decide +kernel, ?_⟩
  intro evs orders
  rw [happen_unwatched 10 evs _ (by decide +kernel), dispatches_empty orders _ (by decide +kernel)]
  decide +kernel

/-- C54 fails for a directory that is removed and created again: `add_path` for the new directory succeeds, but its events
are never reported. -/
theorem registration_served_recreated_violated : NoAlias twoDirs ∧ ∃ s h, Exec twoDirs s h ∧
    h = [.pathAdded 1 7, .pathAdded 1 8] ∧ (registered h).callback 1 5 = some 8 ∧ s.dirs 1 = some 11 ∧
    ∀ evs orders, (dispatches orders (happen 11 evs s)).invoked = [] := by
  refine ⟨twoDirs_noAlias, _, _, .step (.addPath 1 8 true) (.step (.mkdir 1 11) (.step (.rmdir 10) (.step (.addPath 1 7 true) .init trivial)
    trivial) ?_) trivial, by decide +kernel, by decide +kernel, by decide +kernel, ?_⟩
  · refine ⟨by decide +kernel, ?_, ?_⟩
    · intro x
      show (if twoDirs x = some 10 then none else twoDirs x) ≠ some 11
      have hx : twoDirs x ≠ some 11 := by unfold twoDirs; split <;> simp
      split
      · simp
      · exact hx
    · simp [Monitor.step, Monitor.addPath, Monitor.getOrCreate, Monitor.addWatch, Monitor.init, twoDirs, get]
  · intro evs orders
    rw [happen_unwatched 11 evs _ (by decide +kernel), dispatches_empty orders _ (by decide +kernel)]
    decide +kernel

/-- C54, as far as it holds: without aliases, without removal of monitored directories, and without registrations in a directory
with a pending prune, a callback registered for a directory and not removed since is served, for every file
that has no callback of its own, whatever else was registered and removed. -/
theorem registration_served_partial (dirs : Nat → Option Nat) (hd : NoAlias dirs) (s : Monitor) (h : List Done)
    (he : CalmExec dirs s h) (hq : s.queue = []) (d i c : Nat) (hi : s.dirs d = some i) (hc : (registered h).path d = some c) (f mask : Nat)
    (hf : (registered h).file d f = none) (hm : appeared mask ∨ disappeared mask ∨ modified mask)
    (order : List (Nat × Info)) (ho : order.Perm s.info) :
    (dispatches [order] (happen i [(f, mask)] s)).invoked = s.invoked ++ [⟨c, d, f, convertToEvent mask⟩] := by
  have hx := dispatch_partial dirs hd s h he hq d i hi [(f, mask)] [order] (by simpa using ho) rfl
  simp only [List.flatMap_cons, List.flatMap_nil, List.append_nil] at hx
  rw [hx]
  have hn : convertToEvent mask ≠ .none := by
    intro e
    obtain ⟨h1, h2, h3⟩ := (convert_to_event_spec mask).2.2.2.mp e
    rcases hm with hm | hm | hm
    · exact h1 hm
    · exact h2 hm
    · exact h3 hm
  simp only [expected, hn, if_false, Reg.callback, hf, hc]

/-- The hypotheses are met after other registrations came and went. -/
example : ∃ s h, CalmExec twoDirs s h ∧ s.queue = [] ∧ s.dirs 1 = some 10 ∧ (registered h).path 1 = some 7 ∧
    (registered h).file 1 6 = none ∧ appeared inCreate := by
  refine ⟨_, _, .step (.removePath 2) (.step (.addPath 2 9 true) (.step (.addPath 1 7 true) .init trivial ?_) trivial ?_) trivial trivial, ?_⟩
  · simp [Calm, Monitor.init]
  · simp [Calm, Monitor.step, Monitor.addPath, Monitor.getOrCreate, Monitor.addWatch, Monitor.init, twoDirs, get]
  · refine ⟨by decide +kernel, by decide +kernel, by decide +kernel, by decide +kernel, .inl (by decide)⟩

end Verif.PathMonitor
