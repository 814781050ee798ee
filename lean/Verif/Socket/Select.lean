import Verif.Socket.Props

/-!
# Polling: `detail::select`

`select` of `fly/net/socket/detail/nix/socket_operations.cpp` with the kernel's `select(2)`, and its use in
`SocketService::poll`.
-/

namespace Verif.Socket

/-! ## Model -/

/-- What the kernel knows while `select(2)` runs: which descriptors are open, which can be written and read without
blocking before the timeout, and whether a signal interrupts the call. -/
structure Kernel where
  isOpen : Int → Bool
  writable : Int → Bool
  readable : Int → Bool
  interrupted : Bool

/-- `select(2)`: of the two sets only descriptors below `nfds` are examined (the others stay as they are); the call fails
with -1 if it is interrupted or an examined descriptor is not open; otherwise it leaves the ready ones and returns how many
there are (0 after the timeout). -/
def Kernel.select (k : Kernel) (nfds : Int) (w r : List Int) : Int × List Int × List Int :=
  if k.interrupted || (w ++ r).any (fun h => decide (h < nfds) && !k.isOpen h) then (-1, w, r)
  else
    let w' := w.filter fun h => !decide (h < nfds) || k.writable h
    let r' := r.filter fun h => !decide (h < nfds) || k.readable h
    (Int.ofNat (w'.length + r'.length), w', r')

/-- `FD_SETSIZE` of glibc: `FD_SET` and `FD_ISSET` may only be used with 0 ≤ handle < 1024. -/
def fdSetSize : Int := 1024

/-- Inserting into `std::set<socket_type>` (ascending, each handle once). -/
def setInsert (h : Int) : List Int → List Int
  | [] => [h]
  | x :: xs => if h < x then h :: x :: xs else if h = x then x :: xs else x :: setInsert h xs

/-- The set built by inserting one handle after the other (socket_service.cpp 102-112). -/
def toSet (hs : List Int) : List Int := hs.foldl (fun s h => setInsert h s) []

/-- `rbegin()` of a set, or `invalid_socket()` (nix/socket_operations.cpp 112-115) if it is empty. -/
def lastOr (hs : List Int) : Int := hs.getLast?.getD (-1)

/-- `detail::select`, nix/socket_operations.cpp 529-578: the sets afterwards; `none` is undefined behaviour (`FD_SET` out of
range). -/
def select (k : Kernel) (writing reading : List Int) : Option (List Int × List Int) :=
  if (writing ++ reading).any (fun h => decide (h < 0) || decide (fdSetSize ≤ h)) then none
  else
    let maxHandle := max (lastOr writing) (lastOr reading)
    let (status, writeSet, readSet) := k.select (maxHandle + 1) writing reading
    if 0 < status then
      some (writing.filter (fun h => writeSet.contains h), reading.filter (fun h => readSet.contains h))
    else some ([], [])

/-! ## Properties -/

theorem mem_setInsert {h x : Int} : ∀ {xs : List Int}, x ∈ setInsert h xs ↔ x = h ∨ x ∈ xs := by
  intro xs
  induction xs with
  | nil => simp [setInsert]
  | cons y ys ih =>
    unfold setInsert
    split
    · simp
    · split
      · rename_i e; subst e; simp
      · simp only [List.mem_cons, ih]
        constructor
        · rintro (h | h | h) <;> simp [h]
        · rintro (h | h | h) <;> simp [h]

theorem pairwise_setInsert {h : Int} : ∀ {xs : List Int}, xs.Pairwise (· < ·) → (setInsert h xs).Pairwise (· < ·) := by
  intro xs
  induction xs with
  | nil => intro _; simp [setInsert]
  | cons y ys ih =>
    intro hp
    have hp' := List.pairwise_cons.mp hp
    unfold setInsert
    split
    · rename_i hlt
      refine List.pairwise_cons.mpr ⟨fun z hz => ?_, hp⟩
      rcases List.mem_cons.mp hz with rfl | hz
      · exact hlt
      · have := hp'.1 z hz; omega
    · split
      · exact hp
      · refine List.pairwise_cons.mpr ⟨fun z hz => ?_, ih hp'.2⟩
        rcases mem_setInsert.mp hz with rfl | hz
        · omega
        · exact hp'.1 z hz

theorem toSet_spec (hs : List Int) : (toSet hs).Pairwise (· < ·) ∧ ∀ h, h ∈ toSet hs ↔ h ∈ hs := by
  have gen : ∀ (hs acc : List Int), acc.Pairwise (· < ·) →
      (hs.foldl (fun s h => setInsert h s) acc).Pairwise (· < ·) ∧
        ∀ h, h ∈ hs.foldl (fun s h => setInsert h s) acc ↔ h ∈ acc ∨ h ∈ hs := by
    intro hs
    induction hs with
    | nil => intro acc ha; exact ⟨ha, fun h => by simp⟩
    | cons x xs ih =>
      intro acc ha
      have := ih (setInsert x acc) (pairwise_setInsert ha)
      refine ⟨this.1, fun h => ?_⟩
      rw [List.foldl_cons, this.2 h, mem_setInsert, List.mem_cons]
      constructor
      · rintro ((h | h) | h) <;> simp [h]
      · rintro (h | h | h) <;> simp [h]
  have := gen hs [] .nil
  exact ⟨this.1, fun h => by rw [toSet, this.2 h]; simp⟩

theorem le_lastOr : ∀ {hs : List Int} {h : Int}, hs.Pairwise (· < ·) → h ∈ hs → h ≤ lastOr hs := by
  intro hs
  induction hs with
  | nil => intro _ _ hm; cases hm
  | cons x xs ih =>
    intro h hp hm
    have hp' := List.pairwise_cons.mp hp
    cases xs with
    | nil => rw [List.mem_singleton.mp hm]; exact Int.le_refl _
    | cons y ys =>
      have e : lastOr (x :: y :: ys) = lastOr (y :: ys) := by simp [lastOr, List.getLast?_cons_cons]
      rw [e]
      rcases List.mem_cons.mp hm with rfl | hm
      · have := ih hp'.2 (List.mem_cons_self)
        have := hp'.1 y List.mem_cons_self
        omega
      · exact ih hp'.2 hm

/-- C108 (missing: handles outside 0..1023, see `select_large_handle_violated`). Polling sets of handles reports exactly
those that are ready: if all handles asked for are open and no signal interrupts the call, a handle is left in its set if
and only if it was asked for and the kernel finds it ready in that direction. If the call fails, both sets are left empty, so nothing is
reported as ready that may not be. -/
theorem select_exact_partial (k : Kernel) (writing reading : List Int) (hw : writing.Pairwise (· < ·))
    (hr : reading.Pairwise (· < ·)) (hb : ∀ h ∈ writing ++ reading, 0 ≤ h ∧ h < 1024) :
    (k.interrupted = false → (∀ h ∈ writing ++ reading, k.isOpen h = true) →
        select k writing reading = some (writing.filter k.writable, reading.filter k.readable)) ∧
      ((k.interrupted = true ∨ ∃ h ∈ writing ++ reading, k.isOpen h = false) →
        select k writing reading = some ([], [])) := by
  have hany : (writing ++ reading).any (fun h => decide (h < 0) || decide (fdSetSize ≤ h)) = false := by
    rw [List.any_eq_false]
    intro h hh
    have := hb h hh
    have h1 : decide (h < 0) = false := decide_eq_false (by omega)
    have h2 : decide (fdSetSize ≤ h) = false := decide_eq_false (by unfold fdSetSize; omega)
    rw [h1, h2]; decide
  have hlt : ∀ h ∈ writing ++ reading, h < max (lastOr writing) (lastOr reading) + 1 := by
    intro h hh
    rcases List.mem_append.mp hh with hh | hh
    · have := le_lastOr hw hh; omega
    · have := le_lastOr hr hh; omega
  generalize hn : max (lastOr writing) (lastOr reading) + 1 = n at hlt
  unfold select
  rw [hany]
  simp only [Bool.false_eq_true, if_false]
  rw [hn]
  constructor
  · intro hi ho
    have hsel : k.select n writing reading =
        (Int.ofNat ((writing.filter k.writable).length + (reading.filter k.readable).length),
          writing.filter k.writable, reading.filter k.readable) := by
      have hf1 : writing.filter (fun h => !decide (h < n) || k.writable h) = writing.filter k.writable :=
        List.filter_congr fun h hh => by simp [hlt h (List.mem_append_left _ hh)]
      have hf2 : reading.filter (fun h => !decide (h < n) || k.readable h) = reading.filter k.readable :=
        List.filter_congr fun h hh => by simp [hlt h (List.mem_append_right _ hh)]
      unfold Kernel.select
      rw [if_neg, hf1, hf2]
      rw [hi, Bool.false_or, Bool.not_eq_true, List.any_eq_false]
      intro h hh
      simp [ho h hh]
    rw [hsel]
    simp only
    have hc : ∀ (l : List Int) (p : Int → Bool), l.filter (fun h => (l.filter p).contains h) = l.filter p := by
      intro l p
      refine List.filter_congr fun h hh => ?_
      cases hp : p h with
      | true => rw [List.contains_iff_mem]; exact List.mem_filter.mpr ⟨hh, hp⟩
      | false =>
        rw [Bool.eq_false_iff]
        intro hcon
        have := (List.mem_filter.mp (List.contains_iff_mem.mp hcon)).2
        rw [hp] at this; cases this
    split
    · rw [hc, hc]
    · rename_i hz
      rw [Int.ofNat_eq_natCast] at hz
      have h1 : (writing.filter k.writable).length = 0 := by omega
      have h2 : (reading.filter k.readable).length = 0 := by omega
      rw [List.length_eq_zero_iff.mp h1, List.length_eq_zero_iff.mp h2]
  · intro hbad
    have hsel : k.select n writing reading = (-1, writing, reading) := by
      unfold Kernel.select
      rw [if_pos]
      rw [Bool.or_eq_true, List.any_eq_true]
      rcases hbad with h | ⟨h, hh, ho⟩
      · exact .inl h
      · exact .inr ⟨h, hh, by simp [hlt h hh, ho]⟩
    rw [hsel]
    rfl

/-- C108 fails for handles from 1024 on (a process may well have that many files open: the limit on descriptors is not
`FD_SETSIZE`): `FD_SET` writes outside the `fd_set`, whatever the kernel would answer. -/
theorem select_large_handle_violated (k : Kernel) (h : Int) (hh : 1024 ≤ h) (writing reading : List Int)
    (hm : h ∈ writing ++ reading) : select k writing reading = none := by
  unfold select
  rw [if_pos]
  rw [List.any_eq_true]
  exact ⟨h, hm, by simp [fdSetSize, hh]⟩

/-- C108 for the service: a poll that runs with requests for handles 0..1023, all of them open, invokes for each handle and direction
the oldest request if the kernel finds the handle ready, and invokes no other request. -/
theorem poll_serves_exactly_ready {s : Service} {made : List Request} (he : Exec s made) (k : Kernel) (posts queue : List Task)
    (hq : s.queue = .poll :: queue) (hi : k.interrupted = false)
    (hb : ∀ r ∈ s.writes ++ s.reads, 0 ≤ r.handle ∧ r.handle < 1024 ∧ k.isOpen r.handle = true) :
    ∃ w r, select k (toSet (s.writes.map (·.handle))) (toSet (s.reads.map (·.handle))) = some (w, r) ∧
      (∀ (d : Dir) (h : Int) (q : Request) (rest : List Request), ofHandle d h (s.list d) = q :: rest →
        (match d with | .write => k.writable h | .read => k.readable h) = true → q ∈ (s.runNext w r posts).invoked) ∧
      ∃ new, (s.runNext w r posts).invoked = s.invoked ++ new ∧
        ∀ q ∈ new, (q.dir = .write → k.writable q.handle = true) ∧ (q.dir = .read → k.readable q.handle = true) := by
  have tw := toSet_spec (s.writes.map (·.handle))
  have tr := toSet_spec (s.reads.map (·.handle))
  have hin : ∀ h ∈ toSet (s.writes.map (·.handle)) ++ toSet (s.reads.map (·.handle)),
      (0 ≤ h ∧ h < 1024) ∧ k.isOpen h = true := by
    intro h hh
    have : ∃ r ∈ s.writes ++ s.reads, r.handle = h := by
      rcases List.mem_append.mp hh with hh | hh
      · obtain ⟨r, hr, e⟩ := List.mem_map.mp ((tw.2 h).mp hh)
        exact ⟨r, List.mem_append_left _ hr, e⟩
      · obtain ⟨r, hr, e⟩ := List.mem_map.mp ((tr.2 h).mp hh)
        exact ⟨r, List.mem_append_right _ hr, e⟩
    obtain ⟨r, hr, rfl⟩ := this
    exact ⟨⟨(hb r hr).1, (hb r hr).2.1⟩, (hb r hr).2.2⟩
  refine ⟨_, _, (select_exact_partial k _ _ tw.1 tr.1 (fun h hh => (hin h hh).1)).1 hi (fun h hh => (hin h hh).2), ?_, ?_⟩
  · intro d h q rest hof hready
    refine ready_requests_are_served he _ _ posts queue hq d h q rest hof ?_
    have hq' : q ∈ s.list d ∧ q.handle = h := by
      have : q ∈ ofHandle d h (s.list d) := by rw [hof]; exact List.mem_cons_self
      have := List.mem_filter.mp this
      refine ⟨this.1, ?_⟩
      have := this.2
      simp only [Bool.and_eq_true, beq_iff_eq] at this
      exact this.2
    cases d with
    | write => exact List.mem_filter.mpr ⟨(tw.2 h).mpr (List.mem_map.mpr ⟨q, hq'.1, hq'.2⟩), hready⟩
    | read => exact List.mem_filter.mpr ⟨(tr.2 h).mpr (List.mem_map.mpr ⟨q, hq'.1, hq'.2⟩), hready⟩
  · obtain ⟨new, h1, h2⟩ := requests_only_when_ready he _ _ posts
    refine ⟨new, h1, fun q hqn => ?_⟩
    exact ⟨fun hd => (List.mem_filter.mp ((h2 q hqn).1 hd)).2, fun hd => (List.mem_filter.mp ((h2 q hqn).2 hd)).2⟩

/-- A poll over three sockets, two of them ready. -/
example : select ⟨fun _ => true, fun h => h == 7, fun h => h == 5, false⟩ (toSet [7, 5, 7]) (toSet [9, 5]) =
    some ([7], [5]) := by decide +kernel

/-- Hypotheses of `poll_serves_exactly_ready`: a service polling for two requests. -/
example : ∃ s queue, Exec s [⟨.read, 5, 0⟩, ⟨.write, 6, 1⟩] ∧ s.queue = .poll :: queue ∧
    s.reads = [⟨.read, 5, 0⟩] ∧ s.writes = [⟨.write, 6, 1⟩] := by
  have h1 : Exec _ _ := .post (.notify ⟨.read, 5, 0⟩) (by decide) .refl
  have h2 : Exec _ _ := .post (.notify ⟨.write, 6, 1⟩) (by decide) h1
  have h3 : Exec _ _ := .run [] [] [] (by decide) (by decide) h2
  have h4 : Exec _ _ := .run [] [] [] (by decide) (by decide) h3
  exact ⟨_, _, h4, rfl, by decide +kernel, by decide +kernel⟩

end Verif.Socket
