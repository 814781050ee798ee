import Verif.System.OtherPoll

/-!
# C156: the theorems
-/

namespace Verif.System

theorem latest_nil {α : Type} (d : α) : latest d [] = d := rfl

theorem latest_cons {α : Type} (d : α) (x : Option α) (xs : List (Option α)) :
    latest d (x :: xs) = latest (x.getD d) xs := by
  cases x with
  | none => rfl
  | some a =>
    unfold latest
    simp only [List.filterMap_cons_some (f := id) (a := some a) (b := a) rfl, Option.getD_some]
    cases xs.filterMap id with
    | nil => rfl
    | cons b bs => simp [List.getLastD]

theorem winPolls_cons (rn : Rat → Rat) (s : WinWatch) (r : WinReport) (rs : List WinReport) :
    winPolls rn s (r :: rs) = winPolls rn (s.poll rn r true) rs := rfl

theorem macPolls_cons (rn : Rat → Rat) (s : MacWatch) (r : MacReport) (rs : List MacReport) :
    macPolls rn s (r :: rs) = macPolls rn (s.poll rn r true) rs := rfl

theorem winCount_names (old : Nat) (r : WinReport) : winCount old r.processors = r.names.getD old := by
  unfold winCount WinReport.names
  split <;> rfl

theorem winCount_pos {old : Nat} (h : 0 < old) (n : Nat) : 0 < winCount old n := by
  unfold winCount; split <;> omega

theorem win_after (rn : Rat → Rat) (rs : List WinReport) : ∀ (s : WinWatch), 0 < s.count → s.armed = true →
    (∀ r ∈ rs, r.Sane) →
    (winPolls rn s rs).armed = true ∧ 0 < (winPolls rn s rs).count ∧
    (winPolls rn s rs).count = latest s.count (rs.map (·.names)) ∧
    (winPolls rn s rs).cpu = (if s.query ∧ s.counter then
      latest s.cpu (rs.map fun r => if r.collected then r.value else none) else s.cpu) ∧
    (winPolls rn s rs).proc = (timesSeen s.count rs).foldl (winUpdate rn) s.proc ∧
    (winPolls rn s rs).total = latest s.total (rs.map fun r => r.memory.map fun m => m.1) ∧
    (winPolls rn s rs).used = latest s.used (rs.map fun r => r.memory.map fun m => m.1 - m.2) ∧
    (winPolls rn s rs).rss = latest s.rss (rs.map (·.workingSet)) ∧
    (winPolls rn s rs).query = s.query := by
  induction rs with
  | nil => intro s hc ha _; exact ⟨ha, hc, rfl, by simp [winPolls, latest_nil], rfl, rfl, rfl, rfl, rfl⟩
  | cons r rs ih =>
    intro s hc ha hr
    have hp := winCount_pos hc r.processors
    have he : s.poll rn r true = { s with
        count := winCount s.count r.processors
        cpu := winCpu s r
        proc := winUpdate rn s.proc (winCount s.count r.processors, r.times)
        total := (r.memory.map fun m => m.1).getD s.total
        used := (r.memory.map fun m => m.1 - m.2).getD s.used
        rss := r.workingSet.getD s.rss
        armed := true } := by
      simp only [WinWatch.poll, ha, if_true, winLater, Bool.and_true, gt_iff_lt, hp, decide_true]
      cases hm : r.memory with
      | none => rfl
      | some m =>
        obtain ⟨t, a⟩ := m
        obtain ⟨h1, h2⟩ := hr r List.mem_cons_self t a hm
        simp only [winMemory, Option.map_some, Option.getD_some, minus_sub h1 h2]
    have h' := ih (s.poll rn r true) (by rw [he]; exact hp) (by rw [he]) (fun x hx => hr x (List.mem_cons_of_mem _ hx))
    rw [winPolls_cons]
    rw [he] at h' ⊢
    obtain ⟨a1, a2, a3, a4, a5, a6, a7, a8, a9⟩ := h'
    refine ⟨a1, a2, ?_, ?_, ?_, ?_, ?_, ?_, a9⟩
    · rw [a3, List.map_cons, latest_cons, winCount_names]
    · rw [a4, List.map_cons, latest_cons]
      show (if s.query ∧ s.counter then latest (winCpu s r) _ else winCpu s r) = _
      by_cases hq : s.query ∧ s.counter
      · rw [if_pos hq, if_pos hq]
        congr 1
        unfold winCpu
        cases hcol : r.collected <;> simp [hq.1, hq.2]
      · rw [if_neg hq, if_neg hq]
        have : (s.query && s.counter) = false := by simpa using hq
        simp [winCpu, this]
    · rw [a5]
      simp only [timesSeen, List.foldl_cons, winCount_names]
    · rw [a6, List.map_cons, latest_cons]
    · rw [a7, List.map_cons, latest_cons]
    · rw [a8, List.map_cons, latest_cons]

/-- C156 on Windows: a monitor exists exactly if Windows names processors and the task is accepted; after every history
of polls, each of whose answers may be missing, it is queued for another one and each function reports the latest
answer there was to its question, or zero (the usage of the system stays zero if its counter could not be set up; the
usage of the process is that of C130); no performance query stays open when it is destroyed or was not created. -/
theorem windows_monitor_reports (rn : Rat → Rat) (o : WinSetup) (n : Nat) (accepted : Bool) :
    ((winCreate o n accepted).1 = none ↔ n = 0 ∨ accepted = false) ∧
    ((winCreate o n accepted).1 = none → (winCreate o n accepted).2 = 0) ∧
    ∀ s, (winCreate o n accepted).1 = some s → ∀ rs : List WinReport, (∀ r ∈ rs, r.Sane) →
      (winPolls rn s rs).armed = true ∧
      0 < (winPolls rn s rs).count ∧
      (winPolls rn s rs).count = latest n (rs.map (·.names)) ∧
      (winPolls rn s rs).cpu = (if o.opened ∧ o.added then
        latest (.num 0) (rs.map fun r => if r.collected then r.value else none) else .num 0) ∧
      (winPolls rn s rs).proc = (timesSeen n rs).foldl (winUpdate rn) {} ∧
      (winPolls rn s rs).total = latest 0 (rs.map fun r => r.memory.map fun m => m.1) ∧
      (winPolls rn s rs).used = latest 0 (rs.map fun r => r.memory.map fun m => m.1 - m.2) ∧
      (winPolls rn s rs).rss = latest 0 (rs.map (·.workingSet)) ∧
      winDestroy (winPolls rn s rs) (winCreate o n accepted).2 = 0 := by
  have hc0 : winCount 0 n = n := by unfold winCount; split <;> omega
  have key : (0 < n ∧ accepted = true) ∨ (n = 0 ∨ accepted = false) := by
    rcases Nat.eq_zero_or_pos n with h | h
    · exact .inr (.inl h)
    · cases accepted with
      | true => exact .inl ⟨h, rfl⟩
      | false => exact .inr (.inr rfl)
  rcases key with ⟨hn, ha⟩ | hno
  · subst ha
    have e : winCreate o n true =
        (some { winConstruct o with count := n, armed := true }, if o.opened then 1 else 0) := by
      simp [winCreate, winLater, hc0, hn, winConstruct]
    rw [e]
    refine ⟨by simp; omega, by simp, ?_⟩
    intro s hs rs hr
    injection hs with hs
    subst hs
    obtain ⟨a1, a2, a3, a4, a5, a6, a7, a8, a9⟩ := win_after rn rs { winConstruct o with count := n, armed := true } hn rfl hr
    refine ⟨a1, a2, a3, ?_, a5, a6, a7, a8, ?_⟩
    · rw [a4]
      rcases o with ⟨op, ad, co⟩
      cases op <;> cases ad <;> rfl
    · unfold winDestroy
      rw [a9]
      show (if o.opened then (if o.opened then 1 else 0) - 1 else if o.opened then 1 else 0) = 0
      cases o.opened <;> rfl
  · have e : winCreate o n accepted = (none, 0) := by
      rcases hno with h | h
      · subst h; cases o.opened <;> simp [winCreate, winLater, winCount]
      · subst h; cases o.opened <;> simp [winCreate, winLater]
    rw [e]
    exact ⟨⟨fun _ => hno, fun _ => rfl⟩, fun _ => rfl, fun s hs => nomatch hs⟩

/-- The monitor is created, and a history with missing answers. -/
example : ∃ s, (winCreate ⟨true, true, false⟩ 4 true).1 = some s ∧ ∀ rn,
    (winPolls rn s [⟨8, true, some (.num 50), none, some (1000, 400), none⟩,
      ⟨0, false, some (.num 60), none, none, some 77⟩]).count = 8 ∧
    (winPolls rn s [⟨8, true, some (.num 50), none, some (1000, 400), none⟩,
      ⟨0, false, some (.num 60), none, none, some 77⟩]).used = 600 := by
  refine ⟨⟨true, true, 4, .num 0, {}, 0, 0, 0, true⟩, rfl, fun rn => ⟨?_, ?_⟩⟩
  · rfl
  · show (winMemory 1000 400).2 = 600; decide +kernel

theorem macAsked_memory {r : MacReport} (h : r.Sane) : macAsked r = r.memory := by
  unfold macAsked MacReport.memory
  cases h1 : r.basic with
  | none => rfl
  | some t =>
    cases h2 : r.vm with
    | none => rfl
    | some f =>
      cases h3 : r.page with
      | none => rfl
      | some p =>
        obtain ⟨ht, hf⟩ := h t f p h1 h2 h3
        obtain ⟨e1, e2⟩ := (other_memory_exact t f p ht).2 hf
        show some (macMemory t f p) = some (t, t - f * p)
        congr 1
        exact Prod.ext e1 (by show (macMemory t f p).2 = t - f * p; omega)

theorem mac_after (rn : Rat → Rat) (rs : List MacReport) : ∀ (s : MacWatch), 0 < s.count → s.armed = true →
    (∀ r ∈ rs, r.Sane ∧ 0 < r.processors ∧ r.processors < 2 ^ 32) →
    (macPolls rn s rs).armed = true ∧ 0 < (macPolls rn s rs).count ∧
    (macPolls rn s rs).count = latest s.count (rs.map fun r => some r.processors) ∧
    (macPolls rn s rs).cpu = (rs.map (·.load)).foldl (macSystemUpdate rn) s.cpu ∧
    (macPolls rn s rs).proc = (rs.map fun r => (r.processors, r.times)).foldl (macUpdate rn) s.proc ∧
    (macPolls rn s rs).total = latest s.total (rs.map fun r => r.memory.map fun m => m.1) ∧
    (macPolls rn s rs).used = latest s.used (rs.map fun r => r.memory.map fun m => m.2) ∧
    (macPolls rn s rs).rss = latest s.rss (rs.map (·.resident)) := by
  induction rs with
  | nil => intro s hc ha _; exact ⟨ha, hc, rfl, rfl, rfl, rfl, rfl, rfl⟩
  | cons r rs ih =>
    intro s hc ha hr
    obtain ⟨h1, h2, h3⟩ := hr r List.mem_cons_self
    have hm : macCount r.processors = r.processors := Nat.mod_eq_of_lt h3
    have he : s.poll rn r true = { s with
        count := r.processors
        cpu := macSystemUpdate rn s.cpu r.load
        proc := macUpdate rn s.proc (r.processors, r.times)
        total := (r.memory.map fun m => m.1).getD s.total
        used := (r.memory.map fun m => m.2).getD s.used
        rss := r.resident.getD s.rss
        armed := true } := by
      simp only [MacWatch.poll, ha, if_true, macLater, Bool.and_true, gt_iff_lt, hm, h2, decide_true, macAsked_memory h1]
      cases r.memory <;> rfl
    have h' := ih (s.poll rn r true) (by rw [he]; exact h2) (by rw [he]) (fun x hx => hr x (List.mem_cons_of_mem _ hx))
    rw [macPolls_cons]
    rw [he] at h' ⊢
    obtain ⟨a1, a2, a3, a4, a5, a6, a7, a8⟩ := h'
    refine ⟨a1, a2, ?_, ?_, ?_, ?_, ?_, ?_⟩
    · rw [a3, List.map_cons, latest_cons]; rfl
    · rw [a4]; rfl
    · rw [a5]; rfl
    · rw [a6, List.map_cons, latest_cons]
    · rw [a7, List.map_cons, latest_cons]
    · rw [a8, List.map_cons, latest_cons]

/-- C156 on macOS, as long as macOS names processors: a monitor exists exactly if it does and the task is accepted;
after every history of polls, each of whose other answers may be missing, it is queued for another one and each function
reports the latest answer to its question, or zero (the usages are those of C130). -/
theorem mac_monitor_reports_partial (rn : Rat → Rat) (n : Nat) (hn : n < 2 ^ 32) (accepted : Bool) :
    (macCreate n accepted = none ↔ n = 0 ∨ accepted = false) ∧
    ∀ s, macCreate n accepted = some s →
      ∀ rs : List MacReport, (∀ r ∈ rs, r.Sane ∧ 0 < r.processors ∧ r.processors < 2 ^ 32) →
      (macPolls rn s rs).armed = true ∧
      0 < (macPolls rn s rs).count ∧
      (macPolls rn s rs).count = latest n (rs.map fun r => some r.processors) ∧
      (macPolls rn s rs).cpu = (rs.map (·.load)).foldl (macSystemUpdate rn) .init ∧
      (macPolls rn s rs).proc = (rs.map fun r => (r.processors, r.times)).foldl (macUpdate rn) {} ∧
      (macPolls rn s rs).total = latest 0 (rs.map fun r => r.memory.map fun m => m.1) ∧
      (macPolls rn s rs).used = latest 0 (rs.map fun r => r.memory.map fun m => m.2) ∧
      (macPolls rn s rs).rss = latest 0 (rs.map (·.resident)) := by
  have hm : macCount n = n := Nat.mod_eq_of_lt hn
  have e : macCreate n accepted =
      if n ≠ 0 ∧ accepted = true then some { count := n, armed := true } else none := by
    unfold macCreate macLater
    rw [hm]
    cases accepted
    · simp
    · by_cases h : n = 0
      · simp [h]
      · simp [h, Nat.pos_of_ne_zero h]
  rw [e]
  by_cases h : n ≠ 0 ∧ accepted = true
  · rw [if_pos h]
    refine ⟨by simp [h.1, h.2], fun s hs rs hr => ?_⟩
    injection hs with hs
    subst hs
    exact mac_after rn rs { count := n, armed := true } (Nat.pos_of_ne_zero h.1) rfl hr
  · rw [if_neg h]
    refine ⟨⟨fun _ => ?_, fun _ => rfl⟩, fun s hs => nomatch hs⟩
    by_cases h0 : n = 0
    · exact .inl h0
    · right
      cases accepted with
      | false => rfl
      | true => exact absurd ⟨h0, rfl⟩ h

/-- A report as the theorem asks for, with a missing answer. -/
example : MacReport.Sane ⟨8, some ⟨1, 0, 2, 3⟩, none, some 1000000, some 3, some 4096, none⟩ ∧
    macCreate 4 true = some { count := 4, armed := true } := by
  refine ⟨?_, rfl⟩
  intro t f p h1 h2 h3
  injection h1 with h1; injection h2 with h2; injection h3 with h3
  subst h1; subst h2; subst h3
  decide

/-- C156 fails on macOS: if the system names no processors at one poll, the monitor that knew of some reports none,
and stops for good: nothing it is told later is reported. -/
theorem mac_monitor_reports_violated (rn : Rat → Rat) (s : MacWatch) (hs : s.armed = true) (r : MacReport)
    (hr : r.processors = 0) (rs : List MacReport) :
    (macPolls rn s (r :: rs)).count = 0 ∧ (macPolls rn s (r :: rs)).armed = false ∧
    macPolls rn s (r :: rs) = s.poll rn r true := by
  have e : (s.poll rn r true).armed = false ∧ (s.poll rn r true).count = 0 := by
    simp [MacWatch.poll, hs, macLater, macCount, hr]
  have stop : ∀ (qs : List MacReport) (t : MacWatch), t.armed = false → macPolls rn t qs = t := by
    intro qs
    induction qs with
    | nil => intro t _; rfl
    | cons q qs ih =>
      intro t ht
      rw [macPolls_cons]
      have : t.poll rn q true = t := by simp [MacWatch.poll, ht]
      rw [this]
      exact ih t ht
  rw [macPolls_cons, stop rs _ e.1]
  exact ⟨e.2, e.1, rfl⟩

end Verif.System
