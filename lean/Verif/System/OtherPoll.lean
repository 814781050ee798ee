import Verif.System.Others

/-!
# C156: the system monitor on Windows and macOS

Sources: `/repo/fly/system/system_monitor.cpp` 16-37, 80-114, `/repo/fly/system/win/system_monitor_impl.cpp` 20-155 and
`/repo/fly/system/mac/system_monitor_impl.mm` 26-136, `/repo/fly/system/mac/mach_api.mm` 11-101 (a call whose status is
not success has no answer). What the operating system answers is an input. The arithmetic is that of C130.
-/

namespace Verif.System

/-! ## Windows -/

/-- The members of the monitor (system_monitor.hpp 118-125, win/system_monitor_impl.hpp 42-54). -/
structure WinWatch where
  /-- `m_cpu_query` is open -/
  query : Bool
  /-- `m_cpu_counter` is set -/
  counter : Bool
  count : Nat
  cpu : Double
  proc : ProcessState
  total : Nat
  used : Nat
  rss : Nat
  /-- whether a task is queued that polls again -/
  armed : Bool

/-- How the functions called by the constructor end (win/system_monitor_impl.cpp 20-50). -/
structure WinSetup where
  opened : Bool
  added : Bool
  collected : Bool

/-- What Windows says at one poll. `collected`, `value`: the answers of `PdhCollectQueryData` and
`PdhGetFormattedCounterValue` when they are given a query with a counter; without one they fail. -/
structure WinReport where
  processors : Nat
  collected : Bool
  value : Option Double
  times : Option Reading
  /-- `ullTotalPhys`, `ullAvailPhys` -/
  memory : Option (Nat × Nat)
  workingSet : Option Nat

/-- The constructor (win/system_monitor_impl.cpp 20-50). -/
def winConstruct (o : WinSetup) : WinWatch :=
  ⟨o.opened, o.opened && o.added, 0, .num 0, {}, 0, 0, 0, false⟩

/-- `update_system_cpu_count` (win/system_monitor_impl.cpp 63-76); the number is a `DWORD`. -/
def winCount (old n : Nat) : Nat := if n = 0 then old else n

/-- `update_system_cpu_usage` (win/system_monitor_impl.cpp 79-99). -/
def winCpu (s : WinWatch) (r : WinReport) : Double :=
  if s.query && s.counter && r.collected then r.value.getD s.cpu else s.cpu

/-- `poll_system_later` (system_monitor.cpp 83-111). -/
def winLater (s : WinWatch) (accepted : Bool) : WinWatch := { s with armed := decide (s.count > 0) && accepted }

/-- The task (system_monitor.cpp 90-99), if one is queued, and the functions it calls (win/system_monitor_impl.cpp
63-155). -/
def WinWatch.poll (rn : Rat → Rat) (s : WinWatch) (r : WinReport) (accepted : Bool) : WinWatch :=
  if s.armed then
    winLater { s with
      count := winCount s.count r.processors
      cpu := winCpu s r
      proc := winUpdate rn s.proc (winCount s.count r.processors, r.times)
      total := match r.memory with
        | some (t, a) => (winMemory t a).1
        | none => s.total
      used := match r.memory with
        | some (t, a) => (winMemory t a).2
        | none => s.used
      rss := r.workingSet.getD s.rss } accepted
  else s

/-- `SystemMonitor::create` (system_monitor.cpp 16-37): the monitor, if it is not null, and the number of PDH queries
that are open afterwards (system_monitor.cpp 22; the destructor closes the query, win/system_monitor_impl.cpp 53-60). -/
def winCreate (o : WinSetup) (processors : Nat) (accepted : Bool) : Option WinWatch × Nat :=
  let s := winLater { winConstruct o with count := winCount 0 processors } accepted
  if s.armed then (some s, if s.query then 1 else 0) else (none, (if s.query then 1 else 0) - if s.query then 1 else 0)

/-- `~SystemMonitorImpl` (win/system_monitor_impl.cpp 53-60): the number of queries left open of `n`. -/
def winDestroy (s : WinWatch) (n : Nat) : Nat := if s.query then n - 1 else n

/-- A monitor after a number of polls. -/
def winPolls (rn : Rat → Rat) (s : WinWatch) (rs : List WinReport) : WinWatch :=
  rs.foldl (fun s r => s.poll rn r true) s

/-! ## macOS -/

/-- The members of the monitor (system_monitor.hpp 118-125, mac/system_monitor_impl.hpp 41-49). -/
structure MacWatch where
  count : Nat := 0
  cpu : Monitor := .init
  proc : ProcessState := {}
  total : Nat := 0
  used : Nat := 0
  rss : Nat := 0
  armed : Bool := false

/-- What macOS says at one poll. -/
structure MacReport where
  processors : Nat
  load : Option Sample
  times : Option Reading
  /-- `max_mem` -/
  basic : Option Nat
  /-- `free_count` -/
  vm : Option Nat
  page : Option Nat
  resident : Option Nat

/-- `update_system_cpu_count` (mac/system_monitor_impl.mm 26-30): whatever the number is, cut to 32 bits. -/
def macCount (n : Nat) : Nat := n % 2 ^ 32

/-- `poll_system_later` (system_monitor.cpp 83-111). -/
def macLater (s : MacWatch) (accepted : Bool) : MacWatch := { s with armed := decide (s.count > 0) && accepted }

/-- The three calls of `update_system_memory_usage` (mac/system_monitor_impl.mm 97-118), each made if the one before
succeeded. -/
def macAsked (r : MacReport) : Option (Nat × Nat) :=
  match r.basic with
  | none => none
  | some t => match r.vm with
    | none => none
    | some f => match r.page with
      | none => none
      | some p => some (macMemory t f p)

/-- The task (system_monitor.cpp 90-99), if one is queued, and the functions it calls (mac/system_monitor_impl.mm
26-136). -/
def MacWatch.poll (rn : Rat → Rat) (s : MacWatch) (r : MacReport) (accepted : Bool) : MacWatch :=
  if s.armed then
    macLater { s with
      count := macCount r.processors
      cpu := macSystemUpdate rn s.cpu r.load
      proc := macUpdate rn s.proc (macCount r.processors, r.times)
      total := match macAsked r with
        | some m => m.1
        | none => s.total
      used := match macAsked r with
        | some m => m.2
        | none => s.used
      rss := r.resident.getD s.rss } accepted
  else s

/-- `SystemMonitor::create` (system_monitor.cpp 16-37). -/
def macCreate (processors : Nat) (accepted : Bool) : Option MacWatch :=
  let s := macLater { count := macCount processors } accepted
  if s.armed then some s else none

/-- A monitor after a number of polls. -/
def macPolls (rn : Rat → Rat) (s : MacWatch) (rs : List MacReport) : MacWatch :=
  rs.foldl (fun s r => s.poll rn r true) s

/-! ## Specification -/

/-- The last answer there was, `d` if there was none. -/
def latest {α : Type} (d : α) (answers : List (Option α)) : α := (answers.filterMap id).getLastD d

/-- The processors named by a report of Windows, if it names some. -/
def WinReport.names (r : WinReport) : Option Nat := if r.processors = 0 then none else some r.processors

/-- For each report the number of processors known then, and the times it states. -/
def timesSeen : Nat → List WinReport → List (Nat × Option Reading)
  | _, [] => []
  | n, r :: rs => (r.names.getD n, r.times) :: timesSeen (r.names.getD n) rs

/-- What a report of macOS says of the memory: the total and the part that is not free. -/
def MacReport.memory (r : MacReport) : Option (Nat × Nat) :=
  r.basic.bind fun t => r.vm.bind fun f => r.page.map fun p => (t, t - f * p)

/-- A report of the memory that makes sense. -/
def MacReport.Sane (r : MacReport) : Prop := ∀ t f p, r.basic = some t → r.vm = some f → r.page = some p → t < 2 ^ 64 ∧ f * p ≤ t

/-- A report of the memory that makes sense. -/
def WinReport.Sane (r : WinReport) : Prop := ∀ t a, r.memory = some (t, a) → t < 2 ^ 64 ∧ a ≤ t

end Verif.System
