import Verif.System.Model

/-!
# Model of the whole system monitor (Linux): reading `/proc`, polling and re-arming

Sources: `/repo/fly/system/system_monitor.cpp`, `/repo/fly/system/nix/system_monitor_impl.cpp`.

Files are byte strings; a file that cannot be read is empty. `sscanf` is modelled for the two formats used;
simplifications: a sign before a number does not match (`strtoul` would take it), and a number of 2^64 or more
(undefined in C) gives 2^64 - 1 as in glibc. The counter of processors does not wrap.
-/

namespace Verif.System

/-- `std::getline` until it fails, with the characters read so far: a last line without its end counts if it is not
empty. -/
def linesFrom : List Nat → List Nat → List (List Nat)
  | cur, [] => if cur = [] then [] else [cur]
  | cur, c :: s => if c = 0x0a then cur :: linesFrom [] s else linesFrom (cur ++ [c]) s

/-- Repeated `std::getline` (nix/system_monitor_impl.cpp 40, 72, 160): the lines of a file. -/
def getlines (s : List Nat) : List (List Nat) := linesFrom [] s

/-- White space for `sscanf` in the C locale. -/
def isBlank (c : Nat) : Bool := c == 0x20 || (0x09 ≤ c && c ≤ 0x0d)

/-- The conversion `%lu` (nix/system_monitor_impl.cpp 74, 160): the number and what follows. -/
def scanU64 (s : List Nat) : Option (Nat × List Nat) :=
  let s := s.dropWhile isBlank
  let ds := s.takeWhile fun c => 0x30 ≤ c && c ≤ 0x39
  if ds = [] then none
  else some (min (ds.foldl (fun a c => a * 10 + (c - 0x30)) 0) (2 ^ 64 - 1),
    s.dropWhile fun c => 0x30 ≤ c && c ≤ 0x39)

/-- A literal prefix of a format. -/
def scanText (p s : List Nat) : Option (List Nat) := if p.isPrefixOf s then some (s.drop p.length) else none

/-- `sscanf(line, "cpu %lu %lu %lu %lu")` returned 4 (nix/system_monitor_impl.cpp 70-85). -/
def scanCpu (line : List Nat) : Option Sample := do
  let s ← scanText [0x63, 0x70, 0x75] line
  let (user, s) ← scanU64 s
  let (nice, s) ← scanU64 s
  let (system, s) ← scanU64 s
  let (idle, _) ← scanU64 s
  return ⟨user, nice, system, idle⟩

/-- `sscanf(line, "VmRSS: %lu kB")` returned 1 (nix/system_monitor_impl.cpp 162). -/
def scanRss (line : List Nat) : Option Nat := do
  let s ← scanText [0x56, 0x6d, 0x52, 0x53, 0x53, 0x3a] line
  let (n, _) ← scanU64 s
  return n

/-- The loop of `update_process_memory_usage` (nix/system_monitor_impl.cpp 152-164): the value found and whether one
was found. -/
def rssLoop : List (List Nat) → Nat × Bool → Nat × Bool
  | [], r => r
  | l :: ls, (n, found) =>
    if found then (n, found)
    else match scanRss l with
      | some m => rssLoop ls (m, true)
      | none => rssLoop ls (n, false)

/-- What the kernel says at one poll. The file `/proc/stat` is opened twice. -/
structure Report where
  stat1 : List Nat
  stat2 : List Nat
  times : Times
  /-- `totalram`, `freeram`, `mem_unit`, if `sysinfo` succeeds -/
  sysinfo : Option (Nat × Nat × Nat)
  status : List Nat

/-- The members of the monitor: system_monitor.hpp 118-125 and nix/system_monitor_impl.hpp 42-49. -/
structure Watch where
  count : Nat
  cpu : Monitor
  proc : Process
  total : Nat
  used : Nat
  rss : Nat
  /-- whether a task is queued that polls again -/
  armed : Bool

/-- `update_process_memory_usage` (nix/system_monitor_impl.cpp 151-174). -/
def storeRss (old : Nat) (status : List Nat) : Nat :=
  let n := (rssLoop (getlines status) (0, false)).1
  if n = 0 then old else wrap (n <<< 10)

/-- `SystemMonitor::create` (system_monitor.cpp 16-37, 83-111): the monitor before its first poll, or null. `accepted`:
whether the task runner took the task. -/
def create (stat : List Nat) (accepted : Bool) : Option Watch :=
  let count := storeCount 0 (getlines stat)
  if count > 0 ∧ accepted then some ⟨count, .init, .init, 0, 0, 0, true⟩ else none

/-- The task posted by `poll_system_later` (system_monitor.cpp 90-99), which posts itself again; it is run once per
time it was queued. -/
def Watch.poll (rn : Rat → Rat) (s : Watch) (r : Report) (accepted : Bool) : Watch :=
  if s.armed then
    let count := storeCount s.count (getlines r.stat1)
    { count := count
      cpu := s.cpu.update rn ((getlines r.stat2).head?.bind scanCpu)
      proc := s.proc.update rn count r.times
      total := match r.sysinfo with
        | some (t, f, u) => (memory t f u).1
        | none => s.total
      used := match r.sysinfo with
        | some (t, f, u) => (memory t f u).2
        | none => s.used
      rss := storeRss s.rss r.status
      armed := decide (count > 0) && accepted }
  else s

/-- A monitor after a number of polls. -/
def polls (rn : Rat → Rat) (s : Watch) (rs : List Report) : Watch := rs.foldl (fun s r => s.poll rn r true) s

end Verif.System
