/-!
# Model of `fly/system` (system monitor, Linux)

The values the kernel reports are inputs: what `sscanf` makes of `/proc/stat`, and what `times` and `sysinfo`
return. Counters are numbers below 2^64 and unsigned arithmetic wraps. A `double` is a rational number, infinite, or not
a number; `rn` is the rounding of the arithmetic (see `Rounding` in the specification).
-/

namespace Verif.System

/-- A non-negative `double` with its special values. -/
inductive Double
  | num (q : Rat)
  | inf
  | nan
  deriving DecidableEq

/-- The counters of a line `cpu user nice system idle`. -/
structure Sample where
  user : Nat
  nice : Nat
  system : Nat
  idle : Nat

/-- The members of `SystemMonitorImpl` for the processor usage, nix/system_monitor_impl.hpp 52-59, and of `SystemMonitor`,
system_monitor.hpp 113-115. -/
structure Monitor where
  prev : Sample
  usage : Double

/-- A new monitor. -/
def Monitor.init : Monitor where
  prev := ⟨0, 0, 0, 0⟩
  usage := .num 0

/-- `100.0 * x / y` for integers `x` and `y`. -/
def percent (rn : Rat → Rat) (x y : Nat) : Double :=
  if y = 0 then (if x = 0 then .nan else .inf) else .num (rn (rn (100 * rn x) / rn y))

/-- 64-bit unsigned arithmetic. -/
def wrap (n : Nat) : Nat := n % 2 ^ 64

/-- `update_system_cpu_usage`, nix/system_monitor_impl.cpp 63-104; `none` if the file could not be read. -/
def Monitor.update (rn : Rat → Rat) (s : Monitor) : Option Sample → Monitor
  | none => s
  | some x =>
    if x.user ≥ s.prev.user ∧ x.nice ≥ s.prev.nice ∧ x.system ≥ s.prev.system ∧ x.idle ≥ s.prev.idle then
      let active := wrap (wrap ((x.user - s.prev.user) + (x.nice - s.prev.nice)) + (x.system - s.prev.system))
      let total := wrap (active + (x.idle - s.prev.idle))
      ⟨x, percent rn active total⟩
    else ⟨x, s.usage⟩

/-- A history of samples. -/
def run (rn : Rat → Rat) (xs : List (Option Sample)) : Monitor := xs.foldl (Monitor.update rn) .init

/-- The members for the processor usage of the process, nix/system_monitor_impl.hpp 61-63. -/
structure Process where
  stime : Int
  utime : Int
  time : Int
  usage : Double

/-- A new monitor. -/
def Process.init : Process where
  stime := 0
  utime := 0
  time := 0
  usage := .num 0

/-- What `times` returns: the time and the times used by the process; negative values are possible for `clock_t`. -/
structure Times where
  now : Int
  stime : Int
  utime : Int

/-- `update_process_cpu_usage`, nix/system_monitor_impl.cpp 107-130, with the number of processors then known. The
differences are taken to fit in `clock_t`. -/
def Process.update (rn : Rat → Rat) (count : Nat) (s : Process) (x : Times) : Process :=
  if x.now = -1 then s
  else
    let usage :=
      if x.now > s.time ∧ x.stime ≥ s.stime ∧ x.utime ≥ s.utime then
        Double.num (rn (rn (rn (100 * rn ((x.stime - s.stime) + (x.utime - s.utime) : Int)) / rn (x.now - s.time : Int)) / rn count))
      else s.usage
    ⟨x.stime, x.utime, x.now, usage⟩

/-- `update_system_memory_usage`, nix/system_monitor_impl.cpp 133-149: the total and the used memory. -/
def memory (totalram freeram memUnit : Nat) : Nat × Nat :=
  let total := wrap (totalram * memUnit)
  let free := wrap (freeram * memUnit)
  (total, wrap (total + 2 ^ 64 - free))

/-- `update_system_cpu_count`, nix/system_monitor_impl.cpp 35-60: the number of lines that begin with `cpu` and go on
with something that is not a space. (Characters are numbers.) -/
def cpuCount (lines : List (List Nat)) : Nat :=
  lines.countP fun l =>
    match l with
    | 0x63 :: 0x70 :: 0x75 :: c :: _ => c != 0x20
    | _ => false

/-- The value kept in `m_system_cpu_count`: zero processors are not believed. -/
def storeCount (old : Nat) (lines : List (List Nat)) : Nat := if cpuCount lines = 0 then old else cpuCount lines

end Verif.System
