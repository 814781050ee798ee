import Verif.Common.Digits
import Verif.Huffman.Model

/-!
# Model of `fly/logger`

Four parts: the text of a log record (log.cpp, log.hpp), the logger's own state machine (logger.cpp
164-220), the registry of named loggers (detail/registry.cpp with `Logger::create` and `~Logger`), and
the rotating file sink (detail/file_sink.cpp) over a small file system.

Bytes are natural numbers. What the operating system, the clock and the user's sink decide is an input
of the step.
-/

namespace Verif.Logger

open Verif.Digits

/-! ## Log records -/

/-- `s_record_separator`, log.cpp 7. -/
def recordSep : Nat := 0x1e

/-- `s_unit_separator`, log.cpp 8. -/
def unitSep : Nat := 0x1f

/-- `Level::NumLevels`, log.hpp 15-23 (Debug = 0, Info, Warn, Error, NumLevels). -/
def numLevels : Nat := 4

/-- `Trace`, log.hpp 28-33. -/
structure Trace where
  file : List Nat
  function : List Nat
  line : Nat
  deriving DecidableEq, Repr

/-- `Formatter<Trace>::format`, log.hpp 78-107: nothing unless both file and function are known, else
`file:function:line`. -/
def Trace.text (t : Trace) : List Nat :=
  if t.file ≠ [] ∧ t.function ≠ [] then t.file ++ [0x3a] ++ t.function ++ [0x3a] ++ digits 10 t.line else []

/-- `Log`, log.hpp 38-74. The time (a `double`) is represented by the text `operator<<` of the standard
stream prints for it. -/
structure Log where
  index : Nat
  level : Nat
  time : List Nat
  trace : Trace
  message : List Nat
  deriving DecidableEq, Repr

/-- `operator<<(std::ostream &, Log const &)`, log.cpp 42-51. The level is printed as one raw character
(`std::uint8_t` is a character type to the stream). -/
def Log.bytes (l : Log) : List Nat :=
  digits 10 l.index ++ [unitSep] ++ [l.level] ++ [unitSep] ++ l.time ++ [unitSep] ++ l.trace.text ++ [unitSep]
    ++ l.message ++ [recordSep]

/-! ## The logger -/

/-- One call of `Logger::log` (through `debug`, `info`, `warn`, `error`) -/
structure Call where
  level : Nat
  trace : Trace
  message : List Nat
  time : List Nat
  deriving DecidableEq, Repr

/-- `Logger`, logger.hpp 422-433: `m_last_task_failed`, `m_index`, whether there is a task runner, the
tasks posted to it and not yet run, the configured maximum message size, whether the logger still has
owners. -/
structure Core where
  async : Bool
  failed : Bool
  index : Nat
  queue : List Call
  maxMessage : Nat
  alive : Bool
  deriving DecidableEq, Repr

/-- A record handed to `Sink::stream`, and the sink's answer. -/
structure Offer where
  log : Log
  accepted : Bool
  deriving DecidableEq, Repr

/-- State after `Logger::Logger` (72-83, members initialised at logger.hpp 422-433) and
`Logger::initialize` (164-173) when there is a sink: the latch opens exactly if the sink initialised. -/
def Core.start (async : Bool) (maxMessage : Nat) (sinkOk : Bool) : Core where
  async := async
  failed := !sinkOk
  index := 0
  queue := []
  maxMessage := maxMessage
  alive := true

/-- `Logger::log_to_sink`, logger.cpp 205-220, with `Log::Log`, log.cpp 13-17 (the message is cut to the
configured size) ; `m_index` is 64 bits wide. -/
def Core.toSink (s : Core) (c : Call) (answer : Bool) : Core × Option Offer :=
  ({ s with index := (s.index + 1) % 2 ^ 64, failed := !answer },
    some ⟨⟨s.index, c.level, c.time, c.trace, c.message.take s.maxMessage⟩, answer⟩)

/-- What happens to a logger. -/
inductive Op
  /-- `Logger::log`; the answer is what the sink says if it is asked during the call -/
  | log (c : Call) (answer : Bool)
  /-- the task runner runs the oldest posted task (a `SequencedTaskRunner` runs them one at a time in
  the order posted: C47) -/
  | run (answer : Bool)
  /-- the configuration changes -/
  | setMax (n : Nat)
  /-- the last owner of the logger lets go -/
  | drop
  deriving DecidableEq, Repr

/-- One operation: `Logger::log`, logger.cpp 176-202; the body of the posted task, 187-193, behind the
weak owner of `post_task` (task_runner.hpp `wrap_task`: nothing happens once the owner is gone). A call on
a logger without owners cannot be made; it does nothing here. -/
def Core.step (s : Core) : Op → Core × Option Offer
  | .log c answer =>
    if !s.alive then (s, none)
    else if s.failed || decide (numLevels ≤ c.level) then (s, none)
    else if s.async then ({ s with queue := s.queue ++ [c] }, none)
    else s.toSink c answer
  | .run answer =>
    match s.queue with
    | [] => (s, none)
    | c :: rest =>
      if !s.alive then ({ s with queue := rest }, none)
      else if s.failed then ({ s with queue := rest }, none)
      else Core.toSink { s with queue := rest } c answer
  | .setMax n => ({ s with maxMessage := n }, none)
  | .drop => ({ s with alive := false }, none)

/-- A history of a logger: the final state and the records offered to the sink, oldest first. -/
def Core.run (s : Core) : List Op → Core × List Offer
  | [] => (s, [])
  | op :: ops =>
    let (s1, o) := s.step op
    let (s2, os) := s1.run ops
    (s2, o.toList ++ os)

/-! ## The registry of named loggers -/

/-- What a logger object is doing. -/
inductive Phase
  /-- constructed and registered; `Logger::initialize` has not answered yet -/
  | starting
  /-- returned by `create`, and still owned by someone -/
  | live
  /-- no owner is left (`weak_ptr::lock` gives nothing), the destructor has not reached the registry -/
  | dying
  /-- destroyed -/
  | gone
  deriving DecidableEq, Repr

/-- The registry (`m_registry`, registry.hpp) and the logger objects of the program, numbered in the
order of construction. -/
structure Registry where
  entry : List Nat → Option Nat
  phase : Nat → Phase
  name : Nat → List Nat
  next : Nat

/-- Before anything happened. -/
def Registry.init : Registry where
  entry := fun _ => none
  phase := fun _ => .gone
  name := fun _ => []
  next := 0

/-- `_libfly_default_`, registry.cpp 11. -/
def defaultName : List Nat :=
  [0x5f, 0x6c, 0x69, 0x62, 0x66, 0x6c, 0x79, 0x5f, 0x64, 0x65, 0x66, 0x61, 0x75, 0x6c, 0x74, 0x5f]

/-- Point update. -/
def upd {α β : Type} [DecidableEq α] (f : α → β) (a : α) (b : β) : α → β := fun x => if x = a then b else f x

/-- `make_shared<LoggerImpl>` then `Registry::register_logger`, logger.cpp 125-131 and registry.cpp
64-75: the name must not be in the map, whether or not the logger under it is still alive. When it is,
`create` drops its object: the object has no owner any more and its destructor will run. -/
def Registry.register (r : Registry) (n : List Nat) : Registry × Bool :=
  match r.entry n with
  | some _ => ({ r with phase := upd r.phase r.next .dying, name := upd r.name r.next n, next := r.next + 1 }, false)
  | none =>
    ({
        entry := upd r.entry n (some r.next)
        phase := upd r.phase r.next .starting
        name := upd r.name r.next n
        next := r.next + 1 }, true)

/-- The end of `Logger::create`, logger.cpp 131-136, for object `i`: with an initialised sink the caller
owns the logger, else it is dropped. -/
def Registry.initialized (r : Registry) (i : Nat) (ok : Bool) : Registry :=
  { r with phase := upd r.phase i (if ok then .live else .dying) }

/-- The last owner of logger `i` lets go. -/
def Registry.release (r : Registry) (i : Nat) : Registry := { r with phase := upd r.phase i .dying }

/-- `Logger::~Logger`, logger.cpp 86-89, and `Registry::unregister_logger`, registry.cpp 78-87: the entry
of the name is erased, whichever logger it belongs to, unless it is the default name. -/
def Registry.destroy (r : Registry) (i : Nat) : Registry :=
  { r with
    entry := if r.name i = defaultName then r.entry else upd r.entry (r.name i) none
    phase := upd r.phase i .gone }

/-- `Registry::get_logger`, registry.cpp 90-100: a logger still being created can be returned as well. -/
def Registry.get (r : Registry) (n : List Nat) : Option Nat :=
  match r.entry n with
  | some i => if r.phase i = .live ∨ r.phase i = .starting then some i else none
  | none => none

/-- Steps of the registry; several threads may create and drop loggers, so the steps of different
loggers interleave freely. -/
inductive RegStep : Registry → Registry → Prop
  | register (r : Registry) (n : List Nat) : RegStep r (r.register n).1
  | initialized (r : Registry) (i : Nat) (ok : Bool) (h : r.phase i = .starting) : RegStep r (r.initialized i ok)
  | release (r : Registry) (i : Nat) (h : r.phase i = .live) : RegStep r (r.release i)
  | destroy (r : Registry) (i : Nat) (h : r.phase i = .dying) : RegStep r (r.destroy i)

/-- Reachable registries. -/
inductive RegReach : Registry → Prop
  | init : RegReach Registry.init
  | step {r r' : Registry} : RegReach r → RegStep r r' → RegReach r'

/-- A whole `Logger::create` in one go, logger.cpp 101-137 (no other thread in between): registration,
initialisation, and the destructor of an object that is not returned. -/
def Registry.create (r : Registry) (n : List Nat) (sinkOk : Bool) : Registry × Option Nat :=
  match r.register n with
  | (r1, true) => if sinkOk then (r1.initialized r.next true, some r.next)
    else ((r1.initialized r.next false).destroy r.next, none)
  | (r1, false) => (r1.destroy r.next, none)

/-- A whole release of a logger by its last owner: the owner count drops to zero and the destructor
runs, no other thread in between. -/
def Registry.drop (r : Registry) (i : Nat) : Registry := (r.release i).destroy i

/-! ## The file sink -/

/-- A file name, without the directory, which is the same for all files of a sink. -/
abbrev Name := List Nat

/-- `FileSink`, file_sink.hpp 66-75, the log directory, and (not in the code) the names of the files it
opened, in order. `isOpen` and `good` are the state of `m_log_stream`. -/
structure FileSink where
  dir : Name → Option (List Nat)
  isOpen : Bool
  good : Bool
  file : Name
  index : Nat
  opened : List Name

/-- A sink just constructed, file_sink.cpp 17-25. -/
def FileSink.init (dir : Name → Option (List Nat)) : FileSink where
  dir := dir
  isOpen := false
  good := true
  file := []
  index := 0
  opened := []

/-- Outcome of `encode_file`, coder.cpp 73-98. -/
inductive EncodeResult
  /-- it returned true, and the output file has this content -/
  | done (content : List Nat)
  /-- it returned false; an output file may have been left behind -/
  | failed (left : Option (List Nat))
  deriving DecidableEq, Repr

/-- What the surroundings decide during one call of the sink. -/
structure World where
  /-- `LoggerConfig::compress_log_files` -/
  compress : Bool
  /-- `LoggerConfig::max_log_file_size` -/
  maxSize : Nat
  /-- how much of the record reaches the file: `none` for all of it, else a failure after so many bytes -/
  wrote : Option Nat
  /-- whether `file_size` succeeds -/
  sizeOk : Bool
  encode : EncodeResult
  /-- the local time, with colons and blanks replaced, and the random text of a new file name -/
  time : List Nat
  random : List Nat
  /-- whether the new file can be opened -/
  openOk : Bool
  deriving DecidableEq, Repr

/-- `Log_{}_{}_{}.log`, file_sink.cpp 79. -/
def logName (index : Nat) (time random : List Nat) : Name :=
  [0x4c, 0x6f, 0x67, 0x5f] ++ digits 10 index ++ [0x5f] ++ time ++ [0x5f] ++ random ++ [0x2e, 0x6c, 0x6f, 0x67]

/-- `replace_extension(".log.enc")` of a name ending in `.log`, file_sink.cpp 61-62. -/
def encName (n : Name) : Name := n ++ [0x2e, 0x65, 0x6e, 0x63]

/-- The rest of `create_log_file`, file_sink.cpp 73-83. Opening a stream whose file is still open fails
(`basic_filebuf::open`); otherwise the file is created or truncated, and `open` clears the error state. -/
def FileSink.openNext (s : FileSink) (w : World) : FileSink × Bool :=
  let index := (s.index + 1) % 2 ^ 32
  let name := logName index w.time w.random
  if s.isOpen then ({ s with index := index, file := name, good := false }, false)
  else if w.openOk then
    ({
        dir := upd s.dir name (some [])
        isOpen := true
        good := true
        file := name
        index := index
        opened := s.opened ++ [name] }, true)
  else ({ s with index := index, file := name, good := false }, false)

/-- `create_log_file`, file_sink.cpp 53-84. `stats` is what `encode_file` does to this sink by its own log
point (`log_encoder_stats`, coder.cpp 19-34, reached at 88-95): nothing, unless the sink belongs to the
default logger and that logger is synchronous. -/
def FileSink.create (s : FileSink) (w : World) (stats : FileSink → FileSink) : FileSink × Bool :=
  let s1 :=
    if s.isOpen then
      let s2 := { s with isOpen := false }
      if w.compress then
        match w.encode with
        | .done out =>
          let s3 := stats { s2 with dir := upd s2.dir (encName s2.file) (some out) }
          { s3 with dir := upd s3.dir s3.file none }
        | .failed (some left) => { s2 with dir := upd s2.dir (encName s2.file) (some left) }
        | .failed none => s2
      else s2
    else s
  s1.openNext w

/-- `m_log_stream << log << std::flush`, file_sink.cpp 38: with no file open the output fails. -/
def FileSink.write (s : FileSink) (w : World) (bytes : List Nat) : FileSink :=
  if s.isOpen then
    match w.wrote with
    | none => { s with dir := upd s.dir s.file (some ((s.dir s.file).getD [] ++ bytes)) }
    | some k => { s with dir := upd s.dir s.file (some ((s.dir s.file).getD [] ++ bytes.take k)), good := false }
  else { s with good := false }

/-- `std::filesystem::file_size(m_log_file, error)`, file_sink.cpp 41: on failure the largest number. -/
def FileSink.size (s : FileSink) (w : World) : Nat :=
  match s.dir s.file with
  | some c => if w.sizeOk then c.length else 2 ^ 64 - 1
  | none => 2 ^ 64 - 1

/-- `FileSink::stream`, file_sink.cpp 34-50. -/
def FileSink.streamWith (s : FileSink) (w : World) (bytes : List Nat) (stats : FileSink → FileSink) : FileSink × Bool :=
  if s.good then
    let s1 := s.write w bytes
    if s1.size w > w.maxSize then s1.create w stats else (s1, true)
  else (s, false)

/-- The sink of a logger that is not the synchronous default logger. -/
def FileSink.stream (s : FileSink) (w : World) (bytes : List Nat) : FileSink × Bool := s.streamWith w bytes id

/-- `FileSink::initialize`, file_sink.cpp 28-31. -/
def FileSink.initialize (s : FileSink) (w : World) : FileSink × Bool := s.create w id

/-- The sink of the default logger when that logger is synchronous: the encoder's statistics are logged
with `LOGD` (coder.cpp 27-32, logger.hpp 23-29) while the sink is inside `create_log_file`, so
`stream` is entered a second time, with the statistics record `stats` (in surroundings `w'`). By then no
file is open, so the inner call never compresses and the nesting ends there. -/
def FileSink.streamDefault (s : FileSink) (w w' : World) (bytes stats : List Nat) : FileSink × Bool :=
  s.streamWith w bytes fun t => (t.streamWith w' stats id).1

/-- Several records through a sink: the answers, oldest first. -/
def FileSink.streams (s : FileSink) : List (World × List Nat) → FileSink × List Bool
  | [] => (s, [])
  | (w, b) :: rest =>
    let (s1, ok) := s.stream w b
    let (s2, oks) := s1.streams rest
    (s2, ok :: oks)

end Verif.Logger
