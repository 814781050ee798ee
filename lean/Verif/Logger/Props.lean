import Verif.Logger.Core
import Verif.Logger.Files

/-!
# Logger: properties C63 to C66
-/

namespace Verif.Logger

/-! ## C63: logger names -/

/-- In every execution, `get` only returns a logger of that name that is in reach. -/
theorem get_correct {r : Registry} (h : RegReach r) (n : List Nat) (i : Nat) (hg : r.get n = some i) :
    r.name i = n ∧ r.reachable i := by
  unfold Registry.get at hg
  cases he : r.entry n with
  | none => simp [he] at hg
  | some k =>
    rw [he] at hg
    by_cases hk : r.phase k = .live ∨ r.phase k = .starting
    · simp only [hk, if_true] at hg
      cases hg
      exact ⟨((regInv h).names n i he).1, hk⟩
    · simp only [hk, if_false] at hg; cases hg

/-- In every execution, as long as no destructor of a logger object of that name runs (the registered
logger's own, or that of an object `create` refused), a registered logger stays registered:
whatever else happens, `get` keeps returning it while it is in reach, and `create` keeps failing. -/
theorem name_kept {r r' : Registry} (h : RegReach r) (hs : RegStep r r') (n : List Nat) (i : Nat)
    (he : r.entry n = some i) (hd : ∀ j, r.name j = n → r.phase j = .dying → r'.phase j = .dying) :
    r'.entry n = some i ∧ (r'.reachable i → r'.get n = some i) ∧ (r'.register n).2 = false := by
  have hin := (regInv h).names n i he
  have key : r'.entry n = some i := by
    cases hs with
    | register m =>
      unfold Registry.register
      cases hm : r.entry m with
      | some k => exact he
      | none =>
        show upd r.entry m _ n = _
        rw [upd_ne _ _ (fun e => by rw [e, hm] at he; cases he)]; exact he
    | initialized j ok hj => exact he
    | release j hj => exact he
    | destroy j hj =>
      show (if r.name j = defaultName then r.entry else upd r.entry (r.name j) none) n = some i
      split
      · exact he
      · rw [upd_ne _ _ ?_]
        · exact he
        · intro e
          have := hd j e.symm hj
          simp [Registry.destroy, upd] at this
  refine ⟨key, fun hr => ?_, ?_⟩
  · have hr : r'.phase i = .live ∨ r'.phase i = .starting := hr
    simp [Registry.get, key, hr]
  · simp [Registry.register, key]

/-- **C63, what holds.** In executions that register a name only when no logger object of that name
exists, and do not use the reserved name: loggers in reach have different names, `get` finds exactly them,
`create` fails to register exactly if an object of that name exists (which may be one whose destructor is still
to run), and when no destructor is pending the promise holds in full. Missing: executions that
call `create` with a name in use (see the refutations). -/
theorem names_partial {r : Registry} (h : RegReachD r) :
    (∀ i j, r.reachable i → r.reachable j → r.name i = r.name j → i = j) ∧
    (∀ n i, r.get n = some i ↔ r.name i = n ∧ r.reachable i) ∧
    (∀ n, (r.register n).2 = false ↔ ∃ i, r.name i = n ∧ r.phase i ≠ .gone) ∧
    ((∀ i, r.phase i ≠ .dying) → r.NamesUnique) := by
  have hinv := regInvD h
  have hlive : ∀ i, r.reachable i → r.phase i ≠ .gone := by
    intro i hi e; rcases hi with hi | hi <;> rw [hi] at e <;> cases e
  have hu : ∀ i j, r.reachable i → r.reachable j → r.name i = r.name j → i = j := by
    intro i j hi hj e
    have h1 := (hinv.held i (hlive i hi)).1
    have h2 := (hinv.held j (hlive j hj)).1
    rw [e, h2] at h1
    exact (Option.some.inj h1).symm
  have hf : ∀ n i, r.get n = some i ↔ r.name i = n ∧ r.reachable i := by
    intro n i
    constructor
    · intro hg
      unfold Registry.get at hg
      cases he : r.entry n with
      | none => simp [he] at hg
      | some k =>
        rw [he] at hg
        by_cases hk : r.phase k = .live ∨ r.phase k = .starting
        · simp only [hk, if_true] at hg
          cases hg
          exact ⟨(hinv.base.names n i he).1, hk⟩
        · simp only [hk, if_false] at hg; cases hg
    · intro ⟨hn, hr⟩
      have := (hinv.held i (hlive i hr)).1
      rw [hn] at this
      have hr' : r.phase i = .live ∨ r.phase i = .starting := hr
      simp [Registry.get, this, hr']
  have hc : ∀ n, (r.register n).2 = false ↔ ∃ i, r.name i = n ∧ r.phase i ≠ .gone := by
    intro n
    constructor
    · intro hreg
      cases he : r.entry n with
      | none => simp [Registry.register, he] at hreg
      | some k => exact ⟨k, (hinv.base.names n k he).1, hinv.owned n k he⟩
    · intro ⟨i, hn, hi⟩
      have := (hinv.held i hi).1
      rw [hn] at this
      simp [Registry.register, this]
  refine ⟨hu, hf, hc, fun hq => ⟨hu, hf, fun n => ?_⟩⟩
  rw [hc n]
  constructor
  · intro ⟨i, hn, hi⟩
    refine ⟨i, hn, ?_⟩
    have := hq i
    cases hp : r.phase i with
    | starting => exact .inr hp
    | live => exact .inl hp
    | dying => exact absurd hp this
    | gone => exact absurd hp hi
  · intro ⟨i, hn, hi⟩; exact ⟨i, hn, hlive i hi⟩

/-- In such executions `create` with a free name gives a logger exactly if the sink initialises. -/
theorem create_free_name {r : Registry} (h : RegReachD r) (n : List Nat) (hn : r.unused n) (hd : n ≠ defaultName)
    (ok : Bool) : (r.create n ok).2 = (if ok then some r.next else none) ∧ ((r.create n ok).1.get n).isSome = ok := by
  obtain ⟨h1, h2⟩ := createD_reach h n hn hd ok
  refine ⟨h2, ?_⟩
  have hnone : r.entry n = none := by
    have hinv := regInvD h
    cases e : r.entry n with
    | none => rfl
    | some k => exact absurd (hn k (hinv.base.names n k e).1) (hinv.owned n k e)
  have hb : r.register n = ({
      entry := upd r.entry n (some r.next)
      phase := upd r.phase r.next .starting
      name := upd r.name r.next n
      next := r.next + 1 }, true) := by simp [Registry.register, hnone]
  cases ok with
  | true => simp [Registry.create, hb, Registry.get, Registry.initialized]
  | false => simp [Registry.create, hb, Registry.get, Registry.initialized, Registry.destroy, hd]

/-- A concrete execution: two loggers, one released; the name is free again. -/
example : ∃ r, RegReachD r ∧ r.get [0x61] = none ∧ r.get [0x62] = some 1 ∧ (r.create [0x61] true).2 = some 2 := by
  have u : ∀ n, Registry.init.unused n := fun _ _ _ => rfl
  refine ⟨_, ((createD_reach (createD_reach .init [0x61] (u _) (by decide) true).1 [0x62] ?_ (by decide) true).1.release 0
    (by rfl)).destroy 0 (by rfl), by rfl, by rfl, by rfl⟩
  intro i hi
  match i with
  | 0 => revert hi; decide
  | i + 1 => rfl

/-- **C63 is violated.** Calling `create` with a name in use returns nothing, but the destructor of the
object it had made removes the entry of the logger that owns the name: `get` no longer finds the
first logger, although nobody released it. -/
theorem get_lost_violated : ∃ (r : Registry) (n : List Nat), RegReach r ∧
    (∀ i, r.phase i ≠ .dying) ∧ (∃ i, r.name i = n ∧ r.phase i = .live) ∧ r.get n = none := by
  refine ⟨((Registry.init.create [0x61] true).1.create [0x61] true).1, [0x61],
    create_reach (create_reach .init _ _) _ _, ?_, ⟨0, by rfl, by rfl⟩, by rfl⟩
  intro i
  match i with
  | 0 => exact nofun
  | 1 => exact nofun
  | i + 2 => exact nofun

/-- **C63 is violated.** After such a refused `create`, a third one succeeds: two loggers of one name are in
use. -/
theorem unique_names_violated : ∃ (r : Registry) (i j : Nat), RegReach r ∧ i ≠ j ∧ r.phase i = .live ∧ r.phase j = .live ∧
    r.name i = r.name j :=
  ⟨(((Registry.init.create [0x61] true).1.create [0x61] true).1.create [0x61] true).1, 0, 2,
    create_reach (create_reach (create_reach .init _ _) _ _) _ _, by decide, by rfl, by rfl, by rfl⟩

/-- **C63 is violated** for the reserved name: once a logger of that name was created it can never be created
again, although no logger of that name is left. -/
theorem default_name_violated : ∃ r : Registry, RegReach r ∧ (∀ i, r.phase i = .gone) ∧
    ∀ ok, (r.create defaultName ok).2 = none := by
  refine ⟨(Registry.init.create defaultName true).1.drop 0, drop_reach (create_reach .init _ _) 0 (by rfl), ?_, ?_⟩
  · intro i
    match i with
    | 0 => rfl
    | i + 1 => rfl
  · intro ok; cases ok <;> rfl

/-- **C63 is violated** by a race: a logger nobody can reach any more still blocks its name, and when its
destructor comes late it removes the entry of a newer logger. -/
theorem late_destructor_violated : ∃ r : Registry, RegReach r ∧ r.name 2 = [0x61] ∧ r.phase 2 = .live ∧
    r.get [0x61] = some 2 ∧ r.phase 0 = .dying ∧ (r.destroy 0).get [0x61] = none := by
  have h1 := create_reach .init [0x61] true
  have h2 := h1.step (.release _ 0 (by rfl))
  have h3 := create_reach h2 [0x61] true
  have h4 := create_reach h3 [0x61] true
  exact ⟨_, h4, by rfl, by rfl, by rfl, by rfl, by rfl⟩

/-! ## C64: the file sink -/

/-- **C64, what holds.** A sink that could open its first file, in surroundings that write every record
completely (everything else may fail): the answers are true up to the first file that cannot be opened and
false from there; the files (or what their compressed versions decode to) contain, file by file, whole records, and
together exactly the records passed to the sink, in order, up to and including the first one
answered with false; no file the sink did not open is touched. Missing: records that are written incompletely,
output of the encoder that is written incompletely, and the sink of the synchronous default logger (see the
refutations); and 2^32 files. -/
theorem file_sink_partial (dir0 : Name → Option (List Nat)) (w0 : World) (ws : List (World × List Nat)) (h0 : w0.openOk = true)
    (hf : Faithful ((FileSink.init dir0).initialize w0).1 ws) (hl : ws.length + 1 < 2 ^ 32) :
    let s := ((FileSink.init dir0).initialize w0).1.streams ws
    ∃ (groups : List (List (List Nat))) (a : Nat),
      s.1.opened.map (contents s.1.dir) = groups.map (fun g => some g.flatten) ∧
      groups.flatten = (ws.map (·.2)).take (a + 1) ∧
      a ≤ ws.length ∧ s.2 = List.replicate a true ++ List.replicate (ws.length - a) false ∧
      (∀ n, n ∉ s.1.opened → n ∉ s.1.opened.map encName → s.1.dir n = dir0 n) ∧
      ((∀ x ∈ ws, x.1.openOk = true) → a = ws.length) := by
  obtain ⟨hw, _, hi⟩ := Working.start dir0 w0 h0
  obtain ⟨groups, a, h1, h2, h3⟩ := Working.streams ws hw hf (by omega)
  exact ⟨groups, a, h1, by simpa using h2, h3⟩

/-- **C64, rotation.** If moreover files can be opened and their sizes be read, and the limit does not change,
a file is closed exactly when it has come to exceed the limit (`fill`, explained by `fill_meaning`). -/
theorem file_sink_rotation_partial (dir0 : Name → Option (List Nat)) (w0 : World) (max : Nat) (ws : List (World × List Nat))
    (h0 : w0.openOk = true) (hf : Faithful ((FileSink.init dir0).initialize w0).1 ws) (hl : ws.length + 1 < 2 ^ 32)
    (hw : ∀ x ∈ ws, x.1.openOk = true ∧ x.1.sizeOk = true ∧ x.1.maxSize = max) :
    let s := (((FileSink.init dir0).initialize w0).1.streams ws).1
    s.opened.map (contents s.dir) = (fill max [] (ws.map (·.2))).map (fun g => some g.flatten) := by
  obtain ⟨hw', _, hi⟩ := Working.start dir0 w0 h0
  have := Working.fill max ws hw' hf (by omega) hw
  simpa using this

/-- The groups of records per file: together all records; every file but the last exceeds the limit, and
did not before its last record; the last does not exceed it. -/
theorem fill_meaning (max : Nat) (rs : List (List Nat)) :
    (fill max [] rs).flatten = rs ∧
    (∀ g ∈ (fill max [] rs).dropLast, max < g.flatten.length ∧ g.dropLast.flatten.length ≤ max ∧ g ≠ []) ∧
    (∀ g, (fill max [] rs).getLast? = some g → g.flatten.length ≤ max) := by
  simpa using fill_spec max rs [] (by simp)

/-- Surroundings for examples. -/
def sampleWorld : World where
  compress := false
  maxSize := 3
  wrote := none
  sizeOk := true
  encode := .failed none
  time := [0x31]
  random := [0x61]
  openOk := true

example : Faithful ((FileSink.init fun _ => none).initialize sampleWorld).1
      [(sampleWorld, [1, 2]), (sampleWorld, [3, 4]), (sampleWorld, [5])] ∧
    fill 3 [] [[1, 2], [3, 4], [5]] = [[[1, 2], [3, 4]], [[5]]] := by
  refine ⟨⟨rfl, by decide, fun _ _ h => by simp [sampleWorld] at h, rfl, by decide, fun _ _ h => by simp [sampleWorld] at h,
    rfl, by decide, fun _ _ h => by simp [sampleWorld] at h, trivial⟩, by decide⟩

/-- **C64 is violated**: when a record cannot be written (disk full), `stream` still answers true, and the
record is in no file: only the next call fails. -/
theorem lost_record_violated : ∃ (s : FileSink) (w : World) (b : List Nat), b ≠ [] ∧
    s = ((FileSink.init fun _ => none).initialize sampleWorld).1 ∧
    (s.stream w b).2 = true ∧ (s.stream w b).1.opened.map (contents (s.stream w b).1.dir) = [some []] ∧
    ((s.stream w b).1.stream sampleWorld b).2 = false :=
  ⟨_, { sampleWorld with wrote := some 0 }, [1], by decide, rfl, by decide +kernel, by decide +kernel, by decide +kernel⟩

/-- **C64 is violated**: the Huffman encoder does not notice that its output could not be written
(`BitStreamWriter::flush` ignores what `sputn` returns, bit_stream_writer.hpp 126-137, so `finish` finds
the stream good), so `encode_file` returns true with an incomplete file, and the sink removes the log
itself: all its records are lost. -/
theorem compressed_log_lost_violated : ∃ (w : World) (b : List Nat),
    let s := ((FileSink.init fun _ => none).initialize sampleWorld).1
    w.wrote = none ∧ w.encode = .done [] ∧ (s.stream w b).2 = true ∧
      (s.stream w b).1.opened.map (contents (s.stream w b).1.dir) = [none, some []] :=
  ⟨{ sampleWorld with compress := true, encode := .done [] , time := [0x32] }, [1, 2, 3, 4], by decide +kernel, by decide +kernel,
    by decide +kernel, by decide +kernel⟩

/-- **C64 is violated** for the file sink of a synchronous default logger with compression (the default
configuration): the encoder logs its statistics through that same logger while the sink rotates. In surroundings
where nothing fails, with every record accepted so far, rotating for the first time makes the sink
(1) answer false, so the logger stops for good, (2) lose the statistics record, (3) remove the new file it
had just opened, and (4) leave the full log file next to its compressed version. -/
theorem default_logger_rotation_violated (record stats e : List Nat) (hr : 3 < record.length) :
    let s := ((FileSink.init fun _ => none).initialize sampleWorld).1
    let w := { sampleWorld with compress := true, encode := .done e }
    let s' := s.streamDefault w sampleWorld record stats
    s'.2 = false ∧ (∀ w' b, (s'.1.stream w' b).2 = false) ∧
      s'.1.opened.map s'.1.dir = [some record, none] ∧ s'.1.dir (encName s.file) = some e ∧
      (∀ n c, s'.1.dir n = some c → c = record ∨ c = e) := by
  intro s w s'
  have h12 : logName 1 [0x31] [0x61] ≠ logName 2 [0x31] [0x61] := fun h => absurd (logName_inj h) (by decide)
  have h1e := logName_ne_encName 1 1 [0x31] [0x61] [0x31] [0x61]
  have h2e := logName_ne_encName 2 1 [0x31] [0x61] [0x31] [0x61]
  have hs : s = ({
      dir := upd (fun _ => none) (logName 1 [0x31] [0x61]) (some [])
      isOpen := true
      good := true
      file := logName 1 [0x31] [0x61]
      index := 1
      opened := [logName 1 [0x31] [0x61]] } : FileSink) := rfl
  have hs' : s' = ({
      dir := upd (upd (upd (upd (upd (fun _ => none) (logName 1 [0x31] [0x61]) (some [])) (logName 1 [0x31] [0x61]) (some record))
        (encName (logName 1 [0x31] [0x61])) (some e)) (logName 2 [0x31] [0x61]) (some [])) (logName 2 [0x31] [0x61]) none
      isOpen := true
      good := false
      file := logName 3 [0x31] [0x61]
      index := 3
      opened := [logName 1 [0x31] [0x61], logName 2 [0x31] [0x61]] }, false) := by
    simp only [s', hs, w, FileSink.streamDefault, FileSink.streamWith, FileSink.write, sampleWorld, if_true, upd_self,
      Option.getD_some, List.nil_append, FileSink.size, gt_iff_lt, hr, FileSink.create, Bool.false_eq_true, if_false,
      upd_ne _ _ h1e, FileSink.openNext]
    rfl
  refine ⟨by rw [hs'], ?_, ?_, ?_, ?_⟩
  · intro w' b; rw [hs']; rfl
  · rw [hs']
    simp only [List.map_cons, List.map_nil, upd_self]
    rw [upd_ne _ _ h12, upd_ne _ _ h12, upd_ne _ _ h1e, upd_self]
  · rw [hs', hs]
    simp only
    rw [upd_ne _ _ h2e.symm, upd_ne _ _ h2e.symm, upd_self]
  · rw [hs']
    intro n c hn
    simp only [upd] at hn
    split at hn
    · cases hn
    · split at hn
      · exact .inr (Option.some.inj hn).symm
      · split at hn
        · exact .inl (Option.some.inj hn).symm
        · cases hn

/-! ## C65: order, truncation and the latch -/

/-- **C65.** For every history of a logger, synchronous or asynchronous, with every answer of the sink: the
sink is offered the records of an initial part of the valid calls, in order, with indices 0, 1, 2, ...,
messages cut to a configured size; nothing is offered after a refusal, and nothing at all if the sink
did not initialise. -/
theorem logger_order (async : Bool) (max : Nat) (ops : List Op) :
    Offered (max :: sizes ops) 0 (validCalls ops) ((Core.start async max true).run ops).2 ∧
    ((Core.start async max false).run ops).2 = [] :=
  ⟨run_offered ops (Core.start async max true) 0 (fun _ => rfl) rfl rfl rfl, run_failed rfl ops⟩

/-- With a constant configuration and fewer than 2^64 records, the records are exactly the beginning of the
list of records the calls ask for. -/
theorem logger_records (async : Bool) (max : Nat) (ops : List Op) (hs : sizes ops = [])
    (hl : (validCalls ops).length ≤ 2 ^ 64) :
    ((Core.start async max true).run ops).2.map (·.log) <+: (validCalls ops).mapIdx (recordOf max) := by
  have h := (logger_order async max ops).1
  rw [hs] at h
  have gen : ∀ {i : Nat} {cs : List Call} {os : List Offer}, Offered [max] i cs os → i + cs.length ≤ 2 ^ 64 →
      os.map (·.log) <+: cs.mapIdx fun k c => recordOf max (i + k) c := by
    intro i cs os ho
    induction ho with
    | nil i cs => intro _; exact List.nil_prefix
    | refused i m c cs hm =>
      intro hi
      have hm : m = max := by simpa using hm
      subst hm
      have : i % 2 ^ 64 = i := Nat.mod_eq_of_lt (by simp at hi; omega)
      rw [List.mapIdx_cons]
      simp only [List.map_cons, List.map_nil, this, Nat.add_zero]
      exact List.cons_prefix_cons.mpr ⟨rfl, List.nil_prefix⟩
    | accepted i m c cs os hm _ ih =>
      intro hi
      have hm : m = max := by simpa using hm
      subst hm
      have hmod : i % 2 ^ 64 = i := Nat.mod_eq_of_lt (by simp at hi; omega)
      rw [List.mapIdx_cons]
      simp only [List.map_cons, hmod, Nat.add_zero]
      refine List.cons_prefix_cons.mpr ⟨rfl, ?_⟩
      have := ih (by simp at hi; omega)
      have e : (fun k c => recordOf m (i + 1 + k) c) = fun k c => recordOf m (i + (k + 1)) c := by
        funext k c; rw [show i + 1 + k = i + (k + 1) by omega]
      rw [e] at this
      exact this
  have := gen h (by simpa using hl)
  simpa using this

/-- While the sink accepts everything and the logger has an owner, no record is lost: what was not offered
yet is waiting in the task runner, and a synchronous logger keeps nothing waiting. -/
theorem logger_complete (async : Bool) (max : Nat) (ops : List Op) (hd : Op.drop ∉ ops)
    (hall : ∀ o ∈ ((Core.start async max true).run ops).2, o.accepted = true) :
    ((Core.start async max true).run ops).2.length + ((Core.start async max true).run ops).1.queue.length =
      (validCalls ops).length ∧
    (async = false → ((Core.start async max true).run ops).2.length = (validCalls ops).length) := by
  have := run_complete ops (Core.start async max true) (fun _ => rfl) rfl rfl hd hall
  have h1 : ((Core.start async max true).run ops).2.length + ((Core.start async max true).run ops).1.queue.length =
      (validCalls ops).length := by simpa [waiting, Core.start] using this.1
  refine ⟨h1, fun ha => ?_⟩
  have h2 := this.2.2 ha
  rw [h2] at h1
  simpa using h1

/-- A logger with a message limit of 2: an invalid level is dropped, the second record is refused, the
third never offered. -/
example : (((Core.start false 2 true).run [.log ⟨0, ⟨[], [], 0⟩, [1, 2, 3], [0]⟩ true, .log ⟨4, ⟨[], [], 0⟩, [9], [0]⟩ true,
    .log ⟨3, ⟨[], [], 0⟩, [4], [0]⟩ false, .log ⟨1, ⟨[], [], 0⟩, [5], [0]⟩ true]).2.map fun o =>
      (o.log.index, o.log.level, o.log.message, o.accepted)) = [(0, 0, [1, 2], true), (1, 3, [4], false)] := by rfl

/-- An asynchronous logger offers records when the tasks run; those still waiting when the last owner lets go are lost. -/
example : (((Core.start true 2 true).run [.log ⟨0, ⟨[], [], 0⟩, [1], [0]⟩ true, .log ⟨1, ⟨[], [], 0⟩, [2], [0]⟩ true,
    .run true, .drop, .run true]).2.map fun o => (o.log.index, o.log.message)) = [(0, [1])] := by rfl

/-! ## C66: log files can be read back -/

/-- **C66, what holds.** Records whose message does not contain 0x1e, and whose time text and names of file and
function contain neither 0x1e nor 0x1f, can be read back from a file: all of them, with all their fields. Missing:
messages containing a record separator. (The time text is printed by the standard library and consists of
digits, signs, a point and letters.) -/
theorem log_readback_partial (ls : List Log) (h : ∀ l ∈ ls, l.level < 4 ∧ (0x1e ∉ l.time ∧ 0x1f ∉ l.time) ∧
    l.trace.Plain ∧ 0x1e ∉ l.message) :
    readFile ls.length (ls.flatMap Log.bytes) = some (ls.map Log.fields) :=
  readFile_bytes ls ls.length (Nat.le_refl _) h

/-- The index is determined by its text: so different records have different texts. -/
theorem fields_index (l l' : Log) (h : l.fields.index = l'.fields.index) : l.index = l'.index := by
  have := congrArg (Verif.Str.numeral 10) h
  simp only [Log.fields] at this
  rwa [Verif.Digits.numeral_digits (by omega) (by omega), Verif.Digits.numeral_digits (by omega) (by omega)] at this

/-- The file, the function and the line can be read off the text of a trace, if the function name contains no colon:
two traces that are known completely and shown alike are the same. -/
theorem trace_determined (t t' : Trace) (hf : t.file ≠ [] ∧ t.function ≠ []) (hf' : t'.file ≠ [] ∧ t'.function ≠ [])
    (hc : 0x3a ∉ t.function) (hc' : 0x3a ∉ t'.function) (h : t.text = t'.text) : t = t' := by
  have hrev : ∀ x : Trace, x.file ≠ [] ∧ x.function ≠ [] → x.text.reverse =
      (Verif.Digits.digits 10 x.line).reverse ++ 0x3a :: (x.function.reverse ++ 0x3a :: x.file.reverse) := by
    intro x hx
    simp [Trace.text, hx]
  have hdig : ∀ n, 0x3a ∉ (Verif.Digits.digits 10 n).reverse := by
    intro n hx
    have := Verif.Digits.digits_dec n 0x3a (by simpa using hx)
    simp only [Verif.Str.AsciiDigit] at this
    omega
  have h1 := hrev t hf
  rw [h, hrev t' hf'] at h1
  have h2 := cut_append (sep := 0x3a) _ (t.function.reverse ++ 0x3a :: t.file.reverse) (hdig t.line)
  rw [← h1, cut_append _ _ (hdig t'.line)] at h2
  simp only [Option.some.injEq, Prod.mk.injEq] at h2
  have h3 := cut_append (sep := 0x3a) t.function.reverse t.file.reverse (by simpa using hc)
  rw [← h2.2, cut_append _ _ (by simpa using hc')] at h3
  simp only [Option.some.injEq, Prod.mk.injEq, List.reverse_inj] at h3
  have hl : t'.line = t.line := by
    have := congrArg (Verif.Str.numeral 10) (List.reverse_inj.mp h2.1)
    rwa [Verif.Digits.numeral_digits (by omega) (by omega), Verif.Digits.numeral_digits (by omega) (by omega)] at this
  cases t; cases t'
  simp_all

example : readFile 2 ([(⟨0, 1, [0x30], ⟨[0x61], [0x62], 3⟩, [0x68, 0x1f]⟩ : Log), ⟨12, 0, [0x31], ⟨[], [], 0⟩, []⟩].flatMap Log.bytes) =
    some [⟨[0x30], [1], [0x30], [0x61, 0x3a, 0x62, 0x3a, 0x33], [0x68, 0x1f]⟩, ⟨[0x31, 0x32], [0], [0x31], [], []⟩] := by
  decide +kernel

/-- **C66 is violated**: a message may contain the separators, and then one record's bytes are those of
two; no reader can tell them apart. -/
theorem log_readback_violated : ∃ ls ls' : List Log, ls.length ≠ ls'.length ∧
    (∀ l ∈ ls ++ ls', l.level < 4) ∧ ls.flatMap Log.bytes = ls'.flatMap Log.bytes := by
  refine ⟨[⟨0, 1, [0x30], ⟨[], [], 0⟩, [0x61, 0x1e] ++ [0x31, 0x1f, 2, 0x1f, 0x35, 0x1f, 0x1f, 0x62]⟩],
    [⟨0, 1, [0x30], ⟨[], [], 0⟩, [0x61]⟩, ⟨1, 2, [0x35], ⟨[], [], 0⟩, [0x62]⟩], by decide, by decide, by decide +kernel⟩

end Verif.Logger
