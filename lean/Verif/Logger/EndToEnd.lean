import Verif.Logger.Props

/-!
# Logger: from the calls to the files (C94)

The logger's state machine and the file sink put together: the sink's answers are no longer inputs but
come from the sink, whose surroundings are the inputs. Reading the files back gives the calls.
-/

namespace Verif.Logger

/-- A logger created with `Logger::create_file_logger` (logger.cpp 15-48): its state and its sink. -/
structure FileLogger where
  core : Core
  sink : FileSink

/-- What happens to it: as `Op`, but instead of an answer the surroundings of the sink are given. -/
inductive FOp
  | log (c : Call) (w : World)
  | run (w : World)
  | setMax (n : Nat)
  | drop

/-- The operation of the state machine, with the answer the sink gave. -/
def FOp.toOp (a : Bool) : FOp → Op
  | .log c _ => .log c a
  | .run _ => .run a
  | .setMax n => .setMax n
  | .drop => .drop

/-- The surroundings of the sink during an operation, if it may be asked. -/
def FOp.world : FOp → Option World
  | .log _ w => some w
  | .run w => some w
  | _ => none

/-- One operation: `Logger::log` (logger.cpp 176-202) and `log_to_sink` (205-220), which calls
`m_sink->stream(log)` of the file sink and keeps its answer. -/
def FileLogger.step (f : FileLogger) (op : FOp) : FileLogger :=
  match (f.core.step (op.toOp true)).2, op.world with
  | some o, some w =>
    let r := f.sink.stream w o.log.bytes
    ⟨(f.core.step (op.toOp r.2)).1, r.1⟩
  | _, _ => { f with core := (f.core.step (op.toOp true)).1 }

/-- A history. -/
def FileLogger.run (f : FileLogger) : List FOp → FileLogger
  | [] => f
  | op :: ops => (f.step op).run ops

/-- `Logger::create_file_logger`, logger.cpp 98-118, with `initialize`, 164-173: the sink's `initialize`
decides whether the logger works. -/
def FileLogger.start (async : Bool) (max : Nat) (dir0 : Name → Option (List Nat)) (w0 : World) : FileLogger :=
  let r := (FileSink.init dir0).initialize w0
  ⟨Core.start async max r.2, r.1⟩

/-! ## Specification -/

/-- The calls that ask for a record. -/
def validCallsF : List FOp → List Call
  | [] => []
  | .log c _ :: ops => if c.level < 4 then c :: validCallsF ops else validCallsF ops
  | .drop :: _ => []
  | .run _ :: ops => validCallsF ops
  | .setMax _ :: ops => validCallsF ops

/-- Nothing reconfigures the logger. -/
def Constant (ops : List FOp) : Prop := ∀ n, FOp.setMax n ∉ ops

/-- A call whose record can be read back: bytes, no 0x1e in the message, no separator in the time, file name
and function name. -/
def Clean (c : Call) : Prop :=
  (∀ x ∈ c.message ++ c.time ++ c.trace.file ++ c.trace.function, x < 256) ∧ 0x1e ∉ c.message ∧
    (0x1e ∉ c.time ∧ 0x1f ∉ c.time) ∧ c.trace.Plain

/-- The surroundings write records completely, and when the encoder reports success its output is that
of the Huffman encoder for the current file. -/
def FaithfulF (f : FileLogger) : List FOp → Prop
  | [] => True
  | op :: ops =>
    (∀ w, op.world = some w → w.wrote = none ∧ ∀ out c o, (f.core.step (op.toOp true)).2 = some o → w.encode = .done out →
      (f.sink.write w o.log.bytes).dir f.sink.file = some c →
        ∃ kb M, Verif.Huffman.Valid kb M c ∧ Verif.Huffman.Encodes kb M c out) ∧
    FaithfulF (f.step op) ops

/-- A reader of all files, in the order given. -/
def readAll (dir : Name → Option (List Nat)) : List Name → Option (List Fields)
  | [] => some []
  | n :: ns =>
    (contents dir n).bind fun c => (readFile c.length c).bind fun fs => (readAll dir ns).map (fs ++ ·)

/-! ## Proofs -/

theorem step_log_answer (s : Core) (op : FOp) (a b : Bool) :
    ((s.step (op.toOp a)).2.map (·.log)) = ((s.step (op.toOp b)).2.map (·.log)) := by
  cases op with
  | log c w => 
    simp only [FOp.toOp, Core.step]
    repeat' split
    all_goals rfl
  | run w =>
    simp only [FOp.toOp, Core.step]
    repeat' split
    all_goals rfl
  | setMax n => rfl
  | drop => rfl

theorem step_accepted (s : Core) (op : FOp) (a : Bool) (o : Offer) (h : (s.step (op.toOp a)).2 = some o) :
    o.accepted = a ∧ ∃ w, op.world = some w := by
  cases op with
  | log c w =>
    simp only [FOp.toOp, Core.step] at h
    refine ⟨?_, w, rfl⟩
    split at h
    · cases h
    · split at h
      · cases h
      · split at h
        · cases h
        · simp only [Core.toSink, Option.some.injEq] at h; rw [← h]
  | run w =>
    simp only [FOp.toOp, Core.step] at h
    refine ⟨?_, w, rfl⟩
    split at h
    · cases h
    · split at h
      · cases h
      · split at h
        · cases h
        · simp only [Core.toSink, Option.some.injEq] at h; rw [← h]
  | setMax n => cases h
  | drop => cases h

theorem toOp_valid (a : Bool) (op : FOp) (os : List Op) (ops : List FOp) (h : validCalls os = validCallsF ops) :
    validCalls (op.toOp a :: os) = validCallsF (op :: ops) := by
  cases op <;> simp [FOp.toOp, validCalls, validCallsF, h]

theorem toOp_sizes (a : Bool) (op : FOp) (os : List Op) (h : ∀ n, op ≠ FOp.setMax n) :
    sizes (op.toOp a :: os) = sizes os := by
  cases op with
  | setMax n => exact absurd rfl (h n)
  | _ => rfl

theorem toOp_drop (a : Bool) (op : FOp) (h : op.toOp a = .drop) : op = .drop := by
  cases op <;> simp [FOp.toOp] at h ⊢

theorem run_cons (s : Core) (op : Op) (ops : List Op) :
    s.run (op :: ops) = (((s.step op).1.run ops).1, (s.step op).2.toList ++ ((s.step op).1.run ops).2) := rfl

theorem streams_cons (s : FileSink) (w : World) (b : List Nat) (rest : List (World × List Nat)) :
    s.streams ((w, b) :: rest) = (((s.stream w b).1.streams rest).1, (s.stream w b).2 :: ((s.stream w b).1.streams rest).2) := rfl

/-- Every history of the file logger is one of its state machine, with the answers of its sink. -/
theorem run_sim (ops : List FOp) (f : FileLogger) (hf : FaithfulF f ops) :
    ∃ (cs : List Op) (ws : List (World × List Nat)),
      validCalls cs = validCallsF ops ∧ (Constant ops → sizes cs = []) ∧ (FOp.drop ∉ ops → Op.drop ∉ cs) ∧
      (f.core.run cs).1 = (f.run ops).core ∧
      f.sink.streams ws = ((f.run ops).sink, (f.core.run cs).2.map (·.accepted)) ∧
      ws.map (·.2) = (f.core.run cs).2.map (fun o => o.log.bytes) ∧
      ((∀ o ∈ (f.core.run cs).2, ∀ x ∈ o.log.bytes, x < 256) → Faithful f.sink ws) ∧
      (∀ x ∈ ws, ∃ op ∈ ops, op.world = some x.1) := by
  induction ops generalizing f with
  | nil => exact ⟨[], [], rfl, fun _ => rfl, fun _ => by simp, rfl, rfl, rfl, fun _ => trivial, by simp⟩
  | cons op ops ih =>
    obtain ⟨hfw, hf'⟩ := hf
    obtain ⟨cs, ws, h1, h2, h3, h4, h5, h6, h7, h8⟩ := ih (f.step op) hf'
    have hc : ∀ {P : Prop}, (Constant ops → P) → Constant (op :: ops) → P := fun k hc =>
      k fun n hn => hc n (List.mem_cons_of_mem _ hn)
    cases ho : (f.core.step (op.toOp true)).2 with
    | none =>
      have hstep : f.step op = { f with core := (f.core.step (op.toOp true)).1 } := by
        unfold FileLogger.step; rw [ho]
      refine ⟨op.toOp true :: cs, ws, toOp_valid _ _ _ _ h1, ?_, ?_, ?_, ?_, ?_, ?_, ?_⟩
      · intro hk
        rw [toOp_sizes _ _ _ (fun n e => hk n (by rw [e]; exact List.mem_cons_self))]
        exact hc h2 hk
      · intro hd hm
        rcases List.mem_cons.mp hm with e | e
        · exact hd (by rw [toOp_drop _ _ e.symm]; exact List.mem_cons_self)
        · exact h3 (fun h => hd (List.mem_cons_of_mem _ h)) e
      · rw [run_cons]; show _ = ((f.step op).run ops).core; rw [← h4, hstep]
      · rw [run_cons, ho]
        show _ = (((f.step op).run ops).sink, _)
        rw [hstep] at h5 ⊢
        simpa using h5
      · rw [run_cons, ho]; rw [hstep] at h6; simpa using h6
      · intro hb
        rw [run_cons, ho] at hb
        rw [hstep] at h7
        exact h7 (by simpa using hb)
      · intro x hx
        obtain ⟨q, hq, e⟩ := h8 x hx
        exact ⟨q, List.mem_cons_of_mem _ hq, e⟩
    | some o =>
      obtain ⟨hacc, w, hw⟩ := step_accepted _ _ _ _ ho
      have hstep : f.step op = ⟨(f.core.step (op.toOp (f.sink.stream w o.log.bytes).2)).1, (f.sink.stream w o.log.bytes).1⟩ := by
        unfold FileLogger.step; rw [ho, hw]
      generalize ha : (f.sink.stream w o.log.bytes).2 = a at hstep
      have hans := step_log_answer f.core op true a
      rw [ho] at hans
      cases ho' : (f.core.step (op.toOp a)).2 with
      | none => rw [ho'] at hans; cases hans
      | some o' =>
        rw [ho'] at hans
        have hl : o'.log = o.log := (Option.some.inj hans).symm
        have hacc' := (step_accepted _ _ _ _ ho').1
        refine ⟨op.toOp a :: cs, (w, o.log.bytes) :: ws, toOp_valid _ _ _ _ h1, ?_, ?_, ?_, ?_, ?_, ?_, ?_⟩
        · intro hk
          rw [toOp_sizes _ _ _ (fun n e => hk n (by rw [e]; exact List.mem_cons_self))]
          exact hc h2 hk
        · intro hd hm
          rcases List.mem_cons.mp hm with e | e
          · exact hd (by rw [toOp_drop _ _ e.symm]; exact List.mem_cons_self)
          · exact h3 (fun h => hd (List.mem_cons_of_mem _ h)) e
        · rw [run_cons]; show _ = ((f.step op).run ops).core; rw [← h4, hstep]
        · rw [run_cons, ho', streams_cons]
          show _ = (((f.step op).run ops).sink, _)
          rw [hstep] at h5 ⊢
          simp only at h5
          rw [h5, ha]
          simp [hacc']
        · rw [run_cons, ho']; rw [hstep] at h6; simp only [List.map_cons, h6, Option.toList_some, List.cons_append, List.nil_append, hl]
        · intro hb
          rw [run_cons, ho'] at hb
          rw [hstep] at h7
          refine ⟨(hfw w hw).1, ?_, ?_, h7 fun q hq => hb q (by simp [hq])⟩
          · rw [← hl]; exact hb o' (by simp)
          · exact fun out c he hd => (hfw w hw).2 out c o ho he hd
        · intro x hx
          rcases List.mem_cons.mp hx with e | e
          · exact ⟨op, List.mem_cons_self, by rw [e]; exact hw⟩
          · obtain ⟨q, hq, e⟩ := h8 x e
            exact ⟨q, List.mem_cons_of_mem _ hq, e⟩

/-- After a refusal nothing is offered: the accepted records and possibly one more. -/
theorem offered_bound {sz : List Nat} {i : Nat} {cs : List Call} {os : List Offer} (h : Offered sz i cs os) (a : Nat)
    (e : os.map (·.accepted) = List.replicate a true ++ List.replicate (os.length - a) false) : os.length ≤ a + 1 := by
  induction h generalizing a with
  | nil => simp
  | refused => simp
  | accepted i m c cs os hm _ ih =>
    cases a with
    | zero => simp [List.replicate_succ] at e
    | succ a =>
      have := ih a (by simpa [List.replicate_succ] using e)
      simp only [List.length_cons]
      omega

theorem group_map {α β : Type} (g : α → β) (gs : List (List β)) : ∀ xs : List α, gs.flatten = xs.map g →
    ∃ hs : List (List α), gs = hs.map (List.map g) ∧ hs.flatten = xs := by
  induction gs with
  | nil => intro xs h; exact ⟨[], rfl, by cases xs <;> simp_all⟩
  | cons y ys ih =>
    intro xs h
    simp only [List.flatten_cons] at h
    have hy : y = (xs.take y.length).map g := by
      rw [List.map_take, ← h, List.take_left]
    have hr : ys.flatten = (xs.drop y.length).map g := by
      rw [List.map_drop, ← h, List.drop_left]
    obtain ⟨hs, e1, e2⟩ := ih _ hr
    exact ⟨xs.take y.length :: hs, by rw [List.map_cons, ← hy, ← e1], by rw [List.flatten_cons, e2, List.take_append_drop]⟩

theorem flatMap_length_ge (g : List Log) : g.length ≤ (g.flatMap Log.bytes).length := by
  induction g with
  | nil => simp
  | cons l g ih =>
    simp only [List.flatMap_cons, List.length_append, List.length_cons]
    have : 1 ≤ l.bytes.length := by simp [Log.bytes]; omega
    omega

theorem readAll_groups (dir : Name → Option (List Nat)) (groups : List (List Log)) : ∀ ns : List Name,
    ns.map (contents dir) = groups.map (fun g => some (g.flatMap Log.bytes)) →
    (∀ l ∈ groups.flatten, l.level < 4 ∧ (0x1e ∉ l.time ∧ 0x1f ∉ l.time) ∧
      l.trace.Plain ∧ 0x1e ∉ l.message) →
    readAll dir ns = some (groups.flatten.map Log.fields) := by
  induction groups with
  | nil => intro ns h _; simp at h; subst h; rfl
  | cons g gs ih =>
    intro ns h hc
    cases ns with
    | nil => simp at h
    | cons n ns =>
      simp only [List.map_cons, List.cons.injEq] at h
      have h1 := readFile_bytes g (g.flatMap Log.bytes).length (flatMap_length_ge g)
        (fun l hl => hc l (by simp [hl]))
      have h2 := ih ns h.2 (fun l hl => hc l (by simp only [List.flatten_cons, List.mem_append]; exact .inr hl))
      unfold readAll
      rw [h.1]
      show (readFile (g.flatMap Log.bytes).length (g.flatMap Log.bytes)).bind _ = _
      rw [h1]
      show (readAll dir ns).map _ = _
      rw [h2]
      simp

theorem digits_byte (n : Nat) : ∀ x ∈ Verif.Digits.digits 10 n, x < 256 := by
  intro x hx
  have := Verif.Digits.digits_dec n x hx
  simp only [Verif.Str.AsciiDigit] at this
  omega

theorem trace_bytes {t : Trace} (h : ∀ x ∈ t.file ++ t.function, x < 256) : ∀ x ∈ t.text, x < 256 := by
  intro x hx
  unfold Trace.text at hx
  split at hx
  · have := digits_byte t.line x
    have := h x
    simp only [List.mem_append, List.mem_cons, List.not_mem_nil, or_false] at hx this
    grind
  · cases hx

theorem record_bytes (max i : Nat) (c : Call) (h : Clean c) (hl : c.level < 4) : ∀ x ∈ (recordOf max i c).bytes, x < 256 := by
  intro x hx
  simp only [Log.bytes, recordOf, List.mem_append, List.mem_singleton, recordSep, unitSep] at hx
  have hm : ∀ x ∈ c.message.take max, x < 256 := fun x hx =>
    h.1 x (by simp [List.mem_of_mem_take hx])
  have ht : ∀ x ∈ c.time, x < 256 := fun x hx => h.1 x (by simp [hx])
  have hr : ∀ x ∈ c.trace.text, x < 256 := fun x hx => trace_bytes (fun y hy => h.1 y (by simp at hy ⊢; rcases hy with hy | hy <;> simp [hy])) x hx
  have hd := digits_byte i x
  have := hm x; have := ht x; have := hr x
  have hlt : x = c.level → x < 256 := by omega
  grind

theorem validCallsF_level (ops : List FOp) : ∀ c ∈ validCallsF ops, c.level < 4 := by
  induction ops with
  | nil => intro c h; cases h
  | cons op ops ih =>
    intro c h
    cases op with
    | log d w =>
      simp only [validCallsF] at h
      split at h
      · rcases List.mem_cons.mp h with e | e
        · rw [e]; assumption
        · exact ih c e
      · exact ih c h
    | run w => exact ih c h
    | setMax n => exact ih c h
    | drop => cases h

/-- **C94.** A file logger, synchronous or asynchronous, with any message limit, any limits and compression settings
of the files and any failures of opening files, of reading their sizes and of the compressor: reading all its files
back, in the order they were opened, gives the records of the first `k` valid calls, in the order of
the calls, with indices 0, 1, 2, ... and messages cut to the limit. If every file could be opened and the
logger still has an owner, those are all calls but the ones still waiting in the task runner (none in a
synchronous logger). Missing: writes that fail half way and a compressor that reports success after such
a failure, the synchronous default logger, messages containing 0x1e (C64 and C66 are violated there). -/
theorem file_logger_partial (async : Bool) (max : Nat) (dir0 : Name → Option (List Nat)) (w0 : World) (ops : List FOp)
    (h0 : w0.openOk = true) (hf : FaithfulF (FileLogger.start async max dir0 w0) ops) (hk : Constant ops)
    (hc : ∀ c ∈ validCallsF ops, Clean c) (hl : (validCallsF ops).length + 1 < 2 ^ 32) :
    let f := (FileLogger.start async max dir0 w0).run ops
    ∃ k, readAll f.sink.dir f.sink.opened =
        some ((((validCallsF ops).mapIdx (recordOf max)).take k).map Log.fields) ∧
      k ≤ (validCallsF ops).length ∧
      ((∀ op ∈ ops, ∀ w, op.world = some w → w.openOk = true) → FOp.drop ∉ ops →
        k + f.core.queue.length = (validCallsF ops).length ∧ (async = false → k = (validCallsF ops).length)) := by
  intro f
  have hstart : (FileLogger.start async max dir0 w0).core = Core.start async max true := by
    have : ((FileSink.init dir0).initialize w0).2 = true := by
      simp [FileSink.initialize, FileSink.create, FileSink.init, FileSink.openNext, h0]
    simp [FileLogger.start, this]
  obtain ⟨cs, ws, h1, h2, h3, h4, h5, h6, h7, h8⟩ := run_sim ops _ hf
  rw [hstart] at h4 h5 h6 h7
  have hsz := h2 hk
  have hoff := (logger_order async max cs).1
  have hrec := logger_records async max cs hsz (by rw [h1]; omega)
  rw [h1] at hrec
  generalize hos : ((Core.start async max true).run cs).2 = os at *
  have hlen : os.length ≤ (validCallsF ops).length := by
    have := hrec.length_le; simpa using this
  have htake : os.map (·.log) = ((validCallsF ops).mapIdx (recordOf max)).take os.length := by
    obtain ⟨t, ht⟩ := hrec
    rw [← ht, List.take_left' (by simp)]
  have hmem : ∀ o ∈ os, ∃ c ∈ validCallsF ops, ∃ i, o.log = recordOf max i c := by
    intro o ho
    have : o.log ∈ (validCallsF ops).mapIdx (recordOf max) :=
      hrec.subset (List.mem_map_of_mem ho)
    obtain ⟨i, hi, e⟩ := List.mem_mapIdx.mp this
    exact ⟨_, List.getElem_mem hi, i, e.symm⟩
  have hfaith := h7 (fun o ho x hx => by
    obtain ⟨c, hcm, i, e⟩ := hmem o ho
    rw [e] at hx
    exact record_bytes max i c (hc c hcm) (validCallsF_level _ c hcm) x hx)
  have hwl : ws.length = os.length := by have := congrArg List.length h6; simpa using this
  obtain ⟨groups, a, g1, g2, g3, g4, _, g6⟩ := file_sink_partial dir0 w0 ws h0 hfaith (by omega)
  have hsink : (FileLogger.start async max dir0 w0).sink = ((FileSink.init dir0).initialize w0).1 := rfl
  rw [hsink] at h5
  rw [h5] at g1 g4
  simp only at g1 g4
  rw [hwl] at g4
  have hb := offered_bound hoff a g4
  have g2' : groups.flatten = os.map (fun o => o.log.bytes) := by
    rw [g2, h6, List.take_of_length_le (by simp; omega)]
  rw [show os.map (fun o => o.log.bytes) = (os.map (·.log)).map Log.bytes by simp] at g2'
  obtain ⟨hs, e1, e2⟩ := group_map Log.bytes groups _ g2'
  refine ⟨os.length, ?_, hlen, ?_⟩
  · rw [← htake, ← e2]
    apply readAll_groups
    · show f.sink.opened.map (contents f.sink.dir) = _
      rw [g1, e1]
      simp [List.flatMap]
    · intro l hlm
      rw [e2] at hlm
      obtain ⟨o, ho, e⟩ := List.mem_map.mp hlm
      obtain ⟨c, hcm, i, e'⟩ := hmem o ho
      have hcl := hc c hcm
      have hlv := validCallsF_level _ c hcm
      rw [← e, e']
      exact ⟨hlv, hcl.2.2.1, hcl.2.2.2, fun h => hcl.2.1 (List.mem_of_mem_take h)⟩
  · intro hopen hd
    have ha : a = ws.length := g6 fun x hx => by
      obtain ⟨op, hop, e⟩ := h8 x hx
      exact hopen op hop _ e
    have hall : ∀ o ∈ os, o.accepted = true := by
      intro o ho
      have : o.accepted ∈ os.map (·.accepted) := List.mem_map_of_mem ho
      rw [g4, ha, hwl] at this
      exact (by simpa using this : _ ∧ _).2
    have := logger_complete async max cs (h3 hd) (by rw [hos]; exact hall)
    rw [hos, h1, h4] at this
    exact this

/-- Surroundings for the example: a file may hold 8 bytes, then it is replaced. -/
def smallFiles : World := { sampleWorld with maxSize := 8 }

/-- An asynchronous logger with a message limit of 2: three calls, the second with an invalid level; the
first record fills a file; all hypotheses are met, and the files read back as stated. -/
example :
    let ops : List FOp := [.log ⟨1, ⟨[], [], 0⟩, [0x61, 0x62, 0x63], [0x30]⟩ smallFiles, .log ⟨4, ⟨[], [], 0⟩, [], []⟩ smallFiles,
      .log ⟨0, ⟨[0x66], [0x67], 7⟩, [0x64], [0x31]⟩ smallFiles, .run smallFiles, .run smallFiles]
    let f := (FileLogger.start true 2 (fun _ => none) smallFiles).run ops
    FaithfulF (FileLogger.start true 2 (fun _ => none) smallFiles) ops ∧ Constant ops ∧ (∀ c ∈ validCallsF ops, Clean c) ∧
      f.sink.opened.length = 3 ∧
      readAll f.sink.dir f.sink.opened = some [⟨[0x30], [1], [0x30], [], [0x61, 0x62]⟩,
        ⟨[0x31], [0], [0x31], [0x66, 0x3a, 0x67, 0x3a, 0x37], [0x64]⟩] := by
  refine ⟨?_, ?_, ?_, by decide +kernel, by decide +kernel⟩
  · refine ⟨?_, ?_, ?_, ?_, ?_, trivial⟩ <;>
      (intro w hw; simp only [FOp.world, Option.some.injEq] at hw; subst hw
       exact ⟨rfl, fun _ _ _ _ h => nomatch h⟩)
  · intro n h; simp at h
  · intro c hc
    have : c = ⟨1, ⟨[], [], 0⟩, [0x61, 0x62, 0x63], [0x30]⟩ ∨ c = ⟨0, ⟨[0x66], [0x67], 7⟩, [0x64], [0x31]⟩ := by
      simpa [validCallsF] using hc
    rcases this with e | e <;> subst e
    · exact ⟨by decide +kernel, by decide +kernel, by decide +kernel, by unfold Trace.Plain; decide +kernel⟩
    · exact ⟨by decide +kernel, by decide +kernel, by decide +kernel, by unfold Trace.Plain; decide +kernel⟩

end Verif.Logger
