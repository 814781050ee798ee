import Verif.Logger.Props

/-!
# The file sink and crashes of the process (C102)

The effects of `FileSink::stream` on the directory, one operation of the file system after the other,
and what the directory can hold if the process is killed at any moment. Data handed to the operating
system survives the process (a power failure, against which the code takes no measures, is not
modelled).
-/

namespace Verif.Logger

/-- The log directory. -/
abbrev Dir := Name → Option (List Nat)

/-- An operation on the directory. -/
inductive Effect
  /-- bytes are appended to a file -/
  | append (n : Name) (bytes : List Nat)
  /-- a file is created or truncated, and filled with this content -/
  | rewrite (n : Name) (content : List Nat)
  | remove (n : Name)
  /-- a file is created, or truncated to nothing -/
  | create (n : Name)

/-- The completed operation. -/
def Effect.apply (d : Dir) : Effect → Dir
  | .append n b => upd d n (some ((d n).getD [] ++ b))
  | .rewrite n c => upd d n (some c)
  | .remove n => upd d n none
  | .create n => upd d n (some [])

/-- What an interrupted operation can leave: a prefix of the bytes to be appended; anything in a file
being rewritten (it is written in pieces, and its first byte once more at the end,
bit_stream_writer.cpp 32-61); removal and creation happen or do not. -/
inductive Torn : Effect → Dir → Dir → Prop
  | append {n b d} (k : Nat) : Torn (.append n b) d (upd d n (some ((d n).getD [] ++ b.take k)))
  | rewrite {n c d} (x : List Nat) : Torn (.rewrite n c) d (upd d n (some x))

/-- The directories a crash during a sequence of operations can leave. -/
inductive CrashAt : Dir → List Effect → Dir → Prop
  | now {d es} : CrashAt d es d
  | torn {d e es d'} : Torn e d d' → CrashAt d (e :: es) d'
  | later {d e es d'} : CrashAt (e.apply d) es d' → CrashAt d (e :: es) d'

/-- `m_log_stream << log << std::flush`, file_sink.cpp 38. -/
def FileSink.writeEffects (s : FileSink) (w : World) (b : List Nat) : List Effect :=
  if s.isOpen then [.append s.file (match w.wrote with | none => b | some k => b.take k)] else []

/-- `create_log_file`, file_sink.cpp 53-84, and `encode_file`, coder.cpp 73-98: first the compressed file
is written, then the log removed, then the next log created. -/
def FileSink.createEffects (s : FileSink) (w : World) : List Effect :=
  (if s.isOpen && w.compress then
    match w.encode with
    | .done out => [.rewrite (encName s.file) out, .remove s.file]
    | .failed (some left) => [.rewrite (encName s.file) left]
    | .failed none => []
  else []) ++ (if w.openOk then [.create (logName ((s.index + 1) % 2 ^ 32) w.time w.random)] else [])

/-- `FileSink::stream`, file_sink.cpp 34-50. -/
def FileSink.effects (s : FileSink) (w : World) (b : List Nat) : List Effect :=
  if s.good then
    s.writeEffects w b ++ (if (s.write w b).size w > w.maxSize then (s.write w b).createEffects w else [])
  else []

theorem write_effects (s : FileSink) (w : World) (b : List Nat) :
    (s.write w b).dir = (s.writeEffects w b).foldl Effect.apply s.dir := by
  unfold FileSink.write FileSink.writeEffects
  cases s.isOpen with
  | false => rfl
  | true => cases w.wrote <;> rfl

theorem create_effects (s : FileSink) (w : World) :
    (s.create w id).1.dir = (s.createEffects w).foldl Effect.apply s.dir := by
  unfold FileSink.create FileSink.createEffects FileSink.openNext
  cases ho : s.isOpen with
  | false => cases hw : w.openOk <;> simp [Effect.apply, ho]
  | true =>
    cases w.compress with
    | false => cases hw : w.openOk <;> simp [Effect.apply]
    | true =>
      cases w.encode with
      | done out => cases hw : w.openOk <;> simp [Effect.apply]
      | failed l => cases l <;> cases hw : w.openOk <;> simp [Effect.apply]

/-- The operations together are what `stream` does. -/
theorem stream_effects (s : FileSink) (w : World) (b : List Nat) :
    (s.stream w b).1.dir = (s.effects w b).foldl Effect.apply s.dir := by
  unfold FileSink.stream FileSink.streamWith FileSink.effects
  cases s.good with
  | false => rfl
  | true =>
    simp only [if_true]
    split
    · rw [List.foldl_append, ← write_effects, create_effects]
    · rw [List.append_nil, write_effects]

/-- While every record was accepted, the sink works and holds all of them. -/
theorem Working.accepted (ws : List (World × List Nat)) : ∀ {dir0 s closed cur}, Working dir0 s closed cur → Faithful s ws →
    s.index + ws.length < 2 ^ 32 → (∀ a ∈ (s.streams ws).2, a = true) →
    ∃ closed' cur', Working dir0 (s.streams ws).1 closed' cur' ∧
      (closed' ++ [cur']).flatten = (closed ++ [cur]).flatten ++ ws.map (·.2) ∧
      (s.streams ws).1.index ≤ s.index + ws.length := by
  induction ws with
  | nil => intro dir0 s closed cur h _ _ _; exact ⟨closed, cur, h, by simp, by simp [FileSink.streams]⟩
  | cons x ws ih =>
    obtain ⟨w, b⟩ := x
    intro dir0 s closed cur h hf hi ha
    obtain ⟨hw, hb, he, hf'⟩ := hf
    simp only [List.length_cons] at hi
    simp only [FileSink.streams] at ha ⊢
    have ha' : ∀ a ∈ ((s.stream w b).1.streams ws).2, a = true := fun a h => ha a (List.mem_cons_of_mem _ h)
    rcases h.stream w b hw hb he (by omega) with ⟨_, a2, a3, a4⟩ | ⟨_, _, a2, a3, a4⟩ | ⟨_, a1, a2, a3⟩
    · obtain ⟨c', d', g1, g2, g3⟩ := ih a3 hf' (by omega) ha'
      exact ⟨c', d', g1, by rw [g2]; simp, by simp only [List.length_cons]; omega⟩
    · obtain ⟨c', d', g1, g2, g3⟩ := ih a3 hf' (by omega) ha'
      exact ⟨c', d', g1, by rw [g2]; simp, by simp only [List.length_cons]; omega⟩
    · have := ha _ List.mem_cons_self
      rw [a2] at this; cases this

/-- What a crash leaves of a sink that works. -/
theorem Working.crash {dir0 s closed cur} (h : Working dir0 s closed cur) (w : World) (b : List Nat) (hw : w.wrote = none)
    (hb : ∀ x ∈ b, x < 256) (he : ∀ out c, w.encode = .done out → (s.write w b).dir s.file = some c →
      ∃ kb M, Verif.Huffman.Valid kb M c ∧ Verif.Huffman.Encodes kb M c out) (hi : s.index + 1 < 2 ^ 32)
    (d : Dir) (hc : CrashAt s.dir (s.effects w b) d) :
    ∃ (names : List Name) (groups : List (List (List Nat))) (k : Nat),
      (names = s.opened ∨ names = s.opened ++ [logName (s.index + 1) w.time w.random]) ∧
      names.map (contents d) = groups.map (fun g => some g.flatten) ∧
      groups.flatten = (closed ++ [cur]).flatten ++ [b.take k] ∧
      (∀ n, n ∉ names → n ∉ names.map encName → d n = dir0 n) := by
  have hmod : (s.index + 1) % 2 ^ 32 = s.index + 1 := Nat.mod_eq_of_lt hi
  -- the record being written
  have wr : ∀ k, ∃ (names : List Name) (groups : List (List (List Nat))) (k' : Nat), (names = s.opened ∨ names = s.opened ++ [logName (s.index + 1) w.time w.random]) ∧
      names.map (contents (s.write w (b.take k)).dir) = groups.map (fun g => some g.flatten) ∧
      groups.flatten = (closed ++ [cur]).flatten ++ [b.take k'] ∧
      (∀ n, n ∉ names → n ∉ names.map encName → (s.write w (b.take k)).dir n = dir0 n) := by
    intro k
    have hwk := h.write w (b.take k) hw (fun x hx => hb x (List.mem_of_mem_take hx))
    have ho : (s.write w (b.take k)).opened = s.opened := by unfold FileSink.write; split <;> (try split) <;> rfl
    refine ⟨s.opened, closed ++ [cur ++ [b.take k]], k, .inl rfl, ?_, by simp, ?_⟩
    · rw [← ho]; exact hwk.all
    · rw [← ho]; exact hwk.others
  have wdir : ∀ k, (s.write w (b.take k)).dir = upd s.dir s.file (some ((s.dir s.file).getD [] ++ b.take k)) := by
    intro k; simp [FileSink.write, h.isOpen, hw]
  have hwr := h.write w b hw hb
  have hfile : (s.write w b).file = s.file := by unfold FileSink.write; split <;> (try split) <;> rfl
  have hidx : (s.write w b).index = s.index := by unfold FileSink.write; split <;> (try split) <;> rfl
  have hop : (s.write w b).opened = s.opened := by unfold FileSink.write; split <;> (try split) <;> rfl
  -- a closed log
  have cl : ∀ w', (∀ out, w'.encode = .done out → ∃ kb M, Verif.Huffman.Valid kb M (cur ++ [b]).flatten ∧
        Verif.Huffman.Encodes kb M (cur ++ [b]).flatten out) →
      Closed dir0 ((s.write w b).closeFile w') (closed ++ [cur ++ [b]]) ∧
      ((s.write w b).closeFile w').index = s.index ∧ ((s.write w b).closeFile w').opened = s.opened := by
    intro w' h'
    obtain ⟨c1, c2⟩ := hwr.closeFile w' h'
    refine ⟨c1, c2.trans hidx, ?_⟩
    unfold FileSink.closeFile
    split
    · split <;> exact hop
    · exact hop
  have fin : ∀ w', (∀ out, w'.encode = .done out → ∃ kb M, Verif.Huffman.Valid kb M (cur ++ [b]).flatten ∧
        Verif.Huffman.Encodes kb M (cur ++ [b]).flatten out) → ∀ d, d = ((s.write w b).closeFile w').dir →
      ∃ (names : List Name) (groups : List (List (List Nat))) (k : Nat), (names = s.opened ∨ names = s.opened ++ [logName (s.index + 1) w.time w.random]) ∧
      names.map (contents d) = groups.map (fun g => some g.flatten) ∧
      groups.flatten = (closed ++ [cur]).flatten ++ [b.take k] ∧
      (∀ n, n ∉ names → n ∉ names.map encName → d n = dir0 n) := by
    intro w' h' d hd
    subst hd
    obtain ⟨c1, _, c3⟩ := cl w' h'
    refine ⟨s.opened, closed ++ [cur ++ [b]], b.length, .inl rfl, ?_, by simp, ?_⟩
    · rw [← c3]; exact c1.kept
    · rw [← c3]; exact c1.others
  have henc : ∀ out, w.encode = .done out → ∃ kb M, Verif.Huffman.Valid kb M (cur ++ [b]).flatten ∧
        Verif.Huffman.Encodes kb M (cur ++ [b]).flatten out :=
    fun out ho => he out _ ho (by rw [← hfile]; exact hwr.here)
  -- the next log
  have opn : w.openOk = true → ∀ d, d = upd ((s.write w b).closeFile w).dir (logName (s.index + 1) w.time w.random) (some []) →
      ∃ (names : List Name) (groups : List (List (List Nat))) (k : Nat), (names = s.opened ∨ names = s.opened ++ [logName (s.index + 1) w.time w.random]) ∧
      names.map (contents d) = groups.map (fun g => some g.flatten) ∧
      groups.flatten = (closed ++ [cur]).flatten ++ [b.take k] ∧
      (∀ n, n ∉ names → n ∉ names.map encName → d n = dir0 n) := by
    intro ho d hd
    obtain ⟨c1, c2, c3⟩ := cl w henc
    rcases c1.openNext w (by omega) with ⟨_, _, a3, _⟩ | ⟨a1, _, _⟩
    · have e : ((s.write w b).closeFile w).openNext w = ({
          dir := d
          isOpen := true
          good := true
          file := logName (s.index + 1) w.time w.random
          index := s.index + 1
          opened := s.opened ++ [logName (s.index + 1) w.time w.random] }, true) := by
        simp only [FileSink.openNext, c1.isOpen, ho, Bool.false_eq_true, if_false, if_true, c2, hmod, c3, hd]
      rw [e] at a3
      exact ⟨_, _, b.length, .inr rfl, a3.all, by simp, a3.others⟩
    · rw [ho] at a1; cases a1
  have start : ∃ (names : List Name) (groups : List (List (List Nat))) (k : Nat), (names = s.opened ∨ names = s.opened ++ [logName (s.index + 1) w.time w.random]) ∧
      names.map (contents s.dir) = groups.map (fun g => some g.flatten) ∧
      groups.flatten = (closed ++ [cur]).flatten ++ [b.take k] ∧
      (∀ n, n ∉ names → n ∉ names.map encName → s.dir n = dir0 n) := by
    have := wr 0
    rw [wdir 0] at this
    have e : upd s.dir s.file (some ((s.dir s.file).getD [] ++ b.take 0)) = s.dir := by
      funext n
      unfold upd
      split
      · rename_i hn; subst hn; simp [h.here]
      · rfl
    rw [e] at this
    exact this
  unfold FileSink.effects at hc
  rw [if_pos h.good] at hc
  unfold FileSink.writeEffects at hc
  rw [if_pos h.isOpen, hw] at hc
  simp only [List.cons_append, List.nil_append] at hc
  cases hc with
  | now => exact start
  | torn ht => cases ht with | append k => rw [← wdir k]; exact wr k
  | later hc =>
    have e1 : Effect.apply s.dir (.append s.file b) = (s.write w b).dir := by
      have := wdir b.length
      rw [List.take_length] at this
      exact this.symm
    rw [e1] at hc
    have written : ∃ (names : List Name) (groups : List (List (List Nat))) (k : Nat), (names = s.opened ∨ names = s.opened ++ [logName (s.index + 1) w.time w.random]) ∧
        names.map (contents (s.write w b).dir) = groups.map (fun g => some g.flatten) ∧
        groups.flatten = (closed ++ [cur]).flatten ++ [b.take k] ∧
        (∀ n, n ∉ names → n ∉ names.map encName → (s.write w b).dir n = dir0 n) := by
      have := wr b.length
      rw [List.take_length] at this
      exact this
    split at hc
    · -- a rotation
      unfold FileSink.createEffects at hc
      have opening : ∀ d0 d, d0 = ((s.write w b).closeFile w).dir →
          CrashAt d0 (if w.openOk = true then [.create (logName (((s.write w b).index + 1) % 2 ^ 32) w.time w.random)] else []) d →
          ∃ (names : List Name) (groups : List (List (List Nat))) (k : Nat), (names = s.opened ∨ names = s.opened ++ [logName (s.index + 1) w.time w.random]) ∧
            names.map (contents d) = groups.map (fun g => some g.flatten) ∧
            groups.flatten = (closed ++ [cur]).flatten ++ [b.take k] ∧
            (∀ n, n ∉ names → n ∉ names.map encName → d n = dir0 n) := by
        intro d0 d h0 hc
        split at hc
        · rename_i ho
          rw [hidx, hmod] at hc
          cases hc with
          | now => exact fin w henc _ h0
          | torn ht => cases ht
          | later hc =>
            cases hc
            refine opn ho _ ?_
            rw [Effect.apply, h0]
        · cases hc
          exact fin w henc _ h0
      have enc : ∀ x d, d = upd (s.write w b).dir (encName (s.write w b).file) (some x) →
          ∃ (names : List Name) (groups : List (List (List Nat))) (k : Nat), (names = s.opened ∨ names = s.opened ++ [logName (s.index + 1) w.time w.random]) ∧
            names.map (contents d) = groups.map (fun g => some g.flatten) ∧
            groups.flatten = (closed ++ [cur]).flatten ++ [b.take k] ∧
            (∀ n, n ∉ names → n ∉ names.map encName → d n = dir0 n) := by
        intro x d hd
        refine fin { w with compress := true, encode := .failed (some x) } (fun out h => by cases h) d ?_
        rw [hd]; rfl
      rw [hwr.isOpen, Bool.true_and] at hc
      cases hcomp : w.compress with
      | false =>
        rw [hcomp] at hc
        simp only [Bool.false_eq_true, if_false, List.nil_append] at hc
        exact opening _ _ (by simp [FileSink.closeFile, hcomp]) hc
      | true =>
        rw [hcomp] at hc
        simp only [if_true] at hc
        cases hen : w.encode with
        | done out =>
          rw [hen] at hc
          simp only [List.cons_append, List.nil_append] at hc
          cases hc with
          | now => exact written
          | torn ht => cases ht with | rewrite x => exact enc x _ rfl
          | later hc =>
            cases hc with
            | now => exact enc out _ rfl
            | torn ht => cases ht
            | later hc =>
              refine opening _ _ ?_ hc
              simp [FileSink.closeFile, hcomp, hen, Effect.apply]
        | failed l =>
          rw [hen] at hc
          cases l with
          | none =>
            simp only [List.nil_append] at hc
            exact opening _ _ (by simp [FileSink.closeFile, hcomp, hen]) hc
          | some left =>
            simp only [List.cons_append, List.nil_append] at hc
            cases hc with
            | now => exact written
            | torn ht => cases ht with | rewrite x => exact enc x _ rfl
            | later hc =>
              refine opening _ _ ?_ hc
              simp [FileSink.closeFile, hcomp, hen, Effect.apply]
    · cases hc
      exact written

/-- C102: the process may be killed at any moment while a record is being passed to the sink, in
particular anywhere within the compression of the previous log and the change to the next. The files
(or, where only the compressed file is left, what it decodes to), in the order in which they were
opened, hold exactly the records accepted before, each whole and once, followed by some initial part of
the record being written; and nothing else in the directory has changed. -/
theorem crash_keeps_records (dir0 : Dir) (w0 : World) (ws : List (World × List Nat)) (w : World) (b : List Nat)
    (h0 : w0.openOk = true) (hf : Faithful ((FileSink.init dir0).initialize w0).1 ws)
    (hf' : Faithful (((FileSink.init dir0).initialize w0).1.streams ws).1 [(w, b)]) (hl : ws.length + 2 < 2 ^ 32)
    (ha : ∀ a ∈ (((FileSink.init dir0).initialize w0).1.streams ws).2, a = true) (d : Dir)
    (hc : let s := (((FileSink.init dir0).initialize w0).1.streams ws).1
      CrashAt s.dir (s.effects w b) d) :
    let s := (((FileSink.init dir0).initialize w0).1.streams ws).1
    ∃ (names : List Name) (groups : List (List (List Nat))) (k : Nat),
      (names = s.opened ∨ names = s.opened ++ [logName (s.index + 1) w.time w.random]) ∧
      names.map (contents d) = groups.map (fun g => some g.flatten) ∧
      groups.flatten = ws.map (·.2) ++ [b.take k] ∧
      (∀ n, n ∉ names → n ∉ names.map encName → d n = dir0 n) := by
  obtain ⟨hw, _, hi⟩ := Working.start dir0 w0 h0
  obtain ⟨closed, cur, g1, g2, g3⟩ := Working.accepted ws hw hf (by omega) ha
  obtain ⟨e1, e2, e3, _⟩ := hf'
  have := g1.crash w b e1 e2 e3 (by omega) d hc
  simpa [g2] using this

/-- A crash after the log was compressed and before it is removed: the hypotheses are met, and both files
exist. -/
example : ∃ out d, let s := ((FileSink.init fun _ => none).initialize sampleWorld).1
    let w := { sampleWorld with compress := true, encode := .done out }
    Faithful s [(w, [1, 2, 3, 4])] ∧ CrashAt s.dir (s.effects w [1, 2, 3, 4]) d ∧
      d (logName 1 [0x31] [0x61]) = some [1, 2, 3, 4] ∧ d (encName (logName 1 [0x31] [0x61])) = some out := by
  have hv : Verif.Huffman.Valid 256 11 [1, 2, 3, 4] :=
    Verif.Huffman.valid_of_eight _ _ _ (by omega) (by omega) (by omega) (by omega)
  obtain ⟨out, ho⟩ := (Verif.Huffman.huffman_roundtrip 256 11 [1, 2, 3, 4] (by decide) hv).1
  let s := ((FileSink.init fun _ => none).initialize sampleWorld).1
  have hs : s.dir (logName 1 [0x31] [0x61]) = some [] := by decide +kernel
  have hf : s.file = logName 1 [0x31] [0x61] := by decide +kernel
  have he : s.effects { sampleWorld with compress := true, encode := .done out } [1, 2, 3, 4] =
      [.append (logName 1 [0x31] [0x61]) [1, 2, 3, 4], .rewrite (encName (logName 1 [0x31] [0x61])) out,
        .remove (logName 1 [0x31] [0x61]), .create (logName 2 [0x31] [0x61])] := by
    simp [s, FileSink.effects, FileSink.writeEffects, FileSink.createEffects, FileSink.write, FileSink.size,
      FileSink.init, FileSink.initialize, FileSink.create, FileSink.openNext, sampleWorld, upd]
  refine ⟨out, Effect.apply (Effect.apply s.dir (.append (logName 1 [0x31] [0x61]) [1, 2, 3, 4]))
    (.rewrite (encName (logName 1 [0x31] [0x61])) out), ⟨rfl, by decide, ?_, trivial⟩, ?_, ?_, ?_⟩
  · intro o c h1 h2
    cases h1
    have : c = [1, 2, 3, 4] := by
      have e : (s.write { sampleWorld with compress := true, encode := .done out } [1, 2, 3, 4]).dir s.file =
        some [1, 2, 3, 4] := by
        rw [write_effects, FileSink.writeEffects, if_pos (show s.isOpen = true from rfl)]
        simp [Effect.apply, upd, hf, hs, sampleWorld]
      rw [e] at h2; exact (Option.some.inj h2).symm
    subst this
    exact ⟨256, 11, hv, ho⟩
  · rw [he]; exact .later (.later .now)
  · simp [Effect.apply, upd, hs, encName]
  · simp [Effect.apply, upd]

end Verif.Logger
