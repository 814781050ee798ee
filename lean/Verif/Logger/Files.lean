import Verif.Logger.Names
import Verif.Huffman.Props

/-!
# The file sink: lemmas
-/

namespace Verif.Logger

open Verif.Digits

theorem no_underscore (n : Nat) : 0x5f ∉ digits 10 n := by
  intro h
  have := digits_dec n _ h
  simp only [Verif.Str.AsciiDigit] at this
  omega

theorem append_sep_inj {sep : Nat} : ∀ {a a' b b' : List Nat}, sep ∉ a → sep ∉ a' → a ++ sep :: b = a' ++ sep :: b' → a = a' := by
  intro a
  induction a with
  | nil =>
    intro a' b b' _ h' e
    cases a' with
    | nil => rfl
    | cons x xs =>
      have := (List.cons.inj e).1
      exact absurd (by simp [this]) h'
  | cons x xs ih =>
    intro a' b b' h h' e
    cases a' with
    | nil =>
      have := (List.cons.inj e).1
      exact absurd (by simp [this]) h
    | cons y ys =>
      have e' := List.cons.inj e
      rw [e'.1, ih (fun hh => h (List.mem_cons_of_mem _ hh)) (fun hh => h' (List.mem_cons_of_mem _ hh)) e'.2]

theorem logName_inj {i j : Nat} {t r t' r' : List Nat} (h : logName i t r = logName j t' r') : i = j := by
  have e : digits 10 i ++ 0x5f :: (t ++ 0x5f :: (r ++ [0x2e, 0x6c, 0x6f, 0x67])) =
      digits 10 j ++ 0x5f :: (t' ++ 0x5f :: (r' ++ [0x2e, 0x6c, 0x6f, 0x67])) := by
    simpa [logName] using h
  have := append_sep_inj (no_underscore i) (no_underscore j) e
  have := congrArg (Verif.Str.numeral 10) this
  rwa [numeral_digits (by omega) (by omega), numeral_digits (by omega) (by omega)] at this

theorem encName_inj {m n : Name} (h : encName m = encName n) : m = n := List.append_cancel_right h

theorem logName_ne_encName (i j : Nat) (t r t' r' : List Nat) : logName i t r ≠ encName (logName j t' r') := by
  intro h
  have e1 : ∀ (x : List Nat), (x ++ [0x2e, 0x6c, 0x6f, 0x67]).getLast? = some 0x67 := fun x => by simp
  have e2 : ∀ (x : List Nat), (x ++ [0x2e, 0x65, 0x6e, 0x63]).getLast? = some 0x63 := fun x => by simp
  have := congrArg List.getLast? h
  rw [logName, encName, e1, e2] at this
  cases this

/-- The name carries index `i`. -/
def HasIndex (n : Name) (i : Nat) : Prop := ∃ t r, n = logName i t r

theorem HasIndex.ne {m n : Name} {i j : Nat} (hm : HasIndex m i) (hn : HasIndex n j) (h : i ≠ j) :
    m ≠ n ∧ encName m ≠ encName n := by
  obtain ⟨t, r, rfl⟩ := hm
  obtain ⟨t', r', rfl⟩ := hn
  exact ⟨fun e => h (logName_inj e), fun e => h (logName_inj (encName_inj e))⟩

theorem HasIndex.ne_enc {m n : Name} {i j : Nat} (hm : HasIndex m i) (hn : HasIndex n j) : m ≠ encName n ∧ encName m ≠ n := by
  obtain ⟨t, r, rfl⟩ := hm
  obtain ⟨t', r', rfl⟩ := hn
  exact ⟨logName_ne_encName _ _ _ _ _ _, fun e => logName_ne_encName _ _ _ _ _ _ e.symm⟩

theorem contents_congr {d d' : Name → Option (List Nat)} {n : Name} (h : d n = d' n) (h' : d (encName n) = d' (encName n)) :
    contents d n = contents d' n := by
  simp only [contents, h, h']

/-- While the sink works: `closed` are the record groups of the files finished, `cur` the records in the
current one. -/
structure Working (dir0 : Name → Option (List Nat)) (s : FileSink) (closed : List (List (List Nat))) (cur : List (List Nat)) : Prop where
  good : s.good = true
  isOpen : s.isOpen = true
  bound : s.index < 2 ^ 32
  current : HasIndex s.file s.index
  here : s.dir s.file = some cur.flatten
  olds : ∃ olds, s.opened = olds ++ [s.file] ∧ olds.map (contents s.dir) = closed.map (fun g => some g.flatten) ∧
    ∀ n ∈ olds, ∃ i, i < s.index ∧ HasIndex n i
  others : ∀ n, n ∉ s.opened → n ∉ s.opened.map encName → s.dir n = dir0 n
  count : s.opened.length = s.index
  bytes : ∀ x ∈ cur.flatten, x < 256

/-- Once a file could not be opened. -/
structure Stopped (dir0 : Name → Option (List Nat)) (s : FileSink) (closed : List (List (List Nat))) : Prop where
  bad : s.good = false
  kept : s.opened.map (contents s.dir) = closed.map fun g => some g.flatten
  others : ∀ n, n ∉ s.opened → n ∉ s.opened.map encName → s.dir n = dir0 n

theorem Working.all {dir0 s closed cur} (h : Working dir0 s closed cur) :
    s.opened.map (contents s.dir) = (closed ++ [cur]).map fun g => some g.flatten := by
  obtain ⟨olds, h1, h2, _⟩ := h.olds
  rw [h1, List.map_append, List.map_append, h2]
  simp [contents, h.here]

theorem Stopped.stream {dir0 s closed} (h : Stopped dir0 s closed) (w : World) (b : List Nat) :
    s.stream w b = (s, false) := by
  simp [FileSink.stream, FileSink.streamWith, h.bad]

/-- Writing a record. -/
theorem Working.write {dir0 s closed cur} (h : Working dir0 s closed cur) (w : World) (b : List Nat) (hw : w.wrote = none)
    (hb : ∀ x ∈ b, x < 256) : Working dir0 (s.write w b) closed (cur ++ [b]) := by
  have e : s.write w b = { s with dir := upd s.dir s.file (some (cur.flatten ++ b)) } := by
    simp [FileSink.write, h.isOpen, hw, h.here]
  rw [e]
  obtain ⟨olds, h1, h2, h3⟩ := h.olds
  refine ⟨h.good, h.isOpen, h.bound, h.current, ?_, ⟨olds, h1, ?_, h3⟩, ?_, h.count, ?_⟩
  · simp
  · rw [← h2]
    apply List.map_congr_left
    intro n hn
    obtain ⟨i, hi, hin⟩ := h3 n hn
    have a1 := (hin.ne h.current (by omega)).1
    have a2 := (hin.ne_enc h.current).2
    exact contents_congr (upd_ne _ _ a1) (upd_ne _ _ a2)
  · intro n hn1 hn2
    have : n ≠ s.file := fun e => hn1 (by simp [h1, e])
    show upd s.dir s.file _ n = _
    rw [upd_ne _ _ this]; exact h.others n hn1 hn2
  · intro x hx
    rw [List.flatten_append, List.mem_append] at hx
    rcases hx with hx | hx
    · exact h.bytes x hx
    · exact hb x (by simpa using hx)

/-- The file after closing (and perhaps compressing) it. -/
structure Closed (dir0 : Name → Option (List Nat)) (s : FileSink) (closed : List (List (List Nat))) : Prop where
  isOpen : s.isOpen = false
  kept : s.opened.map (contents s.dir) = closed.map fun g => some g.flatten
  names : ∀ n ∈ s.opened, ∃ i, i ≤ s.index ∧ HasIndex n i
  others : ∀ n, n ∉ s.opened → n ∉ s.opened.map encName → s.dir n = dir0 n
  count : s.opened.length = s.index

theorem Closed.openNext {dir0 s closed} (h : Closed dir0 s closed) (w : World) (hi : s.index + 1 < 2 ^ 32) :
    (w.openOk = true ∧ (s.openNext w).2 = true ∧ Working dir0 (s.openNext w).1 closed [] ∧ (s.openNext w).1.index = s.index + 1) ∨
    (w.openOk = false ∧ (s.openNext w).2 = false ∧ Stopped dir0 (s.openNext w).1 closed) := by
  have hmod : (s.index + 1) % 2 ^ 32 = s.index + 1 := Nat.mod_eq_of_lt hi
  cases hw : w.openOk with
  | false =>
    refine .inr ⟨rfl, ?_, ?_⟩
    · simp [FileSink.openNext, h.isOpen, hw]
    · simp only [FileSink.openNext, h.isOpen, hw, Bool.false_eq_true, if_false]
      exact ⟨rfl, h.kept, h.others⟩
  | true =>
    refine .inl ⟨rfl, ?_, ?_, ?_⟩
    · simp [FileSink.openNext, h.isOpen, hw]
    · simp only [FileSink.openNext, h.isOpen, hw, Bool.false_eq_true, if_false, if_true, hmod]
      have hidx : HasIndex (logName (s.index + 1) w.time w.random) (s.index + 1) := ⟨_, _, rfl⟩
      refine ⟨rfl, rfl, hi, hidx, by simp, ⟨s.opened, rfl, ?_, ?_⟩, ?_, by simp [h.count], by simp⟩
      · rw [← h.kept]
        apply List.map_congr_left
        intro n hn
        obtain ⟨i, hi', hin⟩ := h.names n hn
        exact contents_congr (upd_ne _ _ (hin.ne hidx (by omega)).1) (upd_ne _ _ (hin.ne_enc hidx).2)
      · intro n hn
        obtain ⟨i, hi', hin⟩ := h.names n hn
        exact ⟨i, by show i < s.index + 1; omega, hin⟩
      · intro n hn1 hn2
        simp only [List.mem_append, List.mem_singleton, not_or, List.map_append] at hn1 hn2
        show upd s.dir _ _ n = _
        rw [upd_ne _ _ hn1.2]
        exact h.others n hn1.1 hn2.1
    · simp only [FileSink.openNext, h.isOpen, hw, Bool.false_eq_true, if_false, if_true, hmod]

/-- The state in `create_log_file` before the next file is opened. -/
def FileSink.closeFile (s : FileSink) (w : World) : FileSink :=
  let s2 := { s with isOpen := false }
  if w.compress then
    match w.encode with
    | .done out => { s2 with dir := upd (upd s2.dir (encName s2.file) (some out)) s2.file none }
    | .failed (some left) => { s2 with dir := upd s2.dir (encName s2.file) (some left) }
    | .failed none => s2
  else s2

theorem create_eq {s : FileSink} (h : s.isOpen = true) (w : World) : s.create w id = (s.closeFile w).openNext w := by
  unfold FileSink.create FileSink.closeFile
  simp only [h, if_true]
  cases w.compress with
  | false => rfl
  | true =>
    cases w.encode with
    | done out => rfl
    | failed l => cases l <;> rfl

theorem Working.closeFile {dir0 s closed cur} (h : Working dir0 s closed cur) (w : World)
    (he : ∀ out, w.encode = .done out → ∃ kb M, Verif.Huffman.Valid kb M cur.flatten ∧ Verif.Huffman.Encodes kb M cur.flatten out) :
    Closed dir0 (s.closeFile w) (closed ++ [cur]) ∧ (s.closeFile w).index = s.index := by
  obtain ⟨olds, h1, h2, h3⟩ := h.olds
  have names : ∀ n ∈ s.opened, ∃ i, i ≤ s.index ∧ HasIndex n i := by
    intro n hn
    rw [h1, List.mem_append] at hn
    rcases hn with hn | hn
    · obtain ⟨i, hi, hin⟩ := h3 n hn; exact ⟨i, by omega, hin⟩
    · exact ⟨s.index, Nat.le_refl _, by rw [List.mem_singleton.mp hn]; exact h.current⟩
  have encmem : encName s.file ∈ s.opened.map encName := List.mem_map_of_mem (by simp [h1])
  have same : Closed dir0 { s with isOpen := false } (closed ++ [cur]) := ⟨rfl, h.all, names, h.others, h.count⟩
  unfold FileSink.closeFile
  cases w.compress with
  | false => exact ⟨same, rfl⟩
  | true =>
    simp only [if_true]
    cases hw : w.encode with
    | failed l =>
      cases l with
      | none => exact ⟨same, rfl⟩
      | some left =>
        refine ⟨⟨rfl, ?_, names, ?_, h.count⟩, rfl⟩
        · rw [← h.all]
          apply List.map_congr_left
          intro n hn
          obtain ⟨i, hi, hin⟩ := names n hn
          have a1 : upd s.dir (encName s.file) (some left) n = s.dir n := upd_ne _ _ (hin.ne_enc h.current).1
          by_cases e : n = s.file
          · subst e
            simp only [contents, a1, h.here]
          · refine contents_congr a1 (upd_ne _ _ fun ee => e (encName_inj ee))
        · intro n hn1 hn2
          show upd s.dir (encName s.file) _ n = _
          rw [upd_ne _ _ (fun e => hn2 (by rw [e]; exact encmem))]; exact h.others n hn1 hn2
    | done out =>
      obtain ⟨kb, M, hv, henc⟩ := he out hw
      have hdec := (Verif.Huffman.huffman_roundtrip kb M cur.flatten h.bytes hv).2 out henc
      refine ⟨⟨rfl, ?_, names, ?_, h.count⟩, rfl⟩
      · show s.opened.map (contents _) = _
        rw [h1, List.map_append, List.map_append, ← h2]
        have e1 : olds.map (contents (upd (upd s.dir (encName s.file) (some out)) s.file none)) = olds.map (contents s.dir) := by
          apply List.map_congr_left
          intro n hn
          obtain ⟨i, hi, hin⟩ := h3 n hn
          have b1 := hin.ne h.current (by omega)
          have b2 := hin.ne_enc h.current
          apply contents_congr
          · rw [upd_ne _ _ b1.1, upd_ne _ _ b2.1]
          · rw [upd_ne _ _ b2.2, upd_ne _ _ b1.2]
        rw [e1]
        have b2 := h.current.ne_enc h.current
        have e2 : contents (upd (upd s.dir (encName s.file) (some out)) s.file none) s.file = some cur.flatten := by
          simp only [contents, upd_self]
          rw [upd_ne _ _ b2.2, upd_self]
          simp [hdec]
        simp [e2]
      · intro n hn1 hn2
        have a1 : n ≠ s.file := fun e => hn1 (by simp [h1, e])
        show upd (upd s.dir _ _) _ _ n = _
        rw [upd_ne _ _ a1, upd_ne _ _ (fun e => hn2 (by rw [e]; exact encmem))]; exact h.others n hn1 hn2

/-- The sink rotates after this record. -/
def rotates (w : World) (held : Nat) : Prop := w.maxSize < if w.sizeOk then held else 2 ^ 64 - 1

instance (w : World) (held : Nat) : Decidable (rotates w held) := inferInstanceAs (Decidable (_ < _))

theorem Working.stream {dir0 s closed cur} (h : Working dir0 s closed cur) (w : World) (b : List Nat) (hw : w.wrote = none)
    (hb : ∀ x ∈ b, x < 256) (he : ∀ out c, w.encode = .done out → (s.write w b).dir s.file = some c →
      ∃ kb M, Verif.Huffman.Valid kb M c ∧ Verif.Huffman.Encodes kb M c out) (hi : s.index + 1 < 2 ^ 32) :
    (¬ rotates w (cur ++ [b]).flatten.length ∧ (s.stream w b).2 = true ∧ Working dir0 (s.stream w b).1 closed (cur ++ [b]) ∧
      (s.stream w b).1.index = s.index) ∨
    (rotates w (cur ++ [b]).flatten.length ∧ w.openOk = true ∧ (s.stream w b).2 = true ∧
      Working dir0 (s.stream w b).1 (closed ++ [cur ++ [b]]) [] ∧ (s.stream w b).1.index = s.index + 1) ∨
    (rotates w (cur ++ [b]).flatten.length ∧ w.openOk = false ∧ (s.stream w b).2 = false ∧
      Stopped dir0 (s.stream w b).1 (closed ++ [cur ++ [b]])) := by
  have hwr := h.write w b hw hb
  have hfile : (s.write w b).file = s.file := by unfold FileSink.write; split <;> (try split) <;> rfl
  have hidx : (s.write w b).index = s.index := by unfold FileSink.write; split <;> (try split) <;> rfl
  have hsize : (s.write w b).size w = if w.sizeOk then (cur ++ [b]).flatten.length else 2 ^ 64 - 1 := by
    simp only [FileSink.size, hwr.here]
  have es : s.stream w b = if (s.write w b).size w > w.maxSize then (s.write w b).create w id else (s.write w b, true) := by
    simp [FileSink.stream, FileSink.streamWith, h.good]
  rw [hsize] at es
  change s.stream w b = if rotates w (cur ++ [b]).flatten.length then (s.write w b).create w id else (s.write w b, true) at es
  by_cases hr : rotates w (cur ++ [b]).flatten.length
  · rw [if_pos hr, create_eq hwr.isOpen] at es
    obtain ⟨hc, hci⟩ := hwr.closeFile w (fun out ho => he out _ ho (by rw [← hfile]; exact hwr.here))
    rw [hidx] at hci
    rw [es]
    rcases hc.openNext w (by omega) with ⟨a1, a2, a3, a4⟩ | ⟨a1, a2, a3⟩
    · exact .inr (.inl ⟨hr, a1, a2, a3, by rw [a4, hci]⟩)
    · exact .inr (.inr ⟨hr, a1, a2, a3⟩)
  · rw [if_neg hr] at es
    rw [es]
    exact .inl ⟨hr, rfl, hwr, hidx⟩

theorem Stopped.streams {dir0 s closed} (h : Stopped dir0 s closed) : ∀ ws, s.streams ws = (s, List.replicate ws.length false) := by
  intro ws
  induction ws with
  | nil => rfl
  | cons x ws ih =>
    obtain ⟨w, b⟩ := x
    simp only [FileSink.streams, h.stream, ih]
    rfl

/-- What remains true after any number of records. -/
theorem Working.streams (ws : List (World × List Nat)) : ∀ {dir0 s closed cur}, Working dir0 s closed cur → Faithful s ws →
    s.index + ws.length < 2 ^ 32 →
    ∃ (groups : List (List (List Nat))) (a : Nat),
      (s.streams ws).1.opened.map (contents (s.streams ws).1.dir) = groups.map (fun g => some g.flatten) ∧
      groups.flatten = closed.flatten ++ cur ++ (ws.map (·.2)).take (a + 1) ∧ a ≤ ws.length ∧
      (s.streams ws).2 = List.replicate a true ++ List.replicate (ws.length - a) false ∧
      (∀ n, n ∉ (s.streams ws).1.opened → n ∉ (s.streams ws).1.opened.map encName → (s.streams ws).1.dir n = dir0 n) ∧
      ((∀ x ∈ ws, x.1.openOk = true) → a = ws.length) := by
  induction ws with
  | nil =>
    intro dir0 s closed cur h _ _
    exact ⟨closed ++ [cur], 0, h.all, by simp, by simp, rfl, h.others, fun _ => rfl⟩
  | cons x ws ih =>
    obtain ⟨w, b⟩ := x
    intro dir0 s closed cur h hf hi
    obtain ⟨hw, hb, he, hf'⟩ := hf
    simp only [List.length_cons] at hi
    simp only [FileSink.streams]
    rcases h.stream w b hw hb he (by omega) with ⟨_, a2, a3, a4⟩ | ⟨_, _, a2, a3, a4⟩ | ⟨_, a1, a2, a3⟩
    · obtain ⟨groups, a, g1, g2, g3, g4, g5, g6⟩ := ih a3 hf' (by omega)
      refine ⟨groups, a + 1, g1, ?_, by simpa using g3, ?_, g5, fun ho => ?_⟩
      · rw [g2]; simp
      · rw [g4, a2]
        simp only [List.length_cons, List.replicate_succ, List.cons_append]
        rw [show ws.length + 1 - (a + 1) = ws.length - a by omega]
      · have := g6 fun x hx => ho x (List.mem_cons_of_mem _ hx)
        simp [this]
    · obtain ⟨groups, a, g1, g2, g3, g4, g5, g6⟩ := ih a3 hf' (by omega)
      refine ⟨groups, a + 1, g1, ?_, by simpa using g3, ?_, g5, fun ho => ?_⟩
      · rw [g2]; simp
      · rw [g4, a2]
        simp only [List.length_cons, List.replicate_succ, List.cons_append]
        rw [show ws.length + 1 - (a + 1) = ws.length - a by omega]
      · have := g6 fun x hx => ho x (List.mem_cons_of_mem _ hx)
        simp [this]
    · rw [a3.streams ws]
      refine ⟨closed ++ [cur ++ [b]], 0, a3.kept, by simp, by simp, ?_, a3.others, fun ho => ?_⟩
      · rw [a2]; simp [List.replicate_succ]
      · have := ho (w, b) List.mem_cons_self
        rw [a1] at this; cases this

/-- With working surroundings and one size limit, the files are filled as specified. -/
theorem Working.fill (max : Nat) (ws : List (World × List Nat)) : ∀ {dir0 s closed cur}, Working dir0 s closed cur → Faithful s ws →
    s.index + ws.length < 2 ^ 32 → (∀ x ∈ ws, x.1.openOk = true ∧ x.1.sizeOk = true ∧ x.1.maxSize = max) →
    (s.streams ws).1.opened.map (contents (s.streams ws).1.dir) =
      (closed ++ fill max cur (ws.map (·.2))).map (fun g => some g.flatten) := by
  induction ws with
  | nil =>
    intro dir0 s closed cur h _ _ _
    exact h.all
  | cons x ws ih =>
    obtain ⟨w, b⟩ := x
    intro dir0 s closed cur h hf hi ho
    obtain ⟨hw, hb, he, hf'⟩ := hf
    simp only [List.length_cons] at hi
    obtain ⟨o1, o2, o3⟩ := ho (w, b) List.mem_cons_self
    have ho' := fun x hx => ho x (List.mem_cons_of_mem _ hx)
    simp only [FileSink.streams, List.map_cons, Logger.fill]
    have hrot : rotates w (cur ++ [b]).flatten.length ↔ max < (cur ++ [b]).flatten.length := by
      simp only at o2 o3
      simp [rotates, o2, o3]
    rcases h.stream w b hw hb he (by omega) with ⟨a1, a2, a3, a4⟩ | ⟨a1, _, a2, a3, a4⟩ | ⟨_, a1, a2, a3⟩
    · rw [if_neg (fun hh => a1 (hrot.mpr hh))]
      exact ih a3 hf' (by omega) ho'
    · rw [if_pos (hrot.mp a1)]
      have := ih a3 hf' (by omega) ho'
      simpa using this
    · simp only at o1; rw [o1] at a1; cases a1

theorem Working.start (dir0 : Name → Option (List Nat)) (w : World) (h : w.openOk = true) :
    Working dir0 ((FileSink.init dir0).initialize w).1 [] [] ∧ ((FileSink.init dir0).initialize w).2 = true ∧
      ((FileSink.init dir0).initialize w).1.index = 1 := by
  have hc : Closed dir0 (FileSink.init dir0) [] :=
    ⟨rfl, rfl, fun n hn => absurd hn (by simp [FileSink.init]), fun _ _ _ => rfl, rfl⟩
  have e : (FileSink.init dir0).initialize w = (FileSink.init dir0).openNext w := rfl
  rw [e]
  rcases hc.openNext w (by simp [FileSink.init]) with ⟨_, a2, a3, a4⟩ | ⟨a1, _⟩
  · exact ⟨a3, a2, a4⟩
  · rw [h] at a1; cases a1

theorem fill_ne_nil (max : Nat) (rs : List (List Nat)) : ∀ acc, fill max acc rs ≠ [] := by
  induction rs with
  | nil => intro acc; simp [Logger.fill]
  | cons r rs ih => intro acc; unfold Logger.fill; split <;> simp [ih]

/-- What `fill` means: the groups make up the list; every group but the last exceeds the limit, but would
not without its last record; the last group does not exceed it. -/
theorem fill_spec (max : Nat) (rs : List (List Nat)) : ∀ acc, acc.flatten.length ≤ max →
    (fill max acc rs).flatten = acc ++ rs ∧
    (∀ g ∈ (fill max acc rs).dropLast, max < g.flatten.length ∧ g.dropLast.flatten.length ≤ max ∧ g ≠ []) ∧
    (∀ g, (fill max acc rs).getLast? = some g → g.flatten.length ≤ max) := by
  induction rs with
  | nil => intro acc h; simp [Logger.fill]; simpa using h
  | cons r rs ih =>
    intro acc h
    unfold Logger.fill
    by_cases hm : max < (acc ++ [r]).flatten.length
    · rw [if_pos hm]
      obtain ⟨h1, h2, h3⟩ := ih [] (by simp)
      have hne : fill max [] rs ≠ [] := fill_ne_nil max rs []
      refine ⟨by simp [h1], ?_, ?_⟩
      · intro g hg
        rw [List.dropLast_cons_of_ne_nil hne] at hg
        rcases List.mem_cons.mp hg with rfl | hg
        · exact ⟨hm, by simpa using h, by simp⟩
        · exact h2 g hg
      · intro g hg
        apply h3 g
        rw [List.getLast?_cons] at hg
        obtain ⟨x, hx⟩ : ∃ x, (fill max [] rs).getLast? = some x := ⟨_, List.getLast?_eq_some_getLast hne⟩
        rw [hx] at hg ⊢
        simpa using hg
    · rw [if_neg hm]
      obtain ⟨h1, h2, h3⟩ := ih (acc ++ [r]) (by omega)
      exact ⟨by rw [h1]; simp, h2, h3⟩

end Verif.Logger
