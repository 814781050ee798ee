import Verif.Logger.Spec

/-!
# The logger's state machine: lemmas
-/

namespace Verif.Logger

theorem run_not_alive {s : Core} (h : s.alive = false) : ∀ ops, (s.run ops).2 = [] := by
  intro ops
  induction ops generalizing s with
  | nil => rfl
  | cons op ops ih =>
    have key : (s.step op).1.alive = false ∧ (s.step op).2 = none := by
      cases op <;> simp only [Core.step, h]
      · simp [h]
      · split <;> simp [h]
      · simp
      · simp
    simp only [Core.run, key.2, ih key.1]; rfl

theorem run_failed {s : Core} (h : s.failed = true) : ∀ ops, (s.run ops).2 = [] := by
  intro ops
  induction ops generalizing s with
  | nil => rfl
  | cons op ops ih =>
    have key : (s.step op).1.failed = true ∧ (s.step op).2 = none := by
      cases op <;> simp only [Core.step, h]
      · split <;> simp [h]
      · split
        · simp [h]
        · split <;> simp [h]
      · simp
      · simp
    simp only [Core.run, key.2, ih key.1]; rfl

theorem Offered.weaken {sz sz' : List Nat} (h : ∀ m ∈ sz, m ∈ sz') {i cs os} (ho : Offered sz i cs os) :
    Offered sz' i cs os := by
  induction ho with
  | nil i cs => exact .nil i cs
  | refused i m c cs hm => exact .refused i m c cs (h m hm)
  | accepted i m c cs os hm _ ih => exact .accepted i m c cs os (h m hm) ih

theorem Offered.more {sz : List Nat} {i cs os} (ho : Offered sz i cs os) (more : List Call) :
    Offered sz i (cs ++ more) os := by
  induction ho with
  | nil i cs => exact .nil i _
  | refused i m c cs hm => exact .refused i m c _ hm
  | accepted i m c cs os hm _ ih => exact .accepted i m c _ os hm ih

/-- The calls waiting in the task runner, or arriving. -/
def waiting (s : Core) (ops : List Op) : List Call := s.queue ++ validCalls ops

theorem mod_succ (n : Nat) : (n % 2 ^ 64 + 1) % 2 ^ 64 = (n + 1) % 2 ^ 64 := by omega

theorem offered_toSink {s : Core} {ops : List Op} {c : Call} {a : Bool} {n : Nat} {sz : List Nat} {cs : List Call}
    (hn : s.index = n % 2 ^ 64) (hm : s.maxMessage ∈ sz)
    (ih : ((s.toSink c a).1.failed = false) → Offered sz (n + 1) cs (((s.toSink c a).1.run ops).2)) :
    Offered sz n (c :: cs) ((s.toSink c a).2.toList ++ ((s.toSink c a).1.run ops).2) := by
  cases a with
  | false =>
    rw [run_failed (s := (s.toSink c false).1) rfl]
    simp only [Core.toSink, Option.toList, List.append_nil, hn]
    exact .refused n _ c cs hm
  | true =>
    have := ih rfl
    simp only [Core.toSink, Option.toList, List.cons_append, List.nil_append, hn] at this ⊢
    exact .accepted n _ c cs _ hm this

theorem run_offered (ops : List Op) : ∀ (s : Core) (n : Nat), (s.async = false → s.queue = []) → s.failed = false →
    s.index = n % 2 ^ 64 → s.alive = true →
    Offered (s.maxMessage :: sizes ops) n (waiting s ops) (s.run ops).2 := by
  induction ops with
  | nil => intro s n _ _ _ _; exact .nil _ _
  | cons op ops ih =>
    intro s n hq hf hn ha
    cases op with
    | log c a =>
      simp only [Core.run, Core.step, ha, hf, waiting, validCalls, sizes, numLevels]
      by_cases hl : c.level < 4
      · have hl' : ¬ 4 ≤ c.level := by omega
        by_cases hs : s.async = true
        · simp only [Bool.not_true, Bool.false_eq_true, if_false, Bool.false_or, decide_eq_true_eq, hl', hs, hl, if_true,
            Option.toList, List.nil_append]
          have := ih { s with queue := s.queue ++ [c] } n (by simp [hs]) hf hn ha
          simpa only [waiting, List.append_assoc, List.singleton_append, hs, hf, ha] using this
        · have hs' : s.async = false := by simpa using hs
          simp only [Bool.not_true, Bool.false_eq_true, if_false, Bool.false_or, decide_eq_true_eq, hl', hs', hl, if_true]
          rw [hq hs']
          apply offered_toSink hn (by simp)
          intro h
          have := ih (s.toSink c a).1 (n + 1) (by intro _; exact hq hs') h
            (by simp only [Core.toSink, hn]; exact mod_succ n) ha
          simpa only [waiting, Core.toSink, hq hs', List.nil_append] using this
      · have hl' : 4 ≤ c.level := by omega
        simp only [Bool.not_true, Bool.false_eq_true, if_false, Bool.false_or, decide_eq_true_eq, hl', hl, if_true,
          Option.toList, List.nil_append]
        exact ih s n hq hf hn ha
    | run a =>
      simp only [Core.run, Core.step, ha, hf, waiting, validCalls, sizes]
      cases hqq : s.queue with
      | nil =>
        simp only [Option.toList, List.nil_append]
        have := ih s n hq hf hn ha
        simpa only [waiting, hqq, List.nil_append] using this
      | cons c rest =>
        simp only [Bool.not_true, Bool.false_eq_true, if_false]
        have hasync : s.async = true := by
          cases h : s.async with
          | true => rfl
          | false => rw [hq h] at hqq; cases hqq
        have := offered_toSink (s := { s with queue := rest }) (ops := ops) (c := c) (a := a) (n := n)
          (sz := s.maxMessage :: sizes ops) (cs := rest ++ validCalls ops) hn (by simp) (by
            intro h
            exact ih (Core.toSink { s with queue := rest } c a).1 (n + 1) (by simp [Core.toSink, hasync]) h
              (by simp only [Core.toSink, hn]; exact mod_succ n) ha)
        simpa only [List.cons_append, hf, ha] using this
    | setMax m =>
      simp only [Core.run, Core.step, waiting, validCalls, sizes, Option.toList, List.nil_append]
      exact (ih { s with maxMessage := m } n hq hf hn ha).weaken fun x hx => List.mem_cons_of_mem _ hx
    | drop =>
      simp only [Core.run, Core.step]
      rw [run_not_alive (s := { s with alive := false }) rfl]
      exact .nil _ _

theorem run_complete (ops : List Op) : ∀ (s : Core), (s.async = false → s.queue = []) → s.failed = false →
    s.alive = true → Op.drop ∉ ops → (∀ o ∈ (s.run ops).2, o.accepted = true) →
    (s.run ops).2.length + (s.run ops).1.queue.length = (waiting s ops).length ∧
      (s.run ops).1.async = s.async ∧ (s.async = false → (s.run ops).1.queue = []) := by
  induction ops with
  | nil => intro s hq _ _ _ _; simp [Core.run, waiting, validCalls]; exact hq
  | cons op ops ih =>
    intro s hq hf ha hd hall
    have hd' : Op.drop ∉ ops := fun h => hd (List.mem_cons_of_mem _ h)
    cases op with
    | log c a =>
      by_cases hl : c.level < 4
      · have hl' : ¬ 4 ≤ c.level := by omega
        by_cases hs : s.async = true
        · have e : s.step (.log c a) = ({ s with queue := s.queue ++ [c] }, none) := by
            simp [Core.step, ha, hf, numLevels, hl', hs]
          simp only [Core.run, e, Option.toList, List.nil_append] at hall ⊢
          have := ih { s with queue := s.queue ++ [c] } (by simp [hs]) hf ha hd' hall
          simp only [waiting, validCalls, hl, if_true, List.length_append, List.length_cons, List.length_nil] at this ⊢
          refine ⟨by omega, this.2.1, this.2.2⟩
        · have hs' : s.async = false := by simpa using hs
          have e : s.step (.log c a) = s.toSink c a := by
            simp [Core.step, ha, hf, numLevels, hl', hs']
          simp only [Core.run, e, Core.toSink, Option.toList, List.cons_append, List.nil_append] at hall ⊢
          have ha1 : a = true := hall _ (List.mem_cons_self)
          have := ih { s with index := (s.index + 1) % 2 ^ 64, failed := !a } (fun _ => hq hs') (by simp [ha1]) ha hd'
            fun o ho => hall o (List.mem_cons_of_mem _ ho)
          simp only [waiting, validCalls, hl, if_true, List.length_append, List.length_cons, hq hs', List.length_nil] at this ⊢
          refine ⟨by omega, this.2.1, this.2.2⟩
      · have hl' : 4 ≤ c.level := by omega
        have e : s.step (.log c a) = (s, none) := by simp [Core.step, ha, numLevels, hl']
        simp only [Core.run, e, Option.toList, List.nil_append] at hall ⊢
        have := ih s hq hf ha hd' hall
        simpa only [waiting, validCalls, hl, if_false] using this
    | run a =>
      cases hqq : s.queue with
      | nil =>
        have e : s.step (.run a) = (s, none) := by simp [Core.step, hqq]
        simp only [Core.run, e, Option.toList, List.nil_append] at hall ⊢
        have := ih s hq hf ha hd' hall
        simpa only [waiting, validCalls] using this
      | cons c rest =>
        have hasync : s.async = true := by
          cases h : s.async with
          | true => rfl
          | false => rw [hq h] at hqq; cases hqq
        have e : s.step (.run a) = Core.toSink { s with queue := rest } c a := by simp [Core.step, hqq, ha, hf]
        simp only [Core.run, e, Core.toSink, Option.toList, List.cons_append, List.nil_append] at hall ⊢
        have ha1 : a = true := hall _ (List.mem_cons_self)
        have := ih { s with queue := rest, index := (s.index + 1) % 2 ^ 64, failed := !a } (by simp [hasync]) (by simp [ha1]) ha
          hd' fun o ho => hall o (List.mem_cons_of_mem _ ho)
        simp only [waiting, validCalls, List.length_append, List.length_cons, hqq] at this ⊢
        refine ⟨by omega, this.2.1, this.2.2⟩
    | setMax m =>
      simp only [Core.run, Core.step, Option.toList, List.nil_append] at hall ⊢
      have := ih { s with maxMessage := m } hq hf ha hd' hall
      simpa only [waiting, validCalls] using this
    | drop => exact absurd List.mem_cons_self hd

/-! ## Reading log files -/

theorem cut_append {sep : Nat} : ∀ (a b : List Nat), sep ∉ a → cut sep (a ++ sep :: b) = some (a, b) := by
  intro a
  induction a with
  | nil => intro b _; simp [cut]
  | cons x xs ih =>
    intro b h
    have h1 : x ≠ sep := fun e => h (by simp [e])
    have h2 : sep ∉ xs := fun e => h (List.mem_cons_of_mem _ e)
    simp [cut, h1, ih b h2]

theorem digits_no_sep {sep : Nat} (hs : sep < 0x30) (n : Nat) : sep ∉ Verif.Digits.digits 10 n := by
  intro h
  have := Verif.Digits.digits_dec n sep h
  simp only [Verif.Str.AsciiDigit] at this
  omega

theorem trace_text_shown (t : Trace) : t.text = t.shown := by
  unfold Trace.text Trace.shown
  cases t.file with
  | nil => simp
  | cons f fs => cases t.function <;> simp

theorem Trace.Plain.text {t : Trace} (h : t.Plain) : 0x1e ∉ t.text ∧ 0x1f ∉ t.text := by
  have hd1 := digits_no_sep (sep := 0x1e) (by omega) t.line
  have hd2 := digits_no_sep (sep := 0x1f) (by omega) t.line
  have hf : ∀ c ∈ t.file, c ≠ 0x1e ∧ c ≠ 0x1f := fun c hc => h c (by simp [hc])
  have hg : ∀ c ∈ t.function, c ≠ 0x1e ∧ c ≠ 0x1f := fun c hc => h c (by simp [hc])
  unfold Trace.text
  split
  · simp only [List.mem_append, List.mem_cons, List.not_mem_nil, or_false, not_or]
    exact ⟨⟨⟨⟨⟨fun hx => (hf _ hx).1 rfl, by omega⟩, fun hx => (hg _ hx).1 rfl⟩, by omega⟩, hd1⟩,
      ⟨⟨⟨⟨fun hx => (hf _ hx).2 rfl, by omega⟩, fun hx => (hg _ hx).2 rfl⟩, by omega⟩, hd2⟩⟩
  · simp

theorem readRecord_bytes (l : Log) (rest : List Nat) (hlv : l.level < 4)
    (ht : 0x1e ∉ l.time ∧ 0x1f ∉ l.time) (hr : l.trace.Plain) (hm : 0x1e ∉ l.message) :
    readRecord (l.bytes ++ rest) = some (l.fields, rest) := by
  replace hr := hr.text
  have e : l.bytes ++ rest = (Verif.Digits.digits 10 l.index ++ 0x1f :: ([l.level] ++ 0x1f :: (l.time ++ 0x1f ::
      (l.trace.text ++ 0x1f :: l.message)))) ++ 0x1e :: rest := by
    simp [Log.bytes, unitSep, recordSep]
  rw [e, readRecord, cut_append _ _ (by
    have := digits_no_sep (sep := 0x1e) (by omega) l.index
    simp only [List.mem_append, List.mem_cons, List.not_mem_nil, not_or, or_false]
    exact ⟨this, by omega, by omega, by omega, ht.1, by omega, hr.1, by omega, hm⟩)]
  simp only [Option.bind_some]
  rw [cut_append _ _ (digits_no_sep (by omega) _)]
  simp only [Option.bind_some]
  rw [cut_append _ _ (by simp; omega)]
  simp only [Option.bind_some]
  rw [cut_append _ _ ht.2]
  simp only [Option.bind_some]
  rw [cut_append _ _ hr.2]
  simp only [Option.bind_some, Log.fields, trace_text_shown]

theorem readFile_bytes (ls : List Log) : ∀ fuel, ls.length ≤ fuel →
    (∀ l ∈ ls, l.level < 4 ∧ (0x1e ∉ l.time ∧ 0x1f ∉ l.time) ∧ l.trace.Plain ∧
      0x1e ∉ l.message) → readFile fuel (ls.flatMap Log.bytes) = some (ls.map Log.fields) := by
  induction ls with
  | nil => intro fuel _ _; cases fuel <;> rfl
  | cons l ls ih =>
    intro fuel hf h
    cases fuel with
    | zero => simp at hf
    | succ fuel =>
      obtain ⟨h1, h2, h3, h4⟩ := h l List.mem_cons_self
      have hr := readRecord_bytes l (ls.flatMap Log.bytes) h1 h2 h3 h4
      have hne : ∃ x xs, l.bytes ++ ls.flatMap Log.bytes = x :: xs := by
        cases hh : l.bytes ++ ls.flatMap Log.bytes with
        | nil =>
          rw [hh] at hr; cases hr
        | cons x xs => exact ⟨x, xs, rfl⟩
      obtain ⟨x, xs, hx⟩ := hne
      rw [List.flatMap_cons, hx, readFile, ← hx, hr]
      simp only [Option.bind_some]
      rw [ih fuel (by simpa using hf) fun l hl => h l (List.mem_cons_of_mem _ hl)]
      rfl

end Verif.Logger
