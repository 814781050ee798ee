import Verif.Ini.Props
import Verif.Parser.Pos

/-!
# The line numbers in the warnings of the INI parser

The parser of `Verif.Ini.Model` with the position kept by `Parser::get` and the warnings written to the log. Texts of the warnings are
left out; which of them is written is kept.
-/

namespace Verif.Ini

open Verif.Json (Value convertToString insertOrAssign)
open Verif.Str (joinWith)
open Verif.Parser (Pos)

/-! ## Model -/

/-- The warnings: ini_parser.cpp 167; 42 and 67; 106; 54; 132; 147. -/
inductive Msg
  | imbalanced
  | json
  | quotedSection
  | noSection
  | quotedName
  | notPair
  deriving DecidableEq, Repr

/-- `trim_value` (ini_parser.cpp 155-174) with its warning. -/
def trimLog (str : List Nat) (start fin : Nat) : (TrimResult × List Nat) × List Msg :=
  let r := trimValue str start fin
  (r, if r.1 = .imbalanced then [.imbalanced] else [])

/-- Whether a string is quoted in some way, in the order of ini_parser.cpp 103-104 and 129-130: the second kind of quotes is not
looked at when the first one is there. -/
def quotedLog (t : List Nat) : Bool × List Msg :=
  let a := trimLog t 0x27 0x27
  if a.1.1 ≠ .untrimmed then (true, a.2)
  else
    let b := trimLog a.1.2 0x22 0x22
    (decide (b.1.1 ≠ .untrimmed), a.2 ++ b.2)

/-- `on_section` (ini_parser.cpp 99-111) with its warnings. -/
def onSectionLog (section_ : List Nat) : Option (List Nat) × List Msg :=
  let t := Verif.Str.trim ch section_
  let q := quotedLog t
  if q.1 then (none, q.2 ++ [.quotedSection]) else (some t, q.2)

/-- The value part of `on_name_value_pair` (ini_parser.cpp 135-140) with its warnings. -/
def unquoteLog (value : List Nat) : Option (List Nat) × List Msg :=
  let a := trimLog value 0x27 0x27
  if a.1.1 = .imbalanced then (none, a.2)
  else
    let b := trimLog a.1.2 0x22 0x22
    if b.1.1 = .imbalanced then (none, a.2 ++ b.2) else (some b.1.2, a.2 ++ b.2)

/-- `on_name_value_pair` (ini_parser.cpp 114-150) with its warnings. -/
def onPairLog (line : List Nat) : Option (List Nat × List Nat) × List Msg :=
  match Verif.Str.split line 0x3d 2 with
  | [n, v] =>
    let name := Verif.Str.trim ch n
    let value := Verif.Str.trim ch v
    let q := quotedLog name
    if q.1 then (none, q.2 ++ [.quotedName])
    else
      let u := unquoteLog value
      (u.1.map (fun v => (name, v)), q.2 ++ u.2)
  | _ => (none, [.notPair])

/-- The body of the loop of `parse_internal` (ini_parser.cpp 22-77) on one line, with the warnings. -/
def lineLog (st : State) (data : List Nat) : Option State × List Msg :=
  let t := Verif.Str.trim ch data
  if t = [] ∨ t.head? = some 0x3b then (some st, [])
  else
    match trimLog t 0x5b 0x5d with
    | ((.imbalanced, _), ms) => (none, ms)
    | ((.trimmed, b), ms) =>
      match onSectionLog b with
      | (none, ms') => (none, ms ++ ms')
      | (some s, ms') =>
        match convertToString s with
        | none => (none, ms ++ ms' ++ [.json])
        | some k => (some { values := insertOrAssign k (.obj []) st.values, current := k }, ms ++ ms')
    | ((.untrimmed, b), ms) =>
      if st.values = [] then (none, ms ++ [.noSection])
      else
        match onPairLog b with
        | (none, ms') => (none, ms ++ ms')
        | (some (n, v), ms') =>
          match convertToString n, convertToString v with
          | some n, some v =>
            match assign st n v with
            | some st => (some st, ms ++ ms')
            | none => (none, ms ++ ms' ++ [.json])
          | _, _ => (none, ms ++ ms' ++ [.json])

/-- `getline` (ini_parser.cpp 83-96) with the position afterwards. -/
def getlinePos (p : Pos) : List Nat → (List Nat × List Nat) × Pos
  | [] => (([], []), p)
  | c :: s =>
    if c = 0x0a then (([], s), p.get c)
    else let r := getlinePos (p.get c) s; ((c :: r.1.1, r.1.2), r.2)

theorem getlinePos_line : ∀ (s : List Nat) (p : Pos), (getlinePos p s).1 = getline s := by
  intro s
  induction s with
  | nil => intro p; rfl
  | cons c s ih =>
    intro p
    unfold getlinePos getline
    split
    · rfl
    · simp only [ih]

/-- The loop of `parse_internal` (ini_parser.cpp 20-78), with the warnings and the lines they name (`ILOG`, ini_parser.cpp 10, uses
`line()`, parser.cpp 133-136). -/
def loopLog (st : State) (p : Pos) (s : List Nat) : Option State × List (Nat × Msg) :=
  if _h : (getlinePos p s).1.2 = [] ∧ (getlinePos p s).1.1 = [] then (some st, [])
  else
    match lineLog st (getlinePos p s).1.1 with
    | (none, ms) => (none, ms.map fun m => ((getlinePos p s).2.line, m))
    | (some st, ms) =>
      let r := loopLog st (getlinePos p s).2 (getlinePos p s).1.2
      (r.1, ms.map (fun m => ((getlinePos p s).2.line, m)) ++ r.2)
termination_by s.length
decreasing_by
  rw [getlinePos_line] at *
  apply getline_length
  rintro rfl
  exact _h ⟨rfl, rfl⟩

/-- `parse_internal` (ini_parser.cpp 13-81), from the start of a text: the result and the warnings. -/
def parseLog (s : List Nat) : Option Value × List (Nat × Msg) :=
  let r := loopLog ⟨[], []⟩ .start s
  (match r.1 with | some st => if st.values = [] then none else some (.obj st.values) | none => none, r.2)

/-! ## Specification -/

/-- The first line that cannot be read (or comes too early) is the one at index `n`, counted from 0. -/
def FirstBad (ls : List (List Nat)) (n : Nat) : Prop :=
  n < ls.length ∧ (∃ d, Reads (ls.take n) d) ∧ ¬ ∃ d, Reads (ls.take (n + 1)) d

/-! ## Proofs -/

theorem quotedLog_fst (t : List Nat) : (quotedLog t).1 = decide ((trimValue t 0x27 0x27).1 ≠ .untrimmed ∨ (trimValue t 0x22 0x22).1 ≠ .untrimmed) := by
  unfold quotedLog trimLog
  simp only []
  by_cases h : (trimValue t 0x27 0x27).1 = .untrimmed
  · have ht : (trimValue t 0x27 0x27).2 = t := by
      unfold trimValue at h ⊢
      simp only [] at h ⊢
      split
      · rename_i h1; rw [if_pos h1] at h; cases h
      · split <;> rfl
    rw [if_neg (by simpa using h), ht]
    simp [h]
  · rw [if_pos h]; simp [h]

theorem quotedLog_quiet {t : List Nat} (h : (quotedLog t).1 = false) : (quotedLog t).2 = [] := by
  unfold quotedLog trimLog at h ⊢
  simp only [] at h ⊢
  split
  · rename_i h1; rw [if_pos h1] at h; cases h
  · rename_i h1
    rw [if_neg h1] at h
    have h2 := of_decide_eq_false h
    have h1 : (trimValue t 0x27 0x27).1 = .untrimmed := Classical.not_not.1 h1
    have h2 := Classical.not_not.1 h2
    simp [h1, h2]

/-- A step that succeeds writes no warning, one that fails writes some. -/
def Honest {α : Type} (r : Option α × List Msg) : Prop := r.2 = [] ↔ r.1.isSome

theorem onSectionLog_eq (b : List Nat) : (onSectionLog b).1 = onSection b ∧ Honest (onSectionLog b) := by
  unfold onSectionLog onSection Honest
  simp only []
  rw [quotedLog_fst]
  by_cases h : (trimValue (Verif.Str.trim ch b) 0x27 0x27).1 ≠ .untrimmed ∨ (trimValue (Verif.Str.trim ch b) 0x22 0x22).1 ≠ .untrimmed
  · rw [if_pos h, decide_eq_true h]; simp
  · rw [if_neg h]
    have hq : (quotedLog (Verif.Str.trim ch b)).1 = false := by rw [quotedLog_fst]; exact decide_eq_false h
    rw [decide_eq_false h, quotedLog_quiet hq]
    simp

theorem unquoteLog_eq (v : List Nat) : (unquoteLog v).1 = unquote v ∧ Honest (unquoteLog v) := by
  unfold unquoteLog unquote trimLog Honest
  simp only []
  by_cases h1 : (trimValue v 0x27 0x27).1 = .imbalanced
  · simp [h1]
  · simp only [h1, if_false]
    by_cases h2 : (trimValue (trimValue v 0x27 0x27).2 0x22 0x22).1 = .imbalanced
    · simp [h2]
    · simp [h2]

theorem onPairLog_eq (l : List Nat) : (onPairLog l).1 = onPair l ∧ Honest (onPairLog l) := by
  unfold onPairLog onPair
  split
  · rename_i n v hs
    rw [hs]
    simp only []
    obtain ⟨u1, u2⟩ := unquoteLog_eq (Verif.Str.trim ch v)
    by_cases h : (trimValue (Verif.Str.trim ch n) 0x27 0x27).1 ≠ .untrimmed ∨ (trimValue (Verif.Str.trim ch n) 0x22 0x22).1 ≠ .untrimmed
    · have hq : (quotedLog (Verif.Str.trim ch n)).1 = true := by rw [quotedLog_fst]; exact decide_eq_true h
      rw [if_pos h, hq]; simp [Honest]
    · have hq : (quotedLog (Verif.Str.trim ch n)).1 = false := by rw [quotedLog_fst]; exact decide_eq_false h
      rw [if_neg h, hq]
      unfold Honest at u2 ⊢
      simp [u1, u2, quotedLog_quiet hq]
  · rename_i hs
    exact ⟨by simp, by simp [Honest]⟩

theorem lineLog_eq (st : State) (data : List Nat) : (lineLog st data).1 = lineStep st data ∧ Honest (lineLog st data) := by
  unfold lineLog lineStep
  simp only []
  by_cases h0 : Verif.Str.trim ch data = [] ∨ (Verif.Str.trim ch data).head? = some 0x3b
  · simp [h0, Honest]
  · simp only [h0, if_false, trimLog]
    rcases ht : trimValue (Verif.Str.trim ch data) 0x5b 0x5d with ⟨r, b⟩
    cases r with
    | imbalanced => simp [Honest]
    | trimmed =>
      simp only [reduceCtorEq, if_false, List.nil_append]
      obtain ⟨s1, s2⟩ := onSectionLog_eq b
      rcases hs : onSectionLog b with ⟨o, ms⟩
      rw [hs] at s1 s2
      have s1 : o = onSection b := s1
      rw [← s1]
      cases o with
      | none =>
        simp only [Honest] at s2 ⊢
        simpa using s2
      | some s =>
        simp only [Honest, Option.isSome_some, iff_true] at s2
        simp only [s2, Honest, List.nil_append]
        generalize convertToString s = c
        cases c <;> simp
    | untrimmed =>
      simp only [reduceCtorEq, if_false, List.nil_append]
      by_cases hv : st.values = []
      · simp [hv, Honest]
      · simp only [hv, if_false]
        obtain ⟨s1, s2⟩ := onPairLog_eq b
        rcases hs : onPairLog b with ⟨o, ms⟩
        rw [hs] at s1 s2
        have s1 : o = onPair b := s1
        rw [← s1]
        cases o with
        | none =>
          simp only [Honest] at s2 ⊢
          simpa using s2
        | some nv =>
          obtain ⟨n, v⟩ := nv
          simp only [Honest, Option.isSome_some, iff_true] at s2
          simp only []
          cases convertToString n with
          | none => simp [Honest]
          | some n' =>
            cases convertToString v with
            | none => simp [Honest]
            | some v' =>
              simp only []
              cases assign st n' v' <;> simp [Honest, s2]

theorem getlinePos_pos : ∀ (l : List Nat) (p : Pos), 0x0a ∉ l → ∀ s, ((getlinePos p l).2.line = p.line) ∧
    (getlinePos p (l ++ 0x0a :: s)).2.line = (p.line + 1) % 2 ^ 32 := by
  intro l
  induction l with
  | nil => intro p _ s; exact ⟨rfl, by simp [getlinePos, Pos.get]⟩
  | cons c l ih =>
    intro p hl s
    simp only [List.mem_cons, not_or] at hl
    have hc : c ≠ 0x0a := fun e => hl.1 e.symm
    have hp : (p.get c).line = p.line := by unfold Pos.get; rw [if_neg hc]
    obtain ⟨i1, i2⟩ := ih (p.get c) hl.2 s
    rw [hp] at i1 i2
    constructor
    · simp only [getlinePos, hc, if_false]; exact i1
    · simp only [List.cons_append, getlinePos, hc, if_false]; exact i2

/-- The warnings of a sequence of lines: the first line that fails names itself or, when another one follows, the next one. -/
theorem loopLog_lines : ∀ (ls : List (List Nat)) (st : State) (p : Pos), p.line < 2 ^ 32 → ls ≠ [] → (∀ l ∈ ls, 0x0a ∉ l) →
    (loopLog st p (joinWith 0x0a ls)).1 = runLines st ls ∧
    (∀ st', runLines st ls = some st' → (loopLog st p (joinWith 0x0a ls)).2 = []) ∧
    (runLines st ls = none → (loopLog st p (joinWith 0x0a ls)).2 ≠ [] ∧
      ∃ n, n < ls.length ∧ (∃ st', runLines st (ls.take n) = some st') ∧ runLines st (ls.take (n + 1)) = none ∧
        ∀ w ∈ (loopLog st p (joinWith 0x0a ls)).2, w.1 = (p.line + n + (if n + 1 < ls.length then 1 else 0)) % 2 ^ 32) := by
  intro ls
  induction ls with
  | nil => intro st p _ h; exact absurd rfl h
  | cons l ls ih =>
    intro st p hp0 _ hl
    have hl0 := hl l List.mem_cons_self
    obtain ⟨e1, e2⟩ := lineLog_eq st l
    cases ls with
    | nil =>
      have hj : joinWith 0x0a [l] = l := rfl
      rw [hj]
      have hg : (getlinePos p l).1 = (l, []) := by rw [getlinePos_line]; exact (getline_line hl0 []).2
      have hp := (getlinePos_pos l p hl0 []).1
      unfold loopLog
      rw [hg]
      by_cases hn : l = []
      · subst hn
        have hr : runLines st [[]] = some st := by simp [runLines, lineStep_nil]
        rw [dif_pos ⟨rfl, rfl⟩, hr]
        simp
      · rw [dif_neg (fun h => hn h.2)]
        rcases hq : lineLog st l with ⟨o, ms⟩
        rw [hq] at e1 e2
        have e1 : o = lineStep st l := e1
        cases o with
        | none =>
          have hr : runLines st [l] = none := by simp [runLines, ← e1]
          simp only [Honest] at e2
          have hms : ms ≠ [] := by simpa using e2
          simp only [hr]
          refine ⟨trivial, by simp, fun _ => ⟨by simpa using hms, 0, by simp, ⟨st, rfl⟩, by simpa using hr, ?_⟩⟩
          intro w hw
          obtain ⟨m, _, rfl⟩ := List.mem_map.1 hw
          simp [hp]; omega
        | some st1 =>
          have hr : runLines st [l] = some st1 := by simp [runLines, ← e1]
          simp only [Honest, Option.isSome_some, iff_true] at e2
          subst e2
          simp only [hr]
          unfold loopLog
          rw [dif_pos ⟨rfl, rfl⟩]
          simp
    | cons l2 ls =>
      have hj : joinWith 0x0a (l :: l2 :: ls) = l ++ 0x0a :: joinWith 0x0a (l2 :: ls) := rfl
      have hg : (getlinePos p (joinWith 0x0a (l :: l2 :: ls))).1 = (l, joinWith 0x0a (l2 :: ls)) := by
        rw [hj, getlinePos_line]; exact (getline_line hl0 _).1
      have hp := (getlinePos_pos l p hl0 (joinWith 0x0a (l2 :: ls))).2
      rw [← hj] at hp
      unfold loopLog
      rw [hg]
      by_cases hn : joinWith 0x0a (l2 :: ls) = [] ∧ l = []
      · rw [dif_pos hn]
        obtain ⟨h1, rfl⟩ := hn
        have h2 : ls = [] ∧ l2 = [] := by
          cases ls with
          | nil => exact ⟨rfl, h1⟩
          | cons a b =>
            have : joinWith 0x0a (l2 :: a :: b) = l2 ++ 0x0a :: joinWith 0x0a (a :: b) := rfl
            rw [this] at h1
            simp at h1
        obtain ⟨rfl, rfl⟩ := h2
        have hr : runLines st [[], []] = some st := by simp [runLines, lineStep_nil]
        rw [hr]
        simp
      · rw [dif_neg hn]
        rcases hq : lineLog st l with ⟨o, ms⟩
        rw [hq] at e1 e2
        have e1 : o = lineStep st l := e1
        cases o with
        | none =>
          have hr : runLines st (l :: l2 :: ls) = none := by simp [runLines, ← e1]
          simp only [Honest] at e2
          have hms : ms ≠ [] := by simpa using e2
          simp only [hr]
          refine ⟨trivial, by simp, fun _ => ⟨by simpa using hms, 0, by simp, ⟨st, rfl⟩, by simp [runLines, ← e1], ?_⟩⟩
          intro w hw
          obtain ⟨m, _, rfl⟩ := List.mem_map.1 hw
          simp [hp]
        | some st1 =>
          have hr : runLines st (l :: l2 :: ls) = runLines st1 (l2 :: ls) := by simp [runLines, ← e1]
          simp only [Honest, Option.isSome_some, iff_true] at e2
          subst e2
          simp only [hr, List.map_nil, List.nil_append]
          obtain ⟨i1, i2, i3⟩ := ih st1 (getlinePos p (joinWith 0x0a (l :: l2 :: ls))).2 (by rw [hp]; omega) (by simp) (fun x hx => hl x (List.mem_cons_of_mem _ hx))
          refine ⟨i1, i2, fun hf => ?_⟩
          obtain ⟨j1, n, j2, ⟨st', j3⟩, j4, j5⟩ := i3 hf
          refine ⟨j1, n + 1, by simpa using j2, ⟨st', ?_⟩, ?_, ?_⟩
          · rw [List.take_succ_cons]
            have : runLines st (l :: (l2 :: ls).take n) = runLines st1 ((l2 :: ls).take n) := by simp [runLines, ← e1]
            rw [this]; exact j3
          · rw [List.take_succ_cons]
            have : runLines st (l :: (l2 :: ls).take (n + 1)) = runLines st1 ((l2 :: ls).take (n + 1)) := by simp [runLines, ← e1]
            rw [this]; exact j4
          · intro w hw
            have := j5 w hw
            rw [this, hp]
            simp only [List.length_cons] at *
            have : (n + 1 + 1 < ls.length + 1 + 1) ↔ (n + 1 < ls.length + 1) := by omega
            simp only [this]
            omega

/-- The parser with warnings computes what the parser computes. -/
theorem parseLog_parse (s : List Nat) : (parseLog s).1 = parse s := by
  obtain ⟨ls, h1, h2, rfl⟩ := lines_exist s
  unfold parseLog parse
  simp only []
  rw [(loopLog_lines ls ⟨[], []⟩ .start (by decide) h1 h2).1, loop_lines ls _ h1 h2]
  rfl

theorem runLines_prefix : ∀ (a b : List (List Nat)) (st st' : State), runLines st (a ++ b) = some st' → ∃ st1, runLines st a = some st1 := by
  intro a
  induction a with
  | nil => intro b st st' _; exact ⟨st, rfl⟩
  | cons l a ih =>
    intro b st st' h
    simp only [List.cons_append, runLines] at h ⊢
    split at h
    · cases h
    · rename_i st1 h1; exact ih b st1 st' h

/-- The warnings of the INI parser, exactly: a text all of whose lines can be read gives no warning; otherwise there is a first line
that cannot, there is a warning, and every warning names that line (counted from 1) if it is the last one of the text, but the line
after it if it is not. The full claim is that every warning names that line. -/
theorem ini_warning_lines_partial (s : List Nat) (hb : ∀ c ∈ s, c < 256) (hs : s.length + 2 < 2 ^ 32) {ls : List (List Nat)} (hl : Lines s ls) :
    ((∃ d, Reads ls d) ∧ (parseLog s).2 = []) ∨
    (∃ n, FirstBad ls n ∧ (parseLog s).1 = none ∧ (parseLog s).2 ≠ [] ∧
      ∀ w ∈ (parseLog s).2, w.1 = if n + 1 = ls.length then n + 1 else n + 2) := by
  obtain ⟨h1, h2, rfl⟩ := hl
  have hmem : ∀ l ∈ ls, l.length < 2 ^ 63 ∧ ∀ c ∈ l, c < 256 := by
    intro l hl
    have := lines_mem hl
    exact ⟨by omega, fun c hc => hb c (this.1 c hc)⟩
  have hlen : ls.length ≤ (joinWith 0x0a ls).length + 1 := by
    clear hmem hs hb h1 h2
    induction ls with
    | nil => simp
    | cons l ls ih =>
      cases ls with
      | nil => simp [joinWith]
      | cons a b =>
        have : joinWith 0x0a (l :: a :: b) = l ++ 0x0a :: joinWith 0x0a (a :: b) := rfl
        rw [this]
        simp only [List.length_append, List.length_cons] at ih ⊢
        omega
  obtain ⟨g1, g2, g3⟩ := loopLog_lines ls ⟨[], []⟩ .start (by decide) h1 h2
  cases hr : runLines ⟨[], []⟩ ls with
  | some st =>
    obtain ⟨d, hd, _⟩ := run_sound _ ls rfl hmem st hr
    exact .inl ⟨⟨d, hd⟩, g2 st hr⟩
  | none =>
    obtain ⟨j1, n, j2, ⟨st', j3⟩, j4, j5⟩ := g3 hr
    refine .inr ⟨n, ⟨j2, ?_, ?_⟩, ?_, j1, ?_⟩
    · obtain ⟨d, hd, _⟩ := run_sound _ (ls.take n) rfl (fun l hl => hmem l (List.mem_of_mem_take hl)) st' j3
      exact ⟨d, hd⟩
    · rintro ⟨d, hd⟩
      obtain ⟨st, hst, _⟩ := run_complete hd (fun l hl => (hmem l (List.mem_of_mem_take hl)).1)
      rw [j4] at hst; cases hst
    · unfold parseLog
      simp only []
      rw [g1, hr]
    · intro w hw
      rw [j5 w hw]
      have hst : Pos.start.line = 1 := rfl
      rw [hst]
      by_cases e : n + 1 = ls.length
      · rw [if_pos e, if_neg (by omega)]; omega
      · rw [if_neg e, if_pos (by omega)]; omega

/-- The index of the first bad line is determined by the text. -/
theorem firstBad_unique {ls : List (List Nat)} {m n : Nat} (hl : ∀ l ∈ ls, l.length < 2 ^ 63 ∧ ∀ c ∈ l, c < 256) (hm : FirstBad ls m)
    (hn : FirstBad ls n) : m = n := by
  have key : ∀ a b, FirstBad ls a → FirstBad ls b → ¬ a < b := by
    rintro a b ⟨_, _, h1⟩ ⟨_, ⟨d, h2⟩, _⟩ hab
    obtain ⟨st, hst, _⟩ := run_complete h2 (fun l h => (hl l (List.mem_of_mem_take h)).1)
    have e : ls.take b = ls.take (a + 1) ++ (ls.take b).drop (a + 1) := by
      have := List.take_append_drop (a + 1) (ls.take b)
      rw [List.take_take, Nat.min_eq_left (by omega)] at this
      exact this.symm
    rw [e] at hst
    obtain ⟨st1, h3⟩ := runLines_prefix _ _ _ _ hst
    obtain ⟨d', hd', _⟩ := run_sound _ (ls.take (a + 1)) rfl (fun l h => hl l (List.mem_of_mem_take h)) st1 h3
    exact h1 ⟨d', hd'⟩
  have := key m n hm hn
  have := key n m hn hm
  omega

/-- Warnings do not name the line they are about: in the text `a` newline `[b]`, the first line is wrong, and the warning says 2. -/
theorem ini_warning_lines_violated : ∃ s ls n, Lines s ls ∧ FirstBad ls n ∧ ∃ w ∈ (parseLog s).2, w.1 ≠ n + 1 := by
  have hl : Lines [0x61, 0x0a, 0x5b, 0x62, 0x5d] [[0x61], [0x5b, 0x62, 0x5d]] := ⟨by simp, by decide, rfl⟩
  have hw : (parseLog [0x61, 0x0a, 0x5b, 0x62, 0x5d]).2 = [(2, .noSection)] := by decide +kernel
  rcases ini_warning_lines_partial _ (by decide) (by decide) hl with ⟨_, h⟩ | ⟨n, h1, _, _, h4⟩
  · rw [hw] at h; cases h
  · have h0 : n = 0 := by
      have hn := h1.1
      obtain ⟨d, hd⟩ := h1.2.1
      rcases Nat.eq_zero_or_pos n with h | h
      · exact h
      · have : n = 1 := by simp only [List.length_cons, List.length_nil] at hn; omega
        subst this
        obtain ⟨st, hst, _⟩ := run_complete hd (by decide)
        have hnone : (runLines ⟨[], []⟩ ([[0x61], [0x5b, 0x62, 0x5d]].take 1)).isNone = true := by decide +kernel
        rw [hst] at hnone
        cases hnone
    subst h0
    exact ⟨_, _, 0, hl, h1, (2, .noSection), by rw [hw]; simp, by decide⟩

/-- Not vacuous: the second line is wrong, and the last one; two warnings, both with its number. -/
example : (parseLog [0x5b, 0x61, 0x5d, 0x0a, 0x27, 0x62, 0x3d, 0x63]).2 = [(2, .imbalanced), (2, .quotedName)] := by decide +kernel

end Verif.Ini
