import Verif.Styler.Lemmas

/-!
# C97, C98: stylers and the console sink
-/

namespace Verif.Styler

open Spec

theorem display_moves (t : Term) (ps : List (Direction × Nat)) (h : t.mode = .ground)
    (hp : ∀ p ∈ ps, p.2 ≠ 0) :
    display t (ps.flatMap (fun p => [27, 91] ++ dig p.2 ++ [dirByte p.1]))
      = { t with moves := t.moves ++ ps } := by
  induction ps generalizing t with
  | nil => simp [display]
  | cons p ps ih =>
    rw [List.flatMap_cons, display_append, display_move t p.2 p.1 h (hp p List.mem_cons_self),
      ih _ (by exact h) (fun q hq => hp q (List.mem_cons_of_mem _ hq))]
    simp

/-- A style or colour was asked for. -/
def applies (ms : List Modifier) : Bool :=
  ms.any fun | .style _ => true | .color _ => true | .cursor _ _ => false

theorem applies_eq (ms : List Modifier) :
    (!(styles ms).isEmpty || !(allColors ms).isEmpty) = applies ms := by
  induction ms with
  | nil => rfl
  | cons m ms ih =>
    cases m with
    | style s => simp [styles, applies]
    | color c => simp [allColors, applies]
    | cursor d n => simpa [styles, allColors, applies] using ih

theorem wanted_not_applies {ms : List Modifier} (h : applies ms = false) : wanted ms = {} := by
  rw [← applies_eq] at h
  simp only [Bool.or_eq_false_iff, Bool.not_eq_false', List.isEmpty_iff] at h
  simp [wanted, on, h.1, colors_eq, h.2]

/-- The bytes the proxy of a styler writes first. -/
def opening (ms : List Modifier) : List Nat :=
  (if applies ms then [27, 91] ++ glue ((styles ms).map styleCode ++ (allColors ms).flatMap colorCodes) ++ [109]
    else []) ++ (wantedMoves ms).flatMap (fun p => [27, 91] ++ dig p.2 ++ [dirByte p.1])

theorem proxyOpen_plain {s : Stream} (h : Plain s.fmt) (ms : List Modifier) :
    proxyOpen true s (construct ms) = ({ s with out := s.out ++ opening ms }, applies ms) := by
  have hc : ∀ (s : Stream), Plain s.fmt →
      (if !((wantedMoves ms).map (fun p => (⟨p.1, p.2⟩ : Cursor))).isEmpty
        then applyCursors s ((wantedMoves ms).map (fun p => ⟨p.1, p.2⟩)) else s)
      = { s with out := (s.out
        ++ (wantedMoves ms).flatMap (fun p => [27, 91] ++ dig p.2 ++ [dirByte p.1])) } := by
    intro s hs
    cases hw : wantedMoves ms with
    | nil => simp
    | cons p ps => simp [applyCursors_plain hs, List.flatMap_map]
  unfold proxyOpen
  rw [construct_eq]
  simp only [if_true, applies_eq]
  cases ha : applies ms with
  | false =>
    simp only [Bool.false_eq_true, if_false]
    rw [hc s h]
    simp [opening, ha]
  | true =>
    simp only [if_true]
    rw [applyBoth_plain h, hc _ (by exact h)]
    simp [opening, ha]

theorem display_opening (t : Term) (ms : List Modifier) (h : t.mode = .ground) (ha : t.attr = {}) :
    display t (opening ms) = { t with attr := wanted ms, moves := t.moves ++ wantedMoves ms } := by
  unfold opening
  rw [display_append]
  cases hp : applies ms with
  | false =>
    simp only [Bool.false_eq_true, if_false]
    rw [display_moves _ _ (by exact h) (wantedMoves_pos ms), wanted_not_applies hp, ← ha]
    rfl
  | true =>
    simp only [if_true]
    have hne : (styles ms).map styleCode ++ (allColors ms).flatMap colorCodes ≠ [] := by
      intro he
      rw [List.append_eq_nil_iff, List.map_eq_nil_iff, List.flatMap_eq_nil_iff] at he
      rw [← applies_eq, he.1] at hp
      cases hc : allColors ms with
      | nil => simp [hc] at hp
      | cons c cs => exact colorCodes_ne c (he.2 c (by simp [hc]))
    rw [display_sgr t _ h hne, ha, sgr_styles, sgr_colors, look_eq,
      display_moves _ _ (by exact h) (wantedMoves_pos ms)]

/-- The closing sequence of a proxy: `ESC [ 0 m`. -/
theorem display_closing (t : Term) (h : t.mode = .ground) :
    display t [27, 91, 48, 109] = { t with attr := {} } := by
  have := display_sgr t [0] h (by simp)
  simp only [glue, tailJoin, List.flatMap_nil, List.append_nil, dig_lt (n := 0) (by omega)] at this
  simpa [sgr] using this

/-- C97, one use of a styler: on standard output or error in its usual format the text printed while
the styler is alive looks as asked for, the cursor moves as asked for, and after the styler's
destruction the terminal is back to its usual look. -/
theorem styler_scope_partial (s : Stream) (hs : Plain s.fmt) (ms : List Modifier) (txt : List Nat)
    (htxt : 27 ∉ txt) (t : Term) (ht : display {} s.out = t) (hg : t.mode = .ground) (ha : t.attr = {}) :
    let p := proxyOpen true s (construct ms)
    display {} (proxyClose (p.1.put txt) p.2).out
      = { t with shown := t.shown ++ txt.map (fun c => (c, wanted ms))
                 moves := t.moves ++ wantedMoves ms } := by
  have e1 := proxyOpen_plain hs ms
  simp only [e1]
  rw [put_plain (by exact hs)]
  have hd : display {} (s.out ++ opening ms ++ txt)
      = { t with attr := wanted ms, moves := t.moves ++ wantedMoves ms,
                 shown := t.shown ++ txt.map (fun c => (c, wanted ms)) } := by
    rw [display_append, display_append, ht, display_opening t ms hg ha, display_text _ _ (by exact hg) htxt]
  cases hp : applies ms with
  | false =>
    simp only [proxyClose, Bool.false_eq_true, if_false]
    rw [hd, wanted_not_applies hp, ← ha]
  | true =>
    simp only [proxyClose, if_true]
    rw [put_plain (by exact hs)]
    show display {} (s.out ++ opening ms ++ txt ++ [27, 91, 48, 109]) = _
    rw [display_append, hd, display_closing _ (by exact hg), ← ha]

/-- A styler with two styles, two foreground colours (the last wins), a background colour and a
cursor movement. -/
example :
    let ms : List Modifier := [.style .bold, .color ⟨1, .foreground⟩, .cursor .up 0,
      .style .underline, .color ⟨200, .foreground⟩, .color ⟨4, .background⟩]
    Plain ({} : Stream).fmt ∧ 27 ∉ ([104, 105] : List Nat) ∧
    (proxyOpen true {} (construct ms)).1.out
      = [27, 91, 49, 59, 52, 59, 51, 49, 59, 51, 56, 59, 53, 59, 50, 48, 48, 59, 52, 52, 109, 27, 91, 49, 65]
    ∧ wanted ms = { bold := true, underline := true, fg := some 200, bg := some 4 }
    ∧ wantedMoves ms = [(.up, 1)] := by
  refine ⟨⟨rfl, rfl⟩, by decide, ?_, by decide, by decide⟩
  decide +kernel

/-! ## Whole programs -/

/-- What a user expects to see of a program: the living stylers with their modifiers and the stream
they were streamed to, the styler in force on each standard stream, what was displayed on it. -/
structure View where
  objs : Nat → Option (List Modifier × Option Which) := fun _ => none
  force : Which → Option Nat := fun _ => none
  shown : Which → List (Nat × Attr) := fun _ => []
  moves : Which → List (Direction × Nat) := fun _ => []

/-- The look of the next character on a stream. -/
def View.look (v : View) (w : Which) : Attr :=
  match v.force w with
  | none => {}
  | some i => match v.objs i with
    | some (ms, _) => wanted ms
    | none => {}

/-- The expected effect of one operation: a styler is in force from its streaming to its destruction. -/
def View.step (v : View) : Op → View
  | .make i ms => { v with objs := upd v.objs i (some (ms, none)) }
  | .put i w => match v.objs i with
    | some (ms, _) =>
      { v with
        objs := upd v.objs i (some (ms, some w))
        force := if w.std then upd v.force w (some i) else v.force
        moves := upd v.moves w (v.moves w ++ wantedMoves ms) }
    | none => v
  | .text w t => { v with shown := upd v.shown w (v.shown w ++ t.map (fun c => (c, v.look w))) }
  | .drop i => match v.objs i with
    | some (_, some w) =>
      { v with
        objs := upd v.objs i none
        force := if w.std then upd v.force w none else v.force }
    | _ => { v with objs := upd v.objs i none }

/-- The programs covered: names are used sensibly, a styler is streamed at most once, and at most one
styler is in force on a standard stream at a time; printed text contains no escape character. -/
def View.allowed (v : View) : Op → Prop
  | .make i _ => v.objs i = none
  | .put i w => (∃ ms, v.objs i = some (ms, none)) ∧ (w.std = true → v.force w = none)
  | .text _ t => 27 ∉ t
  | .drop i => v.objs i ≠ none

/-- A whole program is covered. -/
def Flat : View → List Op → Prop
  | _, [] => True
  | v, op :: ops => v.allowed op ∧ Flat (v.step op) ops

/-- The world agrees with the expectation. -/
structure Agrees (s : World) (v : View) : Prop where
  fmt : ∀ w, Plain (s.streams w).fmt
  absent : ∀ i, v.objs i = none → s.objs i = none
  fresh : ∀ i ms, v.objs i = some (ms, none) → s.objs i = some { stacks := construct ms }
  used : ∀ i ms w, v.objs i = some (ms, some w) →
    ∃ st, s.objs i = some { stacks := st, proxy := some (w, w.std && applies ms) }
  forced : ∀ i ms w, v.objs i = some (ms, some w) → w.std = true → v.force w = some i
  force : ∀ i w, v.force w = some i → w.std = true ∧ ∃ ms, v.objs i = some (ms, some w)
  shown : ∀ w, w.std = true → display {} (s.streams w).out
    = { mode := .ground, attr := v.look w, shown := v.shown w, moves := v.moves w }

theorem look_congr {v v' : View} {w : Which} (hf : v'.force w = v.force w)
    (ho : ∀ i, v.force w = some i → v'.objs i = v.objs i) : v'.look w = v.look w := by
  unfold View.look
  rw [hf]
  cases h : v.force w with
  | none => rfl
  | some i => simp only [ho i h]

theorem upd_same {α β : Type} [DecidableEq α] (f : α → β) (a : α) (b : β) : upd f a b a = b := by
  simp [upd]

theorem upd_other {α β : Type} [DecidableEq α] (f : α → β) {a x : α} (b : β) (h : x ≠ a) :
    upd f a b x = f x := by
  simp [upd, h]

theorem agrees_make {s : World} {v : View} (h : Agrees s v) (i : Nat) (ms : List Modifier)
    (hi : v.objs i = none) : Agrees (step s (.make i ms)) (v.step (.make i ms)) := by
  have hs := h.absent i hi
  have e : step s (.make i ms) = { s with objs := upd s.objs i (some { stacks := construct ms }) } := by
    simp [step, hs]
  rw [e]
  have hnf : ∀ w, v.force w ≠ some i := fun w hw => by
    obtain ⟨_, ms', hm⟩ := h.force i w hw; rw [hi] at hm; cases hm
  refine ⟨h.fmt, ?_, ?_, ?_, ?_, ?_, ?_⟩
  · intro j hj
    by_cases hji : j = i
    · subst hji; simp [View.step, upd] at hj
    · simp only [View.step, upd_other _ _ hji] at hj ⊢; exact h.absent j hj
  · intro j ms' hj
    by_cases hji : j = i
    · subst hji
      simp only [View.step, upd_same, Option.some.injEq, Prod.mk.injEq] at hj ⊢
      rw [hj.1]
    · simp only [View.step, upd_other _ _ hji] at hj ⊢; exact h.fresh j ms' hj
  · intro j ms' w hj
    by_cases hji : j = i
    · subst hji
      simp [View.step, upd_same] at hj
    · simp only [View.step, upd_other _ _ hji] at hj ⊢; exact h.used j ms' w hj
  · intro j ms' w hj
    by_cases hji : j = i
    · subst hji
      simp [View.step, upd_same] at hj
    · simp only [View.step, upd_other _ _ hji] at hj ⊢; exact h.forced j ms' w hj
  · intro j w hj
    have hji : j ≠ i := fun e => hnf w (e ▸ hj)
    simp only [View.step, upd_other _ _ hji]
    exact h.force j w hj
  · intro w hw
    rw [look_congr (v := v) (v' := v.step (.make i ms)) rfl (fun j hj => by
      have hji : j ≠ i := fun e => hnf w (e ▸ hj)
      simp only [View.step, upd_other _ _ hji])]
    exact h.shown w hw

theorem agrees_text {s : World} {v : View} (h : Agrees s v) (w : Which) (t : List Nat) (ht : 27 ∉ t) :
    Agrees (step s (.text w t)) (v.step (.text w t)) := by
  have hl : ∀ w', (v.step (.text w t)).look w' = v.look w' := fun w' => look_congr rfl (fun _ _ => rfl)
  refine ⟨?_, h.absent, h.fresh, h.used, h.forced, h.force, ?_⟩
  · intro w'
    by_cases e : w' = w
    · subst e
      simp only [step, upd_same, put_plain (h.fmt w')]
      exact h.fmt w'
    · simp only [step, upd_other _ _ e]; exact h.fmt w'
  · intro w' hw'
    rw [hl w']
    by_cases e : w' = w
    · subst e
      simp only [step, upd_same, put_plain (h.fmt w'), View.step]
      rw [display_append, h.shown w' hw', display_text _ _ rfl ht]
    · simp only [step, upd_other _ _ e, View.step]; exact h.shown w' hw'

theorem agrees_put {s : World} {v : View} (h : Agrees s v) (i : Nat) (w : Which) (ms : List Modifier)
    (hi : v.objs i = some (ms, none)) (hw : w.std = true → v.force w = none) :
    Agrees (step s (.put i w)) (v.step (.put i w)) := by
  have hs := h.fresh i ms hi
  have hnf : ∀ w, v.force w ≠ some i := fun w hw => by
    obtain ⟨_, ms', hm⟩ := h.force i w hw; rw [hi] at hm; cases hm
  have ep : proxyOpen w.std (s.streams w) (construct ms)
      = ({ s.streams w with out := (s.streams w).out ++ (if w.std then opening ms else []) },
          w.std && applies ms) := by
    cases hstd : w.std with
    | true => rw [proxyOpen_plain (h.fmt w)]; simp
    | false => simp [proxyOpen]
  have es : step s (.put i w) =
      { streams := upd s.streams w { s.streams w with
          out := (s.streams w).out ++ (if w.std then opening ms else []) }
        objs := upd s.objs i (some { stacks := {}, proxy := some (w, w.std && applies ms) }) } := by
    simp only [step, hs, ep, closeProxy]
  have ev : v.step (.put i w) =
      { v with
        objs := upd v.objs i (some (ms, some w))
        force := if w.std then upd v.force w (some i) else v.force
        moves := upd v.moves w (v.moves w ++ wantedMoves ms) } := by
    simp only [View.step, hi]
  rw [es, ev]
  refine ⟨?_, ?_, ?_, ?_, ?_, ?_, ?_⟩
  · intro w'
    by_cases e : w' = w
    · subst e; simp only [upd_same]; exact h.fmt w'
    · simp only [upd_other _ _ e]; exact h.fmt w'
  · intro j hj
    by_cases e : j = i
    · subst e; simp [upd_same] at hj
    · simp only [upd_other _ _ e] at hj ⊢; exact h.absent j hj
  · intro j ms' hj
    by_cases e : j = i
    · subst e; simp [upd_same] at hj
    · simp only [upd_other _ _ e] at hj ⊢; exact h.fresh j ms' hj
  · intro j ms' w' hj
    by_cases e : j = i
    · subst e
      simp only [upd_same, Option.some.injEq, Prod.mk.injEq] at hj ⊢
      obtain ⟨rfl, rfl⟩ := hj
      exact ⟨_, rfl⟩
    · simp only [upd_other _ _ e] at hj ⊢; exact h.used j ms' w' hj
  · intro j ms' w' hj hw'
    by_cases e : j = i
    · subst e
      simp only [upd_same, Option.some.injEq, Prod.mk.injEq] at hj
      obtain ⟨_, rfl⟩ := hj
      simp [hw', upd_same]
    · simp only [upd_other _ _ e] at hj
      have hf := h.forced j ms' w' hj hw'
      by_cases e' : w' = w
      · subst e'; rw [hw hw'] at hf; cases hf
      · cases hstd : w.std <;> simp [upd_other _ _ e', hf]
  · intro j w' hj
    cases hstd : w.std with
    | false =>
      simp only [hstd, Bool.false_eq_true, if_false] at hj
      have e : j ≠ i := fun e => hnf w' (e ▸ hj)
      simp only [upd_other _ _ e]
      exact h.force j w' hj
    | true =>
      simp only [hstd, if_true] at hj
      by_cases e' : w' = w
      · subst e'
        simp only [upd_same, Option.some.injEq] at hj
        subst hj
        exact ⟨hstd, ms, by simp [upd_same]⟩
      · simp only [upd_other _ _ e'] at hj
        have e : j ≠ i := fun e => hnf w' (e ▸ hj)
        simp only [upd_other _ _ e]
        exact h.force j w' hj
  · intro w' hw'
    by_cases e' : w' = w
    · subst e'
      have hl : v.look w' = {} := by simp [View.look, hw hw']
      simp only [upd_same, hw', if_true]
      rw [display_append, h.shown w' hw', display_opening _ _ rfl hl]
      simp [View.look, upd_same]
    · simp only [upd_other _ _ e']
      rw [h.shown w' hw']
      have hl := look_congr (v := v) (w := w') (v' := { v with
        objs := upd v.objs i (some (ms, some w))
        force := if w.std then upd v.force w (some i) else v.force
        moves := upd v.moves w (v.moves w ++ wantedMoves ms) })
        (by cases hstd : w.std <;> simp [upd_other _ _ e'])
        (fun j hj => by
          have e : j ≠ i := fun e => hnf w' (e ▸ hj)
          simp only [upd_other _ _ e])
      rw [hl]

theorem agrees_drop {s : World} {v : View} (h : Agrees s v) (i : Nat) (hi : v.objs i ≠ none) :
    Agrees (step s (.drop i)) (v.step (.drop i)) := by
  cases hv : v.objs i with
  | none => exact absurd hv hi
  | some p =>
    obtain ⟨ms, u⟩ := p
    cases u with
    | none =>
      have hs := h.fresh i ms hv
      have hnf : ∀ w, v.force w ≠ some i := fun w hw => by
        obtain ⟨_, ms', hm⟩ := h.force i w hw; rw [hv] at hm; cases hm
      have es : step s (.drop i) = { s with objs := upd s.objs i none } := by
        simp only [step, hs, closeProxy]
      have ev : v.step (.drop i) = { v with objs := upd v.objs i none } := by
        simp only [View.step, hv]
      rw [es, ev]
      refine ⟨h.fmt, ?_, ?_, ?_, ?_, ?_, ?_⟩
      · intro j hj
        by_cases e : j = i
        · subst e; simp [upd_same]
        · simp only [upd_other _ _ e] at hj ⊢; exact h.absent j hj
      · intro j ms' hj
        by_cases e : j = i
        · subst e; simp [upd_same] at hj
        · simp only [upd_other _ _ e] at hj ⊢; exact h.fresh j ms' hj
      · intro j ms' w' hj
        by_cases e : j = i
        · subst e; simp [upd_same] at hj
        · simp only [upd_other _ _ e] at hj ⊢; exact h.used j ms' w' hj
      · intro j ms' w' hj
        by_cases e : j = i
        · subst e; simp [upd_same] at hj
        · simp only [upd_other _ _ e] at hj ⊢; exact h.forced j ms' w' hj
      · intro j w' hj
        have e : j ≠ i := fun e => hnf w' (e ▸ hj)
        simp only [upd_other _ _ e]
        exact h.force j w' hj
      · intro w' hw'
        rw [look_congr (v := v) (v' := { v with objs := upd v.objs i none }) rfl (fun j hj => by
          have e : j ≠ i := fun e => hnf w' (e ▸ hj)
          simp only [upd_other _ _ e])]
        exact h.shown w' hw'
    | some w =>
      obtain ⟨st, hs⟩ := h.used i ms w hv
      have es : step s (.drop i) =
          { streams := upd s.streams w (proxyClose (s.streams w) (w.std && applies ms))
            objs := upd s.objs i none } := by
        simp only [step, hs, closeProxy]
      have ev : v.step (.drop i) = { v with
          objs := upd v.objs i none
          force := if w.std then upd v.force w none else v.force } := by
        simp only [View.step, hv]
      have hne : ∀ w', w' ≠ w → v.force w' ≠ some i := by
        intro w' e' hf
        obtain ⟨_, ms', hm⟩ := h.force i w' hf
        rw [hv] at hm
        simp only [Option.some.injEq, Prod.mk.injEq] at hm
        exact e' hm.2.symm
      rw [es, ev]
      refine ⟨?_, ?_, ?_, ?_, ?_, ?_, ?_⟩
      · intro w'
        by_cases e : w' = w
        · subst e
          simp only [upd_same, proxyClose]
          split
          · rw [put_plain (h.fmt w')]; exact h.fmt w'
          · exact h.fmt w'
        · simp only [upd_other _ _ e]; exact h.fmt w'
      · intro j hj
        by_cases e : j = i
        · subst e; simp [upd_same]
        · simp only [upd_other _ _ e] at hj ⊢; exact h.absent j hj
      · intro j ms' hj
        by_cases e : j = i
        · subst e; simp [upd_same] at hj
        · simp only [upd_other _ _ e] at hj ⊢; exact h.fresh j ms' hj
      · intro j ms' w' hj
        by_cases e : j = i
        · subst e; simp [upd_same] at hj
        · simp only [upd_other _ _ e] at hj ⊢; exact h.used j ms' w' hj
      · intro j ms' w' hj hw'
        by_cases e : j = i
        · subst e; simp [upd_same] at hj
        · simp only [upd_other _ _ e] at hj
          have hf := h.forced j ms' w' hj hw'
          by_cases e' : w' = w
          · subst e'
            have := h.forced i ms w' hv hw'
            rw [hf] at this
            exact absurd (Option.some.inj this) e
          · cases hstd : w.std <;> simp [upd_other _ _ e', hf]
      · intro j w' hj
        have hj' : v.force w' = some j ∧ j ≠ i := by
          by_cases e' : w' = w
          · subst e'
            cases hstd : w'.std with
            | true => simp [hstd, upd_same] at hj
            | false =>
              simp only [hstd, Bool.false_eq_true, if_false] at hj
              have := (h.force j w' hj).1
              rw [hstd] at this
              cases this
          · have hf : v.force w' = some j := by
              cases hstd : w.std <;> simpa [hstd, upd_other _ _ e'] using hj
            exact ⟨hf, fun e => hne w' e' (e ▸ hf)⟩
        simp only [upd_other _ _ hj'.2]
        exact h.force j w' hj'.1
      · intro w' hw'
        by_cases e' : w' = w
        · subst e'
          have hf := h.forced i ms w' hv hw'
          have hl : v.look w' = wanted ms := by simp [View.look, hf, hv]
          have hl' : ∀ f : Which → Option Nat, f w' = none →
              View.look { v with objs := upd v.objs i none, force := f } w' = {} := by
            intro f hf; simp [View.look, hf]
          rw [hl' _ (by simp [hw', upd_same])]
          simp only [upd_same, hw', Bool.true_and]
          cases hp : applies ms with
          | false =>
            simp only [proxyClose, Bool.false_eq_true, if_false]
            rw [h.shown w' hw', hl, wanted_not_applies hp]
          | true =>
            simp only [proxyClose, if_true]
            rw [put_plain (h.fmt w')]
            show display {} ((s.streams w').out ++ [27, 91, 48, 109]) = _
            rw [display_append, h.shown w' hw', display_closing _ rfl]
        · simp only [upd_other _ _ e']
          rw [h.shown w' hw']
          have hl := look_congr (v := v) (w := w') (v' := { v with
            objs := upd v.objs i none
            force := if w.std then upd v.force w none else v.force })
            (by cases hstd : w.std <;> simp [upd_other _ _ e'])
            (fun j hj => by
              have e : j ≠ i := fun e => hne w' e' (e ▸ hj)
              simp only [upd_other _ _ e])
          rw [hl]

theorem agrees_exec {s : World} {v : View} (h : Agrees s v) (ops : List Op) (hf : Flat v ops) :
    Agrees (exec s ops) (ops.foldl View.step v) := by
  induction ops generalizing s v with
  | nil => exact h
  | cons op ops ih =>
    obtain ⟨ha, hf⟩ := hf
    refine ih ?_ hf
    cases op with
    | make i ms => exact agrees_make h i ms ha
    | put i w => obtain ⟨⟨ms, hi⟩, hw⟩ := ha; exact agrees_put h i w ms hi hw
    | text w t => exact agrees_text h w t ha
    | drop i => exact agrees_drop h i ha

theorem agrees_init : Agrees {} {} := by
  refine ⟨fun _ => ⟨rfl, rfl⟩, fun _ _ => rfl, ?_, ?_, ?_, ?_, fun _ _ => rfl⟩
  · intro i ms h; simp at h
  · intro i ms w h; simp at h
  · intro i ms w h; simp at h
  · intro i w h; simp at h

/-- C97, whole programs: if stylers are streamed at most once and never two at a time onto the same
standard stream, every printed character looks as the styler in force asks for, and as usual when none
is in force; the cursor moves exactly as asked for. -/
theorem styler_programs_partial (ops : List Op) (hf : Flat {} ops) (w : Which) (hw : w.std = true) :
    let t := display {} ((exec {} ops).streams w).out
    let v := ops.foldl View.step {}
    t.shown = v.shown w ∧ t.moves = v.moves w ∧ t.attr = v.look w ∧ t.mode = .ground := by
  have := (agrees_exec agrees_init ops hf).shown w hw
  simp only [this, and_self]

/-- Two stylers one after the other, one of them on standard error at the same time. -/
example :
    let ops : List Op := [.make 0 [.style .bold], .text .out [97], .make 1 [.color ⟨3, .foreground⟩],
      .put 0 .out, .put 1 .err, .text .out [98], .text .err [99], .drop 0, .text .out [100], .drop 1]
    Flat {} ops ∧
    (display {} ((exec {} ops).streams .out).out).shown
      = [(97, {}), (98, { bold := true }), (100, {})] := by
  refine ⟨?_, by decide +kernel⟩
  simp [Flat, View.allowed, View.step, upd, Which.std]

/-- What a program printed on a stream. -/
def printed (w : Which) (ops : List Op) : List Nat :=
  ops.flatMap fun | .text w' t => if w' = w then t else [] | _ => []

/-- C97: other streams are left alone, whatever the program does. -/
theorem styler_other_streams (ops : List Op) (w : Which) (hw : w.std = false) :
    ((exec {} ops).streams w).out = printed w ops := by
  have gen : ∀ (ops : List Op) (s : World), Plain (s.streams w).fmt →
      (∀ i o, s.objs i = some o → ∀ p, o.proxy = some p → p.1 = w → p.2 = false) →
      ((exec s ops).streams w).out = (s.streams w).out ++ printed w ops := by
    intro ops
    induction ops with
    | nil => intro s _ _; simp [exec, printed]
    | cons op ops ih =>
      intro s hf hp
      have hclose : ∀ (ss : Which → Stream) (pr : Option (Which × Bool)),
          (∀ p, pr = some p → p.1 = w → p.2 = false) → closeProxy ss pr w = ss w := by
        intro ss pr hpr
        cases pr with
        | none => rfl
        | some p =>
          obtain ⟨w', a⟩ := p
          by_cases e : w' = w
          · subst e
            have ha : a = false := hpr (w', a) rfl rfl
            subst ha
            simp [closeProxy, upd_same, proxyClose]
          · simp [closeProxy, upd_other _ _ (Ne.symm e)]
      show ((exec (step s op) ops).streams w).out = _
      cases op with
      | make i ms =>
        have e : (step s (.make i ms)).streams = s.streams := by
          simp only [step]; cases s.objs i <;> rfl
        rw [ih _ (by rw [e]; exact hf), e]
        · simp [printed]
        · intro j o hj p hp' he
          cases hi : s.objs i with
          | some o' =>
            simp only [step, hi] at hj
            exact hp j o hj p hp' he
          | none =>
            simp only [step, hi] at hj
            by_cases e' : j = i
            · subst e'
              simp only [upd_same, Option.some.injEq] at hj
              rw [← hj] at hp'
              cases hp'
            · rw [upd_other _ _ e'] at hj
              exact hp j o hj p hp' he
      | text w' t =>
        by_cases e : w' = w
        · subst e
          rw [ih (step s (.text w' t)) (by simp only [step, upd_same, put_plain hf]; exact hf) hp]
          simp [step, upd_same, put_plain hf, printed]
        · rw [ih (step s (.text w' t)) (by simp only [step, upd_other _ _ (Ne.symm e)]; exact hf) hp]
          simp [step, upd_other _ _ (Ne.symm e), printed, e]
      | drop i =>
        cases hi : s.objs i with
        | none =>
          have e : step s (.drop i) = s := by simp only [step, hi]
          rw [e, ih s hf hp]
          simp [printed]
        | some o =>
          have e : (step s (.drop i)).streams w = s.streams w := by
            simp only [step, hi]
            exact hclose _ _ (fun p hp' he => hp i o hi p hp' he)
          rw [ih _ (by rw [e]; exact hf), e]
          · simp [printed]
          · intro j o' hj p hp' he
            simp only [step, hi] at hj
            by_cases e' : j = i
            · subst e'; simp [upd_same] at hj
            · rw [upd_other _ _ e'] at hj
              exact hp j o' hj p hp' he
      | put i w' =>
        cases hi : s.objs i with
        | none =>
          have e : step s (.put i w') = s := by simp only [step, hi]
          rw [e, ih s hf hp]
          simp [printed]
        | some o =>
          have e : (step s (.put i w')).streams w = s.streams w := by
            simp only [step, hi]
            rw [hclose _ _ (fun p hp' he => hp i o hi p hp' he)]
            by_cases e' : w' = w
            · subst e'
              simp [upd_same, proxyOpen, hw]
            · rw [upd_other _ _ (Ne.symm e')]
          rw [ih _ (by rw [e]; exact hf), e]
          · simp [printed]
          · intro j o' hj p hp' he
            simp only [step, hi] at hj
            by_cases e' : j = i
            · subst e'
              simp only [upd_same, Option.some.injEq] at hj
              rw [← hj] at hp'
              simp only [Option.some.injEq] at hp'
              rw [← hp'] at he ⊢
              simp only at he
              subst he
              simp [proxyOpen, hw]
            · rw [upd_other _ _ e'] at hj
              exact hp j o' hj p hp' he
  have := gen ops {} ⟨rfl, rfl⟩ (by intro i o h; simp at h)
  simpa using this

/-- Another stream, with a styler streamed onto it twice. -/
example : printed (.other 0) [.make 0 [.style .bold], .put 0 (.other 0), .text (.other 0) [97],
    .put 0 (.other 0), .text .out [98]] = [97] := by decide

/-! ## Where the documentation is not met -/

/-- C97 refuted, nesting: destroying an inner styler also ends the look of the outer one, which is
still alive ("reset the stream's style and color to its original state"). -/
theorem styler_nested_violated :
    let ops : List Op := [.make 0 [.style .bold], .put 0 .out, .make 1 [.color ⟨1, .foreground⟩],
      .put 1 .out, .drop 1, .text .out [97]]
    let v := ops.foldl View.step {}
    (display {} ((exec {} ops).streams .out).out).shown = [(97, {})]
    ∧ v.objs 0 = some ([.style .bold], some .out) := by
  refine ⟨by decide +kernel, by decide +kernel⟩

/-- C97 refuted, a styler held and streamed again: the second streaming switches the look off. -/
theorem styler_restream_violated :
    (display {} ((exec {} [.make 0 [.style .bold], .put 0 .out, .text .out [97], .put 0 .out,
      .text .out [98]]).streams .out).out).shown = [(97, { bold := true }), (98, {})] := by
  decide +kernel

/-- C97 refuted, number formats: after `std::hex` the colour 20 is written as `14`. -/
theorem styler_hex_violated :
    let s : Stream := { fmt := { base := 16 } }
    let p := proxyOpen true s (construct [.color ⟨20, .foreground⟩])
    display {} p.1.out = { attr := { fg := some 14 } } ∧ wanted [.color ⟨20, .foreground⟩] = { fg := some 20 } := by
  refine ⟨by decide +kernel, by decide⟩

/-! ## The console sink -/

/-- The look of the time and trace of a record (documentation of the console sink: green, yellow, and
bold red). -/
def levelLook : Level → Attr
  | .debug => {}
  | .info => { fg := some 2 }
  | .warn => { fg := some 3 }
  | .error => { bold := true, fg := some 1 }

/-- The stream of a record. -/
def levelStream : Level → Which
  | .debug => .out
  | .info => .out
  | .warn => .err
  | .error => .err

theorem consoleChoice_eq (l : Level) : (consoleChoice l).1 = levelStream l
    ∧ wanted (match (consoleChoice l).2.2 with
      | some c => [.style (consoleChoice l).2.1, .color c]
      | none => [.style (consoleChoice l).2.1]) = levelLook l
    ∧ wantedMoves (match (consoleChoice l).2.2 with
      | some c => [.style (consoleChoice l).2.1, .color c]
      | none => [.style (consoleChoice l).2.1]) = [] := by
  cases l <;> refine ⟨rfl, by decide, by decide⟩

/-- One record on the console: time, trace and message on one line, the time and trace in the look of
the level, the message in the usual look. -/
def lineOf (l : Level) (time trace msg : List Nat) : List (Nat × Attr) :=
  (time ++ [32] ++ trace).map (fun c => (c, levelLook l))
    ++ ([58, 32] ++ msg ++ [10]).map (fun c => (c, {}))

/-- A record handed to the console sink. -/
structure Rec where
  level : Level
  time : List Nat
  trace : List Nat
  msg : List Nat

/-- No escape characters. -/
def Rec.Clean (r : Rec) : Prop := 27 ∉ r.time ∧ 27 ∉ r.trace ∧ 27 ∉ r.msg

/-- The records of a sequence that go to a stream, as displayed. -/
def consoleLines (w : Which) (rs : List Rec) : List (Nat × Attr) :=
  rs.flatMap fun r => if levelStream r.level = w then lineOf r.level r.time r.trace r.msg else []

/-- C98: the console shows every record, in order, whole, on the stream of its level, with only the
time and trace coloured; nothing leaks from one record to the next. -/
theorem console_lines_partial (rs : List Rec) (hc : ∀ r ∈ rs, r.Clean) (w : Which) (hw : w.std = true) :
    display {} ((exec {} (rs.flatMap fun r => consoleOps 0 r.level r.time r.trace r.msg)).streams w).out
      = { shown := consoleLines w rs } := by
  have gen : ∀ (rs : List Rec), (∀ r ∈ rs, r.Clean) → ∀ (s : World) (v : View), Agrees s v →
      (∀ i, v.objs i = none) → (∀ w, v.force w = none) → (∀ w, v.moves w = []) →
      ∀ w, w.std = true →
      display {} ((exec s (rs.flatMap fun r => consoleOps 0 r.level r.time r.trace r.msg)).streams w).out
        = { shown := v.shown w ++ consoleLines w rs } := by
    intro rs
    induction rs with
    | nil =>
      intro _ s v h _ hf hm w hw
      have := h.shown w hw
      simpa [exec, consoleLines, View.look, hf w, hm w] using this
    | cons r rs ih =>
      intro hc s v h ho hf hm w hw
      obtain ⟨c1, c2, c3⟩ := hc r List.mem_cons_self
      obtain ⟨e1, e2, e3⟩ := consoleChoice_eq r.level
      rw [List.flatMap_cons]
      have hex : ∀ a b, exec s (a ++ b) = exec (exec s a) b := by intro a b; simp [exec]
      rw [hex]
      generalize hms : (match (consoleChoice r.level).2.2 with
        | some c => [Modifier.style (consoleChoice r.level).2.1, .color c]
        | none => [Modifier.style (consoleChoice r.level).2.1]) = ms at e2 e3
      have hops : consoleOps 0 r.level r.time r.trace r.msg =
          [ .make 0 ms, .put 0 (levelStream r.level),
            .text (levelStream r.level) (r.time ++ [32] ++ r.trace), .drop 0,
            .text (levelStream r.level) [58, 32], .text (levelStream r.level) r.msg,
            .text (levelStream r.level) [10] ] := by
        rw [← e1, ← hms]; rfl
      rw [hops]
      have hstd : (levelStream r.level).std = true := by cases r.level <;> rfl
      generalize hq : levelStream r.level = q at hstd
      have hflat : Flat v [ .make 0 ms, .put 0 q, .text q (r.time ++ [32] ++ r.trace), .drop 0,
            .text q [58, 32], .text q r.msg, .text q [10] ] := by
        refine ⟨ho 0, ⟨⟨ms, by simp [View.step, upd_same]⟩, fun _ => by simpa [View.step] using hf q⟩, ?_,
          ?_, by simp [View.allowed], c3, by simp [View.allowed], trivial⟩
        · simp only [View.allowed, List.mem_append, List.mem_singleton, not_or]
          exact ⟨⟨c1, by decide⟩, c2⟩
        · simp [View.allowed, View.step, upd_same]
      have ha := agrees_exec h _ hflat
      have hv : ∀ w', (List.foldl View.step v [ .make 0 ms, .put 0 q, .text q (r.time ++ [32] ++ r.trace), .drop 0,
            .text q [58, 32], .text q r.msg, .text q [10] ]).shown w'
          = v.shown w' ++ (if q = w' then lineOf r.level r.time r.trace r.msg else []) := by
        intro w'
        simp only [List.foldl_cons, List.foldl_nil, View.step, upd_same, View.look, hstd, if_true]
        by_cases e : w' = q
        · subst e
          simp [upd_same, lineOf, e2]
        · simp [upd_other _ _ e, Ne.symm e]
      rw [ih (fun r hr => hc r (List.mem_cons_of_mem _ hr)) _ _ ha ?_ ?_ ?_ w hw, hv w]
      · simp [consoleLines, hq]
      · intro i
        simp only [List.foldl_cons, List.foldl_nil, View.step, upd_same]
        by_cases e : i = 0
        · subst e; simp [upd_same]
        · simp [upd_other _ _ e, ho i]
      · intro w'
        simp only [List.foldl_cons, List.foldl_nil, View.step, upd_same, hstd, if_true]
        by_cases e : w' = q
        · subst e; simp [upd_same]
        · simp [upd_other _ _ e, hf w']
      · intro w'
        simp only [List.foldl_cons, List.foldl_nil, View.step, upd_same, e3, List.append_nil]
        by_cases e : w' = q
        · subst e; simp [upd_same, hm]
        · simp [upd_other _ _ e, hm]
  have := gen rs hc {} {} agrees_init (fun _ => rfl) (fun _ => rfl) (fun _ => rfl) w hw
  simpa using this

/-- Two records of different levels. -/
example :
    let rs : List Rec := [⟨.error, [49], [102], [111, 104]⟩, ⟨.info, [50], [103], [104, 105]⟩]
    (∀ r ∈ rs, r.Clean) ∧ consoleLines .err rs
      = [(49, { bold := true, fg := some 1 }), (32, { bold := true, fg := some 1 }),
         (102, { bold := true, fg := some 1 }), (58, {}), (32, {}), (111, {}), (104, {}), (10, {})] := by
  refine ⟨?_, by decide⟩
  intro r hr
  simp only [List.mem_cons, List.not_mem_nil, or_false] at hr
  rcases hr with rfl | rfl <;> exact ⟨by decide, by decide, by decide⟩

/-- C98 refuted for messages with escape characters: the message of one record changes the look of
the next record's message. -/
theorem console_injection_violated :
    let rs : List Rec := [⟨.debug, [], [], [27, 91, 56, 109, 27, 91, 49]⟩]
    display {} ((exec {} (rs.flatMap fun r => consoleOps 0 r.level r.time r.trace r.msg)).streams .out).out
      ≠ { shown := consoleLines .out rs } := by
  decide +kernel

end Verif.Styler
