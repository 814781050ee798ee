import Verif.Styler.Props

/-!
# C97: what every program with stylers displays, and streams with a field width

Sources: `/repo/fly/logger/styler.{hpp,cpp}`, `/repo/fly/logger/detail/nix/styler_proxy_impl.cpp`.
-/

namespace Verif.Styler

open Spec

/-! ## Specification -/

/-- The look after a styler is streamed while the look is `a`: its styles and colours are added, after `Default` to
nothing. -/
def overlay (a : Attr) (ms : List Modifier) : Attr :=
  let b := if Style.default ∈ styles ms then {} else a
  { bold := on .bold ms || b.bold, dim := on .dim ms || b.dim, italic := on .italic ms || b.italic
    underline := on .underline ms || b.underline, blink := on .blink ms || b.blink, strike := on .strike ms || b.strike
    fg := (colors .foreground ms).getLast?.or b.fg, bg := (colors .background ms).getLast?.or b.bg }

/-- What is seen of a program: the living stylers with the modifiers they still have and the stream they were last
streamed to (and whether they changed its look), the look of the next character on each stream, what was displayed. -/
structure Sight where
  objs : Nat → Option (List Modifier × Option (Which × Bool)) := fun _ => none
  look : Which → Attr := fun _ => {}
  shown : Which → List (Nat × Attr) := fun _ => []
  moves : Which → List (Direction × Nat) := fun _ => []

/-- The end of a styler's use of a stream: if it changed the look, the look is the usual one. -/
def endUse (look : Which → Attr) : Option (Which × Bool) → (Which → Attr)
  | some (w, true) => upd look w {}
  | _ => look

/-- What an operation does. A styler gives its modifiers away when it is streamed; if it was streamed before, that use
ends after the new one begins. -/
def Sight.step (v : Sight) : Op → Sight
  | .make i ms => match v.objs i with
    | none => { v with objs := upd v.objs i (some (ms, none)) }
    | some _ => v
  | .put i w => match v.objs i with
    | none => v
    | some (ms, use) =>
      { v with
        objs := upd v.objs i (some ([], some (w, w.std && applies ms)))
        look := endUse (if w.std then upd v.look w (overlay (v.look w) ms) else v.look) use
        moves := if w.std then upd v.moves w (v.moves w ++ wantedMoves ms) else v.moves }
  | .text w t => { v with shown := upd v.shown w (v.shown w ++ t.map (fun c => (c, v.look w))) }
  | .drop i => match v.objs i with
    | none => v
    | some (_, use) => { v with objs := upd v.objs i none, look := endUse v.look use }

/-! ## Proof -/

theorem fold_styles_from (a : Attr) (ss : List Style) : ss.foldl setStyle a =
    (let f := fun s => (ss.reverse.takeWhile (· ≠ .default)).contains s
     let b := if Style.default ∈ ss then {} else a
     { bold := f .bold || b.bold, dim := f .dim || b.dim, italic := f .italic || b.italic
       underline := f .underline || b.underline, blink := f .blink || b.blink, strike := f .strike || b.strike
       fg := b.fg, bg := b.bg }) := by
  induction ss using list_snoc_induction with
  | h0 => simp
  | h1 ss s ih =>
    rw [List.foldl_append, ih]
    cases s <;> simp [setStyle]

theorem overlay_eq (a : Attr) (ms : List Modifier) :
    (allColors ms).foldl setColor ((styles ms).foldl setStyle a) = overlay a ms := by
  rw [fold_styles_from, fold_colors]
  simp only [overlay, colors_eq, List.getLast?_map, on]

theorem overlay_not_applies {ms : List Modifier} (h : applies ms = false) (a : Attr) : overlay a ms = a := by
  rw [← applies_eq] at h
  simp only [Bool.or_eq_false_iff, Bool.not_eq_false', List.isEmpty_iff] at h
  rw [← overlay_eq, h.1, h.2]
  rfl

theorem display_opening_from (t : Term) (ms : List Modifier) (h : t.mode = .ground) :
    display t (opening ms) = { t with attr := overlay t.attr ms, moves := t.moves ++ wantedMoves ms } := by
  unfold opening
  rw [display_append]
  cases hp : applies ms with
  | false =>
    simp only [Bool.false_eq_true, if_false]
    rw [display_moves _ _ (by exact h) (wantedMoves_pos ms), overlay_not_applies hp]
    rfl
  | true =>
    simp only [if_true]
    have hne : (styles ms).map styleCode ++ (allColors ms).flatMap colorCodes ≠ [] := by
      intro he
      rw [List.append_eq_nil_iff, List.map_eq_nil_iff, List.flatMap_eq_nil_iff] at he
      rw [← applies_eq, he.1] at hp
      cases hc : allColors ms with
      | nil => simp [hc] at hp
      | cons c cs => exact colorCodes_ne c (he.2 c (by simp [hc]))
    rw [display_sgr t _ h hne, sgr_styles, sgr_colors, overlay_eq, display_moves _ _ (by exact h) (wantedMoves_pos ms)]

/-- The program is in the state seen. -/
structure Sees (s : World) (v : Sight) : Prop where
  fmt : ∀ w, Plain (s.streams w).fmt
  objs : ∀ i, s.objs i = (v.objs i).map fun o => { stacks := construct o.1, proxy := o.2 }
  shown : ∀ w, w.std = true → display {} (s.streams w).out
    = { mode := .ground, attr := v.look w, shown := v.shown w, moves := v.moves w }

theorem close_sees {ss : Which → Stream} {look : Which → Attr} {shown : Which → List (Nat × Attr)}
    {moves : Which → List (Direction × Nat)} (hf : ∀ w, Plain (ss w).fmt)
    (h : ∀ w, w.std = true → display {} (ss w).out = { mode := .ground, attr := look w, shown := shown w, moves := moves w })
    (use : Option (Which × Bool)) : (∀ w, Plain (closeProxy ss use w).fmt) ∧ ∀ w, w.std = true →
      display {} (closeProxy ss use w).out =
        { mode := .ground, attr := endUse look use w, shown := shown w, moves := moves w } := by
  cases use with
  | none => exact ⟨hf, h⟩
  | some u =>
    obtain ⟨w', b⟩ := u
    cases b with
    | false =>
      have e : closeProxy ss (some (w', false)) = ss := by
        funext x
        by_cases hx : x = w'
        · subst hx; simp [closeProxy, upd_same, proxyClose]
        · simp [closeProxy, upd_other _ _ hx]
      rw [e]
      exact ⟨hf, h⟩
    | true =>
      refine ⟨fun w => ?_, fun w hw => ?_⟩
      · by_cases hx : w = w'
        · subst hx; simp only [closeProxy, upd_same, proxyClose, if_true, put_plain (hf w)]; exact hf w
        · simp only [closeProxy, upd_other _ _ hx]; exact hf w
      · by_cases hx : w = w'
        · subst hx
          simp only [closeProxy, upd_same, proxyClose, if_true, put_plain (hf w), endUse]
          rw [display_append, h w hw, display_closing _ rfl]
        · simp only [closeProxy, upd_other _ _ hx, endUse]; exact h w hw

theorem sees_step {s : World} {v : Sight} (h : Sees s v) (op : Op) (ht : ∀ w t, op = .text w t → 27 ∉ t) :
    Sees (step s op) (v.step op) := by
  have hs : ∀ i, s.objs i = (v.objs i).map fun o => { stacks := construct o.1, proxy := o.2 } := h.objs
  cases op with
  | make i ms =>
    have := hs i
    cases hv : v.objs i with
    | some o =>
      rw [hv] at this
      simp only [step, Sight.step, hv, this, Option.map_some]
      exact h
    | none =>
      rw [hv] at this
      simp only [step, Sight.step, hv, this, Option.map_none]
      refine ⟨h.fmt, fun j => ?_, h.shown⟩
      by_cases e : j = i
      · subst e; simp [upd_same]
      · simp only [upd_other _ _ e]; exact hs j
  | text w t =>
    have ht2 := ht w t rfl
    refine ⟨fun w' => ?_, hs, fun w' hw' => ?_⟩
    · by_cases e : w' = w
      · subst e; simp only [step, upd_same, put_plain (h.fmt w')]; exact h.fmt w'
      · simp only [step, upd_other _ _ e]; exact h.fmt w'
    · by_cases e : w' = w
      · subst e
        simp only [step, Sight.step, upd_same, put_plain (h.fmt w')]
        rw [display_append, h.shown w' hw', display_text _ _ rfl ht2]
      · simp only [step, Sight.step, upd_other _ _ e]; exact h.shown w' hw'
  | drop i =>
    have := hs i
    cases hv : v.objs i with
    | none =>
      rw [hv] at this
      simp only [step, Sight.step, hv, this, Option.map_none]
      exact h
    | some o =>
      obtain ⟨ms, use⟩ := o
      rw [hv] at this
      simp only [step, Sight.step, hv, this, Option.map_some]
      obtain ⟨h1, h2⟩ := close_sees h.fmt h.shown use
      refine ⟨h1, fun j => ?_, h2⟩
      by_cases e : j = i
      · subst e; simp [upd_same]
      · simp only [upd_other _ _ e]; exact hs j
  | put i w =>
    have := hs i
    cases hv : v.objs i with
    | none =>
      rw [hv] at this
      simp only [step, Sight.step, hv, this, Option.map_none]
      exact h
    | some o =>
      obtain ⟨ms, use⟩ := o
      rw [hv] at this
      simp only [step, Sight.step, hv, this, Option.map_some]
      have ep : proxyOpen w.std (s.streams w) (construct ms)
          = ({ s.streams w with out := (s.streams w).out ++ (if w.std then opening ms else []) },
              w.std && applies ms) := by
        cases hstd : w.std with
        | true => rw [proxyOpen_plain (h.fmt w)]; simp
        | false => simp [proxyOpen]
      rw [ep]
      obtain ⟨h1, h2⟩ := close_sees (ss := upd s.streams w
          { s.streams w with out := (s.streams w).out ++ (if w.std then opening ms else []) })
        (look := if w.std then upd v.look w (overlay (v.look w) ms) else v.look) (shown := v.shown)
        (moves := if w.std then upd v.moves w (v.moves w ++ wantedMoves ms) else v.moves)
        (fun w' => by
          by_cases e : w' = w
          · subst e; simp only [upd_same]; exact h.fmt w'
          · simp only [upd_other _ _ e]; exact h.fmt w')
        (fun w' hw' => by
          by_cases e : w' = w
          · subst e
            simp only [upd_same, hw', if_true]
            rw [display_append, h.shown w' hw', display_opening_from _ _ rfl]
          · cases hstd : w.std <;> simp only [upd_other _ _ e, if_true, Bool.false_eq_true, if_false] <;>
              exact h.shown w' hw') use
      refine ⟨h1, fun j => ?_, h2⟩
      by_cases e : j = i
      · subst e; simp [upd_same, construct]
      · simp only [upd_other _ _ e]; exact hs j

theorem sees_exec {s : World} {v : Sight} (h : Sees s v) (ops : List Op) (ht : ∀ w t, Op.text w t ∈ ops → 27 ∉ t) :
    Sees (exec s ops) (ops.foldl Sight.step v) := by
  induction ops generalizing s v with
  | nil => exact h
  | cons op ops ih =>
    exact ih (sees_step h op fun w t e => ht w t (by simp [e])) fun w t e => ht w t (by simp [e])

/-- C97, every program (also one that nests stylers or streams one again), with texts without escape characters: each
styler adds to the look, its modifiers take effect the first time it is streamed, and its end - or streaming it again -
makes the look the usual one. -/
theorem styler_programs_exact (ops : List Op) (ht : ∀ w t, Op.text w t ∈ ops → 27 ∉ t) (w : Which) (hw : w.std = true) :
    let t := display {} ((exec {} ops).streams w).out
    let v := ops.foldl Sight.step {}
    t.shown = v.shown w ∧ t.moves = v.moves w ∧ t.attr = v.look w ∧ t.mode = .ground := by
  have h : Sees {} {} := ⟨fun _ => ⟨rfl, rfl⟩, fun _ => rfl, fun _ _ => rfl⟩
  have := (sees_exec h ops ht).shown w hw
  simp only [this, and_self]

/-- Two stylers, one inside the other. -/
example :
    let ops : List Op := [.make 0 [.style .bold], .put 0 .out, .make 1 [.color ⟨1, .foreground⟩], .put 1 .out,
      .text .out [97], .drop 1, .text .out [98], .drop 0]
    (∀ w t, Op.text w t ∈ ops → 27 ∉ t) ∧
    (ops.foldl Sight.step {}).shown .out = [(97, { bold := true, fg := some 1 }), (98, {})] := by
  refine ⟨?_, by decide +kernel⟩
  intro w t h
  simp at h
  rcases h with ⟨rfl, rfl⟩ | ⟨rfl, rfl⟩ <;> decide

/-! ## A field width -/

theorem put_padded {s : Stream} (hl : s.fmt.left = false) (t : List Nat) :
    s.put t = ({ out := s.out ++ List.replicate (s.fmt.width - t.length) s.fmt.fill,
                 fmt := { s.fmt with width := 0 } } : Stream).put t := by
  simp [Stream.put, hl]

/-- C97: a stream that pads on the left (for example after `std::setw`): the field width is used up by the styler, which
shows the padding in the look before it; the text is not padded. Otherwise everything is as asked for. -/
theorem styler_padded (s : Stream) (hb : s.fmt.base = 10) (hl : s.fmt.left = false) (hfill : s.fmt.fill ≠ 27)
    (ms : List Modifier) (hms : ms ≠ []) (txt : List Nat) (htxt : 27 ∉ txt) (t : Term) (ht : display {} s.out = t)
    (hg : t.mode = .ground) (ha : t.attr = {}) :
    let p := proxyOpen true s (construct ms)
    display {} (proxyClose (p.1.put txt) p.2).out
      = { t with shown := t.shown ++ (List.replicate (s.fmt.width - 2) s.fmt.fill).map (fun c => (c, {})) ++
                   txt.map (fun c => (c, wanted ms))
                 moves := t.moves ++ wantedMoves ms } := by
  let s' : Stream := { out := s.out ++ List.replicate (s.fmt.width - 2) s.fmt.fill, fmt := { s.fmt with width := 0 } }
  have hput : s.put [27, 91] = s'.put [27, 91] := put_padded hl _
  have hboth : ∀ ss cs, applyStylesAndColors s ss cs = applyStylesAndColors s' ss cs := by
    intro ss cs
    unfold applyStylesAndColors
    rw [hput]
  have hcur : ∀ c cs, applyCursors s (c :: cs) = applyCursors s' (c :: cs) := by
    intro c cs
    unfold applyCursors streamCursor
    rw [hput]
  have hopen : proxyOpen true s (construct ms) = proxyOpen true s' (construct ms) := by
    unfold proxyOpen
    rw [construct_eq]
    simp only [if_true, applies_eq]
    cases hp : applies ms with
    | true => simp only [if_true, hboth]
    | false =>
      simp only [Bool.false_eq_true, if_false]
      cases hw : wantedMoves ms with
      | cons p ps => simp [hcur]
      | nil =>
        exfalso
        cases ms with
        | nil => exact hms rfl
        | cons m ms => cases m <;> simp [applies, wantedMoves] at hp hw
  have htail : 27 ∉ List.replicate (s.fmt.width - 2) s.fmt.fill := fun h => hfill (List.eq_of_mem_replicate h).symm
  have hd : display {} s'.out = { t with
      shown := t.shown ++ (List.replicate (s.fmt.width - 2) s.fmt.fill).map fun c => (c, {}) } := by
    show display {} (s.out ++ _) = _
    rw [display_append, ht, display_text _ _ hg htail, ha]
  have := styler_scope_partial s' ⟨hb, rfl⟩ ms txt htxt _ hd hg ha
  simp only [hopen]
  exact this

/-- C97 is false of the unchanged code: the field width meant for the text is spent on the styler. -/
theorem styler_width_violated :
    let s : Stream := { fmt := { width := 4 } }
    let p := proxyOpen true s (construct [.style .bold])
    (display {} (p.1.put [97]).out).shown = [(32, {}), (32, {}), (97, { bold := true })] := by
  decide +kernel

/-- C97 is false of the unchanged code: with the padding on the right it ends up inside the control sequence, the rest
of which is displayed. -/
theorem styler_left_violated :
    let s : Stream := { fmt := { width := 4, left := true } }
    let p := proxyOpen true s (construct [.style .bold])
    (display {} (p.1.put [97]).out).shown = [(32, {}), (49, {}), (109, {}), (97, {})] := by
  decide +kernel

end Verif.Styler
