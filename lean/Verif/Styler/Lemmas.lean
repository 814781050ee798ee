import Verif.Styler.Spec

/-!
# Lemmas on stylers: the bytes written and what a terminal makes of them
-/

namespace Verif.Styler

open Spec

/-- Decimal digits of a number. -/
abbrev dig (n : Nat) : List Nat := digits 10 n

theorem digits_small {b n : Nat} (h : ¬ (2 ≤ b ∧ b ≤ n)) : digits b n = [digitChar n] := by
  rw [digits]; simp [h]

theorem digits_big {b n : Nat} (h2 : 2 ≤ b) (h : b ≤ n) :
    digits b n = digits b (n / b) ++ [digitChar (n % b)] := by
  rw [digits]; simp [h2, h]

theorem dig_range (n : Nat) : ∀ d ∈ dig n, 48 ≤ d ∧ d ≤ 57 := by
  induction n using Nat.strongRecOn with
  | ind n ih =>
    intro d hd
    by_cases h : 10 ≤ n
    · rw [dig, digits_big (by omega) h, List.mem_append] at hd
      rcases hd with hd | hd
      · exact ih (n / 10) (by omega) d hd
      · simp only [List.mem_singleton] at hd
        subst hd
        have : n % 10 < 10 := Nat.mod_lt _ (by omega)
        simp only [digitChar, this, if_true]
        omega
    · rw [dig, digits_small (by omega)] at hd
      simp only [List.mem_singleton] at hd
      subst hd
      simp only [digitChar, show n < 10 by omega, if_true]
      omega

theorem number_snoc (ds : List Nat) (d : Nat) : number (ds ++ [d]) = 10 * number ds + (d - 48) := by
  simp [number]

theorem number_dig (n : Nat) : number (dig n) = n := by
  induction n using Nat.strongRecOn with
  | ind n ih =>
    by_cases h : 10 ≤ n
    · rw [dig, digits_big (by omega) h, number_snoc, ih (n / 10) (by omega)]
      have : n % 10 < 10 := Nat.mod_lt _ (by omega)
      simp only [digitChar, this, if_true]
      omega
    · rw [dig, digits_small (by omega)]
      simp only [number, digitChar, show n < 10 by omega, if_true, List.foldl_cons, List.foldl_nil]
      omega

theorem dig_ne_nil (n : Nat) : dig n ≠ [] := by
  by_cases h : 10 ≤ n
  · rw [dig, digits_big (by omega) h]; simp
  · rw [dig, digits_small (by omega)]; simp

/-- Further parameters, each after a semicolon. -/
def tailJoin (ns : List Nat) : List Nat := ns.flatMap (fun n => 59 :: dig n)

/-- Parameters separated by semicolons. -/
def glue : List Nat → List Nat
  | [] => []
  | n :: ns => dig n ++ tailJoin ns

theorem tailJoin_append (a b : List Nat) : tailJoin (a ++ b) = tailJoin a ++ tailJoin b := by
  simp [tailJoin]

theorem glue_append {a : List Nat} (h : a ≠ []) (b : List Nat) : glue (a ++ b) = glue a ++ tailJoin b := by
  cases a with
  | nil => exact absurd rfl h
  | cons n ns => simp [glue, tailJoin_append]

theorem tailJoin_eq {a : List Nat} (h : a ≠ []) : tailJoin a = 59 :: glue a := by
  cases a with
  | nil => exact absurd rfl h
  | cons n ns => simp [glue, tailJoin]

theorem params_digits (cur ds rest : List Nat) (h : ∀ d ∈ ds, 48 ≤ d ∧ d ≤ 57) :
    params cur (ds ++ rest) = params (cur ++ ds) rest := by
  induction ds generalizing cur with
  | nil => simp
  | cons d ds ih =>
    have hd := h d (List.mem_cons_self)
    rw [List.cons_append, params, if_neg (by omega), ih _ (fun x hx => h x (List.mem_cons_of_mem _ hx))]
    simp

theorem params_tail (cur ns : List Nat) : params cur (tailJoin ns) = number cur :: ns := by
  induction ns generalizing cur with
  | nil => simp [tailJoin, params]
  | cons n ns ih =>
    show params cur (59 :: (dig n ++ tailJoin ns)) = _
    rw [params, if_pos rfl, params_digits _ _ _ (dig_range n), List.nil_append, ih, number_dig]

theorem params_glue {ns : List Nat} (h : ns ≠ []) : params [] (glue ns) = ns := by
  cases ns with
  | nil => exact absurd rfl h
  | cons n ns =>
    rw [glue, params_digits _ _ _ (dig_range n), List.nil_append, params_tail, number_dig]

theorem glue_range (ns : List Nat) : ∀ b ∈ glue ns, 48 ≤ b ∧ b ≤ 59 := by
  have ht : ∀ ns : List Nat, ∀ b ∈ tailJoin ns, 48 ≤ b ∧ b ≤ 59 := by
    intro ns b hb
    simp only [tailJoin, List.mem_flatMap, List.mem_cons] at hb
    obtain ⟨n, _, rfl | hb⟩ := hb
    · omega
    · have := dig_range n b hb; omega
  intro b hb
  cases ns with
  | nil => simp [glue] at hb
  | cons n ns =>
    rw [glue, List.mem_append] at hb
    rcases hb with hb | hb
    · have := dig_range n b hb; omega
    · exact ht ns b hb

/-! ## Streams in their default format -/

/-- A stream that formats numbers in decimal and pads nothing. -/
def Plain (f : Fmt) : Prop := f.base = 10 ∧ f.width = 0

theorem put_plain {s : Stream} (h : Plain s.fmt) (t : List Nat) :
    s.put t = { s with out := s.out ++ t } := by
  obtain ⟨o, b, w, f, l⟩ := s
  obtain ⟨rfl, rfl⟩ := h
  cases l <;> simp [Stream.put]

theorem putNum_plain {s : Stream} (h : Plain s.fmt) (n : Nat) :
    s.putNum n = { s with out := s.out ++ dig n } := by
  rw [Stream.putNum, put_plain h, h.1]

/-- The SGR code of a style. -/
def styleCode : Style → Nat
  | .default => 0
  | .bold => 1
  | .dim => 2
  | .italic => 3
  | .underline => 4
  | .blink => 5
  | .strike => 9

/-- The SGR codes of a colour. -/
def colorCodes (c : Color) : List Nat :=
  if c.color ≤ 7 then (if c.plane = .foreground then [30 + c.color] else [40 + c.color])
  else (if c.plane = .foreground then [38, 5, c.color] else [48, 5, c.color])

theorem colorCodes_ne (c : Color) : colorCodes c ≠ [] := by
  unfold colorCodes; split <;> split <;> simp

theorem streamStyle_plain {s : Stream} (h : Plain s.fmt) (x : Style) :
    streamStyle s x = { s with out := s.out ++ dig (styleCode x) } := by
  cases x <;> exact putNum_plain h _

theorem dig_small_color (k : Nat) (n : Nat) (hk : k = 3 ∨ k = 4) (h : n ≤ 7) :
    dig (10 * k + n) = [48 + k] ++ dig n := by
  rw [dig, digits_big (by omega) (by omega)]
  rw [show (10 * k + n) / 10 = k by omega, show (10 * k + n) % 10 = n by omega]
  rw [digits_small (by omega), dig, digits_small (by omega)]
  simp [digitChar, show k < 10 by omega]

theorem dig_lt {n : Nat} (h : n < 10) : dig n = [48 + n] := by
  rw [dig, digits_small (by omega)]; simp [digitChar, h]

theorem dig_38 : dig 38 = [51, 56] := by
  rw [dig, digits_big (by omega) (by omega), digits_small (by omega)]; rfl

theorem dig_48 : dig 48 = [52, 56] := by
  rw [dig, digits_big (by omega) (by omega), digits_small (by omega)]; rfl

theorem streamColor_plain {s : Stream} (h : Plain s.fmt) (c : Color) :
    streamColor s c = { s with out := s.out ++ glue (colorCodes c) } := by
  have key : ∀ t : List Nat, (s.put t).putNum c.color = { s with out := s.out ++ (t ++ dig c.color) } := by
    intro t
    rw [put_plain h, putNum_plain (by exact h)]
    simp
  unfold streamColor colorCodes
  by_cases h7 : c.color ≤ 7
  · by_cases hp : c.plane = .foreground
    · have := dig_small_color 3 c.color (Or.inl rfl) h7
      simp only [h7, hp, if_true, key, glue, tailJoin, List.flatMap_nil, List.append_nil]
      rw [this]
    · have := dig_small_color 4 c.color (Or.inr rfl) h7
      simp only [h7, hp, if_true, if_false, key, glue, tailJoin, List.flatMap_nil, List.append_nil]
      rw [this]
  · by_cases hp : c.plane = .foreground
    · simp only [h7, hp, if_true, if_false, key, glue, tailJoin, List.flatMap_nil, List.append_nil,
        List.flatMap_cons]
      rw [dig_38, dig_lt (n := 5) (by omega)]
      simp
    · simp only [h7, hp, if_false, key, glue, tailJoin, List.flatMap_nil, List.append_nil,
        List.flatMap_cons]
      rw [dig_48, dig_lt (n := 5) (by omega)]
      simp

/-- What is written for the codes `ns` when `first` says nothing was written before. -/
def sep (first : Bool) (ns : List Nat) : List Nat := if first then glue ns else tailJoin ns

theorem sep_cons (first : Bool) {a : List Nat} (h : a ≠ []) (b : List Nat) :
    sep first (a ++ b) = (if first then [] else [59]) ++ glue a ++ sep false b := by
  cases first
  · simp [sep, tailJoin_append, tailJoin_eq h]
  · simp [sep, glue_append h]

theorem applyStyles_plain {s : Stream} (h : Plain s.fmt) (first : Bool) (xs : List Style) :
    applyStyles s first xs = ({ s with out := s.out ++ sep first (xs.map styleCode) },
      first && xs.isEmpty) := by
  induction xs generalizing s first with
  | nil => cases first <;> simp [applyStyles, sep, glue, tailJoin]
  | cons x xs ih =>
    have h0 : (if first = true then s else s.put [59])
        = { s with out := s.out ++ (if first then [] else [59]) } := by
      cases first <;> simp [put_plain h]
    rw [applyStyles, h0, streamStyle_plain (by exact h), ih (by exact h)]
    have := sep_cons first (a := [styleCode x]) (by simp) (xs.map styleCode)
    simp only [List.singleton_append] at this
    simp only [List.map_cons, this]
    cases first <;> simp [glue, tailJoin]

theorem applyColors_plain {s : Stream} (h : Plain s.fmt) (first : Bool) (xs : List Color) :
    (applyColors s first xs).1 = { s with out := s.out ++ sep first (xs.flatMap colorCodes) } := by
  induction xs generalizing s first with
  | nil => cases first <;> simp [applyColors, sep, glue, tailJoin]
  | cons x xs ih =>
    have h0 : (if first = true then s else s.put [59])
        = { s with out := s.out ++ (if first then [] else [59]) } := by
      cases first <;> simp [put_plain h]
    rw [applyColors, h0, streamColor_plain (by exact h), ih (by exact h)]
    have := sep_cons first (colorCodes_ne x) (xs.flatMap colorCodes)
    simp only [List.flatMap_cons, this]
    simp

theorem applyBoth_plain {s : Stream} (h : Plain s.fmt) (ss : List Style) (cs : List Color) :
    applyStylesAndColors s ss cs = { s with out := (s.out ++ [27, 91]
      ++ glue (ss.map styleCode ++ cs.flatMap colorCodes) ++ [109]) } := by
  unfold applyStylesAndColors
  simp only []
  rw [put_plain h, applyStyles_plain (by exact h), applyColors_plain (by exact h), put_plain (by exact h)]
  cases ss with
  | nil => simp [sep, glue]
  | cons x xs =>
    simp only [sep, Bool.true_and, List.isEmpty_cons, if_true]
    rw [glue_append (by simp)]
    simp

/-- The final byte of a cursor movement. -/
def dirByte : Direction → Nat
  | .up => 65
  | .down => 66
  | .forward => 67
  | .backward => 68

theorem streamCursor_plain {s : Stream} (h : Plain s.fmt) (c : Cursor) :
    streamCursor s c = { s with out := s.out ++ [27, 91] ++ dig c.distance ++ [dirByte c.direction] } := by
  have key : ∀ b : Nat, ((s.put [27, 91]).putNum c.distance).put [b]
      = { s with out := s.out ++ [27, 91] ++ dig c.distance ++ [b] } := by
    intro b
    rw [put_plain h, putNum_plain (by exact h), put_plain (by exact h)]
  unfold streamCursor
  cases hd : c.direction <;> exact key _

theorem applyCursors_plain {s : Stream} (h : Plain s.fmt) (cs : List Cursor) :
    applyCursors s cs = { s with out := (s.out
      ++ cs.flatMap (fun c => [27, 91] ++ dig c.distance ++ [dirByte c.direction])) } := by
  induction cs generalizing s with
  | nil => simp [applyCursors]
  | cons c cs ih =>
    rw [applyCursors, streamCursor_plain h, ih (by exact h)]
    simp

/-! ## The terminal -/

theorem display_append (t : Term) (a b : List Nat) : display t (a ++ b) = display (display t a) b := by
  simp [display]

theorem feed_csi (t : Term) (ps : List Nat) {b : Nat} (h : t.mode = .csi ps) (hb : 48 ≤ b ∧ b ≤ 59) :
    feed t b = { t with mode := .csi (ps ++ [b]) } := by
  unfold feed; simp only [h]; rw [if_pos hb]

theorem display_csi (t : Term) (ps bs : List Nat) (h : t.mode = .csi ps)
    (hb : ∀ b ∈ bs, 48 ≤ b ∧ b ≤ 59) : display t bs = { t with mode := .csi (ps ++ bs) } := by
  induction bs generalizing t ps with
  | nil => rw [List.append_nil, ← h]; rfl
  | cons b bs ih =>
    show display (feed t b) bs = _
    rw [feed_csi t ps h (hb b List.mem_cons_self), ih _ (ps ++ [b]) rfl
      (fun x hx => hb x (List.mem_cons_of_mem _ hx))]
    simp

/-- A control sequence with numeric parameters. -/
theorem display_seq (t : Term) (ns : List Nat) (f : Nat) (h : t.mode = .ground) :
    display t ([27, 91] ++ glue ns ++ [f]) = feed { t with mode := .csi (glue ns) } f := by
  rw [List.append_assoc, display_append, display_append]
  have h1 : display t [27, 91] = { t with mode := .csi [] } := by
    simp [display, feed, h]
  rw [h1, display_csi _ [] _ rfl (glue_range ns)]
  rfl

theorem display_sgr (t : Term) (ns : List Nat) (h : t.mode = .ground) (hn : ns ≠ []) :
    display t ([27, 91] ++ glue ns ++ [109]) = { t with attr := sgr t.attr ns } := by
  rw [display_seq t ns 109 h]
  have : t = { t with mode := .ground } := by rw [← h]
  rw [this]
  simp [feed, params_glue hn]

theorem display_move (t : Term) (n : Nat) (d : Direction) (h : t.mode = .ground) (hn : n ≠ 0) :
    display t ([27, 91] ++ dig n ++ [dirByte d]) = { t with moves := t.moves ++ [(d, n)] } := by
  have hg : dig n = glue [n] := by simp [glue, tailJoin]
  rw [hg, display_seq t [n] _ h]
  have ht : t = { t with mode := .ground } := by rw [← h]
  rw [ht]
  cases d <;> simp [feed, dirByte, distance, params_glue, hn]

theorem display_text (t : Term) (bs : List Nat) (h : t.mode = .ground) (hb : 27 ∉ bs) :
    display t bs = { t with shown := t.shown ++ bs.map (fun b => (b, t.attr)) } := by
  induction bs generalizing t with
  | nil => simp [display]
  | cons b bs ih =>
    simp only [List.mem_cons, not_or] at hb
    show display (feed t b) bs = _
    have : feed t b = { t with shown := t.shown ++ [(b, t.attr)] } := by
      unfold feed; simp only [h]; rw [if_neg (fun e => hb.1 e.symm)]
    rw [this, ih _ (by exact h) hb.2]
    simp

/-! ## What the codes mean -/

/-- The effect of one style. -/
def setStyle (a : Attr) : Style → Attr
  | .default => {}
  | .bold => { a with bold := true }
  | .dim => { a with dim := true }
  | .italic => { a with italic := true }
  | .underline => { a with underline := true }
  | .blink => { a with blink := true }
  | .strike => { a with strike := true }

/-- The effect of one colour. -/
def setColor (a : Attr) (c : Color) : Attr :=
  if c.plane = .foreground then { a with fg := some c.color } else { a with bg := some c.color }

theorem sgr_styles (a : Attr) (ss : List Style) (rest : List Nat) :
    sgr a (ss.map styleCode ++ rest) = sgr (ss.foldl setStyle a) rest := by
  induction ss generalizing a with
  | nil => rfl
  | cons x xs ih =>
    simp only [List.map_cons, List.cons_append, List.foldl_cons]
    rw [← ih]
    cases x <;> simp [styleCode, sgr, setStyle]

theorem sgr_colors (a : Attr) (cs : List Color) :
    sgr a (cs.flatMap colorCodes) = cs.foldl setColor a := by
  induction cs generalizing a with
  | nil => simp [sgr]
  | cons c cs ih =>
    simp only [List.flatMap_cons, List.foldl_cons]
    rw [← ih]
    unfold colorCodes setColor
    by_cases h7 : c.color ≤ 7
    · by_cases hp : c.plane = .foreground
      · simp only [h7, hp, if_true, List.singleton_append]
        rw [sgr.eq_3 _ _ _ (by intro _ h; omega) (by intro _ h; omega)]
        simp only [show ¬ (30 + c.color = 0) by omega, show ¬ (30 + c.color = 1) by omega,
          show ¬ (30 + c.color = 2) by omega, show ¬ (30 + c.color = 3) by omega,
          show ¬ (30 + c.color = 4) by omega, show ¬ (30 + c.color = 5) by omega,
          show ¬ (30 + c.color = 9) by omega, if_false]
        rw [if_pos (by omega), show 30 + c.color - 30 = c.color by omega]
      · simp only [h7, hp, if_true, if_false, List.singleton_append]
        rw [sgr.eq_3 _ _ _ (by intro _ h; omega) (by intro _ h; omega)]
        simp only [show ¬ (40 + c.color = 0) by omega, show ¬ (40 + c.color = 1) by omega,
          show ¬ (40 + c.color = 2) by omega, show ¬ (40 + c.color = 3) by omega,
          show ¬ (40 + c.color = 4) by omega, show ¬ (40 + c.color = 5) by omega,
          show ¬ (40 + c.color = 9) by omega, if_false]
        rw [if_neg (by omega), if_pos (by omega), show 40 + c.color - 40 = c.color by omega]
    · by_cases hp : c.plane = .foreground
      · simp only [h7, hp, if_true, if_false, List.cons_append, List.nil_append]
        rw [sgr]
      · simp only [h7, hp, if_false, List.cons_append, List.nil_append]
        rw [sgr]

/-! ## The constructor -/

/-- All colours asked for, in order. -/
def allColors (ms : List Modifier) : List Color :=
  ms.filterMap fun | .color c => some c | _ => none

theorem construct_eq (ms : List Modifier) : construct ms
    = { styles := styles ms, colors := allColors ms,
        cursors := (wantedMoves ms).map (fun p => ⟨p.1, p.2⟩) } := by
  induction ms with
  | nil => rfl
  | cons m ms ih =>
    rw [construct, ih]
    cases m with
    | style s => simp [setModifier, styles, allColors, wantedMoves]
    | color c => simp [setModifier, styles, allColors, wantedMoves]
    | cursor d n =>
      simp only [setModifier, styles, allColors, wantedMoves, List.filterMap_cons, List.map_cons, mkCursor]
      by_cases h : n > 0
      · simp only [h, if_true, show max n 1 = n by omega]
      · simp only [h, if_false, show max n 1 = 1 by omega]

theorem wantedMoves_pos (ms : List Modifier) : ∀ p ∈ wantedMoves ms, p.2 ≠ 0 := by
  intro p hp
  simp only [wantedMoves, List.mem_filterMap] at hp
  obtain ⟨m, _, h⟩ := hp
  cases m <;> simp at h
  rw [← h]; simp only; omega

/-! ## The look asked for -/

/-- The look of a list of styles alone. -/
def styleLook (ss : List Style) : Attr :=
  let f := fun s => (ss.reverse.takeWhile (· ≠ .default)).contains s
  { bold := f .bold, dim := f .dim, italic := f .italic, underline := f .underline
    blink := f .blink, strike := f .strike }

theorem list_snoc_induction {α : Type} {P : List α → Prop} (h0 : P [])
    (h1 : ∀ l a, P l → P (l ++ [a])) : ∀ l, P l := by
  have : ∀ l : List α, P l.reverse := by
    intro l
    induction l with
    | nil => exact h0
    | cons a l ih => rw [List.reverse_cons]; exact h1 _ _ ih
  intro l
  have := this l.reverse
  rwa [List.reverse_reverse] at this

theorem fold_styles (ss : List Style) : ss.foldl setStyle {} = styleLook ss := by
  induction ss using list_snoc_induction with
  | h0 => rfl
  | h1 ss s ih =>
    rw [List.foldl_append, ih]
    cases s <;> simp [styleLook, setStyle]

theorem fold_colors (a : Attr) (cs : List Color) : cs.foldl setColor a
    = { a with
        fg := (((cs.filter (fun c => c.plane = .foreground)).getLast?).map (·.color)).or a.fg
        bg := (((cs.filter (fun c => c.plane = .background)).getLast?).map (·.color)).or a.bg } := by
  induction cs using list_snoc_induction with
  | h0 => simp
  | h1 cs c ih =>
    rw [List.foldl_append, ih]
    obtain ⟨n, p⟩ := c
    cases p <;> simp [setColor, List.filter_append]

theorem colors_eq (p : Plane) (ms : List Modifier) :
    colors p ms = ((allColors ms).filter (fun c => c.plane = p)).map (·.color) := by
  induction ms with
  | nil => rfl
  | cons m ms ih =>
    cases m with
    | style s => simpa [colors, allColors] using ih
    | cursor d n => simpa [colors, allColors] using ih
    | color c =>
      by_cases h : c.plane = p
      · simp only [colors, allColors, List.filterMap_cons, h, if_true, List.filter_cons, decide_true,
          List.map_cons]
        congr 1
      · simp only [colors, allColors, List.filterMap_cons, h, if_false, List.filter_cons, decide_false,
          Bool.false_eq_true]
        exact ih

theorem look_eq (ms : List Modifier) :
    (allColors ms).foldl setColor ((styles ms).foldl setStyle {}) = wanted ms := by
  rw [fold_styles, fold_colors]
  simp only [wanted, colors_eq, List.getLast?_map]
  simp [styleLook, on]

end Verif.Styler
