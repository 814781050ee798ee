import Verif.Format.Loop
import Verif.Format.Values

/-!
# Properties of `format`: C24, C25, C26, C27, C77
-/

namespace Verif.Format

open Verif.Str (CharKind IsCharKind AsciiDigit numeral digitValue)

/-- The text the formatter appends for one field. -/
def fieldText (maxChar : Nat) (ps : List Param) (s : FSpec) : List Nat :=
  match ps[s.position]? with
  | some p => formatParam maxChar s ps p
  | .none => []

theorem formatLoop_eval {k : CharKind} (hk : IsCharKind k) {mc : Nat} {ps : List Param} {ts : List PType}
    (segs : List Seg) : ∀ (fuel : Nat) (ss : List FSpec), Wf k segs → Mean k ts (fieldsOf segs) ss →
      (render segs).length < fuel →
      formatLoop mc ps fuel ss (render segs) = some (output segs (ss.map (fieldText mc ps))) := by
  induction segs with
  | nil =>
    intro fuel ss _ _ hf
    cases fuel with
    | zero => omega
    | succ fuel => rfl
  | cons sg segs ih =>
    intro fuel ss w m hf
    cases fuel with
    | zero => omega
    | succ fuel =>
      cases sg with
      | chr c =>
        obtain ⟨w1, w2, w⟩ := w
        have hf' : (render segs).length < fuel := by
          have : render (.chr c :: segs) = c :: render segs := rfl
          rw [this] at hf; simp only [List.length_cons] at hf; omega
        show formatLoop mc ps (fuel + 1) ss (c :: render segs) = _
        unfold formatLoop
        rw [if_neg w1, if_neg w2, ih fuel ss w m hf']
        rfl
      | lbrace =>
        have hf' : (render segs).length < fuel := by
          have : render (.lbrace :: segs) = 0x7b :: 0x7b :: render segs := rfl
          rw [this] at hf; simp only [List.length_cons] at hf; omega
        show formatLoop mc ps (fuel + 1) ss (0x7b :: 0x7b :: render segs) = _
        unfold formatLoop
        rw [if_pos rfl]
        simp only
        rw [if_pos trivial, ih fuel ss w m hf']
        rfl
      | rbrace =>
        have hf' : (render segs).length < fuel := by
          have : render (.rbrace :: segs) = 0x7d :: 0x7d :: render segs := rfl
          rw [this] at hf; simp only [List.length_cons] at hf; omega
        show formatLoop mc ps (fuel + 1) ss (0x7d :: 0x7d :: render segs) = _
        unfold formatLoop
        rw [if_neg (by decide), if_pos rfl]
        show Option.map _ (formatLoop mc ps fuel ss (render segs)) = _
        rw [ih fuel ss w m hf']
        rfl
      | field f =>
        obtain ⟨wf, nc, w⟩ := w
        have hr : render (.field f :: segs) = 0x7b :: (f.body ++ render segs) := rfl
        have hf' : (render segs).length < fuel := by
          rw [hr] at hf; simp only [List.length_cons, List.length_append] at hf; omega
        have hfs : fieldsOf (Seg.field f :: segs) = f :: fieldsOf segs := rfl
        rw [hfs] at m
        cases m with
        | cons fm m =>
          rename_i s ss
          obtain ⟨t, ht, _, _, hz⟩ := fm
          rw [hr]
          unfold formatLoop
          rw [if_pos rfl]
          have hb := body_first hk wf (render segs)
          cases hbr : f.body ++ render segs with
          | nil => 
            have := congrArg List.length hbr
            simp [Field.body] at this
          | cons x r' =>
            rw [hbr] at hb
            simp only
            rw [if_neg (by simpa using hb)]
            have hd : (0x7b :: x :: r').drop s.size = render segs := by
              rw [← hbr, hz]
              simp
            rw [hd, ih fuel ss w m hf']
            rfl

theorem formatAsCharacter_padded (mc : Nat) (s : FSpec) (ps : List Param) (v : Nat) (h : v ≤ mc) :
    Padded (s.fill.getD 0x20) (s.align.or .right) (s.widthOf ps 0) [v]
      (formatAsCharacter mc s ps v false) := by
  unfold formatAsCharacter
  rw [if_neg (by simp; omega)]
  generalize s.widthOf ps 0 = w
  simp only
  generalize hpad : (if w > 1 then w - 1 else 0) = pad
  have hpw : pad = w - 1 := by split at hpad <;> omega
  cases hal : s.align with
  | left => exact ⟨0, pad, by simp [padding], by simp; omega, by simp, by simp [Alignment.or], by simp [Alignment.or]⟩
  | default => exact ⟨pad, 0, by simp [padding], by simp; omega, by simp [Alignment.or], by simp, by simp [Alignment.or]⟩
  | right => exact ⟨pad, 0, by simp [padding], by simp; omega, by simp [Alignment.or], by simp, by simp [Alignment.or]⟩
  | center =>
    obtain ⟨q1, q2, q3⟩ := center_split pad (pad / 2) _ rfl rfl
    exact ⟨pad / 2, if pad % 2 = 0 then pad / 2 else pad / 2 + 1, by simp [padding], by simp; omega,
      by simp [Alignment.or], by simp [Alignment.or], fun _ => ⟨q2, q3⟩⟩

theorem padded_precision {s : FSpec} {ps : List Param} {v : List Nat} :
    Padded (s.fill.getD 0x20) (s.align.or .left) (s.widthOf ps 0) (v.take (s.precisionOf ps (2 ^ 64 - 1)))
      (formatString s ps v) := formatStringWith_padded id s ps v

theorem base_of_allowed {kd : Kind} {t : PType} (ht : t = .character ∨ t = .integral ∨ t = .boolean)
    (h : kd ∈ kindsFor t) (hc : kd ≠ .character) (hs : kd ≠ .string) : ∃ b, kd.Base b := by
  rcases ht with rfl | rfl | rfl <;> cases kd <;> simp [kindsFor] at h hc hs <;>
    exact ⟨_, rfl⟩

theorem formatParam_shows {mc : Nat} {ps : List Param} {s : FSpec} {p : Param} {ts : List PType}
    (hp : ps[s.position]? = some p) (ok : p.Ok) (hm : 1 ≤ mc) (v : Valid ts p.type s) :
    ShowsParam mc ps s p (formatParam mc s ps p) := by
  cases p with
  | str u => exact padded_precision
  | foreign src dst u => exact formatStringWith_padded (fun v => (Verif.Unicode.convert src dst v).getD []) s ps u
  | float f => trivial
  | ptr a =>
    show ShowsNumber _ _ _ _ (formatUnsigned mc { s with alt := true, kind := .hex } ps a false)
    have := formatUnsigned_shows (maxChar := mc) (s := { s with alt := true, kind := .hex }) (ps := ps)
      (b := 16) rfl a false
    exact this
  | bool b =>
    show ShowsParam mc ps s (.bool b) (if s.kind = .string then formatString s ps (if b then trueText else falseText)
      else formatUnsigned mc s ps (if b then 1 else 0) false)
    unfold ShowsParam
    simp only
    by_cases h1 : s.kind = .string
    · rw [if_pos h1, if_pos h1]; exact padded_precision
    · rw [if_neg h1, if_neg h1]
      by_cases h2 : s.kind = .character
      · rw [if_pos h2]
        unfold formatUnsigned
        rw [if_pos h2]
        exact formatAsCharacter_padded mc s ps _ (by split <;> omega)
      · rw [if_neg h2]
        obtain ⟨b', hb⟩ := base_of_allowed (.inr (.inr rfl)) v.kind h2 h1
        exact formatUnsigned_shows hb _ _
  | int c sg bits repr =>
    obtain ⟨ok1, ok2⟩ := ok
    show ShowsParam mc ps s (.int c sg bits repr) (formatInteger mc s ps sg bits repr)
    unfold ShowsParam
    simp only
    by_cases h2 : s.kind = .character
    · rw [if_pos h2]
      -- the value and the sign
      have key : formatInteger mc s ps sg bits repr =
          formatAsCharacter mc s ps (intValue sg bits repr).natAbs (decide (intValue sg bits repr < 0)) := by
        unfold formatInteger
        cases sg with
        | true =>
          obtain ⟨q1, q2⟩ := absolute ok1 ok2
          simp only [if_true]
          rw [q1, q2]
          unfold formatUnsigned
          rw [if_pos h2]
        | false =>
          have e : intValue false bits repr = (repr : Int) := by simp [intValue]
          rw [e]
          simp only [Bool.false_eq_true, if_false, Int.natAbs_natCast]
          have : decide ((repr : Int) < 0) = false := by simp
          rw [this]
          unfold formatUnsigned
          rw [if_pos h2]
      rw [key]
      generalize intValue sg bits repr = i
      by_cases hi : 0 ≤ i ∧ i ≤ mc
      · rw [if_pos hi]
        have e1 : decide (i < 0) = false := by simp; omega
        have e2 : i.toNat = i.natAbs := by omega
        rw [e1, e2]
        exact formatAsCharacter_padded mc s ps _ (by omega)
      · rw [if_neg hi]
        unfold formatAsCharacter
        rw [if_pos]
        rw [decide_eq_true_eq]
        omega
    · rw [if_neg h2]
      have h1 : s.kind ≠ .string := by
        intro e
        have := v.kind
        rw [e] at this
        cases c <;> simp [Param.type, kindsFor] at this
      obtain ⟨b', hb⟩ := base_of_allowed (t := (Param.int c sg bits repr).type)
        (by cases c <;> simp [Param.type]) v.kind h2 h1
      exact formatInteger_shows hb ok1 ok2

theorem showsAll {k : CharKind} {mc : Nat} {ps : List Param} (hm : 1 ≤ mc) (ok : ∀ p ∈ ps, p.Ok) {fs : List Field}
    {ss : List FSpec} (m : Mean k (ps.map Param.type) fs ss) :
    ShowsAll mc ps ss (ss.map (fieldText mc ps)) := by
  induction m with
  | nil => exact .nil
  | cons fm m ih =>
    rename_i f s fs ss
    obtain ⟨t, ht, _, v, _⟩ := fm
    rw [List.getElem?_map] at ht
    cases hp : ps[s.position]? with
    | none => rw [hp] at ht; cases ht
    | some p =>
      rw [hp] at ht
      cases ht
      have hmem : p ∈ ps := List.mem_of_getElem? hp
      refine .cons hp ?_ ih
      unfold fieldText
      rw [hp]
      exact formatParam_shows hp (ok p hmem) hm v

theorem maxCharOf_eq {k : CharKind} (hk : IsCharKind k) : maxCharOf k = largestChar k := by
  cases hk <;> decide

theorem maxChar_pos {k : CharKind} (hk : IsCharKind k) : 1 ≤ maxCharOf k := by
  cases hk <;> decide

/-! ## C24 -/

/-- A format string is accepted exactly if it is the rendering of literal characters, escaped braces and
replacement fields that have a meaning for the parameters; the output is the literal characters, single
braces, and the texts of the fields, in order. (Well-formed trees exclude `{:}` before an alignment
character, see `confused_field_violated`.) -/
theorem format_text_partial {k : CharKind} (hk : IsCharKind k) {fmt : List Nat} {ps : List Param}
    (ok : ∀ p ∈ ps, p.Ok) (t : List Nat) (h : format k fmt ps = .text t) :
    ∃ segs ss texts, Wf k segs ∧ render segs = fmt ∧ Denotes k (ps.map Param.type) (fieldsOf segs) ss ∧
      ShowsAll (largestChar k) ps ss texts ∧ t = output segs texts := by
  rw [← maxCharOf_eq hk]
  unfold format at h
  cases hp : parseFormat k (ps.map Param.type) fmt with
  | error e => rw [hp] at h; cases h
  | ok ss =>
    rw [hp] at h
    simp only at h
    obtain ⟨segs, w, e, d⟩ := (parseFormat_iff hk).1 hp
    subst e
    rw [formatLoop_eval hk segs _ ss w d.each (by omega)] at h
    cases h
    exact ⟨segs, ss, _, w, rfl, d, showsAll (maxChar_pos hk) ok d.each, rfl⟩

theorem format_accepts_partial {k : CharKind} (hk : IsCharKind k) {segs : List Seg} {ps : List Param}
    (ok : ∀ p ∈ ps, p.Ok) (w : Wf k segs) {ss : List FSpec}
    (d : Denotes k (ps.map Param.type) (fieldsOf segs) ss) :
    ∃ texts, ShowsAll (largestChar k) ps ss texts ∧ format k (render segs) ps = .text (output segs texts) := by
  rw [← maxCharOf_eq hk]
  refine ⟨ss.map (fieldText (maxCharOf k) ps), showsAll (maxChar_pos hk) ok d.each, ?_⟩
  unfold format
  rw [(parseFormat_iff hk).2 ⟨segs, w, rfl, d⟩]
  simp only
  rw [formatLoop_eval hk segs _ ss w d.each (by omega)]

/-- Formatting has no undefined behaviour: an accepted string is walked within its bounds and its list of
fields. -/
theorem format_never_ub {k : CharKind} (hk : IsCharKind k) (fmt : List Nat) (ps : List Param) :
    format k fmt ps ≠ .ub := by
  intro h
  unfold format at h
  cases hp : parseFormat k (ps.map Param.type) fmt with
  | error e => rw [hp] at h; cases h
  | ok ss =>
    rw [hp] at h
    simp only at h
    obtain ⟨segs, w, e, d⟩ := (parseFormat_iff hk).1 hp
    subst e
    rw [formatLoop_eval hk segs _ ss w d.each (by omega)] at h
    cases h

/-- Text with doubled braces. -/
def escape (t : List Nat) : List Nat :=
  t.flatMap (fun c => if c = 0x7b ∨ c = 0x7d then [c, c] else [c])

/-- Escaped text is printed as the text, whatever the parameters. -/
theorem format_escaped {k : CharKind} (hk : IsCharKind k) (t : List Nat) (ps : List Param) :
    format k (escape t) ps = .text t := by
  let seg : Nat → Seg := fun c => if c = 0x7b then .lbrace else if c = 0x7d then .rbrace else .chr c
  have hr : render (t.map seg) = escape t := by
    unfold render escape
    rw [List.flatMap_map]
    congr 1
    funext c
    simp only [seg]
    by_cases h : c = 0x7b
    · subst h; rfl
    · by_cases h2 : c = 0x7d
      · subst h2; rfl
      · simp [h, h2, Seg.text]
  have hw : Wf k (t.map seg) := by
    clear hr
    induction t with
    | nil => trivial
    | cons c t ih =>
      simp only [List.map_cons, seg]
      by_cases h : c = 0x7b
      · rw [if_pos h]; exact ih
      · rw [if_neg h]
        by_cases h2 : c = 0x7d
        · rw [if_pos h2]; exact ih
        · rw [if_neg h2]; exact ⟨h, h2, ih⟩
  have hf : fieldsOf (t.map seg) = [] := by
    clear hr hw
    induction t with
    | nil => rfl
    | cons c t ih =>
      unfold fieldsOf at ih ⊢
      rw [List.map_cons, List.filterMap_cons, ih]
      simp only [seg]
      by_cases h : c = 0x7b
      · rw [if_pos h]
      · rw [if_neg h]
        by_cases h2 : c = 0x7d
        · rw [if_pos h2]
        · rw [if_neg h2]
  have ho : ∀ texts, output (t.map seg) texts = t := by
    intro texts
    clear hr hw hf
    induction t with
    | nil => rfl
    | cons c t ih =>
      simp only [List.map_cons, seg]
      by_cases h : c = 0x7b
      · rw [if_pos h, h]; show 0x7b :: output _ texts = _; rw [ih]
      · rw [if_neg h]
        by_cases h2 : c = 0x7d
        · rw [if_pos h2, h2]; show 0x7d :: output _ texts = _; rw [ih]
        · rw [if_neg h2]; show c :: output _ texts = _; rw [ih]
  have hd : Denotes k (ps.map Param.type) (fieldsOf (t.map seg)) [] := by
    rw [hf]
    exact ⟨by simp, .nil, .inl ⟨by simp, rfl⟩⟩
  unfold format
  rw [← hr, (parseFormat_iff hk).2 ⟨_, hw, rfl, hd⟩]
  simp only
  rw [formatLoop_eval hk _ _ _ hw hd.each (by omega), ho]

/-- Unmatched braces are rejected. -/
example : (format ⟨8, true⟩ [0x7b] [], format ⟨8, true⟩ [0x7d] [], format ⟨8, true⟩ [0x61, 0x7b, 0x30] [.bool true]) =
    (.invalid "Detected unclosed replacement field - must end with }", .invalid "Closing brace } must be escaped",
     .invalid "Detected unclosed replacement field - must end with }") := by decide +kernel

/-- `a{{{0:>5}}}`: literal text, a brace, a field and a brace. -/
example : format ⟨8, true⟩ [0x61, 0x7b, 0x7b, 0x7b, 0x30, 0x3a, 0x3e, 0x35, 0x7d, 0x7d, 0x7d]
    [.int false true 32 (2 ^ 32 - 42)] = .text [0x61, 0x7b, 0x20, 0x20, 0x2d, 0x34, 0x32, 0x7d] := by decide +kernel

/-- C24 does not hold in general: the valid field `{:}` is rejected if an alignment character follows it
(format_specifier.hpp 534 looks one character past the field). -/
theorem confused_field_violated :
    (∃ t, format ⟨8, true⟩ [0x7b, 0x3a, 0x7d, 0x61] [.bool true] = .text t) ∧
    (∃ t, format ⟨8, true⟩ [0x7b, 0x7d, 0x3c] [.bool true] = .text t) ∧
    (∃ m, format ⟨8, true⟩ [0x7b, 0x3a, 0x7d, 0x3c] [.bool true] = .invalid m) :=
  ⟨⟨[0x74, 0x72, 0x75, 0x65, 0x61], by decide +kernel⟩, ⟨[0x74, 0x72, 0x75, 0x65, 0x3c], by decide +kernel⟩,
   ⟨"Characters { and } are not allowed as fill characters", by decide +kernel⟩⟩

/-! ## C25 -/

theorem numVal_numeral {k : CharKind} (hk : IsCharKind k) {ds : List Nat} (h : ∀ d ∈ ds, AsciiDigit d) :
    numVal k ds = numeral 10 ds % 2 ^ 64 := by
  have hd : ∀ d, AsciiDigit d → k.digitOf d = digitValue d := by
    intro d hd
    have h1 : d < 58 := by unfold AsciiDigit at hd; omega
    have h2 : 48 ≤ d := hd.1
    clear hd h
    cases hk <;> (revert d; decide)
  unfold numVal numeral
  have key : ∀ (ds : List Nat) (a b : Nat), (∀ d ∈ ds, AsciiDigit d) → a = b % 2 ^ 64 →
      ds.foldl (fun n d => (n * 10 + k.digitOf d) % 2 ^ 64) a =
        ds.foldl (fun a u => a * 10 + digitValue u) b % 2 ^ 64 := by
    intro ds
    induction ds with
    | nil => intro a b _ e; exact e
    | cons d ds ih =>
      intro a b h e
      simp only [List.foldl_cons]
      apply ih _ _ (fun x hx => h x (by simp [hx]))
      rw [hd d (h d (by simp)), e]
      omega
  exact key ds 0 0 h rfl

/-- The references of an accepted format string are in range; they are all automatic and then count up
from 0, or all explicit, and then (below 2^64) they are the numbers written. -/
theorem format_positions_partial {k : CharKind} (hk : IsCharKind k) {ts : List PType} {fmt : List Nat}
    {ss : List FSpec} (h : parseFormat k ts fmt = .ok ss) :
    (∀ p ∈ ss.flatMap FSpec.refs, p < ts.length) ∧
    ∃ segs : List Seg, Wf k segs ∧ render segs = fmt ∧
      (((∀ r ∈ (fieldsOf segs).flatMap Field.refs, r = []) ∧
          ss.flatMap FSpec.refs = List.range ((fieldsOf segs).flatMap Field.refs).length) ∨
       ((∀ r ∈ (fieldsOf segs).flatMap Field.refs, r ≠ []) ∧
          (ss.flatMap FSpec.refs).length = ((fieldsOf segs).flatMap Field.refs).length ∧
          ∀ (i : Nat) (ds : List Nat), ((fieldsOf segs).flatMap Field.refs)[i]? = some ds → (∀ d ∈ ds, AsciiDigit d) →
            numeral 10 ds < 2 ^ 64 → (ss.flatMap FSpec.refs)[i]? = some (numeral 10 ds))) := by
  obtain ⟨segs, w, e, d⟩ := (parseFormat_iff hk).1 h
  constructor
  · intro p hp
    rw [List.mem_flatMap] at hp
    obtain ⟨s, hs, hp⟩ := hp
    have hm : ∃ f, FieldMeans k ts f s := by
      have key : ∀ fs ss, Mean k ts fs ss → s ∈ ss → ∃ f, FieldMeans k ts f s := by
        intro fs ss m
        induction m with
        | nil => intro h; cases h
        | cons a b ih =>
          intro h
          rcases List.mem_cons.1 h with rfl | h
          · exact ⟨_, a⟩
          · exact ih h
      exact key _ _ d.each hs
    obtain ⟨f, t, ht, _, v, _⟩ := hm
    have lt : ∀ {q : Nat} {x : PType}, ts[q]? = some x → q < ts.length := by
      intro q x hq
      exact (List.getElem?_eq_some_iff.1 hq).1
    simp only [FSpec.refs, List.mem_cons, List.mem_append, Option.mem_toList] at hp
    rcases hp with rfl | hp | hp
    · exact lt ht
    · exact lt (v.widthPos p hp)
    · exact lt (v.precPos p hp)
  · refine ⟨segs, w, e, ?_⟩
    rcases d.positions with hp | ⟨h1, h2⟩
    · exact .inl hp
    · refine .inr ⟨h1, by rw [h2, List.length_map], ?_⟩
      intro i ds hi ha hn
      rw [h2, List.getElem?_map, hi]
      simp only [Option.map_some, Option.some.injEq]
      rw [numVal_numeral hk ha, Nat.mod_eq_of_lt hn]

/-- `{} {}`, `{1} {0}`, and both mixed. -/
example : (format ⟨8, true⟩ [0x7b, 0x7d, 0x20, 0x7b, 0x7d] [.str [0x61], .str [0x62]],
    format ⟨8, true⟩ [0x7b, 0x31, 0x7d, 0x20, 0x7b, 0x30, 0x7d] [.str [0x61], .str [0x62]],
    format ⟨8, true⟩ [0x7b, 0x31, 0x7d, 0x20, 0x7b, 0x7d] [.str [0x61], .str [0x62]],
    format ⟨8, true⟩ [0x7b, 0x32, 0x7d] [.str [0x61], .str [0x62]]) =
    (.text [0x61, 0x20, 0x62], .text [0x62, 0x20, 0x61],
     .invalid "Argument position must be provided on all or not on any specifier",
     .invalid "Argument position exceeds number of provided arguments") := by decide +kernel

/-- C25 does not hold in general: positions are reduced modulo 2^64, so `{18446744073709551616}` is
accepted and names parameter 0. -/
theorem position_overflow_violated :
    ∃ ds : List Nat, (∀ d ∈ ds, AsciiDigit d) ∧ numeral 10 ds = 2 ^ 64 ∧
      format ⟨8, true⟩ (0x7b :: (ds ++ [0x7d])) [.str [0x61]] = .text [0x61] :=
  ⟨[49, 56, 52, 52, 54, 55, 52, 52, 48, 55, 51, 55, 48, 57, 53, 53, 49, 54, 49, 54],
    by decide, by decide +kernel, by decide +kernel⟩

/-! ## C26 -/

/-- An integer (not shown as a character) is shown as its sign, prefix and the digits of its absolute
value, padded to the width. -/
theorem format_integer {maxChar : Nat} {s : FSpec} {ps : List Param} {b : Nat} (h : s.kind.Base b)
    {signed : Bool} {bits repr : Nat} (hb : 0 < bits) (hr : repr < 2 ^ bits) :
    ShowsNumber s (s.widthOf ps 0) (intValue signed bits repr).natAbs (decide (intValue signed bits repr < 0))
      (formatInteger maxChar s ps signed bits repr) := formatInteger_shows h hb hr

/-- The width is the number in the field, or the value of the parameter it names (none if negative). -/
theorem width_is {ps : List Param} {s : FSpec} :
    (∀ w, s.widthPos = none → s.width = some w → s.widthOf ps 0 = w) ∧
    (s.widthPos = none → s.width = none → s.widthOf ps 0 = 0) ∧
    (∀ p c sg bits repr, s.widthPos = some p → ps[p]? = some (.int c sg bits repr) → 0 < bits →
      repr < 2 ^ bits → s.widthOf ps 0 = (intValue sg bits repr).toNat) := by
  refine ⟨?_, ?_, ?_⟩
  · intro w h1 h2; unfold FSpec.widthOf; rw [h1, h2]; rfl
  · intro h1 h2; unfold FSpec.widthOf; rw [h1, h2]; rfl
  · intro p c sg bits repr h1 h2 h3 h4
    unfold FSpec.widthOf resolve intValue
    rw [h1]
    simp only
    rw [h2]
    simp only
    obtain ⟨n, rfl⟩ : ∃ n, bits = n + 1 := ⟨bits - 1, by omega⟩
    have hp : 2 ^ (n + 1) = 2 * 2 ^ n := by rw [Nat.pow_succ, Nat.mul_comm]
    have hcast : ((2 ^ (n + 1) : Nat) : Int) = (2 : Int) ^ (n + 1) := by simp
    simp only [Nat.add_sub_cancel]
    cases sg with
    | false => simp
    | true =>
      simp only [if_true, true_and]
      by_cases h : repr < 2 ^ n
      · rw [if_pos h, if_neg (by omega)]; simp
      · rw [if_neg h, if_pos (by omega)]
        simp only [Option.getD_none]
        omega

/-- `{:+#010x}` of 48879, `{:*^8d}` of the smallest 8-bit integer, `{:#B}` of 5. -/
example : (format ⟨8, true⟩ [0x7b, 0x3a, 0x2b, 0x23, 0x30, 0x31, 0x30, 0x78, 0x7d] [.int false true 32 48879],
    format ⟨8, true⟩ [0x7b, 0x3a, 0x2a, 0x5e, 0x38, 0x64, 0x7d] [.int false true 8 0x80],
    format ⟨8, true⟩ [0x7b, 0x3a, 0x23, 0x42, 0x7d] [.int false false 16 5]) =
    (.text [0x2b, 0x30, 0x78, 0x30, 0x30, 0x30, 0x62, 0x65, 0x65, 0x66],
     .text [0x2a, 0x2a, 0x2d, 0x31, 0x32, 0x38, 0x2a, 0x2a], .text [0x30, 0x42, 0x31, 0x30, 0x31]) := by
  decide +kernel

/-! ## C27 -/

/-- A string of the character type of the format string is cut to the precision and padded to the
width. -/
theorem format_string_partial (s : FSpec) (ps : List Param) (v : List Nat) :
    Padded (s.fill.getD 0x20) (s.align.or .left) (s.widthOf ps 0)
      (v.take (s.precisionOf ps (2 ^ 64 - 1))) (formatString s ps v) ∧
    (formatString s ps v).length = max (s.widthOf ps 0) (min (s.precisionOf ps (2 ^ 64 - 1)) v.length) := by
  have h : Padded (s.fill.getD 0x20) (s.align.or .left) (s.widthOf ps 0)
      (v.take (s.precisionOf ps (2 ^ 64 - 1))) (formatString s ps v) := formatStringWith_padded id s ps v
  refine ⟨h, ?_⟩
  obtain ⟨l, r, e, hn, _⟩ := h
  rw [e]
  simp only [List.length_append, List.length_replicate, List.length_take] at hn ⊢
  omega

/-- The precision is the number in the field or the value of the parameter it names. -/
theorem precision_is {ps : List Param} {s : FSpec} {d : Nat} :
    (∀ w, s.precPos = none → s.prec = some w → s.precisionOf ps d = w) ∧
    (s.precPos = none → s.prec = none → s.precisionOf ps d = d) ∧
    (∀ p c sg bits repr, s.precPos = some p → ps[p]? = some (.int c sg bits repr) → 0 < bits →
      repr < 2 ^ bits → 0 ≤ intValue sg bits repr → s.precisionOf ps d = (intValue sg bits repr).toNat) := by
  refine ⟨?_, ?_, ?_⟩
  · intro w h1 h2; unfold FSpec.precisionOf; rw [h1, h2]; rfl
  · intro h1 h2; unfold FSpec.precisionOf; rw [h1, h2]; rfl
  · intro p c sg bits repr h1 h2 h3 h4
    unfold FSpec.precisionOf resolve intValue
    rw [h1]
    simp only
    rw [h2]
    simp only
    obtain ⟨n, rfl⟩ : ∃ n, bits = n + 1 := ⟨bits - 1, by omega⟩
    have hp : 2 ^ (n + 1) = 2 * 2 ^ n := by rw [Nat.pow_succ, Nat.mul_comm]
    have hcast : ((2 ^ (n + 1) : Nat) : Int) = (2 : Int) ^ (n + 1) := by simp
    simp only [Nat.add_sub_cancel]
    cases sg with
    | false => simp
    | true =>
      simp only [if_true, true_and]
      by_cases h : repr < 2 ^ n
      · rw [if_pos h, if_neg (by omega)]; simp
      · rw [if_neg h, if_pos (by omega)]
        intro h5
        omega

/-- `{:-^7.3}` of `hello`. -/
example : format ⟨8, true⟩ [0x7b, 0x3a, 0x2d, 0x5e, 0x37, 0x2e, 0x33, 0x7d]
    [.str [0x68, 0x65, 0x6c, 0x6c, 0x6f]] = .text [0x2d, 0x2d, 0x68, 0x65, 0x6c, 0x2d, 0x2d] := by decide +kernel

/-- C27 does not hold for strings of another character type: `{:2}` in a UTF-16 format string with the UTF-8
string `é` has one unit, not two, because the width counts the units before transcoding. -/
theorem foreign_width_violated :
    ∃ u : List Nat, ∃ e, Verif.Unicode.convert (.utf8 true) .utf16 u = some e ∧ e.length = 1 ∧
      format ⟨16, false⟩ [0x7b, 0x3a, 0x32, 0x7d] [.foreign (.utf8 true) .utf16 u] = .text e :=
  ⟨[0xc3, 0xa9], [0xe9], by decide +kernel, by decide, by decide +kernel⟩

/-! ## C77 -/

theorem toInt32_eq (n : Nat) : toInt32 n = Int.bmod n (2 ^ 32) := by
  unfold toInt32
  simp only [Int.bmod]
  split <;> split <;> omega

theorem toInt32_precision (s : FSpec) (ps : List Param) : toInt32 (s.precisionOf ps 6) = s.intPrecision ps :=
  toInt32_eq _

/-- A floating-point value whose digits fit the buffer is shown, without the alternate form, as its sign
and the text of `std::to_chars` for the requested format and precision, padded to the width. -/
theorem format_float_partial (s : FSpec) (ps : List Param) (v : FloatVal) (ha : s.alt = false)
    (hfit : (v.text s.kind (s.intPrecision ps)).length ≤ v.bufferSize) :
    if s.zero ∧ s.align = .default then
      formatFloat s ps v = signText s v.negative ++
        List.replicate (s.widthOf ps 0 - (floatBody s ps v).length) 0x30 ++
        (floatBody s ps v).drop (signText s v.negative).length
    else Padded (s.fill.getD 0x20) (s.align.or .right) (s.widthOf ps 0) (floatBody s ps v) (formatFloat s ps v) := by
  have hsign : (if v.negative then [0x2d] else if s.sign = .always then [0x2b]
      else if s.sign = .positivePadding then [0x20] else []) = signText s v.negative := by
    unfold signText
    cases v.negative <;> cases s.sign <;> rfl
  have hsl : (if v.negative || s.sign = .always || s.sign = .positivePadding then 1 else 0) =
      (signText s v.negative).length := by
    unfold signText
    cases v.negative <;> cases s.sign <;> rfl
  have hconv : convertValue s v (s.intPrecision ps) =
      { digits := if s.upper then (v.text s.kind (s.intPrecision ps)).map (CharKind.toUpper ⟨8, true⟩)
          else v.text s.kind (s.intPrecision ps) } := by
    unfold convertValue
    simp only [ha, Bool.false_eq_true, if_false, if_pos hfit]
    cases s.upper <;> rfl
  unfold formatFloat
  rw [toInt32_precision]
  rw [hconv]
  simp only [hsign]
  rw [show (if v.negative || decide (s.sign = .always) || decide (s.sign = .positivePadding) then 1 else 0) =
      (signText s v.negative).length from hsl]
  unfold floatBody
  generalize signText s v.negative = sg
  generalize (if s.upper then (v.text s.kind (s.intPrecision ps)).map (CharKind.toUpper ⟨8, true⟩)
          else v.text s.kind (s.intPrecision ps)) = ds
  simp only [Bool.false_eq_true, if_false, List.append_nil, List.length_nil, Nat.add_zero, padding,
    List.replicate_zero]
  have hl : (sg ++ ds).length = sg.length + ds.length := List.length_append
  generalize hw : s.widthOf ps 0 = w
  generalize hpad : max (sg.length + ds.length) w - (sg.length + ds.length) = pad
  have hpw : pad = w - (sg ++ ds).length := by omega
  cases hal : s.align with
  | left =>
    simp only [reduceCtorEq, and_false, if_false]
    exact ⟨0, pad, by simp, by omega, by simp, by simp [Alignment.or], by simp [Alignment.or]⟩
  | right =>
    simp only [reduceCtorEq, and_false, if_false]
    exact ⟨pad, 0, by simp, by omega, by simp [Alignment.or], by simp, by simp [Alignment.or]⟩
  | center =>
    simp only [reduceCtorEq, and_false, if_false]
    obtain ⟨q1, q2, q3⟩ := center_split pad (pad / 2) _ rfl rfl
    exact ⟨pad / 2, if pad % 2 = 0 then pad / 2 else pad / 2 + 1, by simp, by omega,
      by simp [Alignment.or], by simp [Alignment.or], fun _ => ⟨q2, q3⟩⟩
  | default =>
    simp only [and_true]
    cases hz : s.zero with
    | true => simp only [if_true]; rw [← hpw]; simp
    | false =>
      simp only [Bool.false_eq_true, if_false]
      exact ⟨pad, 0, by simp, by omega, by simp [Alignment.or], by simp, by simp [Alignment.or]⟩

/-- C77 does not hold in general: the buffer for the digits has as many characters as the type has bits of
precision, and what it happens to hold is printed if the digits do not fit (formatters.hpp 777, 800-803):
a `double` of 10^60 in the fixed format needs 68 characters. -/
theorem float_buffer_violated (junk : List Nat) :
    ∃ v : FloatVal, v.bufferSize = 53 ∧ v.negative = false ∧
      v.text .fixed 6 = 0x31 :: (List.replicate 60 0x30 ++ [0x2e, 0x30, 0x30, 0x30, 0x30, 0x30, 0x30]) ∧
      formatFloat { kind := .fixed } [] v = junk := by
  refine ⟨⟨false, fun _ _ => 0x31 :: (List.replicate 60 0x30 ++ [0x2e, 0x30, 0x30, 0x30, 0x30, 0x30, 0x30]), 53,
    fun _ _ => junk⟩, rfl, rfl, rfl, ?_⟩
  unfold formatFloat convertValue
  simp [FSpec.widthOf, padding]

end Verif.Format
