import Verif.Format.Spec
import Verif.Str.Props

/-!
# The parsing stages of a replacement field

For each stage: what it does on a text that begins with the rendering of its part of the tree, and that
every text begins with some such rendering.
-/

namespace Verif.Format

open Verif.Str (CharKind IsCharKind)

theorem digit_ascii {k : CharKind} (hk : IsCharKind k) {c : Nat} (h : c < 0x80) :
    k.isDigit c = true ↔ 0x30 ≤ c ∧ c ≤ 0x39 := by
  have hw := Verif.Str.charKind_width hk
  have h2 : c < 2 ^ k.width := by
    have : 2 ^ 8 ≤ 2 ^ k.width := Nat.pow_le_pow_right (by omega) hw.1
    omega
  have := (Verif.Str.classify_digits k hk c h2).1
  rw [Verif.Str.neg_ascii hk h] at this
  simpa [Verif.Str.AsciiDigit] using this

theorem not_digit {k : CharKind} (hk : IsCharKind k) {c : Nat} (h : c < 0x30 ∨ (0x39 < c ∧ c < 0x80)) :
    k.isDigit c = false := by
  rw [Bool.eq_false_iff]
  intro hd
  have := (digit_ascii hk (by omega)).1 hd
  omega

/-- The next character is no digit. -/
def NoDigit (k : CharKind) (r : List Nat) : Prop := ∀ c, r.head? = some c → k.isDigit c = false

theorem takeWhile_digits {k : CharKind} {ds r : List Nat} (hd : Digits k ds) (hr : NoDigit k r) :
    (ds ++ r).takeWhile k.isDigit = ds ∧ (ds ++ r).dropWhile k.isDigit = r := by
  induction ds with
  | nil =>
    cases r with
    | nil => exact ⟨rfl, rfl⟩
    | cons c r =>
      have := hr c rfl
      simp [this]
  | cons d ds ih =>
    have h1 := hd d List.mem_cons_self
    have h2 := ih (fun x hx => hd x (List.mem_cons_of_mem _ hx))
    simp [h1, h2]

theorem split_digits (k : CharKind) (r : List Nat) :
    ∃ ds r', r = ds ++ r' ∧ Digits k ds ∧ NoDigit k r' := by
  refine ⟨r.takeWhile k.isDigit, r.dropWhile k.isDigit, (List.takeWhile_append_dropWhile).symm, ?_, ?_⟩
  · intro d hd; exact Verif.Str.mem_takeWhile_prop _ _ hd
  · intro c hc
    induction r with
    | nil => simp at hc
    | cons x r ih =>
      rw [List.dropWhile_cons] at hc
      split at hc
      · exact ih hc
      · rename_i h; simp at hc; subst hc; simpa using h

theorem consumeNumber_eval {k : CharKind} {c : Ctx} {ds r : List Nat} (e : c.rest = ds ++ r)
    (hd : Digits k ds) (hr : NoDigit k r) :
    c.consumeNumber k = if ds = [] then (.none, c) else (some (numVal k ds), { c with rest := r }) := by
  unfold Ctx.consumeNumber
  rw [e, (takeWhile_digits hd hr).1, (takeWhile_digits hd hr).2]

theorem consumeIf_pos {c : Ctx} {ch : Nat} {r : List Nat} (e : c.rest = ch :: r) :
    c.consumeIf ch = (true, { c with rest := r }) := by
  unfold Ctx.consumeIf; rw [e]; simp

theorem consumeIf_neg {c : Ctx} {ch : Nat} (h : c.rest.head? ≠ some ch) : c.consumeIf ch = (false, c) := by
  unfold Ctx.consumeIf
  split
  · rename_i x r e
    rw [e] at h
    simp at h
    rw [if_neg h]
  · rfl

/-! ## References to parameters -/

def mixedMessage : String := "Argument position must be provided on all or not on any specifier"
def rangeMessage : String := "Argument position exceeds number of provided arguments"

/-- The context after a reference `ds`. -/
def afterRef (c : Ctx) (ds r : List Nat) : Ctx :=
  { rest := r
    next := if ds = [] then c.next + 1 else c.next
    auto := c.auto || decide (ds = [])
    manual := c.manual || decide (ds ≠ [])
    err := if (c.manual || decide (ds ≠ [])) && (c.auto || decide (ds = [])) then some mixedMessage
      else c.err }

/-- The position a reference stands for. -/
def refPos (k : CharKind) (next : Nat) (ds : List Nat) : Nat := if ds = [] then next else numVal k ds

theorem nextPosition_eval {k : CharKind} {c : Ctx} {ds r : List Nat} (e : c.rest = ds ++ r)
    (hd : Digits k ds) (hr : NoDigit k r) :
    c.nextPosition k = (refPos k c.next ds, afterRef c ds r) := by
  unfold Ctx.nextPosition
  rw [consumeNumber_eval e hd hr]
  by_cases h : ds = []
  · subst h
    have er : c.rest = r := by simpa using e
    subst er
    cases hm : c.manual <;> cases ha : c.auto <;>
      simp [refPos, afterRef, Ctx.errorIf, Ctx.onError, hm, ha, mixedMessage]
  · cases hm : c.manual <;> cases ha : c.auto <;>
      simp [refPos, afterRef, Ctx.errorIf, Ctx.onError, hm, ha, mixedMessage, h]

theorem parameterType_some {ts : List PType} {c : Ctx} {p : Nat} {t : PType} (h : ts[p]? = some t) :
    c.parameterType ts p = (some t, c) := by
  unfold Ctx.parameterType; rw [h]

theorem parameterType_none {ts : List PType} {c : Ctx} {p : Nat} (h : ts[p]? = none) :
    c.parameterType ts p = (none, c.onError rangeMessage) := by
  unfold Ctx.parameterType; rw [h]; rfl

/-! ## Errors are kept -/

theorem errorIf_none {c : Ctx} {b : Bool} {m : String} : (c.errorIf b m).err = none ↔ b = false ∧ c.err = none := by
  unfold Ctx.errorIf
  cases b <;> simp [Ctx.onError]

theorem errorIf_false {c : Ctx} {m : String} : c.errorIf false m = c := rfl

theorem consumeIf_err (c : Ctx) (ch : Nat) : (c.consumeIf ch).2.err = c.err := by
  unfold Ctx.consumeIf
  split
  · split <;> rfl
  · rfl

theorem afterRef_err {c : Ctx} {ds r : List Nat} (h : (afterRef c ds r).err = none) : c.err = none := by
  unfold afterRef at h
  simp only at h
  split at h
  · cases h
  · exact h

/-- Not automatic and explicit references. -/
def Unmixed (c : Ctx) (ds : List Nat) : Prop :=
  ((c.manual || decide (ds ≠ [])) && (c.auto || decide (ds = []))) = false

theorem afterRef_none {c : Ctx} {ds r : List Nat} :
    (afterRef c ds r).err = none ↔ Unmixed c ds ∧ c.err = none := by
  unfold afterRef Unmixed
  simp only
  split
  · rename_i h
    rw [h]; simp
  · rename_i h
    rw [Bool.not_eq_true] at h
    rw [h]; simp

theorem parameterType_err {ts : List PType} {c : Ctx} {p : Nat} (h : (c.parameterType ts p).2.err = none) :
    (∃ t, ts[p]? = some t) ∧ c.err = none := by
  unfold Ctx.parameterType at h
  split at h
  · rename_i t e; exact ⟨⟨t, e⟩, h⟩
  · cases h

/-! ## Fill and alignment -/

def AlignSide : Option (Option Nat × Alignment) → List Nat → Prop
  | .none, r => (∀ a, r[0]? = some a → isAlign a = false) ∧ (∀ a, r[1]? = some a → isAlign a = false)
  | some (.none, a), r => a ≠ .default ∧ (∀ x, r[0]? = some x → isAlign x = false)
  | some (some _, a), _ => a ≠ .default

theorem typeOf_eq (c : Nat) : typeOf c = kindOf c := by
  unfold typeOf kindOf
  split <;> try rfl
  repeat' split
  all_goals first | rfl | (exfalso; simp_all) | simp_all

theorem isNumeric_iff {kd : Kind} : isNumeric kd = true ↔ kd ∈ numericKinds := by
  cases kd <;> decide

theorem kindAllowed_iff {t : PType} {kd : Kind} : kindAllowed t kd = true ↔ kd ∈ kindsFor t := by
  cases t <;> cases kd <;> decide

theorem isAlign_iff {c : Nat} : isAlign c = true ↔ c = 0x3c ∨ c = 0x3e ∨ c = 0x5e := by
  unfold isAlign; simp [Bool.or_eq_true, or_assoc]

def setFill (d : Option Nat) : Option (Option Nat × Alignment) → Option Nat
  | some (some f, _) => some f
  | _ => d

def setAlign (d : Alignment) : Option (Option Nat × Alignment) → Alignment
  | some (_, a) => a
  | .none => d

theorem parseFillAlign_eval {s : FSpec} {c : Ctx} (t : Option (Option Nat × Alignment)) (r : List Nat)
    (e : c.rest = alignText t ++ r) (h : AlignSide t r) :
    parseFillAlign s c = ({ s with
        fill := setFill s.fill t
        align := setAlign s.align t }, { c with rest := r }) := by
  obtain ⟨rest, nx, au, ma, er⟩ := c
  simp only at e
  subst e
  cases t with
  | none =>
    obtain ⟨h0, h1⟩ := h
    have q0 : ∀ x, isAlign x = true → r.head? ≠ some x := by
      intro x hx hr
      have := h0 x (by cases r <;> simp_all)
      rw [this] at hx; cases hx
    simp only [alignText, List.nil_append]
    unfold parseFillAlign
    have hm : parseFill s ⟨r, nx, au, ma, er⟩ = (s, ⟨r, nx, au, ma, er⟩) := by
      unfold parseFill
      match r, h1 with
      | [], _ => rfl
      | [_], _ => rfl
      | f :: a :: r', h1 =>
        have := h1 a rfl
        simp [this]
    rw [hm]
    simp only
    rw [consumeIf_neg (ch := 0x3c) (q0 0x3c (by decide))]
    simp only
    rw [consumeIf_neg (ch := 0x3e) (q0 0x3e (by decide))]
    simp only
    rw [consumeIf_neg (ch := 0x5e) (q0 0x5e (by decide))]
    rfl
  | some fa =>
    obtain ⟨f, a⟩ := fa
    cases f with
    | none =>
      obtain ⟨ha, h0⟩ := h
      cases r with
      | nil => cases a <;> first | exact absurd rfl ha | rfl
      | cons x r =>
        have hx := h0 x rfl
        cases a with
        | default => exact absurd rfl ha
        | left => simp [alignText, alignChar, parseFillAlign, parseFill, hx, Ctx.consumeIf, setFill, setAlign]
        | right => simp [alignText, alignChar, parseFillAlign, parseFill, hx, Ctx.consumeIf, setFill, setAlign]
        | center => simp [alignText, alignChar, parseFillAlign, parseFill, hx, Ctx.consumeIf, setFill, setAlign]
    | some f =>
      cases a with
      | default => exact absurd rfl h
      | left => simp [alignText, alignChar, parseFillAlign, parseFill, isAlign, Ctx.consumeIf, setFill, setAlign]
      | right => simp [alignText, alignChar, parseFillAlign, parseFill, isAlign, Ctx.consumeIf, setFill, setAlign]
      | center => simp [alignText, alignChar, parseFillAlign, parseFill, isAlign, Ctx.consumeIf, setFill, setAlign]

theorem alignOf (c : Nat) (h : isAlign c = true) : ∃ a : Alignment, a ≠ .default ∧ alignChar a = [c] := by
  rcases isAlign_iff.1 h with rfl | rfl | rfl
  · exact ⟨.left, by decide, rfl⟩
  · exact ⟨.right, by decide, rfl⟩
  · exact ⟨.center, by decide, rfl⟩

theorem align_exists (r : List Nat) : ∃ t r', r = alignText t ++ r' ∧ AlignSide t r' := by
  match r with
  | [] => exact ⟨.none, [], rfl, by simp [AlignSide]⟩
  | [x] =>
    by_cases h : isAlign x = true
    · obtain ⟨a, h1, h2⟩ := alignOf x h
      exact ⟨some (.none, a), [], by simp [alignText, h2], h1, by simp⟩
    · exact ⟨.none, [x], rfl, by simpa [AlignSide] using h⟩
  | x :: y :: r =>
    by_cases h : isAlign y = true
    · obtain ⟨a, h1, h2⟩ := alignOf y h
      exact ⟨some (some x, a), r, by simp [alignText, h2], h1⟩
    · rw [Bool.not_eq_true] at h
      by_cases h' : isAlign x = true
      · obtain ⟨a, h1, h2⟩ := alignOf x h'
        exact ⟨some (.none, a), y :: r, by simp [alignText, h2], h1, by simpa using h⟩
      · exact ⟨.none, x :: y :: r, rfl, by simpa using h', by simpa using h⟩

/-! ## Sign -/

def SignSide : Sign → List Nat → Prop
  | .default, r => r.head? ≠ some 0x2b ∧ r.head? ≠ some 0x2d ∧ r.head? ≠ some 0x20
  | _, _ => True

theorem parseSign_eval {s : FSpec} {c : Ctx} (t : Sign) (r : List Nat) (e : c.rest = signChar t ++ r)
    (h : SignSide t r) (hs : s.sign = .default) :
    parseSign s c = ({ s with sign := t }, { c with rest := r }) := by
  obtain ⟨rest, nx, au, ma, er⟩ := c
  simp only at e
  subst e
  cases t with
  | default =>
    obtain ⟨h1, h2, h3⟩ := h
    simp only [signChar, List.nil_append]
    unfold parseSign
    rw [consumeIf_neg h1]
    simp only
    rw [consumeIf_neg h2]
    simp only
    rw [consumeIf_neg h3]
    simp only [← hs]
  | always => rfl
  | negativeOnly => rfl
  | positivePadding => rfl

theorem sign_exists (r : List Nat) : ∃ t r', r = signChar t ++ r' ∧ SignSide t r' := by
  cases r with
  | nil => exact ⟨.default, [], rfl, by simp [SignSide]⟩
  | cons x r =>
    by_cases h1 : x = 0x2b
    · subst h1; exact ⟨.always, r, rfl, trivial⟩
    · by_cases h2 : x = 0x2d
      · subst h2; exact ⟨.negativeOnly, r, rfl, trivial⟩
      · by_cases h3 : x = 0x20
        · subst h3; exact ⟨.positivePadding, r, rfl, trivial⟩
        · exact ⟨.default, x :: r, rfl, by simp [SignSide, h1, h2, h3]⟩

/-! ## Single-character options -/

def flagText (ch : Nat) (b : Bool) : List Nat := if b then [ch] else []

def FlagSide (ch : Nat) (b : Bool) (r : List Nat) : Prop := b = false → r.head? ≠ some ch

theorem consumeIf_flag {c : Ctx} {ch : Nat} (b : Bool) (r : List Nat) (e : c.rest = flagText ch b ++ r)
    (h : FlagSide ch b r) : c.consumeIf ch = (b, { c with rest := r }) := by
  cases b with
  | true => exact consumeIf_pos (by simpa [flagText] using e)
  | false =>
    have e' : c.rest = r := by simpa [flagText] using e
    rw [consumeIf_neg (by rw [e']; exact h rfl), ← e']

theorem flag_exists (ch : Nat) (r : List Nat) : ∃ b r', r = flagText ch b ++ r' ∧ FlagSide ch b r' := by
  by_cases h : r.head? = some ch
  · cases r with
    | nil => simp at h
    | cons x r => simp at h; subst h; exact ⟨true, r, rfl, by simp [FlagSide]⟩
  · exact ⟨false, r, rfl, fun _ => h⟩

theorem parseAltZero_eval {s : FSpec} {c : Ctx} (a z : Bool) (r : List Nat)
    (e : c.rest = flagText 0x23 a ++ (flagText 0x30 z ++ r)) (ha : FlagSide 0x23 a (flagText 0x30 z ++ r))
    (hz : FlagSide 0x30 z r) (hs : s.alt = false) (hs' : s.zero = false) :
    parseAltZero s c =
      ({ s with alt := a, zero := z && decide (s.align = .default) }, { c with rest := r }) := by
  unfold parseAltZero
  rw [consumeIf_flag a _ e ha]
  simp only
  rw [consumeIf_flag z r rfl hz]
  obtain ⟨p, f, al, sg, at', zr, w, wp, pr, pp, lo, kd, up, sz⟩ := s
  simp only at hs hs'
  subst hs; subst hs'
  cases a <;> cases z <;> cases al <;> rfl

theorem parseLocale_eval {s : FSpec} {c : Ctx} (b : Bool) (r : List Nat)
    (e : c.rest = flagText 0x4c b ++ r) (h : FlagSide 0x4c b r) (hs : s.loc = false) :
    parseLocale s c = ({ s with loc := b }, { c with rest := r }) := by
  unfold parseLocale
  rw [consumeIf_flag b r e h]
  cases b
  · simp only [← hs]
  · rfl

/-! ## Presentation type -/

def typeText : Option Nat → List Nat
  | .none => []
  | some t => [t]

def TypeSide : Option Nat → List Nat → Prop
  | .none, r => ∀ c, r.head? = some c → typeOf c = .none
  | some t, _ => (typeOf t).isSome = true

def isUpperType (k : CharKind) : Option Nat → Bool
  | some c => k.isUpper c
  | .none => false

theorem parseType_eval {k : CharKind} {s : FSpec} {c : Ctx} (t : Option Nat) (r : List Nat)
    (e : c.rest = typeText t ++ r) (h : TypeSide t r) (hs : s.upper = false) :
    parseType k s c = ({ s with
      kind := (t.bind typeOf).getD s.kind
      upper := isUpperType k t }, { c with rest := r }) := by
  obtain ⟨rest, nx, au, ma, er⟩ := c
  simp only at e
  subst e
  unfold parseType
  cases t with
  | none =>
    simp only [typeText, List.nil_append, Option.bind_none, Option.getD_none, isUpperType, ← hs]
    cases r with
    | nil => rfl
    | cons x r =>
      have := h x rfl
      simp only [this]
  | some t =>
    obtain ⟨y, hy⟩ := Option.isSome_iff_exists.1 (show (typeOf t).isSome = true from h)
    simp only [typeText, List.cons_append, List.nil_append, hy, Option.bind_some, Option.getD_some, hs,
      Bool.false_or, isUpperType]

theorem type_exists (r : List Nat) : ∃ t r', r = typeText t ++ r' ∧ TypeSide t r' := by
  cases r with
  | nil => exact ⟨.none, [], rfl, by simp [TypeSide]⟩
  | cons x r =>
    cases h : typeOf x with
    | none => exact ⟨.none, x :: r, rfl, by simp [TypeSide, h]⟩
    | some y => exact ⟨some x, r, rfl, by simp [TypeSide, h]⟩

/-! ## Widths and precisions -/

/-- An error if the position does not exist. -/
def rangeCheck (ts : List PType) (p : Nat) (c : Ctx) : Ctx :=
  if (ts[p]?).isSome then c else c.onError rangeMessage

theorem rangeCheck_rest (ts : List PType) (p : Nat) (c : Ctx) : (rangeCheck ts p c).rest = c.rest := by
  unfold rangeCheck; split <;> rfl

theorem rangeCheck_next (ts : List PType) (p : Nat) (c : Ctx) : (rangeCheck ts p c).next = c.next := by
  unfold rangeCheck; split <;> rfl

theorem rangeCheck_none {ts : List PType} {p : Nat} {c : Ctx} :
    (rangeCheck ts p c).err = none ↔ (∃ t, ts[p]? = some t) ∧ c.err = none := by
  unfold rangeCheck
  split
  · rename_i h
    exact ⟨fun e => ⟨Option.isSome_iff_exists.1 h, e⟩, fun e => e.2⟩
  · rename_i h
    constructor
    · intro e; cases e
    · rintro ⟨⟨t, e⟩, _⟩; rw [e] at h; exact absurd rfl h

theorem parameterType_ctx (ts : List PType) (c : Ctx) (p : Nat) :
    c.parameterType ts p = (ts[p]?, rangeCheck ts p c) := by
  unfold Ctx.parameterType rangeCheck
  cases ts[p]? <;> rfl

/-- The context after a nested field. -/
def nestedCtx (k : CharKind) (ts : List PType) (c : Ctx) (ds r : List Nat) : Ctx :=
  rangeCheck ts (refPos k c.next ds) (afterRef c ds r)

theorem nested_consume {k : CharKind} {ts : List PType} {c : Ctx} {ds r : List Nat} {p : Nat} :
    (rangeCheck ts p (afterRef c ds (0x7d :: r))).consumeIf 0x7d = (true, rangeCheck ts p (afterRef c ds r)) := by
  rw [consumeIf_pos (r := r) (by rw [rangeCheck_rest]; rfl)]
  unfold rangeCheck
  split <;> rfl

theorem parseNested_eval {k : CharKind} (hk : IsCharKind k) {ts : List PType} {c : Ctx} {ds r : List Nat}
    (e : c.rest = ds ++ 0x7d :: r) (hd : Digits k ds) :
    parseNested k ts c = (some (refPos k c.next ds), nestedCtx k ts c ds r) := by
  unfold parseNested
  rw [nextPosition_eval e hd (by intro x hx; simp at hx; subst hx; exact not_digit hk (by omega))]
  simp only
  rw [parameterType_ctx]
  simp only
  rw [nested_consume (k := k)]
  rfl

theorem parseNested_exists {k : CharKind} {ts : List PType} {c : Ctx} (h : (parseNested k ts c).2.err = none) :
    ∃ ds r, c.rest = ds ++ 0x7d :: r ∧ Digits k ds := by
  obtain ⟨ds, r, e, hd, hr⟩ := split_digits k c.rest
  unfold parseNested at h
  rw [nextPosition_eval e hd hr] at h
  simp only at h
  rw [parameterType_ctx] at h
  simp only at h
  by_cases hb : r.head? = some 0x7d
  · cases r with
    | nil => simp at hb
    | cons x r => simp at hb; subst hb; exact ⟨ds, r, e, hd⟩
  · rw [consumeIf_neg (by rw [rangeCheck_rest]; exact hb)] at h
    cases h

def nestedPos (k : CharKind) (next : Nat) : Option Arg → Option Nat
  | some (.nested ds) => some (refPos k next ds)
  | _ => .none

/-- The context after a width or precision. -/
def argCtx (k : CharKind) (ts : List PType) (c : Ctx) (t : Option Arg) (r : List Nat) : Ctx :=
  match t with
  | some (.nested ds) => nestedCtx k ts c ds r
  | _ => { c with rest := r }

def WidthSide (k : CharKind) : Option Arg → List Nat → Prop
  | .none, r => NoDigit k r ∧ r.head? ≠ some 0x7b
  | some (.number ds), r => ds ≠ [] ∧ Digits k ds ∧ NoDigit k r
  | some (.nested ds), _ => Digits k ds

theorem noDigit_brace {k : CharKind} (hk : IsCharKind k) (r : List Nat) : NoDigit k (0x7b :: r) := by
  intro x hx; simp at hx; subst hx; exact not_digit hk (by omega)

theorem parseWidth_eval {k : CharKind} (hk : IsCharKind k) {ts : List PType} {s : FSpec} {c : Ctx}
    (t : Option Arg) (r : List Nat) (e : c.rest = widthText t ++ r) (h : WidthSide k t r)
    (hs : s.width = none) (hs' : s.widthPos = none) :
    parseWidth k ts s c = ({ s with width := argNumber k t, widthPos := nestedPos k c.next t },
      argCtx k ts c t r) := by
  unfold parseWidth
  cases t with
  | none =>
    have e' : c.rest = [] ++ r := e
    rw [consumeNumber_eval e' (by intro d hd; cases hd) h.1, if_pos rfl]
    simp only
    rw [consumeIf_neg (by rw [e']; exact h.2)]
    have : { c with rest := r } = c := by rw [show r = c.rest from e'.symm]
    simp only [argNumber, nestedPos, argCtx, this]
    obtain ⟨_, _, _, _, _, _, _, _, _, _, _, _, _, _⟩ := s
    simp only at hs hs'
    subst hs; subst hs'; rfl
  | some a =>
    cases a with
    | number ds =>
      rw [consumeNumber_eval (ds := ds) (r := r) e h.2.1 h.2.2, if_neg h.1]
      simp only [argNumber, nestedPos, argCtx, hs']
    | nested ds =>
      have e1 : c.rest = 0x7b :: (ds ++ 0x7d :: r) := by rw [e]; simp [widthText, Arg.text]
      have e2 : c.rest = [] ++ 0x7b :: (ds ++ 0x7d :: r) := e1
      rw [consumeNumber_eval e2 (by intro d hd; cases hd) (noDigit_brace hk _), if_pos rfl]
      simp only
      rw [consumeIf_pos e1]
      simp only
      rw [parseNested_eval hk (ds := ds) (r := r) rfl h]
      simp only [argNumber, nestedPos, argCtx, hs]
      rfl

theorem width_exists {k : CharKind} (hk : IsCharKind k) {ts : List PType} {s : FSpec} {c : Ctx}
    (h : (parseWidth k ts s c).2.err = none) :
    ∃ t r, c.rest = widthText t ++ r ∧ WidthSide k t r := by
  obtain ⟨ds, r, e, hd, hr⟩ := split_digits k c.rest
  by_cases hds : ds = []
  · subst hds
    have e' : c.rest = r := by simpa using e
    by_cases hb : r.head? = some 0x7b
    · cases r with
      | nil => simp at hb
      | cons x r =>
        simp at hb; subst hb
        unfold parseWidth at h
        rw [consumeNumber_eval e hd hr, if_pos rfl] at h
        simp only at h
        rw [consumeIf_pos e'] at h
        simp only at h
        have hn : (parseNested k ts { c with rest := r }).2.err = none := by
          revert h
          cases hp : parseNested k ts { c with rest := r } with
          | mk a b => cases a <;> exact id
        obtain ⟨ds, r2, e2, hd2⟩ := parseNested_exists hn
        have e3 : r = ds ++ 0x7d :: r2 := e2
        exact ⟨some (.nested ds), r2, by rw [e', e3]; simp [widthText, Arg.text], hd2⟩
    · exact ⟨.none, r, e', hr, hb⟩
  · exact ⟨some (.number ds), r, e, hds, hd, hr⟩

def PrecSide (k : CharKind) : Option Arg → List Nat → Prop
  | .none, r => r.head? ≠ some 0x2e
  | some (.number ds), r => ds ≠ [] ∧ Digits k ds ∧ NoDigit k r
  | some (.nested ds), _ => Digits k ds

theorem parsePrecision_eval {k : CharKind} (hk : IsCharKind k) {ts : List PType} {s : FSpec} {c : Ctx}
    (t : Option Arg) (r : List Nat) (e : c.rest = precText t ++ r) (h : PrecSide k t r)
    (hs : s.prec = none) (hs' : s.precPos = none) :
    parsePrecision k ts s c = ({ s with prec := argNumber k t, precPos := nestedPos k c.next t },
      argCtx k ts c t r) := by
  unfold parsePrecision
  cases t with
  | none =>
    have e' : c.rest = r := e
    rw [consumeIf_neg (by rw [e']; exact h)]
    have : { c with rest := r } = c := by rw [← e']
    simp only [argNumber, nestedPos, argCtx, this]
    obtain ⟨_, _, _, _, _, _, _, _, _, _, _, _, _, _⟩ := s
    simp only at hs hs'
    subst hs; subst hs'; rfl
  | some a =>
    cases a with
    | number ds =>
      have e1 : c.rest = 0x2e :: (ds ++ r) := by rw [e]; simp [precText, Arg.text]
      rw [consumeIf_pos e1]
      simp only
      rw [consumeNumber_eval (ds := ds) (r := r) rfl h.2.1 h.2.2, if_neg h.1]
      simp only [argNumber, nestedPos, argCtx, hs']
    | nested ds =>
      have e1 : c.rest = 0x2e :: (0x7b :: (ds ++ 0x7d :: r)) := by rw [e]; simp [precText, Arg.text]
      rw [consumeIf_pos e1]
      simp only
      rw [consumeNumber_eval (ds := []) (r := 0x7b :: (ds ++ 0x7d :: r)) rfl
        (by intro d hd; cases hd) (noDigit_brace hk _), if_pos rfl]
      simp only
      rw [consumeIf_pos rfl]
      simp only
      rw [parseNested_eval hk (ds := ds) (r := r) rfl h]
      simp only [argNumber, nestedPos, argCtx, hs]
      rfl

theorem prec_exists {k : CharKind} (hk : IsCharKind k) {ts : List PType} {s : FSpec} {c : Ctx}
    (h : (parsePrecision k ts s c).2.err = none) :
    ∃ t r, c.rest = precText t ++ r ∧ PrecSide k t r := by
  by_cases hp : c.rest.head? = some 0x2e
  · obtain ⟨r0, e0⟩ : ∃ r0, c.rest = 0x2e :: r0 := by
      cases hc : c.rest with
      | nil => rw [hc] at hp; simp at hp
      | cons x r => rw [hc] at hp; simp at hp; subst hp; exact ⟨r, rfl⟩
    obtain ⟨ds, r, e, hd, hr⟩ := split_digits k r0
    by_cases hds : ds = []
    · subst hds
      have e' : r0 = r := by simpa using e
      subst e'
      unfold parsePrecision at h
      rw [consumeIf_pos e0] at h
      simp only at h
      rw [consumeNumber_eval (ds := []) (r := r0) rfl (by intro d hd; cases hd) hr, if_pos rfl] at h
      simp only at h
      by_cases hb : r0.head? = some 0x7b
      · cases r0 with
        | nil => simp at hb
        | cons x r =>
          simp at hb; subst hb
          rw [consumeIf_pos rfl] at h
          simp only at h
          have hn : (parseNested k ts { c with rest := r }).2.err = none := by
            revert h
            cases hp : parseNested k ts { c with rest := r } with
            | mk a b => cases a <;> exact id
          obtain ⟨ds, r2, e2, hd2⟩ := parseNested_exists hn
          have e3 : r = ds ++ 0x7d :: r2 := e2
          exact ⟨some (.nested ds), r2, by rw [e0, e3]; simp [precText, Arg.text], hd2⟩
      · rw [consumeIf_neg (by exact hb)] at h
        cases h
    · exact ⟨some (.number ds), r, by rw [e0, e]; simp [precText, Arg.text], hds, hd, hr⟩
  · exact ⟨.none, c.rest, rfl, hp⟩

/-! ## Validation -/

theorem errorIf_same {c : Ctx} {b : Bool} {m : String} (h : (c.errorIf b m).err = none) :
    c.errorIf b m = c := by
  rw [(errorIf_none.1 h).1]; rfl

theorem checkFill_none {s : FSpec} {c : Ctx} : (checkFill s c).err = none ↔
    (∀ f, s.fill = some f → f ≠ 0x7b ∧ f ≠ 0x7d ∧ f < 0x80) ∧ c.err = none := by
  unfold checkFill
  split
  · rename_i h
    constructor
    · intro e; cases e
    · rintro ⟨hf, _⟩
      rcases h with h | h
      · exact absurd rfl (hf _ h).1
      · exact absurd rfl (hf _ h).2.1
  · rename_i h
    rw [errorIf_none]
    refine and_congr_left (fun _ => ?_)
    cases hs : s.fill with
    | none => simp
    | some f =>
      rw [hs] at h
      simp only [Option.some.injEq, not_or] at h
      simp only [Option.any_some, decide_eq_false_iff_not, Option.some.injEq, forall_eq']
      exact ⟨fun e => ⟨h.1, h.2, by omega⟩, fun e => by omega⟩

theorem checkFill_same {s : FSpec} {c : Ctx} (h : (checkFill s c).err = none) : checkFill s c = c := by
  unfold checkFill at h ⊢
  split at h
  · cases h
  · rename_i hn
    rw [if_neg hn]
    exact errorIf_same h

theorem checkNumeric_none {s : FSpec} {c : Ctx} : (checkNumeric s c).err = none ↔
    (s.sign ≠ .default → s.kind ∈ numericKinds) ∧
    (s.alt = true → s.kind ∈ numericKinds ∧ s.kind ≠ .decimal) ∧
    (s.zero = true → s.kind ∈ numericKinds) ∧ c.err = none := by
  rw [← isNumeric_iff]
  unfold checkNumeric
  rw [errorIf_none, errorIf_none, errorIf_none]
  cases isNumeric s.kind <;> cases s.alt <;> cases s.zero <;> cases s.sign <;> simp

theorem checkNumeric_same {s : FSpec} {c : Ctx} (h : (checkNumeric s c).err = none) :
    checkNumeric s c = c := by
  unfold checkNumeric at h ⊢
  have h2 := errorIf_none.1 h
  have h3 := errorIf_none.1 h2.2
  have h4 := errorIf_none.1 h3.2
  rw [h2.1, h3.1, h4.1]; rfl

theorem nested_type {ts : List PType} {c : Ctx} {p : Nat} {m : String} :
    ((rangeCheck ts p c).errorIf (ts[p]? != some PType.integral) m).err = none ↔
      ts[p]? = some .integral ∧ c.err = none := by
  rw [errorIf_none, rangeCheck_none]
  constructor
  · rintro ⟨h1, _, h3⟩
    exact ⟨by simpa using h1, h3⟩
  · rintro ⟨h1, h2⟩
    exact ⟨by simp [h1], ⟨_, h1⟩, h2⟩

theorem nested_same {ts : List PType} {c : Ctx} {p : Nat} {m : String}
    (h : ((rangeCheck ts p c).errorIf (ts[p]? != some PType.integral) m).err = none) :
    (rangeCheck ts p c).errorIf (ts[p]? != some PType.integral) m = c := by
  rw [errorIf_same h]
  have := (nested_type.1 h).1
  unfold rangeCheck
  rw [this]; rfl

theorem checkWidth_none {ts : List PType} {s : FSpec} {c : Ctx} : (checkWidth ts s c).err = none ↔
    s.width ≠ some 0 ∧ (∀ p, s.widthPos = some p → ts[p]? = some .integral) ∧ c.err = none := by
  unfold checkWidth
  split
  · rename_i h
    constructor
    · intro e; cases e
    · intro e; exact absurd h e.1
  · rename_i h
    cases hp : s.widthPos with
    | none => simp [h]
    | some p =>
      simp only [parameterType_ctx]
      rw [nested_type]
      simp [h]

theorem checkWidth_same {ts : List PType} {s : FSpec} {c : Ctx} (h : (checkWidth ts s c).err = none) :
    checkWidth ts s c = c := by
  have h' := checkWidth_none.1 h
  unfold checkWidth at h ⊢
  rw [if_neg h'.1] at h ⊢
  cases hp : s.widthPos with
  | none => rfl
  | some p =>
    rw [hp] at h
    simp only [parameterType_ctx] at h ⊢
    exact nested_same h

theorem checkPrecision_none {ts : List PType} {t : PType} {s : FSpec} {c : Ctx} :
    (checkPrecision ts (some t) s c).err = none ↔
    (s.prec.isSome = true ∨ s.precPos.isSome = true → t = .string ∨ t = .floating) ∧
    (∀ p, s.precPos = some p → ts[p]? = some .integral) ∧ c.err = none := by
  unfold checkPrecision
  split
  · rename_i h
    rw [Bool.or_eq_true] at h
    split
    · rename_i h2
      constructor
      · intro e; cases e
      · rintro ⟨e, _⟩
        rcases e h with rfl | rfl
        · exact absurd rfl h2.1
        · exact absurd rfl h2.2
    · rename_i h2
      have h3 : t = .string ∨ t = .floating := by
        cases t <;> simp at h2 ⊢
      cases hp : s.precPos with
      | none => simp [h3]
      | some p =>
        simp only [parameterType_ctx]
        rw [nested_type]
        simp [h3]
  · rename_i h
    rw [Bool.or_eq_true, not_or] at h
    have h1 : s.prec = none := by simpa using h.1
    have h2 : s.precPos = none := by simpa using h.2
    simp [h1, h2]

theorem checkPrecision_same {ts : List PType} {t : PType} {s : FSpec} {c : Ctx}
    (h : (checkPrecision ts (some t) s c).err = none) : checkPrecision ts (some t) s c = c := by
  unfold checkPrecision at h ⊢
  split at h
  · rename_i h1
    rw [if_pos h1]
    split at h
    · cases h
    · rename_i h2
      rw [if_neg h2]
      cases hp : s.precPos with
      | none => rfl
      | some p =>
        rw [hp] at h
        simp only [parameterType_ctx] at h ⊢
        exact nested_same h
  · rename_i h1
    rw [if_neg h1]

theorem checkLocale_none {t : PType} {s : FSpec} {c : Ctx} : (checkLocale (some t) s c).err = none ↔
    (s.loc = true → t = .integral ∨ t = .floating ∨ t = .boolean) ∧ c.err = none := by
  unfold checkLocale
  rw [errorIf_none]
  cases s.loc <;> cases t <;> simp

theorem checkKind_none {t : PType} {s : FSpec} {c : Ctx} (hk : s.kind ≠ .none) :
    (checkKind (some t) s c).err = none ↔ s.kind ∈ kindsFor t ∧ c.err = none := by
  rw [← kindAllowed_iff]
  unfold checkKind
  simp only
  rw [if_pos hk, errorIf_none]
  cases kindAllowed t s.kind <;> simp

theorem check_err {ts : List PType} {t : Option PType} {s : FSpec} {c : Ctx}
    (h : (checkKind t s (checkLocale t s (checkPrecision ts t s (checkWidth ts s (checkNumeric s
      (checkFill s c)))))).err = none) : c.err = none := by
  have h1 : (checkLocale t s (checkPrecision ts t s (checkWidth ts s (checkNumeric s
      (checkFill s c))))).err = none := by
    unfold checkKind at h
    split at h
    · split at h
      · exact (errorIf_none.1 h).2
      · exact h
    · exact h
  have h2 := (errorIf_none.1 h1).2
  have h3 : (checkWidth ts s (checkNumeric s (checkFill s c))).err = none := by
    unfold checkPrecision at h2
    split at h2
    · split at h2
      · cases h2
      · cases hp : s.precPos with
        | none => rw [hp] at h2; exact h2
        | some p =>
          rw [hp] at h2
          simp only [parameterType_ctx] at h2
          exact (nested_type.1 h2).2
    · exact h2
  exact (checkFill_none.1 (checkNumeric_none.1 (checkWidth_none.1 h3).2.2).2.2.2).2

theorem validate_none {ts : List PType} {s : FSpec} {c : Ctx} (hk : s.kind ≠ .none) :
    (validate ts s c).err = none ↔ c.err = none ∧ ∃ t, ts[s.position]? = some t ∧ Valid ts t s := by
  unfold validate
  simp only [parameterType_ctx]
  cases ht : ts[s.position]? with
  | none =>
    constructor
    · intro h
      have h1 := rangeCheck_none.1 (check_err h)
      obtain ⟨⟨t, e⟩, _⟩ := h1
      rw [ht] at e; cases e
    · rintro ⟨_, t, e, _⟩; cases e
  | some t =>
    rw [checkKind_none hk, checkLocale_none, checkPrecision_none, checkWidth_none, checkNumeric_none,
      checkFill_none, rangeCheck_none]
    constructor
    · rintro ⟨h1, h2, h3, h4, h5, h6, h7, h8, h9, h10, _, h11⟩
      exact ⟨h11, t, rfl, h10, h7, h8, h9, h5, h6, h3, h4, h2, h1⟩
    · rintro ⟨h, t', e, v⟩
      cases e
      exact ⟨v.kind, v.loc, v.prec, v.precPos, v.width, v.widthPos, v.sign, v.alt, v.zero, v.fill,
        ⟨t, ht⟩, h⟩

theorem validate_same {ts : List PType} {s : FSpec} {c : Ctx} (hk : s.kind ≠ .none)
    (h : (validate ts s c).err = none) : validate ts s c = c := by
  obtain ⟨_, t, ht, _⟩ := (validate_none hk).1 h
  unfold validate at h ⊢
  simp only [parameterType_ctx] at h ⊢
  rw [ht] at h ⊢
  have g1 := (checkKind_none hk).1 h
  have g2 := checkLocale_none.1 g1.2
  have g3 := checkPrecision_none.1 g2.2
  have g4 := checkWidth_none.1 g3.2.2
  have g5 := checkNumeric_none.1 g4.2.2
  have s6 := checkFill_same g5.2.2.2
  have s5 := checkNumeric_same g4.2.2
  have s4 := checkWidth_same g3.2.2
  have s3 := checkPrecision_same g2.2
  have s2 : checkLocale (some t) s _ = _ := errorIf_same g1.2
  have s1 : checkKind (some t) s (checkLocale (some t) s (checkPrecision ts (some t) s (checkWidth ts s
      (checkNumeric s (checkFill s (rangeCheck ts s.position c)))))) = checkLocale (some t) s
      (checkPrecision ts (some t) s (checkWidth ts s
      (checkNumeric s (checkFill s (rangeCheck ts s.position c))))) := by
    unfold checkKind
    simp only
    rw [if_pos hk, kindAllowed_iff.2 g1.1]; rfl
  rw [s1]
  refine s2.trans ?_
  rw [s3, s4, s5, s6]
  unfold rangeCheck
  rw [ht]; rfl

end Verif.Format
