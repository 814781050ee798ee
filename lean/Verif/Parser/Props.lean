import Verif.Parser.Model
import Verif.Parser.Spec
import Verif.Unicode.Props
import Verif.Numeric.Props

/-!
# C41: the parser finds the encoding of a document
-/

namespace Verif.Parser

open Verif.Unicode (Scalar formOf utf16Of utf8Of convert)

theorem assemble16 {a b : Nat} (ha : a < 256) (hb : b < 256) :
    ((a &&& 0xff) <<< 8) ||| ((b &&& 0xff) <<< 0) = a * 256 + b := by
  have h1 : a &&& 0xff = a := by
    rw [show (0xff : Nat) = 2 ^ 8 - 1 from rfl, Nat.and_two_pow_sub_one_eq_mod]; omega
  have h2 : b &&& 0xff = b := by
    rw [show (0xff : Nat) = 2 ^ 8 - 1 from rfl, Nat.and_two_pow_sub_one_eq_mod]; omega
  rw [h1, h2, Nat.shiftLeft_eq, Nat.shiftLeft_eq, Verif.Bits.or_eq_add (i := 8) (by omega) (by omega)]
  omega

theorem assemble32 {a b c d : Nat} (ha : a < 256) (hb : b < 256) (hc : c < 256) (hd : d < 256) :
    ((a &&& 0xff) <<< 24) ||| ((b &&& 0xff) <<< 16) ||| ((c &&& 0xff) <<< 8) ||| ((d &&& 0xff) <<< 0) =
      a * 16777216 + b * 65536 + c * 256 + d := by
  have h : ∀ x, x < 256 → x &&& 0xff = x := by
    intro x hx
    rw [show (0xff : Nat) = 2 ^ 8 - 1 from rfl, Nat.and_two_pow_sub_one_eq_mod]; omega
  rw [h a ha, h b hb, h c hc, h d hd, Nat.shiftLeft_eq, Nat.shiftLeft_eq, Nat.shiftLeft_eq,
    Nat.shiftLeft_eq, Verif.Bits.or_eq_add (a := a * 2 ^ 24) (i := 24) (by omega) (by omega),
    Verif.Bits.or_eq_add (a := a * 2 ^ 24 + _) (i := 16) (by omega) (by omega),
    Verif.Bits.or_eq_add (i := 8) (by omega) (by omega)]
  omega

theorem swap16 {a b : Nat} (ha : a < 256) (hb : b < 256) :
    Verif.Numeric.byteSwap16 (a * 256 + b) = b * 256 + a := by
  have h0 : (a * 256 + b) % 256 = b := by omega
  have h1 : (a * 256 + b) / 256 % 256 = a := by omega
  rw [Verif.Numeric.byteSwap16_eq]
  unfold Verif.Numeric.byteAt
  rw [Nat.pow_zero, Nat.div_one, Nat.pow_one, h0, h1]

theorem swap32 {a b c d : Nat} (ha : a < 256) (hb : b < 256) (hc : c < 256) (hd : d < 256)
    {v : Nat} (hv : v = a * 16777216 + b * 65536 + c * 256 + d) :
    Verif.Numeric.byteSwap32 v = d * 16777216 + c * 65536 + b * 256 + a := by
  have h0 : v % 256 = d := by omega
  have h1 : v / 256 % 256 = c := by omega
  have h2 : v / 65536 % 256 = b := by omega
  have h3 : v / 16777216 % 256 = a := by omega
  have e2 : (256 : Nat) ^ 2 = 65536 := by decide
  have e3 : (256 : Nat) ^ 3 = 16777216 := by decide
  have e := Verif.Numeric.byteSwap32_eq v
  unfold Verif.Numeric.byteAt at e
  rw [Nat.pow_zero, Nat.div_one, Nat.pow_one, e2, e3, h0, h1, h2, h3] at e
  rw [e]

theorem readUnits16_be (us : List Nat) (h : ∀ u ∈ us, u < 65536) :
    readUnits16 false (us.flatMap be16) = us := by
  induction us with
  | nil => rfl
  | cons u us ih =>
    have hu := h u List.mem_cons_self
    rw [List.flatMap_cons]
    show readUnits16 false (u / 256 :: u % 256 :: us.flatMap be16) = _
    unfold readUnits16
    rw [ih (fun x hx => h x (List.mem_cons_of_mem _ hx)), assemble16 (by omega) (by omega)]
    simp only [Bool.false_eq_true, if_false, List.cons.injEq, and_true]
    omega

theorem readUnits16_le (us : List Nat) (h : ∀ u ∈ us, u < 65536) :
    readUnits16 true (us.flatMap (fun u => (be16 u).reverse)) = us := by
  induction us with
  | nil => rfl
  | cons u us ih =>
    have hu := h u List.mem_cons_self
    rw [List.flatMap_cons]
    show readUnits16 true (u % 256 :: u / 256 :: us.flatMap (fun u => (be16 u).reverse)) = _
    unfold readUnits16
    rw [ih (fun x hx => h x (List.mem_cons_of_mem _ hx)), assemble16 (by omega) (by omega)]
    simp only [if_true]
    rw [swap16 (by omega) (by omega), List.cons.injEq]
    exact ⟨by omega, rfl⟩

theorem readUnits32_be (us : List Nat) (h : ∀ u ∈ us, u < 2 ^ 32) :
    readUnits32 false (us.flatMap be32) = us := by
  induction us with
  | nil => rfl
  | cons u us ih =>
    have hu := h u List.mem_cons_self
    rw [List.flatMap_cons]
    show readUnits32 false (u / 16777216 :: u / 65536 % 256 :: u / 256 % 256 :: u % 256 ::
      us.flatMap be32) = _
    unfold readUnits32
    rw [ih (fun x hx => h x (List.mem_cons_of_mem _ hx)),
      assemble32 (by omega) (by omega) (by omega) (by omega)]
    simp only [Bool.false_eq_true, if_false, List.cons.injEq, and_true]
    omega

theorem readUnits32_le (us : List Nat) (h : ∀ u ∈ us, u < 2 ^ 32) :
    readUnits32 true (us.flatMap (fun u => (be32 u).reverse)) = us := by
  induction us with
  | nil => rfl
  | cons u us ih =>
    have hu := h u List.mem_cons_self
    rw [List.flatMap_cons]
    show readUnits32 true (u % 256 :: u / 256 % 256 :: u / 65536 % 256 :: u / 16777216 ::
      us.flatMap (fun u => (be32 u).reverse)) = _
    unfold readUnits32
    rw [ih (fun x hx => h x (List.mem_cons_of_mem _ hx)),
      assemble32 (by omega) (by omega) (by omega) (by omega)]
    simp only [if_true]
    rw [swap32 (by omega) (by omega) (by omega) (by omega) rfl, List.cons.injEq]
    exact ⟨by omega, rfl⟩

/-- A string of scalar values in any encoding form converts to its UTF-8 form. -/
theorem convert_form (src : Verif.Unicode.Enc) (cps : List Nat) (h : ∀ c ∈ cps, Scalar c) :
    convert src (.utf8 true) (cps.flatMap (formOf src)) = some (transcoded cps) := by
  have hd := (Verif.Unicode.decodeAll_iff src _ _ rfl (Verif.Unicode.flatMap_bound src cps h) cps).2 ⟨h, rfl⟩
  unfold Verif.Unicode.convert transcoded
  rw [hd]
  show some _ = some _
  exact congrArg some (Verif.Unicode.flatMap_congr_mem cps
    (fun x hx => Verif.Unicode.codepointToString_eq (.utf8 true) (h x hx)))

theorem checkBom_pos (b s : List Nat) (h : b ≠ []) : checkBom b (b ++ s) = some s := by
  unfold checkBom peekChar
  cases b with
  | nil => exact absurd rfl h
  | cons c b => simp

theorem checkBom_neg (b s : List Nat) (h : ¬ b <+: s) : checkBom b s = none := by
  unfold checkBom
  split
  · simp only []
    split
    · rename_i h2
      exact absurd ⟨s.drop b.length, by rw [← h2.2, List.length_take, Nat.min_eq_left (by
        have := h2.1; rw [List.length_take] at this; omega), List.take_append_drop]⟩ h
    · rfl
  · rfl

theorem prefix_two {a b x y : Nat} {s t : List Nat} (h : a ≠ x ∨ b ≠ y) :
    ¬ (a :: b :: t) <+: (x :: y :: s) := by
  rintro ⟨r, e⟩
  simp only [List.cons_append, List.cons.injEq] at e
  omega

theorem prefix_four {a b c d x y z w : Nat} {s t : List Nat} (h : a ≠ x ∨ b ≠ y ∨ c ≠ z ∨ d ≠ w) :
    ¬ (a :: b :: c :: d :: t) <+: (x :: y :: z :: w :: s) := by
  rintro ⟨r, e⟩
  simp only [List.cons_append, List.cons.injEq] at e
  omega

/-- The bytes after a UTF-16LE mark that make it look like a UTF-32LE mark. -/
theorem detect (f : Form) (body : List Nat) (h : f = .utf16le → ¬ [0x00, 0x00] <+: body) :
    parseByteOrderMark (mark f ++ body) =
      (match f with
        | .utf8 => .utf8 | .utf16be => .utf16Big | .utf16le => .utf16Little
        | .utf32be => .utf32Big | .utf32le => .utf32Little, body) := by
  unfold parseByteOrderMark
  cases f with
  | utf8 => rw [show mark .utf8 = utf8Mark from rfl, checkBom_pos _ _ (by decide)]
  | utf32be =>
    rw [checkBom_neg utf8Mark (mark .utf32be ++ body) (prefix_two (by decide)),
      show mark .utf32be = utf32BeMark from rfl, checkBom_pos _ _ (by decide)]
  | utf32le =>
    rw [checkBom_neg utf8Mark (mark .utf32le ++ body) (prefix_two (by decide)), checkBom_neg utf32BeMark (mark .utf32le ++ body) (prefix_two (by decide)),
      show mark .utf32le = utf32LeMark from rfl, checkBom_pos _ _ (by decide)]
  | utf16be =>
    rw [checkBom_neg utf8Mark (mark .utf16be ++ body) (prefix_two (by decide)), checkBom_neg utf32BeMark (mark .utf16be ++ body) (prefix_two (by decide)),
      checkBom_neg utf32LeMark (mark .utf16be ++ body) (prefix_two (by decide)),
      show mark .utf16be = utf16BeMark from rfl, checkBom_pos _ _ (by decide)]
  | utf16le =>
    have : ¬ utf32LeMark <+: mark .utf16le ++ body := by
      rintro ⟨r, e⟩
      apply h rfl
      refine ⟨r, ?_⟩
      simp only [utf32LeMark, mark, List.cons_append, List.nil_append, List.cons.injEq, true_and] at e
      simpa using e
    rw [checkBom_neg utf8Mark (mark .utf16le ++ body) (prefix_two (by decide)), checkBom_neg utf32BeMark (mark .utf16le ++ body) (prefix_two (by decide)),
      checkBom_neg utf32LeMark _ this, checkBom_neg utf16BeMark (mark .utf16le ++ body) (prefix_two (by decide)),
      show mark .utf16le = utf16LeMark from rfl, checkBom_pos _ _ (by decide)]

theorem bytes16 (cps : List Nat) (g : Nat → List Nat) :
    cps.flatMap (fun c => (utf16Of c).flatMap g) = (cps.flatMap (formOf .utf16)).flatMap g := by
  rw [List.flatMap_assoc]; rfl

theorem bytes32 (cps : List Nat) : cps.flatMap (formOf .utf32) = cps := by
  show cps.flatMap (fun c => [c]) = cps
  exact List.flatMap_singleton' cps

/-- C41, each of the five byte-order marks: the document parses as its UTF-8 transcoding does, whatever
the parser. Missing (and false, see `bom_utf16le_nul_violated`): a UTF-16LE document that begins with
the character NUL. -/
theorem bom_transcoding_partial {α : Type} (internal : List Nat → Option α) (f : Form) (cps : List Nat)
    (hc : ∀ c ∈ cps, Scalar c) (hn : f = .utf16le → cps.head? ≠ some 0) :
    parseFile internal (document f cps) = internal (transcoded cps) := by
  have hb := Verif.Unicode.flatMap_bound .utf16 cps hc
  have hb32 : ∀ u ∈ cps, u < 2 ^ 32 := by
    intro c h; have := (hc c h).1; omega
  have hd : f = .utf16le → ¬ [0x00, 0x00] <+: cps.flatMap (bytesOf f) := by
    rintro rfl ⟨r, e⟩
    cases cps with
    | nil => simp at e
    | cons c cps =>
      have h1 := hn rfl
      have h2 := (hc c List.mem_cons_self).1
      simp only [List.head?_cons, ne_eq, Option.some.injEq] at h1
      rw [List.flatMap_cons] at e
      simp only [bytesOf, utf16Of, be16] at e
      split at e
      · simp only [List.flatMap_cons, List.flatMap_nil, List.reverse_cons, List.reverse_nil,
          List.nil_append, List.cons_append, List.append_nil, List.cons.injEq] at e
        omega
      · simp only [List.flatMap_cons, List.flatMap_nil, List.reverse_cons, List.reverse_nil,
          List.nil_append, List.cons_append, List.append_nil, List.cons.injEq] at e
        omega
  unfold parseFile document
  rw [detect f _ hd]
  cases f with
  | utf8 => rfl
  | utf16be =>
    show (ensureUtf8From16 false (cps.flatMap (fun c => (utf16Of c).flatMap be16))).bind internal = _
    unfold ensureUtf8From16
    rw [bytes16, readUnits16_be _ hb, convert_form _ _ hc]; rfl
  | utf16le =>
    show (ensureUtf8From16 true
      (cps.flatMap (fun c => (utf16Of c).flatMap (fun u => (be16 u).reverse)))).bind internal = _
    unfold ensureUtf8From16
    rw [bytes16, readUnits16_le _ hb, convert_form _ _ hc]; rfl
  | utf32be =>
    show (ensureUtf8From32 false (cps.flatMap be32)).bind internal = _
    unfold ensureUtf8From32
    have := convert_form .utf32 cps hc
    rw [bytes32] at this
    rw [readUnits32_be _ hb32, this]; rfl
  | utf32le =>
    show (ensureUtf8From32 true (cps.flatMap (fun c => (be32 c).reverse))).bind internal = _
    unfold ensureUtf8From32
    have := convert_form .utf32 cps hc
    rw [bytes32] at this
    rw [readUnits32_le _ hb32, this]; rfl

/-- C41: a document without a byte-order mark is read as UTF-8, byte by byte as it is. -/
theorem no_bom_is_utf8 {α : Type} (internal : List Nat → Option α) (file : List Nat)
    (h : ∀ f, ¬ mark f <+: file) : parseFile internal file = internal file := by
  unfold parseFile parseByteOrderMark
  rw [checkBom_neg utf8Mark _ (h .utf8), checkBom_neg utf32BeMark _ (h .utf32be),
    checkBom_neg utf32LeMark _ (h .utf32le), checkBom_neg utf16BeMark _ (h .utf16be),
    checkBom_neg utf16LeMark _ (h .utf16le)]

/-- A document of whole units that are no well-formed text of the encoding of its mark is rejected. -/
theorem bom_ill_formed {α : Type} (internal : List Nat → Option α) (us : List Nat)
    (hu : ∀ u ∈ us, u < 65536) (hbad : ∀ cps : List Nat, (∀ c ∈ cps, Scalar c) → us ≠ cps.flatMap utf16Of) :
    parseFile internal (mark .utf16be ++ us.flatMap be16) = none := by
  unfold parseFile
  rw [detect .utf16be _ (fun h => by cases h)]
  show (ensureUtf8From16 false (us.flatMap be16)).bind internal = none
  unfold ensureUtf8From16
  rw [readUnits16_be _ hu]
  have : Verif.Unicode.decodeAll .utf16 us = none := by
    cases h : Verif.Unicode.decodeAll .utf16 us with
    | none => rfl
    | some cps =>
      obtain ⟨h1, h2⟩ := (Verif.Unicode.decodeAll_iff .utf16 _ us rfl hu cps).1 h
      exact absurd h2 (hbad cps h1)
  simp [Verif.Unicode.convert, this]

/-- C41 fails: the UTF-16LE document of the characters NUL, `1` has the UTF-8 transcoding `00 31`, but
is taken for a UTF-32LE document whose last two bytes are cut off: the parser sees the empty text. -/
theorem bom_utf16le_nul_violated :
    document .utf16le [0x00, 0x31] = [0xff, 0xfe, 0x00, 0x00, 0x31, 0x00] ∧
    transcoded [0x00, 0x31] = [0x00, 0x31] ∧
    ∀ {α : Type} (internal : List Nat → Option α),
      parseFile internal (document .utf16le [0x00, 0x31]) = internal [] := by
  refine ⟨by decide, by decide, ?_⟩
  intro α internal
  with_unfolding_all rfl

/-- C41, a finding: the file `FE FF 00 31 00` is no UTF-16 text (its last unit is cut off), but parses
as `1`. -/
theorem bom_truncated_unit_violated :
    ∀ {α : Type} (internal : List Nat → Option α),
      parseFile internal [0xfe, 0xff, 0x00, 0x31, 0x00] = internal [0x31] := by
  intro α internal
  with_unfolding_all rfl

/-- The hypotheses are met: `1😀` in UTF-16LE. -/
example (internal : List Nat → Option Nat) :
    parseFile internal [0xff, 0xfe, 0x31, 0x00, 0x3d, 0xd8, 0x00, 0xde] =
      internal [0x31, 0xf0, 0x9f, 0x98, 0x80] :=
  bom_transcoding_partial internal .utf16le [0x31, 0x1f600] (by unfold Scalar; decide) (by decide)

/-- Bytes that begin like a mark but are none. -/
example (internal : List Nat → Option Nat) : parseFile internal [0xef, 0xbb] = internal [0xef, 0xbb] :=
  no_bom_is_utf8 internal _ (by intro f; cases f <;> decide)

/-- A lone surrogate. -/
example (internal : List Nat → Option Nat) : parseFile internal [0xfe, 0xff, 0xd8, 0x00] = none := by
  refine bom_ill_formed internal [0xd800] (by decide) ?_
  intro cps h e
  cases cps with
  | nil => simp at e
  | cons c cps =>
    have hs := h c List.mem_cons_self
    unfold Scalar at hs
    rw [List.flatMap_cons] at e
    unfold utf16Of at e
    split at e
    · simp only [List.cons_append, List.cons.injEq] at e; omega
    · simp only [List.cons_append, List.cons.injEq] at e
      exact absurd e.2 (by simp)

end Verif.Parser
