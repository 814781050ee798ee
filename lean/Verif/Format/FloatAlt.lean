import Verif.Format.Props

/-!
# Floating-point values in the alternate form (C77, continued)

`{:#...}` keeps the decimal point and, in the general format, the trailing zeros. `std::to_chars` cannot do that,
so `convert_value` (formatters.hpp 773-850) cuts its text at the exponent and computes what to insert.
-/

namespace Verif.Format

open Verif.Str (CharKind)

/-! ## Specification -/

/-- The character that begins the exponent in a format. -/
def exponentChar : Kind → Nat
  | .hexFloat => 0x70
  | .fixed => 0x00
  | _ => 0x65

/-- The number of digits of a mantissa, with or without a point. -/
def digitCount (mant : List Nat) : Nat := (mant.filter (· != 0x2e)).length

/-- The number of significant digits: from the first digit that is not zero (the zeros of the number zero
all count). -/
def significant (mant : List Nat) : Nat :=
  let ds := mant.filter (· != 0x2e)
  if ds.all (· == 0x30) then ds.length else (ds.dropWhile (· == 0x30)).length

/-- A mantissa: ASCII digits with at most one point. -/
def Mantissa (mant : List Nat) : Prop :=
  (∀ c ∈ mant, c = 0x2e ∨ (0x30 ≤ c ∧ c ≤ 0x39)) ∧ mant.count 0x2e ≤ 1

/-- The mantissa with its point, and with zeros up to `precision` significant digits if asked. -/
def completed (general : Bool) (precision : Nat) (mant : List Nat) : List Nat :=
  mant ++ (if 0x2e ∈ mant then [] else [0x2e]) ++
    (if general then List.replicate (precision - digitCount mant) 0x30 else [])

/-- The body of the number in the alternate form, in upper case if asked. -/
def altBody (s : FSpec) (precision : Nat) (mant exp : List Nat) : List Nat :=
  if s.upper then
    (completed (s.kind = .general) precision mant ++ exp).map (CharKind.toUpper ⟨8, true⟩)
  else completed (s.kind = .general) precision mant ++ exp

/-! ## Proofs -/

theorem float_layout (s : FSpec) (ps : List Param) (v : FloatVal) (r : FloatText)
    (hr : convertValue s v (toInt32 (s.precisionOf ps 6)) = r) (body : List Nat)
    (hb : body = r.digits ++ (if r.decimal then [0x2e] else []) ++ List.replicate r.zeroes 0x30 ++ r.exponent) :
    if s.zero ∧ s.align = .default then
      formatFloat s ps v = signText s v.negative ++
        List.replicate (s.widthOf ps 0 - (signText s v.negative ++ body).length) 0x30 ++ body
    else Padded (s.fill.getD 0x20) (s.align.or .right) (s.widthOf ps 0) (signText s v.negative ++ body)
      (formatFloat s ps v) := by
  have hsign : (if v.negative then [0x2d] else if s.sign = .always then [0x2b]
      else if s.sign = .positivePadding then [0x20] else []) = signText s v.negative := by
    unfold signText
    cases v.negative <;> cases s.sign <;> rfl
  have hsl : (if v.negative || s.sign = .always || s.sign = .positivePadding then 1 else 0) =
      (signText s v.negative).length := by
    unfold signText
    cases v.negative <;> cases s.sign <;> rfl
  unfold formatFloat
  rw [hr]
  simp only [hsign]
  rw [show (if v.negative || decide (s.sign = .always) || decide (s.sign = .positivePadding) then 1 else 0) =
      (signText s v.negative).length from hsl]
  generalize signText s v.negative = sg
  simp only [padding]
  rw [← hb]
  have hl : sg.length + r.digits.length + r.exponent.length + (if r.decimal = true then 1 else 0) + r.zeroes =
      (sg ++ body).length := by
    rw [hb]; simp only [List.length_append, List.length_replicate]
    cases r.decimal <;> simp <;> omega
  rw [hl]
  generalize hw : s.widthOf ps 0 = w
  generalize hpad : max (sg ++ body).length w - (sg ++ body).length = pad
  have hpw : pad = w - (sg ++ body).length := by omega
  cases hal : s.align with
  | left =>
    simp only [reduceCtorEq, and_false, if_false]
    exact ⟨0, pad, by simp, by omega, by simp, by simp [Alignment.or], by simp [Alignment.or]⟩
  | right =>
    simp only [reduceCtorEq, and_false, if_false]
    exact ⟨pad, 0, by simp, by omega, by simp [Alignment.or], by simp, by simp [Alignment.or]⟩
  | center =>
    simp only [reduceCtorEq, and_false, if_false]
    obtain ⟨q1, q2, q3⟩ := center_split pad (pad / 2) _ rfl rfl
    exact ⟨pad / 2, if pad % 2 = 0 then pad / 2 else pad / 2 + 1, by simp, by omega,
      by simp [Alignment.or], by simp [Alignment.or], fun _ => ⟨q2, q3⟩⟩
  | default =>
    simp only [and_true]
    cases hz : s.zero with
    | true => simp only [if_true]; rw [← hpw]
    | false =>
      simp only [Bool.false_eq_true, if_false]
      exact ⟨pad, 0, by simp, by omega, by simp [Alignment.or], by simp, by simp [Alignment.or]⟩

theorem takeWhile_split (e : Nat) (mant exp : List Nat) (hm : e ∉ mant) (he : exp.head? = some e) :
    (mant ++ exp).takeWhile (· != e) = mant ∧ (mant ++ exp).dropWhile (· != e) = exp := by
  induction mant with
  | nil =>
    cases exp with
    | nil => cases he
    | cons x xs => simp only [List.head?_cons, Option.some.injEq] at he; simp [he]
  | cons a mant ih =>
    have ha : a ≠ e := fun h => hm (by simp [h])
    have := ih (fun h => hm (by simp [h]))
    simp [ha, this]

theorem splitFloat_eq (e : Nat) (mant exp : List Nat) (hm : e ∉ mant) (he : exp = [] ∨ exp.head? = some e)
    (hp : 0x2e ∉ exp) :
    splitFloat e (mant ++ exp) = { digits := mant, exponent := exp, decimal := !decide (0x2e ∈ mant) } := by
  have hd : (mant ++ exp).contains 0x2e = decide (0x2e ∈ mant) := by
    rw [Bool.eq_iff_iff]; simp [hp]
  unfold splitFloat
  rw [hd]
  rcases he with rfl | he
  · simp [hm]
  · have hx : e ∈ mant ++ exp := List.mem_append_right _ (List.mem_of_mem_head? he)
    obtain ⟨h1, h2⟩ := takeWhile_split e mant exp hm he
    simp only [hx, if_true, h1, h2]

theorem digitCount_eq (mant : List Nat) (h : mant.count 0x2e ≤ 1) :
    digitCount mant = mant.length - (if 0x2e ∈ mant then 1 else 0) := by
  have h1 : mant.length = digitCount mant + mant.count 0x2e := by
    unfold digitCount
    rw [List.count_eq_length_filter, Nat.add_comm]
    clear h
    induction mant with
    | nil => rfl
    | cons a m ih =>
      by_cases ha : a = 0x2e
      · simp [ha]; omega
      · simp [ha]; omega
  by_cases hm : 0x2e ∈ mant
  · have := List.count_pos_iff.mpr hm; simp only [hm, if_true]; omega
  · have := List.count_eq_zero.mpr hm; simp only [hm, if_false]; omega

theorem toUpper_point : CharKind.toUpper ⟨8, true⟩ 0x2e = 0x2e := by decide
theorem toUpper_zero : CharKind.toUpper ⟨8, true⟩ 0x30 = 0x30 := by decide

/-- **C77, alternate form.** When the text of `std::to_chars` fits the buffer and is a mantissa and an exponent, the
value is shown as its sign and that text with the point, and in the general format zeros up to the precision,
inserted before the exponent; padded to the width. Missing: texts that do not fit, infinities and
NaN in the general format, precisions of 2^31 and more. -/
theorem format_float_alt_partial (s : FSpec) (ps : List Param) (v : FloatVal) (mant exp : List Nat) (ha : s.alt = true)
    (ht : v.text s.kind (s.intPrecision ps) = mant ++ exp) (hfit : (mant ++ exp).length ≤ v.bufferSize)
    (hm : exponentChar s.kind ∉ mant) (he : exp = [] ∨ exp.head? = some (exponentChar s.kind)) (hp : 0x2e ∉ exp)
    (hg : s.kind = .general → Mantissa mant ∧ mant ≠ [] ∧ mant.length < 2 ^ 64 ∧ s.precisionOf ps 6 < 2 ^ 31) :
    if s.zero ∧ s.align = .default then
      formatFloat s ps v = signText s v.negative ++
        List.replicate (s.widthOf ps 0 - (signText s v.negative ++ altBody s (s.precisionOf ps 6) mant exp).length) 0x30 ++
        altBody s (s.precisionOf ps 6) mant exp
    else Padded (s.fill.getD 0x20) (s.align.or .right) (s.widthOf ps 0)
      (signText s v.negative ++ altBody s (s.precisionOf ps 6) mant exp) (formatFloat s ps v) := by
  apply float_layout s ps v _ rfl
  rw [← toInt32_precision] at ht
  unfold convertValue
  rw [ht]
  simp only [hfit, if_true, ha]
  have key : ∀ e, e = exponentChar s.kind → splitFloat e (mant ++ exp) =
      { digits := mant, exponent := exp, decimal := !decide (0x2e ∈ mant) } := by
    rintro e rfl
    exact splitFloat_eq _ _ _ hm he hp
  rw [key]
  case a => cases s.kind <;> rfl
  by_cases hk : s.kind = .general
  · obtain ⟨h1, h2, h3, h4⟩ := hg hk
    have hlen : 0 < mant.length := List.length_pos_iff.mpr h2
    have hprec : ((toInt32 (s.precisionOf ps 6)) % (2 : Int) ^ 64).toNat = s.precisionOf ps 6 := by
      unfold toInt32
      rw [Nat.mod_eq_of_lt (by omega : s.precisionOf ps 6 < 2 ^ 32)]
      simp only [h4, if_true]
      omega
    have hdc := digitCount_eq mant h1.2
    have hn : (mant.length + 2 ^ 64 - (if (!decide (0x2e ∈ mant)) = true then 0 else 1)) % 2 ^ 64 = digitCount mant := by
      rw [hdc]
      by_cases hq : 0x2e ∈ mant
      · simp only [hq, decide_true, Bool.not_true, Bool.false_eq_true, if_false, if_true]; omega
      · simp only [hq, decide_false, Bool.not_false, if_true, if_false]; omega
    simp only [hk, if_true, hprec, hn, altBody, completed, decide_true, gt_iff_lt]
    by_cases hz : digitCount mant < s.precisionOf ps 6
    · simp only [hz, if_true]
      cases s.upper <;> by_cases hq : 0x2e ∈ mant <;>
        simp [hq, toUpper_point, toUpper_zero, List.map_replicate]
    · have : s.precisionOf ps 6 - digitCount mant = 0 := by omega
      simp only [hz, if_false, this]
      cases s.upper <;> by_cases hq : 0x2e ∈ mant <;> simp [hq, toUpper_point]
  · simp only [hk, if_false, altBody, completed, decide_false, Bool.false_eq_true]
    cases s.upper <;> by_cases hq : 0x2e ∈ mant <;> simp [hq, toUpper_point]

theorem filter_completed (g : Bool) (p : Nat) (mant : List Nat) :
    (completed g p mant).filter (· != 0x2e) = mant.filter (· != 0x2e) ++ (if g then List.replicate (p - digitCount mant) 0x30 else []) := by
  unfold completed
  rw [List.filter_append, List.filter_append]
  have h1 : (if 0x2e ∈ mant then ([] : List Nat) else [0x2e]).filter (· != 0x2e) = [] := by split <;> rfl
  rw [h1, List.append_nil]
  congr 1
  cases g with
  | false => rfl
  | true => simp

/-- What the zeros are for: a mantissa without leading zeros, or the number zero, gets as many significant digits as
the precision says (or keeps those it has); there is exactly one point. -/
theorem alt_general_digits (mant : List Nat) (p : Nat) (h : Mantissa mant)
    (h0 : mant.head? ≠ some 0x30 ∧ mant.head? ≠ some 0x2e ∨ mant.all (fun c => c == 0x30 || c == 0x2e) = true) (hne : mant ≠ []) :
    significant (completed true p mant) = max p (significant mant) ∧ (completed true p mant).count 0x2e = 1 := by
  constructor
  · unfold significant
    simp only [filter_completed, if_true]
    rcases h0 with h0 | h0
    · cases mant with
      | nil => exact absurd rfl hne
      | cons c cs =>
        simp only [List.head?_cons, ne_eq, Option.some.injEq] at h0
        have hf : (c :: cs).filter (· != 0x2e) = c :: cs.filter (· != 0x2e) := by simp [h0.2]
        have hd : digitCount (c :: cs) = (c :: cs.filter (· != 0x2e)).length := by rw [digitCount, hf]
        rw [hd, hf]
        simp only [List.cons_append, List.all_cons, beq_iff_eq, h0.1, Bool.false_and, Bool.false_eq_true, if_false,
          List.dropWhile_cons, List.length_cons, List.length_append, List.length_replicate,
          show (c == 0x30) = false by simp [h0.1]]
        omega
    · have hall : (mant.filter (· != 0x2e)).all (· == 0x30) = true := by
        simp only [List.all_eq_true, Bool.or_eq_true, beq_iff_eq, List.mem_filter, bne_iff_ne, ne_eq] at h0 ⊢
        intro x ⟨hx, hn⟩
        exact (h0 x hx).resolve_right hn
      have : (mant.filter (· != 0x2e) ++ List.replicate (p - digitCount mant) 0x30).all (· == 0x30) = true := by
        rw [List.all_append, hall]; simp
      rw [this, hall]
      simp only [if_true, List.length_append, List.length_replicate, digitCount]
      omega
  · unfold completed
    have hz : (List.replicate (p - digitCount mant) 0x30).count 0x2e = 0 := by
      rw [List.count_eq_zero]; intro hx; exact absurd (List.eq_of_mem_replicate hx) (by decide)
    simp only [if_true, List.count_append, hz]
    by_cases hq : 0x2e ∈ mant
    · have := List.count_pos_iff.mpr hq
      have := h.2
      simp only [hq, if_true, List.count_nil]; omega
    · have := List.count_eq_zero.mpr hq
      simp [hq, this]

/-- Two and a half, and twelve million, in the general format: `2.50000` and `1.20000e+07`. -/
example :
    formatFloat { kind := .general, alt := true } [] ⟨false, fun _ _ => [0x32, 0x2e, 0x35], 53, fun _ _ => []⟩ =
      [0x32, 0x2e, 0x35, 0x30, 0x30, 0x30, 0x30] ∧
    formatFloat { kind := .general, alt := true, upper := true } [] ⟨true, fun _ _ => [0x31, 0x2e, 0x32, 0x65, 0x2b, 0x30, 0x37], 53, fun _ _ => []⟩ =
      [0x2d, 0x31, 0x2e, 0x32, 0x30, 0x30, 0x30, 0x30, 0x45, 0x2b, 0x30, 0x37] ∧
    exponentChar Kind.general ∉ [0x31, 0x2e, 0x32] ∧ Mantissa [0x31, 0x2e, 0x32] := by
  refine ⟨by decide +kernel, by decide +kernel, by decide, ?_, by decide⟩
  decide

/-- C77 does not hold for small numbers in the alternate general form: leading zeros are counted as
significant digits (formatters.hpp 826-833). 0.001 at precision 6 has the text `0.001` and must be
shown with six significant digits (`0.00100000`, as `printf("%#g")` does); it is shown as `0.00100`. -/
theorem float_alt_leading_zeros_violated :
    ∃ v : FloatVal, v.text .general 6 = [0x30, 0x2e, 0x30, 0x30, 0x31] ∧ v.bufferSize = 53 ∧ v.negative = false ∧
      formatFloat { kind := .general, alt := true } [] v = [0x30, 0x2e, 0x30, 0x30, 0x31, 0x30, 0x30] ∧
      significant [0x30, 0x2e, 0x30, 0x30, 0x31, 0x30, 0x30] = 3 :=
  ⟨⟨false, fun _ _ => [0x30, 0x2e, 0x30, 0x30, 0x31], 53, fun _ _ => []⟩, rfl, rfl, rfl, by decide +kernel, by decide +kernel⟩

/-- C77 does not hold for infinity in the alternate form: a point and zeros are appended to its text
(`inf.000`). -/
theorem float_alt_infinity_violated :
    ∃ v : FloatVal, v.text .general 6 = [0x69, 0x6e, 0x66] ∧ v.bufferSize = 53 ∧ v.negative = false ∧
      formatFloat { kind := .general, alt := true } [] v = [0x69, 0x6e, 0x66, 0x2e, 0x30, 0x30, 0x30] :=
  ⟨⟨false, fun _ _ => [0x69, 0x6e, 0x66], 53, fun _ _ => []⟩, rfl, rfl, rfl, by decide +kernel⟩

end Verif.Format
