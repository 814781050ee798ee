import Verif.Format.Plain
import Verif.Common.Digits

/-!
# C131: the texts of `fly/system`

Sources: `/repo/fly/system/system.cpp` 24-33, `/repo/fly/system/nix/system_impl.cpp` 25-45 and
`/repo/fly/system/win/system_impl.cpp` 22-42 (the same but for the name of `localtime`). The calendar is the operating
system's: the broken-down time is an input.
-/

namespace Verif.System.Text

open Verif.Format (format Outcome Numeral)
open Verif.Digits (digits)

/-! ## Model -/

/-- The bytes of a text in ASCII. -/
def ascii (s : String) : List Nat := s.toList.map Char.toNat

/-- The members of `struct tm` that are used: the month counts from 0, the year from 1900. -/
structure Tm where
  mon : Nat
  mday : Nat
  year : Int
  hour : Nat
  min : Nat
  sec : Nat
deriving DecidableEq, Repr

/-- A number in two digits at least, as `strftime` writes it. -/
def two (n : Nat) : List Nat := if n < 10 then 0x30 :: digits 10 n else digits 10 n

/-- A year. -/
def yearText (y : Int) : List Nat := (if y < 0 then [0x2d] else []) ++ digits 10 y.natAbs

/-- The conversions of the C library's `strftime` that are used (nix/system_impl.cpp 37); others are left out. -/
def conversion (t : Tm) (c : Nat) : List Nat :=
  if c = 0x6d then two (t.mon + 1)
  else if c = 0x64 then two t.mday
  else if c = 0x59 then yearText (t.year + 1900)
  else if c = 0x48 then two t.hour
  else if c = 0x4d then two t.min
  else if c = 0x53 then two t.sec
  else []

/-- What a format of `strftime` stands for. -/
def expand (t : Tm) : List Nat → List Nat
  | [] => []
  | [c] => [c]
  | c :: d :: r => if c = 0x25 then conversion t d ++ expand t r else c :: expand t (d :: r)

/-- `strftime`: the text, if it fits with its terminating zero; the function returns 0 otherwise. -/
def strftime (size : Nat) (fmt : List Nat) (t : Tm) : Option (List Nat) :=
  if (expand t fmt).length + 1 ≤ size then some (expand t fmt) else none

/-- `local_time` (nix/system_impl.cpp 25-45); `none` if `localtime_r` fails. -/
def localTime : Option Tm → List Nat
  | none => []
  | some t => (strftime 32 (ascii "%m-%d-%Y %H:%M:%S") t).getD []

/-- `get_error_string(int)` (system.cpp 30-33): the code as 32 bits, and the text of the system's error category. -/
def errorString (message : Nat → List Nat) (code : Nat) : Outcome :=
  format ⟨8, true⟩ (ascii "({}) {}") [.int false true 32 code, .str (message code)]

/-- `get_error_string()` (system.cpp 24-27): `errno` is the last error. -/
def lastErrorString (message : Nat → List Nat) (errno : Nat) : Outcome := errorString message errno

/-! ## Specification -/

/-- A broken-down time as the C library makes it: a date and a time of day (with leap seconds), the year an `int`
after 1900. -/
structure Tm.Valid (t : Tm) : Prop where
  mon : t.mon ≤ 11
  mday : 1 ≤ t.mday ∧ t.mday ≤ 31
  hour : t.hour ≤ 23
  min : t.min ≤ 59
  sec : t.sec ≤ 60
  year : -2 ^ 31 ≤ t.year ∧ t.year < 2 ^ 31

/-- Two decimal digits. -/
def twoDigits (n : Nat) : List Nat := [0x30 + n / 10, 0x30 + n % 10]

/-- A number in decimal, with a minus sign if it is negative. -/
def Decimal (n : Int) (out : List Nat) : Prop :=
  ∃ ds, Numeral 10 false n.natAbs ds ∧ out = (if n < 0 then ascii "-" else []) ++ ds

/-- Month, day, year, hour, minute, second. -/
def Shows (t : Tm) (out : List Nat) : Prop :=
  ∃ y, Decimal (t.year + 1900) y ∧
    out = twoDigits (t.mon + 1) ++ ascii "-" ++ twoDigits t.mday ++ ascii "-" ++ y ++ ascii " " ++ twoDigits t.hour ++
      ascii ":" ++ twoDigits t.min ++ ascii ":" ++ twoDigits t.sec

/-- The value of 32 bits as a signed number. -/
def signed32 (n : Nat) : Int := if n < 2 ^ 31 then n else (n : Int) - 2 ^ 32

/-! ## Proofs -/

theorem two_eq {n : Nat} (h : n < 100) : two n = twoDigits n := by
  unfold two twoDigits
  by_cases h1 : n < 10
  · rw [if_pos h1, Verif.Digits.digits_of_lt h1]
    unfold Verif.Digits.digitChar
    rw [if_pos h1, Nat.div_eq_of_lt h1, Nat.mod_eq_of_lt h1]
  · rw [if_neg h1, Verif.Digits.digits_of_ge (by decide) (by omega), Verif.Digits.digits_of_lt (by omega)]
    unfold Verif.Digits.digitChar
    rw [if_pos (by omega), if_pos (by omega)]
    rfl

theorem digits_head {n : Nat} (h : 0 < n) : (digits 10 n).head? ≠ some 0x30 := by
  induction n using Nat.strongRecOn with
  | _ n ih =>
    by_cases h1 : n < 10
    · rw [Verif.Digits.digits_of_lt h1]
      unfold Verif.Digits.digitChar
      rw [if_pos h1]
      simp
      omega
    · rw [Verif.Digits.digits_of_ge (by decide) (by omega), List.head?_append]
      have := ih (n / 10) (by omega) (by omega)
      cases hd : (digits 10 (n / 10)).head? with
      | none => exact absurd (List.head?_eq_none_iff.1 hd) (Verif.Digits.digits_ne_nil _ _)
      | some c => rw [hd] at this; simpa using this

theorem digits_numeral (n : Nat) : Numeral 10 false n (digits 10 n) where
  digits := fun c hc => by
    have := Verif.Digits.digits_dec n c hc
    unfold Verif.Str.AsciiDigit at this
    unfold Verif.Format.BaseDigit
    omega
  nonempty := Verif.Digits.digits_ne_nil _ _
  noZeros := fun h => by
    by_cases h0 : n = 0
    · subst h0; decide +kernel
    · exact absurd h (digits_head (by omega))
  value := Verif.Digits.numeral_digits (by decide) (by decide) n

theorem digits_length {n : Nat} : ∀ k, n < 10 ^ (k + 1) → (digits 10 n).length ≤ k + 1 := by
  intro k
  induction k generalizing n with
  | zero => intro h; rw [Verif.Digits.digits_of_lt (by simpa using h)]; simp
  | succ k ih =>
    intro h
    by_cases h1 : n < 10
    · rw [Verif.Digits.digits_of_lt h1]; simp
    · rw [Verif.Digits.digits_of_ge (by decide) (by omega), List.length_append, List.length_singleton]
      have := ih (n := n / 10) (by rw [Nat.div_lt_iff_lt_mul (by decide)]; exact h)
      omega

theorem expand_eq (t : Tm) : expand t (ascii "%m-%d-%Y %H:%M:%S") =
    two (t.mon + 1) ++ 0x2d :: (two t.mday ++ 0x2d :: (yearText (t.year + 1900) ++ 0x20 :: (two t.hour ++
      0x3a :: (two t.min ++ 0x3a :: (two t.sec ++ []))))) := by
  rw [show ascii "%m-%d-%Y %H:%M:%S" = [0x25, 0x6d, 0x2d, 0x25, 0x64, 0x2d, 0x25, 0x59, 0x20, 0x25, 0x48, 0x3a, 0x25,
    0x4d, 0x3a, 0x25, 0x53] by decide +kernel]
  rfl

theorem local_time_eq (t : Tm) (h : t.Valid) : localTime (some t) =
    twoDigits (t.mon + 1) ++ ascii "-" ++ twoDigits t.mday ++ ascii "-" ++
      yearText (t.year + 1900) ++ ascii " " ++ twoDigits t.hour ++ ascii ":" ++ twoDigits t.min ++ ascii ":" ++
      twoDigits t.sec := by
  have hy := h.year
  have e : expand t (ascii "%m-%d-%Y %H:%M:%S") = twoDigits (t.mon + 1) ++ ascii "-" ++ twoDigits t.mday ++ ascii "-" ++
      yearText (t.year + 1900) ++ ascii " " ++ twoDigits t.hour ++ ascii ":" ++ twoDigits t.min ++ ascii ":" ++
      twoDigits t.sec := by
    rw [expand_eq, two_eq (by have := h.mon; omega), two_eq (by have := h.mday; omega),
      two_eq (by have := h.hour; omega), two_eq (by have := h.min; omega), two_eq (by have := h.sec; omega),
      show ascii "-" = [0x2d] by decide +kernel, show ascii " " = [0x20] by decide +kernel,
      show ascii ":" = [0x3a] by decide +kernel]
    simp
  have hl : (yearText (t.year + 1900)).length ≤ 11 := by
    unfold yearText
    have := digits_length (n := (t.year + 1900).natAbs) 9 (by omega)
    rw [List.length_append]
    split <;> simp <;> omega
  have hn : (expand t (ascii "%m-%d-%Y %H:%M:%S")).length + 1 ≤ 32 := by
    rw [e]
    simp only [List.length_append, twoDigits, List.length_cons, List.length_nil,
      show ascii "-" = [0x2d] by decide +kernel, show ascii " " = [0x20] by decide +kernel,
      show ascii ":" = [0x3a] by decide +kernel]
    omega
  unfold localTime strftime
  simp only
  rw [if_pos hn, e]
  rfl

/-- C131: `local_time` is never empty if the system knows the local time, and then shows month, day, year, hour,
minute and second. -/
theorem local_time_text (t : Tm) (h : t.Valid) : Shows t (localTime (some t)) ∧ localTime none = [] := by
  refine ⟨?_, rfl⟩
  rw [local_time_eq t h]
  refine ⟨yearText (t.year + 1900), ⟨digits 10 (t.year + 1900).natAbs, digits_numeral _, ?_⟩, rfl⟩
  rw [show ascii "-" = [0x2d] by decide +kernel]
  rfl

theorem digit_inj {a b : Nat} (h1 : 0x30 + a / 10 = 0x30 + b / 10) (h2 : 0x30 + a % 10 = 0x30 + b % 10) : a = b := by
  omega

theorem year_inj {a b : Int} (h : yearText a = yearText b) : a = b := by
  have v : ∀ n, Verif.Str.numeral 10 (digits 10 n) = n := Verif.Digits.numeral_digits (by decide) (by decide)
  have nm : ∀ n, (digits 10 n).head? ≠ some 0x2d := by
    intro n hd
    have := Verif.Digits.digits_dec n 0x2d (List.mem_of_mem_head? hd)
    unfold Verif.Str.AsciiDigit at this
    omega
  unfold yearText at h
  by_cases ha : a < 0 <;> by_cases hb : b < 0
  · rw [if_pos ha, if_pos hb, List.append_cancel_left_eq] at h
    have := congrArg (Verif.Str.numeral 10) h
    rw [v, v] at this
    omega
  · rw [if_pos ha, if_neg hb] at h
    exact absurd (by rw [← List.nil_append (digits _ _), ← h]; rfl) (nm b.natAbs)
  · rw [if_neg ha, if_pos hb] at h
    exact absurd (by rw [← List.nil_append (digits _ _), h]; rfl) (nm a.natAbs)
  · rw [if_neg ha, if_neg hb, List.append_cancel_left_eq] at h
    have := congrArg (Verif.Str.numeral 10) h
    rw [v, v] at this
    omega

/-- C131: two times with the same text are the same. -/
theorem local_time_injective (t u : Tm) (ht : t.Valid) (hu : u.Valid) (h : localTime (some t) = localTime (some u)) :
    t = u := by
  rw [local_time_eq t ht, local_time_eq u hu] at h
  simp only [twoDigits, show ascii "-" = [0x2d] by decide +kernel, show ascii " " = [0x20] by decide +kernel,
      show ascii ":" = [0x3a] by decide +kernel, List.append_assoc, List.cons_append, List.nil_append,
      List.cons.injEq, true_and] at h
  obtain ⟨m1, m2, d1, d2, h⟩ := h
  have h := List.append_inj' h (by simp)
  have hy := year_inj h.1
  have h := h.2
  simp only [List.cons.injEq, true_and, and_true] at h
  obtain ⟨h1, h2, i1, i2, s1, s2⟩ := h
  have a1 := digit_inj m1 m2
  have a2 := digit_inj d1 d2
  have a3 := digit_inj h1 h2
  have a4 := digit_inj i1 i2
  have a5 := digit_inj s1 s2
  rcases t with ⟨⟩
  rcases u with ⟨⟩
  simp only [Tm.mk.injEq]
  simp only at a1 a2 a3 a4 a5 hy
  omega

/-- The last second of 2019. -/
example : (⟨11, 31, 119, 23, 59, 59⟩ : Tm).Valid ∧
    localTime (some ⟨11, 31, 119, 23, 59, 59⟩) = ascii "12-31-2019 23:59:59" :=
  ⟨⟨by decide, by decide, by decide, by decide, by decide, by decide⟩, by decide +kernel⟩

/-- C131: an error is shown by its code in parentheses and its text. -/
theorem error_string_text (message : Nat → List Nat) (code : Nat) (hc : code < 2 ^ 32)
    (hm : (message code).length < 2 ^ 64) :
    ∃ n, Decimal (signed32 code) n ∧
      errorString message code = .text (ascii "(" ++ n ++ ascii ") " ++ message code) ∧
      lastErrorString message code = .text (ascii "(" ++ n ++ ascii ") " ++ message code) := by
  obtain ⟨ds, h1, h2⟩ := Verif.Format.shown_int true 32 code (by decide) hc
  have e : Verif.Format.intValue true 32 code = signed32 code := by
    unfold Verif.Format.intValue signed32
    by_cases h : code < 2 ^ 31
    · rw [if_neg (by simp; omega), if_pos h]
    · rw [if_pos (by simp; omega), if_neg h]
  rw [e] at h1 h2
  have h3 : errorString message code = .text (ascii "(" ++ ((if signed32 code < 0 then ascii "-" else []) ++ ds) ++ ascii ") " ++ message code) := by
    unfold errorString
    rw [Verif.Format.format_plain_two (a := ascii "(") (b := ascii ") ") (c := []) (by decide +kernel) (by decide +kernel)
      (by rfl), Verif.Format.shown_str _ hm, h2, show ascii "-" = [0x2d] by decide +kernel]
    simp
  exact ⟨_, ⟨ds, h1, rfl⟩, h3, h3⟩

example : errorString (fun _ => ascii "No such file") 2 = .text (ascii "(2) No such file") ∧
    errorString (fun _ => ascii "Unknown error -1") (2 ^ 32 - 1) = .text (ascii "(-1) Unknown error -1") := by
  decide +kernel

end Verif.System.Text
