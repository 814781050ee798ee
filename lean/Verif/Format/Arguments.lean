import Verif.Format.Plain

/-!
# C140: the arguments of `format` reach their formatters unchanged

Source: the constructors of `BasicFormatParameter`, `format_string_value` and `format_standard_value`
(`/repo/fly/types/string/detail/format_parameters.hpp` 331-400, 420-490) and `BasicClassifier::size`
(`/repo/fly/types/string/detail/classifier.hpp` 186-213). A parameter forgets the type of its argument: integers are kept
as 64-bit integers, texts as an address and a length.

A text argument is a `std::string` or a view (units), an array of `N` characters (units, all `N` of them), or a pointer
(the units of the memory it points to, up to the end of the object).
-/

namespace Verif.Format.Arguments

open Verif.Format

/-! ## Model -/

/-- `BasicClassifier::size(CharType const (&)[N])`, classifier.hpp 206-213. -/
def sizeOfArray (a : List Nat) : Nat := a.length - (if a.getLast? = some 0 then 1 else 0)

/-- `std::char_traits::length`, classifier.hpp 195-198, for pointers and arrays that are not constant: the position of the
first zero. `none`: there is none, the memory behind the object is read. -/
def sizeOfPointer (m : List Nat) : Option Nat := m.findIdx? (· == 0)

/-- A text argument of `format`. -/
inductive TextArg where
  /-- `std::basic_string` or `std::basic_string_view` -/
  | view (s : List Nat)
  /-- an array of characters, constant or not: the constructor takes it by `T const &` -/
  | array (a : List Nat)
  /-- a pointer to characters -/
  | pointer (m : List Nat)
deriving Repr

/-- The constructor for texts, format_parameters.hpp 420-448, and `format_string_value`, 331-346: the view the
formatter gets. `none`: undefined behaviour. -/
def storeText : TextArg → Option Param
  | .view s => some (.str s)
  | .array a => some (.str (a.take (sizeOfArray a)))
  | .pointer m => (sizeOfPointer m).map fun n => .str (m.take n)

/-- The constructor for integers, format_parameters.hpp 461-477: the 64-bit integer kept (its representation), extended by
the sign if the type has one. -/
def store64 (signed : Bool) (bits repr : Nat) : Nat := (intValue signed bits repr % 2 ^ 64).toNat

/-- `format_standard_value`, format_parameters.hpp 391-399: cast back to the type. -/
def load (bits r64 : Nat) : Nat := r64 % 2 ^ bits

/-- `String::size` of an array that is not constant: the overload for arrays of constants needs a conversion, so the
other one is taken (classifier.hpp 188-204, string.hpp 441-446). -/
def sizeOfBuffer (a : List Nat) : Option Nat := sizeOfPointer a

/-- The constructor of a lexer from a literal, lexer.hpp 150-157: its view. -/
def lexerView (a : List Nat) : List Nat := a.take (sizeOfArray a)

/-! ## Specification -/

/-- The text in a C string: everything before the first zero. -/
def CText (m t : List Nat) : Prop := ∃ r, m = t ++ 0 :: r ∧ 0 ∉ t

/-! ## Proofs -/

theorem findIdx_text {t r : List Nat} (h : 0 ∉ t) : (t ++ 0 :: r).findIdx? (· == 0) = some t.length := by
  induction t with
  | nil => rfl
  | cons c t ih =>
    have hc : (c == 0) = false := by
      have : c ≠ 0 := fun e => h (by simp [e])
      simpa using this
    rw [List.cons_append, List.findIdx?_cons, hc]
    simp only [Bool.false_eq_true, if_false]
    rw [ih fun hm => h (List.mem_cons_of_mem _ hm)]
    rfl

/-- C140: a pointer argument is the text before the first zero; without a zero in the object the call is undefined. -/
theorem pointer_text (m : List Nat) :
    (∀ t, CText m t → storeText (.pointer m) = some (.str t) ∧ sizeOfBuffer m = some t.length) ∧
    (0 ∉ m → storeText (.pointer m) = none ∧ sizeOfBuffer m = none) := by
  refine ⟨?_, ?_⟩
  · rintro t ⟨r, rfl, h⟩
    have e : sizeOfPointer (t ++ 0 :: r) = some t.length := findIdx_text h
    refine ⟨?_, e⟩
    show (sizeOfPointer _).map _ = _
    rw [e, Option.map_some, List.take_left]
  · intro h
    have : m.findIdx? (· == 0) = none := by
      rw [List.findIdx?_eq_none_iff]
      intro x hx
      have : x ≠ 0 := fun e => h (e ▸ hx)
      simpa using this
    have e : sizeOfPointer m = none := this
    refine ⟨?_, e⟩
    show (sizeOfPointer _).map _ = _
    rw [e]
    rfl

theorem array_last_zero (b : List Nat) : (b ++ [0]).take (sizeOfArray (b ++ [0])) = b := by
  unfold sizeOfArray
  rw [List.getLast?_concat, if_pos rfl, List.length_append, List.length_singleton, Nat.add_sub_cancel]
  simp

theorem array_last_other {a : List Nat} (h : a.getLast? ≠ some 0) : a.take (sizeOfArray a) = a := by
  unfold sizeOfArray
  rw [if_neg h, Nat.sub_zero, List.take_length]

/-- C140: a string literal (zero at its end and nowhere else), a view and a pointer to the same text are all formatted as
that text; an array without a zero at its end is formatted as all of its characters. -/
theorem text_arguments_partial (t : List Nat) (hl : t.length < 2 ^ 64) :
    (storeText (.view t)).map (fun p => format ⟨8, true⟩ [0x7b, 0x7d] [p]) = some (.text t) ∧
    (storeText (.array (t ++ [0]))).map (fun p => format ⟨8, true⟩ [0x7b, 0x7d] [p]) = some (.text t) ∧
    (t.getLast? ≠ some 0 → (storeText (.array t)).map (fun p => format ⟨8, true⟩ [0x7b, 0x7d] [p]) = some (.text t)) ∧
    (0 ∉ t → ∀ r, (storeText (.pointer (t ++ 0 :: r))).map (fun p => format ⟨8, true⟩ [0x7b, 0x7d] [p]) = some (.text t)) ∧
    lexerView (t ++ [0]) = t := by
  have key : format ⟨8, true⟩ [0x7b, 0x7d] [.str t] = .text t := by
    rw [format_shown, shown_str t hl]
  refine ⟨?_, ?_, ?_, ?_, array_last_zero t⟩
  · unfold storeText
    rw [Option.map_some, key]
  · unfold storeText
    rw [Option.map_some, array_last_zero, key]
  · intro h
    unfold storeText
    rw [Option.map_some, array_last_other h, key]
  · intro h r
    rw [((pointer_text _).1 t ⟨r, rfl, h⟩).1, Option.map_some, key]

/-- C140: exactly what is shown of an array of characters, whatever is in it. -/
theorem array_shown (a : List Nat) (hl : a.length < 2 ^ 64) :
    (storeText (.array a)).map (fun p => format ⟨8, true⟩ [0x7b, 0x7d] [p]) =
      some (.text (if a.getLast? = some 0 then a.dropLast else a)) := by
  have h1 : a.take (sizeOfArray a) = if a.getLast? = some 0 then a.dropLast else a := by
    split
    · rename_i h
      unfold sizeOfArray
      rw [if_pos h, List.dropLast_eq_take]
    · rename_i h
      exact array_last_other h
  unfold storeText
  rw [Option.map_some, format_shown, shown_str, h1]
  rw [h1]
  split
  · rw [List.length_dropLast]
    omega
  · exact hl

/-- C140 fails for every buffer that is larger than the text in it needs: the zero after the text and what follows it are
shown too, whatever the text and the buffer; the same buffer given as a pointer is shown right. -/
theorem buffer_shown_violated (t r : List Nat) (ht : 0 ∉ t) (hr : r ≠ []) (hl : (t ++ 0 :: r).length < 2 ^ 64) :
    CText (t ++ 0 :: r) t ∧
    ∃ u, (storeText (.array (t ++ 0 :: r))).map (fun p => format ⟨8, true⟩ [0x7b, 0x7d] [p]) = some (.text (t ++ 0 :: u)) ∧
      (storeText (.pointer (t ++ 0 :: r))).map (fun p => format ⟨8, true⟩ [0x7b, 0x7d] [p]) = some (.text t) := by
  refine ⟨⟨r, rfl, ht⟩, if (t ++ 0 :: r).getLast? = some 0 then r.dropLast else r, ?_, ?_⟩
  · rw [array_shown _ hl]
    have e : (t ++ 0 :: r).dropLast = t ++ 0 :: r.dropLast := by
      cases r with
      | nil => exact absurd rfl hr
      | cons c r =>
        rw [List.dropLast_append_of_ne_nil (by simp)]
        rfl
    split
    · rw [e]
    · rfl
  · refine (text_arguments_partial t ?_).2.2.2.1 ht r
    rw [List.length_append] at hl
    omega

/-- C140: integers of every type of at most 64 bits, signed and unsigned, come back as they were, and what is kept has the
value of the argument (that is what nested widths and precisions read). -/
theorem integer_arguments (signed : Bool) (bits repr : Nat) (hb : 0 < bits) (hb' : bits ≤ 64) (hr : repr < 2 ^ bits) :
    load bits (store64 signed bits repr) = repr ∧
    intValue signed 64 (store64 signed bits repr) = intValue signed bits repr := by
  have hpow : 2 ^ bits ∣ 2 ^ 64 := Nat.pow_dvd_pow 2 hb'
  have hle : (2 : Nat) ^ bits ≤ 2 ^ 64 := Nat.le_of_dvd (Nat.two_pow_pos _) hpow
  have hhalf : (2 : Nat) ^ bits = 2 * 2 ^ (bits - 1) := by
    rw [← Nat.pow_succ']
    congr 1
    omega
  obtain ⟨k, hk⟩ := hpow
  have hle' : (2 : Nat) ^ (bits - 1) ≤ 2 ^ 63 := Nat.pow_le_pow_right (by decide) (by omega)
  have hc : ((2 : Int) ^ bits) = ((2 ^ bits : Nat) : Int) := by rw [Int.natCast_pow]; rfl
  by_cases h : signed = true ∧ 2 ^ (bits - 1) ≤ repr
  · have hv : intValue signed bits repr = (repr : Int) - 2 ^ bits := if_pos h
    have hs : store64 signed bits repr = 2 ^ 64 + repr - 2 ^ bits := by
      unfold store64
      rw [hv, hc]
      generalize 2 ^ bits = B at *
      omega
    rw [hv, hs]
    refine ⟨?_, ?_⟩
    · unfold load
      have hk1 : 1 ≤ k := by
        rcases Nat.eq_zero_or_pos k with h0 | h0
        · subst h0
          rw [Nat.mul_zero] at hk
          exact absurd hk (by decide)
        · exact h0
      obtain ⟨j, rfl⟩ : ∃ j, k = j + 1 := ⟨k - 1, by omega⟩
      rw [hk, Nat.mul_succ, show 2 ^ bits * j + 2 ^ bits + repr - 2 ^ bits = repr + 2 ^ bits * j by omega,
        Nat.add_mul_mod_self_left, Nat.mod_eq_of_lt hr]
    · unfold intValue
      rw [if_pos ⟨h.1, by generalize 2 ^ bits = B at *; omega⟩, hc]
      generalize 2 ^ bits = B at *
      omega
  · have hv : intValue signed bits repr = (repr : Int) := if_neg h
    have hs : store64 signed bits repr = repr := by
      unfold store64
      rw [hv]
      omega
    rw [hv, hs]
    refine ⟨Nat.mod_eq_of_lt hr, ?_⟩
    unfold intValue
    rw [if_neg]
    rintro ⟨h1, h2⟩
    exact h ⟨h1, Nat.le_trans hle' h2⟩

/-- A buffer of eight characters with `hi` in it is shown with five zeros. -/
example : (storeText (.array [0x68, 0x69, 0, 0, 0, 0, 0, 0])).map (fun p => format ⟨8, true⟩ [0x7b, 0x7d] [p]) =
    some (.text [0x68, 0x69, 0, 0, 0, 0, 0]) := array_shown _ (by decide)

/-- A signed 8-bit -1. -/
example : store64 true 8 0xff = 2 ^ 64 - 1 ∧ load 8 (2 ^ 64 - 1) = 0xff := by decide +kernel

end Verif.Format.Arguments
