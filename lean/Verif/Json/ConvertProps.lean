import Verif.Json.Convert
import Verif.Json.Props

/-!
# C92: converting a JSON value to a C++ type
-/

namespace Verif.Json

open Verif.Str (AsciiDigit numeral)

/-! ## Specification -/

/-- The values of an integral type. -/
def IntTy.Holds (t : IntTy) (x : Int) : Prop :=
  if t.signed then -(2 ^ (t.bits - 1)) ≤ x ∧ x < 2 ^ (t.bits - 1) else 0 ≤ x ∧ x < 2 ^ t.bits

/-- A type of the language: 1 to 64 bits. -/
def IntTy.Real (t : IntTy) : Prop := 1 ≤ t.bits ∧ t.bits ≤ 64

/-- A decimal text and the integer it denotes; a minus sign only if `minus`. -/
inductive DecimalText (minus : Bool) : List Nat → Int → Prop
  | pos (ds : List Nat) : ds ≠ [] → (∀ c ∈ ds, AsciiDigit c) → DecimalText minus ds (numeral 10 ds)
  | neg (ds : List Nat) : minus = true → ds ≠ [] → (∀ c ∈ ds, AsciiDigit c) →
      DecimalText minus (0x2d :: ds) (-(numeral 10 ds : Int))

/-- The mathematical integer a JSON number stands for, if it is one. -/
inductive Denotes : Value → Int → Prop
  | int (i : Int) : Denotes (.int i) i
  | uint (n : Nat) : Denotes (.uint n) n
  | flt (n : Int) (k : Nat) (x : Int) : n = x * 2 ^ k → Denotes (.flt (.fin n k)) x

theorem fits_iff (t : IntTy) (x : Int) : fits t x = true ↔ t.Holds x := by
  unfold fits IntTy.Holds
  split <;> simp

theorem castTo_of_holds {t : IntTy} {x : Int} (hb : t.Real) (h : t.Holds x) : castTo t x = x := by
  obtain ⟨b1, b2⟩ := hb
  unfold IntTy.Holds at h
  unfold castTo
  obtain ⟨k, hk⟩ : ∃ k, t.bits = k + 1 := ⟨t.bits - 1, by omega⟩
  rw [hk] at h ⊢
  have hp : (2 : Int) ^ (k + 1) = 2 ^ k * 2 := Int.pow_succ ..
  have hpos : (0 : Int) < 2 ^ k := Int.pow_pos (by decide)
  simp only [Nat.add_sub_cancel] at h ⊢
  generalize (2 : Int) ^ (k + 1) = M at *
  generalize (2 : Int) ^ k = H at *
  cases hs : t.signed with
  | false =>
    simp only [hs, Bool.false_eq_true, if_false] at h
    simp only [Bool.false_and, Bool.false_eq_true, if_false]
    exact Int.emod_eq_of_lt h.1 h.2
  | true =>
    simp only [hs, if_true] at h
    simp only [Bool.true_and, decide_eq_true_eq]
    rcases Int.lt_or_le x 0 with hx | hx
    · have e : x % M = x + M := by
        rw [← Int.add_emod_right]
        exact Int.emod_eq_of_lt (by omega) (by omega)
      rw [e, if_pos (by omega)]; omega
    · rw [Int.emod_eq_of_lt hx (by omega), if_neg (by omega)]

/-- C92: an integer of any type stored in a JSON value and taken out as any type that has it is the same
integer. -/
theorem json_integer_exact (t t' : IntTy) (ht' : t'.Real) (x : Int) (h : t.Holds x)
    (h' : t'.Holds x) : toInt t' (ofInt t x) = .ok x := by
  unfold ofInt
  cases hs : t.signed with
  | true => simp only [if_true, toInt]; rw [castTo_of_holds ht' h']
  | false =>
    have h0 : 0 ≤ x := by
      unfold IntTy.Holds at h
      rw [hs] at h
      exact h.1
    simp only [Bool.false_eq_true, if_false, toInt]
    rw [Int.toNat_of_nonneg h0, castTo_of_holds ht' h']

example : toInt ⟨true, 8⟩ (ofInt ⟨false, 64⟩ 100) = .ok 100 ∧ toInt ⟨true, 32⟩ (ofInt ⟨true, 8⟩ (-100)) = .ok (-100) := by
  decide +kernel

/-- C92: a number converts exactly to every integral type that has its value. -/
theorem json_number_exact_partial (t : IntTy) (ht : t.Real) (v : Value) (x : Int) (hd : Denotes v x) (h : t.Holds x) :
    toInt t v = .ok x := by
  cases hd with
  | int => simp only [toInt]; rw [castTo_of_holds ht h]
  | uint => simp only [toInt]; rw [castTo_of_holds ht h]
  | flt n k x hn =>
    have hp : (2 : Int) ^ k ≠ 0 := Int.pow_ne_zero (by decide)
    simp only [toInt, Flt.trunc, hn, Int.mul_tdiv_cancel _ hp, (fits_iff t x).2 h, if_true]

example : Denotes (.flt (.fin 24 3)) 3 ∧ toInt ⟨true, 8⟩ (.flt (.fin 24 3)) = .ok 3 :=
  ⟨.flt _ _ _ (by decide), by decide +kernel⟩

/-- C92 is false of the code: an integer that does not fit the type is silently reduced modulo a power
of two, a floating-point value that does not fit is undefined. -/
theorem json_number_exact_violated :
    toInt ⟨true, 8⟩ (.int 300) = .ok 44 ∧ toInt ⟨false, 64⟩ (.int (-1)) = .ok (2 ^ 64 - 1) ∧
      toInt ⟨true, 32⟩ (.flt (.fin (2 ^ 40) 0)) = .ub := by
  decide +kernel

/-- C92: a text converts to an integral type exactly if it is a decimal numeral of a value of the type
(with a minus sign only for signed types), and gives that value; otherwise it throws. -/
theorem json_text_to_integer (t : IntTy) (s : List Nat) :
    (∀ x, toInt t (.str s) = .ok x ↔ DecimalText t.signed s x ∧ t.Holds x) ∧
      (toInt t (.str s) = .threw ↔ ¬ ∃ x, DecimalText t.signed s x ∧ t.Holds x) := by
  have key : ∀ x, fromChars t s = some x ↔ DecimalText t.signed s x ∧ t.Holds x := by
    intro x
    have body : ∀ (ds : List Nat) (y : Int),
        ((if ds ≠ [] ∧ ds.all isDigit ∧ fits t y then some y else none) = some x) ↔
          (x = y ∧ ds ≠ [] ∧ (∀ c ∈ ds, AsciiDigit c) ∧ t.Holds y) := by
      intro ds y
      rw [← all_digits_iff, ← fits_iff]
      constructor
      · intro h
        split at h
        · rename_i hc
          simp only [Option.some.injEq] at h
          exact ⟨h.symm, hc⟩
        · simp at h
      · rintro ⟨h1, h2⟩
        rw [if_pos h2, h1]
    cases hn : (t.signed && s.head? == some 0x2d) with
    | false =>
      have e : fromChars t s = if s ≠ [] ∧ s.all isDigit ∧ fits t (numeral 10 s : Int) then
          some (numeral 10 s : Int) else none := by
        unfold fromChars; simp only [hn, Bool.false_eq_true, if_false]
      rw [e, body]
      constructor
      · rintro ⟨rfl, h1, h2, h3⟩
        exact ⟨.pos s h1 h2, h3⟩
      · rintro ⟨hd, hh⟩
        cases hd with
        | pos _ h1 h2 => exact ⟨rfl, h1, h2, hh⟩
        | neg ds hm h1 h2 => simp [hm] at hn
    | true =>
      have hn' := hn
      simp only [Bool.and_eq_true, beq_iff_eq] at hn'
      obtain ⟨hs, hh⟩ := hn'
      cases s with
      | nil => simp at hh
      | cons c ds =>
        simp only [List.head?_cons, Option.some.injEq] at hh
        subst hh
        have e : fromChars t (0x2d :: ds) = if ds ≠ [] ∧ ds.all isDigit ∧ fits t (-(numeral 10 ds : Int)) then
            some (-(numeral 10 ds : Int)) else none := by
          unfold fromChars; simp only [hn, if_true, List.tail_cons]
        rw [e, body]
        constructor
        · rintro ⟨rfl, h1, h2, h3⟩
          exact ⟨.neg ds hs h1 h2, h3⟩
        · rintro ⟨hd, hh⟩
          cases hd with
          | pos _ h1 h2 =>
            have := h2 0x2d (by simp)
            exact absurd this (by decide)
          | neg _ hm h1 h2 => exact ⟨rfl, h1, h2, hh⟩
  constructor
  · intro x
    rw [← key x]
    simp only [toInt]
    cases fromChars t s <;> simp
  · simp only [toInt]
    cases hf : fromChars t s with
    | none =>
      simp only [true_iff]
      rintro ⟨x, hx⟩
      rw [← key x, hf] at hx
      simp at hx
    | some y =>
      simp only [reduceCtorEq, false_iff, Classical.not_not]
      exact ⟨y, (key y).1 hf⟩

example : toInt ⟨true, 8⟩ (.str [0x2d, 0x31, 0x32, 0x38]) = .ok (-128) ∧
    toInt ⟨true, 8⟩ (.str [0x31, 0x32, 0x38]) = .threw ∧ toInt ⟨false, 8⟩ (.str [0x2d, 0x31]) = .threw ∧
    toInt ⟨true, 8⟩ (.str [0x2b, 0x31]) = .threw := by decide +kernel

/-- C92: an integer turned into text and read back is the same integer. -/
theorem json_integer_text_round_trip (io : FloatIO) (t : IntTy) (x : Int) (h : t.Holds x) :
    ∃ s, toStr io (ofInt t x) = .ok s ∧ toInt t (.str s) = .ok x := by
  have hpos : ∀ n : Nat, DecimalText t.signed (Verif.Digits.digits 10 n) n := by
    intro n
    have := DecimalText.pos (minus := t.signed) (Verif.Digits.digits 10 n) (Verif.Digits.digits_ne_nil 10 n)
      (Verif.Digits.digits_dec n)
    rwa [Verif.Digits.numeral_digits (by decide) (by decide)] at this
  unfold ofInt
  cases hs : t.signed with
  | true =>
    simp only [if_true, toStr]
    refine ⟨_, rfl, ((json_text_to_integer t _).1 x).2 ⟨?_, h⟩⟩
    unfold fmtInt
    split
    · have := DecimalText.neg (minus := t.signed) (Verif.Digits.digits 10 x.natAbs) hs
        (Verif.Digits.digits_ne_nil 10 _) (Verif.Digits.digits_dec _)
      rw [Verif.Digits.numeral_digits (by decide) (by decide)] at this
      have e : -(x.natAbs : Int) = x := by omega
      rwa [e] at this
    · have := hpos x.natAbs
      have e : (x.natAbs : Int) = x := by omega
      rwa [e] at this
  | false =>
    have h0 : 0 ≤ x := by
      unfold IntTy.Holds at h
      rw [hs] at h
      exact h.1
    simp only [Bool.false_eq_true, if_false, toStr]
    refine ⟨_, rfl, ((json_text_to_integer t _).1 x).2 ⟨?_, h⟩⟩
    have := hpos x.toNat
    rwa [Int.toNat_of_nonneg h0] at this

/-- C92: what converts to false. -/
inductive Falsy : Value → Prop
  | null : Falsy .null
  | str : Falsy (.str [])
  | obj : Falsy (.obj [])
  | arr : Falsy (.arr [])
  | bool : Falsy (.bool false)
  | int : Falsy (.int 0)
  | uint : Falsy (.uint 0)
  | flt (k : Nat) : Falsy (.flt (.fin 0 k))
  | nan : Falsy (.flt .nan)

/-- C92: exactly null, empty containers and strings, false, zero and NaN convert to false. -/
theorem json_to_bool (v : Value) : toBool v = false ↔ Falsy v := by
  constructor
  · intro h
    cases v with
    | null => exact .null
    | str s => cases s with | nil => exact .str | cons _ _ => simp [toBool] at h
    | obj m => cases m with | nil => exact .obj | cons _ _ => simp [toBool] at h
    | arr l => cases l with | nil => exact .arr | cons _ _ => simp [toBool] at h
    | bool b => simp only [toBool] at h; subst h; exact .bool
    | int i => simp only [toBool, bne_eq_false_iff_eq] at h; subst h; exact .int
    | uint n => simp only [toBool, bne_eq_false_iff_eq] at h; subst h; exact .uint
    | flt f =>
      cases f with
      | fin n k => simp only [toBool, bne_eq_false_iff_eq] at h; subst h; exact .flt k
      | inf _ => simp [toBool] at h
      | nan => exact .nan
  · intro h; cases h <;> rfl

theorem convElems_map {α β : Type} (conv : Value → Out α) (mk : β → Value) (f : β → α) (l : List β)
    (h : ∀ x ∈ l, conv (mk x) = .ok (f x)) : convElems conv (l.map mk) = .ok (l.map f) := by
  induction l with
  | nil => rfl
  | cons x l ih =>
    simp only [List.map_cons, convElems, h x (by simp), ih (fun y hy => h y (List.mem_cons_of_mem _ hy))]

theorem ofArr_eq (l : List Value) : ofArr l = .arr l := by
  unfold ofArr
  have : ∀ (a l : List Value), l.foldl (fun acc v => acc ++ [v]) a = a ++ l := by
    intro a l
    induction l generalizing a with
    | nil => simp
    | cons x l ih => simp [ih]
  rw [this]; simp

/-- C92: a sequence of integers stored as a JSON array comes back as the same sequence. -/
theorem json_array_round_trip (t : IntTy) (ht : t.Real) (xs : List Int) (h : ∀ x ∈ xs, t.Holds x) :
    toArr (toInt t) (ofArr (xs.map (ofInt t))) = .ok xs := by
  rw [ofArr_eq]
  simp only [toArr]
  have := convElems_map (toInt t) (ofInt t) id xs
    (fun x hx => json_integer_exact t t ht x (h x hx) (h x hx))
  simpa using this

example : ∀ x ∈ ([1, -2, 127] : List Int), IntTy.Holds ⟨true, 8⟩ x := by simp [IntTy.Holds]

/-- The conversions of the elements all succeed, with these results. -/
inductive Converts {α : Type} (conv : Value → Out α) : List Value → List α → Prop
  | nil : Converts conv [] []
  | cons {v x l xs} : conv v = .ok x → Converts conv l xs → Converts conv (v :: l) (x :: xs)

theorem convElems_iff {α : Type} (conv : Value → Out α) (l : List Value) (xs : List α) :
    convElems conv l = .ok xs ↔ Converts conv l xs := by
  induction l generalizing xs with
  | nil =>
    constructor
    · intro h; simp only [convElems, Out.ok.injEq] at h; subst h; exact .nil
    · intro h; cases h; rfl
  | cons v l ih =>
    constructor
    · intro h
      simp only [convElems] at h
      split at h
      · split at h
        · rename_i y hy _ ys hys
          simp only [Out.ok.injEq] at h
          subst h
          exact .cons hy ((ih ys).1 hys)
        · simp at h
        · simp at h
      · simp at h
      · simp at h
    · intro h
      cases h with
      | cons h1 h2 => simp only [convElems, h1, (ih _).2 h2]

/-- C92: an array converts to a sequence container exactly if each element converts, and then element by
element in order; to a fixed array of `n` elements with the first `n` of them, padded with the default. -/
theorem json_to_sequence {α : Type} (conv : Value → Out α) (dflt : α) (n : Nat) (l : List Value) (xs : List α) :
    (toArr conv (.arr l) = .ok xs ↔ Converts conv l xs) ∧
      (toFixed conv dflt n (.arr l) = .ok xs ↔
        ∃ ys, Converts conv (l.take n) ys ∧ xs = ys ++ List.replicate (n - ys.length) dflt) := by
  constructor
  · exact convElems_iff conv l xs
  · simp only [toFixed]
    constructor
    · intro h
      split at h
      · rename_i ys hys
        simp only [Out.ok.injEq] at h
        exact ⟨ys, (convElems_iff _ _ _).1 hys, h.symm⟩
      · simp at h
      · simp at h
    · rintro ⟨ys, h1, h2⟩
      rw [(convElems_iff _ _ _).2 h1, h2]

example : toFixed (toInt ⟨true, 8⟩) 7 3 (.arr [.int 1, .uint 2]) = .ok [1, 2, 7] ∧
    toFixed (toInt ⟨true, 8⟩) 7 1 (.arr [.int 1, .null]) = .ok [1] ∧
    toArr (toInt ⟨true, 8⟩) (.arr [.int 1, .null]) = .threw := by decide +kernel

/-! ## Strings of other encodings and objects -/

/-- C92: a stored string converts to any encoding as the same characters, if it is still UTF-8. -/
theorem json_to_wide (e : Verif.Unicode.Enc) (cps : List Nat) (h : ∀ c ∈ cps, Verif.Unicode.Scalar c) :
    toWide e (.str (cps.flatMap Verif.Unicode.utf8Of)) = .ok (cps.flatMap (Verif.Unicode.formOf e)) := by
  have hb := Verif.Unicode.flatMap_bound enc cps h
  have hd := (Verif.Unicode.decodeAll_iff enc _ _ rfl hb cps).2 ⟨h, rfl⟩
  have c1 : cps.flatMap (Verif.Unicode.codepointToString e) = cps.flatMap (Verif.Unicode.formOf e) :=
    Verif.Unicode.flatMap_congr_mem cps (fun x hx => Verif.Unicode.codepointToString_eq e (h x hx))
  have hc : Verif.Unicode.convert enc e (cps.flatMap Verif.Unicode.utf8Of) = some (cps.flatMap (Verif.Unicode.formOf e)) := by
    unfold Verif.Unicode.convert
    rw [← c1]
    exact congrArg (Option.map _) hd
  simp only [toWide, hc]

/-- C92 is false of the code for a string cut by `resize`: the empty result is dereferenced. -/
theorem json_to_wide_violated (cap : Nat) :
    toWide .utf16 (step cap (.str [0xc3, 0xa9]) (.resize 1)).1 = .ub := by
  have h : (step cap (.str [0xc3, 0xa9]) (.resize 1)).1 = .str [0xc3] := rfl
  rw [h]
  decide +kernel

theorem insertNew_last {k : List Nat} {v : Value} : ∀ {m : List (List Nat × Value)}, SortedKeys m →
    (∀ p ∈ m, p.1 < k) → insertNew k v m = m ++ [(k, v)] := by
  intro m
  induction m with
  | nil => intro _ _; rfl
  | cons p m ih =>
    obtain ⟨k', v'⟩ := p
    intro hs h
    have h1 : k' < k := h (k', v') (by simp)
    have h2 : ¬ k < k' := fun h' => List.lt_asymm h1 h'
    rw [insertNew, if_neg (by rw [strLt_iff]; exact h2), if_pos ((strLt_iff _ _).2 h1),
      ih (List.pairwise_cons.1 hs).2 (fun p hp => h p (List.mem_cons_of_mem _ hp))]
    rfl

theorem ofMap_go : ∀ (es m : List (List Nat × Value)), SortedKeys (m ++ es) →
    (∀ p ∈ es, convertToString p.1 = some p.1) →
    es.foldl (fun acc e => match acc, convertToString e.1 with
      | some m, some k => some (insertNew k e.2 m)
      | _, _ => none) (some m) = some (m ++ es) := by
  intro es
  induction es with
  | nil => intro m _ _; simp
  | cons p es ih =>
    obtain ⟨k, v⟩ := p
    intro m hs hk
    have hm : SortedKeys m := (List.pairwise_append.1 hs).1
    have hlt : ∀ p ∈ m, p.1 < k := fun p hp => (List.pairwise_append.1 hs).2.2 p hp (k, v) (by simp)
    have e1 : convertToString k = some k := hk (k, v) (by simp)
    simp only [List.foldl_cons, e1]
    rw [insertNew_last hm hlt, ih (m ++ [(k, v)]) (by simpa using hs) (fun p hp => hk p (List.mem_cons_of_mem _ hp))]
    simp

/-- C92: a map whose keys are UTF-8 without quotes, reverse solidi and control characters becomes an
object with the same entries, and comes back as the same map. -/
theorem json_object_round_trip (m : List (List Nat × Value)) (hs : SortedKeys m)
    (hk : ∀ p ∈ m, Verif.Unicode.WellFormed8 p.1 ∧ ∀ c ∈ p.1, 0x20 ≤ c ∧ c ≠ 0x22 ∧ c ≠ 0x5c) :
    ofMap m = some m ∧ toMap (.obj m) = .ok m := by
  refine ⟨?_, rfl⟩
  have := ofMap_go m [] (by simpa using hs)
    (fun p hp => json_string_restore_partial p.1 (hk p hp).1 (hk p hp).2)
  exact this

example : ofMap [([0x61], .int 1), ([0x62, 0x63], .null)] = some [([0x61], .int 1), ([0x62, 0x63], .null)] ∧
    ofMap [([0x0a], .int 1)] = none := ⟨by
  rw [(json_object_round_trip _ (by simp [SortedKeys]; decide) ?_).1]
  intro p hp
  simp only [List.mem_cons, List.not_mem_nil, or_false] at hp
  rcases hp with rfl | rfl
  · exact ⟨wf8_ascii _ (by decide), by decide⟩
  · exact ⟨wf8_ascii _ (by decide), by decide⟩, by
  have : convertToString [0x0a] = none := by decide +kernel
  simp [ofMap, this]⟩

end Verif.Json
