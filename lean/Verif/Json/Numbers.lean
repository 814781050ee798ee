import Verif.Json.Spec
import Verif.Json.Parser

/-! # JSON numbers: the parser's checks accept exactly the RFC 8259 numbers -/

namespace Verif.Json

open Verif.Str (AsciiDigit numeral)

theorem isDigit_iff (c : Nat) : isDigit c = true ↔ AsciiDigit c := by
  unfold isDigit AsciiDigit; simp

/-- Position of the first `x`. -/
abbrev idx (x : Nat) (l : List Nat) : Option Nat := l.findIdx? (· == x)

theorem idx_none {x : Nat} {l : List Nat} (h : ∀ c ∈ l, c ≠ x) : idx x l = none := by
  unfold idx
  rw [List.findIdx?_eq_none_iff]
  intro c hc
  simpa using h c hc

theorem idx_append {x : Nat} {l r : List Nat} (h : ∀ c ∈ l, c ≠ x) :
    idx x (l ++ r) = (idx x r).map (· + l.length) := by
  have := idx_none h
  unfold idx at *
  rw [List.findIdx?_append, this]
  simp

theorem idx_head (x : Nat) (r : List Nat) : idx x (x :: r) = some 0 := by
  unfold idx; simp [List.findIdx?_cons]

theorem idx_cons_ne {x c : Nat} (h : c ≠ x) (r : List Nat) :
    idx x (c :: r) = (idx x r).map (· + 1) := by
  unfold idx; rw [List.findIdx?_cons]; simp [h]

/-- The position `validate_number` computes for the exponent. -/
abbrev ePos (l : List Nat) : Option Nat := minPos (idx 0x65 l) (idx 0x45 l)

theorem ePos_none {l : List Nat} (h : ∀ c ∈ l, c ≠ 0x65 ∧ c ≠ 0x45) : ePos l = none := by
  unfold ePos
  rw [idx_none (fun c hc => (h c hc).1), idx_none (fun c hc => (h c hc).2)]; rfl

theorem ePos_some {l : List Nat} (h : ∀ c ∈ l, c ≠ 0x65 ∧ c ≠ 0x45) {c : Nat}
    (hc : c = 0x65 ∨ c = 0x45) (r : List Nat) : ePos (l ++ c :: r) = some l.length := by
  unfold ePos
  rw [idx_append (fun c hc => (h c hc).1), idx_append (fun c hc => (h c hc).2)]
  rcases hc with rfl | rfl
  · rw [idx_head, idx_cons_ne (by decide)]
    cases idx 0x45 r with
    | none => simp [minPos]
    | some k => simp only [minPos, Option.map_some, Option.some.injEq]; omega
  · rw [idx_head, idx_cons_ne (by decide)]
    cases idx 0x65 r with
    | none => simp [minPos]
    | some k => simp only [minPos, Option.map_some, Option.some.injEq]; omega

theorem takeWhile_mem_digit {l : List Nat} : ∀ c ∈ l.takeWhile isDigit, AsciiDigit c := by
  intro c hc
  have := List.all_takeWhile (l := l) (p := isDigit)
  rw [List.all_eq_true] at this
  exact (isDigit_iff c).1 (this c hc)

theorem takeWhile_digits {ds r : List Nat} (h : ∀ d ∈ ds, AsciiDigit d)
    (hr : ∀ c t, r = c :: t → isDigit c = false) :
    (ds ++ r).takeWhile isDigit = ds ∧ (ds ++ r).dropWhile isDigit = r := by
  induction ds with
  | nil =>
    cases r with
    | nil => simp
    | cons c t => have := hr c t rfl; simp [this]
  | cons d ds ih =>
    have h1 := (isDigit_iff d).2 (h d List.mem_cons_self)
    have h2 := ih (fun x hx => h x (List.mem_cons_of_mem _ hx))
    simp only [List.cons_append, List.takeWhile_cons, List.dropWhile_cons, h1, if_true]
    exact ⟨by rw [h2.1], h2.2⟩

theorem span_digits (l : List Nat) : l = l.takeWhile isDigit ++ l.dropWhile isDigit :=
  List.takeWhile_append_dropWhile.symm

theorem dropWhile_head {l : List Nat} {c : Nat} {t : List Nat} (h : l.dropWhile isDigit = c :: t) :
    isDigit c = false := by
  have h1 : l.dropWhile isDigit ≠ [] := by rw [h]; simp
  have h2 := List.head_dropWhile_not isDigit h1
  simp only [h, List.head_cons] at h2
  exact h2

/-! ## Exponent -/

theorem dropExponent_iff (s : List Nat) : dropExponent s = [] ↔ ExpPart s := by
  constructor
  · intro h
    cases s with
    | nil => exact Or.inl rfl
    | cons c t =>
      rw [dropExponent] at h
      split at h
      · rename_i hc
        simp only at h
        right
        by_cases hs : t.head? = some 0x2b ∨ t.head? = some 0x2d
        · rw [if_pos hs] at h
          split at h
          · simp at h
          · rename_i hne
            have e := span_digits t.tail
            rw [h, List.append_nil] at e
            cases t with
            | nil => simp at hs
            | cons x u =>
              simp only [List.head?_cons, Option.some.injEq, List.tail_cons] at hs e h hne
              refine ⟨c, [x], u.takeWhile isDigit, hc, ?_, hne, takeWhile_mem_digit, ?_⟩
              · rcases hs with rfl | rfl <;> simp
              · rw [← e]; rfl
        · rw [if_neg hs] at h
          split at h
          · simp at h
          · rename_i hne
            have e := span_digits t
            rw [h, List.append_nil] at e
            exact ⟨c, [], t.takeWhile isDigit, hc, Or.inl rfl, hne, takeWhile_mem_digit, by
              rw [← e]; rfl⟩
      · simp at h
  · rintro (rfl | ⟨c, sg, ds, hc, hsg, hne, hd, rfl⟩)
    · rfl
    · have hw := takeWhile_digits hd (r := []) (by simp)
      rw [List.append_nil] at hw
      rw [dropExponent, if_pos hc]
      simp only
      rcases hsg with rfl | rfl | rfl
      · have hh : ¬ (ds.head? = some 0x2b ∨ ds.head? = some 0x2d) := by
          cases ds with
          | nil => simp
          | cons x u =>
            have := hd x List.mem_cons_self
            unfold AsciiDigit at this
            simp only [List.head?_cons, Option.some.injEq]; omega
        rw [List.nil_append, if_neg hh, hw.1, hw.2, if_neg hne]
      · simp only [List.singleton_append, List.head?_cons, true_or, if_true, List.tail_cons]
        rw [hw.1, hw.2, if_neg hne]
      · simp only [List.singleton_append, List.head?_cons, or_true, if_true, List.tail_cons]
        rw [hw.1, hw.2, if_neg hne]

/-! ## Integer part -/

theorem intPart_digits {ds : List Nat} (h : IntPart ds) : ds ≠ [] ∧ ∀ d ∈ ds, AsciiDigit d := by
  unfold AsciiDigit
  rcases h with rfl | ⟨c, t, rfl, h1, h2, h3⟩
  · simp
  · refine ⟨by simp, ?_⟩
    intro d hd
    rcases List.mem_cons.1 hd with rfl | hd
    · omega
    · exact h3 d hd

/-- The prefix of digits of a text `validate_number` lets through is an RFC 8259 `int`. -/
theorem intPart_of_starts {l i r : List Nat} (h : startsLikeNumber l = true) (hl : l = i ++ r)
    (hi : ∀ d ∈ i, AsciiDigit d) (hr : ∀ c t, r = c :: t → isDigit c = false) : IntPart i := by
  subst hl
  match i, hi, h with
  | [], _, h =>
    cases r with
    | nil => simp [startsLikeNumber] at h
    | cons c t =>
      have := hr c t rfl
      cases t <;> simp [startsLikeNumber, this] at h
  | [c], hi, _ =>
    have h1 := hi c (by simp)
    unfold AsciiDigit at h1
    by_cases h0 : c = 0x30
    · left; rw [h0]
    · right; exact ⟨c, [], rfl, by omega, by omega, by simp⟩
  | c :: d :: t, hi, h =>
    have h1 := hi c (by simp)
    have h2 := (isDigit_iff d).2 (hi d (by simp))
    unfold AsciiDigit at h1
    simp only [List.cons_append, startsLikeNumber, h2, Bool.and_true, Bool.and_eq_true,
      Bool.not_eq_true', beq_eq_false_iff_ne] at h
    right
    exact ⟨c, d :: t, rfl, by omega, by omega, fun x hx => hi x (List.mem_cons_of_mem _ hx)⟩

theorem starts_of_intPart {i r : List Nat} (h : IntPart i)
    (hr : ∀ c t, r = c :: t → isDigit c = false) : startsLikeNumber (i ++ r) = true := by
  rcases h with rfl | ⟨c, t, rfl, h1, h2, h3⟩
  · cases r with
    | nil => simp [startsLikeNumber, isDigit]
    | cons c t =>
      have := hr c t rfl
      simp only [List.cons_append, List.nil_append, startsLikeNumber, this]
      decide
  · have hc : isDigit c = true := (isDigit_iff c).2 ⟨by omega, by omega⟩
    have h0 : (c == 0x30) = false := by simp; omega
    cases htr : t ++ r with
    | nil => simp only [List.cons_append, htr, startsLikeNumber, hc]
    | cons x u => simp only [List.cons_append, htr, startsLikeNumber, hc, h0]; rfl

theorem digit_ne {ds : List Nat} (h : ∀ d ∈ ds, AsciiDigit d) :
    (∀ c ∈ ds, c ≠ 0x65 ∧ c ≠ 0x45) ∧ ∀ c ∈ ds, c ≠ 0x2e := by
  unfold AsciiDigit at h
  constructor
  · intro c hc; have := h c hc; omega
  · intro c hc; have := h c hc; omega

theorem all_digits_iff (l : List Nat) : l.all isDigit = true ↔ ∀ d ∈ l, AsciiDigit d := by
  rw [List.all_eq_true]
  exact ⟨fun h d hd => (isDigit_iff d).1 (h d hd), fun h d hd => (isDigit_iff d).2 (h d hd)⟩

/-! ## The kind of a number -/

theorem numberKind_int {sg : Bool} {ds : List Nat} (h : ∀ d ∈ ds, AsciiDigit d) :
    numberKind sg ds = if sg then .signed else .unsigned := by
  obtain ⟨h1, h2⟩ := digit_ne h
  have e1 := ePos_none h1
  have e2 := idx_none h2
  unfold ePos at e1
  unfold numberKind
  simp only [idx] at e1 e2
  simp only [e1, e2]
  simp

theorem numberKind_float {sg : Bool} {i f e : List Nat} (hi : ∀ d ∈ i, AsciiDigit d)
    (hf : FracPart f) (he : ExpPart e) (hne : f ≠ [] ∨ e ≠ []) :
    numberKind sg (i ++ f ++ e) = .float := by
  obtain ⟨h1, h2⟩ := digit_ne hi
  rcases hf with rfl | ⟨ds, hds, hd, rfl⟩
  · rcases he with rfl | ⟨c, s, ds, hc, hs, hds, hd, rfl⟩
    · simp at hne
    · have e1 := ePos_some h1 hc (s ++ ds)
      have hs' : ∀ x ∈ i ++ c :: (s ++ ds), x ≠ 0x2e := by
        intro x hx
        simp only [List.mem_append, List.mem_cons] at hx
        rcases hx with hx | hx | hx | hx
        · exact h2 x hx
        · omega
        · rcases hs with rfl | rfl | rfl <;> simp at hx <;> omega
        · exact (digit_ne hd).2 x hx
      have e2 := idx_none hs'
      unfold ePos at e1
      unfold numberKind
      simp only [idx, List.append_nil] at e1 e2 ⊢
      simp only [e1, e2]
      simp
  · have e2 : idx 0x2e (i ++ 0x2e :: ds ++ e) = some i.length := by
      rw [List.append_assoc, idx_append h2, List.cons_append, idx_head]; simp
    have hl : ∀ c ∈ i ++ 0x2e :: ds, c ≠ 0x65 ∧ c ≠ 0x45 := by
      intro x hx
      simp only [List.mem_append, List.mem_cons] at hx
      rcases hx with hx | hx | hx
      · exact h1 x hx
      · omega
      · exact (digit_ne hd).1 x hx
    have hdl : 1 ≤ ds.length := List.length_pos_iff.mpr hds
    rcases he with rfl | ⟨c, s, es, hc, hs, hes, hed, rfl⟩
    · have e1 := ePos_none hl
      unfold ePos at e1
      unfold numberKind
      simp only [idx, List.append_nil] at e1 e2 ⊢
      simp only [e1, e2, Option.getD_none, List.length_append, List.length_cons]
      rw [if_neg (by omega)]
    · have e1 := ePos_some hl hc (s ++ es)
      unfold ePos at e1
      unfold numberKind
      simp only [idx] at e1 e2
      simp only [e1, e2, Option.getD_some, List.length_append, List.length_cons]
      rw [if_neg (by omega)]

theorem fracExp_head {f e : List Nat} (hf : FracPart f) (he : ExpPart e) :
    ∀ c t, f ++ e = c :: t → isDigit c = false := by
  intro c t h
  rcases hf with rfl | ⟨ds, _, _, rfl⟩
  · rcases he with rfl | ⟨x, s, ds, hx, _, _, _, rfl⟩
    · simp at h
    · simp only [List.nil_append, List.cons.injEq] at h
      rw [← h.1]; rcases hx with rfl | rfl <;> decide
  · simp only [List.cons_append, List.cons.injEq] at h
    rw [← h.1]; decide

theorem dropFloat_sg {sg l : List Nat} (hs : sg = [] ∨ sg = [0x2d])
    (hl : l.head? ≠ some 0x2d) : dropFloat (sg ++ l) =
      dropExponent (if (l.dropWhile isDigit).head? = some 0x2e
        then (l.dropWhile isDigit).tail.dropWhile isDigit else l.dropWhile isDigit) := by
  unfold dropFloat
  rcases hs with rfl | rfl
  · simp only [List.nil_append, if_neg hl]
  · simp only [List.singleton_append, List.head?_cons, if_true, List.tail_cons]

theorem intPart_head {i : List Nat} (h : IntPart i) (r : List Nat) : (i ++ r).head? ≠ some 0x2d := by
  rcases h with rfl | ⟨c, t, rfl, h1, h2, h3⟩
  · simp
  · simp only [List.cons_append, List.head?_cons, ne_eq, Option.some.injEq]; omega

theorem dropFloat_number {sg i f e : List Nat} (hs : sg = [] ∨ sg = [0x2d]) (hi : IntPart i)
    (hf : FracPart f) (he : ExpPart e) : dropFloat (sg ++ i ++ f ++ e) = [] := by
  rw [List.append_assoc, List.append_assoc, dropFloat_sg hs (intPart_head hi _)]
  have h1 := (takeWhile_digits (intPart_digits hi).2 (fracExp_head hf he)).2
  rw [h1]
  have hx : ∀ c t, e = c :: t → isDigit c = false := by
    intro c t h
    exact fracExp_head (Or.inl rfl) he c t (by simpa using h)
  rcases hf with rfl | ⟨ds, hds, hd, rfl⟩
  · have hh : ¬ (([] ++ e).head? = some 0x2e) := by
      rcases he with rfl | ⟨c, s, es, hc, _, _, _, rfl⟩
      · simp
      · simp only [List.nil_append, List.head?_cons, Option.some.injEq]; omega
    rw [if_neg hh]
    exact (dropExponent_iff _).2 he
  · simp only [List.cons_append, List.head?_cons, if_true, List.tail_cons]
    rw [(takeWhile_digits hd hx).2]
    exact (dropExponent_iff _).2 he

/-! ## Main equivalence -/

theorem validateNumber_sg {sg l : List Nat} (hs : sg = [] ∨ sg = [0x2d])
    (hl : l.head? ≠ some 0x2d) : validateNumber (sg ++ l) =
      if startsLikeNumber l then numberKind (sg == [0x2d]) l else .invalid := by
  unfold validateNumber
  rcases hs with rfl | rfl
  · have : (l.head? == some 0x2d) = false := by simpa using hl
    simp only [List.nil_append, this]
    simp
  · simp

theorem number_convert (io : FloatIO) {t : List Nat} {v : Value} (h : Number io t v) :
    convertNumber io t = some v := by
  have nodig : ∀ (c : Nat) (t : List Nat), ([] : List Nat) = c :: t → isDigit c = false := by simp
  cases h with
  | uint hi hr =>
    have hd := intPart_digits hi
    have h1 := starts_of_intPart hi nodig
    have h2 := validateNumber_sg (sg := []) (Or.inl rfl) (intPart_head hi [])
    rw [List.append_nil, List.nil_append] at *
    rw [h1, if_pos rfl, numberKind_int hd.2] at h2
    unfold convertNumber
    rw [h2]
    simp only [convertUnsigned]
    rw [if_neg (by decide)]
    simp only
    rw [if_pos ⟨hd.1, (all_digits_iff _).2 hd.2, hr⟩]; rfl
  | int hi hr =>
    rename_i ds
    have hd := intPart_digits hi
    have h1 := starts_of_intPart hi nodig
    have h2 := validateNumber_sg (sg := [0x2d]) (Or.inr rfl) (intPart_head hi [])
    rw [List.append_nil] at *
    rw [h1, if_pos rfl, numberKind_int hd.2] at h2
    unfold convertNumber
    rw [List.singleton_append] at h2
    rw [h2, if_pos (by decide)]
    have h3 : convertSigned (0x2d :: ds) = if ds ≠ [] ∧ ds.all isDigit ∧ numeral 10 ds ≤ 2 ^ 63
        then some (-(numeral 10 ds : Int)) else none := rfl
    simp only [h3]
    rw [if_pos ⟨hd.1, (all_digits_iff _).2 hd.2, hr⟩]; rfl
  | flt hs hi hf he hne hx =>
    rename_i sg i f e x
    have hd := intPart_digits hi
    have h1 := starts_of_intPart hi (fracExp_head hf he)
    have h2 := validateNumber_sg hs (intPart_head hi (f ++ e))
    have h3 := dropFloat_number hs hi hf he
    have h4 := numberKind_float (sg := sg == [0x2d]) hd.2 hf he hne
    rw [List.append_assoc] at h4
    rw [h1, if_pos rfl, h4] at h2
    unfold convertNumber
    rw [show sg ++ i ++ f ++ e = sg ++ (i ++ (f ++ e)) by simp only [List.append_assoc]] at h3 hx ⊢
    rw [h2]
    simp only [convertFloat]
    rw [if_pos h3, hx]; rfl

theorem split_sign (t : List Nat) : ∃ sg l, t = sg ++ l ∧ (sg = [] ∨ sg = [0x2d]) ∧
    (sg = [] → l.head? ≠ some 0x2d) ∧ validateNumber t =
      (if startsLikeNumber l then numberKind (sg == [0x2d]) l else .invalid) ∧
    (startsLikeNumber l = true → l.head? ≠ some 0x2d) := by
  have hst : ∀ l, startsLikeNumber l = true → l.head? ≠ some 0x2d := by
    intro l hl hh
    cases l with
    | nil => simp at hh
    | cons c u =>
      simp only [List.head?_cons, Option.some.injEq] at hh
      subst hh
      cases u <;> revert hl <;> simp [startsLikeNumber, isDigit]
  by_cases h : t.head? = some 0x2d
  · cases t with
    | nil => simp at h
    | cons c u =>
      simp only [List.head?_cons, Option.some.injEq] at h
      subst h
      refine ⟨[0x2d], u, rfl, Or.inr rfl, by simp, ?_, hst u⟩
      unfold validateNumber; simp
  · refine ⟨[], t, rfl, Or.inl rfl, fun _ => h, ?_, hst t⟩
    have : (t.head? == some 0x2d) = false := by simpa using h
    unfold validateNumber; simp only [this]; simp

theorem numberKind_cases {sg : Bool} {l : List Nat} {k : NumType} (h : numberKind sg l = k) :
    (k = .signed → sg = true ∧ idx 0x2e l = none ∧ ePos l = none) ∧
    (k = .unsigned → sg = false ∧ idx 0x2e l = none ∧ ePos l = none) ∧
    (k = .float → (∃ d, idx 0x2e l = some d ∧ d + 1 < (ePos l).getD l.length) ∨
      (idx 0x2e l = none ∧ (ePos l).isSome = true)) := by
  unfold numberKind at h
  simp only at h
  unfold ePos idx
  cases hd : l.findIdx? (· == 0x2e) with
  | some d =>
    rw [hd] at h
    simp only at h
    split at h
    · subst h; simp
    · subst h
      refine ⟨by simp, by simp, fun _ => Or.inl ⟨d, rfl, by omega⟩⟩
  | none =>
    rw [hd] at h
    simp only at h
    split at h
    · rename_i hs; subst h; simp [hs]
    · rename_i hs
      rw [Bool.not_eq_true, Option.isSome_eq_false_iff, Option.isNone_iff_eq_none] at hs
      split at h
      · rename_i hsg; subst h; simp [hsg, hs]
      · rename_i hsg; subst h; simp [hsg, hs]

theorem convert_number (io : FloatIO) {t : List Nat} {v : Value} (h : convertNumber io t = some v) :
    Number io t v := by
  have nodig : ∀ (c : Nat) (t : List Nat), ([] : List Nat) = c :: t → isDigit c = false := by simp
  obtain ⟨sg, l, rfl, hs, hsg, hv, hst⟩ := split_sign t
  unfold convertNumber at h
  by_cases hstart : startsLikeNumber l = true
  · rw [if_pos hstart] at hv
    have hl := hst hstart
    rw [hv] at h
    cases hk : numberKind (sg == [0x2d]) l with
    | invalid => rw [hk] at h; simp at h
    | signed =>
      rw [hk] at h
      have := (numberKind_cases hk).1 rfl
      rcases hs with rfl | rfl
      · simp at this
      · have h3 : convertSigned (0x2d :: l) = if l ≠ [] ∧ l.all isDigit ∧ numeral 10 l ≤ 2 ^ 63
            then some (-(numeral 10 l : Int)) else none := rfl
        simp only [List.singleton_append, h3] at h
        split at h
        · rename_i hc
          simp only [Option.map_some, Option.some.injEq] at h
          subst h
          exact .int (intPart_of_starts hstart (List.append_nil l).symm
            ((all_digits_iff l).1 hc.2.1) nodig) hc.2.2
        · simp at h
    | unsigned =>
      rw [hk] at h
      have := (numberKind_cases hk).2.1 rfl
      rcases hs with rfl | rfl
      · simp only [convertUnsigned, List.nil_append] at h
        split at h
        · rename_i hc
          simp only [Option.map_some, Option.some.injEq] at h
          subst h
          exact .uint (intPart_of_starts hstart (List.append_nil l).symm
            ((all_digits_iff l).1 hc.2.1) nodig) hc.2.2
        · simp at h
      · simp at this
    | float =>
      rw [hk] at h
      have hkind := (numberKind_cases hk).2.2 rfl
      simp only [convertFloat] at h
      split at h
      · rename_i hdrop
        simp only [Option.map_eq_some_iff] at h
        obtain ⟨x, hx, rfl⟩ := h
        rw [dropFloat_sg hs hl] at hdrop
        have hspan := span_digits l
        have hi : IntPart (l.takeWhile isDigit) :=
          intPart_of_starts hstart hspan takeWhile_mem_digit
            (fun c t hc => dropWhile_head hc)
        obtain ⟨n1, n2⟩ := digit_ne (takeWhile_mem_digit (l := l))
        generalize hI : l.takeWhile isDigit = i at *
        generalize hR : l.dropWhile isDigit = r at *
        by_cases hdot : r.head? = some 0x2e
        · rw [if_pos hdot] at hdrop
          cases r with
          | nil => simp at hdot
          | cons c u =>
            simp only [List.head?_cons, Option.some.injEq] at hdot
            subst hdot
            simp only [List.tail_cons] at hdrop
            have he := (dropExponent_iff _).1 hdrop
            have hu := span_digits u
            have hmem := takeWhile_mem_digit (l := u)
            generalize hF : u.takeWhile isDigit = ds at *
            generalize hE : u.dropWhile isDigit = e at *
            have hds : ds ≠ [] := by
              rintro rfl
              rw [List.nil_append] at hu
              subst hu
              have e2 : idx 0x2e l = some i.length := by
                rw [hspan, idx_append n2, idx_head]; simp
              rcases hkind with ⟨d, g1, g2⟩ | ⟨g1, _⟩
              · rw [e2] at g1
                simp only [Option.some.injEq] at g1
                subst g1
                have hl' : ∀ c ∈ i ++ [0x2e], c ≠ 0x65 ∧ c ≠ 0x45 := by
                  intro x hx
                  simp only [List.mem_append, List.mem_cons, List.not_mem_nil, or_false] at hx
                  rcases hx with hx | hx
                  · exact n1 x hx
                  · omega
                rcases he with rfl | ⟨c, s, es, hc, _, _, _, rfl⟩
                · rw [hspan, ePos_none hl'] at g2
                  simp at g2
                · have := ePos_some hl' hc (s ++ es)
                  rw [hspan, show i ++ 0x2e :: c :: (s ++ es) = i ++ [0x2e] ++ c :: (s ++ es) by simp,
                    this] at g2
                  simp at g2
              · rw [e2] at g1; simp at g1
            have hf : FracPart (0x2e :: ds) := Or.inr ⟨ds, hds, hmem, rfl⟩
            have ht : sg ++ l = sg ++ i ++ (0x2e :: ds) ++ e := by
              rw [hspan, hu]; simp
            rw [ht] at hx ⊢
            exact .flt hs hi hf he (Or.inl (by simp)) hx
        · rw [if_neg hdot] at hdrop
          have he := (dropExponent_iff _).1 hdrop
          have ht : sg ++ l = sg ++ i ++ [] ++ r := by rw [hspan]; simp
          have hne : r ≠ [] := by
            rintro rfl
            rw [List.append_nil] at hspan
            subst hspan
            rcases hkind with ⟨d, g1, g2⟩ | ⟨_, g1⟩
            · rw [idx_none n2] at g1; simp at g1
            · rw [ePos_none n1] at g1; simp at g1
          rw [ht] at hx ⊢
          exact .flt hs hi (Or.inl rfl) he (Or.inr hne) hx
      · simp at h
  · rw [if_neg hstart] at hv
    rw [hv] at h
    simp at h

/-- `parse_value`'s number branch accepts exactly the RFC 8259 numbers in range. -/
theorem convertNumber_iff (io : FloatIO) (t : List Nat) (v : Value) :
    convertNumber io t = some v ↔ Number io t v := ⟨convert_number io, number_convert io⟩

end Verif.Json
