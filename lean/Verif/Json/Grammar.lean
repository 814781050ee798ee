import Verif.Json.Blanks
import Verif.Json.Maps
import Verif.Json.Numbers
import Verif.Json.Strings

/-! # The parser against the grammar -/

namespace Verif.Json

open Verif.Unicode (WellFormed8)
open Verif.Str (AsciiDigit AsciiHex)

/-! ## Quoted strings -/

theorem quotedBody_quote (s : List Nat) : quotedBody (0x22 :: s) = some ([], s) := by
  cases s with
  | nil => simp [quotedBody]
  | cons d s => simp [quotedBody]

theorem quotedBody_esc (d : Nat) (s : List Nat) :
    quotedBody (0x5c :: d :: s) = (quotedBody s).map (fun p => (0x5c :: d :: p.1, p.2)) := by
  simp [quotedBody]

theorem quotedBody_plain {c : Nat} (h1 : c ≠ 0x22) (h2 : c ≠ 0x5c) (s : List Nat) :
    quotedBody (c :: s) = (quotedBody s).map (fun p => (c :: p.1, p.2)) := by
  cases s with
  | nil => simp [quotedBody, h1]
  | cons d s => simp [quotedBody, h1, h2]

theorem quotedBody_plains {p : List Nat} (h : ∀ c ∈ p, c ≠ 0x22 ∧ c ≠ 0x5c) (s : List Nat) :
    quotedBody (p ++ s) = (quotedBody s).map (fun q => (p ++ q.1, q.2)) := by
  induction p with
  | nil => simp
  | cons c p ih =>
    obtain ⟨h1, h2⟩ := h c List.mem_cons_self
    rw [List.cons_append, quotedBody_plain h1 h2, ih (fun d hd => h d (List.mem_cons_of_mem _ hd))]
    rw [Option.map_map]; rfl

theorem hex_plain {h : List Nat} (hh : ∀ d ∈ h, AsciiHex d) : ∀ c ∈ h, c ≠ 0x22 ∧ c ≠ 0x5c := by
  intro c hc
  have := hh c hc
  unfold AsciiHex AsciiDigit at this
  omega

theorem quoted_run {t m : List Nat} (h : Chars t m) (r : List Nat) :
    quotedBody (t ++ 0x22 :: r) = some (t, r) := by
  induction h with
  | nil => exact quotedBody_quote r
  | plain h1 h2 h3 _ ih => rw [List.cons_append, quotedBody_plain h2 h3, ih]; rfl
  | simple h1 _ ih => rw [List.cons_append, List.cons_append, quotedBody_esc, ih]; rfl
  | uni h1 h2 _ ih =>
    rw [List.cons_append, List.cons_append, quotedBody_esc, List.append_assoc,
      quotedBody_plains (hex_plain h1.2.1), ih]; rfl
  | pair h1 h2 h3 h4 _ ih =>
    rw [List.cons_append, List.cons_append, quotedBody_esc, List.append_assoc,
      quotedBody_plains (hex_plain h1.2.1), List.cons_append, List.cons_append, quotedBody_esc,
      List.append_assoc, quotedBody_plains (hex_plain h3.2.1), ih]; rfl

theorem quoted_inv : ∀ (n : Nat) (s raw r : List Nat), s.length = n → quotedBody s = some (raw, r) →
    s = raw ++ 0x22 :: r := by
  intro n
  induction n using Nat.strongRecOn with
  | _ n ih =>
    intro s raw r hn h
    cases s with
    | nil => simp [quotedBody] at h
    | cons c s =>
      simp only [List.length_cons] at hn
      by_cases h1 : c = 0x22
      · subst h1
        rw [quotedBody_quote] at h
        simp only [Option.some.injEq, Prod.mk.injEq] at h
        rw [← h.1, ← h.2]; rfl
      · by_cases h2 : c = 0x5c
        · subst h2
          cases s with
          | nil => simp [quotedBody] at h
          | cons d s =>
            simp only [List.length_cons] at hn
            rw [quotedBody_esc] at h
            simp only [Option.map_eq_some_iff, Prod.mk.injEq, Prod.exists] at h
            obtain ⟨a, b, h3, h4, h5⟩ := h
            have := ih s.length (by omega) s a b rfl h3
            rw [← h4, ← h5, this]; rfl
        · rw [quotedBody_plain h1 h2] at h
          simp only [Option.map_eq_some_iff, Prod.mk.injEq, Prod.exists] at h
          obtain ⟨a, b, h3, h4, h5⟩ := h
          have := ih s.length (by omega) s a b rfl h3
          rw [← h4, ← h5, this]; rfl

theorem consumeToken_run {tok : Nat} (ht : isWs tok = false) {a : List Nat} (ha : LibWs a)
    (r : List Nat) : consumeToken tok (a ++ tok :: r) = (.keep, r) := by
  unfold consumeToken
  rw [skipWs_append ha (by intro c t h; simp only [List.cons.injEq] at h; rw [← h.1]; exact ht)]
  simp

theorem consumeToken_inv {tok : Nat} {s r : List Nat} (h : consumeToken tok s = (.keep, r)) :
    ∃ a, LibWs a ∧ s = a ++ tok :: r := by
  obtain ⟨a, h1, h2, _⟩ := skipWs_inv s
  unfold consumeToken at h
  cases h3 : skipWs s with
  | nil => rw [h3] at h; simp at h
  | cons c t =>
    rw [h3] at h h1
    by_cases hc : c = tok
    · subst hc
      simp only [if_true, Prod.mk.injEq, true_and] at h
      subst h
      exact ⟨a, h2, h1⟩
    · simp [hc] at h

theorem parseQuoted_run {t m a : List Nat} (ha : LibWs a) (h : Chars t m) (r : List Nat) :
    parseQuoted (a ++ 0x22 :: (t ++ 0x22 :: r)) = some (t, r) := by
  unfold parseQuoted
  rw [consumeToken_run (by decide) ha]
  exact quoted_run h r

theorem parseQuoted_inv {s raw r : List Nat} (h : parseQuoted s = some (raw, r)) :
    ∃ a, LibWs a ∧ s = a ++ 0x22 :: (raw ++ 0x22 :: r) := by
  unfold parseQuoted at h
  cases hc : consumeToken 0x22 s with
  | mk st u =>
    rw [hc] at h
    cases st with
    | keep =>
      obtain ⟨a, h1, h2⟩ := consumeToken_inv hc
      have := quoted_inv _ u raw r rfl h
      exact ⟨a, h1, by rw [h2, this]⟩
    | stop => simp at h
    | invalid => simp at h

theorem parseKey_run {t m a e : List Nat} (ha : LibWs a) (h : Chars t m) (he : LibWs e) (r : List Nat) :
    parseKey (a ++ 0x22 :: (t ++ 0x22 :: (e ++ 0x3a :: r))) = some (t, r) := by
  unfold parseKey
  rw [parseQuoted_run ha h]
  simp only [consumeToken_run (show isWs 0x3a = false by decide) he]

theorem parseKey_inv {s raw r : List Nat} (h : parseKey s = some (raw, r)) :
    ∃ a e, LibWs a ∧ LibWs e ∧ s = a ++ 0x22 :: (raw ++ 0x22 :: (e ++ 0x3a :: r)) := by
  unfold parseKey at h
  cases hq : parseQuoted s with
  | none => rw [hq] at h; simp at h
  | some p =>
    obtain ⟨raw', u⟩ := p
    rw [hq] at h
    simp only at h
    cases hc : consumeToken 0x3a u with
    | mk st u' =>
      rw [hc] at h
      cases st with
      | keep =>
        simp only [Option.some.injEq, Prod.mk.injEq] at h
        obtain ⟨a, h1, h2⟩ := parseQuoted_inv hq
        obtain ⟨e, h3, h4⟩ := consumeToken_inv hc
        refine ⟨a, e, h1, h3, ?_⟩
        rw [h2, h4, h.1, h.2]
      | stop => simp at h
      | invalid => simp at h

/-! ## Literals and numbers -/

/-- What may follow a literal or a number. -/
def Term (r : List Nat) : Prop := ∀ c t, r = c :: t → isValueChar c = false

theorem term_nil : Term [] := by intro c t h; simp at h

theorem takeWhile_run {t r : List Nat} (ht : ∀ c ∈ t, isValueChar c = true) (hr : Term r) :
    (t ++ r).takeWhile isValueChar = t ∧ (t ++ r).dropWhile isValueChar = r := by
  induction t with
  | nil =>
    cases r with
    | nil => simp
    | cons c r => simp [hr c r rfl]
  | cons c t ih =>
    have := ih (fun d hd => ht d (List.mem_cons_of_mem _ hd))
    have hc := ht c List.mem_cons_self
    simp [hc, this.1, this.2]

theorem digit_valueChar {d : Nat} (h : AsciiDigit d) : isValueChar d = true := by
  unfold AsciiDigit at h
  have : d = 48 ∨ d = 49 ∨ d = 50 ∨ d = 51 ∨ d = 52 ∨ d = 53 ∨ d = 54 ∨ d = 55 ∨ d = 56 ∨ d = 57 := by
    omega
  rcases this with rfl | rfl | rfl | rfl | rfl | rfl | rfl | rfl | rfl | rfl <;> decide

theorem intPart_all {ds : List Nat} (h : IntPart ds) : ∀ d ∈ ds, AsciiDigit d := by
  rcases h with rfl | ⟨c, t, rfl, h1, h2, h3⟩
  · intro d hd
    simp only [List.mem_singleton] at hd; subst hd; unfold AsciiDigit; omega
  · intro d hd
    rcases List.mem_cons.1 hd with rfl | hd
    · unfold AsciiDigit; omega
    · exact h3 d hd

theorem intPart_ne {ds : List Nat} (h : IntPart ds) : ∃ c t, ds = c :: t ∧ AsciiDigit c := by
  rcases h with rfl | ⟨c, t, rfl, h1, h2, h3⟩
  · exact ⟨0x30, [], rfl, by unfold AsciiDigit; omega⟩
  · exact ⟨c, t, rfl, by unfold AsciiDigit; omega⟩

theorem number_valueChars {io : FloatIO} {t : List Nat} {v : Value} (h : Number io t v) :
    ∀ c ∈ t, isValueChar c = true := by
  cases h with
  | uint h1 _ => intro c hc; exact digit_valueChar (intPart_all h1 c hc)
  | int h1 _ =>
    intro c hc
    rcases List.mem_cons.1 hc with rfl | hc
    · decide
    · exact digit_valueChar (intPart_all h1 c hc)
  | flt h1 h2 h3 h4 _ _ =>
    intro c hc
    simp only [List.mem_append] at hc
    rcases hc with ((hc | hc) | hc) | hc
    · rcases h1 with rfl | rfl
      · simp at hc
      · simp only [List.mem_singleton] at hc; subst hc; decide
    · exact digit_valueChar (intPart_all h2 c hc)
    · rcases h3 with rfl | ⟨ds, _, h3, rfl⟩
      · simp at hc
      · rcases List.mem_cons.1 hc with rfl | hc
        · decide
        · exact digit_valueChar (h3 c hc)
    · rcases h4 with rfl | ⟨x, sg, ds, hx, hsg, _, h4, rfl⟩
      · simp at hc
      · rcases List.mem_cons.1 hc with rfl | hc
        · rcases hx with rfl | rfl <;> decide
        · rcases List.mem_append.1 hc with hc | hc
          · rcases hsg with rfl | rfl | rfl
            · simp at hc
            · simp only [List.mem_singleton] at hc; subst hc; decide
            · simp only [List.mem_singleton] at hc; subst hc; decide
          · exact digit_valueChar (h4 c hc)

theorem number_head {io : FloatIO} {t : List Nat} {v : Value} (h : Number io t v) :
    ∃ c u, t = c :: u ∧ (c = 0x2d ∨ AsciiDigit c) := by
  cases h with
  | uint h1 _ => obtain ⟨c, u, rfl, h⟩ := intPart_ne h1; exact ⟨c, u, rfl, Or.inr h⟩
  | int h1 _ => exact ⟨_, _, rfl, Or.inl rfl⟩
  | flt h1 h2 h3 h4 _ _ =>
    obtain ⟨c, u, rfl, h⟩ := intPart_ne h2
    rcases h1 with rfl | rfl
    · exact ⟨c, _, rfl, Or.inr h⟩
    · exact ⟨0x2d, _, rfl, Or.inl rfl⟩

/-- A value that is not a string or a container: a literal or a number. -/
inductive Scalar1 (io : FloatIO) : List Nat → Value → Prop
  | null : Scalar1 io [0x6e, 0x75, 0x6c, 0x6c] .null
  | tru : Scalar1 io [0x74, 0x72, 0x75, 0x65] (.bool true)
  | fals : Scalar1 io [0x66, 0x61, 0x6c, 0x73, 0x65] (.bool false)
  | num {t v} : Number io t v → Scalar1 io t v

theorem valueOf_iff (io : FloatIO) (t : List Nat) (v : Value) :
    valueOf io t = some v ↔ Scalar1 io t v := by
  unfold valueOf
  have ht : fmtBool true = [0x74, 0x72, 0x75, 0x65] := rfl
  have hf : fmtBool false = [0x66, 0x61, 0x6c, 0x73, 0x65] := rfl
  have hnum : ∀ {t : List Nat} {c : Nat} {u : List Nat} {v : Value}, Number io t v → t = c :: u →
      c = 0x2d ∨ AsciiDigit c := by
    intro t c u v h e
    obtain ⟨c', u', e', h'⟩ := number_head h
    rw [e] at e'
    simp only [List.cons.injEq] at e'
    rw [e'.1]; exact h'
  split
  · rename_i h; subst h
    constructor
    · intro h; simp only [Option.some.injEq] at h; subst h; rw [ht]; exact .tru
    · intro h
      rw [ht] at h
      cases h with
      | tru => rfl
      | num h => have := hnum h rfl; unfold AsciiDigit at this; omega
  · split
    · rename_i h; subst h
      constructor
      · intro h; simp only [Option.some.injEq] at h; subst h; rw [hf]; exact .fals
      · intro h
        rw [hf] at h
        cases h with
        | fals => rfl
        | num h => have := hnum h rfl; unfold AsciiDigit at this; omega
    · split
      · rename_i h; subst h
        constructor
        · intro h; simp only [Option.some.injEq] at h; subst h; exact .null
        · intro h
          unfold nullText at h
          cases h with
          | null => rfl
          | num h => have := hnum h rfl; unfold AsciiDigit at this; omega
      · rename_i h1 h2 h3
        rw [convertNumber_iff]
        constructor
        · exact .num
        · intro h
          cases h with
          | tru => exact absurd rfl h1
          | fals => exact absurd rfl h2
          | null => exact absurd rfl h3
          | num h => exact h

theorem scalar1_chars {io : FloatIO} {t : List Nat} {v : Value} (h : Scalar1 io t v) :
    ∀ c ∈ t, isValueChar c = true := by
  cases h with
  | null => decide
  | tru => decide
  | fals => decide
  | num h => exact number_valueChars h

theorem parseValue_run {io : FloatIO} {t : List Nat} {v : Value} (h : Scalar1 io t v) {r : List Nat}
    (hr : Term r) : parseValue io (t ++ r) = .ok v r := by
  unfold parseValue
  obtain ⟨h1, h2⟩ := takeWhile_run (scalar1_chars h) hr
  rw [h1, h2, (valueOf_iff io t v).2 h]

theorem parseValue_inv {io : FloatIO} {s : List Nat} {v : Value} {r : List Nat}
    (h : parseValue io s = .ok v r) : ∃ t, Scalar1 io t v ∧ s = t ++ r := by
  unfold parseValue at h
  cases hv : valueOf io (s.takeWhile isValueChar) with
  | none => rw [hv] at h; simp at h
  | some w =>
    rw [hv] at h
    simp only [Res.ok.injEq] at h
    refine ⟨s.takeWhile isValueChar, ?_, ?_⟩
    · rw [← h.1]; exact (valueOf_iff _ _ _).1 hv
    · rw [← h.2, List.takeWhile_append_dropWhile]

theorem parseValue_not_oom {io : FloatIO} (s : List Nat) : parseValue io s ≠ .oom := by
  unfold parseValue; split <;> simp

/-! ## First characters -/

/-- A value starts with none of these. -/
def ValueHead (c : Nat) : Prop :=
  isWs c = false ∧ c ≠ 0x2f ∧ c ≠ 0x2c ∧ c ≠ 0x5d ∧ c ≠ 0x7d

theorem jvalue_head {io : FloatIO} {D : Dialect} {t : List Nat} {v : Value} (h : JValue io D t v) :
    ∃ c u, t = c :: u ∧ ValueHead c := by
  cases h with
  | null => exact ⟨_, _, rfl, by unfold ValueHead; decide⟩
  | tru => exact ⟨_, _, rfl, by unfold ValueHead; decide⟩
  | fals => exact ⟨_, _, rfl, by unfold ValueHead; decide⟩
  | num h =>
    obtain ⟨c, u, h1, h2⟩ := number_head h
    refine ⟨c, u, h1, ?_⟩
    unfold AsciiDigit at h2
    unfold ValueHead isWs
    refine ⟨?_, by omega, by omega, by omega, by omega⟩
    simp only [Bool.or_eq_false_iff, beq_eq_false_iff_ne, ne_eq]
    omega
  | str _ => exact ⟨_, _, rfl, by unfold ValueHead; decide⟩
  | obj0 _ => exact ⟨_, _, rfl, by unfold ValueHead; decide⟩
  | obj _ _ _ _ => exact ⟨_, _, rfl, by unfold ValueHead; decide⟩
  | arr0 _ => exact ⟨_, _, rfl, by unfold ValueHead; decide⟩
  | arr _ _ _ => exact ⟨_, _, rfl, by unfold ValueHead; decide⟩

end Verif.Json
