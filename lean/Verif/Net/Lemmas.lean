import Verif.Net.Model
import Verif.Str.Props
import Verif.Numeric.Props

namespace Verif.Net

open Verif.Str Verif.Digits

/-! ## The lexer in terms of the unconsumed text -/

/-- The unconsumed text. -/
def rest (l : Lexer) : List Nat := l.view.drop l.index

/-- A lexer over an ASCII text within its bounds. -/
structure LexOk (l : Lexer) : Prop where
  ascii : ∀ u ∈ l.view, u < 0x80
  index : l.index ≤ l.view.length
  size : l.view.length < 2 ^ 64

theorem LexOk.unit {l : Lexer} (h : LexOk l) : ∀ u ∈ l.view, u < 2 ^ charK.width ∧ charK.neg u = false := by
  intro u hu
  have := h.ascii u hu
  exact ⟨by show u < 2 ^ 8; omega, neg_ascii .char this⟩

theorem peek_rest {l : Lexer} (h : LexOk l) : l.peek 0 = (rest l).head? := by
  unfold Lexer.peek rest
  have := h.index
  have := h.size
  rw [Nat.add_zero, Nat.mod_eq_of_lt (by omega), List.head?_drop]

theorem rest_adv {l : Lexer} {n : Nat} : rest { l with index := l.index + n } = (rest l).drop n := by
  unfold rest; simp [List.drop_drop]

theorem consumeIf_rest {l : Lexer} (h : LexOk l) (ch : Nat) :
    ((rest l).head? = some ch ∧ (l.consumeIf ch).1 = true ∧ LexOk (l.consumeIf ch).2 ∧
      rest (l.consumeIf ch).2 = (rest l).drop 1) ∨
    ((rest l).head? ≠ some ch ∧ l.consumeIf ch = (false, l)) := by
  unfold Lexer.consumeIf
  rw [peek_rest h]
  by_cases hc : (rest l).head? = some ch
  · left
    rw [if_pos hc]
    refine ⟨hc, rfl, ⟨h.ascii, ?_, h.size⟩, rest_adv⟩
    have : rest l ≠ [] := by intro e; rw [e] at hc; simp at hc
    unfold rest at this
    simp at this
    exact this
  · right
    rw [if_neg hc]
    exact ⟨hc, rfl⟩

/-- The leading digits and the text after them. -/
def decRun (s : List Nat) : List Nat := s.takeWhile (fun u => decide (AsciiDigit u))
/-- The leading hexadecimal digits. -/
def hexRun (s : List Nat) : List Nat := s.takeWhile (fun u => decide (AsciiHex u))

theorem takeWhile_length_le (p : Nat → Bool) (s : List Nat) : (s.takeWhile p).length ≤ s.length := by
  induction s with
  | nil => simp
  | cons c s ih => rw [List.takeWhile_cons]; split <;> simp <;> omega

theorem takeWhile_append_drop (p : Nat → Bool) (s : List Nat) :
    s = s.takeWhile p ++ s.drop (s.takeWhile p).length := by
  induction s with
  | nil => rfl
  | cons c s ih =>
    by_cases hc : p c = true
    · rw [List.takeWhile_cons_of_pos hc]
      simp only [List.length_cons, List.drop_succ_cons, List.cons_append]
      rw [← ih]
    · rw [List.takeWhile_cons_of_neg hc]; rfl

theorem consumeNumber_rest {l : Lexer} (h : LexOk l) :
    (decRun (rest l) = [] ∧ l.consumeNumber charK = (none, l)) ∨
    (decRun (rest l) ≠ [] ∧ ∃ l', l.consumeNumber charK =
        (some (numeral 10 (decRun (rest l)) % 2 ^ 64), l') ∧ LexOk l' ∧
        rest l' = (rest l).drop (decRun (rest l)).length) := by
  have hi := h.index
  have hs := h.size
  have := consume_number_run charK .char l h.unit (by omega) hs
  simp only at this
  by_cases hr : decRun (rest l) = []
  · left
    refine ⟨hr, ?_⟩
    unfold decRun rest at hr
    rw [this, if_pos hr]
  · right
    refine ⟨hr, { l with index := l.index + (decRun (rest l)).length }, ?_, ?_, ?_⟩
    · unfold decRun rest at hr
      rw [this, if_neg hr]; rfl
    · refine ⟨h.ascii, ?_, hs⟩
      have hl := takeWhile_length_le (fun u => decide (AsciiDigit u)) (rest l)
      have : (rest l).length = l.view.length - l.index := by unfold rest; simp
      show l.index + (decRun (rest l)).length ≤ l.view.length
      unfold decRun
      omega
    · exact rest_adv

theorem consumeHex_rest {l : Lexer} (h : LexOk l) :
    (hexRun (rest l) = [] ∧ l.consumeHexNumber charK = (none, l)) ∨
    (hexRun (rest l) ≠ [] ∧ ∃ l', l.consumeHexNumber charK =
        (some (numeral 16 (hexRun (rest l)) % 2 ^ 64), l') ∧ LexOk l' ∧
        rest l' = (rest l).drop (hexRun (rest l)).length) := by
  have hi := h.index
  have hs := h.size
  have := consume_hex_number_run charK .char l h.unit (by omega) hs
  simp only at this
  by_cases hr : hexRun (rest l) = []
  · left
    refine ⟨hr, ?_⟩
    unfold hexRun rest at hr
    rw [this, if_pos hr]
  · right
    refine ⟨hr, { l with index := l.index + (hexRun (rest l)).length }, ?_, ?_, ?_⟩
    · unfold hexRun rest at hr
      rw [this, if_neg hr]; rfl
    · refine ⟨h.ascii, ?_, hs⟩
      have hl := takeWhile_length_le (fun u => decide (AsciiHex u)) (rest l)
      have : (rest l).length = l.view.length - l.index := by unfold rest; simp
      show l.index + (hexRun (rest l)).length ≤ l.view.length
      unfold hexRun
      omega
    · exact rest_adv

theorem decRun_append {d tail : List Nat} (hd : ∀ c ∈ d, AsciiDigit c)
    (ht : ∀ c, tail.head? = some c → ¬ AsciiDigit c) : decRun (d ++ tail) = d := by
  unfold decRun
  induction d with
  | nil =>
    cases tail with
    | nil => rfl
    | cons c t => exact List.takeWhile_cons_of_neg (by simpa using ht c rfl)
  | cons c d ih =>
    rw [List.cons_append, List.takeWhile_cons_of_pos (by simpa using hd c (by simp)),
      ih (fun x hx => hd x (by simp [hx]))]

theorem hexRun_append {d tail : List Nat} (hd : ∀ c ∈ d, AsciiHex c)
    (ht : ∀ c, tail.head? = some c → ¬ AsciiHex c) : hexRun (d ++ tail) = d := by
  unfold hexRun
  induction d with
  | nil =>
    cases tail with
    | nil => rfl
    | cons c t => exact List.takeWhile_cons_of_neg (by simpa using ht c rfl)
  | cons c d ih =>
    rw [List.cons_append, List.takeWhile_cons_of_pos (by simpa using hd c (by simp)),
      ih (fun x hx => hd x (by simp [hx]))]

/-- No run of digits in the text reaches 2^64. -/
def NoWrap (base : Nat) (P : Nat → Prop) (s : List Nat) : Prop :=
  ∀ run, Occurs run s → (∀ c ∈ run, P c) → numeral base run < 2 ^ 64

theorem NoWrap.drop {base P s} (h : NoWrap base P s) (n : Nat) : NoWrap base P (s.drop n) := by
  rintro run ⟨a, b, e⟩ hr
  refine h run ⟨s.take n ++ a, b, ?_⟩ hr
  rw [List.append_assoc, List.append_assoc, ← List.append_assoc a, ← e, List.take_append_drop]

theorem decRun_lt {s} (h : NoWrap 10 AsciiDigit s) : numeral 10 (decRun s) < 2 ^ 64 := by
  refine h _ ⟨[], s.drop (decRun s).length, ?_⟩ ?_
  · exact takeWhile_append_drop _ s
  · intro c hc
    have := mem_takeWhile_prop _ c hc
    simpa using this

theorem hexRun_lt {s} (h : NoWrap 16 AsciiHex s) : numeral 16 (hexRun s) < 2 ^ 64 := by
  refine h _ ⟨[], s.drop (hexRun s).length, ?_⟩ ?_
  · exact takeWhile_append_drop _ s
  · intro c hc
    have := mem_takeWhile_prop _ c hc
    simpa using this

theorem mem_decRun {s c} (h : c ∈ decRun s) : AsciiDigit c := by
  have := mem_takeWhile_prop _ c h
  simpa using this

theorem mem_hexRun {s c} (h : c ∈ hexRun s) : AsciiHex c := by
  have := mem_takeWhile_prop _ c h
  simpa using this

/-! ## IPv4 loop on the text -/

/-- `v4Loop` on the unconsumed text. -/
def v4Rest : Nat → List Nat → List Nat → Option (List Nat × List Nat)
  | 0, s, parts => some (s, parts)
  | n + 1, s, parts =>
    if decRun s = [] then none
    else
      let v := numeral 10 (decRun s) % 2 ^ 64
      let s1 := s.drop (decRun s).length
      if v ≤ 0xffffffff then
        if (parts ++ [v]).length < 4 ∧ s1.head? = some 0x2e then v4Rest n (s1.drop 1) (parts ++ [v])
        else some (s1, parts ++ [v])
      else none

theorem v4Loop_rest : ∀ (n : Nat) (l : Lexer) (parts : List Nat), LexOk l →
    (v4Rest n (rest l) parts = none ∧ v4Loop n l parts = none) ∨
    (∃ l' parts', v4Rest n (rest l) parts = some (rest l', parts') ∧
      v4Loop n l parts = some (l', parts') ∧ LexOk l') := by
  intro n
  induction n with
  | zero => intro l parts h; right; exact ⟨l, parts, rfl, rfl, h⟩
  | succ n ih =>
    intro l parts h
    rw [v4Rest, v4Loop]
    rcases consumeNumber_rest h with ⟨h1, h2⟩ | ⟨h1, l', h2, h3, h4⟩
    · left; rw [if_pos h1, h2]; exact ⟨rfl, rfl⟩
    · rw [if_neg h1, h2]
      simp only
      rw [← h4]
      split
      · by_cases hlen : (parts ++ [numeral 10 (decRun (rest l)) % 2 ^ 64]).length < 4
        · rw [if_pos hlen]
          rcases consumeIf_rest h3 0x2e with ⟨c1, c2, c3, c4⟩ | ⟨c1, c2⟩
          · rw [if_pos ⟨hlen, c1⟩]
            have he : l'.consumeIf 0x2e = (true, (l'.consumeIf 0x2e).2) := by rw [← c2]
            rw [he]
            simp only
            rw [← c4]
            exact ih _ _ c3
          · rw [if_neg (fun h => c1 h.2), c2]
            right; exact ⟨l', _, rfl, rfl, h3⟩
        · rw [if_neg hlen, if_neg (fun h => hlen h.1)]
          right; exact ⟨l', _, rfl, rfl, h3⟩
      · left; exact ⟨rfl, rfl⟩

theorem drop_run_head (s : List Nat) : ∀ c, (s.drop (decRun s).length).head? = some c →
    ¬ AsciiDigit c := by
  induction s with
  | nil => intro c h; simp [decRun] at h
  | cons x s ih =>
    intro c h
    unfold decRun at h ih
    by_cases hx : AsciiDigit x
    · rw [List.takeWhile_cons_of_pos (by simpa using hx)] at h
      simp only [List.length_cons, List.drop_succ_cons] at h
      exact ih c h
    · rw [List.takeWhile_cons_of_neg (by simpa using hx)] at h
      simp at h; subst h; exact hx

/-- Soundness of the loop. -/
theorem v4Rest_sound : ∀ (n : Nat) (s parts s' parts'), 0 < n → parts.length + n = 4 →
    NoWrap 10 AsciiDigit s → v4Rest n s parts = some (s', parts') →
    ∃ segs : List (List Nat), segs ≠ [] ∧ segs.length ≤ n ∧ s = joinWith 0x2e segs ++ s' ∧
      parts' = parts ++ segs.map (numeral 10) ∧
      (∀ p ∈ segs, p ≠ [] ∧ (∀ c ∈ p, AsciiDigit c) ∧ numeral 10 p ≤ 0xffffffff) := by
  intro n
  induction n with
  | zero => intro s parts s' parts' h; omega
  | succ n ih =>
    intro s parts s' parts' _ hpn hw h
    rw [v4Rest] at h
    split at h
    · simp at h
    · rename_i hr
      simp only at h
      rw [Nat.mod_eq_of_lt (decRun_lt hw)] at h
      split at h
      · rename_i hv
        have hsplit := takeWhile_append_drop (fun u => decide (AsciiDigit u)) s
        split at h
        · rename_i hc
          have hl := hc.1
          rw [List.length_append] at hl
          simp only [List.length_cons, List.length_nil] at hl
          · obtain ⟨segs, g1, g2, g3, g4, g5⟩ := ih _ _ _ _ (by omega) (by simp; omega)
              ((hw.drop _).drop _) h
            refine ⟨decRun s :: segs, by simp, by simp; omega, ?_, ?_, ?_⟩
            · cases hseg : segs with
              | nil => exact absurd hseg g1
              | cons q r =>
                rw [hseg] at g3
                simp only [joinWith, List.append_assoc, List.cons_append]
                rw [← g3]
                have : s.drop (decRun s).length = 0x2e :: (s.drop (decRun s).length).drop 1 := by
                  cases hd : s.drop (decRun s).length with
                  | nil => rw [hd] at hc; simp at hc
                  | cons x t => rw [hd] at hc; simp at hc; rw [hc.2]; rfl
                rw [← this]; exact hsplit
            · rw [g4]; simp
            · intro p hp
              simp at hp
              rcases hp with rfl | hp
              · exact ⟨hr, fun c hc => mem_decRun hc, hv⟩
              · exact g5 p hp
        · simp only [Option.some.injEq, Prod.mk.injEq] at h
          refine ⟨[decRun s], by simp, by simp, ?_, ?_, ?_⟩
          · rw [← h.1]; exact hsplit
          · rw [← h.2]; simp
          · intro p hp
            simp at hp; subst hp
            exact ⟨hr, fun c hc => mem_decRun hc, hv⟩
      · simp at h

theorem not_digit_dot : ¬ AsciiDigit 0x2e := by decide
theorem not_hex_colon : ¬ AsciiHex 0x3a := by decide

/-- Completeness of the loop. -/
theorem v4Rest_complete : ∀ (n : Nat) (segs : List (List Nat)) (parts : List Nat), segs ≠ [] →
    segs.length ≤ n → parts.length + n = 4 →
    (∀ p ∈ segs, p ≠ [] ∧ (∀ c ∈ p, AsciiDigit c) ∧ numeral 10 p ≤ 0xffffffff) →
    v4Rest n (joinWith 0x2e segs) parts = some ([], parts ++ segs.map (numeral 10)) := by
  intro n
  induction n with
  | zero => intro segs parts h1 h2; exact absurd (List.length_eq_zero_iff.mp (by omega)) h1
  | succ n ih =>
    intro segs parts h1 h2 h3 h4
    cases segs with
    | nil => exact absurd rfl h1
    | cons p r =>
      obtain ⟨p1, p2, p3⟩ := h4 p (by simp)
      have hrun : decRun (joinWith 0x2e (p :: r)) = p := by
        cases r with
        | nil => have := decRun_append (tail := []) p2 (by simp); simpa [joinWith] using this
        | cons q r' =>
          exact decRun_append p2 (by intro c hc; simp at hc; subst hc; decide)
      have hmod : numeral 10 p % 2 ^ 64 = numeral 10 p := Nat.mod_eq_of_lt (by omega)
      rw [v4Rest, hrun, if_neg p1]
      simp only [hmod]
      rw [if_pos p3]
      cases r with
      | nil =>
        simp only [joinWith, List.drop_length, List.head?_nil]
        rw [if_neg (by simp)]
        simp
      | cons q r' =>
        have hd : (joinWith 0x2e (p :: q :: r')).drop p.length = 0x2e :: joinWith 0x2e (q :: r') := by
          simp [joinWith]
        rw [hd, if_pos (by simp at h2 ⊢; omega)]
        simp only [List.drop_one, List.tail_cons]
        rw [ih (q :: r') (parts ++ [numeral 10 p]) (by simp) (by simp at h2 ⊢; omega)
          (by simp; omega) (fun x hx => h4 x (by simp at hx ⊢; right; exact hx))]
        simp

theorem lexOk_init {s : List Nat} (h : ∀ u ∈ s, u < 0x80) (hl : s.length < 2 ^ 64) : LexOk ⟨s, 0⟩ :=
  ⟨h, by simp, hl⟩

theorem shl_or {a b k : Nat} (hb : b < 2 ^ k) : (a <<< k) ||| b = a * 2 ^ k + b := by
  rw [Nat.shiftLeft_eq]
  exact Verif.Bits.or_eq_add (i := k) (by simp) hb

/-- The parts denote an address iff the code combines them into it. -/
theorem v4Combine_iff {parts : List Nat} {h : Nat} (hp : ∀ p ∈ parts, p ≤ 0xffffffff) :
    v4Combine parts = some h ↔ V4Value parts h := by
  constructor
  · intro e
    unfold v4Combine at e
    split at e
    · rename_i a
      have := hp a (by simp)
      simp at e; subst e; exact .one (by omega)
    · rename_i a b
      split at e
      · rename_i hc
        simp only [Option.some.injEq] at e
        rw [← e, shl_or (by omega)]; exact .two (by omega) (by omega)
      · simp at e
    · rename_i a b c
      split at e
      · rename_i hc
        simp only [Option.some.injEq] at e
        have h1 := shl_or (a := b) (b := c) (k := 16) (by omega)
        have h2 := shl_or (a := a) (b := b * 2 ^ 16 + c) (k := 24) (by omega)
        rw [← e, Nat.or_assoc, h1, h2, ← Nat.add_assoc]
        exact .three (by omega) (by omega) (by omega)
      · simp at e
    · rename_i a b c d
      split at e
      · rename_i hc
        simp only [Option.some.injEq] at e
        have h0 := shl_or (a := c) (b := d) (k := 8) (by omega)
        have h1 := shl_or (a := b) (b := c * 2 ^ 8 + d) (k := 16) (by omega)
        have h2 := shl_or (a := a) (b := b * 2 ^ 16 + (c * 2 ^ 8 + d)) (k := 24) (by omega)
        rw [← e, Nat.or_assoc, Nat.or_assoc, h0, h1, h2, ← Nat.add_assoc, ← Nat.add_assoc]
        exact .four (by omega) (by omega) (by omega) (by omega)
      · simp at e
    · simp at e
  · intro hv
    cases hv with
    | one _ => rfl
    | two h1 h2 =>
      rename_i a b
      rw [v4Combine, if_pos ⟨by omega, by omega⟩, shl_or (by omega)]
    | three h1 h2 h3 =>
      rename_i a b c
      have e1 := shl_or (a := b) (b := c) (k := 16) (by omega)
      have e2 := shl_or (a := a) (b := b * 2 ^ 16 + c) (k := 24) (by omega)
      rw [v4Combine, if_pos ⟨by omega, by omega, by omega⟩, Nat.or_assoc, e1, e2, ← Nat.add_assoc]
    | four h1 h2 h3 h4 =>
      rename_i a b c d
      have h0 := shl_or (a := c) (b := d) (k := 8) (by omega)
      have h1 := shl_or (a := b) (b := c * 2 ^ 8 + d) (k := 16) (by omega)
      have h2 := shl_or (a := a) (b := b * 2 ^ 16 + (c * 2 ^ 8 + d)) (k := 24) (by omega)
      rw [v4Combine, if_pos ⟨by omega, by omega, by omega, by omega⟩, Nat.or_assoc, Nat.or_assoc, h0,
        h1, h2, ← Nat.add_assoc, ← Nat.add_assoc]

theorem v4Value_lt {parts h} (hv : V4Value parts h) : h < 2 ^ 32 := by
  cases hv <;> omega

theorem v4Value_parts {parts h} (hv : V4Value parts h) :
    (∀ p ∈ parts, p ≤ 0xffffffff) ∧ parts ≠ [] ∧ parts.length ≤ 4 := by
  cases hv <;> simp <;> omega

/-- `from_string` on the text. -/
theorem v4FromString_eq {s : List Nat} (ha : ∀ u ∈ s, u < 0x80) (hl : s.length < 2 ^ 64) :
    v4FromString s = (match v4Rest 4 s [] with
      | some (s', parts) => (match v4Combine parts with
        | some h => if s' = [] then Numeric.endianSwap 4 h else none
        | none => none)
      | none => none) := by
  unfold v4FromString
  rcases v4Loop_rest 4 ⟨s, 0⟩ [] (lexOk_init ha hl) with ⟨h1, h2⟩ | ⟨l', parts', h1, h2, h3⟩
  · have h1' : v4Rest 4 s [] = none := h1
    rw [h2, h1']
  · have h1' : v4Rest 4 s [] = some (rest l', parts') := h1
    rw [h2, h1']
    simp only
    cases v4Combine parts' with
    | none => rfl
    | some h =>
      simp only
      rw [peek_rest h3]
      cases hr : rest l' with
      | nil => simp [Numeric.endianSwapIfNonNative]
      | cons x t => simp

theorem v4FromString_of_text {s : List Nat} (ha : ∀ u ∈ s, u < 0x80) (hl : s.length < 2 ^ 64)
    {h a : Nat} (ht : V4Text s h) (h4 : Numeric.endianSwap 4 h = some a) :
    v4FromString s = some a := by
  rw [v4FromString_eq ha hl]
  obtain ⟨segs, h1, h2, h3⟩ := ht
  have hv := v4Value_parts h3
  have hne : segs ≠ [] := by intro e; subst e; simp at hv
  have hlen : segs.length ≤ 4 := by have := hv.2.2; simpa using this
  have hb : ∀ p ∈ segs, p ≠ [] ∧ (∀ c ∈ p, AsciiDigit c) ∧ numeral 10 p ≤ 0xffffffff := by
    intro p hp
    exact ⟨(h2 p hp).1, (h2 p hp).2, hv.1 _ (List.mem_map_of_mem hp)⟩
  rw [h1, v4Rest_complete 4 segs [] hne hlen (by simp) hb]
  simp only [List.nil_append]
  rw [(v4Combine_iff hv.1).mpr h3]
  simpa using h4

/-- The parser accepts exactly the dot-decimal texts, when nothing wraps. -/
theorem v4FromString_iff {s : List Nat} (ha : ∀ u ∈ s, u < 0x80) (hl : s.length < 2 ^ 64)
    (hw : NoWrap 10 AsciiDigit s) (a : Nat) :
    v4FromString s = some a ↔ ∃ h, V4Text s h ∧ Numeric.endianSwap 4 h = some a := by
  rw [v4FromString_eq ha hl]
  constructor
  · intro h
    cases hr : v4Rest 4 s [] with
    | none => rw [hr] at h; simp at h
    | some r =>
      obtain ⟨s', parts⟩ := r
      rw [hr] at h
      simp only at h
      obtain ⟨segs, g1, g2, g3, g4, g5⟩ := v4Rest_sound 4 s [] s' parts (by decide) (by simp) hw hr
      cases hc : v4Combine parts with
      | none => rw [hc] at h; simp at h
      | some hst =>
        rw [hc] at h
        simp only at h
        split at h
        · rename_i hs'
          subst hs'
          rw [List.append_nil] at g3
          rw [List.nil_append] at g4
          refine ⟨hst, ⟨segs, g3, fun p hp => ⟨(g5 p hp).1, (g5 p hp).2.1⟩, ?_⟩, h⟩
          rw [← g4]
          refine (v4Combine_iff ?_).mp hc
          intro p hp
          rw [g4] at hp
          obtain ⟨x, hx, rfl⟩ := List.mem_map.mp hp
          exact (g5 x hx).2.2
        · simp at h
  · rintro ⟨hst, ht, h4⟩
    have := v4FromString_of_text ha hl ht h4
    rwa [v4FromString_eq ha hl] at this

/-! ## IPv6 loop on the text -/

theorem hexRun_drop_lt {s : List Nat} (h : hexRun s ≠ []) :
    (s.drop (hexRun s).length).length < s.length := by
  have h1 := takeWhile_length_le (fun u => decide (AsciiHex u)) s
  have h2 : 0 < (hexRun s).length := List.length_pos_iff.mpr h
  unfold hexRun at h2 ⊢
  simp; omega

/-- `v6Loop` on the unconsumed text. -/
def v6Rest (s parts : List Nat) (short : Option Nat) : Option (List Nat × List Nat × Option Nat) :=
  if _hs : s.head? = some 0x3a then
    if (s.drop 1).head? = some 0x3a then
      if short.isSome then none
      else if s.drop 2 ≠ [] ∧ parts.length < 16 then v6Rest (s.drop 2) parts (some parts.length)
      else some (s.drop 2, parts, some parts.length)
    else if s.drop 1 ≠ [] ∧ parts.length < 16 then v6Rest (s.drop 1) parts short
    else some (s.drop 1, parts, short)
  else if _hr : hexRun s = [] then none
  else
    let v := numeral 16 (hexRun s) % 2 ^ 64
    let s1 := s.drop (hexRun s).length
    if v ≤ 0xffff then
      if s1 ≠ [] ∧ (parts ++ [(v >>> 8) &&& 0xff, v &&& 0xff]).length < 16 then
        v6Rest s1 (parts ++ [(v >>> 8) &&& 0xff, v &&& 0xff]) short
      else some (s1, parts ++ [(v >>> 8) &&& 0xff, v &&& 0xff], short)
    else none
  termination_by s.length
  decreasing_by
    · cases s with
      | nil => simp at _hs
      | cons x t => simp; omega
    · cases s with
      | nil => simp at _hs
      | cons x t => simp
    · exact hexRun_drop_lt _hr

theorem peek_isSome {l : Lexer} (h : LexOk l) : (l.peek 0).isSome = true ↔ rest l ≠ [] := by
  rw [peek_rest h]; cases rest l <;> simp

/-- The two loops agree. -/
def V6Agree (s : Option (List Nat × List Nat × Option Nat)) (m : Option (Lexer × List Nat × Option Nat)) :
    Prop :=
  (s = none ∧ m = none) ∨
    ∃ l parts short, s = some (rest l, parts, short) ∧ m = some (l, parts, short) ∧ LexOk l

theorem v6Loop_eq : ∀ (fuel : Nat) (l : Lexer) (parts : List Nat) (short : Option Nat), LexOk l →
    (rest l).length < fuel → V6Agree (v6Rest (rest l) parts short) (v6Loop fuel l parts short) := by
  intro fuel
  induction fuel with
  | zero => intro l parts short _ h; omega
  | succ fuel ih =>
    intro l parts short hok hf
    have hnext : ∀ (l' : Lexer) (parts : List Nat) (short : Option Nat), LexOk l' →
        (rest l').length < (rest l).length →
        V6Agree (if rest l' ≠ [] ∧ parts.length < 16 then v6Rest (rest l') parts short
            else some (rest l', parts, short))
          (if (l'.peek 0).isSome && parts.length < 16 then v6Loop fuel l' parts short
            else some (l', parts, short)) := by
      intro l' parts short hok' hlt
      by_cases hc : rest l' ≠ [] ∧ parts.length < 16
      · rw [if_pos hc, if_pos (by simp [(peek_isSome hok').mpr hc.1, hc.2])]
        exact ih l' parts short hok' (by omega)
      · rw [if_neg hc, if_neg (by
          intro h
          simp only [Bool.and_eq_true, decide_eq_true_eq] at h
          exact hc ⟨(peek_isSome hok').mp h.1, h.2⟩)]
        exact .inr ⟨l', parts, short, rfl, rfl, hok'⟩
    rw [v6Rest, v6Loop]
    simp only
    rcases consumeIf_rest hok 0x3a with ⟨c1, c2, c3, c4⟩ | ⟨c1, c2⟩
    · have he : l.consumeIf 0x3a = (true, (l.consumeIf 0x3a).2) := by rw [← c2]
      have hlt1 : (rest (l.consumeIf 0x3a).2).length < (rest l).length := by
        rw [c4]; cases hr : rest l with
        | nil => rw [hr] at c1; simp at c1
        | cons x t => simp
      rw [dif_pos c1, he]
      simp only
      rcases consumeIf_rest c3 0x3a with ⟨d1, d2, d3, d4⟩ | ⟨d1, d2⟩
      · have he2 : (l.consumeIf 0x3a).2.consumeIf 0x3a =
            (true, ((l.consumeIf 0x3a).2.consumeIf 0x3a).2) := by rw [← d2]
        rw [c4] at d1
        rw [if_pos d1, he2]
        simp only
        by_cases hsh : short.isSome = true
        · rw [if_pos hsh, if_pos hsh]; exact .inl ⟨rfl, rfl⟩
        · rw [if_neg hsh, if_neg hsh]
          have e2 : (rest l).drop 2 = rest ((l.consumeIf 0x3a).2.consumeIf 0x3a).2 := by
            rw [d4, c4, List.drop_drop]
          rw [e2]
          exact hnext _ _ _ d3 (by rw [d4, List.length_drop]; omega)
      · rw [c4] at d1
        rw [if_neg d1, d2]
        simp only
        rw [← c4]
        exact hnext _ _ _ c3 hlt1
    · rw [dif_neg c1, c2]
      simp only
      rcases consumeHex_rest hok with ⟨h1, h2⟩ | ⟨h1, l', h2, h3, h4⟩
      · rw [dif_pos h1, h2]; exact .inl ⟨rfl, rfl⟩
      · rw [dif_neg h1, h2]
        simp only
        split
        · rw [← h4]
          exact hnext _ _ _ h3 (by rw [h4]; exact hexRun_drop_lt h1)
        · exact .inl ⟨rfl, rfl⟩

theorem v6FromString_eq {s : List Nat} (ha : ∀ u ∈ s, u < 0x80) (hl : s.length < 2 ^ 64) :
    v6FromString s = (match v6Rest s [] none with
      | some (s', parts, short) =>
        if s' ≠ [] ∨ (parts.length ≠ 16 ∧ short = none) then none
        else match short with
          | some i => some (v6Rotate parts i)
          | none => some parts
      | none => none) := by
  unfold v6FromString
  have := v6Loop_eq (s.length + 1) ⟨s, 0⟩ [] none (lexOk_init ha hl) (by simp [rest])
  have hrest : rest ⟨s, 0⟩ = s := rfl
  rw [hrest] at this
  rcases this with ⟨h1, h2⟩ | ⟨l', parts', short', h1, h2, h3⟩
  · rw [h1, h2]
  · rw [h1, h2]
    simp only
    have hcond : ((l'.peek 0).isSome || (parts'.length != 16 && short'.isNone)) = true ↔
        (rest l' ≠ [] ∨ (parts'.length ≠ 16 ∧ short' = none)) := by
      rw [Bool.or_eq_true, peek_isSome h3]
      simp
    by_cases hc : rest l' ≠ [] ∨ (parts'.length ≠ 16 ∧ short' = none)
    · rw [if_pos hc, if_pos (hcond.mpr hc)]
    · rw [if_neg hc, if_neg (fun h => hc (hcond.mp h))]
      cases short' <;> rfl

theorem v6Rotate_eq {parts : List Nat} {i : Nat} (hp : parts.length ≤ 16) (hi : i ≤ parts.length) :
    v6Rotate parts i =
      parts.take i ++ (List.replicate (16 - parts.length) 0 ++ parts.drop i) := by
  unfold v6Rotate rotateRange
  simp only
  have e : (parts ++ List.replicate (16 - parts.length) 0).reverse =
      List.replicate (16 - parts.length) 0 ++ ((parts.drop i).reverse ++ (parts.take i).reverse) := by
    rw [List.reverse_append, List.reverse_replicate, ← List.reverse_append, List.take_append_drop]
  rw [e]
  have e1 : (List.replicate (16 - parts.length) 0 ++
      ((parts.drop i).reverse ++ (parts.take i).reverse)).take (16 - i) =
      List.replicate (16 - parts.length) 0 ++ (parts.drop i).reverse := by
    rw [← List.append_assoc]
    exact List.take_left' (by simp; omega)
  have e2 : (List.replicate (16 - parts.length) 0 ++
      ((parts.drop i).reverse ++ (parts.take i).reverse)).drop (16 - i) = (parts.take i).reverse := by
    rw [← List.append_assoc]
    exact List.drop_left' (by simp; omega)
  rw [e1, e2, List.drop_left' (by simp), List.take_left' (by simp)]
  simp

/-- The two bytes of a group. -/
theorem group_bytes {v : Nat} (h : v ≤ 0xffff) : [(v >>> 8) &&& 0xff, v &&& 0xff] = [v / 256, v % 256] := by
  have h1 : v &&& 0xff = v % 2 ^ 8 := Nat.and_two_pow_sub_one_eq_mod v 8
  have h2 : (v >>> 8) &&& 0xff = (v >>> 8) % 2 ^ 8 := Nat.and_two_pow_sub_one_eq_mod _ 8
  rw [h1, h2, Nat.shiftRight_eq_div_pow]
  rw [Nat.mod_eq_of_lt (by omega : v / 2 ^ 8 < 2 ^ 8)]

theorem groupBytes_append (a b : List Nat) : groupBytes (a ++ b) = groupBytes a ++ groupBytes b := by
  induction a with
  | nil => rfl
  | cons g a ih => simp [groupBytes, ih]

theorem groupBytes_length (a : List Nat) : (groupBytes a).length = 2 * a.length := by
  induction a with
  | nil => rfl
  | cons g a ih => simp [groupBytes, ih]; omega

theorem groupBytes_zeros (n : Nat) : groupBytes (List.replicate n 0) = List.replicate (2 * n) 0 := by
  induction n with
  | zero => rfl
  | succ n ih =>
    rw [List.replicate_succ, groupBytes, ih, show 2 * (n + 1) = 2 * n + 1 + 1 by omega,
      List.replicate_succ, List.replicate_succ]

theorem digitValue_hex_lt {c : Nat} (h : AsciiHex c) : digitValue c < 16 := by
  unfold AsciiHex AsciiDigit at h
  unfold digitValue
  repeat' split
  all_goals omega

theorem numeral_hex_lt (t : List Nat) (h : ∀ c ∈ t, AsciiHex c) : numeral 16 t < 16 ^ t.length := by
  have key : ∀ (t : List Nat) (a : Nat), (∀ c ∈ t, AsciiHex c) →
      t.foldl (fun a u => a * 16 + digitValue u) a < (a + 1) * 16 ^ t.length := by
    intro t
    induction t with
    | nil => intro a _; simp
    | cons c t ih =>
      intro a h
      have h1 := ih (a * 16 + digitValue c) (fun x hx => h x (by simp [hx]))
      have h2 := digitValue_hex_lt (h c (by simp))
      rw [List.foldl_cons, List.length_cons, Nat.pow_succ']
      refine Nat.lt_of_lt_of_le h1 ?_
      rw [← Nat.mul_assoc]
      exact Nat.mul_le_mul_right _ (by omega)
  simpa [numeral] using key t 0 h

theorem hexGroup_le {t : List Nat} (h : HexGroup t) : numeral 16 t ≤ 0xffff := by
  have h1 := numeral_hex_lt t h.2.2
  have h2 : 16 ^ t.length ≤ 16 ^ 4 := Nat.pow_le_pow_right (by decide) h.2.1
  omega

theorem hexGroup_head {t : List Nat} (h : HexGroup t) (tail : List Nat) :
    (t ++ tail).head? ≠ some 0x3a ∧ t ≠ [] := by
  cases t with
  | nil => have := h.1; simp at this
  | cons c t =>
    refine ⟨?_, by simp⟩
    intro e
    simp at e
    have := h.2.2 c (by simp)
    rw [e] at this
    exact not_hex_colon this

/-- One round on a group. -/
theorem v6Rest_group {t tail parts : List Nat} {short : Option Nat} (ht : HexGroup t)
    (htail : ∀ c, tail.head? = some c → c = 0x3a) :
    v6Rest (t ++ tail) parts short =
      if tail ≠ [] ∧ parts.length + 2 < 16 then
        v6Rest tail (parts ++ [numeral 16 t / 256, numeral 16 t % 256]) short
      else some (tail, parts ++ [numeral 16 t / 256, numeral 16 t % 256], short) := by
  have hh := hexGroup_head ht tail
  have hrun : hexRun (t ++ tail) = t :=
    hexRun_append ht.2.2 (by intro c hc; rw [htail c hc]; exact not_hex_colon)
  have hle := hexGroup_le ht
  rw [v6Rest, dif_neg hh.1, dif_neg (by rw [hrun]; exact hh.2)]
  simp only [hrun]
  rw [Nat.mod_eq_of_lt (by omega), if_pos hle, group_bytes hle, List.drop_left]
  simp

/-- One round on a single colon. -/
theorem v6Rest_colon {tail parts : List Nat} {short : Option Nat} (h : tail.head? ≠ some 0x3a)
    (hne : tail ≠ []) (hp : parts.length < 16) :
    v6Rest (0x3a :: tail) parts short = v6Rest tail parts short := by
  rw [v6Rest]
  simp [h, hne, hp]

/-- A list of groups is read completely. -/
theorem v6Rest_groups : ∀ (ts : List (List Nat)) (tail parts : List Nat) (short : Option Nat),
    ts ≠ [] → (∀ t ∈ ts, HexGroup t) → (∀ c, tail.head? = some c → c = 0x3a) →
    parts.length + 2 * ts.length ≤ 16 →
    v6Rest (joinWith 0x3a ts ++ tail) parts short =
      if tail ≠ [] ∧ parts.length + 2 * ts.length < 16 then
        v6Rest tail (parts ++ groupBytes (ts.map (numeral 16))) short
      else some (tail, parts ++ groupBytes (ts.map (numeral 16)), short) := by
  intro ts
  induction ts with
  | nil => intro _ _ _ h; exact absurd rfl h
  | cons t ts ih =>
    intro tail parts short _ hg htail hlen
    cases ts with
    | nil =>
      rw [joinWith, v6Rest_group (hg t (by simp)) htail]
      rfl
    | cons u r =>
      simp only [joinWith, List.append_assoc, List.cons_append]
      rw [v6Rest_group (hg t (by simp)) (by intro c hc; simp at hc; exact hc.symm)]
      simp only [List.length_cons] at hlen
      rw [if_pos ⟨by simp, by omega⟩]
      have hu : HexGroup u := hg u (by simp)
      have hjoin : ∃ z, joinWith 0x3a (u :: r) ++ tail = u ++ z := by
        cases r with
        | nil => exact ⟨tail, by simp [joinWith]⟩
        | cons w r => exact ⟨0x3a :: (joinWith 0x3a (w :: r) ++ tail), by simp [joinWith]⟩
      obtain ⟨z, hz⟩ := hjoin
      have hz' := hexGroup_head hu z
      rw [v6Rest_colon (by rw [hz]; exact hz'.1) (by rw [hz]; simp [hz'.2]) (by simp; omega),
        ih tail _ short (by simp) (fun x hx => hg x (by simp at hx ⊢; right; exact hx)) htail
          (by simp; omega)]
      simp only [List.map_cons, groupBytes, List.append_assoc, List.cons_append, List.nil_append,
        List.length_append, List.length_cons, List.length_nil]
      by_cases hc : tail ≠ [] ∧ parts.length + (0 + 1 + 1) + 2 * (r.length + 1) < 16
      · rw [if_pos hc, if_pos ⟨hc.1, by omega⟩]
      · rw [if_neg hc, if_neg (fun h => hc ⟨h.1, by omega⟩)]

/-- Every RFC 4291 text is read as the address it denotes. -/
theorem v6FromString_of_text {s gs : List Nat} (hl : s.length < 2 ^ 64) (ha : ∀ u ∈ s, u < 0x80)
    (h : V6Text s gs) : v6FromString s = some (groupBytes gs) := by
  rw [v6FromString_eq ha hl]
  cases h with
  | @full ts h8 hg =>
    have hne : ts ≠ [] := by intro e; subst e; simp at h8
    have := v6Rest_groups ts [] [] none hne hg (by simp) (by simp; omega)
    rw [List.append_nil] at this
    rw [this, if_neg (by simp)]
    simp only [List.nil_append]
    rw [if_neg (by rw [groupBytes_length]; simp [h8])]
  | @short ls rs h7 hgl hgr =>
    have hafter : ∀ parts : List Nat, parts.length = 2 * ls.length →
        v6Rest (0x3a :: 0x3a :: joinWith 0x3a rs) parts none =
          some ([], parts ++ groupBytes (rs.map (numeral 16)), some parts.length) := by
      intro parts hp
      rw [v6Rest]
      simp only [List.head?_cons, List.drop_succ_cons, List.drop_zero, Option.isSome_none,
        dif_pos, if_true, Bool.false_eq_true, if_false]
      cases rs with
      | nil => simp [joinWith, groupBytes]
      | cons r rs =>
        have hj : joinWith 0x3a (r :: rs) ≠ [] := by
          have hr := (hexGroup_head (hgr r (by simp)) []).2
          cases rs with
          | nil => simpa [joinWith] using hr
          | cons q rs => simp [joinWith]
        simp only [List.length_cons] at h7
        rw [if_pos ⟨hj, by omega⟩]
        have := v6Rest_groups (r :: rs) [] parts (some parts.length) (by simp) hgr (by simp)
          (by simp; omega)
        rw [List.append_nil] at this
        rw [this, if_neg (by simp)]
    have hmain : v6Rest (joinWith 0x3a ls ++ [0x3a, 0x3a] ++ joinWith 0x3a rs) [] none =
        some ([], groupBytes (ls.map (numeral 16)) ++ groupBytes (rs.map (numeral 16)),
          some (2 * ls.length)) := by
      by_cases hls : ls = []
      · subst hls
        have := hafter [] rfl
        simpa [joinWith, groupBytes] using this
      · rw [List.append_assoc, v6Rest_groups ls _ [] none hls hgl (by simp) (by simp; omega),
          if_pos ⟨by simp, by simp; omega⟩]
        have := hafter (groupBytes (ls.map (numeral 16))) (by rw [groupBytes_length]; simp)
        simp only [List.nil_append, List.cons_append]
        rw [this, groupBytes_length]; simp
    rw [hmain]
    simp only
    have hll : (groupBytes (ls.map (numeral 16))).length = 2 * ls.length := by
      rw [groupBytes_length]; simp
    have hrl : (groupBytes (rs.map (numeral 16))).length = 2 * rs.length := by
      rw [groupBytes_length]; simp
    rw [if_neg (by simp), v6Rotate_eq (by simp [hll, hrl]; omega) (by simp [hll])]
    rw [List.take_left' hll, List.drop_left' hll, groupBytes_append, groupBytes_append,
      groupBytes_zeros, List.length_append, hll, hrl,
      show 2 * (8 - (ls.length + rs.length)) = 16 - (2 * ls.length + 2 * rs.length) by omega]
    simp

end Verif.Net
