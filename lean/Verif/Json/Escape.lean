import Verif.Json.Strings

/-! # JSON strings: escaping on output -/

namespace Verif.Json

open Verif.Unicode
open Verif.Str (AsciiDigit AsciiHex numeral digitValue)

theorem hexDigit_hex : ∀ d, d < 16 → AsciiHex (hexDigit d) := by decide +kernel

theorem toHex_hex (c : Nat) : ∀ k, ∀ d ∈ toHex c k, AsciiHex d := by
  intro k
  induction k with
  | zero => simp [toHex]
  | succ k ih =>
    intro b hb
    simp only [toHex, List.mem_cons] at hb
    rcases hb with hb | hb
    · rw [hb, and_15]; exact hexDigit_hex _ (by omega)
    · exact ih b hb

theorem toHex_length (c : Nat) : ∀ k, (toHex c k).length = k := by
  intro k; induction k with
  | zero => rfl
  | succ k ih => simp [toHex, ih]

theorem hex4_toHex {c : Nat} (h : c < 65536) : Hex4 (toHex c 4) c := by
  refine ⟨toHex_length c 4, toHex_hex c 4, ?_⟩
  have h1 := hexDigits_toHex c [] 4 0
  have h2 := hexDigits_run (toHex c 4) 0 [] (toHex_hex c 4)
  rw [toHex_length] at h2
  rw [h2] at h1
  simp only [Prod.mk.injEq, Nat.zero_add, and_true] at h1
  rw [h1]; exact Nat.mod_eq_of_lt h

/-- What is written for one code point. -/
def escOne (c : Nat) : List Nat :=
  match writeSimple c with
  | some e => [0x5c, e]
  | none => escape true c

theorem writeSimple_iff (c e : Nat) : writeSimple c = some e ↔ ((e, c) ∈ simpleEscapes ∧ c ≠ 0x2f) := by
  unfold writeSimple simpleEscapes
  simp only [List.mem_cons, Prod.mk.injEq, List.not_mem_nil, or_false]
  repeat' split
  all_goals (try simp only [Option.some.injEq, reduceCtorEq, false_iff])
  all_goals omega

theorem writeSimple_lt {c e : Nat} (h : writeSimple c = some e) : c < 0x80 ∧ 0x20 ≤ e ∧ e < 0x7f := by
  obtain ⟨h, _⟩ := (writeSimple_iff c e).1 h
  simp only [simpleEscapes, List.mem_cons, Prod.mk.injEq, List.not_mem_nil, or_false] at h
  omega

theorem utf8Of_ascii {c : Nat} (h : c < 0x80) : utf8Of c = [c] := by unfold utf8Of; rw [if_pos h]

theorem chars_escOne {c : Nat} (hc : Scalar c) {t m : List Nat} (h : Chars t m) :
    Chars (escOne c ++ t) (utf8Of c ++ m) := by
  have hc' := hc
  unfold Scalar at hc'
  unfold escOne
  cases hw : writeSimple c with
  | some e =>
    rw [utf8Of_ascii (writeSimple_lt hw).1]
    exact .simple ((writeSimple_iff c e).1 hw).1 h
  | none =>
    simp only
    unfold escape
    split
    · split
      · exact Chars.uni (hex4_toHex (by omega)) hc h
      · simp only [if_true]
        have m10 : c &&& 0x3ff = c % 1024 := and_mod c 10
        have := Chars.pair (h := toHex (0xd7c0 + (c >>> 10)) 4) (hi := 0xd7c0 + c / 1024)
          (l := toHex (0xdc00 + (c &&& 0x3ff)) 4) (lo := 0xdc00 + c % 1024)
          (by rw [Nat.shiftRight_eq_div_pow]; exact hex4_toHex (by omega)) (by omega)
          (by rw [m10]; exact hex4_toHex (by omega)) (by omega) h
        rw [show 0x10000 + (0xd7c0 + c / 1024 - 0xd800) * 0x400 + (0xdc00 + c % 1024 - 0xdc00) = c by
          omega] at this
        simp only [backslash, lowerU, List.append_assoc, List.cons_append]
        exact this
    · rename_i hn
      rw [utf8Of_ascii (by omega)]
      refine .plain (by omega) ?_ ?_ h
      · rintro rfl; revert hw; decide
      · rintro rfl; revert hw; decide

theorem escOne_printable {c : Nat} (b : Nat) (hb : b ∈ escOne c) : 0x20 ≤ b ∧ b < 0x7f := by
  unfold escOne at hb
  cases hw : writeSimple c with
  | some e =>
    rw [hw] at hb
    have := writeSimple_lt hw
    simp only [List.mem_cons, List.not_mem_nil, or_false] at hb
    omega
  | none =>
    rw [hw] at hb
    simp only at hb
    unfold escape at hb
    have hp := fun c b hb => toHex_printable c 4 b hb
    split at hb
    · split at hb
      · simp only [List.mem_cons, backslash, lowerU] at hb
        rcases hb with hb | hb | hb
        · omega
        · omega
        · have := hp _ _ hb; omega
      · simp only [if_true, List.mem_append, List.mem_cons, backslash, lowerU] at hb
        rcases hb with (hb | hb | hb) | hb | hb | hb
        · omega
        · omega
        · have := hp _ _ hb; omega
        · omega
        · omega
        · have := hp _ _ hb; omega
    · simp only [List.mem_cons, List.not_mem_nil, or_false] at hb
      omega

theorem writeSimple_lead {c b : Nat} {s : List Nat} (h : utf8Of c = b :: s) (hc : ¬ c < 0x80) :
    writeSimple b = none := by
  cases hw : writeSimple b with
  | none => rfl
  | some e =>
    have := (writeSimple_lt hw).1
    unfold utf8Of at h
    rw [if_neg hc] at h
    split at h
    · simp only [List.cons.injEq] at h; omega
    · split at h
      · simp only [List.cons.injEq] at h; omega
      · simp only [List.cons.injEq] at h; omega

theorem escapeBody_step {c : Nat} (hc : Scalar c) {rest : List Nat} (hr : ∀ b ∈ rest, b < 256) :
    escapeBody (utf8Of c ++ rest) = (escapeBody rest).map (escOne c ++ ·) := by
  have hb : ∀ b ∈ utf8Of c ++ rest, b < unitBound (.utf8 true) := by
    intro b hb
    rcases List.mem_append.1 hb with hb | hb
    · exact formOf_bound (.utf8 true) hc b hb
    · exact hr b hb
  have hd := (decode_iff (.utf8 true) (utf8Of c ++ rest) hb c rest).2 ⟨hc, rfl⟩
  have he : escapeCodepoint enc true (utf8Of c ++ rest) = (some (escape true c), rest) := by
    simp only [escapeCodepoint, enc, hd]
  have key : ∀ b s, utf8Of c ++ rest = b :: s → writeSimple b = none → escOne c = escape true c →
      escapeBody (b :: s) = (escapeBody rest).map (escOne c ++ ·) := by
    intro b s hbs hw ho
    rw [hbs] at he
    rw [escapeBody, hw]
    simp only
    split
    · rename_i hx; rw [he] at hx; simp at hx
    · rename_i hx; rw [he] at hx
      simp only [Prod.mk.injEq, Option.some.injEq] at hx
      rw [← hx.1, ← hx.2, ho]
  by_cases hlt : c < 0x80
  · cases hw : writeSimple c with
    | some e =>
      rw [utf8Of_ascii hlt, List.singleton_append, escapeBody, hw]
      simp only [escOne, hw]; rfl
    | none =>
      have h1 : utf8Of c ++ rest = c :: rest := by rw [utf8Of_ascii hlt]; rfl
      rw [h1]
      exact key c rest h1 hw (by unfold escOne; rw [hw])
  · cases hu : utf8Of c with
    | nil => exact absurd hu (formOf_ne_nil (.utf8 true) c)
    | cons b s =>
      have hw := writeSimple_lead hu hlt
      have hwc : writeSimple c = none := by
        cases h : writeSimple c with
        | none => rfl
        | some e => exact absurd (writeSimple_lt h).1 hlt
      exact key b (s ++ rest) (by rw [hu]; rfl) hw (by unfold escOne; rw [hwc])

theorem escapeBody_flat : ∀ cps : List Nat, (∀ c ∈ cps, Scalar c) →
    escapeBody (cps.flatMap utf8Of) = some (cps.flatMap escOne) := by
  intro cps
  induction cps with
  | nil => intro _; rw [List.flatMap_nil, escapeBody]; rfl
  | cons c cps ih =>
    intro h
    have h1 : ∀ c ∈ cps, Scalar c := fun d hd => h d (List.mem_cons_of_mem _ hd)
    have hb : ∀ b ∈ cps.flatMap utf8Of, b < 256 := flatMap_bound (.utf8 true) cps h1
    rw [List.flatMap_cons, escapeBody_step (h c List.mem_cons_self) hb, ih h1]
    simp

theorem chars_flat : ∀ cps : List Nat, (∀ c ∈ cps, Scalar c) →
    Chars (cps.flatMap escOne) (cps.flatMap utf8Of) := by
  intro cps
  induction cps with
  | nil => intro _; exact .nil
  | cons c cps ih =>
    intro h
    rw [List.flatMap_cons, List.flatMap_cons]
    exact chars_escOne (h c List.mem_cons_self) (ih (fun d hd => h d (List.mem_cons_of_mem _ hd)))

theorem wf8_ascii : ∀ s : List Nat, (∀ b ∈ s, b < 0x80) → WellFormed8 s := by
  intro s
  induction s with
  | nil => intro _; exact .nil
  | cons b s ih =>
    intro h
    exact .one ⟨by omega, by have := h b List.mem_cons_self; omega⟩
      (ih (fun d hd => h d (List.mem_cons_of_mem _ hd)))

/-- Escaping a UTF-8 string succeeds; the result is printable ASCII and denotes the string. -/
theorem escapeBody_wf {s : List Nat} (h : WellFormed8 s) :
    ∃ t, escapeBody s = some t ∧ StringBody t s ∧ ∀ b ∈ t, 0x20 ≤ b ∧ b < 0x7f := by
  obtain ⟨cps, h1, rfl⟩ := (wf8_iff s).1 h
  have hp : ∀ b ∈ cps.flatMap escOne, 0x20 ≤ b ∧ b < 0x7f := by
    intro b hb
    obtain ⟨c, _, hb⟩ := List.mem_flatMap.1 hb
    exact escOne_printable b hb
  exact ⟨_, escapeBody_flat cps h1, ⟨wf8_ascii _ (fun b hb => by have := hp b hb; omega),
    chars_flat cps h1⟩, hp⟩

/-- Escaping a string that is not UTF-8 dereferences an empty optional. -/
theorem escapeBody_not_wf : ∀ (n : Nat) (s : List Nat), s.length = n → (∀ b ∈ s, b < 256) →
    ∀ t, escapeBody s = some t → WellFormed8 s := by
  intro n
  induction n using Nat.strongRecOn with
  | _ n ih =>
    intro s hn hb t h
    cases s with
    | nil => exact .nil
    | cons c s =>
      rw [escapeBody] at h
      cases hw : writeSimple c with
      | some e =>
        rw [hw] at h
        simp only [Option.map_eq_some_iff] at h
        obtain ⟨t', h1, _⟩ := h
        refine .one ⟨by omega, by have := (writeSimple_lt hw).1; omega⟩ ?_
        exact ih s.length (by simp only [List.length_cons] at hn; omega) s rfl
          (fun d hd => hb d (List.mem_cons_of_mem _ hd)) t' h1
      | none =>
        rw [hw] at h
        simp only at h
        split at h
        · simp at h
        · rename_i out rest hx
          simp only [Option.map_eq_some_iff] at h
          obtain ⟨t', h1, _⟩ := h
          simp only [escapeCodepoint] at hx
          split at hx
          · simp at hx
          · rename_i cp r hd
            simp only [Prod.mk.injEq, Option.some.injEq] at hx
            obtain ⟨-, hx⟩ := hx
            subst hx
            obtain ⟨hs, he⟩ := (decode_iff (.utf8 true) (c :: s) hb cp r).1 hd
            have hlen := decodeCodepoint_length enc c s
            rw [hd] at hlen
            have hr : WellFormed8 r := ih r.length (by rw [← hn]; exact hlen) r rfl
              (fun d hd' => hb d (by rw [he]; exact List.mem_append_right _ hd')) t' h1
            obtain ⟨cps, g1, g2⟩ := (wf8_iff r).1 hr
            rw [he]
            refine (wf8_iff _).2 ⟨cp :: cps, ?_, ?_⟩
            · intro x hx
              rcases List.mem_cons.1 hx with rfl | hx
              · exact hs
              · exact g1 x hx
            · rw [List.flatMap_cons, ← g2]; rfl

/-- Un-escaping a well-formed text yields UTF-8. -/
theorem chars_wf {t m : List Nat} (h : StringBody t m) : WellFormed8 m := by
  obtain ⟨hw, hc⟩ := h
  have scal : ∀ {c : Nat} {m : List Nat}, Scalar c → WellFormed8 m → WellFormed8 (utf8Of c ++ m) := by
    intro c m hs hm
    obtain ⟨cps, g1, g2⟩ := (wf8_iff m).1 hm
    refine (wf8_iff _).2 ⟨c :: cps, ?_, by rw [List.flatMap_cons, ← g2]⟩
    intro x hx
    rcases List.mem_cons.1 hx with rfl | hx
    · exact hs
    · exact g1 x hx
  have strip : ∀ (l s : List Nat), (∀ b ∈ l, b < 0x80) → WellFormed8 (l ++ s) → WellFormed8 s := by
    intro l
    induction l with
    | nil => intro s _ h; exact h
    | cons b l ih =>
      intro s hb h
      have hlt := hb b List.mem_cons_self
      refine ih s (fun d hd => hb d (List.mem_cons_of_mem _ hd)) ?_
      rw [List.cons_append] at h
      generalize l ++ s = q at h
      cases h with
      | one _ h => exact h
      | two h1 => unfold In at h1; omega
      | three h1 => unfold In at h1; omega
      | four h1 => unfold In at h1; omega
  have hexlt : ∀ {h c}, Hex4 h c → ∀ d ∈ h, d < 0x80 := by
    intro h c hh d hd
    have := hh.2.1 d hd
    unfold AsciiHex AsciiDigit at this
    omega
  -- The bytes of the meaning up to the first escape are those of the text, so plain bytes are
  -- handled in whole characters: generalise over the characters still open.
  have main : ∀ (n : Nat) (t m : List Nat), t.length = n → WellFormed8 t → Chars t m →
      WellFormed8 m := by
    intro n
    induction n using Nat.strongRecOn with
    | _ n ih =>
      intro t m hn hw hc
      cases hc with
      | nil => exact .nil
      | simple h1 h2 =>
        rename_i e r t m
        have he : e < 0x80 ∧ r < 0x80 := by
          simp only [simpleEscapes, List.mem_cons, Prod.mk.injEq, List.not_mem_nil, or_false] at h1
          omega
        refine .one ⟨by omega, by omega⟩ (ih t.length (by simp only [List.length_cons] at hn; omega) t m
          rfl (strip [0x5c, e] t ?_ hw) h2)
        intro b hb
        simp only [List.mem_cons, List.not_mem_nil, or_false] at hb
        omega
      | uni h1 h2 h3 =>
        rename_i h c t m
        refine scal h2 (ih t.length (by
          simp only [List.length_cons, List.length_append] at hn; omega) t m rfl
          (strip (0x5c :: 0x75 :: h) t ?_ (by simpa using hw)) h3)
        intro b hb
        simp only [List.mem_cons] at hb
        rcases hb with hb | hb | hb
        · omega
        · omega
        · exact hexlt h1 b hb
      | pair h1 h2 h3 h4 h5 =>
        rename_i h hi l lo t m
        refine scal (by unfold Scalar; omega) (ih t.length (by
          simp only [List.length_cons, List.length_append] at hn; omega) t m rfl
          (strip (0x5c :: 0x75 :: (h ++ 0x5c :: 0x75 :: l)) t ?_ (by simpa using hw)) h5)
        intro b hb
        simp only [List.mem_cons, List.mem_append] at hb
        rcases hb with hb | hb | hb | hb | hb | hb
        · omega
        · omega
        · exact hexlt h1 b hb
        · omega
        · omega
        · exact hexlt h3 b hb
      | plain h1 h2 h3 h4 =>
        rename_i c t m
        -- the continuation bytes of a multi-byte character are plain too
        have plainOf : ∀ {b : Nat} {t m : List Nat}, 0x80 ≤ b → Chars (b :: t) m →
            ∃ m', m = b :: m' ∧ Chars t m' := by
          intro b t m hb hc
          cases hc with
          | plain _ _ _ h => exact ⟨_, rfl, h⟩
          | simple _ _ => omega
          | uni _ _ _ => omega
          | pair _ _ _ _ _ => omega
        simp only [List.length_cons] at hn
        cases hw with
        | one g1 g2 => exact .one g1 (ih t.length (by omega) t m rfl g2 h4)
        | two g1 g2 g3 =>
          rename_i b s
          have hb : 0x80 ≤ b := by unfold In at g2; omega
          obtain ⟨m1, rfl, k1⟩ := plainOf hb h4
          exact .two g1 g2 (ih s.length (by simp only [List.length_cons] at hn; omega) s m1 rfl g3 k1)
        | three g1 g2 g3 =>
          rename_i b d s
          have hb : 0x80 ≤ b := by unfold In at g1; omega
          have hd : 0x80 ≤ d := by unfold In at g2; omega
          obtain ⟨m1, rfl, k1⟩ := plainOf hb h4
          obtain ⟨m2, rfl, k2⟩ := plainOf hd k1
          exact .three g1 g2 (ih s.length (by simp only [List.length_cons] at hn; omega) s m2 rfl g3 k2)
        | four g1 g2 g3 g4 =>
          rename_i b d e s
          have hb : 0x80 ≤ b := by unfold In at g1; omega
          have hd : 0x80 ≤ d := by unfold In at g2; omega
          have he : 0x80 ≤ e := by unfold In at g3; omega
          obtain ⟨m1, rfl, k1⟩ := plainOf hb h4
          obtain ⟨m2, rfl, k2⟩ := plainOf hd k1
          obtain ⟨m3, rfl, k3⟩ := plainOf he k2
          exact .four g1 g2 g3
            (ih s.length (by simp only [List.length_cons] at hn; omega) s m3 rfl g4 k3)
  exact main _ t m rfl hw hc

end Verif.Json
