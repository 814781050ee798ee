import Verif.Format.Spec

/-!
# The formatters of strings and integers
-/

namespace Verif.Format

open Verif.Str (CharKind numeral digitValue)
open Verif.Digits

theorem countDigits_eq {base : Nat} (hb : 2 ≤ base) (n : Nat) : countDigits base n = (digits base n).length := by
  induction n using Nat.strongRecOn with
  | _ n ih =>
    by_cases h : n < base
    · rw [digits_of_lt h, countDigits, dif_pos (.inl (Nat.div_eq_of_lt h))]; rfl
    · rw [digits_of_ge hb (by omega), countDigits]
      have h1 : ¬ (n / base = 0 ∨ base < 2) := by
        rw [Nat.div_eq_zero_iff]; omega
      rw [dif_neg h1, ih _ (Nat.div_lt_self (by omega) (by omega))]
      simp; omega

theorem digits_head {base : Nat} (hb : 2 ≤ base) (hb' : base ≤ 16) (n : Nat) :
    (digits base n).head? = some 0x30 → n = 0 := by
  induction n using Nat.strongRecOn with
  | _ n ih =>
    by_cases h : n < base
    · rw [digits_of_lt h]
      simp only [List.head?_cons, Option.some.injEq]
      unfold digitChar
      split <;> omega
    · rw [digits_of_ge hb (by omega)]
      intro h2
      have h3 : (digits base (n / base)).head? = some 0x30 := by
        cases hd : digits base (n / base) with
        | nil => exact absurd hd (digits_ne_nil _ _)
        | cons x l => rw [hd] at h2; exact h2
      have := ih _ (Nat.div_lt_self (by omega) (by omega)) h3
      rw [Nat.div_eq_zero_iff] at this
      omega

theorem toUpper_digit {d : Nat} (h : d < 16) :
    CharKind.toUpper ⟨8, true⟩ (digitChar d) = if d < 10 then 0x30 + d else 0x37 + d := by
  revert h d; decide

theorem digitValue_upper {d : Nat} (h : d < 16) :
    digitValue (CharKind.toUpper ⟨8, true⟩ (digitChar d)) = d := by
  revert h d; decide

theorem numeral_upper {base : Nat} (hb : 2 ≤ base) (hb' : base ≤ 16) (n : Nat) :
    numeral base ((digits base n).map (CharKind.toUpper ⟨8, true⟩)) = n := by
  have key : ∀ (l : List Nat), (∀ c ∈ l, ∃ d, d < base ∧ c = digitChar d) →
      ∀ a, (l.map (CharKind.toUpper ⟨8, true⟩)).foldl (fun a u => a * base + digitValue u) a =
        l.foldl (fun a u => a * base + digitValue u) a := by
    intro l
    induction l with
    | nil => intro _ a; rfl
    | cons c l ih =>
      intro h a
      obtain ⟨d, hd, rfl⟩ := h c (by simp)
      simp only [List.map_cons, List.foldl_cons]
      rw [ih (fun c hc => h c (by simp [hc])), digitValue_upper (by omega), digitValue_digitChar (by omega)]
  have := numeral_digits hb hb' n
  unfold numeral at this ⊢
  rw [key _ (digits_mem hb n)]
  exact this

theorem base_ok {kd : Kind} {b : Nat} (h : kd.Base b) : b = baseOf kd ∧ 2 ≤ b ∧ b ≤ 16 ∧ (b = 16 → kd = .hex) ∧
    (kd = .hex → b = 16) := by
  cases kd <;> simp [Kind.Base] at h <;> subst h <;> simp [baseOf]

theorem appendNumber_numeral {s : FSpec} {b : Nat} (h : s.kind.Base b) (n : Nat) :
    Numeral b (s.kind = .hex ∧ s.upper) n (appendNumber s b n) := by
  obtain ⟨_, h2, h3, h4, h5⟩ := base_ok h
  unfold appendNumber
  simp only
  by_cases hu : s.kind = .hex ∧ s.upper = true
  · rw [if_pos hu]
    have hb : b = 16 := h5 hu.1
    refine ⟨?_, ?_, ?_, numeral_upper h2 h3 n⟩
    · intro c hc
      rw [List.mem_map] at hc
      obtain ⟨x, hx, rfl⟩ := hc
      obtain ⟨d, hd, rfl⟩ := digits_mem h2 n x hx
      rw [toUpper_digit (by omega)]
      unfold BaseDigit
      simp only [hu, and_self, decide_true, true_and]
      split <;> omega
    · simp [digits_ne_nil]
    · intro hh
      have : (digits b n).head? = some 0x30 := by
        cases hd : digits b n with
        | nil => exact absurd hd (digits_ne_nil _ _)
        | cons x l =>
          rw [hd] at hh
          simp only [List.map_cons, List.head?_cons, Option.some.injEq] at hh ⊢
          obtain ⟨d, hd2, rfl⟩ := digits_mem h2 n x (by rw [hd]; simp)
          rw [toUpper_digit (by omega)] at hh
          unfold digitChar
          split at hh <;> split <;> omega
      have h0 := digits_head h2 h3 n this
      subst h0
      rw [digits_of_lt (by omega)]
      rfl
  · rw [if_neg hu]
    refine ⟨?_, digits_ne_nil _ _, ?_, numeral_digits h2 h3 n⟩
    · intro c hc
      obtain ⟨d, hd, rfl⟩ := digits_mem h2 n c hc
      unfold BaseDigit digitChar
      by_cases hb : b = 16
      · have hx := h4 hb
        have : s.upper = false := by
          cases h : s.upper with
          | false => rfl
          | true => exact absurd ⟨hx, h⟩ hu
        split
        · exact .inl (by omega)
        · exact .inr (.inr ⟨hb, by simp [this], by omega, by omega⟩)
      · have : b ≤ 10 := by
          revert h; cases s.kind <;> simp [Kind.Base] <;> omega
        rw [if_pos (by omega)]
        omega
    · intro hh
      have h0 := digits_head h2 h3 n hh
      subst h0
      rw [digits_of_lt (by omega)]
      rfl

theorem appendNumber_length (s : FSpec) {b : Nat} (hb : 2 ≤ b) (n : Nat) :
    (appendNumber s b n).length = countDigits b n := by
  rw [countDigits_eq hb]
  unfold appendNumber
  simp only
  split <;> simp

theorem appendPrefix_eq (s : FSpec) (neg : Bool) : appendPrefix s neg = signText s neg ++ altText s := by
  unfold appendPrefix signText altText
  cases neg <;> cases s.sign <;> cases s.alt <;> cases s.kind <;> cases s.upper <;> rfl

theorem prefix_length (s : FSpec) (neg : Bool) : (signText s neg ++ altText s).length =
      (if neg || s.sign = .always || s.sign = .positivePadding then 1 else 0) +
      (if s.alt then (if s.kind = .binary || s.kind = .hex then 2 else 1) else 0) := by
  unfold signText altText
  cases neg <;> cases s.sign <;> cases s.alt <;> cases s.kind <;> cases s.upper <;> rfl

theorem center_split (pad : Nat) (l r : Nat) (hl : l = pad / 2) (hr : r = if pad % 2 = 0 then l else l + 1) :
    l + r = pad ∧ l ≤ r ∧ r ≤ l + 1 := by
  subst hl
  split at hr <;> omega

theorem formatUnsigned_shows {maxChar : Nat} {s : FSpec} {ps : List Param} {b : Nat} (h : s.kind.Base b)
    (n : Nat) (neg : Bool) :
    ShowsNumber s (s.widthOf ps 0) n neg (formatUnsigned maxChar s ps n neg) := by
  obtain ⟨hb, h2, h3, _, _⟩ := base_ok h
  have hk : s.kind ≠ .character := by
    intro e; rw [e] at h; exact h
  refine ⟨b, appendNumber s b n, h, appendNumber_numeral h n, ?_⟩
  generalize hw : s.widthOf ps 0 = w
  unfold formatUnsigned
  rw [if_neg hk]
  simp only
  rw [← hb, hw, ← appendNumber_length s h2 n, ← prefix_length s neg, appendPrefix_eq]
  generalize appendNumber s b n = ds
  generalize hpre : signText s neg ++ altText s = pre
  have hlen : (pre ++ ds).length = ds.length + pre.length := by simp; omega
  rw [hlen]
  generalize hN : ds.length + pre.length = N
  generalize hpad : max N w - N = pad
  have hpw : pad = w - N := by omega
  generalize hch : s.fill.getD 0x20 = ch
  cases hal : s.align with
  | left =>
    simp only [reduceCtorEq, and_false, if_false]
    refine ⟨by simp [padding]; omega, 0, pad, by simp [padding], by rw [hlen]; omega, by simp, ?_, ?_⟩ <;>
      simp [Alignment.or]
  | right =>
    simp only [reduceCtorEq, and_false, if_false]
    refine ⟨by simp [padding]; omega, pad, 0, by simp [padding], by rw [hlen]; omega, ?_, by simp, ?_⟩ <;>
      simp [Alignment.or]
  | center =>
    simp only [reduceCtorEq, and_false, if_false]
    obtain ⟨q1, q2, q3⟩ := center_split pad (pad / 2) _ rfl rfl
    refine ⟨by simp only [padding, List.length_append, List.length_replicate]; omega,
      pad / 2, if pad % 2 = 0 then pad / 2 else pad / 2 + 1, by simp [padding], by rw [hlen]; omega, ?_, ?_, ?_⟩
    · simp [Alignment.or]
    · simp [Alignment.or]
    · intro _; exact ⟨q2, q3⟩
  | default =>
    simp only [and_true]
    cases hz : s.zero with
    | true =>
      simp only [if_true]
      refine ⟨by simp [padding]; omega, by simp [padding, hpw]⟩
    | false =>
      simp only [Bool.false_eq_true, if_false]
      refine ⟨by simp [padding]; omega, pad, 0, by simp [padding], by rw [hlen]; omega, ?_, by simp, ?_⟩ <;>
      simp [Alignment.or]

/-- The absolute value computed without branches is the absolute value. -/
theorem absolute {bits repr : Nat} (hb : 0 < bits) (hr : repr < 2 ^ bits) :
    let sign := if repr.testBit (bits - 1) then 2 ^ bits - 1 else 0
    ((((repr ^^^ sign) % 2 ^ bits) + (sign &&& 1)) % 2 ^ bits = (intValue true bits repr).natAbs) ∧
    ((sign != 0) = decide (intValue true bits repr < 0)) := by
  obtain ⟨n, rfl⟩ : ∃ n, bits = n + 1 := ⟨bits - 1, by omega⟩
  have hp : 2 ^ (n + 1) = 2 * 2 ^ n := by rw [Nat.pow_succ, Nat.mul_comm]
  have hpos : 0 < 2 ^ n := Nat.two_pow_pos n
  have hcast : ((2 ^ (n + 1) : Nat) : Int) = (2 : Int) ^ (n + 1) := by simp
  simp only [Nat.add_sub_cancel, intValue, true_and]
  by_cases h : 2 ^ n ≤ repr
  · have ht : repr.testBit n = true := by
      rw [Nat.testBit_eq_decide_div_mod_eq]
      have h1 : repr / 2 ^ n = 1 := by
        apply Nat.div_eq_of_lt_le <;> omega
      rw [h1]; rfl
    rw [if_pos ht, if_pos h]
    have hx : repr ^^^ (2 ^ (n + 1) - 1) = 2 ^ (n + 1) - 1 - repr := by
      apply Nat.eq_of_testBit_eq
      intro i
      have e : 2 ^ (n + 1) - 1 - repr = 2 ^ (n + 1) - (repr + 1) := by omega
      rw [Nat.testBit_xor, Nat.testBit_two_pow_sub_one, e, Nat.testBit_two_pow_sub_succ hr]
      by_cases hi : i < n + 1
      · simp [hi]
      · have : repr.testBit i = false :=
          Nat.testBit_lt_two_pow (Nat.lt_of_lt_of_le hr (Nat.pow_le_pow_right (by omega) (by omega)))
        simp [hi, this]
    have h1 : (2 ^ (n + 1) - 1) &&& 1 = 1 := by
      rw [Nat.and_one_is_mod]; omega
    rw [hx, h1]
    have h2 : (2 ^ (n + 1) - 1 - repr) % 2 ^ (n + 1) = 2 ^ (n + 1) - 1 - repr := Nat.mod_eq_of_lt (by omega)
    rw [h2, Nat.mod_eq_of_lt (by omega)]
    constructor
    · omega
    · have : (2 ^ (n + 1) - 1 != 0) = true := by
        rw [bne_iff_ne]; omega
      rw [this]
      symm
      rw [decide_eq_true_eq]
      omega
  · have ht : repr.testBit n = false := Nat.testBit_lt_two_pow (by omega)
    rw [if_neg (by rw [ht]; simp), if_neg h, Nat.xor_zero, Nat.zero_and, Nat.add_zero, Nat.mod_mod,
      Nat.mod_eq_of_lt hr]
    simp

theorem formatInteger_shows {maxChar : Nat} {s : FSpec} {ps : List Param} {b : Nat} (h : s.kind.Base b)
    {signed : Bool} {bits repr : Nat} (hb : 0 < bits) (hr : repr < 2 ^ bits) :
    ShowsNumber s (s.widthOf ps 0) (intValue signed bits repr).natAbs (decide (intValue signed bits repr < 0))
      (formatInteger maxChar s ps signed bits repr) := by
  unfold formatInteger
  cases signed with
  | true =>
    obtain ⟨h1, h2⟩ := absolute hb hr
    simp only [if_true]
    rw [h1, h2]
    exact formatUnsigned_shows h _ _
  | false =>
    have e : intValue false bits repr = (repr : Int) := by simp [intValue]
    rw [e]
    simp only [Bool.false_eq_true, if_false, Int.natAbs_natCast]
    have : decide ((repr : Int) < 0) = false := by simp
    rw [this]
    exact formatUnsigned_shows h _ _

theorem formatStringWith_padded (append : List Nat → List Nat) (s : FSpec) (ps : List Param) (v : List Nat) :
    PaddedBy (s.fill.getD 0x20) (s.align.or .left)
      (s.widthOf ps 0 - (v.take (s.precisionOf ps (2 ^ 64 - 1))).length)
      (append (v.take (s.precisionOf ps (2 ^ 64 - 1))))
      (formatStringWith append s ps v) := by
  unfold formatStringWith
  generalize hw : s.widthOf ps 0 = w
  generalize hp : s.precisionOf ps (2 ^ 64 - 1) = p
  simp only
  have ht : v.take (min p v.length) = v.take p := by
    by_cases h : p ≤ v.length
    · rw [Nat.min_eq_left h]
    · rw [Nat.min_eq_right (by omega), List.take_of_length_le (by omega), List.take_of_length_le (by omega)]
  have hl : (v.take p).length = min p v.length := List.length_take
  rw [ht, ← hl]
  generalize v.take p = t
  generalize hpad : max t.length w - t.length = pad
  have hpw : pad = w - t.length := by omega
  cases hal : s.align with
  | left => exact ⟨0, pad, by simp [padding], by omega, by simp, by simp [Alignment.or], by simp [Alignment.or]⟩
  | default => exact ⟨0, pad, by simp [padding], by omega, by simp, by simp [Alignment.or], by simp [Alignment.or]⟩
  | right => exact ⟨pad, 0, by simp [padding], by omega, by simp [Alignment.or], by simp, by simp [Alignment.or]⟩
  | center =>
    obtain ⟨q1, q2, q3⟩ := center_split pad (pad / 2) _ rfl rfl
    exact ⟨pad / 2, if pad % 2 = 0 then pad / 2 else pad / 2 + 1, by simp [padding], by omega,
      by simp [Alignment.or], by simp [Alignment.or], fun _ => ⟨q2, q3⟩⟩

end Verif.Format
