import Verif.Common.Bits
import Verif.Unicode.Model
import Verif.Unicode.Spec

/-! # Lemmas about the Unicode model -/

namespace Verif.Unicode
open Verif.Bits

theorem cons2 {a a' b b' : Nat} {s : List Nat} (ha : a = a') (hb : b = b') :
    a :: b :: s = a' :: b' :: s := by rw [ha, hb]
theorem cons3 {a a' b b' c c' : Nat} {s : List Nat} (ha : a = a') (hb : b = b') (hc : c = c') :
    a :: b :: c :: s = a' :: b' :: c' :: s := by rw [ha, hb, hc]
theorem cons4 {a a' b b' c c' d d' : Nat} {s : List Nat} (ha : a = a') (hb : b = b') (hc : c = c')
    (hd : d = d') : a :: b :: c :: d :: s = a' :: b' :: c' :: d' :: s := by rw [ha, hb, hc, hd]

theorem validateCodepoint_iff (c : Nat) : validateCodepoint c = true ↔ Scalar c := by
  unfold validateCodepoint Scalar
  split
  · simp; omega
  · split
    · simp; omega
    · simp; omega

theorem and_mod (x k : Nat) : x &&& (2 ^ k - 1) = x % 2 ^ k := Nat.and_two_pow_sub_one_eq_mod x k

/-! ## Encoding: bit operations as arithmetic -/

theorem toUtf8_eq {c : Nat} (h : c ≤ 0x10ffff) : toUtf8 c = utf8Of c := by
  have m6 : ∀ x : Nat, x &&& 0x3f = x % 64 := fun x => and_mod x 6
  have o1 : ∀ x, x < 32 → 0xc0 ||| x = 0xc0 + x := fun x hx =>
    or_eq_add (i := 5) (by decide) hx
  have o2 : ∀ x, x < 16 → 0xe0 ||| x = 0xe0 + x := fun x hx =>
    or_eq_add (i := 4) (by decide) hx
  have o3 : ∀ x, x < 8 → 0xf0 ||| x = 0xf0 + x := fun x hx =>
    or_eq_add (i := 3) (by decide) hx
  have o4 : ∀ x, x < 64 → 0x80 ||| x = 0x80 + x := fun x hx =>
    or_eq_add (i := 6) (by decide) hx
  unfold toUtf8 utf8Of
  simp only [m6, Nat.shiftRight_eq_div_pow]
  split
  · congr 1; omega
  · split
    · rw [o1 _ (by omega), o4 _ (by omega)]
      exact cons2 (by omega) (by omega)
    · split
      · rw [o2 _ (by omega), o4 _ (by omega), o4 _ (by omega)]
        exact cons3 (by omega) (by omega) (by omega)
      · rw [o3 _ (by omega), o4 _ (by omega), o4 _ (by omega), o4 _ (by omega)]
        exact cons4 (by omega) (by omega) (by omega) (by omega)

theorem toUtf16_eq {c : Nat} (h : c ≤ 0x10ffff) : toUtf16 c = utf16Of c := by
  have m10 : ∀ x : Nat, x &&& 0x3ff = x % 1024 := fun x => and_mod x 10
  have o1 : ∀ x, x < 1024 → 0xd800 ||| x = 0xd800 + x := fun x hx =>
    or_eq_add (i := 10) (by decide) hx
  have o2 : ∀ x, x < 1024 → 0xdc00 ||| x = 0xdc00 + x := fun x hx =>
    or_eq_add (i := 10) (by decide) hx
  unfold toUtf16 utf16Of
  simp only [m10, Nat.shiftRight_eq_div_pow]
  split
  · rw [Nat.mod_eq_of_lt (by omega)]
  · rw [o1 _ (by omega), o2 _ (by omega), Nat.mod_eq_of_lt (by omega), Nat.mod_eq_of_lt (by omega)]

/-! ## Decoding one UTF-8 code point -/

theorem or_sum3 (a b d : Nat) (hb : b < 64) (hd : d < 64) :
    a <<< 12 ||| b <<< 6 ||| d <<< 0 = a * 4096 + b * 64 + d := by
  have h1 : a <<< 12 = a * 4096 := by rw [Nat.shiftLeft_eq]
  have h2 : b <<< 6 = b * 64 := by rw [Nat.shiftLeft_eq]
  rw [h1, h2, Nat.shiftLeft_zero, or_eq_add (a := a * 4096) (b := b * 64) (i := 12) (by omega) (by omega),
    or_eq_add (i := 6) (by omega) (by omega)]

theorem or_sum4 (a b d f : Nat) (hb : b < 64) (hd : d < 64) (hf : f < 64) :
    a <<< 18 ||| b <<< 12 ||| d <<< 6 ||| f <<< 0 = a * 262144 + b * 4096 + d * 64 + f := by
  have h1 : a <<< 18 = a * 262144 := by rw [Nat.shiftLeft_eq]
  have h2 : b <<< 12 = b * 4096 := by rw [Nat.shiftLeft_eq]
  have h3 : d <<< 6 = d * 64 := by rw [Nat.shiftLeft_eq]
  rw [h1, h2, h3, Nat.shiftLeft_zero,
    or_eq_add (a := a * 262144) (b := b * 4096) (i := 18) (by omega) (by omega),
    or_eq_add (a := a * 262144 + b * 4096) (b := d * 64) (i := 12) (by omega) (by omega),
    or_eq_add (i := 6) (by omega) (by omega)]

/-- A continuation byte. -/
def Cont (b : Nat) : Prop := 0x80 ≤ b ∧ b < 0xc0

instance (b : Nat) : Decidable (Cont b) := by unfold Cont; infer_instance

/-- Sign extension does not disturb the masks the decoder uses. -/
theorem ext_masks : ∀ b, b < 256 → ∀ m ∈ [0x80, 0xe0, 0xf0, 0xf8, 0x7f, 0x1f, 0x0f, 0x07, 0xc0, 0x3f],
    (0xffffff00 + b) &&& m = b &&& m := by decide +kernel

theorem next_utf8 (x : Bool) (b : Nat) (s : List Nat) (hb : b < 256) :
    (next (.utf8 x) (b :: s)).2 = s ∧
    ∀ m ∈ [0x80, 0xe0, 0xf0, 0xf8, 0x7f, 0x1f, 0x0f, 0x07, 0xc0, 0x3f],
      (next (.utf8 x) (b :: s)).1 &&& m = b &&& m := by
  cases x with
  | false => simp [next]
  | true =>
    refine ⟨by simp [next], ?_⟩
    intro m hm
    simp only [next]
    split
    · rfl
    · exact ext_masks b hb m hm

theorem lead_masks : ∀ b, b < 256 →
    ((b &&& 0x80 = 0) ↔ b < 0x80) ∧ ((b &&& 0xe0 = 0xc0) ↔ 0xc0 ≤ b ∧ b < 0xe0) ∧
    ((b &&& 0xf0 = 0xe0) ↔ 0xe0 ≤ b ∧ b < 0xf0) ∧ ((b &&& 0xf8 = 0xf0) ↔ 0xf0 ≤ b ∧ b < 0xf8) ∧
    ((b &&& 0xc0 = 0x80) ↔ 0x80 ≤ b ∧ b < 0xc0) ∧
    b &&& 0x7f = b % 128 ∧ b &&& 0x1f = b % 32 ∧ b &&& 0x0f = b % 16 ∧ b &&& 0x07 = b % 8 ∧
    b &&& 0x3f = b % 64 := by decide +kernel

theorem continuation_nil (x : Bool) (i cp : Nat) :
    continuation (.utf8 x) (i + 1) cp [] = (none, []) := by
  unfold continuation
  exact if_pos (by show invalid &&& 0b11000000 ≠ 0b10000000; decide)

theorem continuation_cons (x : Bool) (i cp b : Nat) (s : List Nat) (hb : b < 256) :
    continuation (.utf8 x) (i + 1) cp (b :: s) =
      if Cont b then continuation (.utf8 x) i (cp ||| ((b % 64) <<< (6 * i))) s else (none, s) := by
  obtain ⟨h1, h2⟩ := next_utf8 x b s hb
  have hm := lead_masks b hb
  simp only [continuation]
  rw [h1, h2 0xc0 (by simp), h2 0x3f (by simp), hm.2.2.2.2.2.2.2.2.2]
  by_cases hc : Cont b
  · rw [if_neg (by rw [Decidable.not_not]; exact hm.2.2.2.2.1.2 hc), if_pos hc]
  · rw [if_pos (fun h => hc (hm.2.2.2.2.1.1 h)), if_neg hc]

/-- Arithmetic form of decoding one code point. -/
def dec8 : List Nat → Option (Nat × List Nat)
  | [] => none
  | a :: s =>
    if a < 0x80 then some (a, s)
    else if a < 0xc0 then none
    else if a < 0xe0 then
      match s with
      | b :: s =>
        let c := a % 32 * 64 + b % 64
        if Cont b ∧ 0x80 ≤ c then some (c, s) else none
      | _ => none
    else if a < 0xf0 then
      match s with
      | b :: d :: s =>
        let c := a % 16 * 4096 + b % 64 * 64 + d % 64
        if Cont b ∧ Cont d ∧ 0x800 ≤ c ∧ Scalar c then some (c, s) else none
      | _ => none
    else if a < 0xf8 then
      match s with
      | b :: d :: f :: s =>
        let c := a % 8 * 262144 + b % 64 * 4096 + d % 64 * 64 + f % 64
        if Cont b ∧ Cont d ∧ Cont f ∧ 0x10000 ≤ c ∧ Scalar c then some (c, s) else none
      | _ => none
    else none

theorem decode_invalid {e : Enc} {s t : List Nat} (h : codepointFromString e s = (invalid, t))
    (c : Nat) (rest : List Nat) : decodeCodepoint e s ≠ (some c, rest) := by
  simp only [decodeCodepoint, h]
  rw [if_neg (by decide)]
  simp

theorem decode_value {e : Enc} {s t : List Nat} {v : Nat} (h : codepointFromString e s = (v, t))
    (c : Nat) (rest : List Nat) :
    decodeCodepoint e s = (some c, rest) ↔ Scalar v ∧ v = c ∧ t = rest := by
  simp only [decodeCodepoint, h]
  by_cases hv : Scalar v
  · rw [if_pos ((validateCodepoint_iff v).2 hv)]; simp [hv]
  · rw [if_neg (fun h => hv ((validateCodepoint_iff v).1 h))]; simp [hv]

theorem decode_dec8 (x : Bool) (s : List Nat) (hs : ∀ b ∈ s, b < 256) (c : Nat) (rest : List Nat) :
    decodeCodepoint (.utf8 x) s = (some c, rest) ↔ dec8 s = some (c, rest) := by
  cases s with
  | nil =>
    have : codepointFromString (.utf8 x) [] = (invalid, []) := by cases x <;> decide
    simp [dec8, decode_invalid this]
  | cons a s =>
    have ha := hs a (by simp)
    obtain ⟨h1, h2⟩ := next_utf8 x a s ha
    obtain ⟨l1, l2, l3, l4, -, k1, k2, k3, k4, -⟩ := lead_masks a ha
    have hraw : codepointFromString (.utf8 x) (a :: s) = fromUtf8 (.utf8 x) (a :: s) := rfl
    unfold dec8
    simp only
    have hfind : leadingBytes.find? (fun d => (next (.utf8 x) (a :: s)).1 &&& d.encodingMask ==
        d.leadingByte) =
        if a < 0x80 then some ⟨0b00000000, 0b10000000, 0b01111111, 1⟩
        else if a < 0xc0 then none
        else if a < 0xe0 then some ⟨0b11000000, 0b11100000, 0b00011111, 2⟩
        else if a < 0xf0 then some ⟨0b11100000, 0b11110000, 0b00001111, 3⟩
        else if a < 0xf8 then some ⟨0b11110000, 0b11111000, 0b00000111, 4⟩
        else none := by
      unfold leadingBytes
      simp only [List.find?, h2 0x80 (by simp), h2 0xe0 (by simp), h2 0xf0 (by simp),
        h2 0xf8 (by simp)]
      by_cases c1 : a < 0x80
      · simp [l1.2 c1, c1]
      · have n1 : (a &&& 0x80 == 0) = false := by simp only [beq_eq_false_iff_ne]; exact fun h => c1 (l1.1 h)
        rw [n1, if_neg c1]
        by_cases c2 : a < 0xc0
        · have n2 : (a &&& 0xe0 == 0xc0) = false := by
            simp only [beq_eq_false_iff_ne]; intro h; have := l2.1 h; omega
          have n3 : (a &&& 0xf0 == 0xe0) = false := by
            simp only [beq_eq_false_iff_ne]; intro h; have := l3.1 h; omega
          have n4 : (a &&& 0xf8 == 0xf0) = false := by
            simp only [beq_eq_false_iff_ne]; intro h; have := l4.1 h; omega
          rw [n2, n3, n4, if_pos c2]
        · rw [if_neg c2]
          by_cases c3 : a < 0xe0
          · have n2 : (a &&& 0xe0 == 0xc0) = true := by
              simp only [beq_iff_eq]; exact l2.2 (by omega)
            rw [n2, if_pos c3]
          · have n2 : (a &&& 0xe0 == 0xc0) = false := by
              simp only [beq_eq_false_iff_ne]; intro h; have := l2.1 h; omega
            rw [n2, if_neg c3]
            by_cases c4 : a < 0xf0
            · have n3 : (a &&& 0xf0 == 0xe0) = true := by
                simp only [beq_iff_eq]; exact l3.2 (by omega)
              rw [n3, if_pos c4]
            · have n3 : (a &&& 0xf0 == 0xe0) = false := by
                simp only [beq_eq_false_iff_ne]; intro h; have := l3.1 h; omega
              rw [n3, if_neg c4]
              by_cases c5 : a < 0xf8
              · have n4 : (a &&& 0xf8 == 0xf0) = true := by
                  simp only [beq_iff_eq]; exact l4.2 (by omega)
                rw [n4, if_pos c5]
              · have n4 : (a &&& 0xf8 == 0xf0) = false := by
                  simp only [beq_eq_false_iff_ne]; intro h; have := l4.1 h; omega
                rw [n4, if_neg c5]
    have hdef := hraw
    unfold fromUtf8 at hdef
    simp only [hfind, h1] at hdef
    by_cases c1 : a < 0x80
    · simp only [c1, if_true, continuation, Nat.sub_self, Nat.mul_zero, Nat.shiftLeft_zero,
        h2 0x7f (by simp), k1] at hdef ⊢
      have e1 : a % 128 = a := by omega
      rw [e1, if_neg (by omega)] at hdef
      rw [decode_value hdef]
      have : Scalar a := by unfold Scalar; omega
      simp [this]
    · simp only [c1, if_false] at hdef ⊢
      by_cases c2 : a < 0xc0
      · simp only [c2, if_true] at hdef ⊢
        simp [decode_invalid hdef]
      · simp only [c2, if_false] at hdef ⊢
        by_cases c3 : a < 0xe0
        · simp only [c3, if_true] at hdef ⊢
          cases s with
          | nil =>
            simp only [Nat.reduceSub, continuation_nil] at hdef
            simp [decode_invalid hdef]
          | cons b s =>
            have hb := hs b (by simp)
            simp only [Nat.reduceSub, continuation_cons x _ _ b s hb, h2 0x1f (by simp), k2] at hdef
            simp only
            by_cases cb : Cont b
            · simp only [cb, if_true, continuation] at hdef
              have e1 : (a % 32) <<< (6 * 1) ||| (b % 64) <<< (6 * 0) = a % 32 * 64 + b % 64 := by
                rw [Nat.shiftLeft_eq, Nat.shiftLeft_eq]
                simp only [Nat.mul_one, Nat.mul_zero, Nat.pow_zero]
                exact or_eq_add (i := 6) (by omega) (by omega)
              rw [e1] at hdef
              by_cases ho : 0x80 ≤ a % 32 * 64 + b % 64
              · rw [if_neg (by omega)] at hdef
                rw [decode_value hdef, if_pos ⟨cb, ho⟩]
                have : Scalar (a % 32 * 64 + b % 64) := by unfold Scalar; omega
                simp [this]
              · rw [if_pos (by omega)] at hdef
                rw [if_neg (by simp [ho])]
                simp [decode_invalid hdef]
            · simp only [cb, if_false] at hdef
              rw [if_neg (by simp [cb])]
              simp [decode_invalid hdef]
        · simp only [c3, if_false] at hdef ⊢
          by_cases c4 : a < 0xf0
          · simp only [c4, if_true] at hdef ⊢
            cases s with
            | nil =>
              simp only [Nat.reduceSub, continuation_nil] at hdef
              simp [decode_invalid hdef]
            | cons b s =>
              have hb := hs b (by simp)
              simp only [Nat.reduceSub, continuation_cons x _ _ b s hb, h2 0x0f (by simp), k3] at hdef
              by_cases cb : Cont b
              · simp only [cb, if_true] at hdef
                cases s with
                | nil =>
                  simp only [continuation_nil] at hdef
                  simp [decode_invalid hdef]
                | cons d s =>
                  have hd := hs d (by simp)
                  simp only [continuation_cons x _ _ d s hd] at hdef
                  simp only
                  by_cases cd : Cont d
                  · simp only [cd, if_true, continuation] at hdef
                    have e1 : (a % 16) <<< (6 * 2) ||| (b % 64) <<< (6 * 1) ||| (d % 64) <<< (6 * 0) =
                        a % 16 * 4096 + b % 64 * 64 + d % 64 := or_sum3 _ _ _ (by omega) (by omega)
                    rw [e1] at hdef
                    by_cases ho : 0x800 ≤ a % 16 * 4096 + b % 64 * 64 + d % 64
                    · rw [if_neg (by omega)] at hdef
                      rw [decode_value hdef]
                      by_cases hsc : Scalar (a % 16 * 4096 + b % 64 * 64 + d % 64)
                      · rw [if_pos ⟨cb, cd, ho, hsc⟩]; simp [hsc]
                      · rw [if_neg (by simp [hsc])]; simp [hsc]
                    · rw [if_pos (by omega)] at hdef
                      rw [if_neg (by simp [ho])]
                      simp [decode_invalid hdef]
                  · simp only [cd, if_false] at hdef
                    rw [if_neg (by simp [cd])]
                    simp [decode_invalid hdef]
              · simp only [cb, if_false] at hdef
                have : (match b :: s with
                    | b :: d :: s =>
                      if Cont b ∧ Cont d ∧ 0x800 ≤ a % 16 * 4096 + b % 64 * 64 + d % 64 ∧
                        Scalar (a % 16 * 4096 + b % 64 * 64 + d % 64) then
                        some (a % 16 * 4096 + b % 64 * 64 + d % 64, s) else none
                    | _ => none) = none := by
                  cases s with
                  | nil => rfl
                  | cons d s => simp [cb]
                simp only [this]
                simp [decode_invalid hdef]
          · simp only [c4, if_false] at hdef ⊢
            by_cases c5 : a < 0xf8
            · simp only [c5, if_true] at hdef ⊢
              rcases s with _ | ⟨b, _ | ⟨d, _ | ⟨f, s⟩⟩⟩
              · simp only [Nat.reduceSub, continuation_nil] at hdef
                simp [decode_invalid hdef]
              · have hb := hs b (by simp)
                simp only [Nat.reduceSub, continuation_cons x _ _ b _ hb, continuation_nil] at hdef
                by_cases cb : Cont b
                · simp only [cb, if_true] at hdef
                  simp [decode_invalid hdef]
                · simp only [cb, if_false] at hdef
                  simp [decode_invalid hdef]
              · have hb := hs b (by simp)
                have hd := hs d (by simp)
                simp only [Nat.reduceSub, continuation_cons x _ _ b _ hb,
                  continuation_cons x _ _ d _ hd, continuation_nil] at hdef
                by_cases cb : Cont b
                · simp only [cb, if_true] at hdef
                  by_cases cd : Cont d
                  · simp only [cd, if_true] at hdef
                    simp [decode_invalid hdef]
                  · simp only [cd, if_false] at hdef
                    simp [decode_invalid hdef]
                · simp only [cb, if_false] at hdef
                  simp [decode_invalid hdef]
              · have hb := hs b (by simp)
                have hd := hs d (by simp)
                have hf := hs f (by simp)
                simp only [Nat.reduceSub, continuation_cons x _ _ b _ hb,
                  continuation_cons x _ _ d _ hd, continuation_cons x _ _ f _ hf,
                  h2 0x07 (by simp), k4] at hdef
                simp only
                by_cases cb : Cont b
                · simp only [cb, if_true] at hdef
                  by_cases cd : Cont d
                  · simp only [cd, if_true] at hdef
                    by_cases cf : Cont f
                    · simp only [cf, if_true, continuation] at hdef
                      have e1 : (a % 8) <<< (6 * 3) ||| (b % 64) <<< (6 * 2) |||
                          (d % 64) <<< (6 * 1) ||| (f % 64) <<< (6 * 0) =
                          a % 8 * 262144 + b % 64 * 4096 + d % 64 * 64 + f % 64 := or_sum4 _ _ _ _ (by omega) (by omega) (by omega)
                      rw [e1] at hdef
                      by_cases ho : 0x10000 ≤ a % 8 * 262144 + b % 64 * 4096 + d % 64 * 64 + f % 64
                      · rw [if_neg (by omega)] at hdef
                        rw [decode_value hdef]
                        by_cases hsc : Scalar (a % 8 * 262144 + b % 64 * 4096 + d % 64 * 64 + f % 64)
                        · rw [if_pos ⟨cb, cd, cf, ho, hsc⟩]; simp [hsc]
                        · rw [if_neg (by simp [hsc])]; simp [hsc]
                      · rw [if_pos (by omega)] at hdef
                        rw [if_neg (by simp [ho])]
                        simp [decode_invalid hdef]
                    · simp only [cf, if_false] at hdef
                      rw [if_neg (by simp [cf])]
                      simp [decode_invalid hdef]
                  · simp only [cd, if_false] at hdef
                    rw [if_neg (by simp [cd])]
                    simp [decode_invalid hdef]
                · simp only [cb, if_false] at hdef
                  rw [if_neg (by simp [cb])]
                  simp [decode_invalid hdef]
            · simp only [c5, if_false] at hdef ⊢
              simp [decode_invalid hdef]

theorem dec8_utf8Of {c : Nat} (h : Scalar c) (rest : List Nat) :
    dec8 (utf8Of c ++ rest) = some (c, rest) := by
  unfold Scalar at h
  unfold utf8Of
  split
  · rename_i h1
    simp [dec8, h1]
  · split
    · simp only [List.cons_append, List.nil_append, dec8]
      rw [if_neg (by omega), if_neg (by omega), if_pos (by omega), if_pos]
      · congr 2; omega
      · unfold Cont; omega
    · split
      · simp only [List.cons_append, List.nil_append, dec8]
        rw [if_neg (by omega), if_neg (by omega), if_neg (by omega), if_pos (by omega), if_pos]
        · congr 2; omega
        · unfold Cont Scalar; omega
      · simp only [List.cons_append, List.nil_append, dec8]
        rw [if_neg (by omega), if_neg (by omega), if_neg (by omega), if_neg (by omega),
          if_pos (by omega), if_pos]
        · congr 2; omega
        · unfold Cont Scalar; omega

theorem utf8Of_dec8 {s : List Nat} {c : Nat} {rest : List Nat} (h : dec8 s = some (c, rest)) :
    Scalar c ∧ s = utf8Of c ++ rest := by
  unfold dec8 at h
  split at h
  · cases h
  split at h
  · cases h
    rename_i h1
    refine ⟨by unfold Scalar; omega, ?_⟩
    unfold utf8Of; rw [if_pos h1]; rfl
  split at h
  · cases h
  split at h
  · split at h
    · simp only at h
      split at h
      · rename_i hc
        cases h
        unfold Cont at hc
        refine ⟨by unfold Scalar; omega, ?_⟩
        unfold utf8Of
        rw [if_neg (by omega), if_pos (by omega)]
        simp only [List.cons_append, List.nil_append]
        exact cons2 (by omega) (by omega)
      · cases h
    · cases h
  split at h
  · split at h
    · simp only at h
      split at h
      · rename_i hc
        cases h
        obtain ⟨h1, h2, h3, h4⟩ := hc
        unfold Cont at h1 h2
        refine ⟨h4, ?_⟩
        unfold utf8Of
        rw [if_neg (by omega), if_neg (by omega), if_pos (by omega)]
        simp only [List.cons_append, List.nil_append]
        exact cons3 (by omega) (by omega) (by omega)
      · cases h
    · cases h
  split at h
  · split at h
    · simp only at h
      split at h
      · rename_i hc
        cases h
        obtain ⟨h1, h2, h3, h4, h5⟩ := hc
        unfold Cont at h1 h2 h3
        refine ⟨h5, ?_⟩
        unfold utf8Of
        rw [if_neg (by omega), if_neg (by omega), if_neg (by omega)]
        simp only [List.cons_append, List.nil_append]
        exact cons4 (by omega) (by omega) (by omega) (by omega)
      · cases h
    · cases h
  · cases h

/-! ## UTF-16 and UTF-32 -/

theorem fromSurrogates_eq (nx : List Nat → Nat × List Nat) {s s1 s2 : List Nat} {cp low : Nat}
    (h1 : nx s = (cp, s1)) (h2 : nx s1 = (low, s2)) :
    fromSurrogates nx s =
      if 0xd800 ≤ cp ∧ cp ≤ 0xdbff then
        if 0xdc00 ≤ low ∧ low ≤ 0xdfff then
          (((cp <<< 10) % 2 ^ 32 + low + 2 ^ 32 - 0x35fdc00) % 2 ^ 32, s2)
        else (invalid, s2)
      else if 0xdc00 ≤ cp ∧ cp ≤ 0xdfff then (invalid, s1)
      else (cp, s1) := by
  unfold fromSurrogates
  rw [h1]
  simp only
  rw [h2]

theorem decode16_iff (s : List Nat) (hs : ∀ b ∈ s, b < 65536) (c : Nat) (rest : List Nat) :
    decodeCodepoint .utf16 s = (some c, rest) ↔ Scalar c ∧ s = utf16Of c ++ rest := by
  cases s with
  | nil =>
    have : codepointFromString .utf16 [] = (invalid, []) := by decide
    simp only [decode_invalid this, false_iff, not_and]
    intro _ h
    unfold utf16Of at h; split at h <;> simp at h
  | cons a s =>
    have ha := hs a (by simp)
    have hdef : codepointFromString .utf16 (a :: s) = fromSurrogates (next .utf16) (a :: s) := rfl
    rw [fromSurrogates_eq (next .utf16) (cp := a) (s1 := s) (low := (next .utf16 s).1)
      (s2 := (next .utf16 s).2) rfl rfl] at hdef
    by_cases hhi : 0xd800 ≤ a ∧ a ≤ 0xdbff
    · rw [if_pos hhi] at hdef
      cases s with
      | nil =>
        rw [if_neg (by decide)] at hdef
        simp only [decode_invalid hdef, false_iff, not_and]
        intro hsc h
        unfold utf16Of at h
        unfold Scalar at hsc
        split at h
        · simp at h; omega
        · simp at h
      | cons b s =>
        have hb := hs b (by simp)
        rw [show next .utf16 (b :: s) = (b, s) from rfl] at hdef
        simp only at hdef
        by_cases hlo : 0xdc00 ≤ b ∧ b ≤ 0xdfff
        · rw [if_pos hlo] at hdef
          have e : ((a <<< 10) % 2 ^ 32 + b + 2 ^ 32 - 0x35fdc00) % 2 ^ 32 =
              (a - 0xd800) * 1024 + (b - 0xdc00) + 0x10000 := by
            rw [Nat.shiftLeft_eq]; omega
          rw [e] at hdef
          rw [decode_value hdef]
          constructor
          · rintro ⟨h1, rfl, rfl⟩
            refine ⟨h1, ?_⟩
            unfold utf16Of
            rw [if_neg (by omega)]
            simp only [List.cons_append, List.nil_append]
            exact cons2 (by omega) (by omega)
          · rintro ⟨h1, h2⟩
            unfold utf16Of at h2
            unfold Scalar at h1 ⊢
            split at h2
            · simp at h2; omega
            · simp at h2; refine ⟨by omega, by omega, h2.2.2⟩
        · rw [if_neg hlo] at hdef
          simp only [decode_invalid hdef, false_iff, not_and]
          intro hsc h
          unfold utf16Of at h
          unfold Scalar at hsc
          split at h
          · simp at h; omega
          · simp at h; omega
    · rw [if_neg hhi] at hdef
      by_cases hlo : 0xdc00 ≤ a ∧ a ≤ 0xdfff
      · rw [if_pos hlo] at hdef
        simp only [decode_invalid hdef, false_iff, not_and]
        intro hsc h
        unfold utf16Of at h
        unfold Scalar at hsc
        split at h
        · simp at h; omega
        · simp at h; omega
      · rw [if_neg hlo] at hdef
        rw [decode_value hdef]
        constructor
        · rintro ⟨h1, rfl, rfl⟩
          refine ⟨h1, ?_⟩
          unfold utf16Of; rw [if_pos ha]; rfl
        · rintro ⟨h1, h2⟩
          unfold utf16Of at h2
          unfold Scalar at h1 ⊢
          split at h2
          · simp at h2; refine ⟨by omega, by omega, h2.2⟩
          · simp at h2; omega

theorem decode32_iff (s : List Nat) (c : Nat) (rest : List Nat) :
    decodeCodepoint .utf32 s = (some c, rest) ↔ Scalar c ∧ s = c :: rest := by
  cases s with
  | nil =>
    have : codepointFromString .utf32 [] = (invalid, []) := by decide
    simp [decode_invalid this]
  | cons a s =>
    have hdef : codepointFromString .utf32 (a :: s) = (a, s) := rfl
    rw [decode_value hdef]
    constructor
    · rintro ⟨h1, rfl, rfl⟩; exact ⟨h1, rfl⟩
    · rintro ⟨h1, h2⟩
      simp only [List.cons.injEq] at h2
      exact ⟨h2.1 ▸ h1, h2.1, h2.2⟩

/-! ## All encodings -/

/-- The exclusive upper bound of a code unit. -/
def unitBound : Enc → Nat
  | .utf8 _ => 256
  | .utf16 => 65536
  | .utf32 => 2 ^ 32

/-- The encoding form of a scalar value, by arithmetic. -/
def formOf : Enc → Nat → List Nat
  | .utf8 _, c => utf8Of c
  | .utf16, c => utf16Of c
  | .utf32, c => [c]

theorem codepointToString_eq (e : Enc) {c : Nat} (h : Scalar c) :
    codepointToString e c = formOf e c := by
  unfold Scalar at h
  cases e with
  | utf8 _ => exact toUtf8_eq h.1
  | utf16 => exact toUtf16_eq h.1
  | utf32 => simp only [codepointToString, formOf]; rw [Nat.mod_eq_of_lt (by omega)]

theorem decode_iff (e : Enc) (s : List Nat) (hs : ∀ b ∈ s, b < unitBound e) (c : Nat)
    (rest : List Nat) :
    decodeCodepoint e s = (some c, rest) ↔ Scalar c ∧ s = formOf e c ++ rest := by
  cases e with
  | utf8 x =>
    rw [decode_dec8 x s hs]
    constructor
    · exact utf8Of_dec8
    · rintro ⟨h1, rfl⟩; exact dec8_utf8Of h1 rest
  | utf16 => exact decode16_iff s hs c rest
  | utf32 => rw [decode32_iff]; rfl

theorem formOf_ne_nil (e : Enc) (c : Nat) : formOf e c ≠ [] := by
  cases e <;> simp only [formOf]
  · unfold utf8Of
    split
    · simp
    · split
      · simp
      · split <;> simp
  · unfold utf16Of; split <;> simp
  · simp

theorem formOf_bound (e : Enc) {c : Nat} (h : Scalar c) : ∀ b ∈ formOf e c, b < unitBound e := by
  unfold Scalar at h
  intro b hb
  cases e <;> simp only [formOf, unitBound] at *
  · unfold utf8Of at hb
    split at hb
    · simp at hb; omega
    · split at hb
      · simp at hb; omega
      · split at hb
        · simp at hb; omega
        · simp at hb; omega
  · unfold utf16Of at hb
    split at hb
    · simp at hb; omega
    · simp at hb; omega
  · simp at hb; omega

theorem decodeAll_iff (e : Enc) : ∀ (n : Nat) (s : List Nat), s.length = n →
    (∀ b ∈ s, b < unitBound e) → ∀ cps : List Nat,
    (decodeAll e s = some cps ↔ (∀ c ∈ cps, Scalar c) ∧ s = cps.flatMap (formOf e)) := by
  intro n
  induction n using Nat.strongRecOn with
  | _ n ih =>
    intro s hn hs cps
    cases s with
    | nil =>
      rw [decodeAll]
      constructor
      · intro h; cases h; simp
      · rintro ⟨_, h⟩
        cases cps with
        | nil => rfl
        | cons c cps =>
          simp only [List.flatMap_cons] at h
          have := congrArg List.length h
          simp only [List.length_nil, List.length_append] at this
          exact absurd (List.length_eq_zero_iff.1 (by omega)) (formOf_ne_nil e c)
    | cons b s =>
      rw [decodeAll]
      have hdi := decode_iff e (b :: s) hs
      have hlen := decodeCodepoint_length e b s
      split
      · rename_i r hd
        constructor
        · intro h; cases h
        · rintro ⟨h1, h2⟩
          cases cps with
          | nil => simp at h2
          | cons c cps =>
            have := (hdi c (cps.flatMap (formOf e))).2 ⟨h1 c (by simp), by simpa using h2⟩
            rw [hd] at this; simp at this
      · rename_i c rest hd
        rw [hd] at hlen
        simp only at hlen
        obtain ⟨hsc, hform⟩ := (hdi c rest).1 hd
        have hrest : ∀ x ∈ rest, x < unitBound e := fun x hx => hs x (by rw [hform]; simp [hx])
        have ih' := ih rest.length (by omega) rest rfl hrest
        constructor
        · intro h
          rcases hr : decodeAll e rest with _ | cps'
          · rw [hr] at h; cases h
          · rw [hr] at h
            simp only [Option.map_some, Option.some.injEq] at h
            subst h
            obtain ⟨i1, i2⟩ := (ih' cps').1 hr
            refine ⟨?_, ?_⟩
            · intro x hx
              rcases List.mem_cons.1 hx with rfl | hx
              · exact hsc
              · exact i1 x hx
            · rw [List.flatMap_cons, ← i2]; exact hform
        · rintro ⟨h1, h2⟩
          cases cps with
          | nil => simp at h2
          | cons c' cps =>
            have h3 := (hdi c' (cps.flatMap (formOf e))).2 ⟨h1 c' (by simp), by simpa using h2⟩
            rw [hd] at h3
            simp only [Prod.mk.injEq, Option.some.injEq] at h3
            obtain ⟨rfl, h3⟩ := h3
            rw [(ih' cps).2 ⟨fun x hx => h1 x (by simp [hx]), h3⟩]
            rfl

theorem validate_eq (e : Enc) : ∀ (n : Nat) (s : List Nat), s.length = n →
    validate e s = (decodeAll e s).isSome := by
  intro n
  induction n using Nat.strongRecOn with
  | _ n ih =>
    intro s hn
    cases s with
    | nil => rw [validate, decodeAll]; rfl
    | cons b s =>
      have hlen := decodeCodepoint_length e b s
      rw [validate, decodeAll]
      split
      · rfl
      · rename_i c rest hd
        rw [hd] at hlen
        simp only at hlen
        rw [ih rest.length (by omega) rest rfl]
        simp

theorem flatMap_congr_mem {f g : Nat → List Nat} : ∀ (l : List Nat), (∀ x ∈ l, f x = g x) →
    l.flatMap f = l.flatMap g := by
  intro l h
  induction l with
  | nil => rfl
  | cons a l ih =>
    simp only [List.flatMap_cons]
    rw [h a (by simp), ih (fun x hx => h x (by simp [hx]))]

theorem flatMap_bound (e : Enc) (cps : List Nat) (h : ∀ c ∈ cps, Scalar c) :
    ∀ b ∈ cps.flatMap (formOf e), b < unitBound e := by
  intro b hb
  obtain ⟨c, hc, hb⟩ := List.mem_flatMap.1 hb
  exact formOf_bound e (h c hc) b hb

/-! ## Well-formedness in the sense of the standards -/

theorem wf8_iff (s : List Nat) :
    WellFormed8 s ↔ ∃ cps : List Nat, (∀ c ∈ cps, Scalar c) ∧ s = cps.flatMap utf8Of := by
  constructor
  · intro h
    induction h with
    | nil => exact ⟨[], by simp⟩
    | @one a s ha _ ih =>
      obtain ⟨cps, h1, h2⟩ := ih
      unfold In at ha
      refine ⟨a :: cps, ?_, ?_⟩
      · intro c hc
        rcases List.mem_cons.1 hc with hc | hc
        · rw [hc]; unfold Scalar; omega
        · exact h1 c hc
      · rw [List.flatMap_cons, ← h2]
        unfold utf8Of; rw [if_pos (by omega)]; rfl
    | @two a b s ha hb _ ih =>
      obtain ⟨cps, h1, h2⟩ := ih
      unfold In at ha hb
      refine ⟨((a - 0xc0) * 64 + (b - 0x80)) :: cps, ?_, ?_⟩
      · intro c hc
        rcases List.mem_cons.1 hc with hc | hc
        · rw [hc]; unfold Scalar; omega
        · exact h1 c hc
      · rw [List.flatMap_cons, ← h2]
        unfold utf8Of
        rw [if_neg (by omega), if_pos (by omega)]
        simp only [List.cons_append, List.nil_append]
        exact cons2 (by omega) (by omega)
    | @three a b c s ha hc _ ih =>
      obtain ⟨cps, h1, h2⟩ := ih
      unfold In at ha hc
      refine ⟨((a - 0xe0) * 4096 + (b - 0x80) * 64 + (c - 0x80)) :: cps, ?_, ?_⟩
      · intro d hd
        rcases List.mem_cons.1 hd with hd | hd
        · rw [hd]; unfold Scalar; omega
        · exact h1 d hd
      · rw [List.flatMap_cons, ← h2]
        unfold utf8Of
        rw [if_neg (by omega), if_neg (by omega), if_pos (by omega)]
        simp only [List.cons_append, List.nil_append]
        exact cons3 (by omega) (by omega) (by omega)
    | @four a b c d s ha hc hd _ ih =>
      obtain ⟨cps, h1, h2⟩ := ih
      unfold In at ha hc hd
      refine ⟨((a - 0xf0) * 262144 + (b - 0x80) * 4096 + (c - 0x80) * 64 + (d - 0x80)) :: cps, ?_, ?_⟩
      · intro x hx
        rcases List.mem_cons.1 hx with hx | hx
        · rw [hx]; unfold Scalar; omega
        · exact h1 x hx
      · rw [List.flatMap_cons, ← h2]
        unfold utf8Of
        rw [if_neg (by omega), if_neg (by omega), if_neg (by omega)]
        simp only [List.cons_append, List.nil_append]
        exact cons4 (by omega) (by omega) (by omega) (by omega)
  · rintro ⟨cps, h1, rfl⟩
    induction cps with
    | nil => exact .nil
    | cons c cps ih =>
      have hc := h1 c (by simp)
      have := ih (fun x hx => h1 x (by simp [hx]))
      unfold Scalar at hc
      rw [List.flatMap_cons]
      unfold utf8Of
      split
      · exact .one (by unfold In; omega) this
      · split
        · exact .two (by unfold In; omega) (by unfold In; omega) this
        · split
          · exact .three (by unfold In; omega) (by unfold In; omega) this
          · exact .four (by unfold In; omega) (by unfold In; omega) (by unfold In; omega) this

theorem wf16_iff (s : List Nat) (hs : ∀ u ∈ s, u < 65536) :
    WellFormed16 s ↔ ∃ cps : List Nat, (∀ c ∈ cps, Scalar c) ∧ s = cps.flatMap utf16Of := by
  constructor
  · intro h
    induction h with
    | nil => exact ⟨[], by simp⟩
    | @one a s ha _ ih =>
      obtain ⟨cps, h1, h2⟩ := ih (fun u hu => hs u (by simp [hu]))
      have hab := hs a (by simp)
      unfold In at ha
      refine ⟨a :: cps, ?_, ?_⟩
      · intro c hc
        rcases List.mem_cons.1 hc with hc | hc
        · rw [hc]; unfold Scalar; omega
        · exact h1 c hc
      · rw [List.flatMap_cons, ← h2]
        unfold utf16Of; rw [if_pos (by omega)]; rfl
    | @pair a b s ha hb _ ih =>
      obtain ⟨cps, h1, h2⟩ := ih (fun u hu => hs u (by simp [hu]))
      unfold In at ha hb
      refine ⟨((a - 0xd800) * 1024 + (b - 0xdc00) + 0x10000) :: cps, ?_, ?_⟩
      · intro c hc
        rcases List.mem_cons.1 hc with hc | hc
        · rw [hc]; unfold Scalar; omega
        · exact h1 c hc
      · rw [List.flatMap_cons, ← h2]
        unfold utf16Of
        rw [if_neg (by omega)]
        simp only [List.cons_append, List.nil_append]
        exact cons2 (by omega) (by omega)
  · rintro ⟨cps, h1, rfl⟩
    clear hs
    induction cps with
    | nil => exact .nil
    | cons c cps ih =>
      have hc := h1 c (by simp)
      have := ih (fun x hx => h1 x (by simp [hx]))
      unfold Scalar at hc
      rw [List.flatMap_cons]
      unfold utf16Of
      split
      · exact .one (by unfold In; omega) this
      · exact .pair (by unfold In; omega) (by unfold In; omega) this

/-! ## Escape sequences -/

theorem hexDigit_lt : ∀ d, d < 16 → 0x20 ≤ hexDigit d ∧ hexDigit d ≤ 0x7e := by decide +kernel

theorem and_15 (x : Nat) : x &&& 0x0f = x % 16 := and_mod x 4

theorem toHex_printable (cp : Nat) : ∀ k, ∀ b ∈ toHex cp k, 0x20 ≤ b ∧ b ≤ 0x7e := by
  intro k
  induction k with
  | zero => simp [toHex]
  | succ k ih =>
    intro b hb
    simp only [toHex, List.mem_cons] at hb
    rcases hb with hb | hb
    · rw [hb, and_15]; exact hexDigit_lt _ (by omega)
    · exact ih b hb

theorem hexDigits_step (k acc d : Nat) (s : List Nat) (hd : d < 16) :
    hexDigits (k + 1) acc (hexDigit d :: s) = hexDigits k (acc + d * 2 ^ (4 * k)) s := by
  unfold hexDigit
  by_cases h : d < 10
  · rw [if_pos h, hexDigits, if_pos (by omega), Nat.shiftLeft_eq]
    congr 2
    rw [show 0x30 + d - 0x30 = d by omega]
  · rw [if_neg h, hexDigits, if_neg (by omega), if_neg (by omega), if_pos (by omega),
      Nat.shiftLeft_eq]
    congr 2
    rw [show 0x61 + (d - 10) - 0x57 = d by omega]

theorem hexDigits_toHex (cp : Nat) (rest : List Nat) : ∀ k acc,
    hexDigits k acc (toHex cp k ++ rest) = (acc + cp % 2 ^ (4 * k), rest) := by
  intro k
  induction k with
  | zero => intro acc; simp [toHex, hexDigits, Nat.mod_one]
  | succ k ih =>
    intro acc
    simp only [toHex, List.cons_append]
    rw [hexDigits_step _ _ _ _ (by rw [and_15]; omega), ih, and_15, Nat.shiftRight_eq_div_pow]
    congr 1
    have h1 : 2 ^ (4 * (k + 1)) = 2 ^ (4 * k) * 16 := by
      rw [show 4 * (k + 1) = 4 * k + 4 by omega, Nat.pow_add]
    rw [h1, Nat.mod_mul, Nat.mul_comm (2 ^ (4 * k))]
    omega

theorem unescapeRaw_toHex (p k cp : Nat) (rest : List Nat) :
    unescapeRaw p k (backslash :: p :: (toHex cp k ++ rest)) = (cp % 2 ^ (4 * k), rest) := by
  simp only [unescapeRaw, ne_eq, not_true, if_false]
  rw [hexDigits_toHex]; simp

/-- The code points that are escaped; the others are printable ASCII and stay as they are. -/
def Escaped (c : Nat) : Prop := c ≤ 0x1f ∨ c ≥ 0x7f

instance (c : Nat) : Decidable (Escaped c) := by unfold Escaped; infer_instance

theorem escape_shape (short : Bool) (c : Nat) (h : Escaped c) :
    ∃ p tl, escape short c = backslash :: p :: tl ∧ (p = lowerU ∨ p = upperU) := by
  unfold escape
  rw [if_pos (show c ≤ 0x1f ∨ c ≥ 0x7f from h)]
  split
  · exact ⟨_, _, rfl, Or.inl rfl⟩
  · split
    · exact ⟨lowerU, _, rfl, Or.inl rfl⟩
    · exact ⟨_, _, rfl, Or.inr rfl⟩

theorem unescape_escape (e : Enc) (short : Bool) {c : Nat} (hs : Scalar c) (h : Escaped c)
    (rest : List Nat) :
    unescapeCodepoint e (escape short c ++ rest) = (some (formOf e c), rest) := by
  have hne : lowerU ≠ upperU := by decide
  have hne' : upperU ≠ lowerU := by decide
  have henc : encodeCodepoint e c = some (formOf e c) := by
    unfold encodeCodepoint
    rw [if_pos ((validateCodepoint_iff c).2 hs), codepointToString_eq e hs]
  unfold Scalar at hs
  unfold escape
  rw [if_pos (show c ≤ 0x1f ∨ c ≥ 0x7f from h)]
  split
  · rename_i hle
    simp only [List.cons_append, unescapeCodepoint, true_and, if_true]
    have h1 := unescapeRaw_toHex lowerU 4 c rest
    rw [Nat.mod_eq_of_lt (by omega)] at h1
    rw [fromSurrogates_eq (unescapeRaw lowerU 4) h1 (low := (unescapeRaw lowerU 4 rest).1)
      (s2 := (unescapeRaw lowerU 4 rest).2) rfl, if_neg (by omega), if_neg (by omega)]
    simp only [henc]
  · split
    · have m10 : c &&& 0x3ff = c % 1024 := and_mod c 10
      simp only [List.cons_append, List.append_assoc, unescapeCodepoint, true_and, if_true]
      have h1 := unescapeRaw_toHex lowerU 4 (0xd7c0 + (c >>> 10))
        (backslash :: lowerU :: (toHex (0xdc00 + (c &&& 0x3ff)) 4 ++ rest))
      have h2 := unescapeRaw_toHex lowerU 4 (0xdc00 + (c &&& 0x3ff)) rest
      rw [Nat.shiftRight_eq_div_pow] at h1 ⊢
      rw [m10] at h1 h2 ⊢
      rw [Nat.mod_eq_of_lt (a := 0xd7c0 + c / 2 ^ 10) (by omega)] at h1
      rw [Nat.mod_eq_of_lt (a := 0xdc00 + c % 1024) (by omega)] at h2
      rw [fromSurrogates_eq (unescapeRaw lowerU 4) h1 h2, if_pos (by omega), if_pos (by omega)]
      have e1 : (((0xd7c0 + c / 2 ^ 10) <<< 10) % 2 ^ 32 + (0xdc00 + c % 1024) + 2 ^ 32 - 0x35fdc00) %
          2 ^ 32 = c := by
        rw [Nat.shiftLeft_eq]; omega
      simp only [e1, henc]
    · simp only [List.cons_append, unescapeCodepoint, true_and, hne', if_false, if_true]
      have h1 := unescapeRaw_toHex upperU 8 c rest
      rw [Nat.mod_eq_of_lt (by omega)] at h1
      rw [h1]
      simp only [henc]

theorem escapeAll_eq (e : Enc) (short : Bool) : ∀ (n : Nat) (s : List Nat), s.length = n →
    escapeAll e short s = (decodeAll e s).map (fun cps => cps.flatMap (escape short)) := by
  intro n
  induction n using Nat.strongRecOn with
  | _ n ih =>
    intro s hn
    cases s with
    | nil => rw [escapeAll, decodeAll]; rfl
    | cons b s =>
      have hlen := decodeCodepoint_length e b s
      rw [escapeAll, decodeAll]
      rcases hd : decodeCodepoint e (b :: s) with ⟨_ | c, rest⟩
      · have : escapeCodepoint e short (b :: s) = (none, rest) := by
          simp only [escapeCodepoint, hd]
        split
        · rfl
        · rename_i h2; rw [this] at h2; simp at h2
      · have : escapeCodepoint e short (b :: s) = (some (escape short c), rest) := by
          simp only [escapeCodepoint, hd]
        rw [hd] at hlen
        simp only at hlen
        split
        · rename_i h2; rw [this] at h2; simp at h2
        · rename_i out r h2
          rw [this] at h2
          simp only [Prod.mk.injEq, Option.some.injEq] at h2
          rw [← h2.1, ← h2.2, ih rest.length (by omega) rest rfl]
          simp only
          rcases decodeAll e rest with _ | l
          · rfl
          · simp

/-- No literal backslash is directly followed by a literal `u` or `U`. -/
def NoLiteralEscape : List Nat → Prop
  | a :: b :: l => ¬ (a = 0x5c ∧ (b = 0x75 ∨ b = 0x55)) ∧ NoLiteralEscape (b :: l)
  | _ => True

theorem formOf_ascii (e : Enc) {c : Nat} (h : c < 0x80) : formOf e c = [c] := by
  cases e <;> simp only [formOf]
  · unfold utf8Of; rw [if_pos h]
  · unfold utf16Of; rw [if_pos (by omega)]

theorem unescapeAll_escape (e : Enc) (short : Bool) : ∀ (cps : List Nat), (∀ c ∈ cps, Scalar c) →
    NoLiteralEscape cps →
    unescapeAll e (cps.flatMap (escape short)) = some (cps.flatMap (formOf e)) := by
  intro cps
  induction cps with
  | nil => intro _ _; simp [unescapeAll]
  | cons c cps ih =>
    intro hs hn
    have hc := hs c (by simp)
    have hn' : NoLiteralEscape cps := by
      cases cps with
      | nil => trivial
      | cons d cps => exact hn.2
    have ih' := ih (fun x hx => hs x (by simp [hx])) hn'
    simp only [List.flatMap_cons]
    by_cases he : Escaped c
    · obtain ⟨p, tl, h1, h2⟩ := escape_shape short c he
      have hu := unescape_escape e short hc he (cps.flatMap (escape short))
      rw [h1] at hu ⊢
      simp only [List.cons_append] at hu ⊢
      rw [unescapeAll, dif_pos ⟨rfl, h2⟩]
      split
      · rename_i h3; rw [hu] at h3; simp at h3
      · rename_i out rest h3
        rw [hu] at h3
        simp only [Prod.mk.injEq, Option.some.injEq] at h3
        rw [← h3.1, ← h3.2, ih']; rfl
    · have h1 : escape short c = [c] := by
        unfold escape; rw [if_neg (show ¬ (c ≤ 0x1f ∨ c ≥ 0x7f) from he)]
      have hlt : c < 0x80 := by unfold Escaped at he; omega
      rw [h1, formOf_ascii e hlt]
      simp only [List.cons_append, List.nil_append]
      cases cps with
      | nil => simp [unescapeAll]
      | cons d cps =>
        rw [show some (c :: (d :: cps).flatMap (formOf e)) =
          (unescapeAll e ((d :: cps).flatMap (escape short))).map (c :: ·) by rw [ih']; rfl]
        simp only [List.flatMap_cons]
        by_cases hd : Escaped d
        · obtain ⟨p, tl, h2, h3⟩ := escape_shape short d hd
          rw [h2]
          simp only [List.cons_append]
          rw [unescapeAll, dif_neg]
          · rintro ⟨_, h4⟩
            rcases h4 with h4 | h4 <;> exact absurd h4 (by decide)
        · have h2 : escape short d = [d] := by
            unfold escape; rw [if_neg (show ¬ (d ≤ 0x1f ∨ d ≥ 0x7f) from hd)]
          rw [h2]
          simp only [List.cons_append, List.nil_append]
          rw [unescapeAll, dif_neg]
          · exact hn.1

end Verif.Unicode
