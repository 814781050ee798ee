import Verif.Numeric.Model
import Verif.Common.Bits

/-!
# Theorems about byte order and integer literals (C61, C62)
-/

namespace Verif.Numeric

open Verif.Bits

theorem land_ff_shift (v i : Nat) : v &&& (0xff * 2 ^ i) = v / 2 ^ i % 256 * 2 ^ i := by
  apply Nat.eq_of_testBit_eq
  intro j
  rw [Nat.testBit_and, Nat.testBit_mul_two_pow, Nat.testBit_mul_two_pow]
  by_cases h : i ≤ j
  · have : (256 : Nat) = 2 ^ 8 := rfl
    rw [this, Nat.testBit_mod_two_pow, Nat.testBit_div_two_pow, show (0xff : Nat) = 2 ^ 8 - 1 from rfl,
      Nat.testBit_two_pow_sub_one]
    simp only [h, decide_true, Bool.true_and]
    rw [show j - i + i = j by omega]
    rw [Bool.and_comm]
  · simp [h]

theorem byte_lt (v i : Nat) : byteAt v i < 256 := Nat.mod_lt _ (by decide)

theorem bytes_pow (v i : Nat) : byteAt v i = v / 2 ^ (8 * i) % 256 := by
  unfold byteAt; rw [show (256 : Nat) = 2 ^ 8 from rfl, ← Nat.pow_mul]

theorem or_lo {a b : Nat} (i : Nat) (ha : a < 2 ^ i) (hb : b % 2 ^ i = 0) : a ||| b = a + b := by
  rw [Nat.or_comm, or_eq_add hb ha, Nat.add_comm]

theorem byteSwap16_eq (v : Nat) : byteSwap16 v = byteAt v 0 * 256 + byteAt v 1 := by
  unfold byteSwap16
  have e1 : v &&& 0xff00 = byteAt v 1 * 2 ^ 8 := by
    rw [bytes_pow]; exact land_ff_shift v 8
  have e0 : v &&& 0x00ff = byteAt v 0 := by
    rw [bytes_pow]; have := land_ff_shift v 0; simpa using this
  rw [e1, e0]
  have b0 := byte_lt v 0
  have b1 := byte_lt v 1
  generalize byteAt v 0 = x0 at *
  generalize byteAt v 1 = x1 at *
  simp only [Nat.shiftRight_eq_div_pow, Nat.shiftLeft_eq]
  rw [Nat.or_comm, or_eq_add (i := 8) (by omega) (by omega)]
  omega

theorem byteSwap32_eq (v : Nat) : byteSwap32 v =
    byteAt v 0 * 2 ^ 24 + byteAt v 1 * 2 ^ 16 + byteAt v 2 * 2 ^ 8 + byteAt v 3 := by
  unfold byteSwap32
  have e3 : v &&& 0xff000000 = byteAt v 3 * 2 ^ 24 := by
    rw [bytes_pow]; exact land_ff_shift v 24
  have e2 : v &&& 0x00ff0000 = byteAt v 2 * 2 ^ 16 := by
    rw [bytes_pow]; exact land_ff_shift v 16
  have e1 : v &&& 0x0000ff00 = byteAt v 1 * 2 ^ 8 := by
    rw [bytes_pow]; exact land_ff_shift v 8
  have e0 : v &&& 0x000000ff = byteAt v 0 := by
    rw [bytes_pow]; have := land_ff_shift v 0; simpa using this
  rw [e3, e2, e1, e0]
  have b0 := byte_lt v 0
  have b1 := byte_lt v 1
  have b2 := byte_lt v 2
  have b3 := byte_lt v 3
  generalize byteAt v 0 = x0 at *
  generalize byteAt v 1 = x1 at *
  generalize byteAt v 2 = x2 at *
  generalize byteAt v 3 = x3 at *
  simp only [Nat.shiftRight_eq_div_pow, Nat.shiftLeft_eq]
  rw [show x3 * 2 ^ 24 / 2 ^ 24 = x3 by omega, show x2 * 2 ^ 16 / 2 ^ 8 = x2 * 2 ^ 8 by omega,
    show x1 * 2 ^ 8 * 2 ^ 8 = x1 * 2 ^ 16 by omega,
    or_lo (a := x3) 8 (by omega) (by omega), or_lo (b := x1 * 2 ^ 16) 16 (by omega) (by omega),
    or_lo (b := x0 * 2 ^ 24) 24 (by omega) (by omega)]
  omega

theorem byteSwap64_eq (v : Nat) : byteSwap64 v =
    byteAt v 0 * 2 ^ 56 + byteAt v 1 * 2 ^ 48 + byteAt v 2 * 2 ^ 40 + byteAt v 3 * 2 ^ 32 +
    byteAt v 4 * 2 ^ 24 + byteAt v 5 * 2 ^ 16 + byteAt v 6 * 2 ^ 8 + byteAt v 7 := by
  unfold byteSwap64
  have e7 : v &&& 0xff00000000000000 = byteAt v 7 * 2 ^ 56 := by
    rw [bytes_pow]; exact land_ff_shift v 56
  have e6 : v &&& 0x00ff000000000000 = byteAt v 6 * 2 ^ 48 := by
    rw [bytes_pow]; exact land_ff_shift v 48
  have e5 : v &&& 0x0000ff0000000000 = byteAt v 5 * 2 ^ 40 := by
    rw [bytes_pow]; exact land_ff_shift v 40
  have e4 : v &&& 0x000000ff00000000 = byteAt v 4 * 2 ^ 32 := by
    rw [bytes_pow]; exact land_ff_shift v 32
  have e3 : v &&& 0x00000000ff000000 = byteAt v 3 * 2 ^ 24 := by
    rw [bytes_pow]; exact land_ff_shift v 24
  have e2 : v &&& 0x0000000000ff0000 = byteAt v 2 * 2 ^ 16 := by
    rw [bytes_pow]; exact land_ff_shift v 16
  have e1 : v &&& 0x000000000000ff00 = byteAt v 1 * 2 ^ 8 := by
    rw [bytes_pow]; exact land_ff_shift v 8
  have e0 : v &&& 0x00000000000000ff = byteAt v 0 := by
    rw [bytes_pow]; have := land_ff_shift v 0; simpa using this
  rw [e7, e6, e5, e4, e3, e2, e1, e0]
  have b0 := byte_lt v 0
  have b1 := byte_lt v 1
  have b2 := byte_lt v 2
  have b3 := byte_lt v 3
  have b4 := byte_lt v 4
  have b5 := byte_lt v 5
  have b6 := byte_lt v 6
  have b7 := byte_lt v 7
  generalize byteAt v 0 = x0 at *
  generalize byteAt v 1 = x1 at *
  generalize byteAt v 2 = x2 at *
  generalize byteAt v 3 = x3 at *
  generalize byteAt v 4 = x4 at *
  generalize byteAt v 5 = x5 at *
  generalize byteAt v 6 = x6 at *
  generalize byteAt v 7 = x7 at *
  simp only [Nat.shiftRight_eq_div_pow, Nat.shiftLeft_eq]
  rw [show x7 * 2 ^ 56 / 2 ^ 56 = x7 by omega, show x6 * 2 ^ 48 / 2 ^ 40 = x6 * 2 ^ 8 by omega,
    show x5 * 2 ^ 40 / 2 ^ 24 = x5 * 2 ^ 16 by omega, show x4 * 2 ^ 32 / 2 ^ 8 = x4 * 2 ^ 24 by omega,
    show x3 * 2 ^ 24 * 2 ^ 8 = x3 * 2 ^ 32 by omega, show x2 * 2 ^ 16 * 2 ^ 24 = x2 * 2 ^ 40 by omega,
    show x1 * 2 ^ 8 * 2 ^ 40 = x1 * 2 ^ 48 by omega,
    or_lo (a := x7) 8 (by omega) (by omega), or_lo (b := x5 * 2 ^ 16) 16 (by omega) (by omega),
    or_lo (b := x4 * 2 ^ 24) 24 (by omega) (by omega), or_lo (b := x3 * 2 ^ 32) 32 (by omega) (by omega),
    or_lo (b := x2 * 2 ^ 40) 40 (by omega) (by omega), or_lo (b := x1 * 2 ^ 48) 48 (by omega) (by omega),
    or_lo (b := x0 * 2 ^ 56) 56 (by omega) (by omega)]
  omega

/-- C61: for every integer size the library admits and every value, `endian_swap` reverses the bytes:
byte `i` of the result is byte `n - 1 - i` of the value, and the result fits the type. -/
theorem endian_swap_bytes (n v : Nat) (hn : n = 1 ∨ n = 2 ∨ n = 4 ∨ n = 8) (hv : v < 256 ^ n) :
    ∃ r, endianSwap n v = some r ∧ r < 256 ^ n ∧ ∀ i, i < n → byteAt r i = byteAt v (n - 1 - i) := by
  rcases hn with rfl | rfl | rfl | rfl
  · refine ⟨v, rfl, hv, ?_⟩
    intro i hi
    have : i = 0 := by omega
    subst this; rfl
  · refine ⟨_, rfl, ?_, ?_⟩
    · rw [byteSwap16_eq]
      have b0 := byte_lt v 0
      have b1 := byte_lt v 1
      omega
    · intro i hi
      rw [byteSwap16_eq]
      have b0 := byte_lt v 0
      have b1 := byte_lt v 1
      have : i = 0 ∨ i = 1 := by omega
      rcases this with rfl | rfl
      all_goals
        simp only [Nat.reduceSub]
        generalize byteAt v 0 = x0 at *
        generalize byteAt v 1 = x1 at *
        unfold byteAt
        omega
  · refine ⟨_, rfl, ?_, ?_⟩
    · rw [byteSwap32_eq]
      have b0 := byte_lt v 0
      have b1 := byte_lt v 1
      have b2 := byte_lt v 2
      have b3 := byte_lt v 3
      omega
    · intro i hi
      rw [byteSwap32_eq]
      have b0 := byte_lt v 0
      have b1 := byte_lt v 1
      have b2 := byte_lt v 2
      have b3 := byte_lt v 3
      have : i = 0 ∨ i = 1 ∨ i = 2 ∨ i = 3 := by omega
      rcases this with rfl | rfl | rfl | rfl
      all_goals
        simp only [Nat.reduceSub]
        generalize byteAt v 0 = x0 at *
        generalize byteAt v 1 = x1 at *
        generalize byteAt v 2 = x2 at *
        generalize byteAt v 3 = x3 at *
        unfold byteAt
        omega
  · refine ⟨_, rfl, ?_, ?_⟩
    · rw [byteSwap64_eq]
      have b0 := byte_lt v 0
      have b1 := byte_lt v 1
      have b2 := byte_lt v 2
      have b3 := byte_lt v 3
      have b4 := byte_lt v 4
      have b5 := byte_lt v 5
      have b6 := byte_lt v 6
      have b7 := byte_lt v 7
      omega
    · intro i hi
      rw [byteSwap64_eq]
      have b0 := byte_lt v 0
      have b1 := byte_lt v 1
      have b2 := byte_lt v 2
      have b3 := byte_lt v 3
      have b4 := byte_lt v 4
      have b5 := byte_lt v 5
      have b6 := byte_lt v 6
      have b7 := byte_lt v 7
      have : i = 0 ∨ i = 1 ∨ i = 2 ∨ i = 3 ∨ i = 4 ∨ i = 5 ∨ i = 6 ∨ i = 7 := by omega
      rcases this with rfl | rfl | rfl | rfl | rfl | rfl | rfl | rfl
      all_goals
        simp only [Nat.reduceSub]
        generalize byteAt v 0 = x0 at *
        generalize byteAt v 1 = x1 at *
        generalize byteAt v 2 = x2 at *
        generalize byteAt v 3 = x3 at *
        generalize byteAt v 4 = x4 at *
        generalize byteAt v 5 = x5 at *
        generalize byteAt v 6 = x6 at *
        generalize byteAt v 7 = x7 at *
        unfold byteAt
        omega

/-- Values of `n` bytes with the same bytes are equal. -/
theorem eq_of_bytes : ∀ (n a b : Nat), a < 256 ^ n → b < 256 ^ n →
    (∀ i, i < n → byteAt a i = byteAt b i) → a = b := by
  intro n
  induction n with
  | zero => intro a b ha hb _; simp at ha hb; omega
  | succ n ih =>
    intro a b ha hb h
    have h0 := h 0 (by omega)
    have hd : a / 256 = b / 256 := by
      apply ih
      · rw [Nat.pow_succ'] at ha; exact Nat.div_lt_of_lt_mul ha
      · rw [Nat.pow_succ'] at hb; exact Nat.div_lt_of_lt_mul hb
      · intro i hi
        have := h (i + 1) (by omega)
        unfold byteAt at this ⊢
        rwa [Nat.pow_succ', ← Nat.div_div_eq_div_mul, ← Nat.div_div_eq_div_mul] at this
    unfold byteAt at h0
    simp at h0
    omega

/-- C61: swapping twice gives back the value. -/
theorem endian_swap_involutive (n v r : Nat) (hn : n = 1 ∨ n = 2 ∨ n = 4 ∨ n = 8) (hv : v < 256 ^ n)
    (h : endianSwap n v = some r) : endianSwap n r = some v := by
  obtain ⟨r', h1, h2, h3⟩ := endian_swap_bytes n v hn hv
  rw [h] at h1
  have hr : r = r' := by simpa using h1
  subst hr
  obtain ⟨w, h4, h5, h6⟩ := endian_swap_bytes n r hn h2
  rw [h4]
  congr 1
  apply eq_of_bytes n w v h5 hv
  intro i hi
  rw [h6 i hi, h3 (n - 1 - i) (by omega)]
  congr 1
  omega

/-- C61: on a little-endian machine `endian_swap_if_non_native<big>` gives the value whose memory
bytes are the big-endian form of its argument, and `<little>` is the identity. -/
theorem endian_swap_if_non_native_memory (n v : Nat) (hn : n = 1 ∨ n = 2 ∨ n = 4 ∨ n = 8)
    (hv : v < 256 ^ n) :
    (∃ r, endianSwapIfNonNative false n v = some r ∧ memLE n r = bigEndian n v) ∧
      endianSwapIfNonNative true n v = some v := by
  refine ⟨?_, rfl⟩
  obtain ⟨r, h1, _, h3⟩ := endian_swap_bytes n v hn hv
  refine ⟨r, h1, ?_⟩
  unfold memLE bigEndian
  apply List.map_congr_left
  intro i hi
  exact h3 i (List.mem_range.mp hi)

example : endianSwap 4 0x12345678 = some 0x78563412 := by decide

/-! ## Literals -/

theorem validLiteral_iff {base c : Nat} (hb : base = 2 ∨ base = 8 ∨ base = 10 ∨ base = 16) :
    validLiteral base c = true ↔ c = 0x27 ∨ BaseDigit base c := by
  unfold validLiteral BaseDigit
  rcases hb with rfl | rfl | rfl | rfl <;> simp <;> omega

theorem literalDigit_eq {base c : Nat} (h : BaseDigit base c) : literalDigit c = Str.digitValue c := by
  unfold BaseDigit at h
  unfold literalDigit Str.digitValue
  repeat' split
  all_goals omega

theorem literalBase_form (chars : List Nat) :
    LiteralForm chars (literalBase chars).1 (literalBase chars).2 := by
  unfold literalBase
  split
  · exact .bin (.inl rfl)
  · exact .bin (.inr rfl)
  · exact .hex (.inl rfl)
  · exact .hex (.inr rfl)
  · rename_i r h1 h2 h3 h4
    refine .oct ?_
    intro c hc
    cases r with
    | nil => simp at hc
    | cons x r =>
      simp at hc; subst hc
      refine ⟨?_, ?_, ?_, ?_⟩ <;> intro e <;> subst e
      · exact h1 _ rfl
      · exact h2 _ rfl
      · exact h3 _ rfl
      · exact h4 _ rfl
  · rename_i h1 h2 h3 h4 h5
    refine .dec ?_
    intro h
    cases chars with
    | nil => simp at h
    | cons x r => simp at h; subst h; exact h5 _ rfl

theorem literalForm_unique {chars base body} (h : LiteralForm chars base body) :
    literalBase chars = (base, body) := by
  cases h with
  | bin h => rcases h with rfl | rfl <;> rfl
  | hex h => rcases h with rfl | rfl <;> rfl
  | oct h =>
    cases body with
    | nil => rfl
    | cons c r =>
      obtain ⟨a1, a2, a3, a4⟩ := h c rfl
      unfold literalBase
      split <;> simp_all
  | dec h =>
    unfold literalBase
    split <;> simp_all

theorem base_of_form {chars base body} (h : LiteralForm chars base body) :
    base = 2 ∨ base = 8 ∨ base = 10 ∨ base = 16 := by
  cases h <;> simp

theorem foldl_ge (base : Nat) (hb : 1 ≤ base) : ∀ (ds : List Nat) (a : Nat),
    a ≤ ds.foldl (fun a u => a * base + Str.digitValue u) a := by
  intro ds
  induction ds with
  | nil => intro a; exact Nat.le_refl _
  | cons u ds ih =>
    intro a
    refine Nat.le_trans ?_ (ih _)
    have : a * 1 ≤ a * base := Nat.mul_le_mul_left a hb
    show a ≤ a * base + Str.digitValue u
    omega

/-- The signed accumulator is exact or fails. -/
theorem aggregate_signed (base : Nat) (hb : 1 ≤ base) : ∀ (body : List Nat) (acc : Nat),
    acc < 2 ^ 63 → (∀ c ∈ body, c = 0x27 ∨ BaseDigit base c) →
    aggregate true base body acc =
      (let v := (body.filter (· ≠ 0x27)).foldl (fun a u => a * base + Str.digitValue u) acc
       if v < 2 ^ 63 then some v else none) := by
  intro body
  induction body with
  | nil => intro acc h _; simp [aggregate, h]
  | cons c r ih =>
    intro acc hacc h
    rw [aggregate]
    by_cases hc : c = 0x27
    · rw [if_pos hc, ih acc hacc (fun x hx => h x (by simp [hx]))]
      simp [hc]
    · rw [if_neg hc]
      have hd : BaseDigit base c := (h c (by simp)).resolve_left hc
      simp only [if_true, literalDigit_eq hd]
      have hf : (c :: r).filter (· ≠ 0x27) = c :: r.filter (· ≠ 0x27) := by simp [hc]
      rw [hf, List.foldl_cons]
      by_cases hv : acc * base + Str.digitValue c < 2 ^ 63
      · rw [if_pos hv, ih _ hv (fun x hx => h x (by simp [hx]))]
      · rw [if_neg hv, if_neg]
        have := foldl_ge base hb (r.filter (· ≠ 0x27)) (acc * base + Str.digitValue c)
        omega

/-- The unsigned accumulator is exact modulo 2^64. -/
theorem aggregate_unsigned (base : Nat) : ∀ (body : List Nat) (acc : Nat),
    (∀ c ∈ body, c = 0x27 ∨ BaseDigit base c) →
    aggregate false base body (acc % 2 ^ 64) =
      some ((body.filter (· ≠ 0x27)).foldl (fun a u => a * base + Str.digitValue u) acc % 2 ^ 64) := by
  intro body
  induction body with
  | nil => intro acc _; rfl
  | cons c r ih =>
    intro acc h
    rw [aggregate]
    by_cases hc : c = 0x27
    · rw [if_pos hc, ih acc (fun x hx => h x (by simp [hx]))]
      simp [hc]
    · rw [if_neg hc]
      have hd : BaseDigit base c := (h c (by simp)).resolve_left hc
      simp only [Bool.false_eq_true, if_false, literalDigit_eq hd]
      have hf : (c :: r).filter (· ≠ 0x27) = c :: r.filter (· ≠ 0x27) := by simp [hc]
      rw [hf, List.foldl_cons, ← ih _ (fun x hx => h x (by simp [hx]))]
      congr 1
      rw [Nat.add_mod, Nat.mul_mod, Nat.mod_mod, ← Nat.mul_mod, ← Nat.add_mod]

/-- The literal's value modulo wrap-around, for unsigned targets; exact for signed ones. -/
theorem literal_eq (signed : Bool) (bits : Nat) (chars : List Nat) (v : Nat)
    (hbits : 1 ≤ bits ∧ bits ≤ 64) (h : Denotes chars v) :
    literal signed bits chars =
      (let w := if signed then v else v % 2 ^ 64
       if w ≤ (if signed then 2 ^ (bits - 1) - 1 else 2 ^ bits - 1) then some w else none) := by
  obtain ⟨base, body, hf, hv, rfl⟩ := h
  unfold literal
  rw [literalForm_unique hf]
  simp only
  have hb := base_of_form hf
  have hall : body.all (validLiteral base) = true := by
    rw [List.all_eq_true]; intro c hc; exact (validLiteral_iff hb).mpr (hv c hc)
  rw [if_pos hall]
  cases signed with
  | true =>
    rw [aggregate_signed base (by omega) body 0 (by decide) hv]
    simp only [if_true]
    change (match (if Str.numeral base (body.filter (· ≠ 0x27)) < 2 ^ 63 then
      some (Str.numeral base (body.filter (· ≠ 0x27))) else none) with
      | some v => _ | none => _) = _
    have hp : 2 ^ (bits - 1) ≤ 2 ^ 63 := Nat.pow_le_pow_right (by decide) (by omega)
    have hp0 := Nat.two_pow_pos (bits - 1)
    by_cases h63 : Str.numeral base (body.filter (· ≠ 0x27)) < 2 ^ 63
    · rw [if_pos h63]
    · rw [if_neg h63, if_neg (by omega)]
  | false =>
    have := aggregate_unsigned base body 0 hv
    rw [Nat.zero_mod] at this
    rw [this]
    rfl

/-- C62: a literal suffix accepts only characters that form a literal of some base. -/
theorem literal_denotes (signed : Bool) (bits : Nat) (chars : List Nat) (r : Nat)
    (h : literal signed bits chars = some r) : ∃ v, Denotes chars v := by
  have hf := literalBase_form chars
  refine ⟨_, _, _, hf, ?_, rfl⟩
  intro c hc
  unfold literal at h
  simp only at h
  split at h
  · rename_i hall
    exact (validLiteral_iff (base_of_form hf)).mp (List.all_eq_true.mp hall c hc)
  · simp at h

/-- C62, signed targets: the literal compiles iff it denotes a value the type can hold, and then it
is that value. -/
theorem literal_signed_exact (bits : Nat) (hbits : 1 ≤ bits ∧ bits ≤ 64) (chars : List Nat) (r : Nat) :
    literal true bits chars = some r ↔ Denotes chars r ∧ r ≤ 2 ^ (bits - 1) - 1 := by
  constructor
  · intro h
    obtain ⟨v, hv⟩ := literal_denotes _ _ _ _ h
    rw [literal_eq true bits chars v hbits hv] at h
    simp at h
    obtain ⟨h1, rfl⟩ := h
    exact ⟨hv, h1⟩
  · rintro ⟨h1, h2⟩
    rw [literal_eq true bits chars r hbits h1]
    simp [h2]

/-- C62 partial, unsigned targets: exact for literals whose value is below 2^64. (Missing: larger
literals, see `literal_unsigned_violated`.) -/
theorem literal_unsigned_partial (bits : Nat) (hbits : 1 ≤ bits ∧ bits ≤ 64) (chars : List Nat)
    (v : Nat) (hd : Denotes chars v) (hv : v < 2 ^ 64) (r : Nat) :
    literal false bits chars = some r ↔ r = v ∧ r ≤ 2 ^ bits - 1 := by
  rw [literal_eq false bits chars v hbits hd, Nat.mod_eq_of_lt hv]
  simp
  constructor
  · rintro ⟨h1, rfl⟩; exact ⟨rfl, h1⟩
  · rintro ⟨rfl, h1⟩; exact ⟨h1, rfl⟩

/-- `0x1'00_u16` denotes 256 and compiles to 256. -/
example : literal false 16 [0x30, 0x78, 0x31, 0x27, 0x30, 0x30] = some 256 := by decide

/-- C62 refuted: `18446744073709551617_u8` (2^64 + 1) compiles, to 1. -/
theorem literal_unsigned_violated :
    literal false 8 [49,56,52,52,54,55,52,52,48,55,51,55,48,57,53,53,49,54,49,55] = some 1 ∧
    Denotes [49,56,52,52,54,55,52,52,48,55,51,55,48,57,53,53,49,54,49,55] (2 ^ 64 + 1) := by
  refine ⟨by decide, 10, _, .dec (by decide), ?_, by decide⟩
  intro c hc
  right; left
  simp at hc
  omega

end Verif.Numeric
