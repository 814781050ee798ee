/-!
# Bit lists

A tiny theory of bit strings (`List Bool`, most significant bit first), used as the specification
language of the bit stream and of the coders. Nothing in this file models libfly code.
-/

namespace Verif.Bits

/-- The `n` low bits of `v`, most significant first. -/
def toBits : Nat → Nat → List Bool
  | 0, _ => []
  | n + 1, v => v.testBit n :: toBits n v

/-- The number denoted by a bit string, most significant bit first. -/
def ofBits : List Bool → Nat
  | [] => 0
  | b :: bs => (if b then 2 ^ bs.length else 0) + ofBits bs

/-- Bits of a byte string, each byte contributing eight bits, most significant first. -/
def bytesBits : List Nat → List Bool
  | [] => []
  | b :: bs => toBits 8 b ++ bytesBits bs

@[simp] theorem toBits_length (n v : Nat) : (toBits n v).length = n := by
  induction n with
  | zero => rfl
  | succ n ih => simp [toBits, ih]

@[simp] theorem bytesBits_nil : bytesBits [] = [] := rfl
@[simp] theorem bytesBits_cons (b : Nat) (bs : List Nat) :
    bytesBits (b :: bs) = toBits 8 b ++ bytesBits bs := rfl

@[simp] theorem bytesBits_append (a b : List Nat) :
    bytesBits (a ++ b) = bytesBits a ++ bytesBits b := by
  induction a with
  | nil => rfl
  | cons x xs ih => simp [ih]

@[simp] theorem bytesBits_length (l : List Nat) : (bytesBits l).length = 8 * l.length := by
  induction l with
  | nil => rfl
  | cons x xs ih => simp [ih]; omega

theorem ofBits_lt (l : List Bool) : ofBits l < 2 ^ l.length := by
  induction l with
  | nil => simp [ofBits]
  | cons b bs ih =>
    simp only [ofBits, List.length_cons, Nat.pow_succ]
    split <;> omega

theorem ofBits_append (a b : List Bool) :
    ofBits (a ++ b) = ofBits a * 2 ^ b.length + ofBits b := by
  induction a with
  | nil => simp [ofBits]
  | cons x xs ih =>
    simp only [List.cons_append, ofBits, ih, List.length_append, Nat.pow_add]
    split
    · rw [Nat.add_mul]; omega
    · rw [Nat.zero_add, Nat.zero_add]

theorem toBits_mod (n v : Nat) : toBits n (v % 2 ^ n) = toBits n v := by
  have h : ∀ m, n ≤ m → toBits n (v % 2 ^ m) = toBits n v := by
    induction n with
    | zero => intros; rfl
    | succ n ih =>
      intro m hm
      simp only [toBits, Nat.testBit_mod_two_pow]
      rw [ih m (by omega)]
      have : n < m := by omega
      simp [this]
  exact h n (Nat.le_refl _)

theorem toBits_mod_of_le {n m : Nat} (h : n ≤ m) (v : Nat) : toBits n (v % 2 ^ m) = toBits n v := by
  induction n with
  | zero => rfl
  | succ n ih =>
    simp only [toBits, Nat.testBit_mod_two_pow]
    rw [ih (by omega)]
    have : n < m := by omega
    simp [this]

theorem toBits_append (m n v : Nat) :
    toBits (m + n) v = toBits m (v / 2 ^ n) ++ toBits n v := by
  induction m with
  | zero => simp [toBits]
  | succ m ih =>
    have : m + 1 + n = (m + n) + 1 := by omega
    rw [this]
    simp only [toBits, List.cons_append, ih, Nat.testBit_div_two_pow]

theorem ofBits_toBits (n v : Nat) : ofBits (toBits n v) = v % 2 ^ n := by
  induction n with
  | zero => simp [toBits, ofBits, Nat.mod_one]
  | succ n ih =>
    simp only [toBits, ofBits, toBits_length, ih]
    rw [Nat.mod_pow_succ, Nat.testBit_eq_decide_div_mod_eq]
    have : v / 2 ^ n % 2 = 0 ∨ v / 2 ^ n % 2 = 1 := by omega
    rcases this with h | h <;> simp [h]; omega

theorem ofBits_toBits_of_lt {n v : Nat} (h : v < 2 ^ n) : ofBits (toBits n v) = v := by
  rw [ofBits_toBits, Nat.mod_eq_of_lt h]

theorem toBits_add_mul {m n : Nat} (a b : Nat) (hb : b < 2 ^ n) :
    toBits (m + n) (a * 2 ^ n + b) = toBits m a ++ toBits n b := by
  rw [toBits_append]
  have h1 : (a * 2 ^ n + b) / 2 ^ n = a := by
    rw [Nat.mul_comm, Nat.mul_add_div (Nat.two_pow_pos n), Nat.div_eq_of_lt hb]; omega
  have h2 : toBits n (a * 2 ^ n + b) = toBits n b := by
    rw [← toBits_mod, Nat.mul_comm, Nat.mul_add_mod, Nat.mod_eq_of_lt hb]
  rw [h1, h2]

theorem toBits_ofBits (l : List Bool) : toBits l.length (ofBits l) = l := by
  induction l with
  | nil => rfl
  | cons b bs ih =>
    have hlt := ofBits_lt bs
    have h := toBits_add_mul (m := 1) (n := bs.length) (if b then 1 else 0) (ofBits bs) hlt
    have e : (if b then 1 else 0) * 2 ^ bs.length + ofBits bs = ofBits (b :: bs) := by
      cases b <;> simp [ofBits]
    rw [e, ih] at h
    rw [List.length_cons, Nat.add_comm, h]
    cases b <;> simp [toBits]

theorem ofBits_inj {a b : List Bool} (hl : a.length = b.length) (h : ofBits a = ofBits b) :
    a = b := by
  rw [← toBits_ofBits a, ← toBits_ofBits b, hl, h]

/-- Splitting off the first `m` of `m + n` bits of a number. -/
theorem toBits_take (m n v : Nat) : (toBits (m + n) v).take m = toBits m (v / 2 ^ n) := by
  rw [toBits_append]; simp

theorem toBits_drop (m n v : Nat) : (toBits (m + n) v).drop m = toBits n v := by
  rw [toBits_append]; simp

/-- Disjoint `or` is addition. -/
theorem or_eq_add {a b i : Nat} (ha : a % 2 ^ i = 0) (hb : b < 2 ^ i) : a ||| b = a + b := by
  have hh := Nat.two_pow_add_eq_or_of_lt hb (a / 2 ^ i)
  have : 2 ^ i * (a / 2 ^ i) = a := by
    have := Nat.div_add_mod a (2 ^ i); omega
  rw [this] at hh
  exact hh.symm

end Verif.Bits
