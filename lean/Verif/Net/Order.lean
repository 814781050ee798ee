import Verif.Net.Props

/-!
# Addresses made from octets and constants, and how addresses and endpoints compare

Sources: `/repo/fly/net/ipv4_address.hpp`, `/repo/fly/net/ipv6_address.hpp`, `/repo/fly/net/endpoint.hpp`.
-/

namespace Verif.Net
open Verif.Str Verif.Digits

/-! ## Model -/

/-- `IPv4Address::in_addr_any`, ipv4_address.hpp 120-123. -/
def v4Any : Nat := 0x00000000
/-- `IPv4Address::in_addr_broadcast`, ipv4_address.hpp 126-129. -/
def v4Broadcast : Nat := 0xffffffff
/-- `IPv4Address::in_addr_loopback`, ipv4_address.hpp 132-135. -/
def v4Loopback : Nat := 0x0100007f

/-- `IPv6Address::in_addr_any`, ipv6_address.hpp 138-142. -/
def v6Any : List Nat := List.replicate 16 0
/-- `IPv6Address::in_addr_loopback`, ipv6_address.hpp 145-151: the last byte is set. -/
def v6Loopback : List Nat := (List.replicate 16 0).set 15 1

/-- The defaulted `operator<=>` of `IPv4Address`, ipv4_address.hpp 98: the stored integers. -/
def v4Compare (a b : Nat) : Ordering := if a < b then .lt else if a = b then .eq else .gt

/-- `operator<=>` of `std::array`, used by the defaulted one of `IPv6Address`, ipv6_address.hpp 111: the first bytes
that differ decide. -/
def v6Compare : List Nat → List Nat → Ordering
  | [], [] => .eq
  | [], _ :: _ => .lt
  | _ :: _, [] => .gt
  | a :: as, b :: bs => if a < b then .lt else if b < a then .gt else v6Compare as bs

/-- The defaulted `operator<=>` of `Endpoint`, endpoint.hpp 107: the addresses, and if they are equal the ports. -/
def endpointCompare {α : Type} (compareAddress : α → α → Ordering) (a b : α × Nat) : Ordering :=
  match compareAddress a.1 b.1 with
  | .eq => v4Compare a.2 b.2
  | o => o

/-- The six operators. -/
inductive CmpOp
  | eq | ne | lt | le | gt | ge
  deriving DecidableEq, Repr

/-- How the compiler rewrites the operators in terms of a defaulted `operator<=>`. -/
def CmpOp.of (o : Ordering) : CmpOp → Bool
  | .eq => o == .eq
  | .ne => o != .eq
  | .lt => o == .lt
  | .le => o != .gt
  | .gt => o == .gt
  | .ge => o != .lt

/-- The operators written out for macOS, endpoint.hpp 209-253, over IPv4 addresses. -/
def macEndpoint (a b : Nat × Nat) : CmpOp → Bool
  | .eq => a.1 == b.1 && a.2 == b.2
  | .ne => !(a.1 == b.1 && a.2 == b.2)
  | .lt => endpointLtMac a b
  | .le => !endpointLtMac b a
  | .gt => !(!endpointLtMac b a)
  | .ge => !endpointLtMac a b

/-! ## Specification -/

/-- What a comparison operator means on numbers. -/
def CmpOp.Holds (x y : Nat) : CmpOp → Prop
  | .eq => x = y
  | .ne => x ≠ y
  | .lt => x < y
  | .le => x ≤ y
  | .gt => x > y
  | .ge => x ≥ y

/-- The number whose digits in base 256 are these bytes, most significant first. -/
def bytesValue (bs : List Nat) : Nat := bs.foldl (fun v b => v * 256 + b) 0

/-! ## Proofs -/

theorem v4Compare_op (a b : Nat) (op : CmpOp) : op.of (v4Compare a b) = true ↔ op.Holds a b := by
  unfold v4Compare
  split
  · cases op <;> simp [CmpOp.of, CmpOp.Holds] <;> omega
  · split
    · cases op <;> simp [CmpOp.of, CmpOp.Holds] <;> omega
    · cases op <;> simp [CmpOp.of, CmpOp.Holds] <;> omega

theorem fold_shift : ∀ (bs : List Nat) (v : Nat), bs.foldl (fun v b => v * 256 + b) v = v * 256 ^ bs.length + bytesValue bs := by
  intro bs
  induction bs with
  | nil => intro v; simp [bytesValue]
  | cons b bs ih =>
    intro v
    simp only [List.foldl_cons, bytesValue, List.length_cons]
    rw [ih, ih (0 * 256 + b)]
    simp only [Nat.zero_mul, Nat.zero_add, Nat.pow_succ, Nat.add_mul, Nat.mul_assoc, Nat.mul_comm 256, Nat.add_assoc]

theorem bytesValue_cons (b : Nat) (bs : List Nat) : bytesValue (b :: bs) = b * 256 ^ bs.length + bytesValue bs := by
  unfold bytesValue
  simp only [List.foldl_cons]
  rw [fold_shift]; simp [bytesValue]

theorem bytesValue_lt : ∀ (bs : List Nat), (∀ b ∈ bs, b < 256) → bytesValue bs < 256 ^ bs.length := by
  intro bs
  induction bs with
  | nil => intro _; simp [bytesValue]
  | cons b bs ih =>
    intro h
    have h1 := ih fun x hx => h x (by simp [hx])
    have h2 := h b (by simp)
    rw [bytesValue_cons, List.length_cons, Nat.pow_succ]
    have : b * 256 ^ bs.length ≤ 255 * 256 ^ bs.length := Nat.mul_le_mul_right _ (by omega)
    omega

theorem v6Compare_value : ∀ (a b : List Nat), a.length = b.length → (∀ x ∈ a, x < 256) → (∀ x ∈ b, x < 256) →
    v6Compare a b = v4Compare (bytesValue a) (bytesValue b) := by
  intro a
  induction a with
  | nil =>
    intro b hl _ _
    cases b with
    | nil => simp [v6Compare, v4Compare]
    | cons y b => simp at hl
  | cons x a ih =>
    intro b hl ha hb
    cases b with
    | nil => simp at hl
    | cons y b =>
      have hl' : a.length = b.length := by simpa using hl
      have h1 := bytesValue_lt a fun z hz => ha z (by simp [hz])
      have h2 := bytesValue_lt b fun z hz => hb z (by simp [hz])
      rw [bytesValue_cons, bytesValue_cons, hl'] 
      rw [hl'] at h1
      simp only [v6Compare]
      by_cases hxy : x < y
      · have : (x + 1) * 256 ^ b.length ≤ y * 256 ^ b.length := Nat.mul_le_mul_right _ hxy
        rw [Nat.add_mul] at this
        simp only [hxy, if_true, v4Compare]
        rw [if_pos (by omega)]
      · by_cases hyx : y < x
        · have : (y + 1) * 256 ^ b.length ≤ x * 256 ^ b.length := Nat.mul_le_mul_right _ hyx
          rw [Nat.add_mul] at this
          simp only [hxy, hyx, if_true, if_false, v4Compare]
          rw [if_neg (by omega), if_neg (by omega)]
        · have : x = y := by omega
          subst this
          simp only [Nat.lt_irrefl, if_false]
          rw [ih b hl' (fun z hz => ha z (by simp [hz])) fun z hz => hb z (by simp [hz])]
          simp [v4Compare]

theorem bytesValue_inj : ∀ (a b : List Nat), a.length = b.length → (∀ x ∈ a, x < 256) → (∀ x ∈ b, x < 256) →
    bytesValue a = bytesValue b → a = b := by
  intro a
  induction a with
  | nil => intro b hl _ _ _; exact (List.length_eq_zero_iff.mp hl.symm).symm
  | cons x a ih =>
    intro b hl ha hb he
    cases b with
    | nil => simp at hl
    | cons y b =>
      have hl' : a.length = b.length := by simpa using hl
      have h1 := bytesValue_lt a fun z hz => ha z (by simp [hz])
      have h2 := bytesValue_lt b fun z hz => hb z (by simp [hz])
      rw [bytesValue_cons, bytesValue_cons, hl'] at he
      rw [hl'] at h1
      have hxy : x = y := by
        rcases Nat.lt_trichotomy x y with h | h | h
        · have : (x + 1) * 256 ^ b.length ≤ y * 256 ^ b.length := Nat.mul_le_mul_right _ h
          rw [Nat.add_mul] at this; omega
        · exact h
        · have : (y + 1) * 256 ^ b.length ≤ x * 256 ^ b.length := Nat.mul_le_mul_right _ h
          rw [Nat.add_mul] at this; omega
      subst hxy
      rw [ih b hl' (fun z hz => ha z (by simp [hz])) (fun z hz => hb z (by simp [hz])) (by omega)]

/-- An address made of four octets shows them in order, and as an integer in host order has the first octet on top. -/
theorem v4_octets {a b c d : Nat} (ha : a < 256) (hb : b < 256) (hc : c < 256) (hd : d < 256) :
    v4OfOctets a b c d < 2 ^ 32 ∧ v4Format (v4OfOctets a b c d) = dotted [a, b, c, d] ∧
    v4HostOrder (v4OfOctets a b c d) = bytesValue [a, b, c, d] := by
  have he := v4OfOctets_eq (d := d) ha hb hc
  refine ⟨by rw [he]; omega, v4_format_octets ha hb hc hd, ?_⟩
  have hb4 := byteAt_octets ha hb hc hd
  have : v4HostOrder (v4OfOctets a b c d) = Numeric.byteSwap32 (v4OfOctets a b c d) := rfl
  rw [this, he, Numeric.byteSwap32_eq, hb4.1, hb4.2.1, hb4.2.2.1, hb4.2.2.2]
  simp only [bytesValue, List.foldl_cons, List.foldl_nil]
  omega

/-- The constants. -/
theorem net_constants :
    v4Format v4Any = "0.0.0.0".toList.map Char.toNat ∧ v4Format v4Broadcast = "255.255.255.255".toList.map Char.toNat ∧
    v4Format v4Loopback = "127.0.0.1".toList.map Char.toNat ∧
    v6Format v6Any = "::".toList.map Char.toNat ∧ v6Format v6Loopback = "::1".toList.map Char.toNat ∧
    v6Any.length = 16 ∧ v6Loopback.length = 16 := by
  refine ⟨?_, ?_, ?_, ?_, ?_, by decide, by decide⟩ <;> decide +kernel

/-- All six comparisons of IPv4 addresses are those of the octets read backwards (the address in network order, as
documented), so not those of the numbers the texts denote. -/
theorem v4_compare {a b c d e f g h : Nat} (ha : a < 256) (hb : b < 256) (hc : c < 256) (_hd : d < 256)
    (he : e < 256) (hf : f < 256) (hg : g < 256) (_hh : h < 256) (op : CmpOp) :
    op.of (v4Compare (v4OfOctets a b c d) (v4OfOctets e f g h)) = true ↔
      op.Holds (bytesValue [d, c, b, a]) (bytesValue [h, g, f, e]) := by
  rw [v4Compare_op, v4OfOctets_eq ha hb hc, v4OfOctets_eq he hf hg]
  have e1 : ∀ a b c d : Nat, bytesValue [d, c, b, a] = d * 2 ^ 24 + c * 2 ^ 16 + b * 2 ^ 8 + a := by
    intro a b c d; simp only [bytesValue, List.foldl_cons, List.foldl_nil]; omega
  rw [e1, e1]

/-- 2.0.0.1 is less than 1.0.0.2. -/
example : CmpOp.lt.of (v4Compare (v4OfOctets 2 0 0 1) (v4OfOctets 1 0 0 2)) = true ∧
    v4HostOrder (v4OfOctets 1 0 0 2) < v4HostOrder (v4OfOctets 2 0 0 1) := by decide +kernel

/-- All six comparisons of IPv6 addresses are those of the 128-bit numbers they denote. -/
theorem v6_compare (a b : List Nat) (hla : a.length = 16) (hlb : b.length = 16) (ha : ∀ x ∈ a, x < 256)
    (hb : ∀ x ∈ b, x < 256) (op : CmpOp) :
    op.of (v6Compare a b) = true ↔ op.Holds (bytesValue a) (bytesValue b) := by
  rw [v6Compare_value a b (by omega) ha hb, v4Compare_op]

theorem endpointCompare_value {α : Type} {cmp : α → α → Ordering} {value : α → Nat} {a b : α × Nat}
    (h : cmp a.1 b.1 = v4Compare (value a.1) (value b.1)) (ha : a.2 < 65536) (hb : b.2 < 65536) :
    endpointCompare cmp a b = v4Compare (value a.1 * 65536 + a.2) (value b.1 * 65536 + b.2) := by
  unfold endpointCompare
  rw [h]
  unfold v4Compare
  rcases Nat.lt_trichotomy (value a.1) (value b.1) with h | h | h
  · rw [if_pos h]
    simp only
    rw [if_pos (by omega)]
  · rw [if_neg (by omega), if_pos h]
    simp only
    rcases Nat.lt_trichotomy a.2 b.2 with h' | h' | h'
    · rw [if_pos h', if_pos (by omega)]
    · rw [if_neg (by omega), if_pos h', if_neg (by omega), if_pos (by omega)]
    · rw [if_neg (by omega), if_neg (by omega), if_neg (by omega), if_neg (by omega)]
  · rw [if_neg (Nat.not_lt.mpr (Nat.le_of_lt h)), if_neg (by omega)]
    simp only
    rw [if_neg (by omega), if_neg (by omega)]

/-- All six comparisons of IPv4 endpoints (where the compiler makes them): by address, then by port. -/
theorem endpoint4_compare (a b p q : Nat) (hp : p < 65536) (hq : q < 65536) (op : CmpOp) :
    op.of (endpointCompare v4Compare (a, p) (b, q)) = true ↔ op.Holds (a * 65536 + p) (b * 65536 + q) := by
  rw [endpointCompare_value (value := id) rfl hp hq, v4Compare_op]; rfl

/-- The same for IPv6 endpoints: by 128-bit address, then by port. -/
theorem endpoint6_compare (a b : List Nat) (p q : Nat) (hla : a.length = 16) (hlb : b.length = 16)
    (ha : ∀ x ∈ a, x < 256) (hb : ∀ x ∈ b, x < 256) (hp : p < 65536) (hq : q < 65536) (op : CmpOp) :
    op.of (endpointCompare v6Compare (a, p) (b, q)) = true ↔
      op.Holds (bytesValue a * 65536 + p) (bytesValue b * 65536 + q) := by
  rw [endpointCompare_value (value := bytesValue) (v6Compare_value a b (by omega) ha hb) hp hq, v4Compare_op]

/-- Endpoints are equal exactly if they have the same text. -/
theorem endpoint_equal_iff_text :
    (∀ a b p q : Nat, a < 2 ^ 32 → b < 2 ^ 32 → p < 65536 → q < 65536 →
      (CmpOp.eq.of (endpointCompare v4Compare (a, p) (b, q)) = true ↔ endpoint4Format a p = endpoint4Format b q)) ∧
    (∀ (a b : List Nat) (p q : Nat), a.length = 16 → b.length = 16 → (∀ x ∈ a, x < 256) → (∀ x ∈ b, x < 256) →
      p < 65536 → q < 65536 →
      (CmpOp.eq.of (endpointCompare v6Compare (a, p) (b, q)) = true ↔ endpoint6Format a p = endpoint6Format b q)) := by
  constructor
  · intro a b p q ha hb hp hq
    rw [endpoint4_compare a b p q hp hq]
    simp only [CmpOp.Holds]
    constructor
    · intro h
      have h1 : a = b := by omega
      have h2 : p = q := by omega
      rw [h1, h2]
    · intro h
      have h1 := endpoint4_round_trip a p ha (by omega)
      have h2 := endpoint4_round_trip b q hb (by omega)
      rw [h, h2, if_pos (by omega), if_pos (by omega)] at h1
      simp only [Option.some.injEq, Prod.mk.injEq] at h1
      omega
  · intro a b p q hla hlb ha hb hp hq
    rw [endpoint6_compare a b p q hla hlb ha hb hp hq]
    simp only [CmpOp.Holds]
    constructor
    · intro h
      have h1 := bytesValue_inj a b (by omega) ha hb (by omega)
      have h2 : p = q := by omega
      rw [h1, h2]
    · intro h
      have h1 := endpoint6_round_trip a p hla ha (by omega)
      have h2 := endpoint6_round_trip b q hlb hb (by omega)
      rw [h, h2, if_pos (by omega), if_pos (by omega)] at h1
      simp only [Option.some.injEq, Prod.mk.injEq] at h1
      rw [h1.1, h1.2]

/-- The hypotheses are met: `::1` port 80 comes before `::2` port 79, and equal endpoints have equal texts. -/
example : CmpOp.lt.of (endpointCompare v6Compare (v6Loopback, 80) (v6Loopback.set 15 2, 79)) = true ∧
    CmpOp.eq.of (endpointCompare v6Compare (v6Loopback, 80) (v6Loopback, 80)) = true :=
  ⟨(endpoint6_compare _ _ 80 79 rfl rfl (by decide) (by decide) (by omega) (by omega) .lt).mpr
      (show bytesValue v6Loopback * 65536 + 80 < bytesValue (v6Loopback.set 15 2) * 65536 + 79 by decide +kernel),
   (endpoint_equal_iff_text.2 _ _ 80 80 rfl rfl (by decide) (by decide) (by omega) (by omega)).mpr rfl⟩

/-- On macOS the operators disagree with each other: of two endpoints each is less than the other, neither is less than
or equal to the other, and they are not equal. -/
theorem endpoint_mac_operators_violated : ∃ a b : Nat × Nat, a.1 < 2 ^ 32 ∧ b.1 < 2 ^ 32 ∧ a.2 < 65536 ∧ b.2 < 65536 ∧
    macEndpoint a b .lt = true ∧ macEndpoint b a .lt = true ∧ macEndpoint a b .le = false ∧ macEndpoint b a .le = false ∧
    macEndpoint a b .eq = false :=
  ⟨(1, 2), (2, 1), by decide, by decide, by decide, by decide, by decide, by decide, by decide, by decide, by decide⟩

/-- What holds there: equality is that of address and port, and all six operators are right whenever the address that
is not greater comes with the port that is not greater (in particular for equal addresses or equal ports). Missing:
endpoints whose addresses and ports are ordered oppositely. -/
theorem endpoint_mac_operators_partial (a b p q : Nat) (hp : p < 65536) (hq : q < 65536) :
    (macEndpoint (a, p) (b, q) .eq = true ↔ a = b ∧ p = q) ∧
    (a ≤ b ∧ p ≤ q ∨ b ≤ a ∧ q ≤ p → ∀ op, macEndpoint (a, p) (b, q) op = true ↔ op.Holds (a * 65536 + p) (b * 65536 + q)) := by
  constructor
  · simp [macEndpoint]
  · intro h op
    cases op <;> simp only [macEndpoint, endpointLtMac, CmpOp.Holds] <;> simp <;> omega

end Verif.Net
