/-!
# Specification of the Unicode encoding forms

Independent of the code: the scalar values, the well-formed UTF-8 byte sequences of RFC 3629 section 4
(the Unicode standard's table 3-7), and the well-formed UTF-16 sequences.
-/

namespace Verif.Unicode

/-- A Unicode scalar value: not a surrogate and at most U+10FFFF. -/
def Scalar (c : Nat) : Prop := c ≤ 0x10ffff ∧ ¬ (0xd800 ≤ c ∧ c ≤ 0xdfff)

instance (c : Nat) : Decidable (Scalar c) := by unfold Scalar; infer_instance

/-- `lo ≤ b ≤ hi`. -/
def In (lo hi b : Nat) : Prop := lo ≤ b ∧ b ≤ hi

instance (lo hi b : Nat) : Decidable (In lo hi b) := by unfold In; infer_instance

/-- Well-formed UTF-8 (RFC 3629, section 4, `UTF8-octets`). -/
inductive WellFormed8 : List Nat → Prop
  | nil : WellFormed8 []
  | one {a s} : In 0x00 0x7f a → WellFormed8 s → WellFormed8 (a :: s)
  | two {a b s} : In 0xc2 0xdf a → In 0x80 0xbf b → WellFormed8 s → WellFormed8 (a :: b :: s)
  | three {a b c s} :
      (a = 0xe0 ∧ In 0xa0 0xbf b) ∨ (In 0xe1 0xec a ∧ In 0x80 0xbf b) ∨
        (a = 0xed ∧ In 0x80 0x9f b) ∨ (In 0xee 0xef a ∧ In 0x80 0xbf b) →
      In 0x80 0xbf c → WellFormed8 s → WellFormed8 (a :: b :: c :: s)
  | four {a b c d s} :
      (a = 0xf0 ∧ In 0x90 0xbf b) ∨ (In 0xf1 0xf3 a ∧ In 0x80 0xbf b) ∨ (a = 0xf4 ∧ In 0x80 0x8f b) →
      In 0x80 0xbf c → In 0x80 0xbf d → WellFormed8 s → WellFormed8 (a :: b :: c :: d :: s)

/-- Well-formed UTF-16: every surrogate is part of a high-low pair. -/
inductive WellFormed16 : List Nat → Prop
  | nil : WellFormed16 []
  | one {a s} : ¬ In 0xd800 0xdfff a → WellFormed16 s → WellFormed16 (a :: s)
  | pair {a b s} : In 0xd800 0xdbff a → In 0xdc00 0xdfff b → WellFormed16 s →
      WellFormed16 (a :: b :: s)

/-- The UTF-8 form of a scalar value, by arithmetic (RFC 3629, section 3). -/
def utf8Of (c : Nat) : List Nat :=
  if c < 0x80 then [c]
  else if c < 0x800 then [0xc0 + c / 64, 0x80 + c % 64]
  else if c < 0x10000 then [0xe0 + c / 4096, 0x80 + c / 64 % 64, 0x80 + c % 64]
  else [0xf0 + c / 262144, 0x80 + c / 4096 % 64, 0x80 + c / 64 % 64, 0x80 + c % 64]

/-- The UTF-16 form of a scalar value, by arithmetic. -/
def utf16Of (c : Nat) : List Nat :=
  if c < 0x10000 then [c] else [0xd800 + (c - 0x10000) / 1024, 0xdc00 + (c - 0x10000) % 1024]

end Verif.Unicode
