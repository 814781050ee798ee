/-!
# Specifications for the string utilities

Independent of the code: ASCII classes, the pieces of a split string, whitespace, glob matching, and
the value of a run of digits. Characters are code units, given as natural numbers (the unsigned
representation of the unit).
-/

namespace Verif.Str

/-- `'0'..'9'`. -/
def AsciiDigit (u : Nat) : Prop := 0x30 ≤ u ∧ u ≤ 0x39
/-- `'A'..'Z'`. -/
def AsciiUpper (u : Nat) : Prop := 0x41 ≤ u ∧ u ≤ 0x5a
/-- `'a'..'z'`. -/
def AsciiLower (u : Nat) : Prop := 0x61 ≤ u ∧ u ≤ 0x7a
/-- `'0'..'9'`, `'A'..'F'`, `'a'..'f'`. -/
def AsciiHex (u : Nat) : Prop := AsciiDigit u ∨ (0x41 ≤ u ∧ u ≤ 0x46) ∨ (0x61 ≤ u ∧ u ≤ 0x66)
/-- Tab, line feed, vertical tab, form feed, carriage return, space. -/
def AsciiSpace (u : Nat) : Prop := (9 ≤ u ∧ u ≤ 13) ∨ u = 32

instance (u) : Decidable (AsciiDigit u) := by unfold AsciiDigit; infer_instance
instance (u) : Decidable (AsciiUpper u) := by unfold AsciiUpper; infer_instance
instance (u) : Decidable (AsciiLower u) := by unfold AsciiLower; infer_instance
instance (u) : Decidable (AsciiHex u) := by unfold AsciiHex; infer_instance
instance (u) : Decidable (AsciiSpace u) := by unfold AsciiSpace; infer_instance

/-- Value of one ASCII (hexadecimal) digit. -/
def digitValue (u : Nat) : Nat :=
  if u ≤ 0x39 then u - 0x30 else if u ≤ 0x46 then u - 0x41 + 10 else u - 0x61 + 10

/-- Value of a digit string in the given base, most significant digit first. -/
def numeral (base : Nat) (ds : List Nat) : Nat := ds.foldl (fun a u => a * base + digitValue u) 0

/-- `Pieces d s ps`: `ps` are, in order, the maximal non-empty stretches of `s` without `d`. -/
inductive Pieces (d : Nat) : List Nat → List (List Nat) → Prop
  | nil : Pieces d [] []
  | skip {s ps} : Pieces d s ps → Pieces d (d :: s) ps
  | last {p} : p ≠ [] → d ∉ p → Pieces d p [p]
  | piece {p s ps} : p ≠ [] → d ∉ p → Pieces d s ps → Pieces d (p ++ d :: s) (p :: ps)

/-- Join pieces with one delimiter between neighbours. -/
def joinWith (d : Nat) : List (List Nat) → List Nat
  | [] => []
  | [p] => p
  | p :: q :: r => p ++ d :: joinWith d (q :: r)

/-- `Occurs u s`: `u` is a contiguous substring of `s`. -/
def Occurs (u s : List Nat) : Prop := ∃ a b, s = a ++ u ++ b

/-- Glob matching: `'*'` (0x2a) stands for any, possibly empty, string; any other character for
itself. -/
inductive Glob : List Nat → List Nat → Prop
  | nil : Glob [] []
  | star {a s p} : Glob s p → Glob (a ++ s) (0x2a :: p)
  | char {c s p} : c ≠ 0x2a → Glob s p → Glob (c :: s) (c :: p)

end Verif.Str
