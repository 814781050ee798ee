import Verif.System.Model

/-!
# What the system monitor should report
-/

namespace Verif.System

/-- What is assumed of the rounding of `double` arithmetic: it is monotone and exact for integers up to
2^53. IEEE 754 has this in every rounding mode (for values without overflow). -/
structure Rounding (rn : Rat → Rat) : Prop where
  mono : ∀ a b, a ≤ b → rn a ≤ rn b
  exact : ∀ n : Nat, n ≤ 2 ^ 53 → rn n = n

/-- A percentage. -/
def Double.IsPercentage : Double → Prop
  | .num q => 0 ≤ q ∧ q ≤ 100
  | _ => False

/-- How much all counters together grew from one sample to the next, if none of them decreased. -/
def growth (a b : Sample) : Nat := (b.user - a.user) + (b.nice - a.nice) + (b.system - a.system) + (b.idle - a.idle)

/-- No counter decreased. -/
def grew (a b : Sample) : Prop := a.user ≤ b.user ∧ a.nice ≤ b.nice ∧ a.system ≤ b.system ∧ a.idle ≤ b.idle

/-- The samples that were read. -/
def samples (xs : List (Option Sample)) : List Sample := xs.filterMap id

/-- Between samples the counters grow, or one of them decreases (after which nothing is computed); and not by more than
2^46 in total. -/
def Moving : Sample → List Sample → Prop
  | _, [] => True
  | a, b :: l => (grew a b → 0 < growth a b ∧ growth a b ≤ 2 ^ 46) ∧ Moving b l

end Verif.System
