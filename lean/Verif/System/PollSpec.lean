import Verif.System.Poll
import Verif.System.Spec
import Verif.Common.Digits

/-!
# What the kernel's files say

The text of `/proc/stat` and `/proc/self/status` as the kernel writes it.
-/

namespace Verif.System

open Verif.Digits (digits)

/-- A file of lines. -/
def unlines (ls : List (List Nat)) : List Nat := ls.flatMap fun l => l ++ [0x0a]

/-- Spaces and tabs. -/
def Blanks (b : List Nat) : Prop := ∀ c ∈ b, c = 0x20 ∨ c = 0x09

/-- The line `cpu  user nice system idle ...`. -/
inductive TotalLine : Sample → List Nat → Prop
  | mk (b1 b2 b3 b4 : List Nat) (u n s i : Nat) (rest : List Nat) :
      Blanks b1 → Blanks b2 → Blanks b3 → Blanks b4 → b1 ≠ [] → b2 ≠ [] → b3 ≠ [] → b4 ≠ [] →
      u < 2 ^ 64 → n < 2 ^ 64 → s < 2 ^ 64 → i < 2 ^ 64 →
      (rest = [] ∨ ∃ r, rest = 0x20 :: r) →
      TotalLine ⟨u, n, s, i⟩ ([0x63, 0x70, 0x75] ++ b1 ++ digits 10 u ++ b2 ++ digits 10 n ++ b3 ++ digits 10 s ++ b4 ++
        digits 10 i ++ rest)

/-- The file `/proc/stat`: the line of all processors, one line for each, and other lines. -/
inductive StatFile : Sample → Nat → List Nat → Prop
  | mk (x : Sample) (total : List Nat) (cpus others : List (List Nat)) :
      TotalLine x total → (∃ r, total = 0x63 :: 0x70 :: 0x75 :: 0x20 :: r) →
      (∀ l ∈ cpus, ∃ c r, l = 0x63 :: 0x70 :: 0x75 :: c :: r ∧ c ≠ 0x20) →
      (∀ l ∈ others, ∀ r, l ≠ 0x63 :: 0x70 :: 0x75 :: r) →
      (∀ l ∈ total :: (cpus ++ others), 0x0a ∉ l) →
      StatFile x cpus.length (unlines (total :: (cpus ++ others)))

/-- The file `/proc/self/status`: a line `VmRSS:   n kB` and others before and after it. -/
inductive StatusFile : Nat → List Nat → Prop
  | mk (n : Nat) (b : List Nat) (before after : List (List Nat)) :
      n < 2 ^ 64 → Blanks b →
      (∀ l ∈ before, ∀ r, l ≠ [0x56, 0x6d, 0x52, 0x53, 0x53, 0x3a] ++ r) →
      (∀ l ∈ before ++ after, 0x0a ∉ l) →
      StatusFile n (unlines (before ++ ([0x56, 0x6d, 0x52, 0x53, 0x53, 0x3a] ++ b ++ digits 10 n ++ [0x20, 0x6b, 0x42]) ::
        after))

/-- A poll at which the process is found to have used no more time than the processors had since the last one. -/
def FairPoll (s : Process) (count : Nat) (x : Times) : Prop :=
  (x.now > s.time → x.now - s.time ≤ 2 ^ 53) ∧
  (x.stime ≥ s.stime → x.utime ≥ s.utime →
    (x.stime - s.stime) + (x.utime - s.utime) ≤ (x.now - s.time) * count ∧
      100 * ((x.stime - s.stime) + (x.utime - s.utime)) ≤ 2 ^ 53) ∧ 100 * count ≤ 2 ^ 53

/-- The last result of `times` that was not an error; zeros before the first. -/
def lastTimes (rs : List Report) : Times := ((rs.map (·.times)).filter fun x => x.now != -1).getLastD ⟨0, 0, 0⟩

end Verif.System
