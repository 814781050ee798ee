import Verif.PathMonitor.Model

/-!
# What the path monitor should do
-/

namespace Verif.PathMonitor

/-- Who is registered for what. -/
structure Reg where
  path : Nat → Option Nat
  file : Nat → Nat → Option Nat

/-- Nothing is registered. -/
def Reg.empty : Reg where
  path := fun _ => none
  file := fun _ _ => none

/-- The effect of a successful call. -/
def Reg.after (r : Reg) : Done → Reg
  | .pathAdded d c => { r with path := fun x => if x = d then some c else r.path x }
  | .fileAdded d f c => { r with file := fun x y => if x = d ∧ y = f then some c else r.file x y }
  | .pathRemoved d => {
      path := fun x => if x = d then none else r.path x
      file := fun x y => if x = d then none else r.file x y }
  | .fileRemoved d f => { r with file := fun x y => if x = d ∧ y = f then none else r.file x y }
  | .allRemoved => .empty

/-- The registrations after a history of successful calls. -/
def registered (h : List Done) : Reg := h.foldl Reg.after .empty

/-- The callback an event for file `f` in directory `d` should reach. -/
def Reg.callback (r : Reg) (d f : Nat) : Option Nat :=
  match r.file d f with
  | some c => some c
  | none => r.path d

/-- No two spellings denote the same directory. -/
def NoAlias (dirs : Nat → Option Nat) : Prop := ∀ d d' i, dirs d = some i → dirs d' = some i → d = d'

/-- The step does not remove a monitored directory, and does not register anything for a directory between the two
critical sections of a `remove_file` that is about to prune it. -/
def Calm (s : Monitor) : Op → Prop
  | .rmdir i => ∀ d info, (d, info) ∈ s.info → s.dirs d ≠ some i
  | .addPath d _ _ => d ∉ s.pending
  | .addFile d _ _ _ _ => d ∉ s.pending
  | _ => True

/-- Executions of calm steps. -/
inductive CalmExec (dirs : Nat → Option Nat) : Monitor → List Done → Prop
  | init : CalmExec dirs (.init dirs) []
  | step {s : Monitor} {h : List Done} (op : Op) : CalmExec dirs s h → s.allowed op → Calm s op →
    CalmExec dirs (s.step op).1 (h ++ (s.step op).2)

/-- What a mask says, by the documentation of the event types: an entry appeared, disappeared, or was changed. -/
def appeared (mask : Nat) : Prop := mask.testBit 8 = true ∨ mask.testBit 7 = true
def disappeared (mask : Nat) : Prop := mask.testBit 9 = true ∨ mask.testBit 6 = true
def modified (mask : Nat) : Prop := mask.testBit 1 = true

end Verif.PathMonitor
