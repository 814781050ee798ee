/-!
# C129: signal handlers

Source: `/repo/fly/system/system.cpp` 12-21 and 36-54. A signal may arrive between any two steps of
`set_signal_handler`; the assignment of a `std::function` is several steps of the machine, between which it must not
be called.
-/

namespace Verif.System.Signals

/-! ## Model -/

/-- `s_signal_handler` (system.cpp 14): empty, a function, or in the middle of an assignment. -/
inductive Slot where
  | empty
  | holds (h : Nat)
  | torn
deriving DecidableEq, Repr

/-- What the operating system does with a signal: the default action, or a call of `handle_signal`. -/
inductive Disposition where
  | dfl
  | ours
deriving DecidableEq, Repr

/-- The process: the slot, the disposition of every signal. -/
structure Process where
  slot : Slot := .empty
  disp : Nat → Disposition := fun _ => .dfl

/-- `SIGINT, SIGTERM, SIGILL, SIGFPE, SIGABRT, SIGSEGV`, and `SIGSYS, SIGBUS` on Linux, with Linux's numbers
(system.cpp 39-45). -/
def signals (windows : Bool) : List Nat := if windows then [2, 15, 4, 8, 6, 11] else [2, 15, 4, 8, 6, 11, 31, 7]

/-- One step of `set_signal_handler`. -/
inductive Op where
  /-- the assignment begins -/
  | tear
  /-- the assignment ends -/
  | store (h : Option Nat)
  /-- `std::signal` -/
  | signal (s : Nat) (d : Disposition)
deriving DecidableEq, Repr

/-- The steps of `set_signal_handler` (system.cpp 36-54); `none` is a null handler. The handler is stored before the
signals are set up. -/
def setHandler (windows : Bool) (h : Option Nat) : List Op :=
  [.tear, .store h] ++ (signals windows).map fun s => .signal s (if h.isSome then .ours else .dfl)

/-- The effect of a step. -/
def exec (p : Process) : Op → Process
  | .tear => { p with slot := .torn }
  | .store none => { p with slot := .empty }
  | .store (some h) => { p with slot := .holds h }
  | .signal s d => { p with disp := fun x => if x = s then d else p.disp x }

/-- What becomes of a signal. -/
inductive Reaction where
  /-- the default action of the operating system -/
  | default
  /-- the handler is called with the number of the signal -/
  | handled (h s : Nat)
  /-- an empty function, or one that is being assigned, is called -/
  | crash
deriving DecidableEq, Repr

/-- `handle_signal` (system.cpp 16-19), when the signal arrives. -/
def react (p : Process) (s : Nat) : Reaction :=
  match p.disp s with
  | .dfl => .default
  | .ours =>
    match p.slot with
    | .holds h => .handled h s
    | _ => .crash

/-- What the arrival does to the process: where `std::signal` is the one of System V or of Windows (`resets`), the
disposition goes back to the default before the handler is called. -/
def arrive (resets : Bool) (p : Process) (s : Nat) : Process :=
  if resets then { p with disp := fun x => if x = s then .dfl else p.disp x } else p

/-- What happens to a process: a step of the program, or a signal. -/
inductive Event where
  | op (o : Op)
  | signal (s : Nat)
deriving DecidableEq, Repr

/-- A run: the process after it. -/
def run (resets : Bool) (p : Process) : List Event → Process
  | [] => p
  | .op o :: r => run resets (exec p o) r
  | .signal s :: r => run resets (arrive resets p s) r

/-! ## Specification -/

/-- The steps of the program in a run. -/
def opsOf : List Event → List Op
  | [] => []
  | .op o :: r => o :: opsOf r
  | .signal _ :: r => opsOf r

/-- The steps of a program that sets the handlers `hs` one after another. -/
def program (windows : Bool) (hs : List (Option Nat)) : List Op := hs.flatMap (setHandler windows)

/-- The signals the property is about: interrupt, terminate, illegal instruction, arithmetic, abort, segmentation,
and on POSIX systems bad system call and bus error. -/
def Terminal (windows : Bool) (s : Nat) : Prop :=
  s = 2 ∨ s = 15 ∨ s = 4 ∨ s = 8 ∨ s = 6 ∨ s = 11 ∨ (windows = false ∧ (s = 31 ∨ s = 7))

/-- How a signal should be met when `h` is the handler in force. -/
def Expected (windows : Bool) (h : Option Nat) (s : Nat) (r : Reaction) : Prop :=
  match h with
  | some h => (Terminal windows s → r = .handled h s) ∧ (¬ Terminal windows s → r = .default)
  | none => r = .default

/-! ## Proofs -/

theorem run_quiet (p : Process) (tr : List Event) : run false p tr = (opsOf tr).foldl exec p := by
  induction tr generalizing p with
  | nil => rfl
  | cons e r ih =>
    cases e with
    | op o => exact ih _
    | signal s => exact ih _

theorem terminal_iff {w : Bool} {s : Nat} : Terminal w s ↔ s ∈ signals w := by
  unfold Terminal signals
  cases w <;> simp

/-- Setting a list of signals. -/
theorem fold_signals (p : Process) (d : Disposition) (l : List Nat) :
    (l.map fun s => Op.signal s d).foldl exec p = { p with disp := fun x => if x ∈ l then d else p.disp x } := by
  induction l generalizing p with
  | nil => simp
  | cons a r ih =>
    rw [List.map_cons, List.foldl_cons, ih]
    simp only [exec, Process.mk.injEq, true_and]
    funext x
    by_cases h1 : x ∈ r <;> by_cases h2 : x = a <;> simp [h1, h2]

/-- The slot for a handler. -/
def slotOf : Option Nat → Slot
  | some h => .holds h
  | none => .empty

theorem exec_set (w : Bool) (p : Process) (h : Option Nat) :
    (setHandler w h).foldl exec p =
      { slot := slotOf h, disp := fun x => if x ∈ signals w then (if h.isSome then .ours else .dfl) else p.disp x } := by
  unfold setHandler
  rw [List.foldl_append, fold_signals]
  cases h <;> rfl

/-- The state in which `h` is in force. -/
def inForce (w : Bool) (h : Option Nat) (p : Process) : Prop :=
  p.slot = slotOf h ∧ (∀ s, s ∈ signals w → p.disp s = if h.isSome then .ours else .dfl) ∧
    (∀ s, s ∉ signals w → p.disp s = .dfl)

theorem inForce_program (w : Bool) (hs : List (Option Nat)) (p : Process) (h0 : Option Nat) (hp : inForce w h0 p) :
    inForce w (hs.getLast?.getD h0) ((program w hs).foldl exec p) := by
  induction hs generalizing p h0 with
  | nil => exact hp
  | cons h r ih =>
    unfold program
    rw [List.flatMap_cons, List.foldl_append, exec_set]
    have := ih { slot := slotOf h, disp := fun x => if x ∈ signals w then (if h.isSome then .ours else .dfl) else p.disp x } h
      ⟨rfl, fun s hs => if_pos hs, fun s hs => (if_neg hs).trans (hp.2.2 s hs)⟩
    cases r with
    | nil => exact this
    | cons a r =>
      have e : (h :: a :: r).getLast?.getD h0 = (a :: r).getLast?.getD h := by
        simp [List.getLast?_cons_cons, List.getLast?_eq_some_getLast]
      rw [e]
      exact this

theorem inForce_react {w : Bool} {h : Option Nat} {p : Process} (hp : inForce w h p) (s : Nat) :
    Expected w h s (react p s) := by
  obtain ⟨h1, h2, h3⟩ := hp
  unfold Expected react
  by_cases hs : s ∈ signals w
  · rw [h2 s hs, h1]
    cases h with
    | none => rfl
    | some h => exact ⟨fun _ => rfl, fun hn => absurd (terminal_iff.2 hs) hn⟩
  · rw [h3 s hs]
    cases h with
    | none => rfl
    | some h => exact ⟨fun hn => absurd (terminal_iff.1 hn) hs, fun _ => rfl⟩

theorem inForce_start (w : Bool) : inForce w none {} := ⟨rfl, fun _ _ => rfl, fun _ _ => rfl⟩

/-- C129: between calls of `set_signal_handler`, each terminal signal goes to the handler set last, with its number;
to the default action if that was a null handler or if none was set; other signals are never touched. Signals may have
arrived at any time before. -/
theorem signal_handler_partial (w : Bool) (hs : List (Option Nat)) (tr : List Event) (ht : opsOf tr = program w hs)
    (s : Nat) : Expected w (hs.getLast?.getD none) s (react (run false {} tr) s) := by
  rw [run_quiet, ht]
  exact inForce_react (inForce_program w hs {} none (inForce_start w)) s

/-- C129: while the first handler is being installed, or one after a null handler, a signal gets the default action or
the new handler, at whatever step it arrives. -/
theorem signal_install (w : Bool) (hs : List (Option Nat)) (hn : hs.getLast?.getD none = none) (h : Nat)
    (tr : List Event) (rest : List Op) (ht : opsOf tr ++ rest = program w hs ++ setHandler w (some h)) 
    (hl : (program w hs).length ≤ (opsOf tr).length) (s : Nat) :
    Expected w none s (react (run false {} tr) s) ∨ Expected w (some h) s (react (run false {} tr) s) := by
  have hf := inForce_program w hs {} none (inForce_start w)
  rw [hn] at hf
  obtain ⟨pre, hpre⟩ : ∃ pre, opsOf tr = program w hs ++ pre ∧ pre ++ rest = setHandler w (some h) := by
    have := List.append_eq_append_iff.1 ht
    rcases this with ⟨a, h1, h2⟩ | ⟨a, h1, h2⟩
    · have : a = [] := by
        have := congrArg List.length h1
        simp at this
        exact List.eq_nil_of_length_eq_zero (by omega)
      subst this
      exact ⟨[], by simpa using h1.symm, by simpa using h2⟩
    · exact ⟨a, h1, h2.symm⟩
  rw [run_quiet, hpre.1, List.foldl_append]
  generalize (program w hs).foldl exec {} = p at *
  obtain ⟨f1, f2, f3⟩ := hf
  have hd : ∀ s, p.disp s = .dfl := fun s => by
    by_cases hs : s ∈ signals w
    · exact f2 s hs
    · exact f3 s hs
  have key := hpre.2
  unfold setHandler at key
  match pre, key with
  | [], _ =>
    left
    show Expected w none s (react p s)
    simp [Expected, react, hd]
  | [a], key =>
    left
    simp at key
    rw [key.1]
    simp [Expected, react, exec, hd]
  | a :: b :: q, key =>
    simp only [List.cons_append, List.nil_append, List.cons.injEq] at key
    obtain ⟨rfl, rfl, hq⟩ := key
    have : ∃ l l', q = l.map (fun s => Op.signal s .ours) ∧ signals w = l ++ l' := by
      have := List.map_eq_append_iff.1 hq.symm
      obtain ⟨l, l', h1, h2, -⟩ := this
      exact ⟨l, l', h2.symm, h1⟩
    obtain ⟨l, l', rfl, hsig⟩ := this
    rw [List.foldl_cons, List.foldl_cons, fold_signals]
    simp only [exec, react, hd]
    by_cases hs : s ∈ l
    · right
      have : s ∈ signals w := by rw [hsig]; exact List.mem_append_left _ hs
      simp [Expected, hs, terminal_iff, this]
    · left
      simp [Expected, hs]

example : opsOf ([.signal 2, .op .tear, .signal 15, .op (.store (some 7))] : List Event) ++
    (setHandler false (some 7)).drop 2 = program false [] ++ setHandler false (some 7) := by decide

/-- C129 fails:
1. while a handler is being removed, a signal calls an empty function: the handler is dropped before the signals are
   set back;
2. while a handler is being replaced, a signal calls a function that is being assigned;
3. where the disposition is reset on arrival (Windows, System V), only the first signal of each number reaches the
   handler; the second gets the default action. -/
theorem signal_handler_violated (h g s : Nat) (w : Bool) (hs : Terminal w s) :
    (∃ tr rest, opsOf tr ++ rest = program w [some h, none] ∧ react (run false {} tr) s = .crash) ∧
    (∃ tr rest, opsOf tr ++ rest = program w [some h, some g] ∧ react (run false {} tr) s = .crash) ∧
    (∃ tr, opsOf tr = program w [some h] ∧ react (run true {} tr) s = .handled h s ∧
      react (run true {} (tr ++ [.signal s])) s = .default) := by
  have hs' := terminal_iff.1 hs
  have ops : ∀ l : List Op, opsOf (l.map .op) = l := by
    intro l
    induction l with
    | nil => rfl
    | cons a r ih => exact congrArg _ ih
  have runs : ∀ (b : Bool) (p : Process) (l : List Op) (r : List Event),
      run b p (l.map .op ++ r) = run b (l.foldl exec p) r := by
    intro b p l r
    induction l generalizing p with
    | nil => rfl
    | cons a l ih => exact ih _
  have pre : ∀ x, opsOf ((setHandler w (some h) ++ x).map .op) = setHandler w (some h) ++ x := fun x => ops _
  refine ⟨⟨(setHandler w (some h) ++ [Op.tear, Op.store none]).map Event.op, (setHandler w none).drop 2, ?_, ?_⟩,
    ⟨(setHandler w (some h) ++ [Op.tear]).map Event.op, (setHandler w (some g)).drop 1, ?_, ?_⟩,
    ⟨(setHandler w (some h)).map .op, ?_, ?_, ?_⟩⟩
  · rw [pre]
    simp [program, setHandler]
  · have := runs false {} (setHandler w (some h) ++ [.tear, .store none]) []
    rw [List.append_nil] at this
    rw [this, List.foldl_append, exec_set]
    simp [run, exec, react, hs']
  · rw [pre]
    simp [program, setHandler]
  · have := runs false {} (setHandler w (some h) ++ [.tear]) []
    rw [List.append_nil] at this
    rw [this, List.foldl_append, exec_set]
    simp [run, exec, react, hs']
  · rw [ops]
    simp [program]
  · have := runs true {} (setHandler w (some h)) []
    rw [List.append_nil] at this
    rw [this, exec_set]
    simp [run, react, hs', slotOf]
  · rw [runs, exec_set]
    simp [run, react, arrive]

theorem run_signals (p : Process) (sigs : List Nat) :
    run true p (sigs.map .signal) = { p with disp := fun x => if x ∈ sigs then .dfl else p.disp x } := by
  induction sigs generalizing p with
  | nil => simp [run]
  | cons a r ih =>
    rw [List.map_cons]
    unfold run
    rw [ih]
    simp only [arrive, if_true, Process.mk.injEq, true_and]
    funext x
    by_cases h1 : x ∈ r <;> by_cases h2 : x = a <;> simp [h1, h2]

/-- C129 where the disposition is reset on arrival (Windows, System V), exactly: a signal that arrived since the handler was set gets
the default action the next time; every other signal is still met as it should be. -/
theorem signal_reset (w : Bool) (hs : List (Option Nat)) (sigs : List Nat) (s : Nat) :
    (s ∉ sigs → Expected w (hs.getLast?.getD none) s
      (react (run true {} ((program w hs).map .op ++ sigs.map .signal)) s)) ∧
    (s ∈ sigs → react (run true {} ((program w hs).map .op ++ sigs.map .signal)) s = .default) := by
  have runs : ∀ (p : Process) (l : List Op) (r : List Event), run true p (l.map .op ++ r) = run true (l.foldl exec p) r := by
    intro p l r
    induction l generalizing p with
    | nil => rfl
    | cons a l ih => exact ih _
  rw [runs, run_signals]
  have hf := inForce_program w hs {} none (inForce_start w)
  constructor
  · intro h
    have := inForce_react hf s
    unfold react at this ⊢
    simp only [h, if_false]
    exact this
  · intro h
    simp only [react, h, if_true]

example : react (run true {} ((program true [some 7]).map .op ++ [2, 2].map .signal)) 15 = .handled 7 15 ∧
    react (run true {} ((program true [some 7]).map .op ++ [2, 2].map .signal)) 2 = .default := by decide

example : react (run false {} ((setHandler false (some 7)).map .op)) 15 = .handled 7 15 ∧
    react (run false {} ((setHandler false (some 7)).map .op)) 1 = .default := by decide

end Verif.System.Signals
